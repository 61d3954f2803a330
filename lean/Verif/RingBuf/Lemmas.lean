import Verif.RingBuf.Spec
/-! Helper lemmas: representation invariant and one-step refinement. -/
namespace Verif.RingBuf

structure Inv (r : Ring) : Prop where
  pos : 0 < r.size.toNat
  small : r.size.toNat ≤ 2 ^ 63
  hr : r.offRead.toNat < r.size.toNat
  hw : r.offWrite.toNat < r.size.toNat
  hlen : r.size.toNat ≤ r.pbuf.length

/-- unread bytes -/
def abs (r : Ring) : List Byte :=
  r.pbuf.cyc r.size.toNat r.offRead.toNat (availRead r).toNat

theorem availRead_toNat {r : Ring} (h : Inv r) :
    (availRead r).toNat = if r.offRead.toNat ≤ r.offWrite.toNat then r.offWrite.toNat - r.offRead.toNat
      else r.size.toNat + r.offWrite.toNat - r.offRead.toNat := by
  obtain ⟨h0, h1, h2, h3, _⟩ := h
  unfold availRead
  rw [BitVec.toNat_umod, BitVec.toNat_sub, BitVec.toNat_add]
  have e : (2 ^ 64 - r.offRead.toNat + (r.size.toNat + r.offWrite.toNat) % 2 ^ 64) % 2 ^ 64
      = r.size.toNat + r.offWrite.toNat - r.offRead.toNat := by omega
  rw [e]
  split
  · rw [Nat.mod_eq_sub_mod (by omega), Nat.mod_eq_of_lt (by omega)]; omega
  · rw [Nat.mod_eq_of_lt (by omega)]

theorem availWrite_toNat {r : Ring} (h : Inv r) :
    (availWrite r).toNat = if r.offRead.toNat ≤ r.offWrite.toNat
      then r.size.toNat + r.offRead.toNat - r.offWrite.toNat - 1
      else r.offRead.toNat - r.offWrite.toNat - 1 := by
  obtain ⟨h0, h1, h2, h3, _⟩ := h
  unfold availWrite
  rw [BitVec.toNat_umod, BitVec.toNat_sub, BitVec.toNat_sub, BitVec.toNat_add]
  have e1 : (1#64).toNat = 1 := rfl
  rw [e1]
  have e : (2 ^ 64 - 1 + (2 ^ 64 - r.offWrite.toNat + (r.size.toNat + r.offRead.toNat) % 2 ^ 64) % 2 ^ 64) % 2 ^ 64
      = r.size.toNat + r.offRead.toNat - r.offWrite.toNat - 1 := by omega
  rw [e]
  split
  · rw [Nat.mod_eq_of_lt (by omega)]
  · rw [Nat.mod_eq_sub_mod (by omega), Nat.mod_eq_of_lt (by omega)]; omega

theorem avail_sum {r : Ring} (h : Inv r) :
    (availRead r).toNat + (availWrite r).toNat = r.size.toNat - 1 := by
  rw [availRead_toNat h, availWrite_toNat h]
  obtain ⟨h0, h1, h2, h3, _⟩ := h
  split <;> omega

theorem abs_length (r : Ring) : (abs r).length = (availRead r).toNat := by simp [abs]

theorem takeMin_toNat (a b : BitVec 64) : (takeMin a b).toNat = min a.toNat b.toNat := by
  unfold takeMin
  split
  · next h => rw [BitVec.lt_def] at h; omega
  · next h => rw [BitVec.lt_def] at h; omega

theorem end_eq {r : Ring} (h : Inv r) :
    (r.offRead.toNat + (availRead r).toNat) % r.size.toNat = r.offWrite.toNat := by
  rw [availRead_toNat h]
  obtain ⟨h0, h1, h2, h3, _⟩ := h
  split
  · rw [Nat.mod_eq_of_lt (by omega)]; omega
  · rw [Nat.mod_eq_sub_mod (by omega), Nat.mod_eq_of_lt (by omega)]; omega

/-- Result of `internal_ring_buf_read` under the invariant. -/
theorem readInternal_eq {r : Ring} (h : Inv r) (pk t : Bool) (len : BitVec 64) :
    readInternal r pk t len =
      if len.toNat = 0 ∨ (abs r).length < len.toNat then some (r, 0#64, [])
      else some (if pk then r else
          { r with offRead := BitVec.ofNat 64 ((r.offRead.toNat + len.toNat) % r.size.toNat) },
        len, if t then (abs r).take len.toNat else []) := by
  have hA := abs_length r
  have hAs := avail_sum h
  have hiff : (len = 0#64 ∨ availRead r < len) ↔ (len.toNat = 0 ∨ (abs r).length < len.toNat) := by
    rw [hA, BitVec.lt_def, ← BitVec.toNat_inj]; simp
  have h' := h
  obtain ⟨h0, h1, h2, h3, h4⟩ := h'
  unfold readInternal
  by_cases hc : len.toNat = 0 ∨ (abs r).length < len.toNat
  · rw [if_pos (hiff.2 hc), if_pos hc]; rfl
  · rw [if_neg (fun hh => hc (hiff.1 hh)), if_neg hc]
    have hl : len.toNat ≤ (availRead r).toNat := by omega
    have htake : (abs r).take len.toNat = r.pbuf.cyc r.size.toNat r.offRead.toNat len.toNat := by
      unfold abs; rw [Mem.cyc_take _ _ _ _ _ hl]
    have hload := Mem.load2_eq r.pbuf r.size.toNat r.offRead.toNat len.toNat h4 h2 (by omega)
    have hfm : (r.size - r.offRead).toNat = r.size.toNat - r.offRead.toNat := by
      rw [BitVec.toNat_sub]; omega
    have hfirst : (takeMin len (r.size - r.offRead)).toNat
        = min len.toNat (r.size.toNat - r.offRead.toNat) := by rw [takeMin_toNat, hfm]
    have hsec : (len - takeMin len (r.size - r.offRead)).toNat
        = len.toNat - min len.toNat (r.size.toNat - r.offRead.toNat) := by
      rw [BitVec.toNat_sub, hfirst]; have := len.isLt; omega
    have hl2 : r.pbuf.load2 r.size.toNat r.offRead.toNat len.toNat = some ((abs r).take len.toNat) := by
      rw [hload, htake]
    unfold Mem.load2 at hl2
    simp only [] at hl2
    simp only []
    rw [hfirst, hsec]
    generalize hf : min len.toNat (r.size.toNat - r.offRead.toNat) = f at *
    -- the two loads succeed
    have la : ∃ a, r.pbuf.load r.offRead.toNat f = some a := by
      rw [Mem.load_eq_some (by omega)]; exact ⟨_, rfl⟩
    have lb : ∃ b, r.pbuf.load 0 (len.toNat - f) = some b := by
      rw [Mem.load_eq_some (by omega)]; exact ⟨_, rfl⟩
    obtain ⟨a, ea⟩ := la
    obtain ⟨b, eb⟩ := lb
    rw [ea, eb] at hl2
    simp at hl2
    have hoff : ∀ x : BitVec 64, x.toNat = (r.offRead.toNat + len.toNat) % r.size.toNat →
        x = BitVec.ofNat 64 ((r.offRead.toNat + len.toNat) % r.size.toNat) := by
      intro x hx
      apply BitVec.eq_of_toNat_eq
      rw [BitVec.toNat_ofNat, ← hx, Nat.mod_eq_of_lt x.isLt]
    by_cases hs : len.toNat - f = 0
    · have hne : ¬ (len - takeMin len (r.size - r.offRead) ≠ 0#64) := by
        intro hh; apply hh; apply BitVec.eq_of_toNat_eq; rw [hsec]; simpa using hs
      simp only [if_neg hne]
      have hb : b = [] := by
        rw [Mem.load_eq_some (by omega)] at eb
        simp [hs] at eb; exact eb
      subst hb
      have hnew : (if r.offRead + takeMin len (r.size - r.offRead) = r.size then 0#64
          else r.offRead + takeMin len (r.size - r.offRead))
          = BitVec.ofNat 64 ((r.offRead.toNat + len.toNat) % r.size.toNat) := by
        apply hoff
        have e1 : (r.offRead + takeMin len (r.size - r.offRead)).toNat = r.offRead.toNat + f := by
          rw [BitVec.toNat_add, hfirst]; omega
        by_cases hh : r.offRead + takeMin len (r.size - r.offRead) = r.size
        · rw [if_pos hh]
          have := congrArg BitVec.toNat hh
          rw [e1] at this
          rw [show r.offRead.toNat + len.toNat = r.size.toNat by omega]; simp
        · rw [if_neg hh, e1]
          have : r.offRead.toNat + f ≠ r.size.toNat := by
            intro h5; apply hh; apply BitVec.eq_of_toNat_eq; rw [e1, h5]
          rw [Nat.mod_eq_of_lt (by omega)]; omega
      rw [hnew]
      cases t <;> simp [copyOut, ea, ← hl2]
    · have hne : (len - takeMin len (r.size - r.offRead) ≠ 0#64) := by
        intro hh; apply hs; rw [← hsec, hh]; rfl
      simp only [if_pos hne]
      have hnew : len - takeMin len (r.size - r.offRead)
          = BitVec.ofNat 64 ((r.offRead.toNat + len.toNat) % r.size.toNat) := by
        apply hoff
        rw [hsec, Nat.mod_eq_sub_mod (by omega), Nat.mod_eq_of_lt (by omega)]; omega
      rw [hnew]
      cases t <;> simp [copyOut, ea, eb, ← hl2]

theorem read_state {r : Ring} (h : Inv r) (len : BitVec 64) (hl : len.toNat ≤ (abs r).length) :
    Inv { r with offRead := BitVec.ofNat 64 ((r.offRead.toNat + len.toNat) % r.size.toNat) } ∧
    abs { r with offRead := BitVec.ofNat 64 ((r.offRead.toNat + len.toNat) % r.size.toNat) }
      = (abs r).drop len.toNat := by
  have hA := abs_length r
  have hAs := avail_sum h
  have hE := end_eq h
  have hR := availRead_toNat h
  have h' := h
  obtain ⟨h0, h1, h2, h3, h4⟩ := h'
  have hm : (r.offRead.toNat + len.toNat) % r.size.toNat < r.size.toNat := Nat.mod_lt _ h0
  have ho : (BitVec.ofNat 64 ((r.offRead.toNat + len.toNat) % r.size.toNat)).toNat
      = (r.offRead.toNat + len.toNat) % r.size.toNat := by
    rw [BitVec.toNat_ofNat, Nat.mod_eq_of_lt (by omega)]
  have hI : Inv { r with offRead := BitVec.ofNat 64 ((r.offRead.toNat + len.toNat) % r.size.toNat) } :=
    ⟨h0, h1, by simpa only [ho] using hm, h3, h4⟩
  refine ⟨hI, ?_⟩
  have hR' := availRead_toNat hI
  simp only [ho] at hR'
  unfold abs
  rw [Mem.cyc_drop _ _ _ _ _ (by omega)]
  simp only [ho]
  rw [Mem.cyc_mod]
  congr 1
  rw [hR']
  by_cases hh : r.offRead.toNat + len.toNat < r.size.toNat
  · rw [Nat.mod_eq_of_lt hh]
    split at hR <;> split <;> omega
  · have : (r.offRead.toNat + len.toNat) % r.size.toNat = r.offRead.toNat + len.toNat - r.size.toNat := by
      rw [Nat.mod_eq_sub_mod (by omega), Nat.mod_eq_of_lt (by omega)]
    rw [this]
    split at hR <;> split <;> omega

theorem write_spec {r : Ring} (h : Inv r) (src : List Byte) (len : BitVec 64)
    (hsrc : len.toNat ≤ src.length) :
    ∃ r', write r src len =
        some (r', if len.toNat = 0 ∨ (availWrite r).toNat < len.toNat then 0#64 else len) ∧
      Inv r' ∧ r'.size = r.size ∧
      abs r' = if len.toNat = 0 ∨ (availWrite r).toNat < len.toNat then abs r
        else abs r ++ src.take len.toNat := by
  have hAs := avail_sum h
  have hE := end_eq h
  have hR := availRead_toNat h
  have hiff : (0#64 = len ∨ availWrite r < len) ↔ (len.toNat = 0 ∨ (availWrite r).toNat < len.toNat) := by
    rw [BitVec.lt_def, ← BitVec.toNat_inj]; simp [eq_comm]
  have h' := h
  obtain ⟨h0, h1, h2, h3, h4⟩ := h'
  unfold write
  by_cases hc : len.toNat = 0 ∨ (availWrite r).toNat < len.toNat
  · rw [if_pos (hiff.2 hc), if_pos hc, if_pos hc]; exact ⟨r, rfl, h, rfl, rfl⟩
  · rw [if_neg (fun hh => hc (hiff.1 hh)), if_neg hc, if_neg hc]
    have hlt : (src.take len.toNat).length = len.toNat := by simp; omega
    obtain ⟨m', e, hl, hcyc⟩ := Mem.store2_cyc r.pbuf r.size.toNat r.offRead.toNat (availRead r).toNat
      (src.take len.toNat) h4 h0 (by omega)
    rw [hE] at e
    rw [hlt] at hcyc
    have hfm : (r.size - r.offWrite).toNat = r.size.toNat - r.offWrite.toNat := by
      rw [BitVec.toNat_sub]; omega
    have hfirst : (takeMin len (r.size - r.offWrite)).toNat
        = min len.toNat (r.size.toNat - r.offWrite.toNat) := by rw [takeMin_toNat, hfm]
    have hsec : (len - takeMin len (r.size - r.offWrite)).toNat
        = len.toNat - min len.toNat (r.size.toNat - r.offWrite.toNat) := by
      rw [BitVec.toNat_sub, hfirst]; have := len.isLt; omega
    have hfne : takeMin len (r.size - r.offWrite) ≠ 0#64 := by
      intro hh; have := congrArg BitVec.toNat hh; rw [hfirst] at this; simp at this; omega
    -- any ring with the new memory and the right write offset is fine
    have fin : ∀ w : BitVec 64, w.toNat = (r.offWrite.toNat + len.toNat) % r.size.toNat →
        Inv { r with pbuf := m', offWrite := w } ∧
        abs { r with pbuf := m', offWrite := w } = abs r ++ src.take len.toNat := by
      intro w hw
      have hm : (r.offWrite.toNat + len.toNat) % r.size.toNat < r.size.toNat := Nat.mod_lt _ h0
      have hI : Inv { r with pbuf := m', offWrite := w } :=
        ⟨h0, h1, h2, by simp only [hw]; exact hm, by simp only [hl]; exact h4⟩
      refine ⟨hI, ?_⟩
      have hR' := availRead_toNat hI
      have : (availRead { r with pbuf := m', offWrite := w }).toNat = (availRead r).toNat + len.toNat := by
        rw [hR']; simp only [hw]
        have hW := availWrite_toNat h
        by_cases hh : r.offWrite.toNat + len.toNat < r.size.toNat
        · rw [Nat.mod_eq_of_lt hh]
          split at hR <;> split at hW <;> split <;> omega
        · have : (r.offWrite.toNat + len.toNat) % r.size.toNat = r.offWrite.toNat + len.toNat - r.size.toNat := by
            rw [Nat.mod_eq_sub_mod (by omega), Nat.mod_eq_of_lt (by omega)]
          rw [this]
          split at hR <;> split at hW <;> split <;> omega
      unfold abs
      rw [this]
      exact hcyc
    unfold Mem.store2 at e
    simp only [hlt] at e
    have hfne' : min len.toNat (r.size.toNat - r.offWrite.toNat) ≠ 0 := by
      rw [← hfirst]; intro hh; apply hfne; apply BitVec.eq_of_toNat_eq; simpa using hh
    simp only [copyIn]
    rw [hfirst, hsec]
    simp only [if_pos hfne']
    generalize hf : min len.toNat (r.size.toNat - r.offWrite.toNat) = f at *
    have e1 : Mem.load src 0 f = some ((src.take len.toNat).take f) := by
      rw [Mem.load_eq_some (by omega)]; simp [List.take_take]; omega
    have e2 : Mem.load src f (len.toNat - f) = some ((src.take len.toNat).drop f) := by
      rw [Mem.load_eq_some (by omega)]; simp [List.drop_take]
    rw [e1, e2]
    obtain ⟨m1, em1⟩ : ∃ m1, r.pbuf.store r.offWrite.toNat ((src.take len.toNat).take f) = some m1 := by
      rw [Mem.store_eq_some (by simp; omega)]; exact ⟨_, rfl⟩
    rw [em1] at e
    simp only [Option.bind_eq_bind, Option.bind_some] at e ⊢
    rw [em1]
    simp only [Option.bind_some]
    by_cases hs : len.toNat - f = 0
    · have hz : 0#64 = len - takeMin len (r.size - r.offWrite) := by
        apply BitVec.eq_of_toNat_eq; rw [hsec]; simpa using hs.symm
      rw [if_pos hz]
      have hm1 : m' = m1 := by
        have hd : (src.take len.toNat).drop f = [] := by simp; omega
        rw [hd, Mem.store_eq_some (by simp)] at e
        simpa using e.symm
      subst hm1
      refine ⟨_, rfl, ?_⟩
      obtain ⟨i1, i2⟩ := fin (if r.offWrite + takeMin len (r.size - r.offWrite) = r.size then 0#64
          else r.offWrite + takeMin len (r.size - r.offWrite)) (by
        have e1 : (r.offWrite + takeMin len (r.size - r.offWrite)).toNat = r.offWrite.toNat + f := by
          rw [BitVec.toNat_add, hfirst]; omega
        by_cases hh : r.offWrite + takeMin len (r.size - r.offWrite) = r.size
        · rw [if_pos hh]
          have := congrArg BitVec.toNat hh
          rw [e1] at this
          rw [show r.offWrite.toNat + len.toNat = r.size.toNat by omega]; simp
        · rw [if_neg hh, e1]
          have : r.offWrite.toNat + f ≠ r.size.toNat := by
            intro h5; apply hh; apply BitVec.eq_of_toNat_eq; rw [e1, h5]
          rw [Nat.mod_eq_of_lt (by omega)]; omega)
      exact ⟨i1, rfl, i2⟩
    · have hz : ¬ 0#64 = len - takeMin len (r.size - r.offWrite) := by
        intro hh; apply hs; rw [← hsec, ← hh]; rfl
      rw [if_neg hz, e]
      simp only [Option.bind_some]
      refine ⟨_, rfl, ?_⟩
      obtain ⟨i1, i2⟩ := fin (len - takeMin len (r.size - r.offWrite)) (by
        rw [hsec, Nat.mod_eq_sub_mod (by omega), Nat.mod_eq_of_lt (by omega)]; omega)
      exact ⟨i1, rfl, i2⟩

theorem step_refines {r : Ring} (h : Inv r) (o : Op) (hv : Spec.Valid o) :
    ∃ r', step r o = some (r', (Spec.step (r.size.toNat - 1) (abs r) o).2) ∧ Inv r' ∧ r'.size = r.size ∧
      abs r' = (Spec.step (r.size.toNat - 1) (abs r) o).1 := by
  have hAs := avail_sum h
  have hA := abs_length r
  cases o with
  | write src len =>
    obtain ⟨r', e, i, es, ea⟩ := write_spec h src len hv
    have haw : (availWrite r).toNat = r.size.toNat - 1 - (abs r).length := by omega
    rw [haw] at e ea
    refine ⟨r', ?_, i, es, ?_⟩
    · simp only [step, e, Spec.step]
      by_cases hc : len.toNat = 0 ∨ r.size.toNat - 1 - (abs r).length < len.toNat
      · simp [hc]
      · simp [hc]
    · rw [ea]; simp only [Spec.step]
      split <;> rfl
  | read t len =>
    simp only [step, read, readInternal_eq h, Spec.step]
    by_cases hc : len.toNat = 0 ∨ (abs r).length < len.toNat
    · simp [hc, h]
    · simp only [if_neg hc, Bool.false_eq_true, if_false, Option.map_some]
      obtain ⟨i, ea⟩ := read_state h len (by omega)
      exact ⟨_, rfl, i, rfl, ea⟩
  | peek t len =>
    simp only [step, peek, readInternal_eq h, Spec.step]
    by_cases hc : len.toNat = 0 ∨ (abs r).length < len.toNat
    · simp [hc, h]
    · simp only [if_neg hc, Option.map_some]
      exact ⟨_, rfl, h, rfl, rfl⟩
  | discard len =>
    simp only [step, discard, readInternal_eq h, Spec.step]
    by_cases hc : len.toNat = 0 ∨ (abs r).length < len.toNat
    · simp [hc, h]
    · simp only [if_neg hc, Bool.false_eq_true, if_false, Option.map_some]
      obtain ⟨i, ea⟩ := read_state h len (by omega)
      exact ⟨_, rfl, i, rfl, ea⟩
  | clear =>
    have hI : Inv (clear r) := ⟨h.pos, h.small, h.pos, h.pos, h.hlen⟩
    refine ⟨_, rfl, hI, rfl, ?_⟩
    have := availRead_toNat hI
    simp [clear] at this
    simp [Spec.step, abs, clear, this, Mem.cyc]
  | availRead => exact ⟨r, by simp [step, Spec.step, hA], h, rfl, rfl⟩
  | availWrite =>
    refine ⟨r, ?_, h, rfl, rfl⟩
    simp [step, Spec.step]; omega

end Verif.RingBuf
