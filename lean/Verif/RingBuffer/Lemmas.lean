import Verif.RingBuffer.Spec
import Verif.Integer.Lemmas
/-! Helper lemmas: representation invariant and one-step refinement. -/
namespace Verif.RingBuffer

structure Inv (r : Ring) : Prop where
  pow : ∃ k, 1 ≤ k ∧ k ≤ 31 ∧ r.size.toNat = 2 ^ k
  used : (r.inp - r.out).toNat ≤ r.size.toNat
  hlen : r.size.toNat ≤ r.buf.length

/-- unread bytes -/
def abs (r : Ring) : List Byte :=
  r.buf.cyc r.size.toNat r.out.toNat (availRead r).toNat

@[simp] theorem abs_length (r : Ring) : (abs r).length = (availRead r).toNat := by simp [abs]

theorem Inv.dvd {r : Ring} (h : Inv r) : r.size.toNat ∣ 2 ^ 32 := by
  obtain ⟨k, _, h2, e⟩ := h.pow
  rw [e]; exact Nat.pow_dvd_pow 2 (by omega)

theorem Inv.pos {r : Ring} (h : Inv r) : 2 ≤ r.size.toNat := by
  obtain ⟨k, h1, h2, e⟩ := h.pow
  rw [e]
  calc 2 = 2 ^ 1 := rfl
    _ ≤ 2 ^ k := Nat.pow_le_pow_right (by omega) h1

theorem Inv.le31 {r : Ring} (h : Inv r) : r.size.toNat ≤ 2 ^ 31 := by
  obtain ⟨k, h1, h2, e⟩ := h.pow
  rw [e]
  exact Nat.pow_le_pow_right (by omega) h2

theorem mask_eq {r : Ring} (h : Inv r) (x : BitVec 32) :
    (x &&& (r.size - 1#32)).toNat = x.toNat % r.size.toNat := by
  have hp := h.pos
  obtain ⟨k, h1, h2, e⟩ := h.pow
  have : (r.size - 1#32).toNat = 2 ^ k - 1 := by
    rw [BitVec.toNat_sub]; simp; omega
  rw [BitVec.toNat_and, this, Nat.and_two_pow_sub_one_eq_mod, e]

theorem takeMin_toNat (a b : BitVec 32) : (takeMin a b).toNat = min a.toNat b.toNat := by
  unfold takeMin
  split
  · next h => rw [BitVec.lt_def] at h; omega
  · next h => rw [BitVec.lt_def] at h; omega

theorem availWrite_toNat {r : Ring} (h : Inv r) :
    (availWrite r).toNat = r.size.toNat - (availRead r).toNat := by
  have := h.used
  unfold availWrite availRead
  rw [BitVec.toNat_sub]
  omega

/-- position arithmetic: reading counters modulo the ring size is insensitive to 32-bit wrap-around -/
theorem add_mod_size {r : Ring} (h : Inv r) (x y : BitVec 32) :
    (x + y).toNat % r.size.toNat = (x.toNat + y.toNat) % r.size.toNat := by
  rw [BitVec.toNat_add, Nat.mod_mod_of_dvd _ h.dvd]

theorem in_eq (r : Ring) : r.inp = r.out + availRead r := by
  unfold availRead
  apply BitVec.eq_of_toNat_eq
  rw [BitVec.toNat_add, BitVec.toNat_sub]; omega

theorem start_write {r : Ring} (h : Inv r) :
    (r.inp &&& (r.size - 1#32)).toNat = (r.out.toNat + (availRead r).toNat) % r.size.toNat := by
  rw [mask_eq h]
  conv => lhs; rw [in_eq r]
  rw [add_mod_size h]

theorem ofNat_min (a b : BitVec 32) : takeMin a b = BitVec.ofNat 32 (min a.toNat b.toNat) := by
  apply BitVec.eq_of_toNat_eq
  rw [takeMin_toNat, BitVec.toNat_ofNat, Nat.mod_eq_of_lt]
  omega

/-- Result of `RingBuffer_write` under the invariant. -/
theorem write_spec {r : Ring} (h : Inv r) (src : List Byte) (len : BitVec 32)
    (hsrc : len.toNat ≤ src.length) :
    ∃ r' n, write r (some src) len = some (r', n) ∧
      n.toNat = min len.toNat (r.size.toNat - (abs r).length) ∧
      Inv r' ∧ r'.size = r.size ∧ r'.out = r.out ∧ r'.inp = r.inp + n ∧
      r'.buf.length = r.buf.length ∧
      abs r' = abs r ++ src.take n.toNat := by
  have hW := availWrite_toNat h
  have hp := h.pos
  have h31 := h.le31
  have hU := h.used
  have hAe : (r.inp - r.out) = availRead r := rfl
  rw [hAe] at hU
  rw [abs_length]
  unfold write
  by_cases h0 : len = 0#32
  · simp only [h0, if_true]
    refine ⟨r, 0#32, rfl, by simp, h, rfl, rfl, by simp, rfl, by simp⟩
  · have h0' : len.toNat ≠ 0 := by
      intro hh; apply h0; apply BitVec.eq_of_toNat_eq; simpa using hh
    simp only [if_neg h0]
    by_cases hs : availWrite r = 0#32
    · simp only [hs, if_true]
      rw [hs] at hW
      simp at hW
      refine ⟨r, 0#32, rfl, by simp; omega, h, rfl, rfl, by simp, rfl, by simp⟩
    · have hs' : (availWrite r).toNat ≠ 0 := by
        intro hh; apply hs; apply BitVec.eq_of_toNat_eq; simpa using hh
      simp only [if_neg hs]
      have hn : (takeMin len (availWrite r)).toNat = min len.toNat (r.size.toNat - (availRead r).toNat) := by
        rw [takeMin_toNat, hW]
      generalize hng : takeMin len (availWrite r) = n at *
      have hst := start_write h
      generalize r.inp &&& (r.size - 1#32) = start at *
      have hlt : start.toNat < r.size.toNat := by rw [hst]; exact Nat.mod_lt _ (by omega)
      have hfm : (r.size - start).toNat = r.size.toNat - start.toNat := by
        rw [BitVec.toNat_sub]; omega
      have hf : (takeMin n (r.size - start)).toNat = min n.toNat (r.size.toNat - start.toNat) := by
        rw [takeMin_toNat, hfm]
      have hrest : (n - takeMin n (r.size - start)).toNat = n.toNat - min n.toNat (r.size.toNat - start.toNat) := by
        rw [BitVec.toNat_sub, hf]; omega
      rw [hf, hrest]
      have hl : (src.take n.toNat).length = n.toNat := by simp; omega
      obtain ⟨m', e, hml, hcyc⟩ := Mem.store2_cyc r.buf r.size.toNat r.out.toNat (availRead r).toNat
        (src.take n.toNat) h.hlen (by omega) (by omega)
      rw [← hst] at e
      unfold Mem.store2 at e
      simp only [hl] at e
      rw [hl] at hcyc
      generalize hfg : min n.toNat (r.size.toNat - start.toNat) = f at *
      have e1 : copyIn r.buf start.toNat src 0 f = r.buf.store start.toNat ((src.take n.toNat).take f) := by
        unfold copyIn
        split
        · rw [Mem.load_eq_some (by omega)]
          simp only [Option.bind_some, List.drop_zero, List.take_take]
          congr 2; omega
        · next hz =>
          have : f = 0 := by omega
          subst this
          rw [Mem.store_eq_some (by simp; have := h.hlen; omega)]
          simp
      have e2 : ∀ m : Mem, copyIn m 0 src f (n.toNat - f) = m.store 0 ((src.take n.toNat).drop f) := by
        intro m
        unfold copyIn
        split
        · rw [Mem.load_eq_some (by omega)]
          simp only [Option.bind_some]
          rw [List.drop_take]
        · next hz =>
          have : (src.take n.toNat).drop f = [] := by simp; omega
          rw [this, Mem.store_eq_some (by simp)]
          simp
      rw [e1]
      simp only [e2]
      simp only [Option.bind_eq_bind] at e ⊢
      cases hm1 : r.buf.store start.toNat ((src.take n.toNat).take f) with
      | none => rw [hm1] at e; simp at e
      | some m1 =>
        rw [hm1] at e
        simp only [Option.bind_some] at e ⊢
        rw [e]
        simp only [Option.bind_some, Option.pure_def]
        have hav : (r.inp + n - r.out).toNat = (availRead r).toNat + n.toNat := by
          have : (r.inp + n - r.out) = availRead r + n := by
            unfold availRead
            apply BitVec.eq_of_toNat_eq
            simp only [BitVec.toNat_add, BitVec.toNat_sub]; omega
          rw [this, BitVec.toNat_add]; omega
        refine ⟨_, n, rfl, hn, ⟨h.pow, ?_, ?_⟩, rfl, rfl, rfl, hml, ?_⟩
        · simp only [hav]; omega
        · simp only [hml]; exact h.hlen
        · unfold abs
          have : availRead { r with inp := r.inp + n, buf := m' } = r.inp + n - r.out := rfl
          rw [this, hav]
          exact hcyc

/-- Result of `RingBuffer_read_internal` under the invariant. -/
theorem readInternal_spec {r : Ring} (h : Inv r) (t : Bool) (len : BitVec 32) (pk : Bool) :
    ∃ n, n.toNat = min len.toNat (abs r).length ∧
      readInternal r t len pk = some (if pk then r else { r with out := r.out + n }, n,
        if t then (abs r).take n.toNat else []) := by
  have hp := h.pos
  have h31 := h.le31
  have hU := h.used
  have hAe : (r.inp - r.out) = availRead r := rfl
  rw [hAe] at hU
  rw [abs_length]
  unfold readInternal
  by_cases h0 : len = 0#32
  · refine ⟨0#32, by simp [h0], ?_⟩
    simp only [h0, if_true]
    cases pk <;> simp
  · have h0' : len.toNat ≠ 0 := by
      intro hh; apply h0; apply BitVec.eq_of_toNat_eq; simpa using hh
    simp only [if_neg h0]
    by_cases hs : availRead r = 0#32
    · refine ⟨0#32, by simp [hs], ?_⟩
      simp only [hs, if_true]
      cases pk <;> simp
    · have hs' : (availRead r).toNat ≠ 0 := by
        intro hh; apply hs; apply BitVec.eq_of_toNat_eq; simpa using hh
      simp only [if_neg hs]
      have hn : (takeMin len (availRead r)).toNat = min len.toNat (availRead r).toNat := takeMin_toNat _ _
      generalize takeMin len (availRead r) = n at *
      refine ⟨n, hn, ?_⟩
      cases t with
      | false => simp
      | true =>
        simp only [if_true]
        have hst := mask_eq h r.out
        generalize r.out &&& (r.size - 1#32) = start at *
        have hlt : start.toNat < r.size.toNat := by rw [hst]; exact Nat.mod_lt _ (by omega)
        have hfm : (r.size - start).toNat = r.size.toNat - start.toNat := by
          rw [BitVec.toNat_sub]; omega
        have hf : (takeMin n (r.size - start)).toNat = min n.toNat (r.size.toNat - start.toNat) := by
          rw [takeMin_toNat, hfm]
        have hrest : (n - takeMin n (r.size - start)).toNat = n.toNat - min n.toNat (r.size.toNat - start.toNat) := by
          rw [BitVec.toNat_sub, hf]; omega
        rw [hf, hrest]
        have hload := Mem.load2_eq r.buf r.size.toNat start.toNat n.toNat h.hlen hlt (by omega)
        have htake : (abs r).take n.toNat = r.buf.cyc r.size.toNat start.toNat n.toNat := by
          unfold abs; rw [Mem.cyc_take _ _ _ _ _ (by omega), hst, Mem.cyc_mod]
        have hco : ∀ off k, off ≤ r.buf.length → copyOut r.buf off k = r.buf.load off k := by
          intro off k hoff
          unfold copyOut
          split
          · rfl
          · next hk =>
            have : k = 0 := by omega
            subst this
            rw [Mem.load_eq_some (by omega)]; simp
        have hl := h.hlen
        rw [hco _ _ (by omega), hco _ _ (by omega)]
        unfold Mem.load2 at hload
        simp only [Option.bind_eq_bind, Option.pure_def] at hload ⊢
        generalize min n.toNat (r.size.toNat - start.toNat) = f at *
        cases ha : r.buf.load start.toNat f with
        | none => rw [ha] at hload; simp at hload
        | some a =>
          rw [ha] at hload
          simp only [Option.bind_some] at hload ⊢
          cases hb : r.buf.load 0 (n.toNat - f) with
          | none => rw [hb] at hload; simp at hload
          | some b =>
            rw [hb] at hload
            simp only [Option.bind_some, Option.some.injEq] at hload ⊢
            rw [htake, ← hload]

/-- advancing the read counter drops bytes from the front -/
theorem advance {r : Ring} (h : Inv r) (n : BitVec 32) (hn : n.toNat ≤ (abs r).length) :
    Inv { r with out := r.out + n } ∧ abs { r with out := r.out + n } = (abs r).drop n.toNat := by
  have hU := h.used
  have hAe : (r.inp - r.out) = availRead r := rfl
  rw [hAe] at hU
  rw [abs_length] at hn
  have hav : (r.inp - (r.out + n)).toNat = (availRead r).toNat - n.toNat := by
    have : r.inp - (r.out + n) = availRead r - n := by
      unfold availRead
      apply BitVec.eq_of_toNat_eq
      simp only [BitVec.toNat_add, BitVec.toNat_sub]; omega
    rw [this, BitVec.toNat_sub]; omega
  refine ⟨⟨h.pow, ?_, h.hlen⟩, ?_⟩
  · simp only [hav]; omega
  · unfold abs
    have : availRead { r with out := r.out + n } = r.inp - (r.out + n) := rfl
    rw [this, hav, Mem.cyc_drop _ _ _ _ _ hn]
    simp only []
    rw [← Mem.cyc_mod, add_mod_size h, Mem.cyc_mod]

theorem clear_spec {r : Ring} (h : Inv r) : Inv (clear r) ∧ abs (clear r) = [] := by
  refine ⟨⟨h.pow, by simp [clear], h.hlen⟩, ?_⟩
  simp [abs, clear, availRead, Mem.cyc]

theorem step_refines {r : Ring} (h : Inv r) (o : Op) (hv : Spec.Valid o) :
    ∃ r', step r o = some (r', (Spec.step r.size.toNat (abs r) o).2) ∧ Inv r' ∧ r'.size = r.size ∧
      abs r' = (Spec.step r.size.toNat (abs r) o).1 := by
  have hW := availWrite_toNat h
  have hU := h.used
  have hAe : (r.inp - r.out) = availRead r := rfl
  rw [hAe] at hU
  cases o with
  | write src len =>
    cases src with
    | none => exact ⟨r, rfl, h, rfl, rfl⟩
    | some src =>
      obtain ⟨r', n, e, hn, i, es, _, _, _, ea⟩ := write_spec h src len hv
      refine ⟨r', ?_, i, es, ?_⟩
      · simp only [step, e, Spec.step, Option.map_some, hn]
      · rw [ea, hn]; rfl
  | read t len =>
    cases t with
    | false => exact ⟨r, rfl, h, rfl, rfl⟩
    | true =>
      obtain ⟨n, hn, e⟩ := readInternal_spec h true len false
      obtain ⟨i, ea⟩ := advance h n (by omega)
      simp only [step, read, e, Spec.step, if_true, Option.map_some, Bool.false_eq_true, if_false, hn]
      refine ⟨_, rfl, i, rfl, ?_⟩
      rw [ea, hn]
  | peek t len =>
    obtain ⟨n, hn, e⟩ := readInternal_spec h t len true
    simp only [step, peek, e, Spec.step, if_true, Option.map_some, hn]
    exact ⟨_, rfl, h, rfl, rfl⟩
  | discard len =>
    obtain ⟨n, hn, e⟩ := readInternal_spec h false len false
    obtain ⟨i, ea⟩ := advance h n (by omega)
    simp only [step, discard, e, Spec.step, Option.map_some, Bool.false_eq_true, if_false, hn]
    refine ⟨_, rfl, i, rfl, ?_⟩
    rw [ea, hn]
  | clear =>
    obtain ⟨i, e⟩ := clear_spec h
    exact ⟨_, rfl, i, rfl, e⟩
  | availRead => exact ⟨r, by simp [step, Spec.step], h, rfl, rfl⟩
  | availWrite => exact ⟨r, by simp [step, Spec.step, hW], h, rfl, rfl⟩
  | isEmpty =>
    refine ⟨r, ?_, h, rfl, rfl⟩
    simp only [step, Spec.step, isEmpty]
    by_cases hz : abs r = []
    · have : (availRead r).toNat = 0 := by rw [← abs_length, hz]; rfl
      have : availRead r = 0#32 := BitVec.eq_of_toNat_eq (by simpa using this)
      simp [this, hz]
    · have : (0#32 == availRead r) = false := by
        rw [beq_eq_false_iff_ne]; intro hc; apply hz
        apply List.eq_nil_of_length_eq_zero; rw [abs_length, ← hc]; rfl
      simp [this, hz]
  | isFull =>
    refine ⟨r, ?_, h, rfl, rfl⟩
    simp only [step, Spec.step, isFull, abs_length]
    by_cases hz : (availRead r).toNat = r.size.toNat
    · have : availWrite r = 0#32 := BitVec.eq_of_toNat_eq (by rw [hW, hz]; simp)
      simp [this, hz]
    · have : (0#32 == availWrite r) = false := by
        rw [beq_eq_false_iff_ne]; intro hc
        rw [← hc] at hW; simp at hW; omega
      simp [this, hz]

/-! ### sizes -/

theorem isPow2_eq (n : BitVec 32) : isPow2 n = Integer.isPowerOfTwo n := rfl

theorem shiftCount_eq (x : BitVec 32) : shiftCount x = x.toNat.log2 := by
  fun_induction shiftCount x with
  | case1 x h =>
    have := congrArg BitVec.toNat h
    rw [BitVec.toNat_ushiftRight, Nat.shiftRight_eq_div_pow] at this
    simp at this
    have h2 : x.toNat = 0 ∨ x.toNat = 1 := by omega
    rcases h2 with h2 | h2 <;> rw [h2] <;> decide
  | case2 x h ih =>
    rw [ih, BitVec.toNat_ushiftRight, Nat.shiftRight_eq_div_pow]
    have : ¬ x.toNat < 2 := by
      intro hx; apply h; apply BitVec.eq_of_toNat_eq
      rw [BitVec.toNat_ushiftRight, Nat.shiftRight_eq_div_pow]; simp; omega
    conv => rhs; rw [Nat.log2_def]
    rw [if_pos (by omega)]

end Verif.RingBuffer
