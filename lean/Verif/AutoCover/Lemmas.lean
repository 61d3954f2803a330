import Verif.AutoCover.Spec
import Verif.RingBuffer.Props
/-! Helper lemmas. -/
namespace Verif.AutoCover
open RingBuffer (Ring)

/-- distance, modulo the ring size, from the oldest held byte to `pos` -/
def dist (r : Ring) (pos : BitVec 32) : Nat :=
  (pos.toNat % r.size.toNat + r.size.toNat - r.out.toNat % r.size.toNat) % r.size.toNat

/-- Full characterisation of `canRead` for every position, live or stale. -/
theorem canRead_eq {r : Ring} (h : RingBuffer.Inv r) (hs : r.size.toNat ≤ 2 ^ 30) (pos : BitVec 32) :
    canRead r pos =
      if dist r pos < (RingBuffer.availRead r).toNat then
        (((RingBuffer.availRead r).toNat - dist r pos : Nat) : Int)
      else if dist r pos = (RingBuffer.availRead r).toNat ∧
          r.size.toNat ≤ r.out.toNat % r.size.toNat + (RingBuffer.availRead r).toNat then 0
      else errCovered := by
  have hp := h.pos
  have hU : (RingBuffer.availRead r).toNat ≤ r.size.toNat := h.used
  have hcov := RingBuffer.mask_eq h pos
  have hro := RingBuffer.mask_eq h r.out
  have hwo : (r.inp &&& (r.size - 1#32)).toNat
      = (r.out.toNat % r.size.toNat + (RingBuffer.availRead r).toNat) % r.size.toNat := by
    rw [RingBuffer.start_write h, Nat.mod_add_mod]
  have b1 : pos.toNat % r.size.toNat < r.size.toNat := Nat.mod_lt _ (by omega)
  have b2 : r.out.toNat % r.size.toNat < r.size.toNat := Nat.mod_lt _ (by omega)
  have hd : dist r pos = if r.out.toNat % r.size.toNat ≤ pos.toNat % r.size.toNat
      then pos.toNat % r.size.toNat - r.out.toNat % r.size.toNat
      else pos.toNat % r.size.toNat + r.size.toNat - r.out.toNat % r.size.toNat := by
    unfold dist
    split
    · rw [Nat.mod_eq_sub_mod (by omega), Nat.mod_eq_of_lt (by omega)]; omega
    · rw [Nat.mod_eq_of_lt (by omega)]
  have hw2 : (r.out.toNat % r.size.toNat + (RingBuffer.availRead r).toNat) % r.size.toNat =
      if r.out.toNat % r.size.toNat + (RingBuffer.availRead r).toNat < r.size.toNat
      then r.out.toNat % r.size.toNat + (RingBuffer.availRead r).toNat
      else r.out.toNat % r.size.toNat + (RingBuffer.availRead r).toNat - r.size.toNat := by
    split
    · rw [Nat.mod_eq_of_lt (by omega)]
    · rw [Nat.mod_eq_sub_mod (by omega), Nat.mod_eq_of_lt (by omega)]
  rw [hw2] at hwo
  unfold canRead
  simp only []
  generalize RingBuffer.availRead r = A at *
  generalize pos &&& (r.size - 1#32) = C at *
  generalize r.out &&& (r.size - 1#32) = R at *
  generalize r.inp &&& (r.size - 1#32) = W at *
  rw [← hcov, ← hro] at hd
  rw [← hro] at hwo b2 ⊢
  rw [← hcov] at b1
  generalize dist r pos = d at *
  have hcond : (W - R = A) ↔ R.toNat + A.toNat < r.size.toNat := by
    rw [← BitVec.toNat_inj, BitVec.toNat_sub]
    constructor
    · intro he
      split at hwo
      · assumption
      · omega
    · intro hlt
      rw [if_pos hlt] at hwo
      omega
  have hint : ∀ x : BitVec 32, x.toNat ≤ 2 ^ 30 → x.toInt = (x.toNat : Int) := by
    intro x hx; rw [BitVec.toInt_eq_toNat_of_lt (by omega)]
  by_cases hu : R.toNat + A.toNat < r.size.toNat
  · rw [if_pos hu] at hwo
    rw [if_pos (hcond.2 hu)]
    by_cases hc : R ≤ C ∧ C < W
    · rw [if_pos hc]
      rw [BitVec.le_def, BitVec.lt_def] at hc
      rw [if_pos hc.1] at hd
      have e : (A - (C - R)).toNat = A.toNat - d := by
        rw [BitVec.toNat_sub, BitVec.toNat_sub]; omega
      rw [hint _ (by omega), e, if_pos (by omega)]
    · rw [if_neg hc]
      rw [BitVec.le_def, BitVec.lt_def] at hc
      rw [if_neg, if_neg (by omega)]
      intro hlt
      apply hc
      split at hd
      · omega
      · omega
  · rw [if_neg hu] at hwo
    rw [if_neg (fun he => hu (hcond.1 he))]
    by_cases hc : W < C ∧ C < R
    · rw [if_pos hc]
      rw [BitVec.lt_def, BitVec.lt_def] at hc
      rw [if_neg (by omega)] at hd
      rw [if_neg (by omega), if_neg (by omega)]
    · rw [if_neg hc]
      rw [BitVec.lt_def, BitVec.lt_def] at hc
      by_cases hrc : R ≤ C
      · rw [if_pos hrc]
        rw [BitVec.le_def] at hrc
        rw [if_pos hrc] at hd
        have e : (A - (C - R)).toNat = A.toNat - d := by
          rw [BitVec.toNat_sub, BitVec.toNat_sub]; omega
        rw [hint _ (by omega), e, if_pos (by omega)]
      · rw [if_neg hrc]
        rw [BitVec.le_def] at hrc
        rw [if_neg hrc] at hd
        have e : (W - C).toNat = A.toNat - d := by
          rw [BitVec.toNat_sub]; omega
        rw [hint _ (by omega), e]
        by_cases hlt : d < A.toNat
        · rw [if_pos hlt]
        · rw [if_neg hlt, if_pos (by omega)]
          omega

theorem canRead_le {r : Ring} (h : RingBuffer.Inv r) (hs : r.size.toNat ≤ 2 ^ 30) (pos : BitVec 32) :
    canRead r pos ≤ (RingBuffer.availRead r).toInt := by
  have hU : (RingBuffer.availRead r).toNat ≤ r.size.toNat := h.used
  rw [canRead_eq h hs, BitVec.toInt_eq_toNat_of_lt (by omega)]
  unfold errCovered
  split
  · omega
  · split <;> omega

/-- discarding `n` held bytes -/
theorem discard_spec {r : Ring} (h : RingBuffer.Inv r) (n : BitVec 32) (hn : n.toNat ≤ (RingBuffer.abs r).length) :
    (RingBuffer.discard r n).map (·.1) = some { r with out := r.out + n } := by
  obtain ⟨m, hm, e⟩ := RingBuffer.readInternal_spec h false n false
  have : m = n := BitVec.eq_of_toNat_eq (by omega)
  subst this
  rw [RingBuffer.discard, e]
  rfl

theorem skipBytes_spec {r : Ring} (h : RingBuffer.Inv r) (n : BitVec 32) (hn : n.toNat ≤ (RingBuffer.abs r).length) :
    skipBytes r n = some { r with out := r.out + n } := by
  unfold skipBytes
  split
  · exact discard_spec h n hn
  · next hz =>
    have hz' : n = 0#32 := by simpa using hz
    simp [hz']

/-- `internalRead` on a position at distance `d` from the oldest held byte. -/
theorem internalRead_live {r : Ring} (h : RingBuffer.Inv r) (hs : r.size.toNat ≤ 2 ^ 30) (pos : BitVec 32)
    (hd : dist r pos < (RingBuffer.abs r).length) (t : Bool) (req : BitVec 32) (hq : req.toNat < 2 ^ 31) :
    ∃ r', internalRead r pos t req = some (r', (((RingBuffer.abs r).length - dist r pos : Nat) : Int),
        if t = true ∧ req.toNat ≤ (RingBuffer.abs r).length - dist r pos then
          ((RingBuffer.abs r).drop (dist r pos)).take req.toNat else []) ∧
      RingBuffer.Inv r' ∧ r'.size = r.size ∧ r'.inp = r.inp ∧
      RingBuffer.abs r' = if t = true ∧ req.toNat ≤ (RingBuffer.abs r).length - dist r pos then
          (RingBuffer.abs r).drop (dist r pos + req.toNat) else RingBuffer.abs r := by
  have hU : (RingBuffer.availRead r).toNat ≤ r.size.toNat := h.used
  have hcl := canRead_le h hs pos
  have hce := canRead_eq h hs pos
  have hA := RingBuffer.abs_length r
  rw [← hA] at hce
  rw [if_pos hd] at hce
  unfold internalRead
  simp only []
  rw [if_neg (by omega)]
  have hqi : req.toInt = (req.toNat : Int) := BitVec.toInt_eq_toNat_of_lt (by omega)
  by_cases hc : t = true ∧ req.toNat ≤ (RingBuffer.abs r).length - dist r pos
  · rw [if_pos (by refine ⟨hc.1, ?_⟩; rw [hqi, hce]; omega), if_pos hc, if_pos hc]
    have hskip : (RingBuffer.availRead r - BitVec.ofInt 32 (canRead r pos)).toNat = dist r pos := by
      rw [hce, BitVec.ofInt_natCast, BitVec.toNat_sub, BitVec.toNat_ofNat, hA]
      omega
    generalize RingBuffer.availRead r - BitVec.ofInt 32 (canRead r pos) = skip at *
    rw [skipBytes_spec h skip (by omega)]
    obtain ⟨i1, a1⟩ := RingBuffer.advance h skip (by omega)
    rw [hskip] at a1
    generalize hr1 : ({ r with out := r.out + skip } : Ring) = r1 at *
    have s1 : r1.size = r.size := by rw [← hr1]
    have w1 : r1.inp = r.inp := by rw [← hr1]
    obtain ⟨n, hn, e⟩ := RingBuffer.readInternal_spec i1 true req false
    have hn' : n.toNat = req.toNat := by rw [hn, a1, List.length_drop]; omega
    have hnq : n = req := BitVec.eq_of_toNat_eq hn'
    subst hnq
    obtain ⟨i2, ea2⟩ := RingBuffer.advance i1 n (by rw [a1, List.length_drop]; omega)
    refine ⟨{ r1 with out := r1.out + n }, ?_, i2, s1, w1, ?_⟩
    · have er : RingBuffer.read r1 true n = some ({ r1 with out := r1.out + n }, n, (RingBuffer.abs r1).take n.toNat) := by
        rw [RingBuffer.read, if_pos rfl, e]; simp
      simp [er, a1, hce]
    · rw [ea2, a1, List.drop_drop]
  · rw [if_neg, if_neg hc, if_neg hc]
    · exact ⟨r, by rw [hce], h, rfl, rfl, rfl⟩
    · rintro ⟨ht, hle⟩
      apply hc
      refine ⟨ht, ?_⟩
      rw [hqi, hce] at hle
      omega

theorem write_live {r : Ring} (h : RingBuffer.Inv r) (src : List Byte) (len : BitVec 32)
    (hsrc : len.toNat ≤ src.length) (hcap : len.toNat ≤ r.size.toNat) (h31 : r.size.toNat ≤ 2 ^ 30) :
    ∃ r', write r src len = some (r', (len.toNat : Int)) ∧ RingBuffer.Inv r' ∧ r'.size = r.size ∧
      r'.inp = r.inp + len ∧
      RingBuffer.abs r' = (RingBuffer.abs r).drop ((RingBuffer.abs r).length + len.toNat - r.size.toNat) ++
        src.take len.toNat := by
  have hU : (RingBuffer.availRead r).toNat ≤ r.size.toNat := h.used
  have hA := RingBuffer.abs_length r
  have hW := RingBuffer.availWrite_toNat h
  obtain ⟨r1, e1, i1, s1, w1, a1⟩ : ∃ r1, makeRoom r len = some r1 ∧ RingBuffer.Inv r1 ∧ r1.size = r.size ∧
      r1.inp = r.inp ∧
      RingBuffer.abs r1 = (RingBuffer.abs r).drop ((RingBuffer.abs r).length + len.toNat - r.size.toNat) := by
    unfold makeRoom
    split
    · next hlt =>
      rw [BitVec.lt_def] at hlt
      have hn : (len - RingBuffer.availWrite r).toNat = (RingBuffer.abs r).length + len.toNat - r.size.toNat := by
        rw [BitVec.toNat_sub]; omega
      rw [discard_spec h _ (by omega)]
      obtain ⟨i, a⟩ := RingBuffer.advance h (len - RingBuffer.availWrite r) (by omega)
      exact ⟨_, rfl, i, rfl, rfl, by rw [a, hn]⟩
    · next hlt =>
      rw [BitVec.lt_def] at hlt
      refine ⟨r, rfl, h, rfl, rfl, ?_⟩
      rw [show (RingBuffer.abs r).length + len.toNat - r.size.toNat = 0 by omega]; rfl
  obtain ⟨r2, n, e2, hn, i2, s2, _, w2, _, a2⟩ := RingBuffer.write_spec i1 src len hsrc
  have hnl : n = len := by
    apply BitVec.eq_of_toNat_eq
    rw [hn, s1, a1, List.length_drop]; omega
  subst hnl
  refine ⟨r2, ?_, i2, by rw [s2, s1], by rw [w2, w1], by rw [a2, a1]⟩
  unfold write
  have : n.toInt = (n.toNat : Int) := BitVec.toInt_eq_toNat_of_lt (by omega)
  simp [e1, e2, this]

/-- A write longer than the capacity trips `ASSERT_ABORT`. -/
theorem write_too_long {r : Ring} (h : RingBuffer.Inv r) (src : List Byte) (len : BitVec 32)
    (hsrc : len.toNat ≤ src.length) (hcap : r.size.toNat < len.toNat) : write r src len = none := by
  have hW := RingBuffer.availWrite_toNat h
  have hlt : RingBuffer.availWrite r < len := by rw [BitVec.lt_def]; omega
  obtain ⟨m, hm, e⟩ := RingBuffer.readInternal_spec h false (len - RingBuffer.availWrite r) false
  obtain ⟨i, a⟩ := RingBuffer.advance h m (by omega)
  obtain ⟨r2, n, e2, hn, -⟩ := RingBuffer.write_spec i src len hsrc
  have hne : n ≠ len := by
    intro hc
    rw [hc] at hn
    simp only at hn
    omega
  unfold write makeRoom
  rw [if_pos hlt, RingBuffer.discard, e]
  simp at e2 ⊢
  simp [e2, hne]

end Verif.AutoCover
