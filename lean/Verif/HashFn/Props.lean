import Verif.HashFn.Model

/-! # C66: the hash functions -/
namespace Verif.HashFn

/-- **C66.** The integer and pointer hashes are defined for every key. -/
theorem integer_defined (key : BitVec 64) : ∃ h, integer key = some h ∧ pointer key = some h := by
  unfold integer pointer ptrToInt
  have h1 := BitVec.toInt_lt (x := key.truncate 32)
  have h2 := BitVec.le_toInt (x := key.truncate 32)
  simp only []
  rw [if_pos (by omega)]
  exact ⟨_, rfl, rfl⟩

theorem toInt32_eq {a b : Int} : toInt32 a = toInt32 b ↔ (a - b) % 4294967296 = 0 := by
  unfold toInt32
  rw [BitVec.toInt_inj]
  constructor
  · intro h
    have := congrArg BitVec.toNat h
    simp only [BitVec.toNat_ofInt] at this
    omega
  · intro h
    apply BitVec.eq_of_toNat_eq
    simp only [BitVec.toNat_ofInt]
    omega

/-- 2654435761 is invertible modulo 2^32: the inverse is 244002641. -/
theorem inv_mod (x y : Int) (h : (x * 2654435761 - y * 2654435761) % 4294967296 = 0) : (x - y) % 4294967296 = 0 := by
  obtain ⟨q, hq⟩ := Int.dvd_of_emod_eq_zero h
  apply Int.emod_eq_zero_of_dvd
  refine ⟨244002641 * q - 150801925 * (x - y), ?_⟩
  clear h
  grind

/-- **C66.** They never collide on keys that differ as 32-bit integers (the multiplier is odd); keys that agree in
their low 32 bits always collide. -/
theorem integer_injective (k1 k2 : BitVec 64) : integer k1 = integer k2 ↔ k1.truncate 32 = k2.truncate 32 := by
  obtain ⟨h1, e1, _⟩ := integer_defined k1
  obtain ⟨h2, e2, _⟩ := integer_defined k2
  constructor
  · intro h
    have he : ∀ k h, integer k = some h → h = toInt32 (ptrToInt k * 2654435761) := by
      intro k h hk
      unfold integer at hk
      simp only [] at hk
      split at hk
      · exact (Option.some.inj hk).symm
      · simp at hk
    rw [e1, e2, Option.some.injEq] at h
    rw [he k1 h1 e1, he k2 h2 e2, toInt32_eq] at h
    unfold ptrToInt at h
    apply BitVec.toInt_inj.1
    have a1 := BitVec.toInt_lt (x := k1.truncate 32)
    have a2 := BitVec.le_toInt (x := k1.truncate 32)
    have a3 := BitVec.toInt_lt (x := k2.truncate 32)
    have a4 := BitVec.le_toInt (x := k2.truncate 32)
    generalize (k1.truncate 32).toInt = x at *
    generalize (k2.truncate 32).toInt = y at *
    -- the inverse of 2654435761 modulo 2^32 is 244002641
    have h3 : (x - y) % 4294967296 = 0 := inv_mod x y h
    clear h he e1 e2
    omega
  · intro h
    unfold integer ptrToInt
    rw [h]

theorem naive_injective (k1 k2 : BitVec 64) : naive k1 = naive k2 ↔ k1.truncate 32 = k2.truncate 32 := by
  unfold naive ptrToInt
  exact BitVec.toInt_inj

/-! ## Strings -/

/-- `5381*33^n + c_1*33^(n-1) + … + c_n`, from the seed `h`. -/
def poly : Int → List Byte → Int
  | h, [] => h
  | h, c :: s => poly (33 * h + schar c) s

/-- `c_1*33^(n-1) + … + c_n`. -/
def weights : List Byte → Int
  | [] => 0
  | c :: s => schar c * 33 ^ s.length + weights s

theorem poly_closed (s : List Byte) : ∀ h, poly h s = h * 33 ^ s.length + weights s := by
  induction s with
  | nil => intro h; simp [poly, weights]
  | cons c s ih =>
    intro h
    rw [poly, ih, weights, List.length_cons, Int.pow_succ]
    grind

theorem schar_range (c : Byte) : -128 ≤ schar c ∧ schar c ≤ 127 := by
  have h1 := BitVec.toInt_lt (x := c.toBitVec)
  have h2 := BitVec.le_toInt (x := c.toBitVec)
  unfold schar
  omega

theorem step_ok {h : Int} (c : Byte) (h0 : 0 ≤ h) (h1 : h ≤ 65000000) : step h c = some (33 * h + schar c) := by
  have := schar_range c
  unfold step inInt
  rw [if_neg (by simp; omega), if_neg (by simp; omega), if_neg (by simp; omega)]
  congr 1
  omega

/-- **C66.** Up to three characters the string hash is the polynomial … -/
theorem string_short {s r : List Byte} (h : (0 : Byte) ∉ s) (hl : s.length ≤ 3) : string (s ++ 0 :: r) = some (poly 5381 s) := by
  unfold string
  rw [Mem.cstr_zero h, Option.bind_some]
  match s, hl with
  | [], _ => rfl
  | [a], _ =>
    have := schar_range a
    simp only [loop, poly, step_ok a (h := 5381) (by omega) (by omega), Option.bind_some]
  | [a, b], _ =>
    have := schar_range a
    have := schar_range b
    simp only [loop, poly, step_ok a (h := 5381) (by omega) (by omega), Option.bind_some]
    rw [step_ok b (by omega) (by omega)]
    rfl
  | [a, b, c], _ =>
    have := schar_range a
    have := schar_range b
    have := schar_range c
    simp only [loop, poly, step_ok a (h := 5381) (by omega) (by omega), Option.bind_some]
    rw [step_ok b (by omega) (by omega), Option.bind_some]
    rw [step_ok c (by omega) (by omega)]
    rfl

/-- FINDING: … and from the fourth character on, for every string, the `int` arithmetic overflows, which is
undefined. -/
theorem string_overflows {s r : List Byte} (h : (0 : Byte) ∉ s) (hl : 4 ≤ s.length) : string (s ++ 0 :: r) = none := by
  unfold string
  rw [Mem.cstr_zero h, Option.bind_some]
  match s, hl with
  | a :: b :: c :: d :: t, _ =>
    have := schar_range a
    have := schar_range b
    have := schar_range c
    simp only [loop, step_ok a (h := 5381) (by omega) (by omega), Option.bind_some]
    rw [step_ok b (by omega) (by omega), Option.bind_some]
    rw [step_ok c (by omega) (by omega), Option.bind_some]
    have : ∀ x : Int, 70000000 ≤ x → step x d = none := by
      intro x hx
      unfold step inInt
      rw [if_pos (by simp; omega)]
    rw [this _ (by omega)]
    rfl

theorem wrapStep_eq (h : BitVec 32) (c : Byte) : wrapStep h c = 33#32 * h + BitVec.ofInt 32 (schar c) := by
  have e1 : h <<< 5 = 32#32 * h := by
    rw [BitVec.shiftLeft_eq_mul_twoPow]
    rw [BitVec.mul_comm]
    rfl
  have e2 : c.toBitVec.signExtend 32 = BitVec.ofInt 32 (schar c) := rfl
  unfold wrapStep
  rw [e1, e2, show (33#32 : BitVec 32) = 32#32 + 1#32 by rfl, BitVec.add_mul, BitVec.one_mul]

theorem wrap_loop (s : List Byte) : ∀ (h : Int), s.foldl wrapStep (BitVec.ofInt 32 h) = BitVec.ofInt 32 (poly h s) := by
  induction s with
  | nil => intro h; rfl
  | cons c s ih =>
    intro h
    rw [List.foldl_cons, wrapStep_eq, poly, ← ih, BitVec.ofInt_add, BitVec.ofInt_mul]
    rfl

/-- **C66.** With wrapping arithmetic the hash is the polynomial modulo 2^32, for every string: in particular it
depends on the characters only, and agrees with the defined cases. -/
theorem wrapString_poly (s : List Byte) : wrapString s = BitVec.ofInt 32 (poly 5381 s) := wrap_loop s 5381

/-- Two-letter strings can collide ("Ab" and "BA"). -/
theorem string_collision : string [65, 98, 0] = string [66, 65, 0] ∧ string [65, 98, 0] = some 5862152 := by
  decide +kernel

end Verif.HashFn
