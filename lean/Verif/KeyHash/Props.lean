import Verif.KeyHash.Model
import Verif.KeyHash.Spec
/-!
# C106: `hashmap_hash`
-/
namespace Verif.KeyHash

theorem schar_signed (c : Byte) : schar c = signed c := by
  unfold schar signed
  rw [BitVec.toInt_eq_toNat_cond]
  have : c.toBitVec.toNat = c.toNat := rfl
  rw [this]
  split <;> split <;> omega

theorem signed_range (c : Byte) : -128 ≤ signed c ∧ signed c ≤ 127 := by
  have := c.toNat_lt
  unfold signed
  split <;> omega

theorem signed_inj {a b : Byte} (h : signed a = signed b) : a = b := by
  have ha := c_lt a
  have hb := c_lt b
  unfold signed at h
  apply UInt8.toNat_inj.1
  split at h <;> split at h <;> omega
where c_lt (c : Byte) : c.toNat < 256 := c.toNat_lt

theorem step_some {h h' : Int} {c : Byte} (e : step h c = some h') : h' = 31 * h + signed c ∧ inInt h' = true := by
  unfold step at e
  split at e
  · cases e
  · split at e
    · cases e
    · rename_i _ h2
      cases e
      rw [schar_signed] at *
      exact ⟨by omega, by simpa using h2⟩

/-- The next bytes of an object. -/
theorem load_cons {m : Mem} {p n : Nat} {c : Byte} {s : List Byte} (h : m.load p (n + 1) = some (c :: s)) :
    m[p]? = some c ∧ m.load (p + 1) n = some s := by
  unfold Mem.load at h ⊢
  split at h
  · rename_i hl
    rw [if_pos (by omega)]
    have h := Option.some.inj h
    have hp : p < m.length := by omega
    rw [List.drop_eq_getElem_cons hp, List.take_succ_cons] at h
    have h1 := (List.cons.inj h).1
    have h2 := (List.cons.inj h).2
    exact ⟨by rw [List.getElem?_eq_getElem hp, h1], by rw [h2]⟩
  · cases h

theorem load_length {m : Mem} {p n : Nat} {s : List Byte} (h : m.load p n = some s) : s.length = n := by
  unfold Mem.load at h
  split at h
  · cases h
    rw [List.length_take, List.length_drop]; omega
  · cases h

/-- `h` moved on over the bytes `s`. -/
def horner : Int → List Byte → Int
  | h, [] => h
  | h, c :: s => horner (31 * h + signed c) s

theorem horner_sum (s : List Byte) : ∀ h, horner h s = h * 31 ^ s.length + sum31 s := by
  induction s with
  | nil => intro h; simp [horner, sum31]
  | cons c s ih =>
    intro h
    rw [horner, ih, sum31, List.length_cons, Int.pow_succ]
    grind

theorem wrapStep_eq (h : Int) (c : Byte) : wrapStep (BitVec.ofInt 32 h) c = BitVec.ofInt 32 (31 * h + signed c) := by
  have e2 : c.toBitVec.signExtend 32 = BitVec.ofInt 32 (schar c) := rfl
  unfold wrapStep
  rw [e2, schar_signed, BitVec.ofInt_add, BitVec.ofInt_mul, BitVec.mul_comm]
  rfl

theorem wrapLoop_load {m : Mem} (s : List Byte) : ∀ {p : Nat} (h : Int), m.load p s.length = some s →
    wrapLoop m p s.length (BitVec.ofInt 32 h) = some (BitVec.ofInt 32 (horner h s)) := by
  induction s with
  | nil => intro p h _; rfl
  | cons c s ih =>
    intro p h hl
    obtain ⟨h1, h2⟩ := load_cons hl
    simp only [List.length_cons, wrapLoop, h1, Option.bind_some, wrapStep_eq, horner]
    exact ih _ h2

/-- **C106.** With arithmetic modulo 2^32 the hash is the value of the key's bytes … -/
theorem wrapped_value {m : Mem} {p n : Nat} {key : List Byte} (h : m.load p n = some key) :
    wrapHash m p n = some (BitVec.ofInt 32 (value key)) := by
  have hn := load_length h
  subst hn
  unfold wrapHash value
  rw [← horner_sum, ← BitVec.ofInt_natCast]
  exact wrapLoop_load key _ h

/-- … so that of the memory only the bytes of the key matter: keys with equal bytes have equal hashes, wherever they are. -/
theorem same_content {m m' : Mem} {p p' n : Nat} {key : List Byte} (h : m.load p n = some key) (h' : m'.load p' n = some key) :
    wrapHash m p n = wrapHash m' p' n := by
  rw [wrapped_value h, wrapped_value h']

theorem loop_load {m : Mem} (s : List Byte) : ∀ {p : Nat} {h r : Int}, m.load p s.length = some s →
    loop m p s.length h = some r → r = horner h s ∧ (inInt h = true → inInt r = true) := by
  induction s with
  | nil => intro p h r _ e; cases e; exact ⟨rfl, id⟩
  | cons c s ih =>
    intro p h r hl e
    obtain ⟨h1, h2⟩ := load_cons hl
    simp only [List.length_cons, loop, h1, Option.bind_some, Option.bind_eq_some_iff] at e
    obtain ⟨h', e1, e2⟩ := e
    obtain ⟨e3, e4⟩ := step_some e1
    obtain ⟨e5, e6⟩ := ih h2 e2
    rw [e3] at e5
    exact ⟨e5, fun _ => e6 e4⟩

theorem size_int {n : Nat} (h : n < 2147483648) : (BitVec.ofNat 32 n).toInt = n := by
  rw [BitVec.toInt_eq_toNat_cond, BitVec.toNat_ofNat, Nat.mod_eq_of_lt (by omega)]
  rw [if_pos (by omega)]

/-- Where the standard defines the result it is exactly that value (which then fits an `int`). -/
theorem defined_value {m : Mem} {p n : Nat} {key : List Byte} {r : Int} (hn : n < 2147483648) (h : m.load p n = some key)
    (e : hash m p n = some r) : r = value key ∧ inInt r = true := by
  have hl := load_length h
  subst hl
  unfold hash at e
  rw [size_int hn] at e
  obtain ⟨h1, h2⟩ := loop_load key h e
  exact ⟨by rw [h1, horner_sum]; rfl, h2 (by simp [inInt]; omega)⟩

theorem step_small {h : Int} {b : Nat} (c : Byte) (h1 : -(b : Int) ≤ h) (h2 : h ≤ b) (hb : b < 65000000) :
    ∃ h', step h c = some h' ∧ -((31 * b + 128 : Nat) : Int) ≤ h' ∧ h' ≤ (31 * b + 128 : Nat) := by
  have := signed_range c
  refine ⟨31 * h + signed c, ?_, by omega, by omega⟩
  unfold step inInt
  rw [schar_signed, if_neg (by simp; omega), if_neg (by simp; omega)]
  congr 1
  omega

/-- Keys of up to five bytes: always defined. -/
theorem short_defined {m : Mem} {p n : Nat} {key : List Byte} (hn : n ≤ 5) (h : m.load p n = some key) :
    hash m p n = some (value key) := by
  have : ∃ r, hash m p n = some r := by
    have hl := load_length h
    unfold hash
    rw [size_int (by omega)]
    have key' : ∀ (s : List Byte) (b : Nat) {p : Nat} {h : Int}, m.load p s.length = some s → -(b : Int) ≤ h → h ≤ b →
        s.length ≤ 5 → (b + 5) * 31 ^ s.length ≤ 10 * 31 ^ 5 → ∃ r, loop m p s.length h = some r := by
      intro s
      induction s with
      | nil => intro b p h _ _ _ _ _; exact ⟨h, rfl⟩
      | cons c s ih =>
        intro b p h hm h1 h2 hs hb
        obtain ⟨g1, g2⟩ := load_cons hm
        simp only [List.length_cons, Nat.pow_succ] at hb hs
        have h31 : 1 ≤ 31 ^ s.length := Nat.pow_pos (by omega)
        have hb' : b < 65000000 := by
          have : (b + 5) * 31 ≤ 10 * 31 ^ 5 := by
            refine Nat.le_trans ?_ hb
            rw [← Nat.mul_assoc, Nat.mul_right_comm]
            exact Nat.le_mul_of_pos_right _ h31
          omega
        obtain ⟨h', e1, e2, e3⟩ := step_small c h1 h2 hb'
        simp only [List.length_cons, loop, g1, Option.bind_some, e1]
        refine ih _ g2 e2 e3 (by omega) ?_
        refine Nat.le_trans (Nat.mul_le_mul_right _ (?_ : _ ≤ (b + 5) * 31)) ?_
        · omega
        · rw [Nat.mul_assoc, Nat.mul_comm 31]; exact hb
    rw [← hl]
    have hh : m.load p key.length = some key := by rw [hl]; exact h
    refine key' key 5 hh (by omega) (by omega) (by omega) ?_
    have : 31 ^ key.length ≤ 31 ^ 5 := Nat.pow_le_pow_right (by omega) (by omega)
    exact Nat.mul_le_mul_left 10 this
  obtain ⟨r, hr⟩ := this
  rw [hr, (defined_value (by omega) h hr).1]

/-- A large value stays large, or the loop is undefined. -/
theorem loop_none {m : Mem} (l : Nat) (k : Nat) (hl : ∀ {p : Nat} {h : Int}, (31 * l - 128 : Int) ≤ h → loop m p k h = none)
    {p : Nat} {h : Int} (hh : (l : Int) ≤ h) : loop m p (k + 1) h = none := by
  unfold loop
  cases m[p]? with
  | none => rfl
  | some c =>
    rw [Option.bind_some]
    cases e : step h c with
    | none => rfl
    | some h' =>
      rw [Option.bind_some]
      have := (step_some e).1
      have := signed_range c
      exact hl (by omega)

theorem loop_huge {m : Mem} {p k : Nat} {h : Int} (hh : 70000000 ≤ h) : loop m p (k + 1) h = none := by
  unfold loop
  cases m[p]? with
  | none => rfl
  | some c =>
    rw [Option.bind_some]
    have : step h c = none := by
      unfold step inInt
      rw [if_pos (by simp; omega)]
    rw [this]; rfl

/-- **Finding.** For every key of seven or more bytes, whatever they are, the `int` arithmetic overflows, which is undefined. -/
theorem long_overflows (m : Mem) (p n : Nat) (h1 : 7 ≤ n) (h2 : n < 2147483648) : hash m p n = none := by
  unfold hash
  rw [size_int h2]
  obtain ⟨k, rfl⟩ : ∃ k, n = k + 7 := ⟨n - 7, by omega⟩
  refine loop_none 7 (k + 6) (fun h1 => ?_) (by omega)
  refine loop_none 89 (k + 5) (fun h2 => ?_) (by omega)
  refine loop_none 2631 (k + 4) (fun h3 => ?_) (by omega)
  refine loop_none 81433 (k + 3) (fun h4 => ?_) (by omega)
  refine loop_none 2524295 (k + 2) (fun h5 => ?_) (by omega)
  exact loop_huge (by omega)

/-- So it does for every key of six bytes of ASCII. -/
theorem ascii_overflows {m : Mem} {p : Nat} {key : List Byte} (h : m.load p 6 = some key) (ha : ∀ c ∈ key, c.toNat < 128) :
    hash m p 6 = none := by
  cases e : hash m p 6 with
  | none => rfl
  | some r =>
    exfalso
    obtain ⟨h1, h2⟩ := defined_value (by omega) h e
    have hl := load_length h
    have h0 : ∀ s : List Byte, (∀ c ∈ s, c.toNat < 128) → 0 ≤ sum31 s := by
      intro s
      induction s with
      | nil => intro _; simp [sum31]
      | cons c s ih =>
        intro hs
        have := ih fun c hc => hs c (List.mem_cons_of_mem _ hc)
        have hc : 0 ≤ signed c := by unfold signed; rw [if_pos (hs c List.mem_cons_self)]; omega
        have := Int.mul_nonneg hc (Int.pow_nonneg (m := s.length) (show (0 : Int) ≤ 31 by omega))
        rw [sum31]; omega
    have := h0 key ha
    unfold value at h1
    rw [hl] at h1
    simp [inInt] at h2
    omega

/-- The undefined cases apart, six bytes can be fine: six bytes `0x80`. -/
theorem six_bytes_can_do : hash (List.replicate 6 0x80) 0 6 = some 1538339718 := by decide +kernel

/-- The key is read to its end: if it is not inside the object the hash is undefined, and only then. -/
theorem needs_key {m : Mem} {p n : Nat} (hn : 0 < n) : wrapHash m p n = none ↔ m.load p n = none := by
  constructor
  · intro h
    cases e : m.load p n with
    | none => rfl
    | some key => rw [wrapped_value e] at h; cases h
  · intro h
    have hl : m.length < p + n := by
      unfold Mem.load at h
      split at h
      · cases h
      · omega
    have : ∀ (k : Nat) {p : Nat} {h : BitVec 32}, 0 < k → m.length < p + k → wrapLoop m p k h = none := by
      intro k
      induction k with
      | zero => intro p h h0 _; omega
      | succ k ih =>
        intro p h _ hk
        unfold wrapLoop
        cases e : m[p]? with
        | none => rfl
        | some c =>
          have hp := (List.getElem?_eq_some_iff.mp e).1
          rw [Option.bind_some]
          exact ih (by omega) (by omega)
    exact this n hn hl

theorem sum31_append (a b : List Byte) : sum31 (a ++ b) = sum31 a * 31 ^ b.length + sum31 b := by
  induction a with
  | nil => simp [sum31]
  | cons c a ih =>
    rw [List.cons_append, sum31, sum31, ih, List.length_append, Int.pow_add]
    grind

/-- 31 can be divided out modulo 2^32. -/
theorem cancel31 (x : Int) (h : (x * 31) % 4294967296 = 0) : x % 4294967296 = 0 := by omega

theorem cancel_pow (x : Int) (k : Nat) (h : (x * 31 ^ k) % 4294967296 = 0) : x % 4294967296 = 0 := by
  induction k with
  | zero => simpa using h
  | succ k ih =>
    apply ih
    apply cancel31
    rw [Int.mul_assoc, ← Int.pow_succ]
    exact h

theorem ofInt_eq {a b : Int} : BitVec.ofInt 32 a = BitVec.ofInt 32 b ↔ (a - b) % 4294967296 = 0 := by
  rw [← BitVec.toInt_inj, BitVec.toInt_ofInt, BitVec.toInt_ofInt]
  constructor
  · intro h
    have h1 := Int.bmod_def a (2 ^ 32)
    have h2 := Int.bmod_def b (2 ^ 32)
    simp only [Nat.reducePow] at *
    split at h1 <;> split at h2 <;> omega
  · intro h
    have h1 := Int.bmod_def a (2 ^ 32)
    have h2 := Int.bmod_def b (2 ^ 32)
    simp only [Nat.reducePow] at *
    split at h1 <;> split at h2 <;> omega

/-- With arithmetic modulo 2^32, two keys that differ in one byte have different hashes. -/
theorem one_byte_matters {m m' : Mem} {p p' n : Nat} {a b : List Byte} {c d : Byte} (h : m.load p n = some (a ++ c :: b))
    (h' : m'.load p' n = some (a ++ d :: b)) (hc : c ≠ d) : wrapHash m p n ≠ wrapHash m' p' n := by
  rw [wrapped_value h, wrapped_value h']
  intro e
  have e := ofInt_eq.1 (Option.some.inj e)
  unfold value at e
  rw [sum31_append, sum31_append, List.length_append, List.length_append, List.length_cons, List.length_cons, sum31, sum31] at e
  have e2 : ((signed c - signed d) * 31 ^ b.length) % 4294967296 = 0 := by
    rw [← e]
    congr 1
    rw [Int.sub_mul]
    omega
  have e3 := cancel_pow _ _ e2
  have h1 := signed_range c
  have h2 := signed_range d
  exact hc (signed_inj (by omega))

/-- Two bytes are enough for a collision, also within what the standard defines: "Aa" and "BB". -/
theorem collision : hash [0x41, 0x61] 0 2 = some 4034 ∧ hash [0x42, 0x42] 0 2 = some 4034 := by decide +kernel

/-- The hypotheses above are met: a key of eight bytes inside an object of ten. -/
example : Mem.load [1, 104, 97, 115, 104, 109, 97, 112, 33, 0] 1 8 = some [104, 97, 115, 104, 109, 97, 112, 33] ∧
    wrapHash [1, 104, 97, 115, 104, 109, 97, 112, 33, 0] 1 8 = some 2869168219#32 ∧
    hash [1, 104, 97, 115, 104, 109, 97, 112, 33, 0] 1 8 = none := by decide +kernel

end Verif.KeyHash
