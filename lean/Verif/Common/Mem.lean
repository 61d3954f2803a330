/-!
# Byte memory

One allocated C object is a list of bytes.  `memcpy` out of / into an object is *partial*: leaving the
object is undefined behaviour and is the distinct outcome `none`.
-/
namespace Verif

/-- An 8-bit `char`. -/
abbrev Byte := UInt8

/-- The bytes of one allocated object. -/
abbrev Mem := List Byte

/-- Source side of `memcpy(dst, m + off, n)`; `none` if it would leave the object (undefined behaviour). -/
def Mem.load (m : Mem) (off n : Nat) : Option (List Byte) :=
  if off + n ≤ m.length then some ((m.drop off).take n) else none

/-- Destination side of `memcpy(m + off, bs, |bs|)`; `none` if it would leave the object (undefined behaviour). -/
def Mem.store (m : Mem) (off : Nat) (bs : List Byte) : Option Mem :=
  if off + bs.length ≤ m.length then some (m.take off ++ bs ++ m.drop (off + bs.length)) else none

theorem Mem.load_eq_some {m : Mem} {off n : Nat} (h : off + n ≤ m.length) :
    m.load off n = some ((m.drop off).take n) := by
  simp [Mem.load, h]

theorem Mem.store_eq_some {m : Mem} {off : Nat} {bs : List Byte} (h : off + bs.length ≤ m.length) :
    m.store off bs = some (m.take off ++ bs ++ m.drop (off + bs.length)) := by
  simp [Mem.store, h]

theorem Mem.store_get (m : Mem) (off : Nat) (bs : List Byte) (h : off + bs.length ≤ m.length) (i : Nat) :
    (m.take off ++ bs ++ m.drop (off + bs.length)).getD i 0 =
      if off ≤ i ∧ i < off + bs.length then bs.getD (i - off) 0 else m.getD i 0 := by
  simp only [List.getD_eq_getElem?_getD]
  congr 1
  by_cases h1 : i < off
  · rw [if_neg (by omega), List.append_assoc, List.getElem?_append_left (by simp; omega),
      List.getElem?_take_of_lt h1]
  · by_cases h2 : i < off + bs.length
    · rw [if_pos (by omega), List.getElem?_append_left (by simp; omega),
        List.getElem?_append_right (by simp; omega),
        show i - (List.take off m).length = i - off by rw [List.length_take, Nat.min_eq_left (by omega)]]
    · rw [if_neg (by omega), List.getElem?_append_right (by simp; omega), List.getElem?_drop,
        show off + bs.length + (i - (List.take off m ++ bs).length) = i by
          rw [List.length_append, List.length_take]; omega]

theorem Mem.store_length (m : Mem) (off : Nat) (bs : List Byte) (h : off + bs.length ≤ m.length) :
    (m.take off ++ bs ++ m.drop (off + bs.length)).length = m.length := by
  simp; omega

/-- The `n` bytes found from position `p` on, reading the object cyclically with period `size`. -/
def Mem.cyc (m : Mem) (size p n : Nat) : List Byte :=
  (List.range n).map (fun i => m.getD ((p + i) % size) 0)

@[simp] theorem Mem.cyc_length (m : Mem) (size p n : Nat) : (m.cyc size p n).length = n := by
  simp [Mem.cyc]

theorem Mem.cyc_getElem? (m : Mem) (size p n i : Nat) (h : i < n) :
    (m.cyc size p n)[i]? = some (m.getD ((p + i) % size) 0) := by
  simp [Mem.cyc, h]

theorem Mem.cyc_mod (m : Mem) (size p n : Nat) : m.cyc size (p % size) n = m.cyc size p n := by
  simp [Mem.cyc, Nat.add_mod]

theorem Mem.cyc_take (m : Mem) (size p n k : Nat) (h : k ≤ n) :
    (m.cyc size p n).take k = m.cyc size p k := by
  simp [Mem.cyc, ← List.map_take, List.take_range, Nat.min_eq_left h]

theorem Mem.cyc_drop (m : Mem) (size p n k : Nat) (h : k ≤ n) :
    (m.cyc size p n).drop k = m.cyc size (p + k) (n - k) := by
  apply List.ext_getElem?
  intro i
  rw [List.getElem?_drop]
  by_cases hi : i < n - k
  · rw [Mem.cyc_getElem? _ _ _ _ _ (by omega), Mem.cyc_getElem? _ _ _ _ _ hi, Nat.add_assoc]
  · rw [List.getElem?_eq_none (by simp; omega), List.getElem?_eq_none (by simp; omega)]

theorem Mem.cyc_append (m : Mem) (size p a b : Nat) :
    m.cyc size p a ++ m.cyc size (p + a) b = m.cyc size p (a + b) := by
  simp [Mem.cyc, List.range_add, Nat.add_assoc]

theorem Mem.cyc_congr {m m' : Mem} {size p n : Nat}
    (h : ∀ i, i < n → m.getD ((p + i) % size) 0 = m'.getD ((p + i) % size) 0) :
    m.cyc size p n = m'.cyc size p n := by
  apply List.map_congr_left
  intro i hi
  exact h i (by simpa using hi)

/-- the two-part read used by all ring buffers of the library -/
def Mem.load2 (m : Mem) (size start len : Nat) : Option (List Byte) := do
  let first := min len (size - start)
  let a ← m.load start first
  let b ← m.load 0 (len - first)
  return a ++ b

/-- the two-part write used by all ring buffers of the library -/
def Mem.store2 (m : Mem) (size start : Nat) (bs : List Byte) : Option Mem := do
  let first := min bs.length (size - start)
  let m ← m.store start (bs.take first)
  m.store 0 (bs.drop first)

theorem Mem.load2_eq (m : Mem) (size start len : Nat) (hs : size ≤ m.length) (h1 : start < size)
    (h2 : len ≤ size) : m.load2 size start len = some (m.cyc size start len) := by
  unfold Mem.load2
  simp only [Mem.load]
  rw [if_pos (by omega), if_pos (by omega)]
  simp only [Option.bind_eq_bind, Option.bind_some, Option.pure_def, Option.some.injEq]
  apply List.ext_getElem?
  intro i
  by_cases hi : i < len
  · rw [Mem.cyc_getElem? _ _ _ _ _ hi]
    by_cases hf : i < min len (size - start)
    · rw [List.getElem?_append_left (by simp; omega), List.getElem?_take_of_lt hf, List.getElem?_drop,
        Nat.mod_eq_of_lt (by omega), List.getD_eq_getElem?_getD, List.getElem?_eq_getElem (by omega)]
      rfl
    · rw [List.getElem?_append_right (by simp; omega)]
      have e1 : (start + i) % size = start + i - size := by
        rw [Nat.mod_eq_sub_mod (by omega), Nat.mod_eq_of_lt (by omega)]
      rw [e1]
      simp only [List.length_take, List.length_drop, List.drop_zero]
      rw [List.getElem?_take_of_lt (by omega), List.getD_eq_getElem?_getD,
        show i - min (min len (size - start)) (m.length - start) = start + i - size by omega,
        List.getElem?_eq_getElem (by omega)]
      rfl
  · rw [List.getElem?_eq_none (by simp; omega), List.getElem?_eq_none (by simp; omega)]

theorem Mem.store2_spec (m : Mem) (size start : Nat) (bs : List Byte) (hs : size ≤ m.length)
    (h1 : start < size) (h2 : bs.length ≤ size) :
    ∃ m', m.store2 size start bs = some m' ∧ m'.length = m.length ∧
      (∀ i, i < bs.length → m'.getD ((start + i) % size) 0 = bs.getD i 0) ∧
      (∀ i, bs.length ≤ i → i < size → m'.getD ((start + i) % size) 0 = m.getD ((start + i) % size) 0) ∧
      (∀ i, size ≤ i → m'.getD i 0 = m.getD i 0) := by
  unfold Mem.store2
  simp only []
  have hb1 : start + (bs.take (min bs.length (size - start))).length ≤ m.length := by simp; omega
  rw [Mem.store_eq_some hb1]
  simp only [Option.bind_eq_bind, Option.bind_some]
  have hl := Mem.store_length m start _ hb1
  rw [Mem.store_eq_some (by rw [hl]; simp; omega)]
  refine ⟨_, rfl, ?_, ?_, ?_, ?_⟩
  · rw [Mem.store_length _ _ _ (by rw [hl]; simp; omega), hl]
  all_goals
    intro i
    rw [Mem.store_get _ _ _ (by rw [hl]; simp; omega), Mem.store_get _ _ _ hb1]
    simp only [List.length_take, List.length_drop]
    simp only [List.getD_eq_getElem?_getD, List.getElem?_drop]
  · intro hi
    by_cases hf : i < size - start
    · rw [Nat.mod_eq_of_lt (by omega)]
      rw [if_neg (by omega), if_pos (by omega), List.getElem?_take_of_lt (by omega)]
      congr 2; omega
    · have e1 : (start + i) % size = start + i - size := by
        rw [Nat.mod_eq_sub_mod (by omega), Nat.mod_eq_of_lt (by omega)]
      rw [e1, if_pos (by omega)]
      congr 2; omega
  · intro hi hi2
    by_cases hf : i < size - start
    · rw [Nat.mod_eq_of_lt (by omega)]
      rw [if_neg (by omega), if_neg (by omega)]
    · have e1 : (start + i) % size = start + i - size := by
        rw [Nat.mod_eq_sub_mod (by omega), Nat.mod_eq_of_lt (by omega)]
      rw [e1, if_neg (by omega), if_neg (by omega)]
  · intro hi
    rw [if_neg (by omega), if_neg (by omega)]

/-- Writing `bs` right behind the `n` bytes found from `p` on appends `bs` to them. -/
theorem Mem.store2_cyc (m : Mem) (size p n : Nat) (bs : List Byte) (hs : size ≤ m.length)
    (h0 : 0 < size) (h2 : n + bs.length ≤ size) :
    ∃ m', m.store2 size ((p + n) % size) bs = some m' ∧ m'.length = m.length ∧
      m'.cyc size p (n + bs.length) = m.cyc size p n ++ bs := by
  obtain ⟨m', e, hl, ha, hb, _⟩ :=
    Mem.store2_spec m size ((p + n) % size) bs hs (Nat.mod_lt _ h0) (by omega)
  refine ⟨m', e, hl, ?_⟩
  rw [← Mem.cyc_append]
  congr 1
  · apply Mem.cyc_congr
    intro i hi
    have := hb (size - n + i) (by omega) (by omega)
    rw [Nat.mod_add_mod, show p + n + (size - n + i) = p + i + size by omega, Nat.add_mod_right] at this
    exact this
  · apply List.ext_getElem?
    intro i
    by_cases hi : i < bs.length
    · rw [Mem.cyc_getElem? _ _ _ _ _ hi]
      have := ha i hi
      rw [Nat.mod_add_mod] at this
      rw [this, List.getD_eq_getElem?_getD, List.getElem?_eq_getElem hi]
      rfl
    · rw [List.getElem?_eq_none (by simp; omega), List.getElem?_eq_none (by omega)]

end Verif
