import Verif.Array.Model
/-!
# C23: the growable array
-/
namespace Verif.CArray

/-- The array holds the elements `xs` (each of `elementSize` bytes), all inside its block. -/
structure Holds (a : Arr) (xs : List (List Byte)) : Prop where
  pos : 0 < a.elementSize
  cap4 : 4 ≤ a.capacity
  blk : a.block.length = a.capacity * a.elementSize
  small : a.capacity * a.elementSize < 2 ^ 63
  len : a.length = xs.length
  fits : a.length ≤ a.capacity
  size : ∀ x ∈ xs, x.length = a.elementSize
  data : a.block.take (a.length * a.elementSize) = xs.flatten

theorem flatten_length (n : Nat) (xs : List (List Byte)) (h : ∀ x ∈ xs, x.length = n) :
    xs.flatten.length = xs.length * n := by
  induction xs with
  | nil => simp
  | cons x xs ih =>
    rw [List.flatten_cons, List.length_append, ih (fun y hy => h y (by simp [hy])), h x (by simp),
      List.length_cons, Nat.add_mul]; omega

theorem flatten_drop_take (n : Nat) (xs : List (List Byte)) (h : ∀ x ∈ xs, x.length = n) (i : Nat)
    (hi : i < xs.length) : (xs.flatten.drop (i * n)).take n = xs[i] := by
  induction xs generalizing i with
  | nil => simp at hi
  | cons x xs ih =>
    have hx := h x (by simp)
    cases i with
    | zero => simp [← hx]
    | succ i =>
      have := ih (fun y hy => h y (by simp [hy])) i (by simpa using hi)
      rw [List.flatten_cons, List.getElem_cons_succ, ← this, Nat.add_mul, Nat.one_mul, Nat.add_comm,
        ← List.drop_drop]
      congr 2
      rw [← hx, List.drop_left]

theorem new_holds (es cap : Nat) (ok : Bool) (hes : 0 < es)
    (hov : 32 + es * (if cap < 4 then 4 else cap) < 2 ^ 64) (a : Arr)
    (h : newWithCapacity es cap ok = some a) : Holds a [] := by
  unfold newWithCapacity at h
  simp only at h
  have hc4 : 4 ≤ (if cap < 4 then 4 else cap) := by split <;> omega
  generalize (if cap < 4 then 4 else cap) = c at *
  rw [Nat.mod_eq_of_lt hov] at h
  split at h
  · rename_i hg
    simp only [grants, Bool.and_eq_true, decide_eq_true_eq] at hg
    simp only [Option.some.injEq] at h
    subst h
    have hb := hg.2
    have : es * c = c * es := Nat.mul_comm _ _
    refine ⟨hes, hc4, ?_, ?_, rfl, by simp, by simp, by simp⟩
    · simp; omega
    · simp only; omega
  · cases h

theorem grow_holds (a : Arr) (xs : List (List Byte)) (h : Holds a xs) (ok : Bool) (junk : Nat → Byte) :
    ∃ a' b, grow a ok junk = some (a', b) ∧ Holds a' xs ∧ a'.elementSize = a.elementSize ∧
      (b = true → a.capacity < a'.capacity) ∧ (b = false → a' = a) := by
  have hp := h.pos
  have hc := h.cap4
  have hs := h.small
  have hf := h.fits
  have hcap : a.capacity ≤ a.capacity * a.elementSize := Nat.le_mul_of_pos_right _ hp
  have hlen : a.length * a.elementSize ≤ a.capacity * a.elementSize := Nat.mul_le_mul_right _ hf
  have hdl : a.length * a.elementSize = xs.flatten.length := by
    rw [← h.data, List.length_take, h.blk]; omega
  have h1 : (a.capacity + a.capacity / 2) % 2 ^ 64 = a.capacity + a.capacity / 2 :=
    Nat.mod_eq_of_lt (by omega)
  have h2 : (a.capacity + a.capacity / 2) * a.elementSize % 2 ^ 64 =
      (a.capacity + a.capacity / 2) * a.elementSize := by
    apply Nat.mod_eq_of_lt
    have : a.capacity / 2 * a.elementSize * 2 ≤ a.capacity * a.elementSize := by
      rw [Nat.mul_right_comm]
      exact Nat.mul_le_mul_right _ (Nat.div_mul_le_self _ _)
    rw [Nat.add_mul]; omega
  have h3 : a.capacity * a.elementSize ≤ (a.capacity + a.capacity / 2) * a.elementSize :=
    Nat.mul_le_mul_right _ (by omega)
  unfold grow
  simp only [h1, h2]
  cases hg : grants ok ((a.capacity + a.capacity / 2) * a.elementSize) with
  | false => exact ⟨a, false, by simp, h, rfl, by simp, fun _ => rfl⟩
  | true =>
    simp only [Bool.true_eq_false, if_false]
    have hb : (a.capacity + a.capacity / 2) * a.elementSize < 2 ^ 63 := by
      simp only [grants, Bool.and_eq_true, decide_eq_true_eq] at hg; exact hg.2
    generalize hB : (a.capacity + a.capacity / 2) * a.elementSize = B at *
    cases hi : a.internal with
    | true =>
      simp only [if_true]
      rw [Nat.mod_eq_of_lt (show a.length * a.elementSize < 2 ^ 64 by omega)]
      rw [Mem.load_eq_some (by rw [h.blk]; omega)]
      simp only [List.drop_zero, h.data]
      rw [Mem.store_eq_some (by rw [List.length_map, List.length_range]; omega)]
      refine ⟨_, true, rfl, ?_, rfl, fun _ => by simp only; omega, by simp⟩
      refine ⟨hp, by simp only; omega, ?_, by simp only; omega, h.len, by simp only; omega, h.size, ?_⟩
      · simp only [List.take_zero, List.nil_append, Nat.zero_add, List.length_append,
          List.length_drop, List.length_map, List.length_range]
        omega
      · simp only [List.take_zero, List.nil_append, hdl, List.take_left]
    | false =>
      simp only [Bool.false_eq_true, if_false]
      refine ⟨_, true, rfl, ?_, rfl, fun _ => by simp only; omega, by simp⟩
      refine ⟨hp, by simp only; omega, ?_, by simp only; omega, h.len, by simp only; omega, h.size, ?_⟩
      · simp only [List.length_append, List.length_take, List.length_map, List.length_range, h.blk]
        omega
      · simp only
        rw [List.take_append_of_le_length (by rw [List.length_take, h.blk]; omega), List.take_take,
          Nat.min_eq_left (by omega), h.data]

theorem append_holds (a : Arr) (xs : List (List Byte)) (h : Holds a xs) (src : Mem)
    (hsrc : a.elementSize ≤ src.length) (ok : Bool) (junk : Nat → Byte) :
    ∃ a' b, appendPtr a src ok junk = some (a', b) ∧ a'.elementSize = a.elementSize ∧
      Holds a' (if b then xs ++ [src.take a.elementSize] else xs) ∧
      (b = false → a' = a) ∧ (b = true ∨ a.length = a.capacity) := by
  have key : ∃ a1 b, ensureRoom a ok junk = some (a1, b) ∧ Holds a1 xs ∧
      a1.elementSize = a.elementSize ∧ (b = true → a1.length < a1.capacity) ∧ (b = false → a1 = a) ∧
      (b = true ∨ a.length = a.capacity) := by
    unfold ensureRoom
    split
    · rename_i hl
      obtain ⟨a1, b, e1, e2, e3, e4, e5⟩ := grow_holds a xs h ok junk
      refine ⟨a1, b, e1, e2, e3, fun hb => ?_, e5, Or.inr hl⟩
      have := e4 hb
      rw [e2.len, ← h.len]; omega
    · exact ⟨a, true, rfl, h, rfl, fun _ => by have := h.fits; omega, by simp, Or.inl rfl⟩
  obtain ⟨a1, b, e1, e2, e3, e4, e5, e6⟩ := key
  unfold appendPtr
  rw [e1]
  cases b with
  | false => exact ⟨a1, false, rfl, e3, by simpa using e2, e5, e6⟩
  | true =>
    have hl := e4 rfl
    have hp := e2.pos
    have hs := e2.small
    have hcap : a1.capacity ≤ a1.capacity * a1.elementSize := Nat.le_mul_of_pos_right _ hp
    have hmul : a1.length * a1.elementSize + a1.elementSize ≤ a1.capacity * a1.elementSize := by
      rw [← Nat.succ_mul]; exact Nat.mul_le_mul_right _ hl
    have hdl : a1.length * a1.elementSize = xs.flatten.length := by
      rw [← e2.data, List.length_take, e2.blk]; omega
    simp only [Nat.mod_eq_of_lt (show a1.length + 1 < 2 ^ 64 by omega), atOff, Nat.add_sub_cancel,
      Nat.mod_eq_of_lt (show a1.length * a1.elementSize < 2 ^ 64 by omega)]
    rw [Mem.load_eq_some (by omega)]
    simp only [List.drop_zero]
    have hbl : (src.take a1.elementSize).length = a1.elementSize := by
      rw [List.length_take]; omega
    rw [Mem.store_eq_some (by rw [hbl, e2.blk]; omega)]
    refine ⟨_, true, rfl, e3, ?_, by simp, Or.inl rfl⟩
    simp only [if_true, ← e3]
    refine ⟨hp, e2.cap4, ?_, hs, ?_, ?_, ?_, ?_⟩
    · simp only
      rw [Mem.store_length _ _ _ (by rw [hbl, e2.blk]; omega)]; exact e2.blk
    · simp [e2.len]
    · simp only; omega
    · intro x hx
      rcases List.mem_append.mp hx with hx | hx
      · exact e2.size x hx
      · simp only [List.mem_singleton] at hx; rw [hx, hbl]
    · simp only
      rw [e2.data, List.take_append_of_le_length (by
        rw [List.length_append, hbl, ← hdl, Nat.succ_mul]; exact Nat.le_refl _)]
      rw [List.take_of_length_le (by
        rw [List.length_append, hbl, ← hdl, Nat.succ_mul]; exact Nat.le_refl _)]
      simp

/-- The elements accepted by a sequence of appends. -/
def accepted (es : Nat) : List (Mem × Bool × (Nat → Byte)) → List Bool → List (List Byte)
  | (src, _) :: rest, b :: bs => (if b then [src.take es] else []) ++ accepted es rest bs
  | _, _ => []

theorem appends_holds (cs : List (Mem × Bool × (Nat → Byte))) :
    ∀ (a : Arr) (xs : List (List Byte)), Holds a xs →
      (∀ c ∈ cs, a.elementSize ≤ c.1.length) →
      ∃ a' bs, appends a cs = some (a', bs) ∧ Holds a' (xs ++ accepted a.elementSize cs bs) ∧
        a'.elementSize = a.elementSize ∧ bs.length = cs.length := by
  induction cs with
  | nil => intro a xs h _; exact ⟨a, [], rfl, by simpa [accepted] using h, rfl, rfl⟩
  | cons c cs ih =>
    intro a xs h hc
    obtain ⟨src, ok, junk⟩ := c
    obtain ⟨a1, b, e1, e2, e3, _⟩ := append_holds a xs h src (hc (src, ok, junk) (by simp)) ok junk
    obtain ⟨a2, bs, f1, f2, f3, f4⟩ := ih a1 _ e3 (fun c h' => by rw [e2]; exact hc c (by simp [h']))
    refine ⟨a2, b :: bs, by simp [appends, e1, f1], ?_, f3.trans e2, by simp [f4]⟩
    rw [e2] at f2
    cases b <;> simpa [accepted] using f2

/-- **C23.** Create an array whose initial storage size is representable, then append any number of
elements, with any allocator behaviour and any garbage in fresh memory: no access leaves the storage;
the length is the number of successful appends; and reading position `i` gives the bytes of the i-th
successfully appended element. -/
theorem append_at_stable (es cap : Nat) (ok : Bool) (hes : 0 < es)
    (hov : 32 + es * (if cap < 4 then 4 else cap) < 2 ^ 64) (a : Arr)
    (hnew : newWithCapacity es cap ok = some a) (cs : List (Mem × Bool × (Nat → Byte)))
    (hsrc : ∀ c ∈ cs, es ≤ c.1.length) :
    ∃ a' bs, appends a cs = some (a', bs) ∧ bs.length = cs.length ∧
      a'.length = (accepted es cs bs).length ∧ a'.length = bs.count true ∧
      ∀ i (hi : i < (accepted es cs bs).length), readAt a' i = some (accepted es cs bs)[i] := by
  have he : a.elementSize = es := by
    unfold newWithCapacity at hnew
    simp only at hnew
    generalize (if cap < 4 then 4 else cap) = c at *
    split at hnew
    · simp only [Option.some.injEq] at hnew; rw [← hnew]
    · cases hnew
  obtain ⟨a', bs, h1, h2, h3, h4⟩ := appends_holds cs a [] (new_holds es cap ok hes hov a hnew)
    (by rw [he]; exact hsrc)
  rw [he] at h2 h3
  simp only [List.nil_append] at h2
  refine ⟨a', bs, h1, h4, h2.len, ?_, ?_⟩
  · rw [h2.len]
    clear h1 h2 hsrc
    induction cs generalizing bs with
    | nil => cases bs with
      | nil => rfl
      | cons b bs => simp at h4
    | cons c cs ih => cases bs with
      | nil => simp at h4
      | cons b bs =>
        have := ih bs (by simpa using h4)
        cases b <;> simp [accepted, this] <;> omega
  · intro i hi
    have hl := h2.len
    have hmul : i * es + es ≤ a'.length * es := by
      rw [← Nat.succ_mul]; exact Nat.mul_le_mul_right _ (by omega)
    have hmul2 : a'.length * es ≤ a'.capacity * es := Nat.mul_le_mul_right _ h2.fits
    have hs := h2.small
    rw [h3] at hs
    unfold readAt atOff
    rw [h3, Nat.mod_eq_of_lt (by omega), Mem.load_eq_some (by rw [h2.blk, h3]; omega)]
    have hd := h2.data
    rw [h3] at hd
    have := flatten_drop_take es _ (fun x hx => (h2.size x hx).trans h3) i hi
    rw [← hd] at this
    rw [← this, List.drop_take, List.take_take, Nat.min_eq_left (by omega)]

/-- **C23** (failure). An append that returns false leaves the array exactly as it was. -/
theorem failed_append_unchanged (a : Arr) (xs : List (List Byte)) (h : Holds a xs) (src : Mem)
    (hsrc : a.elementSize ≤ src.length) (ok : Bool) (junk : Nat → Byte) (a' : Arr)
    (hf : appendPtr a src ok junk = some (a', false)) : a' = a := by
  obtain ⟨a1, b, e1, _, _, e4, _⟩ := append_holds a xs h src hsrc ok junk
  rw [hf] at e1
  simp only [Option.some.injEq, Prod.mk.injEq] at e1
  rw [e1.1]; exact e4 e1.2.symm

/-- An append with spare capacity always succeeds, without asking the allocator. -/
theorem append_with_room (a : Arr) (xs : List (List Byte)) (h : Holds a xs) (src : Mem)
    (hsrc : a.elementSize ≤ src.length) (ok : Bool) (junk : Nat → Byte) (hroom : a.length < a.capacity) :
    ∃ a', appendPtr a src ok junk = some (a', true) := by
  obtain ⟨a1, b, e1, _, _, _, e5⟩ := append_holds a xs h src hsrc ok junk
  rcases e5 with rfl | e5
  · exact ⟨a1, e1⟩
  · omega

theorem le32_take (v n : Nat) (h : n ≤ 4) : (le32 v).take n = (List.range n).map fun i => UInt8.ofNat (v / 256 ^ i) := by
  match n, h with
  | 0, _ => rfl
  | 1, _ => simp [le32, List.range, List.range.loop]
  | 2, _ => simp [le32, List.range, List.range.loop]
  | 3, _ => simp [le32, List.range, List.range.loop]
  | 4, _ => simp [le32, List.range, List.range.loop]

/-- `array_append_value` stores the lowest `element_size` bytes of the value, least significant first, for element sizes up
to 4. -/
theorem append_value_low_bytes (a : Arr) (xs : List (List Byte)) (h : Holds a xs) (v : Nat)
    (hes : a.elementSize ≤ 4) (ok : Bool) (junk : Nat → Byte) :
    ∃ a' b, appendValue a v ok junk = some (a', b) ∧
      Holds a' (if b then xs ++ [(List.range a.elementSize).map fun i => UInt8.ofNat (v / 256 ^ i)] else xs) := by
  obtain ⟨a', b, h1, _, h3, _⟩ := append_holds a xs h (le32 v) (by simpa [le32] using hes) ok junk
  rw [le32_take v _ hes] at h3
  exact ⟨a', b, h1, h3⟩

/-- Finding: the header's "only the lowest element_size bytes will be stored" does not cover element
sizes above 4, where the 4-byte parameter is over-read. -/
theorem append_value_overread (a : Arr) (v : Nat)
    (hes : 4 < a.elementSize) (ok : Bool) (junk : Nat → Byte) (hroom : a.length < a.capacity) :
    appendValue a v ok junk = none := by
  unfold appendValue appendPtr ensureRoom
  rw [if_neg (by omega)]
  have : (le32 v).load 0 a.elementSize = none := by
    simp only [Mem.load, le32, List.length_cons, List.length_nil]
    exact if_neg (by omega)
  simp only [this]

/-- Finding: the creation product `element_size * init_capacity` is not checked for overflow: with a
2^40-byte element and capacity 2^24 it wraps to 0, creation succeeds with no storage at all and the
first append writes outside. -/
theorem create_overflow_unsafe (src : Mem) (hsrc : 2 ^ 40 ≤ src.length) (ok : Bool)
    (junk : Nat → Byte) :
    ∃ a, newWithCapacity (2 ^ 40) (2 ^ 24) true = some a ∧ a.block.length = 0 ∧
      src.load 0 a.elementSize ≠ none ∧ appendPtr a src ok junk = none := by
  have hl : src.load 0 (2 ^ 40) = some ((src.drop 0).take (2 ^ 40)) := Mem.load_eq_some (by omega)
  refine ⟨⟨2 ^ 40, 0, 2 ^ 24, true, []⟩, by decide, rfl, by rw [hl]; simp, ?_⟩
  unfold appendPtr ensureRoom
  rw [if_neg (by simp)]
  simp only [hl]
  have : Mem.store [] (atOff ⟨2 ^ 40, (0 + 1) % 2 ^ 64, 2 ^ 24, true, []⟩ ((0 + 1) % 2 ^ 64 - 1))
      (List.take (2 ^ 40) (List.drop 0 src)) = none := by
    unfold Mem.store
    rw [if_neg]
    simp only [List.length_take, List.length_drop, List.length_nil, Nat.sub_zero]
    omega
  simp only [this]

/-! ### Witness: growth from 4 to 6 to 9 with failures in between -/

def demoCalls : List (Mem × Bool × (Nat → Byte)) :=
  [([1, 2, 99], true, fun _ => 7), ([3, 4], true, fun _ => 7), ([5, 6], true, fun _ => 7),
   ([7, 8], true, fun _ => 7), ([9, 10], false, fun _ => 7), ([11, 12], true, fun _ => 7),
   ([13, 14], true, fun _ => 7), ([15, 16], true, fun _ => 7)]

example : (newWithCapacity 2 0 true).bind (fun a => (appends a demoCalls).map
    (fun r => (r.2, r.1.capacity, r.1.length))) =
    some ([true, true, true, true, false, true, true, true], 9, 7) := by decide +kernel

example : (newWithCapacity 2 0 true).bind (fun a => (appends a demoCalls).bind
    (fun r => readAt r.1 4)) = some [11, 12] := by decide +kernel

end Verif.CArray
