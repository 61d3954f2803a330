import Verif.Asprintf.Model
/-!
# C101: `vscprintf`, `vasprintf` and `asprintf` for every text, every heap and every answer of `malloc`
-/
namespace Verif.Asprintf

/-- What `malloc` may answer: nothing, or a place that is not `NULL` and not in use. -/
def Fresh (heap : List (Nat × Mem)) : Option Nat → Prop
  | none => True
  | some a => a ≠ 0 ∧ ∀ p ∈ heap, p.1 ≠ a

theorem filter_fresh {heap : List (Nat × Mem)} {a : Nat} (h : ∀ p ∈ heap, p.1 ≠ a) :
    heap.filter (fun p => p.1 != a) = heap := by
  rw [List.filter_eq_self]
  intro p hp
  simp [h p hp]

theorem map_fresh {heap : List (Nat × Mem)} {a : Nat} {m : Mem} (h : ∀ p ∈ heap, p.1 ≠ a) :
    heap.map (fun p => if p.1 == a then (a, m) else p) = heap := by
  conv => rhs; rw [← List.map_id heap]
  apply List.map_congr_left
  intro p hp
  simp [h p hp]

theorem store0 {m : Mem} {bs : List Byte} (h : bs.length ≤ m.length) :
    m.store 0 bs = some (bs ++ m.drop bs.length) := by
  simp [Mem.store, h]

/-- **C101** (GNU, used by callers that size a buffer): `vscprintf` answers the number of bytes the text has — the
number a following `vsnprintf` with the *same* argument list writes —, `-1` exactly if formatting fails or the
length is no `int`, and it does not consume the caller's arguments. -/
theorem vscprintf_counts {V : Type} (render : V → Print × V) (ap : V) :
    ∃ r, vscprintfGnu render ap = some (r, ap) ∧
      ((∃ t, (render ap).1 = .text t ∧ t.length ≤ 2147483647 ∧ r = t.length) ∨
       (r = -1 ∧ ∀ t, (render ap).1 = .text t → 2147483647 < t.length)) := by
  unfold vscprintfGnu
  cases h : (render ap).1 with
  | err w => exact ⟨-1, by simp [h, vsnprintf, Mem.store], .inr ⟨rfl, nofun⟩⟩
  | text t =>
    by_cases hl : INT_MAX < t.length
    · refine ⟨-1, by simp [h, vsnprintf, Mem.store, hl], .inr ⟨rfl, ?_⟩⟩
      rintro t' ⟨⟩
      exact hl
    · refine ⟨t.length, by simp [h, vsnprintf, hl], .inl ⟨t, rfl, ?_, rfl⟩⟩
      simp [INT_MAX] at hl
      exact hl

/-- The general step: what a successful second pass leaves. -/
theorem second_ok {heap : List (Nat × Mem)} {a : Nat} {junk : Nat → Byte} {t u : List Byte} {p0 : Nat}
    (hf : Fresh heap (some a)) (ht : t.length < 2147483647) (hu : u.length ≤ 2147483647) :
    vasprintf (some a) junk (.text t) (.text u) ⟨heap, p0⟩ =
      some ((⟨(a, u.take t.length ++ [0] ++
        ((List.range (t.length + 1)).map junk).drop (min t.length u.length + 1)) :: heap, a⟩ : St), (u.length : Int)) := by
  have h1 : ¬ INT_MAX < t.length := by simp [INT_MAX]; omega
  have h2 : ¬ INT_MAX < u.length := by simp [INT_MAX]; omega
  have h3 : ¬ ((t.length : Int) + 1 > (INT_MAX : Int)) := by simp [INT_MAX]; omega
  have h4 : ((t.length : Int) + 1).toNat = t.length + 1 := by omega
  have h5 : ¬ ((t.length : Int) = -1) := by omega
  have h6 : ¬ ((u.length : Int) = -1) := by omega
  simp only [vasprintf, vscprintf, h1, if_false, h5, malloc, Int.toNat_natCast, h3, blockAt,
    List.find?_cons, beq_self_eq_true, Option.map_some, h4, vsnprintf, h2, bind, Option.bind]
  rw [if_neg (by omega), show t.length + 1 - 1 = t.length by omega,
    store0 (by simp; omega)]
  simp only [pure, h6, if_false, setBlock, List.map_cons, beq_self_eq_true, if_true, map_fresh hf.2]
  simp

/-- **C101** (success): if `malloc` gives a block and both passes see the same text, `asprintf` returns its length,
`*strp` is the new block, which has exactly one byte more than the text and holds the text and a NUL, and every
other block is as before. -/
theorem asprintf_text {heap : List (Nat × Mem)} {a p0 : Nat} {junk : Nat → Byte} {t : List Byte}
    (hf : Fresh heap (some a)) (ht : t.length < 2147483647) :
    asprintf (some a) junk (.text t) (.text t) ⟨heap, p0⟩ =
      some ((⟨(a, t ++ [0]) :: heap, a⟩ : St), (t.length : Int)) := by
  rw [asprintf, second_ok hf ht (by omega)]
  simp

/-- … and if the text has no NUL, what the caller reads at `*strp` is that text. -/
theorem asprintf_reads_back {heap : List (Nat × Mem)} {a p0 : Nat} {junk : Nat → Byte} {t : List Byte}
    (hf : Fresh heap (some a)) (ht : t.length < 2147483647) (hz : ∀ c ∈ t, c ≠ 0) :
    ∃ (s : St) (m : Mem), asprintf (some a) junk (.text t) (.text t) ⟨heap, p0⟩ = some (s, (t.length : Int)) ∧
      (s.strp, m) ∈ s.heap ∧ m.cstr 0 = some t ∧ m.length = t.length + 1 ∧ s.strp ≠ 0 := by
  refine ⟨_, _, asprintf_text hf ht, List.mem_cons_self .., ?_, by simp, hf.1⟩
  exact Mem.cstr_zero (after := []) (fun h => hz 0 h rfl)

/-- **C101** (failure): if formatting fails in either pass or no memory is left, the answer is `-1`, `*strp` is
what it was, no block has been added, none lost and none changed. -/
theorem asprintf_fails {heap : List (Nat × Mem)} {ans : Option Nat} {p0 : Nat} {junk : Nat → Byte}
    {first second : Print} (hf : Fresh heap ans) (hl : ∀ t, first = .text t → t.length ≠ 2147483647)
    (hfail : (∀ t, first ≠ .text t) ∨ (∃ t, first = .text t ∧ 2147483647 < t.length) ∨ ans = none ∨
      (∀ t, second ≠ .text t) ∨ (∃ t, second = .text t ∧ 2147483647 < t.length)) :
    asprintf ans junk first second ⟨heap, p0⟩ = some (⟨heap, p0⟩, -1) := by
  unfold asprintf
  cases first with
  | err w => simp [vasprintf, vscprintf]
  | text t =>
    by_cases h1 : INT_MAX < t.length
    · simp [vasprintf, vscprintf, h1]
    have hl' := hl t rfl
    have h1' : ¬ 2147483647 < t.length := h1
    cases ans with
    | none =>
      simp only [vasprintf, vscprintf, h1, if_false, malloc]
      rw [if_neg (by omega)]
    | some a =>
      have h3 : ¬ ((t.length : Int) + 1 > (INT_MAX : Int)) := by simp [INT_MAX]; omega
      have h4 : ((t.length : Int) + 1).toNat = t.length + 1 := by omega
      have h5 : ¬ ((t.length : Int) = -1) := by omega
      simp only [vasprintf, vscprintf, h1, if_false, h5, malloc, Int.toNat_natCast, h3, blockAt,
        List.find?_cons, beq_self_eq_true, Option.map_some, h4, bind, Option.bind]
      have key : ∃ m, vsnprintf ((List.range (t.length + 1)).map junk) (t.length + 1) second
          = some (m, -1) := by
        cases second with
        | err w =>
          have hw : (w.take (t.length + 1)).length ≤ ((List.range (t.length + 1)).map junk).length := by
            simp; omega
          simp [vsnprintf, store0 hw]
        | text u =>
          have hu : INT_MAX < u.length := by
            rcases hfail with h | ⟨t', e, h⟩ | h | h | ⟨t', e, h⟩
            · exact absurd rfl (h t)
            · cases e; exact absurd h h1'
            · cases h
            · exact absurd rfl (h u)
            · cases e; exact h
          have hw : (u.take (t.length + 1)).length ≤ ((List.range (t.length + 1)).map junk).length := by
            simp; omega
          simp [vsnprintf, store0 hw, hu]
      obtain ⟨m, e⟩ := key
      rw [e]
      simp only [setBlock, List.map_cons, map_fresh hf.2]
      simp [free, filter_fresh hf.2]

/-- **C101** (safety, whatever another thread does to the arguments between the passes): nothing is undefined
unless the text has exactly `INT_MAX` bytes; afterwards either the heap and `*strp` are untouched (and the answer is
`-1`), or exactly one block has been added, `*strp` is it, and it holds a NUL-terminated prefix of the second
text. -/
theorem asprintf_safe {heap : List (Nat × Mem)} {ans : Option Nat} {p0 : Nat} {junk : Nat → Byte}
    {first second : Print} (hf : Fresh heap ans) (hl : ∀ t, first = .text t → t.length ≠ 2147483647) :
    asprintf ans junk first second ⟨heap, p0⟩ = some (⟨heap, p0⟩, -1) ∨
    ∃ a t u m rest, ans = some a ∧ first = .text t ∧ second = .text u ∧
      asprintf ans junk first second ⟨heap, p0⟩ = some ((⟨(a, m) :: heap, a⟩ : St), (u.length : Int)) ∧
      m = u.take t.length ++ [0] ++ rest ∧ m.length = t.length + 1 := by
  by_cases hfail : (∀ t, first ≠ .text t) ∨ (∃ t, first = .text t ∧ 2147483647 < t.length) ∨ ans = none ∨
      (∀ t, second ≠ .text t) ∨ (∃ t, second = .text t ∧ 2147483647 < t.length)
  · exact .inl (asprintf_fails hf hl hfail)
  · right
    cases ans with
    | none => exact absurd (.inr (.inr (.inl rfl))) hfail
    | some a =>
      cases first with
      | err w => exact absurd (.inl nofun) hfail
      | text t =>
        cases second with
        | err w => exact absurd (.inr (.inr (.inr (.inl nofun)))) hfail
        | text u =>
          have h1 : ¬ 2147483647 < t.length := fun h => hfail (.inr (.inl ⟨t, rfl, h⟩))
          have h2 : ¬ 2147483647 < u.length := fun h => hfail (.inr (.inr (.inr (.inr ⟨u, rfl, h⟩))))
          have := hl t rfl
          refine ⟨a, t, u, _, _, rfl, rfl, rfl, second_ok hf (by omega) (by omega), rfl, ?_⟩
          simp; omega

/-- **C101** (finding): if the second text is longer than the first, the answer is larger than the number of
bytes before the NUL: `(*strp)[answer]` lies outside the block. -/
theorem answer_beyond_block {heap : List (Nat × Mem)} {a p0 : Nat} {junk : Nat → Byte} {t u : List Byte}
    (hf : Fresh heap (some a)) (h : t.length < u.length) (hu : u.length ≤ 2147483647) :
    ∃ m : Mem, asprintf (some a) junk (.text t) (.text u) ⟨heap, p0⟩ = some ((⟨(a, m) :: heap, a⟩ : St), (u.length : Int)) ∧
      m.length ≤ u.length ∧ m[u.length]? = none := by
  refine ⟨_, second_ok hf (by omega) hu, ?_, ?_⟩
  · simp; omega
  · rw [List.getElem?_eq_none]; simp; omega

/-- **C101** (finding): for a text of `INT_MAX` bytes that fits into memory, `len + 1` leaves `int`. -/
theorem int_max_undefined {heap : List (Nat × Mem)} {a p0 : Nat} {junk : Nat → Byte} {t : List Byte} {second : Print}
    (ht : t.length = 2147483647) : asprintf (some a) junk (.text t) second ⟨heap, p0⟩ = none := by
  have h1 : ¬ INT_MAX < t.length := by simp [INT_MAX]; omega
  have h5 : ¬ ((t.length : Int) = -1) := by omega
  have h3 : ((t.length : Int) + 1 > (INT_MAX : Int)) := by simp [INT_MAX]; omega
  simp only [asprintf, vasprintf, vscprintf, h1, if_false, h5, malloc, h3, if_true]

/-! ### The hypotheses are met -/

/-- `asprintf(&p, "%s=%s", "k", "v")` with one other block alive. -/
example : asprintf (some 0x900) (fun _ => 0xcd) (.text [107, 61, 118]) (.text [107, 61, 118])
      ⟨[(0x700, [1, 2])], 0⟩ =
    some (⟨[(0x900, [107, 61, 118, 0]), (0x700, [1, 2])], 0x900⟩, 3) :=
  asprintf_text (heap := [(0x700, [1, 2])]) ⟨by decide, by decide⟩ (by decide)

/-- No memory. -/
example : asprintf none (fun _ => 0xcd) (.text [107]) (.text [107]) ⟨[(0x700, [1, 2])], 5⟩ =
    some (⟨[(0x700, [1, 2])], 5⟩, -1) :=
  asprintf_fails trivial (by rintro t ⟨⟩; decide) (.inr (.inr (.inl rfl)))

/-- The second pass fails: the block is given back. -/
example : asprintf (some 0x900) (fun _ => 0xcd) (.text [107]) (.err [107]) ⟨[(0x700, [1, 2])], 5⟩ =
    some (⟨[(0x700, [1, 2])], 5⟩, -1) :=
  asprintf_fails (heap := [(0x700, [1, 2])]) ⟨by decide, by decide⟩ (by rintro t ⟨⟩; decide)
    (.inr (.inr (.inr (.inl nofun))))

/-- A text of `INT_MAX` bytes exists. -/
example : ∃ t : List Byte, t.length = 2147483647 := ⟨List.replicate 2147483647 0, by rw [List.length_replicate]⟩

end Verif.Asprintf
