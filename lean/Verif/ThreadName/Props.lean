import Verif.ThreadName.Spec
/-!
# C108: names of threads
-/
namespace Verif.ThreadName
open Verif.Strings (decText)

/-- **C108.** What `portable_thread_set_current_name` answers: 0 exactly if the caller now has the name, cut to 15 bytes in the build
without `pthread_setname_np`; otherwise -1 (no name) or 34 (too long) and nothing has changed.  No other thread's name changes. -/
theorem set_current (np : Bool) (s : Names) (t : Nat) (name : Option (List Byte)) :
    (∀ u, u ≠ t → (setCurrent np s t name).1 u = s u) ∧
    ((setCurrent np s t name).2 = 0 → ∃ x, name = some x ∧ x ≠ [] ∧ (setCurrent np s t name).1 t = some (x.take 15) ∧
      (np = true → x.length ≤ 15)) ∧
    ((setCurrent np s t name).2 ≠ 0 → (setCurrent np s t name).1 = s ∧
      ((name = none ∨ name = some []) ∧ (setCurrent np s t name).2 = -1 ∨
        np = true ∧ (∃ x, name = some x ∧ 15 < x.length) ∧ (setCurrent np s t name).2 = 34)) := by
  match name with
  | none => simp [setCurrent]
  | some [] => simp [setCurrent]
  | some (c :: cs) =>
    cases np with
    | false =>
      simp only [setCurrent, prctlName, Bool.false_eq_true, if_false]
      refine ⟨fun u hu => if_neg hu, fun _ => ⟨_, rfl, by simp, if_pos rfl, nofun⟩, fun h => absurd rfl h⟩
    | true =>
      simp only [setCurrent, if_true, setnameNp]
      by_cases h : 15 < (c :: cs).length
      · rw [if_pos h]
        refine ⟨fun _ _ => rfl, fun h0 => by simp at h0, fun _ => ⟨rfl, .inr ⟨?_, ⟨_, rfl, h⟩, rfl⟩⟩⟩
        trivial
      · rw [if_neg h]
        refine ⟨fun u hu => if_neg hu, fun _ => ⟨_, rfl, by simp, ?_, fun _ => by omega⟩, fun h0 => absurd rfl h0⟩
        show (if t = t then _ else _) = _
        rw [if_pos rfl, List.take_of_length_le (by omega)]

theorem poolName_short (id : Nat) : (poolName id).length ≤ 15 := by
  unfold poolName; rw [List.length_take]; omega

theorem set_true (s : Names) (u t : Nat) (c : Byte) (cs : List Byte) :
    (setCurrent true s u (some (c :: cs))).1 t = if t = u ∧ (c :: cs).length ≤ 15 then some (c :: cs) else s t := by
  simp only [setCurrent, if_true, setnameNp]
  split
  · rw [if_neg (by omega)]
  · show (if t = u then _ else _) = _
    by_cases h : t = u
    · rw [if_pos h, if_pos ⟨h, by omega⟩]
    · rw [if_neg h, if_neg (fun hc => h hc.1)]

theorem set_false (s : Names) (u t : Nat) (c : Byte) (cs : List Byte) :
    (setCurrent false s u (some (c :: cs))).1 t = if t = u then some ((c :: cs).take 15) else s t := by
  simp only [setCurrent, prctlName, upd, Bool.false_eq_true, if_false]

/-- One more event. -/
theorem step_name {np : Bool} {first : Nat × List Byte} {past : List Ev} {s s' : Names} {e : Ev}
    (h : ∀ t, s t = nameOf np first past t) (hs : step np s e = some s') (t : Nat) : s' t = nameOf np first (e :: past) t := by
  cases e with
  | make p u =>
    simp only [step] at hs
    split at hs
    · cases hs
    · obtain ⟨x, h1, h2⟩ := Option.map_eq_some_iff.1 hs
      cases h2
      simp only [nameOf, upd]
      split
      · rw [← h, h1]
      · exact h t
  | given u name =>
    simp only [step] at hs
    split at hs
    · cases hs
      match name with
      | none => exact h t
      | some [] => simpa [nameOf, nameNew, Short] using h t
      | some (c :: cs) =>
        simp only [nameOf, nameNew, setnameNp]
        by_cases h1 : 15 < (c :: cs).length
        · rw [if_pos h1, if_neg (fun hc => by have := hc.2.2; omega)]; exact h t
        · rw [if_neg h1]
          by_cases h2 : t = u
          · rw [if_pos ⟨h2, by simp, by omega⟩]; exact if_pos h2
          · rw [if_neg (fun hc => h2 hc.1)]; show (if _ then _ else _) = _; rw [if_neg h2]; exact h t
    · cases hs
  | self u name =>
    simp only [step] at hs
    split at hs
    · cases hs
      match name with
      | none => exact h t
      | some [] => simpa [nameOf, setCurrent, Short] using h t
      | some (c :: cs) =>
        simp only [nameOf]
        cases np with
        | true =>
          rw [set_true, h t]
          by_cases h1 : t = u ∧ (c :: cs).length ≤ 15
          · rw [if_pos h1, if_pos ⟨h1.1, by simp, h1.2⟩]
          · rw [if_neg h1, if_neg (fun hc => h1 ⟨hc.1, hc.2.2⟩), if_neg (by simp)]
        | false =>
          rw [set_false, h t]
          by_cases h1 : t = u
          · rw [if_pos h1]
            split
            · rename_i h2; rw [List.take_of_length_le h2.2.2]
            · rw [if_pos ⟨h1, by simp, rfl⟩]
          · rw [if_neg h1, if_neg (fun hc => h1 hc.1), if_neg (fun hc => h1 hc.1)]
    · cases hs
  | worker u id =>
    simp only [step] at hs
    split at hs
    · cases hs
      simp only [nameOf, prctlName, upd]
      split
      · rw [List.take_of_length_le (poolName_short id)]
      · exact h t
    · cases hs

/-- **C108, histories.** Whatever threads are made and however naming by themselves, by their creators and by pools interleaves, every
thread has the name of the last naming that took effect, or else the name its creator had when it was made. -/
theorem name_after {np : Bool} {first : Nat × List Byte} {es : List Ev} {s : Names}
    (h : run np (fun t => if t = first.1 then some first.2 else none) es = some s) (t : Nat) : s t = nameOf np first es.reverse t := by
  have key : ∀ (es past : List Ev) (s0 : Names), (∀ t, s0 t = nameOf np first past t) → run np s0 es = some s →
      ∀ t, s t = nameOf np first (es.reverse ++ past) t := by
    intro es
    induction es with
    | nil => intro past s0 h0 hr t; cases hr; exact h0 t
    | cons e es ih =>
      intro past s0 h0 hr t
      obtain ⟨s1, h1, h2⟩ := Option.bind_eq_some_iff.1 hr
      rw [List.reverse_cons, List.append_assoc]
      exact ih (e :: past) s1 (step_name h0 h1) h2 t
  have := key es [] _ (fun t => rfl) h t
  rwa [List.append_nil] at this

/-- **Finding.** A name of 16 or more bytes given to `portable_thread_create` is lost: the thread keeps its creator's name, and the
answer of `pthread_setname_np` is thrown away. -/
theorem given_too_long (s : Names) (t : Nat) {x : List Byte} (h : 15 < x.length) : nameNew s t (some x) = s := by
  match x with
  | [] => rfl
  | c :: cs => simp only [nameNew, setnameNp]; rw [if_pos h]

/-- The two builds agree exactly for names that fit. -/
theorem builds_agree (s : Names) (t : Nat) {x : List Byte} (hx : x ≠ []) :
    (setCurrent true s t (some x)).2 = (setCurrent false s t (some x)).2 ↔ x.length ≤ 15 := by
  match x with
  | [] => exact absurd rfl hx
  | c :: cs =>
    simp only [setCurrent, prctlName, Bool.false_eq_true, if_false, if_true, setnameNp]
    split <;> simp <;> simp at * <;> omega

theorem decText_inj {a b : Nat} (h : decText a = decText b) : a = b := by
  rw [← decText_value a, ← decText_value b, h]

/-- The names of the workers of a pool: complete and different from each other for numbers below 10^8 … -/
theorem pool_names {i j : Nat} (hi : i < 10 ^ 8) (hj : j < 10 ^ 8) :
    poolName i = prefix7 ++ decText i ∧ (poolName i = poolName j → i = j) := by
  have full : ∀ {n : Nat}, n < 10 ^ 8 → poolName n = prefix7 ++ decText n := by
    intro n hn
    have := (decText_length_le (n := n) (k := 8) (by omega)).2 hn
    unfold poolName
    rw [List.take_of_length_le]
    rw [List.length_append]
    have : prefix7.length = 7 := rfl
    omega
  refine ⟨full hi, fun h => ?_⟩
  rw [full hi, full hj] at h
  exact decText_inj (List.append_cancel_left h)

/-- … and no further. -/
theorem pool_names_collide : poolName 100000000 = poolName 100000001 := by decide +kernel

/-- A thread makes another, names it "net" (110 101 116); this one makes a third, which keeps that name; the second renames itself. -/
example : (run true (fun t => if t = 0 then some [109] else none)
    [.make 0 1, .given 1 (some [110, 101, 116]), .make 1 2, .given 2 (some (List.replicate 16 120)), .self 1 (some [98]), .make 0 3,
      .worker 3 4]).map (fun s => [s 0, s 1, s 2, s 3, s 4]) =
    some [some [109], some [98], some [110, 101, 116], some [116, 104, 112, 111, 111, 108, 45, 52], none] := by decide +kernel

end Verif.ThreadName
