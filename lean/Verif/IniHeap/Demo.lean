import Verif.IniHeap.Props
/-!
# C97: the hypotheses are met
-/
namespace Verif.IniHeap
open Classical in
/-- The first-fit allocator: some free cell, as long as there is one. -/
noncomputable def anyFree : Policy := fun h _ => if e : ∃ a : Nat, a ≠ 0 ∧ h a = none then some e.choose else none

theorem anyFree_sound : Sound anyFree := by
  intro h n a e
  unfold anyFree at e
  split at e
  · rename_i hx
    injection e with e
    subst e
    exact hx.choose_spec
  · cases e

theorem anyFree_grants : Grants anyFree := by
  intro h n ⟨b, hb⟩
  unfold anyFree
  rw [dif_pos ⟨b + 1, Nat.succ_ne_zero _, hb _ (by omega)⟩]
  nofun

theorem noHeap_finite : Finite noHeap.heap := ⟨0, fun _ _ => rfl⟩

/-- `history` for the history of C43, on an allocator that may reuse freed blocks. -/
example : ∃ m1 p m2 m3, parseStr anyFree noHeap none (List.replicate 200 0) = some (m1, some p) ∧
      calls anyFree m1 p (IniParser.exOps.map ofOp) =
        some (m2, (IniParser.Spec.run IniParser.Spec.empty IniParser.exOps).2.map .code) ∧
      (∀ s k, s ≠ [] → lookup m2 p s k =
        some ((IniParser.Spec.run IniParser.Spec.empty IniParser.exOps).1.val (IniParser.Spec.norm s) (IniParser.Spec.norm k))) ∧
      destroy m2 p = some m3 ∧ m3.heap = noHeap.heap :=
  history anyFree_sound anyFree_grants noHeap noHeap_finite _ List.length_replicate IniParser.exOps IniParser.exOps_ok

/-- Calls under an allocator that refuses requests 7 (an entry) and 9 (the node of an entry). -/
def demoCalls : List Call :=
  [.put [97] (some [107]) (some [49]), .put [97] (some [108]) (some [50]), .put [65] (some [75]) (some [51]),
   .put [97] (some [108]) (some [52]), .get [97] [107], .put [98] (some [109]) none, .delSec [97], .get [98] [109], .delKey [98] [109]]

/-- The section created last is `b` when `a` is deleted: the sequence is allowed. -/
example : ∃ m1 m2 m3, parseStr (bump [7, 9]) noHeap none (List.replicate 200 0) = some (m1, some 2) ∧
    calls (bump [7, 9]) m1 2 demoCalls = some (m2, [.code .succeed, .code .noMemory, .code .succeed, .code .failed,
      .value (some [51]), .code .succeed, .code .succeed, .value (some []), .code .succeed]) ∧
    destroy m2 2 = some m3 ∧ readAll m2 2 = some [([98], [])] ∧ AllKeep (bump [7, 9]) m1 2 demoCalls := by
  refine ⟨_, _, _, rfl, rfl, rfl, rfl, ?_⟩
  refine ⟨trivial, fun _ _ h => ?_⟩; cases h
  refine ⟨trivial, fun _ _ h => ?_⟩; cases h
  refine ⟨trivial, fun _ _ h => ?_⟩; cases h
  refine ⟨trivial, fun _ _ h => ?_⟩; cases h
  refine ⟨trivial, fun _ _ h => ?_⟩; cases h
  refine ⟨trivial, fun _ _ h => ?_⟩; cases h
  refine ⟨fun x r n h1 h2 => ?_, fun m a _ => ?_⟩
  · cases h1
    cases h2
  · exact keep_of_no_delSec _ _ _ _ (by simp)

/-- A put refused its entry leaves the new, empty section behind. -/
example : ∃ m1 m2, parseStr (bump [5]) noHeap none [] = some (m1, some 2) ∧
    putString (bump [5]) m1 2 [97] (some [98]) (some [99]) = some (m2, .noMemory) ∧
    readAll m1 2 = some [] ∧ readAll m2 2 = some [([97], [])] := ⟨_, _, rfl, rfl, rfl, rfl⟩

/-- Deleting the section created last, then reading: the freed block is read. -/
example : ∃ m1 m2 m3, parseStr (bump []) noHeap none [] = some (m1, some 2) ∧ search m1 2 [97] = some none ∧
    putString (bump []) m1 2 [97] (some [98]) (some [99]) = some (m2, .succeed) ∧
    deleteSection m2 2 [97] = some (m3, .succeed) ∧ lookup m3 2 [97] [98] = none := ⟨_, _, _, rfl, rfl, rfl, rfl, rfl⟩

/-- `parse_complete` for the text `[a]` line feed `b=c`, on an allocator that refuses request 4. -/
example : ∃ m' r, parseStr (bump [4]) noHeap (some [91, 97, 93, 10, 98, 61, 99, 0]) (List.replicate 200 0) = some (m', r) ∧
    (∀ p, r = some p → ∃ P, wanted (some [91, 97, 93, 10, 98, 61, 99, 0]) (List.replicate 200 0) = some (some P) ∧
      readAll m' p = some (docText P)) := by
  obtain ⟨m', r, e, -, h, -⟩ := parse_complete (bump_sound [4]) noHeap (some [91, 97, 93, 10, 98, 61, 99, 0])
    (by intro t h; injection h with h; subst h; decide) (List.replicate 200 0) List.length_replicate
  exact ⟨m', r, e, h⟩

end Verif.IniHeap
