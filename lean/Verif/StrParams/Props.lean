import Verif.StrParams.Literal
/-!
# str_params: concrete cases meeting the theorems' hypotheses
-/
namespace Verif.StrParams
open Spec

/-- A history used below: ';' as delimiter; two keys, one stored twice, one deleted. -/
def demo : List Op :=
  [.add [97] [49] allOk, .add [98] [] allOk, .add [97] [50, 61] allOk, .add [99] [51] ⟨true, true, false, true⟩,
   .has [99], .del [98], .has [97], .get [97] [7, 7, 7, 7] 4, .get [98] [7] 1, .get [97] [7, 7] 2]

example : ∃ s, create (some [59]) true true = some (some s) ∧
    (run s demo).map (·.2) = some [.code 0, .code 0, .code 0, .code (-12), .bool false, .unit, .bool true,
      .str [50, 61, 0, 7] 0, .str [7] (-2), .str [7, 7] (-12)] :=
  ⟨_, rfl, by decide +kernel⟩

/-- `Spec.ok` holds of it. -/
example : ∀ o ∈ demo, Spec.ok o := by
  unfold demo allOk
  simp [Spec.ok]

/-- The text of the object, and its re-reading (`text_round_trip`). -/
example : ∃ s, create (some [59]) true true = some (some s) ∧
    ((run s demo).bind fun r => toStr r.1) = some [97, 61, 50, 61] := ⟨_, rfl, by decide +kernel⟩

example : ∀ p ∈ (Spec.run [] demo).1, p.1 ≠ [] ∧ (61 : Byte) ∉ p.1 ∧ (59 : Byte) ∉ p.1 ∧ (59 : Byte) ∉ p.2 := by
  decide +kernel

/-- "a=1;b;a=2;=x;c=" -/
def text : List Byte := [97, 61, 49, 59, 98, 59, 97, 61, 50, 59, 61, 120, 59, 99, 61]

example : parse [59] text = [([97], [50]), ([98], []), ([99], [])] := by decide +kernel

/-- One block leaks: the second `a` (`create_str_leaks`). -/
example : ((createStr none text).bind destroy).map (·.live.length) = some 1 := by decide +kernel

example : ((createStr none text).bind fun s => getStr s [97] [9, 9, 9] 3) = some ([50, 0, 9], 0) := by
  decide +kernel

/-- Numbers. -/
example : ∃ s, create none true true = some (some s) ∧
    ((addLong s [107] (-2 ^ 63) allOk).bind fun r => getLong r.1 [107]) = some (some (-2 ^ 63), 0) :=
  ⟨_, rfl, by decide +kernel⟩

/-- A full table (24 keys): adding one more with no memory for the bigger table leaves a dead key in the map
(`add_growth_failure_uaf`). -/
def fill : List Op := (List.range 24).map fun i => .add [UInt8.ofNat (i + 65)] [] allOk

example : ∃ s, create none true true = some (some s) ∧
    ((run s fill).bind fun r => (addStr r.1 [120] [] ⟨true, true, true, false⟩).bind fun q =>
      some (r.1.map.size, r.1.map.bucketCount, q.2, hasKey q.1 [120], hasKey r.1 [120])) =
      some (24, 32, -12, none, some false) :=
  ⟨_, rfl, by decide +kernel⟩

end Verif.StrParams
