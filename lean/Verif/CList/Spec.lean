import Verif.CList.Model
/-!
# Specification: a mathematical list

The abstract state is the sequence of (node handle, data).  Node handles are what
`list_back_node`/`list_begin`/`list_next` return and `list_insert_after` takes.
-/
namespace Verif.CList.Spec

abbrev Seq := List (Addr × Ptr)

/-- Insert `x` right behind the node with handle `p`. -/
def insertBehind (p : Addr) (x : Addr × Ptr) : Seq → Seq
  | [] => []
  | y :: L => if y.1 = p then y :: x :: L else y :: insertBehind p x L

/-- Delete the first element whose data is `d`. -/
def deleteFirst (d : Ptr) : Seq → Seq
  | [] => []
  | y :: L => if y.2 = d then L else y :: deleteFirst d L

/-- One call: new sequence, result, data given to the free callback. -/
def step (cb : Bool) (L : Seq) : Op → Seq × Nat × List Ptr
  | .append d al =>
    match al with
    | some a => if d = 0 then (L, 0, []) else (L ++ [(a, d)], 1, [])
    | none => (L, 0, [])
  | .prepend d al =>
    match al with
    | some a => if d = 0 then (L, 0, []) else ((a, d) :: L, 1, [])
    | none => (L, 0, [])
  | .insertAfter p d al =>
    match al with
    | some a => if p = 0 ∨ d = 0 then (L, 0, []) else (insertBehind p (a, d) L, 1, [])
    | none => (L, 0, [])
  | .remove d =>
    if d ∈ L.map (·.2) then (deleteFirst d L, 1, if cb then [d] else []) else (L, 0, [])
  | .clear => ([], 0, if cb then L.map (·.2) else [])
  | .length => (L, L.length, [])
  | .front => (L, (L.head?.map (·.2)).getD 0, [])
  | .back => (L, (L.getLast?.map (·.2)).getD 0, [])
  | .backNode => (L, (L.getLast?.map (·.1)).getD 0, [])
  | .contains d => (L, (decide (d ∈ L.map (·.2))).toNat, [])

/-- A history. -/
def run (cb : Bool) : Seq → List Op → Seq × List (Nat × List Ptr)
  | L, [] => (L, [])
  | L, o :: os =>
    let r := step cb L o
    let q := run cb r.1 os
    (q.1, r.2 :: q.2)

/-- The environment: an allocator returns a non-NULL address not in use. -/
def FreshFor (L : Seq) (al : Option Addr) : Prop :=
  ∀ a, al = some a → a ≠ 0 ∧ a ∉ L.map (·.1)

/-- The caller's obligations and the allocator's, for one call: `list_insert_after` is given NULL
or a node of this list. -/
def Valid (L : Seq) : Op → Prop
  | .append _ al => FreshFor L al
  | .prepend _ al => FreshFor L al
  | .insertAfter p _ al => FreshFor L al ∧ (p = 0 ∨ p ∈ L.map (·.1))
  | _ => True

/-- …for a whole history. -/
def ValidRun (cb : Bool) : Seq → List Op → Prop
  | _, [] => True
  | L, o :: os => Valid L o ∧ ValidRun cb (step cb L o).1 os

/-- Data handed over to the list by a call. -/
def takes (L : Seq) : Op → List Ptr
  | .append d (some _) => if d = 0 then [] else [d]
  | .prepend d (some _) => if d = 0 then [] else [d]
  | .insertAfter p d (some _) => if p = 0 ∨ d = 0 then [] else if p ∈ L.map (·.1) then [d] else []
  | _ => []

/-- …over a history. -/
def taken (cb : Bool) : Seq → List Op → List Ptr
  | _, [] => []
  | L, o :: os => takes L o ++ taken cb (step cb L o).1 os

end Verif.CList.Spec
