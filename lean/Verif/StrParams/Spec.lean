import Verif.StrParams.Model
import Verif.Common.Strtok
/-!
# Specification: a map from strings to strings
-/
namespace Verif.StrParams.Spec

/-- Key-value pairs, at most one per key. -/
abbrev SMap := List (List Byte × List Byte)

/-- The value of `k`. -/
def find (T : SMap) (k : List Byte) : Option (List Byte) := (T.find? (fun p => p.1 == k)).map (·.2)

/-- Set the value of `k`: replace it where it is, or add the pair. -/
def insert (T : SMap) (k v : List Byte) : SMap :=
  if (find T k).isSome then T.map (fun p => if p.1 == k then (k, v) else p) else T ++ [(k, v)]

/-- Drop `k`. -/
def erase (T : SMap) (k : List Byte) : SMap := T.filter (fun p => !(p.1 == k))

/-- API calls. -/
inductive Op
  | add (k v : List Byte) (ok : Oks)
  | del (k : List Byte)
  | has (k : List Byte)
  | get (k : List Byte) (out : Mem) (size : Nat)

/-- What a call returns. -/
inductive Res
  | code (r : Int)
  | unit
  | bool (b : Bool)
  | str (out : Mem) (r : Int)
deriving DecidableEq, Repr

/-- Is there memory for storing `k`?  A new key needs a map entry. -/
def memOk (T : SMap) (k : List Byte) (ok : Oks) : Bool :=
  ok.key && ok.val && ((find T k).isSome || (ok.entry && decide (T.length < 2 ^ 59)))

/-- The abstract effect and result of a call. -/
def step (T : SMap) : Op → SMap × Res
  | .add k v ok => if memOk T k ok then (insert T k v, .code 0) else (T, .code (-12))
  | .del k => (erase T k, .unit)
  | .has k => (T, .bool (find T k).isSome)
  | .get k out size =>
    match find T k with
    | none => (T, .str out (-2))
    | some v => if size < v.length + 1 then (T, .str out (-12)) else (T, .str (out.front (v ++ [0])) 0)

/-- A history. -/
def run : SMap → List Op → SMap × List Res
  | T, [] => (T, [])
  | T, o :: os =>
    let r := step T o
    let q := run r.1 os
    (q.1, r.2 :: q.2)

/-- The caller's obligations: keys and values are C strings, the output buffer has the stated size.
The memory for growing the table is granted (see `add_growth_failure_uaf` for the other case). -/
def ok : Op → Prop
  | .add k v o => (0 : Byte) ∉ k ∧ (0 : Byte) ∉ v ∧ o.grow = true
  | .del k => (0 : Byte) ∉ k
  | .has k => (0 : Byte) ∉ k
  | .get k out size => (0 : Byte) ∉ k ∧ size ≤ out.length

/-! ### Text form -/

/-- What one piece between delimiters means: the text before the first '=' is the key, the text after it
the value; no '=' means an empty value; a piece starting with '=' means nothing. -/
def pairOf (t : List Byte) : Option (List Byte × List Byte) :=
  if t.head? = some 61 then none else some (t.takeWhile (· ≠ 61), (t.dropWhile (· ≠ 61)).drop 1)

/-- The pairs of a text: its non-empty pieces between delimiters, in order. -/
def pairs (delim text : List Byte) : List (List Byte × List Byte) :=
  (tokens delim text).filterMap pairOf

/-- The map a text describes: later pairs replace earlier ones. -/
def parse (delim text : List Byte) : SMap :=
  (pairs delim text).foldl (fun T p => insert T p.1 p.2) []

/-- The text of a map. -/
def print (delim : List Byte) (T : SMap) : List Byte :=
  List.intercalate delim (T.map fun p => p.1 ++ [61] ++ p.2)

end Verif.StrParams.Spec

namespace Verif.StrParams
open Spec

/-- Perform one call on the model. -/
def step (s : St) : Op → Option (St × Res)
  | .add k v ok => (addStr s k v ok).map fun r => (r.1, .code r.2)
  | .del k => (del s k).map fun s => (s, .unit)
  | .has k => (hasKey s k).map fun b => (s, .bool b)
  | .get k out size => (getStr s k out size).map fun r => (s, .str r.1 r.2)

/-- A history on the model. -/
def run : St → List Op → Option (St × List Res)
  | s, [] => some (s, [])
  | s, o :: os =>
    match step s o with
    | none => none
    | some (s, r) => (run s os).map fun q => (q.1, r :: q.2)

end Verif.StrParams
