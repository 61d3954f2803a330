import Verif.Hashmap.Model
/-!
# Specification: a finite map

A finite map from keys (up to the user's equality `eq`) to values: a list of (key, value) pairs in
insertion order.  Nothing here knows about hashes, buckets or growth.
-/
namespace Verif.Hashmap.Spec

/-- key-value pairs, at most one per key. -/
abbrev FMap := List (Ptr × Ptr)

/-- The pair stored for `k`. -/
def lookup (eq : Ptr → Ptr → Bool) (L : FMap) (k : Ptr) : Option (Ptr × Ptr) :=
  L.find? (fun p => eq p.1 k)

/-- The value stored for `k`, NULL (0) if absent. -/
def get (eq : Ptr → Ptr → Bool) (L : FMap) (k : Ptr) : Ptr :=
  match lookup eq L k with
  | some p => p.2
  | none => 0

/-- Overwrite the value of the stored key equal to `k`. -/
def setVal (eq : Ptr → Ptr → Bool) (L : FMap) (k v : Ptr) : FMap :=
  L.map (fun p => if eq p.1 k then (p.1, v) else p)

/-- Drop the key equal to `k`. -/
def erase (eq : Ptr → Ptr → Bool) (L : FMap) (k : Ptr) : FMap :=
  L.filter (fun p => !eq p.1 k)

/-- One call on the finite map: new map and result.  A `put` of a new key needs memory
(`ok1`, and fewer than 2^59 entries); without it nothing happens. -/
def step (eq : Ptr → Ptr → Bool) (L : FMap) : Op → FMap × Nat
  | .put k v ok1 _ =>
    match lookup eq L k with
    | some old => (setVal eq L k v, old.2)
    | none => if ok1 = true ∧ L.length < 2 ^ 59 then (L ++ [(k, v)], 0) else (L, 0)
  | .get k => (L, get eq L k)
  | .remove k => (erase eq L k, get eq L k)
  | .clear => ([], 0)
  | .size => (L, L.length)

/-- A history on the finite map. -/
def run (eq : Ptr → Ptr → Bool) : FMap → List Op → FMap × List Nat
  | L, [] => (L, [])
  | L, o :: os =>
    let r := step eq L o
    let q := run eq r.1 os
    (q.1, r.2 :: q.2)

/-- The user's obligations: `fnEq` is an equivalence and equal keys have equal hashes. -/
structure GoodCfg (c : Cfg) : Prop where
  refl : ∀ a, c.fnEq a a = true
  symm : ∀ a b, c.fnEq a b = true → c.fnEq b a = true
  trans : ∀ a b d, c.fnEq a b = true → c.fnEq b d = true → c.fnEq a d = true
  hash : ∀ a b, c.fnEq a b = true → c.fnHash a = c.fnHash b

/-! ## Ownership ledger -/

/-- Does this call on map `L` hand a value over to the map, and which? (an insertion that got
memory, or a replacement) -/
def takesVal (eq : Ptr → Ptr → Bool) (L : FMap) : Op → List Ptr
  | .put k v ok1 _ =>
    match lookup eq L k with
    | some _ => [v]
    | none => if ok1 = true ∧ L.length < 2 ^ 59 then [v] else []
  | _ => []

/-- Does this call hand a key over to the map? (only an insertion that got memory; on replacement
the map keeps the key it has and the caller keeps the new one) -/
def takesKey (eq : Ptr → Ptr → Bool) (L : FMap) : Op → List Ptr
  | .put k _ ok1 _ =>
    match lookup eq L k with
    | some _ => []
    | none => if ok1 = true ∧ L.length < 2 ^ 59 then [k] else []
  | _ => []

/-- All values handed over during a history. -/
def takenVals (eq : Ptr → Ptr → Bool) : FMap → List Op → List Ptr
  | _, [] => []
  | L, o :: os => takesVal eq L o ++ takenVals eq (step eq L o).1 os

/-- All keys handed over during a history. -/
def takenKeys (eq : Ptr → Ptr → Bool) : FMap → List Op → List Ptr
  | _, [] => []
  | L, o :: os => takesKey eq L o ++ takenKeys eq (step eq L o).1 os

/-- All events of a history, in order. -/
def events (rs : List (Nat × List Ev)) : List Ev := (rs.map (·.2)).flatten

end Verif.Hashmap.Spec
