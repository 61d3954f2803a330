import Verif.StrParams.Spec
/-!
# Specification: what a text means when memory runs out while it is read

A pair whose key could not be copied is kept under no name: below that is the empty name, which no pair of a
text has.  A value that could not be copied is missing.
-/
namespace Verif.StrParamsOom.Spec
open Verif.StrParams (Oks)

/-- Names with their value, if there is one. -/
abbrev OMap := List (List Byte × Option (List Byte))

/-- Is the name known? -/
def known (T : OMap) (k : List Byte) : Bool := T.any fun p => p.1 == k

/-- The value of `k`, if the object has one. -/
def value (T : OMap) (k : List Byte) : Option (List Byte) := (T.find? fun p => p.1 == k).bind (·.2)

/-- The name and the value a pair is stored under. -/
def nameOf (k : List Byte) (ok : Oks) : List Byte := if ok.key then k else []
def valueOf (v : List Byte) (ok : Oks) : Option (List Byte) := if ok.val then some v else none

/-- Read one pair: a known name gets the new value (or loses its value), a new one needs an entry. -/
def store (T : OMap) (k v : List Byte) (ok : Oks) : OMap :=
  if known T (nameOf k ok) then T.map fun p => if p.1 == nameOf k ok then (nameOf k ok, valueOf v ok) else p
  else if ok.entry then T ++ [(nameOf k ok, valueOf v ok)]
  else T

/-- Blocks that reading one pair loses track of. -/
def lost (T : OMap) (k : List Byte) (ok : Oks) : Nat :=
  if known T (nameOf k ok) then ok.key.toNat
  else if ok.entry then 0
  else ok.key.toNat + ok.val.toNat

/-- Read the pairs from the n-th on. -/
def fill (ask : Nat → Oks) : Nat → List (List Byte × List Byte) → OMap → OMap
  | _, [], T => T
  | n, (k, v) :: ps, T => fill ask (n + 1) ps (store T k v (ask n))

/-- Blocks lost while doing so. -/
def lostAll (ask : Nat → Oks) : Nat → List (List Byte × List Byte) → OMap → Nat
  | _, [], _ => 0
  | n, (k, v) :: ps, T => lost T k (ask n) + lostAll ask (n + 1) ps (store T k v (ask n))

/-- The djb hash of a text, over signed characters. -/
def djb (s : List Byte) : BitVec 32 := s.foldl (fun h c => h * 33 + c.toBitVec.signExtend 32) 5381

/-- Where a NULL key cannot be compared with anything: all keys were copied, or none of these has the hash of
NULL. -/
def Calm (ask : Nat → Oks) (n : Nat) (keys : List (List Byte)) : Prop :=
  (∀ i < n, (ask i).key = true) ∨ ∀ k ∈ keys, djb k ≠ 5381

end Verif.StrParamsOom.Spec
