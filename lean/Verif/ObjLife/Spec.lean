import Verif.ObjLife.Model
/-!
# Objects on the heap: what is claimed (C89)
-/
namespace Verif.ObjLife

/-- the numbers of the blocks to come are not in use -/
def Fresh (h : Heap) : Prop := ∀ b, h.next ≤ b → h.live b = none

/-- the blocks `bs`, and no others, are new in `h'`, and every older block is as it was -/
structure Made (h h' : Heap) (bs : List Nat) : Prop where
  nodup : bs.Nodup
  new : ∀ b ∈ bs, h.live b = none ∧ h'.live b ≠ none
  rest : ∀ b, b ∉ bs → h'.live b = h.live b
  old : ∀ b, h.live b ≠ none → h'.pv b = h.pv b ∧ h'.bv b = h.bv b ∧ h'.nv b = h.nv b

/-- from `h'` to `h2` the blocks `bs` were neither freed nor were the pointers and flags in them changed; all else may have -/
def Kept (h' h2 : Heap) (bs : List Nat) : Prop :=
  ∀ b ∈ bs, h2.live b = h'.live b ∧ h2.pv b = h'.pv b ∧ h2.bv b = h'.bv b

/-- `destroy` frees exactly the blocks `bs`, touches no other block and leaves NULL in the handle -/
def Frees (destroy : Option Ptr → M (Option Ptr)) (p : Ptr) (h : Heap) (bs : List Nat) : Prop :=
  ∃ h3, destroy (some p) h = some (some .null, h3) ∧
    (∀ b, h3.live b = if b ∈ bs then none else h.live b) ∧
    (∀ b, b ∉ bs → h3.pv b = h.pv b ∧ h3.bv b = h.bv b ∧ h3.nv b = h.nv b)

/-- a constructor and its destructor: no undefined behaviour; a handle exactly if `ok`; without a handle nothing was kept;
with one, whatever happened meanwhile, the destructor gives back exactly what the constructor took -/
def AllOrNothing (create : M Ptr) (destroy : Option Ptr → M (Option Ptr)) (h : Heap) (ok : Prop) : Prop :=
  ∃ p h', create h = some (p, h') ∧ (p ≠ .null ↔ ok) ∧
    (p = .null → Made h h' []) ∧
    (p ≠ .null → ∃ bs, bs ≠ [] ∧ Made h h' bs ∧ ∀ h2, Kept h' h2 bs → Frees destroy p h2 bs)

/-- a destructor that may be called with no handle, as often as one likes -/
def Idempotent (destroy : Option Ptr → M (Option Ptr)) : Prop :=
  ∀ h, destroy none h = some (none, h) ∧ destroy (some .null) h = some (some .null, h)

/-- a string builder whose buffer is grown to the given sizes one after the other (a refusal leaves it as it is) -/
def sbGrows (s : Ptr) : List Nat → M Unit
  | [] => pure ()
  | n :: ns => do
    let _ ← sbGrow s n
    sbGrows s ns

/-- an array grown `k` times -/
def arrGrows (a : Ptr) : Nat → M Unit
  | 0 => pure ()
  | k + 1 => do
    let _ ← arrGrow a
    arrGrows a k

/-- the blocks in use, and the contents of those of `h`, are as in `h` -/
def Restored (h h3 : Heap) : Prop :=
  h3.live = h.live ∧ ∀ b, h.live b ≠ none → h3.pv b = h.pv b ∧ h3.bv b = h.bv b ∧ h3.nv b = h.nv b

end Verif.ObjLife
