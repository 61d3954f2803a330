import Verif.Common.Mem
/-!
# Writing an output object from its front
-/
namespace Verif

/-- `m[i] = c`; writing outside the object is `none`. -/
def Mem.poke (m : Mem) (i : Nat) (c : Byte) : Option Mem :=
  if i < m.length then some (m.set i c) else none

/-- The object `out` after `w` has been written over its front (`w` not longer than `out`). -/
def Mem.front (out : Mem) (w : List Byte) : Mem := w ++ out.drop w.length

theorem Mem.front_nil (out : Mem) : out.front [] = out := by simp [Mem.front]

theorem Mem.front_length {out : Mem} {w : List Byte} (h : w.length ≤ out.length) :
    (out.front w).length = out.length := by
  simp [Mem.front]; omega

theorem Mem.poke_front {out : Mem} {w : List Byte} (c : Byte) (h : w.length < out.length) :
    (out.front w).poke w.length c = some (out.front (w ++ [c])) := by
  unfold Mem.poke Mem.front
  have : w.length < (w ++ out.drop w.length).length := by simp; omega
  rw [if_pos this]
  congr 1
  have e : out.drop w.length = out[w.length] :: out.drop (w.length + 1) :=
    List.drop_eq_getElem_cons h
  simp [e, -List.getElem_cons_drop]

theorem Mem.poke_front' {out : Mem} {w : List Byte} {i : Nat} (c : Byte) (hi : i = w.length)
    (h : w.length < out.length) :
    (out.front w).poke i c = some (out.front (w ++ [c])) := by
  subst hi; exact Mem.poke_front c h

theorem Mem.store_front {out : Mem} {w : List Byte} (bs : List Byte)
    (h : w.length + bs.length ≤ out.length) :
    (out.front w).store w.length bs = some (out.front (w ++ bs)) := by
  rw [Mem.store_eq_some (by rw [Mem.front_length (by omega)]; exact h)]
  unfold Mem.front
  simp [List.drop_append, List.drop_drop]

theorem Mem.store_front' {out : Mem} {w : List Byte} {i : Nat} (bs : List Byte) (hi : i = w.length)
    (h : w.length + bs.length ≤ out.length) :
    (out.front w).store i bs = some (out.front (w ++ bs)) := by
  subst hi; exact Mem.store_front bs h

theorem Mem.front_full {out : Mem} {w : List Byte} (h : out.length ≤ w.length) : out.front w = w := by
  unfold Mem.front; rw [List.drop_eq_nil_of_le h]; simp

/-- The value of a (signed) `char`. -/
def sc (c : Byte) : Int := c.toBitVec.toInt

theorem byte_all {P : Byte → Prop} (h : ∀ n : Fin 256, P (UInt8.ofNat n)) (b : Byte) : P b := by
  have := h ⟨b.toNat, b.toNat_lt⟩
  simpa using this

end Verif
