import Verif.AutoCover.Model
/-!
# Specification: a sliding window over the stream of all bytes written

`all` is everything ever written; the bytes still held are `all[lo ..]`, never more than `cap`.
-/
namespace Verif.AutoCover.Spec

structure St where
  all : List Byte
  lo : Nat

def step (cap : Nat) (s : St) : Op → St × Out
  | .write src len =>
    let all := s.all ++ src.take len.toNat
    ({ all := all, lo := max s.lo (all.length - cap) }, ⟨len.toNat, []⟩)
  | .read p req =>
    if req.toNat ≤ s.all.length - p then
      ({ s with lo := p + req.toNat }, ⟨req.toNat, (s.all.drop p).take req.toNat⟩)
    else (s, ⟨errNotEnough, []⟩)
  | .avail p => (s, ⟨(s.all.length - p : Nat), []⟩)

/-- Caller's obligations in state `s`: sources readable and not longer than the capacity, positions inside the live
window, requested lengths positive as `int`. -/
def Valid (cap : Nat) (s : St) : Op → Prop
  | .write src len => len.toNat ≤ src.length ∧ len.toNat ≤ cap
  | .read p req => s.lo ≤ p ∧ p < s.all.length ∧ req.toNat < 2 ^ 31
  | .avail p => s.lo ≤ p ∧ p < s.all.length

/-- a history all of whose calls meet the obligations -/
def ValidRun (cap : Nat) (s : St) : List Op → Prop
  | [] => True
  | o :: os => Valid cap s o ∧ ValidRun cap (step cap s o).1 os

def run (cap : Nat) (s : St) : List Op → St × List Out
  | [] => (s, [])
  | o :: os =>
    let (s, x) := step cap s o
    let (s, xs) := run cap s os
    (s, x :: xs)

end Verif.AutoCover.Spec
