import Verif.Common.Mem

/-! # What a hash of the memory should be -/
namespace Verif.KeyHash

/-- A byte as a signed character. -/
def signed (c : Byte) : Int := if c.toNat < 128 then c.toNat else (c.toNat : Int) - 256

/-- `c_1*31^(n-1) + … + c_n`. -/
def sum31 : List Byte → Int
  | [] => 0
  | c :: s => signed c * 31 ^ s.length + sum31 s

/-- `n*31^n + c_1*31^(n-1) + … + c_n`. -/
def value (key : List Byte) : Int := key.length * 31 ^ key.length + sum31 key

end Verif.KeyHash
