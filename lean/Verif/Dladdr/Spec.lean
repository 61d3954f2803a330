import Verif.Common.Out

/-!
# `dladdr` on Windows: what the user sees

The world is the memory of a 64-bit process (bytes that can be read), what Windows says about an address, and module file names.
A module is described by what its image exports and imports; `Mapped` says that the memory contains that image (the PE32+ format).
-/
namespace Verif.Dladdr

structure World where
  mem : Nat → Option Byte
  /-- `VirtualQuery`: `AllocationBase` and `AllocationProtect`, `none` if it fails. -/
  query : Nat → Option (Nat × Nat)
  /-- `GetModuleHandleExA` from an address, if this version of Windows has it; its answer is `none` if it fails. -/
  handleEx : Option (Nat → Option Nat)
  /-- `GetModuleFileNameA` for a buffer of 520: the result and the text (0: failed, 520: cut). -/
  fileName : Nat → Nat × List Byte

/-- `Dl_info`; pointers are addresses, 0 is NULL. -/
structure Info where
  fname : List Byte
  fbase : Nat
  sname : Nat
  saddr : Nat
  deriving DecidableEq, Repr

namespace Spec

/-- A little-endian number of `n` bytes at `a`. -/
def Word (mem : Nat → Option Byte) (a n v : Nat) : Prop := v < 256 ^ n ∧ ∀ i, i < n → mem (a + i) = some (UInt8.ofNat (v / 256 ^ i))

/-- The export table: addresses of functions relative to the image; names (address relative to the image, index of the function). -/
structure Exports where
  funcs : List Nat
  names : List (Nat × Nat)

/-- First import descriptor: its address and `Characteristics`, `FirstThunk`; size of the descriptors. -/
structure Imports where
  rva : Nat
  size : Nat
  characteristics : Nat
  firstThunk : Nat

structure Image where
  base : Nat
  exports : Option Exports
  /-- Import address table: address relative to the image, size. -/
  iat : Option (Nat × Nat)
  imports : Option Imports

/-- Data directory entry `i` of the optional header at `o`. -/
def Entry (mem : Nat → Option Byte) (o i rva size : Nat) : Prop := Word mem (o + 112 + 8 * i) 4 rva ∧ Word mem (o + 116 + 8 * i) 4 size

/-- There is none. -/
def NoEntry (mem : Nat → Option Byte) (o i : Nat) : Prop := ∃ rva size, Entry mem o i rva size ∧ (rva = 0 ∨ size = 0)

def ExportsAt (mem : Nat → Option Byte) (base o : Nat) : Option Exports → Prop
  | none => NoEntry mem o 0
  | some e => ∃ rva size f n x, Entry mem o 0 rva size ∧ rva ≠ 0 ∧ size ≠ 0 ∧
      Word mem (base + rva + 20) 4 e.funcs.length ∧ Word mem (base + rva + 24) 4 e.names.length ∧
      Word mem (base + rva + 28) 4 f ∧ Word mem (base + rva + 32) 4 n ∧ Word mem (base + rva + 36) 4 x ∧ e.funcs.length < 2 ^ 31 ∧
      (∀ i v, e.funcs[i]? = some v → Word mem (base + f + 4 * i) 4 v) ∧
      (∀ i v, e.names[i]? = some v → Word mem (base + n + 4 * i) 4 v.1 ∧ Word mem (base + x + 2 * i) 2 v.2)

def IatAt (mem : Nat → Option Byte) (o : Nat) : Option (Nat × Nat) → Prop
  | none => NoEntry mem o 12
  | some (rva, size) => Entry mem o 12 rva size ∧ rva ≠ 0 ∧ size ≠ 0

def ImportsAt (mem : Nat → Option Byte) (base o : Nat) : Option Imports → Prop
  | none => NoEntry mem o 1
  | some i => Entry mem o 1 i.rva i.size ∧ i.rva ≠ 0 ∧ i.size ≠ 0 ∧ Word mem (base + i.rva) 4 i.characteristics ∧ Word mem (base + i.rva + 16) 4 i.firstThunk

/-- The image is in memory at `base`: DOS header, optional header (PE32+) at `o`, tables. -/
def Mapped (mem : Nat → Option Byte) (img : Image) : Prop :=
  img.base ≠ 0 ∧ Word mem img.base 2 0x5A4D ∧ ∃ l, l < 2 ^ 31 ∧ Word mem (img.base + 60) 4 l ∧ Word mem (img.base + l + 24) 2 0x20b ∧
    ExportsAt mem img.base (img.base + l + 24) img.exports ∧ IatAt mem (img.base + l + 24) img.iat ∧ ImportsAt mem img.base (img.base + l + 24) img.imports

/-- Windows knows the address and gave it some access right. -/
def Valid (w : World) (addr : Nat) : Prop := addr ≠ 0 ∧ ∃ b p, w.query addr = some (b, p) ∧ b ≠ 0 ∧ p ≠ 0 ∧ p ≠ 1

/-- The module an address belongs to. -/
def InModule (w : World) (addr m : Nat) : Prop :=
  m ≠ 0 ∧ match w.handleEx with
    | some f => f addr = some m
    | none => ∃ p, w.query addr = some (m, p)

/-- `i` is the exported function nearest below `addr`; the first one in the table if several have the same address. -/
def Nearest (base : Nat) (fs : List Nat) (addr i : Nat) : Prop :=
  ∃ r : Nat, fs[i]? = some r ∧ base + r ≤ addr ∧ (∀ (j v : Nat), fs[j]? = some v → base + v ≤ addr → v ≤ r) ∧ ∀ j : Nat, j < i → fs[j]? ≠ some r

/-- The first name of function `i`. -/
def NameOf (ns : List (Nat × Nat)) (i n : Nat) : Prop := ∃ k : Nat, ns[k]? = some (n, i) ∧ ∀ (j : Nat) (v : Nat × Nat), j < k → ns[j]? = some v → v.2 ≠ i

/-- Name and address of the symbol for `addr`, both NULL if there is none. -/
def Symbol (img : Image) (addr sname saddr : Nat) : Prop :=
  (∃ e i r n, img.exports = some e ∧ Nearest img.base e.funcs addr i ∧ e.funcs[i]? = some r ∧ NameOf e.names i n ∧ sname = img.base + n ∧ saddr = img.base + r) ∨
  (sname = 0 ∧ saddr = 0 ∧ ∀ e i n, img.exports = some e → Nearest img.base e.funcs addr i → ¬ NameOf e.names i n)

/-- `jmp *disp(%rip)`; the address of the pointer used. -/
def Thunk (mem : Nat → Option Byte) (addr slot : Nat) : Prop :=
  Word mem addr 2 0x25ff ∧ ∃ d, Word mem (addr + 2) 4 d ∧ slot = ((((addr : Int) + 6 + if d < 2 ^ 31 then (d : Int) else (d : Int) - 2 ^ 32) % 2 ^ 64 : Int)).toNat

/-- The import address table: from its directory entry, else from the first import descriptor on, to the end of the descriptors. -/
def Table (img : Image) (a size : Nat) : Prop :=
  match img.iat with
  | some (rva, sz) => a = img.base + rva ∧ size = sz
  | none => ∃ i, img.imports = some i ∧ i.characteristics ≠ 0 ∧ i.firstThunk ≠ 0 ∧ a = img.base + i.firstThunk ∧
      (size : Int) = ((i.size : Int) - ((i.firstThunk : Int) - i.rva)) % 2 ^ 32

end Spec
end Verif.Dladdr
