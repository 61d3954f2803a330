import Verif.Dladdr.Props

/-! # C83: an example, and shortcomings of `dladdr` -/
namespace Verif.Dladdr
open Spec

/-- Numbers in the memory of the example: address, bytes, value. -/
def demoWords : List (Nat × Nat × Nat) :=
  [(4096, 2, 0x5A4D), (4156, 4, 64), (4184, 2, 0x20b),
   -- directories: exports, import address table
   (4296, 4, 512), (4300, 4, 100), (4392, 4, 800), (4396, 4, 8),
   -- export table
   (4628, 4, 3), (4632, 4, 2), (4636, 4, 600), (4640, 4, 620), (4644, 4, 640),
   (4696, 4, 1000), (4700, 4, 1100), (4704, 4, 1100), (4716, 4, 910), (4720, 4, 900), (4736, 2, 0), (4738, 2, 2),
   -- import address table, and what is behind it
   (4896, 8, 5105), (4904, 8, 5099),
   -- two thunks
   (5296, 2, 0x25ff), (5298, 4, 2 ^ 32 - 406), (5304, 2, 0x25ff), (5306, 4, 2 ^ 32 - 406)]

def demoMem (a : Nat) : Option Byte :=
  if 4096 ≤ a ∧ a < 9000 then
    match demoWords.find? (fun x => decide (x.1 ≤ a ∧ a < x.1 + x.2.1)) with
    | some (b, _, v) => some (UInt8.ofNat (v / 256 ^ (a - b)))
    | none => some 0
  else none

def demo : World where
  mem := demoMem
  query a := if 4096 ≤ a ∧ a < 8192 then some (4096, 32) else none
  handleEx := some fun a => if 4096 ≤ a ∧ a < 8192 then some 4096 else none
  fileName _ := (5, [97, 46, 100, 108, 108])

def demoImg : Image := ⟨4096, some ⟨[1000, 1100, 1100], [(910, 0), (900, 2)]⟩, some (800, 8), none⟩

instance (mem : Nat → Option Byte) (a n v : Nat) : Decidable (Word mem a n v) := by unfold Word; exact inferInstance

theorem demo_mapped : Mapped demo.mem demoImg := by
  refine ⟨by decide, by decide +kernel, 64, by decide, by decide +kernel, by decide +kernel, ?_, ?_, ?_⟩
  · refine ⟨512, 100, 600, 620, 640, ⟨by decide +kernel, by decide +kernel⟩, by decide, by decide, by decide +kernel, by decide +kernel, by decide +kernel, by decide +kernel, by decide +kernel, by decide, ?_, ?_⟩
    · intro i v h
      match i, h with
      | 0, h => cases h; decide +kernel
      | 1, h => cases h; decide +kernel
      | 2, h => cases h; decide +kernel
      | i + 3, h => cases h
    · intro i v h
      match i, h with
      | 0, h => cases h; exact ⟨by decide +kernel, by decide +kernel⟩
      | 1, h => cases h; exact ⟨by decide +kernel, by decide +kernel⟩
      | i + 2, h => cases h
  · exact ⟨⟨by decide +kernel, by decide +kernel⟩, by decide, by decide⟩
  · exact ⟨0, 0, ⟨by decide +kernel, by decide +kernel⟩, .inl rfl⟩

/-- The premise of `dladdr_spec` can be met. -/
theorem demo_sane : Sane demo fun _ => demoImg where
  readable := by
    rintro a ⟨_, b, p, h, _⟩ i hi
    by_cases k : 4096 ≤ a ∧ a < 8192
    · have : 4096 ≤ a + i ∧ a + i < 9000 := by omega
      simp only [demo, demoMem, this, and_self, if_true]
      split <;> simp
    · simp [demo, k] at h
  mapped := by
    rintro a m ⟨_, h⟩
    simp only [demo] at h
    split at h
    · cases h; exact ⟨rfl, demo_mapped⟩
    · cases h

/-- The symbol at or below the address. -/
theorem demo_plain : dladdr demo 5100 (some ⟨[], 1, 2, 3⟩) = some (1, some ⟨[97, 46, 100, 108, 108], 4096, 5006, 5096⟩) := by decide +kernel

/-- FINDING: of two exports at the same address only the first in the table is looked for among the names: the second one's name is not found. -/
theorem alias_unnamed : dladdr demo 5200 (some ⟨[], 1, 2, 3⟩) = some (1, some ⟨[97, 46, 100, 108, 108], 4096, 0, 0⟩) ∧ (4096 + 900, 5196) = (4996, 4096 + 1100) ∧
    demoImg.exports.map (fun e => (e.funcs[2]?, e.names[1]?)) = some (some 1100, some (900, 2)) := by decide +kernel

/-- An import thunk is followed. -/
theorem demo_thunk : dladdr demo 5296 (some ⟨[], 1, 2, 3⟩) = some (1, some ⟨[97, 46, 100, 108, 108], 4096, 5006, 5096⟩) := by decide +kernel

/-- FINDING: line 688 compares with `>`: a pointer just behind the import address table (here of 8 bytes at 4896) is taken as one of it. -/
theorem slot_behind_table : Thunk demo.mem 5304 4904 ∧ Table demoImg 4896 8 ∧ dladdr demo 5304 (some ⟨[], 1, 2, 3⟩) = some (1, some ⟨[97, 46, 100, 108, 108], 4096, 5006, 5096⟩) := by
  refine ⟨⟨by decide +kernel, 2 ^ 32 - 406, by decide +kernel, by decide⟩, ⟨rfl, rfl⟩, by decide +kernel⟩

/-- FINDING: `AllocationProtect` is the protection at allocation: of memory that is only reserved, or is protected now, `dladdr` reads the first bytes. -/
theorem reserved_undefined {w : World} {addr : Nat} (info : Info) (hv : Valid w addr) (hr : w.mem addr = none) : dladdr w addr (some info) = none := by
  rw [dladdr_eq, isValid_iff.2 hv]
  simp [lookup, isImportThunk, rd, hr]

theorem reserved_exists : Valid { demo with mem := fun _ => none } 5000 ∧ dladdr { demo with mem := fun _ => none } 5000 (some ⟨[], 1, 2, 3⟩) = none :=
  have h : Valid { demo with mem := fun _ => none } 5000 := ⟨by decide, 4096, 32, by decide, by decide, by decide, by decide⟩
  ⟨h, reserved_undefined _ h rfl⟩

end Verif.Dladdr
