import Verif.Dladdr.Spec

/-!
# Model of `dladdr`, `/repo/src/sys/dlfcn_windows.c` 220-256 and 565-775, for `_WIN64`

Reading a byte that is not readable makes the call `none`. Offsets in structures are those of `winnt.h`.
-/
namespace Verif.Dladdr

/-- Little-endian number of `n` bytes. -/
def rd (mem : Nat → Option Byte) : Nat → Nat → Option Nat
  | _, 0 => some 0
  | a, n + 1 => do
    let b ← mem a
    let r ← rd mem (a + 1) n
    return b.toNat + 256 * r

/-- 220-256 `MyGetModuleHandleFromAddress` (0: NULL) -/
def moduleOf (w : World) (addr : Nat) : Nat :=
  match w.handleEx with
  | some f => (f addr).getD 0
  | none =>
    match w.query addr with
    | none => 0
    | some (b, _) => b

/-- 569-597 `get_image_section`: `some none` is FALSE. A negative `e_lfanew` (outside the image) is undefined. -/
def getImageSection (mem : Nat → Option Byte) (module index : Nat) : Option (Option (Nat × Nat)) := do
  let magic ← rd mem module 2
  if magic ≠ 0x5A4D then return none
  let l ← rd mem (module + 60) 4
  if l ≥ 2 ^ 31 then none
  let o := module + l + 24
  let m ← rd mem o 2
  if m ≠ 0x20b then return none
  if index > 14 then return none
  let size ← rd mem (o + 112 + 8 * index + 4) 4
  if size = 0 then return none
  let va ← rd mem (o + 112 + 8 * index) 4
  if va = 0 then return none
  return some (module + va, size)

/-- `candidateIndex = i`: from `DWORD` to `int` -/
def asInt (i : Nat) : Int := if i < 2 ^ 31 then i else (i : Int) - 2 ^ 32

/-- 610-617: the loop over the functions, `n` still to do -/
def funcLoop (mem : Nat → Option Byte) (base tab addr : Nat) : Nat → Nat → Nat → Int → Option (Nat × Int)
  | 0, _, cand, idx => some (cand, idx)
  | n + 1, i, cand, idx => do
    let r ← rd mem (tab + 4 * i) 4
    if base + r > addr ∨ cand ≥ base + r then funcLoop mem base tab addr n (i + 1) cand idx
    else funcLoop mem base tab addr n (i + 1) (base + r) (asInt i)

/-- 624-628: the loop over the names -/
def nameLoop (mem : Nat → Option Byte) (base names ords : Nat) (idx : Int) : Nat → Nat → Option Nat
  | 0, _ => some 0
  | n + 1, i => do
    let x ← rd mem (ords + 2 * i) 2
    if (x : Int) = idx then
      let r ← rd mem (names + 4 * i) 4
      return base + r
    else nameLoop mem base names ords idx n (i + 1)

/-- 600-631 `get_export_symbol_name`: the name (0: NULL) and `*func_address` -/
def getExportSymbolName (mem : Nat → Option Byte) (module ied addr func : Nat) : Option (Nat × Nat) := do
  let f ← rd mem (ied + 28) 4
  let n ← rd mem (ied + 32) 4
  let x ← rd mem (ied + 36) 4
  let nf ← rd mem (ied + 20) 4
  let (cand, idx) ← funcLoop mem module (module + f) addr nf 0 0 (-1)
  if idx = -1 then return (0, func)
  let nn ← rd mem (ied + 24) 4
  let name ← nameLoop mem module (module + n) (module + x) idx nn 0
  return (name, cand)

/-- 633-648 `is_valid_address` -/
def isValid (w : World) (addr : Nat) : Bool :=
  if addr = 0 then false
  else
    match w.query addr with
    | none => false
    | some (b, p) => if b = 0 ∨ p = 0 ∨ p = 1 then false else true

/-- 657-660 `is_import_thunk` -/
def isImportThunk (mem : Nat → Option Byte) (addr : Nat) : Option Bool := do
  let x ← rd mem addr 2
  return x = 0x25ff

/-- 665-692 `get_address_from_import_address_table` -/
def getAddressFromIat (w : World) (iat size addr : Nat) : Option Nat := do
  let d ← rd w.mem (addr + 2) 4
  let ptr := ((((addr : Int) + 6 + asInt d) % 2 ^ 64 : Int)).toNat
  if isValid w ptr = false ∨ ptr < iat ∨ ptr > iat + size then return 0
  rd w.mem ptr 8

/-- 697-727 `fill_info` -/
def fillInfo (w : World) (addr : Nat) (info : Info) : Option (Bool × Info) := do
  let m := moduleOf w addr
  if m = 0 then return (false, info)
  let (n, name) := w.fileName m
  if n = 0 ∨ n = 520 then return (false, info)
  let info := { info with fname := name, fbase := m }
  let (sname, func) ← (do
    match ← getImageSection w.mem m 0 with
    | some (ied, _) => getExportSymbolName w.mem m ied addr 0
    | none => some (0, 0))
  let info := { info with sname := sname }
  return (true, { info with saddr := if info.sname = 0 then 0 else if func ≠ 0 then func else addr })

/-- 743-765: the import address table, or the fallback -/
def findIat (w : World) (m : Nat) : Option (Option (Nat × Nat)) := do
  match ← getImageSection w.mem m 12 with
  | some t => return some t
  | none =>
    match ← getImageSection w.mem m 1 with
    | none => return none
    | some (iid, iidSize) =>
      let c ← rd w.mem iid 4
      if iid = 0 ∨ c = 0 then return none
      let ft ← rd w.mem (iid + 16) 4
      if ft = 0 then return none
      let iat := m + ft
      return some (iat, (((iidSize : Int) - ((iat : Int) - iid)) % 2 ^ 32).toNat)

/-- 729-775 `dladdr`; `info` is `none` for NULL -/
def dladdr (w : World) (addr : Nat) (info : Option Info) : Option (Nat × Option Info) :=
  match info with
  | none => some (0, none)
  | some info => do
    if isValid w addr = false then return (0, some info)
    let addr ← (do
      if ← isImportThunk w.mem addr then
        let m := moduleOf w addr
        if m = 0 then return none
        match ← findIat w m with
        | none => return none
        | some (iat, size) =>
          let a ← getAddressFromIat w iat size addr
          if isValid w a = false then return none
          return some a
      else return some addr)
    match addr with
    | none => return (0, some info)
    | some addr =>
      let (ok, info) ← fillInfo w addr info
      return (if ok then 1 else 0, some info)

end Verif.Dladdr
