import Verif.Common.Mem
/-!
# Model of src/mem/mplite.c (buddy allocator)

The caller's buffer (`buf`, `buf_size` bytes) is one byte array: pool, then control bytes.  Pointers are byte
offsets from its start (`zPool`).  Every access to a link or a control byte is checked against the buffer;
outside is `none`.  A failing `ASSERT` is `none` too (in release builds ASSERT does nothing; the theorems
show no ASSERT fails, so both builds behave alike).  The lock callbacks (optional, they bracket each call)
and NULL arguments are not modelled.  `int` values that cannot overflow are `Nat`s; where overflow is
possible it is checked.
-/
namespace Verif.Mplite

/-- mplite.h: `MPLITE_LOGMAX`. -/
def LOGMAX : Nat := 30
/-- mplite.h: `MPLITE_MAX_ALLOC_SIZE`. -/
def MAXALLOC : Nat := 0x40000000

/-- mplite.h: `mplite_t`, and the buffer. -/
structure St where
  szAtom : Nat
  nBlock : Nat
  bufSize : Nat
  mem : Nat → Byte
  /-- `aiFreelist`, indices 0..30 -/
  flist : Nat → Int
  nAlloc : Nat
  totalAlloc : Nat
  totalExcess : Nat
  currentOut : Nat
  currentCount : Nat
  maxOut : Nat
  maxCount : Nat
  maxRequest : Nat

/-! ### Memory access -/

/-- Read an `int` (little endian). -/
def rd32 (m : Nat → Byte) (a : Nat) : Int :=
  let u := (m a).toNat + 256 * (m (a + 1)).toNat + 65536 * (m (a + 2)).toNat + 16777216 * (m (a + 3)).toNat
  if u < 2147483648 then (u : Int) else (u : Int) - 4294967296

/-- Write an `int`. -/
def wr32 (m : Nat → Byte) (a : Nat) (v : Int) : Nat → Byte := fun x =>
  let u := (v % 4294967296).toNat
  if x = a then UInt8.ofNat u
  else if x = a + 1 then UInt8.ofNat (u / 256)
  else if x = a + 2 then UInt8.ofNat (u / 65536)
  else if x = a + 3 then UInt8.ofNat (u / 16777216)
  else m x

/-- mplite.c 38-39: `mplite_getlink(handle, i)->next`. -/
def St.getNext (s : St) (i : Nat) : Option Int :=
  if i * s.szAtom + 4 ≤ s.bufSize then some (rd32 s.mem (i * s.szAtom)) else none

/-- `mplite_getlink(handle, i)->prev`. -/
def St.getPrev (s : St) (i : Nat) : Option Int :=
  if i * s.szAtom + 8 ≤ s.bufSize then some (rd32 s.mem (i * s.szAtom + 4)) else none

/-- `mplite_getlink(handle, i)->next = v`. -/
def St.setNext (s : St) (i : Nat) (v : Int) : Option St :=
  if i * s.szAtom + 4 ≤ s.bufSize then some { s with mem := wr32 s.mem (i * s.szAtom) v } else none

/-- `mplite_getlink(handle, i)->prev = v`. -/
def St.setPrev (s : St) (i : Nat) (v : Int) : Option St :=
  if i * s.szAtom + 8 ≤ s.bufSize then some { s with mem := wr32 s.mem (i * s.szAtom + 4) v } else none

/-- mplite.c 98: `aCtrl[i]`. -/
def St.getCtrl (s : St) (i : Nat) : Option Byte :=
  if s.nBlock * s.szAtom + i < s.bufSize then some (s.mem (s.nBlock * s.szAtom + i)) else none

/-- `aCtrl[i] = c`. -/
def St.setCtrl (s : St) (i : Nat) (c : Byte) : Option St :=
  if s.nBlock * s.szAtom + i < s.bufSize then
    some { s with mem := fun x => if x = s.nBlock * s.szAtom + i then c else s.mem x }
  else none

/-- `aiFreelist[l] = v`. -/
def St.setList (s : St) (l : Nat) (v : Int) : St :=
  { s with flist := fun x => if x = l then v else s.flist x }

/-- mplite.c 359-361, 380-382: the three ASSERTs of link and unlink. -/
def St.assertBlk (s : St) (i l : Nat) : Bool :=
  decide (i < s.nBlock) && decide (l ≤ LOGMAX) &&
    (match s.getCtrl i with
     | none => false
     | some c => (c &&& 0x1f).toNat == l)

/-- mplite.c 365-369. -/
def fixPrev (s : St) (x : Int) (i : Nat) : Option St :=
  if 0 ≤ x then (if x.toNat < s.nBlock then s.setPrev x.toNat i else none) else some s

/-- mplite.c 356-371: `mplite_link`. -/
def link (s : St) (i l : Nat) : Option St :=
  if s.assertBlk i l then
    (s.setNext i (s.flist l)).bind fun s1 =>
    (s1.setPrev i (-1)).bind fun s2 =>
    (fixPrev s2 (s.flist l) i).map fun s3 => s3.setList l i
  else none

/-- mplite.c 386-393. -/
def unlinkPrev (s : St) (l : Nat) (next prev : Int) : Option St :=
  if prev < 0 then some (s.setList l next) else s.setNext prev.toNat next

/-- mplite.c 394-397. -/
def unlinkNext (s : St) (next prev : Int) : Option St :=
  if 0 ≤ next then s.setPrev next.toNat prev else some s

/-- mplite.c 377-398: `mplite_unlink`. -/
def unlink (s : St) (i l : Nat) : Option St :=
  if s.assertBlk i l then
    (s.getNext i).bind fun next =>
    (s.getPrev i).bind fun prev =>
    (unlinkPrev s l next prev).bind fun s => unlinkNext s next prev
  else none

/-! ### Initialisation -/

/-- mplite.c 332-337: `mplite_logarithm`, the loop (first argument: the iterations left, at most 31). -/
def logLoop : Nat → Nat → Nat → Nat
  | 0, iLog, _ => iLog
  | k + 1, iLog, v => if 2 ^ iLog < v then logLoop k (iLog + 1) v else iLog

/-- mplite.c 332-337: `mplite_logarithm`. -/
def logarithm (v : Nat) : Nat := logLoop 31 0 v

/-- mplite.c 91-94 (`sizeof(mplite_link_t)` is 8). -/
def atomLoop : Nat → Nat → Option Nat
  | 0, _ => none
  | k + 1, sz => if sz < 8 then atomLoop k (sz * 2) else some sz

/-- mplite.c 105-116: the loop; third argument `ii + 1`. -/
def initLoop (s : St) (off : Nat) : Nat → Option St
  | 0 => some s
  | ii + 1 =>
    if off + 2 ^ ii ≤ s.nBlock then
      (s.setCtrl off (UInt8.ofNat (ii ||| 0x20))).bind fun s1 =>
      (link s1 off ii).bind fun s2 =>
      if off + 2 ^ ii + 2 ^ ii > s.nBlock then initLoop s2 (off + 2 ^ ii) ii else none
    else initLoop s off ii

/-- mplite.c 96-103: the fields. -/
def initSt (mem : Nat → Byte) (bufSize szAtom : Nat) : St where
  szAtom := szAtom
  nBlock := bufSize / (szAtom + 1)
  bufSize := bufSize
  mem := mem
  flist := fun _ => -1
  nAlloc := 0
  totalAlloc := 0
  totalExcess := 0
  currentOut := 0
  currentCount := 0
  maxOut := 0
  maxCount := 0
  maxRequest := 0

/-- mplite.c 55-119: `mplite_init`; `none` = undefined behaviour (`1 << 31` for `min_alloc` above 2^30),
`some none` = MPLITE_ERR_INVPAR. -/
def init (mem : Nat → Byte) (bufSize minAlloc : Int) : Option (Option St) :=
  if bufSize ≤ 0 ∨ minAlloc ≤ 0 then some none
  else if logarithm minAlloc.toNat ≥ 31 then none
  else
    (atomLoop 4 (2 ^ logarithm minAlloc.toNat)).bind fun sz =>
    (initLoop (initSt mem bufSize.toNat sz) 0 (LOGMAX + 1)).map some

/-! ### Allocation -/

/-- mplite.c 435-436 and 276: round up; result: size and logarithm.  Doubling beyond `int` is `none`. -/
def roundLoop : Nat → Nat → Nat → Nat → Option (Nat × Nat)
  | 0, _, _, _ => none
  | fuel + 1, full, l, n =>
    if full < n then
      if full * 2 < 2 ^ 31 then roundLoop fuel (full * 2) (l + 1) n else none
    else some (full, l)

/-- mplite.c 442-443; the first argument is `LOGMAX + 1 - iBin`. -/
def findBin (s : St) : Nat → Nat → Nat
  | 0, b => b
  | k + 1, b => if s.flist b < 0 then findBin s k (b + 1) else b

/-- mplite.c 452-460; `d` is `iBin - iLogsize`. -/
def splitLoop (s : St) (i l : Nat) : Nat → Option St
  | 0 => some s
  | d + 1 =>
    (s.setCtrl (i + 2 ^ (l + d)) (UInt8.ofNat (0x20 ||| (l + d)))).bind fun s1 =>
    (link s1 (i + 2 ^ (l + d)) (l + d)).bind fun s2 => splitLoop s2 i l d

/-- mplite.c 463-476: statistics. -/
def allocStats (s : St) (full n : Nat) : St :=
  { s with
    nAlloc := (s.nAlloc + 1) % 2 ^ 64
    totalAlloc := (s.totalAlloc + full) % 2 ^ 64
    totalExcess := (s.totalExcess + (full - n)) % 2 ^ 64
    currentCount := (s.currentCount + 1) % 2 ^ 32
    currentOut := (s.currentOut + full) % 2 ^ 32
    maxCount := if s.maxCount < (s.currentCount + 1) % 2 ^ 32 then (s.currentCount + 1) % 2 ^ 32 else s.maxCount
    maxOut := if s.maxOut < (s.currentOut + full) % 2 ^ 32 then (s.currentOut + full) % 2 ^ 32 else s.maxOut }

/-- mplite.c 427-432. -/
def noteRequest (s : St) (n : Nat) : St :=
  { s with maxRequest := if n > s.maxRequest then n else s.maxRequest }

/-- mplite.c 449-485: take block `i` of bin `b`. -/
def takeBlock (s : St) (i b full l n : Nat) : Option (St × Option Nat) :=
  (unlink s i b).bind fun s =>
  (splitLoop s i l (b - l)).bind fun s =>
  (s.setCtrl i (UInt8.ofNat l)).map fun s => (allocStats s full n, some (i * s.szAtom))

/-- mplite.c 438-485. -/
def fromBin (s : St) (full l n : Nat) : Option (St × Option Nat) :=
  if findBin s (LOGMAX + 1 - l) l > LOGMAX then some (s, none)
  else takeBlock s (s.flist (findBin s (LOGMAX + 1 - l) l)).toNat (findBin s (LOGMAX + 1 - l) l) full l n

/-- mplite.c 414-486: `mplite_malloc_unsafe`; the offset of the block, `none` = NULL. -/
def mallocUnsafe (s : St) (n : Int) : Option (St × Option Nat) :=
  if n ≤ 0 ∨ n > MAXALLOC then some (s, none)
  else
    (roundLoop 32 s.szAtom 0 n.toNat).bind fun r =>
    fromBin (noteRequest s n.toNat) r.1 r.2 n.toNat

/-- mplite.c 121-136: `mplite_malloc`. -/
def malloc (s : St) (n : Int) : Option (St × Option Nat) :=
  if n ≤ 0 then some (s, none) else mallocUnsafe s n

/-! ### Release -/

/-- mplite.c 526-535: the buddy; `none` when it would lie beyond the pool. -/
def buddyOf (s : St) (i l : Nat) : Option Nat :=
  if (i / 2 ^ l) % 2 = 1 then some (i - 2 ^ l)
  else if i + 2 ^ l ≥ s.nBlock then none else some (i + 2 ^ l)

/-- mplite.c 539-549: control bytes of a merged pair; `lo` its lower half, `hi` its upper half. -/
def mergeCtrl (s : St) (lo hi l : Nat) : Option St :=
  (s.setCtrl lo (UInt8.ofNat (0x20 ||| (l + 1)))).bind fun s => s.setCtrl hi 0

/-- mplite.c 523-552: the coalescing loop; the first argument is `LOGMAX - iLogsize`. -/
def mergeLoop : Nat → St → Nat → Nat → Option (St × Nat × Nat)
  | 0, s, i, l => some (s, i, l)
  | k + 1, s, i, l =>
    match buddyOf s i l with
    | none => some (s, i, l)
    | some b =>
      match s.getCtrl b with
      | none => none
      | some c =>
        if c ≠ UInt8.ofNat (0x20 ||| l) then some (s, i, l)
        else
          (unlink s b l).bind fun s =>
          if b < i then (mergeCtrl s b i l).bind fun s => mergeLoop k s b (l + 1)
          else (mergeCtrl s i b l).bind fun s => mergeLoop k s i (l + 1)

/-- mplite.c 509-522: mark the block free. -/
def markFree (s : St) (i l : Nat) : Option St :=
  (s.getCtrl i).bind fun c =>
  (s.setCtrl i (c ||| 0x20)).bind fun s =>
  (s.getCtrl (i + 2 ^ l - 1)).bind fun c =>
  (s.setCtrl (i + 2 ^ l - 1) (c ||| 0x20)).bind fun s =>
  s.setCtrl i (UInt8.ofNat (0x20 ||| l))

/-- mplite.c 517-518. -/
def freeStats (s : St) (bytes : Nat) : St :=
  { s with currentCount := s.currentCount - 1, currentOut := s.currentOut - bytes }

/-- mplite.c 515-520: the ASSERTs on the counters. -/
def freeAsserts (s : St) (bytes : Nat) : Bool :=
  decide (s.currentCount > 0) && decide (s.currentOut ≥ bytes) &&
  (decide (s.currentOut - bytes > 0) || decide (s.currentCount - 1 = 0)) &&
  (decide (s.currentCount - 1 > 0) || decide (s.currentOut - bytes = 0))

/-- mplite.c 509-560, for block `i` of size `2 ^ l`. -/
def freeBlock (s : St) (i l : Nat) : Option St :=
  if i + 2 ^ l - 1 < s.nBlock ∧ freeAsserts s (2 ^ l * s.szAtom) = true then
    (markFree s i l).bind fun s =>
    (mergeLoop (LOGMAX - l) (freeStats s (2 ^ l * s.szAtom)) i l).bind fun r => link r.1 r.2.1 r.2.2
  else none

/-- mplite.c 494-561: `mplite_free_unsafe` / 138-149 `mplite_free`. -/
def free (s : St) (p : Nat) : Option St :=
  if p / s.szAtom < s.nBlock ∧ p % s.szAtom = 0 then
    (s.getCtrl (p / s.szAtom)).bind fun c =>
    if c &&& 0x20 ≠ 0 then none else freeBlock s (p / s.szAtom) (c &&& 0x1f).toNat
  else none

/-! ### The rest of the API -/

/-- mplite.c 343-351: `mplite_size`. -/
def size (s : St) (p : Nat) : Option Nat :=
  if p / s.szAtom < s.nBlock then
    (s.getCtrl (p / s.szAtom)).map fun c => s.szAtom * 2 ^ (c &&& 0x1f).toNat
  else none

/-- `memset(p, 0, n)` inside the pool. -/
def memset0 (s : St) (p n : Nat) : Option St :=
  if p + n ≤ s.nBlock * s.szAtom then
    some { s with mem := fun x => if p ≤ x ∧ x < p + n then 0 else s.mem x }
  else none

/-- mplite.c 151-159: `mplite_calloc`. -/
def calloc (s : St) (n : Int) : Option (St × Option Nat) :=
  match malloc s n with
  | none => none
  | some (s, none) => some (s, none)
  | some (s, some p) => (memset0 s p n.toNat).map fun s => (s, some p)

/-- `memcpy(p, q, n)` inside the pool, for ranges that do not overlap (undefined otherwise). -/
def memcpy (s : St) (p q n : Nat) : Option St :=
  if p + n ≤ s.nBlock * s.szAtom ∧ q + n ≤ s.nBlock * s.szAtom ∧ (p + n ≤ q ∨ q + n ≤ p) then
    some { s with mem := fun x => if p ≤ x ∧ x < p + n then s.mem (x - p + q) else s.mem x }
  else none

/-- Is `n` positive and a power of two (mplite.c 168-169: `!(n & (n-1))`)? -/
def isPow2 (n : Int) : Bool := decide (0 < n) && decide (n.toNat &&& (n.toNat - 1) = 0)

/-- mplite.c 179-188. -/
def reallocMove (s : St) (q old : Nat) (n : Int) : Option (St × Option Nat) :=
  match mallocUnsafe s n with
  | none => none
  | some (s, none) => some (s, none)
  | some (s, some p) => (memcpy s p q old).bind fun s => (free s q).map fun s => (s, some p)

/-- mplite.c 161-189: `mplite_realloc`. -/
def realloc (s : St) (q : Nat) (n : Int) : Option (St × Option Nat) :=
  if isPow2 n = false then some (s, none)
  else
    (size s q).bind fun old =>
    if n ≤ old then some (s, some q) else reallocMove s q old n

/-- mplite.c 195-214: `mplite_resize` (0 or -1). -/
def resize (s : St) (q : Nat) (n : Int) : Option Int :=
  if isPow2 n = false then some (-1)
  else (size s q).map fun (old : Nat) => if n ≤ (old : Int) then 0 else -1

/-- mplite.c 224-233; the argument is `i`. -/
def maxmemLoop (s : St) : Nat → Nat
  | 0 => 0
  | i + 1 => if s.flist i ≠ -1 then 2 ^ i * s.szAtom else maxmemLoop s i

/-- mplite.c 217-234: `mplite_maxmem`. -/
def maxmem (s : St) : Nat := maxmemLoop s (LOGMAX + 1)

/-- mplite.c 251-257: length of a free list. -/
def walk (s : St) : Nat → Int → Option Nat
  | 0, _ => none
  | fuel + 1, x => if x = -1 then some 0 else
      if 0 ≤ x then (s.getNext x.toNat).bind fun y => (walk s fuel y).map (· + 1) else none

/-- mplite.c 247-258: the loop; blocks counted from bin `l` on, `k` bins left.  Simplified: after the last
iteration the C code shifts `blocksize` to `1 << 31` (not representable in `int`, value unused). -/
def freememLoop (s : St) : Nat → Nat → Option Nat
  | 0, _ => some 0
  | k + 1, l => (walk s (s.nBlock + 1) (s.flist l)).bind fun n =>
      (freememLoop s k (l + 1)).map fun t => n * 2 ^ l + t

/-- mplite.c 237-263: `mplite_freemem`. -/
def freemem (s : St) : Option Nat := (freememLoop s (LOGMAX + 1) 0).map (· * s.szAtom)

/-- mplite.c 266-279: `mplite_roundup`. -/
def roundup (s : St) (n : Int) : Option Nat :=
  if n < 1 ∨ n > MAXALLOC then some 0 else (roundLoop 32 s.szAtom 0 n.toNat).map (·.1)

/-- The client writes a byte. -/
def write (s : St) (a : Nat) (b : Byte) : St := { s with mem := fun x => if x = a then b else s.mem x }

end Verif.Mplite
