import Verif.Dirent.Open

/-!
# C82: `scandir`

Model of `/repo/inc/sys/dirent_windows.h` 972-1067. `filter` and `compare` are functions without side effects; `qsort` is the C
library's: any order it may produce. A null `compare` is undefined.
-/
namespace Verif.Dirent
open Spec (W FindData Ent Locale FullRes FindRes OpenAns Event Ret Pos Stream Abs)

/-- The answers of the allocator: for the entry after `i` kept ones, for the table when `i` are kept. -/
structure ScanAns where
  openAns : OpenAns
  entOk : Nat → Bool
  tabOk : Nat → Bool

abbrev Cmp := Ent Byte → Ent Byte → Int

/-- `realloc` of the pointer table to `n` pointers. -/
def reallocPtrs (s : Sys) (files : Option Nat) (n : Nat) (ok : Bool) : Option (Option Nat × Sys) :=
  if ok then
    match files with
    | none => some (some s.next, { s.put s.next (some (.ptrs n [])) with next := s.next + 1 })
    | some f =>
      match s.heap f with
      | some (.ptrs _ l) => some (some s.next, { (s.put f none).put s.next (some (.ptrs n l)) with next := s.next + 1 })
      | _ => none
  else some (none, s)

/-- Why the loop ended: `exit_success` or `exit_failure`, with `tmp`, `files` and `size`. -/
structure LoopEnd where
  ok : Bool
  tmp : Option Nat
  files : Option Nat
  size : Nat

/-- 1017-1019: `files[size++] = tmp` -/
def storePtr (s : Sys) (files : Option Nat) (size t : Nat) : Option Sys := do
  let f ← files
  match ← s.heap f with
  | .ptrs cap l => if l.length = size ∧ size < cap then some (s.put f (some (.ptrs cap (l ++ [t])))) else none
  | _ => none

/-- 993-1021: the loop -/
def scanLoop (loc : Locale) (filter : Option (Ent Byte → Bool)) (a : ScanAns) (dir : Nat) : Nat → Sys → Option Nat → Option Nat → Nat → Nat → Option (LoopEnd × Sys)
  | 0, _, _, _, _, _ => none
  | fuel + 1, s, tmp, files, size, allocated =>
    let (tmp, s) := if tmp = none then malloc s (a.entOk size) else (tmp, s)
    match tmp with
    | none => some (⟨false, none, files, size⟩, s)
    | some t => do
      let (rc, e, s) ← readdirR loc s (some dir)
      if rc ≠ 0 then return (⟨false, some t, files, size⟩, s)
      match e with
      | none => return (⟨true, some t, files, size⟩, s)
      | some e =>
        let _ ← s.heap t
        let s := s.put t (some (.ent e))
        if filter.any (fun f => !f e) then scanLoop loc filter a dir fuel s (some t) files size allocated
        else if size ≥ allocated then
          match ← reallocPtrs s files (size * 2 + 16) (a.tabOk size) with
          | (none, s) => return (⟨false, some t, files, size⟩, s)
          | (some p, s) =>
            let s ← storePtr s (some p) size t
            scanLoop loc filter a dir fuel s none (some p) (size + 1) (size * 2 + 16)
        else
          let s ← storePtr s files size t
          scanLoop loc filter a dir fuel s none files (size + 1) allocated

/-- 1025-1027: `free(files[i])` -/
def freeAll (s : Sys) : List Nat → Option Sys
  | [] => some s
  | x :: l => do
    let s ← free s (some x)
    freeAll s l

/-- The pointers in the table. -/
def tablePtrs (s : Sys) : Option Nat → Option (List Nat)
  | none => some []
  | some f =>
    match s.heap f with
    | some (.ptrs _ l) => some l
    | _ => none

def getEnt (s : Sys) (x : Nat) : Option (Nat × Ent Byte) :=
  match s.heap x with
  | some (.ent e) => some (x, e)
  | _ => none

/-- 1038-1041: `qsort` of the table (a null table with no elements is left alone) -/
def sortTable (s : Sys) (files : Option Nat) (size : Nat) (cmp : Option Cmp) (qs : List (Nat × Ent Byte) → List (Nat × Ent Byte)) : Option Sys := do
  let _ ← cmp
  match files with
  | none => if size = 0 then return s else none
  | some f =>
    match ← s.heap f with
    | .ptrs cap l =>
      if l.length ≠ size then none
      let es ← l.mapM (getEnt s)
      return s.put f (some (.ptrs cap ((qs es).map (·.1))))
    | _ => none

/-- Turns the loop can take. -/
def scanBound (s : Sys) (dir : Nat) : Nat :=
  match getDir s dir with
  | some w => bound s w
  | none => 0

/-- 973-1067 `scandir`: result and `*namelist` (`some` if it was written). -/
def scandir (loc : Locale) (s : Sys) (dirname : Option (List Byte)) (namelist : Bool) (filter : Option (Ent Byte → Bool)) (cmp : Option Cmp)
    (qs : List (Nat × Ent Byte) → List (Nat × Ent Byte)) (a : ScanAns) : Option (Int × Option (Option Nat) × Sys) := do
  match ← opendir loc s dirname a.openAns with
  | (none, s) => return (-1, none, s)
  | (some dir, s) =>
    let (e, s) ← scanLoop loc filter a dir (scanBound s dir) s none none 0 0
    if e.ok then
      let s ← sortTable s e.files e.size cmp qs
      let s ← free s e.tmp
      let (_, s) ← closedir s (some dir)
      return ((e.size : Int), if namelist then some e.files else none, s)
    else
      let l ← tablePtrs s e.files
      if l.length < e.size then none
      let s ← freeAll s (l.take e.size)
      let s ← free s e.files
      let s ← free s e.tmp
      let (_, s) ← closedir s (some dir)
      return (-1, none, s)

/-! ### What it should do -/

/-- The entries of a directory. -/
def entries (loc : Locale) : List FindData → List (Ent Byte)
  | [] => []
  | d :: r => Spec.byteEntry loc d r :: entries loc r

/-- `compare` is an order (names may be equal in it). -/
structure Order (cmp : Cmp) : Prop where
  total : ∀ a b, cmp a b ≤ 0 ∨ cmp b a ≤ 0
  trans : ∀ a b c, cmp a b ≤ 0 → cmp b c ≤ 0 → cmp a c ≤ 0

/-- What the C standard says about `qsort`. -/
def QsortOk (cmp : Cmp) (qs : List (Nat × Ent Byte) → List (Nat × Ent Byte)) : Prop :=
  ∀ l, (qs l).Perm l ∧ (Order cmp → (qs l).Pairwise fun a b => cmp a.2 b.2 ≤ 0)

/-- The caller has, beyond what there was before (`s0`), a table of pointers to these entries, each in a block of its own, or nothing if there are none. -/
def Result (s0 s : Sys) (files : Option Nat) (es : List (Ent Byte)) : Prop :=
  (files = none ∧ es = [] ∧ (∀ x, s.heap x = s0.heap x)) ∨
  ∃ (f cap : Nat) (ps : List (Nat × Ent Byte)), files = some f ∧ s.heap f = some (.ptrs cap (ps.map (·.1))) ∧ es = ps.map (·.2) ∧ es.length ≤ cap ∧ (ps.map (·.1)).Nodup ∧ f ∉ ps.map (·.1) ∧
    (∀ p ∈ ps, s.heap p.1 = some (.ent p.2)) ∧ (∀ x, x = f ∨ x ∈ ps.map (·.1) → s0.heap x = none) ∧
    ∀ x, ¬ (x = f ∨ x ∈ ps.map (·.1)) → s.heap x = s0.heap x

/-! ### Proof -/

/-- What `scandir` has allocated. -/
def mine (dir w q : Nat) (tmp files : Option Nat) (kept : List (Nat × Ent Byte)) (x : Nat) : Prop :=
  x = dir ∨ x = w ∨ x = q ∨ tmp = some x ∨ files = some x ∨ x ∈ kept.map (·.1)

structure J (s0 s : Sys) (dir w q : Nat) (h : Option Nat) (patt : List W) (l : List FindData) (d : WDir) (tmp files : Option Nat) (alloc : Nat)
    (kept : List (Nat × Ent Byte)) : Prop where
  dirAt : s.heap dir = some (.dir w)
  rep : WRep s w q h patt (.at l) d
  tmpAt : ∀ t, tmp = some t → (s.heap t = some .raw ∨ ∃ e, s.heap t = some (.ent e)) ∧ t ∉ kept.map (·.1)
  tab : (files = none ∧ kept = [] ∧ alloc = 0) ∨ ∃ t, files = some t ∧ s.heap t = some (.ptrs alloc (kept.map (·.1)))
  ents : ∀ p ∈ kept, s.heap p.1 = some (.ent p.2)
  nodup : (kept.map (·.1)).Nodup
  cap : kept.length ≤ alloc
  fresh : ∀ x, mine dir w q tmp files kept x → s0.heap x = none
  lt : ∀ x, s.heap x ≠ none → x < s.next
  ge : s0.next ≤ s.next
  other : ∀ x, ¬ mine dir w q tmp files kept x → s.heap x = s0.heap x
  hfresh : ∀ y, h = some y → s0.handles y = none
  hnd : ∀ y, h ≠ some y → s.handles y = s0.handles y
  base : ∀ x, s0.heap x ≠ none → x < s0.next

theorem J.none_next {s0 s : Sys} {dir w q : Nat} {h : Option Nat} {patt : List W} {l : List FindData} {d : WDir} {tmp files : Option Nat} {alloc : Nat}
    {kept : List (Nat × Ent Byte)} (j : J s0 s dir w q h patt l d tmp files alloc kept) : s.heap s.next = none ∧ s0.heap s.next = none := by
  constructor
  · cases e : s.heap s.next with
    | none => rfl
    | some o => exact absurd (j.lt s.next (by simp [e])) (Nat.lt_irrefl _)
  · cases e : s0.heap s.next with
    | none => rfl
    | some o => exact absurd (j.base s.next (by simp [e])) (by have := j.ge; omega)

/-- A new block for the entry. -/
theorem J.alloc {s0 s : Sys} {dir w q : Nat} {h : Option Nat} {patt : List W} {l : List FindData} {d : WDir} {files : Option Nat} {alloc : Nat}
    {kept : List (Nat × Ent Byte)} (j : J s0 s dir w q h patt l d none files alloc kept) :
    J s0 { s.put s.next (some .raw) with next := s.next + 1 } dir w q h patt l d (some s.next) files alloc kept := by
  obtain ⟨n1, n2⟩ := j.none_next
  have old : ∀ x, s.heap x ≠ none → (s.put s.next (some .raw)).heap x = s.heap x := by
    intro x hx
    have : x ≠ s.next := by rintro rfl; exact hx n1
    simp [Sys.put, this]
  obtain ⟨b, hb, hc⟩ := j.rep.buf
  refine ⟨?_, ⟨?_, j.rep.pat, ⟨b, ?_, hc⟩, j.rep.hnd, j.rep.pos⟩, ?_, ?_, ?_, j.nodup, j.cap, ?_, ?_, ?_, ?_, j.hfresh, j.hnd, j.base⟩
  · exact (old _ (by simp [j.dirAt])).trans j.dirAt
  · exact (old _ (by simp [j.rep.atw])).trans j.rep.atw
  · exact (old _ (by simp [hb])).trans hb
  · intro t ht
    cases ht
    refine ⟨.inl (by simp [Sys.put]), ?_⟩
    intro hm
    obtain ⟨p, hp, he⟩ := List.mem_map.1 hm
    have := j.ents p hp
    rw [he, n1] at this; cases this
  · rcases j.tab with k | ⟨t, k1, k2⟩
    · exact .inl k
    · exact .inr ⟨t, k1, (old _ (by simp [k2])).trans k2⟩
  · intro p hp; exact (old _ (by simp [j.ents p hp])).trans (j.ents p hp)
  · rintro x (k | k | k | k | k | k)
    · exact j.fresh x (.inl k)
    · exact j.fresh x (.inr (.inl k))
    · exact j.fresh x (.inr (.inr (.inl k)))
    · cases k; exact n2
    · exact j.fresh x (.inr (.inr (.inr (.inr (.inl k)))))
    · exact j.fresh x (.inr (.inr (.inr (.inr (.inr k)))))
  · intro x hx
    by_cases e : x = s.next
    · subst e; exact Nat.lt_succ_self _
    · have : (s.put s.next (some .raw)).heap x = s.heap x := by simp [Sys.put, e]
      exact Nat.lt_succ_of_lt (j.lt x (by rw [← this]; exact hx))
  · exact Nat.le_succ_of_le j.ge
  · intro x hx
    have e : x ≠ s.next := fun e => hx (.inr (.inr (.inr (.inl (by rw [e])))))
    show (s.put s.next (some .raw)).heap x = _
    have : (s.put s.next (some .raw)).heap x = s.heap x := by simp [Sys.put, e]
    rw [this]
    refine j.other x ?_
    rintro (k | k | k | k | k | k)
    · exact hx (.inl k)
    · exact hx (.inr (.inl k))
    · exact hx (.inr (.inr (.inl k)))
    · cases k
    · exact hx (.inr (.inr (.inr (.inr (.inl k)))))
    · exact hx (.inr (.inr (.inr (.inr (.inr k)))))

/-- `w` is not one of the other blocks. -/
theorem J.ne_w {s0 s : Sys} {dir w q : Nat} {h : Option Nat} {patt : List W} {l : List FindData} {d : WDir} {tmp files : Option Nat} {alloc : Nat}
    {kept : List (Nat × Ent Byte)} (j : J s0 s dir w q h patt l d tmp files alloc kept) : ∀ {x : Nat} {o : Obj}, s.heap x = some o → (∀ d, o ≠ .wdir d) → x ≠ w := by
  rintro x o h1 h2 rfl
  rw [j.rep.atw] at h1
  cases h1
  exact h2 _ rfl

/-- Reading does not touch the rest. -/
theorem J.upd {s0 s s' : Sys} {dir w q : Nat} {h : Option Nat} {patt : List W} {l l' : List FindData} {d d' : WDir} {tmp files : Option Nat} {alloc : Nat}
    {kept : List (Nat × Ent Byte)} (j : J s0 s dir w q h patt l d tmp files alloc kept) (u : Upd s s' w h h) (r : WRep s' w q h patt (.at l') d') :
    J s0 s' dir w q h patt l' d' tmp files alloc kept := by
  have old : ∀ {x : Nat} {o : Obj}, s.heap x = some o → (∀ d, o ≠ .wdir d) → s'.heap x = some o := fun h1 h2 => (u.heap _ (j.ne_w h1 h2)).trans h1
  refine ⟨old j.dirAt (by simp), r, ?_, ?_, ?_, j.nodup, j.cap, j.fresh, ?_, Nat.le_trans j.ge u.next, ?_, j.hfresh, ?_, j.base⟩
  · intro t ht
    obtain ⟨k1, k2⟩ := j.tmpAt t ht
    refine ⟨?_, k2⟩
    rcases k1 with k | ⟨e, k⟩
    · exact .inl (old k (by simp))
    · exact .inr ⟨e, old k (by simp)⟩
  · rcases j.tab with k | ⟨t, k1, k2⟩
    · exact .inl k
    · exact .inr ⟨t, k1, old k2 (by simp)⟩
  · intro p hp; exact old (j.ents p hp) (by simp)
  · intro x hx
    by_cases e : x = w
    · subst e; exact Nat.lt_of_lt_of_le (j.lt x (by simp [j.rep.atw])) u.next
    · rw [u.heap x e] at hx; exact Nat.lt_of_lt_of_le (j.lt x hx) u.next
  · intro x hx
    rw [u.heap x (fun e => hx (.inr (.inl e)))]
    exact j.other x hx
  · intro y hy
    rw [u.hnd y hy hy]; exact j.hnd y hy

/-- The entry written to the temporary block. -/
theorem J.entry {s0 s : Sys} {dir w q : Nat} {h : Option Nat} {patt : List W} {l : List FindData} {d : WDir} {t : Nat} {files : Option Nat} {alloc : Nat}
    {kept : List (Nat × Ent Byte)} (j : J s0 s dir w q h patt l d (some t) files alloc kept) (e : Ent Byte) :
    J s0 (s.put t (some (.ent e))) dir w q h patt l d (some t) files alloc kept := by
  obtain ⟨k1, k2⟩ := j.tmpAt t rfl
  have old : ∀ {x : Nat} {o : Obj}, s.heap x = some o → (o ≠ .raw ∧ ∀ e, o ≠ .ent e) → (s.put t (some (.ent e))).heap x = some o := by
    intro x o h1 h2
    have : x ≠ t := by
      rintro rfl
      rcases k1 with k | ⟨e, k⟩
      · rw [h1] at k; cases k; exact h2.1 rfl
      · rw [h1] at k; cases k; exact h2.2 _ rfl
    simp [Sys.put, this, h1]
  obtain ⟨b, hb, hc⟩ := j.rep.buf
  refine ⟨old j.dirAt (by simp), ⟨old j.rep.atw (by simp), j.rep.pat, ⟨b, old hb (by simp), hc⟩, j.rep.hnd, j.rep.pos⟩, ?_, ?_, ?_, j.nodup, j.cap, j.fresh, ?_, j.ge, ?_, j.hfresh, j.hnd, j.base⟩
  · intro x hx
    cases hx
    exact ⟨.inr ⟨e, by simp [Sys.put]⟩, k2⟩
  · rcases j.tab with k | ⟨f, f1, f2⟩
    · exact .inl k
    · exact .inr ⟨f, f1, old f2 (by simp)⟩
  · intro p hp
    have : p.1 ≠ t := fun e => k2 (List.mem_map.2 ⟨p, hp, e⟩)
    simp [Sys.put, this, j.ents p hp]
  · intro x hx
    by_cases k : x = t
    · subst k
      refine j.lt x ?_
      rcases k1 with k | ⟨e, k⟩ <;> simp [k]
    · exact j.lt x (by simpa [Sys.put, k] using hx)
  · intro x hx
    have : x ≠ t := fun e => hx (.inr (.inr (.inr (.inl (by rw [e])))))
    have e2 : (s.put t (some (.ent e))).heap x = s.heap x := by simp [Sys.put, this]
    rw [e2]
    exact j.other x hx

/-- The table enlarged. -/
theorem J.grow {s0 s : Sys} {dir w q : Nat} {h : Option Nat} {patt : List W} {l : List FindData} {d : WDir} {tmp files : Option Nat} {alloc n : Nat}
    {kept : List (Nat × Ent Byte)} (j : J s0 s dir w q h patt l d tmp files alloc kept) (hn : kept.length ≤ n) :
    ∃ s', reallocPtrs s files n true = some (some s.next, s') ∧ J s0 s' dir w q h patt l d tmp (some s.next) n kept ∧ (∀ x e, s.heap x = some (.ent e) → s'.heap x = some (.ent e)) := by
  obtain ⟨n1, n2⟩ := j.none_next
  unfold reallocPtrs
  have key : ∀ s', (∀ x, x ≠ s.next → files ≠ some x → s'.heap x = s.heap x) → s'.heap s.next = some (.ptrs n (kept.map (·.1))) → (∀ x, files = some x → s'.heap x = none) →
      s'.handles = s.handles → s'.next = s.next + 1 → J s0 s' dir w q h patt l d tmp (some s.next) n kept ∧ (∀ x e, s.heap x = some (.ent e) → s'.heap x = some (.ent e)) := by
    intro s' h1 h2 h2' h3 h4
    have old : ∀ {x : Nat} {o : Obj}, s.heap x = some o → (∀ c l, o ≠ .ptrs c l) → s'.heap x = some o := by
      intro x o k1 k2
      have a : x ≠ s.next := by rintro rfl; rw [n1] at k1; cases k1
      have b : files ≠ some x := by
        intro e
        rcases j.tab with ⟨k, _⟩ | ⟨f, f1, f2⟩
        · rw [k] at e; cases e
        · rw [f1] at e; cases e; rw [f2] at k1; cases k1; exact k2 _ _ rfl
      rw [h1 x a b]; exact k1
    refine ⟨?_, fun x e k => old k (by simp)⟩
    obtain ⟨b, hb, hc⟩ := j.rep.buf
    refine ⟨old j.dirAt (by simp), ⟨old j.rep.atw (by simp), j.rep.pat, ⟨b, old hb (by simp), hc⟩, j.rep.hnd, by rw [h3]; exact j.rep.pos⟩, ?_, ?_, ?_, j.nodup, hn, ?_, ?_, ?_, ?_, j.hfresh, ?_, j.base⟩
    · intro t ht
      obtain ⟨k1, k2⟩ := j.tmpAt t ht
      refine ⟨?_, k2⟩
      rcases k1 with k | ⟨e, k⟩
      · exact .inl (old k (by simp))
      · exact .inr ⟨e, old k (by simp)⟩
    · exact .inr ⟨s.next, rfl, h2⟩
    · intro p hp; exact old (j.ents p hp) (by simp)
    · rintro x (k | k | k | k | k | k)
      · exact j.fresh x (.inl k)
      · exact j.fresh x (.inr (.inl k))
      · exact j.fresh x (.inr (.inr (.inl k)))
      · exact j.fresh x (.inr (.inr (.inr (.inl k))))
      · cases k; exact n2
      · exact j.fresh x (.inr (.inr (.inr (.inr (.inr k)))))
    · intro x hx
      rw [h4]
      by_cases e : x = s.next
      · subst e; exact Nat.lt_succ_self _
      · by_cases e2 : files = some x
        · exact absurd (h2' x e2) hx
        · rw [h1 x e e2] at hx; exact Nat.lt_succ_of_lt (j.lt x hx)
    · rw [h4]; exact Nat.le_succ_of_le j.ge
    · intro x hx
      have e : x ≠ s.next := fun e => hx (.inr (.inr (.inr (.inr (.inl (by rw [e]))))))
      by_cases e2 : files = some x
      · rw [h2' x e2]; exact (j.fresh x (.inr (.inr (.inr (.inr (.inl e2)))))).symm
      · rw [h1 x e e2]
        refine j.other x ?_
        rintro (k | k | k | k | k | k)
        · exact hx (.inl k)
        · exact hx (.inr (.inl k))
        · exact hx (.inr (.inr (.inl k)))
        · exact hx (.inr (.inr (.inr (.inl k))))
        · exact e2 k
        · exact hx (.inr (.inr (.inr (.inr (.inr k)))))
    · intro y hy; rw [h3]; exact j.hnd y hy
  rcases j.tab with ⟨k1, k2, k3⟩ | ⟨f, f1, f2⟩
  · subst k1; subst k2
    refine ⟨_, rfl, key _ ?_ (by simp [Sys.put]) (by intro x hx; cases hx) rfl rfl⟩
    intro x hx _
    simp [Sys.put, hx]
  · subst f1
    simp only [if_true, f2]
    have hfn : f ≠ s.next := by rintro rfl; rw [n1] at f2; cases f2
    refine ⟨_, rfl, key _ ?_ (by simp [Sys.put]) ?_ rfl rfl⟩
    · intro x hx hx'
      have : x ≠ f := by rintro rfl; exact hx' rfl
      simp [Sys.put, hx, this]
    · intro x hx; cases hx; simp [Sys.put, hfn]

/-- The entry put into the table. -/
theorem J.store {s0 s : Sys} {dir w q : Nat} {h : Option Nat} {patt : List W} {l : List FindData} {d : WDir} {t f : Nat} {alloc : Nat}
    {kept : List (Nat × Ent Byte)} (j : J s0 s dir w q h patt l d (some t) (some f) alloc kept) {e : Ent Byte} (he : s.heap t = some (.ent e)) (hc : kept.length < alloc) :
    ∃ s', storePtr s (some f) kept.length t = some s' ∧ J s0 s' dir w q h patt l d none (some f) alloc (kept ++ [(t, e)]) := by
  have hf : s.heap f = some (.ptrs alloc (kept.map (·.1))) := by
    rcases j.tab with ⟨k, _⟩ | ⟨x, k1, k2⟩
    · cases k
    · cases k1; exact k2
  obtain ⟨k1, k2⟩ := j.tmpAt t rfl
  refine ⟨s.put f (some (.ptrs alloc (kept.map (·.1) ++ [t]))), ?_, ?_⟩
  · simp [storePtr, hf, hc]
  have old : ∀ {x : Nat} {o : Obj}, s.heap x = some o → (∀ c l, o ≠ .ptrs c l) → (s.put f (some (.ptrs alloc (kept.map (·.1) ++ [t])))).heap x = some o := by
    intro x o h1 h2
    have : x ≠ f := by rintro rfl; rw [hf] at h1; cases h1; exact h2 _ _ rfl
    simp [Sys.put, this, h1]
  obtain ⟨b, hb, hc'⟩ := j.rep.buf
  refine ⟨old j.dirAt (by simp), ⟨old j.rep.atw (by simp), j.rep.pat, ⟨b, old hb (by simp), hc'⟩, j.rep.hnd, j.rep.pos⟩, (by intro t ht; cases ht), ?_, ?_, ?_, ?_, ?_, ?_, j.ge, ?_, j.hfresh, j.hnd, j.base⟩
  · exact .inr ⟨f, rfl, by simp [Sys.put]⟩
  · intro p hp
    rcases List.mem_append.1 hp with hp | hp
    · exact old (j.ents p hp) (by simp)
    · simp only [List.mem_singleton] at hp
      subst hp
      exact old he (by simp)
  · rw [List.map_append, List.nodup_append]
    refine ⟨j.nodup, by simp, ?_⟩
    intro a ha b hb
    simp only [List.map_cons, List.map_nil, List.mem_singleton] at hb
    subst hb
    rintro rfl
    exact k2 ha
  · simp only [List.length_append, List.length_singleton]; omega
  · rintro x (k | k | k | k | k | k)
    · exact j.fresh x (.inl k)
    · exact j.fresh x (.inr (.inl k))
    · exact j.fresh x (.inr (.inr (.inl k)))
    · cases k
    · exact j.fresh x (.inr (.inr (.inr (.inr (.inl k)))))
    · rw [List.map_append, List.mem_append] at k
      rcases k with k | k
      · exact j.fresh x (.inr (.inr (.inr (.inr (.inr k)))))
      · simp only [List.map_cons, List.map_nil, List.mem_singleton] at k
        exact j.fresh x (.inr (.inr (.inr (.inl (by rw [k])))))
  · intro x hx
    by_cases k : x = f
    · subst k; exact j.lt x (by simp [hf])
    · exact j.lt x (by simpa [Sys.put, k] using hx)
  · intro x hx
    have e1 : x ≠ f := fun e => hx (.inr (.inr (.inr (.inr (.inl (by rw [e]))))))
    have e2 : (s.put f (some (.ptrs alloc (kept.map (·.1) ++ [t])))).heap x = s.heap x := by simp [Sys.put, e1]
    rw [e2]
    refine j.other x ?_
    rintro (k | k | k | k | k | k)
    · exact hx (.inl k)
    · exact hx (.inr (.inl k))
    · exact hx (.inr (.inr (.inl k)))
    · cases k
      exact hx (.inr (.inr (.inr (.inr (.inr (by simp))))))
    · exact hx (.inr (.inr (.inr (.inr (.inl k)))))
    · exact hx (.inr (.inr (.inr (.inr (.inr (by rw [List.map_append, List.mem_append]; exact .inl k))))))

end Verif.Dirent
