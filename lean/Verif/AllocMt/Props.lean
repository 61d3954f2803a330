import Verif.AllocMt.All
/-! # Theorems: the memory checker used by many threads -/
namespace Verif.AllocMt
open Verif.Allocator
open Verif.Hashmap (Map kv)
open Verif.Allocator.Spec (Intact tinybird total)

/-! ### Specification -/

/-- The block a thread has passed to `lcu_free` and not yet got back from. -/
def freeing : Pc → Option Blk
  | .fGet b | .fChk b _ | .fMark b _ | .fCan b _ | .fRem b | .fRaw b => some b
  | _ => none

/-- The block a thread asks the size of. -/
def sizing : Pc → Option Blk
  | .sGet b | .sRead b _ => some b
  | _ => none

/-- The size a thread inside `lcu_malloc` asked for. -/
def asked : Pc → Option Nat
  | .mRaw n | .mGet _ n | .mRec _ n | .mPut _ n _ | .mId _ n _ | .mFreed _ n _ | .mSize _ n _ | .mPtr _ n _
  | .mFront _ n _ | .mBack _ n _ => some n
  | _ => none

/-- Blocks whose contents belong to the client: owned, or only being asked for their size. -/
def InUse (s : Sys) (b : Blk) : Prop := b ∈ s.owned ∨ ∃ pc ∈ s.ths, sizing pc = some b

/-- Nobody is inside a call. -/
def Idle (s : Sys) : Prop := ∀ pc ∈ s.ths, ∃ o, pc = .ret o

/-! ### Theorems -/

/-- However the calls of the threads are interleaved, no piece of a call aborts (none of the checker's assertions
fails, no canary is found damaged) or does anything undefined. -/
theorem never_fails {n : Nat} {s : Sys} (h : Reach true n s) {r : Res Sys} (hs : Step true s r) : ∃ s', r = .ok s' :=
  have ⟨s', e, _⟩ := h.inv.step hs
  ⟨s', e⟩

theorem inUse_claim {s : Sys} {b : Blk} (h : InUse s b) : full b false ∈ claims s := by
  rcases h with h | ⟨pc, h, e⟩
  · exact List.mem_append_left _ (List.mem_map.mpr ⟨b, h, rfl⟩)
  · refine List.mem_append_right _ (List.mem_filterMap.mpr ⟨pc, h, ?_⟩)
    cases pc <;> simp [sizing] at e <;> subst e <;> rfl

/-- Two blocks the client has never overlap, even including 8 bytes on each side; none is NULL. -/
theorem blocks_apart {n : Nat} {s : Sys} (h : Reach true n s) :
    s.owned.Pairwise (fun a b => a.p + a.n + 16 ≤ b.p ∨ b.p + b.n + 16 ≤ a.p) ∧ ∀ b ∈ s.owned, 8 < b.p ∧ b.p + b.n + 8 < 2 ^ 64 := by
  have hi := h.inv.inv
  have h1 := (List.pairwise_append.mp hi.disj).1
  rw [List.pairwise_map] at h1
  have h8 : ∀ b ∈ s.owned, 8 < b.p ∧ b.p + b.n + 8 < 2 ^ 64 := by
    intro b hb
    have := inUse_claim (s := s) (.inl hb)
    exact ⟨hi.p8 _ this, hi.range _ this⟩
  refine ⟨(List.Pairwise.and_mem.mp h1).imp ?_, h8⟩
  intro a b ⟨ha, hb, hd⟩
  rw [disjB_iff] at hd
  simp only [reg, full] at hd
  have := h8 a ha
  have := h8 b hb
  omega

/-- `lcu_malloc` returns NULL or a block of the size asked for, which the client then owns. -/
theorem malloc_result {s s' : Sys} {i k : Nat} {e : Env} {pc : Pc} (hi : s.ths[i]? = some pc)
    (hk : asked pc = some k) (ha : act s i e = some (.ok s')) :
    (∃ pc', s'.ths[i]? = some pc' ∧ asked pc' = some k ∧ s'.owned = s.owned) ∨
    (s'.ths[i]? = some (.ret (.ptr 0)) ∧ s'.owned = s.owned) ∨
    ∃ p q, s'.ths[i]? = some (.ret (.ptr p)) ∧ s'.owned = s.owned ++ [⟨p, k, q⟩] := by
  have hlt : i < s.ths.length := (List.getElem?_eq_some_iff.mp hi).1
  cases pc <;> simp only [asked, Option.some.injEq, reduceCtorEq] at hk <;> subst hk
  case mRaw =>
    simp only [act, hi, Option.some.injEq, Res.ok.injEq] at ha
    subst ha
    simp only [List.getElem?_set_self hlt]
    split
    · exact .inr (.inl ⟨rfl, trivial⟩)
    · exact .inl ⟨_, rfl, rfl, trivial⟩
  case mGet =>
    simp only [act, hi] at ha
    split at ha
    · cases ha
    split at ha
    · cases ha
    obtain ⟨g, _, ha⟩ := bind_ok (Option.some.inj ha)
    split at ha
    · simp only [Res.ok.injEq] at ha
      subst ha
      exact .inl ⟨_, List.getElem?_set_self hlt, rfl, rfl⟩
    · split at ha
      · cases ha
      · split at ha
        · simp only [Res.ok.injEq] at ha
          subst ha
          exact .inl ⟨_, List.getElem?_set_self hlt, rfl, rfl⟩
        · cases ha
  case mRec =>
    simp only [act, hi] at ha
    split at ha
    · cases ha
    · simp only [Option.some.injEq, Res.ok.injEq] at ha
      subst ha
      exact .inl ⟨_, List.getElem?_set_self hlt, rfl, rfl⟩
  case mPut =>
    simp only [act, hi] at ha
    split at ha
    · cases ha
    split at ha
    · cases ha
    obtain ⟨g, _, ha⟩ := bind_ok (Option.some.inj ha)
    obtain ⟨g', _, ha⟩ := bind_ok ha
    simp only [Res.ok.injEq] at ha
    subst ha
    exact .inl ⟨_, List.getElem?_set_self hlt, rfl, rfl⟩
  case mBack =>
    simp only [act, hi] at ha
    obtain ⟨g, _, ha⟩ := bind_ok (Option.some.inj ha)
    simp only [Res.ok.injEq] at ha
    subst ha
    exact .inr (.inr ⟨_, _, List.getElem?_set_self hlt, rfl⟩)
  all_goals
    simp only [act, hi] at ha
    obtain ⟨g, _, ha⟩ := bind_ok (Option.some.inj ha)
    simp only [Res.ok.injEq] at ha
    subst ha
    exact .inl ⟨_, List.getElem?_set_self hlt, rfl, rfl⟩

/-- `allocation_tracker_ptr_size` returns the size the block was allocated with. -/
theorem size_result {n : Nat} {s s' : Sys} (h : Reach true n s) {i : Nat} {e : Env} {pc : Pc} {b : Blk}
    (hi : s.ths[i]? = some pc) (hk : sizing pc = some b) (ha : act s i e = some (.ok s')) :
    (∃ pc', s'.ths[i]? = some pc' ∧ sizing pc' = some b ∧ s'.owned = s.owned) ∨
    (s'.ths[i]? = some (.ret (.size b.n)) ∧ s'.owned = s.owned ++ [b]) := by
  have hlt : i < s.ths.length := (List.getElem?_eq_some_iff.mp hi).1
  have hs := h.inv
  have hc := inUse_claim (s := s) (.inr ⟨pc, List.mem_of_getElem? hi, hk⟩)
  cases pc <;> simp only [sizing, Option.some.injEq, reduceCtorEq] at hk <;> subst hk
  case sGet =>
    simp only [act, hi] at ha
    split at ha
    · cases ha
    split at ha
    · cases ha
    obtain ⟨g, _, ha⟩ := bind_ok (Option.some.inj ha)
    split at ha
    · cases ha
    · simp only [Res.ok.injEq] at ha
      subst ha
      exact .inl ⟨_, List.getElem?_set_self hlt, rfl, rfl⟩
  case sRead b g =>
    have hg : g = b.q := hs.good _ (List.mem_of_getElem? hi)
    have hrec := (hs.inv.recs _ hc _ rfl).2
    simp only [full] at hrec
    simp only [act, hi, hg, hrec, Allocator.allocatorId, ne_eq, not_true_eq_false, if_false, Option.some.injEq,
      Res.ok.injEq] at ha
    subst ha
    exact .inr ⟨List.getElem?_set_self hlt, rfl⟩

/-- When `lcu_free` returns, the block has gone back to the C library, and the checker has forgotten it. -/
theorem free_result {n : Nat} {s s' : Sys} (h : Reach true n s) {i : Nat} {e : Env} {pc : Pc} {b : Blk}
    (hi : s.ths[i]? = some pc) (hk : freeing pc = some b) (ha : act s i e = some (.ok s')) :
    s'.owned = s.owned ∧
    ((∃ pc', s'.ths[i]? = some pc' ∧ freeing pc' = some b) ∨
      s'.ths[i]? = some (.ret .unit) ∧ (b.p - 8, b.n + 16) ∈ s.st.raw ∧ s'.st.raw = s.st.raw.filter (fun x => x.1 != b.p - 8)) := by
  have hlt : i < s.ths.length := (List.getElem?_eq_some_iff.mp hi).1
  cases pc <;> simp only [freeing, Option.some.injEq, reduceCtorEq] at hk <;> subst hk
  case fGet =>
    simp only [act, hi] at ha
    split at ha
    · cases ha
    split at ha
    · cases ha
    obtain ⟨g, _, ha⟩ := bind_ok (Option.some.inj ha)
    split at ha
    · cases ha
    · simp only [Res.ok.injEq] at ha
      subst ha
      exact ⟨rfl, .inl ⟨_, List.getElem?_set_self hlt, rfl⟩⟩
  case fChk =>
    simp only [act, hi, Option.some.injEq] at ha
    split at ha
    · cases ha
    · split at ha
      · cases ha
      · simp only [Res.ok.injEq] at ha
        subst ha
        exact ⟨rfl, .inl ⟨_, List.getElem?_set_self hlt, rfl⟩⟩
  case fMark =>
    simp only [act, hi] at ha
    obtain ⟨g, _, ha⟩ := bind_ok (Option.some.inj ha)
    simp only [Res.ok.injEq] at ha
    subst ha
    exact ⟨rfl, .inl ⟨_, List.getElem?_set_self hlt, rfl⟩⟩
  case fCan =>
    simp only [act, hi, Option.some.injEq] at ha
    split at ha
    · cases ha
    · obtain ⟨g, _, ha⟩ := bind_ok ha
      simp only [Res.ok.injEq] at ha
      subst ha
      exact ⟨rfl, .inl ⟨_, List.getElem?_set_self hlt, rfl⟩⟩
  case fRem =>
    simp only [act, hi] at ha
    split at ha
    · cases ha
    split at ha
    · cases ha
    obtain ⟨g, _, ha⟩ := bind_ok (Option.some.inj ha)
    obtain ⟨g', _, ha⟩ := bind_ok ha
    simp only [Res.ok.injEq] at ha
    subst ha
    exact ⟨rfl, .inl ⟨_, List.getElem?_set_self hlt, rfl⟩⟩
  case fRaw b =>
    have hat := h.inv.at hi
    have hmem : (b.p - 8, b.n + 16) ∈ s.st.raw :=
      hat.raw.mem_iff.mpr (List.mem_map.mpr ⟨⟨b.p, b.n, 0, none, false, false, false⟩, List.mem_cons_self .., rfl⟩)
    have h8 : 8 < b.p := hat.p8 ⟨b.p, b.n, 0, none, false, false, false⟩ (List.mem_cons_self ..)
    have hany : s.st.raw.any (fun x => x.1 == b.p - 8) = true :=
      List.any_eq_true.mpr ⟨_, hmem, by simp⟩
    have h0 : b.p - 8 ≠ 0 := by omega
    simp only [act, hi, canarySize_eq, rawFree, if_neg h0, hany, if_true, Res.bind, Option.some.injEq, Res.ok.injEq] at ha
    subst ha
    exact ⟨rfl, .inr ⟨List.getElem?_set_self hlt, hmem, rfl⟩⟩

/-- The library never changes a byte of a block in use, whatever its calls are doing in other threads. -/
theorem contents_kept {n : Nat} {s s' : Sys} (h : Reach true n s) {i : Nat} {e : Env} (ha : act s i e = some (.ok s'))
    {b : Blk} (hb : InUse s b) {k : Nat} (hk : k < b.n) : s'.st.mem (b.p + k) = s.st.mem (b.p + k) := by
  have hs := h.inv
  have hc := inUse_claim hb
  have h8 : 8 < b.p := hs.inv.p8 _ hc
  cases hi : s.ths[i]? with
  | none => simp [act, hi] at ha
  | some pc =>
    have hat := hs.at hi
    have hraw : (b.p - 8, b.n + 16) ∈ s.st.raw := hs.inv.raw.mem_iff.mpr (List.mem_map.mpr ⟨_, hc, rfl⟩)
    -- a block of thread `i`'s own does not meet `b`
    have own : ∀ c, claimOf pc = some c → c ≠ full b false → b.p + b.n + 8 ≤ c.p - 8 ∨ c.p + c.n + 8 ≤ b.p - 8 := by
      intro c e hne
      rw [e] at hat
      have hc' := (claims_at hi).mem_iff.mp hc
      rw [e] at hc'
      rcases List.mem_cons.mp hc' with q | q
      · exact absurd q.symm hne
      · have := (List.pairwise_cons.mp hat.disj).1 _ q
        have h8' := hat.p8 c (List.mem_cons_self ..)
        rw [disjB_iff] at this
        simp only [reg, full] at this
        omega
    cases pc
    case ret => simp [act, hi] at ha
    case mRaw m =>
      simp only [act, hi, Option.some.injEq, Res.ok.injEq] at ha
      subst ha
      rcases rawMalloc_cases s.st (resizeForCanary s.st m) e.r e.junk with h1 | ⟨_, _, hd, h1⟩
      · rw [h1]
      · rw [h1]
        have := hd _ hraw
        rw [disjB_iff] at this
        simp only at this
        have : ¬ (e.r ≤ b.p + k ∧ b.p + k < e.r + resizeForCanary s.st m) := by omega
        simp only [if_neg this]
    case mGet =>
      simp only [act, hi] at ha
      split at ha
      · cases ha
      split at ha
      · cases ha
      obtain ⟨g, _, ha⟩ := bind_ok (Option.some.inj ha)
      split at ha
      · simp only [Res.ok.injEq] at ha
        subst ha; rfl
      · split at ha
        · cases ha
        · split at ha
          · simp only [Res.ok.injEq] at ha
            subst ha; rfl
          · cases ha
    case mRec =>
      simp only [act, hi] at ha
      split at ha
      · cases ha
      · simp only [Option.some.injEq, Res.ok.injEq] at ha
        subst ha; rfl
    case mFront r m q =>
      have := own _ rfl (by intro e; simp [full] at e)
      have hacc := Inv.access (a := r) (n := 8) hat (by simp only; omega) (by simp only; omega)
      obtain ⟨mem, e1, e2, _⟩ := store_canary hacc
      simp only [act, hi, e1, Res.bind, Option.some.injEq, Res.ok.injEq] at ha
      subst ha
      exact e2 _ (by simp only at this; omega)
    case mBack r m q =>
      have := own _ rfl (by intro e; simp [full] at e)
      have hacc := Inv.access (a := r + 8 + m) (n := 8) hat (by simp only; omega) (by simp only; omega)
      obtain ⟨mem, e1, e2, _⟩ := store_canary hacc
      simp only [act, hi, canarySize_eq, e1, Res.bind, Option.some.injEq, Res.ok.injEq] at ha
      subst ha
      exact e2 _ (by simp only at this; omega)
    case lWalk todo t rep =>
      cases todo with
      | nil =>
        simp only [act, hi, Option.some.injEq, Res.ok.injEq] at ha
        subst ha; rfl
      | cons x todo =>
        simp only [act, hi] at ha
        obtain ⟨g, _, ha⟩ := bind_ok (Option.some.inj ha)
        simp only [Res.ok.injEq] at ha
        subst ha; rfl
    case lGo =>
      simp only [act, hi] at ha
      split at ha
      · cases ha
      split at ha
      · cases ha
      simp only [Option.some.injEq, Res.ok.injEq] at ha
      subst ha; rfl
    case fChk =>
      simp only [act, hi, Option.some.injEq] at ha
      split at ha
      · cases ha
      · split at ha
        · cases ha
        · simp only [Res.ok.injEq] at ha
          subst ha; rfl
    case sRead =>
      simp only [act, hi, Option.some.injEq] at ha
      split at ha
      · cases ha
      · split at ha
        · cases ha
        · simp only [Res.ok.injEq] at ha
          subst ha; rfl
    case fCan =>
      simp only [act, hi, Option.some.injEq] at ha
      split at ha
      · cases ha
      · obtain ⟨g, _, ha⟩ := bind_ok ha
        simp only [Res.ok.injEq] at ha
        subst ha; rfl
    case fRaw =>
      simp only [act, hi, Option.some.injEq, rawFree] at ha
      obtain ⟨g, hg, ha⟩ := bind_ok ha
      simp only [Res.ok.injEq] at ha
      subst ha
      split at hg
      · simp only [Res.ok.injEq] at hg
        subst hg; rfl
      · split at hg
        · simp only [Res.ok.injEq] at hg
          subst hg; rfl
        · cases hg
    case mPut =>
      simp only [act, hi] at ha
      split at ha
      · cases ha
      split at ha
      · cases ha
      obtain ⟨g, _, ha⟩ := bind_ok (Option.some.inj ha)
      obtain ⟨g', _, ha⟩ := bind_ok ha
      simp only [Res.ok.injEq] at ha
      subst ha; rfl
    case fRem =>
      simp only [act, hi] at ha
      split at ha
      · cases ha
      split at ha
      · cases ha
      obtain ⟨g, _, ha⟩ := bind_ok (Option.some.inj ha)
      obtain ⟨g', _, ha⟩ := bind_ok ha
      simp only [Res.ok.injEq] at ha
      subst ha; rfl
    case fGet =>
      simp only [act, hi] at ha
      split at ha
      · cases ha
      split at ha
      · cases ha
      obtain ⟨g, _, ha⟩ := bind_ok (Option.some.inj ha)
      split at ha
      · cases ha
      · simp only [Res.ok.injEq] at ha
        subst ha; rfl
    case sGet =>
      simp only [act, hi] at ha
      split at ha
      · cases ha
      split at ha
      · cases ha
      obtain ⟨g, _, ha⟩ := bind_ok (Option.some.inj ha)
      split at ha
      · cases ha
      · simp only [Res.ok.injEq] at ha
        subst ha; rfl
    all_goals
      simp only [act, hi, setRec] at ha
      split at ha
      · simp only [Res.bind, Option.some.injEq, reduceCtorEq] at ha
      · simp only [Res.bind, Option.some.injEq, Res.ok.injEq] at ha
        subst ha; rfl

/-- Two blocks of one heap are the same or apart. -/
theorem claims_apart {C : List Claim} (h : C.Pairwise fun a b => disjB (reg a) (reg b) = true) {a b : Claim} (ha : a ∈ C)
    (hb : b ∈ C) (hne : a.p ≠ b.p) : disjB (reg a) (reg b) = true := by
  induction C with
  | nil => cases ha
  | cons x xs ih =>
    rw [List.pairwise_cons] at h
    rcases List.mem_cons.mp ha with e1 | ha' <;> rcases List.mem_cons.mp hb with e2 | hb'
    · rw [e1, e2] at hne; exact absurd rfl hne
    · rw [e1]; exact h.1 _ hb'
    · rw [e2]; exact disjB_symm (h.1 _ ha')
    · exact ih h.2 ha' hb'

/-- A leak check may run while other threads free blocks, ask for sizes and use their blocks.  When it returns, every
block in use has been reported with its size, nothing has been reported twice, what was reported is a block in use
or one that another thread is just freeing, and the result is the sum of the sizes. -/
theorem leak_report {n : Nat} {s s' : Sys} (h : Reach true n s) {i : Nat} {e : Env} {t : Nat} {rep : List (Nat × Nat)}
    (ha : act s i e = some (.ok s'))
    (hr : s'.ths[i]? = some (.ret (.leaked t rep))) :
    (∀ b, InUse s' b → (b.p, b.n) ∈ rep) ∧ (rep.map (·.1)).Nodup ∧
    (∀ x ∈ rep, ∃ b, (b.p, b.n) = x ∧ (InUse s' b ∨ ∃ pc ∈ s'.ths, freeing pc = some b)) ∧ t = total rep := by
  have hs := h.inv
  cases hi : s.ths[i]? with
  | none => simp [act, hi] at ha
  | some pc =>
    have hlt : i < s.ths.length := (List.getElem?_eq_some_iff.mp hi).1
    -- only the last piece of a leak check returns such a result
    have key : pc = .lWalk [] t rep ∧ s'.ths = s.ths.set i (.ret (.leaked t rep)) ∧ s'.owned = s.owned := by
      cases h1 : claimOf pc with
      | some c =>
        exfalso
        have : ∀ pc', s'.ths = s.ths.set i pc' → pc' ≠ .ret (.leaked t rep) → False := by
          intro pc' e' hne
          rw [e', List.getElem?_set_self hlt] at hr
          exact hne (Option.some.inj hr)
        cases pc <;> simp only [claimOf, reduceCtorEq] at h1
        case mGet r k =>
          rcases malloc_result hi rfl ha with ⟨pc', e1, e2, _⟩ | ⟨e1, _⟩ | ⟨p, q, e1, _⟩ <;>
            rw [hr] at e1 <;> cases e1; cases e2
        case mRec r k =>
          rcases malloc_result hi rfl ha with ⟨pc', e1, e2, _⟩ | ⟨e1, _⟩ | ⟨p, q, e1, _⟩ <;>
            rw [hr] at e1 <;> cases e1; cases e2
        case mPut r k q =>
          rcases malloc_result hi rfl ha with ⟨pc', e1, e2, _⟩ | ⟨e1, _⟩ | ⟨p, q, e1, _⟩ <;>
            rw [hr] at e1 <;> cases e1; cases e2
        case mId r k q =>
          rcases malloc_result hi rfl ha with ⟨pc', e1, e2, _⟩ | ⟨e1, _⟩ | ⟨p, q, e1, _⟩ <;>
            rw [hr] at e1 <;> cases e1; cases e2
        case mFreed r k q =>
          rcases malloc_result hi rfl ha with ⟨pc', e1, e2, _⟩ | ⟨e1, _⟩ | ⟨p, q, e1, _⟩ <;>
            rw [hr] at e1 <;> cases e1; cases e2
        case mSize r k q =>
          rcases malloc_result hi rfl ha with ⟨pc', e1, e2, _⟩ | ⟨e1, _⟩ | ⟨p, q, e1, _⟩ <;>
            rw [hr] at e1 <;> cases e1; cases e2
        case mPtr r k q =>
          rcases malloc_result hi rfl ha with ⟨pc', e1, e2, _⟩ | ⟨e1, _⟩ | ⟨p, q, e1, _⟩ <;>
            rw [hr] at e1 <;> cases e1; cases e2
        case mFront r k q =>
          rcases malloc_result hi rfl ha with ⟨pc', e1, e2, _⟩ | ⟨e1, _⟩ | ⟨p, q, e1, _⟩ <;>
            rw [hr] at e1 <;> cases e1; cases e2
        case mBack r k q =>
          rcases malloc_result hi rfl ha with ⟨pc', e1, e2, _⟩ | ⟨e1, _⟩ | ⟨p, q, e1, _⟩ <;>
            rw [hr] at e1 <;> cases e1; cases e2
        case sGet b =>
          rcases size_result h hi rfl ha with ⟨pc', e1, e2, _⟩ | ⟨e1, _⟩ <;> rw [hr] at e1 <;> cases e1; cases e2
        case sRead b g =>
          rcases size_result h hi rfl ha with ⟨pc', e1, e2, _⟩ | ⟨e1, _⟩ <;> rw [hr] at e1 <;> cases e1; cases e2
        all_goals
          rcases (free_result h hi rfl ha).2 with ⟨pc', e1, e2⟩ | ⟨e1, _⟩ <;> rw [hr] at e1 <;> cases e1; cases e2
      | none =>
        cases pc <;> simp only [claimOf, reduceCtorEq] at h1
        case ret => simp [act, hi] at ha
        case mRaw k =>
          rcases malloc_result hi rfl ha with ⟨pc', e1, e2, _⟩ | ⟨e1, _⟩ | ⟨p, q, e1, _⟩ <;>
            rw [hr] at e1 <;> cases e1; cases e2
        case lGo =>
          simp only [act, hi] at ha
          split at ha
          · cases ha
          split at ha
          · cases ha
          simp only [Option.some.injEq, Res.ok.injEq] at ha
          subst ha
          simp only [List.getElem?_set_self hlt] at hr
          cases hr
        case lWalk todo t' rep' =>
          cases todo with
          | nil =>
            simp only [act, hi, Option.some.injEq, Res.ok.injEq] at ha
            subst ha
            simp only [List.getElem?_set_self hlt] at hr
            cases hr
            exact ⟨rfl, rfl, rfl⟩
          | cons x todo =>
            simp only [act, hi] at ha
            obtain ⟨g, _, ha⟩ := bind_ok (Option.some.inj ha)
            simp only [Res.ok.injEq] at ha
            subst ha
            simp only [List.getElem?_set_self hlt] at hr
            cases hr
    obtain ⟨rfl, hths, hown⟩ := key
    obtain ⟨_, hw⟩ := hs.walk i [] t rep hi
    have hmem : ∀ pc ∈ s.ths, pc ∈ s'.ths ∨ pc = .lWalk [] t rep := by
      intro pc hp
      rw [hths]
      obtain ⟨j, hj, rfl⟩ := List.getElem_of_mem hp
      by_cases e : i = j
      · right
        subst e
        rw [List.getElem?_eq_getElem hj] at hi
        exact Option.some.inj hi
      · left
        have : (s.ths.set i (.ret (.leaked t rep)))[j]? = some s.ths[j] := by
          rw [List.getElem?_set_ne e]; exact List.getElem?_eq_getElem hj
        exact List.mem_of_getElem? this
    have huse : ∀ b, InUse s' b → InUse s b := by
      rintro b (hb | ⟨pc, hp, e⟩)
      · rw [hown] at hb; exact .inl hb
      · rw [hths] at hp
        rcases mem_set hp with rfl | hp
        · cases e
        · exact .inr ⟨pc, hp, e⟩
    have huse' : ∀ b, InUse s b → InUse s' b := by
      rintro b (hb | ⟨pc, hp, e⟩)
      · rw [← hown] at hb; exact .inl hb
      · rcases hmem pc hp with hp | rfl
        · exact .inr ⟨pc, hp, e⟩
        · cases e
    have hnd : (rep.map (·.1)).Nodup := by simpa using hw.nodup
    refine ⟨?_, hnd, ?_, ?_⟩
    · intro b hb
      rcases hw.all _ (inUse_claim (huse b hb)) rfl rfl with q | q
      · exact q
      · cases q
    · intro x hx
      obtain ⟨c, hc, ht, e⟩ := hw.sound x hx
      rcases List.mem_append.mp hc with hc | hc
      · obtain ⟨b, hb, rfl⟩ := List.mem_map.mp hc
        exact ⟨b, e, .inl (huse' b (.inl hb))⟩
      · obtain ⟨pc, hp, hcl⟩ := List.mem_filterMap.mp hc
        have hq := hs.quiet ⟨_, List.mem_of_getElem? hi, rfl⟩ pc hp
        rcases hmem pc hp with hp' | rfl
        · cases pc <;> simp [inMalloc, claimOf] at hq hcl <;> subst hcl
          case sGet => exact ⟨_, e, .inl (.inr ⟨_, hp', rfl⟩)⟩
          case sRead => exact ⟨_, e, .inl (.inr ⟨_, hp', rfl⟩)⟩
          all_goals exact ⟨_, e, .inr ⟨_, hp', rfl⟩⟩
        · cases hcl
    · rw [hw.sum]
      apply Nat.mod_eq_of_lt
      have hpw : (rep.map fun x => (x.1 - 8, x.2 + 16)).Pairwise (fun a b => disjB a b = true) := by
        rw [List.pairwise_map]
        have h1 : rep.Pairwise (fun a b => a.1 ≠ b.1) := by
          have := hnd
          rw [List.nodup_iff_pairwise_ne, List.pairwise_map] at this
          exact this
        refine (List.Pairwise.and_mem.mp h1).imp ?_
        rintro a b ⟨ha, hb, hne⟩
        obtain ⟨c, hc, _, rfl⟩ := hw.sound a ha
        obtain ⟨d, hd, _, rfl⟩ := hw.sound b hb
        exact claims_apart hs.inv.disj hc hd hne
      have h1 := disjoint_total hpw (N := 2 ^ 64 - 1) (by
        intro x hx
        obtain ⟨y, hy, rfl⟩ := List.mem_map.mp hx
        obtain ⟨c, hc, _, rfl⟩ := hw.sound y hy
        have := hs.inv.range c hc
        have := hs.inv.p8 c hc
        simp only
        omega)
      have h2 : total rep ≤ total (rep.map fun x => (x.1 - 8, x.2 + 16)) := by
        unfold total
        have : ∀ l : List (Nat × Nat),
            (l.map (·.2)).sum ≤ ((l.map fun x => (x.1 - 8, x.2 + 16)).map (·.2)).sum := by
          intro l
          induction l with
          | nil => simp
          | cons x xs ih => simp only [List.map_cons, List.sum_cons]; omega
        exact this rep
      omega

/-- When nobody is inside a call, the checker knows exactly the blocks the client owns: a leak check
reports them, whatever interleaving led here, and there is one record per block. -/
theorem idle_report {n : Nat} {s : Sys} (h : Reach true n s) (hidle : Idle s) :
    ∃ reports, expectNoAllocations s.st = .ok (total (s.owned.map fun b => (b.p, b.n)), reports) ∧
      reports.Perm (s.owned.map fun b => (b.p, b.n)) ∧ s.st.raw.Perm (s.owned.map fun b => (b.p - 8, b.n + 16)) := by
  have hs := h.inv
  have hc : claims s = s.owned.map fun b => full b false := by
    unfold claims
    have : s.ths.filterMap claimOf = [] := by
      rw [List.filterMap_eq_nil_iff]
      intro pc hp
      obtain ⟨o, rfl⟩ := hidle pc hp
      rfl
    rw [this, List.append_nil]
  have hi := hs.inv
  rw [hc] at hi
  obtain ⟨m, L, hm, hR, hL⟩ := hi.map
  have hft : (s.owned.map fun b => full b false).filter (·.tab) = s.owned.map fun b => full b false := by
    rw [List.filter_eq_self]
    intro c hc
    obtain ⟨b, _, rfl⟩ := List.mem_map.mp hc
    rfl
  rw [hft, List.map_map] at hL
  have hb : ∀ kv ∈ L, ∃ b ∈ s.owned, kv = (b.p, b.q) := by
    intro kv hk
    obtain ⟨b, hb, e⟩ := List.mem_map.mp (hL.mem_iff.mp hk)
    exact ⟨b, hb, e.symm⟩
  have hrec : ∀ b ∈ s.owned, b.q ≠ 0 ∧ s.st.recs b.q = some ⟨99, b.p, b.n, false⟩ := by
    intro b hb
    exact hi.recs (full b false) (List.mem_map.mpr ⟨b, hb, rfl⟩) _ rfl
  have hsz : ∀ b ∈ s.owned, sz s.st b.q = b.n := by
    intro b hb
    unfold sz
    rw [(hrec b hb).2]
  have hrel : Rel s.st m L := by
    refine ⟨hm, hR, ?_, ?_, ?_, ?_, ?_, ?_, ?_⟩
    · intro kv hk
      obtain ⟨b, hb, rfl⟩ := hb kv hk
      exact (hrec b hb).1
    · intro kv hk
      obtain ⟨b, hb, rfl⟩ := hb kv hk
      simp only [hsz b hb]
      exact (hrec b hb).2
    · have h1 : ((s.owned.map fun b => full b false).map (·.q)).Nodup := by
        rw [List.nodup_iff_pairwise_ne, List.pairwise_map]
        refine (List.Pairwise.and_mem.mp hi.nodup).imp ?_
        rintro a b ⟨ha, hb, hq⟩
        obtain ⟨x, _, rfl⟩ := List.mem_map.mp ha
        obtain ⟨y, _, rfl⟩ := List.mem_map.mp hb
        exact hq rfl rfl
      have h2 := hL.map (fun x : Nat × Nat => x.2)
      rw [List.map_map] at h2
      rw [List.map_map] at h1
      exact h2.nodup_iff.mpr h1
    · intro kv hk
      obtain ⟨b, hb, rfl⟩ := hb kv hk
      simp only [hsz b hb]
      exact ⟨hi.p8 (full b false) (List.mem_map.mpr ⟨b, hb, rfl⟩),
        hi.raw.mem_iff.mpr (List.mem_map.mpr ⟨full b false, List.mem_map.mpr ⟨b, hb, rfl⟩, rfl⟩)⟩
    · refine (hi.raw.pairwise_iff fun {a b} h => disjB_symm h).mpr ?_
      rw [List.pairwise_map]
      exact hi.disj
    · intro x hx
      obtain ⟨c, hc, rfl⟩ := List.mem_map.mp (hi.raw.mem_iff.mp hx)
      have := hi.p8 c hc
      have := hi.range c hc
      simp only [reg]
      omega
    · intro q hq
      obtain ⟨c, hc, _, rfl⟩ := hi.only q hq
      obtain ⟨b, hb, rfl⟩ := List.mem_map.mp hc
      exact List.mem_map.mpr ⟨(b.p, b.q), hL.mem_iff.mpr (List.mem_map.mpr ⟨b, hb, rfl⟩), rfl⟩
  have hled : (led s.st L).Perm (s.owned.map fun b => (b.p, b.n)) := by
    have h1 := hL.map (fun kv : Nat × Nat => (kv.1, sz s.st kv.2))
    refine h1.trans (List.Perm.of_eq ?_)
    rw [List.map_map]
    apply List.map_congr_left
    intro b hb
    simp only [Function.comp, ent, full, hsz b hb]
  have hint : ∀ b ∈ led s.st L, Intact s.st.mem b := by
    intro x hx k hk
    obtain ⟨b, hb, rfl⟩ := List.mem_map.mp (hled.mem_iff.mp hx)
    have hc := List.mem_map.mpr (⟨b, hb, rfl⟩ : ∃ a ∈ s.owned, full a false = full b false)
    exact ⟨hi.front _ hc rfl k hk, hi.back _ hc rfl k hk⟩
  obtain ⟨reports, h1, h2⟩ := (expect_ok hrel).1 hint
  have htot : total (led s.st L) = total (s.owned.map fun b => (b.p, b.n)) := by
    unfold total
    exact (hled.map _).sum_nat
  refine ⟨reports, ?_, h2.trans hled, ?_⟩
  · rw [h1, htot]
  · have := hi.raw
    rw [List.map_map] at this
    exact this

/-- No deadlock: if somebody is inside a call, some thread inside a call can go on. -/
theorem progress {n : Nat} {s : Sys} (h : Reach true n s) {i : Nat} {pc : Pc} (hi : s.ths[i]? = some pc)
    (hc : ∀ o, pc ≠ .ret o) (e : Env) : ∃ j r, act s j e = some r := by
  have hs := h.inv
  obtain ⟨m, hm⟩ := table_some hs
  have hm' : table s.st = some m := hm
  cases hl : s.lock with
  | some j =>
    obtain ⟨pc', hj, hw⟩ := hs.lock j hl
    cases pc' <;> simp only [isWalk, reduceCtorEq, Bool.false_eq_true] at hw
    case lWalk todo t rep =>
      refine ⟨j, ?_⟩
      cases todo with
      | nil => simp [act, hj]
      | cons x todo => simp [act, hj]
  | none =>
    refine ⟨i, ?_⟩
    cases pc with
    | ret o => exact absurd rfl (hc o)
    | mRec r n =>
      simp only [act, hi]
      split <;> exact ⟨_, rfl⟩
    | lWalk todo t rep =>
      have := (hs.walk i todo t rep hi).1
      rw [hl] at this; cases this
    | _ => simp [act, hi, hl, hm']

/-! ### Executable schedules, for the examples -/

/-- One move of a schedule. -/
inductive Move
  | run (i : Nat) (e : Env)
  | malloc (i n : Nat)
  | free (i : Nat) (b : Blk)
  | size (i : Nat) (b : Blk)
  | leaks (i : Nat)
  | write (b : Blk) (k : Nat) (v : UInt8)

/-- `thread i` is outside of calls. -/
def out (s : Sys) (i : Nat) : Bool := match s.ths[i]? with
  | some (.ret _) => true
  | _ => false

/-- The move, if it is allowed. -/
def move (quiet : Bool) (s : Sys) : Move → Option (Res Sys)
  | .run i e =>
    if e.q ≠ 0 ∧ (s.st.recs e.q).isNone = true ∧ ((table s.st).all fun m => Hashmap.entryOk e.entryOk m.size) = true then act s i e
    else none
  | .malloc i n =>
    if out s i = true ∧ n + 16 < 2 ^ 64 ∧ (quiet = true → s.ths.all (fun pc => !inLeaks pc) = true) then
      some (.ok { s with ths := s.ths.set i (.mRaw n) }) else none
  | .free i b => if out s i = true ∧ b ∈ s.owned then
      some (.ok { s with ths := s.ths.set i (.fGet b), owned := s.owned.erase b }) else none
  | .size i b => if out s i = true ∧ b ∈ s.owned then
      some (.ok { s with ths := s.ths.set i (.sGet b), owned := s.owned.erase b }) else none
  | .leaks i => if out s i = true ∧ (quiet = true → s.ths.all (fun pc => !inMalloc pc) = true) then
      some (.ok { s with ths := s.ths.set i .lGo }) else none
  | .write b k v => if b ∈ s.owned ∧ k < b.n then
      some ((store s.st (b.p + k) [v]).bind fun st => .ok { s with st := st }) else none

theorem out_ret {s : Sys} {i : Nat} (h : out s i = true) : ∃ o, s.ths[i]? = some (.ret o) := by
  unfold out at h
  split at h
  · exact ⟨_, by assumption⟩
  · cases h

theorem move_step {quiet : Bool} {s : Sys} {mv : Move} {r : Res Sys} (h : move quiet s mv = some r) : Step quiet s r := by
  cases mv with
  | run i e =>
    simp only [move] at h
    split at h
    · rename_i hc
      refine .run i e r ⟨hc.1, by simpa using hc.2.1⟩ ?_ h
      intro m hm
      have := hc.2.2
      rw [hm] at this
      simpa using this
    · cases h
  | malloc i n =>
    simp only [move] at h
    split at h
    · rename_i hc
      obtain ⟨o, ho⟩ := out_ret hc.1
      cases h
      refine .malloc i n o ho hc.2.1 ?_
      intro q pc hp
      have := List.all_eq_true.mp (hc.2.2 q) pc hp
      simpa using this
    · cases h
  | free i b =>
    simp only [move] at h
    split at h
    · rename_i hc
      obtain ⟨o, ho⟩ := out_ret hc.1
      cases h
      exact .free i b o ho hc.2
    · cases h
  | size i b =>
    simp only [move] at h
    split at h
    · rename_i hc
      obtain ⟨o, ho⟩ := out_ret hc.1
      cases h
      exact .size i b o ho hc.2
    · cases h
  | leaks i =>
    simp only [move] at h
    split at h
    · rename_i hc
      obtain ⟨o, ho⟩ := out_ret hc.1
      cases h
      refine .leaks i o ho ?_
      intro q pc hp
      have := List.all_eq_true.mp (hc.2 q) pc hp
      simpa using this
    · cases h
  | write b k v =>
    simp only [move] at h
    split at h
    · rename_i hc
      cases h
      exact .write b k v hc.1 hc.2
    · cases h

/-- A whole schedule. -/
def play (quiet : Bool) (s : Sys) : List Move → Option (Res Sys)
  | [] => some (.ok s)
  | mv :: mvs => match move quiet s mv with
    | some (.ok s') => play quiet s' mvs
    | r => if mvs.isEmpty then r else none

theorem play_reach {quiet : Bool} {n : Nat} {mvs : List Move} : ∀ {s s' : Sys}, Reach quiet n s →
    play quiet s mvs = some (.ok s') → Reach quiet n s' := by
  induction mvs with
  | nil => intro s s' h e; cases e; exact h
  | cons mv mvs ih =>
    intro s s' h e
    unfold play at e
    cases hm : move quiet s mv with
    | none => rw [hm] at e; simp at e
    | some r =>
      rw [hm] at e
      cases r with
      | ok s1 => exact ih (h.step s s1 (move_step hm)) e
      | abort => simp at e
      | ub => simp at e

/-- A schedule whose last move fails. -/
theorem play_fails {quiet : Bool} {n : Nat} {mvs : List Move} {r : Res Sys} (hr : ∀ s, r ≠ .ok s) : ∀ {s : Sys},
    Reach quiet n s → play quiet s mvs = some r → ∃ s', Reach quiet n s' ∧ Step quiet s' r := by
  induction mvs with
  | nil => intro s h e; cases e; exact absurd rfl (hr s)
  | cons mv mvs ih =>
    intro s h e
    unfold play at e
    cases hm : move quiet s mv with
    | none => rw [hm] at e; simp at e
    | some r' =>
      rw [hm] at e
      cases r' with
      | ok s1 => exact ih (h.step s s1 (move_step hm)) e
      | abort =>
        simp only at e
        split at e
        · exact ⟨s, h, move_step (by rw [hm]; exact e)⟩
        · cases e
      | ub =>
        simp only at e
        split at e
        · exact ⟨s, h, move_step (by rw [hm]; exact e)⟩
        · cases e

/-- The process just after the checker was switched on. -/
def boot (n : Nat) : Sys :=
  match trackerInit (Allocator.start fun _ => 7) true true with
  | .ok st => ⟨st, List.replicate n (.ret .unit), [], none⟩
  | _ => ⟨Allocator.start fun _ => 7, [], [], none⟩

theorem boot_start (n : Nat) : Start n (boot n) := by
  obtain ⟨r, h1, _⟩ := Hashmap.create_terminates trackerCfg 1024 true true
  have : trackerInit (Allocator.start fun _ => 7) true true = .ok { Allocator.start (fun _ => 7) with allocations := r } := by
    unfold trackerInit Allocator.start
    simp only [h1, Res.ofOption, Res.bind]
  unfold boot
  rw [this]
  exact ⟨⟨_, this⟩, rfl, rfl, rfl⟩

/-- An environment: block address, record address. -/
def env (r q : Nat) : Env := ⟨r, fun _ => 3, q, true, true⟩

/-- What can be compared. -/
def view : Option (Res Sys) → Option (List Pc × List Blk × Option Nat)
  | some (.ok s) => some (s.ths, s.owned, s.lock)
  | _ => none

instance : DecidableEq (Option (List Pc × List Blk × Option Nat)) :=
  have : DecidableEq (List Blk × Option Nat) := inferInstance
  inferInstance

/-- `k` pieces of thread `i`. -/
def pieces (i k r q : Nat) : List Move := List.replicate k (.run i (env r q))

/-- Two interleaved allocations: blocks of 5 and 9 bytes. -/
def twoMallocs : List Move :=
  [.malloc 0 5, .malloc 1 9] ++ pieces 0 1 1000 50 ++ pieces 1 2 2000 60 ++ pieces 0 2 0 50 ++ pieces 1 1 0 60 ++
    pieces 0 3 0 70 ++ pieces 1 7 0 70 ++ pieces 0 4 0 70

/-- Then one block is used and freed while a third thread checks for leaks. -/
def freeWhileChecking : List Move :=
  twoMallocs ++ [.write ⟨2008, 9, 60⟩ 8 255, .free 0 ⟨1008, 5, 50⟩, .leaks 2] ++ pieces 0 2 0 70 ++ pieces 2 2 0 70 ++
    pieces 0 1 0 70 ++ pieces 2 2 0 70

/-- Both threads get their block. -/
example : view (play true (boot 3) twoMallocs) =
    some ([.ret (.ptr 1008), .ret (.ptr 2008), .ret .unit], [⟨2008, 9, 60⟩, ⟨1008, 5, 50⟩], none) := by
  decide +kernel

/-- The check reports the block in use, and not the one that was marked as freed in the middle of the check. -/
example : view (play true (boot 3) freeWhileChecking) =
    some ([.fCan ⟨1008, 5, 50⟩ 50, .ret (.ptr 2008), .ret (.leaked 9 [(2008, 9)])],
      [⟨2008, 9, 60⟩], none) := by
  decide +kernel

/-- The states of these examples are reached by a quiet client. -/
theorem freeWhileChecking_reach : ∃ s, play true (boot 3) freeWhileChecking = some (.ok s) ∧ Reach true 3 s := by
  have h : (view (play true (boot 3) freeWhileChecking)).isSome = true := by decide +kernel
  cases e : play true (boot 3) freeWhileChecking with
  | none => rw [e] at h; simp [view] at h
  | some r =>
    cases r with
    | ok s => exact ⟨s, rfl, play_reach (.start _ (boot_start 3)) e⟩
    | abort => rw [e] at h; simp [view] at h
    | ub => rw [e] at h; simp [view] at h

/-! ### The client has to be quiet -/

/-- Is the outcome undefined behaviour / an abort? -/
def isUb : Option (Res Sys) → Bool
  | some .ub => true
  | _ => false

def isAbort : Option (Res Sys) → Bool
  | some .abort => true
  | _ => false

theorem ub_of {r : Option (Res Sys)} (h : isUb r = true) : r = some .ub := by
  cases r with
  | none => cases h
  | some r => cases r <;> first | rfl | cases h

theorem abort_of {r : Option (Res Sys)} (h : isAbort r = true) : r = some .abort := by
  cases r with
  | none => cases h
  | some r => cases r <;> first | rfl | cases h

/-- A leak check during an allocation can meet the new record while it is still empty: the check then looks for
the canary in front of address NULL. -/
theorem check_during_malloc_undefined : ∃ s, Reach false 2 s ∧ Step false s .ub := by
  refine play_fails (mvs := .malloc 0 5 :: pieces 0 3 1000 50 ++ pieces 0 1 0 70 ++ [.leaks 1] ++ pieces 1 2 0 70)
    (by intro s e; cases e) (.start _ (boot_start 2)) (ub_of ?_)
  decide +kernel

/-- Or it meets a record that is complete but whose canaries have not been written: the process is aborted
although no program error has happened. -/
theorem check_during_malloc_aborts : ∃ s, Reach false 2 s ∧ Step false s .abort := by
  refine play_fails (mvs := .malloc 0 5 :: pieces 0 3 1000 50 ++ pieces 0 5 0 70 ++ [.leaks 1] ++ pieces 1 2 0 70)
    (by intro s e; cases e) (.start _ (boot_start 2)) (abort_of ?_)
  decide +kernel

end Verif.AllocMt
