import Verif.Allocator.Calls
/-!
# Theorems: allocation tracker and allocator (C41, C42)
-/
namespace Verif.Allocator
open Verif.Hashmap (Ptr Cfg Map Ev Entry kv)
open Spec

theorem init_rel (mem : Nat → UInt8) {ok1 ok2 : Bool} {s0 : St}
    (h : trackerInit (start mem) ok1 ok2 = .ok s0) (hon : s0.allocations ≠ none) :
    (∃ m, Rel s0 m []) ∧ s0.recs = fun _ => none := by
  obtain ⟨r, h1, h2, _⟩ := Hashmap.create_terminates trackerCfg 1024 ok1 ok2
  unfold trackerInit start at h
  simp only [h1, Res.ofOption, Res.bind, Res.ok.injEq] at h
  subst h
  simp only at hon
  cases r with
  | none => exact absurd rfl hon
  | some m =>
    exact ⟨⟨m, rfl, h2 m rfl, by simp, by simp, by simp, by simp, by simp, by simp, by simp⟩, rfl⟩

theorem mem_led {s : St} {L : List (Nat × Nat)} {x : Nat × Nat} (h : x ∈ L) :
    (x.1, sz s x.2) ∈ led s L := List.mem_map.mpr ⟨x, h, rfl⟩

theorem led_length (s : St) (L : List (Nat × Nat)) : (led s L).length = L.length := by simp [led]

theorem led_keys {s : St} {L : List (Nat × Nat)} {p : Nat} (h : ∀ x ∈ L, x.1 ≠ p) :
    (led s L).filter (fun b => b.1 != p) = led s L := by
  rw [List.filter_eq_self]
  intro b hb
  obtain ⟨x, hx, rfl⟩ := List.mem_map.mp hb
  simpa using h x hx

theorem outcome_any {s s' : St} {m : Map} {L : List (Nat × Nat)} (h : Rel s m L) {size p : Nat}
    {e : Env} {data : Option (List UInt8)} (o : Outcome s L size e data (.ok (s', p))) :
    ∃ m' L', Rel s' m' L' ∧ led s' L' = (if p = 0 then led s L else led s L ++ [(p, size)]) ∧
      L'.length ≤ L.length + 1 := by
  rcases o.view h with o | ⟨_, o⟩ | ⟨_, _, s1, m', bs, o, hr, _, hl, _⟩
  · simp only [Res.ok.injEq, Prod.mk.injEq] at o
    obtain ⟨rfl, rfl⟩ := o
    exact ⟨m, L, h, by simp, by omega⟩
  · cases o
  · simp only [Res.ok.injEq, Prod.mk.injEq] at o
    obtain ⟨rfl, rfl⟩ := o
    refine ⟨m', _, hr, ?_, by simp⟩
    rw [if_neg (by omega), hl]

theorem bind_ok {α β : Type} {x : Res α} {f : α → Res β} {b : β} (h : x.bind f = .ok b) :
    ∃ a, x = .ok a ∧ f a = .ok b := by
  cases x with
  | ok a => exact ⟨a, rfl, h⟩
  | abort => cases h
  | ub => cases h

theorem free_any {s s' : St} {m : Map} {L : List (Nat × Nat)} (h : Rel s m L) {p : Nat}
    (hf : lcuFree s p = .ok s') :
    ∃ m' L', Rel s' m' L' ∧ led s' L' = (led s L).filter (fun b => b.1 != p) ∧
      L'.length ≤ L.length + 1 := by
  by_cases hp0 : p = 0
  · subst hp0
    simp only [lcuFree, if_true, Res.ok.injEq] at hf
    subst hf
    refine ⟨m, L, h, (led_keys ?_).symm, by omega⟩
    intro x hx
    have := (h.live x hx).1
    omega
  · by_cases hk : ∀ x ∈ L, x.1 ≠ p
    · rw [free_unknown h hp0 hk] at hf
      cases hf
    · simp only [Classical.not_forall, not_not] at hk
      obtain ⟨⟨p', q⟩, hx, hxe⟩ := hk
      simp only at hxe
      subst hxe
      obtain ⟨f1, f2⟩ := free_ok h hx
      by_cases hi : Intact s.mem (p', sz s q)
      · obtain ⟨s1, g1, g2⟩ := f1 hi
        rw [g1] at hf
        simp only [Res.ok.injEq] at hf
        subst hf
        obtain ⟨m', hr⟩ := g2.rel
        exact ⟨m', _, hr, (g2.view h hx).1, (List.length_filter_le _ _).trans (by omega)⟩
      · rw [f2 hi] at hf
        cases hf

/-- One step of *any* client keeps the invariant and updates the ledger. -/
theorem step_any {s s' : St} {m : Map} {L : List (Nat × Nat)} (h : Rel s m L) {c : Call} {e : Env}
    {o : Out} (hc : SizesOk c) (he : e.entryOk = true) (hL : L.length < 2 ^ 59)
    (hs : step s c e = .ok (s', o)) :
    ∃ m' L', Rel s' m' L' ∧ led s' L' = ledger (led s L) c o ∧ L'.length ≤ L.length + 1 := by
  cases c with
  | malloc n =>
    obtain ⟨a, h1, h2⟩ := bind_ok hs
    simp only [Res.ok.injEq, Prod.mk.injEq] at h2
    obtain ⟨rfl, rfl⟩ := h2
    have := malloc_core h (n := n) hc he hL
    rw [h1] at this
    exact outcome_any h this
  | calloc c n =>
    obtain ⟨a, h1, h2⟩ := bind_ok hs
    simp only [Res.ok.injEq, Prod.mk.injEq] at h2
    obtain ⟨rfl, rfl⟩ := h2
    have := calloc_core h (c := c) (n := n) hc he hL
    rw [h1] at this
    exact outcome_any h this
  | strdup str =>
    obtain ⟨a, h1, h2⟩ := bind_ok hs
    simp only [Res.ok.injEq, Prod.mk.injEq] at h2
    obtain ⟨rfl, rfl⟩ := h2
    have := strdup_core h (str := str) hc he hL
    rw [h1] at this
    exact outcome_any h this
  | strndup str n =>
    obtain ⟨a, h1, h2⟩ := bind_ok hs
    simp only [Res.ok.injEq, Prod.mk.injEq] at h2
    obtain ⟨rfl, rfl⟩ := h2
    have := strndup_core h (str := str) (len := n) hc he hL
    rw [h1] at this
    exact outcome_any h this
  | realloc p n =>
    obtain ⟨a, h1, h2⟩ := bind_ok hs
    simp only [Res.ok.injEq, Prod.mk.injEq] at h2
    obtain ⟨rfl, rfl⟩ := h2
    have hc' : n + 2064 < 2 ^ 64 := hc
    simp only [ledger]
    by_cases hn0 : n = 0
    · subst hn0
      simp only [if_true]
      unfold lcuRealloc at h1
      simp only [if_true] at h1
      by_cases hp0 : p = 0
      · subst hp0
        simp only [ne_eq, not_true_eq_false, if_false, Res.ok.injEq] at h1
        subst h1
        refine ⟨m, L, h, (led_keys ?_).symm, by omega⟩
        intro x hx
        have := (h.live x hx).1
        omega
      · rw [if_pos hp0] at h1
        obtain ⟨s1, g1, g2⟩ := bind_ok h1
        simp only [Res.ok.injEq] at g2
        subst g2
        exact free_any h g1
    · simp only [if_neg hn0]
      by_cases hp0 : p = 0
      · subst hp0
        unfold lcuRealloc at h1
        simp only [if_neg hn0, if_true] at h1
        rw [Nat.mod_eq_of_lt (show n + 2048 < 2 ^ 64 by omega)] at h1
        have := malloc_core h (n := n + 2048) (e := e) (by omega) he hL
        rw [h1] at this
        obtain ⟨m', L', k1, k2, k3⟩ := outcome_any h this
        refine ⟨m', L', k1, ?_, k3⟩
        rw [k2, led_keys (fun x hx => by have := (h.live x hx).1; omega)]
        simp
      · by_cases hk : ∀ x ∈ L, x.1 ≠ p
        · unfold lcuRealloc at h1
          simp only [if_neg hn0, if_neg hp0, ptrSize_unknown h hp0 hk, Res.bind] at h1
          cases h1
        · simp only [Classical.not_forall, not_not] at hk
          obtain ⟨⟨p', q⟩, hx, hxe⟩ := hk
          simp only at hxe
          subst hxe
          by_cases hle : n ≤ sz s q
          · unfold lcuRealloc at h1
            simp only [if_neg hn0, if_neg hp0, ptrSize_ok h hx, Res.bind] at h1
            rw [if_pos (by omega)] at h1
            simp only [Res.ok.injEq] at h1
            subst h1
            exact ⟨m, L, h, by simp, by omega⟩
          · rcases realloc_move h hx hn0 hc' (by omega) he hL with g | ⟨_, g⟩ | ⟨_, _, g⟩
            · rw [h1] at g
              simp only [Res.ok.injEq] at g
              subst g
              exact ⟨m, L, h, by simp, by omega⟩
            · rw [h1] at g; cases g
            · obtain ⟨s2, m', rest, g1, _, g2, _, _, _, _, gf, _, g3⟩ := g
              rw [h1] at g3
              obtain ⟨s3, k1, k2⟩ := bind_ok g3.symm
              simp only [Res.ok.injEq] at k2
              subst k2
              obtain ⟨m'', L'', j1, j2, j3⟩ := free_any g1 k1
              have hne : e.r + 8 ≠ p' := by
                have := gf.2 ⟨p', bytes s.mem p' (sz s q)⟩ (List.mem_map.mpr ⟨(p', q), hx, rfl⟩)
                simp only at this
                omega
              have hx2 : (p', q) ∈ L ++ [(e.r + 8, e.q)] := List.mem_append_left _ hx
              have hne' : ¬ (e.r + 8 = 0 ∨ e.r + 8 = p') := by omega
              have hl : (L ++ [(e.r + 8, e.q)]).length = L.length + 1 := by simp
              refine ⟨m'', L'', j1, ?_, ?_⟩
              · simp only [if_neg hne']
                rw [j2, g2, List.filter_append]
                congr 1
                simp [hne]
              · have e1 := led_length s3 L''
                rw [j2, g2, List.filter_append, List.length_append] at e1
                have e2 : ((led s L).filter (fun b => b.1 != p')).length ≤ (led s L).length :=
                  List.length_filter_le _ _
                rw [led_length] at e2
                have e3 : (List.filter (fun b => b.1 != p') [(e.r + 8, n + 2048)]).length ≤ 1 :=
                  List.length_filter_le _ _
                omega
  | free p =>
    obtain ⟨a, h1, h2⟩ := bind_ok hs
    simp only [Res.ok.injEq, Prod.mk.injEq] at h2
    obtain ⟨rfl, rfl⟩ := h2
    exact free_any h h1
  | write p i b =>
    obtain ⟨a, h1, h2⟩ := bind_ok hs
    simp only [Res.ok.injEq, Prod.mk.injEq] at h2
    obtain ⟨rfl, rfl⟩ := h2
    unfold store at h1
    split at h1
    · simp only [Res.ok.injEq] at h1
      subst h1
      exact ⟨m, L, h.setMem _, rfl, by omega⟩
    · cases h1
  | read p i =>
    obtain ⟨a, h1, h2⟩ := bind_ok hs
    simp only [Res.ok.injEq, Prod.mk.injEq] at h2
    obtain ⟨rfl, rfl⟩ := h2
    exact ⟨m, L, h, rfl, by omega⟩
  | reset =>
    obtain ⟨a, h1, h2⟩ := bind_ok hs
    simp only [Res.ok.injEq, Prod.mk.injEq] at h2
    obtain ⟨rfl, rfl⟩ := h2
    obtain ⟨s2, m', g1, g2, _⟩ := reset_ok h
    rw [h1] at g1
    simp only [Res.ok.injEq] at g1
    subst g1
    exact ⟨m', [], g2, rfl, by simp⟩
  | leaks =>
    obtain ⟨a, h1, h2⟩ := bind_ok hs
    simp only [Res.ok.injEq, Prod.mk.injEq] at h2
    obtain ⟨rfl, rfl⟩ := h2
    exact ⟨m, L, h, rfl, by omega⟩

theorem run_any (ops : List (Call × Env)) : ∀ {s s' : St} {m : Map} {L : List (Nat × Nat)}
    {outs : List Out}, Rel s m L → (∀ x ∈ ops, SizesOk x.1 ∧ x.2.entryOk = true) →
    L.length + ops.length < 2 ^ 59 → run s ops = .ok (s', outs) →
    ∃ m' L', Rel s' m' L' ∧ led s' L' = ledgers (led s L) ((ops.map (·.1)).zip outs) := by
  induction ops with
  | nil =>
    intro s s' m L outs h _ _ hr
    simp only [run, Res.ok.injEq, Prod.mk.injEq] at hr
    obtain ⟨rfl, rfl⟩ := hr
    exact ⟨m, L, h, rfl⟩
  | cons x xs ih =>
    intro s s' m L outs h hx hL hr
    obtain ⟨c, e⟩ := x
    rw [run] at hr
    obtain ⟨⟨s1, o⟩, h1, h2⟩ := bind_ok hr
    obtain ⟨⟨s2, os⟩, h3, h4⟩ := bind_ok h2
    simp only [Res.ok.injEq, Prod.mk.injEq] at h4
    obtain ⟨rfl, rfl⟩ := h4
    have hx0 := hx _ (List.mem_cons_self ..)
    simp only [List.length_cons] at hL
    obtain ⟨m1, L1, k1, k2, k3⟩ := step_any h hx0.1 hx0.2 (by omega) h1
    obtain ⟨m2, L2, j1, j2⟩ := ih k1 (fun y hy => hx y (List.mem_cons_of_mem _ hy)) (by omega) h3
    refine ⟨m2, L2, j1, ?_⟩
    rw [j2, k2]
    rfl

/-! ## C41 -/

/-- A state reached by an arbitrary client: the tracker is switched on at program start, then any
sequence of allocator calls, reads and writes (also stray ones) is made, none of which aborted or ran
into undefined behaviour.  Sizes plus the tracker's overhead fit in `size_t`, and the tracker's table
gets memory for its entries.  `T` is the ledger of blocks handed out and not yet returned. -/
def Reached (s : St) (T : List (Nat × Nat)) : Prop :=
  ∃ (mem : Nat → UInt8) (ok1 ok2 : Bool) (s0 : St) (ops : List (Call × Env)) (outs : List Out),
    trackerInit (start mem) ok1 ok2 = .ok s0 ∧ s0.allocations ≠ none ∧
    (∀ x ∈ ops, SizesOk x.1 ∧ x.2.entryOk = true) ∧ ops.length < 2 ^ 59 ∧
    run s0 ops = .ok (s, outs) ∧ T = ledgers [] ((ops.map (·.1)).zip outs)

theorem reached_rel {s : St} {T : List (Nat × Nat)} (h : Reached s T) :
    ∃ m L, Rel s m L ∧ led s L = T := by
  obtain ⟨mem, ok1, ok2, s0, ops, outs, h1, h2, h3, h4, h5, rfl⟩ := h
  obtain ⟨⟨m, hr⟩, _⟩ := init_rel mem h1 h2
  obtain ⟨m', L', k1, k2⟩ := run_any ops hr h3 (by simpa using h4) h5
  exact ⟨m', L', k1, k2⟩

/-- **C41** (report). Whatever the client did, the leak check either returns exactly the sum of the
sizes of the blocks handed out and not returned, having reported each of them once, or aborts; it
aborts exactly when some canary byte of such a block has been changed. -/
theorem leak_report_exact (s : St) (T : List (Nat × Nat)) (h : Reached s T) :
    ((∀ b ∈ T, Intact s.mem b) →
      ∃ reports, expectNoAllocations s = .ok (total T, reports) ∧ reports.Perm T) ∧
    ((∃ b ∈ T, ¬ Intact s.mem b) → expectNoAllocations s = .abort) := by
  obtain ⟨m, L, hr, rfl⟩ := reached_rel h
  obtain ⟨h1, h2⟩ := expect_ok hr
  refine ⟨h1, fun ⟨b, hb, hn⟩ => h2 fun ha => hn (ha b hb)⟩

/-- **C41** (records). The tracker holds exactly one record for each block handed out and not yet returned, so it leaks none of its
own memory; switching it off releases them all and leaves the client's blocks alone. -/
theorem records_released (s : St) (T : List (Nat × Nat)) (h : Reached s T) :
    (∃ Q : List Nat, Q.Nodup ∧ (∀ q, s.recs q ≠ none ↔ q ∈ Q) ∧
      T = Q.filterMap fun q => (s.recs q).map fun r => (r.ptr, r.size)) ∧
    ∃ s', trackerUninit s = .ok s' ∧ s'.allocations = none ∧ s'.mem = s.mem ∧ s'.raw = s.raw ∧ s'.recs = (fun _ => none) ∧
      expectNoAllocations s' = .ok (0, []) := by
  obtain ⟨m, L, hr, rfl⟩ := reached_rel h
  refine ⟨⟨L.map (·.2), hr.ndv, fun q => ⟨hr.only q, fun hq => ?_⟩, ?_⟩, ?_⟩
  · obtain ⟨x, hx, rfl⟩ := List.mem_map.mp hq
    rw [hr.recs x hx]; simp
  · rw [List.filterMap_map]
    have : ∀ x ∈ L, ((fun q => (s.recs q).map fun r => (r.ptr, r.size)) ∘ fun x : Nat × Nat => x.2) x = some (x.1, sz s x.2) := by
      intro x hx
      simp only [Function.comp_apply, hr.recs x hx, Option.map_some]
    clear h
    generalize ((fun q => (s.recs q).map fun r => (r.ptr, r.size)) ∘ fun x : Nat × Nat => x.2) = f at this
    unfold led
    clear hr
    induction L with
    | nil => rfl
    | cons x xs ih =>
      rw [List.filterMap_cons, this x (List.mem_cons_self ..), List.map_cons,
        ← ih fun y hy => this y (List.mem_cons_of_mem _ hy)]
  · obtain ⟨s', h1, h2, h3, h4, h5⟩ := uninit_ok hr
    exact ⟨s', h1, h2, h3, h4, h5, by unfold expectNoAllocations; rw [h2]⟩

/-- **C41** (detection). Freeing a pointer that is not the address of a block handed out and not yet
returned (never allocated, already freed, interior) aborts; so does freeing a block any of whose 16
canary bytes was changed; otherwise the free succeeds and takes exactly that block off the ledger. -/
theorem free_outcome (s : St) (T : List (Nat × Nat)) (h : Reached s T) (p : Nat) (hp : p ≠ 0) :
    ((∀ n, (p, n) ∉ T) → lcuFree s p = .abort) ∧
    (∀ n, (p, n) ∈ T → ¬ Intact s.mem (p, n) → lcuFree s p = .abort) ∧
    (∀ n, (p, n) ∈ T → Intact s.mem (p, n) →
      ∃ s', lcuFree s p = .ok s' ∧ s'.mem = s.mem ∧
        s'.raw = s.raw.filter (fun b => b.1 != p - 8) ∧
        ∀ e, (∀ b ∈ T.filter (fun b => b.1 != p), Intact s.mem b) →
          ∃ reports, step s' .leaks e =
            .ok (s', .leaked (total (T.filter fun b => b.1 != p)) reports) ∧
            reports.Perm (T.filter fun b => b.1 != p)) := by
  obtain ⟨m, L, hr, rfl⟩ := reached_rel h
  refine ⟨?_, ?_, ?_⟩
  · intro hn
    exact free_unknown hr hp fun x hx e => hn _ (e ▸ mem_led hx)
  · intro n hn hi
    obtain ⟨⟨p', q⟩, hx, he⟩ := List.mem_map.mp hn
    simp only [Prod.mk.injEq] at he
    obtain ⟨rfl, rfl⟩ := he
    exact (free_ok hr hx).2 hi
  · intro n hn hi
    obtain ⟨⟨p', q⟩, hx, he⟩ := List.mem_map.mp hn
    simp only [Prod.mk.injEq] at he
    obtain ⟨rfl, rfl⟩ := he
    obtain ⟨s', h1, h2⟩ := (free_ok hr hx).1 hi
    refine ⟨s', h1, h2.mem, h2.raw, ?_⟩
    intro e ha
    obtain ⟨m', hr'⟩ := h2.rel
    have hv := (h2.view hr hx).1
    obtain ⟨reports, g1, g2⟩ := (expect_ok hr').1 (by rw [hv, h2.mem]; exact ha)
    rw [hv] at g1 g2
    refine ⟨reports, ?_, g2⟩
    unfold step
    simp only [g1, Res.bind]

/-- **C41** (foreign free). Handing a tracked block back on behalf of another allocator aborts. -/
theorem foreign_free_aborts (s : St) (T : List (Nat × Nat)) (h : Reached s T) (p : Nat) (hp : p ≠ 0)
    (id : Nat) (hid : id ≠ 99) : notifyFree s id p = .abort := by
  obtain ⟨m, L, hr, rfl⟩ := reached_rel h
  unfold notifyFree
  by_cases hk : ∀ x ∈ L, x.1 ≠ p
  · simp only [hr.on, if_neg hp, get_not_mem hr hk, Res.ofOption, Res.bind, if_true]
  · simp only [Classical.not_forall, not_not] at hk
    obtain ⟨⟨p', q⟩, hx, hxe⟩ := hk
    simp only at hxe
    subst hxe
    have h1 := get_mem hr hx
    have h2 := hr.recs _ hx
    have h3 := hr.nz _ hx
    simp only at h1 h2 h3
    have : ¬ (99 = id) := fun e => hid e.symm
    simp [hr.on, hp, h1, Res.ofOption, Res.bind, h3, h2, this]

/-- No two blocks of the ledger overlap, not even with their canaries, and none has address NULL: a
client writing inside its blocks cannot be mistaken for one corrupting another. -/
theorem blocks_apart (s : St) (T : List (Nat × Nat)) (h : Reached s T) :
    T.Pairwise (fun a b => a.1 + a.2 + 16 ≤ b.1 ∨ b.1 + b.2 + 16 ≤ a.1) ∧ ∀ b ∈ T, 8 < b.1 := by
  obtain ⟨m, L, hr, rfl⟩ := reached_rel h
  constructor
  · unfold led
    rw [List.pairwise_map]
    refine (List.Pairwise.and_mem.mp (keys_ne hr)).imp ?_
    intro a b hab
    exact regions hr hab.1 hab.2.1 hab.2.2
  · intro b hb
    obtain ⟨x, hx, rfl⟩ := List.mem_map.mp hb
    exact (hr.live x hx).1

/-! ## Correct clients -/

/-- The conclusion of one step of a correct client. -/
def Good (s : St) (L : List (Nat × Nat)) (H : Heap) (c : Call) (e : Env) : Prop :=
  ∃ s' o H' m' L', step s c e = .ok (s', o) ∧ Step H c o H' ∧ Rel s' m' L' ∧ H' = heapOf s' L' ∧
    AllIntact s' L' ∧ L'.length ≤ L.length + 1 ∧ ∀ x, s'.recs x ≠ none → s.recs x ≠ none ∨ x = e.q

theorem recs_sub {s s' : St} {q : Nat} {r : Rec}
    (h : s'.recs = fun x => if x = q then some r else s.recs x) :
    ∀ x, s'.recs x ≠ none → s.recs x ≠ none ∨ x = q := by
  intro x hx
  rw [h] at hx
  by_cases hq : x = q
  · exact Or.inr hq
  · simp only [hq, if_false] at hx
    exact Or.inl hx

theorem good_alloc {s : St} {m : Map} {L : List (Nat × Nat)} (h : Rel s m L) {size : Nat} {e : Env}
    {data : Option (List UInt8)} {c : Call} {f : St → Env → Res (St × Nat)}
    (hstep : step s c e = (f s e).bind fun p => .ok (p.1, .ptr p.2))
    (o : Outcome s L size e data (f s e)) (hi : AllIntact s L) (hq : e.q ≠ 0 ∧ s.recs e.q = none)
    (hfail : Step (heapOf s L) c (.ptr 0) (heapOf s L))
    (hok : ∀ p bs, bs.length = size → (∀ d, data = some d → bs = d) → Fresh (heapOf s L) p size →
      Step (heapOf s L) c (.ptr p) (heapOf s L ++ [⟨p, bs⟩])) : Good s L (heapOf s L) c e := by
  rcases o.view h with g | ⟨g, _⟩ | ⟨_, _, s', m', bs, g1, g2, g3, _, g5, g6, g7, g8, g9, _⟩
  · refine ⟨s, .ptr 0, heapOf s L, m, L, by rw [hstep, g]; rfl, hfail, h, rfl, hi, by omega,
      fun x hx => Or.inl hx⟩
  · exact absurd hq g
  · exact ⟨s', .ptr (e.r + 8), _, m', _, by rw [hstep, g1]; rfl, hok _ bs g6 g7 g9, g2, g5.symm, g8 hi,
      by simp, recs_sub g3⟩

theorem heap_mem {s : St} {L : List (Nat × Nat)} {b : Block} (h : b ∈ heapOf s L) :
    ∃ q, (b.ptr, q) ∈ L ∧ b.data = bytes s.mem b.ptr (sz s q) := by
  obtain ⟨x, hx, rfl⟩ := List.mem_map.mp h
  exact ⟨x.2, hx, rfl⟩

theorem remove_zero {s : St} {m : Map} {L : List (Nat × Nat)} (h : Rel s m L) :
    Spec.remove (heapOf s L) 0 = heapOf s L := by
  unfold Spec.remove
  rw [List.filter_eq_self]
  intro b hb
  obtain ⟨x, hx, rfl⟩ := List.mem_map.mp hb
  have := (h.live x hx).1
  simp only [bne_iff_ne, ne_eq]
  omega

theorem good_free {s : St} {m : Map} {L : List (Nat × Nat)} (h : Rel s m L) (hi : AllIntact s L)
    {p : Nat} (hp : p = 0 ∨ ∃ b ∈ heapOf s L, b.ptr = p) :
    ∃ s' m' L', lcuFree s p = .ok s' ∧ Rel s' m' L' ∧ Spec.remove (heapOf s L) p = heapOf s' L' ∧
      AllIntact s' L' ∧ L'.length ≤ L.length ∧ ∀ x, s'.recs x ≠ none → s.recs x ≠ none := by
  rcases hp with rfl | ⟨b, hb, rfl⟩
  · exact ⟨s, m, L, rfl, h, remove_zero h, hi, by omega, fun _ hx => hx⟩
  · obtain ⟨q, hx, _⟩ := heap_mem hb
    obtain ⟨s', h1, h2⟩ := (free_ok h hx).1 (hi _ (mem_led hx))
    obtain ⟨m', hr⟩ := h2.rel
    obtain ⟨_, v2, v3⟩ := h2.view h hx
    refine ⟨s', m', _, h1, hr, v2.symm, v3 hi, List.length_filter_le _ _, ?_⟩
    intro x hx
    rw [h2.recs] at hx
    by_cases hxq : x = q
    · simp [hxq] at hx
    · simpa [hxq] using hx

theorem step_client {s : St} {m : Map} {L : List (Nat × Nat)} (h : Rel s m L) (hi : AllIntact s L)
    {c : Call} {e : Env} (hc : Legal (heapOf s L) c) (he : e.entryOk = true) (hL : L.length < 2 ^ 59)
    (hq : e.q ≠ 0 ∧ s.recs e.q = none) : Good s L (heapOf s L) c e := by
  cases c with
  | malloc n =>
    exact good_alloc h (f := fun s e => lcuMalloc s n e) rfl (malloc_core h hc he hL) hi hq
      (Step.nomem _ _ trivial) (fun p bs hl _ hf => Step.malloc _ _ _ _ hl hf)
  | calloc c n =>
    exact good_alloc h (f := fun s e => lcuCalloc s c n e) rfl (calloc_core h hc he hL) hi hq
      (Step.nomem _ _ trivial) (fun p bs hl hd hf => by
        rw [hd _ rfl]; exact Step.calloc _ _ _ _ hf)
  | strdup str =>
    exact good_alloc h (f := fun s e => lcuStrdup s str e) rfl (strdup_core h hc he hL) hi hq
      (Step.nomem _ _ trivial) (fun p bs hl hd hf => by
        rw [hd _ rfl]; exact Step.strdup _ _ _ hf)
  | strndup str n =>
    exact good_alloc h (f := fun s e => lcuStrndup s str n e) rfl (strndup_core h hc he hL) hi hq
      (Step.nomem _ _ trivial) (fun p bs hl hd hf => by
        rw [hd _ rfl]; exact Step.strndup _ _ _ _ hf)
  | realloc p n =>
    obtain ⟨hc1, hc2⟩ := hc
    by_cases hn0 : n = 0
    · subst hn0
      obtain ⟨s', m', L', g1, g2, g3, g4, g5, g6⟩ := good_free h hi hc2
      refine ⟨s', .ptr 0, _, m', L', ?_, Step.reallocFree _ _, g2, g3, g4, by omega,
        fun x hx => Or.inl (g6 x hx)⟩
      unfold step lcuRealloc
      simp only [if_true]
      by_cases hp0 : p = 0
      · subst hp0
        simp only [lcuFree, if_true, Res.ok.injEq] at g1
        subst g1
        rfl
      · simp only [ne_eq, hp0, not_false_eq_true, if_true, g1, Res.bind]
    · by_cases hp0 : p = 0
      · subst hp0
        have hm := malloc_core h (n := n + 2048) (e := e) (by omega) he hL
        refine good_alloc h (f := fun s e => lcuRealloc s 0 n e) (size := n + 2048) (data := none) rfl ?_
          hi hq (Step.nomem _ _ ⟨hn0, Or.inl rfl⟩)
          (fun p bs hl _ hf => Step.reallocNew _ _ _ _ hn0 hl hf)
        unfold lcuRealloc
        simp only [if_neg hn0, if_true]
        rw [Nat.mod_eq_of_lt (show n + 2048 < 2 ^ 64 by omega)]
        exact hm
      · rcases hc2 with hc2 | ⟨b, hb, rfl⟩
        · exact absurd hc2 hp0
        obtain ⟨q, hx, hbd⟩ := heap_mem hb
        have hlen : b.data.length = sz s q := by rw [hbd, bytes_length]
        by_cases hle : n ≤ sz s q
        · refine ⟨s, .ptr b.ptr, _, m, L, ?_, Step.reallocFits _ b n hn0 hb (by omega), h, rfl, hi,
            by omega, fun x hx => Or.inl hx⟩
          unfold step lcuRealloc
          simp only [if_neg hn0, if_neg hp0, ptrSize_ok h hx, Res.bind]
          rw [if_pos (by omega)]
        · rcases realloc_move h hx hn0 hc1 (by omega) he hL with g | ⟨g, _⟩ | ⟨_, _, g⟩
          · refine ⟨s, .ptr 0, _, m, L, ?_,
              Step.nomem _ _ ⟨hn0, Or.inr ⟨b, hb, rfl, by omega⟩⟩, h, rfl, hi, by omega,
              fun x hx => Or.inl hx⟩
            unfold step
            simp only [g, Res.bind]
          · exact absurd hq g
          · obtain ⟨s2, m', rest, g1, g2, g3, g4, g5, g6, g7, gf, g8, g9⟩ := g
            have hi2 : AllIntact s2 (L ++ [(e.r + 8, e.q)]) := by
              intro b hb
              rw [g3] at hb
              rcases List.mem_append.mp hb with hb | hb
              · obtain ⟨x, hx, rfl⟩ := List.mem_map.mp hb
                exact (g6 x hx).mpr (hi _ hb)
              · simp only [List.mem_singleton] at hb
                subst hb
                exact g7
            have hx2 : (b.ptr, q) ∈ L ++ [(e.r + 8, e.q)] := List.mem_append_left _ hx
            obtain ⟨s', m'', L', k1, k2, k3, k4, k5, k6⟩ := good_free g1 hi2 (p := b.ptr)
              (Or.inr ⟨_, List.mem_map.mpr ⟨_, hx2, rfl⟩, rfl⟩)
            have hne : e.r + 8 ≠ b.ptr := by
              have := gf.2 b hb
              omega
            refine ⟨s', .ptr (e.r + 8), Spec.remove (heapOf s L) b.ptr ++
              [⟨e.r + 8, b.data ++ rest⟩], m'', L', ?_, ?_, k2, ?_, k4, ?_, ?_⟩
            · unfold step
              simp only [g9, k1, Res.bind]
            · exact Step.reallocMove _ b n _ rest hn0 hb (by omega) (by omega) gf
            · rw [← k3, g4]
              unfold Spec.remove
              rw [List.filter_append, hbd]
              congr 1
              simp [hne]
            · have h1 : L'.length = (heapOf s' L').length := by simp [heapOf]
              rw [← k3, g4] at h1
              unfold Spec.remove at h1
              have h2 := List.length_filter_le (fun b' : Block => b'.ptr != b.ptr)
                (heapOf s L ++ [⟨e.r + 8, bytes s.mem b.ptr (sz s q) ++ rest⟩])
              have h3 : (heapOf s L).length = L.length := by simp [heapOf]
              simp only [List.length_append, List.length_singleton] at h2
              omega
            · intro x hx'
              exact recs_sub g2 x (k6 x hx')
  | free p =>
    obtain ⟨s', m', L', g1, g2, g3, g4, g5, g6⟩ := good_free h hi hc
    refine ⟨s', .unit, _, m', L', ?_, Step.free _ _, g2, g3, g4, by omega,
        fun x hx => Or.inl (g6 x hx)⟩
    unfold step
    simp only [g1, Res.bind]
  | write p i b =>
    obtain ⟨hc0, bl, hb, rfl, hlt⟩ := hc
    obtain ⟨k, rfl⟩ := Int.eq_ofNat_of_zero_le hc0
    obtain ⟨q, hx, hbd⟩ := heap_mem hb
    rw [hbd, bytes_length] at hlt
    have hk : k < sz s q := by omega
    obtain ⟨h8, hraw⟩ := h.live _ hx
    simp only at h8 hraw
    have hto : ((bl.ptr : Int) + (k : Int)).toNat = bl.ptr + k := by omega
    have hacc : canAccess s (bl.ptr + k) [b].length = true :=
      canAccess_of_mem hraw (by simp only; omega) (by simp only [List.length_singleton]; omega)
    let g : Nat → UInt8 := fun x =>
      if bl.ptr + k ≤ x ∧ x < bl.ptr + k + [b].length then [b].getD (x - (bl.ptr + k)) 0 else s.mem x
    obtain ⟨p1, p2⟩ := payload_store h hx g (by
      intro a ha
      simp only [g, List.length_singleton]
      rw [if_neg (by simp only at ha; omega)])
    refine ⟨{ s with mem := g }, .unit, _, m, L, ?_, Step.write _ _ k b, h.setMem g, ?_, p2 hi, by omega,
      fun x hx => Or.inl hx⟩
    · unfold step
      simp only
      rw [hto]
      simp only [store_ok (Or.inr hacc), Res.bind]
      rfl
    · rw [p1]
      unfold Spec.assign
      apply List.map_congr_left
      intro b' hb'
      by_cases he : b'.ptr = bl.ptr
      · rw [if_pos he, if_pos he]
        obtain ⟨q', hx', hbd'⟩ := heap_mem hb'
        have : q' = q := by
          have h1 := lookup_mem h hx
          have h2 := lookup_mem h hx'
          simp only at h1 h2
          rw [he, h1] at h2
          simp only [Option.some.injEq, Prod.mk.injEq] at h2
          exact h2.2.symm
        subst this
        rw [hbd', he]
        congr 1
        apply List.ext_getElem?
        intro j
        rw [List.getElem?_set, bytes_getElem?, bytes_getElem?, bytes_length]
        by_cases hj : k = j
        · subst hj
          simp [g, hk]
        · rw [if_neg hj]
          split
          · congr 1
            simp only [g, List.length_singleton]
            rw [if_neg (by omega)]
          · rfl
      · rw [if_neg he, if_neg he]
  | read p i =>
    obtain ⟨hc0, bl, hb, rfl, hlt⟩ := hc
    obtain ⟨k, rfl⟩ := Int.eq_ofNat_of_zero_le hc0
    obtain ⟨q, hx, hbd⟩ := heap_mem hb
    have hlt' := hlt
    rw [hbd, bytes_length] at hlt'
    have hk : k < sz s q := by omega
    obtain ⟨h8, hraw⟩ := h.live _ hx
    simp only at h8 hraw
    have hto : ((bl.ptr : Int) + (k : Int)).toNat = bl.ptr + k := by omega
    have hacc : canAccess s (bl.ptr + k) 1 = true :=
      canAccess_of_mem hraw (by simp only; omega) (by simp only; omega)
    refine ⟨s, .byte (bl.data[k]'(by omega)), _, m, L, ?_, Step.read _ bl k hb (by omega), h, rfl, hi,
      by omega, fun x hx => Or.inl hx⟩
    unfold step
    simp only
    rw [hto]
    simp only [load_one hacc, Res.bind]
    have : bl.data[k]? = some (s.mem (bl.ptr + k)) := by rw [hbd, bytes_getElem?, if_pos hk]
    rw [List.getElem?_eq_getElem (by omega)] at this
    simp only [Option.some.injEq] at this
    rw [this]
    rfl
  | reset =>
    obtain ⟨s', m', g1, g2, g3, g4, g5⟩ := reset_ok h
    refine ⟨s', .unit, [], m', [], ?_, Step.reset _, g2, rfl, ?_, by simp, ?_⟩
    · unfold step
      simp only [g1, Res.bind]
    · intro b hb; cases hb
    · intro x hx
      rw [g5] at hx
      by_cases hm : x ∈ L.map (·.2)
      · simp [hm] at hx
      · simp only [hm, if_false] at hx
        exact Or.inl hx
  | leaks =>
    obtain ⟨reports, g1, g2⟩ := (expect_ok h).1 hi
    rw [← shape_heapOf] at g1 g2
    refine ⟨s, .leaked (total (shape (heapOf s L))) reports, _, m, L, ?_, Step.leaks _ _ g2, h, rfl, hi,
      by omega, fun x hx => Or.inl hx⟩
    unfold step
    simp only [g1, Res.bind]

/-- The environment grants memory for the tracker's own bookkeeping: distinct non-NULL addresses for
the records, and the table's entries. -/
def Granted (envs : List Env) : Prop :=
  (envs.map (·.q)).Nodup ∧ (∀ e ∈ envs, e.q ≠ 0 ∧ e.entryOk = true) ∧ envs.length < 2 ^ 59

theorem drive_client (prog : List (Call × Out) → Call)
    (hprog : ∀ trace H, Run [] trace H → Legal H (prog trace)) (envs : List Env) :
    ∀ {s : St} {m : Map} {L : List (Nat × Nat)} {trace : List (Call × Out)}, Rel s m L →
    AllIntact s L → Run [] trace (heapOf s L) → (envs.map (·.q)).Nodup →
    (∀ e ∈ envs, e.q ≠ 0 ∧ e.entryOk = true ∧ s.recs e.q = none) →
    L.length + envs.length < 2 ^ 59 →
    ∃ s' trace' m' L', drive prog s trace envs = .ok (s', trace') ∧ Rel s' m' L' ∧ AllIntact s' L' ∧
      Run [] trace' (heapOf s' L') ∧ trace'.length = trace.length + envs.length := by
  induction envs with
  | nil =>
    intro s m L trace h hi hr _ _ _
    exact ⟨s, trace, m, L, rfl, h, hi, hr, rfl⟩
  | cons e es ih =>
    intro s m L trace h hi hr hnd henv hL
    rw [List.map_cons, List.nodup_cons] at hnd
    obtain ⟨e1, e2, e3⟩ := henv e (List.mem_cons_self ..)
    simp only [List.length_cons] at hL
    obtain ⟨s1, o, H1, m1, L1, k1, k2, k3, k4, k5, k6, k7⟩ :=
      step_client h hi (hprog _ _ hr) e2 (by omega) ⟨e1, e3⟩
    subst k4
    obtain ⟨s', tr', m', L', j1, j2, j3, j4, j5⟩ := ih (trace := trace ++ [(prog trace, o)]) k3 k5
      (Run.snoc hr k2) hnd.2 (by
        intro x hx
        obtain ⟨x1, x2, x3⟩ := henv x (List.mem_cons_of_mem _ hx)
        refine ⟨x1, x2, ?_⟩
        cases hh : s1.recs x.q with
        | none => rfl
        | some r =>
          rcases k7 x.q (by rw [hh]; simp) with g | g
          · exact absurd x3 g
          · exact absurd (g ▸ List.mem_map_of_mem hx) hnd.1) (by omega)
    refine ⟨s', tr', m', L', ?_, j2, j3, j4, ?_⟩
    · rw [drive, k1]
      exact j1
    · rw [j5]; simp; omega

/-- **C41** (no false alarms) and contents. A client that keeps its obligations, deciding each step
from everything it saw so far, never makes the program abort or run into undefined behaviour, and sees
exactly what the heap specification allows: every byte reads back as last written (or zero, or the
duplicated string), no block overlaps another, the leak report is exact.  Whatever addresses and old
contents the C library hands out, and whichever block allocations it refuses. -/
theorem correct_client_sees_heap (mem : Nat → UInt8) (ok1 ok2 : Bool) (s0 : St)
    (h0 : trackerInit (start mem) ok1 ok2 = .ok s0) (hon : s0.allocations ≠ none)
    (prog : List (Call × Out) → Call)
    (hprog : ∀ trace H, Run [] trace H → Legal H (prog trace))
    (envs : List Env) (henv : Granted envs) :
    ∃ s trace H, drive prog s0 [] envs = .ok (s, trace) ∧ trace.length = envs.length ∧
      Run [] trace H := by
  obtain ⟨⟨m, hr⟩, hrec⟩ := init_rel mem h0 hon
  obtain ⟨s, tr, m', L', h1, _, _, h4, h5⟩ := drive_client prog hprog envs hr (by intro b hb; cases hb)
    (Run.nil []) henv.1 (fun e he => ⟨(henv.2.1 e he).1, (henv.2.1 e he).2, by rw [hrec]⟩)
    (by simpa using henv.2.2)
  exact ⟨s, tr, _, h1, by simpa using h5, h4⟩

/-! ## C42 -/

/-- **C42** while the tracker is on. Reallocating a block of `old` bytes to `n` bytes either fails
(NULL, nothing changed) or returns a block of at least `n` usable bytes whose first `min old n` bytes
are those of the old block.  (The general claim fails when the tracker is off, see
`realloc_untracked_copies_nothing`.) -/
theorem realloc_keeps_contents_partial (s : St) (T : List (Nat × Nat)) (h : Reached s T)
    (hT : T.length < 2 ^ 59) (p old n : Nat) (hp : (p, old) ∈ T) (hi : Intact s.mem (p, old))
    (hn0 : n ≠ 0) (hn : n + 2064 < 2 ^ 64) (e : Env) (he : e.entryOk = true)
    (hq : e.q ≠ 0 ∧ s.recs e.q = none) :
    ∃ s' p', lcuRealloc s p n e = .ok (s', p') ∧
      ((p' = 0 ∧ s' = s) ∨
       (p' ≠ 0 ∧ canAccess s' p' n = true ∧ ∀ i < min old n, s'.mem (p' + i) = s.mem (p + i))) := by
  obtain ⟨m, L, hr, rfl⟩ := reached_rel h
  rw [led_length] at hT
  obtain ⟨⟨p', q⟩, hx, hxe⟩ := List.mem_map.mp hp
  simp only [Prod.mk.injEq] at hxe
  obtain ⟨rfl, rfl⟩ := hxe
  obtain ⟨h8, hraw⟩ := hr.live _ hx
  simp only at h8 hraw
  have hp0 : p' ≠ 0 := by omega
  by_cases hle : n ≤ sz s q
  · refine ⟨s, p', ?_, Or.inr ⟨hp0, canAccess_of_mem hraw (by simp only; omega) (by simp only; omega),
      fun _ _ => rfl⟩⟩
    unfold lcuRealloc
    simp only [if_neg hn0, if_neg hp0, ptrSize_ok hr hx, Res.bind]
    rw [if_pos (by omega)]
  · rcases realloc_move hr hx hn0 hn (by omega) he hT with g | ⟨g, _⟩ | ⟨_, _, g⟩
    · exact ⟨s, 0, g, Or.inl ⟨rfl, rfl⟩⟩
    · exact absurd hq g
    · obtain ⟨s2, m', rest, g1, g2, g3, g4, g5, g6, g7, gf, g8, g9⟩ := g
      have hx2 : (p', q) ∈ L ++ [(e.r + 8, e.q)] := List.mem_append_left _ hx
      obtain ⟨s', k1, k2⟩ := (free_ok g1 hx2).1 (by rw [g8]; exact (g6 _ hx).mpr hi)
      have hne : e.r + 8 ≠ p' := by
        have := gf.2 ⟨p', bytes s.mem p' (sz s q)⟩ (List.mem_map.mpr ⟨(p', q), hx, rfl⟩)
        simp only at this
        omega
      have hnew : (e.r + 8, e.q) ∈ L ++ [(e.r + 8, e.q)] := by simp
      have hszn : sz s2 e.q = n + 2048 := by simp [sz, g2]
      obtain ⟨n8, nraw⟩ := g1.live _ hnew
      simp only [hszn] at n8 nraw
      refine ⟨s', e.r + 8, by rw [g9, k1]; rfl, Or.inr ⟨by omega, ?_, ?_⟩⟩
      · refine canAccess_of_mem (b := (e.r + 8 - 8, n + 2048 + 16)) ?_ (by simp only; omega)
          (by simp only; omega)
        rw [k2.raw, List.mem_filter]
        refine ⟨nraw, ?_⟩
        simp only [bne_iff_ne, ne_eq]
        omega
      · intro i hi'
        rw [k2.mem]
        have hlast : (⟨e.r + 8, bytes s2.mem (e.r + 8) (n + 2048)⟩ : Block) =
            ⟨e.r + 8, bytes s.mem p' (sz s q) ++ rest⟩ := by
          have h1 : heapOf s2 (L ++ [(e.r + 8, e.q)]) =
              heapOf s2 L ++ [⟨e.r + 8, bytes s2.mem (e.r + 8) (n + 2048)⟩] := by
            unfold heapOf
            rw [List.map_append, List.map_singleton]
            simp only [hszn]
          rw [h1] at g4
          have := (List.append_inj' g4 (by rw [List.length_singleton, List.length_singleton])).2
          simp only [List.cons.injEq, and_true] at this
          exact this
        have hb : bytes s2.mem (e.r + 8) (n + 2048) = bytes s.mem p' (sz s q) ++ rest := by
          injection hlast
        have h2 : (bytes s2.mem (e.r + 8) (n + 2048))[i]? =
            (bytes s.mem p' (sz s q) ++ rest)[i]? := by rw [hb]
        rw [bytes_getElem?, if_pos (by omega), List.getElem?_append_left (by simp; omega),
          bytes_getElem?, if_pos (by omega)] at h2
        exact Option.some.inj h2

/-- **C42 fails** while the tracker is off: whatever the old block holds, every byte of the block
returned by a successful reallocation is what the C library left there — nothing is copied. -/
theorem realloc_untracked_copies_nothing (s : St) (hoff : s.allocations = none) (p k n : Nat)
    (hp0 : p ≠ 0) (hp : (p, k) ∈ s.raw) (hn0 : n ≠ 0) (hn : n + 2048 < 2 ^ 64) (e : Env) (s' : St)
    (p' : Nat) (hp' : p' ≠ 0) (h : lcuRealloc s p n e = .ok (s', p')) :
    ∀ i < n + 2048, s'.mem (p' + i) = e.junk (p' + i) := by
  have hmod : (n + 2048) % 2 ^ 64 = n + 2048 := Nat.mod_eq_of_lt hn
  unfold lcuRealloc at h
  simp only [if_neg hn0, if_neg hp0, ptrSize, hoff, Res.bind, ne_eq, not_true_eq_false, false_and,
    if_false] at h
  rw [hmod] at h
  unfold lcuMalloc resizeForCanary at h
  simp only [hoff] at h
  rcases rawMalloc_cases s (n + 2048) e.r e.junk with g | ⟨g1, g2, g3, g4⟩
  · simp only [g, if_true, Res.ok.injEq, Prod.mk.injEq] at h
    exact absurd h.2.symm hp'
  · simp only [g4, if_neg g1, notifyAlloc, hoff, load, true_or, if_true, List.range_zero,
      List.map_nil, store, lcuFree, if_neg hp0, notifyFree, Res.bind, rawFree] at h
    have hany : (s.raw ++ [(e.r, n + 2048)]).any (fun b => b.1 == p) = true := by
      rw [List.any_eq_true]
      exact ⟨_, List.mem_append_left _ hp, by simp⟩
    simp only [hany, if_true, ne_eq, hp0, not_false_eq_true, Res.ok.injEq, Prod.mk.injEq] at h
    obtain ⟨rfl, rfl⟩ := h
    intro i hi
    simp only [List.length_nil, Nat.add_zero]
    rw [if_neg (by omega), if_pos (by omega)]

/-! ## Witnesses and recorded faults -/

/-- What a history shows, if it neither aborts nor is undefined. -/
def shown (r : Res (St × List Out)) : Option (List Out) :=
  match r with
  | .ok r => some r.2
  | _ => none

/-- Environment answers with block address `r`, record address `q`. -/
def env (r q : Nat) : Env := ⟨r, fun _ => 0, q, true, true⟩

/-- Start with the tracker on, then run. -/
def demo (ops : List (Call × Env)) : Res (St × List Out) :=
  (trackerInit (start fun _ => 0) true true).bind fun s => run s ops

/-- As `demo`, but with a small table (the tracker asks for 2048 buckets; iterating over them in the
kernel is slow). -/
def demoSmall (ops : List (Call × Env)) : Res (St × List Out) :=
  run { start (fun _ => 0) with allocations := some ⟨[[]], 1, 0⟩ } ops

/-- A correct client: contents survive a growing realloc, the leak report is exact. -/
example : shown (demoSmall
    [(.malloc 3, env 1000 1), (.write 1008 2 65, env 0 0), (.calloc 2 5, env 2000 2),
     (.realloc 1008 4, env 3000 3), (.read 3008 2, env 0 0), (.leaks, env 0 0),
     (.free 2008, env 0 0), (.strdup [104, 105], env 2000 2), (.read 2008 1, env 0 0),
     (.leaks, env 0 0)]) =
    some [.ptr 1008, .unit, .ptr 2008, .ptr 3008, .byte 65,
      .leaked 2062 [(3008, 2052), (2008, 10)], .unit, .ptr 2008, .byte 105,
      .leaked 2055 [(3008, 2052), (2008, 3)]] := by decide +kernel

/-- Is the outcome an abort? -/
def aborted {α : Type} : Res α → Bool
  | .abort => true
  | _ => false

/-- Is the outcome undefined behaviour? -/
def undefinedB {α : Type} : Res α → Bool
  | .ub => true
  | _ => false

/-- Double free, overrun by one byte, underrun by one byte, foreign pointer: all abort. -/
example : aborted (demo [(.malloc 3, env 1000 1), (.free 1008, env 0 0), (.free 1008, env 0 0)]) ∧
    aborted (demo [(.malloc 3, env 1000 1), (.write 1008 3 0, env 0 0), (.free 1008, env 0 0)]) ∧
    aborted (demoSmall [(.malloc 3, env 1000 1), (.write 1008 (-1) 0, env 0 0), (.leaks, env 0 0)]) ∧
    aborted (demo [(.malloc 3, env 1000 1), (.free 1000, env 0 0)]) := by decide +kernel

/-- The same value written over a canary byte is not a change: no false alarm. -/
example : shown (demo [(.malloc 3, env 1000 1), (.write 1008 3 116, env 0 0), (.free 1008, env 0 0)]) =
    some [.ptr 1008, .unit, .unit] := by decide +kernel

/-- Recorded fault: with the tracker off, `lcu_realloc` loses the contents. -/
theorem realloc_untracked_loses_contents :
    shown (run (start fun _ => 0)
      [(.malloc 4, env 1000 1), (.write 1000 0 7, env 0 0), (.read 1000 0, env 0 0),
       (.realloc 1000 8, env 5000 2), (.read 5000 0, env 0 0)]) =
    some [.ptr 1000, .unit, .byte 7, .ptr 5000, .byte 0] := by decide +kernel

/-- Recorded fault: a request within 16 bytes of `SIZE_MAX` wraps; when the tiny block it then asks for
is granted, the tracker writes its canary outside of it. -/
theorem huge_malloc_overruns :
    undefinedB (demo [(.malloc (2 ^ 64 - 16), env 1000 1)]) = true := by decide +kernel

/-- Recorded fault: `lcu_calloc` does not notice an overflowing product: 2^32 items of 2^32 bytes are
"allocated" in zero bytes. -/
theorem calloc_overflow_succeeds :
    shown (demoSmall [(.calloc (2 ^ 32) (2 ^ 32), env 1000 1), (.leaks, env 0 0)]) =
    some [.ptr 1008, .leaked 0 [(1008, 0)]] := by decide +kernel

/-- Recorded fault: `lcu_realloc` to within 2048 bytes of `SIZE_MAX` wraps: the old contents are copied
into a block that is too small. -/
theorem huge_realloc_overruns :
    undefinedB (demo [(.malloc 100, env 1000 1), (.realloc 1008 (2 ^ 64 - 2048), env 5000 2)]) = true := by
  decide +kernel

/-- Recorded fault: if the table has no memory for an entry the allocation still succeeds, untracked;
freeing the block then aborts. -/
theorem untracked_block_cannot_be_freed :
    shown (demo [(.malloc 3, { env 1000 1 with entryOk := false })]) = some [.ptr 1008] ∧
    aborted (demo [(.malloc 3, { env 1000 1 with entryOk := false }), (.free 1008, env 0 0)]) = true := by
  decide +kernel

/-- A tracked block is freed through the wrong address once the tracker is switched off
(`allocation_tracker_uninit` is documented "test function only"). -/
theorem free_after_uninit_undefined :
    undefinedB ((demoSmall [(.malloc 3, env 1000 1)]).bind fun r =>
      (trackerUninit r.1).bind fun s => lcuFree s 1008) = true := by decide +kernel

/-- The hypotheses of `correct_client_sees_heap` are met by a client that duplicates a string and, if
it got memory, reads it back, overwrites it and frees it. -/
def goodClient (trace : List (Call × Out)) : Call :=
  match trace with
  | [] => .strdup [72, 105]
  | [(.strdup [72, 105], .ptr p)] => if p ≠ 0 then .read p 1 else .leaks
  | _ => .leaks

theorem run_one {H : Heap} {x : Call × Out} {H1 : Heap} {tr : List (Call × Out)}
    (h : Run H tr H1) : tr = [x] → Step H x.1 x.2 H1 := by
  intro e
  cases h with
  | nil => cases e
  | snoc h1 h2 =>
    rename_i H' c o cs
    have hl : cs = [] ∧ (c, o) = x := by
      cases cs with
      | nil => simpa using e
      | cons y ys => simp at e
    obtain ⟨rfl, rfl⟩ := hl
    generalize hn : ([] : List (Call × Out)) = nl at h1
    cases h1 with
    | nil => exact h2
    | snoc _ _ => simp at hn

example : ∀ trace H, Run [] trace H → Legal H (goodClient trace) := by
  intro trace H hr
  unfold goodClient
  split
  · show [72, 105].length + 17 < 2 ^ 64
    decide
  · rename_i p
    split
    · rename_i hc
      have h1 := run_one hr rfl
      simp only at h1
      cases h1 with
      | nomem => exact absurd rfl hc
      | strdup => exact ⟨by decide, _, List.mem_append_right _ (List.mem_singleton.mpr rfl), rfl, by simp⟩
    · trivial
  · trivial

example : Granted [env 1000 1, env 2000 2, env 3000 3] := by
  unfold Granted
  decide

/-- `lcu_free_and_reset` frees exactly as `lcu_free` does, aborts exactly when it does, and leaves NULL in the
variable. -/
theorem free_and_reset_spec (s : St) (p : Nat) :
    lcuFreeAndReset s p = (lcuFree s p).bind fun s' => .ok (s', 0) := by
  unfold lcuFreeAndReset
  split
  · next h => subst h; simp [lcuFree, Res.bind]
  · rfl

/-- A second `lcu_free_and_reset` of the same variable does nothing. -/
theorem free_and_reset_twice (s s' : St) (p q : Nat) (h : lcuFreeAndReset s p = .ok (s', q)) :
    q = 0 ∧ lcuFreeAndReset s' q = .ok (s', 0) := by
  have hq : q = 0 := by
    rw [free_and_reset_spec] at h
    cases hl : lcuFree s p with
    | ok x => rw [hl] at h; simp only [Res.bind, Res.ok.injEq, Prod.mk.injEq] at h; exact h.2.symm
    | abort => rw [hl] at h; simp [Res.bind] at h
    | ub => rw [hl] at h; simp [Res.bind] at h
  subst hq
  exact ⟨rfl, rfl⟩

end Verif.Allocator
