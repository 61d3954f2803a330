import Verif.MpliteMt.Inv
/-!
# mplite under threads: every step keeps the invariant
-/
namespace Verif.MpliteMt
open Verif.Mplite (St Blk Ledger fit atomOf PowTwo Acceptable Reach GoodParams RInv isPow2)

theorem pow2_true {n : Int} (h : ¬ isPow2 n = false) : isPow2 n = true := by
  cases e : isPow2 n with
  | false => exact absurd e h
  | true => rfl

theorem pow2_false {n : Int} (h : isPow2 n = false) : ¬ PowTwo n := by
  intro hp; rw [(Mplite.isPow2_iff n).mpr hp] at h; cases h

/-! ### Calls -/

theorem find_held {bs ma : Nat} (hp : GoodParams bs ma) {x : Sys} {B : Books} (h : Inv bs ma x B) {i : Nat} {b : Blk}
    (hb : (i, b) ∈ B.held) : (B.held.find? (fun k => decide (k.2.off = b.off))).map (·.2) = some b := by
  obtain ⟨L, h1, h2⟩ := held_mem h
  cases hf : B.held.find? (fun k => decide (k.2.off = b.off)) with
  | none =>
    rw [List.find?_eq_none] at hf
    exact absurd (by simp) (hf (i, b) hb)
  | some a =>
    have ha := List.mem_of_find?_eq_some hf
    have he := List.find?_some hf
    rw [Option.map_some, same_off hp h1 (h2 a ha) (h2 (i, b) hb) (by simpa using he)]

theorem filter_held {bs ma : Nat} (hp : GoodParams bs ma) {s : St} {L : Ledger} (h : Reach bs ma s L)
    {H : List (Nat × Blk)} {R : List Blk} (hr : L.live.Perm (H.map (·.2) ++ R)) {i : Nat} {b : Blk}
    (hb : (i, b) ∈ H) :
    (H.map (·.2)).Perm (b :: (H.filter (fun k => decide (k.2.off ≠ b.off))).map (·.2)) := by
  obtain ⟨u, v, rfl⟩ := List.append_of_mem hb
  have h1 : L.live.Perm (b :: ((u ++ v).map (·.2) ++ R)) := by
    refine hr.trans ?_
    simp only [List.map_append, List.map_cons, List.append_assoc, List.cons_append]
    exact List.perm_middle
  have h2 := perm_off hp h h1
  have h3 : ∀ k ∈ u ++ v, k.2.off ≠ b.off := fun k hk =>
    h2 k.2 (List.mem_append.mpr (Or.inl (List.mem_map.mpr ⟨k, hk, rfl⟩)))
  have e1 : (u ++ (i, b) :: v).filter (fun k => decide (k.2.off ≠ b.off)) = u ++ v := by
    rw [List.filter_append, List.filter_cons_of_neg (by simp)]
    rw [List.filter_eq_self.mpr (fun k hk => by simpa using h3 k (List.mem_append.mpr (Or.inl hk))),
      List.filter_eq_self.mpr (fun k hk => by simpa using h3 k (List.mem_append.mpr (Or.inr hk)))]
  rw [e1]
  simp only [List.map_append, List.map_cons]
  exact List.perm_middle

theorem calls_none {B : Books} {i : Nat} {c : Call} (h : ptrArg c = none) : B.calls i c = B := by
  unfold Books.calls; rw [h]

theorem Inv.call {bs ma : Nat} (hp : GoodParams bs ma) {x : Sys} {B : Books} (h : Inv bs ma x B) {i : Nat} {c : Call}
    (hi : x.ph i = .idle) (hl : Legal B i c) : Inv bs ma (x.goto i (enter c)) (B.calls i c) := by
  have hfi := h.fine i
  rw [hi] at hfi
  have hlent : B.lent i = none := hfi
  have hlk : locked (enter c) = locked (x.ph i) := by
    rw [hi]
    cases c <;> unfold enter <;> simp only <;> (try split) <;> rfl
  cases hc : ptrArg c with
  | none =>
    rw [calls_none hc]
    have hcarry : carry (atomOf ma) (enter c) (B.lent i) = none := by
      rw [hlent]
      cases c <;> simp only [ptrArg] at hc <;> (try cases hc) <;> unfold enter <;> simp only <;> (try split) <;> rfl
    refine h.update i (fun k hk => ⟨goto_other x _ hk, rfl⟩) (fun L R h1 h2 => ⟨L, h1, ?_⟩) ?_ (h.lock_goto hlk)
    · rw [goto_self, hcarry]
      rw [hi] at h2
      exact h2
    · rw [goto_self]
      cases c <;> simp only [ptrArg] at hc <;> (try cases hc) <;> unfold enter <;> simp only <;> (try split) <;>
        first | exact hlent | exact trivial
  | some p =>
    obtain ⟨b, hb, hbp⟩ := hl p hc
    have hB : B.calls i c = (⟨B.held.filter (fun h => decide (h.2.off ≠ p)),
        fun k => if k = i then some b else B.lent k⟩ : Books) := by
      unfold Books.calls
      rw [hc]
      simp only
      rw [← hbp, find_held hp h hb]
    rw [hB]
    have hcarry : carry (atomOf ma) (enter c) (some b) = some b := by
      cases c <;> simp only [ptrArg] at hc <;> (try cases hc) <;> unfold enter <;> simp only <;> (try split) <;> rfl
    refine h.update i (fun k hk => ⟨goto_other x _ hk, if_neg hk⟩) (fun L R h1 h2 => ⟨L, h1, ?_⟩) ?_ (h.lock_goto hlk)
    · rw [goto_self]
      simp only [if_true]
      rw [hcarry]
      rw [hi] at h2
      refine h2.trans ?_
      have := filter_held hp h1 h2 hb
      rw [hbp] at this
      refine (this.append_right _).trans ?_
      exact List.perm_middle.symm
    · rw [goto_self]
      simp only [if_true]
      cases c with
      | malloc n => cases hc
      | calloc n => cases hc
      | maxmem => cases hc
      | freemem => cases hc
      | free q =>
        injection hc with hc
        exact ⟨b, rfl, hbp.trans hc.symm⟩
      | realloc q n =>
        injection hc with hc
        unfold enter
        simp only
        split
        · rename_i hn
          exact ⟨b, rfl, hbp.trans hc.symm, fun _ => rfl, fun hq => absurd hq (pow2_false hn), none, rfl⟩
        · rename_i hn
          exact ⟨b, rfl, hbp.trans hc.symm, pow2_true hn⟩
      | resize q n =>
        injection hc with hc
        unfold enter
        simp only
        split
        · rename_i hn
          exact ⟨b, rfl, hbp.trans hc.symm, by rw [if_neg (fun hq => pow2_false hn hq.1)]⟩
        · rename_i hn
          exact ⟨b, rfl, hbp.trans hc.symm, pow2_true hn⟩

theorem Inv.ret {bs ma : Nat} {x : Sys} {B : Books} (h : Inv bs ma x B) {i : Nat} {c : Call} {r : Ret}
    (hi : x.ph i = .returning c r) : Inv bs ma (x.goto i .idle) (B.returns (atomOf ma) i c r) := by
  refine h.update i (fun k hk => ⟨goto_other x _ hk, if_neg hk⟩) (fun L R h1 h2 => ⟨L, h1, ?_⟩) ?_
    (h.lock_goto (by rw [hi]; rfl))
  · rw [goto_self]
    rw [hi] at h2
    simp only [carry, Books.returns, Option.toList_none, List.nil_append, List.map_append, List.map_map,
      Function.comp_def] at h2 ⊢
    refine h2.trans ?_
    rw [← List.append_assoc]
    refine List.Perm.append_right _ ?_
    simp only [List.map_id']
    exact List.perm_append_comm
  · rw [goto_self]
    exact if_pos rfl

theorem Inv.store {bs ma : Nat} (hp : GoodParams bs ma) {x : Sys} {B : Books} (h : Inv bs ma x B) {i j : Nat} {b : Blk}
    {v : Byte} (hb : (i, b) ∈ B.held) (hj : j < b.size) :
    Inv bs ma { x with pool := Mplite.write x.pool (b.off + j) v } (B.stores b.off j v) := by
  refine h.update i (fun k hk => ⟨rfl, rfl⟩) (fun L R h1 h2 => ?_) (h.fine i) h.lock
  have hbL : b ∈ L.live := h2.mem_iff.mpr (List.mem_append.mpr (Or.inl (List.mem_map.mpr ⟨_, hb, rfl⟩)))
  refine ⟨_, Reach.step h1 (op := .store b.off j v) ⟨b, hbL, rfl, hj⟩ rfl, ?_⟩
  obtain ⟨u, w, e⟩ := List.append_of_mem hb
  have h3 : L.live.Perm (b :: ((u ++ w).map (·.2) ++ ((carry (atomOf ma) (x.ph i) (B.lent i)).toList ++ R))) := by
    refine h2.trans ?_
    rw [e]
    simp only [List.map_append, List.map_cons, List.append_assoc, List.cons_append]
    exact List.perm_middle
  have hoff := perm_off hp h1 h3
  refine (modify_perm hp h1 h3 (fun b => { b with data := fun k => if k = j then some v else b.data k })).trans ?_
  have e2 : ∀ H : List (Nat × Blk), (∀ k ∈ H, k.2.off ≠ b.off) →
      H.map (fun h => if h.2.off = b.off then (h.1, { h.2 with data := fun k => if k = j then some v else h.2.data k })
        else h) = H := by
    intro H hH
    conv => rhs; rw [← List.map_id H]
    apply List.map_congr_left
    intro k hk
    rw [if_neg (hH k hk)]; rfl
  have hu : ∀ k ∈ u ++ w, k.2.off ≠ b.off := fun k hk =>
    hoff k.2 (List.mem_append.mpr (Or.inl (List.mem_map.mpr ⟨k, hk, rfl⟩)))
  have e3 : (B.stores b.off j v).held =
      u ++ (i, { b with data := fun k => if k = j then some v else b.data k }) :: w := by
    unfold Books.stores
    simp only
    rw [e, List.map_append, List.map_cons, if_pos rfl,
      e2 u (fun k hk => hu k (List.mem_append.mpr (Or.inl hk))),
      e2 w (fun k hk => hu k (List.mem_append.mpr (Or.inr hk)))]
  rw [e3]
  simp only [List.map_append, List.map_cons, List.append_assoc, List.cons_append]
  exact List.perm_middle.symm

theorem Inv.give {bs ma : Nat} {x : Sys} {B : Books} (h : Inv bs ma x B) (p k : Nat) :
    Inv bs ma x (B.gives p k) := by
  have e : (B.gives p k).held.map (·.2) = B.held.map (·.2) := by
    unfold Books.gives
    simp only [List.map_map]
    apply List.map_congr_left
    intro a _
    simp only [Function.comp]
    split <;> rfl
  refine h.update 0 (fun k hk => ⟨rfl, rfl⟩) (fun L R h1 h2 => ⟨L, h1, ?_⟩) (h.fine 0) h.lock
  rw [e]; exact h2

/-! ### Steps of calls -/

/-- A block lent to a call is a held block of the sequential history. -/
theorem carried {bs ma : Nat} {x : Sys} {B : Books} (h : Inv bs ma x B) {i : Nat} {b : Blk}
    (hc : carry (atomOf ma) (x.ph i) (B.lent i) = some b) : ∃ L, Reach bs ma x.pool L ∧ b ∈ L.live := by
  obtain ⟨L, act, h1, h2, h3⟩ := h.led
  exact ⟨L, h1, h2.mem_iff.mpr (List.mem_append.mpr (Or.inr (List.mem_map.mpr ⟨(i, b), (h3.2 i b).mpr hc, rfl⟩)))⟩

theorem asked_none {atom : Nat} {L : Ledger} {n : Int} {d : Nat → Option Byte} : (L.asked atom n none d).live = L.live := by
  unfold Ledger.asked
  split <;> rfl

theorem asked_some {atom : Nat} {L : Ledger} {n : Int} {d : Nat → Option Byte} {p : Nat} (h : Acceptable n) :
    (L.asked atom n (some p) d).live = ⟨p, n.toNat, fit atom n.toNat, d⟩ :: L.live := by
  unfold Ledger.asked
  rw [if_pos h]; rfl

/-- `mplite_malloc_unsafe` in a history. -/
theorem malloc_step {bs ma : Nat} (hp : GoodParams bs ma) {s : St} {L : Ledger} (h : Reach bs ma s L) (n : Int) :
    ∃ s' r, Mplite.mallocUnsafe s n = some (s', r) ∧ Reach bs ma s' (L.asked (atomOf ma) n r (fun _ => none)) ∧
      (r ≠ none → Acceptable n) := by
  obtain ⟨s', r, h1, _, h3⟩ := (h.inv hp).mallocUnsafe n
  refine ⟨s', r, h1, ?_, fun hr => Classical.byContradiction fun hc => hr (h3 hc)⟩
  have : Mplite.exec s (.malloc n) = some (s', r) := by
    show Mplite.malloc s n = _; rw [Mplite.malloc_eq]; exact h1
  exact Reach.step h (op := .malloc n) trivial this

theorem perm_swap {H X R : List Blk} {a : Blk} (h : X.Perm (H ++ R)) : (a :: X).Perm (H ++ ([a] ++ R)) :=
  (h.cons a).trans List.perm_middle.symm

/-- `malloc` and the first half of `calloc`. -/
theorem Inv.alloc {bs ma : Nat} (hp : GoodParams bs ma) {x : Sys} {B : Books} (h : Inv bs ma x B) {i old : Nat}
    {c : Call} {n : Int} (hi : x.ph i = .inside c old) (hc : c = .malloc n ∨ c = .calloc n) :
    ∃ s r, body c old x.pool = some (s, .ptr r) ∧
      Inv bs ma { x.goto i (.leaving c (.ptr r)) with pool := s } B := by
  obtain ⟨L0, _, h0, _⟩ := h.led
  obtain ⟨s, r, h1, _, h3⟩ := malloc_step hp h0 n
  have hf := h.fine i
  rw [hi] at hf
  have hlent : B.lent i = none := by rcases hc with rfl | rfl <;> exact hf
  refine ⟨s, r, ?_, ?_⟩
  · rcases hc with rfl | rfl <;> (unfold body; simp only; rw [h1]; rfl)
  refine h.update (x' := { x.goto i (.leaving c (.ptr r)) with pool := s }) i (fun k hk => ⟨goto_other x _ hk, rfl⟩) (fun L R l1 l2 => ?_) ?_
    (h.lock_goto (by rw [hi]; rfl))
  · obtain ⟨s', r', m1, m2, _⟩ := malloc_step hp l1 n
    rw [h1] at m1
    injection m1 with m1; injection m1 with e1 e2
    subst e1; subst e2
    refine ⟨_, m2, ?_⟩
    show (L.asked _ _ _ _).live.Perm (_ ++ ((carry _ ((x.goto i _).ph i) _).toList ++ R))
    rw [goto_self]
    rw [hi] at l2
    have l3 : L.live.Perm (B.held.map (·.2) ++ R) := by
      simp only [carry, hlent] at l2
      exact l2
    cases r with
    | none =>
      rw [asked_none]
      rcases hc with rfl | rfl <;> exact l3
    | some p =>
      rw [asked_some (h3 (by simp))]
      rcases hc with rfl | rfl <;> exact perm_swap l3
  · show Fine ((x.goto i _).ph i) _
    rw [goto_self]
    rcases hc with rfl | rfl
    · exact trivial
    · exact ⟨hlent, r, rfl, h3⟩

theorem Inv.freed {bs ma : Nat} (hp : GoodParams bs ma) {x : Sys} {B : Books} (h : Inv bs ma x B) {i old p : Nat}
    (hi : x.ph i = .inside (.free p) old) :
    ∃ s, body (.free p) old x.pool = some (s, .unit) ∧
      Inv bs ma { x.goto i (.leaving (.free p) .unit) with pool := s } B := by
  have hf := h.fine i
  rw [hi] at hf
  obtain ⟨b, hlent, hoff⟩ := hf
  obtain ⟨L0, h0, hb0⟩ := carried h (i := i) (b := b) (by rw [hi, hlent]; rfl)
  obtain ⟨s, h1, _⟩ := (h0.inv hp).free hb0
  rw [hoff] at h1
  refine ⟨s, by unfold body; simp only; rw [h1]; rfl, ?_⟩
  refine h.update (x' := { x.goto i (.leaving (.free p) .unit) with pool := s }) i (fun k hk => ⟨goto_other x _ hk, rfl⟩) (fun L R l1 l2 => ?_) ?_
    (h.lock_goto (by rw [hi]; rfl))
  · rw [hi, hlent] at l2
    have hbL : b ∈ L.live := l2.mem_iff.mpr (by simp [carry])
    refine ⟨_, Reach.step l1 (op := .free p) (r := none) ⟨b, hbL, hoff⟩ (by
      show (Mplite.free x.pool p).map _ = _; rw [h1]; rfl), ?_⟩
    show (L.remove p).live.Perm (_ ++ ((carry _ ((x.goto i _).ph i) _).toList ++ R))
    rw [goto_self]
    have := (remove_perm hp l1 hbL).symm.trans l2
    rw [hoff] at this
    exact (this.trans List.perm_middle).cons_inv
  · show Fine ((x.goto i _).ph i) _
    rw [goto_self]; exact trivial

theorem Inv.moved {bs ma : Nat} (hp : GoodParams bs ma) {x : Sys} {B : Books} (h : Inv bs ma x B) {i old p : Nat}
    {n : Int} (hi : x.ph i = .inside (.realloc p n) old) :
    ∃ s r, body (.realloc p n) old x.pool = some (s, .ptr r) ∧
      Inv bs ma { x.goto i (.leaving (.realloc p n) (.ptr r)) with pool := s } B := by
  have hf := h.fine i
  rw [hi] at hf
  obtain ⟨b, hlent, hoff, hold, hpow, hle⟩ := hf
  obtain ⟨L0, h0, hb0⟩ := carried h (i := i) (b := b) (by rw [hi, hlent]; rfl)
  have hP := (Mplite.isPow2_iff n).mp hpow
  -- the size read before is still right, so this is what `realloc` does
  have hsz := Mplite.mplite_size_exact hp h0 hb0
  have hre : Mplite.realloc x.pool p n = Mplite.reallocMove x.pool p old n := by
    unfold Mplite.realloc
    rw [if_neg (by rw [hpow]; simp), ← hoff, hsz, Option.bind_some, ← hold, if_neg hle]
  obtain ⟨s, r, h1, _⟩ := Mplite.mplite_never_faults hp h0 (op := .realloc p n) ⟨b, hb0, hoff⟩
  have h1' : Mplite.realloc x.pool p n = some (s, r) := h1
  have h2 := h1'
  rw [hre] at h2
  have hacc : r ≠ none → Acceptable n := by
    intro hr
    obtain ⟨s2, r2, m1, _, m3⟩ := malloc_step hp h0 n
    unfold Mplite.reallocMove at h2
    rw [m1] at h2
    cases r2 with
    | none =>
      simp only [Option.some.injEq, Prod.mk.injEq] at h2
      exact absurd h2.2.symm hr
    | some q => exact m3 (by simp)
  refine ⟨s, r, by unfold body; simp only; rw [h2]; rfl, ?_⟩
  refine h.update (x' := { x.goto i (.leaving (.realloc p n) (.ptr r)) with pool := s }) i (fun k hk => ⟨goto_other x _ hk, rfl⟩) (fun L R l1 l2 => ?_) ?_
    (h.lock_goto (by rw [hi]; rfl))
  · rw [hi, hlent] at l2
    have hbL : b ∈ L.live := l2.mem_iff.mpr (by simp [carry])
    refine ⟨_, Reach.step l1 (op := .realloc p n) ⟨b, hbL, hoff⟩ h1', ?_⟩
    show (L.after _ _ _).live.Perm (_ ++ ((carry _ ((x.goto i _).ph i) _).toList ++ R))
    rw [goto_self, hlent]
    have hfind := find_eq hp l1 hbL
    rw [hoff] at hfind
    have hle2 : ¬ n ≤ (b.size : Int) := by rw [← hold]; exact hle
    unfold Ledger.after
    simp only
    rw [hfind]
    simp only [hP, if_true, hle2, if_false]
    cases r with
    | none =>
      simp only
      rw [asked_none]
      exact l2
    | some q =>
      simp only [carry, gets, Option.map_some, hle2, if_false]
      have hA := hacc (by simp)
      -- the new block is at another place than the old one
      have hstep := Reach.step l1 (op := .realloc p n) ⟨b, hbL, hoff⟩ h1'
      have hsub : (L.asked (atomOf ma) n (some q) b.copy).live = ⟨q, n.toNat, fit (atomOf ma) n.toNat, b.copy⟩ :: L.live :=
        asked_some hA
      have hq : q ≠ p := by
        intro e
        obtain ⟨s2, r2, m1, m2, _⟩ := malloc_step hp l1 n
        unfold Mplite.reallocMove at h2
        rw [m1] at h2
        cases r2 with
        | none => simp at h2
        | some q2 =>
          simp only [Option.bind_eq_some_iff, Option.map_eq_some_iff, Prod.mk.injEq, Option.some.injEq] at h2
          obtain ⟨_, _, _, _, _, e2⟩ := h2
          have hm := m2
          have hlive : (L.asked (atomOf ma) n (some q2) (fun _ => none)).live.Perm
              (⟨q2, n.toNat, fit (atomOf ma) n.toNat, fun _ => none⟩ :: L.live) := by rw [asked_some hA]
          have := perm_off hp hm hlive b hbL
          exact this (by rw [hoff, ← e, ← e2])
      show ((L.asked (atomOf ma) n (some q) b.copy).live.eraseP _).Perm _
      rw [hsub, List.eraseP_cons_of_neg (by simp [hq])]
      have h5 := (remove_perm hp l1 hbL).symm.trans l2
      rw [hoff] at h5
      have h6 : (L.live.eraseP (fun b => decide (b.off = p))).Perm (B.held.map (·.2) ++ R) :=
        (h5.trans List.perm_middle).cons_inv
      exact perm_swap h6
  · show Fine ((x.goto i _).ph i) _
    rw [goto_self]
    exact ⟨b, r, hlent, hoff, rfl, hP, by rw [← hold]; exact hle⟩

/-- A step of a call that changes only where the thread is. -/
theorem Inv.turn {bs ma : Nat} {x : Sys} {B : Books} (h : Inv bs ma x B) {i : Nat} {q : Phase} {hol : Option Nat}
    (hc : carry (atomOf ma) q (B.lent i) = carry (atomOf ma) (x.ph i) (B.lent i)) (hf : Fine q (B.lent i))
    (hlock : ∀ k, hol = some k ↔ locked ((x.goto i q).ph k) = true) :
    Inv bs ma { x.goto i q with holder := hol } B := by
  refine h.update (x' := { x.goto i q with holder := hol }) i (fun k hk => ⟨goto_other x _ hk, rfl⟩)
    (fun L R l1 l2 => ⟨L, l1, ?_⟩) ?_ hlock
  · show _root_.List.Perm _ (_ ++ ((carry _ ((x.goto i q).ph i) _).toList ++ R))
    rw [goto_self, hc]; exact l2
  · show Fine ((x.goto i q).ph i) _
    rw [goto_self]; exact hf

/-- `mplite_size` outside the lock. -/
theorem Inv.asksize {bs ma : Nat} (hp : GoodParams bs ma) {x : Sys} {B : Books} (h : Inv bs ma x B) {i : Nat} {c : Call}
    (hi : x.ph i = .sizing c) : ∃ old, Mplite.size x.pool (sizeArg c) = some old ∧
      Inv bs ma (x.goto i (sized c old)) B := by
  have hf := h.fine i
  rw [hi] at hf
  have hb : ∃ b, B.lent i = some b ∧ b.off = sizeArg c := by
    cases c with
    | realloc p n => obtain ⟨b, h1, h2, _⟩ := hf; exact ⟨b, h1, h2⟩
    | resize p n => obtain ⟨b, h1, h2, _⟩ := hf; exact ⟨b, h1, h2⟩
    | _ => exact hf.elim
  obtain ⟨b, hlent, hoff⟩ := hb
  obtain ⟨L0, h0, hb0⟩ := carried h (i := i) (b := b) (by rw [hi, hlent]; rfl)
  have hsz := Mplite.mplite_size_exact hp h0 hb0
  rw [hoff] at hsz
  refine ⟨b.size, hsz, ?_⟩
  cases c with
  | realloc p n =>
    obtain ⟨_, _, _, hpow⟩ := hf
    have hP := (Mplite.isPow2_iff n).mp hpow
    have hoff' : b.off = p := hoff
    by_cases hle : n ≤ (b.size : Int)
    · have e : sized (.realloc p n) b.size = .returning (.realloc p n) (.ptr (some p)) := by
        unfold sized; exact if_pos hle
      rw [e]
      refine h.update (x' := x.goto i (.returning (.realloc p n) (.ptr (some p)))) i
        (fun k hk => ⟨goto_other x _ hk, rfl⟩) (fun L R l1 l2 => ?_) ?_ (h.lock_goto (by rw [hi]; rfl))
      · rw [hi, hlent] at l2
        have hbL : b ∈ L.live := l2.mem_iff.mpr (by simp [carry])
        have hex : Mplite.exec x.pool (.realloc p n) = some (x.pool, some p) := by
          show Mplite.realloc x.pool p n = _
          unfold Mplite.realloc
          rw [if_neg (by rw [hpow]; simp), show p = sizeArg (.realloc p n) from rfl, hsz, Option.bind_some, if_pos hle]
        refine ⟨_, Reach.step l1 (op := .realloc p n) ⟨b, hbL, hoff'⟩ hex, ?_⟩
        rw [goto_self, hlent]
        have hfind := find_eq hp l1 hbL
        rw [hoff'] at hfind
        unfold Ledger.after
        simp only
        rw [hfind]
        simp only [hP, if_true, hle]
        have l3 : L.live.Perm (b :: (B.held.map (·.2) ++ R)) := l2.trans List.perm_middle
        have := modify_perm hp l1 l3 (fun b => { b with req := n.toNat })
        rw [hoff'] at this
        refine this.trans ?_
        simp only [carry, gets, Option.map_some, hle, if_true, hoff']
        exact List.perm_middle.symm
      · rw [goto_self]
        exact ⟨b, hlent, hoff', fun hn => absurd hP hn, fun _ _ => rfl, some p, rfl⟩
    · have e : sized (.realloc p n) b.size = .want (.realloc p n) b.size := by
        unfold sized; exact if_neg hle
      rw [e]
      exact h.turn (hol := x.holder) (by rw [hi]; rfl) ⟨b, hlent, hoff', rfl, hpow, hle⟩ (h.lock_goto (by rw [hi]; rfl))
  | resize p n =>
    obtain ⟨_, _, _, hpow⟩ := hf
    have hP := (Mplite.isPow2_iff n).mp hpow
    have e : sized (.resize p n) b.size = .returning (.resize p n) (.num (if n ≤ (b.size : Int) then 0 else -1)) := rfl
    rw [e]
    exact h.turn (hol := x.holder) (by rw [hi]; rfl) ⟨b, hlent, hoff, by simp only [hP, true_and]⟩
      (h.lock_goto (by rw [hi]; rfl))
  | _ => exact hf.elim

/-- One byte of the `memset` of `calloc`. -/
theorem Inv.zeroed {bs ma : Nat} (hp : GoodParams bs ma) {x : Sys} {B : Books} (h : Inv bs ma x B) {i p n j : Nat}
    (hi : x.ph i = .zeroing p n j) (hj : j < n) : p + j < x.pool.nBlock * x.pool.szAtom ∧
      Inv bs ma { x.goto i (.zeroing p n (j + 1)) with pool := Mplite.write x.pool (p + j) 0 } B := by
  have hf := h.fine i
  rw [hi] at hf
  obtain ⟨hlent, _⟩ := hf
  obtain ⟨L0, h0, hb0⟩ := carried h (i := i) (by rw [hi]; rfl)
  have hbl := (Mplite.mplite_blocks hp h0).1 _ hb0
  have hr := h0.inv hp
  refine ⟨by rw [hr.nB, hr.atom]; have := hbl.1; have := hbl.2.2.2.2; simp only at *; omega, ?_⟩
  refine h.update (x' := { x.goto i (.zeroing p n (j + 1)) with pool := Mplite.write x.pool (p + j) 0 }) i
    (fun k hk => ⟨goto_other x _ hk, rfl⟩) (fun L R l1 l2 => ?_) ?_ (h.lock_goto (by rw [hi]; rfl))
  · rw [hi] at l2
    have l3 : L.live.Perm (⟨p, n, fit (atomOf ma) n, fun k => if k < j then some 0 else none⟩ ::
        (B.held.map (·.2) ++ R)) := l2.trans List.perm_middle
    have hbL := l3.mem_iff.mpr (List.mem_cons_self ..)
    have := ((Mplite.mplite_blocks hp l1).1 _ hbL).1
    refine ⟨_, Reach.step l1 (op := .store p j 0) (r := none) ⟨_, hbL, rfl, by simp only at *; omega⟩ rfl, ?_⟩
    show (L.modify p _).live.Perm (_ ++ ((carry _ ((x.goto i _).ph i) _).toList ++ R))
    rw [goto_self]
    refine (modify_perm hp l1 l3 (fun b => { b with data := fun k => if k = j then some 0 else b.data k })).trans ?_
    have e : (⟨p, n, fit (atomOf ma) n, fun k => if k = j then some 0 else if k < j then some 0 else none⟩ : Blk) =
        ⟨p, n, fit (atomOf ma) n, fun k => if k < j + 1 then some 0 else none⟩ := by
      congr 1
      funext k
      by_cases h1 : k = j
      · rw [if_pos h1, if_pos (by omega)]
      · rw [if_neg h1]
        by_cases h2 : k < j
        · rw [if_pos h2, if_pos (by omega)]
        · rw [if_neg h2, if_neg (by omega)]
    simp only [carry, Option.toList_some]
    rw [e]
    exact List.perm_middle.symm
  · show Fine ((x.goto i _).ph i) _
    rw [goto_self]
    exact ⟨hlent, hj⟩

/-- Giving back the lock. -/
theorem Inv.leave {bs ma : Nat} {x : Sys} {B : Books} (h : Inv bs ma x B) {i : Nat} {c : Call} {r : Ret}
    (hi : x.ph i = .leaving c r) : Inv bs ma { x.goto i (left c r) with holder := none } B := by
  have hf := h.fine i
  rw [hi] at hf
  have hl0 : locked (left c r) = false := by unfold left; split <;> rfl
  have hol := (h.lock i).mpr (by rw [hi]; rfl)
  have hlock : ∀ k, (none : Option Nat) = some k ↔ locked ((x.goto i (left c r)).ph k) = true := by
    intro k
    constructor
    · intro e; cases e
    · intro e
      by_cases hk : k = i
      · subst hk; rw [goto_self, hl0] at e; cases e
      · rw [goto_other x _ hk] at e
        have := (h.lock k).mpr e
        rw [hol] at this
        injection this with this
        exact absurd this.symm hk
  refine h.turn ?_ ?_ hlock
  · rw [hi]
    cases c with
    | calloc n =>
      obtain ⟨hlent, p, rfl, hA⟩ := hf
      cases p with
      | none => rfl
      | some p =>
        show some _ = some _
        simp only [Nat.not_lt_zero, if_false]
    | _ => rfl
  · cases c with
    | calloc n =>
      obtain ⟨hlent, p, rfl, hA⟩ := hf
      cases p with
      | none => exact trivial
      | some p => exact ⟨hlent, Nat.zero_le _⟩
    | realloc p n =>
      obtain ⟨b, q, h1, h2, rfl, h3, h4⟩ := hf
      exact ⟨b, h1, h2, fun hn => absurd h3 hn, fun _ hn => absurd hn h4, q, rfl⟩
    | resize p n => exact hf.elim
    | malloc n => exact trivial
    | free p => exact trivial
    | maxmem => exact trivial
    | freemem => exact trivial

/-- Taking the lock. -/
theorem Inv.take {bs ma : Nat} {x : Sys} {B : Books} (h : Inv bs ma x B) {i old : Nat} {c : Call}
    (hi : x.ph i = .want c old) (hh : x.holder = none) :
    Inv bs ma { x.goto i (.inside c old) with holder := some i } B := by
  have hf := h.fine i
  rw [hi] at hf
  refine h.turn (by rw [hi]; rfl) (by cases c <;> exact hf) ?_
  intro k
  by_cases hk : k = i
  · subst hk; rw [goto_self]; simp [locked]
  · rw [goto_other x _ hk, ← h.lock k, hh]
    constructor
    · intro e; injection e with e; exact absurd e.symm hk
    · intro e; cases e

/-- A locked section runs and keeps the invariant. -/
theorem Inv.section {bs ma : Nat} (hp : GoodParams bs ma) {x : Sys} {B : Books} (h : Inv bs ma x B) {i old : Nat}
    {c : Call} (hi : x.ph i = .inside c old) : ∃ s r, body c old x.pool = some (s, r) ∧
      Inv bs ma { x.goto i (.leaving c r) with pool := s } B := by
  have hf := h.fine i
  rw [hi] at hf
  cases c with
  | malloc n => obtain ⟨s, r, h1, h2⟩ := h.alloc hp hi (Or.inl rfl); exact ⟨s, _, h1, h2⟩
  | calloc n => obtain ⟨s, r, h1, h2⟩ := h.alloc hp hi (Or.inr rfl); exact ⟨s, _, h1, h2⟩
  | free p => obtain ⟨s, h1, h2⟩ := h.freed hp hi; exact ⟨s, _, h1, h2⟩
  | realloc p n => obtain ⟨s, r, h1, h2⟩ := h.moved hp hi; exact ⟨s, _, h1, h2⟩
  | resize p n => exact hf.elim
  | maxmem =>
    refine ⟨x.pool, _, rfl, ?_⟩
    exact h.turn (hol := x.holder) (by rw [hi, show B.lent i = none from hf]; rfl) trivial (h.lock_goto (by rw [hi]; rfl))
  | freemem =>
    obtain ⟨L0, _, h0, _⟩ := h.led
    obtain ⟨f, h1, _⟩ := Mplite.mplite_freemem_exact hp h0
    refine ⟨x.pool, .num f, by unfold body; simp only; rw [h1]; rfl, ?_⟩
    exact h.turn (hol := x.holder) (by rw [hi, show B.lent i = none from hf]; rfl) trivial (h.lock_goto (by rw [hi]; rfl))

/-- Every step runs and keeps the invariant. -/
theorem Inv.move {bs ma : Nat} (hp : GoodParams bs ma) {x : Sys} {B : Books} (h : Inv bs ma x B) (i : Nat) :
    move x i ≠ .fault ∧ ∀ x', move x i = .ok x' → Inv bs ma x' B := by
  unfold MpliteMt.move
  cases hi : x.ph i with
  | idle => exact ⟨nofun, nofun⟩
  | returning c r => exact ⟨nofun, nofun⟩
  | sizing c =>
    obtain ⟨old, h1, h2⟩ := h.asksize hp hi
    simp only [h1]
    exact ⟨nofun, fun x' e => by injection e with e; subst e; exact h2⟩
  | want c old =>
    simp only
    by_cases hh : x.holder = none
    · rw [if_pos hh]
      exact ⟨nofun, fun x' e => by injection e with e; subst e; exact h.take hi hh⟩
    · rw [if_neg hh]; exact ⟨nofun, nofun⟩
  | inside c old =>
    obtain ⟨s, r, h1, h2⟩ := h.section hp hi
    simp only [h1]
    exact ⟨nofun, fun x' e => by injection e with e; subst e; exact h2⟩
  | leaving c r =>
    simp only
    exact ⟨nofun, fun x' e => by injection e with e; subst e; exact h.leave hi⟩
  | zeroing p n j =>
    simp only
    by_cases hj : j < n
    · obtain ⟨h1, h2⟩ := h.zeroed hp hi hj
      rw [if_pos hj, if_pos h1]
      exact ⟨nofun, fun x' e => by injection e with e; subst e; exact h2⟩
    · rw [if_neg hj]
      refine ⟨nofun, fun x' e => ?_⟩
      injection e with e
      subst e
      have hf := h.fine i
      rw [hi] at hf
      obtain ⟨hlent, hjn⟩ := hf
      have : j = n := by omega
      subst this
      exact h.turn (hol := x.holder) (by rw [hi]; rfl) trivial (h.lock_goto (by rw [hi]; rfl))

theorem Run.inv {bs ma : Nat} (hp : GoodParams bs ma) {x : Sys} {B : Books} (h : Run bs ma x B) : Inv bs ma x B := by
  induction h with
  | init hi =>
    refine ⟨⟨Ledger.empty, [], Reach.init hi, List.Perm.refl _, List.nodup_nil, ?_⟩, fun i => rfl, ?_⟩
    · intro i b
      simp [carry]
    · intro i
      simp [locked]
  | call _ hi hl ih => exact ih.call hp hi hl
  | step _ hm ih => exact (ih.move hp _).2 _ hm
  | ret _ hi ih => exact ih.ret hi
  | store _ _ hb hj ih => exact ih.store hp hb hj
  | give _ _ _ ih => exact ih.give _ _

end Verif.MpliteMt
