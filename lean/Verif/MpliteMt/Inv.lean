import Verif.MpliteMt.Spec
import Verif.Mplite.Props
/-!
# mplite under threads: the invariant
-/
namespace Verif.MpliteMt
open Verif.Mplite (St Blk Ledger fit atomOf PowTwo Acceptable Reach GoodParams RInv isPow2)

/-! ### Ledgers up to order -/

/-- Two held blocks with the same address are the same. -/
theorem same_off {bs ma : Nat} (hp : GoodParams bs ma) {s : St} {L : Ledger} (h : Reach bs ma s L) {a b : Blk}
    (ha : a ∈ L.live) (hb : b ∈ L.live) (he : a.off = b.off) : a = b := by
  obtain ⟨h1, h2, _⟩ := Mplite.mplite_blocks hp h
  refine Classical.byContradiction fun hne => ?_
  have : ∀ u ∈ L.live, ∀ v ∈ L.live, u ≠ v → (u.off + u.size ≤ v.off ∨ v.off + v.size ≤ u.off) := by
    intro u hu v hv huv
    obtain ⟨i, hi, rfl⟩ := List.getElem_of_mem hu
    obtain ⟨k, hk, rfl⟩ := List.getElem_of_mem hv
    rw [List.pairwise_iff_getElem] at h2
    rcases Nat.lt_trichotomy i k with hlt | heq | hgt
    · exact h2 i k hi hk hlt
    · subst heq; exact absurd rfl huv
    · exact (h2 k i hk hi hgt).symm
  have h3 := this a ha b hb hne
  have := h1 a ha
  have := h1 b hb
  omega

theorem find_eq {bs ma : Nat} (hp : GoodParams bs ma) {s : St} {L : Ledger} (h : Reach bs ma s L) {b : Blk}
    (hb : b ∈ L.live) : L.live.find? (fun c => decide (c.off = b.off)) = some b := by
  cases hf : L.live.find? (fun c => decide (c.off = b.off)) with
  | none =>
    rw [List.find?_eq_none] at hf
    exact absurd (by simp) (hf b hb)
  | some a =>
    have ha := List.mem_of_find?_eq_some hf
    have he := List.find?_some hf
    rw [same_off hp h ha hb (by simpa using he)]

theorem remove_perm {bs ma : Nat} (hp : GoodParams bs ma) {s : St} {L : Ledger} (h : Reach bs ma s L) {b : Blk}
    (hb : b ∈ L.live) : L.live.Perm (b :: (L.remove b.off).live) := by
  obtain ⟨a, l1, l2, h1, h2, h3, h4⟩ := List.exists_of_eraseP (p := fun c => decide (c.off = b.off)) hb (by simp)
  have e : a = b := same_off hp h (by rw [h3]; simp) hb (by simpa using h2)
  show L.live.Perm (b :: L.live.eraseP _)
  rw [h4, h3, e]
  exact List.perm_middle

theorem perm_off {bs ma : Nat} (hp : GoodParams bs ma) {s : St} {L : Ledger} (h : Reach bs ma s L) {b : Blk}
    {R : List Blk} (hr : L.live.Perm (b :: R)) : ∀ c ∈ R, c.off ≠ b.off := by
  obtain ⟨h1, h2, _⟩ := Mplite.mplite_blocks hp h
  have hs : ∀ {u v : Blk}, (u.off + u.size ≤ v.off ∨ v.off + v.size ≤ u.off) →
      (v.off + v.size ≤ u.off ∨ u.off + u.size ≤ v.off) := fun h => h.symm
  have h3 := (hr.pairwise_iff hs).mp h2
  rw [List.pairwise_cons] at h3
  intro c hc e
  have := h3.1 c hc
  have := h1 c (hr.mem_iff.mpr (by simp [hc]))
  have := h1 b (hr.mem_iff.mpr (by simp))
  omega

theorem map_other {R : List Blk} {p : Nat} (f : Blk → Blk) (h : ∀ c ∈ R, c.off ≠ p) :
    R.map (fun b => if b.off = p then f b else b) = R := by
  conv => rhs; rw [← List.map_id R]
  apply List.map_congr_left
  intro c hc
  rw [if_neg (h c hc)]; rfl

theorem modify_perm {bs ma : Nat} (hp : GoodParams bs ma) {s : St} {L : Ledger} (h : Reach bs ma s L) {b : Blk}
    {R : List Blk} (hr : L.live.Perm (b :: R)) (f : Blk → Blk) : (L.modify b.off f).live.Perm (f b :: R) := by
  show (L.live.map _).Perm _
  refine (hr.map _).trans ?_
  rw [List.map_cons, if_pos rfl, map_other f (perm_off hp h hr)]

/-! ### Blocks in calls -/

/-- The block of a thread that is in a call: lent to it, or got by it. -/
def carry (atom : Nat) (q : Phase) (l : Option Blk) : Option Blk :=
  match q with
  | .idle => none
  | .sizing _ => l
  | .want _ _ => l
  | .inside _ _ => l
  | .leaving (.calloc n) (.ptr (some p)) => some ⟨p, n.toNat, fit atom n.toNat, fun _ => none⟩
  | .leaving c r => gets atom c l r
  | .zeroing p n j => some ⟨p, n, fit atom n, fun k => if k < j then some 0 else none⟩
  | .returning c r => gets atom c l r

/-- Threads and blocks of calls. -/
def Flight (c : Nat → Option Blk) (act : List (Nat × Blk)) : Prop :=
  act.Nodup ∧ ∀ i b, (i, b) ∈ act ↔ c i = some b

theorem Flight.swap {c c' : Nat → Option Blk} {act : List (Nat × Blk)} (h : Flight c act) (i : Nat)
    (hk : ∀ k, k ≠ i → c' k = c k) : ∃ act' R, (act.map (·.2)).Perm ((c i).toList ++ R) ∧
      (act'.map (·.2)).Perm ((c' i).toList ++ R) ∧ Flight c' act' := by
  -- without thread `i`
  have h1 : ∃ R : List (Nat × Blk), act.Perm ((c i).toList.map (fun b => (i, b)) ++ R) ∧ R.Nodup ∧
      ∀ k b, (k, b) ∈ R ↔ (k ≠ i ∧ c k = some b) := by
    cases hc : c i with
    | none =>
      refine ⟨act, by simp, h.1, fun k b => ?_⟩
      rw [h.2]
      constructor
      · intro e; exact ⟨fun ek => (by rw [ek, hc] at e; exact nomatch e), e⟩
      · exact fun e => e.2
    | some a =>
      obtain ⟨u, v, e⟩ := List.append_of_mem ((h.2 i a).mpr hc)
      have hp : act.Perm ((i, a) :: (u ++ v)) := by rw [e]; exact List.perm_middle
      have hn := hp.nodup_iff.mp h.1
      rw [List.nodup_cons] at hn
      refine ⟨u ++ v, by simpa using hp, hn.2, fun k b => ?_⟩
      have h2 := hp.mem_iff (a := (k, b))
      rw [h.2, List.mem_cons] at h2
      constructor
      · intro hm
        have h3 := h2.mpr (Or.inr hm)
        refine ⟨fun ek => ?_, h3⟩
        subst ek
        rw [hc] at h3
        injection h3 with h3
        subst h3
        exact hn.1 hm
      · rintro ⟨h3, h4⟩
        rcases h2.mp h4 with h5 | h5
        · injection h5 with h5; exact absurd h5 h3
        · exact h5
  obtain ⟨R, r1, r2, r3⟩ := h1
  refine ⟨(c' i).toList.map (fun b => (i, b)) ++ R, R.map (·.2), ?_, ?_, ?_, ?_⟩
  · have := r1.map (·.2)
    simpa [Function.comp_def] using this
  · simp [Function.comp_def]
  · cases hc : c' i with
    | none => simpa using r2
    | some a =>
      simp only [Option.toList_some, List.map_cons, List.map_nil, List.cons_append, List.nil_append, List.nodup_cons]
      exact ⟨fun hm => ((r3 _ _).mp hm).1 rfl, r2⟩
  · intro k b
    rw [List.mem_append, r3]
    by_cases hki : k = i
    · subst hki
      simp only [ne_eq, not_true_eq_false, false_and, or_false]
      cases c' k with
      | none => simp
      | some a => simp; exact eq_comm
    · rw [hk k hki]
      simp only [ne_eq, hki, not_false_eq_true, true_and]
      constructor
      · rintro (hm | hm)
        · obtain ⟨a, _, e⟩ := List.mem_map.mp hm
          injection e with e; exact absurd e.symm hki
        · exact hm
      · exact Or.inr

/-- What is known about a thread in each phase. -/
def Fine (q : Phase) (l : Option Blk) : Prop :=
  match q with
  | .idle => l = none
  | .sizing (.realloc p n) => ∃ b, l = some b ∧ b.off = p ∧ isPow2 n = true
  | .sizing (.resize p n) => ∃ b, l = some b ∧ b.off = p ∧ isPow2 n = true
  | .sizing _ => False
  | .want (.malloc _) _ | .inside (.malloc _) _ | .want (.calloc _) _ | .inside (.calloc _) _ => l = none
  | .want (.free p) _ | .inside (.free p) _ => ∃ b, l = some b ∧ b.off = p
  | .want (.realloc p n) old | .inside (.realloc p n) old =>
    ∃ b, l = some b ∧ b.off = p ∧ old = b.size ∧ isPow2 n = true ∧ ¬ n ≤ old
  | .want (.resize _ _) _ | .inside (.resize _ _) _ => False
  | .want .maxmem _ | .inside .maxmem _ | .want .freemem _ | .inside .freemem _ => l = none
  | .leaving (.calloc n) r => l = none ∧ ∃ p, r = .ptr p ∧ (p ≠ none → Acceptable n)
  | .leaving (.realloc p n) r => ∃ b q, l = some b ∧ b.off = p ∧ r = .ptr q ∧ PowTwo n ∧ ¬ n ≤ b.size
  | .leaving (.resize _ _) _ => False
  | .leaving _ _ => True
  | .zeroing _ n j => l = none ∧ j ≤ n
  | .returning (.realloc p n) r => ∃ b, l = some b ∧ b.off = p ∧ (¬ PowTwo n → r = .ptr none) ∧
      (PowTwo n → n ≤ b.size → r = .ptr (some p)) ∧ ∃ q, r = .ptr q
  | .returning (.resize p n) r => ∃ b, l = some b ∧ b.off = p ∧
      r = .num (if PowTwo n ∧ n ≤ b.size then 0 else -1)
  | .returning _ _ => True

/-- The thread has the lock. -/
def locked : Phase → Bool
  | .inside _ _ => true
  | .leaving _ _ => true
  | _ => false

/-- The invariant. -/
structure Inv (bs ma : Nat) (x : Sys) (B : Books) : Prop where
  led : ∃ L act, Reach bs ma x.pool L ∧ L.live.Perm (B.held.map (·.2) ++ act.map (·.2)) ∧
    Flight (fun i => carry (atomOf ma) (x.ph i) (B.lent i)) act
  fine : ∀ i, Fine (x.ph i) (B.lent i)
  lock : ∀ i, x.holder = some i ↔ locked (x.ph i) = true

/-- A step of thread `i`. -/
theorem Inv.update {bs ma : Nat} {x x' : Sys} {B B' : Books} (h : Inv bs ma x B) (i : Nat)
    (hk : ∀ k, k ≠ i → x'.ph k = x.ph k ∧ B'.lent k = B.lent k)
    (hL : ∀ L R, Reach bs ma x.pool L →
      L.live.Perm (B.held.map (·.2) ++ ((carry (atomOf ma) (x.ph i) (B.lent i)).toList ++ R)) →
      ∃ L', Reach bs ma x'.pool L' ∧
        L'.live.Perm (B'.held.map (·.2) ++ ((carry (atomOf ma) (x'.ph i) (B'.lent i)).toList ++ R)))
    (hf : Fine (x'.ph i) (B'.lent i)) (hlock : ∀ k, x'.holder = some k ↔ locked (x'.ph k) = true) :
    Inv bs ma x' B' := by
  obtain ⟨L, act, h1, h2, h3⟩ := h.led
  obtain ⟨act', R, r1, r2, r3⟩ := h3.swap (c' := fun k => carry (atomOf ma) (x'.ph k) (B'.lent k)) i
    (fun k hki => by rw [(hk k hki).1, (hk k hki).2])
  obtain ⟨L', l1, l2⟩ := hL L R h1 (h2.trans (List.Perm.append_left _ r1))
  refine ⟨⟨L', act', l1, l2.trans (List.Perm.append_left _ r2.symm), r3⟩, ?_, hlock⟩
  intro k
  by_cases hki : k = i
  · subst hki; exact hf
  · rw [(hk k hki).1, (hk k hki).2]; exact h.fine k

theorem goto_self (x : Sys) (i : Nat) (q : Phase) : (x.goto i q).ph i = q := if_pos rfl
theorem goto_other (x : Sys) {i k : Nat} (q : Phase) (h : k ≠ i) : (x.goto i q).ph k = x.ph k := if_neg h

/-- The lock stays where it is. -/
theorem Inv.lock_goto {bs ma : Nat} {x : Sys} {B : Books} (h : Inv bs ma x B) {i : Nat} {q : Phase}
    (hq : locked q = locked (x.ph i)) : ∀ k, (x.goto i q).holder = some k ↔ locked ((x.goto i q).ph k) = true := by
  intro k
  show x.holder = some k ↔ _
  rw [h.lock k]
  by_cases hki : k = i
  · subst hki; rw [goto_self, hq]
  · rw [goto_other x q hki]

theorem held_mem {bs ma : Nat} {x : Sys} {B : Books} (h : Inv bs ma x B) : ∃ L, Reach bs ma x.pool L ∧
    (∀ hd ∈ B.held, hd.2 ∈ L.live) := by
  obtain ⟨L, act, h1, h2, _⟩ := h.led
  exact ⟨L, h1, fun hd hm => h2.mem_iff.mpr (List.mem_append.mpr (Or.inl (List.mem_map.mpr ⟨hd, hm, rfl⟩)))⟩

end Verif.MpliteMt
