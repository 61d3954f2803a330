import Verif.AllocMt.Inv
/-! # The invariant is kept by every step of a quiet client -/
namespace Verif.AllocMt
open Verif.Allocator
open Verif.Hashmap (Map kv)
open Verif.Allocator.Spec (Intact tinybird total)

/-- The claims of everybody but thread `i`. -/
def rest (s : Sys) (i : Nat) : List Claim := (s.owned.map fun b => full b false) ++ (s.ths.eraseIdx i).filterMap claimOf

theorem filterMap_set {l : List Pc} {i : Nat} {pc : Pc} (h : l[i]? = some pc) (pc' : Pc) :
    ((l.set i pc').filterMap claimOf).Perm ((claimOf pc').toList ++ (l.eraseIdx i).filterMap claimOf) := by
  induction l generalizing i with
  | nil => simp at h
  | cons x l ih =>
    cases i with
    | zero =>
      rw [List.set_cons_zero, List.eraseIdx_cons_zero, List.filterMap_cons]
      cases claimOf pc' <;> simp
    | succ i =>
      rw [List.set_cons_succ, List.eraseIdx_cons_succ, List.filterMap_cons, List.filterMap_cons]
      have := ih (i := i) (by simpa using h)
      cases claimOf x with
      | none => exact this
      | some c =>
        refine (this.cons c).trans ?_
        exact (List.perm_middle (l₁ := (claimOf pc').toList)).symm

theorem claims_set {s : Sys} {i : Nat} {pc : Pc} (h : s.ths[i]? = some pc) (pc' : Pc) (st : St) (lock : Option Nat) :
    (claims ⟨st, s.ths.set i pc', s.owned, lock⟩).Perm ((claimOf pc').toList ++ rest s i) := by
  unfold claims rest
  refine (List.Perm.append_left _ (filterMap_set h pc')).trans ?_
  rw [← List.append_assoc, ← List.append_assoc]
  exact List.Perm.append_right _ List.perm_append_comm

theorem claims_at {s : Sys} {i : Nat} {pc : Pc} (h : s.ths[i]? = some pc) :
    (claims s).Perm ((claimOf pc).toList ++ rest s i) := by
  have := claims_set h pc s.st s.lock
  have e : s.ths.set i pc = s.ths := by
    obtain ⟨hi, rfl⟩ := List.getElem?_eq_some_iff.mp h
    exact List.set_getElem_self hi
  rw [e] at this
  exact this

/-- What may change in the claims while somebody walks over the table. -/
structure Keep (C C' : List Claim) : Prop where
  old : ∀ c ∈ C, c.tab = true → ∃ c' ∈ C', c'.tab = true ∧ c'.p = c.p ∧ c'.q = c.q ∧ c'.n = c.n
  new : ∀ c' ∈ C', c'.tab = true → c'.rc = some ⟨99, c'.p, c'.n, false⟩ →
    ∃ c ∈ C, c.tab = true ∧ c.p = c'.p ∧ c.q = c'.q ∧ c.n = c'.n ∧ c.rc = some ⟨99, c.p, c.n, false⟩

theorem Keep.perm {C C' : List Claim} (h : C.Perm C') : Keep C C' :=
  ⟨fun c hc ht => ⟨c, h.mem_iff.mp hc, ht, rfl, rfl, rfl⟩,
   fun c hc ht hr => ⟨c, h.mem_iff.mpr hc, ht, rfl, rfl, rfl, hr⟩⟩

theorem Keep.trans {A B C : List Claim} (h1 : Keep A B) (h2 : Keep B C) : Keep A C := by
  constructor
  · intro a ha ht
    obtain ⟨b, hb, t, e1, e2, e3⟩ := h1.old a ha ht
    obtain ⟨c, hc, t', f1, f2, f3⟩ := h2.old b hb t
    exact ⟨c, hc, t', f1.trans e1, f2.trans e2, f3.trans e3⟩
  · intro c hc ht hr
    obtain ⟨b, hb, t, e1, e2, e3, r⟩ := h2.new c hc ht hr
    obtain ⟨a, ha, t', f1, f2, f3, r'⟩ := h1.new b hb t r
    exact ⟨a, ha, t', f1.trans e1, f2.trans e2, f3.trans e3, r'⟩

/-- Only an unlisted claim disappears. -/
theorem Keep.drop {c : Claim} {R : List Claim} (ht : c.tab = false) : Keep (c :: R) R := by
  constructor
  · intro x hx hxt
    rcases List.mem_cons.mp hx with rfl | hx
    · rw [ht] at hxt; cases hxt
    · exact ⟨x, hx, hxt, rfl, rfl, rfl⟩
  · intro x hx hxt hr
    exact ⟨x, List.mem_cons_of_mem _ hx, hxt, rfl, rfl, rfl, hr⟩

/-- A claim is marked as freed. -/
theorem Keep.mark (b : Blk) (R : List Claim) : Keep (full b false :: R) (full b true :: R) := by
  constructor
  · intro x hx hxt
    rcases List.mem_cons.mp hx with rfl | hx
    · exact ⟨_, List.mem_cons_self .., rfl, rfl, rfl, rfl⟩
    · exact ⟨x, List.mem_cons_of_mem _ hx, hxt, rfl, rfl, rfl⟩
  · intro x hx hxt hr
    rcases List.mem_cons.mp hx with rfl | hx
    · simp [full] at hr
    · exact ⟨x, List.mem_cons_of_mem _ hx, hxt, rfl, rfl, rfl, hr⟩

/-- The leak check in progress: entries to visit are blocks in the table; reports are blocks in the table;
no block in use is missed; nothing is counted twice. -/
structure Walk (C : List Claim) (todo : List (Nat × Nat)) (t : Nat) (rep : List (Nat × Nat)) : Prop where
  visit : ∀ x ∈ todo, ∃ c ∈ C, c.tab = true ∧ ent c = x
  sound : ∀ x ∈ rep, ∃ c ∈ C, c.tab = true ∧ (c.p, c.n) = x
  all : ∀ c ∈ C, c.tab = true → c.rc = some ⟨99, c.p, c.n, false⟩ → (c.p, c.n) ∈ rep ∨ ent c ∈ todo
  nodup : (rep.map (·.1) ++ todo.map (·.1)).Nodup
  sum : t = total rep % 2 ^ 64

theorem Walk.keep {C C' : List Claim} {todo : List (Nat × Nat)} {t : Nat} {rep : List (Nat × Nat)}
    (h : Walk C todo t rep) (k : Keep C C') : Walk C' todo t rep := by
  refine ⟨?_, ?_, ?_, h.nodup, h.sum⟩
  · intro x hx
    obtain ⟨c, hc, ht, rfl⟩ := h.visit x hx
    obtain ⟨c', hc', ht', e1, e2, e3⟩ := k.old c hc ht
    exact ⟨c', hc', ht', by simp only [ent, e1, e2]⟩
  · intro x hx
    obtain ⟨c, hc, ht, rfl⟩ := h.sound x hx
    obtain ⟨c', hc', ht', e1, e2, e3⟩ := k.old c hc ht
    exact ⟨c', hc', ht', by simp only [e1, e3]⟩
  · intro c hc ht hr
    obtain ⟨c', hc', ht', e1, e2, e3, hr'⟩ := k.new c hc ht hr
    have := h.all c' hc' ht' hr'
    simpa only [ent, e1, e2, e3] using this

/-- What a thread knows about the record it got from the table; sizes are possible. -/
def GoodPc : Pc → Prop
  | .fChk b g | .fMark b g | .fCan b g | .sRead b g => g = b.q
  | .mRaw n => n + 16 < 2 ^ 64
  | _ => True

def isWalk : Pc → Bool
  | .lWalk _ _ _ => true
  | _ => false

structure SInv (s : Sys) : Prop where
  inv : Inv s.st (claims s)
  good : ∀ pc ∈ s.ths, GoodPc pc
  lock : ∀ i, s.lock = some i → ∃ pc, s.ths[i]? = some pc ∧ isWalk pc = true
  walk : ∀ i todo t rep, s.ths[i]? = some (.lWalk todo t rep) → s.lock = some i ∧ Walk (claims s) todo t rep
  quiet : (∃ pc ∈ s.ths, inLeaks pc = true) → ∀ pc ∈ s.ths, inMalloc pc = false

theorem SInv.unlocked {s : Sys} (h : SInv s) {i : Nat} {pc : Pc} (hi : s.ths[i]? = some pc)
    (hm : inMalloc pc = true) : s.lock = none := by
  cases e : s.lock with
  | none => rfl
  | some j =>
    obtain ⟨pc', hj, hw⟩ := h.lock j e
    have : inLeaks pc' = true := by cases pc' <;> simp [isWalk, inLeaks] at *
    have := h.quiet ⟨pc', List.mem_of_getElem? hj, this⟩ pc (List.mem_of_getElem? hi)
    rw [hm] at this
    cases this

theorem mem_set {l : List Pc} {i : Nat} {pc x : Pc} (h : x ∈ l.set i pc) : x = pc ∨ x ∈ l := by
  rcases List.mem_or_eq_of_mem_set h with h | h
  · exact .inr h
  · exact .inl h

/-- A thread that neither begins nor ends a walk moves. -/
theorem SInv.move {s : Sys} (h : SInv s) {i : Nat} {pc pc' : Pc} (hi : s.ths[i]? = some pc) (st : St) (owned : List Blk)
    (w : isWalk pc = false) (w' : isWalk pc' = false) (g : GoodPc pc')
    (q1 : inLeaks pc' = true → inLeaks pc = true ∨ ∀ x ∈ s.ths, inMalloc x = false)
    (q2 : inMalloc pc' = true → inMalloc pc = true ∨ ∀ x ∈ s.ths, inLeaks x = false)
    (hinv : Inv st (claims ⟨st, s.ths.set i pc', owned, s.lock⟩))
    (k : s.lock ≠ none → Keep (claims s) (claims ⟨st, s.ths.set i pc', owned, s.lock⟩)) :
    SInv ⟨st, s.ths.set i pc', owned, s.lock⟩ := by
  have hlt : i < s.ths.length := (List.getElem?_eq_some_iff.mp hi).1
  refine ⟨hinv, ?_, ?_, ?_, ?_⟩
  · intro x hx
    rcases mem_set hx with rfl | hx
    · exact g
    · exact h.good x hx
  · intro j hj
    obtain ⟨x, hx, hw⟩ := h.lock j hj
    refine ⟨x, ?_, hw⟩
    show (s.ths.set i pc')[j]? = some x
    rw [List.getElem?_set]
    by_cases e : i = j
    · subst e
      rw [hi] at hx
      obtain rfl := Option.some.inj hx
      rw [w] at hw; cases hw
    · rw [if_neg e]; exact hx
  · intro j todo t rep hj
    have hj : (s.ths.set i pc')[j]? = some (.lWalk todo t rep) := hj
    rw [List.getElem?_set] at hj
    by_cases e : i = j
    · subst e
      simp only [if_true, hlt] at hj
      obtain rfl := Option.some.inj hj
      cases w'
    · rw [if_neg e] at hj
      obtain ⟨hl, hw⟩ := h.walk j todo t rep hj
      refine ⟨hl, hw.keep (k ?_)⟩
      rw [hl]; simp
  · rintro ⟨x, hx, hxl⟩ y hy
    have hx1 : x = pc' ∨ x ∈ s.ths := mem_set hx
    have hy1 : y = pc' ∨ y ∈ s.ths := mem_set hy
    rcases hx1 with ex | hx2
    · rcases hy1 with ey | hy2
      · rw [ey, ← ex]
        cases x <;> simp [inLeaks, inMalloc] at *
      · rw [ex] at hxl
        rcases q1 hxl with q | q
        · exact h.quiet ⟨pc, List.mem_of_getElem? hi, q⟩ y hy2
        · exact q y hy2
    · rcases hy1 with ey | hy2
      · by_cases hm : inMalloc y = true
        · rw [ey] at hm
          rcases q2 hm with q | q
          · have := h.quiet ⟨x, hx2, hxl⟩ pc (List.mem_of_getElem? hi)
            rw [q] at this; cases this
          · rw [q x hx2] at hxl; cases hxl
        · simpa using hm
      · exact h.quiet ⟨x, hx2, hxl⟩ y hy2

end Verif.AllocMt
