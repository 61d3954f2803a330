import Verif.Dirent.Open

/-! # C81: directory streams -/
namespace Verif.Dirent
open Spec (W FindData Ent Locale FullRes FindRes OpenAns Event Ret Pos Stream Abs)

/-- The stream at `p`: a `_WDIR`, or a `DIR` that points to one; `own` and `hown` say whose the blocks and search handles are. -/
structure SRep (s : Sys) (own hown : Nat → Nat) (p : Nat) (st : Stream) (w q : Nat) (h : Option Nat) (d : WDir) : Prop where
  kind : if st.wide then w = p else s.heap p = some (.dir w)
  rep : WRep s w q h st.patt st.pos d
  ownP : own p = p
  ownW : own w = p
  ownQ : own q = p
  ownH : ∀ y, h = some y → hown y = p
  blocks : ∀ x, s.heap x ≠ none → own x = p → x = p ∨ x = w ∨ x = q
  handle : ∀ y, s.handles y ≠ none → hown y = p → h = some y

structure Inv (s : Sys) (a : Abs) (own hown : Nat → Nat) : Prop where
  errno : s.errno = a.errno
  heapLt : ∀ x, s.heap x ≠ none → x < s.next
  hndLt : ∀ y, s.handles y ≠ none → y < s.next
  rep : ∀ p st, a.tab p = some st → ∃ w q h d, SRep s own hown p st w q h d
  ownH : ∀ x, s.heap x ≠ none → a.tab (own x) ≠ none
  ownHH : ∀ y, s.handles y ≠ none → a.tab (hown y) ≠ none

theorem inv_init : Inv Sys.init Abs.init id id :=
  ⟨rfl, fun x h => absurd rfl h, fun x h => absurd rfl h, (fun p st h => by cases h), fun x h => absurd rfl h, fun x h => absurd rfl h⟩

theorem Inv.errnoTo {s : Sys} {a : Abs} {own hown : Nat → Nat} (i : Inv s a own hown) (e : Nat) : Inv { s with errno := e } { a with errno := e } own hown where
  errno := rfl
  heapLt := i.heapLt
  hndLt := i.hndLt
  rep p st h := by
    obtain ⟨w, q, hh, d, r⟩ := i.rep p st h
    exact ⟨w, q, hh, d, r.kind, ⟨r.rep.atw, r.rep.pat, r.rep.buf, r.rep.hnd, r.rep.pos⟩, r.ownP, r.ownW, r.ownQ, r.ownH, r.blocks, r.handle⟩
  ownH := i.ownH
  ownHH := i.ownHH

theorem posRep_congr {hs hs' : Nat → Option (List FindData)} {d : WDir} {pos : Pos} (h : ∀ y, d.handle = some y → hs' y = hs y) (r : PosRep hs d pos) :
    PosRep hs' d pos := by
  cases pos with
  | lost => exact r
  | stuck => obtain ⟨h1, y, l, h2, h3⟩ := r; exact ⟨h1, y, l, h2, (h y h2).trans h3⟩
  | «at» k => obtain ⟨h1, ⟨y, l, h2, h3, h4⟩, h5⟩ := r; exact ⟨h1, ⟨y, l, h2, (h y h2).trans h3, h4⟩, h5⟩

/-- A live handle of a stream. -/
theorem pos_live {hs : Nat → Option (List FindData)} {d : WDir} {pos : Pos} (r : PosRep hs d pos) {y : Nat} (h : d.handle = some y) : hs y ≠ none := by
  cases pos with
  | lost => rw [r.2] at h; cases h
  | stuck => obtain ⟨h1, z, l, h2, h3⟩ := r; rw [h] at h2; cases h2; simp [h3]
  | «at» k => obtain ⟨h1, ⟨z, l, h2, h3, h4⟩, h5⟩ := r; rw [h] at h2; cases h2; simp [h3]

/-- Another stream does not notice. -/
theorem SRep.frame {s s' : Sys} {own own' hown hown' : Nat → Nat} {p : Nat} {st : Stream} {w q : Nat} {h : Option Nat} {d : WDir} (r : SRep s own hown p st w q h d)
    (h1 : ∀ x, own x = p → s.heap x ≠ none → s'.heap x = s.heap x) (h2 : ∀ y, hown y = p → s.handles y ≠ none → s'.handles y = s.handles y)
    (h3 : ∀ x, s'.heap x ≠ none → own' x = p → own x = p ∧ s.heap x ≠ none) (h4 : ∀ y, s'.handles y ≠ none → hown' y = p → hown y = p ∧ s.handles y ≠ none)
    (h5 : ∀ x, s.heap x ≠ none → own' x = own x) (h6 : ∀ y, s.handles y ≠ none → hown' y = hown y) : SRep s' own' hown' p st w q h d := by
  obtain ⟨b, hb, hc⟩ := r.rep.buf
  have hw : s.heap w ≠ none := by rw [r.rep.atw]; simp
  have hq : s.heap q ≠ none := by rw [hb]; simp
  have hp : s.heap p ≠ none := by
    have := r.kind
    split at this
    · rw [← this]; exact hw
    · rw [this]; simp
  refine ⟨?_, ⟨by rw [h1 w r.ownW hw]; exact r.rep.atw, r.rep.pat, ⟨b, by rw [h1 q r.ownQ hq]; exact hb, hc⟩, r.rep.hnd, ?_⟩, ?_, ?_, ?_, ?_, ?_, ?_⟩
  · rw [h1 p r.ownP hp]; exact r.kind
  · refine posRep_congr ?_ r.rep.pos
    intro y hy
    exact h2 y (r.ownH y (r.rep.hnd ▸ hy)) (pos_live r.rep.pos hy)
  · rw [h5 p hp]; exact r.ownP
  · rw [h5 w hw]; exact r.ownW
  · rw [h5 q hq]; exact r.ownQ
  · intro y hy
    rw [h6 y (pos_live r.rep.pos (r.rep.hnd.trans hy))]
    exact r.ownH y hy
  · intro x hx ho
    obtain ⟨k1, k2⟩ := h3 x hx ho
    exact r.blocks x k2 k1
  · intro y hy ho
    obtain ⟨k1, k2⟩ := h4 y hy ho
    exact r.handle y k2 k1

/-- A call on one stream. -/
theorem inv_upd {s s' : Sys} {a : Abs} {own hown : Nat → Nat} (i : Inv s a own hown) {p w q : Nat} {h h' : Option Nat} {st : Stream} {d d' : WDir} {pos : Pos} {e : Nat}
    (hp : a.tab p = some st) (r : SRep s own hown p st w q h d) (u : Upd s s' w h h') (r' : WRep s' w q h' st.patt pos d') (he : s'.errno = e) :
    ∃ hown', Inv s' { a.set p (some { st with pos := pos }) with errno := e } own hown' := by
  obtain ⟨b, hb, hc⟩ := r.rep.buf
  have hw : s.heap w ≠ none := by rw [r.rep.atw]; simp
  have hw' : s'.heap w ≠ none := by rw [r'.atw]; simp
  have heapIff : ∀ x, s'.heap x ≠ none ↔ s.heap x ≠ none := by
    intro x
    by_cases k : x = w
    · subst k; exact ⟨fun _ => hw, fun _ => hw'⟩
    · rw [u.heap x k]
  -- handles of others
  have oth : ∀ y, h' ≠ some y → s'.handles y ≠ none → h ≠ some y ∧ s.handles y ≠ none := by
    intro y hy hn
    by_cases k : h = some y
    · exact absurd (u.gone y k (fun e => hy (e.trans k))) hn
    · exact ⟨k, by rw [← u.hnd y k hy]; exact hn⟩
  have hlive : ∀ y, h = some y → s.handles y ≠ none := fun y hy => pos_live r.rep.pos (r.rep.hnd.trans hy)
  have fresh : ∀ y, h' = some y → h = some y ∨ s.handles y = none ∧ y < s'.next := by
    intro y hy
    rcases u.fresh with k | k
    · exact .inl (k ▸ hy)
    · right
      have := k y hy
      refine ⟨?_, this.2⟩
      cases e : s.handles y with
      | none => rfl
      | some l => exact absurd (i.hndLt y (by simp [e])) (by omega)
  refine ⟨fun y => if h' = some y then p else hown y, he, ?_, ?_, ?_, ?_, ?_⟩
  · intro x hx
    exact Nat.lt_of_lt_of_le (i.heapLt x ((heapIff x).1 hx)) u.next
  · intro y hy
    by_cases k : h' = some y
    · rcases fresh y k with e | e
      · exact Nat.lt_of_lt_of_le (i.hndLt y (hlive y e)) u.next
      · exact e.2
    · exact Nat.lt_of_lt_of_le (i.hndLt y (oth y k hy).2) u.next
  · intro x sx hx
    simp only [Abs.set] at hx
    by_cases k : x = p
    · subst k
      simp only [if_true, Option.some.injEq] at hx
      subst hx
      refine ⟨w, q, h', d', ?_, r', r.ownP, r.ownW, r.ownQ, ?_, ?_, ?_⟩
      · have := r.kind
        cases hk : st.wide with
        | true => rw [hk] at this; exact this
        | false =>
          rw [hk] at this
          have : s.heap x = some (.dir w) := this
          have hne : x ≠ w := by
            rintro rfl
            rw [r.rep.atw] at this; cases this
          show s'.heap x = _
          rw [u.heap x hne]; exact this
      · intro y hy; simp [hy]
      · intro y hy ho
        exact r.blocks y ((heapIff y).1 hy) ho
      · intro y hy ho
        by_cases k : h' = some y
        · exact k
        · simp only [k, if_false] at ho
          obtain ⟨k1, k2⟩ := oth y k hy
          exact absurd (r.handle y k2 ho) k1
    · simp only [k, if_false] at hx
      obtain ⟨w2, q2, h2, d2, r2⟩ := i.rep x sx hx
      refine ⟨w2, q2, h2, d2, r2.frame ?_ ?_ ?_ ?_ (fun _ _ => rfl) ?_⟩
      · intro y ho _
        refine u.heap y ?_
        rintro rfl
        exact k (ho.symm.trans r.ownW)
      · intro y ho hn
        have k1 : h ≠ some y := fun e => k (ho.symm.trans (r.ownH y e))
        refine u.hnd y k1 ?_
        intro e
        rcases fresh y e with f | f
        · exact k1 f
        · exact hn f.1
      · intro y hy ho
        exact ⟨ho, (heapIff y).1 hy⟩
      · intro y hy ho
        by_cases e : h' = some y
        · simp only [e, if_true] at ho
          exact absurd ho.symm k
        · simp only [e, if_false] at ho
          exact ⟨ho, (oth y e hy).2⟩
      · intro y hy
        by_cases e : h' = some y
        · simp only [e, if_true]
          rcases fresh y e with f | f
          · exact (r.ownH y f).symm
          · exact absurd f.1 hy
        · simp [e]
  · intro x hx
    have := i.ownH x ((heapIff x).1 hx)
    simp only [Abs.set]
    by_cases k : own x = p <;> simp [k, this]
  · intro y hy
    simp only [Abs.set]
    by_cases e : h' = some y
    · simp [e]
    · have := i.ownHH y (oth y e hy).2
      simp only [e, if_false]
      by_cases k : hown y = p <;> simp [k, this]

/-- A stream that is closed. -/
theorem inv_close {s s' : Sys} {a : Abs} {own hown : Nat → Nat} (i : Inv s a own hown) {p w q : Nat} {h : Option Nat} {st : Stream} {d : WDir}
    (r : SRep s own hown p st w q h d) (c1 : s'.heap p = none) (c2 : s'.heap w = none) (c3 : s'.heap q = none)
    (c4 : ∀ x, x ≠ p → x ≠ w → x ≠ q → s'.heap x = s.heap x) (c5 : ∀ y, h = some y → s'.handles y = none) (c6 : ∀ y, h ≠ some y → s'.handles y = s.handles y)
    (c7 : s'.next = s.next) (c8 : s'.errno = s.errno) : Inv s' (a.set p none) own hown := by
  have hb : ∀ x, s'.heap x ≠ none → x ≠ p ∧ x ≠ w ∧ x ≠ q ∧ s.heap x ≠ none := by
    intro x hx
    have e1 : x ≠ p := by rintro rfl; exact hx c1
    have e2 : x ≠ w := by rintro rfl; exact hx c2
    have e3 : x ≠ q := by rintro rfl; exact hx c3
    exact ⟨e1, e2, e3, by rw [← c4 x e1 e2 e3]; exact hx⟩
  have hh : ∀ y, s'.handles y ≠ none → h ≠ some y ∧ s.handles y ≠ none := by
    intro y hy
    have e : h ≠ some y := fun e => hy (c5 y e)
    exact ⟨e, by rw [← c6 y e]; exact hy⟩
  refine ⟨c8.trans i.errno, ?_, ?_, ?_, ?_, ?_⟩
  · intro x hx; rw [c7]; exact i.heapLt x (hb x hx).2.2.2
  · intro y hy; rw [c7]; exact i.hndLt y (hh y hy).2
  · intro x sx hx
    simp only [Abs.set] at hx
    by_cases k : x = p
    · subst k; simp at hx
    · simp only [k, if_false] at hx
      obtain ⟨w2, q2, h2, d2, r2⟩ := i.rep x sx hx
      refine ⟨w2, q2, h2, d2, r2.frame ?_ ?_ ?_ ?_ (fun _ _ => rfl) (fun _ _ => rfl)⟩
      · intro y ho _
        refine c4 y ?_ ?_ ?_
        · rintro rfl; exact k (ho.symm.trans r.ownP)
        · rintro rfl; exact k (ho.symm.trans r.ownW)
        · rintro rfl; exact k (ho.symm.trans r.ownQ)
      · intro y ho _
        exact c6 y fun e => k (ho.symm.trans (r.ownH y e))
      · intro y hy ho; exact ⟨ho, (hb y hy).2.2.2⟩
      · intro y hy ho; exact ⟨ho, (hh y hy).2⟩
  · intro x hx
    obtain ⟨e1, e2, e3, e4⟩ := hb x hx
    have := i.ownH x e4
    simp only [Abs.set]
    by_cases k : own x = p
    · rcases r.blocks x e4 k with e | e | e
      · exact absurd e e1
      · exact absurd e e2
      · exact absurd e e3
    · simp [k, this]
  · intro y hy
    obtain ⟨e1, e2⟩ := hh y hy
    have := i.ownHH y e2
    simp only [Abs.set]
    by_cases k : hown y = p
    · exact absurd (r.handle y e2 k) e1
    · simp [k, this]

/-- A new stream. -/
theorem inv_open {s s' : Sys} {a : Abs} {own hown : Nat → Nat} (i : Inv s a own hown) {p w q y : Nat} {st : Stream} {d : WDir}
    (hp : s.next ≤ p) (hw : s.next ≤ w) (hq : s.next ≤ q) (hy : s.next ≤ y) (hpl : p < s'.next) (hwl : w < s'.next) (hql : q < s'.next) (hyl : y < s'.next)
    (kind : if st.wide then w = p else s'.heap p = some (.dir w)) (rep : WRep s' w q (some y) st.patt st.pos d)
    (c4 : ∀ x, x ≠ p → x ≠ w → x ≠ q → s'.heap x = s.heap x) (c6 : ∀ z, z ≠ y → s'.handles z = s.handles z)
    (c8 : s'.errno = s.errno) : (∃ own' hown', Inv s' (a.set p (some st)) own' hown') ∧ a.tab p = none := by
  have nb : ∀ x, s.next ≤ x → s.heap x = none := by
    intro x hx
    cases e : s.heap x with
    | none => rfl
    | some o => exact absurd (i.heapLt x (by simp [e])) (by omega)
  have nh : ∀ x, s.next ≤ x → s.handles x = none := by
    intro x hx
    cases e : s.handles x with
    | none => rfl
    | some o => exact absurd (i.hndLt x (by simp [e])) (by omega)
  have hnext : s.next ≤ s'.next := by omega
  have htab : a.tab p = none := by
    cases e : a.tab p with
    | none => rfl
    | some sp =>
      obtain ⟨w2, q2, h2, d2, r2⟩ := i.rep p sp e
      have := r2.kind
      split at this
      · have k := r2.rep.atw; rw [this, nb p hp] at k; cases k
      · rw [nb p hp] at this; cases this
  have old : ∀ x, s.heap x ≠ none → ¬ (x = p ∨ x = w ∨ x = q) := by
    rintro x hx (rfl | rfl | rfl)
    · exact hx (nb _ hp)
    · exact hx (nb _ hw)
    · exact hx (nb _ hq)
  have hb : ∀ x, s'.heap x ≠ none → ¬ (x = p ∨ x = w ∨ x = q) → s.heap x ≠ none := by
    intro x hx k
    rw [← c4 x (fun e => k (.inl e)) (fun e => k (.inr (.inl e))) (fun e => k (.inr (.inr e)))]; exact hx
  refine ⟨⟨fun x => if x = p ∨ x = w ∨ x = q then p else own x, fun z => if z = y then p else hown z, c8.trans i.errno, ?_, ?_, ?_, ?_, ?_⟩, htab⟩
  · intro x hx
    by_cases k : x = p ∨ x = w ∨ x = q
    · rcases k with rfl | rfl | rfl <;> assumption
    · exact Nat.lt_of_lt_of_le (i.heapLt x (hb x hx k)) hnext
  · intro z hz
    by_cases k : z = y
    · subst k; exact hyl
    · rw [c6 z k] at hz; exact Nat.lt_of_lt_of_le (i.hndLt z hz) hnext
  · intro x sx hx
    simp only [Abs.set] at hx
    by_cases k : x = p
    · subst k
      simp only [if_true, Option.some.injEq] at hx
      subst hx
      refine ⟨w, q, some y, d, kind, rep, by simp, by simp, by simp, ?_, ?_, ?_⟩
      · intro z hz; cases hz; simp
      · intro z hz ho
        by_cases k : z = x ∨ z = w ∨ z = q
        · exact k
        · simp only [k, if_false] at ho
          exact absurd htab (by rw [← ho]; exact i.ownH z (hb z hz k))
      · intro z hz ho
        by_cases k : z = y
        · rw [k]
        · simp only [k, if_false] at ho
          exact absurd htab (by rw [← ho]; exact i.ownHH z (by rw [← c6 z k]; exact hz))
    · simp only [k, if_false] at hx
      obtain ⟨w2, q2, h2, d2, r2⟩ := i.rep x sx hx
      refine ⟨w2, q2, h2, d2, r2.frame ?_ ?_ ?_ ?_ ?_ ?_⟩
      · intro z _ hz
        have := old z hz
        exact c4 z (fun e => this (.inl e)) (fun e => this (.inr (.inl e))) (fun e => this (.inr (.inr e)))
      · intro z _ hz
        refine c6 z ?_
        rintro rfl
        exact hz (nh _ hy)
      · intro z hz ho
        by_cases k' : z = p ∨ z = w ∨ z = q
        · simp only [k', if_true] at ho; exact absurd ho.symm k
        · simp only [k', if_false] at ho; exact ⟨ho, hb z hz k'⟩
      · intro z hz ho
        by_cases k' : z = y
        · simp only [k', if_true] at ho; exact absurd ho.symm k
        · simp only [k', if_false] at ho; exact ⟨ho, by rw [← c6 z k']; exact hz⟩
      · intro z hz; simp [old z hz]
      · intro z hz
        have : z ≠ y := by rintro rfl; exact hz (nh _ hy)
        simp [this]
  · intro x hx
    simp only [Abs.set]
    by_cases k : x = p ∨ x = w ∨ x = q
    · simp [k]
    · simp only [k, if_false]
      have := i.ownH x (hb x hx k)
      by_cases e : own x = p <;> simp [e, this]
  · intro z hz
    simp only [Abs.set]
    by_cases k : z = y
    · simp [k]
    · simp only [k, if_false]
      have := i.ownHH z (by rw [← c6 z k]; exact hz)
      by_cases e : hown z = p <;> simp [e, this]

/-- A call that fails. -/
theorem inv_same {s s' : Sys} {a : Abs} {own hown : Nat → Nat} (i : Inv s a own hown) (u : Same s s') {e : Nat} (he : s'.errno = e) : Inv s' { a with errno := e } own hown where
  errno := he
  heapLt x hx := Nat.lt_of_lt_of_le (i.heapLt x (by rw [← u.heap x]; exact hx)) u.next
  hndLt y hy := Nat.lt_of_lt_of_le (i.hndLt y (by rw [← u.hnd y]; exact hy)) u.next
  rep p st h := by
    obtain ⟨w, q, hh, d, r⟩ := i.rep p st h
    exact ⟨w, q, hh, d, r.frame (fun x _ _ => u.heap x) (fun y _ _ => u.hnd y) (fun x hx ho => ⟨ho, by rw [← u.heap x]; exact hx⟩)
      (fun y hy ho => ⟨ho, by rw [← u.hnd y]; exact hy⟩) (fun _ _ => rfl) (fun _ _ => rfl)⟩
  ownH x hx := i.ownH x (by rw [← u.heap x]; exact hx)
  ownHH y hy := i.ownHH y (by rw [← u.hnd y]; exact hy)

theorem set_self {a : Abs} {p : Nat} {st : Stream} (h : a.tab p = some st) : a.set p (some { st with pos := st.pos }) = a := by
  unfold Abs.set
  cases a with
  | mk tab e =>
    congr 1
    funext x
    by_cases k : x = p
    · subst k; simp at h ⊢; exact h.symm
    · simp [k]

theorem errno_self {a : Abs} : { a with errno := a.errno } = a := rfl

/-- Every legal call is defined and does what the specification says. -/
theorem step_inv (loc : Locale) {s : Sys} {a : Abs} {own hown : Nat → Nat} (i : Inv s a own hown) {e : Event} (hl : Spec.Legal a e) :
    ∃ r s' a' own' hown', step loc s e = some (r, s') ∧ Spec.Step loc a e r a' ∧ Inv s' a' own' hown' := by
  cases e with
  | opendir n ans =>
    cases n with
    | none => exact ⟨_, _, _, own, hown, rfl, ⟨rfl, rfl⟩, i.errnoTo 2⟩
    | some n =>
      have := opendir_spec loc (name := n) i.heapLt i.hndLt hl
      simp only [step]
      cases ho : Spec.openBytes loc n ans with
      | ok patt l =>
        rw [ho] at this
        obtain ⟨s', d, h1, h2, h3, h4, h5, h6, h7⟩ := this
        obtain ⟨⟨own', hown', i'⟩, ht⟩ := inv_open i (p := s.next) (w := s.next + 1) (q := s.next + 2) (y := s.next + 3) (st := ⟨false, patt, .at l⟩)
          (by omega) (by omega) (by omega) (by omega) (by omega) (by omega) (by omega) (by omega) h2 h3 h4 h5 h7
        exact ⟨_, s', _, own', hown', by rw [h1]; rfl, by simp only [Spec.Step, ho, Spec.opened]; exact ⟨_, ht, rfl, rfl⟩, i'⟩
      | fail e =>
        rw [ho] at this
        obtain ⟨s', h1, h2, h3⟩ := this
        exact ⟨_, s', _, own, hown, by rw [h1]; rfl, by simp only [Spec.Step, ho, Spec.opened, true_and]; rfl, inv_same i h2 (by rw [h3, i.errno])⟩
  | wopendir n ans =>
    cases n with
    | none => exact ⟨_, _, _, own, hown, rfl, ⟨rfl, rfl⟩, i.errnoTo 2⟩
    | some n =>
      have := wopendir_spec (name := n) i.heapLt i.hndLt hl
      simp only [step]
      cases ho : Spec.openWide n ans with
      | ok patt l =>
        rw [ho] at this
        obtain ⟨s', d, h1, h3, h4, h5, h6, h7⟩ := this
        obtain ⟨⟨own', hown', i'⟩, ht⟩ := inv_open i (p := s.next) (w := s.next) (q := s.next + 1) (y := s.next + 2) (st := ⟨true, patt, .at l⟩)
          (by omega) (by omega) (by omega) (by omega) (by omega) (by omega) (by omega) (by omega) rfl h3 (fun x a _ b => h4 x a b) h5 h7
        exact ⟨_, s', _, own', hown', by rw [h1]; rfl, by simp only [Spec.Step, ho, Spec.opened]; exact ⟨_, ht, rfl, rfl⟩, i'⟩
      | fail e =>
        rw [ho] at this
        obtain ⟨s', h1, h2, h3⟩ := this
        exact ⟨_, s', _, own, hown, by rw [h1]; rfl, by simp only [Spec.Step, ho, Spec.opened, true_and]; rfl, inv_same i h2 (by rw [h3, i.errno])⟩
  | readdir p =>
    obtain ⟨x, rfl, st, hst, hk⟩ := hl
    obtain ⟨w, q, h, d, r⟩ := i.rep x st hst
    have kind := r.kind
    rw [hk] at kind
    obtain ⟨s', d', h1, h2, h3, h4⟩ := readdir_spec loc kind r.rep
    obtain ⟨hown', i'⟩ := inv_upd i hst r h3 h2 (h4.trans i.errno)
    exact ⟨_, s', _, own, hown', by simp only [step, h1]; rfl, ⟨st, hst, rfl, rfl⟩, i'⟩
  | wreaddir p =>
    cases p with
    | none => exact ⟨_, _, _, own, hown, rfl, ⟨rfl, rfl⟩, i.errnoTo 9⟩
    | some x =>
      obtain ⟨st, hst, hk⟩ := hl x rfl
      obtain ⟨w, q, h, d, r⟩ := i.rep x st hst
      have kind := r.kind
      rw [hk] at kind
      obtain rfl : w = x := kind
      obtain ⟨s', d', h1, h2, h3, h4⟩ := wreaddir_spec r.rep
      rw [i.errno] at h4
      obtain ⟨hown', i'⟩ := inv_upd i hst r h3 h2 h4
      exact ⟨_, s', _, own, hown', by simp only [step, h1]; rfl, ⟨st, hst, rfl, rfl⟩, i'⟩
  | closedir wide p =>
    cases p with
    | none =>
      refine ⟨.int (-1), { s with errno := 9 }, _, own, hown, ?_, ⟨rfl, rfl⟩, i.errnoTo 9⟩
      cases wide <;> rfl
    | some x =>
      obtain ⟨st, hst, hk⟩ := hl x rfl
      obtain ⟨w, q, h, d, r⟩ := i.rep x st hst
      have kind := r.kind
      rw [hk] at kind
      obtain ⟨s', h1, h2, h3, h4, h5, h6, h7, h8⟩ := wclosedir_spec r.rep
      cases wide with
      | true =>
        obtain rfl : w = x := kind
        exact ⟨.int 0, s', _, own, hown, by simp only [step, if_true, h1]; rfl, ⟨rfl, rfl⟩,
          inv_close i r h2 h2 h3 (fun x a _ b => h4 x a b) h5 h6 h7 h8⟩
      | false =>
        have kind : s.heap x = some (.dir w) := kind
        have hxw : x ≠ w := by rintro rfl; rw [r.rep.atw] at kind; cases kind
        have hxq : x ≠ q := by
          rintro rfl
          obtain ⟨b, hb, _⟩ := r.rep.buf
          rw [hb] at kind; cases kind
        have hx' : s'.heap x = some (.dir w) := by rw [h4 x hxw hxq]; exact kind
        refine ⟨.int 0, s'.put x none, _, own, hown, ?_, ⟨rfl, rfl⟩, inv_close i r (by simp [Sys.put]) ?_ ?_ ?_ h5 h6 h7 h8⟩
        · simp only [step, Bool.false_eq_true, if_false, closedir, getDir_of kind, Option.bind_eq_bind, Option.bind_some, h1, free_some hx', Option.pure_def]
        · simp [Sys.put, Ne.symm hxw, h2]
        · simp [Sys.put, Ne.symm hxq, h3]
        · intro y e1 e2 e3
          simp [Sys.put, e1, h4 y e2 e3]
  | rewinddir wide p f =>
    cases p with
    | none =>
      refine ⟨.unit, s, a, own, hown, ?_, ⟨rfl, rfl⟩, i⟩
      cases wide <;> rfl
    | some x =>
      obtain ⟨ho, hv⟩ := hl
      obtain ⟨st, hst, hk⟩ := ho x rfl
      obtain ⟨w, q, h, d, r⟩ := i.rep x st hst
      have kind := r.kind
      rw [hk] at kind
      obtain ⟨s', h', d', h1, h2, h3, h4⟩ := wrewinddir_spec r.rep i.hndLt (hv st.patt)
      rw [i.errno] at h4
      obtain ⟨hown', i'⟩ := inv_upd i hst r h3 h2 h4
      refine ⟨.unit, s', _, own, hown', ?_, ⟨st, hst, rfl, rfl⟩, i'⟩
      cases wide with
      | true => obtain rfl : w = x := kind; simp only [step, if_true, h1]; rfl
      | false =>
        have kind : s.heap x = some (.dir w) := kind
        simp only [step, Bool.false_eq_true, if_false, rewinddir, getDir_of kind, Option.bind_eq_bind, Option.bind_some, h1]; rfl
  | telldir wide p =>
    cases p with
    | none =>
      refine ⟨.int (-1), { s with errno := 9 }, _, own, hown, ?_, ⟨rfl, rfl⟩, i.errnoTo 9⟩
      cases wide <;> rfl
    | some x =>
      obtain ⟨st, hst, hk⟩ := hl x rfl
      obtain ⟨w, q, h, d, r⟩ := i.rep x st hst
      have kind := r.kind
      rw [hk] at kind
      obtain ⟨s', d', h1, h2, h3, h4⟩ := wtelldir_spec r.rep
      rw [i.errno] at h4
      obtain ⟨hown', i'⟩ := inv_upd i hst r h3 h2 h4
      rw [set_self hst] at i'
      refine ⟨.int st.pos.tell, s', _, own, hown', ?_, ⟨st, hst, rfl, rfl⟩, i'⟩
      cases wide with
      | true => obtain rfl : w = x := kind; simp only [step, if_true, h1]; rfl
      | false =>
        have kind : s.heap x = some (.dir w) := kind
        simp only [step, Bool.false_eq_true, if_false, telldir, getDir_of kind, Option.bind_eq_bind, Option.bind_some, h1]; rfl
  | seekdir wide p l f =>
    cases p with
    | none =>
      obtain ⟨hw, _, _⟩ := hl
      cases wide with
      | true => exact absurd rfl (hw rfl)
      | false => exact ⟨.unit, s, a, own, hown, rfl, ⟨rfl, rfl⟩, i⟩
    | some x =>
      obtain ⟨_, ho, hv⟩ := hl
      obtain ⟨st, hst, hk⟩ := ho x rfl
      obtain ⟨w, q, h, d, r⟩ := i.rep x st hst
      have kind := r.kind
      rw [hk] at kind
      obtain ⟨s', h', d', h1, h2, h3, h4⟩ := wseekdir_spec r.rep i.hndLt (loc := l) (hv st.patt)
      rw [i.errno] at h4
      obtain ⟨hown', i'⟩ := inv_upd i hst r h3 h2 h4
      refine ⟨.unit, s', _, own, hown', ?_, ⟨st, hst, rfl, rfl⟩, i'⟩
      cases wide with
      | true => obtain rfl : w = x := kind; simp only [step, if_true, h1]; rfl
      | false =>
        have kind : s.heap x = some (.dir w) := kind
        simp only [step, Bool.false_eq_true, if_false, seekdir, getDir_of kind, Option.bind_eq_bind, Option.bind_some, h1]; rfl

theorem run_snoc {loc : Locale} {a b c : Abs} {h : List (Event × Ret)} {e : Event} {r : Ret} (h1 : Spec.Run loc a h b) (h2 : Spec.Step loc b e r c) :
    Spec.Run loc a (h ++ [(e, r)]) c := by
  induction h1 with
  | nil => exact .cons h2 .nil
  | cons s _ ih => exact .cons s (ih h2)

/-- The calls of the history are the program's. -/
inductive Follows (prog : Prog) : List (Event × Ret) → Prop
  | nil : Follows prog []
  | snoc {h e r} : Follows prog h → prog h = some e → Follows prog (h ++ [(e, r)])

/-- A program that makes only legal calls, whatever the world does. -/
def LegalProg (loc : Locale) (prog : Prog) : Prop := ∀ h a e, Follows prog h → Spec.Run loc Abs.init h a → prog h = some e → Spec.Legal a e

theorem exec_inv (loc : Locale) {prog : Prog} (hp : LegalProg loc prog) : ∀ (n : Nat) (s : Sys) (h : List (Event × Ret)) (a : Abs) (own hown : Nat → Nat),
    Follows prog h → Spec.Run loc Abs.init h a → Inv s a own hown → ∃ h' s' a' own' hown', exec loc prog n s h = some (h', s') ∧ Spec.Run loc Abs.init h' a' ∧ Inv s' a' own' hown'
  | 0, s, h, a, own, hown, _, r, i => ⟨h, s, a, own, hown, rfl, r, i⟩
  | n + 1, s, h, a, own, hown, f, r, i => by
    unfold exec
    cases e : prog h with
    | none => exact ⟨h, s, a, own, hown, rfl, r, i⟩
    | some ev =>
      obtain ⟨ret, s', a', own', hown', h1, h2, h3⟩ := step_inv loc i (hp h a ev f r e)
      obtain ⟨h'', s'', a'', own'', hown'', k1, k2, k3⟩ := exec_inv loc hp n s' _ a' own' hown' (.snoc f e) (run_snoc r h2) h3
      exact ⟨h'', s'', a'', own'', hown'', by simp only [h1, Option.bind_eq_bind, Option.bind_some, k1], k2, k3⟩

/-- **C81**: whatever the contents of the directories, the failures of the system and the allocator and the order of the calls, a program that makes
legal calls runs without undefined behaviour and sees what the specification says; what it has closed has been released. -/
theorem streams_conform (loc : Locale) {prog : Prog} (hp : LegalProg loc prog) (n : Nat) :
    ∃ h s a, exec loc prog n Sys.init [] = some (h, s) ∧ Spec.Run loc Abs.init h a ∧ s.errno = a.errno ∧
      ((∀ p, a.tab p = none) → (∀ x, s.heap x = none) ∧ ∀ y, s.handles y = none) := by
  obtain ⟨h, s, a, own, hown, h1, h2, h3⟩ := exec_inv loc hp n Sys.init [] Abs.init id id .nil .nil inv_init
  refine ⟨h, s, a, h1, h2, h3.errno, fun hc => ⟨fun x => ?_, fun y => ?_⟩⟩
  · cases e : s.heap x with
    | none => rfl
    | some o => exact absurd (hc _) (h3.ownH x (by simp [e]))
  · cases e : s.handles y with
    | none => rfl
    | some o => exact absurd (hc _) (h3.ownHH y (by simp [e]))

end Verif.Dirent
