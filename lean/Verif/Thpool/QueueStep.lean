import Verif.Thpool.Queue
/-! The queue invariant is kept by every step. -/
namespace Verif.Thpool
variable {J : Type}

theorem head_of_pos {L : List Nat} {p : Nat} (h : L[0]? = some p) : ∃ T, L = p :: T := by
  cases L with
  | nil => simp at h
  | cons a T => simp at h; exact ⟨T, by rw [h]⟩

/-- dequeuing the oldest job -/
theorem Cells.tail {q q' : QV J} {p : Nat} {T : List Nat} {tl : Option Nat} (h : Cells q (p :: T) tl) {j : J}
    (hd : q'.dequeued = q.dequeued ++ [j]) (ha : q'.added = q.added) (hh : ∀ x, x ≠ p → q'.heap x = q.heap x) :
    Cells q' T tl := by
  intro k x hx
  obtain ⟨c, h1, h2, h3, h4⟩ := h (k + 1) x (by simpa using hx)
  have hne : x ≠ p := by
    intro e
    subst e
    have := h.inj (j := k + 1) (k := 0) (p := x) (by simpa using hx) (by simp)
    omega
  refine ⟨c, by rw [hh x hne]; exact h1, ?_, ?_, ?_⟩
  · rw [h2, hd]; simp; omega
  · rw [← h3, ha, hd]; congr 1; simp; omega
  · rw [h4]; simp

theorem QInv.dequeue {s s' : Sys J} {L : List Nat} (h : QInv s L) {i p : Nat} {pc pc' : Wrk} {c : Cell J} {f : Option Nat}
    (hp : s.wrk[i]? = some pc) (hs : s'.sub = s.sub) (hw : s'.wrk = s.wrk.set i pc') (hrw : s.rw = some (.wrk i))
    (hrw' : s'.rw = s.rw) (hL : L[0]? = some p) (hc : s.heap p = some c) (hsh : Shape s.q L none f s.rear)
    (hlen : s'.len = s.len - 1) (hdq : s'.dequeued = s.dequeued ++ [c.job]) (hadd : s'.added = s.added)
    (hheap : s'.heap = put s.heap p (some { c with own := .wrk i s.dequeued.length })) (hsec : WSec pc')
    (hi : Stable s'.q L.tail → HeldW s'.q (some p) i s.dequeued.length → WInv s'.q L.tail i pc')
    (hfr : s'.front = L[1]?) (hrr : s'.rear = L.tail.getLast?) : QInv s' L.tail := by
  obtain ⟨T, rfl⟩ := head_of_pos hL
  obtain ⟨c', e1, e2, e3, e4⟩ := hsh.cells 0 p (by simp)
  have : c' = c := by
    have : s.q.heap p = s.heap p := rfl
    rw [this, hc] at e1; simpa using e1.symm
  subst this
  have hst : Stable s'.q T := by
    refine ⟨?_, ?_, hrr⟩
    · refine hsh.cells.tail (j := c'.job) hdq hadd ?_
      intro x hx
      show s'.heap x = s.heap x
      rw [hheap, put_other _ _ hx]
    · show s'.front = _
      rw [hfr]; simp
  have hb := h.base
  have hbd : Base s'.q T := by
    refine ⟨?_, ?_, ?_, fun _ => hst⟩
    · show s'.len = _
      have : s.len = _ := hb.len
      rw [hlen, this]; simp
    · show T.length + s'.dequeued.length = s'.added.length
      have : (p :: T).length + s.dequeued.length = s.added.length := hb.cnt
      rw [hdq, hadd]; simp at this ⊢; omega
    · show s'.dequeued <+: s'.added
      rw [hdq, hadd]
      obtain ⟨R, hR⟩ : s.dequeued <+: s.added := hb.deq
      have e3 : s.added[s.dequeued.length + 0]? = some c'.job := e3
      rw [← hR] at e3 ⊢
      simp at e3
      cases R with
      | nil => simp at e3
      | cons a R => simp at e3; exact ⟨R, by simp [e3]⟩
  refine h.ownW hp hs hw (.inr hrw) (.inr (hrw'.trans hrw)) hbd (hi hst ?_) (fun _ => hsec) ?_ ?_ ?_
  · intro x hx
    simp at hx; subst hx
    refine ⟨{ c' with own := .wrk i s.dequeued.length }, ?_, rfl, ?_⟩
    · show s'.heap p = _
      rw [hheap, put_self]
    · show s'.dequeued[_]? = _
      rw [hdq]; simp
  · intro x y t h1 h2
    rw [hheap, put_other, h1]
    intro e; subst e; rw [hc] at h1; simp at h1; subst h1; rw [e2] at h2; simp at h2
  · intro x y k id h1 h2 _
    rw [hheap, put_other, h1]
    intro e; subst e; rw [hc] at h1; simp at h1; subst h1; rw [e2] at h2; simp at h2
  · rw [hdq]; exact List.prefix_append _ _

theorem Post.q {s u : Sys J} (h : Post s u) : u.q = s.q ∧ u.sub = s.sub := by cases h <;> exact ⟨rfl, rfl⟩

theorem Post.qinv {s u : Sys J} (h : Post s u) {L} (hq : QInv s L) : QInv u L := by
  cases h with
  | wake i e => exact hq.moveW e rfl rfl rfl trivial (fun h => h.elim)
  | nobody => exact hq.same rfl rfl rfl

theorem Post.wrk {s u : Sys J} (h : Post s u) {i : Nat} {pc} (hp : s.wrk[i]? = some pc) (hne : pc ≠ .asleep) :
    u.wrk[i]? = some pc := by
  cases h with
  | wake k e =>
    by_cases hk : i = k
    · subst hk; rw [hp] at e; simp at e; exact absurd e hne
    · simp only []; rw [set_other hk]; exact hp
  | nobody => exact hp

theorem Notify.same {s u : Sys J} (h : Notify s u) : u.q = s.q ∧ u.sub = s.sub ∧ u.wrk = s.wrk := by
  cases h <;> exact ⟨rfl, rfl, rfl⟩

theorem QInv.init {s : Sys J} (h : Init s) : QInv s [] := by
  obtain ⟨h1, h2, h3, h4, h5, _, _, _, _, _, _, h6, h7, _, _, h8, _, h9, _⟩ := h
  refine ⟨⟨h4, ?_, ?_, fun _ => ⟨by intro j p hp; simp at hp, h2, h3⟩⟩, ?_, ?_, ?_, ?_⟩
  · show 0 + s.dequeued.length = s.added.length; rw [h8, h9]; rfl
  · show s.dequeued <+: s.added; rw [h8, h9]; exact List.prefix_rfl
  · intro t x hx; rw [h7 t x hx]; trivial
  · intro t x hx; rw [h6 t x hx]; trivial
  · intro t ht; rw [h5] at ht; simp at ht
  · intro t ht; rw [h5] at ht; simp at ht

theorem QInv.step {e : Ev} {s u : Sys J} (st : Step e s u) {L : List Nat} (h : QInv s L) : ∃ L', QInv u L' := by
  cases st with
  | boot e1 e2 => exact ⟨L, h.moveW e1 rfl rfl rfl trivial (fun h => h.elim)⟩
  | init => exact ⟨L, h.same rfl rfl rfl⟩
  | test_go e1 e2 => exact ⟨L, h.moveW e1 rfl rfl rfl trivial (fun h => h.elim)⟩
  | test_end e1 e2 => exact ⟨L, h.moveW e1 rfl rfl rfl trivial (fun h => h.elim)⟩
  | take e1 e2 =>
    rcases e1 with e1 | e1 <;> exact ⟨L, h.moveW e1 rfl rfl rfl trivial (fun h => h.elim)⟩
  | sleep e1 e2 =>
    rcases e1 with e1 | e1 <;> exact ⟨L, h.moveW e1 rfl rfl rfl trivial (fun h => h.elim)⟩
  | spur_w e1 => exact ⟨L, h.moveW e1 rfl rfl rfl trivial (fun h => h.elim)⟩
  | recheck_go e1 e2 => exact ⟨L, h.moveW e1 rfl rfl rfl trivial (fun h => h.elim)⟩
  | recheck_end e1 e2 => exact ⟨L, h.moveW e1 rfl rfl rfl trivial (fun h => h.elim)⟩
  | inc e1 e2 => exact ⟨L, h.moveW e1 rfl rfl rfl trivial (fun h => h.elim)⟩
  | @plock _ i e1 e2 =>
    have hst := h.base.free e2
    have hst' : Stable ({ s with rw := some (.wrk i) }.atW i .pread).q L := hst.congr (fun _ _ _ h _ => h) rfl rfl rfl rfl
    exact ⟨L, h.ownW e1 rfl rfl (.inl e2) (.inr rfl)
      ⟨h.base.len, h.base.cnt, h.base.deq, fun h => by simp [Sys.q, Sys.atW] at h⟩
      ⟨rfl, hst'⟩ (fun _ => trivial) (fun _ _ _ h _ => h) (fun _ _ _ _ h _ _ => h) List.prefix_rfl⟩
  | pread0 e1 e2 =>
    have hw := h.wrk _ _ e1
    have hl : L = [] := List.eq_nil_of_length_eq_zero (h.base.len.symm.trans e2)
    refine ⟨L, h.moveW e1 rfl rfl rfl ⟨hw.1, ?_, hw.2⟩ (fun _ => trivial)⟩
    intro p hp
    have hf : s.front = L[0]? := hw.2.front
    rw [hf, hl] at hp; simp at hp
  | pread1 e1 e2 =>
    have hw := h.wrk _ _ e1
    exact ⟨L, h.moveW e1 rfl rfl rfl ⟨hw.1, h.base.len.symm.trans e2, hw.2.front, hw.2⟩ (fun _ => trivial)⟩
  | pread2 e1 e2 =>
    have hw := h.wrk _ _ e1
    have : s.len = L.length := h.base.len
    exact ⟨L, h.moveW e1 rfl rfl rfl ⟨hw.1, by omega, hw.2.front, hw.2⟩ (fun _ => trivial)⟩
  | p1a e1 =>
    have hw := h.wrk _ _ e1
    refine ⟨L, h.ownW e1 rfl rfl (.inr hw.1) (.inr hw.1)
      ⟨h.base.len, h.base.cnt, h.base.deq, fun hn => ?_⟩
      ⟨hw.1, hw.2.1, hw.2.2.1, hw.2.2.2.cells.congr (fun _ _ _ h _ => h) rfl rfl, rfl, hw.2.2.2.rear⟩
      (fun _ => trivial) (fun _ _ _ h _ => h) (fun _ _ _ _ h _ _ => h) List.prefix_rfl⟩
    have := hw.1.symm.trans hn; simp at this
  | p1b e1 =>
    have hw := h.wrk _ _ e1
    refine ⟨L, h.ownW e1 rfl rfl (.inr hw.1) (.inr hw.1)
      ⟨h.base.len, h.base.cnt, h.base.deq, fun hn => ?_⟩
      ⟨hw.1, hw.2.1, hw.2.2.1, hw.2.2.2.cells.congr (fun _ _ _ h _ => h) rfl rfl, hw.2.2.2.front, rfl⟩
      (fun _ => trivial) (fun _ _ _ h _ => h) (fun _ _ _ _ h _ _ => h) List.prefix_rfl⟩
    have := hw.1.symm.trans hn; simp at this
  | @p1c _ i p c e1 e2 =>
    have hw := h.wrk _ _ e1
    obtain ⟨k1, k2, k3, k4⟩ := hw
    have hf : s.front = none := k4.front
    have hr : s.rear = none := k4.rear
    have hlen : s.len = L.length := h.base.len
    obtain ⟨T, hT⟩ := head_of_pos k3.symm
    have hT' : T = [] := by rw [hT] at k2; simpa using k2
    refine ⟨L.tail, h.dequeue (f := none) e1 rfl rfl k1 rfl k3.symm e2 ⟨k4.cells, k4.front, rfl⟩ ?_ rfl rfl rfl trivial
      (fun a b => ⟨k1, b, a⟩) ?_ ?_⟩
    · show 0 = s.len - 1; omega
    · show s.front = _
      rw [hf, hT, hT']; rfl
    · show s.rear = _
      rw [hr, hT, hT']; rfl
  | p1c_ub e1 e2 =>
    have hw := h.wrk _ _ e1
    obtain ⟨p, hp⟩ : ∃ p, L[0]? = some p := by
      cases L with
      | nil => have := hw.2.1; simp at this
      | cons a T => exact ⟨a, rfl⟩
    obtain ⟨c, h1, _⟩ := hw.2.2.2.cells 0 p hp
    have := e2 p (hw.2.2.1.trans hp)
    rw [show s.q.heap p = s.heap p from rfl, this] at h1; simp at h1
  | @p2a _ i p c e1 e2 =>
    have hw := h.wrk _ _ e1
    obtain ⟨k1, k2, k3, k4⟩ := hw
    obtain ⟨c', h1, h2, h3, h4⟩ := k4.cells 0 p k3.symm
    have : c' = c := by rw [show s.q.heap p = s.heap p from rfl, e2] at h1; simpa using h1.symm
    subst this
    rw [if_pos (by omega)] at h4
    refine ⟨L, h.ownW e1 rfl rfl (.inr k1) (.inr k1)
      ⟨h.base.len, h.base.cnt, h.base.deq, fun hn => ?_⟩
      ⟨k1, k2, k3, k4.cells.congr (fun _ _ _ h _ => h) rfl rfl, h4, k4.rear⟩
      (fun _ => trivial) (fun _ _ _ h _ => h) (fun _ _ _ _ h _ _ => h) List.prefix_rfl⟩
    have := k1.symm.trans hn; simp at this
  | p2a_ub e1 e2 =>
    have hw := h.wrk _ _ e1
    obtain ⟨p, hp⟩ : ∃ p, L[0]? = some p := by
      cases L with
      | nil => have := hw.2.1; simp at this
      | cons a T => exact ⟨a, rfl⟩
    obtain ⟨c, h1, _⟩ := hw.2.2.2.cells 0 p hp
    have := e2 p (hw.2.2.1.trans hp)
    rw [show s.q.heap p = s.heap p from rfl, this] at h1; simp at h1
  | @p2b _ i p c e1 e2 =>
    have hw := h.wrk _ _ e1
    obtain ⟨k1, k2, k3, k4⟩ := hw
    have hf : s.front = L[1]? := k4.front
    have hr : s.rear = L.getLast? := k4.rear
    refine ⟨L.tail, h.dequeue (f := L[1]?) e1 rfl rfl k1 rfl k3.symm e2 ⟨k4.cells, k4.front, rfl⟩ rfl rfl rfl rfl trivial
      (fun a b => ⟨k1, b, by simp, a⟩) hf ?_⟩
    show s.rear = _
    rw [hr]
    cases L with
    | nil => simp at k2
    | cons a T =>
      cases T with
      | nil => simp at k2
      | cons b T => simp [List.getLast?_cons_cons]
  | p2b_ub e1 e2 =>
    have hw := h.wrk _ _ e1
    obtain ⟨p, hp⟩ : ∃ p, L[0]? = some p := by
      cases L with
      | nil => have := hw.2.1; simp at this
      | cons a T => exact ⟨a, rfl⟩
    obtain ⟨c, h1, _⟩ := hw.2.2.2.cells 0 p hp
    have := e2 p (hw.2.2.1.trans hp)
    rw [show s.q.heap p = s.heap p from rfl, this] at h1; simp at h1
  | p2c e1 hpost =>
    have hu := hpost.qinv h
    have e1' := hpost.wrk e1 (by simp)
    have hw := hu.wrk _ _ e1'
    exact ⟨L, hu.moveW e1' rfl rfl rfl ⟨hw.1, hw.2.1, hw.2.2.2⟩ (fun _ => trivial)⟩
  | @punl _ i jp id e1 =>
    have hw := h.wrk _ _ e1
    have hst : Stable ({ s with rw := none }.atW i (.call jp id)).q L := hw.2.2.congr (fun _ _ _ h _ => h) rfl rfl rfl rfl
    exact ⟨L, h.ownW e1 rfl rfl (.inr hw.1) (.inl rfl)
      ⟨h.base.len, h.base.cnt, h.base.deq, fun _ => hst⟩ hw.2.1 (fun h => by simp [Sys.atW] at h)
      (fun _ _ _ h _ => h) (fun _ _ _ _ h _ _ => h) List.prefix_rfl⟩
  | call_none e1 => exact ⟨L, h.moveW e1 rfl rfl rfl trivial (fun h => h.elim)⟩
  | call e1 e2 =>
    have hw := h.wrk _ _ e1
    exact ⟨L, h.moveW e1 rfl rfl rfl hw (fun h => h.elim)⟩
  | call_ub e1 e2 =>
    have hw := h.wrk _ _ e1
    obtain ⟨c, h1, _⟩ := hw _ rfl
    rw [show s.q.heap _ = s.heap _ from rfl, e2] at h1; simp at h1
  | ret e1 =>
    have hw := h.wrk _ _ e1
    exact ⟨L, h.moveW e1 rfl rfl rfl hw (fun h => h.elim)⟩
  | @free _ i p id c e1 e2 =>
    have hw := h.wrk _ _ e1
    obtain ⟨c', h1, h2, h3⟩ := hw _ rfl
    have : c' = c := by rw [show s.q.heap p = s.heap p from rfl, e2] at h1; simpa using h1.symm
    subst this
    have key : ∀ x y, s.heap x = some y → y.own ≠ .wrk i id → put s.heap p none x = some y := by
      intro x y hx hy
      rw [put_other, hx]
      intro e; subst e; rw [e2] at hx; simp at hx; subst hx; exact hy h2
    have hq : ∀ x y id, s.heap x = some y → y.own = .queue id → put s.heap p none x = some y :=
      fun x y _ hx hy => key x y hx (by rw [hy]; simp)
    refine ⟨L, ⟨⟨h.base.len, h.base.cnt, h.base.deq, fun hn => (h.base.free hn).congr hq rfl rfl rfl rfl⟩, ?_, ?_, ?_, ?_⟩⟩
    · intro t x hx
      exact (h.sub t x hx).heap hq (fun x y h1 h2 => key x y h1 (by rw [h2]; simp))
    · intro k x hx
      rcases get_set hx with ⟨rfl, rfl⟩ | ⟨hk, hx⟩
      · trivial
      · exact (h.wrk k x hx).heap hq (fun x y id h1 h2 => key x y h1 (by rw [h2]; simp [hk]))
    · exact h.sown
    · intro k hk
      obtain ⟨x, h1, h2⟩ := h.wown k hk
      by_cases e : k = i
      · subst e; rw [e1] at h1; simp at h1; subst h1; exact h2.elim
      · exact ⟨x, by simp only [Sys.atW]; rw [set_other e]; exact h1, h2⟩
  | free_ub e1 e2 =>
    have hw := h.wrk _ _ e1
    obtain ⟨c, h1, _⟩ := hw _ rfl
    rw [show s.q.heap _ = s.heap _ from rfl, e2] at h1; simp at h1
  | dec e1 e2 e3 => exact ⟨L, h.moveW e1 rfl rfl rfl trivial (fun h => h.elim)⟩
  | dec_last e1 e2 e3 hn =>
    obtain ⟨n1, n2, n3⟩ := hn.same
    refine ⟨L, h.moveW (s' := Sys.atW _ _ _) (pc' := .test) e1 n1 n2 ?_ trivial (fun h => h.elim)⟩
    simp only [Sys.atW, n3]
  | leave e1 e2 => exact ⟨L, h.moveW e1 rfl rfl rfl trivial (fun h => h.elim)⟩
  | left e1 => exact ⟨L, h.moveW e1 rfl rfl rfl trivial (fun h => h.elim)⟩
  | @add _ t p j e1 e2 e3 e4 =>
    have key : ∀ x y, s.heap x = some y → put s.heap p (some ⟨none, j, .sub t⟩) x = some y := by
      intro x y hx
      rw [put_other, hx]
      intro e; subst e; rw [e4] at hx; simp at hx
    refine ⟨L, ⟨⟨h.base.len, h.base.cnt, h.base.deq,
      fun hn => (h.base.free hn).congr (fun x y _ h _ => key x y h) rfl rfl rfl rfl⟩, ?_, ?_, ?_, ?_⟩⟩
    · intro k x hx
      rcases get_set hx with ⟨rfl, rfl⟩ | ⟨hk, hx⟩
      · exact ⟨_, put_self _ _ _, rfl⟩
      · exact (h.sub k x hx).heap (fun x y _ h _ => key x y h) (fun x y h _ => key x y h)
    · intro k x hx
      exact (h.wrk k x hx).heap (fun x y _ h _ => key x y h) (fun x y _ h _ => key x y h)
    · intro k hk
      obtain ⟨x, h1, h2⟩ := h.sown k hk
      by_cases e : k = t
      · subst e; rw [e1] at h1; simp at h1; subst h1; exact h2.elim
      · exact ⟨x, by simp only [Sys.atS]; rw [set_other e]; exact h1, h2⟩
    · exact h.wown
  | @slock _ t p e1 e2 =>
    have hst := h.base.free e2
    have hw := h.sub _ _ e1
    have hst' : Stable ({ s with rw := some (.sub t) }.atS t (.s0 p)).q L := hst.congr (fun _ _ _ h _ => h) rfl rfl rfl rfl
    exact ⟨L, h.ownS e1 rfl rfl (.inl e2) (.inr rfl)
      ⟨h.base.len, h.base.cnt, h.base.deq, fun h => by simp [Sys.q, Sys.atS] at h⟩
      ⟨rfl, hw, hst'⟩ (fun _ => trivial) (fun _ _ _ h _ _ => h) (fun _ _ _ _ h _ => h) List.prefix_rfl⟩
  | @s0 _ t p c e1 e2 =>
    have hw := h.sub _ _ e1
    obtain ⟨k1, ⟨c', h1, h2⟩, k3⟩ := hw
    have : c' = c := by rw [show s.q.heap p = s.heap p from rfl, e2] at h1; simpa using h1.symm
    subst this
    have key : ∀ x y, s.heap x = some y → y.own ≠ .sub t → put s.heap p (some { c' with prev := none }) x = some y := by
      intro x y hx hy
      rw [put_other, hx]
      intro e; subst e; rw [e2] at hx; simp at hx; subst hx; exact hy h2
    refine ⟨L, h.ownS e1 rfl rfl (.inr k1) (.inr k1) ⟨h.base.len, h.base.cnt, h.base.deq, fun hn => ?_⟩
      ⟨k1, ⟨_, put_self _ _ _, h2, rfl⟩,
        k3.congr (fun x y id h h' => key x y h (by rw [h']; simp)) rfl rfl rfl rfl⟩
      (fun _ => trivial) (fun x y k h h' hk => key x y h (by rw [h']; simp [hk]))
      (fun x y k id h h' => key x y h (by rw [h']; simp)) List.prefix_rfl⟩
    have := k1.symm.trans hn; simp at this
  | s0_ub e1 e2 =>
    have hw := h.sub _ _ e1
    obtain ⟨c, h1, _⟩ := hw.2.1
    rw [show s.q.heap _ = s.heap _ from rfl, e2] at h1; simp at h1
  | @s1_empty _ t p e1 e2 =>
    have hw := h.sub _ _ e1
    have hl : L = [] := List.eq_nil_of_length_eq_zero (h.base.len.symm.trans e2)
    refine ⟨L, h.ownS e1 rfl rfl (.inr hw.1) (.inr hw.1) ⟨h.base.len, h.base.cnt, h.base.deq, fun hn => ?_⟩
      ⟨hw.1, hw.2.1, ?_, ?_, hw.2.2.rear⟩
      (fun _ => trivial) (fun _ _ _ h _ _ => h) (fun _ _ _ _ h _ => h) List.prefix_rfl⟩
    · have := hw.1.symm.trans hn; simp at this
    · rw [hl]; intro j x hx; simp at hx
    · rw [hl]; rfl
  | @s1 _ t p r c e1 e2 e3 e4 =>
    have hw := h.sub _ _ e1
    obtain ⟨k1, ⟨c', h1, h2, h3⟩, k3⟩ := hw
    have hl : s.len = L.length := h.base.len
    have hrear : s.rear = L.getLast? := k3.rear
    rw [e3, List.getLast?_eq_getElem?] at hrear
    obtain ⟨c2, g1, g2, g3, g4⟩ := k3.cells _ r hrear.symm
    have : c2 = c := by rw [show s.q.heap r = s.heap r from rfl, e4] at g1; simpa using g1.symm
    subst this
    have key : ∀ x y, s.heap x = some y → (∀ id, y.own ≠ .queue id) →
        put s.heap r (some { c2 with prev := some p }) x = some y := by
      intro x y hx hy
      rw [put_other, hx]
      intro e; subst e; rw [e4] at hx; simp at hx; subst hx; exact hy _ g2
    refine ⟨L, h.ownS e1 rfl rfl (.inr k1) (.inr k1) ⟨h.base.len, h.base.cnt, h.base.deq, fun hn => ?_⟩
      ⟨k1, ⟨c', key p c' h1 (by rw [h2]; simp), h2, h3⟩, ?_, ?_, ?_⟩
      (fun _ => trivial) (fun x y k h h' hk => key x y h (by rw [h']; simp))
      (fun x y k id h h' => key x y h (by rw [h']; simp)) List.prefix_rfl⟩
    · have := k1.symm.trans hn; simp at this
    · intro j x hx
      obtain ⟨y, a1, a2, a3, a4⟩ := k3.cells j x hx
      by_cases e : x = r
      · subst e
        have hj := k3.cells.inj hx hrear.symm
        have : y = c2 := by rw [show s.q.heap x = s.heap x from rfl, e4] at a1; simpa using a1.symm
        subst this
        refine ⟨_, put_self _ _ _, a2, a3, ?_⟩
        rw [if_neg (by omega)]
      · have hne : j ≠ L.length - 1 := by
          intro e'; subst e'; rw [← hrear] at hx; simp at hx; exact e hx.symm
        have hlt : j < L.length := by
          rcases Nat.lt_or_ge j L.length with h' | h'
          · exact h'
          · rw [List.getElem?_eq_none h'] at hx; simp at hx
        refine ⟨y, (put_other _ _ e).trans a1, a2, a3, ?_⟩
        rw [a4, if_pos (by omega), if_pos (by omega)]
    · show s.front = _
      have : s.front = L[0]? := k3.front
      rw [this, List.getElem?_append_left (by omega)]
    · exact k3.rear
  | s1_ub e1 e2 e3 =>
    have hw := h.sub _ _ e1
    have hl : s.len = L.length := h.base.len
    have hrear : s.rear = L.getLast? := hw.2.2.rear
    rw [List.getLast?_eq_getElem?] at hrear
    have hlt : L.length - 1 < L.length := by omega
    have hr := List.getElem?_eq_getElem hlt
    obtain ⟨c, g1, _⟩ := hw.2.2.cells _ _ hr
    have := e3 _ (hrear.trans hr)
    rw [show s.q.heap _ = s.heap _ from rfl, this] at g1; simp at g1
  | @s2 _ t p e1 =>
    have hw := h.sub _ _ e1
    refine ⟨L, h.ownS e1 rfl rfl (.inr hw.1) (.inr hw.1) ⟨h.base.len, h.base.cnt, h.base.deq, fun hn => ?_⟩
      ⟨hw.1, hw.2.1, hw.2.2.cells.congr (fun _ _ _ h _ => h) rfl rfl, hw.2.2.front, rfl⟩
      (fun _ => trivial) (fun _ _ _ h _ _ => h) (fun _ _ _ _ h _ => h) List.prefix_rfl⟩
    have := hw.1.symm.trans hn; simp at this
  | @s3 _ t p c e1 e2 =>
    have hw := h.sub _ _ e1
    obtain ⟨k1, ⟨c', h1, h2, h3⟩, k3⟩ := hw
    have : c' = c := by rw [show s.q.heap p = s.heap p from rfl, e2] at h1; simpa using h1.symm
    subst this
    have hl : s.len = L.length := h.base.len
    have hcnt : L.length + s.dequeued.length = s.added.length := h.base.cnt
    have key : ∀ x y, s.heap x = some y → y.own ≠ .sub t →
        put s.heap p (some { c' with own := .queue s.added.length }) x = some y := by
      intro x y hx hy
      rw [put_other, hx]
      intro e; subst e; rw [e2] at hx; simp at hx; subst hx; exact hy h2
    have hst : Stable ({ s with len := s.len + 1, added := s.added ++ [c'.job],
                                heap := put s.heap p (some { c' with own := .queue s.added.length })
                                 }.atS t (.s4 s.added.length)).q (L ++ [p]) := by
      refine ⟨?_, k3.front, by rw [getLast?_snoc']; exact k3.rear⟩
      intro j x hx
      rcases Nat.lt_trichotomy j L.length with hj | hj | hj
      · rw [List.getElem?_append_left hj] at hx
        obtain ⟨y, a1, a2, a3, a4⟩ := k3.cells j x hx
        refine ⟨y, key x y a1 (by rw [a2]; simp), a2, ?_, ?_⟩
        · show (s.added ++ [c'.job])[s.dequeued.length + j]? = _
          rw [List.getElem?_append_left (by omega)]; exact a3
        · rw [a4, List.length_append]
          simp only [List.length_singleton]
          rw [if_pos (show j + 1 < L.length + 1 by omega)]
          split
          · next hj' => rw [List.getElem?_append_left hj']
          · have : j + 1 = L.length := by omega
            rw [this]; simp
      · subst hj
        simp at hx; subst hx
        refine ⟨{ c' with own := .queue s.added.length }, put_self _ _ _, ?_, ?_, ?_⟩
        · show Own.queue s.added.length = .queue (s.dequeued.length + L.length)
          rw [← hcnt, Nat.add_comm]
        · show (s.added ++ [c'.job])[s.dequeued.length + L.length]? = _
          rw [Nat.add_comm, hcnt]; simp
        · simp [h3]
      · rw [List.getElem?_eq_none (by simp; omega)] at hx; simp at hx
    refine ⟨L ++ [p], h.ownS e1 rfl rfl (.inr k1) (.inr k1) ⟨?_, ?_, ?_, fun hn => hst⟩
      ⟨k1, hst, ?_⟩
      (fun _ => trivial) (fun x y k h h' hk => key x y h (by rw [h']; simp [hk]))
      (fun x y k id h h' => key x y h (by rw [h']; simp)) List.prefix_rfl⟩
    · show s.len + 1 = _; simp [hl]
    · show (L ++ [p]).length + s.dequeued.length = (s.added ++ [c'.job]).length; simp; omega
    · show s.dequeued <+: s.added ++ [c'.job]
      exact List.IsPrefix.trans h.base.deq (List.prefix_append _ _)
    · show s.added.length < (s.added ++ [c'.job]).length; simp
  | s3_ub e1 e2 =>
    have hw := h.sub _ _ e1
    obtain ⟨c, h1, _⟩ := hw.2.1
    rw [show s.q.heap _ = s.heap _ from rfl, e2] at h1; simp at h1
  | s4 e1 hpost =>
    have hu := hpost.qinv h
    have e1' := e1
    rw [← hpost.q.2] at e1'
    have hw := hu.sub _ _ e1'
    exact ⟨L, hu.moveS (pc' := .s5 _) e1' rfl rfl rfl ⟨hw.1, hw.2.1, hw.2.2⟩ (fun _ => trivial)⟩
  | @s5 _ t id e1 =>
    have hw := h.sub _ _ e1
    exact ⟨L, h.ownS e1 rfl rfl (.inr hw.1) (.inl rfl)
      ⟨h.base.len, h.base.cnt, h.base.deq, fun _ => hw.2.1.congr (fun _ _ _ h _ => h) rfl rfl rfl rfl⟩ trivial
      (fun h => by simp [Sys.atS] at h) (fun _ _ _ h _ _ => h) (fun _ _ _ _ h _ => h) List.prefix_rfl⟩
  | wait => exact ⟨L, h.same rfl rfl rfl⟩
  | tlock => exact ⟨L, h.same rfl rfl rfl⟩
  | t0_wait => exact ⟨L, h.same rfl rfl rfl⟩
  | t0 => exact ⟨L, h.same rfl rfl rfl⟩
  | t1_wait => exact ⟨L, h.same rfl rfl rfl⟩
  | t1 => exact ⟨L, h.same rfl rfl rfl⟩
  | tw => exact ⟨L, h.same rfl rfl rfl⟩
  | spur_t => exact ⟨L, h.same rfl rfl rfl⟩
  | twoken => exact ⟨L, h.same rfl rfl rfl⟩
  | tunl => exact ⟨L, h.same rfl rfl rfl⟩
  | destroy => exact ⟨L, h.same rfl rfl rfl⟩
  | d_more => exact ⟨L, h.same rfl rfl rfl⟩
  | d_post e1 =>
    have hm : ∀ (k : Nat) (x : Wrk), (s.wrk.map fun x => if x = .asleep then Wrk.woken else x)[k]? = some x →
        x = .woken ∨ s.wrk[k]? = some x := by
      intro k x hx
      simp only [List.getElem?_map, Option.map_eq_some_iff] at hx
      obtain ⟨y, h1, h2⟩ := hx
      split at h2
      · exact .inl h2.symm
      · subst h2; exact .inr h1
    refine ⟨L, ⟨h.base, h.sub, ?_, h.sown, ?_⟩⟩
    · intro k x hx
      rcases hm k x hx with rfl | hx
      · trivial
      · exact h.wrk k x hx
    · intro k hk
      obtain ⟨x, h1, h2⟩ := h.wown k hk
      refine ⟨x, ?_, h2⟩
      simp only [List.getElem?_map, h1, Option.map_some]
      rw [if_neg]; rintro rfl; exact h2.elim
  | d_free => exact ⟨L, h.same rfl rfl rfl⟩

end Verif.Thpool
