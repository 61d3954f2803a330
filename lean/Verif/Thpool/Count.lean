import Verif.Thpool.QueueStep
/-! Counters, `thcount_lock`, and the life cycle of the pool. -/
namespace Verif.Thpool
variable {J : Type}

/-- sum of a weight over a list of threads -/
def cnt {α : Type} (f : α → Nat) (l : List α) : Nat := (l.map f).sum

theorem cnt_set {α : Type} (f : α → Nat) {l : List α} {i : Nat} {a : α} (b : α) (h : l[i]? = some a) :
    cnt f (l.set i b) + f a = cnt f l + f b := by
  induction l generalizing i with
  | nil => simp at h
  | cons x T ih =>
    cases i with
    | zero => simp at h; subst h; simp [cnt]; omega
    | succ i =>
      simp at h
      have := ih h
      simp only [cnt, List.set_cons_succ, List.map_cons, List.sum_cons] at this ⊢
      omega

theorem cnt_le {α : Type} (f : α → Nat) {l : List α} {i : Nat} {a : α} (h : l[i]? = some a) : f a ≤ cnt f l := by
  induction l generalizing i with
  | nil => simp at h
  | cons x T ih =>
    cases i with
    | zero => simp at h; subst h; simp [cnt]
    | succ i =>
      simp at h
      have := ih h
      simp only [cnt, List.map_cons, List.sum_cons] at this ⊢
      omega

theorem cnt_zero {α : Type} {f : α → Nat} {l : List α} (h : ∀ (i : Nat) a, l[i]? = some a → f a = 0) : cnt f l = 0 := by
  induction l with
  | nil => rfl
  | cons x T ih =>
    have h0 := h 0 x rfl
    have := ih (fun i a ha => h (i + 1) a (by simpa using ha))
    simp only [cnt, List.map_cons, List.sum_cons] at this ⊢
    omega

theorem cnt_pos {α : Type} {f : α → Nat} {l : List α} (h : 0 < cnt f l) : ∃ (i : Nat) (a : α), l[i]? = some a ∧ 0 < f a := by
  induction l with
  | nil => simp [cnt] at h
  | cons x T ih =>
    simp only [cnt, List.map_cons, List.sum_cons] at h ih
    by_cases hx : 0 < f x
    · exact ⟨0, x, rfl, hx⟩
    · obtain ⟨i, a, h1, h2⟩ := ih (by omega)
      exact ⟨i + 1, a, by simpa using h1, h2⟩

theorem cnt_full {α : Type} {f : α → Nat} {l : List α} (hf : ∀ a, f a ≤ 1) : cnt f l ≤ l.length ∧
    (cnt f l = l.length → ∀ (i : Nat) a, l[i]? = some a → f a = 1) := by
  induction l with
  | nil => simp [cnt]
  | cons x T ih =>
    simp only [cnt, List.map_cons, List.sum_cons, List.length_cons] at ih ⊢
    have := hf x
    refine ⟨by omega, fun h i a ha => ?_⟩
    cases i with
    | zero => simp at ha; subst ha; omega
    | succ i => exact ih.2 (by omega) i a (by simpa using ha)

/-- only sleeping workers change, and they are woken -/
def Wakes (l W : List Wrk) : Prop :=
  W.length = l.length ∧ ∀ (k : Nat) x y, l[k]? = some x → W[k]? = some y → y = x ∨ (x = .asleep ∧ y = .woken)

theorem Wakes.refl (l : List Wrk) : Wakes l l := ⟨rfl, fun k x y h1 h2 => by rw [h1] at h2; simp at h2; exact .inl h2.symm⟩

theorem Wakes.set {l : List Wrk} {j : Nat} (h : l[j]? = some .asleep) : Wakes l (l.set j .woken) := by
  refine ⟨by simp, fun k x y h1 h2 => ?_⟩
  rcases get_set h2 with ⟨rfl, rfl⟩ | ⟨_, h2⟩
  · rw [h1] at h; simp at h; exact .inr ⟨h, rfl⟩
  · rw [h1] at h2; simp at h2; exact .inl h2.symm

theorem Wakes.map (l : List Wrk) : Wakes l (l.map fun x => if x = .asleep then .woken else x) := by
  refine ⟨by simp, fun k x y h1 h2 => ?_⟩
  simp only [List.getElem?_map, h1, Option.map_some, Option.some.injEq] at h2
  split at h2
  · next e => exact .inr ⟨e, h2.symm⟩
  · exact .inl h2.symm

theorem Wakes.cnt {f : Wrk → Nat} (hf : f .asleep = f .woken) {l W : List Wrk} (h : Wakes l W) : cnt f W = cnt f l := by
  induction l generalizing W with
  | nil => have := h.1; simp at this; subst this; rfl
  | cons x T ih =>
    cases W with
    | nil => have := h.1; simp at this
    | cons y V =>
      have hV : Wakes T V := ⟨by simpa using h.1, fun k a b h1 h2 => h.2 (k + 1) a b (by simpa using h1) (by simpa using h2)⟩
      have := ih hV
      have hxy : f y = f x := by
        rcases h.2 0 x y rfl rfl with rfl | ⟨rfl, rfl⟩
        · rfl
        · exact hf.symm
      simp only [Thpool.cnt, List.map_cons, List.sum_cons] at this ⊢
      omega

theorem Wakes.get {l W : List Wrk} (h : Wakes l W) {k : Nat} {x : Wrk} (hx : l[k]? = some x) (hne : x ≠ .asleep) :
    W[k]? = some x := by
  have : k < W.length := by
    rw [h.1]
    rcases Nat.lt_or_ge k l.length with h' | h'
    · exact h'
    · rw [List.getElem?_eq_none h'] at hx; simp at hx
  rcases h.2 k x W[k] hx (List.getElem?_eq_getElem this) with e | ⟨e, _⟩
  · rw [List.getElem?_eq_getElem this, e]
  · exact absurd e hne

theorem Wakes.back {l W : List Wrk} (h : Wakes l W) {k : Nat} {y : Wrk} (hy : W[k]? = some y) :
    l[k]? = some y ∨ (y = .woken ∧ l[k]? = some .asleep) := by
  have : k < l.length := by
    rw [← h.1]
    rcases Nat.lt_or_ge k W.length with h' | h'
    · exact h'
    · rw [List.getElem?_eq_none h'] at hy; simp at hy
  rcases h.2 k l[k] y (List.getElem?_eq_getElem this) hy with e | ⟨e, e'⟩
  · left; rw [List.getElem?_eq_getElem this, e]
  · right; exact ⟨e', by rw [List.getElem?_eq_getElem this, e]⟩

theorem Post.eq {s u : Sys J} (h : Post s u) : ∃ W, u = { s with v := true, wrk := W } ∧ Wakes s.wrk W ∧
    ((∃ k : Nat, W[k]? = some Wrk.woken) ∨ ∀ k : Nat, W[k]? ≠ some Wrk.asleep) := by
  cases h with
  | wake i hi => exact ⟨_, rfl, .set hi, .inl ⟨i, set_self hi⟩⟩
  | nobody hn => exact ⟨_, rfl, .refl _, .inr hn⟩

/-- inside the window in which a worker counts as working -/
def win : Wrk → Nat
  | .plock | .pread | .p1a _ | .p1b _ | .p1c _ | .p2a _ | .p2b _ | .p2c _ _ | .punl _ _ | .call _ _ | .running _ _
  | .free _ _ | .dec | .ub => 1
  | _ => 0

/-- counted in `num_threads_alive` -/
def liv : Wrk → Nat
  | .boot | .left | .gone => 0
  | _ => 1

theorem Notify.eq {s u : Sys J} (h : Notify s u) : ∃ T, u = { s with wt := T } ∧
    ((∃ t snap, s.wt[t]? = some (.tasleep snap) ∧ T = s.wt.set t (.twoken snap)) ∨
     ((∀ (t : Nat) snap, s.wt[t]? ≠ some (.tasleep snap)) ∧ T = s.wt)) := by
  cases h with
  | wake t n hi => exact ⟨_, rfl, .inl ⟨t, n, hi, rfl⟩⟩
  | nobody hn => exact ⟨_, rfl, .inr ⟨hn, rfl⟩⟩

theorem working_step {e : Ev} {s u : Sys J} (st : Step e s u)
    (h : s.working = cnt win s.wrk) : u.working = cnt win u.wrk := by
  have hs := fun (i : Nat) a b => @cnt_set _ win s.wrk i a b
  have hl := fun (i : Nat) a => @cnt_le _ win s.wrk i a
  cases st with
  | @p2c _ _ _ jp id e1 hp =>
    obtain ⟨W, rfl, hW, _⟩ := hp.eq
    have := cnt_set win (Wrk.punl jp id) (hW.get e1 (by simp))
    have := hW.cnt (f := win) rfl
    simp only [Sys.atW, win] at *
    omega
  | s4 e1 hp =>
    obtain ⟨W, rfl, hW, _⟩ := hp.eq
    have := hW.cnt (f := win) rfl
    simp only [Sys.atS]; omega
  | d_post =>
    rw [(Wakes.map s.wrk).cnt (f := win) rfl]; exact h
  | dec_last e1 e2 e3 hn =>
    obtain ⟨T, rfl, _⟩ := hn.eq
    have := hs _ _ .test e1
    have := hl _ _ e1
    simp only [Sys.atW, win] at *
    omega
  | _ =>
    first
    | exact h
    | (simp only [Sys.atW]; grind [win])

theorem alive_step {e : Ev} {s u : Sys J} (st : Step e s u)
    (h : s.alive = cnt liv s.wrk) : u.alive = cnt liv u.wrk := by
  have hs := fun (i : Nat) a b => @cnt_set _ liv s.wrk i a b
  have hl := fun (i : Nat) a => @cnt_le _ liv s.wrk i a
  cases st with
  | @p2c _ _ _ jp id e1 hp =>
    obtain ⟨W, rfl, hW, _⟩ := hp.eq
    have := cnt_set liv (Wrk.punl jp id) (hW.get e1 (by simp))
    have := hW.cnt (f := liv) rfl
    simp only [Sys.atW, liv] at *
    omega
  | s4 e1 hp =>
    obtain ⟨W, rfl, hW, _⟩ := hp.eq
    have := hW.cnt (f := liv) rfl
    simp only [Sys.atS]; omega
  | d_post =>
    rw [(Wakes.map s.wrk).cnt (f := liv) rfl]; exact h
  | dec_last e1 e2 e3 hn =>
    obtain ⟨T, rfl, _⟩ := hn.eq
    have := hs _ _ .test e1
    have := hl _ _ e1
    simp only [Sys.atW, liv] at *
    omega
  | _ =>
    first
    | exact h
    | (simp only [Sys.atW]; grind [liv])

/-- a waiter holding `thcount_lock` -/
def TSec : Wt → Bool
  | .t0 _ | .t1 _ | .tw _ | .tunl _ => true
  | _ => false

/-- on its way out -/
def Out : Wrk → Bool
  | .leave | .left | .gone => true
  | _ => false

structure Life (s : Sys J) : Prop where
  tcw : ∀ (t : Nat) pc, s.wt[t]? = some pc → TSec pc = true → s.tc = some (.wt t)
  tcl : ∀ i : Nat, s.wrk[i]? = some .left → s.tc = some (.left i)
  own_t : ∀ t : Nat, s.tc = some (.wt t) → ∃ pc, s.wt[t]? = some pc ∧ TSec pc = true
  own_l : ∀ i : Nat, s.tc = some (.left i) → s.wrk[i]? = some .left
  keep : s.keep = false ↔ s.dst ≠ .no
  out : ∀ (i : Nat) pc, s.wrk[i]? = some pc → Out pc = true → s.keep = false
  ready : s.ready = true → ∀ i : Nat, s.wrk[i]? ≠ some .boot
  dready : s.dst ≠ .no → s.ready = true
  dsub : s.dst ≠ .no → ∀ (t : Nat) x, s.sub[t]? = some x → x = .idle
  dwt : s.dst ≠ .no → ∀ (t : Nat) x, s.wt[t]? = some x → x = .idle
  freed : s.dst = .freed → s.alive = 0

set_option maxHeartbeats 4000000 in
theorem Life.step {e : Ev} {s u : Sys J} (st : Step e s u) (hl : s.alive = cnt liv s.wrk) (h : Life s) : Life u := by
  obtain ⟨h1, h2, h3, h4, h5, h6, h7, h8, h9, h10, h11⟩ := h
  cases st with
  | @p2c _ _ _ jp id e1 hp => 
    obtain ⟨W, rfl, hW, _⟩ := hp.eq
    have hb := fun (k : Nat) y => @Wakes.back _ _ hW k y
    have hg := fun (k : Nat) x => @Wakes.get _ _ hW k x
    clear hp hW
    refine ⟨?_, ?_, ?_, ?_, ?_, ?_, ?_, ?_, ?_, ?_, ?_⟩ <;> simp only [Sys.atW] <;> grind [Out, TSec]
  | s4 e1 hp =>
    obtain ⟨W, rfl, hW, _⟩ := hp.eq
    have hb := fun (k : Nat) y => @Wakes.back _ _ hW k y
    have hg := fun (k : Nat) x => @Wakes.get _ _ hW k x
    clear hp hW
    refine ⟨?_, ?_, ?_, ?_, ?_, ?_, ?_, ?_, ?_, ?_, ?_⟩ <;> simp only [Sys.atS] <;> grind [Out, TSec]
  | d_post =>
    have hW := Wakes.map s.wrk
    have hb := fun (k : Nat) y => @Wakes.back _ _ hW k y
    have hg := fun (k : Nat) x => @Wakes.get _ _ hW k x
    clear hW
    refine ⟨?_, ?_, ?_, ?_, ?_, ?_, ?_, ?_, ?_, ?_, ?_⟩ <;> grind [Out, TSec]
  | dec_last e1 e2 e3 hn =>
    obtain ⟨T, rfl, _⟩ := hn.eq
    refine ⟨?_, ?_, ?_, ?_, ?_, ?_, ?_, ?_, ?_, ?_, ?_⟩ <;> simp only [Sys.atW] <;> grind [Out, TSec]
  | init => exact ⟨h1, h2, h3, h4, h5, h6, fun _ => by have := (cnt_full (f := liv) (l := s.wrk) (by intro a; cases a <;> simp [liv])).2; grind [liv], fun _ => rfl, h9, h10, h11⟩
  | _ =>
    first
    | exact ⟨h1, h2, h3, h4, h5, h6, h7, h8, h9, h10, h11⟩
    | (refine ⟨?_, ?_, ?_, ?_, ?_, ?_, ?_, ?_, ?_, ?_, ?_⟩ <;> simp only [Sys.atW, Sys.atS, Sys.atT] <;> first | assumption | grind [Out, TSec])

end Verif.Thpool
