import Verif.Thpool.Token
import Verif.Thpool.Spec
/-! Every run of the pool's own threads ends, and what a state in which nothing moves looks like. -/
namespace Verif.Thpool
variable {J : Type}

def wr : Wrk → Nat
  | .gone => 0 | .left => 1 | .leave => 2 | .asleep => 0 | .enter => 2 | .woken => 2 | .test => 3 | .boot => 4
  | .dec => 8 | .free _ _ => 9 | .running _ _ => 10 | .call _ _ => 11 | .punl _ _ => 12
  | .p2c _ _ => 33 | .p2b _ => 13 | .p2a _ => 14 | .p1c _ => 13 | .p1b _ => 14 | .p1a _ => 15
  | .pread => 16 | .plock => 17 | .inc => 18 | .recheck => 19 | .ub => 0

def sr : Sub → Nat
  | .idle => 0 | .s5 _ => 1 | .s4 _ => 22 | .s3 _ => 44 | .s2 _ => 45 | .s1 _ => 46 | .s0 _ => 47 | .slock _ => 48 | .ub => 0

def tr : Wt → Nat
  | .idle => 0 | .tasleep _ => 0 | .tw _ => 1 | .tunl _ => 1 | .t1 _ => 2 | .t0 _ => 3 | .twoken _ => 4 | .tlock _ => 4

def mu (s : Sys J) : Nat := 21 * s.len + 18 * s.v.toNat + cnt wr s.wrk + cnt sr s.sub + cnt tr s.wt

theorem Post.mu {s u : Sys J} (h : Post s u) : mu u ≤ mu s + 20 := by
  have : (true).toNat = 1 := rfl
  cases h with
  | wake i hi =>
    have := cnt_set wr .woken hi
    simp only [Thpool.mu, wr] at *; omega
  | nobody => simp only [Thpool.mu] at *; omega

theorem mu_step {e : Ev} {s u : Sys J} {L : List Nat} (st : Step e s u) (he : e.Internal) (q : QInv s L) : mu u < mu s := by
  have t1 : (true).toNat = 1 := rfl
  have t0 : (false).toNat = 0 := rfl
  have hw := fun (i : Nat) a b => @cnt_set _ wr s.wrk i a b
  have hs := fun (i : Nat) a b => @cnt_set _ sr s.sub i a b
  have ht := fun (i : Nat) a b => @cnt_set _ tr s.wt i a b
  cases st with
  | @take _ i e1 e2 => rcases e1 with e1 | e1 <;> (have := hw _ _ .recheck e1; simp only [mu, Sys.atW, wr, e2] at *; omega)
  | @sleep _ i e1 e2 => rcases e1 with e1 | e1 <;> (have := hw _ _ .asleep e1; simp only [mu, Sys.atW, wr] at *; omega)
  | @p2c _ _ i jp id e1 hp =>
    have hm := hp.mu
    have := cnt_set wr (Wrk.punl jp id) (hp.wrk e1 (by simp))
    simp only [mu, Sys.atW, wr] at *; omega
  | @s4 _ _ t id e1 hp =>
    have hm := hp.mu
    have e1' := e1
    rw [← hp.q.2] at e1'
    have := cnt_set sr (Sub.s5 id) e1'
    simp only [mu, Sys.atS, sr] at *; omega
  | @dec_last _ _ i e1 e2 e3 hn =>
    have := hw _ _ .test e1
    cases hn with
    | wake t n hi =>
      have := ht _ _ (.twoken n) hi
      simp only [mu, Sys.atW, wr, tr] at *; omega
    | nobody => simp only [mu, Sys.atW, wr] at *; omega
  | @p1c _ i p c e1 e2 =>
    have := hw _ _ (.punl (some p) s.dequeued.length) e1
    simp only [mu, Sys.atW, wr] at *; omega
  | @p2b _ i p c e1 e2 =>
    have := hw _ _ (.p2c (some p) s.dequeued.length) e1
    have h1 := (q.wrk _ _ e1).2.1
    have h2 : s.len = L.length := q.base.len
    simp only [mu, Sys.atW, wr] at *; omega
  | @s3 _ t p c e1 e2 =>
    have := hs _ _ (.s4 s.added.length) e1
    simp only [mu, Sys.atS, sr] at *; omega
  | init => exact he.elim
  | spur_w => exact he.elim
  | spur_t => exact he.elim
  | add => exact he.elim
  | wait => exact he.elim
  | destroy => exact he.elim
  | d_more => exact he.elim
  | d_post => exact he.elim
  | d_free => exact he.elim
  | _ =>
    clear q he
    first
    | (have := hw _ _ _ (by assumption); simp only [mu, Sys.atW] at *; grind [wr])
    | (simp only [mu, Sys.atW, Sys.atS, Sys.atT] at *; grind [wr, sr, tr])

theorem run_to_stuck {s : Sys J} (h : Inv s) : ∃ u, Steps Ev.Internal s u ∧ Stuck u := by
  generalize hn : mu s = n
  induction n using Nat.strongRecOn generalizing s with
  | _ n ih =>
    by_cases hst : Stuck s
    · exact ⟨s, .refl s, hst⟩
    · simp only [Stuck, Classical.not_forall, Classical.not_not] at hst
      obtain ⟨e, u, he, st⟩ := hst
      obtain ⟨L, q⟩ := h.q
      obtain ⟨w, hw, hst⟩ := ih (mu u) (by have := mu_step st he q; omega) (h.step st) rfl
      refine ⟨w, ?_, hst⟩
      clear hst
      induction hw with
      | refl => exact .step (.refl s) he st
      | step _ a b ih => exact .step ih a b

theorem no_infinite {s : Sys J} (h : Inv s) (run : Nat → Sys J) (h0 : run 0 = s)
    (hr : ∀ k, ∃ e, e.Internal ∧ Step e (run k) (run (k + 1))) : False := by
  have key : ∀ k, Inv (run k) ∧ mu (run k) + k ≤ mu s := by
    intro k
    induction k with
    | zero => rw [h0]; exact ⟨h, by omega⟩
    | succ k ih =>
      obtain ⟨e, he, st⟩ := hr k
      obtain ⟨L, q⟩ := ih.1.q
      have := mu_step st he q
      exact ⟨ih.1.step st, by omega⟩
  have := (key (mu s + 1)).2
  omega

theorem Post.exists (s : Sys J) : ∃ u, Post s u := by
  by_cases h : ∃ i : Nat, s.wrk[i]? = some .asleep
  · obtain ⟨i, hi⟩ := h; exact ⟨_, .wake i hi⟩
  · exact ⟨_, .nobody (by simpa using h)⟩

theorem Notify.exists (s : Sys J) : ∃ u, Notify s u := by
  by_cases h : ∃ (t : Nat) (n : List Nat), s.wt[t]? = some (.tasleep n)
  · obtain ⟨i, n, hi⟩ := h; exact ⟨_, .wake i n hi⟩
  · exact ⟨_, .nobody (by simpa using h)⟩

structure Quiet (s : Sys J) : Prop where
  rw : s.rw = none
  tc : s.tc = none
  wrk : ∀ (i : Nat) x, s.wrk[i]? = some x → x = .asleep ∨ x = .gone
  sub : ∀ (t : Nat) x, s.sub[t]? = some x → x = .idle
  wt : ∀ (t : Nat) x, s.wt[t]? = some x → x = .idle ∨ ∃ n, x = .tasleep n

theorem Stuck.quiet {s : Sys J} (h : Inv s) (st : Stuck s) : Quiet s := by
  obtain ⟨L, q⟩ := h.q
  have W : ∀ i u, ¬ Step (.wrk i) s u := fun i u => st _ u trivial
  have S : ∀ i u, ¬ Step (.sub i) s u := fun i u => st _ u trivial
  have T : ∀ i u, ¬ Step (.wt i) s u := fun i u => st _ u trivial
  have htc : s.tc = none := by
    cases hc : s.tc with
    | none => rfl
    | some c =>
      exfalso
      cases c with
      | wt t =>
        obtain ⟨pc, h1, h2⟩ := h.life.own_t t hc
        cases pc with
        | t0 n =>
          by_cases h0 : s.len = 0
          · exact T _ _ (.t0 h1 h0)
          · exact T _ _ (.t0_wait h1 h0)
        | t1 n =>
          by_cases h0 : s.working = 0
          · exact T _ _ (.t1 h1 h0)
          · exact T _ _ (.t1_wait h1 h0)
        | tw n => exact T _ _ (.tw h1)
        | tunl n => exact T _ _ (.tunl h1)
        | _ => simp [TSec] at h2
      | left i => exact W _ _ (.left (h.life.own_l i hc))
  have hrw : s.rw = none := by
    cases hc : s.rw with
    | none => rfl
    | some c =>
      exfalso
      cases c with
      | wrk i =>
        obtain ⟨pc, h1, h2⟩ := q.wown i hc
        have hq := q.wrk _ _ h1
        cases pc with
        | pread =>
          rcases Nat.lt_trichotomy s.len 1 with h0 | h0 | h0
          · exact W _ _ (.pread0 h1 (by omega))
          · exact W _ _ (.pread1 h1 h0)
          · exact W _ _ (.pread2 h1 h0)
        | p1a jp => exact W _ _ (.p1a h1)
        | p1b jp => exact W _ _ (.p1b h1)
        | p1c jp =>
          obtain ⟨_, hl, hj, hsh⟩ := hq
          have h0 : L[0]? = some L[0] := List.getElem?_eq_getElem (by omega)
          obtain ⟨c, hc, _⟩ := hsh.cells 0 _ h0
          rw [h0] at hj; subst hj
          exact W _ _ (.p1c h1 hc)
        | p2a jp =>
          obtain ⟨_, hl, hj, hsh⟩ := hq
          have h0 : L[0]? = some L[0] := List.getElem?_eq_getElem (by omega)
          obtain ⟨c, hc, _⟩ := hsh.cells 0 _ h0
          rw [h0] at hj; subst hj
          exact W _ _ (.p2a h1 hc)
        | p2b jp =>
          obtain ⟨_, hl, hj, hsh⟩ := hq
          have h0 : L[0]? = some L[0] := List.getElem?_eq_getElem (by omega)
          obtain ⟨c, hc, _⟩ := hsh.cells 0 _ h0
          rw [h0] at hj; subst hj
          exact W _ _ (.p2b h1 hc)
        | p2c jp id => obtain ⟨u, hu⟩ := Post.exists s; exact W _ _ (.p2c h1 hu)
        | punl jp id => exact W _ _ (.punl h1)
        | _ => exact h2.elim
      | sub t =>
        obtain ⟨pc, h1, h2⟩ := q.sown t hc
        have hq := q.sub _ _ h1
        cases pc with
        | s0 p => obtain ⟨_, ⟨c, hc, _⟩, _⟩ := hq; exact S _ _ (.s0 h1 hc)
        | s1 p =>
          by_cases h0 : s.len = 0
          · exact S _ _ (.s1_empty h1 h0)
          · have hl : s.len = L.length := q.base.len
            have h0 : L[L.length - 1]? = some L[L.length - 1] := List.getElem?_eq_getElem (by omega)
            obtain ⟨c, hc, _⟩ := hq.2.2.cells _ _ h0
            have hr := hq.2.2.rear
            rw [List.getLast?_eq_getElem?] at hr
            exact S _ _ (.s1 h1 (by omega) (hr.trans h0) hc)
        | s2 p => exact S _ _ (.s2 h1)
        | s3 p => obtain ⟨_, ⟨c, hc, _⟩, _⟩ := hq; exact S _ _ (.s3 h1 hc)
        | s4 id => obtain ⟨u, hu⟩ := Post.exists s; exact S _ _ (.s4 h1 hu)
        | s5 id => exact S _ _ (.s5 h1)
        | _ => exact h2.elim
  refine ⟨hrw, htc, ?_, ?_, ?_⟩
  · intro i x h1
    have hq := q.wrk _ _ h1
    have hsec : WSec x → False := fun hs => by
      have : s.rw = _ := WSec.owns hq hs
      rw [hrw] at this; simp at this
    cases x with
    | asleep => exact .inl rfl
    | gone => exact .inr rfl
    | boot => exact absurd (.boot h1 htc) (W _ _)
    | test =>
      cases hk : s.keep with
      | true => exact absurd (.test_go h1 hk) (W _ _)
      | false => exact absurd (.test_end h1 hk) (W _ _)
    | enter =>
      cases hk : s.v with
      | true => exact absurd (.take (.inl h1) hk) (W _ _)
      | false => exact absurd (.sleep (.inl h1) hk) (W _ _)
    | woken =>
      cases hk : s.v with
      | true => exact absurd (.take (.inr h1) hk) (W _ _)
      | false => exact absurd (.sleep (.inr h1) hk) (W _ _)
    | recheck =>
      cases hk : s.keep with
      | true => exact absurd (.recheck_go h1 hk) (W _ _)
      | false => exact absurd (.recheck_end h1 hk) (W _ _)
    | inc => exact absurd (.inc h1 htc) (W _ _)
    | plock => exact absurd (.plock h1 hrw) (W _ _)
    | call jp id =>
      cases jp with
      | none => exact absurd (.call_none h1) (W _ _)
      | some p => obtain ⟨c, hc, _⟩ := hq p rfl; exact absurd (.call h1 hc) (W _ _)
    | running p id => exact absurd (.ret h1) (W _ _)
    | free p id => obtain ⟨c, hc, _⟩ := hq p rfl; exact absurd (.free h1 hc) (W _ _)
    | dec =>
      by_cases h0 : s.working - 1 = 0
      · obtain ⟨u, hu⟩ := Notify.exists { s with working := s.working - 1 }
        exact absurd (.dec_last h1 htc h0 hu) (W _ _)
      · exact absurd (.dec h1 htc h0) (W _ _)
    | leave => exact absurd (.leave h1 htc) (W _ _)
    | left => exact absurd (.left h1) (W _ _)
    | ub => exact hq.elim
    | _ => exact (hsec trivial).elim
  · intro t x h1
    have hq := q.sub _ _ h1
    have hsec : SSec x → False := fun hs => by
      have : s.rw = _ := SSec.owns hq hs
      rw [hrw] at this; simp at this
    cases x with
    | idle => rfl
    | slock p => exact absurd (.slock h1 hrw) (S _ _)
    | ub => exact hq.elim
    | _ => exact (hsec trivial).elim
  · intro t x h1
    have hsec : TSec x = true → False := fun hs => by
      have := h.life.tcw _ _ h1 hs
      rw [htc] at this; simp at this
    cases x with
    | idle => exact .inl rfl
    | tasleep n => exact .inr ⟨n, rfl⟩
    | tlock n => exact absurd (.tlock h1 htc) (T _ _)
    | twoken n => exact absurd (.twoken h1 htc) (T _ _)
    | _ => exact (hsec rfl).elim

/-- nothing moves, the pool is not being destroyed and has a worker: everything is done -/
theorem Quiet.done {s : Sys J} (h : Inv s) (hq : Quiet s) (hk : s.keep = true) (hn : 0 < s.wrk.length) :
    s.len = 0 ∧ s.working = 0 ∧ ∀ id, id < s.added.length → id ∈ s.done := by
  obtain ⟨L, q⟩ := h.q
  have hs : ∀ (i : Nat) x, s.wrk[i]? = some x → x = .asleep := by
    intro i x hx
    rcases hq.wrk i x hx with h' | rfl
    · exact h'
    · have := h.life.out i _ hx rfl; rw [hk] at this; simp at this
  have h0 : s.wrk[0]? = some .asleep := by
    have := List.getElem?_eq_getElem hn
    rw [this, hs 0 _ this]
  have hw : s.working = 0 := by
    rw [h.working, cnt_zero]; intro i a ha; rw [hs i a ha]; rfl
  have hl : s.len = 0 := by
    rcases Nat.eq_zero_or_pos s.len with h' | h'
    · exact h'
    · exfalso
      rcases h.tok.tok hk h' with hv | ⟨i, pc, a, b⟩ | ⟨t, id, a⟩
      · rcases h.tok.wake hv with ⟨i, hi⟩ | hi
        · have := hs i _ hi; simp at this
        · exact hi 0 h0
      · rw [hs i pc a] at b; simp [carr] at b
      · have := hq.sub t _ a; simp at this
  refine ⟨hl, hw, ?_⟩
  intro id hid
  have a : s.len = L.length := q.base.len
  have b : L.length + s.dequeued.length = s.added.length := q.base.cnt
  exact idle_done h.jobs h.working hw id (by omega)

theorem Steps.trans {ok : Ev → Prop} {a b c : Sys J} (h1 : Steps ok a b) (h2 : Steps ok b c) : Steps ok a c := by
  induction h2 with
  | refl => exact h1
  | step _ x y ih => exact .step ih x y

theorem Steps.mono {ok ok' : Ev → Prop} (hk : ∀ e, ok e → ok' e) {a b : Sys J} (h1 : Steps ok a b) : Steps ok' a b := by
  induction h1 with
  | refl => exact .refl _
  | step _ x y ih => exact .step ih (hk _ x) y

theorem Steps.keeps {ok : Ev → Prop} {P : Sys J → Prop} (hP : ∀ e s u, ok e → Step e s u → P s → P u) {a b : Sys J}
    (h : Steps ok a b) (ha : P a) : P b := by
  induction h with
  | refl => exact ha
  | step _ x y ih => exact hP _ _ _ x y ih

/-- internal events do not move the destroyer and do not change `keep` -/
theorem internal_dst {e : Ev} {s u : Sys J} (he : e.Internal) (st : Step e s u) : u.dst = s.dst ∧ u.keep = s.keep := by
  cases st with
  | p2c _ hp => obtain ⟨W, rfl, _⟩ := hp.eq; exact ⟨rfl, rfl⟩
  | s4 _ hp => obtain ⟨W, rfl, _⟩ := hp.eq; exact ⟨rfl, rfl⟩
  | dec_last _ _ _ hn => obtain ⟨W, rfl, _⟩ := hn.eq; exact ⟨rfl, rfl⟩
  | init => exact he.elim
  | spur_w => exact he.elim
  | spur_t => exact he.elim
  | add => exact he.elim
  | wait => exact he.elim
  | destroy => exact he.elim
  | d_more => exact he.elim
  | d_post => exact he.elim
  | d_free => exact he.elim
  | _ => exact ⟨rfl, rfl⟩

theorem alive_le {e : Ev} {s u : Sys J} (he : e.Internal) (hr : ∀ i : Nat, s.wrk[i]? ≠ some .boot) (st : Step e s u) :
    u.alive ≤ s.alive := by
  cases st with
  | boot e1 => exact absurd e1 (hr _)
  | p2c _ hp => obtain ⟨W, rfl, _⟩ := hp.eq; exact Nat.le_refl _
  | s4 _ hp => obtain ⟨W, rfl, _⟩ := hp.eq; exact Nat.le_refl _
  | dec_last _ _ _ hn => obtain ⟨W, rfl, _⟩ := hn.eq; exact Nat.le_refl _
  | leave => simp [Sys.atW]
  | _ => exact Nat.le_refl _

theorem can_destroy {s : Sys J} (h : Inv s) (hd : s.dst = .loop) : ∃ u, Steps Ev.Own s u ∧ u.dst = .freed := by
  generalize hn : s.alive = n
  induction n using Nat.strongRecOn generalizing s with
  | _ n ih =>
    obtain ⟨w, hw, hst⟩ := run_to_stuck h
    have hwi : Inv w := Inv.steps hw h
    have hwd : w.dst = .loop := Steps.keeps (P := fun x => x.dst = .loop) (fun e a b he st hp => (internal_dst he st).1.trans hp) hw hd
    have hal : Inv w ∧ w.dst ≠ .no ∧ w.alive ≤ s.alive := by
      refine Steps.keeps (P := fun x => Inv x ∧ x.dst ≠ .no ∧ x.alive ≤ s.alive) ?_ hw ⟨h, by simp [hd], Nat.le_refl _⟩
      intro e a b he st ⟨p1, p2, p3⟩
      refine ⟨p1.step st, by rw [(internal_dst he st).1]; exact p2, Nat.le_trans (alive_le he (p1.life.ready (p1.life.dready p2)) st) p3⟩
    have hwo : Steps Ev.Own s w := hw.mono (fun e he => by cases e <;> trivial)
    by_cases h0 : w.alive = 0
    · exact ⟨_, .step hwo (e := .dst) trivial (.d_free hwd h0), rfl⟩
    · have hq := Stuck.quiet hwi hst
      have hkeep : w.keep = false := hwi.life.keep.2 (by simp [hwd])
      -- a worker is asleep
      have : ∃ i : Nat, w.wrk[i]? = some .asleep := by
        rw [hwi.alive] at h0
        obtain ⟨i, a, ha, hp⟩ := cnt_pos (Nat.pos_of_ne_zero h0)
        rcases hq.wrk i a ha with rfl | rfl
        · exact ⟨i, ha⟩
        · simp [liv] at hp
      obtain ⟨i, hi⟩ := this
      let w1 : Sys J := { w with dst := .post }
      have s1 : Step .dst w w1 := .d_more hwd h0
      let w2 : Sys J := { w1 with dst := .loop, v := true, wrk := w1.wrk.map fun x => if x = .asleep then .woken else x }
      have s2 : Step .dst w1 w2 := .d_post rfl
      have hi2 : w2.wrk[i]? = some .woken := by
        show (w.wrk.map _)[i]? = _
        simp [List.getElem?_map, hi]
      let w3 : Sys J := { w2 with v := false }.atW i .recheck
      have s3 : Step (.wrk i) w2 w3 := .take (.inr hi2) rfl
      have hi3 : w3.wrk[i]? = some .recheck := set_self hi2
      let w4 : Sys J := w3.atW i .leave
      have s4 : Step (.wrk i) w3 w4 := .recheck_end hi3 hkeep
      have hi4 : w4.wrk[i]? = some .leave := set_self hi3
      let w5 : Sys J := { w4 with alive := w4.alive - 1, tc := some (.left i) }.atW i .left
      have s5 : Step (.wrk i) w4 w5 := .leave hi4 hq.tc
      have hi5 : w5.wrk[i]? = some .left := set_self hi4
      have s6 : Step (.wrk i) w5 ({ w5 with tc := none }.atW i .gone) := .left hi5
      have all := Steps.step (ok := Ev.Own) (.step (.step (.step (.step (.step hwo (e := .dst) trivial s1) (e := .dst) trivial s2) (e := .wrk i) trivial s3) (e := .wrk i) trivial s4) (e := .wrk i) trivial s5) (e := .wrk i) trivial s6
      have hinv := Inv.steps all h
      obtain ⟨u, hu, hf⟩ := ih (w.alive - 1) (by have := hal.2.2; omega) hinv rfl rfl
      exact ⟨u, all.trans hu, hf⟩

end Verif.Thpool
