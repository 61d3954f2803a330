import Verif.XlogMt.Inv

namespace Verif.XlogMt
open Spec

/-- All stores of an acceptable configuring call make the fields agree with the new configuration. -/
theorem stores_ok {cfg : Cfg} {n : Conf} (m : Main cfg n) {c : Call} {todo : List Micro} (h : stores c = some todo) :
    ∃ n' f x r, accept n c = some n' ∧ todo = .store true f x :: r ∧ Main (applyStores r (cfg.put f x)) n' ∧
      Open (cfg.put f x) n' ∧
      ∀ m ∈ r, ∃ f x, m = .store false f x ∧ f ≠ .min ∧ f ≠ .target ∧ f ≠ .format ∧ f ≠ .flush := by
  obtain ⟨h1, h2, h3, h4, h5, h6, h7, h8, h9, h10, h11, h12, h13, h14⟩ := m
  cases c with
  | autoLevelUp l =>
    cases h
    refine ⟨_, _, _, _, rfl, rfl, ?_, ?_, ?_⟩ <;> (try constructor) <;> simp_all [applyStores, Cfg.put]
  | defaultTag t =>
    cases t with
    | none => cases h
    | some t =>
      cases h
      refine ⟨_, _, _, _, rfl, rfl, ?_, ?_, ?_⟩ <;> (try constructor) <;> simp_all [applyStores, Cfg.put]
  | timezone z =>
    simp only [stores] at h
    split at h
    · cases h
    · cases h
      refine ⟨_, _, _, _, if_pos (by omega), rfl, ?_, ?_, ?_⟩ <;> (try constructor) <;> simp_all [applyStores, Cfg.put]
  | callback f d =>
    cases h
    refine ⟨_, _, _, _, rfl, rfl, ?_, ?_, ?_⟩ <;> (try constructor) <;> simp_all [applyStores, Cfg.put]
  | target t =>
    simp only [stores] at h
    split at h
    · cases h
    · cases h
      have e : ((t.toNat : Nat) : Int) = t := by omega
      refine ⟨_, _, _, _, if_pos (by omega), rfl, ?_, ?_, ?_⟩ <;> (try constructor) <;> simp_all [applyStores, Cfg.put]
  | minLevel l =>
    simp only [stores] at h
    split at h
    · cases h
    · cases h
      have e : ((l.toNat : Nat) : Int) = l := by omega
      refine ⟨_, _, _, _, if_pos (by omega), rfl, ?_, ?_, ?_⟩ <;> (try constructor) <;> simp_all [applyStores, Cfg.put]
  | format f =>
    simp only [stores] at h
    split at h
    · cases h
    · cases h
      have e : ((f.toNat : Nat) : Int) = f := by omega
      refine ⟨_, _, _, _, if_pos (by omega), rfl, ?_, ?_, ?_⟩ <;> (try constructor) <;> simp_all [applyStores, Cfg.put]
  | flushMode k =>
    simp only [stores] at h
    split at h
    · cases h
    · cases h
      have e : ((k.toNat : Nat) : Int) = k := by omega
      refine ⟨_, _, _, _, if_pos (by omega), rfl, ?_, ?_, ?_⟩ <;> (try constructor) <;> simp_all [applyStores, Cfg.put]
  | getTarget => cases h
  | getMinLevel => cases h
  | getFormat => cases h
  | getFlushMode => cases h
  | print l g i => cases h

/-- Refusal in the model is refusal in the specification. -/
theorem refused {c : Call} (h : stores c = none) (n : Conf) : accept n c = none := by
  cases c with
  | defaultTag t => cases t <;> simp_all [stores, accept]
  | timezone | target | minLevel | format | flushMode =>
    simp only [stores, accept] at h ⊢
    split at h
    · rw [if_neg (by omega)]
    · cases h
  | _ => simp_all [stores, accept]

theorem accepted {c : Call} {r : List Micro} (h : stores c = some r) (n : Conf) : (accept n c).isSome = true := by
  cases c with
  | defaultTag t => cases t <;> simp_all [stores, accept]
  | timezone | target | minLevel | format | flushMode =>
    simp only [stores, accept] at h ⊢
    split at h
    · cases h
    · rw [if_pos (by omega)]; rfl
  | _ => simp_all [stores, accept]

theorem not_inside_settled {S : St} (h : ∀ u, ¬ (S.th u).Inside) : ∀ t c b, S.th t ≠ .setting c b := by
  intro t c b e
  exact h t (by rw [e]; exact trivial)

/-- A call that begins. -/
theorem start_rel (cfg : Cfg) (n : Conf) (c : Call) : TRel cfg n (start c) (.opened c [n]) := by
  cases c with
  | print l g i => simp [start, TRel]
  | getTarget | getMinLevel | getFormat | getFlushMode => simp [start, TRel, getField]
  | autoLevelUp | defaultTag | timezone | callback | target | minLevel | format | flushMode =>
    simp only [start, getField]
    split
    · rename_i r hr
      refine ⟨rfl, by simp, fun m => ?_⟩
      exact accepted hr m
    · rename_i hr
      refine .inr (.inr ⟨fun m => refused hr m, fun m => rfl, fun l g i => by simp⟩)

theorem start_not (c : Call) : (∀ d, start c ≠ .lock d) ∧ start c ≠ .unlock := by
  constructor
  · intro d h
    unfold start at h
    grind
  · intro h
    unfold start at h
    grind

/-- A micro step of a logging call. -/
theorem tails_print {todo : List Micro} {m : Micro} (h : m :: todo <:+ printProg) :
    todo <:+ printProg ∧ (∀ b f x, m ≠ .store b f x) ∧ (.fmt ∈ todo → ∃ f, m = .load f) ∧ (m = .callback → todo = []) := by
  refine ⟨(List.suffix_cons m todo).trans h, ?_⟩
  simp only [printProg, List.suffix_cons_iff, List.cons.injEq, List.suffix_nil, reduceCtorEq] at h
  rcases h with h | h | h | h | h | h | h | h | h | h | h | h | h | h | h | h | h
  all_goals first
    | (obtain ⟨rfl, rfl⟩ := h; simp)
    | exact h.elim

/-- The end of the part under the lock. -/
theorem leave_inv {s s' : Sys} {S : St} {t0 t : Nat} (h : Inv s S t0) (hin : (S.th t).Inside)
    (hcfg : s'.cfg = s.cfg) (hpc : ∀ u, s'.pc u = if u = t then .done 0 else s.pc u)
    (hmu : s'.mutex = s.mutex ∧ s.mutex = none ∨ s.mutex = some (some t) ∧ s'.mutex = some none)
    (hs : (∃ c b, S.th t = .setting c b) → Main s.cfg S.conf) : Inv s' (S.set t .left) t0 := by
  refine ⟨?_, by rw [hcfg]; exact h.op, ?_, ?_⟩
  · intro u
    rw [hcfg, hpc]
    by_cases e : u = t
    · simp [St.set, e, TRel]
    · simpa [St.set, e] using h.rel u
  · intro hn
    rw [hcfg]
    by_cases hset : ∃ c b, S.th t = .setting c b
    · exact hs hset
    · refine h.settled fun u c b hu => ?_
      by_cases e : u = t
      · subst e; exact hset ⟨c, b, hu⟩
      · have := hn u c b; simp [St.set, e] at this; exact this hu
  · rcases hmu with ⟨m1, m2⟩ | ⟨m1, m2⟩
    · rcases h.excl with ⟨o, ho, _⟩ | ⟨_, hi, hl, hun⟩
      · rw [m2] at ho; cases ho
      · refine .inr ⟨by rw [m1, m2], fun u hu => ?_, fun u c => ?_, fun u => ?_⟩
        · have : t = t0 := by
            by_cases e : t = t0
            · exact e
            · rw [hi t e] at hin; exact hin.elim
          have : u ≠ t := by rw [this]; exact hu
          simpa [St.set, this] using hi u hu
        · rw [hpc]; split
          · simp
          · exact hl u c
        · rw [hpc]; split
          · simp
          · exact hun u
    · refine .inl ⟨none, m2, fun u => ?_⟩
      by_cases e : u = t
      · simp [St.set, e, TS.Inside]
      · simp only [St.set, e, if_false, reduceCtorEq, iff_false]
        intro hu
        exact e (h.excl.uniq hu hin)

/-- The beginning of the part under the lock. -/
theorem enter_inv {s s' : Sys} {S : St} {t0 t : Nat} (h : Inv s S t0) {c : Call} {seen : List Conf}
    (hS : S.th t = .opened c seen) (hok : EnterOk S.conf seen c) (hst : (∀ l g i, c ≠ .print l g i) → ∃ r, stores c = some r)
    (hno : ∀ u, ¬ (S.th u).Inside)
    (hcfg : s'.cfg = s.cfg) (hpc : ∀ u, s'.pc u = if u = t then .body c (prog c) (fun _ => 0) else s.pc u)
    (hmu : s'.mutex = none ∧ s.mutex = none ∧ t = t0 ∨ s.mutex = some none ∧ s'.mutex = some (some t)) :
    ∃ S', Step S (.enter t) S' ∧ Inv s' S' t0 := by
  have main := h.settled (not_inside_settled hno)
  have key : ∀ x : TS, x.Inside → TRel s.cfg S.conf (.body c (prog c) (fun _ => 0)) x → Inv s' (S.set t x) t0 := by
    intro x hx hr
    refine ⟨?_, by rw [hcfg]; exact h.op, fun _ => by rw [hcfg]; exact main, ?_⟩
    · intro u
      rw [hcfg, hpc]
      by_cases e : u = t
      · simpa [St.set, e] using hr
      · simpa [St.set, e] using h.rel u
    · rcases hmu with ⟨m1, m2, m3⟩ | ⟨m1, m2⟩
      · rcases h.excl with ⟨o, ho, _⟩ | ⟨_, hi, hl, hun⟩
        · rw [m2] at ho; cases ho
        · refine .inr ⟨m1, fun u hu => ?_, fun u c => ?_, fun u => ?_⟩
          · have : u ≠ t := by rw [m3]; exact hu
            simpa [St.set, this] using hi u hu
          · rw [hpc]; split
            · simp
            · exact hl u c
          · rw [hpc]; split
            · simp
            · exact hun u
      · refine .inl ⟨some t, m2, fun u => ?_⟩
        by_cases e : u = t
        · simpa [St.set, e] using hx
        · simp only [St.set, e, if_false, Option.some.injEq]
          constructor
          · intro hu; exact (hno u hu).elim
          · intro hu; exact (e hu.symm).elim
  by_cases hp : ∃ l g i, c = .print l g i
  · obtain ⟨l, g, i, rfl⟩ := hp
    obtain ⟨k1, k2, k3, k4⟩ := hok
    refine ⟨_, .enterPrint hno hS k1 k2 k3 k4, key _ trivial ?_⟩
    exact ⟨rfl, List.suffix_refl _, fun _ => print_finish main l g i _, (by intro e; cases e), fun _ => rfl⟩
  · have hnp : ∀ l g i, c ≠ .print l g i := fun l g i e => hp ⟨l, g, i, e⟩
    obtain ⟨r, hr⟩ := hst hnp
    have hprog : prog c = r := by
      cases c <;> first | exact absurd rfl (hnp _ _ _) | simp [prog, hr]
    refine ⟨_, .enterSet hno hS (accepted hr _), key _ trivial ?_⟩
    exact ⟨rfl, by rw [hprog]; exact hr, main⟩

/-- Storing a value. -/
theorem store_inv {s : Sys} {S : St} {t0 t : Nat} (h : Inv s S t0) (hin : (S.th t).Inside) {f : Field} {x : Int} {p : Pc} {n : Conf} {ts : TS}
    (hts : ts.Inside) (hset : ∃ c b, ts = .setting c b)
    (hp : ∀ v todo c, p ≠ .lock c ∧ p ≠ .unlock ∧ p ≠ .inCb c todo v) (hr : TRel (s.cfg.put f x) n p ts) (ho : Open (s.cfg.put f x) n) :
    Inv ({ s with cfg := s.cfg.put f x }.go t p) { conf := n, th := fun u => if u = t then ts else (S.th u).notice n } t0 := by
  have others : ∀ u, u ≠ t → ¬ (S.th u).Inside := fun u e hu => e (h.excl.uniq hu hin)
  have nin : ∀ u, u ≠ t → (((S.th u).notice n).Inside ↔ (S.th u).Inside) := by
    intro u _; cases S.th u <;> simp [TS.notice, TS.Inside]
  refine ⟨?_, ho, ?_, ?_⟩
  · intro u
    by_cases e : u = t
    · simpa [Sys.go, e] using hr
    · have hru := h.rel u
      have hu := others u e
      simp only [Sys.go, e, if_false]
      revert hru hu
      generalize S.th u = y
      intro hru hu
      cases y with
      | idle => revert hru; cases s.pc u <;> simp [TRel, TS.notice]
      | setting => exact (hu trivial).elim
      | printing => exact (hu trivial).elim
      | left => revert hru; cases s.pc u <;> simp [TRel, TS.notice]
      | opened c seen =>
        simp only [TS.notice]
        revert hru
        cases s.pc u with
        | want d =>
          simp only [TRel]
          rintro ⟨rfl, k1, k2⟩
          refine ⟨rfl, by simp, fun m => ?_⟩
          have := k2 m
          revert this
          cases c <;> simp [EnterOk]
          intro a a1 b b1 b2 b3 b4 b5 b6 b7
          exact ⟨.inr ⟨a, a1, b⟩, .inr ⟨b1, b2, b3⟩, .inr ⟨b4, b5, b6⟩, b7⟩
        | lock d =>
          simp only [TRel]
          rintro ⟨rfl, k1, k2⟩
          refine ⟨rfl, by simp, fun m => ?_⟩
          have := k2 m
          revert this
          cases c <;> simp [EnterOk]
          intro a a1 b b1 b2 b3 b4 b5 b6 b7
          exact ⟨.inr ⟨a, a1, b⟩, .inr ⟨b1, b2, b3⟩, .inr ⟨b4, b5, b6⟩, b7⟩
        | done v => simp only [TRel]; grind
        | chk1 | chk2 | chk3 | get => simp only [TRel]; grind
        | _ => simp [TRel]
  · intro hn
    obtain ⟨c, b, e⟩ := hset
    exact absurd (by simpa using e) (hn t c b)
  · rcases h.excl with ⟨o, ho, hi⟩ | ⟨hm, hi, hl, hun⟩
    · refine .inl ⟨o, ho, fun u => ?_⟩
      by_cases e : u = t
      · subst e
        have := hi u
        simp [hts, hin] at this ⊢
        exact this
      · simp only [e, if_false]
        rw [nin u e]
        exact hi u
    · have ht : t = t0 := by
        by_cases e : t = t0
        · exact e
        · rw [hi t e] at hin; exact hin.elim
      refine .inr ⟨hm, fun u hu => ?_, fun u c => ?_, fun u => ?_⟩
      · have : u ≠ t := by rw [ht]; exact hu
        simp [this, hi u hu, TS.notice]
      · by_cases e : u = t
        · simpa [Sys.go, e] using (hp (fun _ => 0) [] c).1
        · simpa [Sys.go, e] using hl u c
      · by_cases e : u = t
        · simpa [Sys.go, e] using (hp (fun _ => 0) [] .getTarget).2.1
        · simpa [Sys.go, e] using hun u

theorem enterOk_stores {n : Conf} {seen : List Conf} {c : Call} (h : EnterOk n seen c) (hn : ∀ l g i, c ≠ .print l g i) :
    ∃ r, stores c = some r := by
  cases hs : stores c with
  | some r => exact ⟨r, rfl⟩
  | none =>
    have := refused hs n
    cases c <;> first | exact absurd rfl (hn _ _ _) | (simp [EnterOk, this] at h)

theorem run1 {S S' : St} {o : Obs} (h : Step S o S') : Run S [o] S' := .cons h .nil

theorem prefix_finish (cfg : Cfg) (c : Call) : ∀ (todo : List Micro) (v : Cfg) (o : List Out), o <+: finish cfg c todo v o
  | [], _, _ => List.prefix_refl _
  | m :: r, v, o => by
    cases m with
    | load f => exact prefix_finish cfg c r _ o
    | store | fmt | console | flush | callback => exact (List.prefix_append o _).trans (prefix_finish cfg c r v _)

/-- Micro steps. -/
theorem exec_inv {s s' : Sys} {S : St} {t0 t : Nat} (h : Inv s S t0) {c : Call} {m : Micro} {todo : List Micro} {v : Cfg} {obs : List Obs}
    (hpc : s.pc t = .body c (m :: todo) v) (he : exec s t c m todo v = (s', obs)) : ∃ S', Run S obs S' ∧ Inv s' S' t0 := by
  have hr := h.rel t
  rw [hpc] at hr
  cases hS : S.th t with
  | idle => rw [hS] at hr; simp [TRel] at hr
  | opened => rw [hS] at hr; simp [TRel] at hr
  | left => rw [hS] at hr; simp [TRel] at hr
  | setting c' b =>
    rw [hS] at hr
    have hin : (S.th t).Inside := by rw [hS]; trivial
    cases b with
    | false =>
      obtain ⟨rfl, hst, main⟩ := hr
      obtain ⟨n', f, x, r, ha, htd, m', o', hr'⟩ := stores_ok main hst
      cases htd
      simp only [exec] at he
      cases he
      refine ⟨_, run1 (.commit hS ha), ?_⟩
      refine store_inv h hin (ts := .setting c' true) trivial ⟨_, _, rfl⟩ ?_ ?_ o'
      · intro v todo c; simp
      · exact ⟨rfl, m', hr'⟩
    | true =>
      obtain ⟨rfl, m', hall⟩ := hr
      obtain ⟨f, x, rfl, h1, h2, h3, h4⟩ := hall m (by simp)
      simp only [exec] at he
      cases he
      have ho : Open (s.cfg.put f x) S.conf := by
        obtain ⟨o1, o2, o3, o4⟩ := h.op
        constructor <;> simp [Cfg.put, *, h1.symm, h2.symm, h3.symm, h4.symm]
      have key := store_inv (p := .body c' todo v) h hin (ts := .setting c' true) trivial ⟨_, _, rfl⟩ (by intro v todo c; simp)
        (⟨rfl, m', fun m hm => hall m (by simp [hm])⟩ : TRel (s.cfg.put f x) S.conf (.body c' todo v) (.setting c' true)) ho
      refine ⟨S, .nil, ?_⟩
      obtain ⟨k1, k2, k3, k4⟩ := key
      have others : ∀ u, u ≠ t → ¬ (S.th u).Inside := fun u e hu => e (h.excl.uniq hu hin)
      refine ⟨fun u => ?_, k2, fun hn => absurd hS (hn t c' true), ?_⟩
      · by_cases e : u = t
        · simp only [Sys.go, e, if_true]
          rw [hS]
          exact ⟨rfl, m', fun m hm => hall m (by simp [hm])⟩
        · have hru := h.rel u
          have hu := others u e
          simp only [Sys.go, e, if_false]
          revert hru hu
          generalize S.th u = y
          intro hru hu
          cases y with
          | idle => revert hru; cases s.pc u <;> simp [TRel]
          | setting => exact (hu trivial).elim
          | printing => exact (hu trivial).elim
          | left => revert hru; cases s.pc u <;> simp [TRel]
          | opened c seen => revert hru; cases s.pc u <;> simp [TRel]
      · rcases h.excl with ⟨o, ho, hi⟩ | ⟨hm, hi, hl, hun⟩
        · exact .inl ⟨o, ho, hi⟩
        · refine .inr ⟨hm, hi, fun u c => ?_, fun u => ?_⟩
          · by_cases e : u = t
            · simp [Sys.go, e]
            · simpa [Sys.go, e] using hl u c
          · by_cases e : u = t
            · simp [Sys.go, e]
            · simpa [Sys.go, e] using hun u
  | printing l g i outs fl =>
    have hr0 := hr
    rw [hS] at hr
    have hin : (S.th t).Inside := by rw [hS]; trivial
    obtain ⟨rfl, hsuf, hfin, hfl, hfm⟩ := hr
    have hfl' : fl = false := by
      cases fl
      · rfl
      · cases hfl rfl
    subst hfl'
    have hfin := hfin rfl
    obtain ⟨t1, t2, t3, t4⟩ := tails_print hsuf
    have same : ∀ (v' : Cfg), finish s.cfg (.print l g i) todo v' outs = expected S.conf l g i →
        Inv (s.go t (.body (.print l g i) todo v')) S t0 := by
      intro v' hf
      have : S = S.set t (.printing l g i outs false) := by
        obtain ⟨n, th⟩ := S
        simp only [St.set, St.mk.injEq, true_and]
        funext u
        by_cases e : u = t
        · simp only [e, if_true]; exact hS
        · simp [e]
      rw [this]
      refine go_inv h ?_ (by simp [hS, TS.Inside]) (.inl hin) (by simp) (by simp [hS])
      exact ⟨rfl, t1, fun _ => hf, by simp, fun hm => hfm (by simp [hm])⟩
    have emit : ∀ o, finish s.cfg (.print l g i) todo v (outs ++ [o]) = expected S.conf l g i → .fmt ∉ todo →
        Step S (.out t o) (S.set t (.printing l g i (outs ++ [o]) false)) ∧
        Inv (s.go t (.body (.print l g i) todo v)) (S.set t (.printing l g i (outs ++ [o]) false)) t0 := by
      intro o hf hnf
      refine ⟨.out hS ?_, ?_⟩
      · rw [← hf]; exact prefix_finish _ _ _ _ _
      · refine go_inv h ?_ (by simp [hS, TS.Inside]) (.inl hin) (by simp) (by simp [hS])
        exact ⟨rfl, t1, fun _ => hf, by simp, fun hm => absurd hm hnf⟩
    cases m with
    | store b f x => exact absurd rfl (t2 b f x)
    | load f =>
      simp only [exec] at he
      cases he
      exact ⟨S, .nil, same _ hfin⟩
    | fmt =>
      simp only [exec, output, List.map_nil] at he
      cases he
      refine ⟨S, .nil, same _ ?_⟩
      simpa [finish, output] using hfin
    | console =>
      have hnf : .fmt ∉ todo := fun hm => by obtain ⟨f, hf⟩ := t3 hm; cases hf
      simp only [exec, output] at he
      by_cases hc : v .console ≠ 0
      · rw [if_pos hc] at he
        cases he
        obtain ⟨a, b⟩ := emit (.console i (lookOf v l g)) (by simpa [finish, output, hc] using hfin) hnf
        exact ⟨_, run1 a, b⟩
      · rw [if_neg hc] at he
        cases he
        refine ⟨S, .nil, same _ ?_⟩
        simpa [finish, output, hc] using hfin
    | flush =>
      have hnf : .fmt ∉ todo := fun hm => by obtain ⟨f, hf⟩ := t3 hm; cases hf
      simp only [exec, output] at he
      by_cases hc : v .console ≠ 0 ∧ v .flush ≠ 0
      · rw [if_pos hc] at he
        cases he
        obtain ⟨a, b⟩ := emit .flush (by simpa [finish, output, hc] using hfin) hnf
        exact ⟨_, run1 a, b⟩
      · rw [if_neg hc] at he
        cases he
        refine ⟨S, .nil, same _ ?_⟩
        simpa only [finish, output, if_neg hc, List.append_nil] using hfin
    | callback =>
      have hnf : .fmt ∉ todo := fun hm => by obtain ⟨f, hf⟩ := t3 hm; cases hf
      simp only [exec, output] at he
      by_cases hc : v .usercb ≠ 0 ∧ v .cbFn ≠ 0
      · rw [if_pos hc] at he
        cases he
        have hf : finish s.cfg (.print l g i) todo v (outs ++ [.callback (v .cbFn).toNat (v .cbData).toNat i (lookOf v l g)]) = expected S.conf l g i := by
          simpa only [finish, output, if_pos hc] using hfin
        obtain ⟨a, b⟩ := emit _ hf hnf
        refine ⟨_, run1 a, ?_⟩
        refine go_inv h ?_ (by simp [hS, TS.Inside]) (.inl hin) (by simp) (by simp [hS])
        exact ⟨rfl, rfl, t1, hf, hnf, _, _, _, _, _, rfl⟩
      · rw [if_neg hc] at he
        cases he
        refine ⟨S, .nil, same _ ?_⟩
        simpa only [finish, output, if_neg hc, List.append_nil] using hfin

/-- Every step is allowed by the specification. -/
theorem step_inv {s s' : Sys} {S : St} {t0 : Nat} (h : Inv s S t0) {e : Ev} {obs : List Obs} (hi : e.inner = true)
    (ht : s.mutex = none → e.thread = t0) (he : step s e = some (s', obs)) : ∃ S', Run S obs S' ∧ Inv s' S' t0 := by
  cases e with
  | globalInit => cases hi
  | globalCleanup => cases hi
  | call t c =>
    simp only [step] at he
    cases hp : s.pc t with
    | idle =>
      rw [hp] at he
      cases he
      have hr := h.rel t
      rw [hp] at hr
      cases hS : S.th t with
      | idle =>
        refine ⟨_, run1 (.call hS), ?_⟩
        refine go_inv h (start_rel _ _ c) (by simp [hS, TS.Inside]) ?_ (fun e => absurd e (start_not c).2) (by simp [hS])
        by_cases hm : s.mutex = none
        · exact .inr (.inr ⟨ht hm, (start_not c).1, (start_not c).2⟩)
        · exact .inr (.inl hm)
      | _ => rw [hS] at hr; simp [TRel] at hr
    | _ => rw [hp] at he; cases he
  | fail t =>
    simp only [step] at he
    cases hp : s.pc t with
    | body c todo v =>
      rw [hp] at he
      cases todo with
      | nil => cases he
      | cons m todo =>
        cases m with
        | fmt =>
          cases he
          have hr := h.rel t
          rw [hp] at hr
          cases hS : S.th t with
          | idle => rw [hS] at hr; simp [TRel] at hr
          | opened => rw [hS] at hr; simp [TRel] at hr
          | left => rw [hS] at hr; simp [TRel] at hr
          | setting c' b =>
            rw [hS] at hr
            cases b with
            | false =>
              obtain ⟨_, k1, k2⟩ := hr
              obtain ⟨_, _, _, _, _, k, _⟩ := stores_ok k2 k1
              cases k
            | true =>
              obtain ⟨_, _, k⟩ := hr
              obtain ⟨_, _, k, _⟩ := k .fmt (by simp)
              cases k
          | printing l g i outs fl =>
            rw [hS] at hr
            obtain ⟨rfl, _, _, k1, k2⟩ := hr
            have e1 : outs = [] := k2 (by simp)
            have e2 : fl = false := by
              cases fl
              · rfl
              · cases k1 rfl
            subst e1; subst e2
            refine ⟨_, run1 (.failed hS), ?_⟩
            refine go_inv h ?_ (by simp [hS, TS.Inside]) (.inl (by rw [hS]; trivial)) (by simp) (by simp [hS])
            exact ⟨rfl, List.nil_suffix, by simp, by simp, by simp⟩
        | _ => cases he
    | _ => rw [hp] at he; cases he
  | nest t c =>
    simp only [step] at he
    cases hp : s.pc t with
    | inCb c' todo v =>
      cases hm : s.mutex with
      | none => rw [hp, hm] at he; cases he
      | some o =>
        rw [hp, hm] at he
        have hr := h.rel t
        rw [hp] at hr
        cases hS : S.th t with
        | printing l g i outs fl =>
          rw [hS] at hr
          obtain ⟨rfl, rfl, k1, k2, k3, o', fn, d, j, k, rfl⟩ := hr
          simp only [Option.some.injEq, Prod.mk.injEq] at he
          obtain ⟨rfl, rfl⟩ := he
          refine ⟨S, run1 (.nested hS), ?_⟩
          split
          · have : S = S.set t (.printing l g i (o' ++ [.callback fn d j k]) false) := by
              obtain ⟨n, th⟩ := S
              simp only [St.set, St.mk.injEq, true_and]
              funext u
              by_cases e : u = t
              · simp only [e, if_true]; exact hS
              · simp [e]
            rw [this]
            exact go_inv h trivial (by simp [hS, TS.Inside]) (.inl (by rw [hS]; trivial)) (by simp) (by simp [hS])
          · exact h
        | _ => rw [hS] at hr; simp [TRel] at hr
    | _ => rw [hp] at he; cases he
  | cbRet t =>
    simp only [step] at he
    cases hp : s.pc t with
    | inCb c' todo v =>
      rw [hp] at he
      cases he
      have hr := h.rel t
      rw [hp] at hr
      cases hS : S.th t with
      | printing l g i outs fl =>
        rw [hS] at hr
        obtain ⟨rfl, rfl, k1, k2, k3, _⟩ := hr
        refine ⟨S, .nil, ?_⟩
        have : S = S.set t (.printing l g i outs false) := by
          obtain ⟨n, th⟩ := S
          simp only [St.set, St.mk.injEq, true_and]
          funext u
          by_cases e : u = t
          · simp only [e, if_true]; exact hS
          · simp [e]
        rw [this]
        refine go_inv h ?_ (by simp [hS, TS.Inside]) (.inl (by rw [hS]; trivial)) (by simp) (by simp [hS])
        exact ⟨rfl, k1, fun _ => k2, by simp, fun hm => absurd hm k3⟩
      | _ => rw [hS] at hr; simp [TRel] at hr
    | _ => rw [hp] at he; cases he
  | act t =>
    simp only [step] at he
    unfold act at he
    have hr := h.rel t
    have ht' : s.mutex = none → t = t0 := ht
    have openT : ∀ {c : Call} {seen : List Conf} {p : Pc}, S.th t = .opened c seen → TRel s.cfg S.conf p (.opened c seen) →
        ((∃ c, p = .lock c) → s.mutex ≠ none) → Inv (s.go t p) S t0 := by
      intro c seen p hS hrel hl
      have : S = S.set t (.opened c seen) := by
        obtain ⟨n, th⟩ := S
        simp only [St.set, St.mk.injEq, true_and]
        funext u
        by_cases e : u = t
        · simp only [e, if_true]; exact hS
        · simp [e]
      rw [this]
      refine go_inv h hrel (by simp [hS, TS.Inside]) ?_ ?_ (by simp [hS])
      · by_cases hm : s.mutex = none
        · refine .inr (.inr ⟨ht' hm, fun c e => hl ⟨c, e⟩ hm, fun e => ?_⟩)
          rw [e] at hrel; simp [TRel] at hrel
        · exact .inr (.inl hm)
      · intro e; rw [e] at hrel; simp [TRel] at hrel
    cases hp : s.pc t with
    | idle => rw [hp] at he; cases he
    | inCb => rw [hp] at he; cases he
    | dead => rw [hp] at he; cases he
    | chk1 l g i =>
      rw [hp] at he hr
      cases hS : S.th t with
      | opened c seen =>
        rw [hS] at hr
        obtain ⟨rfl, hn⟩ := hr
        simp only [Option.some.injEq, Prod.mk.injEq] at he
        obtain ⟨rfl, rfl⟩ := he
        refine ⟨S, .nil, ?_⟩
        have ho := h.op.target
        split
        · exact openT hS ⟨rfl, hn, _, hn, by omega⟩ (by simp)
        · exact openT hS (.inl ⟨_, _, _, rfl, _, hn, fun k => by have := k.1; omega⟩) (by simp)
      | _ => rw [hS] at hr; simp [TRel] at hr
    | chk2 l g i =>
      rw [hp] at he hr
      cases hS : S.th t with
      | opened c seen =>
        rw [hS] at hr
        obtain ⟨rfl, hn, k1⟩ := hr
        simp only [Option.some.injEq, Prod.mk.injEq] at he
        obtain ⟨rfl, rfl⟩ := he
        refine ⟨S, .nil, ?_⟩
        have ho := h.op.min
        split
        · exact openT hS ⟨rfl, hn, k1, ⟨_, hn, by omega⟩, by omega⟩ (by simp)
        · exact openT hS (.inl ⟨_, _, _, rfl, _, hn, fun k => by have := k.2.1; have := k.2.2.2; omega⟩) (by simp)
      | _ => rw [hS] at hr; simp [TRel] at hr
    | chk3 l g i =>
      rw [hp] at he hr
      cases hS : S.th t with
      | opened c seen =>
        rw [hS] at hr
        obtain ⟨rfl, hn, k1, k2, k3⟩ := hr
        simp only [Option.some.injEq, Prod.mk.injEq] at he
        obtain ⟨rfl, rfl⟩ := he
        refine ⟨S, .nil, ?_⟩
        have ho := h.op.min
        split
        · exact openT hS ⟨rfl, hn, fun m => ⟨k1, k2, ⟨_, hn, by omega⟩, k3⟩⟩ (by simp)
        · exact openT hS (.inl ⟨_, _, _, rfl, _, hn, fun k => by have := k.2.2.1; omega⟩) (by simp)
      | _ => rw [hS] at hr; simp [TRel] at hr
    | get f =>
      rw [hp] at he hr
      cases hS : S.th t with
      | opened c seen =>
        rw [hS] at hr
        obtain ⟨hn, hg⟩ := hr
        cases he
        refine ⟨S, .nil, openT hS (.inr (.inl ⟨_, hn, ?_⟩)) (by simp)⟩
        obtain ⟨o1, o2, o3, o4⟩ := h.op
        cases c <;> simp [getField] at hg <;> subst hg <;> simp [value, *]
      | _ => rw [hS] at hr; simp [TRel] at hr
    | want c =>
      rw [hp] at he hr
      cases hS : S.th t with
      | opened c' seen =>
        rw [hS] at hr
        obtain ⟨rfl, hn, hok⟩ := hr
        cases hm : s.mutex with
        | none =>
          rw [hm] at he
          cases he
          have hno : ∀ u, ¬ (S.th u).Inside := by
            rcases h.excl with ⟨o, ho, _⟩ | ⟨_, hi, _⟩
            · rw [hm] at ho; cases ho
            · intro u hu
              by_cases e : u = t0
              · rw [e, ← ht' hm, hS] at hu; exact hu
              · rw [hi u e] at hu; exact hu
          obtain ⟨S', a, b⟩ := enter_inv (s' := s.go t (.body c' (prog c') fun _ => 0)) h hS (hok _) (enterOk_stores (hok S.conf)) hno rfl
            (fun u => rfl) (.inl ⟨hm, hm, ht' hm⟩)
          exact ⟨S', run1 a, b⟩
        | some o =>
          rw [hm] at he
          cases he
          exact ⟨S, .nil, openT hS ⟨rfl, hn, hok⟩ (fun _ => by simp [hm])⟩
      | _ => rw [hS] at hr; simp [TRel] at hr
    | lock c =>
      rw [hp] at he hr
      cases hS : S.th t with
      | opened c' seen =>
        rw [hS] at hr
        obtain ⟨rfl, hn, hok⟩ := hr
        rcases h.excl with ⟨o, ho, hi⟩ | ⟨_, _, hl, _⟩
        · rw [ho] at he
          cases o with
          | some u => cases he
          | none =>
            cases he
            have hno : ∀ u, ¬ (S.th u).Inside := fun u hu => by have := (hi u).1 hu; cases this
            obtain ⟨S', a, b⟩ := enter_inv (s' := { s with mutex := some (some t) }.go t (.body c' (prog c') fun _ => 0)) h hS (hok _)
              (enterOk_stores (hok S.conf)) hno rfl (fun u => rfl) (.inr ⟨ho, rfl⟩)
            exact ⟨S', run1 a, b⟩
        · exact absurd hp (hl t c')
      | _ => rw [hS] at hr; simp [TRel] at hr
    | body c todo v =>
      rw [hp] at he
      cases todo with
      | cons m todo =>
        simp only [Option.some.injEq] at he
        exact exec_inv h hp he
      | nil =>
        rw [hp] at hr
        have hin : (S.th t).Inside := by
          cases hS : S.th t <;> rw [hS] at hr <;> simp_all [TRel, TS.Inside]
        have hmain : (∃ c b, S.th t = .setting c b) → Main s.cfg S.conf := by
          rintro ⟨c', b, hS⟩
          rw [hS] at hr
          cases b
          · exact hr.2.2
          · exact hr.2.1
        have hstep : Step S (.leave t) (S.set t .left) := by
          cases hS : S.th t with
          | setting c' b =>
            rw [hS] at hr
            cases b with
            | false =>
              obtain ⟨_, k1, k2⟩ := hr
              obtain ⟨_, _, _, _, _, k, _⟩ := stores_ok k2 k1
              cases k
            | true => exact .leaveSet hS
          | printing l g i outs fl =>
            rw [hS] at hr
            exact .leavePrint hS hr.2.2.1
          | _ => rw [hS] at hr; simp [TRel] at hr
        cases hm : s.mutex with
        | none =>
          rw [hm] at he
          cases he
          refine ⟨_, run1 hstep, ?_⟩
          exact leave_inv h hin rfl (fun u => rfl) (.inl ⟨rfl, hm⟩) hmain
        | some o =>
          rw [hm] at he
          cases he
          refine ⟨S, .nil, ?_⟩
          have : S = S.set t (S.th t) := by
            obtain ⟨n, th⟩ := S
            simp only [St.set, St.mk.injEq, true_and]
            funext u
            by_cases e : u = t
            · simp [e]
            · simp [e]
          rw [this]
          refine go_inv h ?_ Iff.rfl (.inl hin) (fun _ => by simp [hm]) (fun k1 ⟨c, b, k2⟩ => absurd k2 (k1 c b))
          cases hS : S.th t with
          | setting c' b =>
            rw [hS] at hr
            cases b with
            | false =>
              obtain ⟨_, k1, k2⟩ := hr
              obtain ⟨_, _, _, _, _, k, _⟩ := stores_ok k2 k1
              cases k
            | true => exact hr.2.1
          | printing l g i outs fl =>
            rw [hS] at hr
            exact hr.2.2.1
          | _ => rw [hS] at hr; simp [TRel] at hr
    | unlock =>
      rw [hp] at he hr
      have hin : (S.th t).Inside := by
        cases hS : S.th t <;> rw [hS] at hr <;> simp_all [TRel, TS.Inside]
      rcases h.excl with ⟨o, ho, hi⟩ | ⟨_, _, _, hun⟩
      · have hot := (hi t).1 hin
        subst hot
        rw [ho] at he
        simp only [if_true] at he
        cases he
        have hmain : (∃ c b, S.th t = .setting c b) → Main s.cfg S.conf := by
          rintro ⟨c', b, hS⟩
          rw [hS] at hr
          cases b
          · exact hr.elim
          · exact hr
        refine ⟨S.set t .left, run1 ?_, leave_inv h hin rfl (fun u => rfl) (.inr ⟨ho, rfl⟩) hmain⟩
        cases hS : S.th t with
        | setting c' b =>
          rw [hS] at hr
          cases b
          · exact hr.elim
          · exact .leaveSet hS
        | printing l g i outs fl =>
          rw [hS] at hr
          exact .leavePrint hS hr
        | _ => rw [hS] at hr; simp [TRel] at hr
      · exact absurd hp (hun t)
    | done v =>
      rw [hp] at he hr
      cases he
      have fin : ∀ {x : TS}, S.th t = x → ¬ x.Inside → Inv (s.go t .idle) (S.set t .idle) t0 := by
        intro x hx hni
        refine go_inv h trivial (by rw [hx]; simp [TS.Inside] at hni ⊢; exact hni) ?_ (by simp) ?_
        · by_cases hm : s.mutex = none
          · exact .inr (.inr ⟨ht' hm, by simp, by simp⟩)
          · exact .inr (.inl hm)
        · rintro - ⟨c, b, k⟩
          rw [hx] at k; subst k
          exact absurd trivial hni
      cases hS : S.th t with
      | left => exact ⟨_, run1 (.retLeft hS), fin hS (by simp [TS.Inside])⟩
      | opened c seen =>
        rw [hS] at hr
        refine ⟨S.set t .idle, run1 ?_, fin hS (by simp [TS.Inside])⟩
        rcases hr with ⟨l, g, i, rfl, k⟩ | k | ⟨k1, k2, k3⟩
        · exact .retFiltered hS k
        · exact .retValue hS k
        · exact .retRefused hS (k1 _) (k2 _) k3
      | _ => rw [hS] at hr; simp [TRel] at hr

end Verif.XlogMt
