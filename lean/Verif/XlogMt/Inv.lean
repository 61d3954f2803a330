import Verif.XlogMt.Model

namespace Verif.XlogMt
open Spec

/-- The fields agree with the configuration. -/
structure Main (cfg : Cfg) (n : Conf) : Prop where
  min : cfg .min = n.minLevel
  trigger : cfg .trigger = n.trigger
  tag : cfg .tag = n.tag
  cbFn : cfg .cbFn = n.cb.1
  cbData : cfg .cbData = n.cb.2
  target : cfg .target = n.target
  format : cfg .format = n.format
  flush : cfg .flush = n.flush
  zone : cfg .zone = n.zone
  console : cfg .console = bit n.target 4
  usercb : cfg .usercb = bit n.target 8
  fTs : cfg .fTs = bit n.format 2
  fTag : cfg .fTag = bit n.format 4
  fTid : cfg .fTid = bit n.format 8

/-- The fields read without the lock. -/
structure Open (cfg : Cfg) (n : Conf) : Prop where
  min : cfg .min = n.minLevel
  target : cfg .target = n.target
  format : cfg .format = n.format
  flush : cfg .flush = n.flush

theorem Main.opened {cfg : Cfg} {n : Conf} (h : Main cfg n) : Open cfg n := ⟨h.min, h.target, h.format, h.flush⟩

/-- The stores still to come. -/
def applyStores : List Micro → Cfg → Cfg
  | .store _ f x :: r, c => applyStores r (c.put f x)
  | _ :: r, c => applyStores r c
  | [], c => c

/-- The output still to come. -/
def finish (cfg : Cfg) (c : Call) : List Micro → Cfg → List Out → List Out
  | [], _, o => o
  | .load f :: r, v, o => finish cfg c r (v.put f (cfg f)) o
  | m :: r, v, o => finish cfg c r v (o ++ output c v m)

/-- What allows a call to enter. -/
def EnterOk (n : Conf) (seen : List Conf) : Call → Prop
  | .print l _ _ => (∃ c ∈ seen, c.target ≠ 0) ∧ (∃ c ∈ seen, c.minLevel ≠ 0) ∧ (∃ c ∈ seen, c.minLevel ≤ l) ∧ l ≤ 5
  | c => (accept n c).isSome = true

/-- Correspondence of one thread. -/
def TRel (cfg : Cfg) (n : Conf) : Pc → TS → Prop
  | .idle, .idle => True
  | .chk1 l g i, .opened c seen => c = .print l g i ∧ n ∈ seen
  | .chk2 l g i, .opened c seen => c = .print l g i ∧ n ∈ seen ∧ ∃ c ∈ seen, c.target ≠ 0
  | .chk3 l g i, .opened c seen =>
    c = .print l g i ∧ n ∈ seen ∧ (∃ c ∈ seen, c.target ≠ 0) ∧ (∃ c ∈ seen, c.minLevel ≠ 0) ∧ l ≤ 5
  | .get f, .opened c seen => n ∈ seen ∧ getField c = some f
  | .want c, .opened c' seen => c' = c ∧ n ∈ seen ∧ ∀ m, EnterOk m seen c
  | .lock c, .opened c' seen => c' = c ∧ n ∈ seen ∧ ∀ m, EnterOk m seen c
  | .body c todo _, .setting c' false => c' = c ∧ stores c = some todo ∧ Main cfg n
  | .body c todo _, .setting c' true =>
    c' = c ∧ Main (applyStores todo cfg) n ∧ (∀ m ∈ todo, ∃ f x, m = .store false f x ∧ f ≠ .min ∧ f ≠ .target ∧ f ≠ .format ∧ f ≠ .flush)
  | .body c todo v, .printing l g i outs fl =>
    c = .print l g i ∧ todo <:+ printProg ∧ (fl = false → finish cfg c todo v outs = expected n l g i) ∧
    (fl = true → todo = []) ∧ (.fmt ∈ todo → outs = [])
  | .inCb c todo v, .printing l g i outs fl =>
    fl = false ∧ c = .print l g i ∧ todo <:+ printProg ∧ finish cfg c todo v outs = expected n l g i ∧
    .fmt ∉ todo ∧ ∃ o fn d j k, outs = o ++ [.callback fn d j k]
  | .unlock, .setting _ true => Main cfg n
  | .unlock, .printing l g i outs fl => fl = false → outs = expected n l g i
  | .dead, .printing _ _ _ _ _ => True
  | .done _, .left => True
  | .done v, .opened c seen =>
    (∃ l g i, c = .print l g i ∧ ∃ m ∈ seen, ¬ Passes m l) ∨ (∃ m ∈ seen, value m c = some v) ∨
    ((∀ m, accept m c = none) ∧ (∀ m, value m c = none) ∧ ∀ l g i, c ≠ .print l g i)
  | _, _ => False

/-- A mode of use: the mutex exists, or only thread `t0` uses xlog. -/
def Excl (s : Sys) (S : St) (t0 : Nat) : Prop :=
  (∃ o, s.mutex = some o ∧ ∀ t, (S.th t).Inside ↔ o = some t) ∨
  (s.mutex = none ∧ (∀ t, t ≠ t0 → S.th t = .idle) ∧ (∀ t c, s.pc t ≠ .lock c) ∧ (∀ t, s.pc t ≠ .unlock))

structure Inv (s : Sys) (S : St) (t0 : Nat) : Prop where
  rel : ∀ t, TRel s.cfg S.conf (s.pc t) (S.th t)
  op : Open s.cfg S.conf
  settled : (∀ t c b, S.th t ≠ .setting c b) → Main s.cfg S.conf
  excl : Excl s S t0

theorem Excl.uniq {s : Sys} {S : St} {t0 : Nat} (h : Excl s S t0) {t u : Nat} (ht : (S.th t).Inside) (hu : (S.th u).Inside) :
    t = u := by
  rcases h with ⟨o, _, h⟩ | ⟨_, h, _⟩
  · have a := (h t).1 ht; have b := (h u).1 hu; grind
  · by_cases a : t = t0 <;> by_cases b : u = t0
    · rw [a, b]
    · rw [h u b] at hu; exact hu.elim
    · rw [h t a] at ht; exact ht.elim
    · rw [h t a] at ht; exact ht.elim

/-- An event of the API other than `xlog_global_init` and `xlog_global_cleanup`. -/
def Ev.inner : Ev → Bool
  | .globalInit | .globalCleanup => false
  | _ => true

/-- The thread of an event. -/
def Ev.thread : Ev → Nat
  | .call t _ | .act t | .fail t | .nest t _ | .cbRet t => t
  | .globalInit | .globalCleanup => 0

theorem init_inv (t0 : Nat) : Inv Sys.init St.init t0 :=
  ⟨fun _ => trivial, ⟨rfl, rfl, rfl, rfl⟩, fun _ => ⟨rfl, rfl, rfl, rfl, rfl, rfl, rfl, rfl, rfl, rfl, rfl, rfl, rfl, rfl⟩,
    .inr ⟨rfl, fun _ _ => rfl, (by intro _ _ h; cases h), (by intro _ h; cases h)⟩⟩

/-- Moving one thread, configuration unchanged. -/
theorem go_inv {s : Sys} {S : St} {t0 t : Nat} (h : Inv s S t0) {p : Pc} {x : TS}
    (hr : TRel s.cfg S.conf p x) (hx : x.Inside ↔ (S.th t).Inside) (hp : (S.th t).Inside ∨ s.mutex ≠ none ∨ (t = t0 ∧ (∀ c, p ≠ .lock c) ∧ p ≠ .unlock))
    (hu : p = .unlock → s.mutex ≠ none)
    (hs : (∀ c b, x ≠ .setting c b) → (∃ c b, S.th t = .setting c b) → Main s.cfg S.conf) :
    Inv (s.go t p) (S.set t x) t0 := by
  refine ⟨?_, h.op, ?_, ?_⟩
  · intro u
    by_cases e : u = t
    · simpa [Sys.go, St.set, e] using hr
    · simpa [Sys.go, St.set, e] using h.rel u
  · intro hn
    have hx' : ∀ c b, x ≠ .setting c b := by
      intro c b; have := hn t c b; simpa [St.set] using this
    by_cases hset : ∃ c b, S.th t = .setting c b
    · exact hs hx' hset
    · refine h.settled fun u c b hu => ?_
      by_cases e : u = t
      · subst e; exact hset ⟨c, b, hu⟩
      · have := hn u c b; simp [St.set, e] at this; exact this hu
  · rcases h.excl with ⟨o, ho, hi⟩ | ⟨hm, hi, hl, hun⟩
    · refine .inl ⟨o, ho, fun u => ?_⟩
      by_cases e : u = t
      · subst e; simpa [St.set, hx] using hi u
      · simpa [St.set, e] using hi u
    · have ht : t = t0 := by
        rcases hp with hp | hp | hp
        · by_cases e : t = t0
          · exact e
          · rw [hi t e] at hp; exact hp.elim
        · exact absurd hm hp
        · exact hp.1
      refine .inr ⟨hm, fun u hu' => ?_, fun u c => ?_, fun u => ?_⟩
      · have : u ≠ t := by rw [ht]; exact hu'
        simpa [St.set, this] using hi u hu'
      · by_cases e : u = t
        · intro hh
          have hh' : p = .lock c := by simpa [Sys.go, e] using hh
          rw [hh'] at hr
          cases x <;> simp [TRel] at hr
          rcases hp with hp | hp | hp
          · exact absurd (hx.2 hp) (by simp [TS.Inside])
          · exact hp hm
          · exact hp.2.1 c hh'
        · simpa [Sys.go, e] using hl u c
      · by_cases e : u = t
        · intro hh
          have hh' : p = .unlock := by simpa [Sys.go, e] using hh
          exact hu hh' hm
        · simpa [Sys.go, e] using hun u

theorem and_pow (n i : Nat) : (n &&& 2 ^ i = 0) ↔ n.testBit i = false := by
  constructor
  · intro h
    have := congrArg (·.testBit i) h
    simpa [Nat.testBit_and] using this
  · intro h
    apply Nat.eq_of_testBit_eq
    intro j
    by_cases e : i = j
    · subst e; simp [Nat.testBit_and, h]
    · simp [Nat.testBit_and, Nat.testBit_two_pow, e]

theorem bit_ne (n i : Nat) : bit (n : Int) (2 ^ i) ≠ 0 ↔ n.testBit i = true := by
  have := and_pow n i
  unfold bit
  by_cases h : n.testBit i = true <;> simp_all

theorem bit2 (n : Nat) : bit (n : Int) 2 ≠ 0 ↔ n.testBit 1 = true := bit_ne n 1
theorem bit4 (n : Nat) : bit (n : Int) 4 ≠ 0 ↔ n.testBit 2 = true := bit_ne n 2
theorem bit8 (n : Nat) : bit (n : Int) 8 ≠ 0 ↔ n.testBit 3 = true := bit_ne n 3

/-- The look of a line is that of the configuration if there is an output. -/
theorem look_ok {v cfg : Cfg} {n : Conf} (m : Main cfg n) (h1 : v .trigger = cfg .trigger) (h2 : v .tag = cfg .tag)
    (h3 : v .format = cfg .format) (h4 : v .fTs = cfg .fTs) (h5 : v .zone = cfg .zone) (h6 : v .fTag = cfg .fTag)
    (h7 : v .fTid = cfg .fTid) (h8 : v .console ≠ 0 ∨ v .usercb ≠ 0) (l : Nat) (g : Option Nat) :
    lookOf v l g = look n l g := by
  have e1 := bit2 n.format
  have e2 := bit4 n.format
  have e3 := bit8 n.format
  have z : n.format = 0 → n.format.testBit 1 = false ∧ n.format.testBit 2 = false ∧ n.format.testBit 3 = false := by
    intro h; simp [h]
  unfold lookOf look
  rw [h1, h2, h3, h4, h5, h6, h7, m.trigger, m.tag, m.format, m.fTs, m.zone, m.fTag, m.fTid]
  have lv : (if (n.trigger : Int) ≠ 0 ∧ (l : Int) < (n.trigger : Int) then ((n.trigger : Int)).toNat else l) = max n.trigger l := by
    split <;> omega
  simp only [lv]
  have tg : g.getD ((n.tag : Int)).toNat = g.getD n.tag := by simp
  rw [tg]
  by_cases hf : n.format = 0
  · have := z hf
    simp [hf]
  · rw [if_pos ⟨by omega, h8⟩]
    simp only [e1, e2, e3]
    simp

theorem print_finish {cfg : Cfg} {n : Conf} (m : Main cfg n) (l : Nat) (g : Option Nat) (i : Nat) (v : Cfg) :
    finish cfg (.print l g i) printProg v [] = expected n l g i := by
  have c1 := bit4 n.target
  have c2 := bit8 n.target
  simp only [finish, printProg, output, List.nil_append]
  generalize hv9 : ((((((((v.put Field.console (cfg Field.console)).put Field.usercb (cfg Field.usercb)).put Field.trigger (cfg Field.trigger)).put
    Field.tag (cfg Field.tag)).put Field.format (cfg Field.format)).put Field.fTs (cfg Field.fTs)).put Field.zone (cfg Field.zone)).put
    Field.fTag (cfg Field.fTag)).put Field.fTid (cfg Field.fTid) = w
  generalize hw : ((w.put Field.flush (cfg Field.flush)).put Field.cbFn (cfg Field.cbFn)).put Field.cbData (cfg Field.cbData) = x
  have look1 : ∀ (y : Cfg), y .console ≠ 0 ∨ y .usercb ≠ 0 → (y = w ∨ y = x) → lookOf y l g = look n l g := by
    intro y h8 hy
    apply look_ok m <;> first | exact h8 | (rcases hy with rfl | rfl <;> subst hv9 <;> simp [← hw, Cfg.put])
  have a1 : w .console = cfg .console := by subst hv9; simp [Cfg.put]
  have a2 : x .usercb = cfg .usercb := by subst hv9; subst hw; simp [Cfg.put]
  have a3 : x .cbFn = n.cb.1 := by subst hw; simp [Cfg.put, m.cbFn]
  have a4 : x .cbData = n.cb.2 := by subst hw; simp [Cfg.put, m.cbData]
  have a5 : (w.put Field.flush (cfg Field.flush)) .console = cfg .console := by simp [Cfg.put, a1]
  have a6 : (w.put Field.flush (cfg Field.flush)) .flush = n.flush := by simp [Cfg.put, m.flush]
  have b1 : cfg .console ≠ 0 ↔ n.target.testBit 2 = true := by rw [m.console]; exact c1
  have b2 : cfg .usercb ≠ 0 ↔ n.target.testBit 3 = true := by rw [m.usercb]; exact c2
  rw [a1, a2, a3, a4, a5, a6]
  unfold expected
  by_cases k1 : cfg .console ≠ 0 <;> by_cases k2 : cfg .usercb ≠ 0
  · rw [look1 w (.inl (by rw [a1]; exact k1)) (.inl rfl), look1 x (.inr (by rw [a2]; exact k2)) (.inr rfl)]
    simp [k1, k2, b1.1 k1, b2.1 k2]
  · rw [look1 w (.inl (by rw [a1]; exact k1)) (.inl rfl)]
    have n2 : n.target.testBit 3 = false := by simpa using fun h => k2 (b2.2 h)
    simp [k1, k2, b1.1 k1, n2]
  · rw [look1 x (.inr (by rw [a2]; exact k2)) (.inr rfl)]
    have n1 : n.target.testBit 2 = false := by simpa using fun h => k1 (b1.2 h)
    simp [k1, k2, b2.1 k2, n1]
  · have n1 : n.target.testBit 2 = false := by simpa using fun h => k1 (b1.2 h)
    have n2 : n.target.testBit 3 = false := by simpa using fun h => k2 (b2.2 h)
    simp [k1, k2, n1, n2]

end Verif.XlogMt
