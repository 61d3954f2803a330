import Verif.LogFacade.Model
import Verif.Slog.Props
import Verif.Xlog.Props
/-!
# C109: the logging facade shows the same messages whichever logger is behind it
-/
namespace Verif.LogFacade
open Slog (Lv)
open TimeUtil.Spec (Civil)

/-- a message within the limits of both loggers: strings without NUL, lines count from 1, the function name fits -/
structure MsgOk (m : Msg) : Prop where
  tag : (0 : Byte) ∉ m.tag
  text : (0 : Byte) ∉ m.text
  func : ∀ f n, m.func = some (f, n) → (0 : Byte) ∉ f ∧ 0 < n ∧ 52 + (Spec.trace (some (f, n)) ++ [32]).length < 512

/-- a call within the limits, in an environment that keeps its contracts -/
structure CallOk (o : Op) (w : World) : Prop where
  msg : ∀ m, o = .log m → MsgOk m
  hex : ∀ lv tag bytes, o = .hex lv tag bytes → (0 : Byte) ∉ tag ∧ bytes.length ≤ 84
  junk2 : w.junk256.length = 256
  junk5 : w.junk512.length = 512
  time : TimeUtil.TimeOk w.env.sec w.env.usec 8
  tid : w.env.tid ≠ -2147483648
  alloc : ∀ n, ∃ b, w.env.alloc n = some b ∧ b.length = n

/-! ## slog -/

theorem stepS_log (s : Slog.St) (w : World) (m : Msg) (d) (hd : s.dest = some d) :
    stepS s w (.log m) = some (s, (if s.min ≠ 0 ∧ s.min ≤ Slog.Spec.rank m.lv then [m] else []).map
      fun m => ⟨d, Spec.slogLine m⟩) := by
  obtain ⟨lv, tag, func, text⟩ := m
  cases func with
  | none =>
    obtain ⟨h1, h2⟩ := Slog.log_spec s lv tag text d hd
    simp only [stepS, Slog.step]
    by_cases h : s.min ≠ 0 ∧ s.min ≤ Slog.Spec.rank lv
    · rw [if_pos h, h1 h]; simp [Spec.slogLine, Spec.trace, Slog.Spec.line]
    · rw [if_neg h, h2 h]; rfl
  | some fn =>
    obtain ⟨f, n⟩ := fn
    obtain ⟨h1, h2⟩ := Slog.logTrace_spec s lv tag f n text d hd
    simp only [stepS, Slog.step]
    by_cases h : s.min ≠ 0 ∧ s.min ≤ Slog.Spec.rank lv
    · rw [if_pos h, h1 h]; simp [Spec.slogLine, Spec.trace, Slog.Spec.line]
    · rw [if_neg h, h2 h]; rfl

theorem runS_spec (s : Slog.St) (d) (hd : s.dest = some d) (os : List (Op × World)) (hok : ∀ p ∈ os, CallOk p.1 p.2) :
    ∃ s', runS s os = some (s', (Spec.shown s.min os).map fun m => ⟨d, Spec.slogLine m.1⟩) ∧
      s'.min = Spec.level s.min (os.map (·.1)) := by
  induction os generalizing s with
  | nil => exact ⟨s, rfl, rfl⟩
  | cons p os ih =>
    obtain ⟨o, w⟩ := p
    have ho := hok (o, w) (by simp)
    have hos := fun p hp => hok p (List.mem_cons_of_mem _ hp)
    cases o with
    | setLevel l =>
      have hm : (Slog.setMinLevel s l).min = if 0 ≤ l ∧ l ≤ 5 then l else s.min := by
        unfold Slog.setMinLevel
        by_cases h : 0 ≤ l ∧ l ≤ 5
        · rw [if_neg (by omega), if_pos h]
        · rw [if_pos (by omega), if_neg h]
      obtain ⟨s', h1, h2⟩ := ih (Slog.setMinLevel s l) (by unfold Slog.setMinLevel; split <;> exact hd) hos
      rw [hm] at h1 h2
      exact ⟨s', by simp [runS, stepS, Slog.step, h1, Spec.shown], h2⟩
    | log m =>
      obtain ⟨s', h1, h2⟩ := ih s hd hos
      exact ⟨s', by
        simp [runS, stepS_log s w m d hd, h1, Spec.shown]; split <;> rfl, h2⟩
    | hex lv tag bytes =>
      obtain ⟨s', h1, h2⟩ := ih s hd hos
      have hx : stepS s w (.hex lv tag bytes) = stepS s w (.log ⟨lv, tag, none, Strings.Spec.hexDump bytes⟩) := by
        simp only [stepS, Slog.step]
        rw [Slog.hex_spec s lv tag bytes bytes.length w.junk256 (Nat.le_refl _) ho.junk2 (ho.hex _ _ _ rfl).2, List.take_length]
      exact ⟨s', by
        simp [runS, hx, stepS_log s w _ d hd, h1, Spec.shown]; split <;> rfl, h2⟩

/-! ## xlog -/

theorem consoles_append (a b : List Xlog.Ev) : consoles (a ++ b) = consoles a ++ consoles b := by
  induction a with
  | nil => rfl
  | cons e a ih => cases e <;> simp [consoles, ih]

/-- the configurations of a program that only sets the level -/
structure CfgOk (c : Xlog.Cfg) : Prop where
  conf : Xlog.Configured c
  trigger : c.trigger = 0
  target : c.target = 4
  format : c.format = 6
  zone : c.zone = 8

theorem cstr_str {s : List Byte} (h : (0 : Byte) ∉ s) : (str s).cstr 0 = some s := by
  unfold str
  exact Mem.cstr_zero h

theorem takeWhile_no0 {l : List Byte} (h : (0 : Byte) ∉ l) : l.takeWhile (· ≠ (0 : Byte)) = l := by
  induction l with
  | nil => rfl
  | cons a l ih =>
    simp only [List.mem_cons, not_or] at h
    rw [List.takeWhile_cons, if_pos (by simpa using fun e => h.1 e.symm), ih h.2]

theorem rank_lvX (l : Lv) : Slog.Spec.rank l = (lvX l : Int) := by cases l <;> rfl

theorem letter_lvX (l : Lv) : Xlog.Spec.letter (lvX l) = Slog.Spec.letter l := by cases l <;> rfl

theorem printX {c : Xlog.Cfg} (hc : CfgOk c) {o : Op} {w : World} (ho : CallOk o w) {m : Msg} (hm : MsgOk m) (k : Xlog.Call)
    (hk1 : k.level = lvX m.lv) (hk2 : k.tag = some (str m.tag)) (hk3 : k.func = m.func.map fun f => str f.1)
    (hk4 : ∀ f n, m.func = some (f, n) → k.line = n) (hk5 : k.text = some m.text) :
    ∃ evs, Xlog.print c c w.env k = some evs ∧
      if (c.minLevel : Int) ≠ 0 ∧ (c.minLevel : Int) ≤ Slog.Spec.rank m.lv then
        ∃ now : Civil, TimeUtil.Spec.IsLocal now w.env.sec 8 ∧
          consoles evs = [Spec.xlogLine now (w.env.usec.toNat / 1000) m]
      else consoles evs = [] := by
  have hl5 : lvX m.lv ≤ 5 := by cases m.lv <;> decide
  rw [rank_lvX]
  by_cases hw : (c.minLevel : Int) ≠ 0 ∧ (c.minLevel : Int) ≤ (lvX m.lv : Int)
  · simp only [if_pos hw]
    have hlog : c.target ≠ 0 ∧ c.minLevel ≠ 0 ∧ k.level ≤ 5 ∧ c.minLevel ≤ k.level := by
      rw [hc.target, hk1]; omega
    have hr : Xlog.Spec.raised c.trigger k.level = lvX m.lv := by rw [hc.trigger, hk1]; simp [Xlog.Spec.raised]
    have hcall : Xlog.CallOk c w.env (Xlog.Spec.raised c.trigger k.level) (k.tag.getD c.tag) m.tag := by
      refine ⟨fun _ => by rw [hc.zone]; exact ho.time, ho.tid, by rw [hr]; omega, ?_⟩
      rw [hk2]; exact cstr_str hm.tag
    have hf : k.func.map (fun f => f.cstr 0) = (m.func.map (·.1)).map some := by
      rw [hk3]
      cases hfn : m.func with
      | none => rfl
      | some fn =>
        obtain ⟨f, n⟩ := fn
        simp [cstr_str (hm.func f n hfn).1]
    have htr : Xlog.Spec.lineTrace (m.func.map (·.1)) k.line =
        (match m.func with | none => [] | some _ => Spec.trace m.func ++ [32]) := by
      cases hfn : m.func with
      | none => rfl
      | some fn =>
        obtain ⟨f, n⟩ := fn
        have h0 := (hm.func f n hfn).2.1
        rw [hk4 f n hfn]
        simp [Xlog.Spec.lineTrace, Xlog.Spec.traceText, Spec.trace, h0]
    have hroom : 52 + (Xlog.Spec.lineTrace (m.func.map (·.1)) k.line).length < 512 := by
      rw [htr]
      cases hfn : m.func with
      | none => simp
      | some fn => obtain ⟨f, n⟩ := fn; exact (hm.func f n hfn).2.2
    obtain ⟨now, hnow, hp⟩ := Xlog.line_delivered hc.conf hlog hcall hf hroom
      (fun n b hb => by obtain ⟨b', h1, h2⟩ := ho.alloc n; rw [h1] at hb; cases hb; exact h2) hk5
    refine ⟨_, hp, now, ?_, ?_⟩
    · have := hnow (by rw [hc.format]; decide)
      rwa [hc.zone] at this
    · rw [hr, htr, hc.target, hc.format]
      have htag : (0 : Byte) ∉ Xlog.Spec.levelTag (lvX m.lv) m.tag := Xlog.levelTag_no0 hm.tag
      have hst : (0 : Byte) ∉ TimeUtil.Spec.stampText now (w.env.usec.toNat / 1000) := TimeUtil.text_no0 .stamp now _
      have hh : Xlog.Spec.lineHeader 4 6 (TimeUtil.Spec.stampText now (w.env.usec.toNat / 1000)) (lvX m.lv) m.tag w.env.tid =
          TimeUtil.Spec.stampText now (w.env.usec.toNat / 1000) ++ Xlog.Spec.levelTag (lvX m.lv) m.tag ++ [58, 32] := by
        simp [Xlog.Spec.lineHeader, Xlog.Spec.header, Xlog.Spec.levelTag, show Nat.testBit 4 2 = true from by decide,
          show Nat.testBit 6 1 = true from by decide, show Nat.testBit 6 2 = true from by decide,
          show Nat.testBit 6 3 = false from by decide]
      rw [hh]
      have htr0 : (0 : Byte) ∉ (match m.func with | none => [] | some _ => Spec.trace m.func ++ [32]) := by
        cases hfn : m.func with
        | none => simp
        | some fn =>
          obtain ⟨f, n⟩ := fn
          simp [Spec.trace, (hm.func f n hfn).1, decText_no0]
      generalize hfull : TimeUtil.Spec.stampText now (w.env.usec.toNat / 1000) ++ Xlog.Spec.levelTag (lvX m.lv) m.tag ++ [58, 32] ++
        (match m.func with | none => [] | some _ => Spec.trace m.func ++ [32]) ++ m.text = full
      have h0 : (0 : Byte) ∉ full := by
        rw [← hfull]
        simp only [List.mem_append, not_or]
        exact ⟨⟨⟨⟨hst, htag⟩, by decide⟩, htr0⟩, hm.text⟩
      have htk := takeWhile_no0 h0
      have hout : consoles (Xlog.out c (lvX m.lv) full) = [full ++ [10]] := by
        unfold Xlog.out
        rw [hc.target, htk]
        simp only [show Nat.testBit 4 2 = true from by decide, show Nat.testBit 4 3 = false from by decide]
        by_cases hfl : c.flush = 0 <;> simp [hfl, consoles]
      have hx : Spec.xlogLine now (w.env.usec.toNat / 1000) m = full ++ [10] := by
        rw [← hfull]
        simp [Spec.xlogLine, Xlog.Spec.levelTag, Xlog.Spec.padR, letter_lvX]
        cases hfn : m.func <;> rfl
      rw [hx]
      unfold Xlog.events
      split
      · exact hout
      · obtain ⟨b, hb, -⟩ := ho.alloc (full.length + 1)
        rw [hb]
        simp only [consoles, consoles_append, hout, List.append_nil]
  · simp only [if_neg hw]
    exact ⟨[], Xlog.filtered (by rw [hk1]; omega), rfl⟩

theorem setX_spec {c : Xlog.Cfg} (hc : CfgOk c) (l : Int) :
    ∃ c', setX c l = some c' ∧ CfgOk c' ∧ (c'.minLevel : Int) = if 0 ≤ l ∧ l ≤ 5 then l else (c.minLevel : Int) := by
  unfold setX
  by_cases h : l < 0 ∨ l > 6
  · rw [if_pos h, if_neg (by omega)]
    exact ⟨c, rfl, hc, rfl⟩
  · rw [if_neg h]
    have hs := (Xlog.setter_ranges c).2.1 l
    refine ⟨_, hs, ⟨.set (.minLevel l) hc.conf (by simp) hs, hc.trigger, hc.target, hc.format, hc.zone⟩, ?_⟩
    by_cases h5 : 0 ≤ l ∧ l ≤ 5
    · simp only [if_pos h5]; omega
    · simp only [if_neg h5]

/-- every shown message has its line, with the local time (UTC+8) of its call -/
inductive Lines : List (Msg × World) → List (List Byte) → Prop where
  | nil : Lines [] []
  | cons {m w ms ls} (now : Civil) : TimeUtil.Spec.IsLocal now w.env.sec 8 → Lines ms ls →
      Lines ((m, w) :: ms) (Spec.xlogLine now (w.env.usec.toNat / 1000) m :: ls)

theorem runX_spec {c : Xlog.Cfg} (hc : CfgOk c) (os : List (Op × World)) (hok : ∀ p ∈ os, CallOk p.1 p.2) :
    ∃ c' evs, runX c os = some (c', evs) ∧ (c'.minLevel : Int) = Spec.level c.minLevel (os.map (·.1)) ∧
      Lines (Spec.shown c.minLevel os) (consoles evs) := by
  induction os generalizing c with
  | nil => exact ⟨c, [], rfl, rfl, .nil⟩
  | cons p os ih =>
    obtain ⟨o, w⟩ := p
    have ho := hok (o, w) (by simp)
    have hos := fun p hp => hok p (List.mem_cons_of_mem _ hp)
    have msg : ∀ m, MsgOk m → ∀ evs, stepX c w o = some (c, evs) →
        (Spec.shown c.minLevel ((o, w) :: os) =
          (if (c.minLevel : Int) ≠ 0 ∧ (c.minLevel : Int) ≤ Slog.Spec.rank m.lv then [(m, w)] else []) ++
            Spec.shown c.minLevel os) →
        (Spec.level c.minLevel (o :: os.map (·.1)) = Spec.level c.minLevel (os.map (·.1))) →
        (if (c.minLevel : Int) ≠ 0 ∧ (c.minLevel : Int) ≤ Slog.Spec.rank m.lv then
          ∃ now : Civil, TimeUtil.Spec.IsLocal now w.env.sec 8 ∧
            consoles evs = [Spec.xlogLine now (w.env.usec.toNat / 1000) m]
          else consoles evs = []) →
        ∃ c' evs, runX c ((o, w) :: os) = some (c', evs) ∧
          (c'.minLevel : Int) = Spec.level c.minLevel (((o, w) :: os).map (·.1)) ∧
          Lines (Spec.shown c.minLevel ((o, w) :: os)) (consoles evs) := by
      intro m _ evs he hs hl h
      obtain ⟨c', evs', h1, h2, h3⟩ := ih hc hos
      refine ⟨c', evs ++ evs', by simp [runX, he, h1], by rw [List.map_cons, hl]; exact h2, ?_⟩
      rw [hs, consoles_append]
      by_cases hw : (c.minLevel : Int) ≠ 0 ∧ (c.minLevel : Int) ≤ Slog.Spec.rank m.lv
      · rw [if_pos hw] at h ⊢
        obtain ⟨now, hn, hcon⟩ := h
        rw [hcon]
        exact .cons now hn h3
      · rw [if_neg hw] at h ⊢
        rw [h]
        exact h3
    cases o with
    | setLevel l =>
      obtain ⟨c1, e1, hc1, hm⟩ := setX_spec hc l
      obtain ⟨c', evs, h1, h2, h3⟩ := ih hc1 hos
      rw [hm] at h2 h3
      exact ⟨c', evs, by simp [runX, stepX, e1, h1], h2, h3⟩
    | log m =>
      have hmo := ho.msg m rfl
      obtain ⟨evs, he, h⟩ := printX hc ho hmo (callX m) rfl rfl rfl
        (by intro f n hf; simp [callX, hf]) rfl
      exact msg m hmo evs (by simp [stepX, he]) rfl rfl h
    | hex lv tag bytes =>
      obtain ⟨ht, h84⟩ := ho.hex _ _ _ rfl
      have hmo : MsgOk ⟨lv, tag, none, Strings.Spec.hexDump bytes⟩ := ⟨ht, Xlog.hexDump_no0 _, by simp⟩
      have hl5 : lvX lv ≤ 5 := by cases lv <;> decide
      obtain ⟨evs, he, h⟩ := printX hc ho hmo
        { level := lvX lv, tag := some (str tag), func := none, line := -1, text := some (Strings.Spec.hexDump bytes) }
        rfl rfl rfl (by simp) rfl
      refine msg _ hmo evs ?_ rfl rfl h
      by_cases hlog : c.target ≠ 0 ∧ c.minLevel ≠ 0 ∧ lvX lv ≤ 5 ∧ c.minLevel ≤ lvX lv
      · simp only [stepX]
        rw [Xlog.hex_delivered hlog (Nat.le_refl _) ho.junk5 (by omega), List.take_length, he]
        rfl
      · have hf := Xlog.filtered (c0 := c) (c := c) (e := w.env)
          (k := { level := lvX lv, tag := some (str tag), func := none, line := -1, text := some (Strings.Spec.hexDump bytes) })
          (by simp only; omega)
        rw [hf] at he
        cases he
        simp only [stepX, Xlog.hexPrint]
        rw [if_neg (by simp only [Xlog.logable, decide_eq_true_eq]; omega)]
        rfl

theorem init_ok : CfgOk Xlog.Cfg.init := ⟨.init, rfl, rfl, rfl, rfl⟩

/-! ## The property -/

/-- **C109** (slog build): a program of any length, from program start, prints exactly the lines of the shown messages in
order, and `LOG_GET_MIN_LEVEL` gives the level. -/
theorem slog_build (os : List (Op × World)) (hok : ∀ p ∈ os, CallOk p.1 p.2) :
    ∃ s outs, runS .init os = some (s, outs) ∧ s.min = Spec.level 1 (os.map (·.1)) ∧
      outs.map (·.text) = (Spec.shown 1 os).map (Spec.slogLine ·.1) := by
  obtain ⟨s, h1, h2⟩ := runS_spec .init none rfl os hok
  exact ⟨s, _, h1, h2, by simp [Slog.St.init, Function.comp_def]⟩

/-- **C109** (xlog build): the same program prints exactly the lines of the same messages in the same order, with the
stamp of the time of the call in front, and `LOG_GET_MIN_LEVEL` gives the same level. -/
theorem xlog_build (os : List (Op × World)) (hok : ∀ p ∈ os, CallOk p.1 p.2) :
    ∃ c evs, runX .init os = some (c, evs) ∧ (c.minLevel : Int) = Spec.level 1 (os.map (·.1)) ∧
      Lines (Spec.shown 1 os) (consoles evs) :=
  runX_spec init_ok os hok

theorem Lines.length {ms ls} (h : Lines ms ls) : ls.length = ms.length := by
  induction h with
  | nil => rfl
  | cons _ _ _ ih => simp [ih]

/-- **C109**: exchanging the logger changes neither the level in force nor the number of lines, nor whether any one
statement prints. -/
theorem builds_agree (os : List (Op × World)) (hok : ∀ p ∈ os, CallOk p.1 p.2) :
    ∃ s outs c evs, runS .init os = some (s, outs) ∧ runX .init os = some (c, evs) ∧ s.min = (c.minLevel : Int) ∧
      outs.length = (consoles evs).length := by
  obtain ⟨s, outs, h1, h2, h3⟩ := slog_build os hok
  obtain ⟨c, evs, h4, h5, h6⟩ := xlog_build os hok
  refine ⟨s, outs, c, evs, h1, h4, by rw [h2, h5], ?_⟩
  have := congrArg List.length h3
  rw [h6.length]
  simpa using this

/-- FINDING: the agreement ends where the hexadecimal printers' arrays end: from 86 bytes the slog build overflows its
256 bytes, while the xlog build (512 bytes) prints up to 170. -/
theorem hex_builds_differ (w : World) (lv : Lv) (tag bytes : List Byte) (hw : CallOk (.setLevel 1) w)
    (ht : (0 : Byte) ∉ tag) (h86 : 86 ≤ bytes.length) (h170 : bytes.length ≤ 170) :
    stepS .init w (.hex lv tag bytes) = none ∧
      ∃ now evs, stepX .init w (.hex lv tag bytes) = some (Xlog.Cfg.init, evs) ∧
        consoles evs = [Spec.xlogLine now (w.env.usec.toNat / 1000) ⟨lv, tag, none, Strings.Spec.hexDump bytes⟩] := by
  constructor
  · simp only [stepS, Slog.step]
    rw [Slog.hex_overflow .init lv tag bytes bytes.length w.junk256 (by cases lv <;> exact ⟨by decide, by decide⟩) (Nat.le_refl _) hw.junk2 h86 (by omega)]
    rfl
  · have hmo : MsgOk ⟨lv, tag, none, Strings.Spec.hexDump bytes⟩ := ⟨ht, Xlog.hexDump_no0 _, by simp⟩
    obtain ⟨evs, he, h⟩ := printX init_ok hw hmo
      { level := lvX lv, tag := some (str tag), func := none, line := -1, text := some (Strings.Spec.hexDump bytes) }
      rfl rfl rfl (by simp) rfl
    rw [if_pos (by cases lv <;> exact ⟨by simp [Xlog.Cfg.init], by simp [Xlog.Cfg.init, Slog.Spec.rank]⟩)] at h
    obtain ⟨now, -, hc⟩ := h
    refine ⟨now, evs, ?_, hc⟩
    simp only [stepX]
    rw [Xlog.hex_delivered (by cases lv <;> decide) (Nat.le_refl _) hw.junk5 h170, List.take_length, he]
    rfl

/-- FINDING: nor do the builds agree on functions with long names (512 characters and more): the slog build prints the
line, xlog overflows its buffer. -/
theorem func_builds_differ (w : World) (m : Msg) (f : List Byte) (n : Nat) (hw : CallOk (.setLevel 1) w)
    (ht : (0 : Byte) ∉ m.tag) (hm : m.func = some (f, n)) (hf : (0 : Byte) ∉ f) (hn : 0 < n) (hlong : 512 ≤ f.length) :
    stepX .init w (.log m) = none ∧ stepS .init w (.log m) = some (.init, [⟨none, Spec.slogLine m⟩]) := by
  have h5 : Xlog.Cfg.init.target ≠ 0 ∧ Xlog.Cfg.init.minLevel ≠ 0 ∧ lvX m.lv ≤ 5 ∧ Xlog.Cfg.init.minLevel ≤ lvX m.lv := by
    cases m.lv <;> decide
  constructor
  · simp only [stepX]
    rw [Xlog.long_function_name_overflows (k := callX m) (f := str f) (fS := f) .init h5 (tagS := m.tag)
      ⟨fun _ => hw.time, hw.tid, by simp only [callX, Xlog.Cfg.init, Xlog.Spec.raised]; omega, cstr_str ht⟩
      (by simp [callX, hm]) (cstr_str hf) hlong (by simp only [callX, hm]; omega)]
    rfl
  · rw [stepS_log .init w m none rfl, if_pos (by cases m.lv <;> decide)]
    rfl

/-- FINDING: a text with a NUL (`%c`) is printed whole by the slog build and ends at the NUL on xlog's console. -/
theorem nul_builds_differ (w : World) (hw : CallOk (.setLevel 1) w) (lv : Lv) (tag a b : List Byte)
    (ht : (0 : Byte) ∉ tag) (ha : (0 : Byte) ∉ a) :
    stepS .init w (.log ⟨lv, tag, none, a ++ 0 :: b⟩) = some (.init, [⟨none, Spec.slogLine ⟨lv, tag, none, a ++ 0 :: b⟩⟩]) ∧
      ∃ now evs, stepX .init w (.log ⟨lv, tag, none, a ++ 0 :: b⟩) = some (Xlog.Cfg.init, evs) ∧
        consoles evs = [Spec.xlogLine now (w.env.usec.toNat / 1000) ⟨lv, tag, none, a⟩] := by
  constructor
  · rw [stepS_log .init w _ none rfl, if_pos (by cases lv <;> exact ⟨by simp [Slog.St.init], by simp [Slog.St.init, Slog.Spec.rank]⟩)]
    rfl
  · have h5 : Xlog.Cfg.init.target ≠ 0 ∧ Xlog.Cfg.init.minLevel ≠ 0 ∧ lvX lv ≤ 5 ∧ Xlog.Cfg.init.minLevel ≤ lvX lv := by
      cases lv <;> decide
    obtain ⟨now, -, hp⟩ := Xlog.line_delivered (k := callX ⟨lv, tag, none, a ++ 0 :: b⟩) (e := w.env) .init h5 (tagS := tag)
      ⟨fun _ => hw.time, hw.tid, by simp only [callX, Xlog.Cfg.init, Xlog.Spec.raised]; omega, cstr_str ht⟩
      (func := none) rfl (by simp [Xlog.Spec.lineTrace])
      (fun n b hb => by obtain ⟨b', h1, h2⟩ := hw.alloc n; rw [h1] at hb; cases hb; exact h2) rfl
    refine ⟨now, _, by simp only [stepX]; rw [hp]; rfl, ?_⟩
    have hr : Xlog.Spec.raised Xlog.Cfg.init.trigger (callX ⟨lv, tag, none, a ++ 0 :: b⟩).level = lvX lv := by
      simp [callX, Xlog.Cfg.init, Xlog.Spec.raised]
    rw [hr]
    have htag : (0 : Byte) ∉ Xlog.Spec.levelTag (lvX lv) tag := Xlog.levelTag_no0 ht
    have hst : (0 : Byte) ∉ TimeUtil.Spec.stampText now (w.env.usec.toNat / 1000) := TimeUtil.text_no0 .stamp now _
    generalize hS : TimeUtil.Spec.stampText now (w.env.usec.toNat / 1000) = S at *
    have hh : Xlog.Spec.lineHeader Xlog.Cfg.init.target Xlog.Cfg.init.format S (lvX lv) tag w.env.tid =
        S ++ Xlog.Spec.levelTag (lvX lv) tag ++ [58, 32] := by
      simp [Xlog.Cfg.init, Xlog.Spec.lineHeader, Xlog.Spec.header, Xlog.Spec.levelTag, show Nat.testBit 4 2 = true from by decide,
        show Nat.testBit 6 1 = true from by decide, show Nat.testBit 6 2 = true from by decide,
        show Nat.testBit 6 3 = false from by decide]
    rw [hh]
    generalize hH : S ++ Xlog.Spec.levelTag (lvX lv) tag ++ [58, 32] = H
    have h0 : (0 : Byte) ∉ H ++ a := by
      rw [← hH]
      simp only [List.mem_append, not_or]
      exact ⟨⟨⟨hst, htag⟩, by decide⟩, ha⟩
    have hfull : H ++ Xlog.Spec.lineTrace none (callX ⟨lv, tag, none, a ++ 0 :: b⟩).line ++ (a ++ 0 :: b) = H ++ a ++ 0 :: b := by
      simp [Xlog.Spec.lineTrace]
    rw [hfull]
    have htk : (H ++ a ++ 0 :: b).takeWhile (· ≠ (0 : Byte)) = H ++ a := by
      generalize H ++ a = l at h0
      induction l with
      | nil => simp
      | cons x l ih =>
        simp only [List.mem_cons, not_or] at h0
        rw [List.cons_append, List.takeWhile_cons, if_pos (by simpa using fun e => h0.1 e.symm), ih h0.2]
    have hout : consoles (Xlog.out Xlog.Cfg.init (lvX lv) (H ++ a ++ 0 :: b)) = [H ++ a ++ [10]] := by
      unfold Xlog.out
      rw [htk]
      simp [Xlog.Cfg.init, show Nat.testBit 4 2 = true from by decide, show Nat.testBit 4 3 = false from by decide, consoles]
    have hx : Spec.xlogLine now (w.env.usec.toNat / 1000) ⟨lv, tag, none, a⟩ = H ++ a ++ [10] := by
      rw [← hH]
      simp [Spec.xlogLine, Xlog.Spec.levelTag, Xlog.Spec.padR, letter_lvX, hS]
    rw [hx]
    unfold Xlog.events
    split
    · exact hout
    · obtain ⟨b', hb, -⟩ := hw.alloc ((H ++ a ++ 0 :: b).length + 1)
      rw [hb]
      simp only [consoles, consoles_append, hout, List.append_nil]

/-! ## The premises can be met -/

def demoWorld : World :=
  ⟨⟨0, 0, 77, fun n => some (List.replicate n 0)⟩, List.replicate 256 0, List.replicate 512 0⟩

def demoProg : List Op :=
  [.log ⟨.d, [84], none, [120]⟩, .setLevel 6, .setLevel 4, .log ⟨.i, [84], none, [121]⟩, .log ⟨.e, [84], some ([102], 7), [122]⟩,
    .hex .w [84] [171], .setLevel 0, .log ⟨.e, [84], none, [120]⟩]

example : ∀ p ∈ demoProg.map (fun o => (o, demoWorld)), CallOk p.1 p.2 := by
  have hw : ∀ o, (∀ m, o = .log m → MsgOk m) → (∀ lv tag bytes, o = .hex lv tag bytes → (0 : Byte) ∉ tag ∧ bytes.length ≤ 84) →
      CallOk o demoWorld := fun o h1 h2 =>
    ⟨h1, h2, List.length_replicate, List.length_replicate, ⟨by decide, by decide, by decide, by decide, by decide, by decide⟩, by decide,
      fun n => ⟨_, rfl, by simp⟩⟩
  simp only [demoProg, List.map_cons, List.map_nil, List.mem_cons, List.not_mem_nil, or_false]
  rintro p (rfl | rfl | rfl | rfl | rfl | rfl | rfl | rfl) <;> refine hw _ ?_ ?_ <;>
    simp only [Op.log.injEq, Op.hex.injEq, reduceCtorEq, false_implies, implies_true]
  · rintro _ rfl; exact ⟨by decide, by decide, by simp⟩
  · rintro _ rfl; exact ⟨by decide, by decide, by simp⟩
  · rintro _ rfl
    refine ⟨by decide, by decide, ?_⟩
    rintro f n h
    cases h
    decide +kernel
  · rintro lv tag bytes ⟨-, rfl, rfl⟩; exact ⟨by decide, by decide⟩
  · rintro _ rfl; exact ⟨by decide, by decide, by simp⟩

example : (Spec.shown 1 (demoProg.map fun o => (o, ()))).map (·.1) =
    [⟨.d, [84], none, [120]⟩, ⟨.e, [84], some ([102], 7), [122]⟩, ⟨.w, [84], none, [32, 97, 98]⟩] := by
  decide +kernel

end Verif.LogFacade
