import Verif.Xlog.Header
import Verif.Strings.Utf8Hex

/-! # C57: xlog delivers exactly the enabled messages, whole -/
namespace Verif.Xlog
open Strings (decText)
open TimeUtil (TimeOk)
open TimeUtil.Spec (IsLocal stampText Civil)

/-! ## Configurations -/

theorem and_pow (n i : Nat) : decide ((n &&& 2 ^ i) ≠ 0) = n.testBit i := by
  cases h : n.testBit i
  · have : n &&& 2 ^ i = 0 := by
      apply Nat.eq_of_testBit_eq
      intro j
      rw [Nat.testBit_and, Nat.testBit_two_pow, Nat.zero_testBit]
      by_cases hj : i = j
      · subst hj; simp [h]
      · simp [hj]
    simp [this]
  · have : n &&& 2 ^ i ≠ 0 := by
      intro h0
      have := congrArg (fun x => x.testBit i) h0
      simp [Nat.testBit_and, h] at this
    simp [this]

/-- **C57** (configuring): a value in its range is taken, any other changes nothing; no setter touches what another one sets. -/
theorem setter_ranges (c : Cfg) :
    (∀ h : Int, c.set (.timezone h) = some { c with zone := if -12 ≤ h ∧ h ≤ 12 then h else c.zone }) ∧
    (∀ l : Int, c.set (.minLevel l) = some { c with minLevel := if 0 ≤ l ∧ l ≤ 5 then l.toNat else c.minLevel }) ∧
    (∀ m : Int, c.set (.flushMode m) = some { c with flush := if 0 ≤ m then m.toNat else c.flush }) ∧
    (∀ t : Int, 0 ≤ t → c.set (.target t) = some { c with target := t.toNat, console := t.toNat.testBit 2, usercb := t.toNat.testBit 3 }) ∧
    (∀ t : Int, t < 0 → c.set (.target t) = some c) ∧
    (∀ f : Int, 0 ≤ f → c.set (.format f) = some { c with format := f.toNat, fTs := f.toNat.testBit 1, fTag := f.toNat.testBit 2, fTid := f.toNat.testBit 3 }) ∧
    (∀ f : Int, f < 0 → c.set (.format f) = some c) ∧
    (∀ l, c.set (.autoLevelUp l) = some { c with trigger := l }) ∧ (∀ b, c.set (.callback b) = some { c with cb := b }) ∧
    c.set (.defaultTag none) = some c := by
  refine ⟨fun h => ?_, fun l => ?_, fun m => ?_, fun t ht => ?_, fun t ht => ?_, fun f hf => ?_, fun f hf => ?_, fun l => rfl, fun b => rfl, rfl⟩
  · simp only [Cfg.set]
    by_cases k : -12 ≤ h ∧ h ≤ 12
    · rw [if_neg (by omega), if_pos k]
    · rw [if_pos (by omega), if_neg k]
  · simp only [Cfg.set]
    by_cases k : 0 ≤ l ∧ l ≤ 5
    · rw [if_neg (by omega), if_pos k]
    · rw [if_pos (by omega), if_neg k]
  · simp only [Cfg.set]
    by_cases k : 0 ≤ m
    · rw [if_neg (by omega), if_pos k]
    · rw [if_pos (by omega), if_neg k]
  · simp only [Cfg.set]
    rw [if_neg (by omega)]
    have a := and_pow t.toNat 2
    have b := and_pow t.toNat 3
    rw [← a, ← b]
  · simp only [Cfg.set]
    rw [if_pos ht]
  · simp only [Cfg.set]
    rw [if_neg (by omega)]
    have a := and_pow f.toNat 1
    have b := and_pow f.toNat 2
    have d := and_pow f.toNat 3
    rw [← a, ← b, ← d]
  · simp only [Cfg.set]
    rw [if_pos hf]

/-- What the setters keep: the cached flags are the bits of target and format, the level is in range, the
default tag is a string. -/
structure Ok (c : Cfg) : Prop where
  console : c.console = c.target.testBit 2
  usercb : c.usercb = c.target.testBit 3
  fTs : c.fTs = c.format.testBit 1
  fTag : c.fTag = c.format.testBit 2
  fTid : c.fTid = c.format.testBit 3
  level : c.minLevel ≤ 5
  zone : -12 ≤ c.zone ∧ c.zone ≤ 12
  tag : c.tag.length = 24 ∧ ∃ s, c.tag.cstr 0 = some s

/-- A history of configuring calls whose string arguments are strings. -/
inductive Configured : Cfg → Prop where
  | init : Configured Cfg.init
  | set {c c' : Cfg} (a : Set) : Configured c → (∀ t, a = .defaultTag (some t) → ∃ s, t.cstr 0 = some s) →
      c.set a = some c' → Configured c'

/-- No configuring call is undefined. -/
theorem set_defined {c : Cfg} (h : Ok c) (a : Set) (ha : ∀ t, a = .defaultTag (some t) → ∃ s, t.cstr 0 = some s) :
    ∃ c', c.set a = some c' := by
  cases a with
  | defaultTag t =>
    cases t with
    | none => exact ⟨_, rfl⟩
    | some t =>
      obtain ⟨s, hs⟩ := ha t rfl
      obtain ⟨h0, r, rfl⟩ := cstr_some hs
      simp only [Cfg.set]
      rw [Strings.strlcpy_spec c.tag s r 24 h0 (by rw [h.tag.1]; exact Nat.le_refl _)]
      exact ⟨_, rfl⟩
  | _ => exact ⟨_, rfl⟩

/-- **C57.** The invariant of configurations. -/
theorem configured_ok {c : Cfg} (h : Configured c) : Ok c := by
  induction h with
  | init =>
    refine ⟨rfl, rfl, rfl, rfl, rfl, by decide, by decide, rfl, [88, 76, 111, 103], by decide +kernel⟩
  | set a _ ha e ih =>
    cases a with
    | defaultTag t =>
      cases t with
      | none => simp only [Cfg.set, Option.some.injEq] at e; subst e; exact ih
      | some t =>
        obtain ⟨s, hs⟩ := ha t rfl
        obtain ⟨h0, r, rfl⟩ := cstr_some hs
        simp only [Cfg.set] at e
        rw [Strings.strlcpy_spec _ s r 24 h0 (by rw [ih.tag.1]; exact Nat.le_refl _)] at e
        simp only [Option.map_some, Option.some.injEq] at e
        subst e
        refine ⟨ih.console, ih.usercb, ih.fTs, ih.fTag, ih.fTid, ih.level, ih.zone, ?_, s.take 23, ?_⟩
        · simp only [if_neg (by decide : ¬ (24 = 0))]
          rw [Mem.front_length (by simp [ih.tag.1]; omega), ih.tag.1]
        · simp only [if_neg (by decide : ¬ (24 = 0)), Mem.front, List.append_assoc]
          exact Mem.cstr_zero (fun h => h0 (List.mem_of_mem_take h))
    | autoLevelUp l => simp only [Cfg.set, Option.some.injEq] at e; subst e; obtain ⟨⟩ := ih; constructor <;> assumption
    | timezone z =>
      simp only [Cfg.set, Option.some.injEq] at e; subst e
      split
      · exact ih
      · obtain ⟨⟩ := ih; constructor <;> first | assumption | (simp only []; omega)
    | callback f => simp only [Cfg.set, Option.some.injEq] at e; subst e; obtain ⟨⟩ := ih; constructor <;> assumption
    | target t =>
      simp only [Cfg.set, Option.some.injEq] at e; subst e
      split
      · exact ih
      · obtain ⟨⟩ := ih; constructor <;> first | assumption | exact and_pow _ 2 | exact and_pow _ 3
    | minLevel l =>
      simp only [Cfg.set, Option.some.injEq] at e; subst e
      split
      · exact ih
      · obtain ⟨⟩ := ih; constructor <;> first | assumption | (simp only []; omega)
    | format f =>
      simp only [Cfg.set, Option.some.injEq] at e; subst e
      split
      · exact ih
      · obtain ⟨⟩ := ih; constructor <;> first | assumption | exact and_pow _ 1 | exact and_pow _ 2 | exact and_pow _ 3
    | flushMode m =>
      simp only [Cfg.set, Option.some.injEq] at e; subst e
      split
      · exact ih
      · obtain ⟨⟩ := ih; constructor <;> assumption

/-! ## The line -/

/-- The events that carry the line `full`. -/
def out (c : Cfg) (level : Nat) (full : List Byte) : List Ev :=
  (if c.target.testBit 2 then
    [.console (full.takeWhile (· ≠ 0) ++ [10])] ++ (if c.flush ≠ 0 then [.flush] else []) else []) ++
  (if c.target.testBit 3 ∧ c.cb then [.callback level (full ++ [0]) (full.length + 1)] else [])

/-- The events of a call: up to 511 characters need no memory; if there is none for a longer line it is
reported and dropped. -/
def events (c : Cfg) (alloc : Nat → Option Mem) (level : Nat) (full : List Byte) : List Ev :=
  if full.length < 512 then out c level full
  else match alloc (full.length + 1) with
    | none => [.malloc (full.length + 1), .failure, .free]
    | some _ => .malloc (full.length + 1) :: (out c level full ++ [.free])

theorem padR_no0 {n : Nat} {s : List Byte} (h : (0 : Byte) ∉ s) : (0 : Byte) ∉ Spec.padR n s := by
  simp [Spec.padR, h]

theorem letter_ne (l : Nat) : (0 : Byte) ≠ Spec.letter l := by
  unfold Spec.letter; split <;> decide

theorem levelTag_no0 {l : Nat} {s : List Byte} (h : (0 : Byte) ∉ s) : (0 : Byte) ∉ Spec.levelTag l s := by
  have := padR_no0 (n := 8) (fun h' => h (List.mem_of_mem_take h') : (0 : Byte) ∉ s.take 22)
  simp only [Spec.levelTag, List.mem_append, not_or]
  exact ⟨by simp [letter_ne], this⟩

theorem tidText_no0 (tid : Int) : (0 : Byte) ∉ Spec.tidText tid := by
  have : (0 : Byte) ∉ Spec.tidDigits tid := by
    unfold Spec.tidDigits; split
    · simp
    · exact decText_no0 _
  have h2 : (0 : Byte) ∉ (Spec.tidDigits tid).drop ((Spec.tidDigits tid).length - 5) := fun h => this (List.mem_of_mem_drop h)
  simp [Spec.tidText, Spec.padL, h2]

theorem traceText_no0 {f : List Byte} (h : (0 : Byte) ∉ f) (line : Nat) : (0 : Byte) ∉ Spec.traceText f line := by
  simp [Spec.traceText, h, decText_no0]

theorem header_no0 {a b c : List Byte} (ha : (0 : Byte) ∉ a) (hb : (0 : Byte) ∉ b) (hc : (0 : Byte) ∉ c) :
    (0 : Byte) ∉ Spec.header a b c := by
  unfold Spec.header
  split
  · simp
  · simp only [List.mem_append, not_or]; exact ⟨⟨⟨ha, hb⟩, hc⟩, by decide⟩

/-- The premises on a call that are about the time, the thread id and the strings. -/
structure CallOk (c : Cfg) (e : Env) (level : Nat) (tag : Mem) (tagS : List Byte) : Prop where
  time : c.format.testBit 1 = true → TimeOk e.sec e.usec c.zone
  tid : e.tid ≠ -2147483648
  level : level ≤ 6
  tag : tag.cstr 0 = some tagS

theorem header_ok {c : Cfg} (ok : Ok c) {e : Env} {level : Nat} {tag : Mem} {tagS : List Byte} (h : CallOk c e level tag tagS) :
    ∃ t : Civil, (c.format.testBit 1 = true → IsLocal t e.sec c.zone) ∧
      ∃ m, header c e level tag (List.replicate 512 0) =
        some (m, (Spec.lineHeader c.target c.format (stampText t (e.usec.toNat / 1000)) level tagS e.tid).length) ∧
      Buf 512 m (Spec.lineHeader c.target c.format (stampText t (e.usec.toNat / 1000)) level tagS e.tid) ∧
      (0 : Byte) ∉ Spec.lineHeader c.target c.format (stampText t (e.usec.toNat / 1000)) level tagS e.tid ∧
      (Spec.lineHeader c.target c.format (stampText t (e.usec.toNat / 1000)) level tagS e.tid).length ≤ 52 := by
  have b0 : Buf 512 (List.replicate 512 0) [] := ⟨by rw [List.length_replicate], _, rfl⟩
  generalize (List.replicate 512 0 : Mem) = z at b0 ⊢
  have hz512 := b0.1
  obtain ⟨t, hloc, m1, e1, b1⟩ : ∃ t : Civil, (c.format.testBit 1 = true → IsLocal t e.sec c.zone) ∧
      ∃ m1, (if c.fTs then (TimeUtil.getTimeStr .stamp e.sec e.usec (z) c.zone).map fun r => (r.1, r.2.toNat)
        else some (z, 0)) =
        some (m1, (if c.format.testBit 1 then stampText t (e.usec.toNat / 1000) else []).length) ∧
      Buf 512 m1 (if c.format.testBit 1 then stampText t (e.usec.toNat / 1000) else []) := by
    rw [ok.fTs]
    cases hf : c.format.testBit 1
    · exact ⟨TimeUtil.Spec.epoch, by simp, z, by simp, by simpa using b0⟩
    · obtain ⟨t, after, hl, ee, hlen⟩ := TimeUtil.fresh_eq (z) .stamp (h.time hf) (by rw [hz512]; decide)
      refine ⟨t, fun _ => hl, stampText t (e.usec.toNat / 1000) ++ 0 :: after, ?_, ?_⟩
      · rw [if_pos rfl, if_pos rfl]
        unfold TimeUtil.getTimeStr
        rw [ee]
        rfl
      · rw [if_pos rfl]
        exact ⟨hlen.trans hz512, _, rfl⟩
  refine ⟨t, hloc, ?_⟩
  generalize hstamp : (if c.format.testBit 1 then stampText t (e.usec.toNat / 1000) else []) = S at e1 b1
  have hS : S.length ≤ 18 ∧ (0 : Byte) ∉ S := by
    subst hstamp
    split
    · refine ⟨by simp [stampText, TimeUtil.Spec.two, TimeUtil.Spec.three], TimeUtil.text_no0 .stamp t _⟩
    · simp
  have htag0 := (cstr_some h.tag).1
  generalize hT : (if c.format.testBit 2 then Spec.levelTag level tagS else []) = T
  have hT1 : T.length ≤ 25 ∧ (0 : Byte) ∉ T := by
    subst hT
    split
    · exact ⟨levelTag_length _ _, levelTag_no0 htag0⟩
    · simp
  generalize hI : (if c.format.testBit 3 then Spec.tidText e.tid else []) = I
  have e2 : ∃ m2, (if c.fTag then (printLevelTag m1 S.length level tag).map fun r => (r.1, S.length + r.2) else some (m1, S.length)) =
      some (m2, (S ++ T).length) ∧ Buf 512 m2 (S ++ T) := by
    rw [ok.fTag]
    cases hf : c.format.testBit 2
    · rw [hf] at hT; subst hT; exact ⟨m1, by simp, by simpa using b1⟩
    · rw [hf] at hT; subst hT
      obtain ⟨m2, ee, b2⟩ := printLevelTag_ok b1 h.level h.tag (by omega)
      refine ⟨m2, ?_, by simpa using b2⟩
      rw [if_pos rfl, ee]; simp
  obtain ⟨m2, e2, b2⟩ := e2
  have hb2 : (S ++ T).length ≤ 43 := by simp; omega
  have e3 : ∃ m3, (if c.fTid then (printTid m2 (S ++ T).length e.tid).map fun r => (r.1, (S ++ T).length + r.2) else some (m2, (S ++ T).length)) =
      some (m3, (S ++ T ++ I).length) ∧ Buf 512 m3 (S ++ T ++ I) ∧ I.length ≤ 7 ∧ (0 : Byte) ∉ I := by
    rw [ok.fTid]
    cases hf : c.format.testBit 3
    · rw [hf] at hI; subst hI; exact ⟨m2, by simp, by simpa using b2, by simp, by simp⟩
    · rw [hf] at hI; subst hI
      obtain ⟨m3, ee, b3, hl⟩ := printTid_ok b2 h.tid (by omega)
      refine ⟨m3, ?_, by simpa using b3, by simp [hl], by simpa using tidText_no0 e.tid⟩
      rw [if_pos rfl, ee]; simp [hl]; omega
  obtain ⟨m3, e3, b3, hI1⟩ := e3
  have hlh : Spec.lineHeader c.target c.format (stampText t (e.usec.toNat / 1000)) level tagS e.tid =
      if c.target.testBit 2 ∨ c.target.testBit 3 then Spec.header S T I else [] := by
    unfold Spec.lineHeader; rw [hstamp, hT, hI]
  rw [hlh]
  unfold header
  by_cases hw : c.target.testBit 2 ∨ c.target.testBit 3
  · rw [if_pos hw]
    by_cases hfmt : c.format = 0
    · rw [if_neg (by simp [hfmt])]
      have : S = [] ∧ T = [] ∧ I = [] := by
        rw [hfmt] at hstamp hT hI
        simp at hstamp hT hI
        exact ⟨hstamp, hT, hI⟩
      obtain ⟨rfl, rfl, rfl⟩ := this
      exact ⟨_, rfl, b0, by simp [Spec.header], by simp [Spec.header]⟩
    · rw [if_pos ⟨hfmt, by rw [ok.console, ok.usercb]; simpa using hw⟩, e1]
      simp only [Option.bind_eq_bind, Option.bind_some]
      rw [e2]
      simp only [Option.bind_some]
      rw [e3]
      simp only [Option.bind_some]
      have hno := header_no0 hS.2 hT1.2 hI1.2
      by_cases hz : S ++ T ++ I = []
      · rw [if_neg (by rw [hz]; simp)]
        rw [hz] at b3 ⊢
        refine ⟨m3, ?_, ?_, hno, ?_⟩ <;> simp [Spec.header, hz, b3]
      · have hpos : (S ++ T ++ I).length ≠ 0 := fun h => hz (List.length_eq_zero_iff.1 h)
        rw [if_pos hpos]
        have hl3 : (S ++ T ++ I).length ≤ 50 := by simp at hb2 ⊢; omega
        obtain ⟨m4, e4, b4⟩ := b3.poke 58 rfl (by omega)
        rw [e4]
        simp only [Option.bind_some]
        obtain ⟨m5, e5, b5⟩ := b4.poke (i := (S ++ T ++ I).length + 1) 32 (by simp; omega) (by simp at hl3 ⊢; omega)
        rw [e5]
        simp only [Option.bind_some]
        obtain ⟨m6, e6, b6⟩ := b5.poke (i := (S ++ T ++ I).length + 2) 0 (by simp; omega) (by simp at hl3 ⊢; omega)
        rw [e6]
        have hh : Spec.header S T I = S ++ T ++ I ++ [58, 32] := by unfold Spec.header; rw [if_neg hz]
        refine ⟨m6, ?_, ?_, hno, ?_⟩
        · rw [hh]; simp [Nat.add_assoc]
        · rw [hh]
          have := b6.cut
          simpa using this
        · rw [hh]; simp at hl3 ⊢; omega
  · rw [if_neg hw, if_neg (by rw [ok.console, ok.usercb]; simpa using fun _ => hw)]
    exact ⟨_, rfl, b0, by simp, by simp⟩

theorem cstr_take (full r : List Byte) : Mem.cstr (full ++ 0 :: r) 0 = some (full.takeWhile (· ≠ 0)) := by
  have h1 : ∀ l : List Byte, (l ++ 0 :: r).takeWhile (· ≠ (0 : Byte)) = l.takeWhile (· ≠ (0 : Byte)) := by
    intro l
    induction l with
    | nil => simp
    | cons a l ih => simp only [List.cons_append, List.takeWhile_cons, ih]
  have h2 : (full.takeWhile (· ≠ (0 : Byte))).length ≤ full.length := (List.takeWhile_prefix _).length_le
  simp only [Mem.cstr, List.drop_zero, Nat.zero_add]
  rw [h1, if_pos (by simp only [List.length_append, List.length_cons]; omega)]

theorem deliver_ok {c : Cfg} (ok : Ok c) {n : Nat} {m : Mem} {full : List Byte} (h : Buf n m (full ++ [0])) (level : Nat) :
    deliver c level m full.length = some (out c level full) := by
  obtain ⟨h1, r, hr⟩ := h
  have hm : m = full ++ 0 :: r := by rw [hr]; simp
  have h2 : m.load 0 (full.length + 1) = some (full ++ [0]) := by
    rw [Mem.load_eq_some (by rw [hm]; simp), List.drop_zero, hr]
    congr 1
    rw [show full.length + 1 = (full ++ [(0 : Byte)]).length by simp]
    exact List.take_left
  unfold deliver out
  rw [hm, cstr_take, ← hm, h2, ok.console, ok.usercb]
  cases c.target.testBit 2 <;> cases c.target.testBit 3 <;> cases c.cb <;> simp

theorem trace_ok {k : Call} {m : Mem} {w : List Byte} (h : Buf 512 m w) (hw : w.length ≤ 52) {func : Option (List Byte)}
    (hf : k.func.map (fun f => f.cstr 0) = func.map some) (hroom : w.length + (Spec.lineTrace func k.line).length < 512) :
    ∃ m', trace k m w.length = some (m', (w ++ Spec.lineTrace func k.line).length) ∧ Buf 512 m' (w ++ Spec.lineTrace func k.line) ∧
      (0 : Byte) ∉ Spec.lineTrace func k.line := by
  unfold trace
  cases hk : k.func with
  | none =>
    rw [hk] at hf
    cases func with
    | none => exact ⟨m, by simp [Spec.lineTrace], by simpa [Spec.lineTrace] using h, by simp [Spec.lineTrace]⟩
    | some f => simp at hf
  | some f =>
    rw [hk] at hf
    cases func with
    | none => simp at hf
    | some g =>
      simp only [Option.map_some, Option.some.injEq] at hf
      simp only []
      by_cases hl : k.line > 0
      · have e : Spec.lineTrace (some g) k.line = Spec.traceText g k.line.toNat := by simp [Spec.lineTrace, hl]
        rw [e] at hroom ⊢
        rw [if_pos ⟨hl, by omega⟩]
        obtain ⟨m', e', b'⟩ := printFuncLine_ok h hf k.line.toNat hroom
        rw [e']
        exact ⟨m', by simp, b', traceText_no0 (cstr_some hf).1 _⟩
      · have e : Spec.lineTrace (some g) k.line = [] := by simp [Spec.lineTrace, hl]
        rw [e, if_neg (by simp [hl])]
        exact ⟨m, by simp, by simpa using h, by simp⟩

theorem snprintf_ok {n : Nat} {m : Mem} {w : List Byte} (h : Buf n m w) (t : List Byte) {lim : Nat} (h0 : 0 < lim)
    (hn : w.length + lim ≤ n) :
    ∃ m', m.snprintf w.length lim t = some (m', t.length) ∧ Buf n m' (w ++ (t.take (lim - 1) ++ [0])) := by
  unfold Mem.snprintf
  rw [if_neg (by omega)]
  obtain ⟨m', e, b⟩ := h.store (i := w.length) (t.take (lim - 1) ++ [0]) rfl (by simp; omega)
  rw [e]
  exact ⟨m', rfl, b⟩

/-- **C57, main statement.** For every configuration reached by the setters and every message that passes
the filter (evaluated on a possibly older configuration `c0`): with the time, the strings and the thread id in
range and the function name leaving room in the 512-byte buffer, the call delivers exactly
header, function and line, and message, of whatever length and content, to the enabled targets: through the
stack buffer below 512 characters, through one `malloc`/`free` pair above; the callback gets the raised level,
all bytes, a NUL and the exact size. -/
theorem line_delivered {c0 c : Cfg} (hc : Configured c) {e : Env} {k : Call} (hlog : c0.target ≠ 0 ∧ c0.minLevel ≠ 0 ∧ k.level ≤ 5 ∧ c0.minLevel ≤ k.level)
    {tagS : List Byte} (hk : CallOk c e (Spec.raised c.trigger k.level) (k.tag.getD c.tag) tagS)
    {func : Option (List Byte)} (hf : k.func.map (fun f => f.cstr 0) = func.map some)
    (hroom : 52 + (Spec.lineTrace func k.line).length < 512)
    (halloc : ∀ n b, e.alloc n = some b → b.length = n) {t : List Byte} (ht : k.text = some t) :
    ∃ now : Civil, (c.format.testBit 1 = true → IsLocal now e.sec c.zone) ∧
      print c0 c e k = some (events c e.alloc (Spec.raised c.trigger k.level)
        (Spec.lineHeader c.target c.format (stampText now (e.usec.toNat / 1000)) (Spec.raised c.trigger k.level) tagS e.tid ++
          Spec.lineTrace func k.line ++ t)) := by
  have ok := configured_ok hc
  have hlev : (if c.trigger ≠ 0 ∧ k.level < c.trigger then c.trigger else k.level) = Spec.raised c.trigger k.level := by
    unfold Spec.raised; split <;> omega
  generalize Spec.raised c.trigger k.level = L at *
  obtain ⟨now, hnow, m1, e1, b1, hno, hlen⟩ := header_ok ok hk
  refine ⟨now, hnow, ?_⟩
  generalize Spec.lineHeader c.target c.format (stampText now (e.usec.toNat / 1000)) L tagS e.tid = H at *
  unfold print
  rw [if_pos (by simp only [logable, decide_eq_true_eq]; omega)]
  unfold emit
  rw [hlev]
  simp only []
  rw [e1]
  simp only [Option.bind_eq_bind, Option.bind_some]
  obtain ⟨m2, e2, b2, hno2⟩ := trace_ok b1 hlen hf (by omega)
  rw [e2]
  simp only [Option.bind_some]
  rw [ht]
  simp only []
  generalize Spec.lineTrace func k.line = T at *
  have hHT : (H ++ T).length < 512 := by simp; omega
  have hnoHT : (0 : Byte) ∉ H ++ T := by simp only [List.mem_append, not_or]; exact ⟨hno, hno2⟩
  generalize hW : H ++ T = W at *
  obtain ⟨m3, e3, b3⟩ := snprintf_ok b2 t (lim := 512 - W.length) (by omega) (by omega)
  rw [e3]
  simp only [Option.bind_some]
  unfold events
  rw [List.length_append]
  by_cases hs : t.length < 512 - W.length
  · rw [if_pos hs, if_pos (by omega)]
    rw [List.take_of_length_le (by omega), ← List.append_assoc] at b3
    have := deliver_ok ok b3 L
    rw [List.length_append] at this
    exact this
  · rw [if_neg hs, if_neg (by omega), ← Nat.add_assoc]
    cases ha : e.alloc (W.length + t.length + 1) with
    | none => rfl
    | some b =>
      simp only []
      have hb := halloc _ _ ha
      obtain ⟨_, r3, hr3⟩ := b3
      have hm3 : m3.cstr 0 = some ((W ++ t.take (512 - W.length - 1)).takeWhile (· ≠ 0)) := by
        rw [show m3 = (W ++ t.take (512 - W.length - 1)) ++ 0 :: r3 by rw [hr3]; simp]
        exact cstr_take _ _
      obtain ⟨h0s, rs, hrs⟩ := cstr_some hm3
      have hsW : ((W ++ t.take (512 - W.length - 1)).takeWhile (· ≠ (0 : Byte))).take W.length = W := by
        have : ∀ (w l : List Byte), (0 : Byte) ∉ w → ((w ++ l).takeWhile (· ≠ (0 : Byte))).take w.length = w := by
          intro w l h
          induction w with
          | nil => simp
          | cons a w ih =>
            simp only [List.mem_cons, not_or] at h
            rw [List.cons_append, List.takeWhile_cons, if_pos (by simpa using fun h' => h.1 h'.symm), List.length_cons, List.take_succ_cons,
              ih h.2]
        exact this W _ hnoHT
      rw [hrs, Strings.strlcpy_spec b _ rs (W.length + 1) h0s (by omega), if_neg (by omega), Nat.add_sub_cancel, hsW]
      simp only [Option.bind_some]
      have b4 : Buf (W.length + t.length + 1) (b.front (W ++ [0])) W := by
        refine ⟨by rw [Mem.front_length (by simp; omega), hb], [0] ++ b.drop (W ++ [0]).length, by simp [Mem.front]⟩
      obtain ⟨m5, e5, b5⟩ := snprintf_ok b4 t (lim := t.length + 1) (by omega) (by omega)
      rw [e5]
      simp only [Option.bind_some]
      rw [Nat.add_sub_cancel, List.take_length, ← List.append_assoc] at b5
      have := deliver_ok ok b5 L
      rw [List.length_append] at this
      rw [this]
      rfl

/-- **C57.** A message that does not pass the filter has no effect. -/
theorem filtered {c0 c : Cfg} {e : Env} {k : Call} (h : ¬ (c0.target ≠ 0 ∧ c0.minLevel ≠ 0 ∧ k.level < 6 ∧ c0.minLevel ≤ k.level)) :
    print c0 c e k = some [] := by
  unfold print logable
  rw [if_neg (by simpa using h)]

/-- **C57.** Under the premises of `line_delivered`, with memory available: the message appears on the
console exactly if the console is a target and the level is between the minimum, which is not OFF, and ERROR. -/
theorem on_console_iff {c : Cfg} (hc : Configured c) {e : Env} {k : Call}
    {tagS : List Byte} (hk : CallOk c e (Spec.raised c.trigger k.level) (k.tag.getD c.tag) tagS)
    {func : Option (List Byte)} (hf : k.func.map (fun f => f.cstr 0) = func.map some)
    (hroom : 52 + (Spec.lineTrace func k.line).length < 512)
    (halloc : ∀ n, ∃ b, e.alloc n = some b ∧ b.length = n) {t : List Byte} (ht : k.text = some t) :
    ∃ evs, print c c e k = some evs ∧
      ((∃ s, Ev.console s ∈ evs) ↔ c.target.testBit 2 = true ∧ c.minLevel ≠ 0 ∧ c.minLevel ≤ k.level ∧ k.level ≤ 5) ∧
      ((∃ l s n, Ev.callback l s n ∈ evs) ↔
        c.target.testBit 3 = true ∧ c.cb = true ∧ c.minLevel ≠ 0 ∧ c.minLevel ≤ k.level ∧ k.level ≤ 5) := by
  have hbit : ∀ i, c.target.testBit i = true → c.target ≠ 0 := by intro i h h0; simp [h0] at h
  by_cases hl : c.target ≠ 0 ∧ c.minLevel ≠ 0 ∧ k.level ≤ 5 ∧ c.minLevel ≤ k.level
  · obtain ⟨now, _, h⟩ := line_delivered hc hl hk hf hroom (fun n b hb => by obtain ⟨b', h1, h2⟩ := halloc n; rw [h1] at hb; cases hb; exact h2) ht
    refine ⟨_, h, ?_⟩
    generalize Spec.lineHeader c.target c.format (stampText now (e.usec.toNat / 1000)) _ tagS e.tid ++ Spec.lineTrace func k.line ++ t = full
    have hl' := hl
    have hmem : ∀ x, (x ∈ events c e.alloc (Spec.raised c.trigger k.level) full ↔
        x ∈ out c (Spec.raised c.trigger k.level) full ∨ (512 ≤ full.length ∧ (x = .malloc (full.length + 1) ∨ x = .free))) := by
      intro x
      obtain ⟨b, hb, _⟩ := halloc (full.length + 1)
      unfold events
      split
      · constructor
        · exact fun h => Or.inl h
        · rintro (h | h)
          · exact h
          · omega
      · rw [hb]; simp; grind
    constructor
    · simp only [hmem, reduceCtorEq, or_self, and_false, or_false]
      unfold out
      constructor
      · rintro ⟨s, hs⟩
        have : c.target.testBit 2 = true := by
          cases hb : c.target.testBit 2
          · rw [hb] at hs
            simp at hs
          · rfl
        exact ⟨this, hl'.2.1, hl'.2.2.2, by omega⟩
      · rintro ⟨h2, _⟩
        exact ⟨full.takeWhile (· ≠ 0) ++ [10], by rw [if_pos h2]; simp⟩
    · simp only [hmem, reduceCtorEq, or_self, and_false, or_false]
      unfold out
      constructor
      · rintro ⟨l, s, n, hs⟩
        have : c.target.testBit 3 = true ∧ c.cb = true := by
          cases h2 : c.target.testBit 2 <;> cases hb : c.target.testBit 3 <;> cases hcb : c.cb <;> simp [h2, hb, hcb] at hs ⊢
          all_goals split at hs <;> simp at hs
        exact ⟨this.1, this.2, hl'.2.1, hl'.2.2.2, by omega⟩
      · rintro ⟨h2, h3, _⟩
        exact ⟨Spec.raised c.trigger k.level, full ++ [0], full.length + 1, by rw [if_pos (And.intro h2 h3)]; simp⟩
  · have hl' : ¬ (c.target ≠ 0 ∧ c.minLevel ≠ 0 ∧ k.level < 6 ∧ c.minLevel ≤ k.level) := by omega
    refine ⟨[], filtered hl', ?_, ?_⟩
    · simp only [List.not_mem_nil, exists_false, false_iff]
      rintro ⟨h1, h2, h3, h4⟩
      exact hl' ⟨hbit 2 h1, h2, by omega, h3⟩
    · simp only [List.not_mem_nil, exists_false, false_iff]
      rintro ⟨h1, _, h2, h3, h4⟩
      exact hl' ⟨hbit 3 h1, h2, by omega, h3⟩

/-- **C57.** A message whose formatting fails (`vsnprintf` negative) is reported and dropped, under the same
premises. -/
theorem bad_format {c0 c : Cfg} (hc : Configured c) {e : Env} {k : Call}
    (hlog : c0.target ≠ 0 ∧ c0.minLevel ≠ 0 ∧ k.level ≤ 5 ∧ c0.minLevel ≤ k.level)
    {tagS : List Byte} (hk : CallOk c e (Spec.raised c.trigger k.level) (k.tag.getD c.tag) tagS)
    {func : Option (List Byte)} (hf : k.func.map (fun f => f.cstr 0) = func.map some)
    (hroom : 52 + (Spec.lineTrace func k.line).length < 512) (ht : k.text = none) :
    print c0 c e k = some [.failure] := by
  have hlev : (if c.trigger ≠ 0 ∧ k.level < c.trigger then c.trigger else k.level) = Spec.raised c.trigger k.level := by
    unfold Spec.raised; split <;> omega
  obtain ⟨now, -, m1, e1, b1, -, hlen⟩ := header_ok (configured_ok hc) hk
  obtain ⟨m2, e2, -, -⟩ := trace_ok b1 hlen hf (by omega)
  unfold print
  rw [if_pos (by simp only [logable, decide_eq_true_eq]; omega)]
  unfold emit
  rw [hlev]
  simp only []
  rw [e1]
  simp only [Option.bind_eq_bind, Option.bind_some]
  rw [e2]
  simp only [Option.bind_some]
  rw [ht]
  rfl

/-! ## What the premises exclude -/

/-- FINDING: a function name of 512 characters or more is written beyond the 512-byte buffer: only the
32 bytes for the rest are checked (481), not the length of the name. -/
theorem long_function_name_overflows {c0 c : Cfg} (hc : Configured c) {e : Env} {k : Call}
    (hlog : c0.target ≠ 0 ∧ c0.minLevel ≠ 0 ∧ k.level ≤ 5 ∧ c0.minLevel ≤ k.level)
    {tagS : List Byte} (hk : CallOk c e (Spec.raised c.trigger k.level) (k.tag.getD c.tag) tagS)
    {f : Mem} {fS : List Byte} (hfunc : k.func = some f) (hf : f.cstr 0 = some fS) (hlong : 512 ≤ fS.length)
    (hline : 0 < k.line) : print c0 c e k = none := by
  have hlev : (if c.trigger ≠ 0 ∧ k.level < c.trigger then c.trigger else k.level) = Spec.raised c.trigger k.level := by
    unfold Spec.raised; split <;> omega
  obtain ⟨now, -, m1, e1, b1, -, hlen⟩ := header_ok (configured_ok hc) hk
  unfold print
  rw [if_pos (by simp only [logable, decide_eq_true_eq]; omega)]
  unfold emit
  rw [hlev]
  simp only []
  rw [e1]
  simp only [Option.bind_eq_bind, Option.bind_some]
  unfold trace
  rw [hfunc]
  simp only []
  rw [if_pos ⟨hline, by omega⟩]
  unfold printFuncLine
  obtain ⟨m2, e2, b2⟩ := b1.poke 40 rfl (by omega)
  rw [e2]
  simp only [Option.bind_eq_bind, Option.bind_some]
  rw [hf]
  simp only [Option.bind_some]
  have : ∀ i, m2.store (i + 1) fS = none := by
    intro i
    unfold Mem.store
    rw [if_neg (by rw [b2.1]; omega)]
  rw [this]
  rfl

/-- FINDING: `xlog_auto_level_up` accepts any level, and from 7 on the level letter is read beyond its table:
the very next message that shows the level is undefined. -/
theorem auto_level_up_unchecked {c0 c : Cfg} (ok : Ok c) {e : Env} {k : Call}
    (hlog : c0.target ≠ 0 ∧ c0.minLevel ≠ 0 ∧ k.level ≤ 5 ∧ c0.minLevel ≤ k.level)
    (htrig : 7 ≤ c.trigger) (hfmt : c.format.testBit 2 = true) (htgt : c.target.testBit 2 = true) : print c0 c e k = none := by
  unfold print
  rw [if_pos (by simp only [logable, decide_eq_true_eq]; omega)]
  unfold emit
  rw [if_pos ⟨by omega, by omega⟩]
  simp only [Option.bind_eq_bind]
  have hh : ∀ m tag, header c e c.trigger tag m = none := by
    intro m tag
    unfold header
    have h0 : c.format ≠ 0 := by intro h; rw [h] at hfmt; simp at hfmt
    rw [if_pos ⟨h0, by rw [ok.console, htgt]; simp⟩]
    have hl : levelChars[c.trigger]? = none := by
      rw [List.getElem?_eq_none_iff]; exact htrig
    have hp : ∀ m off, printLevelTag m off c.trigger tag = none := by
      intro m off
      unfold printLevelTag
      rw [hl]
      cases m.poke off 32 <;> rfl
    rw [ok.fTag, hfmt]
    simp only [hp]
    generalize (if c.fTs = true then _ else _ : Option (Mem × Nat)) = r
    cases r <;> rfl
  rw [hh]
  rfl

/-- FINDING: a hexadecimal message of 171 bytes or more overflows the 512-byte array on the stack. -/
theorem hex_overflow {c0 c1 c : Cfg} {e : Env} {level : Nat} {tag : Option Mem} {chars junk : Mem} {count : Nat}
    (hlog : c0.target ≠ 0 ∧ c0.minLevel ≠ 0 ∧ level ≤ 5 ∧ c0.minLevel ≤ level) (hcount : count ≤ chars.length)
    (hj : junk.length = 512) (hbig : 171 ≤ count) (h64 : 3 * count < 2 ^ 64) :
    hexPrint c0 c1 c e level tag chars count junk = none := by
  unfold hexPrint
  rw [if_pos (by simp only [logable, decide_eq_true_eq]; omega),
    Strings.char2hex_truncation_overflows junk 512 chars count hcount hj (by omega) (by omega) h64]
  rfl

theorem hexDump_no0 (s : List Byte) : (0 : Byte) ∉ Strings.Spec.hexDump s := by
  have hd : ∀ n, n < 16 → Strings.Spec.hexDigit n ≠ 0 := by
    intro n hn h
    unfold Strings.Spec.hexDigit at h
    have := congrArg UInt8.toNat h
    split at this <;> simp at this <;> omega
  induction s with
  | nil => simp [Strings.Spec.hexDump]
  | cons a s ih =>
    simp [Strings.Spec.hexDump] at ih ⊢
    have := a.toNat_lt
    exact ⟨fun h => hd _ (by omega) h.symm, fun h => hd _ (by omega) h.symm, ih⟩

/-- **C57.** Up to 170 bytes the message is the hexadecimal dump. -/
theorem hex_delivered {c0 c1 c : Cfg} {e : Env} {level : Nat} {tag : Option Mem} {chars junk : Mem} {count : Nat}
    (hlog : c0.target ≠ 0 ∧ c0.minLevel ≠ 0 ∧ level ≤ 5 ∧ c0.minLevel ≤ level) (hcount : count ≤ chars.length)
    (hj : junk.length = 512) (hsmall : count ≤ 170) :
    hexPrint c0 c1 c e level tag chars count junk =
      print c1 c e { level := level, tag := tag, func := none, line := -1, text := some (Strings.Spec.hexDump (chars.take count)) } := by
  unfold hexPrint
  rw [if_pos (by simp only [logable, decide_eq_true_eq]; omega),
    Strings.char2hex_exact_partial junk 512 chars count hcount (by omega) (by omega) (by omega)]
  simp only [Option.bind_eq_bind, Option.bind_some, Mem.front, List.append_assoc, List.singleton_append]
  have hno : (0 : Byte) ∉ Strings.Spec.hexDump (chars.take count) := hexDump_no0 _
  rw [Mem.cstr_zero hno]
  rfl

/-- FINDING: the thread shown is only the last five digits of its number: two threads look the same. -/
theorem tid_ambiguous : Spec.tidText 100007 = Spec.tidText 200007 ∧ Spec.tidText 100007 = [40, 48, 48, 48, 48, 55, 41] ∧
    Spec.tidText 7 = [40, 32, 32, 32, 32, 55, 41] ∧ Spec.tidText 0 = [40, 32, 32, 32, 32, 32, 41] := by
  decide +kernel

/-! ## The premises can be met -/

/-- After `xlog_set_format(TAG|TID)` (12) and `xlog_set_target(12)` with a callback: an INFO message "Hi" of
thread 77 with function `f` and line 42 is seen on the console as
` I/XLog    (   77): (f:42) Hi`. -/
def demoCfg : Cfg :=
  { Cfg.init with format := 12, fTs := false, fTag := true, fTid := true, target := 12, console := true, usercb := true, cb := true }

theorem demo_configured : Configured demoCfg :=
  .set (.callback true) (.set (.target 12) (.set (.format 12) .init (by simp) rfl) (by simp) rfl) (by simp) rfl

def demoLine : List Byte :=
  [32, 73, 47, 88, 76, 111, 103, 32, 32, 32, 32, 40, 32, 32, 32, 55, 55, 41, 58, 32, 40, 102, 58, 52, 50, 41, 32, 72, 105]

theorem demo_print : print demoCfg demoCfg ⟨0, 0, 77, fun n => some (List.replicate n 0)⟩
      ⟨3, none, some [102, 0], 42, some [72, 105]⟩ =
    some [.console (demoLine ++ [10]), .callback 3 (demoLine ++ [0]) 30] := by
  decide +kernel

theorem demo_premises : CallOk demoCfg ⟨0, 0, 77, fun n => some (List.replicate n 0)⟩
    (Spec.raised demoCfg.trigger 3) ((none : Option Mem).getD demoCfg.tag) [88, 76, 111, 103] := by
  refine ⟨fun h => absurd h (by decide), by decide, by decide, by decide +kernel⟩

end Verif.Xlog
