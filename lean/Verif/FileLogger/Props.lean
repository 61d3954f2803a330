import Verif.FileLogger.Worker
import Verif.Integer.Props
import Verif.MsgHandler.Props
import Verif.Strings.Replace

/-! # C65: the file logger -/
namespace Verif.FileLogger
open MsgQueue (Code encHdr decHdr)
open MsgHandler (objLen)
open TimeUtil (TimeOk)
open TimeUtil.Spec (IsLocal fileText Civil)

/-! ## The files -/

/-- The name of a log file opened at `now`. -/
def fileName (f p : List Byte) (now : Civil) (ms : Nat) : List Byte :=
  f ++ p ++ fileText now ms ++ [46, 108, 111, 103]

theorem handleAll_inv {c : Cfg} {f p : List Byte} (hc : CfgOk c f p) {tz : Int} {before : List Byte → Option (List Byte)}
    (l : List (Env × Mem × List Byte))
    (hl : ∀ x ∈ l, EnvOk tz x.1 ∧ x.1.openOk = true ∧ x.1.wr = none ∧ IsMsg x.2.1 x.2.2) :
    ∀ (w : W) (lines names : List (List Byte)), Inv c.maxLen before w lines names →
      (∀ n ∈ names, ∃ now ms, n = fileName f p now ms) →
      ∃ w' names', handleAll c tz w (l.map fun x => (x.1, x.2.1)) = some w' ∧
        Inv c.maxLen before w' (lines ++ ((l.map fun x => x.2.2).filter (· ≠ [])).map Spec.line) names' ∧
        (∀ n ∈ names', ∃ now ms, n = fileName f p now ms) := by
  induction l with
  | nil => intro w lines names h hn; exact ⟨w, names, rfl, by simpa using h, hn⟩
  | cons x l ih =>
    intro w lines names h hn
    obtain ⟨e, m, d⟩ := x
    obtain ⟨he, ho, hw, hm⟩ := hl (e, m, d) (by simp)
    have ih := ih (fun y hy => hl y (by simp [hy]))
    simp only [List.map_cons, handleAll]
    by_cases hd : d = []
    · subst hd
      rw [handle_empty hm]
      simpa using ih w lines names h hn
    · obtain ⟨w', names', e', h', hn'⟩ := handle_ok hc he ho hw h hm hd
      rw [e', Option.bind_some]
      have hn'' : ∀ n ∈ names', ∃ now ms, n = fileName f p now ms := by
        rcases hn' with rfl | ⟨now, _, _, rfl⟩
        · exact hn
        · intro n hn1
          rcases List.mem_append.1 hn1 with hn1 | hn1
          · exact hn n hn1
          · rw [List.mem_singleton] at hn1
            exact ⟨now, _, hn1⟩
      obtain ⟨w2, n2, e2, h2, h3⟩ := ih w' _ names' h' hn''
      refine ⟨w2, n2, e2, ?_, h3⟩
      rw [List.filter_cons, if_pos (by simpa using hd)]
      simpa using h2

/-- **C65, files.** Whatever messages are delivered, with a working file system: their lines (without the empty
messages) are cut into files, each line whole in one file, in order; a file is given up exactly when a line
takes it to the limit (0: never); the names are folder, prefix, time and ".log"; a file holds what was
written to it unless a later one has the same name. -/
theorem files_complete {c : Cfg} {f p : List Byte} (hc : CfgOk c f p) {tz : Int} (before : List Byte → Option (List Byte))
    (l : List (Env × Mem × List Byte))
    (hl : ∀ x ∈ l, EnvOk tz x.1 ∧ x.1.openOk = true ∧ x.1.wr = none ∧ IsMsg x.2.1 x.2.2) :
    ∃ w gs, handleAll c tz (W.init before) (l.map fun x => (x.1, x.2.1)) = some w ∧
      Spec.Cut c.maxLen (((l.map fun x => x.2.2).filter (· ≠ [])).map Spec.line) gs ∧
      w.sess.map Prod.snd = gs.map List.flatten ∧
      (∀ x ∈ w.sess, ∃ now ms, x.1 = fileName f p now ms) ∧
      ∀ n, w.fs n = Spec.replay before w.sess n := by
  have h0 : Inv c.maxLen before (W.init before) [] [] :=
    ⟨Or.inl ⟨rfl, [], rfl, by simp, rfl, rfl⟩, fun _ => rfl⟩
  obtain ⟨w, names, e, h, hn⟩ := handleAll_inv hc l hl _ _ _ h0 (by simp)
  rw [List.nil_append] at h
  generalize ((l.map fun x => x.2.2).filter (· ≠ [])).map Spec.line = L at *
  rcases h.st with ⟨_, gs, h1, h2, h3, h4⟩ | ⟨name, gs, g, ns, h0, h1, h2, h3, h4, h5, h6, h7⟩
  · refine ⟨w, gs, e, ⟨h1, fun g hg => h2 g ((List.dropLast_sublist _).subset hg), fun g hg => Or.inl (h2 g (List.mem_of_getLast? hg))⟩, ?_, ?_, h.fs⟩
    · rw [h3]
      exact List.map_snd_zip (by simp [h4])
    · intro x hx
      rw [h3] at hx
      exact hn _ (List.of_mem_zip hx).1
  · refine ⟨w, gs ++ [g], e, ⟨h2, ?_, ?_⟩, ?_, ?_, h.fs⟩
    · rw [List.dropLast_concat]; exact h3
    · intro x hx
      rw [List.getLast?_concat, Option.some.injEq] at hx
      subst hx
      exact Or.inr h4
    · rw [h6, List.map_append, List.map_append, List.map_snd_zip (by simp [h7])]
      simp
    · intro x hx
      rw [h6] at hx
      rcases List.mem_append.1 hx with hx | hx
      · exact hn _ (by rw [h1]; exact List.mem_append_left _ (List.of_mem_zip hx).1)
      · rw [List.mem_singleton] at hx
        subst hx
        exact hn _ (by rw [h1]; simp)

theorem replay_fresh (l : List (List Byte × List Byte)) (n : List Byte) :
    ∀ before, n ∉ l.map Prod.fst → Spec.replay before l n = before n := by
  induction l with
  | nil => intro _ _; rfl
  | cons a l ih =>
    intro before h
    simp only [List.map_cons, List.mem_cons, not_or] at h
    obtain ⟨m, c⟩ := a
    rw [Spec.replay, ih _ h.2, if_neg h.1]

theorem replay_nodup (l : List (List Byte × List Byte)) :
    ∀ before, (l.map Prod.fst).Nodup → ∀ x ∈ l, Spec.replay before l x.1 = some x.2 := by
  induction l with
  | nil => simp
  | cons a l ih =>
    intro before h x hx
    obtain ⟨m, c⟩ := a
    rw [List.map_cons, List.nodup_cons] at h
    rw [Spec.replay]
    rcases List.mem_cons.1 hx with rfl | hx
    · rw [replay_fresh _ _ _ h.1, if_pos rfl]
    · exact ih _ h.2 x hx

/-- **C65.** With pairwise different names (the limit is not reached twice within one millisecond, and not again
at the same time of another year) every file keeps its lines: nothing is lost. -/
theorem all_kept {c : Cfg} {f p : List Byte} (hc : CfgOk c f p) {tz : Int} (before : List Byte → Option (List Byte))
    (l : List (Env × Mem × List Byte))
    (hl : ∀ x ∈ l, EnvOk tz x.1 ∧ x.1.openOk = true ∧ x.1.wr = none ∧ IsMsg x.2.1 x.2.2) :
    ∃ w, handleAll c tz (W.init before) (l.map fun x => (x.1, x.2.1)) = some w ∧
      ((w.sess.map Prod.fst).Nodup →
        (w.sess.map Prod.fst).map w.fs = w.sess.map (some ∘ Prod.snd) ∧
        (w.sess.map Prod.snd).flatten = (((l.map fun x => x.2.2).filter (· ≠ [])).map Spec.line).flatten) := by
  obtain ⟨w, gs, e, hcut, hs, _, hf⟩ := files_complete hc before l hl
  refine ⟨w, e, fun hnd => ⟨?_, ?_⟩⟩
  · rw [List.map_map]
    apply List.map_congr_left
    intro x hx
    simp only [Function.comp_apply, hf]
    exact replay_nodup _ _ hnd x hx
  · rw [hs, ← hcut.1]
    clear hs hcut
    induction gs with
    | nil => rfl
    | cons g gs ih => simp [ih]

/-! ## Logging -/

/-- `msg_cache_p` between calls. -/
structure CacheOk (k : Cache) : Prop where
  size : k.obj.length = 16 + k.cap
  low : 2048 ≤ k.cap
  high : k.cap ≤ 2 ^ 31
  zero : k.obj.take 12 = List.replicate 12 0

theorem cache_init : CacheOk Cache.init := by
  refine ⟨?_, by decide, by decide, ?_⟩
  · simp only [Cache.init, List.length_replicate]
  · simp only [Cache.init, List.take_replicate]; rfl

/-- The object pushed for `msg`. -/
structure IsObj (o : Mem) (msg : List Byte) : Prop where
  size : 16 + msg.length ≤ o.length
  head : o.take 16 = List.replicate 12 0 ++ encHdr (BitVec.ofNat 32 msg.length)
  body : (o.drop 16).take msg.length = msg

theorem fill_ok {k : Cache} (hk : CacheOk k) {msg : List Byte} (h : msg.length ≤ k.cap) :
    ∃ o, ((k.obj.store 16 msg).bind fun o => o.store 12 (encHdr (BitVec.ofNat 32 msg.length))) = some o ∧
      IsObj o msg ∧ CacheOk ⟨o, k.cap⟩ := by
  have hs := hk.size
  have hz := hk.zero
  have hlow := hk.low
  have hhigh := hk.high
  obtain ⟨obj, cap⟩ := k
  simp only [] at *
  obtain ⟨a, b, c, rfl, ha, hb⟩ : ∃ a b c, obj = a ++ b ++ c ∧ a.length = 12 ∧ b.length = 4 :=
    ⟨obj.take 12, (obj.drop 12).take 4, obj.drop 16, by
      rw [List.append_assoc, ← List.drop_drop (i := 4) (j := 12), List.take_append_drop, List.take_append_drop],
      by simp; omega, by simp; omega⟩
  have hza : a = List.replicate 12 0 := by
    rw [List.append_assoc, List.take_append_of_le_length (by omega), List.take_of_length_le (by omega)] at hz
    exact hz
  have hc : c.length = cap := by simp at hs; omega
  rw [Mem.store_eq_some (by simp; omega)]
  simp only [Option.bind_some]
  have e1 : (a ++ b ++ c).take 16 = a ++ b := by
    rw [List.take_append_of_le_length (by simp; omega), List.take_of_length_le (by simp; omega)]
  have e2 : (a ++ b ++ c).drop (16 + msg.length) = c.drop msg.length := by
    rw [← List.drop_drop, List.drop_append_of_le_length (by simp; omega), List.drop_of_length_le (l := a ++ b) (by simp; omega), List.nil_append]
  rw [e1, e2]
  have henc : (encHdr (BitVec.ofNat 32 msg.length)).length = 4 := rfl
  rw [Mem.store_eq_some (by simp [henc]; omega)]
  have e3 : (a ++ b ++ msg ++ c.drop msg.length).take 12 = a := by
    rw [List.append_assoc, List.append_assoc, List.take_append_of_le_length (by omega), List.take_of_length_le (by omega)]
  have e4 : (a ++ b ++ msg ++ c.drop msg.length).drop (12 + (encHdr (BitVec.ofNat 32 msg.length)).length) = msg ++ c.drop msg.length := by
    rw [henc, List.append_assoc (a ++ b), List.drop_append_of_le_length (by simp; omega), List.drop_of_length_le (l := a ++ b) (by simp; omega), List.nil_append]
  rw [e3, e4]
  refine ⟨_, rfl, ⟨?_, ?_, ?_⟩, ⟨?_, hlow, hhigh, ?_⟩⟩
  · simp [henc]; omega
  · rw [List.take_append_of_le_length (by simp [henc]; omega), List.take_of_length_le (by simp [henc]; omega), hza]
  · rw [List.drop_append_of_le_length (by simp [henc]; omega), List.drop_of_length_le (l := a ++ _) (by simp [henc]; omega), List.nil_append,
      List.take_append_of_le_length (by omega), List.take_length]
  · simp [henc]; omega
  · rw [List.append_assoc, List.take_append_of_le_length (by omega), List.take_of_length_le (by omega), hza]

theorem grow_ok {k : Cache} (hk : CacheOk k) {size : Nat} (h : size ≤ 2 ^ 31) {mem : Nat → Option Mem}
    (hm : ∀ n b, mem n = some b → b.length = n) :
    (grow k size mem = some none ∧ k.cap < size ∧ ∃ n, size ≤ n ∧ mem (16 + n) = none) ∨
    ∃ k', grow k size mem = some (some k') ∧ CacheOk k' ∧ size ≤ k'.cap := by
  unfold grow
  have hlow := hk.low
  by_cases hs : size > k.cap
  · rw [if_pos hs]
    simp only []
    have hN : (BitVec.ofNat 32 size).toNat = size := by rw [BitVec.toNat_ofNat, Nat.mod_eq_of_lt (by omega)]
    obtain ⟨e, he, h1, h2, h3⟩ := Integer.roundup_least (BitVec.ofNat 32 size) (by omega) (by omega)
    rw [hN] at h2 h3
    have h4 := h3 31 (by omega) h
    generalize (Integer.roundup (BitVec.ofNat 32 size)).toNat = n at *
    cases hb : mem (16 + n) with
    | none => exact Or.inl ⟨rfl, hs, n, h2, hb⟩
    | some b =>
      have hbl := hm _ _ hb
      have hsz := hk.size
      refine Or.inr ⟨_, rfl, ⟨?_, by simp only []; omega, by simp only []; omega, ?_⟩, h2⟩
      · simp [realloc]; omega
      · have := hk.zero
        simp only [realloc]
        rw [List.take_take, Nat.min_eq_left (by omega), List.take_append_of_le_length (by omega), this]
  · rw [if_neg hs]
    exact Or.inr ⟨k, rfl, hk, by omega⟩

/-- What the file of lost messages gets. -/
def lostText (msg : List Byte) : List Byte := msg.takeWhile (· ≠ 0) ++ [10, 10]

/-- **C65, logging.** A message below 2^31 bytes: nothing undefined happens; the message is pushed once, or
twice if "try my best" is set and the first push fails; the status of the last push is returned (out of memory: no
push, `BUF_NOT_ENOUGH`); the lost file gets it exactly if it was not accepted and "try my best" is set. -/
theorem log_spec {best : Bool} {k : Cache} (hk : CacheOk k) {msg : List Byte} (h : msg.length < 2 ^ 31)
    {mem : Nat → Option Mem} (hm : ∀ n b, mem n = some b → b.length = n) (push : Nat → Code) (lostOk : Bool) :
    ∃ r, log best k msg mem push lostOk = some r ∧ CacheOk r.cache ∧
      ((r.pushed = [] ∧ r.status = .bufNotEnough ∧ k.cap < msg.length ∧ ∃ n, msg.length ≤ n ∧ mem (16 + n) = none) ∨
       (∃ o, IsObj o msg ∧ r.pushed = [o] ∧ r.status = push 0 ∧ (push 0 = .success ∨ best = false)) ∨
       (∃ o1 o2, IsObj o1 msg ∧ IsObj o2 msg ∧ r.pushed = [o1, o2] ∧ r.status = push 1 ∧ push 0 ≠ .success ∧ best = true)) ∧
      r.lost = if r.status ≠ .success ∧ best = true ∧ lostOk = true then some (lostText msg) else none := by
  have hpr : printed msg (prec (BitVec.ofNat 32 msg.length)) = some (msg.takeWhile (· ≠ 0)) := by
    have hN : (BitVec.ofNat 32 msg.length).toNat = msg.length := by rw [BitVec.toNat_ofNat, Nat.mod_eq_of_lt (by omega)]
    unfold prec
    rw [if_neg (by rw [BitVec.toInt_eq_toNat_of_lt (by omega)]; omega), hN]
    exact printed_ok msg
  have hfin : ∀ k' st out, ∃ r, (if st ≠ Code.success ∧ best = true ∧ lostOk = true then do
        let t ← printed msg (prec (BitVec.ofNat 32 msg.length))
        return (⟨k', st, out, some (t ++ [10, 10])⟩ : Logged) else return ⟨k', st, out, none⟩) = some r ∧ r.cache = k' ∧ r.status = st ∧ r.pushed = out ∧
        r.lost = if r.status ≠ .success ∧ best = true ∧ lostOk = true then some (lostText msg) else none := by
    intro k' st out
    rw [hpr]
    split
    · next hc => exact ⟨_, rfl, rfl, rfl, rfl, by rw [if_pos hc]; rfl⟩
    · next hc => exact ⟨_, rfl, rfl, rfl, rfl, by rw [if_neg hc]⟩
  unfold log
  rw [attempts]
  rcases grow_ok hk (size := msg.length) (by omega) hm with ⟨g1, g2, g3⟩ | ⟨k1, g1, hk1, g2⟩
  · rw [g1]
    obtain ⟨r, e, h1, h2, h3, h4⟩ := hfin k .bufNotEnough []
    refine ⟨r, e, h1 ▸ hk, Or.inl ⟨h3, h2, g2, g3⟩, h4⟩
  · rw [g1]
    obtain ⟨o, eo, ho, hk2⟩ := fill_ok hk1 g2
    simp only [Option.bind_eq_bind] at eo ⊢
    rw [← Option.bind_assoc, eo]
    simp only [Option.bind_some, List.nil_append]
    by_cases hp : push 0 = .success
    · rw [if_pos hp]
      obtain ⟨r, e, h1, h2, h3, h4⟩ := hfin ⟨o, k1.cap⟩ (push 0) [o]
      exact ⟨r, e, h1 ▸ hk2, Or.inr (Or.inl ⟨o, ho, h3, h2, Or.inl hp⟩), h4⟩
    · rw [if_neg hp]
      cases best with
      | false =>
        obtain ⟨r, e, h1, h2, h3, h4⟩ := hfin ⟨o, k1.cap⟩ (push 0) [o]
        exact ⟨r, e, h1 ▸ hk2, Or.inr (Or.inl ⟨o, ho, h3, h2, Or.inr rfl⟩), h4⟩
      | true =>
        simp only [Bool.not_true, Bool.false_eq_true, if_false]
        rw [attempts]
        have g3 : grow ⟨o, k1.cap⟩ msg.length mem = some (some ⟨o, k1.cap⟩) := by
          unfold grow; rw [if_neg (by simp only []; omega)]
        rw [g3]
        obtain ⟨o2, eo2, ho2, hk3⟩ := fill_ok hk2 g2
        simp only [Option.bind_eq_bind] at eo2 ⊢
        rw [← Option.bind_assoc, eo2]
        simp only [Option.bind_some, attempts]
        have : (if push 1 = Code.success then some ((⟨o2, k1.cap⟩ : Cache), push 1, [o] ++ [o2]) else
            if (!true) = true then some (⟨o2, k1.cap⟩, push 1, [o] ++ [o2]) else some (⟨o2, k1.cap⟩, push 1, [o] ++ [o2])) =
            some (⟨o2, k1.cap⟩, push 1, [o, o2]) := by split <;> simp
        obtain ⟨r, e, h1, h2, h3, h4⟩ := hfin ⟨o2, k1.cap⟩ (push 1) [o, o2]
        refine ⟨r, ?_, h1 ▸ hk3, Or.inr (Or.inr ⟨o, o2, ho, ho2, h3, h2, hp, trivial⟩), by simpa using h4⟩
        rw [← e]
        simp only [Nat.zero_add] at this ⊢
        simp only [this, Option.bind_some]
        rfl

/-- FINDING: a message of more than 2^31 bytes overflows the heap block (the rounded size is at most 2^31, or
0), unless memory runs out first. -/
theorem huge_message_overflows {best : Bool} {k : Cache} (hk : CacheOk k) {msg : List Byte} (h : 2 ^ 31 < msg.length)
    {mem : Nat → Option Mem} (hm : ∀ n, ∃ b, mem n = some b ∧ b.length = n) (push : Nat → Code) (lostOk : Bool) :
    log best k msg mem push lostOk = none := by
  unfold log
  rw [attempts]
  have hcap := hk.high
  have : (Integer.roundup (BitVec.ofNat 32 msg.length)).toNat ≤ 2 ^ 31 := by
    by_cases h1 : 2 ^ 31 < (BitVec.ofNat 32 msg.length).toNat
    · rw [Integer.roundup_overflow _ h1]; decide
    · by_cases h0 : (BitVec.ofNat 32 msg.length).toNat = 0
      · have : BitVec.ofNat 32 msg.length = 0#32 := BitVec.eq_of_toNat_eq (by rw [h0]; rfl)
        rw [this, Integer.roundup_zero]; decide
      · obtain ⟨e, he, h1', h2, h3⟩ := Integer.roundup_least (BitVec.ofNat 32 msg.length) (by omega) (by omega)
        exact h3 31 (by omega) (by omega)
  unfold grow
  rw [if_pos (by omega)]
  simp only []
  obtain ⟨b, hb, hbl⟩ := hm (16 + (Integer.roundup (BitVec.ofNat 32 msg.length)).toNat)
  rw [hb]
  simp only [Option.bind_eq_bind]
  have hst : (realloc k.obj (16 + (Integer.roundup (BitVec.ofNat 32 msg.length)).toNat) b).store 16 msg = none := by
    unfold Mem.store
    rw [if_neg]
    simp only [realloc, List.length_take]
    omega
  rw [hst]
  rfl

/-! ## Initialisation -/

/-- `\\` to `/`. -/
def slashed (s : List Byte) : List Byte := s.map fun c => if c = 92 then 47 else c

/-- With a slash at the end; a path of 127 characters loses its last one. -/
def withSlash (s : List Byte) : List Byte :=
  if s.getLast? = some 47 then s else if s.length < 127 then s ++ [47] else s.dropLast ++ [47]

theorem replace_slash (s : List Byte) : Strings.Spec.replace [92] [47] s = slashed s := by
  induction s with
  | nil => rw [Strings.Spec.replace]; rfl
  | cons c s ih =>
    rw [Strings.Spec.replace, slashed, List.map_cons]
    by_cases h : c = 92
    · subst h
      rw [if_pos ⟨by simp, by simp⟩, if_pos rfl]
      simp only [List.length_singleton, List.drop_succ_cons, List.drop_zero, ih]
      rfl
    · rw [if_neg (by simp; exact fun h' => h h'.symm), if_neg h, ih]
      rfl

theorem fixFolder_ok {folder : Mem} {s : List Byte} (hs : folder.cstr 0 = some s) (h2 : 1 ≤ s.length) (hl : folder.length = 128)
    {mem : Nat → Option Mem} (hm : ∀ n b, mem n = some b → b.length = n) (hmem : (mem (s.length + 1)).isSome) :
    ∃ m, fixFolder folder mem = some m ∧ m.length = 128 ∧ m.cstr 0 = some (withSlash (slashed s)) := by
  obtain ⟨hs1, hs0⟩ := cstr_lt hs
  rw [hl] at hs1
  have hsl : (slashed s).length = s.length := by simp [slashed]
  have hs0' : (0 : Byte) ∉ slashed s := by
    simp only [slashed, List.mem_map, not_exists, not_and]
    intro c hc
    split
    · decide
    · intro h; exact hs0 (h ▸ hc)
  unfold fixFolder
  rw [hs]
  simp only [Option.bind_eq_bind, Option.bind_some]
  rw [Strings.strreplace_spec s [92] [47] mem (s.length + 1) (by simp) (by omega) hm (by rw [replace_slash]; omega) (by simp) (by simp)]
  rw [replace_slash, hsl]
  obtain ⟨b, hb⟩ := Option.isSome_iff_exists.1 hmem
  rw [hb]
  simp only [Option.map_some, Option.bind_some]
  rw [Strings.strlcpy_spec folder (slashed s) [] 128 hs0' (by omega), if_neg (by decide), List.take_of_length_le (by omega)]
  simp only [Option.bind_some]
  have b1 : Xlog.Buf 128 (folder.front (slashed s ++ [0])) (slashed s ++ [0]) :=
    ⟨by rw [Mem.front_length (by simp; omega), hl], _, rfl⟩
  generalize folder.front (slashed s ++ [0]) = m1 at b1 ⊢
  have hc1 : m1.cstr 0 = some (slashed s) := by
    obtain ⟨_, r, hr⟩ := b1
    rw [hr, List.append_assoc]
    exact Mem.cstr_zero hs0'
  have hlast : m1[s.length - 1]? = (slashed s).getLast? := by
    obtain ⟨_, r, hr⟩ := b1
    rw [hr, List.append_assoc, List.getElem?_append_left (by omega), List.getLast?_eq_getElem?, hsl]
  unfold Mem.strlen
  rw [hc1]
  simp only [Option.map_some, Option.bind_some]
  rw [hsl, if_neg (by omega), hlast]
  obtain ⟨t, x, hx⟩ : ∃ t x, slashed s = t ++ [x] := by
    refine ⟨(slashed s).dropLast, (slashed s).getLast (by intro h; rw [h] at hsl; simp at hsl; omega), ?_⟩
    rw [List.dropLast_concat_getLast]
  have htl : t.length + 1 = s.length := by rw [← hsl, hx]; simp
  unfold withSlash
  rw [hx] at b1 hc1 hs0' ⊢
  rw [List.getLast?_concat]
  simp only [Option.bind_some, Option.some.injEq]
  by_cases h47 : x = 47
  · rw [if_neg (by simpa using h47), if_pos h47]
    exact ⟨m1, rfl, b1.1, hc1⟩
  · rw [if_pos h47, if_neg h47]
    have ht0 : (0 : Byte) ∉ t := fun h => hs0' (by simp [h])
    by_cases hroom : s.length + 1 < 128
    · rw [if_pos hroom, if_pos (by simp; omega)]
      obtain ⟨m2, e2, b2⟩ := b1.cut.poke (i := s.length) 47 (by simp; omega) (by simp; omega)
      rw [e2]
      simp only [Option.bind_some]
      obtain ⟨m3, e3, b3⟩ := b2.poke (i := s.length + 1) 0 (by simp; omega) (by simp; omega)
      refine ⟨m3, e3, b3.1, ?_⟩
      obtain ⟨_, r, hr⟩ := b3
      rw [hr, List.append_assoc]
      exact Mem.cstr_zero (by simp at hs0' ⊢; exact hs0')
    · rw [if_neg hroom, if_neg (by simp; omega), List.dropLast_concat]
      have b1' : Xlog.Buf 128 m1 t := b1.cut.cut
      obtain ⟨m2, e2, b2⟩ := b1'.poke (i := s.length - 1) 47 (by omega) (by omega)
      rw [e2]
      simp only [Option.bind_some]
      obtain ⟨m3, e3, b3⟩ := b2.poke (i := s.length - 1 + 1) 0 (by simp; omega) (by simp; omega)
      refine ⟨m3, e3, b3.1, ?_⟩
      obtain ⟨_, r, hr⟩ := b3
      rw [hr, List.append_assoc]
      exact Mem.cstr_zero (by simp [ht0])

/-- **C65, initialisation.** With memory, and a folder of at least 2 characters and a queue of at least 2 KiB,
the logger starts if the queue can be created; backslashes of the folder become slashes and it ends in one; a limit
below 64 means none. -/
theorem init_ok {c : Cfg} {f p : List Byte} (hc : CfgOk c f p) (h2 : 2 ≤ f.length) (hq : 2 ≤ c.queueSize)
    {create : BitVec 32 → Bool} {mem : Nat → Option Mem} (hm : ∀ n b, mem n = some b → b.length = n)
    (hmem : (mem (f.length + 1)).isSome) (hcr : create (BitVec.ofNat 32 c.queueSize * 1024#32) = true) :
    ∃ c', init c true true create mem = some (some c') ∧ CfgOk c' (withSlash (slashed f)) p ∧
      c'.maxLen = (if c.maxLen < 64 then 0 else c.maxLen) ∧ c'.best = c.best := by
  obtain ⟨m, e, hl, hs⟩ := fixFolder_ok hc.folder (by omega) hc.size1 hm hmem
  unfold init Mem.strlen
  rw [hc.folder]
  simp only [Option.map_some, Option.bind_eq_bind, Option.bind_some]
  rw [if_neg (by omega), if_neg (by omega), hcr, e]
  refine ⟨_, rfl, ⟨hs, hc.pre, hl, hc.size2⟩, ?_, rfl⟩
  simp only []
  split <;> split <;> omega

/-- **C65.** Otherwise NULL is returned, before anything is touched. -/
theorem init_refuses {c : Cfg} {f p : List Byte} (hc : CfgOk c f p) {a1 a2 : Bool} {create : BitVec 32 → Bool} {mem : Nat → Option Mem}
    (h : f.length < 2 ∨ c.queueSize < 2 ∨ a1 = false ∨ a2 = false ∨ create (BitVec.ofNat 32 c.queueSize * 1024#32) = false) :
    init c a1 a2 create mem = some none := by
  unfold init Mem.strlen
  rw [hc.folder]
  simp only [Option.map_some, Option.bind_eq_bind, Option.bind_some]
  split
  · rfl
  split
  · rfl
  cases a1
  · rfl
  cases a2
  · rfl
  have : create (BitVec.ofNat 32 c.queueSize * 1024#32) = false := by
    rcases h with h | h | h | h | h
    · omega
    · omega
    · simp at h
    · simp at h
    · exact h
  rw [this]
  rfl

/-- FINDING: a queue of 4 GiB is asked for as a queue of 0 bytes, which is refused. -/
theorem queue_size_wraps : BitVec.ofNat 32 4194304 * 1024#32 = 0#32 := by decide

/-! ## From the call to the file -/

/-- The object pushed is a message whose content, as delivered by the queue, carries the bytes logged. -/
theorem isObj_content {o : Mem} {d : List Byte} (h : IsObj o d) (hd : d.length < 2 ^ 31) :
    ∃ m : MsgHandler.Msg, m.obj = o ∧ IsMsg (MsgHandler.Spec.content m) d := by
  have hN : (BitVec.ofNat 32 d.length).toNat = d.length := by rw [BitVec.toNat_ofNat, Nat.mod_eq_of_lt (by omega)]
  have hdec : ∀ n : BitVec 32, decHdr (encHdr n) = some n := by
    intro n
    have := n.isLt
    simp only [encHdr, decHdr, Option.some.injEq]
    apply BitVec.eq_of_toNat_eq
    rw [BitVec.toNat_ofNat]
    simp only [UInt8.toNat_ofNat']
    omega
  have hhd : ∀ m : Mem, m.take 16 = o.take 16 → objLen m = BitVec.ofNat 32 d.length := by
    intro m hm
    have : (m.drop 12).take 4 = encHdr (BitVec.ofNat 32 d.length) := by
      have h1 : (m.take 16).drop 12 = (m.drop 12).take 4 := by rw [List.drop_take]
      rw [← h1, hm, h.head, List.drop_append_of_le_length (by simp), List.drop_of_length_le (by simp), List.nil_append]
    unfold objLen
    rw [this, hdec]
    rfl
  have hlen := hhd o rfl
  have hsz : (MsgHandler.msgSize o).toNat = 16 + d.length := by
    unfold MsgHandler.msgSize
    rw [hlen, BitVec.toNat_add, hN, show (16#32).toNat = 16 from rfl, Nat.mod_eq_of_lt (by omega)]
  refine ⟨⟨o, by have := h.size; omega, by rw [hsz]; exact h.size⟩, rfl, ?_⟩
  have hc : MsgHandler.Spec.content ⟨o, by have := h.size; omega, by rw [hsz]; exact h.size⟩ = o.take (16 + d.length) := by
    show o.take (16 + objLen o).toNat = _
    rw [show (16 + objLen o) = MsgHandler.msgSize o from rfl, hsz]
  rw [hc]
  refine ⟨?_, hhd _ ?_, hd⟩
  · rw [List.drop_take, show 16 + d.length - 16 = d.length by omega]
    exact h.body
  · rw [List.take_take, Nat.min_eq_left (by omega)]

/-- The messages carry these bytes, one by one. -/
inductive Carries : List Mem → List (List Byte) → Prop where
  | nil : Carries [] []
  | cons {m d : List Byte} {ms ds : List (List Byte)} : IsMsg m d → Carries ms ds → Carries (m :: ms) (d :: ds)

theorem Carries.length_eq {ms ds : List (List Byte)} (h : Carries ms ds) : ms.length = ds.length := by
  induction h with
  | nil => rfl
  | cons _ _ ih => simp [ih]

/-- The callback invocations of a worker that has been handed these messages. -/
def handled (env : Nat → Env) (delivered : List (List Byte)) : List (Env × Mem) :=
  delivered.zipIdx.map fun (m, i) => (env i, m)

/-- **C65, end to end.** In every reachable state of the queue and its worker (C51) whose pushes all carry logged
messages: the files hold, cut as above, the lines of the first `k` of the messages that `file_logger_log` has
accepted so far (in order; possibly with the one being pushed right now); of all of them once the worker sleeps. -/
theorem end_to_end {c : Cfg} {f p : List Byte} (hc : CfgOk c f p) {tz : Int} (before : List Byte → Option (List Byte))
    {s : MsgHandler.Sys} (hs : MsgHandler.Reach s) {ds : List (List Byte)}
    (hds : Carries (MsgHandler.Spec.accepted s.results ++ MsgHandler.Spec.inProgress s.prod) ds)
    {env : Nat → Env} (he : ∀ i, EnvOk tz (env i) ∧ (env i).openOk = true ∧ (env i).wr = none) :
    ∃ k w gs, k = s.delivered.length ∧ handleAll c tz (W.init before) (handled env s.delivered) = some w ∧
      Spec.Cut c.maxLen (((ds.take k).filter (· ≠ [])).map Spec.line) gs ∧
      w.sess.map Prod.snd = gs.map List.flatten ∧
      (∀ n, w.fs n = Spec.replay before w.sess n) ∧
      (MsgHandler.Spec.Asleep s → s.prod = .idle → ds.take k = ds) := by
  have hpre := MsgHandler.delivered_in_order hs
  have hdel : ∀ (l : List (List Byte)) (a : List (List Byte)) (ds : List (List Byte)), l <+: a → Carries a ds →
      Carries l (ds.take l.length) := by
    intro l
    induction l with
    | nil => intro a ds _ _; rw [List.length_nil, List.take_zero]; exact .nil
    | cons x l ih =>
      intro a ds hp hf
      obtain ⟨r, rfl⟩ := hp
      rw [List.cons_append] at hf
      cases hf with
      | cons h1 h2 =>
        rw [List.length_cons, List.take_succ_cons]
        exact .cons h1 (ih _ _ ⟨r, rfl⟩ h2)
  have hd := hdel _ _ _ hpre hds
  have hz : ∀ (l ds : List (List Byte)) (n : Nat), Carries l ds →
      ∃ t : List (Env × Mem × List Byte), t.map (fun x => (x.1, x.2.1)) = (l.zipIdx n).map (fun (m, i) => (env i, m)) ∧
        t.map (fun x => x.2.2) = ds ∧ ∀ x ∈ t, EnvOk tz x.1 ∧ x.1.openOk = true ∧ x.1.wr = none ∧ IsMsg x.2.1 x.2.2 := by
    intro l ds n h
    induction h generalizing n with
    | nil => exact ⟨[], rfl, rfl, by simp⟩
    | @cons x d l ds h1 _ ih =>
      obtain ⟨t, e1, e2, e3⟩ := ih (n + 1)
      refine ⟨(env n, x, d) :: t, ?_, ?_, ?_⟩
      · rw [List.zipIdx_cons, List.map_cons, List.map_cons, e1]
      · rw [List.map_cons, e2]
      · intro y hy
        rcases List.mem_cons.1 hy with rfl | hy
        · exact ⟨(he n).1, (he n).2.1, (he n).2.2, h1⟩
        · exact e3 y hy
  obtain ⟨t, e1, e2, e3⟩ := hz s.delivered _ 0 hd
  obtain ⟨w, gs, h1, h2, h3, _, h5⟩ := files_complete hc before t e3
  refine ⟨_, w, gs, rfl, ?_, ?_, h3, h5, ?_⟩
  · rw [← h1, e1]; rfl
  · rw [← e2]; exact h2
  · intro ha hp
    have := MsgHandler.asleep_all_delivered hs ha hp
    rw [this]
    apply List.take_of_length_le
    have hl := hds.length_eq
    rw [hp] at hl
    simp only [MsgHandler.Spec.inProgress, List.append_nil] at hl
    omega

/-! ## Concrete cases -/

/-- Folder "d/", prefix "p", limit 64. -/
def demoCfg : Cfg := ⟨[100, 47] ++ List.replicate 126 0, [112] ++ List.replicate 31 0, 64, 2, true⟩

theorem demoCfg_ok : CfgOk demoCfg [100, 47] [112] := ⟨by decide +kernel, by decide +kernel, by decide +kernel, by decide +kernel⟩

/-- `queue_msg_t` with the bytes `d`. -/
def demoMsg (d : List Byte) : Mem := List.replicate 12 0 ++ encHdr (BitVec.ofNat 32 d.length) ++ d

def demoEnv (usec : Int) : Env := ⟨1000000000, usec, true, none, List.replicate 24 0, List.replicate 256 0⟩

theorem demoEnv_ok (usec : Int) (h0 : 0 ≤ usec) (h1 : usec < 1000000) : EnvOk 8 (demoEnv usec) :=
  ⟨⟨by simp only [demoEnv]; omega, by simp only [demoEnv]; omega, by omega, by simp only [demoEnv]; omega, h0, h1⟩, by simp only [demoEnv, List.length_replicate],
    by simp only [demoEnv, List.length_replicate]⟩

/-- 70 letters: one line fills a file. -/
def longMsg : List Byte := List.replicate 70 65

theorem demo_isMsg : IsMsg (demoMsg longMsg) longMsg := by
  refine ⟨by decide +kernel, by decide +kernel, by decide +kernel⟩

/-- The premises of `files_complete` and `all_kept` hold; two such messages a millisecond apart give two files … -/
example : ((handleAll demoCfg 8 (W.init fun _ => none) [(demoEnv 5000, demoMsg longMsg), (demoEnv 6000, demoMsg longMsg)]).map
    fun w => (w.sess.map Prod.fst, w.sess.map (fun x => (w.fs x.1).map List.length))) =
    some ([fileName [100, 47] [112] ⟨2001, 8, 9, 9, 46, 40⟩ 5, fileName [100, 47] [112] ⟨2001, 8, 9, 9, 46, 40⟩ 6], [some 71, some 71]) := by
  decide +kernel

/-- FINDING: … but within one millisecond the second replaces the first, whose lines are gone although both
messages were accepted and written without an error. -/
theorem same_millisecond_overwrites : ((handleAll demoCfg 8 (W.init fun _ => none)
      [(demoEnv 5000, demoMsg longMsg), (demoEnv 5900, demoMsg longMsg)]).map
    fun w => (w.sess.map Prod.fst, w.sess.map (fun x => (w.fs x.1).map List.length))) =
    some ([fileName [100, 47] [112] ⟨2001, 8, 9, 9, 46, 40⟩ 5, fileName [100, 47] [112] ⟨2001, 8, 9, 9, 46, 40⟩ 5], [some 71, some 71]) ∧
    ((handleAll demoCfg 8 (W.init fun _ => none)
      [(demoEnv 5000, demoMsg longMsg), (demoEnv 5900, demoMsg (List.replicate 70 66))]).map
    fun w => w.fs (fileName [100, 47] [112] ⟨2001, 8, 9, 9, 46, 40⟩ 5)) = some (some (List.replicate 70 66 ++ [10])) := by
  constructor <;> decide +kernel

/-- FINDING: a message with a NUL byte is cut there. -/
theorem nul_cuts : Spec.line [65, 0, 66] = [65, 10] := by decide

/-- FINDING: `file_logger_deinit` drops accepted messages: the worker stops at the flag, not at the end of the queue.
A message has been accepted, the worker is joined, and no callback was made. -/
theorem deinit_drops : ∃ s, MsgHandler.Reach s ∧ s.dst = .joined ∧ s.delivered = [] ∧
    MsgHandler.Spec.accepted s.results = [MsgHandler.demoMsg.obj] := by
  have h : (MsgHandler.execs MsgHandler.demoInit (MsgHandler.demoPush ++ [.boot])).map
      (fun s => (decide (s.wrk = .top .success ∧ s.dst = .no), s.delivered, MsgHandler.Spec.accepted s.results, match s.prod with | .idle => true | _ => false)) =
      some (true, [], [MsgHandler.demoMsg.obj], true) := by decide +kernel
  obtain ⟨s, hs, he⟩ := Option.map_eq_some_iff.1 h
  simp only [_root_.Prod.mk.injEq, decide_eq_true_eq] at he
  obtain ⟨⟨h1, h2⟩, h3, h4, h5⟩ := he
  have hp : s.prod = .idle := by
    split at h5
    · assumption
    · simp at h5
  obtain ⟨i, hi, hst⟩ := MsgHandler.execs_reach MsgHandler.demoInit_reach hs
  refine ⟨_, ⟨i, hi, ((((((hst.step trivial (.d_flag h2 hp)).step trivial (.d_post rfl)).step trivial (.wait h1 (Or.inl rfl) ?_)).step trivial
    (.quit rfl rfl)).step trivial (.leave rfl)).step trivial (.d_join rfl rfl))⟩, rfl, h3, h4⟩
  simp

/-- The premises of `log_spec` hold for a fresh logger; a message of 3000 bytes grows the cache. -/
example : CacheOk Cache.init ∧ (List.replicate 3000 (65 : Byte)).length < 2 ^ 31 := by
  refine ⟨cache_init, ?_⟩
  rw [List.length_replicate]; omega

end Verif.FileLogger
