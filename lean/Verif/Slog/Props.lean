import Verif.Slog.Model
import Verif.Slog.Spec
import Verif.Strings.Props
import Verif.Strings.Utf8Hex
import Verif.Xlog.Props
/-!
# C74: the simple logger
-/
namespace Verif.Slog

/-- the arguments of the `slog_set_min_level` calls of a history -/
def sets : List Op → List Int
  | [] => []
  | .setLevel l :: os => l :: sets os
  | _ :: os => sets os

/-- the level after one call: only an argument of `slog_set_min_level` in range changes it -/
def newMin (m : Int) : Op → Int
  | .setLevel l => if l < 0 ∨ l > 5 then m else l
  | _ => m

theorem step_min {s s' : St} {o : Op} {x} (h : step s o = some (s', x)) :
    s'.min = newMin s.min o := by
  cases o with
  | setLevel l =>
    simp only [step, Option.some.injEq, Prod.mk.injEq] at h
    rw [← h.1]
    simp only [setMinLevel, newMin]
    split <;> rfl
  | log l tag text =>
    simp only [step, Option.map_eq_some_iff, Prod.mk.injEq] at h; obtain ⟨_, _, h, _⟩ := h; rw [← h]; rfl
  | logTrace l tag f n text =>
    simp only [step, Option.map_eq_some_iff, Prod.mk.injEq] at h; obtain ⟨_, _, h, _⟩ := h; rw [← h]; rfl
  | hex l tag chars count junk =>
    simp only [step, Option.map_eq_some_iff, Prod.mk.injEq] at h; obtain ⟨_, _, h, _⟩ := h; rw [← h]; rfl
  | toFile p ok =>
    simp only [step, Option.map_eq_some_iff, Prod.mk.injEq] at h
    obtain ⟨t, ht, h, _⟩ := h
    subst h
    unfold stdout2file at ht
    split at ht
    · simp at ht; rw [ht]; rfl
    · split at ht
      · simp at ht
      · simp at ht; rw [← ht]; rfl
  | back ok =>
    simp only [step, Option.map_eq_some_iff, Prod.mk.injEq] at h
    obtain ⟨t, ht, h, _⟩ := h
    subst h
    unfold back2stdout at ht
    split at ht
    · simp at ht; rw [ht]; rfl
    · split at ht <;> simp at ht

theorem run_min {s s' : St} {os : List Op} {x} (h : run s os = some (s', x)) :
    s'.min = (((sets os).filter fun l => 0 ≤ l ∧ l ≤ 5).getLast?).getD s.min := by
  induction os generalizing s x with
  | nil => simp only [run, Option.some.injEq, Prod.mk.injEq] at h; rw [← h.1]; rfl
  | cons o os ih =>
    simp only [run, Option.bind_eq_some_iff, Option.map_eq_some_iff, Prod.mk.injEq] at h
    obtain ⟨⟨s1, x1⟩, h1, ⟨s2, x2⟩, h2, h3, _⟩ := h
    simp only at h3
    subst h3
    rw [ih h2]
    have hm := step_min h1
    cases o with
    | setLevel l =>
      simp only [sets, List.filter_cons]
      simp only [newMin] at hm
      by_cases hl : 0 ≤ l ∧ l ≤ 5
      · rw [if_pos (by simpa using hl)]
        rw [if_neg (by omega)] at hm
        rw [List.getLast?_cons, hm]
        rfl
      · rw [if_neg (by simpa using hl)]
        rw [if_pos (by omega)] at hm
        rw [hm]
    | _ => simp only [sets]; rw [hm]; rfl

/-- **C74** (level): after any history of calls the level in force is the last argument of `slog_set_min_level` between
OFF and ERROR, VERBOSE at the start; anything else is ignored. -/
theorem level {s : St} {os : List Op} {x} (h : run .init os = some (s, x)) : s.min = Spec.levelAfter (sets os) :=
  run_min h

theorem val_rank (l : Lv) : l.val = Spec.rank l := by cases l <;> rfl

theorem head_letter (l : Lv) : l.head = [91, Spec.letter l, 47] := by cases l <;> rfl

/-- **C74** (filter and text): a message appears, as one line `[L/tag] text`, on the current destination, exactly when
the level in force is not OFF and not above its own. -/
theorem log_spec (s : St) (l : Lv) (tag text : List Byte) (d : Option (List Byte)) (hd : s.dest = some d) :
    (Spec.wanted s.min (Spec.rank l) →
      log s l tag text = some [⟨d, Spec.line (Spec.letter l) tag [] text⟩]) ∧
    (¬ Spec.wanted s.min (Spec.rank l) → log s l tag text = some []) := by
  refine ⟨fun h => ?_, fun h => ?_⟩ <;> unfold Spec.wanted at h <;> rw [← val_rank] at h
  · unfold log printf
    rw [if_pos h, hd]
    simp [Spec.line, head_letter]
  · unfold log
    rw [if_neg h]

/-- **C74** (filter and text): the same for the trace macros, with `(func:line)` behind the tag. -/
theorem logTrace_spec (s : St) (l : Lv) (tag func : List Byte) (n : Nat) (text : List Byte) (d : Option (List Byte))
    (hd : s.dest = some d) :
    (Spec.wanted s.min (Spec.rank l) → logTrace s l tag func n text = some [⟨d, Spec.line
      (Spec.letter l) tag
      ([40] ++ func ++ [58] ++ Strings.decText n ++ [41]) text⟩]) ∧
    (¬ Spec.wanted s.min (Spec.rank l) → logTrace s l tag func n text = some []) := by
  refine ⟨fun h => ?_, fun h => ?_⟩ <;> unfold Spec.wanted at h <;> rw [← val_rank] at h
  · unfold logTrace printf
    rw [if_pos h, hd]
    simp [Spec.line, head_letter]
  · unfold logTrace
    rw [if_neg h]

/-- **C74** (levels are ordered): what is printed at some level is printed at every higher one, and OFF prints
nothing. -/
theorem wanted_mono {min a b : Int} (h : a ≤ b) (hw : Spec.wanted min a) : Spec.wanted min b :=
  ⟨hw.1, Int.le_trans hw.2 h⟩

theorem off_silent (s : St) (h : s.min = 0) (l : Lv) (tag text func : List Byte) (n : Nat) (chars junk : Mem) (c : Nat) :
    log s l tag text = some [] ∧ logTrace s l tag func n text = some [] ∧ hex s l tag chars c junk = some [] := by
  simp [log, logTrace, hex, h]

/-- **C74** (hexadecimal messages): up to 84 bytes the line is the hexadecimal dump. -/
theorem hex_spec (s : St) (l : Lv) (tag : List Byte) (chars : Mem) (count : Nat) (junk : Mem)
    (hc : count ≤ chars.length) (hj : junk.length = 256) (h84 : count ≤ 84) :
    hex s l tag chars count junk = log s l tag (Strings.Spec.hexDump (chars.take count)) := by
  unfold hex
  split
  · next hw =>
    unfold hexPrint
    rw [Strings.char2hex_exact_partial junk 256 chars count hc (by omega) (by omega) (by omega)]
    simp only [Option.bind_eq_bind, Option.bind_some, Mem.front, List.append_assoc, List.singleton_append]
    rw [Mem.cstr_zero (Xlog.hexDump_no0 _)]
    rfl
  · next hw => unfold log; rw [if_neg hw]

/-- FINDING: with 85 bytes the last digit is missing. -/
theorem hex_85 (s : St) (l : Lv) (tag : List Byte) (chars : Mem) (junk : Mem)
    (hc : 85 ≤ chars.length) (hj : junk.length = 256) :
    hex s l tag chars 85 junk = log s l tag ((Strings.Spec.hexDump (chars.take 85)).take 254) := by
  unfold hex
  split
  · next hw =>
    unfold hexPrint
    rw [(Strings.char2hex_advised_capacity_loses_digit junk chars 85 (by omega) hc (by omega) (by omega)).1]
    simp only [Option.bind_eq_bind, Option.bind_some, Mem.front, List.append_assoc, List.singleton_append]
    rw [Mem.cstr_zero (fun h => Xlog.hexDump_no0 _ (List.mem_of_mem_take h))]
    rfl
  · next hw => unfold log; rw [if_neg hw]

/-- FINDING: a wanted hexadecimal message of 86 bytes or more overflows the 256-byte array on the stack. -/
theorem hex_overflow (s : St) (l : Lv) (tag : List Byte) (chars : Mem) (count : Nat) (junk : Mem)
    (hw : Spec.wanted s.min (Spec.rank l)) (hc : count ≤ chars.length) (hj : junk.length = 256) (h86 : 86 ≤ count)
    (h64 : 3 * count < 2 ^ 64) : hex s l tag chars count junk = none := by
  unfold Spec.wanted at hw
  rw [← val_rank] at hw
  unfold hex
  rw [if_pos hw]
  unfold hexPrint
  rw [Strings.char2hex_truncation_overflows junk 256 chars count hc hj (by omega) (by omega) h64]
  rfl

/-! ## Redirection -/

/-- the paths of the `slog_stdout2file` calls of a history that name a file -/
def targets : List Op → List (List Byte)
  | [] => []
  | .toFile (some p) _ :: os => p :: targets os
  | _ :: os => targets os

/-- no attempt to open a file failed, `slog_back2stdout` was not called, hexadecimal messages have at most 84 bytes -/
def Tame : List Op → Prop
  | [] => True
  | .toFile _ ok :: os => ok = true ∧ Tame os
  | .back _ :: _ => False
  | .hex _ _ chars count junk :: os => count ≤ chars.length ∧ junk.length = 256 ∧ count ≤ 84 ∧ Tame os
  | _ :: os => Tame os

theorem log_some {s : St} {d} (hd : s.dest = some d) (l tag text) : ∃ o, log s l tag text = some o := by
  unfold log printf; rw [hd]; split <;> exact ⟨_, rfl⟩

theorem run_tame {s : St} {d : Option (List Byte)} (hd : s.dest = some d) (os : List Op) (ht : Tame os) :
    ∃ s' x, run s os = some (s', x) ∧ s'.dest = some (((targets os).getLast?).or d) := by
  induction os generalizing s d with
  | nil => exact ⟨s, [], rfl, by simpa [targets] using hd⟩
  | cons o os ih =>
    have same : ∀ (x : List Out), step s o = some (s, x) → targets (o :: os) = targets os → Tame os →
        ∃ s' x, run s (o :: os) = some (s', x) ∧ s'.dest = some (((targets (o :: os)).getLast?).or d) := by
      intro x hs ht hta
      obtain ⟨s', y, h1, h2⟩ := ih hd hta
      exact ⟨s', x ++ y, by simp [run, hs, h1], by rw [ht]; exact h2⟩
    cases o with
    | setLevel l =>
      obtain ⟨s', y, h1, h2⟩ := ih (s := setMinLevel s l) (d := d) (by unfold setMinLevel; split <;> simpa using hd) ht
      exact ⟨s', [] ++ y, by simp [run, step, h1], h2⟩
    | log l tag text =>
      obtain ⟨o, ho⟩ := log_some hd l tag text
      exact same o (by simp [step, ho]) rfl ht
    | logTrace l tag f n text =>
      have : ∃ o, logTrace s l tag f n text = some o := by
        unfold logTrace printf; rw [hd]; split <;> exact ⟨_, rfl⟩
      obtain ⟨o, ho⟩ := this
      exact same o (by simp [step, ho]) rfl ht
    | hex l tag chars count junk =>
      obtain ⟨t1, t2, t3, t4⟩ := ht
      obtain ⟨o, ho⟩ := log_some hd l tag (Strings.Spec.hexDump (chars.take count))
      exact same o (by simp [step, hex_spec s l tag chars count junk t1 t2 t3, ho]) rfl t4
    | toFile p ok =>
      obtain ⟨rfl, hta⟩ := ht
      cases p with
      | none => exact same [] (by simp [step, stdout2file]) rfl hta
      | some p =>
        obtain ⟨s', y, h1, h2⟩ := ih (s := { freopen s (some p) true with fp := true }) (d := some p) rfl hta
        refine ⟨s', [] ++ y, by simp [run, step, stdout2file, hd, h1], ?_⟩
        rw [h2]
        simp only [targets, List.getLast?_cons]
        cases (targets os).getLast? <;> rfl
    | back ok => exact ht.elim

/-- **C74** (redirection): as long as every file can be opened and `slog_back2stdout` is not called, nothing undefined
happens and messages go to the file named last (the terminal before the first). -/
theorem redirect (os : List Op) (ht : Tame os) :
    ∃ s x, run .init os = some (s, x) ∧ s.dest = some ((targets os).getLast?) := by
  obtain ⟨s, x, h1, h2⟩ := run_tame (s := .init) (d := none) rfl os ht
  exact ⟨s, x, h1, by simpa using h2⟩

/-- FINDING: `slog_back2stdout` after a successful `slog_stdout2file` closes `stdout` and then reopens the closed
stream: undefined behaviour, whatever happened in between (tame). -/
theorem back_undefined (os : List Op) (ht : Tame os) (p : List Byte) (hp : p ∈ targets os) (ok : Bool) :
    run .init (os ++ [.back ok]) = none := by
  have app : ∀ (s : St) (a b : List Op), run s (a ++ b) = (run s a).bind fun (s, x) => (run s b).map fun (s, y) => (s, x ++ y) := by
    intro s a b
    induction a generalizing s with
    | nil => simp [run]
    | cons o a ih =>
      simp only [List.cons_append, run]
      cases step s o with
      | none => rfl
      | some r =>
        obtain ⟨s1, x1⟩ := r
        simp only [Option.bind_some, ih]
        cases run s1 a with
        | none => rfl
        | some r =>
          obtain ⟨s2, x2⟩ := r
          simp only [Option.bind_some, Option.map_some]
          cases run s2 b <;> simp
  have fp : ∀ (os : List Op) (s : St), Tame os → (s.fp = true ∨ p ∈ targets os) → ∀ s' x, run s os = some (s', x) →
      s'.fp = true := by
    intro os
    induction os with
    | nil =>
      intro s _ h s' x hr
      simp only [run, Option.some.injEq, Prod.mk.injEq] at hr
      rw [← hr.1]
      rcases h with h | h
      · exact h
      · simp [targets] at h
    | cons o os ih =>
      intro s ht h s' x hr
      simp only [run, Option.bind_eq_some_iff, Option.map_eq_some_iff, Prod.mk.injEq] at hr
      obtain ⟨⟨s1, x1⟩, h1, ⟨s2, x2⟩, h2, h3, _⟩ := hr
      simp only at h3
      subst h3
      cases o with
      | setLevel l =>
        refine ih s1 ht ?_ _ _ h2
        simp only [step, Option.some.injEq, Prod.mk.injEq] at h1
        rw [← h1.1]
        unfold setMinLevel
        split <;> exact h
      | log l tag text =>
        simp only [step, Option.map_eq_some_iff, Prod.mk.injEq] at h1; obtain ⟨_, _, h1, _⟩ := h1; subst h1
        exact ih s ht h _ _ h2
      | logTrace l tag f n text =>
        simp only [step, Option.map_eq_some_iff, Prod.mk.injEq] at h1; obtain ⟨_, _, h1, _⟩ := h1; subst h1
        exact ih s ht h _ _ h2
      | hex l tag chars count junk =>
        simp only [step, Option.map_eq_some_iff, Prod.mk.injEq] at h1; obtain ⟨_, _, h1, _⟩ := h1; subst h1
        exact ih s ht.2.2.2 h _ _ h2
      | toFile q ok =>
        obtain ⟨rfl, hta⟩ := ht
        simp only [step, Option.map_eq_some_iff, Prod.mk.injEq] at h1
        obtain ⟨t, h1, rfl, _⟩ := h1
        unfold stdout2file at h1
        split at h1
        · simp at h1; subst h1; exact ih s hta (by simpa [targets] using h) _ _ h2
        · split at h1
          · simp at h1
          · simp only [Option.some.injEq] at h1; subst h1; exact ih _ hta (.inl rfl) _ _ h2
      | back ok => exact ht.elim
  obtain ⟨s, x, h1, h2⟩ := redirect os ht
  have hf := fp os .init ht (.inr hp) s x h1
  rw [app, h1]
  simp [run, step, back2stdout, hf, h2]

/-- FINDING: after a failed `slog_stdout2file` `stdout` is closed; the next wanted message uses it. -/
theorem failed_redirect_undefined (p : List Byte) (l : Lv) (tag text : List Byte) :
    run .init [.toFile (some p) false, .log l tag text] = none := by
  cases l <;> simp [run, step, stdout2file, freopen, St.init, log, printf, Lv.val]

/-- The premises can be met: VERBOSE is ignored at WARN, an error goes to the file `a`. -/
example : ∃ s, run .init [.log .i [84] [120], .setLevel 4, .setLevel 9, .toFile (some [97]) true, .log .v [84] [120],
    .log .e [84] [121, 122]] =
    some (s, [⟨none, [91, 73, 47, 84, 93, 32, 120, 10]⟩, ⟨some [97], [91, 69, 47, 84, 93, 32, 121, 122, 10]⟩]) := by
  exact ⟨⟨4, some (some [97]), true⟩, by decide +kernel⟩

end Verif.Slog
