import Verif.Dirent.Props

/-! # C81: what that means for loops over directories, and where the functions fall short -/
namespace Verif.Dirent
open Spec (W FindData Ent Locale FullRes FindRes OpenAns Event Ret Pos Stream Abs)

/-! ### Reading a directory -/

/-- What a loop of `readdir` calls gets: every entry once, in order, then null pointers. -/
def listing (loc : Locale) : List FindData → Nat → List (Option (Ent Byte))
  | _, 0 => []
  | [], n + 1 => none :: listing loc [] n
  | d :: r, n + 1 => some (Spec.byteEntry loc d r) :: listing loc r n

/-- **C81** (enumeration): `n` calls of `readdir` on a stream before the entries `l`. -/
theorem reads_all (loc : Locale) {p : Nat} : ∀ (n : Nat) (a a' : Abs) (h : List (Event × Ret)) (st : Stream) (l : List FindData),
    a.tab p = some st → st.pos = .at l → Spec.Run loc a h a' → h.map (·.1) = List.replicate n (.readdir (some p)) →
    h.map (·.2) = (listing loc l n).map (Ret.ent 0) ∧ a'.tab p = some { st with pos := .at (l.drop n) }
  | 0, a, a', h, st, l, hs, hp, hr, he => by
    cases hr with
    | nil => refine ⟨rfl, ?_⟩; rw [hs, List.drop_zero, ← hp]
    | cons => cases he
  | n + 1, a, a', h, st, l, hs, hp, hr, he => by
    cases hr with
    | nil => cases he
    | @cons _ b _ e r h s hr =>
      simp only [List.map_cons, List.replicate_succ, List.cons.injEq] at he
      obtain ⟨rfl, he⟩ := he
      obtain ⟨st', hs', rfl, rfl⟩ := s
      rw [hs] at hs'; cases hs'
      have hb : ((a.set p (some { st with pos := st.pos.tail })).tab p) = some { st with pos := st.pos.tail } := by simp [Abs.set]
      rw [hp] at hb hr ⊢
      cases l with
      | nil =>
        obtain ⟨k1, k2⟩ := reads_all loc n _ a' h _ [] hb rfl hr he
        refine ⟨?_, by simpa using k2⟩
        rw [List.map_cons, k1]; rfl
      | cons d l =>
        obtain ⟨k1, k2⟩ := reads_all loc n _ a' h _ l hb rfl hr he
        refine ⟨?_, by simpa using k2⟩
        rw [List.map_cons, k1]; rfl

/-- **C81** (positions): in a directory that did not change and whose names have different hashes, `seekdir` to what `telldir` said
goes back there. -/
theorem seek_tell {pre l : List FindData} {d : FindData} {r : List FindData} {pos : Pos} (hl : pre ++ l = d :: r) (hne : l ≠ []) (hpos : pos ≠ .lost)
    (hd : ((d :: r).map Spec.hash).Nodup) : Spec.seekPos (Pos.at l).tell pos (.ok d r) = .at l := by
  obtain ⟨e, l, rfl⟩ := List.exists_cons_of_ne_nil hne
  have htell : (Pos.at (e :: l)).tell = Spec.hash e := rfl
  have h0 : ¬ Spec.hash e < 0 := by unfold Spec.hash; omega
  have hf : Spec.from? (Spec.hash e) (pre ++ e :: l) = some (e :: l) := by
    rw [← hl] at hd
    clear hl
    induction pre with
    | nil => simp [Spec.from?]
    | cons c pre ih =>
      have hn : Spec.hash c ≠ Spec.hash e := by
        simp only [List.cons_append, List.map_cons, List.nodup_cons, List.map_append, List.mem_append, List.mem_cons, not_or] at hd
        exact hd.1.2.1
      have ih := ih (by simp only [List.cons_append, List.map_cons, List.nodup_cons] at hd; exact hd.2)
      simp only [Spec.from?, List.cons_append, List.dropWhile_cons] at ih ⊢
      simp only [hn, ne_eq, not_false_eq_true, decide_true, if_true]
      exact ih
  rw [htell]
  cases pos with
  | lost => exact absurd rfl hpos
  | _ => simp only [Spec.seekPos, h0, if_false, ← hl, hf, Spec.sought]

theorem dropWhile_nil {α : Type} {f : α → Bool} : ∀ {l : List α}, (∀ x ∈ l, f x = true) → l.dropWhile f = []
  | [], _ => rfl
  | a :: l, h => by rw [List.dropWhile_cons, if_pos (h a (by simp))]; exact dropWhile_nil fun x hx => h x (by simp [hx])

/-- ... and from the end of the directory, to a place where `readdir` returns a null pointer. -/
theorem seek_tell_end {d : FindData} {r : List FindData} {pos : Pos} (hpos : pos ≠ .lost) (hd : ∀ e ∈ d :: r, Spec.hash e ≠ 2 ^ 31 - 1) (loc : Locale) :
    (Spec.seekPos (Pos.at []).tell pos (.ok d r)).head (Spec.byteEntry loc) = none := by
  have htell : (Pos.at []).tell = 2 ^ 31 - 1 := rfl
  have hf : Spec.from? (2 ^ 31 - 1) (d :: r) = none := by
    have : (d :: r).dropWhile (fun e => decide (Spec.hash e ≠ 2 ^ 31 - 1)) = [] := by
      apply dropWhile_nil
      intro e he
      simpa using hd e he
    simp only [Spec.from?, this]
  rw [htell]
  cases pos with
  | lost => exact absurd rfl hpos
  | _ => simp only [Spec.seekPos, show ¬ ((2 : Int) ^ 31 - 1 < 0) by decide, if_false, hf, Spec.sought]; rfl

/-- **C81** (names): a name that the locale can write in 260 bytes is given as it is. -/
theorem name_exact (loc : Locale) (d : FindData) (rest : List FindData) {cs : List (List Byte)} (h : loc.enc d.name = cs.map some) (hl : cs.flatten.length ≤ 260) :
    (Spec.byteEntry loc d rest).name = cs.flatten ∧ (Spec.byteEntry loc d rest).namlen = cs.flatten.length ∧ (Spec.byteEntry loc d rest).type = Spec.type d ∧
      (Spec.byteEntry loc d rest).off = Spec.offset rest := by
  have fit : ∀ (cs : List (List Byte)) (n : Nat), cs.flatten.length ≤ n → Spec.fit n (cs.map some) = some cs.flatten := by
    intro cs
    induction cs with
    | nil => intro n _; rfl
    | cons c cs ih =>
      intro n hn
      simp only [List.flatten_cons, List.length_append] at hn
      simp only [List.map_cons, Spec.fit, List.flatten_cons]
      rw [if_pos (by omega), ih _ (by omega)]
      rfl
  have hc : Spec.shownName loc d = some cs.flatten := by
    unfold Spec.shownName Spec.convert
    rw [h, fit cs 261 (by omega)]
    simp only [hl, if_true]
  simp only [Spec.byteEntry, hc, and_self]

/-! ### Shortcomings -/

/-- A file name as Windows gives it. -/
def file (name : List W) (attr : Nat) : FindData := ⟨name ++ List.replicate (260 - name.length) 0, List.replicate 14 0, attr⟩

/-- A locale of single bytes that has no characters above 255. -/
def latin : Locale where
  enc s := s.map fun c => if c.toNat < 256 then some [c.toUInt8] else none
  dec s := s.map fun c => some [c.toUInt16]

/-- FINDING: after a `seekdir` that failed, `rewinddir` does not help: `readdir` returns null pointers as if the directory were empty. That includes the
`seekdir` back to the end of the directory. -/
theorem rewind_after_seek_end (d : FindData) (r : List FindData) (hd : ∀ e ∈ d :: r, Spec.hash e ≠ 2 ^ 31 - 1) (d' : FindData) (r' : List FindData) (loc : Locale) :
    (Spec.rewindPos (Spec.seekPos (Pos.at []).tell (.at []) (.ok d r)) (.ok d' r')).head (Spec.byteEntry loc) = none := by
  have h := seek_tell_end (d := d) (r := r) (pos := .at []) (by simp) hd loc
  have hf : Spec.from? (2 ^ 31 - 1) (d :: r) = none := by
    have : (d :: r).dropWhile (fun e => decide (Spec.hash e ≠ 2 ^ 31 - 1)) = [] := by
      apply dropWhile_nil
      intro e he
      simpa using hd e he
    simp only [Spec.from?, this]
  have : Spec.seekPos (Pos.at []).tell (.at []) (.ok d r) = .stuck := by
    show Spec.seekPos (2 ^ 31 - 1) _ _ = _
    simp only [Spec.seekPos, show ¬ ((2 : Int) ^ 31 - 1 < 0) by decide, if_false, hf, Spec.sought]
  rw [this]
  rfl

/-- FINDING: `ab` and `bA` have the same hash: `seekdir` to the position before the second goes to the first. -/
theorem seek_collision : Spec.seekPos (Pos.at [file [98, 65] 32]).tell (.at []) (.ok (file [97, 98] 32) [file [98, 65] 32]) =
    .at [file [97, 98] 32, file [98, 65] 32] := by
  have h : (Pos.at [file [98, 65] 32]).tell = 5863208 := by decide +kernel
  have h1 : Spec.hash (file [97, 98] 32) = 5863208 := by decide +kernel
  rw [h]
  simp [Spec.seekPos, Spec.from?, Spec.sought, h1]

/-- FINDING: in a locale with characters of three bytes a name of one byte and 87 such characters is cut without notice (before the last character). -/
theorem long_name_cut : Spec.convert (some [120] :: List.replicate 87 (some [228, 184, 173])) =
    some (120 :: (List.replicate 86 [228, 184, 173]).flatten) := by decide +kernel

/-- FINDING: `_wseekdir(NULL, ...)` and `readdir(NULL)` use the null pointer. -/
theorem null_undefined (loc : Locale) (s : Sys) (l : Int) (f : List W → FindRes) :
    step loc s (.seekdir true none l f) = none ∧ step loc s (.readdir none) = none := ⟨rfl, rfl⟩

/-- FINDING: when another thread changes the current directory between the two calls of `GetFullPathNameW` so that the path no longer fits,
`_wopendir` goes on behind its buffer. -/
theorem cwd_race (s : Sys) {name : List W} (hn : name ≠ []) {a : OpenAns} {n k : Nat} (h1 : a.wdirOk = true) (h2 : a.pattOk = true) (hf : a.full name = (n, .need k)) :
    wopendir s (some name) a = none := by
  obtain ⟨c, t, rfl⟩ := List.exists_cons_of_ne_nil hn
  simp [wopendir, malloc, h1, h2, hf, fullPath]

/-! ### A program -/

/-- A directory `C:\...` with `.` and `f.c`. -/
def demoAns : OpenAns where
  dirOk := true
  wdirOk := true
  pattOk := true
  full n := (n.length + 4, .path ([67, 58, 92] ++ n.map fun c => if c = 0 then 95 else c))
  find _ := .ok (file [46] 16) [file [102, 46, 99] 32]

/-- A sequence of calls, with the end of the directory and back. -/
def demoEvents : List Event :=
  [.opendir (some [100]) demoAns, .readdir (some 1), .telldir false (some 1), .readdir (some 1), .readdir (some 1),
    .seekdir false (some 1) (Spec.hash (file [102, 46, 99] 32)) demoAns.find, .readdir (some 1), .rewinddir false (some 1) demoAns.find, .readdir (some 1),
    .telldir true none, .closedir false (some 1)]

def runAll (loc : Locale) : Sys → List Event → Option (List Ret × Sys)
  | s, [] => some ([], s)
  | s, e :: l => do
    let (r, s) ← step loc s e
    let (h, s) ← runAll loc s l
    return (r :: h, s)

theorem demo_run : (runAll latin Sys.init demoEvents).map (·.1) = some
    [.ptr (some 1), .ent 0 (some ⟨[46], 1, 0x4000, 193489692, 0, 296⟩), .int 193489692, .ent 0 (some ⟨[102, 46, 99], 3, 0x8000, 2147483647, 0, 296⟩), .ent 0 none, .unit,
      .ent 0 (some ⟨[102, 46, 99], 3, 0x8000, 2147483647, 0, 296⟩), .unit, .ent 0 (some ⟨[46], 1, 0x4000, 193489692, 0, 296⟩), .int (-1), .int 0] := by
  decide +kernel

/-- Opens a directory, reads an entry and closes it. -/
def demoProg : Prog
  | [] => some (.opendir (some [100]) demoAns)
  | [(_, .ptr (some p))] => some (.readdir (some p))
  | [(_, .ptr (some p)), _] => some (.closedir false (some p))
  | _ => none

theorem file_valid {name : List W} {attr : Nat} (h : name.length < 260) : (file name attr).Valid := by
  refine ⟨?_, ?_, by simp [file], by simp [file]⟩
  · simp only [file, List.length_append, List.length_replicate]; omega
  · simp only [file, List.mem_append, List.mem_replicate]
    refine .inr ⟨by omega, ?_⟩
    trivial

theorem demoAns_valid : demoAns.Valid := by
  refine ⟨fun w => ⟨by simp [demoAns], ?_⟩, fun p => ⟨file_valid (by decide), ?_⟩⟩
  · intro h
    simp only [List.mem_append, List.mem_map] at h
    rcases h with h | ⟨c, _, h⟩
    · revert h; decide
    · split at h
      · cases h
      · rename_i k; exact k h
  · intro e he
    cases he with
    | head => exact file_valid (by decide)
    | tail _ h => cases h

theorem demo_opened {r : Ret} {a : Abs} {p : Nat} (hr : Spec.Step latin Abs.init (.opendir (some [100]) demoAns) r a)
    (hp : r = .ptr (some p)) : Spec.isOpen a false p := by
  rw [hp] at hr
  simp only [Spec.Step] at hr
  cases ho : Spec.openBytes latin [100] demoAns with
  | ok patt l =>
    rw [ho] at hr
    obtain ⟨x, _, e, rfl⟩ := hr
    cases e
    exact ⟨⟨false, patt, .at l⟩, by simp [Abs.set], rfl⟩
  | fail e =>
    rw [ho] at hr
    obtain ⟨e, _⟩ := hr
    cases e

theorem follows_take {prog : Prog} {h : List (Event × Ret)} (f : Follows prog h) : ∀ {x : Event × Ret} {l r}, h = l ++ x :: r → prog l = some x.1 := by
  induction f with
  | nil => intro x l r e; simp at e
  | @snoc h e r f hp ih =>
    intro x l t he
    rcases List.eq_nil_or_concat t with rfl | ⟨t, y, rfl⟩
    · rw [List.append_inj_left' he rfl] at hp
      have := List.append_inj_right' he rfl
      simp only [List.cons.injEq, and_true] at this
      subst this
      exact hp
    · rw [List.concat_eq_append, ← List.cons_append, ← List.append_assoc] at he
      exact ih (List.append_inj_left' he rfl)

/-- The premise of `streams_conform` holds for a real program. -/
theorem demo_legal : LegalProg latin demoProg := by
  intro h a e f hr he
  match h, f, hr, he with
  | [], _, _, he => cases he; exact demoAns_valid
  | [(e1, .ptr (some p))], f, hr, he =>
    have h1 := follows_take f (x := (e1, .ptr (some p))) (l := []) (r := []) rfl
    cases h1
    cases he
    cases hr with
    | cons s hr =>
      cases hr
      exact ⟨p, rfl, demo_opened s rfl⟩
  | [(e1, .ptr (some p)), (e2, r2)], f, hr, he =>
    have h1 := follows_take f (x := (e1, .ptr (some p))) (l := []) (r := [(e2, r2)]) rfl
    have h2 := follows_take f (x := (e2, r2)) (l := [(e1, .ptr (some p))]) (r := []) rfl
    cases h1
    cases h2
    cases he
    cases hr with
    | cons s hr =>
      cases hr with
      | cons s2 hr =>
        cases hr
        obtain ⟨st, hst, hw⟩ := demo_opened s rfl
        obtain ⟨st', hst', _, rfl⟩ := s2
        rw [hst] at hst'; cases hst'
        intro x hx
        cases hx
        exact ⟨{ st with pos := st.pos.tail }, by simp [Abs.set], hw⟩
  | _ :: _ :: _ :: _, _, _, he => simp [demoProg] at he
  | [(_, .ptr none)], _, _, he => simp [demoProg] at he
  | [(_, .ptr none), _], _, _, he => simp [demoProg] at he
  | [(_, .ent _ _)], _, _, he => simp [demoProg] at he
  | [(_, .ent _ _), _], _, _, he => simp [demoProg] at he
  | [(_, .went _ _)], _, _, he => simp [demoProg] at he
  | [(_, .went _ _), _], _, _, he => simp [demoProg] at he
  | [(_, .int _)], _, _, he => simp [demoProg] at he
  | [(_, .int _), _], _, _, he => simp [demoProg] at he
  | [(_, .unit)], _, _, he => simp [demoProg] at he
  | [(_, .unit), _], _, _, he => simp [demoProg] at he

end Verif.Dirent
