import Verif.Dirent.Basic

/-! # What each call does to the stream it is for -/
namespace Verif.Dirent
open Spec (W FindData Ent Locale FullRes FindRes OpenAns Event Ret Pos Stream Abs)

/-- The fields of a stream for a position. -/
def PosRep (hs : Nat → Option (List FindData)) (d : WDir) : Pos → Prop
  | .at l => d.invalid = false ∧ (∃ h r, d.handle = some h ∧ hs h = some r ∧ l = if d.cached then d.data :: r else r) ∧ ∀ e ∈ l, e.Valid
  | .stuck => d.invalid = true ∧ ∃ h r, d.handle = some h ∧ hs h = some r
  | .lost => d.invalid = true ∧ d.handle = none

/-- A `_WDIR` at `w` with its pattern at `q` and search handle `h`. -/
structure WRep (s : Sys) (w q : Nat) (h : Option Nat) (patt : List W) (pos : Pos) (d : WDir) : Prop where
  atw : s.heap w = some (.wdir d)
  pat : d.patt = some q
  buf : ∃ b, s.heap q = some (.buf b) ∧ cstr b = some patt
  hnd : d.handle = h
  pos : PosRep s.handles d pos

/-- Only the `_WDIR` at `w` and its search changed. -/
structure Upd (s s' : Sys) (w : Nat) (h h' : Option Nat) : Prop where
  heap : ∀ x, x ≠ w → s'.heap x = s.heap x
  hnd : ∀ y, h ≠ some y → h' ≠ some y → s'.handles y = s.handles y
  gone : ∀ y, h = some y → h' ≠ h → s'.handles y = none
  next : s.next ≤ s'.next
  fresh : h' = h ∨ ∀ y, h' = some y → s.next ≤ y ∧ y < s'.next

theorem Upd.refl (s : Sys) (w : Nat) (h : Option Nat) : Upd s s w h h :=
  ⟨fun _ _ => rfl, fun _ _ _ => rfl, fun _ _ k => absurd rfl k, Nat.le_refl _, .inl rfl⟩

theorem Upd.trans {s s' s'' : Sys} {w : Nat} {h h' : Option Nat} (a : Upd s s' w h h') (b : Upd s' s'' w h' h') : Upd s s'' w h h' where
  heap x hx := (b.heap x hx).trans (a.heap x hx)
  hnd y h1 h2 := (b.hnd y h2 h2).trans (a.hnd y h1 h2)
  gone y h1 h2 := by
    rw [b.hnd y (fun e => h2 (e.trans h1.symm)) (fun e => h2 (e.trans h1.symm))]
    exact a.gone y h1 h2
  next := Nat.le_trans a.next b.next
  fresh := by
    rcases a.fresh with e | e
    · exact .inl e
    · exact .inr fun y hy => ⟨(e y hy).1, Nat.lt_of_lt_of_le (e y hy).2 b.next⟩

theorem upd_setW {s : Sys} {w : Nat} {h : Option Nat} {d : WDir} : Upd s (setW s w d) w h h :=
  ⟨fun x hx => by simp [setW, Sys.put, hx], fun _ _ _ => rfl, fun _ _ k => absurd rfl k, Nat.le_refl _, .inl rfl⟩

theorem getW_of {s : Sys} {w : Nat} {d : WDir} (h : s.heap w = some (.wdir d)) : getW s w = some d := by simp [getW, h]

theorem getBuf_of {s : Sys} {q : Nat} {b : List W} (h : s.heap q = some (.buf b)) : getBuf s q = some b := by simp [getBuf, h]

theorem getDir_of {s : Sys} {p w : Nat} (h : s.heap p = some (.dir w)) : getDir s p = some w := by simp [getDir, h]

theorem WRep.ne {s : Sys} {w q : Nat} {h : Option Nat} {patt : List W} {pos : Pos} {d : WDir} (r : WRep s w q h patt pos d) : q ≠ w := by
  rintro rfl
  obtain ⟨b, hb, _⟩ := r.buf
  rw [r.atw] at hb
  cases hb

/-- Writing the fields of the stream. -/
theorem WRep.setW {s : Sys} {w q : Nat} {h : Option Nat} {patt : List W} {pos pos' : Pos} {d d' : WDir} (r : WRep s w q h patt pos d)
    (e1 : d'.patt = d.patt) (e2 : d'.handle = d.handle) (p : PosRep s.handles d' pos') : WRep (setW s w d') w q h patt pos' d' where
  atw := by simp [Dirent.setW, Sys.put]
  pat := e1.trans r.pat
  buf := by
    obtain ⟨b, hb, hc⟩ := r.buf
    exact ⟨b, by simpa [Dirent.setW, Sys.put, r.ne] using hb, hc⟩
  hnd := e2.trans r.hnd
  pos := p

/-! ### `dirent_next` -/

theorem direntNext_cached {s : Sys} {w : Nat} {d : WDir} (h : s.heap w = some (.wdir d)) (hi : d.invalid = false) (hc : d.cached = true) :
    direntNext s w = some (some d.data, setW s w { d with cached := false }) := by
  unfold direntNext
  simp [getW_of h, hi, hc]

theorem direntNext_more {s : Sys} {w x : Nat} {d : WDir} {e : FindData} {l : List FindData} (h : s.heap w = some (.wdir d)) (hi : d.invalid = false)
    (hc : d.cached = false) (hx : d.handle = some x) (hr : s.handles x = some (e :: l)) :
    direntNext s w = some (some e, setW (s.hput x (some l)) w { d with data := e }) := by
  unfold direntNext
  simp [getW_of h, hi, hc, hx, hr]

theorem next_cons {s : Sys} {w q : Nat} {h : Option Nat} {patt : List W} {e : FindData} {l : List FindData} {d : WDir}
    (r : WRep s w q h patt (.at (e :: l)) d) : ∃ s' d', direntNext s w = some (some e, s') ∧ WRep s' w q h patt (.at l) d' ∧ Upd s s' w h h ∧
      s'.errno = s.errno ∧ d'.cached = false ∧ d'.data = e ∧ e.Valid ∧ WRep (setW s' w { d' with cached := true }) w q h patt (.at (e :: l)) { d' with cached := true } := by
  obtain ⟨hinv, ⟨x, rest, hx, hr, hl⟩, hv⟩ := r.pos
  have hve := hv e (by simp)
  cases hc : d.cached with
  | true =>
    rw [direntNext_cached r.atw hinv hc]
    simp only [hc, if_true, List.cons.injEq] at hl
    obtain ⟨rfl, rfl⟩ := hl
    have r1 : WRep (setW s w { d with cached := false }) w q h patt (.at l) { d with cached := false } :=
      r.setW rfl rfl ⟨hinv, ⟨x, l, hx, hr, by simp⟩, fun y hy => hv y (by simp [hy])⟩
    exact ⟨_, _, rfl, r1, upd_setW, rfl, rfl, rfl, hve, r1.setW rfl rfl ⟨hinv, ⟨x, l, hx, hr, by simp⟩, hv⟩⟩
  | false =>
    simp only [hc, Bool.false_eq_true, if_false] at hl
    subst hl
    rw [direntNext_more r.atw hinv hc hx hr]
    have hh : h = some x := r.hnd.symm.trans hx
    have r1 : WRep (setW (s.hput x (some l)) w { d with data := e }) w q h patt (.at l) { d with data := e } := by
      refine ⟨by simp [setW, Sys.put], r.pat, ?_, r.hnd, hinv, ⟨x, l, hx, by simp [setW, Sys.put, Sys.hput], by simp [hc]⟩, fun y hy => hv y (by simp [hy])⟩
      obtain ⟨b, hb, hc⟩ := r.buf
      exact ⟨b, by simpa [setW, Sys.put, Sys.hput, r.ne] using hb, hc⟩
    refine ⟨_, _, rfl, r1, ⟨fun y hy => by simp [setW, Sys.put, Sys.hput, hy], fun y h1 _ => ?_, fun _ _ k => absurd rfl k, Nat.le_refl _, .inl rfl⟩, rfl, hc, rfl, hve, ?_⟩
    · have : y ≠ x := by rintro rfl; exact h1 hh
      simp [setW, Sys.put, Sys.hput, this]
    · exact r1.setW rfl rfl ⟨hinv, ⟨x, l, hx, by simp [setW, Sys.put, Sys.hput], by simp⟩, hv⟩

theorem next_nil {s : Sys} {w q : Nat} {h : Option Nat} {patt : List W} {d : WDir} {pos : Pos}
    (r : WRep s w q h patt pos d) (hp : ∀ e l, pos ≠ .at (e :: l)) : direntNext s w = some (none, s) := by
  unfold direntNext
  simp only [getW_of r.atw, Option.bind_eq_bind, Option.bind_some]
  have hpos := r.pos
  cases pos with
  | stuck => simp [hpos.1]
  | lost => simp [hpos.1]
  | «at» l =>
    obtain ⟨hinv, ⟨x, rest, hx, hr, hl⟩, _⟩ := hpos
    cases l with
    | cons e l => exact absurd rfl (hp e l)
    | nil =>
      have hc : d.cached = false := by
        cases k : d.cached with
        | false => rfl
        | true => rw [k] at hl; cases hl
      have : rest = [] := by simpa [hc] using hl.symm
      subst this
      simp [hinv, hc, hx, hr]

/-- 537-548: the offset. -/
theorem nextOff_spec {s : Sys} {w q : Nat} {h : Option Nat} {patt : List W} {l : List FindData} {d : WDir}
    (r : WRep s w q h patt (.at l) d) : ∃ s' d', nextOff s w = some (Spec.offset l, s') ∧ WRep s' w q h patt (.at l) d' ∧ Upd s s' w h h ∧ s'.errno = s.errno := by
  unfold nextOff
  cases l with
  | nil =>
    rw [next_nil r (by intro e l k; cases k)]
    exact ⟨s, d, by simp [Spec.offset, longMax_spec], r, Upd.refl .., rfl⟩
  | cons e l =>
    obtain ⟨s', d', h1, h2, h3, h4, _, _, hv, h5⟩ := next_cons r
    rw [h1]
    simp only [Option.bind_eq_bind, Option.bind_some, direntHash_spec hv, getW_of h2.atw, Option.pure_def]
    exact ⟨_, _, rfl, h5, h3.trans upd_setW, h4⟩

/-! ### Reading -/

theorem cstr_valid {b : List W} (h : (0 : W) ∈ b) : cstr b = some (b.takeWhile (· ≠ 0)) := by unfold cstr; rw [if_pos h]

theorem wreaddir_spec {s : Sys} {w q : Nat} {h : Option Nat} {patt : List W} {pos : Pos} {d : WDir} (r : WRep s w q h patt pos d) :
    ∃ s' d', wreaddirR s (some w) = some (if pos.isLost then -1 else 0, pos.head Spec.wideEntry, s') ∧ WRep s' w q h patt pos.tail d' ∧
      Upd s s' w h h ∧ s'.errno = if pos.isLost then 9 else s.errno := by
  unfold wreaddirR
  simp only [getW_of r.atw, Option.bind_eq_bind, Option.bind_some, r.pat]
  by_cases hl : pos = .lost
  · subst hl
    have : d.handle = none := r.pos.2
    simp only [this, true_or, if_true, Option.pure_def]
    refine ⟨{ s with errno := 9 }, d, rfl, ⟨r.atw, r.pat, r.buf, r.hnd, r.pos⟩, ⟨fun _ _ => rfl, fun _ _ _ => rfl, fun _ _ k => absurd rfl k, Nat.le_refl _, .inl rfl⟩, rfl⟩
  · have hh : d.handle ≠ none := by
      have := r.pos
      cases pos with
      | lost => exact absurd rfl hl
      | stuck => obtain ⟨_, x, _, hx, _⟩ := this; rw [hx]; simp
      | «at» l => obtain ⟨_, ⟨x, _, hx, _⟩, _⟩ := this; rw [hx]; simp
    have hnl : pos.isLost = false := by cases pos <;> first | rfl | exact absurd rfl hl
    simp only [hh, hnl, reduceCtorEq, or_self, if_false, Bool.false_eq_true]
    by_cases hp : ∃ e l, pos = .at (e :: l)
    · obtain ⟨e, l, rfl⟩ := hp
      obtain ⟨s', d', h1, h2, h3, h4, h5, h6, hv, _⟩ := next_cons r
      obtain ⟨s'', d'', k1, k2, k3, k4⟩ := nextOff_spec h2
      simp only [h1, Option.bind_some, copyName_spec _ hv.1 262 0 [] (by omega) (by omega), k1, Option.pure_def, List.nil_append, List.drop_zero]
      refine ⟨s'', d'', ?_, k2, h3.trans k3, k4.trans h4⟩
      simp only [Pos.head, Spec.wideEntry, FindData.name, typeOf_spec]
    · rw [next_nil r (fun e l k => hp ⟨e, l, k⟩)]
      have e1 : pos.head Spec.wideEntry = none := by
        cases pos with
        | «at» l => cases l with
          | nil => rfl
          | cons e l => exact absurd ⟨e, l, rfl⟩ hp
        | _ => rfl
      have e2 : pos.tail = pos := by
        cases pos with
        | «at» l => cases l with
          | nil => rfl
          | cons e l => exact absurd ⟨e, l, rfl⟩ hp
        | _ => rfl
      simp only [Option.bind_some, Option.pure_def, e1, e2]
      exact ⟨s, d, rfl, r, Upd.refl .., rfl⟩

theorem readdir_spec (loc : Locale) {s : Sys} {p w q : Nat} {h : Option Nat} {patt : List W} {pos : Pos} {d : WDir} (hp : s.heap p = some (.dir w))
    (r : WRep s w q h patt pos d) :
    ∃ s' d', readdirR loc s (some p) = some (0, pos.head (Spec.byteEntry loc), s') ∧ WRep s' w q h patt pos.tail d' ∧
      Upd s s' w h h ∧ s'.errno = s.errno := by
  unfold readdirR
  simp only [Option.bind_eq_bind, Option.bind_some, getDir_of hp]
  by_cases hp : ∃ e l, pos = .at (e :: l)
  · obtain ⟨e, l, rfl⟩ := hp
    obtain ⟨s', d', h1, h2, h3, h4, h5, h6, hv, _⟩ := next_cons r
    obtain ⟨s'', d'', k1, k2, k3, k4⟩ := nextOff_spec h2
    obtain ⟨v1, v2, v3, v4⟩ := hv
    have ha : ∃ c t, e.cAlternateFileName = c :: t := by
      cases k : e.cAlternateFileName with
      | nil => rw [k] at v3; cases v3
      | cons c t => exact ⟨c, t, rfl⟩
    obtain ⟨c, t, ha⟩ := ha
    have halt : e.alt = [] ↔ c = 0 := by
      unfold FindData.alt
      rw [ha, List.takeWhile_cons]
      by_cases k : c = 0 <;> simp [k]
    have e0 : e.cAlternateFileName[0]? = some c := by rw [ha]; rfl
    simp only [h1, Option.bind_some, cstr_valid v2, cstr_valid v4, e0, wcstombsS_spec]
    show ∃ s' d', Option.bind (if Spec.convert (loc.enc e.name) = none ∧ c ≠ 0 then some (Spec.convert (loc.enc e.alt)) else some (Spec.convert (loc.enc e.name))) _ = _ ∧ _
    have hname : (if Spec.convert (loc.enc e.name) = none ∧ c ≠ 0 then some (Spec.convert (loc.enc e.alt)) else some (Spec.convert (loc.enc e.name))) =
        some (Spec.shownName loc e) := by
      unfold Spec.shownName
      cases k : Spec.convert (loc.enc e.name) with
      | some b => simp
      | none =>
        by_cases kc : c = 0
        · simp [kc, halt]
        · simp [kc, halt]
    rw [hname, Option.bind_some]
    cases hs : Spec.shownName loc e with
    | some b =>
      simp only [k1, Option.bind_some, Option.pure_def, typeOf_spec]
      exact ⟨s'', d'', by simp only [Pos.head, Spec.byteEntry, hs], k2, h3.trans k3, k4.trans h4⟩
    | none => exact ⟨s', d', by simp only [Pos.head, Spec.byteEntry, hs, Option.pure_def], h2, h3, h4⟩
  · rw [next_nil r (fun e l k => hp ⟨e, l, k⟩)]
    have e1 : pos.head (Spec.byteEntry loc) = none := by
      cases pos with
      | «at» l => cases l with
        | nil => rfl
        | cons e l => exact absurd ⟨e, l, rfl⟩ hp
      | _ => rfl
    have e2 : pos.tail = pos := by
      cases pos with
      | «at» l => cases l with
        | nil => rfl
        | cons e l => exact absurd ⟨e, l, rfl⟩ hp
      | _ => rfl
    simp only [Option.bind_some, Option.pure_def, e1, e2]
    exact ⟨s, d, rfl, r, Upd.refl .., rfl⟩

/-! ### `telldir` -/

theorem wtelldir_spec {s : Sys} {w q : Nat} {h : Option Nat} {patt : List W} {pos : Pos} {d : WDir} (r : WRep s w q h patt pos d) :
    ∃ s' d', wtelldir s (some w) = some (pos.tell, s') ∧ WRep s' w q h patt pos d' ∧ Upd s s' w h h ∧ s'.errno = if pos.isLost then 9 else s.errno := by
  unfold wtelldir
  simp only [getW_of r.atw, Option.bind_eq_bind, Option.bind_some]
  have hpos := r.pos
  cases pos with
  | lost =>
    simp only [hpos.2, if_true, Option.pure_def]
    exact ⟨{ s with errno := 9 }, d, rfl, ⟨r.atw, r.pat, r.buf, r.hnd, r.pos⟩, ⟨fun _ _ => rfl, fun _ _ _ => rfl, fun _ _ k => absurd rfl k, Nat.le_refl _, .inl rfl⟩, rfl⟩
  | stuck =>
    obtain ⟨_, x, _, hx, _⟩ := hpos
    simp only [hx, reduceCtorEq, if_false, next_nil r (by intro e l k; cases k), Option.bind_some, Option.pure_def, longMax_spec]
    exact ⟨s, d, rfl, r, Upd.refl .., rfl⟩
  | «at» l =>
    obtain ⟨_, ⟨x, _, hx, _⟩, _⟩ := hpos
    simp only [hx, reduceCtorEq, if_false]
    cases l with
    | nil =>
      simp only [next_nil r (by intro e l k; cases k), Option.bind_some, Option.pure_def, longMax_spec]
      exact ⟨s, d, rfl, r, Upd.refl .., rfl⟩
    | cons e l =>
      obtain ⟨s', d', h1, h2, h3, h4, h5, h6, hv, hb⟩ := next_cons r
      simp only [h1, Option.bind_some, getW_of h2.atw, direntHash_spec hv, Option.pure_def]
      exact ⟨_, _, rfl, hb, h3.trans upd_setW, h4⟩

/-! ### `rewinddir` and `seekdir` -/

/-- What is left of a stream whose search was closed. -/
structure Closed (s : Sys) (w q : Nat) (patt : List W) (d : WDir) : Prop where
  atw : s.heap w = some (.wdir d)
  pat : d.patt = some q
  buf : ∃ b, s.heap q = some (.buf b) ∧ cstr b = some patt
  ne : q ≠ w
  lt : ∀ y, s.handles y ≠ none → y < s.next

/-- `dirent_first` after `FindClose`. -/
theorem first_spec {s : Sys} {w q : Nat} {patt : List W} {d : WDir} (c : Closed s w q patt d) {find : List W → FindRes} (hv : (find patt).Valid) :
    match find patt with
    | .ok e l => ∃ s' d', direntFirst s w find = some (true, s') ∧ d'.invalid = d.invalid ∧ d'.cached = true ∧ d'.data = e ∧
        WRep s' w q (some s.next) patt (if d.invalid then .stuck else .at (e :: l)) d' ∧ s'.handles s.next = some l ∧
        (∀ x, x ≠ w → s'.heap x = s.heap x) ∧ (∀ y, y ≠ s.next → s'.handles y = s.handles y) ∧ s'.next = s.next + 1 ∧ s'.errno = s.errno
    | .err code => ∃ s' d', direntFirst s w find = some (false, s') ∧ WRep s' w q none patt .lost d' ∧
        (∀ x, x ≠ w → s'.heap x = s.heap x) ∧ s'.handles = s.handles ∧ s'.next = s.next ∧ s'.errno = Spec.errnoOf code := by
  obtain ⟨b, hb, hc⟩ := c.buf
  unfold direntFirst
  simp only [getW_of c.atw, Option.bind_eq_bind, Option.bind_some, c.pat, getBuf_of hb, hc]
  cases hf : find patt with
  | err code =>
    simp only [Option.pure_def]
    refine ⟨_, { d with handle := none, cached := false, invalid := true }, rfl, ⟨?_, c.pat, ?_, rfl, rfl, rfl⟩, ?_, rfl, rfl, rfl⟩
    · simp [setW, Sys.put, c.pat]
    · exact ⟨b, by simpa [setW, Sys.put, c.ne] using hb, hc⟩
    · intro x hx; simp [setW, Sys.put, hx]
  | ok e l =>
    rw [hf] at hv
    simp only [Option.pure_def]
    refine ⟨_, { d with handle := some s.next, data := e, cached := true }, rfl, rfl, rfl, rfl, ⟨?_, c.pat, ?_, rfl, ?_⟩, ?_, ?_, ?_, rfl, rfl⟩
    · simp [setW, Sys.put, c.pat]
    · exact ⟨b, by simpa [setW, Sys.put, Sys.hput, c.ne] using hb, hc⟩
    · cases hi : d.invalid with
      | true => exact ⟨rfl, s.next, l, rfl, by simp [setW, Sys.put, Sys.hput]⟩
      | false =>
        refine ⟨rfl, ⟨s.next, l, rfl, by simp [setW, Sys.put, Sys.hput], by simp⟩, ?_⟩
        intro x hx
        rcases List.mem_cons.1 hx with rfl | hx
        · exact hv.1
        · exact hv.2 x hx
    · simp [setW, Sys.put, Sys.hput]
    · intro x hx; simp [setW, Sys.put, Sys.hput, hx]
    · intro y hy; simp [setW, Sys.put, Sys.hput, hy]

theorem close_search {s : Sys} {w q x : Nat} {patt : List W} {pos : Pos} {d : WDir} (r : WRep s w q (some x) patt pos d)
    (lt : ∀ y, s.handles y ≠ none → y < s.next) : findClose s d.handle = some (s.hput x none) ∧ Closed (s.hput x none) w q patt d ∧ x < s.next := by
  have hx : ∃ l, s.handles x = some l := by
    have := r.pos
    have hh := r.hnd
    cases pos with
    | lost => rw [this.2] at hh; cases hh
    | stuck => obtain ⟨_, y, l, hy, hl⟩ := this; rw [hy] at hh; cases hh; exact ⟨l, hl⟩
    | «at» k => obtain ⟨_, ⟨y, l, hy, hl, _⟩, _⟩ := this; rw [hy] at hh; cases hh; exact ⟨l, hl⟩
  obtain ⟨l, hl⟩ := hx
  refine ⟨by simp [findClose, r.hnd, hl], ⟨r.atw, r.pat, r.buf, r.ne, ?_⟩, lt x (by simp [hl])⟩
  intro y hy
  by_cases e : y = x
  · subst e; simp [Sys.hput] at hy
  · simp only [Sys.hput, e, if_false] at hy; exact lt y hy

theorem pos_handle {s : Sys} {w q : Nat} {h : Option Nat} {patt : List W} {pos : Pos} {d : WDir} (r : WRep s w q h patt pos d) (hp : pos.isLost = false) :
    ∃ x, h = some x := by
  have := r.pos
  have hh := r.hnd
  cases pos with
  | lost => cases hp
  | stuck => obtain ⟨_, y, l, hy, hl⟩ := this; exact ⟨y, hh.symm.trans hy⟩
  | «at» k => obtain ⟨_, ⟨y, l, hy, hl, _⟩, _⟩ := this; exact ⟨y, hh.symm.trans hy⟩

theorem pos_invalid {s : Sys} {w q : Nat} {h : Option Nat} {patt : List W} {pos : Pos} {d : WDir} (r : WRep s w q h patt pos d) :
    d.invalid = true ↔ ∀ l, pos ≠ .at l := by
  have := r.pos
  cases pos with
  | lost => simp [this.1]
  | stuck => simp [this.1]
  | «at» k => simp [this.1]

/-- After closing and searching again. -/
theorem upd_again {s s' : Sys} {w x : Nat} {h' : Option Nat} (hx : x < s.next) (h1 : ∀ y, y ≠ w → s'.heap y = s.heap y)
    (h2 : ∀ y, h' ≠ some y → s'.handles y = (s.hput x none).handles y) (h3 : s.next ≤ s'.next) (h4 : ∀ y, h' = some y → s.next ≤ y ∧ y < s'.next) :
    Upd s s' w (some x) h' where
  heap := h1
  hnd y ha hb := by
    rw [h2 y hb]
    have : y ≠ x := by rintro rfl; exact ha rfl
    simp [Sys.hput, this]
  gone y ha hb := by
    cases ha
    rw [h2 x hb]
    simp [Sys.hput]
  next := h3
  fresh := .inr h4

theorem wrewinddir_spec {s : Sys} {w q : Nat} {h : Option Nat} {patt : List W} {pos : Pos} {d : WDir} (r : WRep s w q h patt pos d)
    (lt : ∀ y, s.handles y ≠ none → y < s.next) {find : List W → FindRes} (hv : (find patt).Valid) :
    ∃ s' h' d', wrewinddir s (some w) find = some s' ∧ WRep s' w q h' patt (Spec.rewindPos pos (find patt)) d' ∧ Upd s s' w h h' ∧
      s'.errno = Spec.searchErrno s.errno pos (find patt) := by
  unfold wrewinddir
  simp only [getW_of r.atw, Option.bind_eq_bind, Option.bind_some, r.pat]
  cases hl : pos.isLost with
  | true =>
    cases pos <;> cases hl
    have : d.handle = none := r.pos.2
    simp only [this, true_or, if_true, Option.pure_def]
    refine ⟨s, h, d, rfl, ?_, Upd.refl .., ?_⟩
    · cases find patt <;> exact r
    · cases find patt <;> rfl
  | false =>
    obtain ⟨x, rfl⟩ := pos_handle r hl
    obtain ⟨c1, c2, c3⟩ := close_search r lt
    have hh : d.handle ≠ none := by rw [r.hnd]; simp
    simp only [hh, reduceCtorEq, or_self, if_false, c1, Option.bind_some]
    have hf := first_spec c2 hv
    cases e : find patt with
    | err code =>
      rw [e] at hf
      obtain ⟨s', d', f1, f2, f3, f4, f5, f6⟩ := hf
      simp only [f1, Option.bind_some, Option.pure_def]
      refine ⟨s', none, d', rfl, ?_, upd_again c3 f3 (fun y _ => by rw [f4]) (by rw [f5]; exact Nat.le_refl _) (by intro y hy; cases hy), ?_⟩
      · cases pos <;> first | exact f2 | cases hl
      · cases pos <;> first | exact f6 | cases hl
    | ok a l =>
      rw [e] at hf
      obtain ⟨s', d', f1, f2, _, _, f5, f6, f7, f8, f9, f10⟩ := hf
      simp only [f1, Option.bind_some, Option.pure_def]
      refine ⟨s', some s.next, d', rfl, ?_, upd_again c3 f7 (fun y hy => f8 y (fun k => hy (by rw [k]; rfl))) ?_ ?_, ?_⟩
      · have := pos_invalid r
        cases pos with
        | lost => cases hl
        | stuck => rw [this.2 (by intro l k; cases k)] at f5; exact f5
        | «at» k =>
          have hi : d.invalid = false := by
            cases hi : d.invalid with
            | false => rfl
            | true => exact absurd rfl (this.1 hi k)
          rw [hi] at f5; exact f5
      · rw [f9]; exact Nat.le_succ _
      · intro y hy; cases hy; rw [f9]; exact ⟨Nat.le_refl _, Nat.lt_succ_self _⟩
      · cases pos <;> first | exact f10 | cases hl

theorem mark_spec {s : Sys} {w q : Nat} {h : Option Nat} {patt : List W} {pos : Pos} {d : WDir} (r : WRep s w q h patt pos d) :
    ∃ s' d', markInvalid s w = some s' ∧ WRep s' w q h patt (if pos.isLost then .lost else .stuck) d' ∧ Upd s s' w h h ∧ s'.errno = s.errno := by
  unfold markInvalid
  simp only [getW_of r.atw, Option.bind_eq_bind, Option.bind_some, Option.pure_def]
  refine ⟨_, _, rfl, r.setW rfl rfl ?_, upd_setW, rfl⟩
  have := r.pos
  cases pos with
  | lost => exact ⟨rfl, this.2⟩
  | stuck => exact ⟨rfl, this.2⟩
  | «at» k => obtain ⟨_, ⟨y, l, hy, hl, _⟩, _⟩ := this; exact ⟨rfl, y, l, hy, hl⟩

/-- 930-955 -/
theorem seekLoop_spec {w q : Nat} {h : Option Nat} {patt : List W} {loc : Int} : ∀ (l : List FindData) (fuel : Nat) (s : Sys) (d : WDir), l.length < fuel →
    WRep s w q h patt (.at l) d → ∃ s' d', seekLoop w loc fuel s = some s' ∧
      WRep s' w q h patt (Spec.sought (Spec.from? loc l)) d' ∧ Upd s s' w h h ∧ s'.errno = s.errno
  | _, 0, _, _, hf, _ => by omega
  | [], fuel + 1, s, d, _, r => by
    unfold seekLoop
    rw [next_nil r (by intro e l k; cases k)]
    obtain ⟨s', d', m1, m2, m3, m4⟩ := mark_spec r
    exact ⟨s', d', m1, m2, m3, m4⟩
  | e :: l, fuel + 1, s, d, hf, r => by
    unfold seekLoop
    obtain ⟨s', d', h1, h2, h3, h4, h5, h6, hv, hb⟩ := next_cons r
    rw [h1]
    simp only [Option.bind_eq_bind, Option.bind_some, direntHash_spec hv]
    by_cases k : Spec.hash e = loc
    · simp only [k, ne_eq, not_true, if_false, getW_of h2.atw, Option.bind_some, Option.pure_def]
      have e1 : Spec.from? loc (e :: l) = some (e :: l) := by simp [Spec.from?, k]
      rw [e1]
      have hinv : d'.invalid = false := h2.pos.1
      refine ⟨_, { d' with cached := true }, rfl, ?_, h3.trans upd_setW, h4⟩
      have : ({ d' with cached := true, invalid := false } : WDir) = { d' with cached := true } := by rw [← hinv]
      rw [this]
      exact hb
    · simp only [k, ne_eq, not_false_eq_true, if_true]
      obtain ⟨s'', d'', i1, i2, i3, i4⟩ := seekLoop_spec l fuel s' d' (by simpa using hf) h2
      have e1 : Spec.from? loc (e :: l) = Spec.from? loc l := by simp [Spec.from?, k]
      rw [e1]
      exact ⟨s'', d'', i1, i2, h3.trans i3, i4.trans h4⟩

theorem wseekdir_spec {s : Sys} {w q : Nat} {h : Option Nat} {patt : List W} {pos : Pos} {d : WDir} (r : WRep s w q h patt pos d)
    (lt : ∀ y, s.handles y ≠ none → y < s.next) {loc : Int} {find : List W → FindRes} (hv : (find patt).Valid) :
    ∃ s' h' d', wseekdir s (some w) loc find = some s' ∧ WRep s' w q h' patt (Spec.seekPos loc pos (find patt)) d' ∧ Upd s s' w h h' ∧
      s'.errno = if loc < 0 then s.errno else Spec.searchErrno s.errno pos (find patt) := by
  unfold wseekdir
  simp only [getW_of r.atw, Option.bind_eq_bind, Option.bind_some]
  cases hl : pos.isLost with
  | true =>
    cases pos <;> cases hl
    have : d.handle = none := r.pos.2
    simp only [this, if_true]
    obtain ⟨s', d', m1, m2, m3, m4⟩ := mark_spec r
    refine ⟨s', h, d', m1, ?_, m3, ?_⟩
    · cases find patt <;> exact m2
    · rw [m4]; cases find patt <;> simp [Spec.searchErrno]
  | false =>
    obtain ⟨x, rfl⟩ := pos_handle r hl
    obtain ⟨c1, c2, c3⟩ := close_search r lt
    have hh : d.handle ≠ none := by rw [r.hnd]; simp
    simp only [hh, if_false]
    by_cases hloc : loc < 0
    · simp only [hloc, if_true]
      obtain ⟨s', d', m1, m2, m3, m4⟩ := mark_spec r
      rw [hl] at m2
      refine ⟨s', _, d', m1, ?_, m3, m4⟩
      cases pos <;> first | (simpa [Spec.seekPos, hloc] using m2) | cases hl
    · simp only [hloc, if_false, c1, Option.bind_some]
      have hf := first_spec c2 hv
      cases e : find patt with
      | err code =>
        rw [e] at hf
        obtain ⟨s', d', f1, f2, f3, f4, f5, f6⟩ := hf
        obtain ⟨s'', d'', m1, m2, m3, m4⟩ := mark_spec f2
        simp only [f1, Option.bind_some]
        refine ⟨s'', none, d'', m1, ?_, (upd_again c3 f3 (fun y _ => by rw [f4]) (by rw [f5]; exact Nat.le_refl _) (by intro y hy; cases hy)).trans m3, ?_⟩
        · have : Spec.seekPos loc pos (.err code) = .lost := by
            cases pos with
            | lost => rfl
            | stuck => simp only [Spec.seekPos, hloc, if_false]
            | «at» k => simp only [Spec.seekPos, hloc, if_false]
          rw [this]; exact m2
        · rw [m4, f6]; cases pos <;> first | rfl | cases hl
      | ok a l =>
        rw [e] at hf hv
        obtain ⟨s', d', f1, f2, fc, fd, f5, f6, f7, f8, f9, f10⟩ := hf
        simp only [f1, Option.bind_some, getW_of f5.atw]
        have up := upd_again (h' := some s.next) c3 f7 (fun y hy => f8 y (fun k => hy (by rw [k]; rfl))) (by rw [f9]; exact Nat.le_succ _)
          (by intro y hy; cases hy; rw [f9]; exact ⟨Nat.le_refl _, Nat.lt_succ_self _⟩)
        have hval : ∀ b ∈ a :: l, b.Valid := by
          intro b hb
          rcases List.mem_cons.1 hb with rfl | hb
          · exact hv.1
          · exact hv.2 b hb
        have r2 : WRep (setW s' w { d' with invalid := false }) w q (some s.next) patt (.at (a :: l)) { d' with invalid := false } :=
          f5.setW rfl rfl ⟨rfl, ⟨s.next, l, f5.hnd, f6, by simp [fc, fd]⟩, hval⟩
        have hb : ∀ t (dd : WDir), t.heap w = some (.wdir dd) → dd.handle = some s.next → t.handles s.next = some l → bound t w = l.length + 3 := by
          intro t dd h1 h2 h3
          unfold bound
          rw [getW_of h1]
          simp only [Option.bind_some, h2, h3]
        have hb := hb _ _ r2.atw f5.hnd f6
        rw [hb]
        obtain ⟨s'', d'', i1, i2, i3, i4⟩ := seekLoop_spec (loc := loc) (a :: l) (l.length + 3) _ _ (by simp) r2
        refine ⟨s'', _, d'', i1, ?_, (up.trans upd_setW).trans i3, ?_⟩
        · have : Spec.seekPos loc pos (.ok a l) = Spec.sought (Spec.from? loc (a :: l)) := by
            cases pos with
            | lost => cases hl
            | stuck => simp only [Spec.seekPos, hloc, if_false]
            | «at» k => simp only [Spec.seekPos, hloc, if_false]
          rw [this]
          exact i2
        · rw [i4]
          show s'.errno = _
          rw [f10]
          cases pos <;> first | rfl | cases hl

end Verif.Dirent
