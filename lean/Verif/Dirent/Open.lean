import Verif.Dirent.Ops

/-! # Opening and closing -/
namespace Verif.Dirent
open Spec (W FindData Ent Locale FullRes FindRes OpenAns Event Ret Pos Stream Abs)

theorem free_some {s : Sys} {x : Nat} {o : Obj} (h : s.heap x = some o) : free s (some x) = some (s.put x none) := by simp [free, h]

theorem wclosedir_spec {s : Sys} {w q : Nat} {h : Option Nat} {patt : List W} {pos : Pos} {d : WDir} (r : WRep s w q h patt pos d) :
    ∃ s', wclosedir s (some w) = some (0, s') ∧ s'.heap w = none ∧ s'.heap q = none ∧ (∀ x, x ≠ w → x ≠ q → s'.heap x = s.heap x) ∧
      (∀ y, h = some y → s'.handles y = none) ∧ (∀ y, h ≠ some y → s'.handles y = s.handles y) ∧ s'.next = s.next ∧ s'.errno = s.errno := by
  obtain ⟨b, hb, _⟩ := r.buf
  have hne := r.ne
  unfold wclosedir
  simp only [getW_of r.atw, Option.bind_eq_bind, Option.bind_some, r.pat, r.hnd]
  cases h with
  | none =>
    simp only [Option.isSome_none, Bool.false_eq_true, if_false, Option.bind_some, free, hb, Option.bind_eq_bind, Option.pure_def]
    have : (s.put q none).heap w = some (.wdir d) := by simp [Sys.put, Ne.symm hne, r.atw]
    simp only [this, Option.bind_some]
    refine ⟨_, rfl, by simp [Sys.put], by simp [Sys.put], ?_, (by intro y hy; cases hy), fun _ _ => rfl, rfl, rfl⟩
    intro x h1 h2; simp [Sys.put, h1, h2]
  | some x =>
    have hx : ∃ l, s.handles x = some l := by
      have := r.pos
      have hh := r.hnd
      cases pos with
      | lost => rw [this.2] at hh; cases hh
      | stuck => obtain ⟨_, y, l, hy, hl⟩ := this; rw [hy] at hh; cases hh; exact ⟨l, hl⟩
      | «at» k => obtain ⟨_, ⟨y, l, hy, hl, _⟩, _⟩ := this; rw [hy] at hh; cases hh; exact ⟨l, hl⟩
    obtain ⟨l, hl⟩ := hx
    have hb' : (s.hput x none).heap q = some (.buf b) := hb
    simp only [Option.isSome_some, if_true, findClose, hl, Option.bind_some, free, hb', Option.bind_eq_bind, Option.pure_def]
    have : ((s.hput x none).put q none).heap w = some (.wdir d) := by simp [Sys.put, Sys.hput, Ne.symm hne, r.atw]
    simp only [this, Option.bind_some]
    refine ⟨_, rfl, by simp [Sys.put], by simp [Sys.put], ?_, ?_, ?_, rfl, rfl⟩
    · intro x h1 h2; simp [Sys.put, Sys.hput, h1, h2]
    · intro y hy; cases hy; simp [Sys.put, Sys.hput]
    · intro y hy
      have : y ≠ x := by rintro rfl; exact hy rfl
      simp [Sys.put, Sys.hput, this]

/-- What a call that fails leaves. -/
structure Same (s s' : Sys) : Prop where
  heap : ∀ x, s'.heap x = s.heap x
  hnd : ∀ y, s'.handles y = s.handles y
  next : s.next ≤ s'.next

theorem same_upd {s : Sys} {f : Nat → Option Obj} (h : ∀ x, f x = s.heap x) : f = s.heap := funext h

/-- Closing a stream without a search handle. -/
theorem wclosedir_part {s : Sys} {w : Nat} {d : WDir} (h : s.heap w = some (.wdir d)) (hh : d.handle = none) (hp : ∀ q, d.patt = some q → q ≠ w ∧ s.heap q ≠ none) :
    ∃ s', wclosedir s (some w) = some (0, s') ∧ (∀ x, s'.heap x = if x = w ∨ d.patt = some x then none else s.heap x) ∧ s'.handles = s.handles ∧
      s'.next = s.next ∧ s'.errno = s.errno := by
  unfold wclosedir
  simp only [getW_of h, Option.bind_eq_bind, Option.bind_some, hh, Option.isSome_none, Bool.false_eq_true, if_false]
  cases hq : d.patt with
  | none =>
    simp only [free, Option.bind_some, h, Option.bind_eq_bind, Option.pure_def]
    refine ⟨_, rfl, ?_, rfl, rfl, rfl⟩
    intro x; simp [Sys.put]
  | some q =>
    obtain ⟨h1, h2⟩ := hp q hq
    obtain ⟨o, ho⟩ := Option.ne_none_iff_exists'.1 h2
    have : (s.put q none).heap w = some (.wdir d) := by simp [Sys.put, Ne.symm h1, h]
    simp only [free, ho, Option.bind_some, Option.bind_eq_bind, Option.pure_def, this]
    refine ⟨_, rfl, ?_, rfl, rfl, rfl⟩
    intro x
    simp only [Sys.put, Option.some.injEq]
    by_cases e1 : x = w
    · simp [e1]
    · by_cases e2 : x = q
      · simp [e2]
      · simp [e1, e2, Ne.symm e2]

theorem fullPath_path {cap : Nat} {p : List W} (h : p.length < cap) : fullPath cap (.path p) = some (p.length, p ++ List.replicate (cap - p.length) 0) := by
  simp [fullPath, h]

theorem put_put {s : Sys} {x : Nat} {o o' : Option Obj} : (s.put x o).put x o' = s.put x o' := by
  simp only [Sys.put]
  congr 1
  funext y
  by_cases h : y = x <;> simp [h]

/-- The state after both allocations: the stream at `n`, its pattern at `n + 1`. -/
def twoBlocks (s : Sys) (n : Nat) (d : WDir) (b : List W) : Sys :=
  { s with heap := fun x => if x = n + 1 then some (.buf b) else if x = n then some (.wdir d) else s.heap x, next := n + 2 }

theorem wopenTail_fail {s : Sys} {n : Nat} {d : WDir} {b : List W} {find : List W → FindRes} (h1 : s.heap n = none) (h2 : s.heap (n + 1) = none) (hn : n = s.next)
    (hd : d.handle = none) (hp : d.patt = some (n + 1)) : ∃ s', wopenTail (twoBlocks s n d b) n (n + 1) 0 b find = some (none, s') ∧ Same s s' ∧ s'.errno = s.errno := by
  unfold wopenTail
  obtain ⟨s', c1, c2, c3, c4, c5⟩ := wclosedir_part (s := twoBlocks s n d b) (w := n) (d := d) (by simp [twoBlocks]) hd
    (by intro q hq; rw [hp] at hq; cases hq; exact ⟨by omega, by simp [twoBlocks]⟩)
  simp only [Nat.le_refl, if_true, c1, Option.bind_eq_bind, Option.bind_some, Option.pure_def]
  refine ⟨s', rfl, ⟨?_, fun y => by rw [c3]; rfl, by rw [c4, hn]; simp [twoBlocks]⟩, c5⟩
  intro x
  rw [c2 x, hp]
  by_cases e1 : x = n
  · subst e1; simp [h1]
  · by_cases e2 : x = n + 1
    · subst e2; simp [h2]
    · simp [e1, e2, Ne.symm e2, twoBlocks]

theorem wopenTail_spec {s : Sys} {n : Nat} {d : WDir} {p : List W} {k : Nat} {find : List W → FindRes} (h1 : s.heap n = none) (h2 : s.heap (n + 1) = none) (hn : n = s.next)
    (hlt : ∀ y, s.handles y ≠ none → y < s.next) (hd : d.handle = none) (hp : d.patt = some (n + 1)) (hi : d.invalid = false)
    (hne : p ≠ []) (h0 : (0 : W) ∉ p) (hk : 3 ≤ k) (hv : (find (Spec.pattern p)).Valid) :
    match find (Spec.pattern p) with
    | .ok e l => ∃ s' d', wopenTail (twoBlocks s n d (p ++ List.replicate k 0)) n (n + 1) p.length (p ++ List.replicate k 0) find = some (some n, s') ∧
        WRep s' n (n + 1) (some (n + 2)) (Spec.pattern p) (.at (e :: l)) d' ∧ (∀ x, x ≠ n → x ≠ n + 1 → s'.heap x = s.heap x) ∧
        (∀ y, y ≠ n + 2 → s'.handles y = s.handles y) ∧ s'.next = n + 3 ∧ s'.errno = s.errno
    | .err code => ∃ s', wopenTail (twoBlocks s n d (p ++ List.replicate k 0)) n (n + 1) p.length (p ++ List.replicate k 0) find = some (none, s') ∧ Same s s' ∧
        s'.errno = Spec.errnoOf code := by
  obtain ⟨b, hb, hc⟩ := appendPattern_spec hne h0 hk
  have hpos : ¬ p.length ≤ 0 := by have := List.length_pos_iff.2 hne; omega
  have hput : ∀ b', (twoBlocks s n d b').put (n + 1) (some (.buf b)) = twoBlocks s n d b := by
    intro b'
    simp only [twoBlocks, Sys.put]
    congr 1
    funext x
    by_cases e : x = n + 1 <;> simp [e]
  have c : Closed (twoBlocks s n d b) n (n + 1) (Spec.pattern p) d := by
    refine ⟨by simp [twoBlocks], hp, ⟨b, by simp [twoBlocks], hc⟩, by omega, ?_⟩
    intro y hy
    have := hlt y hy
    show y < n + 2
    omega
  have hf := first_spec c hv
  cases e : find (Spec.pattern p) with
  | ok a l =>
    rw [e] at hf
    obtain ⟨s', d', f1, f2, fc, fd, f5, f6, f7, f8, f9, f10⟩ := hf
    unfold wopenTail
    rw [if_neg hpos]
    simp only [hb, Option.bind_eq_bind, Option.bind_some, hput, f1, Option.pure_def]
    refine ⟨s', d', rfl, ?_, ?_, ?_, f9, f10⟩
    · rw [hi] at f5; exact f5
    · intro x hx hx'
      rw [f7 x hx]
      simp [twoBlocks, hx, hx']
    · intro y hy
      exact f8 y hy
  | err code =>
    rw [e] at hf
    obtain ⟨s', d', f1, f2, f3, f4, f5, f6⟩ := hf
    obtain ⟨s'', c1, c2, c3, c4, c5, c6, c7, c8⟩ := wclosedir_spec f2
    unfold wopenTail
    rw [if_neg hpos]
    simp only [hb, Option.bind_eq_bind, Option.bind_some, hput, f1, c1, Option.pure_def]
    refine ⟨s'', rfl, ⟨?_, ?_, ?_⟩, c8.trans f6⟩
    · intro x
      by_cases e1 : x = n
      · subst e1; rw [c2, h1]
      · by_cases e2 : x = n + 1
        · subst e2; rw [c3, h2]
        · rw [c4 x e1 e2, f3 x e1]
          simp [twoBlocks, e1, e2]
    · intro y
      rw [c6 y (by simp), f4]
      rfl
    · rw [c7, f5, hn]
      simp [twoBlocks]

theorem wopendir_spec {s : Sys} {name : List W} {a : OpenAns} (hlt : ∀ x, s.heap x ≠ none → x < s.next) (hlt' : ∀ y, s.handles y ≠ none → y < s.next) (hv : a.Valid) :
    match Spec.openWide name a with
    | .ok patt l => ∃ s' d, wopendir s (some name) a = some (some s.next, s') ∧ WRep s' s.next (s.next + 1) (some (s.next + 2)) patt (.at l) d ∧
        (∀ x, x ≠ s.next → x ≠ s.next + 1 → s'.heap x = s.heap x) ∧ (∀ y, y ≠ s.next + 2 → s'.handles y = s.handles y) ∧ s'.next = s.next + 3 ∧ s'.errno = s.errno
    | .fail e => ∃ s', wopendir s (some name) a = some (none, s') ∧ Same s s' ∧ s'.errno = e.getD s.errno := by
  have n1 : s.heap s.next = none := by
    cases h : s.heap s.next with
    | none => rfl
    | some o => exact absurd (hlt s.next (by simp [h])) (Nat.lt_irrefl _)
  have n2 : s.heap (s.next + 1) = none := by
    cases h : s.heap (s.next + 1) with
    | none => rfl
    | some o => exact absurd (hlt (s.next + 1) (by simp [h])) (by omega)
  have self : Same s s := ⟨fun _ => rfl, fun _ => rfl, Nat.le_refl _⟩
  unfold Spec.openWide
  cases name with
  | nil => exact ⟨{ s with errno := 2 }, rfl, ⟨fun _ => rfl, fun _ => rfl, Nat.le_refl _⟩, rfl⟩
  | cons c t =>
    simp only [reduceCtorEq, if_false]
    unfold wopendir
    cases h1 : a.wdirOk with
    | false =>
      simp only [malloc, Bool.false_eq_true, if_false, Bool.false_and]
      exact ⟨s, rfl, self, rfl⟩
    | true =>
      simp only [malloc, if_true, Bool.true_and]
      cases h2 : a.pattOk with
      | false =>
        simp only [Bool.false_eq_true, if_false]
        obtain ⟨s', c1, c2, c3, c4, c5⟩ := wclosedir_part (s := setW { s.put s.next (some .raw) with next := s.next + 1 } s.next ⟨none, none, false, false, ⟨[], [], 0⟩⟩) (w := s.next)
          (d := ⟨none, none, false, false, ⟨[], [], 0⟩⟩) (by simp [setW, Sys.put]) rfl (by intro q hq; cases hq)
        simp only [c1, Option.bind_eq_bind, Option.bind_some, Option.pure_def]
        refine ⟨s', rfl, ⟨?_, fun y => by rw [c3]; rfl, by rw [c4]; exact Nat.le_succ _⟩, c5⟩
        intro x
        rw [c2 x]
        by_cases e : x = s.next
        · simp [e, n1]
        · simp [e, setW, Sys.put]
      | true =>
        simp only [if_true]
        have full := hv.1 (c :: t)
        have hn : (setW { s.put s.next (some .raw) with next := s.next + 1 } s.next ⟨none, none, false, false, ⟨[], [], 0⟩⟩).next = s.next + 1 := rfl
        have two : ∀ b, (setW { (setW { s.put s.next (some .raw) with next := s.next + 1 } s.next ⟨none, none, false, false, ⟨[], [], 0⟩⟩).put
            (s.next + 1) (some .raw) with next := s.next + 1 + 1 } s.next ⟨none, some (s.next + 1), false, false, ⟨[], [], 0⟩⟩).put (s.next + 1) (some (.buf b)) =
            twoBlocks s s.next ⟨none, some (s.next + 1), false, false, ⟨[], [], 0⟩⟩ b := by
          intro b
          simp only [setW, Sys.put, twoBlocks, Sys.mk.injEq, and_true]
          funext x
          by_cases e1 : x = s.next + 1
          · simp [e1]
          · by_cases e2 : x = s.next <;> simp [e1, e2]
        simp only [hn]
        cases e : (a.full (c :: t)).2 with
        | need k => rw [e] at full; exact full.elim
        | fail =>
          simp only [fullPath, Option.bind_eq_bind, Option.bind_some, two]
          exact wopenTail_fail n1 n2 rfl rfl rfl
        | path p =>
          rw [e] at full
          obtain ⟨f1, f2⟩ := full
          rw [fullPath_path (by omega)]
          simp only [Option.bind_eq_bind, Option.bind_some, two]
          cases p with
          | nil =>
            simp only [List.length_nil]
            exact wopenTail_fail n1 n2 rfl rfl rfl
          | cons x p =>
            have := wopenTail_spec (s := s) (n := s.next) (d := ⟨none, some (s.next + 1), false, false, ⟨[], [], 0⟩⟩) (p := x :: p)
              (k := (2 * (a.full (c :: t)).1 + 16) / 2 - (x :: p).length) (find := a.find) n1 n2 rfl hlt' rfl rfl rfl (by simp) f2 (by omega) (hv.2 _)
            cases ef : a.find (Spec.pattern (x :: p)) with
            | ok e l =>
              simp only [ef] at this ⊢
              exact this
            | err code =>
              simp only [ef] at this ⊢
              exact this

theorem opendir_spec (loc : Locale) {s : Sys} {name : List Byte} {a : OpenAns} (hlt : ∀ x, s.heap x ≠ none → x < s.next)
    (hlt' : ∀ y, s.handles y ≠ none → y < s.next) (hv : a.Valid) :
    match Spec.openBytes loc name a with
    | .ok patt l => ∃ s' d, opendir loc s (some name) a = some (some s.next, s') ∧ s'.heap s.next = some (.dir (s.next + 1)) ∧
        WRep s' (s.next + 1) (s.next + 2) (some (s.next + 3)) patt (.at l) d ∧
        (∀ x, x ≠ s.next → x ≠ s.next + 1 → x ≠ s.next + 2 → s'.heap x = s.heap x) ∧ (∀ y, y ≠ s.next + 3 → s'.handles y = s.handles y) ∧
        s'.next = s.next + 4 ∧ s'.errno = s.errno
    | .fail e => ∃ s', opendir loc s (some name) a = some (none, s') ∧ Same s s' ∧ s'.errno = e.getD s.errno := by
  have n1 : s.heap s.next = none := by
    cases h : s.heap s.next with
    | none => rfl
    | some o => exact absurd (hlt s.next (by simp [h])) (Nat.lt_irrefl _)
  unfold Spec.openBytes
  cases name with
  | nil => exact ⟨{ s with errno := 2 }, rfl, ⟨fun _ => rfl, fun _ => rfl, Nat.le_refl _⟩, rfl⟩
  | cons c t =>
    simp only [reduceCtorEq, if_false]
    unfold opendir
    cases h1 : a.dirOk with
    | false =>
      simp only [malloc, Bool.false_eq_true, if_false]
      exact ⟨s, rfl, ⟨fun _ => rfl, fun _ => rfl, Nat.le_refl _⟩, rfl⟩
    | true =>
      simp only [malloc, if_true, mbstowcsS_spec]
      cases h2 : Spec.convert (loc.dec (c :: t)) with
      | none =>
        have : ({ s.put s.next (some .raw) with next := s.next + 1 } : Sys).heap s.next = some .raw := by simp [Sys.put]
        simp only [free_some this, Option.bind_eq_bind, Option.bind_some, Option.pure_def]
        refine ⟨_, rfl, ⟨?_, fun _ => rfl, Nat.le_succ _⟩, rfl⟩
        intro x
        by_cases e : x = s.next <;> simp [Sys.put, e, n1]
      | some w =>
        simp only
        have hw := wopendir_spec (s := { s.put s.next (some .raw) with next := s.next + 1 }) (name := w) (a := a) (by
          intro x hx
          by_cases e : x = s.next
          · subst e; exact Nat.lt_succ_self _
          · exact Nat.lt_succ_of_lt (hlt x (by simpa [Sys.put, e] using hx))) (fun y hy => Nat.lt_succ_of_lt (hlt' y hy)) hv
        cases ho : Spec.openWide w a with
        | fail e =>
          rw [ho] at hw
          obtain ⟨s', w1, w2, w3⟩ := hw
          have : s'.heap s.next = some .raw := by rw [w2.heap]; simp [Sys.put]
          simp only [w1, Option.bind_eq_bind, Option.bind_some, free, this, Option.pure_def]
          refine ⟨_, rfl, ⟨?_, w2.hnd, Nat.le_trans (Nat.le_succ _) w2.next⟩, w3⟩
          intro x
          by_cases e : x = s.next
          · simp [Sys.put, e, n1]
          · simp only [Sys.put, e, if_false]
            rw [w2.heap x]
            simp [Sys.put, e]
        | ok patt l =>
          rw [ho] at hw
          obtain ⟨s', d, w1, w2, w3, w4, w5, w6⟩ := hw
          simp only [w1, Option.bind_eq_bind, Option.bind_some, Option.pure_def]
          have hd : ∀ x, x ≠ s.next → (s'.put s.next (some (.dir (s.next + 1)))).heap x = s'.heap x := by
            intro x hx; simp [Sys.put, hx]
          refine ⟨_, d, rfl, by simp [Sys.put], ⟨?_, w2.pat, ?_, w2.hnd, w2.pos⟩, ?_, w4, w5, w6⟩
          · rw [hd _ (by omega)]; exact w2.atw
          · obtain ⟨b, hb, hc⟩ := w2.buf
            refine ⟨b, ?_, hc⟩
            rw [hd _ (by omega)]; exact hb
          · intro x k1 k2 k3
            rw [hd x k1, w3 x k2 k3]
            simp [Sys.put, k1]

end Verif.Dirent
