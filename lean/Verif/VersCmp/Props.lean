import Verif.VersCmp.Spec
import Verif.VersCmp.Model

/-! # C80: `strverscmp` is a total order that agrees with GNU's but for one case -/
namespace Verif.VersCmp
open Spec

theorem byte_toNat_inj {c d : Byte} (h : c.toNat = d.toNat) : c = d := UInt8.toNat_inj.1 h

theorem byte_lt {c d : Byte} : c < d ↔ c.toNat < d.toNat := UInt8.lt_iff_toNat_lt
theorem byte_le {c d : Byte} : c ≤ d ↔ c.toNat ≤ d.toNat := UInt8.le_iff_toNat_le

theorem isDig_iff {c : Byte} : isDig c = true ↔ cls c ≠ .x := by
  unfold isDig cls
  by_cases h : c = 48
  · subst h; simp
  · simp only [h, if_false]
    have : c.toNat ≠ 48 := fun e => h (byte_toNat_inj e)
    simp only [byte_le, decide_eq_true_eq]
    have e1 : (48 : Byte).toNat = 48 := rfl
    have e2 : (49 : Byte).toNat = 49 := rfl
    have e3 : (57 : Byte).toNat = 57 := rfl
    rw [e1, e2, e3]
    split
    · simp; omega
    · simp; omega

theorem isdigit_eq {c : Byte} (h : c < 128) : isdigit c = some (isDig c) := by
  simp [isdigit, isDig, h]

/-- The state after a common part. -/
def after (st : State) (p : List Byte) : State := p.foldl (fun st c => next st (cls c)) st

theorem cmp_prefix (table : State → Cls → Cls → Res) : ∀ (p : List Byte) (st : State) (s t : List Byte), hd s ≠ hd t →
    cmp table st (p ++ s) (p ++ t) = Spec.decide table (after st p) s t
  | [], st, s, t, h => by
    cases s with
    | nil =>
      cases t with
      | nil => exact absurd rfl h
      | cons d t => rfl
    | cons c s =>
      cases t with
      | nil => rfl
      | cons d t =>
        have : c ≠ d := h
        simp [cmp, after, this]
  | c :: p, st, s, t, h => by
    simp only [List.cons_append, cmp, if_true]
    exact cmp_prefix table p _ s t h

theorem cmp_self (table : State → Cls → Cls → Res) : ∀ (s : List Byte) (st : State), cmp table st s s = .eq
  | [], _ => rfl
  | c :: s, st => by simp only [cmp, if_true]; exact cmp_self table s _

/-- Two strings are equal or differ at a first place. -/
theorem diff_cases : ∀ {s t : List Byte}, (0 : Byte) ∉ s → (0 : Byte) ∉ t → s = t ∨
    ∃ p s' t', s = p ++ s' ∧ t = p ++ t' ∧ hd s' ≠ hd t'
  | [], [], _, _ => .inl rfl
  | [], d :: t, _, h => .inr ⟨[], [], d :: t, rfl, rfl, fun e => h (by simp [hd] at e; simp [← e])⟩
  | c :: s, [], h, _ => .inr ⟨[], c :: s, [], rfl, rfl, fun e => h (by simp [hd] at e; simp [e])⟩
  | c :: s, d :: t, h1, h2 => by
    by_cases e : c = d
    · subst e
      rcases diff_cases (s := s) (t := t) (fun h => h1 (by simp [h])) (fun h => h2 (by simp [h])) with rfl | ⟨p, s', t', rfl, rfl, h⟩
      · exact .inl rfl
      · exact .inr ⟨c :: p, s', t', rfl, rfl, h⟩
    · exact .inr ⟨[], c :: s, d :: t, rfl, rfl, e⟩

/-! ## The loops -/

theorem get_at (p u : List Byte) (i : Nat) : (p ++ u)[p.length + i]? = u[i]? := by
  rw [List.getElem?_append_right (by omega)]; congr 1; omega

theorem get_hd (p s : List Byte) (r : List Byte) : (p ++ (s ++ 0 :: r))[p.length]? = some (hd s) := by
  have := get_at p (s ++ 0 :: r) 0
  simp only [Nat.add_zero] at this
  rw [this]
  cases s <;> simp [hd]

theorem diffLoop_ne (s t r1 r2 : List Byte) (h : hd s ≠ hd t) : ∀ (p u : List Byte), (0 : Byte) ∉ p → ∀ (fuel : Nat), p.length < fuel →
    diffLoop (u ++ (p ++ (s ++ 0 :: r1))) (u ++ (p ++ (t ++ 0 :: r2))) fuel u.length = some (some (u.length + p.length))
  | [], u, _, fuel + 1, hf => by
    simp only [diffLoop, List.nil_append, get_hd, Option.bind_eq_bind, Option.bind_some, h, if_false]
    rfl
  | c :: p, u, h0, fuel + 1, hf => by
    have e1 : (u ++ (c :: p ++ (s ++ 0 :: r1)))[u.length]? = some c := by simp
    have e2 : (u ++ (c :: p ++ (t ++ 0 :: r2)))[u.length]? = some c := by simp
    have hc : c ≠ 0 := fun e => h0 (by simp [e])
    simp only [diffLoop, e1, e2, Option.bind_eq_bind, Option.bind_some, if_true, hc, if_false]
    have := diffLoop_ne s t r1 r2 h p (u ++ [c]) (fun h => h0 (by simp [h])) fuel (by simp at hf; omega)
    simp only [List.append_assoc, List.cons_append, List.nil_append, List.length_append, List.length_cons, List.length_nil, Nat.zero_add] at this ⊢
    rw [this]
    congr 2; omega
  | [], _, _, 0, hf => by simp at hf
  | _ :: _, _, _, 0, hf => by simp at hf

theorem diffLoop_eq (r1 r2 : List Byte) : ∀ (p u : List Byte), (0 : Byte) ∉ p → ∀ (fuel : Nat), p.length < fuel →
    diffLoop (u ++ (p ++ 0 :: r1)) (u ++ (p ++ 0 :: r2)) fuel u.length = some none
  | [], u, _, fuel + 1, hf => by
    have e1 : (u ++ ([] ++ 0 :: r1))[u.length]? = some 0 := by simp
    have e2 : (u ++ ([] ++ 0 :: r2))[u.length]? = some 0 := by simp
    simp only [diffLoop, e1, e2, Option.bind_eq_bind, Option.bind_some, if_true]
    rfl
  | c :: p, u, h0, fuel + 1, hf => by
    have e1 : (u ++ (c :: p ++ 0 :: r1))[u.length]? = some c := by simp
    have e2 : (u ++ (c :: p ++ 0 :: r2))[u.length]? = some c := by simp
    have hc : c ≠ 0 := fun e => h0 (by simp [e])
    simp only [diffLoop, e1, e2, Option.bind_eq_bind, Option.bind_some, if_true, hc, if_false]
    have := diffLoop_eq r1 r2 p (u ++ [c]) (fun h => h0 (by simp [h])) fuel (by simp at hf; omega)
    simpa using this
  | [], _, _, 0, hf => by simp at hf
  | _ :: _, _, _, 0, hf => by simp at hf

theorem snocInd {P : List Byte → Prop} (nil : P []) (snoc : ∀ l c, P l → P (l ++ [c])) (l : List Byte) : P l := by
  have : ∀ n (l : List Byte), l.length = n → P l := by
    intro n
    induction n with
    | zero => intro l h; rw [List.length_eq_zero_iff.1 h]; exact nil
    | succ n ih =>
      intro l h
      have hne : l ≠ [] := by intro e; rw [e] at h; cases h
      rw [← List.dropLast_concat_getLast hne]
      exact snoc _ _ (ih _ (by simp [h]))
  exact this _ l rfl

/-- A list is something that does not end in a digit, followed by digits. -/
theorem split_digits (p : List Byte) : ∃ q r, p = q ++ r ∧ (∀ c ∈ r, isDig c = true) ∧ (q = [] ∨ ∃ q' c, q = q' ++ [c] ∧ isDig c = false) := by
  induction p using snocInd with
  | nil => exact ⟨[], [], rfl, by simp, .inl rfl⟩
  | snoc p c ih =>
    cases h : isDig c with
    | false => exact ⟨p ++ [c], [], by simp, by simp, .inr ⟨p, c, rfl, h⟩⟩
    | true =>
      obtain ⟨q, r, rfl, h1, h2⟩ := ih
      refine ⟨q, r ++ [c], by simp, fun d hd => ?_, h2⟩
      rcases List.mem_append.1 hd with hd | hd
      · exact h1 d hd
      · simp at hd; rw [hd]; exact h

theorem backLoop_ok (q : List Byte) (hq : q = [] ∨ ∃ q' c, q = q' ++ [c] ∧ isDig c = false) (hq7 : ∀ c ∈ q, c < 128) (w : List Byte) :
    ∀ (r : List Byte), (∀ c ∈ r, isDig c = true ∧ c < 128) → ∀ w', w = r ++ w' → backLoop (q ++ w) (q ++ r).length = some q.length := by
  intro r
  induction r using snocInd with
  | nil =>
    intro _ w' _
    rcases hq with rfl | ⟨q', c, rfl, hc⟩
    · rfl
    · have e : (q' ++ [c] ++ w)[q'.length]? = some c := by simp
      have h7 := hq7 c (by simp)
      simp only [List.append_nil, List.length_append, List.length_cons, List.length_nil, Nat.zero_add, backLoop, e, Option.bind_eq_bind,
        Option.bind_some, isdigit_eq h7, hc]
      rfl
  | snoc r c ih =>
    intro hr w' hw
    subst hw
    have e : (q ++ (r ++ [c] ++ w'))[q.length + r.length]? = some c := by
      rw [get_at]; simp
    have hc := hr c (by simp)
    have hl : (q ++ (r ++ [c])).length = (q.length + r.length) + 1 := by simp; omega
    rw [hl]
    simp only [backLoop, e, Option.bind_eq_bind, Option.bind_some, isdigit_eq hc.2, hc.1, if_true]
    have := ih (fun d hd => hr d (by simp [hd])) (c :: w') (by simp)
    simpa using this

theorem runLoop_ok (v : List Byte) (r0 : List Byte) (h7 : hd v < 128) (hv : isDig (hd v) = false) :
    ∀ (w u : List Byte), (∀ c ∈ w, isDig c = true ∧ c < 128) → ∀ fuel, w.length < fuel →
    runLoop (u ++ (w ++ (v ++ 0 :: r0))) fuel u.length = some (u.length + w.length)
  | [], u, _, fuel + 1, hf => by
    simp only [runLoop, List.nil_append, get_hd, Option.bind_eq_bind, Option.bind_some, isdigit_eq h7, hv]
    rfl
  | c :: w, u, hw, fuel + 1, hf => by
    have e1 : (u ++ (c :: w ++ (v ++ 0 :: r0)))[u.length]? = some c := by simp
    have hc := hw c (by simp)
    simp only [runLoop, e1, Option.bind_eq_bind, Option.bind_some, isdigit_eq hc.2, hc.1, if_true]
    have := runLoop_ok v r0 h7 hv w (u ++ [c]) (fun d hd => hw d (by simp [hd])) fuel (by simp at hf; omega)
    simp only [List.append_assoc, List.cons_append, List.nil_append, List.length_append, List.length_cons, List.length_nil, Nat.zero_add] at this ⊢
    rw [this]
    congr 1; omega
  | [], _, _, 0, hf => by simp at hf
  | _ :: _, _, _, 0, hf => by simp at hf

theorem zeroLoop_ok (v w : List Byte) (x y : Byte) (hxy : ¬ (x = 48 ∧ x = y)) :
    ∀ (n : Nat) (u : List Byte) (fuel : Nat), n < fuel →
    zeroLoop (u ++ (List.replicate n 48 ++ x :: v)) (u ++ (List.replicate n 48 ++ y :: w)) fuel u.length = some (u.length + n)
  | 0, u, fuel + 1, hf => by
    have e1 : (u ++ (List.replicate 0 48 ++ x :: v))[u.length]? = some x := by simp
    have e2 : (u ++ (List.replicate 0 48 ++ y :: w))[u.length]? = some y := by simp
    simp only [zeroLoop, e1, e2, Option.bind_eq_bind, Option.bind_some]
    by_cases hx : x = 48
    · rw [if_pos hx, if_neg (fun e => hxy ⟨hx, e⟩)]; rfl
    · rw [if_neg hx]; rfl
  | n + 1, u, fuel + 1, hf => by
    have e1 : (u ++ (List.replicate (n + 1) 48 ++ x :: v))[u.length]? = some 48 := by simp [List.replicate_succ]
    have e2 : (u ++ (List.replicate (n + 1) 48 ++ y :: w))[u.length]? = some 48 := by simp [List.replicate_succ]
    simp only [zeroLoop, e1, e2, Option.bind_eq_bind, Option.bind_some, if_true]
    have := zeroLoop_ok v w x y hxy n (u ++ [48]) fuel (by omega)
    simp only [List.replicate_succ, List.append_assoc, List.cons_append, List.nil_append, List.length_append, List.length_cons, List.length_nil, Nat.zero_add] at this ⊢
    rw [this]
    congr 1; omega
  | _, _, 0, hf => by omega

/-! ## The result -/

theorem cls_nodig {c : Byte} (h : isDig c = false) : cls c = .x := by
  cases k : cls c with
  | x => rfl
  | d => rw [isDig_iff.2 (by simp [k])] at h; cases h
  | z => rw [isDig_iff.2 (by simp [k])] at h; cases h

theorem here_len {a b : Cls} (ha : a ≠ .x) (hb : b ≠ .x) : here .I a b = .len := by cases a <;> cases b <;> simp_all [here, gnu]
theorem here_less {b : Cls} (hb : b ≠ .x) : here .I .x b = .less := by cases b <;> simp_all [here, gnu]
theorem here_greater {a : Cls} (ha : a ≠ .x) : here .I a .x = .greater := by cases a <;> simp_all [here, gnu]
theorem here_Zx {b : Cls} (hb : b ≠ .x) : here .Z .x b = .greater := by cases b <;> simp_all [here, gnu]
theorem here_xZ {a : Cls} (ha : a ≠ .x) : here .Z a .x = .less := by cases a <;> simp_all [here, gnu]
theorem here_Z {a b : Cls} (ha : a ≠ .x) (hb : b ≠ .x) : here .Z a b = .cmp := by cases a <;> cases b <;> simp_all [here, gnu]

theorem after_append (st : State) (p q : List Byte) : after st (p ++ q) = after (after st p) q := by simp [after]

theorem after_q {q : List Byte} (hq : q = [] ∨ ∃ q' c, q = q' ++ [c] ∧ isDig c = false) : after .N q = .N := by
  rcases hq with rfl | ⟨q', c, rfl, hc⟩
  · rfl
  · rw [after_append]
    have : cls c = .x := cls_nodig hc
    simp [after, this, next]

theorem after_I : ∀ (r : List Byte), (∀ c ∈ r, isDig c = true) → after .I r = .I
  | [], _ => rfl
  | c :: r, h => by
    have hc := isDig_iff.1 (h c (by simp))
    have : next .I (cls c) = .I := by cases hk : cls c <;> simp_all [next]
    simp only [after, List.foldl_cons, this]
    exact after_I r fun d hd => h d (by simp [hd])

theorem after_F : ∀ (r : List Byte), (∀ c ∈ r, isDig c = true) → after .F r = .F
  | [], _ => rfl
  | c :: r, h => by
    have hc := isDig_iff.1 (h c (by simp))
    have : next .F (cls c) = .F := by cases hk : cls c <;> simp_all [next]
    simp only [after, List.foldl_cons, this]
    exact after_F r fun d hd => h d (by simp [hd])

theorem after_Z : ∀ n, after .Z (List.replicate n 48) = .Z
  | 0 => rfl
  | n + 1 => by
    have : next .Z (cls 48) = .Z := rfl
    simp only [after, List.replicate_succ, List.foldl_cons, this]
    exact after_Z n

/-- Digits are zeros, or zeros followed by another digit. -/
theorem zeros_then : ∀ (r : List Byte), (∃ n, r = List.replicate n 48) ∨ ∃ n c r', r = List.replicate n 48 ++ c :: r' ∧ c ≠ 48
  | [] => .inl ⟨0, rfl⟩
  | c :: r => by
    by_cases h : c = 48
    · subst h
      rcases zeros_then r with ⟨n, rfl⟩ | ⟨n, c, r', rfl, hc⟩
      · exact .inl ⟨n + 1, rfl⟩
      · exact .inr ⟨n + 1, c, r', rfl, hc⟩
    · exact .inr ⟨0, c, r, rfl, h⟩

/-- The sign of a number. -/
def sign (r : Int) : Ordering := compare r 0

theorem sign_diff (m n : Nat) : sign ((m : Int) - (n : Int)) = compare m n := by
  unfold sign
  rcases Nat.lt_trichotomy m n with h | h | h
  · rw [Nat.compare_eq_lt.2 h]; exact Int.compare_eq_lt.2 (by omega)
  · subst h; simp
  · rw [Nat.compare_eq_gt.2 h]; exact Int.compare_eq_gt.2 (by omega)

theorem sign_neg : sign (-1) = .lt := by decide
theorem sign_one : sign 1 = .gt := by decide

theorem run_split (s : List Byte) : ∃ w v, s = w ++ v ∧ w.length = run s ∧ (∀ c ∈ w, isDig c = true) ∧ isDig (hd v) = false := by
  induction s with
  | nil => exact ⟨[], [], rfl, rfl, by simp, by decide⟩
  | cons c s ih =>
    cases h : isDig c with
    | false => exact ⟨[], c :: s, rfl, by simp [run, h], by simp, h⟩
    | true =>
      obtain ⟨w, v, rfl, h1, h2, h3⟩ := ih
      refine ⟨c :: w, v, rfl, by simp [run, h] at h1 ⊢; exact h1, fun d hd => ?_, h3⟩
      rcases List.mem_cons.1 hd with rfl | hd
      · exact h
      · exact h2 d hd

theorem run_zero {s : List Byte} (h : isDig (hd s) = false) : run s = 0 := by
  cases s with
  | nil => rfl
  | cons c s => simp [run, hd] at h ⊢; simp [h]

theorem run_pos {s : List Byte} (h : isDig (hd s) = true) : 0 < run s := by
  cases s with
  | nil => exact absurd h (by decide)
  | cons c s => simp [hd] at h; simp [run, h]

theorem cls_dig {c : Byte} (h : isDig c = true) (h0 : c ≠ 48) : cls c = .d := by
  have := isDig_iff.1 h
  unfold cls at this ⊢
  simp only [h0, if_false] at this ⊢
  split <;> simp_all

theorem hd_ascii {s : List Byte} (h : ∀ c ∈ s, c < 128) : hd s < 128 := by
  cases s with
  | nil => decide
  | cons c s => exact h c (by simp)

set_option maxHeartbeats 1000000 in
/-- **C80** (result): for strings of ASCII characters `strverscmp` reads nothing outside them and decides as the automaton with this library's table. -/
theorem strverscmp_spec {s t r1 r2 : List Byte} (hs : (0 : Byte) ∉ s) (ht : (0 : Byte) ∉ t) (as : ∀ c ∈ s, c < 128) (at' : ∀ c ∈ t, c < 128) :
    ∃ r, strverscmp (s ++ 0 :: r1) (t ++ 0 :: r2) = some r ∧ sign r = cmp here .N s t := by
  rcases diff_cases hs ht with rfl | ⟨p, s', t', rfl, rfl, hne⟩
  · refine ⟨0, ?_, by rw [cmp_self]; rfl⟩
    have := diffLoop_eq r1 r2 s [] hs ((s ++ 0 :: r1).length + 1) (by simp; omega)
    simp only [List.nil_append, List.length_nil] at this
    unfold strverscmp
    rw [this]
    rfl
  · rw [cmp_prefix here p .N s' t' hne]
    have hp0 : (0 : Byte) ∉ p := fun h => hs (by simp [h])
    obtain ⟨q, r, rfl, hr, hq⟩ := split_digits p
    have asq : ∀ c ∈ q, c < 128 := fun c h => as c (by simp [h])
    have asr : ∀ c ∈ r, c < 128 := fun c h => as c (by simp [h])
    have ass : ∀ c ∈ s', c < 128 := fun c h => as c (by simp [h])
    have ast : ∀ c ∈ t', c < 128 := fun c h => at' c (by simp [h])
    have hs7 := hd_ascii ass
    have ht7 := hd_ascii ast
    rw [after_append, after_q hq]
    have ea : (q ++ r ++ s') ++ 0 :: r1 = q ++ (r ++ (s' ++ 0 :: r1)) := by simp
    have eb : (q ++ r ++ t') ++ 0 :: r2 = q ++ (r ++ (t' ++ 0 :: r2)) := by simp
    rw [ea, eb]
    generalize hfa : (q ++ (r ++ (s' ++ 0 :: r1))).length + 1 = fa
    generalize hfb : (q ++ (r ++ (t' ++ 0 :: r2))).length + 1 = fb
    have la : q.length + r.length + s'.length < fa := by rw [← hfa]; simp; omega
    have lb : q.length + r.length + t'.length < fb := by rw [← hfb]; simp; omega
    have hdiff : diffLoop (q ++ (r ++ (s' ++ 0 :: r1))) (q ++ (r ++ (t' ++ 0 :: r2))) fa 0 = some (some (q.length + r.length)) := by
      have := diffLoop_ne s' t' r1 r2 hne (q ++ r) [] hp0 fa (by simp; omega)
      simpa using this
    have hback : backLoop (q ++ (r ++ (s' ++ 0 :: r1))) (q.length + r.length) = some q.length := by
      have := backLoop_ok q hq asq (r ++ (s' ++ 0 :: r1)) r (fun c h => ⟨hr c h, asr c h⟩) _ rfl
      simpa using this
    have hi1 : (q ++ (r ++ (s' ++ 0 :: r1)))[q.length + r.length]? = some (hd s') := by
      have := get_hd (q ++ r) s' r1
      simpa using this
    have hi2 : (q ++ (r ++ (t' ++ 0 :: r2)))[q.length + r.length]? = some (hd t') := by
      have := get_hd (q ++ r) t' r2
      simpa using this
    have hcd : charDiff (q ++ (r ++ (s' ++ 0 :: r1))) (q ++ (r ++ (t' ++ 0 :: r2))) (q.length + r.length) =
        some (((hd s').toNat : Int) - ((hd t').toNat : Int)) := by
      simp [charDiff, hi1, hi2]
    obtain ⟨w1, v1, e1, n1, d1, x1⟩ := run_split s'
    obtain ⟨w2, v2, e2, n2, d2, x2⟩ := run_split t'
    have hv1 : hd v1 < 128 := hd_ascii fun c h => ass c (by rw [e1]; simp [h])
    have hv2 : hd v2 < 128 := hd_ascii fun c h => ast c (by rw [e2]; simp [h])
    have hrun1 : runLoop (q ++ (r ++ (s' ++ 0 :: r1))) fa q.length = some (q.length + (r.length + run s')) := by
      have := runLoop_ok v1 r1 hv1 x1 (r ++ w1) q (fun c h => by
        rcases List.mem_append.1 h with h | h
        · exact ⟨hr c h, asr c h⟩
        · exact ⟨d1 c h, ass c (by rw [e1]; simp [h])⟩) fa (by rw [e1] at la; simp at la ⊢; omega)
      rw [e1] at n1 ⊢
      rw [← n1]
      simpa using this
    have hrun2 : runLoop (q ++ (r ++ (t' ++ 0 :: r2))) fb q.length = some (q.length + (r.length + run t')) := by
      have := runLoop_ok v2 r2 hv2 x2 (r ++ w2) q (fun c h => by
        rcases List.mem_append.1 h with h | h
        · exact ⟨hr c h, asr c h⟩
        · exact ⟨d2 c h, ast c (by rw [e2]; simp [h])⟩) fb (by rw [e2] at lb; simp at lb ⊢; omega)
      rw [e2] at n2 ⊢
      rw [← n2]
      simpa using this
    simp only [strverscmp, hfa, hfb, hdiff, Option.bind_eq_bind, Option.bind_some, hback, hcd, hrun1, hrun2]
    have ne48 : ¬ (hd s' = 48 ∧ hd s' = hd t') := fun h => hne h.2
    rcases zeros_then r with ⟨n, rfl⟩ | ⟨n, c, r', rfl, hc⟩
    · -- only zeros, or no digit at all
      cases n with
      | zero =>
        simp only [List.replicate_zero, List.nil_append, List.length_nil, Nat.add_zero] at hi1 hi2 ⊢
        simp only [hi1, hi2, Option.bind_some, after, List.foldl_nil]
        by_cases hz : hd s' = 48 ∨ hd t' = 48
        · have hzl : zeroLoop (q ++ (s' ++ 0 :: r1)) (q ++ (t' ++ 0 :: r2)) fa q.length = some q.length := by
            have := fun v w => zeroLoop_ok v w (hd s') (hd t') ne48 0 q fa (by omega)
            simp only [List.replicate_zero, List.nil_append, Nat.add_zero] at this
            have c1 : ∃ v, s' ++ 0 :: r1 = hd s' :: v := by cases s' <;> simp [hd]
            have c2 : ∃ v, t' ++ 0 :: r2 = hd t' :: v := by cases t' <;> simp [hd]
            obtain ⟨v, k1⟩ := c1
            obtain ⟨w, k2⟩ := c2
            rw [k1, k2]
            exact this v w
          rw [if_pos hz]
          simp only [hzl, Option.bind_some, hi1, hi2, isdigit_eq hs7, isdigit_eq ht7]
          cases ds : isDig (hd s') <;> cases dt : isDig (hd t')
          · exfalso
            rcases hz with h | h
            · rw [h] at ds; exact absurd ds (by decide)
            · rw [h] at dt; exact absurd dt (by decide)
          · have z : hd t' = 48 := by
              rcases hz with h | h
              · rw [h] at ds; exact absurd ds (by decide)
              · exact h
            refine ⟨1, rfl, ?_⟩
            simp only [Spec.decide, cls_nodig ds, z]
            rfl
          · have z : hd s' = 48 := by
              rcases hz with h | h
              · exact h
              · rw [h] at dt; exact absurd dt (by decide)
            refine ⟨-1, rfl, ?_⟩
            simp only [Spec.decide, cls_nodig dt, z]
            rfl
          · refine ⟨_, rfl, ?_⟩
            rw [sign_diff]
            unfold Spec.decide
            have : here .N (cls (hd s')) (cls (hd t')) = .cmp := by
              rcases hz with h | h
              · have h2 : hd t' ≠ 48 := fun e => hne (by rw [h, e])
                rw [h, cls_dig dt h2]; rfl
              · have h2 : hd s' ≠ 48 := fun e => hne (by rw [h, e])
                rw [h, cls_dig ds h2]; rfl
            rw [this]
        · rw [if_neg hz]
          have h1 : hd s' ≠ 48 := fun e => hz (.inl e)
          have h2 : hd t' ≠ 48 := fun e => hz (.inr e)
          simp only [isdigit_eq hs7, isdigit_eq ht7, Option.bind_some]
          cases ds : isDig (hd s') <;> cases dt : isDig (hd t')
          · refine ⟨_, rfl, ?_⟩
            rw [sign_diff]; simp only [Spec.decide, cls_nodig ds, cls_nodig dt]; rfl
          · refine ⟨_, rfl, ?_⟩
            rw [sign_diff]; simp only [Spec.decide, cls_nodig ds, cls_dig dt h2]; rfl
          · refine ⟨_, rfl, ?_⟩
            rw [sign_diff]; simp only [Spec.decide, cls_dig ds h1, cls_nodig dt]; rfl
          · simp only [if_true, Nat.zero_add, Nat.add_lt_add_iff_left, gt_iff_lt]
            simp only [Spec.decide, cls_dig ds h1, cls_dig dt h2]
            have : here .N .d .d = .len := rfl
            rw [this]
            rcases Nat.lt_trichotomy (run s') (run t') with h | h | h
            · exact ⟨-1, by simp [h], by rw [sign_neg]; simp [Nat.compare_eq_lt.2 h]⟩
            · refine ⟨((hd s').toNat : Int) - ((hd t').toNat : Int), by simp [h], ?_⟩
              rw [sign_diff, h]; simp
            · refine ⟨1, ?_, by rw [sign_one]; simp [Nat.compare_eq_gt.2 h]⟩
              rw [if_neg (by omega), if_pos h]; rfl
      | succ n =>
        have g1 : (q ++ (List.replicate (n + 1) 48 ++ (s' ++ 0 :: r1)))[q.length]? = some 48 := by simp [List.replicate_succ]
        have g2 : (q ++ (List.replicate (n + 1) 48 ++ (t' ++ 0 :: r2)))[q.length]? = some 48 := by simp [List.replicate_succ]
        have hzl : zeroLoop (q ++ (List.replicate (n + 1) 48 ++ (s' ++ 0 :: r1))) (q ++ (List.replicate (n + 1) 48 ++ (t' ++ 0 :: r2))) fa q.length = some (q.length + (n + 1)) := by
          have := fun v w => zeroLoop_ok v w (hd s') (hd t') ne48 (n + 1) q fa (by simp at la; omega)
          have c1 : ∃ v, s' ++ 0 :: r1 = hd s' :: v := by cases s' <;> simp [hd]
          have c2 : ∃ v, t' ++ 0 :: r2 = hd t' :: v := by cases t' <;> simp [hd]
          obtain ⟨v, k1⟩ := c1
          obtain ⟨w, k2⟩ := c2
          rw [k1, k2]
          exact this v w
        have ln : (List.replicate (n + 1) (48 : Byte)).length = n + 1 := by simp
        rw [ln] at hi1 hi2
        simp only [g1, g2, Option.bind_some, true_or, if_true, hzl, hi1, hi2, isdigit_eq hs7, isdigit_eq ht7]
        have st : after .N (List.replicate (n + 1) 48) = .Z := by
          have : next .N (cls 48) = .Z := rfl
          simp only [after, List.replicate_succ, List.foldl_cons, this]
          exact after_Z n
        rw [st]
        cases ds : isDig (hd s') <;> cases dt : isDig (hd t')
        · refine ⟨_, rfl, ?_⟩
          rw [sign_diff]; simp only [Spec.decide, cls_nodig ds, cls_nodig dt]; rfl
        · refine ⟨1, rfl, ?_⟩
          rw [sign_one]; simp only [Spec.decide, cls_nodig ds, here_Zx (isDig_iff.1 dt)]
        · refine ⟨-1, rfl, ?_⟩
          rw [sign_neg]; simp only [Spec.decide, cls_nodig dt, here_xZ (isDig_iff.1 ds)]
        · refine ⟨_, rfl, ?_⟩
          rw [sign_diff]; unfold Spec.decide
          rw [here_Z (isDig_iff.1 ds) (isDig_iff.1 dt)]
    · cases n with
      | zero =>
        -- a number without leading zero
        simp only [List.replicate_zero, List.nil_append] at *
        have g1 : (q ++ (c :: r' ++ (s' ++ 0 :: r1)))[q.length]? = some c := by simp
        have g2 : (q ++ (c :: r' ++ (t' ++ 0 :: r2)))[q.length]? = some c := by simp
        have dc : isDig c = true := hr c (by simp)
        have c7 : c < 128 := asr c (by simp)
        simp only [g1, g2, Option.bind_some, hc, or_self, if_false, isdigit_eq c7, dc, if_true]
        have st : after .N (c :: r') = .I := by
          have : next .N (cls c) = .I := by rw [cls_dig dc hc]; rfl
          simp only [after, List.foldl_cons, this]
          exact after_I r' fun d h => hr d (by simp [h])
        rw [st]
        simp only [Nat.add_lt_add_iff_left, gt_iff_lt]
        rcases Nat.lt_trichotomy (run s') (run t') with h | h | h
        · refine ⟨-1, by simp [h], ?_⟩
          rw [sign_neg]; unfold Spec.decide
          have dt : isDig (hd t') = true := by
            cases k : isDig (hd t')
            · rw [run_zero k] at h; omega
            · rfl
          have kt := isDig_iff.1 dt
          cases ds : isDig (hd s')
          · rw [cls_nodig ds, here_less kt]
          · have ks := isDig_iff.1 ds
            have : here .I (cls (hd s')) (cls (hd t')) = .len := here_len ks kt
            rw [this]; simp [Nat.compare_eq_lt.2 h]
        · refine ⟨((hd s').toNat : Int) - ((hd t').toNat : Int), by simp [h], ?_⟩
          rw [sign_diff]; unfold Spec.decide
          cases ds : isDig (hd s') <;> cases dt : isDig (hd t')
          · rw [cls_nodig ds, cls_nodig dt]; rfl
          · rw [run_zero ds] at h; have := run_pos dt; omega
          · rw [run_zero dt] at h; have := run_pos ds; omega
          · have ks := isDig_iff.1 ds
            have kt := isDig_iff.1 dt
            have : here .I (cls (hd s')) (cls (hd t')) = .len := here_len ks kt
            rw [this, h]; simp
        · refine ⟨1, by rw [if_neg (by omega), if_pos h]; rfl, ?_⟩
          rw [sign_one]; unfold Spec.decide
          have ds : isDig (hd s') = true := by
            cases k : isDig (hd s')
            · rw [run_zero k] at h; omega
            · rfl
          have ks := isDig_iff.1 ds
          cases dt : isDig (hd t')
          · rw [cls_nodig dt, here_greater ks]
          · have kt := isDig_iff.1 dt
            have : here .I (cls (hd s')) (cls (hd t')) = .len := here_len ks kt
            rw [this]; simp [Nat.compare_eq_gt.2 h]
      | succ n =>
        -- zeros, then another digit
        have dc : isDig c = true := hr c (by simp)
        have c7 : c < 128 := asr c (by simp)
        have g1 : (q ++ (List.replicate (n + 1) 48 ++ c :: r' ++ (s' ++ 0 :: r1)))[q.length]? = some 48 := by simp [List.replicate_succ]
        have g2 : (q ++ (List.replicate (n + 1) 48 ++ c :: r' ++ (t' ++ 0 :: r2)))[q.length]? = some 48 := by simp [List.replicate_succ]
        have hzl : zeroLoop (q ++ (List.replicate (n + 1) 48 ++ c :: r' ++ (s' ++ 0 :: r1))) (q ++ (List.replicate (n + 1) 48 ++ c :: r' ++ (t' ++ 0 :: r2))) fa q.length = some (q.length + (n + 1)) := by
          have := zeroLoop_ok (r' ++ (s' ++ 0 :: r1)) (r' ++ (t' ++ 0 :: r2)) c c (fun h => hc h.1) (n + 1) q fa (by simp at la; omega)
          simpa using this
        have k1 : (q ++ (List.replicate (n + 1) 48 ++ c :: r' ++ (s' ++ 0 :: r1)))[q.length + (n + 1)]? = some c := by
          rw [get_at, List.append_assoc, List.getElem?_append_right (by simp)]; simp
        have k2 : (q ++ (List.replicate (n + 1) 48 ++ c :: r' ++ (t' ++ 0 :: r2)))[q.length + (n + 1)]? = some c := by
          rw [get_at, List.append_assoc, List.getElem?_append_right (by simp)]; simp
        simp only [g1, g2, Option.bind_some, true_or, if_true, hzl, k1, k2, isdigit_eq c7, dc]
        have st : after .N (List.replicate (n + 1) 48 ++ c :: r') = .F := by
          have e0 : next .N (cls 48) = .Z := rfl
          have e1 : after .N (List.replicate (n + 1) 48) = .Z := by
            simp only [after, List.replicate_succ, List.foldl_cons, e0]
            exact after_Z n
          rw [after_append, e1]
          have : next .Z (cls c) = .F := by rw [cls_dig dc hc]; rfl
          simp only [after, List.foldl_cons, this]
          exact after_F r' fun d h => hr d (by simp [h])
        rw [st]
        refine ⟨_, rfl, ?_⟩
        rw [sign_diff]; unfold Spec.decide
        have : here .F (cls (hd s')) (cls (hd t')) = .cmp := rfl
        rw [this]

/-! ## The order -/

/-- A comparison key for the decision at the first difference. -/
def key (st : State) (s : List Byte) : Nat × Nat × Nat :=
  let c := (hd s).toNat
  match st with
  | .N => if c = 48 then (0, 0, c) else if c < 48 then (1, 0, c) else if c ≤ 57 then (2, run s, c) else (3, 0, c)
  | .I => (0, run s, c)
  | .F => (0, 0, c)
  | .Z => if 48 ≤ c ∧ c ≤ 57 then (0, 0, c) else (1, 0, c)

def klt (a b : Nat × Nat × Nat) : Prop :=
  a.1 < b.1 ∨ a.1 = b.1 ∧ (a.2.1 < b.2.1 ∨ a.2.1 = b.2.1 ∧ a.2.2 < b.2.2)

theorem cls_cases (c : Byte) : (cls c = .z ∧ c.toNat = 48) ∨ (cls c = .d ∧ 49 ≤ c.toNat ∧ c.toNat ≤ 57) ∨
    (cls c = .x ∧ (c.toNat < 48 ∨ 57 < c.toNat)) := by
  unfold cls
  by_cases h : c = 48
  · subst h; exact .inl ⟨rfl, rfl⟩
  · have h' : c.toNat ≠ 48 := fun e => h (byte_toNat_inj e)
    simp only [h, if_false, byte_le]
    have e2 : (49 : Byte).toNat = 49 := rfl
    have e3 : (57 : Byte).toNat = 57 := rfl
    rw [e2, e3]
    split
    · exact .inr (.inl ⟨rfl, by omega⟩)
    · exact .inr (.inr ⟨rfl, by omega⟩)

theorem isDig_nat (c : Byte) : isDig c = true ↔ 48 ≤ c.toNat ∧ c.toNat ≤ 57 := by
  simp only [isDig, byte_le, decide_eq_true_eq]
  rfl

theorem run_cases (s : List Byte) : (run s = 0 ∧ ¬ (48 ≤ (hd s).toNat ∧ (hd s).toNat ≤ 57)) ∨ (0 < run s ∧ 48 ≤ (hd s).toNat ∧ (hd s).toNat ≤ 57) := by
  cases h : isDig (hd s)
  · exact .inl ⟨run_zero h, fun k => by rw [(isDig_nat _).2 k] at h; cases h⟩
  · exact .inr ⟨run_pos h, (isDig_nat _).1 h⟩

theorem then_lt (a b : Nat) (o : Ordering) : (compare a b).then o = .lt ↔ a < b ∨ a = b ∧ o = .lt := by
  rcases Nat.lt_trichotomy a b with h | h | h
  · simp [Nat.compare_eq_lt.2 h, h]
  · subst h; simp
  · simp [Nat.compare_eq_gt.2 h]; omega

theorem decide_lt {st : State} {s t : List Byte} (hne : hd s ≠ hd t) :
    Spec.decide here st s t = .lt ↔ klt (key st s) (key st t) := by
  have hn : (hd s).toNat ≠ (hd t).toNat := fun e => hne (byte_toNat_inj e)
  have r1 := run_cases s
  have r2 := run_cases t
  unfold Spec.decide key klt
  rcases cls_cases (hd s) with ⟨e1, k1⟩ | ⟨e1, k1⟩ | ⟨e1, k1⟩ <;> rcases cls_cases (hd t) with ⟨e2, k2⟩ | ⟨e2, k2⟩ | ⟨e2, k2⟩ <;>
    rw [e1, e2] <;> cases st <;> simp only [here, gnu, then_lt, Nat.compare_eq_lt, reduceCtorEq, true_iff, false_iff] <;>
    grind

/-- The order, decided from the front. -/
def L : State → List Byte → List Byte → Prop
  | _, [], [] => False
  | st, c :: s, d :: t => klt (key st (c :: s)) (key st (d :: t)) ∨ key st (c :: s) = key st (d :: t) ∧ L (next st (cls c)) s t
  | st, s, t => klt (key st s) (key st t)

theorem key_hd {st : State} {s t : List Byte} (h : key st s = key st t) : hd s = hd t := by
  apply byte_toNat_inj
  unfold key at h
  cases st <;> simp only at h <;> grind

theorem run_decides : ∀ (s t : List Byte), run s ≠ run t → cmp here .I s t = compare (run s) (run t)
  | [], [], h => absurd rfl h
  | [], d :: t, h => by
    have : isDig (hd (d :: t)) = true := by
      cases k : isDig (hd (d :: t))
      · rw [run_zero k] at h; exact absurd rfl h
      · rfl
    simp only [cmp, Spec.decide]
    have e : cls (hd []) = .x := rfl
    rw [e, here_less (isDig_iff.1 this)]
    have := run_pos this
    exact (Nat.compare_eq_lt.2 (by simpa [run] using this)).symm
  | c :: s, [], h => by
    have : isDig (hd (c :: s)) = true := by
      cases k : isDig (hd (c :: s))
      · rw [run_zero k] at h; exact absurd rfl h
      · rfl
    simp only [cmp, Spec.decide]
    have e : cls (hd []) = .x := rfl
    rw [e, here_greater (isDig_iff.1 this)]
    have := run_pos this
    exact (Nat.compare_eq_gt.2 (by simpa [run] using this)).symm
  | c :: s, d :: t, h => by
    by_cases e : c = d
    · subst e
      cases k : isDig c
      · exfalso; apply h; rw [run_zero (s := c :: s) k, run_zero (s := c :: t) k]
      · have r1 : run (c :: s) = run s + 1 := by simp [run, k]
        have r2 : run (c :: t) = run t + 1 := by simp [run, k]
        have hn : next .I (cls c) = .I := by
          have := isDig_iff.1 k
          cases hk : cls c <;> simp_all [next]
        simp only [cmp, if_true, hn]
        rw [run_decides s t (by omega), r1, r2]
        rcases Nat.lt_trichotomy (run s) (run t) with h | h | h
        · rw [Nat.compare_eq_lt.2 h, Nat.compare_eq_lt.2 (by omega)]
        · omega
        · rw [Nat.compare_eq_gt.2 h, Nat.compare_eq_gt.2 (by omega)]
    · simp only [cmp, e, if_false, Spec.decide]
      cases k1 : isDig (hd (c :: s)) <;> cases k2 : isDig (hd (d :: t))
      · exfalso; apply h; rw [run_zero k1, run_zero k2]
      · rw [cls_nodig k1, here_less (isDig_iff.1 k2)]
        have := run_pos k2
        rw [run_zero k1]
        exact (Nat.compare_eq_lt.2 this).symm
      · rw [cls_nodig k2, here_greater (isDig_iff.1 k1)]
        have := run_pos k1
        rw [run_zero k2]
        exact (Nat.compare_eq_gt.2 this).symm
      · rw [here_len (isDig_iff.1 k1) (isDig_iff.1 k2)]
        rcases Nat.lt_trichotomy (run (c :: s)) (run (d :: t)) with h' | h' | h'
        · simp [Nat.compare_eq_lt.2 h']
        · exact absurd h' h
        · simp [Nat.compare_eq_gt.2 h']

theorem klt_irrefl (a : Nat × Nat × Nat) : ¬ klt a a := by unfold klt; omega

theorem klt_trans {a b c : Nat × Nat × Nat} (h1 : klt a b) (h2 : klt b c) : klt a c := by unfold klt at *; omega

theorem cmp_lt : ∀ (s t : List Byte) (st : State), (0 : Byte) ∉ s → (0 : Byte) ∉ t → (cmp here st s t = .lt ↔ L st s t)
  | [], [], st, _, _ => by simp [cmp, L]
  | [], d :: t, st, _, h => by
    simp only [cmp, L]
    exact decide_lt fun e => h (by simp [hd] at e; simp [← e])
  | c :: s, [], st, h, _ => by
    simp only [cmp, L]
    exact decide_lt fun e => h (by simp [hd] at e; simp [e])
  | c :: s, d :: t, st, h1, h2 => by
    by_cases e : c = d
    · subst e
      simp only [cmp, if_true, L]
      by_cases k : key st (c :: s) = key st (c :: t)
      · rw [k]
        simp only [klt_irrefl, false_or, true_and]
        exact cmp_lt s t _ (fun h => h1 (by simp [h])) (fun h => h2 (by simp [h]))
      · simp only [k, false_and, or_false]
        -- only the lengths of the numbers differ
        have hr : run (c :: s) ≠ run (c :: t) := by
          intro hr
          apply k
          unfold key
          simp only [hd, List.headD_cons, hr]
          cases st <;> rfl
        have hd' : isDig c = true := by
          cases kd : isDig c
          · exfalso; apply hr; rw [run_zero (s := c :: s) kd, run_zero (s := c :: t) kd]
          · rfl
        have r1 : run (c :: s) = run s + 1 := by simp [run, hd']
        have r2 : run (c :: t) = run t + 1 := by simp [run, hd']
        have hst : next st (cls c) = .I := by
          have hc := (isDig_nat c).1 hd'
          unfold key at k
          rcases cls_cases c with ⟨e, kk⟩ | ⟨e, kk⟩ | ⟨e, kk⟩
          · cases st
            · exfalso; apply k; simp [hd, kk]
            · rw [e]; rfl
            · exact absurd rfl k
            · exfalso; apply k; simp [hd, kk]
          · cases st
            · rw [e]; rfl
            · rw [e]; rfl
            · exact absurd rfl k
            · exfalso; apply k; simp [hd]
          · omega
        rw [hst, run_decides s t (by omega), Nat.compare_eq_lt]
        have hkey : klt (key st (c :: s)) (key st (c :: t)) ↔ run s < run t := by
          unfold key at k ⊢
          unfold klt
          simp only [hd, List.headD_cons, r1, r2] at k ⊢
          have hc := (isDig_nat c).1 hd'
          cases st <;> grind
        exact hkey.symm
    · simp only [cmp, e, if_false, L]
      rw [decide_lt (s := c :: s) (t := d :: t) e]
      have : key st (c :: s) ≠ key st (d :: t) := fun h => e (key_hd h)
      simp [this]

theorem L_trans : ∀ (s t u : List Byte) (st : State), (0 : Byte) ∉ s → (0 : Byte) ∉ t → (0 : Byte) ∉ u → L st s t → L st t u → L st s u := by
  have full : ∀ (st : State) (s t : List Byte), L st s t → klt (key st s) (key st t) ∨ key st s = key st t := by
    intro st s t h
    cases s <;> cases t
    · exact h.elim
    · exact .inl h
    · exact .inl h
    · exact h.imp id fun h => h.1
  have mk : ∀ (st : State) (s t : List Byte), klt (key st s) (key st t) → L st s t := by
    intro st s t h
    cases s <;> cases t
    · exact absurd h (klt_irrefl _)
    · exact h
    · exact h
    · exact .inl h
  intro s
  induction s with
  | nil =>
    intro t u st _ h2 h3 a b
    cases t with
    | nil => exact a.elim
    | cons d t =>
      refine mk _ _ _ ?_
      rcases full _ _ _ b with b | b
      · exact klt_trans a b
      · rw [← b]; exact a
  | cons c s ih =>
    intro t u st h1 h2 h3 a b
    cases t with
    | nil =>
      cases u with
      | nil => exact b.elim
      | cons e u => exact mk _ _ _ (klt_trans a b)
    | cons d t =>
      cases u with
      | nil =>
        refine mk _ _ _ ?_
        rcases full _ _ _ a with a | a
        · exact klt_trans a b
        · rw [a]; exact b
      | cons e u =>
        rcases a with a | ⟨a1, a2⟩ <;> rcases b with b | ⟨b1, b2⟩
        · exact .inl (klt_trans a b)
        · rw [b1] at a; exact .inl a
        · rw [← a1] at b; exact .inl b
        · refine .inr ⟨a1.trans b1, ?_⟩
          have hcd : c = d := key_hd a1
          subst hcd
          exact ih t u _ (fun h => h1 (by simp [h])) (fun h => h2 (by simp [h])) (fun h => h3 (by simp [h])) a2 b2

theorem decide_swap (st : State) (s t : List Byte) : Spec.decide here st t s = (Spec.decide here st s t).swap := by
  have sw : ∀ a b : Nat, compare b a = (compare a b).swap := by
    intro a b
    rcases Nat.lt_trichotomy a b with h | h | h
    · rw [Nat.compare_eq_lt.2 h, Nat.compare_eq_gt.2 h]; rfl
    · subst h; simp
    · rw [Nat.compare_eq_gt.2 h, Nat.compare_eq_lt.2 h]; rfl
  unfold Spec.decide
  cases cls (hd s) <;> cases cls (hd t) <;> cases st <;>
    simp only [here, gnu, Ordering.swap, sw (hd s).toNat, sw (run s)] <;>
    (cases compare (run s) (run t) <;> cases compare (hd s).toNat (hd t).toNat <;> rfl)

theorem cmp_swap : ∀ (s t : List Byte) (st : State), cmp here st t s = (cmp here st s t).swap
  | [], [], _ => rfl
  | [], d :: t, st => by simp only [cmp]; exact decide_swap _ _ _
  | c :: s, [], st => by simp only [cmp]; exact decide_swap _ _ _
  | c :: s, d :: t, st => by
    by_cases e : c = d
    · subst e; simp only [cmp, if_true]; exact cmp_swap s t _
    · have e' : d ≠ c := fun h => e h.symm
      simp only [cmp, e, e', if_false]; exact decide_swap _ _ _

theorem decide_ne {table : State → Cls → Cls → Res} {st : State} {s t : List Byte} (h : hd s ≠ hd t) : Spec.decide table st s t ≠ .eq := by
  have hn : (hd s).toNat ≠ (hd t).toNat := fun e => h (byte_toNat_inj e)
  have : compare (hd s).toNat (hd t).toNat ≠ .eq := by simp [Nat.compare_eq_eq, hn]
  unfold Spec.decide
  split
  · exact this
  · intro e; cases k : compare (run s) (run t) <;> rw [k] at e
    · cases e
    · exact this e
    · cases e
  · simp
  · simp

/-- A string: no NUL inside, ASCII. -/
structure Str (m : Mem) (s : List Byte) : Prop where
  eq : ∃ r, m = s ++ 0 :: r
  nul : (0 : Byte) ∉ s
  ascii : ∀ c ∈ s, c < 128

theorem str_spec {a b : Mem} {s t : List Byte} (ha : Str a s) (hb : Str b t) : ∃ r, strverscmp a b = some r ∧ sign r = cmp here .N s t := by
  obtain ⟨⟨r1, rfl⟩, h1, h2⟩ := ha
  obtain ⟨⟨r2, rfl⟩, h3, h4⟩ := hb
  exact strverscmp_spec h1 h3 h2 h4

theorem sign_lt {r : Int} : sign r = .lt ↔ r < 0 := Int.compare_eq_lt
theorem sign_gt {r : Int} : sign r = .gt ↔ 0 < r := Int.compare_eq_gt
theorem sign_eq {r : Int} : sign r = .eq ↔ r = 0 := Int.compare_eq_eq

/-- **C80** (equality): the result is 0 exactly for equal strings. -/
theorem zero_iff {a b : Mem} {s t : List Byte} (ha : Str a s) (hb : Str b t) : strverscmp a b = some 0 ↔ s = t := by
  obtain ⟨r, hr, hs⟩ := str_spec ha hb
  rw [hr]
  constructor
  · intro h
    cases h
    have h0 : cmp here .N s t = .eq := hs ▸ rfl
    rcases diff_cases ha.nul hb.nul with e | ⟨p, s', t', rfl, rfl, hne⟩
    · exact e
    · rw [cmp_prefix here p .N s' t' hne] at h0
      exact absurd h0 (decide_ne hne)
  · rintro rfl
    rw [cmp_self] at hs
    rw [sign_eq.1 hs]

/-- **C80** (antisymmetry): exchanging the arguments turns the sign around. -/
theorem antisymm {a b : Mem} {s t : List Byte} (ha : Str a s) (hb : Str b t) :
    ∃ r r', strverscmp a b = some r ∧ strverscmp b a = some r' ∧ (r < 0 ↔ 0 < r') ∧ (0 < r ↔ r' < 0) := by
  obtain ⟨r, hr, hs⟩ := str_spec ha hb
  obtain ⟨r', hr', hs'⟩ := str_spec hb ha
  rw [cmp_swap, ← hs] at hs'
  refine ⟨r, r', hr, hr', ?_, ?_⟩
  · rw [← sign_lt, ← sign_gt, hs']; cases sign r <;> simp
  · rw [← sign_lt, ← sign_gt, hs']; cases sign r <;> simp

/-- **C80** (transitivity): `qsort` may rely on it. -/
theorem transitive {a b c : Mem} {s t u : List Byte} (ha : Str a s) (hb : Str b t) (hc : Str c u) {r1 r2 : Int}
    (h1 : strverscmp a b = some r1) (h2 : strverscmp b c = some r2) (l1 : r1 < 0) (l2 : r2 < 0) :
    ∃ r, strverscmp a c = some r ∧ r < 0 := by
  obtain ⟨r, hr, hs⟩ := str_spec ha hc
  obtain ⟨_, k1, s1⟩ := str_spec ha hb
  obtain ⟨_, k2, s2⟩ := str_spec hb hc
  rw [h1] at k1; cases k1
  rw [h2] at k2; cases k2
  refine ⟨r, hr, ?_⟩
  rw [← sign_lt, hs, cmp_lt _ _ _ ha.nul hc.nul]
  refine L_trans s t u _ ha.nul hb.nul hc.nul ?_ ?_
  · rw [← cmp_lt _ _ _ ha.nul hb.nul, ← s1]; exact sign_lt.2 l1
  · rw [← cmp_lt _ _ _ hb.nul hc.nul, ← s2]; exact sign_lt.2 l2

/-- In a number the state says so. -/
theorem after_digit {st : State} {c : Byte} (h : isDig c = true) : next st (cls c) ≠ .N := by
  have := isDig_iff.1 h
  cases k : cls c <;> cases st <;> simp_all [next]

theorem after_N {p : List Byte} (h : after .N p = .N) : ∀ c, p.getLast? = some c → isDig c = false := by
  intro c hc
  obtain ⟨q, rfl⟩ := List.getLast?_eq_some_iff.1 hc
  rw [after_append] at h
  cases k : isDig c with
  | false => rfl
  | true => exact absurd h (after_digit k)

/-- **C80** (GNU): the order is that of the GNU C library except where, outside a number, one string goes on with a `0` and the other one ends or goes on with
a character below `0`: there the string with the `0` comes first here, and second in GNU's order. -/
theorem agrees_with_gnu {s t : List Byte} (hs : (0 : Byte) ∉ s) (ht : (0 : Byte) ∉ t) :
    cmp here .N s t = cmp gnu .N s t ∨
    ∃ p u v, (∀ c, p.getLast? = some c → isDig c = false) ∧ hd v < 48 ∧
      ((s = p ++ 48 :: u ∧ t = p ++ v ∧ cmp here .N s t = .lt ∧ cmp gnu .N s t = .gt) ∨
       (t = p ++ 48 :: u ∧ s = p ++ v ∧ cmp here .N s t = .gt ∧ cmp gnu .N s t = .lt)) := by
  rcases diff_cases hs ht with rfl | ⟨p, s', t', rfl, rfl, hne⟩
  · exact .inl (by rw [cmp_self, cmp_self])
  · rw [cmp_prefix here p .N s' t' hne, cmp_prefix gnu p .N s' t' hne]
    by_cases hst : after .N p = .N
    · rw [hst]
      have lst := after_N hst
      have z48 : ∀ {x : List Byte}, (hd x).toNat = 48 → ∃ u, x = 48 :: u := by
        intro x hx
        cases x with
        | nil => exact absurd hx (by decide)
        | cons c x => exact ⟨x, by rw [byte_toNat_inj (c := c) (d := 48) hx]⟩
      rcases cls_cases (hd s') with ⟨e1, k1⟩ | ⟨e1, k1⟩ | ⟨e1, k1⟩ <;> rcases cls_cases (hd t') with ⟨e2, k2⟩ | ⟨e2, k2⟩ | ⟨e2, k2⟩
      case inl.inr.inr =>
        rcases k2 with k2 | k2
        · obtain ⟨u, hu⟩ := z48 k1
          refine .inr ⟨p, u, t', lst, byte_lt.2 k2, .inl ⟨by rw [hu], rfl, ?_, ?_⟩⟩
          · simp only [Spec.decide, e1, e2, here]
          · simp only [Spec.decide, e1, e2, gnu]; exact Nat.compare_eq_gt.2 (by omega)
        · left
          simp only [Spec.decide, e1, e2, here, gnu]
          exact (Nat.compare_eq_lt.2 (by omega)).symm
      case inr.inr.inl =>
        rcases k1 with k1 | k1
        · obtain ⟨u, hu⟩ := z48 k2
          refine .inr ⟨p, u, s', lst, byte_lt.2 k1, .inr ⟨by rw [hu], rfl, ?_, ?_⟩⟩
          · simp only [Spec.decide, e1, e2, here]
          · simp only [Spec.decide, e1, e2, gnu]; exact Nat.compare_eq_lt.2 (by omega)
        · left
          simp only [Spec.decide, e1, e2, here, gnu]
          exact (Nat.compare_eq_gt.2 (by omega)).symm
      all_goals
        left
        simp only [Spec.decide, e1, e2, here, gnu]
    · left
      unfold Spec.decide
      cases k : after .N p with
      | N => exact absurd k hst
      | _ => rfl

/-- FINDING: `strverscmp("a", "a0") > 0`: a directory listing sorted with `versionsort` has `file0` before `file`, GNU's the other way round. -/
theorem differs_from_gnu : strverscmp [97, 0] [97, 48, 0] = some 1 ∧ cmp gnu .N [97] [97, 48] = .lt := by
  constructor <;> rfl

/-- FINDING: a byte above 127 just before the first difference, as in any UTF-8 or code-page name, is passed to `isdigit` as a negative number: undefined. -/
theorem non_ascii_undefined {p s' t' r1 r2 : List Byte} {c : Byte} (hp : (0 : Byte) ∉ p) (hc : 128 ≤ c) (hne : hd s' ≠ hd t') :
    strverscmp (p ++ c :: s' ++ 0 :: r1) (p ++ c :: t' ++ 0 :: r2) = none := by
  have hc0 : c ≠ 0 := by rintro rfl; exact absurd hc (by decide)
  have hd' := diffLoop_ne s' t' r1 r2 hne (p ++ [c]) [] (by simp [hp, Ne.symm hc0]) ((p ++ c :: s' ++ 0 :: r1).length + 1) (by simp)
  simp only [List.nil_append, List.length_nil, Nat.zero_add, List.append_assoc, List.cons_append] at hd'
  have hb : backLoop (p ++ (c :: (s' ++ 0 :: r1))) (p ++ [c]).length = none := by
    have e : (p ++ (c :: (s' ++ 0 :: r1)))[p.length]? = some c := by simp
    have n : isdigit c = none := by
      unfold isdigit
      rw [if_neg]
      rw [byte_lt]; rw [byte_le] at hc; omega
    simp only [List.length_append, List.length_cons, List.length_nil, Nat.zero_add, backLoop, e, Option.bind_eq_bind, Option.bind_some, n, Option.bind_none]
  simp only [strverscmp, List.append_assoc, List.cons_append, hd', Option.bind_eq_bind, Option.bind_some, hb, Option.bind_none]

/-- A chain of the documented order: 000 < 00 < 01 < 010 < 09 < 0 < 1 < 9 < 10; and the premises hold for real names. -/
theorem demo : strverscmp [48, 48, 48, 0] [48, 48, 0] = some (-1) ∧ strverscmp [48, 48, 0] [48, 49, 0] = some (-1) ∧
    strverscmp [48, 49, 0] [48, 49, 48, 0] = some (-48) ∧ strverscmp [48, 49, 48, 0] [48, 57, 0] = some (-8) ∧
    strverscmp [48, 57, 0] [48, 0] = some (-1) ∧ strverscmp [48, 0] [49, 0] = some (-1) ∧ strverscmp [49, 0] [57, 0] = some (-8) ∧
    strverscmp [57, 0] [49, 48, 0] = some (-1) ∧ Str [118, 49, 46, 49, 48, 0] [118, 49, 46, 49, 48] :=
  ⟨rfl, rfl, rfl, rfl, rfl, rfl, rfl, rfl, ⟨[], rfl⟩, by decide, by decide⟩

end Verif.VersCmp
