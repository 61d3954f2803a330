import Verif.Spsc.Model
/-! A reader call, running alone, finishes (for any programs that never crash). -/
namespace Verif.Spsc
open RingBuffer (availRead takeMin)
variable {CW RW CR RR : Type} {bodyW : CW → WProg RW} {bodyR : CR → RProg RR}

/-- no reachable state has a crashed reader -/
abbrev RSafe (bodyW : CW → WProg RW) (bodyR : CR → RProg RR) : Prop :=
  ∀ s : Conf CW RW CR RR, Reach bodyW bodyR s → s.r ≠ .ub ∧ s.r ≠ .aborted

/-- steps inside one reader call -/
inductive RSteps (bodyW : CW → WProg RW) (bodyR : CR → RProg RR) : Conf CW RW CR RR → Conf CW RW CR RR → Prop where
  | refl (s) : RSteps bodyW bodyR s s
  | step {s t u} : RSteps bodyW bodyR s t → t.r ≠ .idle → Step bodyW bodyR t u → u.w = t.w → u.whist = t.whist →
      u.rhist = t.rhist → RSteps bodyW bodyR s u

theorem RSteps.trans {s t u : Conf CW RW CR RR} (h : RSteps bodyW bodyR s t) (h' : RSteps bodyW bodyR t u) : RSteps bodyW bodyR s u := by
  induction h' with
  | refl => exact h
  | step _ a b c d e ih => exact ih.step a b c d e

theorem RSteps.reach {s t : Conf CW RW CR RR} (h : RSteps bodyW bodyR s t) (hs : Reach bodyW bodyR s) : Reach bodyW bodyR t := by
  induction h with
  | refl => exact hs
  | step _ _ b _ _ _ ih => exact ih.step b

theorem RSteps.one {s t : Conf CW RW CR RR} (h : Step bodyW bodyR s t) (hi : s.r ≠ .idle) (h1 : t.w = s.w) (h2 : t.whist = s.whist)
    (h3 : t.rhist = s.rhist) : RSteps bodyW bodyR s t := .step (.refl s) hi h h1 h2 h3

/-- copy the bytes below `j` -/
theorem copy_upto (hsafe : RSafe bodyW bodyR) {s : Conf CW RW CR RR} (h : Reach bodyW bodyR s) {c pk len k n done tgt}
    (hr : s.r = .copy c true pk len k n done tgt) (j : Nat) (hj : j ≤ n.toNat) :
    ∃ t done' tgt', RSteps bodyW bodyR s t ∧ t.r = .copy c true pk len k n done' tgt' ∧ ∀ i < j, i ∈ done' := by
  induction j with
  | zero => exact ⟨s, done, tgt, .refl s, hr, by simp⟩
  | succ j ih =>
    obtain ⟨t, d, g, h1, h2, h3⟩ := ih (by omega)
    have ht := h1.reach h
    cases hb : t.ring.buf[byteAddr t.ring.size t.ring.out n j]? with
    | none =>
      have := ht.step (.rub j h2 (by omega) hb)
      exact absurd rfl (hsafe _ this).1
    | some b =>
      refine ⟨_, _, _, h1.step (by rw [h2]; simp) (.rcopy j b h2 (by omega) hb) rfl rfl rfl, rfl, ?_⟩
      intro i hi
      rcases Nat.lt_or_ge i j with h | h
      · exact List.mem_cons_of_mem _ (h3 i h)
      · have : i = j := by omega
        subst this; exact List.mem_cons_self

theorem copy_finishes (hsafe : RSafe bodyW bodyR) {s : Conf CW RW CR RR} (h : Reach bodyW bodyR s) {c tg pk len k n done tgt}
    (hr : s.r = .copy c tg pk len k n done tgt) : ∃ t m d, RSteps bodyW bodyR s t ∧ t.r = .run c (k m d) := by
  cases tg with
  | false =>
    exact ⟨_, _, _, .one (.rpub hr (by simp)) (by rw [hr]; simp) rfl rfl rfl, rfl⟩
  | true =>
    obtain ⟨t, d, g, h1, h2, h3⟩ := copy_upto hsafe h hr n.toNat (Nat.le_refl _)
    exact ⟨_, _, _, h1.step (by rw [h2]; simp) (.rpub h2 (fun _ => h3)) rfl rfl rfl, rfl⟩

theorem run_finishes (hsafe : RSafe bodyW bodyR) {s : Conf CW RW CR RR} (h : Reach bodyW bodyR s) {c} (p : RProg RR) (hr : s.r = .run c p) :
    ∃ t a, RSteps bodyW bodyR s t ∧ t.r = .run c (.ret a) := by
  induction p generalizing s with
  | ret a => exact ⟨s, a, .refl s, hr⟩
  | abort =>
    have := h.step (.rabort hr)
    exact absurd rfl (hsafe _ this).2
  | avail k ih =>
    have hst := Step.ravail (bodyW := bodyW) (bodyR := bodyR) hr
    obtain ⟨t, a, h1, h2⟩ := ih _ (h.step hst) rfl
    exact ⟨t, a, (RSteps.one hst (by rw [hr]; simp) rfl rfl rfl).trans h1, h2⟩
  | read tg pk len k ih =>
    by_cases hc : len = 0#32 ∨ availRead s.ring = 0#32
    · have hst := Step.rskip (bodyW := bodyW) (bodyR := bodyR) hr hc
      obtain ⟨t, a, h1, h2⟩ := ih _ _ (h.step hst) rfl
      exact ⟨t, a, (RSteps.one hst (by rw [hr]; simp) rfl rfl rfl).trans h1, h2⟩
    · have hst := Step.rbegin (bodyW := bodyW) (bodyR := bodyR) hr hc
      have h0 := RSteps.one hst (by rw [hr]; simp) rfl rfl rfl
      obtain ⟨u, m, d, h1, h2⟩ := copy_finishes hsafe (h.step hst) rfl
      obtain ⟨t, a, h3, h4⟩ := ih _ _ ((h0.trans h1).reach h) h2
      exact ⟨t, a, (h0.trans h1).trans h3, h4⟩

theorem call_finishes (hsafe : RSafe bodyW bodyR) {s : Conf CW RW CR RR} (h : Reach bodyW bodyR s) (hi : s.r ≠ .idle) :
    ∃ t c a, RSteps bodyW bodyR s t ∧ t.r = .run c (.ret a) := by
  have hn := hsafe s h
  cases hr : s.r with
  | idle => exact absurd hr hi
  | run c p => obtain ⟨t, a, h1, h2⟩ := run_finishes hsafe h p hr; exact ⟨t, c, a, h1, h2⟩
  | copy c tg pk len k n done tgt =>
    obtain ⟨u, m, d, h1, h2⟩ := copy_finishes hsafe h hr
    obtain ⟨t, a, h3, h4⟩ := run_finishes hsafe (h1.reach h) _ h2
    exact ⟨t, c, a, h1.trans h3, h4⟩
  | ub => exact absurd hr hn.1
  | aborted => exact absurd hr hn.2

end Verif.Spsc
