import Verif.FixedHandler.Lemmas
/-! The invariant is kept by every step. -/
namespace Verif.FixedHandler
open MsgQueue (Code)
open FixedSpsc (PushCall push pop)
open FixedSpsc.Spec (pushed popped)
open Spsc (WLoc RLoc RProg)
open Spec (accepted inProgress messages NoWrap)
variable {one : BitVec 32}

theorem pushed_full {h : List (PushCall one × Bool)} {c} : pushed (h ++ [(c, false)]) = pushed h := FixedSpsc.pushed_false

/-- the message just popped carries its number as token -/
theorem Inv.got_token (h1 : 0 < one.toNat) {s : Sys one} (h : Inv s) (hg : Guard s) {J d}
    (hJ : popped s.conf.rhist = J ++ [d]) :
    ∃ b, d = le 8 J.length ++ b ∧ unle (d.take 8) = J.length ∧ d.drop 8 = b := by
  have hs := h.stream h1
  rw [hJ] at hs
  have hget : (encAll (messages s))[J.length]? = some d := by
    obtain ⟨T, hT⟩ := hs
    rw [← hT]; simp
  obtain ⟨b, _, hb⟩ := encAll_get hget
  have hl := le_length 8 J.length
  have hlt : J.length < 2 ^ 64 := by
    have := FixedSpsc.no_tearing h1 h.reach
    have := this.length_le
    rw [hJ] at this
    simp only [List.length_append, List.length_singleton] at this
    have h3 : (FixedSpsc.Spec.inFlight s.conf.w).length ≤ 1 := by
      cases s.conf.w <;> simp [FixedSpsc.Spec.inFlight]
    unfold Guard at hg
    omega
  refine ⟨b, hb, ?_, ?_⟩
  · rw [hb, List.take_left' hl, unle_le]; exact Nat.mod_eq_of_lt hlt
  · rw [hb, List.drop_left' hl]

theorem Seen.mono {J mn mn' D} (h : Seen J mn D) (hm : mn ≤ mn') : Seen J mn' D :=
  ⟨h.inc, h.get, fun k hk => (h.all k hk).imp_right fun h => by omega⟩

theorem Seen.fst_lt {J mn D} (h : Seen J mn D) {x : Nat × List Byte} (hx : x ∈ D) : x.1 < J.length := by
  have := h.get x hx
  rcases Nat.lt_or_ge x.1 J.length with hl | hl
  · exact hl
  · rw [List.getElem?_eq_none hl] at this; simp at this

theorem Seen.pass {J mn D d b} (h : Seen J mn D) (hd : d = le 8 J.length ++ b) :
    Seen (J ++ [d]) mn (D ++ [(J.length, b)]) := by
  refine ⟨?_, ?_, ?_⟩
  · rw [List.pairwise_append]
    refine ⟨h.inc, by simp, ?_⟩
    intro x hx y hy
    simp at hy; rw [hy]; exact h.fst_lt hx
  · intro x hx
    rcases List.mem_append.1 hx with hx | hx
    · rw [List.getElem?_append_left (h.fst_lt hx)]; exact h.get x hx
    · simp at hx; rw [hx]; simp [hd]
  · intro k hk
    simp at hk
    rcases Nat.lt_or_ge k J.length with hl | hl
    · rcases h.all k hl with ⟨b, hb⟩ | h
      · exact .inl ⟨b, List.mem_append_left _ hb⟩
      · exact .inr h
    · have : k = J.length := by omega
      subst this
      exact .inl ⟨b, by simp⟩

theorem Seen.abandon {J mn D d} (h : Seen J mn D) (hk : J.length < mn) : Seen (J ++ [d]) mn D := by
  refine ⟨h.inc, ?_, ?_⟩
  · intro x hx
    rw [List.getElem?_append_left (h.fst_lt hx)]; exact h.get x hx
  · intro k hk'
    simp at hk'
    rcases Nat.lt_or_ge k J.length with hl | hl
    · exact h.all k hl
    · right; omega

theorem Inv.step (h1 : 0 < one.toNat) {e : Ev} {s t : Sys one} (h : Inv s) (st : Step e s t) : Inv t := by
  have hgt : ∀ {J d}, Guard s → popped s.conf.rhist = J ++ [d] →
      ∃ b, d = le 8 J.length ++ b ∧ unle (d.take 8) = J.length ∧ d.drop 8 = b :=
    fun hg hJ => Inv.got_token h1 h hg hJ
  obtain ⟨hR, hwpc, hrpc, hacc, hnum, hcnt, hdst, htok, hfin, hwhy, hord, hseq⟩ := h
  cases st with
  | push_null m e1 e2 e3 =>
    exact ⟨hR, hwpc, hrpc, by rw [hacc]; simp [accepted_fail], by rw [hnum]; simp [accepted_fail], hcnt, hdst, htok,
      hfin, hwhy, hord, hseq⟩
  | push_call m e1 e2 e3 e4 =>
    refine ⟨hR.step (.wcall _ e4), ⟨rfl, by simp⟩, hrpc, ?_, ?_, ?_, ?_, htok, hfin, hwhy, hord, hseq⟩
    · rw [hacc, e1]; rfl
    · rw [hnum, e1]; rfl
    · intro ho; have := hcnt ho; rw [e1] at this; exact this
    · intro hd; exact absurd e2 hd
  | @push_step _ m c e1 e2 e3 e4 e5 e6 =>
    have hR' : FixedSpsc.Reach one c := hR.step e3
    refine ⟨hR', ?_, by rw [← e4] at hrpc; exact hrpc, ?_, hnum, ?_, hdst, htok, hfin, hwhy, ?_, ?_⟩
    · rw [e1] at hwpc ⊢
      have := callOf_step h1 hR' e3 e2 e6
      exact ⟨by rw [this.1]; exact hwpc.1, this.2⟩
    · rw [← hacc, e6]
    · intro ho; have := hcnt ho; simp only [e4, e5, e6]; exact this
    · intro hg; unfold Guard at hg; simp only [e6] at hg; exact hord hg
    · intro hg; unfold Guard at hg; simp only [e6] at hg; simp only [e5]; exact hseq hg
  | @push_full _ m c e1 e2 =>
    refine ⟨hR.step (.wret e2), rfl, hrpc, ?_, ?_, ?_, ?_, htok, hfin, hwhy, ?_, ?_⟩
    · simp only [pushed_full]; rw [hacc, e1, accepted_fail _ _ (by simp)]; rfl
    · simp only []; rw [hnum, e1, accepted_fail _ _ (by simp)]; rfl
    · intro ho; have := hcnt ho; simp only [pushed_full]; rw [e1] at this; exact this
    · intro hd; exact ⟨(hdst hd).1, rfl⟩
    · intro hg; unfold Guard at hg; simp only [pushed_full] at hg; exact hord hg
    · intro hg; unfold Guard at hg; simp only [pushed_full] at hg; exact hseq hg
  | @push_ok _ m c e1 e2 =>
    have hc : c = cache s.counter m := by
      rw [e1, e2] at hwpc; simpa [WPc, callOf] using hwpc
    refine ⟨hR.step (.wret e2), rfl, hrpc, ?_, ?_, ?_, ?_, htok, hfin, hwhy, ?_, ?_⟩
    · simp only [FixedSpsc.pushed_true, hc, cache_bytes]
      rw [e1] at hnum
      rw [hacc, e1, le_counter hnum]; simp [pend, encAll_snoc, counted]
    · rw [hnum, e1]; rfl
    · intro ho; have := hcnt ho
      simp only [FixedSpsc.pushed_true, List.length_append]; rw [e1] at this; simp [pend] at this ⊢; omega
    · intro hd; have := (hdst hd).2; rw [e1] at this; simp at this
    · intro hg; unfold Guard at hg; simp only [FixedSpsc.pushed_true, List.length_append] at hg
      exact hord (show _ < _ by omega)
    · intro hg; unfold Guard at hg; simp only [FixedSpsc.pushed_true, List.length_append] at hg
      exact hseq (show _ < _ by omega)
  | @push_count _ m e1 =>
    rw [e1] at hwpc hnum
    refine ⟨hR, hwpc, hrpc, ?_, ?_, ?_, ?_, htok, hfin, hwhy, ?_, hseq⟩
    · rw [hacc, e1]; rfl
    · simp only [counted] at hnum ⊢
      rw [BitVec.toNat_add, hnum]; simp
    · intro ho; have := hcnt ho; rw [e1] at this; exact this
    · intro hd; have := (hdst hd).2; rw [e1] at this; simp at this
    · intro hg
      have hl := congrArg List.length hacc
      rw [encAll_length, List.length_append] at hl
      unfold Guard at hg; simp only [] at hg
      have hc : (s.counter + 1#64).toNat = s.counter.toNat + 1 := by
        rw [BitVec.toNat_add]; simp [counted] at hnum ⊢; omega
      have := hord hg
      simp only [hc]
      exact ⟨by omega, fun v hv => ⟨(this.2 v hv).1, by have := (this.2 v hv).2; omega⟩⟩
  | @push_post _ m e1 =>
    rw [e1] at hwpc hnum
    refine ⟨hR, hwpc, hrpc, ?_, ?_, ?_, ?_, ?_, hfin, hwhy, hord, hseq⟩
    · rw [hacc, e1]; simp [accepted_ok, pend]
    · rw [hnum]; simp [accepted_ok, counted]
    · intro ho; have := hcnt ho
      rw [e1] at this; simp only [pend, List.length_nil, List.length_singleton] at this ⊢; omega
    · intro hd; have := (hdst hd).2; rw [e1] at this; simp at this
    · intro hd; exact .inr (.inr (by simp))
  | wait e1 e2 =>
    rw [e1] at hrpc
    refine ⟨hR, hwpc, hrpc, hacc, hnum, ?_, hdst, by simp, by simp, ?_, hord, ?_⟩
    · intro _; have := hcnt (by simp [e1, Over]); rw [e1] at this; simp only [credit] at this ⊢; omega
    · intro hx; have := hwhy hx; simpa [e1] using this
    · intro hg; have := hseq hg; rw [e1] at this; exact this
  | wait_spurious e1 =>
    rw [e1] at hrpc
    refine ⟨hR, hwpc, hrpc, hacc, hnum, ?_, hdst, by simp, by simp, ?_, hord, ?_⟩
    · intro _; have := hcnt (by simp [e1, Over]); rw [e1] at this; simp only [credit] at this ⊢; omega
    · intro hx; have := hwhy hx; simpa [e1] using this
    · intro hg; have := hseq hg; rw [e1] at this; exact this
  | quit e1 e2 =>
    rw [e1] at hrpc
    refine ⟨hR, hwpc, hrpc, hacc, hnum, by simp [Over], hdst, by simp [Over], by simp, ?_, hord, ?_⟩
    · intro hx; have := hwhy hx; simpa [e1] using this
    · intro hg; have := hseq hg; rw [e1] at this; exact this
  | pop_call e1 e2 e3 =>
    refine ⟨hR.step (.rcall _ e3), hwpc, by simp [RPc], hacc, hnum, ?_, hdst, ?_, by simp, ?_, hord, ?_⟩
    · intro _; have := hcnt (by simp [e1, Over]); rw [e1] at this
      have hn : ¬ SawEmpty (.run () (pop one ())) := by rintro ⟨c, h⟩; simp [pop] at h
      simp only [credit, hn, if_false] at this ⊢; omega
    · intro hd; have := (hdst (by rw [hd]; simp)).1; rw [e2] at this; simp at this
    · intro hx; have := hwhy hx; simpa [e1] using this
    · intro hg; have := hseq hg; rw [e1] at this; exact this
  | @pop_step _ c e1 e2 e3 e4 e5 e6 =>
    have hR' : FixedSpsc.Reach one c := hR.step e3
    refine ⟨hR', by rw [← e4] at hwpc; exact hwpc, ?_, ?_, hnum, ?_, hdst, htok, hfin, hwhy, ?_, ?_⟩
    · rw [e1]; exact rpc_step h1 hR' e3 e2 e6
    · rw [← hacc, e5]
    · intro ho
      have := hcnt ho
      rw [e1] at this
      simp only [e1, e5, e6, credit] at this ⊢
      by_cases hE : SawEmpty c.r
      · rcases sawEmpty_step h1 hR e3 hE with h | h
        · simp only [h, hE, if_true] at this ⊢; omega
        · omega
      · simp only [hE, if_false]
        split at this <;> omega
    · intro hg; unfold Guard at hg; simp only [e5] at hg; exact hord hg
    · intro hg; unfold Guard at hg; simp only [e5] at hg; simp only [e6]; exact hseq hg
  | @pop_none _ c e1 e2 =>
    refine ⟨hR.step (.rret e2), hwpc, rfl, hacc, hnum, ?_, hdst, ?_, by simp, ?_, hord, ?_⟩
    · intro _; have := hcnt (by simp [e1, Over]); rw [e1] at this
      have hE : SawEmpty s.conf.r := ⟨_, e2⟩
      simp only [FixedSpsc.popped_none, credit, hE, if_true] at this ⊢
      omega
    · intro hd; have := htok hd; simpa [e1, Over] using this
    · intro hx; have := hwhy hx; simpa [e1] using this
    · intro hg; have := hseq hg; rw [e1] at this; simp only [FixedSpsc.popped_none]; exact this
  | @pop_some _ c d e1 e2 =>
    refine ⟨hR.step (.rret e2), hwpc, rfl, hacc, hnum, ?_, hdst, ?_, by simp, ?_, hord, ?_⟩
    · intro _; have := hcnt (by simp [e1, Over]); rw [e1] at this
      simp only [FixedSpsc.popped_some, List.length_append, List.length_singleton, credit] at this ⊢
      split at this <;> omega
    · intro hd; have := htok hd; simpa [e1, Over] using this
    · intro hx; have := hwhy hx; simpa [e1] using this
    · intro hg; obtain ⟨J, hJ, hS⟩ := hseq hg; rw [e1] at hJ hS
      simp only [gotList, List.append_nil] at hJ
      refine ⟨J, ?_, hS⟩
      simp only [FixedSpsc.popped_some, hJ]; rfl
  | @pass _ d e1 e2 =>
    rw [e1] at hrpc
    refine ⟨hR, hwpc, hrpc, hacc, hnum, ?_, hdst, ?_, by simp, ?_, hord, ?_⟩
    · intro _; have := hcnt (by simp [e1, Over]); rw [e1] at this; exact this
    · intro hd; have := htok hd; simpa [e1, Over] using this
    · intro hx; have := hwhy hx; simpa [e1] using this
    · intro hg; obtain ⟨J, hJ, hS⟩ := hseq hg; rw [e1] at hJ hS
      obtain ⟨b, hb, ht, hd⟩ := hgt hg hJ
      refine ⟨J ++ [d], by simpa [gotList] using hJ, ?_⟩
      simp only [passedList, List.append_nil] at hS ⊢
      rw [ht, hd]; exact hS.pass hb
  | @abandon _ d e1 e2 =>
    rw [e1] at hrpc
    refine ⟨hR, hwpc, hrpc, hacc, hnum, ?_, hdst, ?_, by simp, ?_, hord, ?_⟩
    · intro _; have := hcnt (by simp [e1, Over]); rw [e1] at this; exact this
    · intro hd; have := htok hd; simpa [e1, Over] using this
    · intro hx; have := hwhy hx; simpa [e1] using this
    · intro hg; obtain ⟨J, hJ, hS⟩ := hseq hg; rw [e1] at hJ hS
      obtain ⟨b, hb, ht, hd⟩ := hgt hg hJ
      refine ⟨J ++ [d], by simpa [gotList] using hJ, ?_⟩
      simp only [passedList, List.append_nil] at hS ⊢
      exact hS.abandon (by omega)
  | @enter _ k b e1 =>
    rw [e1] at hrpc
    refine ⟨hR, hwpc, hrpc, hacc, hnum, ?_, hdst, ?_, by simp, ?_, hord, ?_⟩
    · intro _; have := hcnt (by simp [e1, Over]); rw [e1] at this; exact this
    · intro hd; have := htok hd; simpa [e1, Over] using this
    · intro hx; have := hwhy hx; simpa [e1] using this
    · intro hg; obtain ⟨J, hJ, hS⟩ := hseq hg; rw [e1] at hJ hS
      exact ⟨J, hJ, by simpa [passedList] using hS⟩
  | cb_ok e1 =>
    rw [e1] at hrpc
    refine ⟨hR, hwpc, hrpc, hacc, hnum, ?_, hdst, ?_, by simp, ?_, hord, ?_⟩
    · intro _; have := hcnt (by simp [e1, Over]); rw [e1] at this; exact this
    · intro hd; have := htok hd; simpa [e1, Over] using this
    · intro hx; have := hwhy hx; simpa [e1] using this
    · intro hg; have := hseq hg; rw [e1] at this; exact this
  | cb_stop e1 =>
    rw [e1] at hrpc
    refine ⟨hR, hwpc, hrpc, hacc, hnum, by simp [Over], hdst, by simp [Over], by simp, ?_, hord, ?_⟩
    · intro hx; have := hwhy hx; simpa [e1] using this
    · intro hg; have := hseq hg; rw [e1] at this; exact this
  | leave e1 =>
    rw [e1] at hrpc
    refine ⟨hR, hwpc, hrpc, hacc, hnum, by simp [Over], fun hd => ⟨rfl, (hdst hd).2⟩, by simp [Over], by simp, by simp,
      hord, ?_⟩
    intro hg; have := hseq hg; rw [e1] at this; exact this
  | clear_load e1 =>
    refine ⟨hR, hwpc, hrpc, hacc, hnum, hcnt, hdst, htok, hfin, hwhy, ?_, hseq⟩
    intro hg
    have := (hord hg).1
    refine ⟨this, ?_⟩
    intro v hv
    simp at hv
    rw [← hv]; exact ⟨this, Nat.le_refl _⟩
  | @clear_store _ v e1 =>
    refine ⟨hR, hwpc, hrpc, hacc, hnum, hcnt, hdst, htok, hfin, hwhy, ?_, ?_⟩
    · intro hg
      have := (hord hg).2 v e1
      exact ⟨this.2, by simp⟩
    · intro hg
      obtain ⟨J, hJ, hS⟩ := hseq hg
      exact ⟨J, hJ, hS.mono ((hord hg).2 v e1).1⟩
  | d_flag e1 e2 =>
    exact ⟨hR, hwpc, hrpc, hacc, hnum, hcnt, fun _ => ⟨rfl, e2⟩, by simp, fun _ => rfl, by simp, hord, hseq⟩
  | d_post e1 =>
    refine ⟨hR, hwpc, hrpc, hacc, hnum, ?_, fun _ => hdst (by simp [e1]), by simp, hfin, by simp, hord, hseq⟩
    intro ho; have := hcnt ho; simp only []; omega
  | d_join e1 e2 =>
    exact ⟨hR, hwpc, hrpc, hacc, hnum, hcnt, fun _ => hdst (by simp [e1]), by simp, hfin, by simp, hord, hseq⟩

theorem Steps.inv (h1 : 0 < one.toNat) {ok : Ev → Prop} {s t : Sys one} (h : Steps ok s t) (hs : Inv s) : Inv t := by
  induction h with
  | refl => exact hs
  | step _ _ st ih => exact ih.step h1 st

theorem Reach.inv (h1 : 0 < one.toNat) {s : Sys one} (h : Reach s) : Inv s := by
  obtain ⟨i, hi, h⟩ := h
  exact h.inv h1 (Inv.init hi)

end Verif.FixedHandler
