import Verif.Spsc.Progress
/-! Bounds on the number of steps of a call that copies no byte twice (used for liveness in fair executions). -/
namespace Verif.Spsc
open RingBuffer (availRead availWrite takeMin)
variable {CW RW CR RR : Type} {bodyW : CW → WProg RW} {bodyR : CR → RProg RR}

/-- the bytes the copy in progress has copied -/
def doneR : RLoc CR RR → List Nat
  | .copy _ _ _ _ _ _ done _ => done
  | _ => []

/-- the bytes the copy in progress has copied -/
def doneW : WLoc CW RW → List Nat
  | .copy _ _ _ _ _ done => done
  | _ => []

/-- at most `d` ring operations -/
inductive RDepth {α : Type} : Nat → RProg α → Prop where
  | ret {d} (a) : RDepth d (.ret a)
  | abort {d} : RDepth d .abort
  | avail {d k} : (∀ n, RDepth d (k n)) → RDepth (d + 1) (.avail k)
  | read {d t pk len k} : (∀ n l, RDepth d (k n l)) → RDepth (d + 1) (.read t pk len k)

inductive WDepth {α : Type} : Nat → WProg α → Prop where
  | ret {d} (a) : WDepth d (.ret a)
  | abort {d} : WDepth d .abort
  | avail {d k} : (∀ n, WDepth d (k n)) → WDepth (d + 1) (.avail k)
  | write {d src len k} : (∀ n, WDepth d (k n)) → WDepth (d + 1) (.write src len k)

/-- more than one operation takes -/
def opCost : Nat := 2 ^ 32 + 2

/-- at most `b` steps are left in the call -/
inductive RBound : Nat → RLoc CR RR → Prop where
  | run {c p d} : RDepth d p → RBound (d * opCost) (.run c p)
  | copy {c t pk len k n done tgt d} : (∀ m l, RDepth d (k m l)) → done.Nodup → (∀ i ∈ done, i < n.toNat) →
      RBound (d * opCost + 1 + (n.toNat - done.length)) (.copy c t pk len k n done tgt)

inductive WBound : Nat → WLoc CW RW → Prop where
  | run {c p d} : WDepth d p → WBound (d * opCost) (.run c p)
  | copy {c src len k n done d} : (∀ m, WDepth d (k m)) → done.Nodup → (∀ i ∈ done, i < n.toNat) →
      WBound (d * opCost + 1 + (n.toNat - done.length)) (.copy c src len k n done)

theorem nodup_length {l : List Nat} {n : Nat} (h : l.Nodup) (hb : ∀ i ∈ l, i < n) : l.length ≤ n := by
  induction n generalizing l with
  | zero =>
    cases l with
    | nil => simp
    | cons a l => exact absurd (hb a (by simp)) (by omega)
  | succ n ih =>
    have := ih (h.erase n) (fun i hi => by
      rw [h.mem_erase_iff] at hi
      have := hb i hi.2
      omega)
    rw [List.length_erase] at this
    split at this <;> omega

theorem cons_lt {l : List Nat} {n i : Nat} (hi : i < n) (h : ∀ j ∈ l, j < n) : ∀ j ∈ i :: l, j < n := by
  intro j hj
  rcases List.mem_cons.1 hj with rfl | hj
  · exact hi
  · exact h j hj

theorem avail_ne {α : Type} (k : BitVec 32 → WProg α) (n : BitVec 32) : k n ≠ .avail k := by
  have : ∀ p : WProg α, ∀ k n, p = .avail k → k n ≠ p := by
    intro p
    induction p with
    | ret | abort | write => intro k n h; cases h
    | avail k ih => intro k' n h e; cases h; exact ih n k n e rfl
  exact fun e => this _ k n rfl e

theorem write_ne {α : Type} (src : List Byte) (len : BitVec 32) (k : BitVec 32 → WProg α) (n : BitVec 32) :
    k n ≠ .write src len k := by
  have : ∀ p : WProg α, ∀ k n, p = .write src len k → k n ≠ p := by
    intro p
    induction p with
    | ret | abort | avail => intro k n h; cases h
    | write _ _ k ih => intro k' n h e; cases h; exact ih n k n e rfl
  exact fun e => this _ k n rfl e

theorem ravail_ne {α : Type} (k : BitVec 32 → RProg α) (n : BitVec 32) : k n ≠ .avail k := by
  have : ∀ p : RProg α, ∀ k n, p = .avail k → k n ≠ p := by
    intro p
    induction p with
    | ret | abort | read => intro k n h; cases h
    | avail k ih => intro k' n h e; cases h; exact ih n k n e rfl
  exact fun e => this _ k n rfl e

theorem read_ne {α : Type} (t pk : Bool) (len : BitVec 32) (k : BitVec 32 → List Byte → RProg α) (n : BitVec 32) (l : List Byte) :
    k n l ≠ .read t pk len k := by
  have : ∀ p : RProg α, ∀ k n l, p = .read t pk len k → k n l ≠ p := by
    intro p
    induction p with
    | ret | abort | avail => intro k n l h; cases h
    | read _ _ _ k ih => intro k' n l h e; cases h; exact ih n l k n l e rfl
  exact fun e => this _ k n l rfl e

theorem cost_lt {d : Nat} {n : BitVec 32} : d * opCost + 1 + (n.toNat - 0) < (d + 1) * opCost := by
  have := n.isLt
  rw [Nat.succ_mul]
  unfold opCost
  omega

/-- a step inside a reader call that copies no byte twice lowers the bound -/
theorem RBound.step {s t : Conf CW RW CR RR} {b : Nat} (hsafe : t.r ≠ .ub ∧ t.r ≠ .aborted) (st : Step bodyW bodyR s t)
    (hb : RBound b s.r) (hw : t.w = s.w) (hh : t.rhist = s.rhist) (hf : (doneR t.r).Nodup) :
    ∃ b', b' < b ∧ RBound b' t.r := by
  cases st with
  | wcall c e => rw [e] at hw; cases hw
  | wret e => rw [e] at hw; cases hw
  | wabort e => rw [e] at hw; cases hw
  | wavail e => rw [e] at hw; simp at hw; exact absurd hw (avail_ne _ _)
  | wskip e => rw [e] at hw; simp at hw; exact absurd hw (write_ne _ _ _ _)
  | wbegin e => rw [e] at hw; cases hw
  | wcopy _ _ _ e => rw [e] at hw; simp at hw
  | wub i e => rw [e] at hw; cases hw
  | wpub e => rw [e] at hw; cases hw
  | rcall c e => rw [e] at hb; cases hb
  | rret e => simp at hh
  | rabort e => simp at hsafe
  | ravail e =>
    rw [e] at hb
    cases hb with
    | run h =>
      cases h with
      | avail h => exact ⟨_, by rw [Nat.succ_mul]; unfold opCost; omega, .run (h _)⟩
  | rskip e hc =>
    rw [e] at hb
    cases hb with
    | run h =>
      cases h with
      | read h => exact ⟨_, by rw [Nat.succ_mul]; unfold opCost; omega, .run (h _ _)⟩
  | rbegin e hc =>
    rw [e] at hb
    cases hb with
    | run h =>
      cases h with
      | read h => exact ⟨_, cost_lt, .copy (done := []) h (by simp) (by simp)⟩
  | rcopy i x e hi hx =>
    rw [e] at hb
    cases hb with
    | copy h h1 h2 =>
      simp only [doneR] at hf
      have h3 := cons_lt hi h2
      refine ⟨_, ?_, .copy h hf h3⟩
      have := nodup_length hf h3
      simp only [List.length_cons] at *
      omega
  | rub _ e => simp at hsafe
  | rpub e hd =>
    rw [e] at hb
    cases hb with
    | copy h h1 h2 => exact ⟨_, by omega, .run (h _ _)⟩

/-- a step inside a writer call that copies no byte twice lowers the bound -/
theorem WBound.step {s t : Conf CW RW CR RR} {b : Nat} (hsafe : t.w ≠ .ub ∧ t.w ≠ .aborted) (st : Step bodyW bodyR s t)
    (hb : WBound b s.w) (hr : t.r = s.r) (hh : t.whist = s.whist) (hf : (doneW t.w).Nodup) :
    ∃ b', b' < b ∧ WBound b' t.w := by
  cases st with
  | rcall c e => rw [e] at hr; cases hr
  | rret e => rw [e] at hr; cases hr
  | rabort e => rw [e] at hr; cases hr
  | ravail e => rw [e] at hr; simp at hr; exact absurd hr (ravail_ne _ _)
  | rskip e => rw [e] at hr; simp at hr; exact absurd hr (read_ne _ _ _ _ _ _)
  | rbegin e => rw [e] at hr; cases hr
  | rcopy _ _ e => rw [e] at hr; simp at hr
  | rub i e => rw [e] at hr; cases hr
  | rpub e => rw [e] at hr; cases hr
  | wcall c e => rw [e] at hb; cases hb
  | wret e => simp at hh
  | wabort e => simp at hsafe
  | wavail e =>
    rw [e] at hb
    cases hb with
    | run h =>
      cases h with
      | avail h => exact ⟨_, by rw [Nat.succ_mul]; unfold opCost; omega, .run (h _)⟩
  | wskip e hc =>
    rw [e] at hb
    cases hb with
    | run h =>
      cases h with
      | write h => exact ⟨_, by rw [Nat.succ_mul]; unfold opCost; omega, .run (h _)⟩
  | wbegin e hc =>
    rw [e] at hb
    cases hb with
    | run h =>
      cases h with
      | write h => exact ⟨_, cost_lt, .copy (done := []) h (by simp) (by simp)⟩
  | wcopy i x m e hi hx hm =>
    rw [e] at hb
    cases hb with
    | copy h h1 h2 =>
      simp only [doneW] at hf
      have h3 := cons_lt hi h2
      refine ⟨_, ?_, .copy h hf h3⟩
      have := nodup_length hf h3
      simp only [List.length_cons] at *
      omega
  | wub _ e => simp at hsafe
  | wpub e hd =>
    rw [e] at hb
    cases hb with
    | copy h h1 h2 => exact ⟨_, by omega, .run (h _)⟩

/-- a reader inside a call that has not returned can take a step that copies a new byte or none -/
theorem reader_can {s : Conf CW RW CR RR} (hsafe : RSafe bodyW bodyR) (h : Reach bodyW bodyR s) (hi : s.r ≠ .idle)
    (hret : ∀ c a, s.r ≠ .run c (.ret a)) (hn : (doneR s.r).Nodup) :
    ∃ t, Step bodyW bodyR s t ∧ t.w = s.w ∧ t.whist = s.whist ∧ t.rhist = s.rhist ∧ (doneR t.r).Nodup := by
  have hs := hsafe s h
  cases hr : s.r with
  | idle => exact absurd hr hi
  | ub => exact absurd hr hs.1
  | aborted => exact absurd hr hs.2
  | run c p =>
    cases p with
    | ret a => exact absurd hr (hret c a)
    | abort => exact absurd rfl (hsafe _ (h.step (.rabort hr))).2
    | avail k => exact ⟨_, .ravail hr, rfl, rfl, rfl, by simp [doneR]⟩
    | read tg pk len k =>
      by_cases hc : len = 0#32 ∨ availRead s.ring = 0#32
      · exact ⟨_, .rskip hr hc, rfl, rfl, rfl, by simp [doneR]⟩
      · exact ⟨_, .rbegin hr hc, rfl, rfl, rfl, by simp [doneR]⟩
  | copy c tg pk len k n done tgt =>
    by_cases hd : tg = true → ∀ i < n.toNat, i ∈ done
    · exact ⟨_, .rpub hr hd, rfl, rfl, rfl, by simp [doneR]⟩
    · have : tg = true := by
        cases tg
        · exact absurd (by simp) hd
        · rfl
      subst this
      obtain ⟨j, hj, hjd⟩ : ∃ j, j < n.toNat ∧ j ∉ done := by
        apply Classical.byContradiction
        intro hx
        exact hd (fun _ i hi => Classical.byContradiction fun h => hx ⟨i, hi, h⟩)
      rw [hr] at hn
      simp only [doneR] at hn
      cases hb : s.ring.buf[byteAddr s.ring.size s.ring.out n j]? with
      | none => exact absurd rfl (hsafe _ (h.step (.rub j hr hj hb))).1
      | some b =>
        exact ⟨_, .rcopy j b hr hj hb, rfl, rfl, rfl, by simp only [doneR]; exact List.nodup_cons.2 ⟨hjd, hn⟩⟩

/-- a writer inside a call that has not returned can take a step that copies a new byte or none -/
theorem writer_can {s : Conf CW RW CR RR}
    (hsafe : ∀ t : Conf CW RW CR RR, Reach bodyW bodyR t → t.w ≠ .ub ∧ t.w ≠ .aborted) (h : Reach bodyW bodyR s)
    (hi : s.w ≠ .idle) (hret : ∀ c a, s.w ≠ .run c (.ret a)) (hn : (doneW s.w).Nodup) :
    ∃ t, Step bodyW bodyR s t ∧ t.r = s.r ∧ t.rhist = s.rhist ∧ t.whist = s.whist ∧ (doneW t.w).Nodup := by
  have hs := hsafe s h
  cases hr : s.w with
  | idle => exact absurd hr hi
  | ub => exact absurd hr hs.1
  | aborted => exact absurd hr hs.2
  | run c p =>
    cases p with
    | ret a => exact absurd hr (hret c a)
    | abort => exact absurd rfl (hsafe _ (h.step (.wabort hr))).2
    | avail k => exact ⟨_, .wavail hr, rfl, rfl, rfl, by simp [doneW]⟩
    | write src len k =>
      by_cases hc : len = 0#32 ∨ availWrite s.ring = 0#32
      · exact ⟨_, .wskip hr hc, rfl, rfl, rfl, by simp [doneW]⟩
      · exact ⟨_, .wbegin hr hc, rfl, rfl, rfl, by simp [doneW]⟩
  | copy c src len k n done =>
    by_cases hd : ∀ i < n.toNat, i ∈ done
    · exact ⟨_, .wpub hr hd, rfl, rfl, rfl, by simp [doneW]⟩
    · obtain ⟨j, hj, hjd⟩ : ∃ j, j < n.toNat ∧ j ∉ done := by
        apply Classical.byContradiction
        intro hx
        exact hd (fun i hi => Classical.byContradiction fun h => hx ⟨i, hi, h⟩)
      rw [hr] at hn
      simp only [doneW] at hn
      cases hx : src[j]? with
      | none => exact absurd rfl (hsafe _ (h.step (.wub j hr hj (.inl hx)))).1
      | some b =>
        cases hb : s.ring.buf.store (byteAddr s.ring.size s.ring.inp n j) [b] with
        | none => exact absurd rfl (hsafe _ (h.step (.wub j hr hj (.inr ⟨b, hb⟩)))).1
        | some m =>
          exact ⟨_, .wcopy j b m hr hj hx hb, rfl, rfl, rfl, by simp only [doneW]; exact List.nodup_cons.2 ⟨hjd, hn⟩⟩

end Verif.Spsc
