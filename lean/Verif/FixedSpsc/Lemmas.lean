import Verif.FixedSpsc.Spec
import Verif.Spsc.Props
/-! Invariant of the two-thread fixed-size message queue. -/
namespace Verif.FixedSpsc
open RingBuffer (Ring availRead availWrite takeMin)
open Spsc (WProg RProg WLoc RLoc)
open Spsc.Spec (sent consumed)
open Spec (pushed popped inFlight)

variable {one : BitVec 32}

theorem bytes_length (c : PushCall one) : c.bytes.length = one.toNat := by
  have := c.ok; simp [PushCall.bytes]; omega

inductive WPhase (one : BitVec 32) (cap : Nat) (A : List (List Byte)) (S : List Byte) (P : Nat) :
    WLoc (PushCall one) Bool → List (List Byte) → Prop where
  | idle : S = A.flatten → WPhase one cap A S P .idle A
  | start (c) : S = A.flatten → WPhase one cap A S P (.run c (push one c)) A
  | fail (c) : S = A.flatten → WPhase one cap A S P (.run c (.ret false)) A
  | wr (c) : S = A.flatten → S.length + one.toNat ≤ P + cap → WPhase one cap A S P (.run c (pushWrite c)) A
  | wrCopy (c done) : S = A.flatten → S.length + one.toNat ≤ P + cap →
      WPhase one cap A S P (.copy c c.msg one (pushK one) one done) A
  | ok (c) : S = (A ++ [c.bytes]).flatten → WPhase one cap A S P (.run c (.ret true)) (A ++ [c.bytes])

section
variable {cap : Nat} {A F : List (List Byte)} {S : List Byte} {P : Nat} {w : WLoc (PushCall one) Bool}

theorem WPhase.sent_eq (h : WPhase one cap A S P w F) : S = F.flatten := by cases h <;> assumption

theorem WPhase.mono {P' : Nat} (h : WPhase one cap A S P w F) (hp : P ≤ P') : WPhase one cap A S P' w F := by
  cases h with
  | idle h => exact .idle h
  | start c h => exact .start c h
  | fail c h => exact .fail c h
  | wr c h h1 => exact .wr c h (by omega)
  | wrCopy c d h h1 => exact .wrCopy c d h (by omega)
  | ok c h => exact .ok c h

theorem WPhase.subset (h : WPhase one cap A S P w F) : F <+: A ++ inFlight w ∧ A <+: F := by
  cases h <;> simp [inFlight]

theorem WPhase.inv_idle (h : WPhase one cap A S P w F) (hw : w = .idle) : F = A ∧ S = A.flatten := by
  cases h <;> first | exact ⟨rfl, by assumption⟩ | simp at hw

theorem WPhase.inv_ret {c a} (h : WPhase one cap A S P w F) (hw : w = .run c (.ret a)) :
    (a = true ∧ F = A ++ [c.bytes]) ∨ (a = false ∧ F = A) := by
  cases h with
  | idle h => simp at hw
  | start c h => simp [push] at hw
  | fail c h => simp at hw; right; exact ⟨hw.2.symm ▸ rfl, rfl⟩
  | wr c h => simp [pushWrite] at hw
  | wrCopy c d h => simp at hw
  | ok c h => simp at hw; left; rw [← hw.1, ← hw.2]; exact ⟨rfl, rfl⟩

theorem WPhase.inv_abort {c} (h : WPhase one cap A S P w F) (hw : w = .run c .abort) : False := by
  cases h <;> simp [push, pushWrite] at hw

theorem WPhase.inv_avail {c k} (h : WPhase one cap A S P w F) (hw : w = .run c (.avail k)) :
    F = A ∧ S = A.flatten ∧ k = pushAvailK c := by
  cases h with
  | idle h => simp at hw
  | start c h => simp [push] at hw; obtain ⟨rfl, rfl⟩ := hw; exact ⟨rfl, h, rfl⟩
  | fail c h => simp at hw
  | wr c h => simp [pushWrite] at hw
  | wrCopy c d h => simp at hw
  | ok c h => simp at hw

theorem WPhase.inv_write {c src len k} (h : WPhase one cap A S P w F) (hw : w = .run c (.write src len k)) :
    src = c.msg ∧ len = one ∧ k = pushK one ∧ F = A ∧ S = A.flatten ∧ S.length + one.toNat ≤ P + cap := by
  cases h with
  | idle h => simp at hw
  | start c h => simp [push] at hw
  | fail c h => simp at hw
  | wr c h h1 => simp [pushWrite] at hw; obtain ⟨rfl, rfl, rfl, rfl⟩ := hw; exact ⟨rfl, rfl, rfl, rfl, h, h1⟩
  | wrCopy c d h => simp at hw
  | ok c h => simp at hw

theorem WPhase.inv_copy {c src len k n done} (h : WPhase one cap A S P w F) (hw : w = .copy c src len k n done) :
    src = c.msg ∧ len = one ∧ k = pushK one ∧ n = one ∧ F = A ∧ S = A.flatten ∧ S.length + one.toNat ≤ P + cap := by
  cases h with
  | idle h => simp at hw
  | start c h => simp at hw
  | fail c h => simp at hw
  | wr c h h1 => simp at hw
  | wrCopy c d h h1 =>
    simp at hw; obtain ⟨rfl, rfl, rfl, rfl, rfl, rfl⟩ := hw; exact ⟨rfl, rfl, rfl, rfl, rfl, h, h1⟩
  | ok c h => simp at hw
end

/-- Reader phases; `Q` = messages popped so far, `F` = messages written so far. -/
inductive RPhase (one : BitVec 32) (Q F : List (List Byte)) (P : Nat) : RLoc Unit (Option (List Byte)) → Prop where
  | idle : P = one.toNat * Q.length → RPhase one Q F P .idle
  | start (c) : P = one.toNat * Q.length → RPhase one Q F P (.run c (pop one c))
  | fail (c) : P = one.toNat * Q.length → RPhase one Q F P (.run c (.ret none))
  | rd (c m) : P = one.toNat * Q.length → Q ++ [m] <+: F → RPhase one Q F P (.run c (popRead one))
  | rdCopy (c m done tgt) : P = one.toNat * Q.length → Q ++ [m] <+: F →
      RPhase one Q F P (.copy c true false one (popK one) one done tgt)
  | ok (c d) : P = one.toNat * (Q.length + 1) → Q ++ [d] <+: F → RPhase one Q F P (.run c (.ret (some d)))

section
variable {Q F : List (List Byte)} {P : Nat} {r : RLoc Unit (Option (List Byte))}

theorem RPhase.mono {F'} (h : RPhase one Q F P r) (hF : F <+: F') : RPhase one Q F' P r := by
  cases h with
  | idle h => exact .idle h
  | start c h => exact .start c h
  | fail c h => exact .fail c h
  | rd c m h h1 => exact .rd c m h (h1.trans hF)
  | rdCopy c m d t h h1 => exact .rdCopy c m d t h (h1.trans hF)
  | ok c d h h1 => exact .ok c d h (h1.trans hF)

theorem RPhase.inv_idle (h : RPhase one Q F P r) (hw : r = .idle) : P = one.toNat * Q.length := by
  cases h <;> first | assumption | simp at hw

theorem RPhase.inv_ret {c a} (h : RPhase one Q F P r) (hw : r = .run c (.ret a)) :
    (a = none ∧ P = one.toNat * Q.length) ∨ (∃ d, a = some d ∧ P = one.toNat * (Q.length + 1) ∧ Q ++ [d] <+: F) := by
  cases h with
  | idle h => simp at hw
  | start c h => simp [pop] at hw
  | fail c h => simp at hw; exact .inl ⟨hw.symm ▸ rfl, h⟩
  | rd c m h h1 => simp [popRead] at hw
  | rdCopy c m d t h h1 => simp at hw
  | ok c d h h1 => simp at hw; exact .inr ⟨d, hw.symm ▸ rfl, h, h1⟩

theorem RPhase.inv_abort {c} (h : RPhase one Q F P r) (hw : r = .run c .abort) : False := by
  cases h <;> simp [pop, popRead] at hw

theorem RPhase.inv_avail {c k} (h : RPhase one Q F P r) (hw : r = .run c (.avail k)) :
    P = one.toNat * Q.length ∧ k = popAvailK one := by
  cases h with
  | start c h => simp [pop] at hw; exact ⟨h, hw.symm ▸ rfl⟩
  | _ => simp [popRead] at hw

theorem RPhase.inv_read {c t pk len k} (h : RPhase one Q F P r) (hw : r = .run c (.read t pk len k)) :
    t = true ∧ pk = false ∧ len = one ∧ k = popK one ∧ P = one.toNat * Q.length ∧ ∃ m, Q ++ [m] <+: F := by
  cases h with
  | rd c m h h1 =>
    simp [popRead] at hw; obtain ⟨rfl, rfl, rfl, rfl⟩ := hw; exact ⟨rfl, rfl, rfl, rfl, h, m, h1⟩
  | _ => simp [pop] at hw

theorem RPhase.inv_copy {c t pk len k n done tgt} (h : RPhase one Q F P r) (hw : r = .copy c t pk len k n done tgt) :
    t = true ∧ pk = false ∧ len = one ∧ n = one ∧ k = popK one ∧ P = one.toNat * Q.length ∧ ∃ m, Q ++ [m] <+: F := by
  cases h with
  | rdCopy c m d t h h1 =>
    simp at hw; obtain ⟨rfl, rfl, rfl, rfl, rfl, rfl, rfl⟩ := hw; exact ⟨rfl, rfl, rfl, rfl, rfl, h, m, h1⟩
  | _ => simp at hw
end

def Inv2 (s : Conf one) : Prop :=
  ∃ F, WPhase one s.ring.size.toNat (pushed s.whist) (sent s.wlog) (consumed s.rlog) s.w F ∧
    RPhase one (popped s.rhist) F (consumed s.rlog) s.r ∧ popped s.rhist <+: F ∧ ∀ m ∈ F, m.length = one.toNat

theorem push_valid (c : PushCall one) : (push one c).Valid := by
  refine .avail fun a => ?_
  unfold pushAvailK
  split
  · exact .ret _
  · exact .write c.ok fun n => .ret _

theorem takeMin_eq {a b : BitVec 32} (h : a.toNat ≤ b.toNat) : takeMin a b = a := by
  apply BitVec.eq_of_toNat_eq; rw [RingBuffer.takeMin_toNat]; omega

theorem flatten_len {F : List (List Byte)} {n : Nat} (h : ∀ m ∈ F, m.length = n) : F.flatten.length = n * F.length := by
  induction F with
  | nil => simp
  | cons a F ih =>
    simp only [List.flatten_cons, List.length_append, List.length_cons]
    rw [ih (fun m hm => h m (List.mem_cons_of_mem _ hm)), h a List.mem_cons_self, Nat.mul_add]; omega

theorem div_zero {a : BitVec 32} : (0#32 = a / one) ↔ (one.toNat = 0 ∨ a.toNat < one.toNat) := by
  rw [← BitVec.toNat_inj]
  simp only [BitVec.toNat_udiv]
  show 0 = _ ↔ _
  rcases Nat.eq_zero_or_pos one.toNat with h | h
  · simp [h]
  · constructor
    · intro e; right
      rcases Nat.lt_or_ge a.toNat one.toNat with h' | h'
      · exact h'
      · have := Nat.div_pos h' h; omega
    · rintro (h' | h')
      · omega
      · exact (Nat.div_eq_of_lt h').symm

theorem next_eq {Q F : List (List Byte)} {n : Nat} (hF : ∀ m ∈ F, m.length = n) {m} (h : Q ++ [m] <+: F) :
    (F.flatten.drop (n * Q.length)).take n = m := by
  obtain ⟨T, rfl⟩ := h
  have hQ : (∀ x ∈ Q, x.length = n) := fun x hx => hF x (by simp [hx])
  have hm : m.length = n := hF m (by simp)
  rw [← flatten_len hQ, List.append_assoc, List.flatten_append, List.drop_left]
  simp only [List.singleton_append, List.flatten_cons]
  rw [← hm, List.take_left]

theorem next_exists {Q F : List (List Byte)} {n : Nat} (hF : ∀ m ∈ F, m.length = n) (hn : 0 < n) (hq : Q <+: F)
    (h : n * Q.length + n ≤ F.flatten.length) : ∃ m, Q ++ [m] <+: F := by
  obtain ⟨T, rfl⟩ := hq
  cases T with
  | nil =>
    rw [List.append_nil] at h hF
    rw [flatten_len hF] at h; omega
  | cons m T => exact ⟨m, T, by simp⟩

theorem next_fits {Q F : List (List Byte)} {n : Nat} (hF : ∀ m ∈ F, m.length = n) {m} (h : Q ++ [m] <+: F) :
    n * Q.length + n ≤ F.flatten.length := by
  have hl := h.length_le
  rw [flatten_len hF]
  simp at hl
  have : n * (Q.length + 1) ≤ n * F.length := Nat.mul_le_mul_left _ hl
  rw [Nat.mul_add] at this; omega

theorem popped_some {h : List (Unit × Option (List Byte))} {c d} : popped (h ++ [(c, some d)]) = popped h ++ [d] := by
  simp [popped]
theorem popped_none {h : List (Unit × Option (List Byte))} {c} : popped (h ++ [(c, none)]) = popped h := by
  simp [popped]
theorem pushed_true {h : List (PushCall one × Bool)} {c} : pushed (h ++ [(c, true)]) = pushed h ++ [c.bytes] := by
  simp [pushed]
theorem pushed_false {h : List (PushCall one × Bool)} {c} : pushed (h ++ [(c, false)]) = pushed h := by
  simp [pushed]

theorem Inv2.step (h1 : 0 < one.toNat) {s t : Conf one} (h : Inv2 s) (iv : Spsc.Inv s)
    (st : Spsc.Step (push one) (pop one) s t) : Inv2 t := by
  have iv' := iv.step push_valid st
  obtain ⟨F, hw, hr, hq, hm⟩ := h
  have hle := iv.le
  have hfit := iv.fit
  have hS := hw.sent_eq
  cases st with
  | wcall c e =>
    obtain ⟨rfl, hS⟩ := hw.inv_idle e
    exact ⟨_, .start c hS, hr, hq, hm⟩
  | @wret c a e =>
    rcases hw.inv_ret e with ⟨rfl, e2⟩ | ⟨rfl, e2⟩
    · refine ⟨F, ?_, hr, hq, hm⟩
      simp only [pushed_true]
      rw [← e2]; exact .idle hS
    · subst e2
      refine ⟨_, ?_, hr, hq, hm⟩
      simp only [pushed_false]
      exact .idle hS
  | wabort e => exact (hw.inv_abort e).elim
  | @wavail c k e =>
    obtain ⟨rfl, e2, rfl⟩ := hw.inv_avail e
    refine ⟨_, ?_, hr, hq, hm⟩
    simp only [pushAvailK]
    split
    · exact .fail c e2
    · next hc =>
      rw [div_zero, iv.availWrite] at hc
      exact .wr c e2 (by omega)
  | @wskip c src len k e hc =>
    obtain ⟨rfl, rfl, rfl, e4, e5, e6⟩ := hw.inv_write e
    exfalso
    rcases hc with hc | hc
    · rw [hc] at h1; simp at h1
    · have := congrArg BitVec.toNat hc
      rw [iv.availWrite] at this
      simp at this; omega
  | @wbegin c src len k e hc =>
    obtain ⟨rfl, rfl, rfl, rfl, e5, e6⟩ := hw.inv_write e
    refine ⟨_, ?_, hr, hq, hm⟩
    have hlen : len.toNat ≤ (availWrite s.ring).toNat := by rw [iv.availWrite]; omega
    simp only [takeMin_eq hlen]
    exact .wrCopy c [] e5 e6
  | @wcopy c src len k n done i b m e hi hb hst =>
    obtain ⟨rfl, rfl, rfl, rfl, rfl, e5, e6⟩ := hw.inv_copy e
    exact ⟨_, .wrCopy c _ e5 e6, hr, hq, hm⟩
  | wub i e hi hb => exact iv'.w.elim
  | @wpub c src len k n done e hd =>
    obtain ⟨rfl, rfl, rfl, rfl, rfl, e5, e6⟩ := hw.inv_copy e
    refine ⟨pushed s.whist ++ [c.bytes], ?_, hr.mono (List.prefix_append _ _), hq.trans (List.prefix_append _ _), ?_⟩
    · have : pushK n n = .ret true := by simp [pushK]
      simp only [this, Spsc.sent_append, Spsc.sent_single]
      refine .ok c ?_
      rw [e5, List.flatten_append]; simp [PushCall.bytes]
    · intro m hmm
      rcases List.mem_append.1 hmm with h | h
      · exact hm m h
      · simp at h; rw [h, bytes_length]
  | rcall c e => exact ⟨F, hw, .start c (hr.inv_idle e), hq, hm⟩
  | @rret c a e =>
    rcases hr.inv_ret e with ⟨rfl, e2⟩ | ⟨d, rfl, e2, e3⟩
    · refine ⟨F, hw, ?_, ?_, hm⟩
      · simp only [popped_none]; exact .idle e2
      · simp only [popped_none]; exact hq
    · refine ⟨F, hw, ?_, ?_, hm⟩
      · simp only [popped_some]; exact .idle (by rw [e2]; simp)
      · simp only [popped_some]; exact e3
  | rabort e => exact (hr.inv_abort e).elim
  | @ravail c k e =>
    obtain ⟨e1, rfl⟩ := hr.inv_avail e
    refine ⟨F, hw, ?_, hq, hm⟩
    simp only [popAvailK]
    split
    · exact .fail c e1
    · next hc =>
      rw [div_zero, iv.availRead] at hc
      obtain ⟨m, hm'⟩ := next_exists hm h1 hq (by rw [← hS]; omega)
      exact .rd c m e1 hm'
  | @rskip c t pk len k e hc =>
    obtain ⟨rfl, rfl, rfl, rfl, e5, m, e6⟩ := hr.inv_read e
    exfalso
    rcases hc with hc | hc
    · rw [hc] at h1; simp at h1
    · have := congrArg BitVec.toNat hc
      have := next_fits hm e6
      rw [← hS] at this
      rw [iv.availRead] at *
      simp at *; omega
  | @rbegin c t pk len k e hc =>
    obtain ⟨rfl, rfl, rfl, rfl, e5, m, e6⟩ := hr.inv_read e
    have := next_fits hm e6
    rw [← hS] at this
    have : takeMin len (availRead s.ring) = len := takeMin_eq (by rw [iv.availRead]; omega)
    refine ⟨F, hw, ?_, hq, hm⟩
    simp only [this]
    exact .rdCopy c m _ _ e5 e6
  | @rcopy c pk len k n done tgt i b e hi hb =>
    obtain ⟨_, rfl, rfl, rfl, rfl, e5, m, e6⟩ := hr.inv_copy e
    exact ⟨F, hw, .rdCopy c m _ _ e5 e6, hq, hm⟩
  | rub i e hi hb => exact iv'.r.elim
  | @rpub c t pk len k n done tgt e hd =>
    obtain ⟨rfl, rfl, rfl, rfl, rfl, e5, m, e6⟩ := hr.inv_copy e
    have hreads := iv'.reads
    simp only [Spsc.ReadsFrom_append] at hreads
    obtain ⟨_, _, _, hdata, _⟩ := hreads
    simp only [Nat.zero_add, if_true] at hdata
    have ec : consumed (s.rlog ++ [⟨true, false, n.toNat, n.toNat, List.map tgt (List.range n.toNat)⟩]) =
        consumed s.rlog + n.toNat := by
      rw [Spsc.consumed_append]; simp [consumed]
    refine ⟨F, ?_, ?_, hq, hm⟩
    · simp only [if_true, ec]; exact hw.mono (by omega)
    · simp only [if_true, ec]
      have : popK n n (List.map tgt (List.range n.toNat)) = .ret (some m) := by
        rw [hdata, e5, hS, next_eq hm e6]; simp [popK]
      rw [this]
      refine .ok c m ?_ e6
      rw [e5, Nat.mul_add]; omega

theorem Reach.inv2 (h1 : 0 < one.toNat) {s : Conf one} (h : Reach one s) : Spsc.Inv s ∧ Inv2 s := by
  induction h with
  | init h =>
    refine ⟨Spsc.Inv.init h, [], ?_⟩
    obtain ⟨h1, h2, h3, h4, h5, h6, h7, h8, h9, h10⟩ := h
    rw [h5, h6, h7, h8, h9, h10]
    exact ⟨.idle rfl, .idle rfl, List.prefix_refl _, by simp⟩
  | step _ st ih => exact ⟨ih.1.step push_valid st, ih.2.step h1 ih.1 st⟩

end Verif.FixedSpsc
