import Verif.FixedHandler.Spec
import Verif.FixedSpsc.Props
/-! Invariant of the fixed-size message-queue handler. -/
namespace Verif.FixedHandler
open RingBuffer (availRead)
open MsgQueue (Code)
open FixedSpsc (PushCall push pop)
open FixedSpsc.Spec (pushed popped)
open Spsc (WLoc RLoc RProg)
open Spec (accepted inProgress messages NoWrap)

/-! ### Tokens -/

theorem le_length (n t : Nat) : (le n t).length = n := by
  induction n generalizing t with
  | zero => rfl
  | succ n ih => simp [le, ih]

theorem unle_le (n t : Nat) : unle (le n t) = t % 256 ^ n := by
  induction n generalizing t with
  | zero => simp [le, unle, Nat.mod_one]
  | succ n ih =>
    simp only [le, unle, ih]
    rw [Nat.pow_succ, Nat.mul_comm (256 ^ n) 256, Nat.mod_mul]
    have : (UInt8.ofNat (t % 256)).toNat = t % 256 := by simp
    rw [this]

theorem le_mod (n t : Nat) : le n (t % 256 ^ n) = le n t := by
  induction n generalizing t with
  | zero => rfl
  | succ n ih =>
    have e1 : t % 256 ^ (n + 1) % 256 = t % 256 := by
      rw [Nat.pow_succ]; exact Nat.mod_mul_left_mod t (256 ^ n) 256
    have e2 : t % 256 ^ (n + 1) / 256 = t / 256 % 256 ^ n := by
      rw [Nat.pow_succ, Nat.mul_comm]; exact Nat.mod_mul_right_div_self t 256 (256 ^ n)
    simp only [le, e1, e2, ih]

/-- the byte strings put into the queue for a list of messages -/
def encAll (l : List (List Byte)) : List (List Byte) := l.zipIdx.map fun x => le 8 x.2 ++ x.1

theorem encAll_snoc (l : List (List Byte)) (b : List Byte) : encAll (l ++ [b]) = encAll l ++ [le 8 l.length ++ b] := by
  simp [encAll, List.zipIdx_append]

theorem encAll_length (l : List (List Byte)) : (encAll l).length = l.length := by simp [encAll]

theorem encAll_get {l : List (List Byte)} {k : Nat} {d : List Byte} (h : (encAll l)[k]? = some d) :
    ∃ b, l[k]? = some b ∧ d = le 8 k ++ b := by
  simp only [encAll, List.getElem?_map, List.getElem?_zipIdx, Option.map_map, Option.map_eq_some_iff] at h
  obtain ⟨b, h1, h2⟩ := h
  exact ⟨b, h1, by simpa using h2.symm⟩

/-! ### Facts about the queue underneath -/

variable {one : BitVec 32}

theorem cache_bytes (t : BitVec 64) (m : Msg one) : (cache t m).bytes = le 8 t.toNat ++ m.body := by
  unfold cache PushCall.bytes
  apply List.take_of_length_le
  rw [List.length_append, le_length]; have := m.len; omega

/-- the call the writer is inside -/
def callOf : WLoc (PushCall one) Bool → Option (PushCall one)
  | .run c _ => some c
  | .copy c _ _ _ _ _ => some c
  | _ => none

theorem callOf_step (h1 : 0 < one.toNat) {s t : FixedSpsc.Conf one} (h : FixedSpsc.Reach one t)
    (st : Spsc.Step (push one) (pop one) s t) (hi : s.w ≠ .idle)
    (hw : t.whist = s.whist) : callOf t.w = callOf s.w ∧ t.w ≠ .idle := by
  have hc := FixedSpsc.no_crash h1 h
  cases st with
  | wcall c e => exact absurd e hi
  | wret e => simp at hw
  | wabort e => exact absurd rfl hc.2.1
  | wavail e => simp [e, callOf]
  | wskip e => simp [e, callOf]
  | wbegin e => simp [e, callOf]
  | wcopy _ _ _ e => simp [e, callOf]
  | wub i e => exact absurd rfl hc.1
  | wpub e => simp [e, callOf]
  | rcall c e => exact ⟨rfl, hi⟩
  | rret e => exact ⟨rfl, hi⟩
  | rabort e => exact ⟨rfl, hi⟩
  | ravail e => exact ⟨rfl, hi⟩
  | rskip e => exact ⟨rfl, hi⟩
  | rbegin e => exact ⟨rfl, hi⟩
  | rcopy _ _ e => exact ⟨rfl, hi⟩
  | rub _ e => exact ⟨rfl, hi⟩
  | rpub e => exact ⟨rfl, hi⟩

theorem rpc_step (h1 : 0 < one.toNat) {s t : FixedSpsc.Conf one} (h : FixedSpsc.Reach one t)
    (st : Spsc.Step (push one) (pop one) s t) (hi : s.r ≠ .idle)
    (hw : t.rhist = s.rhist) : t.r ≠ .idle := by
  have hc := FixedSpsc.no_crash h1 h
  cases st with
  | rcall c e => exact absurd e hi
  | rret e => simp at hw
  | rabort e => exact absurd rfl hc.2.2.2
  | rub _ e => exact absurd rfl hc.2.2.1
  | _ => first | exact hi | simp

/-- the pop in progress has seen an empty queue -/
def SawEmpty (r : RLoc Unit (Option (List Byte))) : Prop := ∃ c, r = .run c (.ret none)

/-- a pop starts seeing an empty queue only when everything pushed has been popped -/
theorem sawEmpty_step (h1 : 0 < one.toNat) {s t : FixedSpsc.Conf one} (h : FixedSpsc.Reach one s)
    (st : Spsc.Step (push one) (pop one) s t)
    (he : SawEmpty t.r) : SawEmpty s.r ∨ (pushed s.whist).length ≤ (popped s.rhist).length := by
  have iv' := (FixedSpsc.Reach.inv2 h1 (h.step st)).1
  obtain ⟨iv, F, hw, hr, hq, hm⟩ := h.inv2 h1
  obtain ⟨c', e'⟩ := he
  cases st with
  | rcall c e => simp [pop] at e'
  | rret e => simp at e'
  | rabort e => simp at e'
  | @ravail c k e =>
    right
    obtain ⟨hP, rfl⟩ := hr.inv_avail e
    rcases Nat.lt_or_ge (popped s.rhist).length (pushed s.whist).length with hlt | hge
    · exfalso
      have hA := hw.subset.2
      have hl : (popped s.rhist).length + 1 ≤ F.length := by have := hA.length_le; omega
      have hS := hw.sent_eq
      have hlen := FixedSpsc.flatten_len hm
      have hge : one.toNat * ((popped s.rhist).length + 1) ≤ one.toNat * F.length := Nat.mul_le_mul_left _ hl
      rw [Nat.mul_add] at hge
      simp only [FixedSpsc.popAvailK] at e'
      rw [if_neg] at e'
      · simp [FixedSpsc.popRead] at e'
      · rw [FixedSpsc.div_zero, iv.availRead, hS, hlen, hP]; omega
    · exact hge
  | @rskip c t pk len k e hc =>
    exfalso
    obtain ⟨rfl, rfl, rfl, rfl, e5, m, e6⟩ := hr.inv_read e
    have hS := hw.sent_eq
    rcases hc with hc | hc
    · rw [hc] at h1; simp at h1
    · have := congrArg BitVec.toNat hc
      have := FixedSpsc.next_fits hm e6
      rw [← hS] at this
      rw [iv.availRead] at *
      simp at *; omega
  | rbegin e => simp at e'
  | rcopy _ _ e => simp at e'
  | rub _ e => simp at e'
  | @rpub c t pk len k n done tgt e hd =>
    exfalso
    obtain ⟨rfl, rfl, rfl, rfl, rfl, e5, m, e6⟩ := hr.inv_copy e
    simp [FixedSpsc.popK] at e'
  | _ => exact .inl ⟨c', e'⟩

/-! ### The invariant -/

open Classical in
/-- a token the worker has taken and not yet turned into a popped message -/
noncomputable def credit (r : RLoc Unit (Option (List Byte))) : Wrk → Nat
  | .check => 1
  | .popping => if SawEmpty r then 0 else 1
  | _ => 0

/-- a message in the queue whose push has not returned -/
def pend : Prod one → List (List Byte)
  | .counting m => [m.body]
  | .posting m => [m.body]
  | _ => []

/-- counted already -/
def counted : Prod one → Nat
  | .posting _ => 1
  | _ => 0

def WPc (w : WLoc (PushCall one) Bool) (t : BitVec 64) : Prod one → Prop
  | .pushing m => callOf w = some (cache t m) ∧ w ≠ .idle
  | _ => w = .idle

def RPc (r : RLoc Unit (Option (List Byte))) : Wrk → Prop
  | .popping => r ≠ .idle
  | _ => r = .idle

/-- the loop is over -/
def Over (w : Wrk) : Prop := w = .leave ∨ w = .gone

/-- popped, token not yet compared -/
def gotList : Wrk → List (List Byte)
  | .got d => [d]
  | _ => []

/-- token compared, callback not yet entered -/
def passedList : Wrk → List (Nat × List Byte)
  | .passed k b => [(k, b)]
  | _ => []

/-- `J` = messages whose token was compared, `D` = those which passed -/
structure Seen (J : List (List Byte)) (mn : Nat) (D : List (Nat × List Byte)) : Prop where
  inc : D.Pairwise fun x y => x.1 < y.1
  get : ∀ x ∈ D, J[x.1]? = some (le 8 x.1 ++ x.2)
  all : ∀ k < J.length, (∃ b, (k, b) ∈ D) ∨ k < mn

def Guard (s : Sys one) : Prop := (pushed s.conf.whist).length + 1 < 2 ^ 64

structure Inv (s : Sys one) : Prop where
  reach : FixedSpsc.Reach one s.conf
  wpc : WPc s.conf.w s.counter s.prod
  rpc : RPc s.conf.r s.wrk
  acc : pushed s.conf.whist = encAll (accepted s.results ++ pend s.prod)
  num : s.counter.toNat = ((accepted s.results).length + counted s.prod) % 2 ^ 64
  cnt : ¬ Over s.wrk →
    (pushed s.conf.whist).length ≤ (popped s.conf.rhist).length + s.sem + credit s.conf.r s.wrk + (pend s.prod).length
  dst : s.dst ≠ .no → s.exit = true ∧ s.prod = .idle
  tok : s.dst = .posted → Over s.wrk ∨ s.wrk = .check ∨ 0 < s.sem
  fin : s.wrk = .gone → s.exit = true
  why : s.exit = true → s.wrk = .gone ∨ s.dst ≠ .no
  ord : Guard s → s.minTok.toNat ≤ s.counter.toNat ∧
    ∀ v, s.clr = some v → s.minTok.toNat ≤ v.toNat ∧ v.toNat ≤ s.counter.toNat
  seq : Guard s → ∃ J, popped s.conf.rhist = J ++ gotList s.wrk ∧
    Seen J s.minTok.toNat (s.delivered ++ passedList s.wrk)

theorem accepted_ok (r : List (Msg one × Code)) (m : Msg one) : accepted (r ++ [(m, .success)]) = accepted r ++ [m.body] := by
  simp [accepted]
theorem accepted_fail (r : List (Msg one × Code)) (m : Msg one) {a : Code} (h : a ≠ .success) :
    accepted (r ++ [(m, a)]) = accepted r := by simp [accepted, h]

theorem le_counter {t : BitVec 64} {n : Nat} (h : t.toNat = n % 2 ^ 64) : le 8 t.toNat = le 8 n := by
  rw [h]; exact le_mod 8 n

/-- what was popped is what was put in for the messages, in order -/
theorem Inv.stream (h1 : 0 < one.toNat) {s : Sys one} (h : Inv s) :
    popped s.conf.rhist <+: encAll (messages s) := by
  have := FixedSpsc.no_tearing h1 h.reach
  rw [h.acc] at this
  have hw := h.wpc
  have hn := h.num
  unfold messages
  cases hp : s.prod with
  | idle =>
    rw [hp] at hw this
    rw [show s.conf.w = .idle from hw] at this
    simpa [pend, FixedSpsc.Spec.inFlight, inProgress] using this
  | pushing m =>
    rw [hp] at hw this hn
    have e : FixedSpsc.Spec.inFlight s.conf.w = [le 8 (accepted s.results).length ++ m.body] := by
      obtain ⟨h1, _⟩ := hw
      rw [← le_counter (n := (accepted s.results).length) (by simpa [counted] using hn), ← cache_bytes]
      revert h1
      cases s.conf.w with
      | run c p => intro h1; simp [callOf] at h1; rw [h1]; rfl
      | copy c _ _ _ _ _ => intro h1; simp [callOf] at h1; rw [h1]; rfl
      | idle => intro h1; simp [callOf] at h1
      | ub => intro h1; simp [callOf] at h1
      | aborted => intro h1; simp [callOf] at h1
    rw [e] at this
    simpa [pend, inProgress, encAll_snoc] using this
  | counting m =>
    rw [hp] at hw this
    rw [show s.conf.w = .idle from hw] at this
    simpa [pend, FixedSpsc.Spec.inFlight, inProgress] using this
  | posting m =>
    rw [hp] at hw this
    rw [show s.conf.w = .idle from hw] at this
    simpa [pend, FixedSpsc.Spec.inFlight, inProgress] using this

theorem Inv.init {s : Sys one} (h : Init s) : Inv s := by
  obtain ⟨h1, h2, h3, h4, h5, h6, h7, h8, h9, h10, h11⟩ := h
  have hr := Spsc.Reach.init (bodyW := push one) (bodyR := pop one) h1
  obtain ⟨_, _, _, _, e1, e2, _, _, e3, e4⟩ := h1
  refine ⟨hr, ?_, ?_, ?_, ?_, ?_, ?_, ?_, ?_, ?_, ?_, ?_⟩
  · rw [h6]; exact e1
  · rw [h7]; exact e2
  · rw [e3, h10, h6]; rfl
  · rw [h4, h10, h6]; rfl
  · intro _; rw [e3]; simp [pushed]
  · simp [h9]
  · simp [h9]
  · simp [h7]
  · simp [h3]
  · intro _; simp [h5, h8]
  · intro _; rw [e4, h7, h11]
    exact ⟨[], rfl, by simp [passedList], by simp [passedList], by simp⟩

end Verif.FixedHandler
