import Verif.Tso.Lemmas
import Verif.Tso.Exec
/-!
# C71: `RingBuffer` between one writer and one reader thread, on a machine with store buffers

`bodyW`/`bodyR` are arbitrary: the threads may run any calls built from the ring operations.  `Reach false` is total
store order (x86), `Reach true` lets the writer's stores to different locations overtake each other.
-/
namespace Verif.Tso
open RingBuffer (Ring takeMin availRead availWrite)
open Spsc (WProg RProg WLoc RLoc byteAddr plainW plainR)
open Spsc.Spec (sent consumed ReadsFrom received)
variable {CW RW CR RR : Type} {bodyW : CW → WProg RW} {bodyR : CR → RProg RR}

/-- **C71**: under total store order, whenever the stores of either thread reach memory, every completed read, peek or
discard obtained exactly the bytes of the stream sent so far at the reader's position; nothing was consumed that was
not sent, and no more than `capacity` bytes are ever accepted ahead of the reader. -/
theorem tso_reads_from_stream (hv : ∀ c, (bodyW c).Valid) {s : Conf CW RW CR RR} (h : Reach false bodyW bodyR s) :
    ReadsFrom (sent s.wlog) 0 s.rlog ∧ consumed s.rlog ≤ (sent s.wlog).length ∧
    (sent s.wlog).length - consumed s.rlog ≤ s.mem.size.toNat := by
  obtain ⟨PM, IM, i⟩ := h.inv hv
  have := i.le; have := i.inle; have := i.fit; have := i.rq.le
  exact ⟨i.reads, by omega, by omega⟩

/-- **C71**: if the reader only uses reads with a buffer (and peeks), the concatenation of what it received is a prefix
of the concatenation of what the writer's calls accepted. -/
theorem tso_received_prefix (hv : ∀ c, (bodyW c).Valid) {s : Conf CW RW CR RR} (h : Reach false bodyW bodyR s)
    (ht : ∀ d ∈ s.rlog, d.target = true) : received s.rlog <+: sent s.wlog := by
  obtain ⟨PM, IM, i⟩ := h.inv hv
  rw [(Spsc.received_of_reads i.reads ht).1]
  exact List.take_prefix _ _

/-- **C71**: neither thread ever touches memory outside the ring or its source object. -/
theorem tso_no_ub (hv : ∀ c, (bodyW c).Valid) {s : Conf CW RW CR RR} (h : Reach false bodyW bodyR s) :
    s.w ≠ .ub ∧ s.r ≠ .ub := by
  obtain ⟨PM, IM, i⟩ := h.inv hv
  refine ⟨fun e => ?_, fun e => ?_⟩
  · obtain ⟨m', _, hw⟩ := i.w; rw [e] at hw; exact hw
  · have := i.r; rw [e] at this; exact this

/-- **C71** (no race on the ring's bytes): while the reader copies, no byte it may load is the target of a store that is
still waiting in the writer's buffer. -/
theorem tso_no_pending_race (hv : ∀ c, (bodyW c).Valid) {s : Conf CW RW CR RR} (h : Reach false bodyW bodyR s)
    {c t pk len k n done tgt} (hr : s.r = .copy c t pk len k n done tgt) (j : Nat) (hj : j < n.toNat) {a b}
    (hq : WStore.byte a b ∈ s.wq) : a ≠ byteAddr s.mem.size s.rview.out n j := by
  obtain ⟨PM, IM, i⟩ := h.inv hv
  have hro := i.r; rw [hr] at hro
  obtain ⟨_, u1, _⟩ := hro
  rw [i.vis] at u1
  obtain ⟨m', hw, _⟩ := i.w
  obtain ⟨q, q1, q2, q3⟩ := hw.pending hq
  have h1 := i.rq.le; have h2 := i.inle; have h3 := i.fit
  have haddr : byteAddr s.mem.size s.rview.out n j = (consumed s.rlog + j) % s.mem.size.toNat :=
    Spsc.byteAddr_eq i.rInv s.rview.out n _ j i.rviewOut hj (show n.toNat ≤ s.mem.size.toNat by omega)
  rw [haddr, q3]
  exact (Spsc.mod_ne (by omega) (by omega)).symm

/-- **C71** (nor of a store the writer may still issue in the write it is in). -/
theorem tso_no_byte_race (hv : ∀ c, (bodyW c).Valid) {s : Conf CW RW CR RR} (h : Reach false bodyW bodyR s)
    {c src len k n done c' t pk len' k' n' done' tgt} (hw : s.w = .copy c src len k n done)
    (hr : s.r = .copy c' t pk len' k' n' done' tgt) (i j : Nat) (hi : i < n.toNat) (hj : j < n'.toNat) :
    byteAddr s.mem.size s.wview.inp n i ≠ byteAddr s.mem.size s.rview.out n' j := by
  obtain ⟨PM, IM, iv⟩ := h.inv hv
  obtain ⟨m', hq, hwo⟩ := iv.w; rw [hw] at hwo
  have hro := iv.r; rw [hr] at hro
  obtain ⟨_, _, _, v3, _⟩ := hwo
  obtain ⟨_, u1, _⟩ := hro
  rw [iv.vis] at u1
  simp only at v3
  have h1 := iv.rq.le; have h2 := iv.inle; have h3 := iv.fit
  have e1 : byteAddr s.mem.size s.wview.inp n i = ((sent s.wlog).length + i) % s.mem.size.toNat :=
    Spsc.byteAddr_eq iv.wInv s.wview.inp n _ i iv.wviewIn hi (show n.toNat ≤ s.mem.size.toNat by omega)
  have e2 : byteAddr s.mem.size s.rview.out n' j = (consumed s.rlog + j) % s.mem.size.toNat :=
    Spsc.byteAddr_eq iv.rInv s.rview.out n' _ j iv.rviewOut hj (show n'.toNat ≤ s.mem.size.toNat by omega)
  rw [e1, e2]
  exact (Spsc.mod_ne (by omega) (by omega)).symm

/-- **C71** (nothing lost): once both store buffers have drained, the ring in memory holds exactly the bytes sent and
not yet consumed, even in the middle of a call. -/
theorem tso_drained_holds_rest (hv : ∀ c, (bodyW c).Valid) {s : Conf CW RW CR RR} (h : Reach false bodyW bodyR s)
    (hw : s.wq = []) (hr : s.rq = []) : RingBuffer.abs s.mem = (sent s.wlog).drop (consumed s.rlog) := by
  obtain ⟨PM, IM, i⟩ := h.inv hv
  have hrq := i.rq; rw [hr] at hrq
  obtain ⟨m', hwq, _⟩ := i.w; rw [hw] at hwq
  obtain ⟨rfl, eI⟩ := hwq
  have eP : PM = consumed s.rlog := hrq
  have ev : s.rview = s.mem := by unfold Conf.rview; rw [hr]; rfl
  have ha := i.availRead; rw [ev] at ha
  have hle := i.le
  unfold RingBuffer.abs
  rw [ha]
  apply List.ext_getElem?
  intro q
  by_cases hq : q < IM - consumed s.rlog
  · have hwin := i.win (consumed s.rlog + q) (by omega) (by omega)
    have hdvd : s.mem.size.toNat ∣ 2 ^ 32 := i.wInv.dvd
    have hm : (s.mem.out.toNat + q) % s.mem.size.toNat = (consumed s.rlog + q) % s.mem.size.toNat := by
      rw [← Nat.mod_add_mod, i.out, Nat.mod_mod_of_dvd _ hdvd, Nat.mod_add_mod, eP]
    rw [Mem.cyc_getElem? _ _ _ _ _ hq, hm, List.getElem?_drop, ← hwin]
    have h2 : 2 ≤ s.mem.size.toNat := i.wInv.pos
    have hlt : (consumed s.rlog + q) % s.mem.size.toNat < s.mem.buf.length :=
      Nat.lt_of_lt_of_le (Nat.mod_lt _ (by omega)) i.hlen
    rw [List.getElem?_eq_getElem hlt, List.getD_eq_getElem?_getD, List.getElem?_eq_getElem hlt]
    rfl
  · rw [List.getElem?_eq_none (by simp; omega), List.getElem?_eq_none (by simp; omega)]

/-! ## The machine contains sequential consistency -/

/-- a state of the sequentially consistent system, nothing pending -/
def embed (s : Spsc.Conf CW RW CR RR) : Conf CW RW CR RR :=
  ⟨s.ring, [], [], s.w, s.r, s.wlog, s.rlog, s.whist, s.rhist⟩

/-- **C71** (more behaviour than `Verif.Spsc`, not less): every state the sequentially consistent system reaches is
reached here too, by draining every store at once. -/
theorem sc_is_tso {pso : Bool} {s : Spsc.Conf CW RW CR RR} (h : Spsc.Reach bodyW bodyR s) :
    Reach pso bodyW bodyR (embed s) := by
  induction h with
  | init h =>
    obtain ⟨h1, h2, h3, h4, h5, h6, h7, h8, h9, h10⟩ := h
    exact .init ⟨h1, h2, h3, h4, rfl, rfl, h5, h6, h7, h8, h9, h10⟩
  | @step s t _ st ih =>
    cases st with
    | wcall c hw => exact ih.step (.wcall c hw)
    | wret hw => exact ih.step (.wret hw)
    | wabort hw => exact ih.step (.wabort hw)
    | wavail hw => exact ih.step (.wavail hw)
    | wskip hw hc => exact ih.step (.wskip hw hc)
    | wbegin hw hc => exact ih.step (.wbegin hw hc)
    | @wcopy c src len k n done i b m hw hi hb hm =>
      have e : m = s.ring.buf.set (byteAddr s.ring.size s.ring.inp n i) b := by
        obtain ⟨a1, a2, a3⟩ := Spsc.store_single hm
        apply List.ext_getElem?
        intro j
        rw [a3, List.getElem?_set]
        by_cases hj : j = byteAddr s.ring.size s.ring.inp n i
        · rw [if_pos hj, if_pos hj.symm, if_pos a1]
        · rw [if_neg hj, if_neg (fun x => hj x.symm)]
      have h1 := ih.step (.wcopy i b hw hi hb (Spsc.store_single hm).1)
      have h2 := h1.step (.wdrain [] _ [] rfl (.inl rfl))
      subst e
      exact h2
    | wub i hw hi hb =>
      refine ih.step (.wub i hw hi ?_)
      rcases hb with hb | ⟨b, hb⟩
      · exact .inl hb
      · refine .inr ?_
        apply Nat.le_of_not_lt
        intro hlt
        have hlt' : byteAddr s.ring.size s.ring.inp _ i < s.ring.buf.length := hlt
        rw [Mem.store_eq_some (by simp; omega)] at hb
        simp at hb
    | wpub hw hd =>
      have h1 := ih.step (.wpub hw hd)
      have h2 := h1.step (.wdrain [] _ [] rfl (.inl rfl))
      exact h2
    | rcall c hw => exact ih.step (.rcall c hw)
    | rret hw => exact ih.step (.rret hw)
    | rabort hw => exact ih.step (.rabort hw)
    | ravail hw => exact ih.step (.ravail hw)
    | rskip hw hc => exact ih.step (.rskip hw hc)
    | rbegin hw hc => exact ih.step (.rbegin hw hc)
    | rcopy i b hw hi hb => exact ih.step (.rcopy i b hw hi hb)
    | rub i hw hi hb => exact ih.step (.rub i hw hi hb)
    | @rpub c t pk len k n done tgt hw hd =>
      have h1 := ih.step (.rpub hw hd)
      cases pk with
      | true => exact h1
      | false =>
        have h2 := h1.step (.rdrain (v := s.ring.out + n) (q := []) rfl)
        exact h2

/-! ## Concrete runs -/

/-- what a test can see of a state -/
def seen (s : Conf (List Byte) (BitVec 32) (BitVec 32) (BitVec 32 × List Byte)) :=
  (s.whist.map (·.2), s.rhist.map (·.2))

/-- a fresh 2-byte ring -/
def ring2 : Conf (List Byte) (BitVec 32) (BitVec 32) (BitVec 32 × List Byte) :=
  ⟨⟨0#32, 0#32, 2#32, [0xAA, 0xBB]⟩, [], [], .idle, .idle, [], [], [], []⟩

theorem ring2_reach (pso : Bool) : Reach pso plainW plainR ring2 :=
  .init ⟨rfl, rfl, ⟨1, by decide, by decide, rfl⟩, by decide, rfl, rfl, rfl, rfl, rfl, rfl, rfl, rfl⟩

/-- write [7]; its stores drain; write [8] and read 1 byte run, neither draining; then the writer finds the ring full
*and* the reader finds it empty. -/
def sbSched : List (Act (List Byte) (BitVec 32)) :=
  [.wcall [7], .w 0, .w 0, .w 1, .w 0, .wdrain 0, .wdrain 0,
   .wcall [8], .w 0, .w 0, .w 1, .w 0,
   .rcall 1#32, .r 0, .r 0, .r 1, .r 0,
   .wcall [9], .w 0, .w 0,
   .rcall 1#32, .r 0, .r 0]

/-- The buffers matter: a run in which, one byte having been written
and not read and one place being free, the writer is told the ring is full and the reader that it is empty, because
each still has its counter store in its buffer. The theorems above apply to it. -/
example : ∃ s, Reach false plainW plainR s ∧ seen s = ([1#32, 1#32, 0#32], [(1#32, [7]), (0#32, [])]) := by
  have h : (execs false plainW plainR ring2 sbSched).map seen =
      some ([1#32, 1#32, 0#32], [(1#32, [7]), (0#32, [])]) := by decide +kernel
  obtain ⟨s, hs, he⟩ := Option.map_eq_some_iff.1 h
  exact ⟨s, execs_reach (ring2_reach false) hs, he⟩

/-- write [7] with the store of `in` overtaking the store of the byte; the reader reads one byte -/
def psoSched : List (Act (List Byte) (BitVec 32)) :=
  [.wcall [7], .w 0, .w 0, .w 1, .wdrain 1, .rcall 1#32, .r 0, .r 0, .r 1, .r 0]

/-- **C71** (the guarantee needs store order): on a machine on which the store of `in` may become visible before the
stores of the bytes, a reader receives a byte that was never sent.  The code has no barrier that would prevent it. -/
theorem pso_garbage : ∃ s : Conf (List Byte) (BitVec 32) (BitVec 32) (BitVec 32 × List Byte),
    Reach true plainW plainR s ∧ sent s.wlog = [7] ∧ received s.rlog = [0xAA] ∧
    ¬ received s.rlog <+: sent s.wlog := by
  have h : (execs true plainW plainR ring2 psoSched).map (fun s => (sent s.wlog, received s.rlog)) =
      some ([7], [0xAA]) := by decide +kernel
  obtain ⟨s, hs, he⟩ := Option.map_eq_some_iff.1 h
  simp only [Prod.mk.injEq] at he
  refine ⟨s, execs_reach (ring2_reach true) hs, he.1, he.2, ?_⟩
  rw [he.1, he.2]; decide

end Verif.Tso
