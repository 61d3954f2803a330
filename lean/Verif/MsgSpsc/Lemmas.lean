import Verif.MsgSpsc.Spec
import Verif.MsgQueue.Lemmas
import Verif.Spsc.Props
/-! Invariant of the two-thread message queue. -/
namespace Verif.MsgSpsc
open RingBuffer (Ring availRead availWrite takeMin)
open MsgQueue (Code encHdr decHdr enc)
open Spsc (WProg RProg WLoc RLoc)
open Spsc.Spec (sent consumed)
open Spec (pushed popped inFlight)

def frames (l : List (List Byte)) : List Byte := l.flatMap enc

theorem frames_append (a b : List (List Byte)) : frames (a ++ b) = frames a ++ frames b := by simp [frames]
theorem frames_single (m : List Byte) : frames [m] = enc m := by simp [frames]
theorem frames_cons (m : List Byte) (b) : frames (m :: b) = enc m ++ frames b := by simp [frames]
theorem frames_prefix {a b : List (List Byte)} (h : a <+: b) : frames a <+: frames b := by
  obtain ⟨t, rfl⟩ := h; exact ⟨frames t, (frames_append a t).symm⟩

theorem bytes_length (c : PushCall) : c.bytes.length = c.size.toNat := by
  have := c.ok; simp [PushCall.bytes]; omega
theorem enc_bytes (c : PushCall) : enc c.bytes = encHdr c.size ++ c.bytes := by
  unfold enc; rw [bytes_length]; simp
theorem enc_length (m : List Byte) : (enc m).length = 4 + m.length := by simp [enc]

inductive WPhase (cap : Nat) (A : List (List Byte)) (S : List Byte) (P : Nat) :
    WLoc PushCall Code → List (List Byte) → Prop where
  | idle : S = frames A → WPhase cap A S P .idle A
  | start (c) : S = frames A → WPhase cap A S P (.run c (push c)) A
  | fail (c code) : code ≠ .success → S = frames A → WPhase cap A S P (.run c (.ret code)) A
  | hdr (c) : S = frames A → S.length + 4 + c.size.toNat ≤ P + cap → c.size ≠ 0#32 →
      WPhase cap A S P (.run c (pushHdr c)) A
  | hdrCopy (c done) : S = frames A → S.length + 4 + c.size.toNat ≤ P + cap → c.size ≠ 0#32 →
      WPhase cap A S P (.copy c (encHdr c.size) 4#32 (pushHdrK c) 4#32 done) A
  | body (c) : S = frames A ++ encHdr c.size → S.length + c.size.toNat ≤ P + cap → c.size ≠ 0#32 →
      WPhase cap A S P (.run c (pushBody c)) (A ++ [c.bytes])
  | bodyCopy (c done) : S = frames A ++ encHdr c.size → S.length + c.size.toNat ≤ P + cap → c.size ≠ 0#32 →
      WPhase cap A S P (.copy c c.msg c.size (pushBodyK c) c.size done) (A ++ [c.bytes])
  | ok (c) : S = frames (A ++ [c.bytes]) → WPhase cap A S P (.run c (.ret .success)) (A ++ [c.bytes])

section
variable {cap : Nat} {A : List (List Byte)} {S : List Byte} {P : Nat} {w : WLoc PushCall Code} {F : List (List Byte)}

theorem WPhase.prefix (h : WPhase cap A S P w F) : S <+: frames F := by
  cases h with
  | idle h => rw [h]; exact List.prefix_refl _
  | start c h => rw [h]; exact List.prefix_refl _
  | fail c code _ h => rw [h]; exact List.prefix_refl _
  | hdr c h => rw [h]; exact List.prefix_refl _
  | hdrCopy c d h => rw [h]; exact List.prefix_refl _
  | body c h => rw [h, frames_append, frames_single, enc_bytes]; exact ⟨c.bytes, by simp⟩
  | bodyCopy c d h => rw [h, frames_append, frames_single, enc_bytes]; exact ⟨c.bytes, by simp⟩
  | ok c h => rw [h]; exact List.prefix_refl _

theorem WPhase.mono {P' : Nat} (h : WPhase cap A S P w F) (hp : P ≤ P') : WPhase cap A S P' w F := by
  cases h with
  | idle h => exact .idle h
  | start c h => exact .start c h
  | fail c code e h => exact .fail c code e h
  | hdr c h h1 h2 => exact .hdr c h (by omega) h2
  | hdrCopy c d h h1 h2 => exact .hdrCopy c d h (by omega) h2
  | body c h h1 h2 => exact .body c h (by omega) h2
  | bodyCopy c d h h1 h2 => exact .bodyCopy c d h (by omega) h2
  | ok c h => exact .ok c h

theorem WPhase.subset (h : WPhase cap A S P w F) : F <+: A ++ inFlight w ∧ A <+: F := by
  cases h <;> simp [inFlight]

theorem WPhase.inv_idle (h : WPhase cap A S P w F) (hw : w = .idle) : F = A ∧ S = frames A := by
  cases h <;> first | (exact ⟨rfl, by assumption⟩) | simp at hw

theorem WPhase.inv_ret {c a} (h : WPhase cap A S P w F) (hw : w = .run c (.ret a)) :
    (a = .success ∧ F = A ++ [c.bytes] ∧ S = frames F) ∨ (a ≠ .success ∧ F = A ∧ S = frames A) := by
  cases h with
  | idle h => simp at hw
  | start c h =>
    right
    simp only [WLoc.run.injEq] at hw
    obtain ⟨rfl, hw⟩ := hw
    unfold push at hw
    split at hw
    · simp at hw; exact ⟨by rw [← hw]; simp, rfl, h⟩
    · simp at hw
  | fail c code e h => simp at hw; right; exact ⟨by rw [← hw.2]; exact e, rfl, h⟩
  | hdr c h => simp [pushHdr] at hw
  | hdrCopy c d h => simp at hw
  | body c h => simp [pushBody] at hw
  | bodyCopy c d h => simp at hw
  | ok c h => simp at hw; left; rw [← hw.1, hw.2]; exact ⟨rfl, rfl, h⟩

theorem WPhase.inv_abort {c} (h : WPhase cap A S P w F) (hw : w = .run c .abort) : False := by
  cases h with
  | start c h =>
    simp only [WLoc.run.injEq] at hw
    obtain ⟨rfl, hw⟩ := hw
    unfold push at hw
    split at hw <;> simp at hw
  | idle h => simp at hw
  | fail c code e h => simp at hw
  | hdr c h => simp [pushHdr] at hw
  | hdrCopy c d h => simp at hw
  | body c h => simp [pushBody] at hw
  | bodyCopy c d h => simp at hw
  | ok c h => simp at hw

theorem WPhase.inv_avail {c k} (h : WPhase cap A S P w F) (hw : w = .run c (.avail k)) :
    F = A ∧ S = frames A ∧ k = pushAvailK c ∧ c.size ≠ 0#32 := by
  cases h with
  | start c h =>
    simp only [WLoc.run.injEq] at hw
    obtain ⟨rfl, hw⟩ := hw
    unfold push at hw
    split at hw
    · simp at hw
    · next hz => simp at hw; exact ⟨rfl, h, hw.symm, hz⟩
  | idle h => simp at hw
  | fail c code e h => simp at hw
  | hdr c h => simp [pushHdr] at hw
  | hdrCopy c d h => simp at hw
  | body c h => simp [pushBody] at hw
  | bodyCopy c d h => simp at hw
  | ok c h => simp at hw

theorem WPhase.inv_write {c src len k} (h : WPhase cap A S P w F) (hw : w = .run c (.write src len k)) :
    (src = encHdr c.size ∧ len = 4#32 ∧ k = pushHdrK c ∧ F = A ∧ S = frames A ∧
      S.length + 4 + c.size.toNat ≤ P + cap ∧ c.size ≠ 0#32) ∨
    (src = c.msg ∧ len = c.size ∧ k = pushBodyK c ∧ F = A ++ [c.bytes] ∧ S = frames A ++ encHdr c.size ∧
      S.length + c.size.toNat ≤ P + cap ∧ c.size ≠ 0#32) := by
  cases h with
  | start c h =>
    simp only [WLoc.run.injEq] at hw
    obtain ⟨rfl, hw⟩ := hw
    unfold push at hw
    split at hw <;> simp at hw
  | idle h => simp at hw
  | fail c code e h => simp at hw
  | hdr c h h1 h2 =>
    simp [pushHdr] at hw
    obtain ⟨rfl, rfl, rfl, rfl⟩ := hw
    exact .inl ⟨rfl, rfl, rfl, rfl, h, h1, h2⟩
  | hdrCopy c d h => simp at hw
  | body c h h1 h2 =>
    simp [pushBody] at hw
    obtain ⟨rfl, rfl, rfl, rfl⟩ := hw
    exact .inr ⟨rfl, rfl, rfl, rfl, h, h1, h2⟩
  | bodyCopy c d h => simp at hw
  | ok c h => simp at hw

theorem WPhase.inv_copy {c src len k n done} (h : WPhase cap A S P w F) (hw : w = .copy c src len k n done) :
    (src = encHdr c.size ∧ len = 4#32 ∧ k = pushHdrK c ∧ n = 4#32 ∧ F = A ∧ S = frames A ∧
      S.length + 4 + c.size.toNat ≤ P + cap ∧ c.size ≠ 0#32) ∨
    (src = c.msg ∧ len = c.size ∧ k = pushBodyK c ∧ n = c.size ∧ F = A ++ [c.bytes] ∧
      S = frames A ++ encHdr c.size ∧ S.length + c.size.toNat ≤ P + cap ∧ c.size ≠ 0#32) := by
  cases h with
  | start c h => simp at hw
  | idle h => simp at hw
  | fail c code e h => simp at hw
  | hdr c h => simp at hw
  | hdrCopy c d h h1 h2 =>
    simp at hw
    obtain ⟨rfl, rfl, rfl, rfl, rfl, rfl⟩ := hw
    exact .inl ⟨rfl, rfl, rfl, rfl, rfl, h, h1, h2⟩
  | body c h => simp at hw
  | bodyCopy c d h h1 h2 =>
    simp at hw
    obtain ⟨rfl, rfl, rfl, rfl, rfl, rfl⟩ := hw
    exact .inr ⟨rfl, rfl, rfl, rfl, rfl, h, h1, h2⟩
  | ok c h => simp at hw
end

/-- the outcome of an unsuccessful pop: nothing there, or the next message is larger than the room offered -/
def RetFail (Q F : List (List Byte)) (c : BitVec 32) (res : PopRes) : Prop :=
  res.code = .empty ∨
    (res.code = .bufNotEnough ∧ c < res.room ∧ ∃ m, Q ++ [m] <+: F ∧ res.room.toNat = m.length)

theorem RetFail.mono {Q F F' : List (List Byte)} {c res} (h : RetFail Q F c res) (hF : F <+: F') :
    RetFail Q F' c res := by
  rcases h with h | ⟨h1, h2, m, h3, h4⟩
  · exact .inl h
  · exact .inr ⟨h1, h2, m, h3.trans hF, h4⟩

/-- Reader phases; `Q` = messages popped so far, `F` = messages pushed or being pushed. -/
inductive RPhase (Q F : List (List Byte)) (S : List Byte) (P : Nat) : RLoc (BitVec 32) PopRes → Prop where
  | idle : P = (frames Q).length → RPhase Q F S P .idle
  | start (c) : P = (frames Q).length → RPhase Q F S P (.run c (pop c))
  | fail (c res) : RetFail Q F c res → P = (frames Q).length →
      RPhase Q F S P (.run c (.ret res))
  | peek (c room a) : room = c → (∃ m, Q ++ [m] <+: F ∧ 4 + m.length ≤ a.toNat) → P = (frames Q).length → 5 ≤ a.toNat →
      P + a.toNat ≤ S.length →
      RPhase Q F S P (.run c (popPeek room a))
  | peekCopy (c room a done tgt) : room = c → (∃ m, Q ++ [m] <+: F ∧ 4 + m.length ≤ a.toNat) → P = (frames Q).length → 5 ≤ a.toNat → P + a.toNat ≤ S.length →
      RPhase Q F S P (.copy c true true 4#32 (popPeekK room a) 4#32 done tgt)
  | discard (c room hdr m) : P = (frames Q).length → Q ++ [m] <+: F → hdr.toNat = m.length →
      P + 4 + hdr.toNat ≤ S.length → hdr.toNat ≤ c.toNat → RPhase Q F S P (.run c (popDiscard room hdr))
  | discardCopy (c room hdr m done tgt) : P = (frames Q).length → Q ++ [m] <+: F → hdr.toNat = m.length →
      P + 4 + hdr.toNat ≤ S.length → hdr.toNat ≤ c.toNat →
      RPhase Q F S P (.copy c false false 4#32 (popDiscardK room hdr) 4#32 done tgt)
  | body (c room hdr m) : P = (frames Q).length + 4 → Q ++ [m] <+: F → hdr.toNat = m.length →
      P + hdr.toNat ≤ S.length → hdr.toNat ≤ c.toNat → RPhase Q F S P (.run c (popBody room hdr))
  | bodyCopy (c room hdr m done tgt) : P = (frames Q).length + 4 → Q ++ [m] <+: F → hdr.toNat = m.length →
      P + hdr.toNat ≤ S.length → hdr.toNat ≤ c.toNat →
      RPhase Q F S P (.copy c true false hdr (popBodyK room hdr) hdr done tgt)
  | ok (c d room) : P = (frames (Q ++ [d])).length → Q ++ [d] <+: F → d.length ≤ c.toNat →
      RPhase Q F S P (.run c (.ret ⟨.success, d, room⟩))

section
variable {Q F : List (List Byte)} {S : List Byte} {P : Nat} {r : RLoc (BitVec 32) PopRes}

theorem RPhase.mono {F' S'} (h : RPhase Q F S P r) (hF : F <+: F') (hS : S <+: S') : RPhase Q F' S' P r := by
  have hl := hS.length_le
  cases h with
  | idle h => exact .idle h
  | start c h => exact .start c h
  | fail c res h1 h => exact .fail c res (h1.mono hF) h
  | peek c room a e hx h1 h2 h3 =>
    obtain ⟨m, h4, h5⟩ := hx
    exact .peek c room a e ⟨m, h4.trans hF, h5⟩ h1 h2 (by omega)
  | peekCopy c room a d t e hx h1 h2 h3 =>
    obtain ⟨m, h4, h5⟩ := hx
    exact .peekCopy c room a d t e ⟨m, h4.trans hF, h5⟩ h1 h2 (by omega)
  | discard c room hdr m h1 h2 h3 h4 h5 => exact .discard c room hdr m h1 (h2.trans hF) h3 (by omega) h5
  | discardCopy c room hdr m d t h1 h2 h3 h4 h5 => exact .discardCopy c room hdr m d t h1 (h2.trans hF) h3 (by omega) h5
  | body c room hdr m h1 h2 h3 h4 h5 => exact .body c room hdr m h1 (h2.trans hF) h3 (by omega) h5
  | bodyCopy c room hdr m d t h1 h2 h3 h4 h5 => exact .bodyCopy c room hdr m d t h1 (h2.trans hF) h3 (by omega) h5
  | ok c d room h1 h2 h3 => exact .ok c d room h1 (h2.trans hF) h3

theorem RPhase.inv_idle (h : RPhase Q F S P r) (hw : r = .idle) : P = (frames Q).length := by
  cases h <;> first | assumption | simp at hw

theorem RPhase.inv_ret {c a} (h : RPhase Q F S P r) (hw : r = .run c (.ret a)) :
    (a.code = .success ∧ P = (frames (Q ++ [a.data])).length ∧ Q ++ [a.data] <+: F ∧ a.data.length ≤ c.toNat) ∨
    (RetFail Q F c a ∧ P = (frames Q).length) := by
  cases h with
  | idle h => simp at hw
  | start c h => simp [pop] at hw
  | fail c res h1 h => simp at hw; rw [← hw.1, ← hw.2]; exact .inr ⟨h1, h⟩
  | peek c room a e hx h1 h2 h3 => simp [popPeek] at hw
  | peekCopy c room a d t e hx h1 h2 h3 => simp at hw
  | discard c room hdr m h1 h2 h3 h4 h5 => simp [popDiscard] at hw
  | discardCopy c room hdr m d t h1 h2 h3 h4 h5 => simp at hw
  | body c room hdr m h1 h2 h3 h4 h5 => simp [popBody] at hw
  | bodyCopy c room hdr m d t h1 h2 h3 h4 h5 => simp at hw
  | ok c d room h1 h2 h3 => simp at hw; rw [← hw.2, ← hw.1]; exact .inl ⟨rfl, h1, h2, h3⟩

theorem RPhase.inv_abort {c} (h : RPhase Q F S P r) (hw : r = .run c .abort) : False := by
  cases h <;> simp [pop, popPeek, popDiscard, popBody] at hw

theorem RPhase.inv_avail {c k} (h : RPhase Q F S P r) (hw : r = .run c (.avail k)) :
    P = (frames Q).length ∧ k = popAvailK c := by
  cases h with
  | idle h => simp at hw
  | start c h => simp [pop] at hw; obtain ⟨rfl, rfl⟩ := hw; exact ⟨h, rfl⟩
  | fail c res h1 h => simp at hw
  | peek c room a e hx h1 h2 h3 => simp [popPeek] at hw
  | peekCopy c room a d t e hx h1 h2 h3 => simp at hw
  | discard c room hdr m h1 h2 h3 h4 h5 => simp [popDiscard] at hw
  | discardCopy c room hdr m d t h1 h2 h3 h4 h5 => simp at hw
  | body c room hdr m h1 h2 h3 h4 h5 => simp [popBody] at hw
  | bodyCopy c room hdr m d t h1 h2 h3 h4 h5 => simp at hw
  | ok c d room h1 h2 h3 => simp at hw

/-- common description of the three ring reads of a pop -/
def ReadCase (c : BitVec 32) (Q F : List (List Byte)) (S : List Byte) (P : Nat) (t pk : Bool) (len : BitVec 32)
    (k : BitVec 32 → List Byte → RProg PopRes) : Prop :=
  (∃ room a, t = true ∧ pk = true ∧ len = 4#32 ∧ k = popPeekK room a ∧ room = c ∧
    (∃ m, Q ++ [m] <+: F ∧ 4 + m.length ≤ a.toNat) ∧ P = (frames Q).length ∧ 5 ≤ a.toNat ∧
    P + a.toNat ≤ S.length) ∨
  (∃ room hdr m, t = false ∧ pk = false ∧ len = 4#32 ∧ k = popDiscardK room hdr ∧ P = (frames Q).length ∧
    Q ++ [m] <+: F ∧ hdr.toNat = m.length ∧ P + 4 + hdr.toNat ≤ S.length ∧ hdr.toNat ≤ c.toNat) ∨
  (∃ room m, t = true ∧ pk = false ∧ k = popBodyK room len ∧ P = (frames Q).length + 4 ∧
    Q ++ [m] <+: F ∧ len.toNat = m.length ∧ P + len.toNat ≤ S.length ∧ len.toNat ≤ c.toNat)

theorem RPhase.inv_read {c t pk len k} (h : RPhase Q F S P r) (hw : r = .run c (.read t pk len k)) :
    ReadCase c Q F S P t pk len k := by
  cases h with
  | idle h => simp at hw
  | start c h => simp [pop] at hw
  | fail c res h1 h => simp at hw
  | peek c room a e hx h1 h2 h3 =>
    simp [popPeek] at hw; obtain ⟨rfl, rfl, rfl, rfl, rfl⟩ := hw
    exact .inl ⟨room, a, rfl, rfl, rfl, rfl, e, hx, h1, h2, h3⟩
  | peekCopy c room a d t e hx h1 h2 h3 => simp at hw
  | discard c room hdr m h1 h2 h3 h4 h5 =>
    simp [popDiscard] at hw; obtain ⟨rfl, rfl, rfl, rfl, rfl⟩ := hw
    exact .inr (.inl ⟨room, hdr, m, rfl, rfl, rfl, rfl, h1, h2, h3, h4, h5⟩)
  | discardCopy c room hdr m d t h1 h2 h3 h4 h5 => simp at hw
  | body c room hdr m h1 h2 h3 h4 h5 =>
    simp [popBody] at hw; obtain ⟨rfl, rfl, rfl, rfl, rfl⟩ := hw
    exact .inr (.inr ⟨room, m, rfl, rfl, rfl, h1, h2, h3, h4, h5⟩)
  | bodyCopy c room hdr m d t h1 h2 h3 h4 h5 => simp at hw
  | ok c d room h1 h2 h3 => simp at hw

theorem RPhase.inv_copy {c t pk len k n done tgt} (h : RPhase Q F S P r) (hw : r = .copy c t pk len k n done tgt) :
    n = len ∧ ReadCase c Q F S P t pk len k := by
  cases h with
  | idle h => simp at hw
  | start c h => simp at hw
  | fail c res h1 h => simp at hw
  | peek c room a e hx h1 h2 h3 => simp at hw
  | peekCopy c room a d t e hx h1 h2 h3 =>
    simp at hw; obtain ⟨rfl, rfl, rfl, rfl, rfl, rfl, rfl, rfl⟩ := hw
    exact ⟨rfl, .inl ⟨room, a, rfl, rfl, rfl, rfl, e, hx, h1, h2, h3⟩⟩
  | discard c room hdr m h1 h2 h3 h4 h5 => simp at hw
  | discardCopy c room hdr m d t h1 h2 h3 h4 h5 =>
    simp at hw; obtain ⟨rfl, rfl, rfl, rfl, rfl, rfl, rfl, rfl⟩ := hw
    exact ⟨rfl, .inr (.inl ⟨room, hdr, m, rfl, rfl, rfl, rfl, h1, h2, h3, h4, h5⟩)⟩
  | body c room hdr m h1 h2 h3 h4 h5 => simp at hw
  | bodyCopy c room hdr m d t h1 h2 h3 h4 h5 =>
    simp at hw; obtain ⟨rfl, rfl, rfl, rfl, rfl, rfl, rfl, rfl⟩ := hw
    exact ⟨rfl, .inr (.inr ⟨room, m, rfl, rfl, rfl, h1, h2, h3, h4, h5⟩)⟩
  | ok c d room h1 h2 h3 => simp at hw

theorem ReadCase.toCopy {c t pk len k} (h : ReadCase c Q F S P t pk len k) (done tgt) :
    RPhase Q F S P (.copy c t pk len k len done tgt) := by
  rcases h with ⟨room, a, rfl, rfl, rfl, rfl, h⟩ | ⟨room, hdr, m, rfl, rfl, rfl, rfl, h⟩ | ⟨room, m, rfl, rfl, rfl, h⟩
  · exact .peekCopy _ _ _ _ _ h.1 h.2.1 h.2.2.1 h.2.2.2.1 h.2.2.2.2
  · exact .discardCopy _ _ _ m _ _ h.1 h.2.1 h.2.2.1 h.2.2.2.1 h.2.2.2.2
  · exact .bodyCopy _ _ _ m _ _ h.1 h.2.1 h.2.2.1 h.2.2.2.1 h.2.2.2.2

theorem ReadCase.len_le {c t pk len k} (h : ReadCase c Q F S P t pk len k) : P + len.toNat ≤ S.length := by
  rcases h with ⟨room, a, _, _, rfl, _, h⟩ | ⟨room, hdr, m, _, _, rfl, _, h⟩ | ⟨room, m, _, _, _, h⟩
  · show P + 4 ≤ _; omega
  · show P + 4 ≤ _; omega
  · omega

end

/-- the next message and its header -/
theorem next_msg {Q F : List (List Byte)} {S : List Byte} (hS : S <+: frames F) (hQ : Q <+: F)
    (hl : (frames Q).length + 4 ≤ S.length) :
    ∃ m, Q ++ [m] <+: F ∧ (S.drop (frames Q).length).take 4 = encHdr (BitVec.ofNat 32 m.length) := by
  obtain ⟨T, rfl⟩ := hQ
  cases T with
  | nil => have := hS.length_le; simp at this; omega
  | cons m T =>
    refine ⟨m, ⟨T, by simp⟩, ?_⟩
    obtain ⟨U, hU⟩ := hS
    have e : (S.drop (frames Q).length).take 4 = ((S ++ U).drop (frames Q).length).take 4 := by
      rw [List.drop_append_of_le_length (by omega), List.take_append_of_le_length (by simp; omega)]
    rw [e, hU, frames_append, List.drop_left, frames_cons, enc, List.append_assoc]
    exact List.take_left' (by simp)

theorem next_body {Q F : List (List Byte)} {S m : List Byte} (hS : S <+: frames F) (hQ : Q ++ [m] <+: F)
    (hl : (frames Q).length + 4 + m.length ≤ S.length) : (S.drop ((frames Q).length + 4)).take m.length = m := by
  obtain ⟨T, rfl⟩ := hQ
  obtain ⟨U, hU⟩ := hS
  have e : (S.drop ((frames Q).length + 4)).take m.length = ((S ++ U).drop ((frames Q).length + 4)).take m.length := by
    rw [List.drop_append_of_le_length (by omega), List.take_append_of_le_length (by simp; omega)]
  rw [e, hU, frames_append, frames_append, frames_single, ← List.drop_drop, List.append_assoc, List.drop_left, enc,
    List.append_assoc, List.drop_left' (by simp)]
  exact List.take_left' rfl

/-- when at least five unread bytes are visible, the first unread message is visible completely -/
theorem WPhase.whole {cap A S P w F} (h : WPhase cap A S P w F) {Q : List (List Byte)} (hQ : Q <+: F)
    (hP : P = (frames Q).length) (h5 : P + 5 ≤ S.length) :
    ∃ m, Q ++ [m] <+: F ∧ P + 4 + m.length ≤ S.length := by
  have aux : S = frames A → Q <+: A → ∃ m, Q ++ [m] <+: A ∧ P + 4 + m.length ≤ S.length := by
    rintro e ⟨T, rfl⟩
    cases T with
    | nil => have := congrArg List.length e; rw [List.append_nil] at this; omega
    | cons m T =>
      refine ⟨m, ⟨T, by simp⟩, ?_⟩
      rw [e, frames_append, frames_cons, List.length_append, List.length_append, enc_length]; omega
  have aux2 : ∀ c : PushCall, S = frames A ++ encHdr c.size → Q <+: A ++ [c.bytes] →
      ∃ m, Q ++ [m] <+: A ++ [c.bytes] ∧ P + 4 + m.length ≤ S.length := by
    intro c e hq
    rcases List.prefix_concat_iff.1 hq with rfl | ⟨T, rfl⟩
    · rw [e] at h5
      rw [hP, frames_append, frames_single] at h5
      simp [enc_length] at h5; omega
    · cases T with
      | nil =>
        have := congrArg List.length e
        simp only [List.append_nil, List.length_append, MsgQueue.encHdr_length] at this; omega
      | cons m T =>
        refine ⟨m, ⟨T ++ [c.bytes], by simp⟩, ?_⟩
        rw [e, frames_append, frames_cons]
        simp only [List.length_append, enc_length]; omega
  cases h with
  | idle h => exact aux h hQ
  | start c h => exact aux h hQ
  | fail c code _ h => exact aux h hQ
  | hdr c h => exact aux h hQ
  | hdrCopy c d h => exact aux h hQ
  | body c h => exact aux2 c h hQ
  | bodyCopy c d h => exact aux2 c h hQ
  | ok c h =>
    obtain ⟨T, hT⟩ := hQ
    cases T with
    | nil => simp at hT; rw [← hT] at h; have := congrArg List.length h; omega
    | cons m T =>
      refine ⟨m, ⟨T, by simpa using hT⟩, ?_⟩
      rw [h, ← hT, frames_append, frames_cons, List.length_append, List.length_append, enc_length]; omega

def PopOk (x : BitVec 32 × PopRes) : Prop :=
  (x.2.code = .success ∧ x.2.data.length ≤ x.1.toNat) ∨ x.2.code = .empty ∨ (x.2.code = .bufNotEnough ∧ x.1 < x.2.room)

def Inv2 (s : Conf) : Prop :=
  (∀ x ∈ s.rhist, PopOk x) ∧
  ∃ F, WPhase s.ring.size.toNat (pushed s.whist) (sent s.wlog) (consumed s.rlog) s.w F ∧
    RPhase (popped s.rhist) F (sent s.wlog) (consumed s.rlog) s.r ∧ popped s.rhist <+: F ∧
    ∀ m ∈ F, 0 < m.length ∧ 4 + m.length ≤ s.ring.size.toNat

theorem push_valid (c : PushCall) : (push c).Valid := by
  unfold push
  split
  · exact .ret _
  · refine .avail fun a => ?_
    unfold pushAvailK
    split
    · exact .ret _
    · refine .write (by simp) fun n => ?_
      unfold pushHdrK
      split
      · exact .abort
      · refine .write c.ok fun n => ?_
        unfold pushBodyK
        split
        · exact .abort
        · exact .ret _

theorem takeMin_eq {a b : BitVec 32} (h : a.toNat ≤ b.toNat) : takeMin a b = a := by
  apply BitVec.eq_of_toNat_eq; rw [RingBuffer.takeMin_toNat]; omega

theorem bv_ne_zero {a : BitVec 32} (h : a ≠ 0#32) : a.toNat ≠ 0 := by
  intro e; apply h; apply BitVec.eq_of_toNat_eq; rw [e]; rfl

theorem popped_fail {h : List (BitVec 32 × PopRes)} {c a} (ha : a.code ≠ .success) :
    popped (h ++ [(c, a)]) = popped h := by simp [popped, ha]
theorem popped_ok {h : List (BitVec 32 × PopRes)} {c a} (ha : a.code = .success) :
    popped (h ++ [(c, a)]) = popped h ++ [a.data] := by simp [popped, ha]
theorem pushed_fail {h : List (PushCall × Code)} {c a} (ha : a ≠ .success) :
    pushed (h ++ [(c, a)]) = pushed h := by simp [pushed, ha]
theorem pushed_ok {h : List (PushCall × Code)} {c a} (ha : a = .success) :
    pushed (h ++ [(c, a)]) = pushed h ++ [c.bytes] := by simp [pushed, ha]

theorem Inv2.step {s t : Conf} (h : Inv2 s) (iv : Spsc.Inv s) (st : Spsc.Step push pop s t) : Inv2 t := by
  have iv' := iv.step push_valid st
  obtain ⟨hh, F, hw, hr, hq, hm⟩ := h
  have hle := iv.le
  have hfit := iv.fit
  cases st with
  | wcall c e =>
    obtain ⟨rfl, hS⟩ := hw.inv_idle e
    exact ⟨hh, _, .start c hS, hr, hq, hm⟩
  | @wret c a e =>
    rcases hw.inv_ret e with ⟨e1, e2, e3⟩ | ⟨e1, e2, e3⟩
    · refine ⟨hh, F, ?_, hr, hq, hm⟩
      simp only [pushed_ok e1]
      rw [← e2]; exact .idle e3
    · subst e2
      refine ⟨hh, _, ?_, hr, hq, hm⟩
      simp only [pushed_fail e1]
      exact .idle e3
  | wabort e => exact (hw.inv_abort e).elim
  | @wavail c k e =>
    obtain ⟨e1, e2, e3, e4⟩ := hw.inv_avail e
    refine ⟨hh, F, ?_, hr, hq, hm⟩
    subst e3; subst e1
    simp only [pushAvailK]
    split
    · exact .fail c _ (by simp) e2
    · next hc =>
      rw [iv.availWrite] at hc
      exact .hdr c e2 (by omega) e4
  | @wskip c src len k e hc =>
    exfalso
    rcases hw.inv_write e with ⟨rfl, rfl, rfl, e4, e5, e6, e7⟩ | ⟨rfl, rfl, rfl, e4, e5, e6, e7⟩
    · rcases hc with hc | hc
      · simp at hc
      · have := congrArg BitVec.toNat hc
        rw [iv.availWrite] at this
        simp at this; omega
    · rcases hc with hc | hc
      · exact e7 hc
      · have := congrArg BitVec.toNat hc
        have := bv_ne_zero e7
        rw [iv.availWrite] at *
        simp at *; omega
  | @wbegin c src len k e hc =>
    refine ⟨hh, F, ?_, hr, hq, hm⟩
    rcases hw.inv_write e with ⟨rfl, rfl, rfl, e4, e5, e6, e7⟩ | ⟨rfl, rfl, rfl, e4, e5, e6, e7⟩
    · have hlen : (4#32).toNat ≤ (availWrite s.ring).toNat := by rw [iv.availWrite]; show 4 ≤ _; omega
      simp only [takeMin_eq hlen]
      rw [e4]
      exact .hdrCopy c [] e5 e6 e7
    · have hlen : c.size.toNat ≤ (availWrite s.ring).toNat := by rw [iv.availWrite]; omega
      simp only [takeMin_eq hlen]
      rw [e4]
      exact .bodyCopy c [] e5 e6 e7
  | @wcopy c src len k n done i b m e hi hb hst =>
    refine ⟨hh, F, ?_, hr, hq, hm⟩
    rcases hw.inv_copy e with ⟨rfl, rfl, rfl, rfl, e4, e5, e6, e7⟩ | ⟨rfl, rfl, rfl, rfl, e4, e5, e6, e7⟩
    · rw [e4]; exact .hdrCopy c _ e5 e6 e7
    · rw [e4]; exact .bodyCopy c _ e5 e6 e7
  | wub i e hi hb => exact iv'.w.elim
  | @wpub c src len k n done e hd =>
    have eS : ∀ (a : List Byte) (l n : Nat), sent (s.wlog ++ [⟨a, l, n⟩]) = sent s.wlog ++ a.take n := by
      intro a l n; rw [Spsc.sent_append, Spsc.sent_single]
    rcases hw.inv_copy e with ⟨rfl, rfl, rfl, rfl, e4, e5, e6, e7⟩ | ⟨rfl, rfl, rfl, rfl, e4, e5, e6, e7⟩
    · subst e4
      refine ⟨hh, pushed s.whist ++ [c.bytes], ?_, ?_, hq.trans (List.prefix_append _ _), ?_⟩
      · simp only [eS]
        have e8 : List.take (4#32).toNat (encHdr c.size) = encHdr c.size := List.take_of_length_le (by simp)
        rw [e8]
        have : pushHdrK c 4#32 = pushBody c := by simp [pushHdrK]
        rw [this]
        exact .body c (by rw [e5]) (by simp; omega) e7
      · simp only [eS]
        exact hr.mono (List.prefix_append _ _) (List.prefix_append _ _)
      · intro m hmm
        rcases List.mem_append.1 hmm with h1 | h1
        · exact hm m h1
        · simp at h1; rw [h1, bytes_length]; have := bv_ne_zero e7; exact ⟨by omega, show 4 + _ ≤ s.ring.size.toNat by omega⟩
    · refine ⟨hh, F, ?_, ?_, hq, hm⟩
      · simp only [eS]
        have : pushBodyK c c.size = .ret .success := by simp [pushBodyK]
        rw [this, e4]
        refine .ok c ?_
        rw [e5, frames_append, frames_single, enc_bytes, List.append_assoc]; rfl
      · simp only [eS]
        exact hr.mono (List.prefix_refl _) (List.prefix_append _ _)
  | rcall c e => exact ⟨hh, F, hw, .start c (hr.inv_idle e), hq, hm⟩
  | @rret c a e =>
    rcases hr.inv_ret e with ⟨e1, e2, e3, e4⟩ | ⟨e1, e2⟩
    · refine ⟨?_, F, hw, ?_, ?_, hm⟩
      · intro x hx
        rcases List.mem_append.1 hx with hx | hx
        · exact hh x hx
        · simp at hx; rw [hx]; exact .inl ⟨e1, e4⟩
      · simp only [popped_ok e1]; exact .idle e2
      · simp only [popped_ok e1]; exact e3
    · have e0 : a.code ≠ .success := by
        rcases e1 with e1 | ⟨e1, _, _⟩ <;> rw [e1] <;> simp
      refine ⟨?_, F, hw, ?_, ?_, hm⟩
      · intro x hx
        rcases List.mem_append.1 hx with hx | hx
        · exact hh x hx
        · simp at hx; rw [hx]
          rcases e1 with e1 | ⟨e1, e2, _⟩
          · exact .inr (.inl e1)
          · exact .inr (.inr ⟨e1, e2⟩)
      · simp only [popped_fail e0]; exact .idle e2
      · simp only [popped_fail e0]; exact hq
  | rabort e => exact (hr.inv_abort e).elim
  | @ravail c k e =>
    obtain ⟨e1, rfl⟩ := hr.inv_avail e
    refine ⟨hh, F, hw, ?_, hq, hm⟩
    simp only [popAvailK]
    split
    · exact .fail c _ (.inl rfl) e1
    · next hc =>
      have ha := iv.availRead
      obtain ⟨m, m1, m2⟩ := hw.whole hq e1 (by omega)
      exact .peek c _ _ rfl ⟨m, m1, by omega⟩ e1 (by omega) (by omega)
  | @rskip c t pk len k e hc =>
    have hcase := hr.inv_read e
    have hl := hcase.len_le
    have hc0 : len = 0#32 := by
      rcases hc with hc | hc
      · exact hc
      · have := congrArg BitVec.toNat hc
        rw [iv.availRead] at this
        apply BitVec.eq_of_toNat_eq
        simp at this ⊢; omega
    have ec : consumed (s.rlog ++ [⟨t, pk, len.toNat, 0, []⟩]) = consumed s.rlog := by
      rw [Spsc.consumed_append]; simp [consumed]
    refine ⟨hh, F, by simp only [ec]; exact hw, ?_, hq, hm⟩
    simp only [ec]
    rcases hcase with ⟨room, a, rfl, rfl, rfl, rfl, h⟩ | ⟨room, hdr, m, rfl, rfl, rfl, rfl, h⟩ |
      ⟨room, m, rfl, rfl, rfl, h1, h2, h3, h4, h5⟩
    · simp at hc0
    · simp at hc0
    · subst hc0
      have hm0 : m = [] := by
        rw [← List.length_eq_zero_iff]; simp at h3; omega
      subst hm0
      have : popBodyK room 0#32 0#32 [] = .ret ⟨.success, [], room⟩ := by simp [popBodyK]
      rw [this]
      refine .ok c [] room ?_ h2 (Nat.zero_le _)
      rw [h1, frames_append, frames_single, List.length_append, enc_length]; rfl
  | @rbegin c t pk len k e hc =>
    have hcase := hr.inv_read e
    have hl := hcase.len_le
    have : takeMin len (availRead s.ring) = len := takeMin_eq (by rw [iv.availRead]; omega)
    refine ⟨hh, F, hw, ?_, hq, hm⟩
    simp only [this]
    exact hcase.toCopy _ _
  | @rcopy c pk len k n done tgt i b e hi hb =>
    obtain ⟨rfl, hcase⟩ := hr.inv_copy e
    exact ⟨hh, F, hw, hcase.toCopy _ _, hq, hm⟩
  | rub i e hi hb => exact iv'.r.elim
  | @rpub c t pk len k n done tgt e hd =>
    obtain ⟨rfl, hcase⟩ := hr.inv_copy e
    have hreads := iv'.reads
    simp only [Spsc.ReadsFrom_append] at hreads
    obtain ⟨_, _, _, hdata, _⟩ := hreads
    simp only [Nat.zero_add] at hdata
    have hS := hw.prefix
    generalize (if t = true then List.map tgt (List.range n.toNat) else []) = data at *
    have ec : consumed (s.rlog ++ [⟨t, pk, n.toNat, n.toNat, data⟩]) = consumed s.rlog + if pk = true then 0 else n.toNat := by
      rw [Spsc.consumed_append]; simp [consumed]
    refine ⟨hh, F, by simp only [ec]; exact hw.mono (by omega), ?_, hq, hm⟩
    simp only [ec]
    rcases hcase with ⟨room, a, rfl, rfl, rfl, rfl, rfl, ⟨m', hp', hl'⟩, h1, h2, h3⟩ | ⟨room, hdr, m, rfl, rfl, rfl, rfl, h1, h2, h3, h4, h5⟩ |
      ⟨room, m, rfl, rfl, rfl, h1, h2, h3, h4, h5⟩
    · simp only [if_true, Nat.add_zero] at hdata ⊢
      obtain ⟨m, hp, henc⟩ := next_msg hS hq (by omega)
      rw [h1] at hdata
      have hd2 : data = encHdr (BitVec.ofNat 32 m.length) := by rw [hdata]; exact henc
      have hmm : m.length < 2 ^ 32 := by
        have := (hm m (hp.subset (by simp))).2; have : s.ring.size.toNat < 2 ^ 32 := s.ring.size.isLt; omega
      have hmt : (BitVec.ofNat 32 m.length).toNat = m.length := by simp; omega
      rw [hd2]
      simp only [popPeekK, ne_eq, not_true_eq_false, if_false, MsgQueue.dec_enc]
      have hmm' : m' = m := by
        have := List.prefix_of_prefix_length_le hp' hp (by simp)
        have := this.eq_of_length (by simp)
        simpa using this
      subst hmm'
      rw [if_neg (by omega)]
      split
      · next hlt => exact .fail room _ (.inr ⟨rfl, hlt, m', hp, hmt⟩) h1
      · next hb => exact .discard room room _ m' h1 hp hmt (by omega) (by simpa [BitVec.lt_def] using hb)
    · simp only [Bool.false_eq_true, if_false] at hdata ⊢
      have : popDiscardK room hdr 4#32 data = popBody room hdr := by simp [popDiscardK]
      rw [this]
      refine .body c room hdr m ?_ h2 h3 ?_ h5
      · rw [h1]; rfl
      · show _ + 4 + _ ≤ _; omega
    · simp only [if_true, Bool.false_eq_true, if_false] at hdata ⊢
      have hb := next_body hS h2 (by omega)
      rw [h1, h3, hb] at hdata
      have : popBodyK room n n data = .ret ⟨.success, m, room⟩ := by simp [popBodyK, hdata]
      rw [this]
      refine .ok c m room ?_ h2 (by omega)
      rw [frames_append, frames_single, List.length_append, enc_length]; omega

theorem Reach.inv2 {s : Conf} (h : Reach s) : Spsc.Inv s ∧ Inv2 s := by
  induction h with
  | init h =>
    refine ⟨Spsc.Inv.init h, by rw [h.2.2.2.2.2.2.2.2.2]; simp, [], ?_⟩
    obtain ⟨h1, h2, h3, h4, h5, h6, h7, h8, h9, h10⟩ := h
    rw [h5, h6, h7, h8, h9, h10]
    exact ⟨.idle rfl, .idle rfl, List.prefix_refl _, by simp⟩
  | step _ st ih => exact ⟨ih.1.step push_valid st, ih.2.step ih.1 st⟩

end Verif.MsgSpsc
