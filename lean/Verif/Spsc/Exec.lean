import Verif.Spsc.Model
/-! A scheduler for concrete runs of the two-thread system (used only to exhibit reachable states). -/
namespace Verif.Spsc
open RingBuffer (takeMin availRead availWrite)
variable {CW RW CR RR : Type}

/-- a thread starts a call, or makes its next step (`i`: the byte to copy; out of range = finish the transfer) -/
inductive Act (CW CR : Type) where
  | wcall (c : CW)
  | w (i : Nat)
  | rcall (c : CR)
  | r (i : Nat)

def exec (bodyW : CW → WProg RW) (bodyR : CR → RProg RR) (s : Conf CW RW CR RR) : Act CW CR → Option (Conf CW RW CR RR)
  | .wcall c => match s.w with
    | .idle => some { s with w := .run c (bodyW c) }
    | _ => none
  | .w i => match s.w with
    | .run c (.ret a) => some { s with w := .idle, whist := s.whist ++ [(c, a)] }
    | .run c (.avail k) => some { s with w := .run c (k (availWrite s.ring)) }
    | .run c (.write src len k) =>
      if len = 0#32 ∨ availWrite s.ring = 0#32 then none
      else some { s with w := .copy c src len k (takeMin len (availWrite s.ring)) [] }
    | .copy c src len k n done =>
      if i < n.toNat then
        match src[i]? with
        | none => none
        | some b => match s.ring.buf.store (byteAddr s.ring.size s.ring.inp n i) [b] with
          | none => none
          | some m => some { s with ring := { s.ring with buf := m }, w := .copy c src len k n (i :: done) }
      else if ∀ i < n.toNat, i ∈ done then
        some { s with ring := { s.ring with inp := s.ring.inp + n }, w := .run c (k n),
                      wlog := s.wlog ++ [⟨src, len.toNat, n.toNat⟩] }
      else none
    | _ => none
  | .rcall c => match s.r with
    | .idle => some { s with r := .run c (bodyR c) }
    | _ => none
  | .r i => match s.r with
    | .run c (.ret a) => some { s with r := .idle, rhist := s.rhist ++ [(c, a)] }
    | .run c (.avail k) => some { s with r := .run c (k (availRead s.ring)) }
    | .run c (.read t pk len k) =>
      if len = 0#32 ∨ availRead s.ring = 0#32 then none
      else some { s with r := .copy c t pk len k (takeMin len (availRead s.ring)) [] (fun _ => 0) }
    | .copy c true pk len k n done tgt =>
      if i < n.toNat then
        match s.ring.buf[byteAddr s.ring.size s.ring.out n i]? with
        | none => none
        | some b => some { s with r := .copy c true pk len k n (i :: done) (fun j => if j = i then b else tgt j) }
      else if ∀ i < n.toNat, i ∈ done then
        some { s with ring := { s.ring with out := if pk then s.ring.out else s.ring.out + n },
                      r := .run c (k n ((List.range n.toNat).map tgt)),
                      rlog := s.rlog ++ [⟨true, pk, len.toNat, n.toNat, (List.range n.toNat).map tgt⟩] }
      else none
    | .copy c false pk len k n _ _ =>
        some { s with ring := { s.ring with out := if pk then s.ring.out else s.ring.out + n },
                      r := .run c (k n []), rlog := s.rlog ++ [⟨false, pk, len.toNat, n.toNat, []⟩] }
    | _ => none

theorem exec_sound {bodyW : CW → WProg RW} {bodyR : CR → RProg RR} {s t : Conf CW RW CR RR} {a : Act CW CR}
    (h : exec bodyW bodyR s a = some t) : Step bodyW bodyR s t := by
  cases a with
  | wcall c =>
    simp only [exec] at h
    split at h
    · next e => simp at h; subst h; exact .wcall c e
    · simp at h
  | rcall c =>
    simp only [exec] at h
    split at h
    · next e => simp at h; subst h; exact .rcall c e
    · simp at h
  | w i =>
    simp only [exec] at h
    split at h
    · next e => simp at h; subst h; exact .wret e
    · next e => simp at h; subst h; exact .wavail e
    · next e =>
      split at h
      · simp at h
      · next hc => simp only [Option.some.injEq] at h; subst h; exact .wbegin e hc
    · next e =>
      split at h
      · next hi =>
        split at h
        · simp at h
        · next hb =>
          split at h
          · simp at h
          · next hm => simp only [Option.some.injEq] at h; subst h; exact .wcopy _ _ _ e hi hb hm
      · split at h
        · next hd => simp only [Option.some.injEq] at h; subst h; exact .wpub e hd
        · simp at h
    · simp at h
  | r i =>
    simp only [exec] at h
    split at h
    · next e => simp at h; subst h; exact .rret e
    · next e => simp at h; subst h; exact .ravail e
    · next e =>
      split at h
      · simp at h
      · next hc => simp only [Option.some.injEq] at h; subst h; exact .rbegin e hc
    · next e =>
      split at h
      · next hi =>
        split at h
        · simp at h
        · next hb => simp only [Option.some.injEq] at h; subst h; exact .rcopy _ _ e hi hb
      · split at h
        · next hd => simp only [Option.some.injEq] at h; subst h; exact .rpub e (fun _ => hd)
        · simp at h
    · next e => simp only [Option.some.injEq] at h; subst h; exact .rpub e (fun x => by simp at x)
    · simp at h

def execs (bodyW : CW → WProg RW) (bodyR : CR → RProg RR) (s : Conf CW RW CR RR) :
    List (Act CW CR) → Option (Conf CW RW CR RR)
  | [] => some s
  | a :: as => (exec bodyW bodyR s a).bind fun s => execs bodyW bodyR s as

theorem execs_reach {bodyW : CW → WProg RW} {bodyR : CR → RProg RR} {s t : Conf CW RW CR RR} {as : List (Act CW CR)}
    (hs : Reach bodyW bodyR s) (h : execs bodyW bodyR s as = some t) : Reach bodyW bodyR t := by
  induction as generalizing s with
  | nil => simp [execs] at h; subst h; exact hs
  | cons a as ih =>
    simp only [execs, Option.bind_eq_some_iff] at h
    obtain ⟨u, h1, h2⟩ := h
    exact ih (hs.step (exec_sound h1)) h2

end Verif.Spsc
