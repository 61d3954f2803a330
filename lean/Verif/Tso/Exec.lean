import Verif.Tso.Model
/-! A scheduler for concrete runs of the two-thread system with store buffers (only to exhibit reachable states). -/
namespace Verif.Tso
open RingBuffer (takeMin availRead availWrite)
open Spsc (WProg RProg WLoc RLoc byteAddr)
variable {CW RW CR RR : Type}

/-- a thread starts a call, makes its next step (`i`: the byte to copy; out of range = finish the transfer), or a
pending store reaches memory (`i`: its index in the writer's buffer) -/
inductive Act (CW CR : Type) where
  | wcall (c : CW)
  | w (i : Nat)
  | wdrain (i : Nat)
  | rcall (c : CR)
  | r (i : Nat)
  | rdrain

def exec (pso : Bool) (bodyW : CW → WProg RW) (bodyR : CR → RProg RR) (s : Conf CW RW CR RR) :
    Act CW CR → Option (Conf CW RW CR RR)
  | .wcall c => match s.w with
    | .idle => some { s with w := .run c (bodyW c) }
    | _ => none
  | .w i => match s.w with
    | .run c (.ret a) => some { s with w := .idle, whist := s.whist ++ [(c, a)] }
    | .run c (.avail k) => some { s with w := .run c (k (availWrite s.wview)) }
    | .run c (.write src len k) =>
      if len = 0#32 ∨ availWrite s.wview = 0#32 then
        some { s with w := .run c (k 0#32), wlog := s.wlog ++ [⟨src, len.toNat, 0⟩] }
      else some { s with w := .copy c src len k (takeMin len (availWrite s.wview)) [] }
    | .copy c src len k n done =>
      if i < n.toNat then
        match src[i]? with
        | none => none
        | some b =>
          if byteAddr s.mem.size s.wview.inp n i < s.mem.buf.length then
            some { s with wq := s.wq ++ [.byte (byteAddr s.mem.size s.wview.inp n i) b],
                          w := .copy c src len k n (i :: done) }
          else none
      else if ∀ i < n.toNat, i ∈ done then
        some { s with wq := s.wq ++ [.inp (s.wview.inp + n)], w := .run c (k n),
                      wlog := s.wlog ++ [⟨src, len.toNat, n.toNat⟩] }
      else none
    | _ => none
  | .wdrain i => match s.wq.drop i with
    | [] => none
    | st :: q₂ =>
      if s.wq.take i = [] ∨ pso = true ∧ ∀ x ∈ s.wq.take i, x.same st = false then
        some { s with mem := st.drain s.mem, wq := s.wq.take i ++ q₂ }
      else none
  | .rcall c => match s.r with
    | .idle => some { s with r := .run c (bodyR c) }
    | _ => none
  | .r i => match s.r with
    | .run c (.ret a) => some { s with r := .idle, rhist := s.rhist ++ [(c, a)] }
    | .run c (.avail k) => some { s with r := .run c (k (availRead s.rview)) }
    | .run c (.read t pk len k) =>
      if len = 0#32 ∨ availRead s.rview = 0#32 then
        some { s with r := .run c (k 0#32 []), rlog := s.rlog ++ [⟨t, pk, len.toNat, 0, []⟩] }
      else some { s with r := .copy c t pk len k (takeMin len (availRead s.rview)) [] (fun _ => 0) }
    | .copy c true pk len k n done tgt =>
      if i < n.toNat then
        match s.mem.buf[byteAddr s.mem.size s.rview.out n i]? with
        | none => none
        | some b => some { s with r := .copy c true pk len k n (i :: done) (fun j => if j = i then b else tgt j) }
      else if ∀ i < n.toNat, i ∈ done then
        some { s with rq := if pk then s.rq else s.rq ++ [s.rview.out + n],
                      r := .run c (k n ((List.range n.toNat).map tgt)),
                      rlog := s.rlog ++ [⟨true, pk, len.toNat, n.toNat, (List.range n.toNat).map tgt⟩] }
      else none
    | .copy c false pk len k n _ _ =>
        some { s with rq := if pk then s.rq else s.rq ++ [s.rview.out + n],
                      r := .run c (k n []), rlog := s.rlog ++ [⟨false, pk, len.toNat, n.toNat, []⟩] }
    | _ => none
  | .rdrain => match s.rq with
    | [] => none
    | v :: q => some { s with mem := { s.mem with out := v }, rq := q }

theorem exec_sound {pso : Bool} {bodyW : CW → WProg RW} {bodyR : CR → RProg RR} {s t : Conf CW RW CR RR}
    {a : Act CW CR} (h : exec pso bodyW bodyR s a = some t) : Step pso bodyW bodyR s t := by
  cases a with
  | wcall c =>
    simp only [exec] at h
    split at h
    · next e => simp at h; subst h; exact .wcall c e
    · simp at h
  | rcall c =>
    simp only [exec] at h
    split at h
    · next e => simp at h; subst h; exact .rcall c e
    · simp at h
  | wdrain i =>
    simp only [exec] at h
    split at h
    · simp at h
    · next st q₂ e =>
      split at h
      · next hc =>
        simp only [Option.some.injEq] at h; subst h
        exact .wdrain _ _ _ (by rw [← e, List.take_append_drop]) hc
      · simp at h
  | rdrain =>
    simp only [exec] at h
    split at h
    · simp at h
    · next e => simp only [Option.some.injEq] at h; subst h; exact .rdrain e
  | w i =>
    simp only [exec] at h
    split at h
    · next e => simp at h; subst h; exact .wret e
    · next e => simp at h; subst h; exact .wavail e
    · next e =>
      split at h
      · next hc => simp only [Option.some.injEq] at h; subst h; exact .wskip e hc
      · next hc => simp only [Option.some.injEq] at h; subst h; exact .wbegin e hc
    · next e =>
      split at h
      · next hi =>
        split at h
        · simp at h
        · next hb =>
          split at h
          · next hm => simp only [Option.some.injEq] at h; subst h; exact .wcopy _ _ e hi hb hm
          · simp at h
      · split at h
        · next hd => simp only [Option.some.injEq] at h; subst h; exact .wpub e hd
        · simp at h
    · simp at h
  | r i =>
    simp only [exec] at h
    split at h
    · next e => simp at h; subst h; exact .rret e
    · next e => simp at h; subst h; exact .ravail e
    · next e =>
      split at h
      · next hc => simp only [Option.some.injEq] at h; subst h; exact .rskip e hc
      · next hc => simp only [Option.some.injEq] at h; subst h; exact .rbegin e hc
    · next e =>
      split at h
      · next hi =>
        split at h
        · simp at h
        · next hb => simp only [Option.some.injEq] at h; subst h; exact .rcopy _ _ e hi hb
      · split at h
        · next hd => simp only [Option.some.injEq] at h; subst h; exact .rpub e (fun _ => hd)
        · simp at h
    · next e => simp only [Option.some.injEq] at h; subst h; exact .rpub e (fun x => by simp at x)
    · simp at h

def execs (pso : Bool) (bodyW : CW → WProg RW) (bodyR : CR → RProg RR) (s : Conf CW RW CR RR) :
    List (Act CW CR) → Option (Conf CW RW CR RR)
  | [] => some s
  | a :: as => (exec pso bodyW bodyR s a).bind fun s => execs pso bodyW bodyR s as

theorem execs_reach {pso : Bool} {bodyW : CW → WProg RW} {bodyR : CR → RProg RR} {s t : Conf CW RW CR RR}
    {as : List (Act CW CR)} (hs : Reach pso bodyW bodyR s) (h : execs pso bodyW bodyR s as = some t) :
    Reach pso bodyW bodyR t := by
  induction as generalizing s with
  | nil => simp [execs] at h; subst h; exact hs
  | cons a as ih =>
    simp only [execs, Option.bind_eq_some_iff] at h
    obtain ⟨u, h1, h2⟩ := h
    exact ih (hs.step (exec_sound h1)) h2

end Verif.Tso
