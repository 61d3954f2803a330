import Verif.WinSem.Threads
import Verif.Common.Mem

/-! # C70: deadlines and named semaphores -/
namespace Verif.WinSem
open Verif.Tot

/-! ## Deadlines

Specification: the deadline in units of 100 ns since the Unix epoch is `sec * 10^7 + nsec / 100`; the wait starts at
`ft - 116444736000000000` on that scale. -/

/-- **C70.** For a deadline at most 2^32 - 2 ms ahead the wait ends less than one millisecond before or after it. -/
theorem deadline_ms {sec nsec ft : Int} (hn0 : 0 ≤ nsec) (hf : 116444736000000000 ≤ ft)
    (hf1 : ft < 2 ^ 63) (h0 : ft - 116444736000000000 ≤ sec * 10000000 + nsec / 100)
    (h1 : sec * 10000000 + nsec / 100 ≤ ft - 116444736000000000 + 4294967294 * 10000) :
    ∃ w, relMs sec nsec ft = some w ∧
      (ft - 116444736000000000) + w * 10000 < sec * 10000000 + nsec / 100 + 10000 ∧
      sec * 10000000 + nsec / 100 < (ft - 116444736000000000) + w * 10000 + 10000 := by
  have e1 : nsec.tdiv 1000000 = nsec / 1000000 := Int.tdiv_eq_ediv_of_nonneg hn0
  have e2 : (ft - 116444736000000000).tdiv 10000 = (ft - 116444736000000000) / 10000 :=
    Int.tdiv_eq_ediv_of_nonneg (by omega)
  unfold relMs specMs nowMs
  simp only [e1, e2]
  rw [if_neg (by omega)]
  by_cases hb : sec * 1000 + nsec / 1000000 - (ft - 116444736000000000) / 10000 ≥ 4294967295
  · exfalso; omega
  · rw [if_neg (by omega)]
    refine ⟨_, rfl, ?_, ?_⟩ <;> omega

/-- **C70.** A deadline in the past does not wait. -/
theorem deadline_past {sec nsec ft : Int} (hn0 : 0 ≤ nsec) (hf : 116444736000000000 ≤ ft)
    (hf1 : ft < 2 ^ 63) (hs0 : 0 ≤ sec) (h0 : sec * 10000000 + nsec / 100 < ft - 116444736000000000) :
    relMs sec nsec ft = some 0 := by
  have e1 : nsec.tdiv 1000000 = nsec / 1000000 := Int.tdiv_eq_ediv_of_nonneg hn0
  have e2 : (ft - 116444736000000000).tdiv 10000 = (ft - 116444736000000000) / 10000 :=
    Int.tdiv_eq_ediv_of_nonneg (by omega)
  unfold relMs specMs nowMs
  simp only [e1, e2]
  rw [if_neg (by omega)]
  split
  · rfl
  · congr 1
    omega

/-- FINDING: nor does a deadline 2^32 ms (49.7 days) or more ahead: the call times out at once. -/
theorem deadline_far {sec nsec ft : Int} (hn0 : 0 ≤ nsec) (hn : nsec < 1000000000) (hf : 116444736000000000 ≤ ft)
    (hf1 : ft < 2 ^ 63) (hs : sec < 2 ^ 53) (h0 : ft - 116444736000000000 + 4294967296 * 10000 ≤ sec * 10000000 + nsec / 100) :
    relMs sec nsec ft = some 0 := by
  have e1 : nsec.tdiv 1000000 = nsec / 1000000 := Int.tdiv_eq_ediv_of_nonneg hn0
  have e2 : (ft - 116444736000000000).tdiv 10000 = (ft - 116444736000000000) / 10000 :=
    Int.tdiv_eq_ediv_of_nonneg (by omega)
  unfold relMs specMs nowMs
  simp only [e1, e2]
  rw [if_neg (by omega), if_pos (by omega)]

/-- **C70.** No deadline is turned into INFINITE (2^32 - 1): a timed wait never waits for ever. -/
theorem deadline_finite (sec nsec ft : Int) (w : Nat) (h : relMs sec nsec ft = some w) : w < 4294967295 := by
  unfold relMs at h
  simp only at h
  split at h
  · cases h
  · split at h
    · cases h; omega
    · next h2 =>
      simp only [Option.some.injEq] at h
      omega

example : relMs 1700000001 500000000 (116444736000000000 + 17000000000000000) = some 1500 := by decide +kernel
example : relMs 1705000000 0 (116444736000000000 + 17000000000000000) = some 0 := by decide +kernel

/-! ## Named semaphores -/

/-- The object a name stands for. -/
def full (s : List Byte) : List Byte := [71, 108, 111, 98, 97, 108, 92] ++ s

theorem buf_text {buf : Mem} (hb : buf.length = 512) {s : List Byte} (hl : s.length ≤ 504) :
    ((buf.store 0 global).bind fun b => (b.store 7 s).bind fun b => b.poke (s.length + 7) 0) =
      some (full s ++ 0 :: buf.drop (s.length + 8)) := by
  rw [Mem.store_eq_some (by simp [global]; omega), Option.bind_some]
  have e1 : buf.take 0 ++ global ++ buf.drop (0 + global.length) = global ++ buf.drop 7 := by simp [global]
  rw [e1, Mem.store_eq_some (by simp [global]; omega), Option.bind_some]
  have e2 : (global ++ buf.drop 7).take 7 ++ s ++ (global ++ buf.drop 7).drop (7 + s.length) = full s ++ buf.drop (s.length + 7) := by
    have h1 : (global ++ buf.drop 7).take 7 = global := by simp [global]
    have h2 : (global ++ buf.drop 7).drop (7 + s.length) = buf.drop (s.length + 7) := by
      rw [List.drop_append]
      simp [global]
      rw [Nat.add_comm, List.drop_of_length_le (by simp)]
      rfl
    rw [h1, h2]
    rfl
  rw [e2]
  unfold Mem.poke
  rw [if_pos (by simp [full]; omega)]
  congr 1
  rw [List.set_append, if_neg (by simp [full])]
  congr 1
  have e3 : s.length + 7 - (full s).length = 0 := by simp [full]
  rw [e3]
  cases hd : buf.drop (s.length + 7) with
  | nil => have := congrArg List.length hd; simp at this; omega
  | cons a l =>
    have : buf.drop (s.length + 8) = l := by
      rw [← List.drop_drop (i := 1) (j := s.length + 7), hd]; rfl
    rw [this]; rfl

theorem full_no0 {s : List Byte} (h0 : (0 : Byte) ∉ s) : (0 : Byte) ∉ full s := by
  simp [full]; exact h0

/-- **C70.** `sem_open_internal` never leaves its buffer: with a valid name it goes to the kernel with the name
prefixed by `Global\`; an empty name, one of more than 504 characters or a value above the maximum gives EINVAL and
leaves everything alone. -/
theorem open_eq {max : Nat} (ns : Ns) {buf : Mem} (hb : buf.length = 512) {s r : List Byte} (h0 : (0 : Byte) ∉ s) (creat excl : Bool)
    (value : Nat) (fail : Option Errno) :
    openInternal max ns buf (s ++ 0 :: r) creat excl value fail =
      if value > max ∨ s.length > 504 ∨ s = [] then some (ns, .error .einval)
      else match fail with
        | some e => some (ns, .error e)
        | none =>
          let c := ns.create (full s) value
          some (if c.2.2 then (if creat && excl then ((c.1.close c.2.1).1, .error .eexist) else (c.1, .ok c.2.1))
            else if creat then (c.1, .ok c.2.1) else (c.1, .error .enoent)) := by
  unfold openInternal
  by_cases hv : value > max
  · simp [hv]
  · simp only [hv, if_false, false_or]
    rw [Mem.cstr_zero h0]
    simp only [Option.bind_eq_bind, Option.bind_some]
    by_cases hl : s.length > 504 ∨ s = []
    · rw [if_pos hl, if_pos (by rcases hl with h | h <;> simp_all)]
      rfl
    · have hs : s ≠ [] := fun e => hl (.inr e)
      have hp : 0 < s.length := List.length_pos_iff.2 hs
      rw [if_neg hl, if_neg (by omega)]
      have hb2 := buf_text hb (s := s) (by omega)
      have hx : ∀ {β : Type} (k : Mem → Option β), ((buf.store 0 global).bind fun b => (b.store 7 s).bind fun b => (b.poke (s.length + 7) 0).bind k)
          = k (full s ++ 0 :: buf.drop (s.length + 8)) := by
        intro β k
        have := congrArg (fun o => Option.bind o k) hb2
        simpa [Option.bind_assoc] using this
      rw [hx, Mem.cstr_zero (full_no0 h0), Option.bind_some]
      cases fail with
      | some e => rfl
      | none =>
        simp only []
        cases creat <;> cases excl <;> cases (ns.create (full s) value).2.2 <;> rfl

/-- **C70.** With `O_CREAT` and a new name: the semaphore is created with the given value. -/
theorem open_new {max : Nat} {ns : Ns} {buf : Mem} (hb : buf.length = 512) {s : List Byte} (r : List Byte) (h0 : (0 : Byte) ∉ s)
    (h1 : s ≠ []) (h2 : s.length ≤ 504) (excl : Bool) {value : Nat} (hv : value ≤ max) (hn : ns.objs (full s) = none) :
    ∃ ns' h, openInternal max ns buf (s ++ 0 :: r) true excl value none = some (ns', .ok h) ∧
      ns'.handles h = some (full s) ∧ ns'.objs (full s) = some (value, 1) ∧ ∀ n, n ≠ full s → ns'.objs n = ns.objs n := by
  rw [open_eq ns hb h0, if_neg (by simp [h1]; omega)]
  simp only [Ns.create, hn]
  refine ⟨_, _, rfl, by simp, by simp [setObj], ?_⟩
  intro n h
  simp [setObj, h]

/-- **C70.** A name that exists, unless both `O_CREAT` and `O_EXCL` are given: the same semaphore with its current
count; the value argument has no effect. -/
theorem open_existing {max : Nat} {ns : Ns} {buf : Mem} (hb : buf.length = 512) {s : List Byte} (r : List Byte) (h0 : (0 : Byte) ∉ s)
    (h1 : s ≠ []) (h2 : s.length ≤ 504) {creat excl : Bool} {value : Nat} (hv : value ≤ max) {c k : Nat}
    (hn : ns.objs (full s) = some (c, k)) (hc : ¬ (creat = true ∧ excl = true)) :
    ∃ ns' h, openInternal max ns buf (s ++ 0 :: r) creat excl value none = some (ns', .ok h) ∧
      ns'.handles h = some (full s) ∧ ns'.objs (full s) = some (c, k + 1) ∧ ∀ n, n ≠ full s → ns'.objs n = ns.objs n := by
  rw [open_eq ns hb h0, if_neg (by simp [h1]; omega)]
  have hf : (creat && excl) = false := by cases creat <;> cases excl <;> simp_all
  simp only [Ns.create, hn, hf]
  refine ⟨_, _, rfl, by simp, by simp [setObj], ?_⟩
  intro n h
  simp [setObj, h]

/-- **C70.** `O_CREAT|O_EXCL` on a name that exists: EEXIST, and nothing has changed. -/
theorem open_excl {max : Nat} {ns : Ns} {buf : Mem} (hb : buf.length = 512) {s : List Byte} (r : List Byte) (h0 : (0 : Byte) ∉ s)
    (h1 : s ≠ []) (h2 : s.length ≤ 504) {value : Nat} (hv : value ≤ max) {c k : Nat} (hk : 0 < k)
    (hn : ns.objs (full s) = some (c, k)) (hh : ns.handles ns.next = none) :
    ∃ ns', openInternal max ns buf (s ++ 0 :: r) true true value none = some (ns', .error .eexist) ∧
      (∀ n, ns'.objs n = ns.objs n) ∧ ∀ h, ns'.handles h = ns.handles h := by
  rw [open_eq ns hb h0, if_neg (by simp [h1]; omega)]
  simp only [Ns.create, hn]
  refine ⟨_, rfl, ?_, ?_⟩
  · intro n
    simp only [Ns.close, upd_self, setObj]
    by_cases h : n = full s
    · subst h
      simp [hn]
      omega
    · simp [h]
  · intro h
    simp only [Ns.close, upd_self]
    by_cases e : h = ns.next
    · subst e; simp [hh]
    · rw [upd_other _ _ e, upd_other _ _ e]

/-- FINDING: without `O_CREAT` a name that does not exist gives ENOENT, but the semaphore has been created (and its
handle is lost): the same call made once more succeeds. -/
theorem enoent_creates {max : Nat} {ns : Ns} {buf : Mem} (hb : buf.length = 512) {s : List Byte} (r : List Byte) (h0 : (0 : Byte) ∉ s)
    (h1 : s ≠ []) (h2 : s.length ≤ 504) (excl : Bool) {value : Nat} (hv : value ≤ max) (hn : ns.objs (full s) = none) :
    ∃ ns' ns'' h, openInternal max ns buf (s ++ 0 :: r) false excl value none = some (ns', .error .enoent) ∧
      ns'.objs (full s) = some (value, 1) ∧
      openInternal max ns' buf (s ++ 0 :: r) false excl value none = some (ns'', .ok h) := by
  rw [open_eq ns hb h0, if_neg (by simp [h1]; omega)]
  simp only [Ns.create, hn]
  obtain ⟨ns'', h, e, _⟩ := open_existing (max := max) (value := value) (creat := false) (excl := excl) (c := value) (k := 1)
    (ns := { objs := setObj ns.objs (full s) (some (value, 1)), handles := upd ns.handles ns.next (some (full s)), next := ns.next + 1 })
    hb r h0 h1 h2 hv (by simp [setObj]) (by simp)
  exact ⟨_, ns'', h, rfl, by simp [setObj], e⟩

/-- **C70.** `sem_close`/`sem_destroy`: the semaphore lives until its last handle is closed, and only that one is
affected; a second close of the same handle fails with EINVAL. -/
theorem close_spec {ns : Ns} {h : Nat} {name : List Byte} {c k : Nat} (hh : ns.handles h = some name)
    (ho : ns.objs name = some (c, k)) :
    ∃ ns', semClose ns h = (ns', none) ∧ ns'.objs name = (if k ≤ 1 then none else some (c, k - 1)) ∧
      (∀ n, n ≠ name → ns'.objs n = ns.objs n) ∧ semClose ns' h = (ns', some .einval) := by
  unfold semClose Ns.close
  simp only [hh, ho]
  refine ⟨_, rfl, by simp [setObj], ?_, ?_⟩
  · intro n hn; simp [setObj, hn]
  · simp

/-! ### Counting handles -/

def isName (name : List Byte) : Option (List Byte) → Nat
  | some n => if n = name then 1 else 0
  | none => 0

/-- The kernel's bookkeeping: an object exists exactly while it has handles. -/
def Wf (ns : Ns) : Prop :=
  (∀ h, ns.next ≤ h → ns.handles h = none) ∧
  ∀ name, match ns.objs name with
    | some (_, k) => 0 < k ∧ tot ns.next (isName name) ns.handles = k
    | none => tot ns.next (isName name) ns.handles = 0

theorem wf_init : Wf Ns.init := ⟨fun _ _ => rfl, fun _ => rfl⟩

theorem wf_create {ns : Ns} (h : Wf ns) (name : List Byte) (value : Nat) : Wf (ns.create name value).1 := by
  have key : ∀ n, tot (ns.next + 1) (isName n) (upd ns.handles ns.next (some name)) =
      tot ns.next (isName n) ns.handles + (if name = n then 1 else 0) := by
    intro n
    rw [tot_succ, upd_self, tot_congr (g := ns.handles) (w' := isName n) (fun k hk => by rw [upd_other _ _ (by omega)])]
    rfl
  unfold Ns.create
  cases ho : ns.objs name with
  | none =>
    refine ⟨fun k hk => ?_, fun n => ?_⟩
    · simp only [] at hk ⊢
      rw [upd_other _ _ (by omega)]; exact h.1 k (by omega)
    · simp only [key]
      have := h.2 n
      by_cases e : n = name
      · subst e
        rw [ho] at this
        simp only [] at this
        simp [setObj, this]
      · simp only [setObj, if_neg e, if_neg (Ne.symm e), Nat.add_zero]
        exact this
  | some o =>
    obtain ⟨c, m⟩ := o
    refine ⟨fun k hk => ?_, fun n => ?_⟩
    · simp only [] at hk ⊢
      rw [upd_other _ _ (by omega)]; exact h.1 k (by omega)
    · simp only [key]
      have := h.2 n
      by_cases e : n = name
      · subst e
        rw [ho] at this
        simp only [] at this
        simp [setObj, this.2]
      · simp only [setObj, if_neg e, if_neg (Ne.symm e), Nat.add_zero]
        exact this

theorem wf_close {ns : Ns} (h : Wf ns) (hd : Nat) : Wf (ns.close hd).1 := by
  unfold Ns.close
  cases hh : ns.handles hd with
  | none => exact h
  | some name =>
    have hlt : hd < ns.next := by
      apply Classical.byContradiction
      intro hc
      rw [h.1 hd (by omega)] at hh
      simp at hh
    have key := fun n => tot_upd hlt (isName n) ns.handles none
    have hself : ∀ n, isName n (some name) = if name = n then 1 else 0 := fun n => rfl
    refine ⟨fun k hk => ?_, fun n => ?_⟩
    · simp only [] at hk ⊢
      by_cases e : k = hd
      · omega
      · rw [upd_other _ _ e]; exact h.1 k hk
    · have := h.2 n
      have kn := key n
      rw [hh, hself] at kn
      have hnone : isName n none = 0 := rfl
      rw [hnone] at kn
      by_cases e : n = name
      · subst e
        simp only [if_true] at kn
        simp only [setObj, if_true]
        cases ho : ns.objs n with
        | none =>
          rw [ho] at this
          simp only [] at this ⊢
          omega
        | some o =>
          obtain ⟨c, m⟩ := o
          rw [ho] at this
          simp only [] at this ⊢
          by_cases hm : m ≤ 1
          · rw [if_pos hm]; simp only []; omega
          · rw [if_neg hm]; simp only []; omega
      · rw [if_neg (fun x => e x.symm)] at kn
        simp only [setObj, if_neg e]
        have kn : tot ns.next (isName n) (upd ns.handles hd none) = tot ns.next (isName n) ns.handles := by omega
        rw [kn]
        exact this

/-- **C70.** Whatever semaphores are opened and closed, in whatever order and with whatever result, an object exists
exactly while a handle of it is open. -/
theorem wf_open {max : Nat} {ns : Ns} (h : Wf ns) {buf : Mem} (hb : buf.length = 512) {s : List Byte} (r : List Byte)
    (h0 : (0 : Byte) ∉ s) (creat excl : Bool) (value : Nat) (fail : Option Errno) :
    ∃ ns' res, openInternal max ns buf (s ++ 0 :: r) creat excl value fail = some (ns', res) ∧ Wf ns' := by
  rw [open_eq ns hb h0]
  split
  · exact ⟨_, _, rfl, h⟩
  · cases fail with
    | some e => exact ⟨_, _, rfl, h⟩
    | none =>
      have hc := wf_create h (full s) value
      simp only []
      cases (ns.create (full s) value).2.2 <;> cases creat <;> cases excl <;>
        first | exact ⟨_, _, rfl, hc⟩ | exact ⟨_, _, rfl, wf_close hc _⟩

theorem wf_semClose {ns : Ns} (h : Wf ns) (hd : Nat) : Wf (semClose ns hd).1 := by
  have := wf_close h hd
  unfold semClose
  cases hx : ns.close hd with
  | mk a b => rw [hx] at this; cases b <;> exact this

/-! ### `sem_init` -/

theorem hexUpper_inj : ∀ a < 16, ∀ b < 16, hexUpper a = hexUpper b → a = b := by decide
theorem hexUpper_ne0 : ∀ a < 16, hexUpper a ≠ 0 := by decide

theorem ptrText_length (k : Nat) : ∀ p, (ptrText k p).length = k := by
  induction k with
  | zero => intro p; rfl
  | succ k ih => intro p; simp [ptrText, ih]

theorem ptrText_no0 (k : Nat) : ∀ p, (0 : Byte) ∉ ptrText k p := by
  induction k with
  | zero => intro p; simp [ptrText]
  | succ k ih =>
    intro p
    simp only [ptrText, List.mem_append, List.mem_singleton, not_or]
    exact ⟨ih _, fun e => hexUpper_ne0 (p % 16) (Nat.mod_lt _ (by omega)) e.symm⟩

theorem ptrText_inj (k : Nat) : ∀ p q, p < 16 ^ k → q < 16 ^ k → ptrText k p = ptrText k q → p = q := by
  induction k with
  | zero => intro p q hp hq _; simp at hp hq; omega
  | succ k ih =>
    intro p q hp hq e
    simp only [ptrText] at e
    have h1 := List.append_inj e (by rw [ptrText_length, ptrText_length])
    have h2 := hexUpper_inj _ (Nat.mod_lt _ (by omega)) _ (Nat.mod_lt _ (by omega)) (List.cons.inj h1.2).1
    have h3 := ih (p / 16) (q / 16) (by rw [Nat.pow_succ] at hp; omega) (by rw [Nat.pow_succ] at hq; omega) h1.1
    omega

/-- The kernel name of an unnamed semaphore: made from its address. -/
def initName (p : BitVec 64) : List Byte := full (full (ptrText 16 p.toNat))

/-- **C70.** Semaphores at different addresses have different kernel names. -/
theorem initName_inj {p q : BitVec 64} (h : initName p = initName q) : p = q := by
  have h1 := List.append_cancel_left (List.append_cancel_left h)
  exact BitVec.eq_of_toNat_eq (ptrText_inj 16 _ _ p.isLt q.isLt h1)

theorem semInit_eq {max : Nat} (ns : Ns) {buf : Mem} (p : BitVec 64) {value : Nat} (hv : value ≤ max) (fail : Option Errno) :
    semInit max ns buf p value fail = openInternal max ns buf (full (ptrText 16 p.toNat) ++ 0 :: []) true true value fail := by
  unfold semInit
  rw [if_neg (by omega)]
  have hl : (global ++ ptrText 16 p.toNat).length = 23 := by simp [ptrText_length, global]
  unfold Mem.snprintf
  rw [if_neg (by omega), Mem.store_eq_some (by simp [hl])]
  have : (global ++ ptrText 16 p.toNat).take (24 - 1) = global ++ ptrText 16 p.toNat := List.take_of_length_le (by omega)
  simp only [this, Option.map_some, Option.bind_eq_bind, Option.bind_some]
  have e : List.take 0 (List.replicate 24 (0 : Byte)) ++ (global ++ ptrText 16 p.toNat ++ [0]) ++
      List.drop (0 + (global ++ ptrText 16 p.toNat ++ [0]).length) (List.replicate 24 (0 : Byte)) = full (ptrText 16 p.toNat) ++ 0 :: [] := by
    rw [List.drop_of_length_le (by simp [global, ptrText_length])]
    simp [full, global]
  rw [e]

/-- **C70.** `sem_init` on an address that is not in use creates a semaphore with the given value. -/
theorem semInit_new {max : Nat} {ns : Ns} {buf : Mem} (hb : buf.length = 512) (p : BitVec 64) {value : Nat} (hv : value ≤ max)
    (hn : ns.objs (initName p) = none) :
    ∃ ns' h, semInit max ns buf p value none = some (ns', .ok h) ∧ ns'.handles h = some (initName p) ∧
      ns'.objs (initName p) = some (value, 1) ∧ ∀ n, n ≠ initName p → ns'.objs n = ns.objs n := by
  rw [semInit_eq ns p hv]
  exact open_new hb [] (full_no0 (ptrText_no0 _ _)) (by simp [full]) (by simp [full, ptrText_length]) true hv hn

/-- FINDING: the name space is that of the whole machine, but an address is only unique in its process: if another
process has a semaphore at the same address, `sem_init` fails with EEXIST.  (So does initialising one twice.) -/
theorem semInit_clash {max : Nat} {ns : Ns} {buf : Mem} (hb : buf.length = 512) (p : BitVec 64) {value : Nat} (hv : value ≤ max)
    (hw : Wf ns) {c k : Nat} (hn : ns.objs (initName p) = some (c, k)) :
    ∃ ns', semInit max ns buf p value none = some (ns', .error .eexist) := by
  rw [semInit_eq ns p hv]
  have hk : 0 < k := by
    have := hw.2 (initName p)
    rw [hn] at this
    exact this.1
  obtain ⟨ns', h, _⟩ := open_excl (max := max) hb [] (full_no0 (ptrText_no0 16 p.toNat)) (by simp [full])
    (by simp [full, ptrText_length]) hv hk hn (hw.1 _ (Nat.le_refl _))
  exact ⟨ns', h⟩

/-- Open, open again, close, close: the object in between and afterwards. -/
def demoNs : Option (Option (Nat × Nat) × Option (Nat × Nat)) := do
  let (n1, r1) ← openInternal 2147483647 Ns.init (List.replicate 512 7) [97, 0] true true 3 none
  let (n2, r2) ← openInternal 2147483647 n1 (List.replicate 512 7) [97, 0] false false 9 none
  match r1, r2 with
  | .ok h1, .ok h2 => return (n2.objs (full [97]), (semClose (semClose n2 h1).1 h2).1.objs (full [97]))
  | _, _ => none

theorem demoNs_eq : demoNs = some (some (3, 2), none) := by decide +kernel

end Verif.WinSem
