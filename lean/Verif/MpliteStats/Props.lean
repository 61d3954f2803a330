import Verif.MpliteStats.Model
import Verif.Common.Dec
/-!
# C107: `mplite_print_stats`
-/
namespace Verif.MpliteStats
open Verif.Strings (decText)
open Verif.Mplite (Ledger GoodParams heldBytes fit atomOf Acceptable Op)

/-! ### The text -/

theorem line_full (label : String) (v : BitVec 32) (h : (str label).length ≤ 245) : line label v = str label ++ decText v.toNat := by
  unfold line
  rw [List.take_of_length_le]
  have := (decText_length_le (n := v.toNat) (k := 10) (by omega)).2 (by have := v.isLt; omega)
  rw [List.length_append]; omega

/-- The eight lines for a client's ledger. -/
def wanted (L : Ledger) : List (List Byte) :=
  [str "Total number of calls to malloc: " ++ decText L.count,
   str "Total of all malloc calls - includes internal fragmentation: " ++ decText L.given,
   str "Total internal fragmentation: " ++ decText L.excess,
   str "Current checkout, including internal fragmentation: " ++ decText (heldBytes L.live),
   str "Current number of distinct checkouts: " ++ decText L.live.length,
   str "Maximum instantaneous currentOut: " ++ decText L.peakOut,
   str "Maximum instantaneous currentCount: " ++ decText L.peakCount,
   str "Largest allocation (exclusive of internal frag): " ++ decText L.largest]

/-! ### No counter but the totals gets too large -/

/-- What fits 32 bits. -/
def Fits (L : Ledger) : Prop := L.peakOut < 2 ^ 32 ∧ L.peakCount < 2 ^ 32 ∧ L.largest < 2 ^ 32

theorem fits_asked {L : Ledger} (h : Fits L) {atom : Nat} {n : Int} {r : Option Nat} {data : Nat → Option Byte}
    (h1 : heldBytes L.live < 2147483648) (h2 : L.live.length < 2147483648) (h3 : Acceptable n → fit atom n.toNat ≤ 2147483648) :
    Fits (L.asked atom n r data) := by
  obtain ⟨g1, g2, g3⟩ := h
  unfold Ledger.asked
  split
  · rename_i hn
    have h3 := h3 hn
    unfold Acceptable at hn
    cases r with
    | none => exact ⟨g1, g2, by simp only [Ledger.request]; omega⟩
    | some p =>
      refine ⟨?_, ?_, ?_⟩
      · simp only [Ledger.add, Ledger.request, heldBytes, List.map_cons, List.sum_cons] at *; omega
      · simp only [Ledger.add, Ledger.request, List.length_cons]; omega
      · simp only [Ledger.add, Ledger.request]; omega
  · exact ⟨g1, g2, g3⟩

theorem fits {bufSize minAlloc : Nat} (hp : GoodParams bufSize minAlloc) {s : Mplite.St} {L : Ledger}
    (h : Mplite.Reach bufSize minAlloc s L) : Fits L ∧ heldBytes L.live < 2147483648 ∧ L.live.length < 2147483648 := by
  have bound : ∀ {s : Mplite.St} {L : Ledger}, Mplite.Reach bufSize minAlloc s L → heldBytes L.live < 2147483648 ∧ L.live.length < 2147483648 := by
    intro s L h
    have hi := h.inv hp
    obtain ⟨fr, h1⟩ := hi.inv
    obtain ⟨h2, h3, h4⟩ := Mplite.heldBytes_lt h1 hi.good
    have := h1.core.geo.atom
    have : s.nBlock * 1 ≤ s.nBlock * s.szAtom := Nat.mul_le_mul_left _ (by omega)
    omega
  refine ⟨?_, bound h⟩
  induction h with
  | init => exact ⟨by decide, by decide, by decide⟩
  | @step s s' L op r h hl he ih =>
    obtain ⟨b1, b2⟩ := bound h
    have hs := (h.inv hp).szSmall
    have ha := (h.inv hp).atom
    have hf : ∀ {n : Int}, Acceptable n → fit (atomOf minAlloc) n.toNat ≤ 2147483648 := by
      intro n hn
      unfold Acceptable at hn
      rcases (Mplite.mplite_fit_bounds hp h (n := n.toNat) (by omega)).2 with h1 | h1 <;> omega
    cases op with
    | malloc n => exact fits_asked ih b1 b2 hf
    | calloc n => exact fits_asked ih b1 b2 hf
    | free p => exact ih
    | store p j v => exact ih
    | realloc p n =>
      simp only [Ledger.after]
      split
      · exact ih
      · split
        · split
          · exact ih
          · cases r with
            | none => exact fits_asked ih b1 b2 hf
            | some q => exact fits_asked (r := some q) ih b1 b2 hf
        · exact ih

/-- **C107.** After any history of calls in which fewer than 2^32 blocks and bytes were given out in total, the report is exact: the
eight lines, complete, with the numbers of the history. -/
theorem report_exact {bufSize minAlloc : Nat} (hp : GoodParams bufSize minAlloc) {s : Mplite.St} {L : Ledger}
    (h : Mplite.Reach bufSize minAlloc s L) (h1 : L.count < 2 ^ 32) (h2 : L.given < 2 ^ 32) (h3 : L.excess < 2 ^ 32) :
    report s = wanted L := by
  obtain ⟨e1, e2, e3, e4, e5, e6, e7, e8⟩ := Mplite.mplite_stats_exact hp h
  obtain ⟨⟨f1, f2, f3⟩, f4, f5⟩ := fits hp h
  unfold report wanted
  rw [e1, e2, e3, e4, e5, e6, e7, e8]
  rw [line_full _ _ (by decide), line_full _ _ (by decide), line_full _ _ (by decide), line_full _ _ (by decide),
    line_full _ _ (by decide), line_full _ _ (by decide), line_full _ _ (by decide), line_full _ _ (by decide)]
  simp only [BitVec.toNat_ofNat]
  rw [Nat.mod_eq_of_lt (a := L.count) (by omega), Nat.mod_eq_of_lt (a := L.given) (by omega), Nat.mod_eq_of_lt (a := L.excess) (by omega)]
  rw [Nat.mod_eq_of_lt h1, Nat.mod_eq_of_lt h2, Nat.mod_eq_of_lt h3, Nat.mod_eq_of_lt f1, Nat.mod_eq_of_lt f2, Nat.mod_eq_of_lt f3,
    Nat.mod_eq_of_lt (by omega), Nat.mod_eq_of_lt (by omega)]

theorem decText_inj {a b : Nat} (h : decText a = decText b) : a = b := by
  have := congrArg (fun l => Nat.ofDigitChars 10 (l.map fun c => Char.ofNat c.toNat) 0) h
  have key : ∀ n, (decText n).map (fun c => Char.ofNat c.toNat) = Nat.toDigits 10 n := by
    intro n
    unfold decText
    rw [List.map_map]
    conv => rhs; rw [← List.map_id (Nat.toDigits 10 n)]
    apply List.map_congr_left
    intro c hc
    have := Nat.isDigit_of_mem_toDigits (by omega) (by omega) hc
    simp only [Char.isDigit, Bool.and_eq_true, decide_eq_true_eq] at this
    have h1 : c.toNat < 256 := by
      have := this.2
      have : c.toNat ≤ 57 := this
      omega
    simp only [Function.comp, UInt8.toNat_ofNat', Nat.mod_eq_of_lt h1, id]
    exact Char.ofNat_toNat c
  simp only [key] at this
  rw [Nat.ofDigitChars_ten_toDigits, Nat.ofDigitChars_ten_toDigits] at this
  exact this

/-- **Finding.** The totals are printed modulo 2^32: as soon as 4 GiB have been given out in all, the second line is wrong. -/
theorem total_wrong {bufSize minAlloc : Nat} (hp : GoodParams bufSize minAlloc) {s : Mplite.St} {L : Ledger}
    (h : Mplite.Reach bufSize minAlloc s L) (h1 : 2 ^ 32 ≤ L.given) : (report s)[1]? ≠ (wanted L)[1]? := by
  obtain ⟨_, _, _, _, _, _, e7, _⟩ := Mplite.mplite_stats_exact hp h
  show some (line _ _) ≠ some (_ ++ _)
  rw [line_full _ _ (by decide), e7]
  intro e
  have := decText_inj (List.append_cancel_left (Option.some.inj e))
  rw [BitVec.toNat_ofNat] at this
  have : L.given % 2 ^ 64 % 2 ^ 32 < 2 ^ 32 := Nat.mod_lt _ (by decide)
  omega

/-- A small pool gets there by allocating and freeing one block again and again. -/
theorem total_reached : ∃ s L, Mplite.Reach 400 10 s L ∧ 2 ^ 32 ≤ L.given := by
  have hp : GoodParams 400 10 := by unfold GoodParams; decide
  obtain ⟨s0, h0, _⟩ := Mplite.mplite_init_runs hp fun _ => 0xAA
  have hd : ((Mplite.demo.bind fun s => Mplite.malloc s 256).map fun r => r.2) = some (some 0) := by decide +kernel
  have hs0 : Mplite.demo = some s0 := by unfold Mplite.demo; exact congrArg (·.bind id) h0
  rw [hs0] at hd
  have key : ∀ k : Nat, ∃ s L, Mplite.Reach 400 10 s L ∧ L.live = [] ∧ L.given = 256 * k := by
    intro k
    induction k with
    | zero => exact ⟨s0, Ledger.empty, .init h0, rfl, rfl⟩
    | succ k ih =>
      obtain ⟨s, L, h1, h2, h3⟩ := ih
      obtain ⟨⟨s', r⟩, e1⟩ := Option.isSome_iff_exists.1 (never hp h1 (op := .malloc 256) trivial)
      have h4 := Mplite.Reach.step h1 (op := .malloc 256) trivial e1
      cases r with
      | none =>
        exfalso
        have := ((Mplite.mplite_all_freed hp h1 h2 h0).2.2.2 256).1 ⟨s', e1⟩
        obtain ⟨s1, e2⟩ := this
        simp [e2] at hd
      | some p =>
        have hl : (L.after (atomOf 10) (.malloc 256) (some p)).live = [⟨p, 256, 256, fun _ => none⟩] := by
          show (⟨p, 256, fit (atomOf 10) 256, fun _ => none⟩ : Mplite.Blk) :: L.live = _
          rw [h2, show fit (atomOf 10) 256 = 256 by decide +kernel]
        have lf : Mplite.Legal (L.after (atomOf 10) (.malloc 256) (some p)) (.free p) :=
          ⟨_, by rw [hl]; exact List.mem_singleton_self _, rfl⟩
        obtain ⟨⟨s2, r2⟩, e3⟩ := Option.isSome_iff_exists.1 (never hp h4 (op := .free p) lf)
        refine ⟨s2, _, .step h4 lf e3, ?_, ?_⟩
        · show List.eraseP _ _ = _
          rw [hl]; simp
        · show L.given + fit (atomOf 10) 256 = _
          rw [h3, show fit (atomOf 10) 256 = 256 by decide +kernel]; omega
  obtain ⟨s, L, h1, _, h3⟩ := key (2 ^ 24)
  exact ⟨s, L, h1, by rw [h3]; decide⟩
where
  never {bufSize minAlloc : Nat} (hp : GoodParams bufSize minAlloc) {s : Mplite.St} {L : Ledger}
      (h : Mplite.Reach bufSize minAlloc s L) {op : Op} (hl : Mplite.Legal L op) : (Mplite.exec s op).isSome = true := by
    have := Mplite.mplite_never_faults hp h hl
    cases e : Mplite.exec s op with
    | some _ => rfl
    | none => rw [e] at this; simp at this

/-- A report on a concrete pool. -/
example : (((Mplite.demo.bind fun s => Mplite.runOps s [.malloc 10, .malloc 20, .free 352]).map report).map fun r =>
    [r[1]?, r[3]?, r[5]?]) =
    some [some (str "Total of all malloc calls - includes internal fragmentation: 48"),
      some (str "Current checkout, including internal fragmentation: 32"),
      some (str "Maximum instantaneous currentOut: 48")] := by decide +kernel

/-! ### Beside other threads -/

/-- What holds between the stores of a call. -/
inductive Mid : List Store → Counters → Prop where
  | done {c : Counters} (h1 : c.out ≤ c.maxOut) (h2 : c.count ≤ c.maxCount) : Mid [] c
  | m1 {c : Counters} (n : Nat) (h1 : c.out ≤ c.maxOut) (h2 : c.count ≤ c.maxCount) : Mid [.incCount, .addOut n, .maxCount, .maxOut] c
  | m2 {c : Counters} (n : Nat) (h1 : c.out ≤ c.maxOut) : Mid [.addOut n, .maxCount, .maxOut] c
  | m3 {c : Counters} : Mid [.maxCount, .maxOut] c
  | m4 {c : Counters} (h2 : c.count ≤ c.maxCount) : Mid [.maxOut] c
  | f1 {c : Counters} (n : Nat) (h1 : c.out ≤ c.maxOut) (h2 : c.count ≤ c.maxCount) : Mid [.decCount, .subOut n] c
  | f2 {c : Counters} (n : Nat) (h1 : c.out ≤ c.maxOut) (h2 : c.count ≤ c.maxCount) : Mid [.subOut n] c

theorem store_max (c : Counters) (x : Store) : c.maxOut ≤ (x.run c).maxOut ∧ c.maxCount ≤ (x.run c).maxCount := by
  cases x <;> simp only [Store.run] <;> (try split) <;> omega

/-- What has been read is not above the maxima. -/
structure Inv (s : Sys) : Prop where
  mid : Mid s.todo s.c
  out : ∀ v, s.seen.out = some v → v ≤ s.c.maxOut
  count : ∀ v, s.seen.count = some v → v ≤ s.c.maxCount
  maxOut : ∀ v m, s.seen.out = some v → s.seen.maxOut = some m → v ≤ m
  maxCount : ∀ v m, s.seen.count = some v → s.seen.maxCount = some m → v ≤ m
  orderO : s.seen.maxOut.isSome = true → s.seen.out.isSome = true
  orderC : s.seen.maxCount.isSome = true → s.seen.count.isSome = true
  orderM : s.seen.maxOut.isSome = true → s.seen.count.isSome = true
  orderN : s.seen.count.isSome = true → s.seen.out.isSome = true

theorem Mid.store {x : Store} {xs : List Store} {c : Counters} (h : Mid (x :: xs) c) : Mid xs (x.run c) := by
  generalize e : x :: xs = l at h
  cases h <;> cases e <;> simp only [Store.run]
  · exact .m2 _ (by assumption)
  · exact .m3
  · refine .m4 ?_; simp only; split <;> omega
  · refine .done ?_ (by assumption); simp only; split <;> omega
  · exact .f2 _ (by assumption) (by simp only; omega)
  · exact .done (by simp only; omega) (by assumption)

theorem Mid.idle {c : Counters} (h : Mid [] c) : c.out ≤ c.maxOut ∧ c.count ≤ c.maxCount := by
  cases h; exact ⟨by assumption, by assumption⟩

theorem reach_inv {s : Sys} (h : Reach Quiet s) : Inv s := by
  induction h with
  | start => exact ⟨.done (by simp) (by simp), by simp, by simp, by simp, by simp, by simp, by simp, by simp, by simp⟩
  | step s s' _ hs hq ih =>
    obtain ⟨i1, i2, i3, i4, i5, i6, i7, i8, i9⟩ := ih
    cases hs with
    | malloc n h => rw [h] at i1; exact ⟨.m1 n i1.idle.1 i1.idle.2, i2, i3, i4, i5, i6, i7, i8, i9⟩
    | free n h => rw [h] at i1; exact ⟨.f1 n i1.idle.1 i1.idle.2, i2, i3, i4, i5, i6, i7, i8, i9⟩
    | store x xs h =>
      rw [h] at i1
      have := store_max s.c x
      exact ⟨i1.store, fun v hv => Nat.le_trans (i2 v hv) this.1, fun v hv => Nat.le_trans (i3 v hv) this.2, i4, i5, i6, i7, i8, i9⟩
    | readOut h =>
      have ht : s.todo = [] := hq (.inl (by rw [h]; simp))
      have i1' := i1
      rw [ht] at i1'
      refine ⟨i1, ?_, i3, ?_, i5, by simp, i7, i8, by simp⟩
      · intro v hv; cases hv; exact i1'.idle.1
      · intro v m _ hm
        have := i6 (by rw [show s.seen.maxOut = some m from hm]; rfl)
        rw [h] at this; cases this
    | readCount h h' =>
      have ht : s.todo = [] := hq (.inr (by rw [h]; simp))
      have i1' := i1
      rw [ht] at i1'
      refine ⟨i1, i2, ?_, i4, ?_, i6, by simp, by simp, fun _ => h'⟩
      · intro v hv; cases hv; exact i1'.idle.2
      · intro v m _ hm
        have := i7 (by rw [show s.seen.maxCount = some m from hm]; rfl)
        rw [h] at this; cases this
    | readMaxOut h h' =>
      refine ⟨i1, i2, i3, ?_, i5, fun _ => i9 h', i7, fun _ => h', i9⟩
      intro v m hv hm; cases hm; exact i2 v hv
    | readMaxCount h h' =>
      refine ⟨i1, i2, i3, i4, ?_, i6, fun _ => i8 h', i8, i9⟩
      intro v m hv hm; cases hm; exact i3 v hv

/-- **C107, threads.** Whatever other threads allocate and free between and after the reads, as long as the two current values are read
between calls, the report never shows a maximum below the current value: the maxima are read later. -/
theorem peaks_not_below {s : Sys} (h : Reach Quiet s) {o m c n : Nat} (h1 : s.seen.out = some o) (h2 : s.seen.maxOut = some m)
    (h3 : s.seen.count = some c) (h4 : s.seen.maxCount = some n) : o ≤ m ∧ c ≤ n :=
  ⟨(reach_inv h).maxOut o m h1 h2, (reach_inv h).maxCount c n h3 h4⟩

/-- Such a report exists: a block of 32 bytes was there, another of 64 was freed before. -/
example : ∃ s, Reach Quiet s ∧ s.seen = ⟨some 32, some 1, some 96, some 2⟩ := by
  refine ⟨⟨⟨32, 1, 96, 2⟩, [], ⟨some 32, some 1, some 96, some 2⟩⟩, ?_, rfl⟩
  refine .step _ _ ?_ (.readMaxCount (s := ⟨⟨32, 1, 96, 2⟩, [], ⟨some 32, some 1, some 96, none⟩⟩) rfl rfl) (by simp [Quiet])
  refine .step _ _ ?_ (.readMaxOut (s := ⟨⟨32, 1, 96, 2⟩, [], ⟨some 32, some 1, none, none⟩⟩) rfl rfl) (by simp [Quiet])
  refine .step _ _ ?_ (.readCount (s := ⟨⟨32, 1, 96, 2⟩, [], ⟨some 32, none, none, none⟩⟩) rfl rfl) (by simp [Quiet])
  refine .step _ _ ?_ (.readOut (s := ⟨⟨32, 1, 96, 2⟩, [], ⟨none, none, none, none⟩⟩) rfl) (by simp [Quiet])
  refine .step _ _ ?_ (.store (s := ⟨⟨96, 1, 96, 2⟩, [.subOut 64], ⟨none, none, none, none⟩⟩) _ _ rfl) (by simp [Quiet])
  refine .step _ _ ?_ (.store (s := ⟨⟨96, 2, 96, 2⟩, [.decCount, .subOut 64], ⟨none, none, none, none⟩⟩) _ _ rfl) (by simp [Quiet])
  refine .step _ _ ?_ (.free (s := ⟨⟨96, 2, 96, 2⟩, [], ⟨none, none, none, none⟩⟩) 64 rfl) (by simp [Quiet])
  refine .step _ _ ?_ (.store (s := ⟨⟨96, 2, 32, 2⟩, [.maxOut], ⟨none, none, none, none⟩⟩) _ _ rfl) (by simp [Quiet])
  refine .step _ _ ?_ (.store (s := ⟨⟨96, 2, 32, 1⟩, [.maxCount, .maxOut], ⟨none, none, none, none⟩⟩) _ _ rfl) (by simp [Quiet])
  refine .step _ _ ?_ (.store (s := ⟨⟨32, 2, 32, 1⟩, [.addOut 64, .maxCount, .maxOut], ⟨none, none, none, none⟩⟩) _ _ rfl) (by simp [Quiet])
  refine .step _ _ ?_ (.store (s := ⟨⟨32, 1, 32, 1⟩, [.incCount, .addOut 64, .maxCount, .maxOut], ⟨none, none, none, none⟩⟩) _ _ rfl) (by simp [Quiet])
  refine .step _ _ ?_ (.malloc (s := ⟨⟨32, 1, 32, 1⟩, [], ⟨none, none, none, none⟩⟩) 64 rfl) (by simp [Quiet])
  refine .step _ _ ?_ (.store (s := ⟨⟨32, 1, 0, 1⟩, [.maxOut], ⟨none, none, none, none⟩⟩) _ _ rfl) (by simp [Quiet])
  refine .step _ _ ?_ (.store (s := ⟨⟨32, 1, 0, 0⟩, [.maxCount, .maxOut], ⟨none, none, none, none⟩⟩) _ _ rfl) (by simp [Quiet])
  refine .step _ _ ?_ (.store (s := ⟨⟨0, 1, 0, 0⟩, [.addOut 32, .maxCount, .maxOut], ⟨none, none, none, none⟩⟩) _ _ rfl) (by simp [Quiet])
  refine .step _ _ ?_ (.store (s := ⟨⟨0, 0, 0, 0⟩, [.incCount, .addOut 32, .maxCount, .maxOut], ⟨none, none, none, none⟩⟩) _ _ rfl) (by simp [Quiet])
  refine .step _ _ .start (.malloc (s := ⟨⟨0, 0, 0, 0⟩, [], ⟨none, none, none, none⟩⟩) 32 rfl) (by simp [Quiet])

/-- **Finding.** `mplite_print_stats` takes no lock: beside a thread that allocates it can report more bytes in use than there ever were
at a time. -/
theorem peak_below_current : ∃ s, Reach (fun _ _ => True) s ∧ s.seen = ⟨some 32, some 1, some 0, some 0⟩ := by
  refine ⟨⟨⟨32, 1, 0, 0⟩, [.maxCount, .maxOut], ⟨some 32, some 1, some 0, some 0⟩⟩, ?_, rfl⟩
  refine .step _ _ ?_ (.readMaxCount (s := ⟨⟨32, 1, 0, 0⟩, [.maxCount, .maxOut], ⟨some 32, some 1, some 0, none⟩⟩) rfl rfl) trivial
  refine .step _ _ ?_ (.readMaxOut (s := ⟨⟨32, 1, 0, 0⟩, [.maxCount, .maxOut], ⟨some 32, some 1, none, none⟩⟩) rfl rfl) trivial
  refine .step _ _ ?_ (.readCount (s := ⟨⟨32, 1, 0, 0⟩, [.maxCount, .maxOut], ⟨some 32, none, none, none⟩⟩) rfl rfl) trivial
  refine .step _ _ ?_ (.readOut (s := ⟨⟨32, 1, 0, 0⟩, [.maxCount, .maxOut], ⟨none, none, none, none⟩⟩) rfl) trivial
  refine .step _ _ ?_ (.store (s := ⟨⟨0, 1, 0, 0⟩, [.addOut 32, .maxCount, .maxOut], ⟨none, none, none, none⟩⟩) _ _ rfl) trivial
  refine .step _ _ ?_ (.store (s := ⟨⟨0, 0, 0, 0⟩, [.incCount, .addOut 32, .maxCount, .maxOut], ⟨none, none, none, none⟩⟩) _ _ rfl) trivial
  exact .step _ _ .start (.malloc (s := ⟨⟨0, 0, 0, 0⟩, [], ⟨none, none, none, none⟩⟩) 32 rfl) trivial

end Verif.MpliteStats
