import Verif.Clock.Model
/-!
# The clocks (C86)

Specification: the system's clock counts 100 ns since 1601, the Unix epoch is at 116444736000000000; so `ft` is
`ft - 116444736000000000` units after the epoch, and 10 units are a microsecond.
-/
namespace Verif.Clock

/-- file times from 1970 to 19 January 2038 -/
def Era (ft : BitVec 64) : Prop :=
  116444736000000000 ≤ ft.toNat ∧ ft.toNat < 116444736000000000 + 2147483648 * 10000000

theorem timeval_nat {ft : BitVec 64} (h : 116444736000000000 ≤ ft.toNat) :
    (ft - 116444736000000000#64).toNat = ft.toNat - 116444736000000000 := by
  rw [BitVec.toNat_sub]
  have := ft.isLt
  simp only [BitVec.toNat_ofNat]
  omega

theorem timeval_usec (ft : BitVec 64) (h : 116444736000000000 ≤ ft.toNat) :
    (timeval ft).2 = ((ft.toNat - 116444736000000000) % 10000000 / 10 : Nat) := by
  unfold timeval
  simp only
  rw [BitVec.toInt_eq_toNat_of_msb]
  · rw [BitVec.truncate_eq_setWidth, BitVec.toNat_setWidth, BitVec.toNat_udiv, BitVec.toNat_umod, timeval_nat h]
    simp only [BitVec.toNat_ofNat, Nat.reducePow, Nat.reduceMod]
    omega
  · rw [BitVec.msb_eq_false_iff_two_mul_lt, BitVec.truncate_eq_setWidth, BitVec.toNat_setWidth, BitVec.toNat_udiv,
      BitVec.toNat_umod, timeval_nat h]
    simp only [BitVec.toNat_ofNat, Nat.reducePow, Nat.reduceMod]
    omega

theorem timeval_sec (ft : BitVec 64) (h : 116444736000000000 ≤ ft.toNat) :
    (timeval ft).1 = ((((ft.toNat - 116444736000000000) / 10000000 : Nat) : Int)).bmod (2 ^ 32) := by
  unfold timeval
  simp only
  rw [BitVec.truncate_eq_setWidth, BitVec.toInt_setWidth, BitVec.toNat_udiv, timeval_nat h]
  simp only [BitVec.toNat_ofNat, Nat.reducePow, Nat.reduceMod]

/-- **C86** (`gettimeofday`, Windows): from 1970 to 2038 the time stored is the system's, cut to microseconds. -/
theorem timeval_exact (ft : BitVec 64) (h : Era ft) :
    0 ≤ (timeval ft).1 ∧ 0 ≤ (timeval ft).2 ∧ (timeval ft).2 < 1000000 ∧
    (timeval ft).1 * 10000000 + (timeval ft).2 * 10 ≤ (ft.toNat : Int) - 116444736000000000 ∧
    (ft.toNat : Int) - 116444736000000000 < (timeval ft).1 * 10000000 + (timeval ft).2 * 10 + 10 := by
  obtain ⟨h0, h1⟩ := h
  rw [timeval_sec ft h0, timeval_usec ft h0]
  have : (((ft.toNat - 116444736000000000) / 10000000 : Nat) : Int).bmod (2 ^ 32) =
      ((ft.toNat - 116444736000000000) / 10000000 : Nat) := by
    rw [Int.bmod_eq_of_le] <;> omega
  rw [this]
  omega

/-- **C86** (milliseconds): `time_util_current_ms` gives the whole milliseconds since 1970 (before 1970: the same, as a
signed number), for every normalised time of day within 292 million years. -/
theorem current_ms_exact (sec usec : Int) (hu : 0 ≤ usec) (hu1 : usec < 1000000)
    (h0 : -9223372036854775 < sec) (h1 : sec < 9223372036854775) :
    (currentMs sec usec).toInt = (sec * 1000000 + usec) / 1000 := by
  unfold currentMs
  have e : BitVec.ofInt 64 usec / 1000#64 = BitVec.ofInt 64 (usec / 1000) := by
    apply BitVec.eq_of_toNat_eq
    rw [BitVec.toNat_udiv, BitVec.toNat_ofInt, BitVec.toNat_ofInt]
    simp only [BitVec.toNat_ofNat, Nat.reducePow, Nat.reduceMod]
    omega
  have e2 : BitVec.ofInt 64 sec * 1000#64 = BitVec.ofInt 64 (sec * 1000) := by
    rw [BitVec.ofInt_mul]; rfl
  rw [e, e2, ← BitVec.ofInt_add, BitVec.toInt_ofInt, Int.bmod_eq_of_le] <;> omega

/-- **C86** (milliseconds, Windows): from 1970 to 2038 `time_util_current_ms` is the system's clock in whole
milliseconds. -/
theorem current_ms_windows (ft : BitVec 64) (h : Era ft) :
    (currentMs (timeval ft).1 (timeval ft).2).toNat = (ft.toNat - 116444736000000000) / 10000 := by
  obtain ⟨a, b, c, d, e⟩ := timeval_exact ft h
  obtain ⟨h0, h1⟩ := h
  have := current_ms_exact (timeval ft).1 (timeval ft).2 b c (by omega) (by omega)
  generalize hx : currentMs (timeval ft).1 (timeval ft).2 = x at this ⊢
  generalize (timeval ft).1 = s at *
  generalize (timeval ft).2 = u at *
  have hn := BitVec.toInt_eq_toNat_cond x
  have := x.isLt
  split at hn <;> omega

/-- **C86** (order): a later clock never gives an earlier time. -/
theorem timeval_mono (ft ft' : BitVec 64) (h : Era ft) (h' : Era ft') (hle : ft.toNat ≤ ft'.toNat) :
    (timeval ft).1 < (timeval ft').1 ∨ ((timeval ft).1 = (timeval ft').1 ∧ (timeval ft).2 ≤ (timeval ft').2) := by
  obtain ⟨a, b, c, d, e⟩ := timeval_exact ft h
  obtain ⟨a', b', c', d', e'⟩ := timeval_exact ft' h'
  omega

/-- **C86, finding**: from 19 January 2038 on, for 68 years, the seconds are negative (136 years behind), and
`time_util_current_ms` gives more than 2^64 - 2^31 * 1000 - 1. -/
theorem year_2038 (ft : BitVec 64) (h0 : 116444736000000000 + 2147483648 * 10000000 ≤ ft.toNat)
    (h1 : ft.toNat < 116444736000000000 + 4294967296 * 10000000) :
    (timeval ft).1 = ((ft.toNat - 116444736000000000) / 10000000 : Nat) - 4294967296 ∧ (timeval ft).1 < 0 ∧
    18446744073709551616 - 2147483648000 ≤ (currentMs (timeval ft).1 (timeval ft).2).toNat := by
  have hs : (timeval ft).1 = ((ft.toNat - 116444736000000000) / 10000000 : Nat) - 4294967296 := by
    rw [timeval_sec ft (by omega), Int.bmod_def]
    rw [if_neg (by omega)]
    omega
  have hu := timeval_usec ft (by omega)
  refine ⟨hs, by omega, ?_⟩
  have := current_ms_exact (timeval ft).1 (timeval ft).2 (by omega) (by omega) (by omega) (by omega)
  generalize hx : currentMs (timeval ft).1 (timeval ft).2 = x at this ⊢
  have hn := BitVec.toInt_eq_toNat_cond x
  have := x.isLt
  generalize (timeval ft).1 = s at *
  generalize (timeval ft).2 = u at *
  split at hn <;> omega

/-- 13 February 2009, 23:31:30.123456 UTC; and a second in 2040 -/
example : Era 128790414901234567#64 ∧ timeval 128790414901234567#64 = (1234567890, 123456) ∧
    (timeval 138534624000000000#64).1 = -2085978496 := by
  refine ⟨⟨by decide, by decide⟩, by decide, by decide⟩

/-! ## The performance counter (Windows) -/

theorem milliFreq_nat {freq : BitVec 64} (h : freq.toNat < 2 ^ 63) : (milliFreq freq).toNat = freq.toNat / 1000 := by
  have e : milliFreq freq = freq / 1000#64 := by
    unfold milliFreq
    rw [BitVec.sdiv_eq]
    have : freq.msb = false := by rw [BitVec.msb_eq_false_iff_two_mul_lt]; omega
    rw [this]
    have h2 : (1000#64).msb = false := by decide
    rw [h2]
    rfl
  rw [e, BitVec.toNat_udiv]; rfl

theorem perf_eq (freq c : BitVec 64) (hf : 1000 ≤ freq.toNat) (hf1 : freq.toNat < 2 ^ 63) :
    ∃ r, perfMs c (milliFreq freq) = some r ∧ r.toNat = c.toNat / (freq.toNat / 1000) := by
  have en := milliFreq_nat hf1
  have hq : milliFreq freq ≠ 0#64 := by
    intro h
    have := congrArg BitVec.toNat h
    rw [en] at this
    simp at this
    omega
  unfold perfMs
  rw [if_neg hq]
  exact ⟨_, rfl, by rw [BitVec.toNat_udiv, en]⟩

/-- **C86** (performance counter): for a frequency of at least 1000 Hz and a counter `c`, the milliseconds given are at
least the true ones and exceed them at most by the factor `freq / (freq - freq % 1000)`; they are exact if 1000 divides
the frequency. -/
theorem perf_exact (freq c : BitVec 64) (hf : 1000 ≤ freq.toNat) (hf1 : freq.toNat < 2 ^ 63) :
    ∃ r, perfMs c (milliFreq freq) = some r ∧ c.toNat * 1000 / freq.toNat ≤ r.toNat ∧
      r.toNat * (freq.toNat - freq.toNat % 1000) ≤ c.toNat * 1000 ∧
      (freq.toNat % 1000 = 0 → r.toNat = c.toNat * 1000 / freq.toNat) := by
  obtain ⟨r, h, e⟩ := perf_eq freq c hf hf1
  refine ⟨r, h, ?_, ?_, ?_⟩
  · rw [e, ← Nat.mul_div_mul_right c.toNat (freq.toNat / 1000) (show 0 < 1000 by decide)]
    apply Nat.div_le_div_left <;> omega
  · rw [e, show freq.toNat - freq.toNat % 1000 = freq.toNat / 1000 * 1000 by omega, ← Nat.mul_assoc]
    exact Nat.mul_le_mul_right _ (Nat.div_mul_le_self _ _)
  · intro h0
    rw [e, ← Nat.mul_div_mul_right c.toNat (freq.toNat / 1000) (show 0 < 1000 by decide)]
    congr 1
    omega

/-- **C86** (performance counter, order): it never runs backwards, and an interval is measured to less than a
millisecond, at the cut frequency. -/
theorem perf_mono (freq c c' : BitVec 64) (hf : 1000 ≤ freq.toNat) (hf1 : freq.toNat < 2 ^ 63) (hle : c.toNat ≤ c'.toNat) :
    ∃ r r', perfMs c (milliFreq freq) = some r ∧ perfMs c' (milliFreq freq) = some r' ∧ r.toNat ≤ r'.toNat ∧
      (r'.toNat - r.toNat) * (freq.toNat / 1000) < c'.toNat - c.toNat + freq.toNat / 1000 ∧
      c'.toNat - c.toNat < (r'.toNat - r.toNat + 1) * (freq.toNat / 1000) := by
  obtain ⟨r, h, e⟩ := perf_eq freq c hf hf1
  obtain ⟨r', h', e'⟩ := perf_eq freq c' hf hf1
  have hq : 0 < freq.toNat / 1000 := by omega
  refine ⟨r, r', h, h', ?_, ?_⟩
  · rw [e, e']; exact Nat.div_le_div_right hle
  · rw [e, e']
    generalize freq.toNat / 1000 = q at *
    have a := Nat.div_add_mod c.toNat q
    have b := Nat.mod_lt c.toNat hq
    have a' := Nat.div_add_mod c'.toNat q
    have b' := Nat.mod_lt c'.toNat hq
    have hd : c.toNat / q ≤ c'.toNat / q := Nat.div_le_div_right hle
    obtain ⟨d, hd⟩ := Nat.exists_eq_add_of_le hd
    rw [hd] at a' ⊢
    rw [Nat.add_sub_cancel_left]
    rw [Nat.mul_add] at a'
    rw [Nat.add_mul, Nat.one_mul, Nat.mul_comm d q]
    omega

/-- **C86, finding**: below 1000 Hz the division is by zero (the `ASSERT` of line 351 is empty in release builds). -/
theorem perf_slow (freq c : BitVec 64) (hf : freq.toNat < 1000) : perfMs c (milliFreq freq) = none := by
  unfold perfMs
  rw [if_pos]
  apply BitVec.eq_of_toNat_eq
  rw [milliFreq_nat (by omega)]
  simp
  omega

/-- the usual 10 MHz (exact); the ACPI timer's 3579545 Hz: a minute is shown as 60009 ms -/
example : perfMs 600000000#64 (milliFreq 10000000#64) = some 60000#64 ∧
    perfMs 214772700#64 (milliFreq 3579545#64) = some 60009#64 := by decide

/-- **C86, finding**: on POSIX systems the performance clock is the time of day: set back by an hour, it runs
backwards. -/
theorem posix_backwards : (perfMsPosix 1700000000 0).toNat < (perfMsPosix 1700003600 0).toNat ∧
    ∀ sec usec, perfMsPosix sec usec = currentMs sec usec := ⟨by decide, fun _ _ => rfl⟩

/-! ## Threads -/

/-- the function this system should be asked with -/
def best (w : Win) : Fn := if w.kernel = true ∧ w.proc = true then .precise else .coarse

/-- how many of its own steps a thread needs at most -/
def left : Pc → Nat
  | .load => 6
  | .call .init => 5
  | .look => 4
  | .fall => 3
  | .load2 => 2
  | .call _ => 1
  | .done _ => 0
  | .crash => 0

/-- all goes well for this thread -/
def Fine (w : Win) (g : Fn) : Pc → Prop
  | .load => True
  | .call p => p = best w ∨ (p = .init ∧ (w.kernel = true → w.proc = true))
  | .look => w.kernel = true → w.proc = true
  | .fall => w.kernel = false
  | .load2 => g = best w
  | .done p => p = best w
  | .crash => False

structure Inv (w : Win) (s : Sys) : Prop where
  g : s.g = best w ∨ (s.g = .init ∧ (w.kernel = true → w.proc = true))
  pc : ∀ t, Fine w s.g (s.pc t)

theorem best_ne (w : Win) : best w ≠ .null ∧ best w ≠ .init := by
  unfold best; split <;> simp

theorem Inv.step {w : Win} {s : Sys} (i : Inv w s) (t : Nat) : Inv w (step w s t) ∧
    (∀ u, u ≠ t → (Clock.step w s t).pc u = s.pc u) ∧
    (left ((Clock.step w s t).pc t) < left (s.pc t) ∨ ∃ p, (Clock.step w s t).pc t = .done p) := by
  have hpc := i.pc t
  have hb := best_ne w
  have other : ∀ (g' : Fn) (p : Pc), (g' = best w ∨ (g' = .init ∧ (w.kernel = true → w.proc = true))) →
      (g' = s.g ∨ g' = best w) → Fine w g' p →
      Inv w ⟨g', upd s.pc t p⟩ := by
    intro g' p hg hk hp
    refine ⟨hg, fun u => ?_⟩
    show Fine w g' (if u = t then p else s.pc u)
    split
    · exact hp
    · have := i.pc u
      generalize s.pc u = x at this
      cases x with
      | load2 =>
        rcases hk with h | h
        · rw [h]; exact this
        · exact h
      | _ => exact this
  have frame : ∀ (p : Pc) (u : Nat), u ≠ t → upd s.pc t p u = s.pc u := by
    intro p u h; simp [upd, h]
  have self : ∀ p, upd s.pc t p t = p := by intro p; simp [upd]
  unfold Clock.step
  generalize s.pc t = x at hpc
  cases x with
  | load =>
    refine ⟨other _ _ i.g (.inl rfl) ?_, frame _, .inl ?_⟩
    · exact i.g
    · simp only [self]
      cases s.g <;> simp [left]
  | call p =>
    cases p with
    | null =>
      rcases hpc with h | h
      · exact absurd h.symm hb.1
      · cases h.1
    | init =>
      refine ⟨other _ _ i.g (.inl rfl) ?_, frame _, .inl (by simp only [self]; simp [left])⟩
      rcases hpc with h | h
      · exact absurd h.symm hb.2
      · exact h.2
    | precise =>
      refine ⟨other _ _ i.g (.inl rfl) ?_, frame _, .inr ⟨_, self _⟩⟩
      rcases hpc with h | h
      · exact h
      · cases h.1
    | coarse =>
      refine ⟨other _ _ i.g (.inl rfl) ?_, frame _, .inr ⟨_, self _⟩⟩
      rcases hpc with h | h
      · exact h
      · cases h.1
  | look =>
    simp only
    cases hk : w.kernel with
    | false =>
      simp only [Bool.false_eq_true, if_false]
      exact ⟨other _ _ i.g (.inl rfl) hk, frame _, .inl (by simp only [self]; simp [left])⟩
    | true =>
      have hp := hpc hk
      simp only [hp, if_true]
      have e : best w = .precise := by simp [best, hk, hp]
      exact ⟨other _ _ (.inl e.symm) (.inr e.symm) e.symm, frame _, .inl (by simp only [self]; simp [left])⟩
  | fall =>
    have e : best w = .coarse := by
      have : w.kernel = false := hpc
      simp [best, this]
    exact ⟨other _ _ (.inl e.symm) (.inr e.symm) e.symm, frame _, .inl (by simp only [self]; simp [left])⟩
  | load2 =>
    have e : s.g = best w := hpc
    refine ⟨other _ _ i.g (.inl rfl) (.inl e), frame _, .inl ?_⟩
    simp only [self, e]
    revert hb
    generalize best w = b
    intro hb
    cases b
    · exact absurd rfl hb.2
    · exact absurd rfl hb.1
    · simp [left]
    · simp [left]
  | done p => exact ⟨other _ _ i.g (.inl rfl) hpc, frame _, .inr ⟨_, self _⟩⟩
  | crash => exact hpc.elim

theorem Inv.run {w : Win} : ∀ (sched : List Nat) {s : Sys}, Inv w s → Inv w (run w s sched) ∧
    ∀ t, left (s.pc t) ≤ sched.count t → ∃ p, (Clock.run w s sched).pc t = .done p := by
  intro sched
  induction sched with
  | nil =>
    intro s i
    refine ⟨i, fun t h => ?_⟩
    have hp := i.pc t
    simp only [List.count_nil, Nat.le_zero_eq] at h
    show ∃ p, s.pc t = .done p
    generalize s.pc t = x at h hp
    cases x with
    | done p => exact ⟨p, rfl⟩
    | crash => exact hp.elim
    | call p => cases p <;> simp [left] at h
    | _ => simp [left] at h
  | cons a r ih =>
    intro s i
    obtain ⟨i1, i2, i3⟩ := i.step a
    obtain ⟨j1, j2⟩ := ih i1
    refine ⟨j1, fun t h => ?_⟩
    apply j2 t
    by_cases e : t = a
    · subst e
      rw [List.count_cons_self] at h
      rcases i3 with h3 | ⟨p, h3⟩
      · omega
      · rw [h3]; simp [left]
    · rw [i2 t e]
      rw [List.count_cons_of_ne (Ne.symm e)] at h
      exact h

/-- **C86** (`gettimeofday` from any number of threads, Windows): if the system has
`GetSystemTimePreciseAsFileTime`, or some call was completed before (`g` is set), then under every schedule no thread
calls through NULL, and each has its time, from the best clock, after six steps of its own at most. -/
theorem time_threads (w : Win) (g : Fn) (sched : List Nat)
    (hg : g = best w ∨ (g = .init ∧ (w.kernel = true → w.proc = true))) (t : Nat) :
    (run w ⟨g, fun _ => .load⟩ sched).pc t ≠ .crash ∧
    (6 ≤ sched.count t → (run w ⟨g, fun _ => .load⟩ sched).pc t = .done (best w)) := by
  have i0 : Inv w ⟨g, fun _ => .load⟩ := ⟨hg, fun _ => trivial⟩
  obtain ⟨a, b⟩ := i0.run sched
  have hf := a.pc t
  constructor
  · intro h; rw [h] at hf; exact hf
  · intro h
    obtain ⟨p, hp⟩ := b t h
    rw [hp] at hf ⊢
    rw [show p = best w from hf]

/-- **C86**: a first call without company succeeds on every system and sets the pointer. -/
theorem first_call (w : Win) : (run w Sys.init [0, 0, 0, 0, 0, 0]).g = best w ∧
    (run w Sys.init [0, 0, 0, 0, 0, 0]).pc 0 = .done (best w) := by
  obtain ⟨k, p⟩ := w
  cases k <;> cases p <;> decide

/-- **C86, finding**: without `GetSystemTimePreciseAsFileTime` (before Windows 8) the pointer is NULL between lines 87
and 99: another thread's call goes through NULL; even long after the first call was completed. -/
theorem null_call : (run ⟨true, false⟩ Sys.init [0, 0, 0, 1, 1]).pc 1 = .crash ∧
    (run ⟨true, false⟩ Sys.init [0, 0, 1, 1, 0, 0, 0, 0, 1, 2, 2]).pc 0 = .done .coarse ∧
    (run ⟨true, false⟩ Sys.init [0, 0, 1, 1, 0, 0, 0, 0, 1, 2, 2]).pc 2 = .crash := by decide

structure PInv (freq : BitVec 64) (s : PSys) : Prop where
  ready : s.ready = true → s.cached = milliFreq freq
  pc : ∀ t, match s.pc t with
    | .load | .query => True
    | .publish | .read => s.cached = milliFreq freq
    | .load2 => s.ready = true
    | .done q => q = milliFreq freq

def pleft : PPc → Nat
  | .load => 5
  | .query => 4
  | .publish => 3
  | .load2 => 2
  | .read => 1
  | .done _ => 0

theorem PInv.step {freq : BitVec 64} {s : PSys} (i : PInv freq s) (t : Nat) : PInv freq (pstep freq s t) ∧
    (∀ u, u ≠ t → (pstep freq s t).pc u = s.pc u) ∧
    (pleft ((pstep freq s t).pc t) < pleft (s.pc t) ∨ ∃ p, (pstep freq s t).pc t = .done p) := by
  have hpc := i.pc t
  have frame : ∀ (p : PPc) (u : Nat), u ≠ t → pupd s.pc t p u = s.pc u := by
    intro p u h; simp [pupd, h]
  have self : ∀ p, pupd s.pc t p t = p := by intro p; simp [pupd]
  have other : ∀ (r : Bool) (c : BitVec 64) (p : PPc), (r = true → c = milliFreq freq) → (s.ready = true → r = true) →
      (c = s.cached ∨ c = milliFreq freq) →
      (match p with
        | .load | .query => True
        | .publish | .read => c = milliFreq freq
        | .load2 => r = true
        | .done q => q = milliFreq freq) →
      PInv freq ⟨r, c, pupd s.pc t p⟩ := by
    intro r c p hr hm hc hp
    refine ⟨hr, fun u => ?_⟩
    by_cases e : u = t
    · subst e
      simp only [self]
      exact hp
    · simp only [frame p u e]
      have := i.pc u
      generalize s.pc u = x at this
      cases x with
      | load => trivial
      | query => trivial
      | publish => rcases hc with h | h <;> simp_all
      | read => rcases hc with h | h <;> simp_all
      | load2 => exact hm this
      | done q => exact this
  unfold pstep
  generalize s.pc t = x at hpc
  cases x with
  | load =>
    refine ⟨other _ _ _ i.ready id (.inl rfl) ?_, frame _, .inl ?_⟩
    · cases h : s.ready <;> simp
      exact i.ready h
    · simp only [self]; cases s.ready <;> simp [pleft]
  | query =>
    exact ⟨other _ _ _ (fun _ => rfl) id (.inr rfl) rfl, frame _, .inl (by simp only [self]; simp [pleft])⟩
  | publish =>
    exact ⟨other _ _ _ (fun _ => hpc) (fun _ => rfl) (.inl rfl) rfl, frame _, .inl (by simp only [self]; simp [pleft])⟩
  | load2 =>
    have h : s.ready = true := hpc
    simp only [h, if_true]
    refine ⟨?_, frame _, .inl (by simp only [self]; simp [pleft])⟩
    have := other s.ready s.cached .read i.ready id (.inl rfl) (i.ready h)
    rw [h] at this
    exact this
  | read => exact ⟨other _ _ _ i.ready id (.inl rfl) hpc, frame _, .inr ⟨_, self _⟩⟩
  | done q => exact ⟨other _ _ _ i.ready id (.inl rfl) hpc, frame _, .inr ⟨_, self _⟩⟩

theorem PInv.run {freq : BitVec 64} : ∀ (sched : List Nat) {s : PSys}, PInv freq s → PInv freq (prun freq s sched) ∧
    ∀ t, pleft (s.pc t) ≤ sched.count t → ∃ p, (prun freq s sched).pc t = .done p := by
  intro sched
  induction sched with
  | nil =>
    intro s i
    refine ⟨i, fun t h => ?_⟩
    simp only [List.count_nil, Nat.le_zero_eq] at h
    show ∃ p, s.pc t = .done p
    generalize s.pc t = x at h
    cases x with
    | done p => exact ⟨p, rfl⟩
    | _ => simp [pleft] at h
  | cons a r ih =>
    intro s i
    obtain ⟨i1, i2, i3⟩ := i.step a
    obtain ⟨j1, j2⟩ := ih i1
    refine ⟨j1, fun t h => ?_⟩
    apply j2 t
    by_cases e : t = a
    · subst e
      rw [List.count_cons_self] at h
      rcases i3 with h3 | ⟨p, h3⟩
      · omega
      · rw [h3]; simp [pleft]
    · rw [i2 t e]
      rw [List.count_cons_of_ne (Ne.symm e)] at h
      exact h

/-- **C86** (`time_util_query_performance_ms` from any number of threads): under every schedule each thread divides by
the frequency of the system in kHz, never by the zero before initialisation; five steps of its own suffice. -/
theorem perf_threads (freq : BitVec 64) (sched : List Nat) (t : Nat) :
    (∀ q, (prun freq PSys.init sched).pc t = .done q → q = freq.sdiv 1000#64) ∧
    (5 ≤ sched.count t → (prun freq PSys.init sched).pc t = .done (freq.sdiv 1000#64)) := by
  have i0 : PInv freq PSys.init := ⟨(by intro h; cases h), fun _ => trivial⟩
  obtain ⟨a, b⟩ := i0.run sched
  have hf := a.pc t
  constructor
  · intro q h; rw [h] at hf; exact hf
  · intro h
    obtain ⟨p, hp⟩ := b t h
    rw [hp] at hf ⊢
    rw [show p = milliFreq freq from hf]
    rfl

example : (prun 10000000#64 PSys.init [0, 0, 1, 1, 1, 0, 1, 1, 0, 0]).pc 0 = .done 10000#64 := by decide

end Verif.Clock
