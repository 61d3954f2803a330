import Verif.TimeUtil.Text
/-! # C49, C50: dates and cached time texts -/
namespace Verif.TimeUtil
open Spec

/-! ### C49 -/

/-- **C49** (times from the epoch to 2^31-1 whose local time is not before 1970; missing: what lies outside, where the
claim is false, see below): the fields assigned are those of the civil time in the proleptic Gregorian calendar, in the
zone given; no computation overflows. -/
theorem second2date_correct_partial {sec zone : Int} (h0 : 0 ≤ sec) (h1 : sec < 2 ^ 31) (hz : zone ≤ 2146000000)
    (hl : 0 ≤ sec + 3600 * zone) :
    ∃ c : Civil, IsLocal c sec zone ∧
      second2date sec zone = some (Tm.mk c.sec c.min c.hour c.day c.month ((c.year : Int) - 1900)) :=
  second2date_eq h0 (by omega) hz hl

/-- That civil time is the only one. -/
theorem civil_time_unique {c c' : Civil} {sec zone : Int} (h : IsLocal c sec zone) (h' : IsLocal c' sec zone) : c = c' :=
  isLocal_unique h h'

/-- So the result is correct exactly: whatever civil time is right, its fields are the ones assigned. -/
theorem second2date_fields {sec zone : Int} (h0 : 0 ≤ sec) (h1 : sec < 2 ^ 31) (hz : zone ≤ 2146000000)
    {c : Civil} (hc : IsLocal c sec zone) (hy : 1970 ≤ c.year) :
    second2date sec zone = some (Tm.mk c.sec c.min c.hour c.day c.month ((c.year : Int) - 1900)) := by
  have hl : 0 ≤ sec + 3600 * zone := by
    have h := hc.2
    rw [epoch_seconds] at h
    have hge : 719528 ≤ c.days := by
      have he := daysBeforeYear_eq 1970
      by_cases h : 1970 < c.year
      · have := daysBeforeYear_mono h
        unfold Civil.days; omega
      · have hy' : c.year = 1970 := by omega
        unfold Civil.days; rw [hy']; omega
    unfold Civil.seconds at h
    generalize c.days = D at *
    omega
  obtain ⟨c', h', e⟩ := second2date_eq h0 (by omega) hz hl
  rw [isLocal_unique hc h']
  exact e

/-- Finding: from 2^31 on the seconds are truncated to 32 bits: 2038-01-19 03:14:08 is converted to a date in 1901 with
a negative hour. -/
theorem year_2038_is_wrong :
    second2date (2 ^ 31) 0 = some { sec := 8, min := -14, hour := -3, mday := 14, mon := 11, year := 1 } := by decide +kernel

/-- Finding: whenever the local time falls before 1970 by a number of hours that is not a multiple of 24, the hour is
negative. -/
theorem before_1970_hour_negative {sec zone : Int} (h0 : 0 ≤ sec) (h1 : sec < 2 ^ 31) (hl : sec / 3600 + zone < 0)
    (hm : (sec / 3600 + zone) % 24 ≠ 0) {t : Tm} (ht : second2date sec zone = some t) : t.hour < 0 := by
  unfold second2date at ht
  have et : toInt sec = sec := by unfold toInt; omega
  simp only [et] at ht
  split at ht
  · rw [Option.map_eq_some_iff] at ht
    obtain ⟨⟨a, b, c⟩, _, e⟩ := ht
    rw [← e]
    simp only []
    rw [Int.tdiv_eq_ediv_of_nonneg h0, Int.tdiv_eq_ediv_of_nonneg (by omega)]
    have e1 : sec / 60 / 60 = sec / 3600 := by omega
    rw [e1]
    generalize sec / 3600 + zone = H at *
    have h2 : H.tmod 24 = -((-H) % 24) := by
      rw [← Int.tmod_eq_emod_of_nonneg (by omega : 0 ≤ -H), Int.neg_tmod]; omega
    rw [h2]; omega
  · simp at ht

-- midnight of 1970-01-01 in New York is shown as 1970-01-01 -5:00
example : second2date 0 (-5) = some { sec := 0, min := 0, hour := -5, mday := 1, mon := 0, year := 70 } := by decide +kernel
-- 2024-02-29 12:34:56 UTC, also in zone +12 (next day, 1 March)
example : second2date 1709210096 0 = some { sec := 56, min := 34, hour := 12, mday := 29, mon := 1, year := 124 } := by
  decide +kernel
example : second2date 1709210096 12 = some { sec := 56, min := 34, hour := 0, mday := 1, mon := 2, year := 124 } := by
  decide +kernel

/-! ### C50 -/

/-- What a call must return: the text of its local time, NUL-terminated at the start of the array, and the length. -/
def Right (c : Call) (str : Mem) (ret : Int) : Prop :=
  ∃ t, IsLocal t c.sec c.zone ∧ str.cstr 0 = some (text c.fmt t (c.usec.toNat / 1000)) ∧
    ret = (text c.fmt t (c.usec.toNat / 1000)).length ∧ str.length = c.str.length

/-- The calls considered: a time from one second after the epoch to 2^31-1, not before 1970 in the zone, and an array
of at least 24 bytes. -/
structure CallOk (c : Call) : Prop where
  time : TimeOk c.sec c.usec c.zone
  pos : 0 < c.sec
  room : 24 ≤ c.str.length

/-- Without the cache (`time_util_get_time_str`, `..._for_file_name`): the text of the local time. -/
theorem uncached_right {c : Call} (h : TimeOk c.sec c.usec c.zone) (hr : 24 ≤ c.str.length) :
    ∃ str ret, getTimeStr c.fmt c.sec c.usec c.str c.zone = some (str, ret) ∧ Right c str ret := by
  obtain ⟨t, after, hl, e, hlen⟩ := fresh_eq c.str c.fmt h hr
  exact ⟨_, _, e, t, hl, Mem.cstr_zero (text_no0 _ _ _), rfl, hlen⟩

/-- What a cache holds: its initial contents or the right text for its key. -/
def CacheOk (f : Fmt) (k : Cache) : Prop :=
  k.text.length = 24 ∧
    (k.sec = 0 ∨ ∃ t after, IsLocal t k.sec k.zone ∧ k.text = text f t (k.usec.toNat / 1000) ++ 0 :: after)

theorem lookup_right {c : Call} {k : Cache} (hc : CallOk c) (hk : CacheOk c.fmt k) :
    ∃ r, lookup k c.str c.sec c.usec c.zone = some r ∧ ∀ str n, r = some (str, n) → Right c str n := by
  unfold lookup
  by_cases hh : k.zone = c.zone ∧ k.sec = c.sec
  · rw [if_pos hh]
    obtain ⟨hk1, hk2⟩ := hk
    rcases hk2 with h0 | ⟨t, after, hl, ht⟩
    · have := hc.pos; omega
    · rw [hh.1, hh.2] at hl
      have hb := base_length c.fmt t
      have htl := text_length c.fmt t (k.usec.toNat / 1000)
      rw [ht, Strings.strlcpy_spec c.str _ after 24 (text_no0 _ _ _) hc.room, if_neg (by omega),
        List.take_of_length_le (by omega)]
      simp only [Option.bind_eq_bind, Option.bind_some]
      by_cases hu : k.usec ≠ c.usec
      · rw [if_pos hu, if_neg (by omega)]
        have hpm : printMillisec (c.str.front (text c.fmt t (k.usec.toNat / 1000) ++ [0]))
            ((text c.fmt t (k.usec.toNat / 1000)).length - 4) (millis c.usec) =
            some (text c.fmt t (c.usec.toNat / 1000) ++ 0 ::
              c.str.drop (text c.fmt t (k.usec.toNat / 1000) ++ [0]).length) := by
          unfold Mem.front
          rw [text_eq, text_eq, millis_eq hc.time.usec0 hc.time.usec1]
          simp only [three, List.append_assoc, List.cons_append, List.nil_append]
          rw [printMillisec_eq]
          · simp [three]
          · simp
        rw [hpm]
        simp only [Option.bind_some, Option.pure_def]
        refine ⟨_, rfl, ?_⟩
        intro str n e
        simp only [Option.some.injEq, Prod.mk.injEq] at e
        obtain ⟨rfl, rfl⟩ := e
        refine ⟨t, hl, Mem.cstr_zero (text_no0 _ _ _), ?_, ?_⟩
        · rw [text_length, text_length]
        · have := hc.room
          rw [List.length_append, text_length, List.length_cons, List.length_drop, List.length_append, text_length,
            List.length_singleton]
          omega
      · rw [if_neg hu]
        have hu' : k.usec = c.usec := Decidable.of_not_not hu
        rw [hu'] at htl ⊢
        refine ⟨_, rfl, ?_⟩
        intro str n e
        simp only [Option.some.injEq, Prod.mk.injEq] at e
        obtain ⟨rfl, rfl⟩ := e
        refine ⟨t, hl, ?_, rfl, ?_⟩
        · unfold Mem.front
          rw [List.append_assoc, List.singleton_append]
          exact Mem.cstr_zero (text_no0 _ _ _)
        · have := hc.room
          rw [Mem.front_length (by rw [List.length_append, List.length_singleton]; omega)]
  · rw [if_neg hh]
    exact ⟨none, rfl, fun _ _ e => by cases e⟩

/-- a formatted text as an object: the text, a NUL, garbage -/
theorem update_ok {c : Call} {k : Cache} (hk : CacheOk c.fmt k) {str : Mem} {ret : Int} (hr : Right c str ret) :
    ∃ k', update k str c.sec c.usec c.zone = some k' ∧ CacheOk c.fmt k' := by
  unfold update
  by_cases hs : k.sec ≠ c.sec
  · rw [if_pos hs]
    obtain ⟨t, hl, ht, _, _⟩ := hr
    obtain ⟨after, ha⟩ : ∃ after, str = text c.fmt t (c.usec.toNat / 1000) ++ 0 :: after := by
      unfold Mem.cstr at ht
      simp only [List.drop_zero] at ht
      split at ht
      · rename_i hlt
        simp only [Option.some.injEq] at ht
        rw [ht] at hlt
        have h1 := List.takeWhile_append_dropWhile (p := fun x : Byte => decide (x ≠ 0)) (l := str)
        rw [ht] at h1
        cases hd : str.dropWhile (fun x : Byte => decide (x ≠ 0)) with
        | nil =>
          rw [hd, List.append_nil] at h1
          have := congrArg List.length h1
          omega
        | cons x rest =>
          have hx : x = 0 := by
            have := List.head?_dropWhile_not (fun x : Byte => decide (x ≠ 0)) str
            rw [hd] at this
            simpa using this
          rw [hd, hx] at h1
          exact ⟨rest, h1.symm⟩
      · simp at ht
    have hb := base_length c.fmt t
    have htl := text_length c.fmt t (c.usec.toNat / 1000)
    rw [ha, Strings.strlcpy_spec k.text _ after 24 (text_no0 _ _ _) (by rw [hk.1]; omega), if_neg (by omega),
      List.take_of_length_le (by omega)]
    refine ⟨_, rfl, ?_, .inr ⟨t, k.text.drop (text c.fmt t (c.usec.toNat / 1000) ++ [0]).length, hl, ?_⟩⟩
    · simp only []
      rw [Mem.front_length (by rw [List.length_append, List.length_singleton, hk.1]; omega), hk.1]
    · simp only []
      unfold Mem.front
      rw [List.append_assoc, List.singleton_append]
  · rw [if_neg hs]
    exact ⟨k, rfl, hk⟩

/-- the invariant of a thread -/
def PhaseOk : Phase → Prop
  | .start c => CallOk c
  | .missed c str ret => CallOk c ∧ Right c str ret
  | .done c str ret => CallOk c ∧ Right c str ret

/-- the call a thread makes -/
def Phase.call : Phase → Call
  | .start c => c
  | .missed c _ _ => c
  | .done c _ _ => c

structure Inv (s : Sys) : Prop where
  caches : ∀ f, CacheOk f (s.caches f)
  threads : ∀ p ∈ s.threads, PhaseOk p

theorem stepPhase_ok {caches : Fmt → Cache} (hc : ∀ f, CacheOk f (caches f)) {p : Phase} (hp : PhaseOk p) :
    ∃ k q, stepPhase caches p = some (k, q) ∧ (∀ f, CacheOk f (k f)) ∧ PhaseOk q ∧ q.call = p.call := by
  cases p with
  | start c =>
    obtain ⟨r, e, hr⟩ := lookup_right hp (hc c.fmt)
    simp only [stepPhase]
    rw [e]
    simp only [Option.bind_eq_bind, Option.bind_some]
    cases r with
    | some x =>
      obtain ⟨str, n⟩ := x
      exact ⟨_, _, rfl, hc, ⟨hp, hr str n rfl⟩, rfl⟩
    | none =>
      obtain ⟨str, n, e, hright⟩ := uncached_right hp.time hp.room
      unfold getTimeStr at e
      rw [e]
      exact ⟨_, _, rfl, hc, ⟨hp, hright⟩, rfl⟩
  | missed c str n =>
    obtain ⟨k, e, hk⟩ := update_ok (hc c.fmt) hp.2
    simp only [stepPhase]
    rw [e]
    simp only [Option.bind_eq_bind, Option.bind_some, Option.pure_def]
    refine ⟨_, _, rfl, ?_, hp, rfl⟩
    intro f
    by_cases h : f = c.fmt
    · subst h; simp only [if_true]; exact hk
    · simp only [h, if_false]; exact hc f
  | done c str n => exact ⟨_, _, rfl, hc, hp, rfl⟩

theorem step_ok {s : Sys} (h : Inv s) (i : Nat) :
    ∃ s', step s i = some s' ∧ Inv s' ∧ s'.threads.map Phase.call = s.threads.map Phase.call := by
  unfold step
  cases hi : s.threads[i]? with
  | none => exact ⟨s, rfl, h, rfl⟩
  | some p =>
    obtain ⟨k, q, e, hk, hq, hqc⟩ := stepPhase_ok h.caches (h.threads p (List.mem_of_getElem? hi))
    simp only []
    rw [e]
    refine ⟨_, rfl, ⟨hk, ?_⟩, ?_⟩
    · intro p' hp'
      rcases List.mem_or_eq_of_mem_set hp' with h' | h'
      · exact h.threads _ h'
      · rw [h']; exact hq
    · simp only []
      rw [List.map_set, hqc]
      apply List.ext_getElem?
      intro j
      rw [List.getElem?_set]
      by_cases hj : i = j
      · subst hj
        rw [if_pos rfl, List.getElem?_map, hi]
        simp only [List.length_map, Option.map_some]
        rw [if_pos]
        exact (List.getElem?_eq_some_iff.mp hi).1
      · rw [if_neg hj]

theorem run_ok (is : List Nat) : ∀ {s : Sys}, Inv s →
    ∃ s', run s is = some s' ∧ Inv s' ∧ s'.threads.map Phase.call = s.threads.map Phase.call := by
  induction is with
  | nil => intro s h; exact ⟨s, rfl, h, rfl⟩
  | cons i is ih =>
    intro s h
    obtain ⟨s1, e1, h1, c1⟩ := step_ok h i
    obtain ⟨s2, e2, h2, c2⟩ := ih h1
    refine ⟨s2, ?_, h2, c2.trans c1⟩
    unfold run
    rw [e1]
    exact e2

theorem cache_init_ok (f : Fmt) : CacheOk f Cache.init := ⟨by decide, .inl rfl⟩

/-- **C50**: any number of concurrent calls of the cached functions, with any times, zones and formats, in any
interleaving of their critical sections: nothing undefined happens and every call that has returned has returned the
text of its own time. -/
theorem cached_calls_right (calls : List Call) (h : ∀ c ∈ calls, CallOk c) (is : List Nat) :
    ∃ s, run { caches := fun _ => Cache.init, threads := calls.map .start } is = some s ∧
      s.threads.length = calls.length ∧
      ∀ (i : Nat) c str ret, s.threads[i]? = some (Phase.done c str ret) → calls[i]? = some c ∧ Right c str ret := by
  obtain ⟨s, e, hi, hc⟩ := run_ok is (s := { caches := fun _ => Cache.init, threads := calls.map .start })
    ⟨cache_init_ok, by
      intro p hp
      rw [List.mem_map] at hp
      obtain ⟨c, hc, rfl⟩ := hp
      exact h c hc⟩
  have hcalls : s.threads.map Phase.call = calls := by
    rw [hc, List.map_map]
    have : Phase.call ∘ Phase.start = id := rfl
    rw [this, List.map_id]
  refine ⟨s, e, ?_, ?_⟩
  · have := congrArg List.length hcalls
    rw [List.length_map] at this
    exact this
  · intro i c str ret ht
    refine ⟨?_, (hi.threads _ (List.mem_of_getElem? ht)).2⟩
    rw [← hcalls, List.getElem?_map, ht]
    rfl

/-- Every call returns after at most two of its steps: a thread that has been scheduled twice is done. -/
theorem two_steps_return {caches1 caches2 k1 k2 : Fmt → Cache} {c : Call} {p q : Phase}
    (h1 : stepPhase caches1 (.start c) = some (k1, p)) (h2 : stepPhase caches2 p = some (k2, q)) :
    ∃ str ret, q = .done c str ret := by
  have hd : ∀ str n, p = .done c str n → ∃ str ret, q = .done c str ret := by
    intro str n e
    subst e
    simp only [stepPhase, Option.some.injEq, Prod.mk.injEq] at h2
    exact ⟨str, n, h2.2.symm⟩
  simp only [stepPhase, Option.bind_eq_bind, Option.bind_eq_some_iff] at h1
  obtain ⟨r, _, h1⟩ := h1
  cases r with
  | some x =>
    simp only [Option.pure_def, Option.some.injEq, Prod.mk.injEq] at h1
    exact hd _ _ h1.2.symm
  | none =>
    simp only [Option.pure_def, Option.bind_eq_some_iff, Option.some.injEq, Prod.mk.injEq] at h1
    obtain ⟨x, _, _, rfl⟩ := h1
    simp only [stepPhase, Option.bind_eq_bind, Option.bind_eq_some_iff, Option.pure_def, Option.some.injEq, Prod.mk.injEq] at h2
    obtain ⟨k, _, _, rfl⟩ := h2
    exact ⟨_, _, rfl⟩

/-- Finding: a call in UTC at the epoch second itself hits the zero-initialised cache and returns the empty text (and,
with a non-zero microsecond, writes before the array). -/
theorem epoch_second_hits_empty_cache (str : Mem) (hs : 24 ≤ str.length) :
    lookup Cache.init str 0 0 0 = some (some (0 :: str.drop 1, 0)) ∧ lookup Cache.init str 0 5000 0 = none := by
  have e := Strings.strlcpy_spec str [] (List.replicate 23 0) 24 (by simp) hs
  have e' : Strings.strlcpy str Cache.init.text 24 = some (str.front [0], 0) := e
  constructor
  · unfold lookup
    rw [if_pos ⟨rfl, rfl⟩, e']
    rfl
  · unfold lookup
    rw [if_pos ⟨rfl, rfl⟩, e']
    rfl

-- two calls in the same second share the cached text, with their own milliseconds
def exCall (usec : Int) : Call := ⟨.stamp, 1709210096, usec, 8, List.replicate 24 7⟩

theorem exCall_ok : CallOk (exCall 123456) ∧ CallOk (exCall 7000) :=
  ⟨⟨⟨by decide, by decide, by decide, by decide, by decide, by decide⟩, by decide, by decide⟩,
   ⟨⟨by decide, by decide, by decide, by decide, by decide, by decide⟩, by decide, by decide⟩⟩

-- "02-29 20:34:56.123" and "02-29 20:34:56.007"
example : (run { caches := fun _ => Cache.init, threads := [.start (exCall 123456), .start (exCall 7000)] } [0, 0, 1]).map
    (fun s => s.threads.map fun p => match p with | .done _ str n => (str.cstr 0, n) | _ => (none, 0)) =
    some [(some [48, 50, 45, 50, 57, 32, 50, 48, 58, 51, 52, 58, 53, 54, 46, 49, 50, 51], 18),
      (some [48, 50, 45, 50, 57, 32, 50, 48, 58, 51, 52, 58, 53, 54, 46, 48, 48, 55], 18)] := by decide +kernel

end Verif.TimeUtil
