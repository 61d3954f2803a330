import Verif.Zone.Model
import Verif.Zone.Spec
import Verif.TimeUtil.Props
/-! # C100: the zone offset and the clock of log file names -/
namespace Verif.Zone
open Spec
open Verif.TimeUtil.Spec (Civil epoch IsLocal)

variable {z : TZ} {gm : Int → Civil} {mk : Civil → Int}

/-- **C100**: the answer is an offset the zone really has: at the instant "now minus the answer". -/
theorem offset_of_some_instant {now t : Int} (hg : GmTime gm now) (hm : MkTime z mk) (ht : t + z t = now)
    {d : Int} (hd : zoneOffset gm mk now = some d) : z (now - d) = d := by
  have hs : Shows z (gm now) t := ⟨hg.1, by have := hg.2; simp only [utc] at this; omega⟩
  have h := (hm _ ⟨t, hs⟩).2
  have h2 := hg.2
  simp only [utc] at h2
  simp only [zoneOffset] at hd
  split at hd
  · obtain rfl := Option.some.inj hd
    rw [show now - (now - mk (gm now)) = mk (gm now) by omega]
    omega
  · simp at hd

/-- **C100**: if the zone's offset does not change around now - within the largest offset the zone has - the answer is the
offset in force. -/
theorem offset_right {now B : Int} (hg : GmTime gm now) (hm : MkTime z mk) (hB : B < 2 ^ 31) (hz : ∀ t, -B ≤ z t ∧ z t ≤ B)
    (hc : ∀ t, now - B ≤ t → t ≤ now + B → z t = z now) : zoneOffset gm mk now = some (z now) := by
  have h0 := hz now
  have e1 : z (now - z now) = z now := hc _ (by omega) (by omega)
  have hs : Shows z (gm now) (now - z now) := ⟨hg.1, by have := hg.2; simp only [utc] at this; rw [e1]; omega⟩
  have h := (hm _ ⟨_, hs⟩).2
  have h2 := hg.2
  simp only [utc] at h2
  have hb := hz (mk (gm now))
  have e2 : z (mk (gm now)) = z now := hc _ (by omega) (by omega)
  have e3 : now - mk (gm now) = z now := by omega
  simp only [zoneOffset, e3]
  rw [if_pos ⟨by omega, by omega⟩]

/-- **C100**: in a zone without changes the answer is always right. -/
theorem offset_fixed {now o : Int} (hg : GmTime gm now) (hm : MkTime (fun _ => o) mk) (h1 : -2 ^ 31 < o) (h2 : o < 2 ^ 31) :
    zoneOffset gm mk now = some o :=
  offset_right (z := fun _ => o) (B := if 0 ≤ o then o else -o) hg hm (by split <;> omega)
    (fun _ => by split <;> constructor <;> omega) (fun _ _ _ => rfl)

/-- there is always a `gmtime` value and an `mktime` that keeps its contract -/
theorem exists_gm {now : Int} (h0 : 0 ≤ now) (h1 : now < 2 ^ 31) : ∃ c : Civil, Shows utc c now := by
  obtain ⟨c, hc, _⟩ := TimeUtil.second2date_correct_partial (sec := now) (zone := 0) h0 h1 (by omega) (by omega)
  exact ⟨c, hc.1, by have := hc.2; simp only [utc]; omega⟩

theorem exists_mk (z : TZ) : ∃ mk, MkTime z mk := by
  classical
  exact ⟨fun c => if h : ∃ t, Shows z c t then h.choose else 0, fun c h => by simp only [dif_pos h]; exact h.choose_spec⟩

/-- **Finding**: near a change the answer can be wrong.  Clocks go from one hour to two hours ahead at instant `T`; for an hour
after the change every `mktime` that keeps its contract makes the function answer the old offset. -/
theorem offset_wrong_after_change {T now : Int} (hg : GmTime gm now)
    (hm : MkTime (fun t => if t < T then 3600 else 7200) mk) (h1 : T ≤ now) (h2 : now < T + 3600) :
    zoneOffset gm mk now = some 3600 ∧ (fun t => if t < T then (3600 : Int) else 7200) now = 7200 := by
  refine ⟨?_, by simp only; rw [if_neg (by omega)]⟩
  have hs : Shows (fun t => if t < T then 3600 else 7200) (gm now) (now - 3600) :=
    ⟨hg.1, by have := hg.2; simp only [utc] at this ⊢; rw [if_pos (by omega)]; omega⟩
  have h := (hm _ ⟨_, hs⟩).2
  have h3 := hg.2
  simp only [utc] at h3 h
  have e : now - mk (gm now) = 3600 := by
    split at h
    · omega
    · omega
  simp only [zoneOffset, e]
  rw [if_pos (by omega)]

/-- its hypotheses are met -/
example : ∃ gm mk, GmTime gm 1000000100 ∧ MkTime (fun t => if t < 1000000000 then 3600 else 7200) mk := by
  obtain ⟨c, hc⟩ := exists_gm (now := 1000000100) (by omega) (by omega)
  obtain ⟨mk, hm⟩ := exists_mk (fun t => if t < 1000000000 then 3600 else 7200)
  exact ⟨fun _ => c, mk, hc, hm⟩

/-- **C100**: what the name of a log file shows, for a logger whose offset was determined as `d`: the civil time that is
`d` without its incomplete hour ahead of UTC - less than an hour from the clock of a zone `d` ahead. -/
theorem file_date {now sec d : Int} (hd : zoneOffset gm mk now = some d) (h0 : 0 ≤ sec) (h1 : sec < 2 ^ 31)
    (hl2 : 0 ≤ sec + 3600 * d.tdiv 3600) :
    ∃ c : Civil, Shows (fun _ => 3600 * d.tdiv 3600) c sec ∧
      fileDate gm mk now sec = some (TimeUtil.Tm.mk c.sec c.min c.hour c.day c.month ((c.year : Int) - 1900)) ∧
      d - 3600 < 3600 * d.tdiv 3600 ∧ 3600 * d.tdiv 3600 < d + 3600 := by
  have hdr : -2 ^ 31 ≤ d ∧ d < 2 ^ 31 := by
    simp only [zoneOffset] at hd
    split at hd
    · obtain rfl := Option.some.inj hd; assumption
    · simp at hd
  have hq : d - 3600 < 3600 * d.tdiv 3600 ∧ 3600 * d.tdiv 3600 < d + 3600 ∧ d.tdiv 3600 ≤ 2146000000 := by
    have e := Int.mul_tdiv_add_tmod d 3600
    have a := Int.tmod_lt_of_pos d (b := 3600) (by omega)
    have b := Int.lt_tmod_of_pos d (b := 3600) (by omega)
    refine ⟨by omega, by omega, by omega⟩
  obtain ⟨c, hc, e⟩ := TimeUtil.second2date_correct_partial (sec := sec) (zone := d.tdiv 3600) h0 h1 hq.2.2 hl2
  refine ⟨c, ⟨hc.1, hc.2⟩, ?_, hq.1, hq.2.1⟩
  simp only [fileDate, loggerHour, hd, Option.map_some, Option.bind_some]
  exact e

/-- **C100**: in a zone a whole number of hours ahead of UTC, without changes, the name shows the local time. -/
theorem file_date_local {now sec : Int} {h : Int} (hg : GmTime gm now) (hm : MkTime (fun _ => 3600 * h) mk) (hh : -24 ≤ h ∧ h ≤ 24)
    (h0 : 0 ≤ sec) (h1 : sec < 2 ^ 31) (hl : 0 ≤ sec + 3600 * h) :
    ∃ c : Civil, Shows (fun _ => 3600 * h) c sec ∧
      fileDate gm mk now sec = some (TimeUtil.Tm.mk c.sec c.min c.hour c.day c.month ((c.year : Int) - 1900)) := by
  have hd := offset_fixed (now := now) hg hm (by omega) (by omega)
  have e : (3600 * h).tdiv 3600 = h := by rw [Int.mul_tdiv_cancel_left _ (by omega)]
  obtain ⟨c, hc, e2, _⟩ := file_date (sec := sec) hd h0 h1 (by rw [e]; omega)
  rw [e] at hc
  exact ⟨c, hc, e2⟩

/-- **Finding**: in a zone with a half hour (India: 5:30) the names are half an hour slow. -/
theorem file_date_half_hour {now sec : Int} (hg : GmTime gm now) (hm : MkTime (fun _ => 19800) mk) (h0 : 0 ≤ sec) (h1 : sec < 2 ^ 31) :
    ∃ c : Civil, Shows (fun _ => 19800) c (sec - 1800) ∧
      fileDate gm mk now sec = some (TimeUtil.Tm.mk c.sec c.min c.hour c.day c.month ((c.year : Int) - 1900)) := by
  have hd := offset_fixed (now := now) hg hm (by omega) (by omega)
  have e : (19800 : Int).tdiv 3600 = 5 := by decide
  obtain ⟨c, hc, e2, _⟩ := file_date (sec := sec) hd h0 h1 (by rw [e]; omega)
  rw [e] at hc
  exact ⟨c, ⟨hc.1, by have := hc.2; simp only at this ⊢; omega⟩, e2⟩

/-- **C100**: `xlog_set_timezone` takes the whole hours from -12 to 12 and ignores everything else. -/
theorem set_timezone (old hour : Int) : (-12 ≤ hour ∧ hour ≤ 12 → setTimezone old hour = hour) ∧
    (¬ (-12 ≤ hour ∧ hour ≤ 12) → setTimezone old hour = old) := by
  unfold setTimezone
  exact ⟨fun h => by rw [if_neg (by omega)], fun h => by rw [if_pos (by omega)]⟩

/-- **Finding**: so the zones 13 and 14 hours ahead (Tonga, Samoa, Kiribati) cannot be set. -/
theorem zones_refused (old : Int) : setTimezone old 13 = old ∧ setTimezone old 14 = old := by
  constructor <;> (unfold setTimezone; rw [if_pos (by omega)])

end Verif.Zone
