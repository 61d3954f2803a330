import Verif.TimeMt.Model
import Verif.TimeUtil.Props
/-!
# C104: time strings from the cache, with any number of threads, at the granularity of single accesses
-/
namespace Verif.TimeMt
open Verif.TimeUtil Verif.TimeUtil.Spec

/-! ### One byte of a copy -/

theorem cpy_byte {T after d : List Byte} {i : Nat} {b : Byte} (h0 : (0 : Byte) ∉ T) (hT : T.length ≤ 22) (hi : i ≤ T.length)
    (hd : 24 ≤ d.length) (hb : (T ++ 0 :: after)[i]? = some b) :
    (b ≠ 0 ∧ i < T.length ∧ cpy (T.take i ++ d.drop i) b i = some (T.take (i + 1) ++ d.drop (i + 1))) ∨
    (b = 0 ∧ i = T.length ∧ cpy (T.take i ++ d.drop i) b i = some (T ++ 0 :: d.drop (T.length + 1))) := by
  have hlt : (T.take i).length = i := by rw [List.length_take]; omega
  have hst : ∀ x : Byte, Mem.store (T.take i ++ d.drop i) i [x] = some (T.take i ++ x :: d.drop (i + 1)) := by
    intro x
    rw [Mem.store_eq_some (by rw [List.length_append, hlt, List.length_drop, List.length_singleton]; omega)]
    rw [List.take_append_of_le_length (by omega), List.take_of_length_le (by omega), List.length_singleton,
      List.drop_append, List.drop_of_length_le (by omega), hlt, List.drop_drop, List.nil_append, List.append_assoc,
      show i + (i + 1 - i) = i + 1 by omega]
    rfl
  rcases Nat.lt_or_ge i T.length with h | h
  · left
    rw [List.getElem?_append_left h, List.getElem?_eq_getElem h] at hb
    obtain rfl := Option.some.inj hb
    refine ⟨fun e => h0 (e ▸ List.getElem_mem h), h, ?_⟩
    rw [cpy, if_pos (by omega), hst, List.take_succ_eq_append_getElem h, List.append_assoc, List.singleton_append]
  · right
    have hi' : i = T.length := by omega
    subst hi'
    rw [List.getElem?_append_right (Nat.le_refl _), Nat.sub_self] at hb
    obtain rfl := Option.some.inj hb
    refine ⟨rfl, rfl, ?_⟩
    rw [cpy, if_pos (by omega), hst, List.take_length]

/-- A text in an object, from what C's string functions see. -/
theorem cstr_split {str : Mem} {T : List Byte} (h : str.cstr 0 = some T) : ∃ after, str = T ++ 0 :: after := by
  unfold Mem.cstr at h
  simp only [List.drop_zero] at h
  split at h
  · rename_i hlt
    simp only [Option.some.injEq] at h
    rw [h] at hlt
    have h1 := List.takeWhile_append_dropWhile (p := fun x : Byte => decide (x ≠ 0)) (l := str)
    rw [h] at h1
    cases hd : str.dropWhile (fun x : Byte => decide (x ≠ 0)) with
    | nil =>
      rw [hd, List.append_nil] at h1
      have := congrArg List.length h1
      omega
    | cons x rest =>
      have hx : x = 0 := by
        have := List.head?_dropWhile_not (fun x : Byte => decide (x ≠ 0)) str
        rw [hd] at this
        simpa using this
      rw [hd, hx] at h1
      exact ⟨rest, h1.symm⟩
  · simp at h

/-! ### Invariant -/

def Pc.call : Pc → Call
  | .start c | .rdZone c | .rdSec c | .copy c _ _ | .rdUsec c _ _ | .hit c _ _ _ | .miss c | .want c _ _ | .check c _ _
  | .fill c _ _ _ | .wrZone c _ _ | .wrSec c _ _ | .wrUsec c _ _ | .leave c _ _ | .done c _ _ => c

/-- What is known of a thread. -/
def PcOk (f : Fmt) (k : Cache) : Pc → Prop
  | .start _ => True
  | .rdZone _ => True
  | .rdSec c => k.zone = c.zone
  | .copy c i str => k.zone = c.zone ∧ k.sec = c.sec ∧ ∃ T after, k.text = T ++ 0 :: after ∧ (0 : Byte) ∉ T ∧ T.length ≤ 22 ∧
      i ≤ T.length ∧ str = T.take i ++ c.str.drop i
  | .rdUsec c str n => k.zone = c.zone ∧ k.sec = c.sec ∧ Strings.strlcpy c.str k.text 24 = some (str, n)
  | .hit c str n patch => k.zone = c.zone ∧ k.sec = c.sec ∧ Strings.strlcpy c.str k.text 24 = some (str, n) ∧
      patch = decide (k.usec ≠ c.usec)
  | .miss _ => True
  | .want c str ret => Right c str ret
  | .check c str ret => Right c str ret ∧ CacheOk f k
  | .fill c str ret i => Right c str ret ∧ ∃ (t : Civil) (after d : List Byte), IsLocal t c.sec c.zone ∧ str = text f t (c.usec.toNat / 1000) ++ 0 :: after ∧
      i ≤ (text f t (c.usec.toNat / 1000)).length ∧ d.length = 24 ∧ k.text = (text f t (c.usec.toNat / 1000)).take i ++ d.drop i
  | .wrZone c str ret => Right c str ret ∧ k.text.length = 24 ∧ ∃ (t : Civil) (after : List Byte), IsLocal t c.sec c.zone ∧
      k.text = text f t (c.usec.toNat / 1000) ++ 0 :: after
  | .wrSec c str ret => Right c str ret ∧ k.zone = c.zone ∧ k.text.length = 24 ∧ ∃ (t : Civil) (after : List Byte), IsLocal t c.sec c.zone ∧
      k.text = text f t (c.usec.toNat / 1000) ++ 0 :: after
  | .wrUsec c str ret => Right c str ret ∧ k.zone = c.zone ∧ k.sec = c.sec ∧ k.text.length = 24 ∧ ∃ (t : Civil) (after : List Byte), IsLocal t c.sec c.zone ∧
      k.text = text f t (c.usec.toNat / 1000) ++ 0 :: after
  | .leave c str ret => Right c str ret ∧ CacheOk f k
  | .done c str ret => Right c str ret

/-- How much a thread has still to do. -/
def rank : Pc → Nat
  | .start _ => 100
  | .rdZone _ => 99
  | .rdSec _ => 98
  | .copy _ i _ => 97 - i
  | .rdUsec _ _ _ => 60
  | .hit _ _ _ _ => 59
  | .miss _ => 59
  | .want _ _ _ => 58
  | .check _ _ _ => 57
  | .fill _ _ _ i => 56 - i
  | .wrZone _ _ _ => 20
  | .wrSec _ _ _ => 19
  | .wrUsec _ _ _ => 18
  | .leave _ _ _ => 17
  | .done _ _ _ => 0

theorem text_short (f : Fmt) (t : Civil) (ms : Nat) : (text f t ms).length ≤ 18 := by
  have := base_length f t
  rw [text_length]
  omega

/-- One step of a thread. -/
theorem act_ok {f : Fmt} {k : Cache} {p : Pc} (hc : CallOk p.call) (hf : p.call.fmt = f) (hp : PcOk f k p)
    (hk : p.reads = true ∨ (∃ c str ret, p = .want c str ret) → CacheOk f k) (hd : ∀ c str ret, p ≠ .done c str ret) :
    ∃ k' q, act k p = some (k', q) ∧ q.call = p.call ∧ PcOk f k' q ∧ rank q < rank p ∧ (p.writes = false → k' = k) ∧
      (p.writes = true → q.writes = false → CacheOk f k') ∧
      (q.reads = true → p.reads = true ∨ ∃ c, p = .start c) ∧
      (q.writes = true → p.writes = true ∨ ∃ c str ret, p = .want c str ret) := by
  cases p with
  | start c => exact ⟨k, _, rfl, rfl, trivial, by simp [rank], fun _ => rfl, by simp [Pc.writes], by simp, by simp [Pc.writes]⟩
  | rdZone c =>
    refine ⟨k, _, rfl, ?_, ?_, ?_, fun _ => rfl, by simp [Pc.writes], by simp [Pc.reads], ?_⟩ <;> split
    · rfl
    · rfl
    · assumption
    · trivial
    · simp [rank]
    · simp [rank]
    · simp [Pc.writes]
    · simp [Pc.writes]
  | rdSec c =>
    refine ⟨k, _, rfl, ?_, ?_, ?_, fun _ => rfl, by simp [Pc.writes], by simp [Pc.reads], ?_⟩ <;> split
    · rfl
    · rfl
    · next h =>
      obtain ⟨_, h2⟩ := hk (.inl rfl)
      rcases h2 with h2 | ⟨t, after, _, e⟩
      · have := hc.pos
        simp only [Pc.call] at this
        omega
      · exact ⟨hp, h, _, after, e, text_no0 _ _ _, by have := text_short f t (k.usec.toNat / 1000); omega, Nat.zero_le _, by simp⟩
    · trivial
    · simp [rank]
    · simp [rank]
    · simp [Pc.writes]
    · simp [Pc.writes]
  | copy c i str =>
    obtain ⟨h1, h2, T, after, e, h0, hT, hi, rfl⟩ := hp
    have hroom : 24 ≤ c.str.length := hc.room
    have hlt : i < k.text.length := by rw [e, List.length_append, List.length_cons]; omega
    obtain ⟨b, hb⟩ : ∃ b, k.text[i]? = some b := ⟨_, List.getElem?_eq_getElem hlt⟩
    simp only [act, hb, Option.bind_eq_bind, Option.bind_some]
    have hb' := hb
    rw [e] at hb'
    rcases cpy_byte h0 hT hi hroom hb' with ⟨b1, b2, b3⟩ | ⟨b1, b2, b3⟩
    · rw [b3]
      simp only [Option.bind_some, if_neg b1]
      exact ⟨k, _, rfl, rfl, ⟨h1, h2, T, after, e, h0, hT, by omega, rfl⟩, by simp only [rank]; omega, fun _ => rfl, by simp [Pc.writes],
        by simp [Pc.reads], by simp [Pc.writes]⟩
    · rw [b3]
      simp only [Option.bind_some, if_pos b1]
      refine ⟨k, _, rfl, rfl, ⟨h1, h2, ?_⟩, by simp only [rank]; omega, fun _ => rfl, by simp [Pc.writes], by simp [Pc.reads], by simp [Pc.writes]⟩
      rw [e, Strings.strlcpy_spec c.str _ after 24 h0 hroom, if_neg (by omega), List.take_of_length_le (by omega), b2]
      unfold Mem.front
      rw [List.append_assoc, List.singleton_append, List.length_append, List.length_singleton]
  | rdUsec c str n => exact ⟨k, _, rfl, rfl, ⟨hp.1, hp.2.1, hp.2.2, rfl⟩, by simp [rank], fun _ => rfl, by simp [Pc.writes], by simp [Pc.reads], by simp [Pc.writes]⟩
  | hit c str n patch =>
    obtain ⟨h1, h2, h3, h4⟩ := hp
    obtain ⟨r, e, hr⟩ := lookup_right hc (k := k) (by have := hk (.inl rfl); simp only [Pc.call] at hf ⊢; rw [hf]; exact this)
    simp only [Pc.call] at e hr
    unfold lookup at e
    rw [if_pos ⟨h1, h2⟩, h3] at e
    simp only [Option.bind_eq_bind, Option.bind_some] at e
    simp only [act]
    by_cases hu : k.usec ≠ c.usec
    · rw [if_pos hu] at e
      rw [decide_eq_true hu] at h4
      rw [if_pos h4]
      by_cases hn : n < 4
      · rw [if_pos hn] at e; cases e
      · rw [if_neg hn] at e ⊢
        obtain ⟨str', e1, e2⟩ := Option.bind_eq_some_iff.1 e
        rw [e1]
        simp only [Option.pure_def, Option.some.injEq] at e2
        exact ⟨k, _, rfl, rfl, hr _ _ e2.symm, by simp [rank], fun _ => rfl, by simp [Pc.writes], by simp [Pc.reads], by simp [Pc.writes]⟩
    · rw [if_neg hu] at e
      rw [decide_eq_false hu] at h4
      rw [if_neg (by rw [h4]; simp)]
      simp only [Option.pure_def, Option.some.injEq] at e
      exact ⟨k, _, rfl, rfl, hr _ _ e.symm, by simp [rank], fun _ => rfl, by simp [Pc.writes], by simp [Pc.reads], by simp [Pc.writes]⟩
  | miss c =>
    obtain ⟨str, n, e, hright⟩ := uncached_right hc.time hc.room
    unfold getTimeStr at e
    simp only [Pc.call] at e hright
    simp only [act, e, Option.map_some]
    exact ⟨k, _, rfl, rfl, hright, by simp [rank], fun _ => rfl, by simp [Pc.writes], by simp [Pc.reads], by simp [Pc.writes]⟩
  | want c str ret => exact ⟨k, _, rfl, rfl, ⟨hp, hk (.inr ⟨_, _, _, rfl⟩)⟩, by simp [rank], fun _ => rfl, by simp [Pc.writes], by simp [Pc.reads], by simp⟩
  | check c str ret =>
    obtain ⟨hp, hko⟩ := hp
    refine ⟨k, _, rfl, ?_, ?_, ?_, fun _ => rfl, ?_, ?_, by simp [Pc.writes]⟩ <;> split
    · rfl
    · rfl
    · refine ⟨hp, ?_⟩
      obtain ⟨t, hl, ht, _, _⟩ := hp
      obtain ⟨after, ha⟩ := cstr_split ht
      simp only [Pc.call] at hf
      rw [hf] at ha
      exact ⟨t, after, k.text, hl, ha, Nat.zero_le _, hko.1, by simp⟩
    · exact ⟨hp, hko⟩
    · simp [rank]
    · simp [rank]
    · simp [Pc.writes]
    · simp [Pc.writes]
    · simp [Pc.reads]
    · simp [Pc.reads]
  | fill c str ret i =>
    obtain ⟨hr, t, after, d, hl, rfl, hi, hd24, e⟩ := hp
    have h0 := text_no0 f t (c.usec.toNat / 1000)
    have hT := text_short f t (c.usec.toNat / 1000)
    generalize hTe : text f t (c.usec.toNat / 1000) = T at *
    obtain ⟨b, hb⟩ : ∃ b, (T ++ 0 :: after)[i]? = some b :=
      ⟨_, List.getElem?_eq_getElem (by rw [List.length_append, List.length_cons]; omega)⟩
    simp only [act, hb, Option.bind_eq_bind, Option.bind_some, e]
    rcases cpy_byte (d := d) h0 (by omega) hi (by omega) hb with ⟨b1, b2, b3⟩ | ⟨b1, b2, b3⟩
    · rw [b3]
      simp only [Option.bind_some, if_neg b1]
      exact ⟨_, _, rfl, rfl, ⟨hr, t, after, d, hl, by rw [hTe], by rw [hTe]; omega, hd24, by rw [hTe]⟩, by simp only [rank]; omega,
        by simp [Pc.writes], by simp [Pc.writes], by simp [Pc.reads], by simp [Pc.writes]⟩
    · rw [b3]
      simp only [Option.bind_some, if_pos b1]
      refine ⟨_, _, rfl, rfl, ⟨hr, ?_, t, d.drop (T.length + 1), hl, by rw [hTe]⟩, by simp only [rank]; omega,
        by simp [Pc.writes], by simp [Pc.writes], by simp [Pc.reads], by simp [Pc.writes]⟩
      simp only [List.length_append, List.length_cons, List.length_drop]
      omega
  | wrZone c str ret =>
    obtain ⟨hr, h2, h3⟩ := hp
    exact ⟨_, _, rfl, rfl, ⟨hr, rfl, h2, h3⟩, by simp [rank], by simp [Pc.writes], by simp [Pc.writes], by simp [Pc.reads], by simp [Pc.writes]⟩
  | wrSec c str ret =>
    obtain ⟨hr, h1, h2, h3⟩ := hp
    exact ⟨_, _, rfl, rfl, ⟨hr, h1, rfl, h2, h3⟩, by simp [rank], by simp [Pc.writes], by simp [Pc.writes], by simp [Pc.reads], by simp [Pc.writes]⟩
  | wrUsec c str ret =>
    obtain ⟨hr, h1, h2, h3, t, after, hl, e⟩ := hp
    refine ⟨_, _, rfl, rfl, ⟨hr, h3, .inr ⟨t, after, ?_, e⟩⟩, by simp [rank], by simp [Pc.writes], by simp [Pc.writes], by simp [Pc.reads], by simp [Pc.writes]⟩
    show IsLocal t k.sec k.zone
    rw [h1, h2]
    exact hl
  | leave c str ret =>
    exact ⟨k, _, rfl, rfl, hp.1, by simp [rank], fun _ => rfl, fun _ _ => hp.2, by simp [Pc.reads], by simp [Pc.writes]⟩
  | done c str ret => exact absurd rfl (hd c str ret)

/-- The invariant. -/
structure Inv (f : Fmt) (s : Sys) : Prop where
  calls : ∀ p ∈ s.ths, CallOk p.call ∧ p.call.fmt = f
  ths : ∀ p ∈ s.ths, PcOk f s.cache p
  excl : ∀ (i j : Nat) (p q : Pc), s.ths[i]? = some p → s.ths[j]? = some q → i ≠ j → p.writes = true →
    q.writes = false ∧ q.reads = false
  cache : (∀ p ∈ s.ths, p.writes = false) → CacheOk f s.cache

/-- Who holds no lock does not care about the cache. -/
theorem PcOk.other {f : Fmt} {k k' : Cache} {p : Pc} (h : PcOk f k p) (hw : p.writes = false) (hr : p.reads = false) : PcOk f k' p := by
  cases p <;> first | exact h | (simp [Pc.writes] at hw; done) | (simp [Pc.reads] at hr; done)

theorem act_done {p : Pc} {lk : Bool} {l : List Pc} (h : may lk l p = true) (c : Call) (str : Mem) (ret : Int) :
    p ≠ .done c str ret := by
  rintro rfl
  simp [may] at h

theorem inv_act {f : Fmt} {s : Sys} (v : Inv f s) {i : Nat} {p : Pc} (hi : s.ths[i]? = some p) (hm : may true s.ths p = true) :
    ∃ k' q, act s.cache p = some (k', q) ∧ Inv f ⟨k', s.ths.set i q⟩ ∧ q.call = p.call ∧ rank q < rank p := by
  have hp := List.mem_of_getElem? hi
  -- nobody else writes when this thread reads
  have h1 : p.reads = true → ∀ q ∈ s.ths, q.writes = false := by
    intro h q hq
    obtain ⟨j, hj⟩ := List.getElem?_of_mem hq
    by_cases hij : j = i
    · subst hij
      rw [hi] at hj
      obtain rfl := Option.some.inj hj
      cases p <;> simp [Pc.reads] at h <;> rfl
    · cases hw : q.writes with
      | false => rfl
      | true =>
        have := (v.excl j i q p hj hi hij hw).2
        rw [h] at this
        cases this
  -- whoever may begin to hold the lock finds it free
  have h2 : (∃ c, p = .start c) → ∀ q ∈ s.ths, q.writes = false := by
    rintro ⟨c, rfl⟩ q hq
    simp only [may, Bool.not_true, Bool.false_or, List.all_eq_true] at hm
    simpa using hm q hq
  have h3 : (∃ c str ret, p = .want c str ret) → ∀ q ∈ s.ths, q.writes = false ∧ q.reads = false := by
    rintro ⟨c, str, ret, rfl⟩ q hq
    simp only [may, Bool.not_true, Bool.false_or, List.all_eq_true] at hm
    simpa using hm q hq
  obtain ⟨hcall, hfmt⟩ := v.calls p hp
  have hk : p.reads = true ∨ (∃ c str ret, p = .want c str ret) → CacheOk f s.cache := by
    rintro (h | h)
    · exact v.cache (h1 h)
    · exact v.cache fun q hq => (h3 h q hq).1
  obtain ⟨k', q, e, e1, e2, e3, e4, e5, e6, e7⟩ := act_ok hcall hfmt (v.ths p hp) hk (act_done hm)
  refine ⟨k', q, e, ⟨?_, ?_, ?_, ?_⟩, e1, e3⟩
  · intro r hr
    rcases List.mem_or_eq_of_mem_set hr with h | rfl
    · exact v.calls r h
    · rw [e1]; exact ⟨hcall, hfmt⟩
  · intro r hr
    obtain ⟨j, hj⟩ := List.getElem?_of_mem hr
    simp only [List.getElem?_set] at hj
    by_cases hij : i = j
    · rw [if_pos hij] at hj
      split at hj
      · obtain rfl := Option.some.inj hj
        exact e2
      · cases hj
    · rw [if_neg hij] at hj
      have hr' := v.ths r (List.mem_of_getElem? hj)
      show PcOk f k' r
      cases hw : p.writes with
      | false => rw [e4 hw]; exact hr'
      | true =>
        obtain ⟨a, b⟩ := v.excl i j p r hi hj hij hw
        exact hr'.other a b
  · intro a b r r' ha hb hab hw
    simp only [List.getElem?_set] at ha hb
    by_cases hia : i = a
    · subst hia
      rw [if_pos rfl] at ha
      split at ha
      · obtain rfl := Option.some.inj ha
        rw [if_neg hab] at hb
        rcases e7 hw with h | h
        · exact v.excl i b p r' hi hb hab h
        · exact h3 h r' (List.mem_of_getElem? hb)
      · cases ha
    · rw [if_neg hia] at ha
      by_cases hib : i = b
      · subst hib
        rw [if_pos rfl] at hb
        split at hb
        · obtain rfl := Option.some.inj hb
          obtain ⟨x, y⟩ := v.excl a i r p ha hi hab hw
          constructor
          · cases hq : q.writes with
            | false => rfl
            | true =>
              rcases e7 hq with h | h
              · rw [x] at h; cases h
              · have := (h3 h r (List.mem_of_getElem? ha)).1
                rw [hw] at this; cases this
          · cases hq : q.reads with
            | false => rfl
            | true =>
              rcases e6 hq with h | h
              · rw [y] at h; cases h
              · have := h2 h r (List.mem_of_getElem? ha)
                rw [hw] at this; cases this
        · cases hb
      · rw [if_neg hib] at hb
        exact v.excl a b r r' ha hb hab hw
  · intro hall
    have hset : ∀ j r, s.ths[j]? = some r → j ≠ i → r.writes = false := by
      intro j r hj hji
      apply hall
      apply List.mem_of_getElem? (i := j)
      simp only [List.getElem?_set]
      rw [if_neg (Ne.symm hji)]
      exact hj
    have hq : q.writes = false := by
      apply hall
      apply List.mem_of_getElem? (i := i)
      simp only [List.getElem?_set]
      rw [if_pos trivial, if_pos (List.getElem?_eq_some_iff.1 hi).1]
    show CacheOk f k'
    cases hw : p.writes with
    | true => exact e5 hw hq
    | false =>
      rw [e4 hw]
      apply v.cache
      intro r hr
      obtain ⟨j, hj⟩ := List.getElem?_of_mem hr
      by_cases hji : j = i
      · subst hji
        rw [hi] at hj
        obtain rfl := Option.some.inj hj
        exact hw
      · exact hset j r hj hji

theorem inv_start {f : Fmt} {calls : List Call} (h : ∀ c ∈ calls, CallOk c ∧ c.fmt = f) : Inv f (Sys.start calls) := by
  have hs : ∀ p ∈ (Sys.start calls).ths, ∃ c ∈ calls, p = .start c := by
    intro p hp
    obtain ⟨c, hc, rfl⟩ := List.mem_map.1 hp
    exact ⟨c, hc, rfl⟩
  refine ⟨?_, ?_, ?_, fun _ => cache_init_ok f⟩
  · intro p hp
    obtain ⟨c, hc, rfl⟩ := hs p hp
    exact h c hc
  · intro p hp
    obtain ⟨c, hc, rfl⟩ := hs p hp
    trivial
  · intro i j p q hi _ _ hw
    obtain ⟨c, _, rfl⟩ := hs p (List.mem_of_getElem? hi)
    simp [Pc.writes] at hw

/-- What is left to do, all together. -/
def left (s : Sys) : Nat := (s.ths.map rank).sum

theorem sum_set {l : List Nat} {i a b : Nat} (h : l[i]? = some a) (hb : b < a) : (l.set i b).sum < l.sum := by
  induction l generalizing i with
  | nil => cases h
  | cons x l ih =>
    cases i with
    | zero =>
      obtain rfl := Option.some.inj h
      simp only [List.set_cons_zero, List.sum_cons]
      omega
    | succ i =>
      simp only [List.set_cons_succ, List.sum_cons]
      have := ih h
      omega

theorem steps_ok {f : Fmt} {s : Sys} (v : Inv f s) {n : Nat} {t : Sys} (h : Steps true n s t) :
    Inv f t ∧ t.ths.map Pc.call = s.ths.map Pc.call ∧ n + left t ≤ left s := by
  induction h with
  | refl s => exact ⟨v, rfl, by omega⟩
  | @step n s t u h hs ih =>
    obtain ⟨v', hc, hl⟩ := ih v
    generalize hy : some u = y at hs
    cases hs with
    | @mk i p hi hm =>
    obtain ⟨k', q, e, v2, e1, e3⟩ := inv_act v' hi hm
    rw [e] at hy
    obtain rfl := Option.some.inj hy
    refine ⟨v2, ?_, ?_⟩
    · rw [← hc]
      rw [List.map_set, e1]
      apply List.ext_getElem?
      intro j
      rw [List.getElem?_set]
      by_cases hj : i = j
      · subst hj
        rw [if_pos rfl, List.getElem?_map, hi, List.length_map, if_pos (List.getElem?_eq_some_iff.1 hi).1]
        rfl
      · rw [if_neg hj]
    · simp only [left, List.map_set] at hl ⊢
      have := sum_set (l := t.ths.map rank) (by rw [List.getElem?_map, hi]; rfl) e3
      omega

/-- **C104.** Any number of threads, any times, zones and arrays, every interleaving of their single accesses to the cache, the
lock keeping its contract: every call that has returned has written the text of its own time - never that of another
call, never a torn one - and has answered its length. -/
theorem every_answer_right {f : Fmt} {calls : List Call} (h : ∀ c ∈ calls, CallOk c ∧ c.fmt = f) {n : Nat} {s : Sys}
    (hs : Steps true n (Sys.start calls) s) {i : Nat} {c : Call} {str : Mem} {ret : Int} (hi : s.ths[i]? = some (.done c str ret)) :
    calls[i]? = some c ∧ Right c str ret := by
  obtain ⟨v, e, _⟩ := steps_ok (inv_start h) hs
  refine ⟨?_, v.ths _ (List.mem_of_getElem? hi)⟩
  have e' : s.ths.map Pc.call = calls := by
    rw [e]
    simp only [Sys.start, List.map_map]
    exact List.map_id' calls
  rw [← e', List.getElem?_map, hi]
  rfl

/-- **C104.** Nothing undefined happens: no byte outside the caller's array or the cache is touched. -/
theorem no_fault {f : Fmt} {calls : List Call} (h : ∀ c ∈ calls, CallOk c ∧ c.fmt = f) {n : Nat} {s : Sys}
    (hs : Steps true n (Sys.start calls) s) : ¬ Step true s none := by
  intro st
  obtain ⟨v, _, _⟩ := steps_ok (inv_start h) hs
  generalize hy : (none : Option Sys) = y at st
  obtain ⟨hi, hm⟩ := st
  obtain ⟨k', q, e, _⟩ := inv_act v hi hm
  rw [e] at hy
  cases hy

/-- **C104.** No deadlock: as long as a call has not returned some thread can go on. -/
theorem never_stuck {f : Fmt} {calls : List Call} (h : ∀ c ∈ calls, CallOk c ∧ c.fmt = f) {n : Nat} {s : Sys}
    (hs : Steps true n (Sys.start calls) s) {i : Nat} {p : Pc} (hi : s.ths[i]? = some p) (hp : ∀ c str ret, p ≠ .done c str ret) :
    ∃ t, Step true s (some t) := by
  obtain ⟨v, _, _⟩ := steps_ok (inv_start h) hs
  have go : ∀ {j : Nat} {q : Pc}, s.ths[j]? = some q → may true s.ths q = true → ∃ t, Step true s (some t) := by
    intro j q hj hm
    obtain ⟨k', r, e, _⟩ := inv_act v hj hm
    have st := Step.mk (lk := true) hj hm
    rw [e] at st
    exact ⟨_, st⟩
  by_cases hh : ∃ q ∈ s.ths, q.reads = true ∨ q.writes = true
  · obtain ⟨q, hq, hrw⟩ := hh
    obtain ⟨j, hj⟩ := List.getElem?_of_mem hq
    refine go hj ?_
    cases q <;> first | rfl | (simp [Pc.reads, Pc.writes] at hrw; done)
  · have hn : ∀ q ∈ s.ths, q.reads = false ∧ q.writes = false := by
      intro q hq
      constructor
      · cases hr : q.reads with
        | false => rfl
        | true => exact absurd ⟨q, hq, .inl hr⟩ hh
      · cases hr : q.writes with
        | false => rfl
        | true => exact absurd ⟨q, hq, .inr hr⟩ hh
    refine go hi ?_
    cases p <;> first
      | rfl
      | exact absurd rfl (hp _ _ _)
      | (simp only [may, Bool.not_true, Bool.false_or, List.all_eq_true]
         intro q hq
         obtain ⟨a, b⟩ := hn q hq
         simp [a, b])

/-- **C104.** Every execution is finite: `n` calls make at most `100 n` accesses, however they are scheduled; with `never_stuck` every
call returns. -/
theorem every_call_returns {f : Fmt} {calls : List Call} (h : ∀ c ∈ calls, CallOk c ∧ c.fmt = f) {n : Nat} {s : Sys}
    (hs : Steps true n (Sys.start calls) s) : n ≤ 100 * calls.length := by
  obtain ⟨_, _, hl⟩ := steps_ok (inv_start h) hs
  have : ∀ cs : List Call, left (Sys.start cs) = 100 * cs.length := by
    intro cs
    induction cs with
    | nil => rfl
    | cons c cs ih =>
      simp only [left, Sys.start, List.map_map, List.map_cons, List.sum_cons, List.length_cons] at ih ⊢
      rw [ih]
      simp only [rank]
      omega
  rw [this] at hl
  omega

/-! ### Concrete cases, and the lock that is missing -/

/-- A schedule: a number gives that thread a step, if it may. -/
def sched (lk : Bool) : List Nat → Sys → Option Sys
  | [], s => some s
  | i :: is, s => match s.ths[i]? with
    | none => none
    | some p => if may lk s.ths p then (act s.cache p).bind fun (k, q) => sched lk is ⟨k, s.ths.set i q⟩ else none

theorem sched_steps {lk : Bool} : ∀ (is : List Nat) {n : Nat} {s0 s t : Sys}, Steps lk n s0 s → sched lk is s = some t →
    ∃ m, Steps lk m s0 t := by
  intro is
  induction is with
  | nil => intro n s0 s t h e; obtain rfl := Option.some.inj e; exact ⟨n, h⟩
  | cons i is ih =>
    intro n s0 s t h e
    simp only [sched] at e
    split at e
    · cases e
    · rename_i p hp
      split at e
      · rename_i hm
        obtain ⟨⟨k, q⟩, e1, e2⟩ := Option.bind_eq_some_iff.1 e
        have st := Step.mk (lk := lk) hp hm
        rw [e1] at st
        exact ih (h.step st) e2
      · cases e

/-- The text a thread has returned. -/
def answer : Option Pc → Option (List Byte)
  | some (.done _ str _) => str.cstr 0
  | _ => none

/-- 29 February 2024, 12:34:56 UTC, zone 8, and the next second. -/
def one : Call := exCall 123456
def two : Call := exCall 7000
def next : Call := ⟨.stamp, 1709210097, 5000, 8, List.replicate 24 7⟩

theorem next_ok : CallOk next := ⟨⟨by decide, by decide, by decide, by decide, by decide, by decide⟩, by decide, by decide⟩

def steps (i n : Nat) : List Nat := List.replicate n i

/-- With the lock: thread 0 fills the cache, thread 1 begins to read it, thread 2 (the next second) looks too but has to wait
with its own update; the hypotheses are met and all return. -/
example : ∃ n s, Steps true n (Sys.start [one, two, next]) s ∧
    (∀ c ∈ [one, two, next], CallOk c ∧ c.fmt = .stamp) ∧
    s.ths.map (fun p => answer (some p)) = [some "02-29 20:34:56.123".toUTF8.data.toList, some "02-29 20:34:56.007".toUTF8.data.toList,
      some "02-29 20:34:57.005".toUTF8.data.toList] := by
  have h : (sched true (steps 0 28 ++ steps 1 10 ++ steps 2 4 ++ steps 1 14 ++ steps 2 25) (Sys.start [one, two, next])).map
      (fun s => s.ths.map (fun p => answer (some p))) = some [some "02-29 20:34:56.123".toUTF8.data.toList, some "02-29 20:34:56.007".toUTF8.data.toList,
      some "02-29 20:34:57.005".toUTF8.data.toList] := by decide +kernel
  obtain ⟨s, hs, e⟩ := Option.map_eq_some_iff.1 h
  obtain ⟨n, hn⟩ := sched_steps _ (.refl _) hs
  refine ⟨n, s, hn, ?_, e⟩
  intro c hc
  simp only [List.mem_cons, List.not_mem_nil, or_false] at hc
  rcases hc with rfl | rfl | rfl
  · exact ⟨exCall_ok.1, rfl⟩
  · exact ⟨exCall_ok.2, rfl⟩
  · exact ⟨next_ok, rfl⟩

/-- What is right is unique: the text the uncached function gives. -/
theorem wrong_answer {c : Call} (hc : CallOk c) {str str' : Mem} {ret ret' : Int} (hr : Right c str ret)
    (e : getTimeStr c.fmt c.sec c.usec c.str c.zone = some (str', ret')) : str.cstr 0 = str'.cstr 0 := by
  obtain ⟨x, y, e', t, hl, ht, _⟩ := uncached_right hc.time hc.room
  rw [e] at e'
  obtain ⟨rfl, rfl⟩ := Prod.mk.inj (Option.some.inj e')
  obtain ⟨t', hl', ht', _⟩ := hr
  rw [ht, ht', civil_time_unique hl' hl]

/-- 20:59:59 in zone 8 (two calls), and 21:00:00. -/
def last (usec : Int) : Call := ⟨.stamp, 1709211599, usec, 8, List.replicate 24 7⟩
def first : Call := ⟨.stamp, 1709211600, 5000, 8, List.replicate 24 7⟩

theorem last_ok : CallOk (last 123456) ∧ CallOk (last 7000) ∧ CallOk first := by
  refine ⟨⟨⟨?_, ?_, ?_, ?_, ?_, ?_⟩, ?_, ?_⟩, ⟨⟨?_, ?_, ?_, ?_, ?_, ?_⟩, ?_, ?_⟩, ⟨⟨?_, ?_, ?_, ?_, ?_, ?_⟩, ?_, ?_⟩⟩ <;> decide

def three : List Call := [last 123456, last 7000, first]

/-- The call of thread 1 has returned with the text `T`. -/
def isLast (T : List Byte) : Option Pc → Bool
  | some (.done c str _) => decide (c.sec = 1709211599 ∧ c.usec = 7000 ∧ c.zone = 8 ∧ c.fmt = .stamp ∧
      c.str = List.replicate 24 7 ∧ str.cstr 0 = some T)
  | _ => false

/-- **C104** (the lock is needed; FINDING): with `rw_lock` NULL - before `lcu_global_init`, and always on Windows with the simple
pthread layer (C105) - there are interleavings in which a call made at 20:59:59 returns a time 59 minutes too early
("20:00:00.007", one half of either text) or one second too late ("21:00:00.007"). -/
theorem lock_needed : (∀ c ∈ three, CallOk c ∧ c.fmt = .stamp) ∧
    (∃ n s str ret, Steps false n (Sys.start three) s ∧ s.ths[1]? = some (.done (last 7000) str ret) ∧
      str.cstr 0 = some "02-29 20:00:00.007".toUTF8.data.toList ∧ ¬ Right (last 7000) str ret) ∧
    (∃ n s str ret, Steps false n (Sys.start three) s ∧ s.ths[1]? = some (.done (last 7000) str ret) ∧
      str.cstr 0 = some "02-29 21:00:00.007".toUTF8.data.toList ∧ ¬ Right (last 7000) str ret) := by
  have un : ∀ str ret, Right (last 7000) str ret → str.cstr 0 = some "02-29 20:59:59.007".toUTF8.data.toList := by
    intro str ret h
    obtain ⟨str', ret', e, _⟩ := uncached_right last_ok.2.1.time last_ok.2.1.room
    have h1 := wrong_answer last_ok.2.1 h e
    have h2 : (getTimeStr (last 7000).fmt (last 7000).sec (last 7000).usec (last 7000).str (last 7000).zone).bind (fun x => x.1.cstr 0) =
      some "02-29 20:59:59.007".toUTF8.data.toList := by decide +kernel
    rw [e] at h2
    rw [h1]
    exact h2
  have find : ∀ (is : List Nat) (T : List Byte), T ≠ "02-29 20:59:59.007".toUTF8.data.toList →
      ((sched false is (Sys.start three)).map fun s => isLast T s.ths[1]?) = some true →
      ∃ n s str ret, Steps false n (Sys.start three) s ∧ s.ths[1]? = some (.done (last 7000) str ret) ∧
        str.cstr 0 = some T ∧ ¬ Right (last 7000) str ret := by
    intro is T hT h
    obtain ⟨s, hs, e⟩ := Option.map_eq_some_iff.1 h
    obtain ⟨n, hn⟩ := sched_steps _ (.refl _) hs
    unfold isLast at e
    split at e
    · rename_i c str ret hi
      obtain ⟨h1, h2, h3, h4, h5, h6⟩ := of_decide_eq_true e
      have hc : c = last 7000 := by
        cases c
        simp only at h1 h2 h3 h4 h5
        subst h1 h2 h3 h4 h5
        rfl
      subst hc
      refine ⟨n, s, str, ret, hn, hi, h6, fun hr => hT ?_⟩
      have := un _ _ hr
      rw [h6] at this
      exact Option.some.inj this
    · cases e
  refine ⟨?_, ?_, ?_⟩
  · intro c hc
    simp only [three, List.mem_cons, List.not_mem_nil, or_false] at hc
    rcases hc with rfl | rfl | rfl
    · exact ⟨last_ok.1, rfl⟩
    · exact ⟨last_ok.2.1, rfl⟩
    · exact ⟨last_ok.2.2, rfl⟩
  · exact find (steps 0 28 ++ steps 1 12 ++ steps 2 29 ++ steps 1 12) _ (by decide +kernel) (by decide +kernel)
  · exact find (steps 0 28 ++ steps 1 3 ++ steps 2 29 ++ steps 1 21) _ (by decide +kernel) (by decide +kernel)

end Verif.TimeMt
