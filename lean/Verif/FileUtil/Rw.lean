import Verif.FileUtil.Spec
/-! # C47: the read and write loops -/
namespace Verif.FileUtil

theorem toInt_eq {r : Int} (h1 : -1 ≤ r) (h2 : r < 2 ^ 31) : toInt r = r := by
  unfold toInt
  rw [Int.emod_eq_of_lt (by omega) (by omega)]
  omega

theorem count_eq {max cur : Nat} (h : cur ≤ max) (hm : max < 2 ^ 31) : sizeSub max cur = max - cur := by
  unfold sizeSub
  rw [show max + 2 ^ 64 - cur = (max - cur) + 2 ^ 64 by omega, Nat.add_mod_right, Nat.mod_eq_of_lt (by omega)]

theorem rwLoop_stop {σ : Type} {call : Call σ} {max fuel : Nat} {s s' : σ} {m m' : Mem} {cur : Nat} {r : Int}
    (e : call s m cur (sizeSub max cur) = some (s', m', r)) (h1 : -1 ≤ r) (h2 : r < 1) :
    rwLoop call max (fuel + 1) s m cur = some (s', m', cur) := by
  unfold rwLoop
  rw [e]
  have : toInt r < 1 := by rw [toInt_eq h1 (by omega)]; exact h2
  simp [this]

theorem rwLoop_go {σ : Type} {call : Call σ} {max fuel : Nat} {s s' : σ} {m m' : Mem} {cur r : Nat}
    (e : call s m cur (sizeSub max cur) = some (s', m', (r : Int))) (h1 : 1 ≤ r) (h2 : cur + r ≤ max) (hm : max < 2 ^ 31) :
    rwLoop call max (fuel + 1) s m cur =
      if cur + r = max then some (s', m', max) else rwLoop call max fuel s' m' (cur + r) := by
  rw [rwLoop, e]
  have ht : toInt (r : Int) = r := toInt_eq (by omega) (by omega)
  rw [Option.bind_eq_bind, Option.bind_some]
  show (if toInt (r : Int) < 1 then _ else if cur + (toInt (r : Int)).toNat > intMax then none else
    if cur + (toInt (r : Int)).toNat ≠ max then rwLoop call max fuel s' m' (cur + (toInt (r : Int)).toNat) else
      some (s', m', cur + (toInt (r : Int)).toNat)) = _
  rw [ht, if_neg (by omega), Int.toNat_natCast, if_neg (by unfold intMax; omega)]
  by_cases h : cur + r = max
  · rw [if_neg (not_not_intro h), if_pos h, h]
  · rw [if_pos h, if_neg h]

theorem osWrite_stop {sched : Nat → Int} {s : Out} {m : Mem} {off count : Nat} (hl : off ≤ m.length)
    (h : sched s.calls < 1 ∨ count = 0) :
    ∃ r : Int, -1 ≤ r ∧ r < 1 ∧ osWrite sched s m off count = some ({ s with calls := s.calls + 1 }, m, r) := by
  refine ⟨if sched s.calls < 0 then -1 else min (sched s.calls) count, by split <;> omega, by split <;> omega, ?_⟩
  unfold osWrite
  have : (if sched s.calls < 0 then (-1 : Int) else min (sched s.calls) count).toNat = 0 := by split <;> omega
  simp only [this]
  rw [Mem.load_eq_some (by omega)]
  simp

theorem osWrite_go {sched : Nat → Int} {s : Out} {m : Mem} {off count : Nat} (hl : off + count ≤ m.length)
    (h : ¬ (sched s.calls < 1 ∨ count = 0)) :
    ∃ r : Nat, 1 ≤ r ∧ r ≤ count ∧ osWrite sched s m off count =
      some ({ data := s.data ++ (m.drop off).take r, calls := s.calls + 1 }, m, (r : Int)) := by
  refine ⟨(min (sched s.calls) count).toNat, by omega, by omega, ?_⟩
  unfold osWrite
  rw [if_neg (by omega)]
  simp only []
  rw [Mem.load_eq_some (by omega), Int.toNat_of_nonneg (by omega)]
  rfl

theorem osRead_stop {sched : Nat → Int} {s : Inp} {m : Mem} {off count : Nat} (hl : off ≤ m.length)
    (h : sched s.calls < 1 ∨ count = 0 ∨ s.data.length = 0) :
    ∃ r : Int, -1 ≤ r ∧ r < 1 ∧ osRead sched s m off count = some ({ s with calls := s.calls + 1 }, m, r) := by
  refine ⟨if sched s.calls < 0 then -1 else min (sched s.calls) (min count s.data.length),
    by split <;> omega, by split <;> omega, ?_⟩
  unfold osRead
  have : (if sched s.calls < 0 then (-1 : Int) else min (sched s.calls) (min count s.data.length)).toNat = 0 := by
    split <;> omega
  simp only [this]
  rw [List.take_zero, Mem.store_eq_some (by simp; omega)]
  simp

theorem osRead_go {sched : Nat → Int} {s : Inp} {m : Mem} {off count : Nat} (hl : off + count ≤ m.length)
    (h : ¬ (sched s.calls < 1 ∨ count = 0 ∨ s.data.length = 0)) :
    ∃ r : Nat, 1 ≤ r ∧ r ≤ count ∧ r ≤ s.data.length ∧ osRead sched s m off count =
      some ({ data := s.data.drop r, calls := s.calls + 1 }, m.take off ++ s.data.take r ++ m.drop (off + r), (r : Int)) := by
  refine ⟨(min (sched s.calls) (min count s.data.length)).toNat, by omega, by omega, by omega, ?_⟩
  unfold osRead
  rw [if_neg (by omega)]
  simp only []
  have hr : (min (sched s.calls) (min (count : Int) s.data.length)).toNat ≤ count ∧
    (min (sched s.calls) (min (count : Int) s.data.length)).toNat ≤ s.data.length := by omega
  have hi : min (sched s.calls) (min (count : Int) s.data.length) =
    ((min (sched s.calls) (min (count : Int) s.data.length)).toNat : Int) := (Int.toNat_of_nonneg (by omega)).symm
  generalize (min (sched s.calls) (min (count : Int) s.data.length)).toNat = r at *
  have hrl : (s.data.take r).length = r := by rw [List.length_take]; omega
  rw [Mem.store_eq_some (by omega), hrl, hi]
  rfl

theorem writeLoop (sched : Nat → Int) (max : Nat) (hm : max < 2 ^ 31) : ∀ (fuel : Nat) (s : Out) (m : Mem) (cur : Nat),
    cur ≤ max → (cur = max → max = 0) → max - cur < fuel → max ≤ m.length →
    ∃ k n, rwLoop (osWrite sched) max fuel s m cur =
        some ({ data := s.data ++ (m.drop cur).take (n - cur), calls := s.calls + k + 1 }, m, n) ∧ cur ≤ n ∧ n ≤ max ∧
      (∀ i < k, 1 ≤ sched (s.calls + i)) ∧ (n = max ∨ sched (s.calls + k) < 1) := by
  intro fuel
  induction fuel with
  | zero => intro s m cur _ _ h; omega
  | succ fuel ih =>
    intro s m cur hc h0 hf hl
    by_cases hs : sched s.calls < 1 ∨ max - cur = 0
    · obtain ⟨r, h1, h2, e⟩ := osWrite_stop (s := s) (m := m) (off := cur) (by omega) hs
      rw [← count_eq hc hm] at e
      refine ⟨0, cur, ?_, by omega, by omega, by omega, ?_⟩
      · rw [rwLoop_stop e h1 h2]; simp
      · simp only [Nat.add_zero]; omega
    · obtain ⟨r, h1, h2, e⟩ := osWrite_go (s := s) (m := m) (off := cur) (by omega) hs
      rw [← count_eq hc hm] at e
      rw [rwLoop_go e h1 (by omega) hm]
      by_cases he : cur + r = max
      · rw [if_pos he]
        refine ⟨0, max, ?_, by omega, by omega, by omega, .inl rfl⟩
        rw [show max - cur = r by omega]
      · rw [if_neg he]
        obtain ⟨k, n, e, a, b, c, d⟩ := ih { data := s.data ++ (m.drop cur).take r, calls := s.calls + 1 } m (cur + r)
          (by omega) (by omega) (by omega) hl
        refine ⟨k + 1, n, ?_, by omega, b, ?_, ?_⟩
        · rw [e]
          have e1 : List.take (n - cur) (List.drop cur m) =
              List.take r (List.drop cur m) ++ List.take (n - (cur + r)) (List.drop (cur + r) m) := by
            rw [show n - cur = r + (n - (cur + r)) by omega, List.take_add, List.drop_drop]
          simp only []
          rw [e1, List.append_assoc, show s.calls + 1 + k + 1 = s.calls + (k + 1) + 1 by omega]
        · intro i hi
          cases i with
          | zero => simp only [Nat.add_zero]; omega
          | succ i =>
            have := c i (by omega)
            rw [show s.calls + 1 + i = s.calls + (i + 1) by omega] at this
            exact this
        · rcases d with d | d
          · exact .inl d
          · right
            simp only [] at d
            rw [show s.calls + 1 + k = s.calls + (k + 1) by omega] at d
            exact d

theorem readLoop (sched : Nat → Int) (max : Nat) (hm : max < 2 ^ 31) : ∀ (fuel : Nat) (s : Inp) (m : Mem) (cur : Nat),
    cur ≤ max → (cur = max → max = 0) → max - cur < fuel → max ≤ m.length →
    ∃ k n, rwLoop (osRead sched) max fuel s m cur =
        some ({ data := s.data.drop (n - cur), calls := s.calls + k + 1 },
          m.take cur ++ s.data.take (n - cur) ++ m.drop n, n) ∧ cur ≤ n ∧ n ≤ max ∧ n - cur ≤ s.data.length ∧
      (∀ i < k, 1 ≤ sched (s.calls + i)) ∧ (n = max ∨ n - cur = s.data.length ∨ sched (s.calls + k) < 1) := by
  intro fuel
  induction fuel with
  | zero => intro s m cur _ _ h; omega
  | succ fuel ih =>
    intro s m cur hc h0 hf hl
    by_cases hs : sched s.calls < 1 ∨ max - cur = 0 ∨ s.data.length = 0
    · obtain ⟨r, h1, h2, e⟩ := osRead_stop (s := s) (m := m) (off := cur) (by omega) hs
      rw [← count_eq hc hm] at e
      refine ⟨0, cur, ?_, by omega, by omega, by omega, by omega, ?_⟩
      · rw [rwLoop_stop e h1 h2]; simp
      · simp only [Nat.add_zero]; omega
    · obtain ⟨r, h1, h2, h3, e⟩ := osRead_go (s := s) (m := m) (off := cur) (by omega) hs
      rw [← count_eq hc hm] at e
      rw [rwLoop_go e h1 (by omega) hm]
      have hrl : (s.data.take r).length = r := by rw [List.length_take]; omega
      by_cases he : cur + r = max
      · rw [if_pos he]
        refine ⟨0, max, ?_, by omega, by omega, by omega, by omega, .inl rfl⟩
        rw [he, show max - cur = r by omega]
      · rw [if_neg he]
        obtain ⟨k, n, e, a, b, c0, c, d⟩ := ih { data := s.data.drop r, calls := s.calls + 1 }
          (m.take cur ++ s.data.take r ++ m.drop (cur + r)) (cur + r)
          (by omega) (by omega) (by omega) (by simp; omega)
        simp only [List.length_drop] at c0 d
        refine ⟨k + 1, n, ?_, by omega, b, by omega, ?_, ?_⟩
        · rw [e]
          simp only [List.drop_drop]
          rw [show r + (n - (cur + r)) = n - cur by omega, show s.calls + 1 + k + 1 = s.calls + (k + 1) + 1 by omega]
          have hpre : (m.take cur ++ s.data.take r).length = cur + r := by
            rw [List.length_append, hrl, List.length_take]; omega
          have e1 : (m.take cur ++ s.data.take r ++ m.drop (cur + r)).take (cur + r) = m.take cur ++ s.data.take r := by
            rw [← hpre, List.take_left]
          have e2 : (m.take cur ++ s.data.take r ++ m.drop (cur + r)).drop n = m.drop n := by
            rw [List.drop_append, List.drop_eq_nil_of_le (by omega), hpre, List.nil_append, List.drop_drop]
            congr 1; omega
          have e3 : s.data.take (n - cur) = s.data.take r ++ (s.data.drop r).take (n - (cur + r)) := by
            rw [show n - cur = r + (n - (cur + r)) by omega, List.take_add]
          rw [e1, e2, e3]
          simp
        · intro i hi
          cases i with
          | zero => simp only [Nat.add_zero]; omega
          | succ i =>
            have := c i (by omega)
            rw [show s.calls + 1 + i = s.calls + (i + 1) by omega] at this
            exact this
        · rcases d with d | d | d
          · exact .inl d
          · right; left; omega
          · right; right
            rw [show s.calls + 1 + k = s.calls + (k + 1) by omega] at d
            exact d

/-- FINDING: `pri_internal_rw_file` counts in `int`.  When two calls together transfer 2^31 bytes or more (Linux moves at
most 0x7ffff000 per call, so any transfer of 2 GiB gets there) the addition overflows: undefined behaviour. -/
theorem write_huge_undefined (sched : Nat → Int) (s : Out) (m : Mem) (max : Nat) (hm : max ≤ m.length)
    (h64 : max < 2 ^ 64) (a b : Nat) (ha : sched s.calls = a) (hb : sched (s.calls + 1) = b) (ha1 : 1 ≤ a)
    (ha2 : a < 2 ^ 31) (hb2 : b < 2 ^ 31) (hab : a + b ≤ max) (hover : 2 ^ 31 ≤ a + b) : write sched s m max = none := by
  have w : ∀ (s : Out) (off : Nat) (r : Nat), sched s.calls = r → off + r ≤ max →
      osWrite sched s m off (sizeSub max off) =
        some ({ data := s.data ++ (m.drop off).take r, calls := s.calls + 1 }, m, (r : Int)) := by
    intro s off r hr hle
    have hc : sizeSub max off = max - off := by
      unfold sizeSub
      rw [show max + 2 ^ 64 - off = (max - off) + 2 ^ 64 by omega, Nat.add_mod_right, Nat.mod_eq_of_lt (by omega)]
    unfold osWrite
    rw [hc, hr, if_neg (by omega)]
    simp only
    have hr' : (min (r : Int) ((max - off : Nat) : Int)) = (r : Int) := by omega
    rw [hr', Int.toNat_natCast, Mem.load_eq_some (by omega)]
    rfl
  have step : ∀ (fuel : Nat) (s : Out) (off r : Nat), sched s.calls = r → off + r ≤ max → 1 ≤ r → r < 2 ^ 31 →
      rwLoop (osWrite sched) max (fuel + 1) s m off = if off + r > intMax then none else
        if off + r ≠ max then
          rwLoop (osWrite sched) max fuel { data := s.data ++ (m.drop off).take r, calls := s.calls + 1 } m (off + r)
        else some ({ data := s.data ++ (m.drop off).take r, calls := s.calls + 1 }, m, off + r) := by
    intro fuel s off r hr hle h1 h2
    rw [rwLoop, w s off r hr hle]
    have ht : toInt (r : Int) = r := toInt_eq (by omega) (by omega)
    rw [Option.bind_eq_bind, Option.bind_some]
    show (if toInt (r : Int) < 1 then _ else if off + (toInt (r : Int)).toNat > intMax then none else
      if off + (toInt (r : Int)).toNat ≠ max then rwLoop (osWrite sched) max fuel _ m (off + (toInt (r : Int)).toNat) else
        some (_, m, off + (toInt (r : Int)).toNat)) = _
    rw [ht, if_neg (by omega), Int.toNat_natCast]
  unfold write rwFile
  rw [step max s 0 a ha (by omega) ha1 ha2, if_neg (by unfold intMax; omega), if_pos (by omega)]
  generalize hs1 : ({ data := _, calls := s.calls + 1 } : Out) = s1
  have hc1 : s1.calls = s.calls + 1 := by rw [← hs1]
  have hmax : ∃ f, max = f + 1 := ⟨max - 1, by omega⟩
  obtain ⟨f, hf⟩ := hmax
  have e := step f s1 (0 + a) b (by rw [hc1]; exact hb) (by omega) (by omega) hb2
  rw [if_pos (by unfold intMax; omega)] at e
  rw [← e]
  congr 1

/-- it happens: 2 GiB in two calls -/
example (m : Mem) (sched : Nat → Int) (h : m.length = 2 ^ 31) (h0 : sched 0 = ((2 ^ 31 - 4096 : Nat) : Int))
    (h1 : sched 1 = ((4096 : Nat) : Int)) : write sched ⟨[], 0⟩ m (2 ^ 31) = none :=
  write_huge_undefined sched ⟨[], 0⟩ m (2 ^ 31) (Nat.le_of_eq h.symm) (by omega) (2 ^ 31 - 4096) 4096 h0 h1
    (by omega) (by omega) (by omega) (by omega) (by omega)

end Verif.FileUtil
