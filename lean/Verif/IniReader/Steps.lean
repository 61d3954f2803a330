import Verif.IniReader.Lemmas
/-! # One line: the buffers represent the specification's state -/
namespace Verif.IniReader
open Spec

/-- the byte object `m` of `n` bytes holds the C string `s` at its beginning -/
structure Holds (m : Mem) (n : Nat) (s : List Byte) : Prop where
  rep : ∃ rest, m = s ++ 0 :: rest
  len : m.length = n
  no0 : (0 : Byte) ∉ s

theorem Holds.cstr {m : Mem} {n : Nat} {s : List Byte} (h : Holds m n s) : m.cstr 0 = some s := by
  obtain ⟨r, e⟩ := h.rep
  rw [e]; exact Mem.cstr_zero h.no0

/-- the program's variables `st` represent the specification's state `sp` -/
structure Rep {σ : Type} (st : St σ) (sp : Spec.St σ) : Prop where
  sec : Holds st.sec 50 sp.sec
  prev : Holds st.prev 50 sp.prev
  line : st.line.length = 200
  lineno : st.lineno = sp.lineno
  error : st.error = sp.error
  user : st.user = sp.user
  first : sp.lineno = 0 → sp.prev = []

theorem call_rep {σ : Type} {st : St σ} {sp : Spec.St σ} (r : Rep st sp) (h : Handler σ) (n : List Byte)
    (v : Option (List Byte)) : ∃ st', st.call h n v = some st' ∧ Rep st' (sp.report h n v) := by
  unfold St.call
  rw [r.sec.cstr]
  simp only [Option.bind_eq_bind, Option.bind_some, Option.pure_def]
  refine ⟨_, rfl, ?_⟩
  unfold Spec.St.report Spec.St.fail
  rw [r.user]
  cases hr : (h sp.user sp.sec n v).2
  · simp only [hr, Bool.not_false, true_and, Bool.false_eq_true, if_false]
    exact ⟨r.sec, r.prev, r.line, r.lineno, by simp only [r.error, r.lineno], rfl, r.first⟩
  · simp only [hr, Bool.not_true, Bool.false_eq_true, false_and, if_false, if_true]
    exact ⟨r.sec, r.prev, r.line, r.lineno, r.error, rfl, r.first⟩

theorem no0_sub {s t : List Byte} (h : (0 : Byte) ∉ s) (hs : ∀ c ∈ t, c ∈ s) : (0 : Byte) ∉ t :=
  fun e => h (hs 0 e)

theorem mem_rtrim {s : List Byte} {c : Byte} (h : c ∈ rtrim s) : c ∈ s := by
  obtain ⟨t, e⟩ := rtrim_prefix s
  rw [e]; exact List.mem_append_left _ h

theorem mem_ltrim {s : List Byte} {c : Byte} (h : c ∈ ltrim s) : c ∈ s := (List.dropWhile_suffix _).subset h

theorem no0_take {s : List Byte} (h : (0 : Byte) ∉ s) (n : Nat) : (0 : Byte) ∉ s.take n :=
  no0_sub h fun _ hc => List.mem_of_mem_take hc
theorem no0_drop {s : List Byte} (h : (0 : Byte) ∉ s) (n : Nat) : (0 : Byte) ∉ s.drop n :=
  no0_sub h fun _ hc => List.mem_of_mem_drop hc
theorem no0_rtrim {s : List Byte} (h : (0 : Byte) ∉ s) : (0 : Byte) ∉ rtrim s := no0_sub h fun _ => mem_rtrim
theorem no0_ltrim {s : List Byte} (h : (0 : Byte) ∉ s) : (0 : Byte) ∉ ltrim s := no0_sub h fun _ => mem_ltrim

/-- the character found by a search, and the string cut off there -/
theorem cut_at (pre s after : List Byte) (i : Nat) (hi : i ≤ s.length) :
    (pre ++ (s ++ 0 :: after))[pre.length + i]? = some (s[i]?.getD 0) ∧
    ∃ after', Mem.store (pre ++ (s ++ 0 :: after)) (pre.length + i) [0] =
        some (pre ++ (s.take i ++ 0 :: after')) ∧
      (i < s.length → after' = s.drop (i + 1) ++ 0 :: after) ∧
      after'.length + i = after.length + s.length := by
  by_cases h : i < s.length
  · have e : pre ++ (s ++ 0 :: after) = (pre ++ s.take i) ++ s[i] :: (s.drop (i + 1) ++ 0 :: after) := by
      have es : s = s.take i ++ s[i] :: s.drop (i + 1) := by
        rw [← List.drop_eq_getElem_cons h, List.take_append_drop]
      conv => lhs; rw [es]
      simp only [List.append_assoc, List.cons_append]
    have hl : pre.length + i = (pre ++ s.take i).length := by simp; omega
    rw [e]
    refine ⟨?_, s.drop (i + 1) ++ 0 :: after, ?_, fun _ => rfl, ?_⟩
    · rw [getElem?_mid _ _ _ hl, List.getElem?_eq_getElem h]; rfl
    · rw [store_mid _ _ _ _ hl]; simp
    · simp; omega
  · have hi' : i = s.length := by omega
    have e : pre ++ (s ++ 0 :: after) = (pre ++ s) ++ 0 :: after := by simp
    have hl : pre.length + i = (pre ++ s).length := by simp; omega
    rw [e]
    refine ⟨?_, after, ?_, fun h' => absurd h' h, by omega⟩
    · rw [getElem?_mid _ _ _ hl, List.getElem?_eq_none (by omega)]; rfl
    · rw [store_mid _ _ _ _ hl, List.take_of_length_le (by omega)]; simp

/-- cutting only if the character found is not the NUL leaves the same string -/
theorem cut_if (pre s after : List Byte) (i : Nat) (hi : i ≤ s.length) (h0 : (0 : Byte) ∉ s) :
    ∃ after', cut (pre ++ (s ++ 0 :: after)) (pre.length + i) = some (pre ++ (s.take i ++ 0 :: after')) ∧
      after'.length + i = after.length + s.length := by
  unfold cut
  rw [(cut_at pre s after i hi).1]
  simp only [Option.bind_eq_bind, Option.bind_some]
  by_cases h : i < s.length
  · have : s[i]?.getD 0 ≠ 0 := by
      rw [List.getElem?_eq_getElem h]
      exact fun e => h0 (by rw [← e]; exact List.getElem_mem _)
    rw [if_pos this]
    obtain ⟨_, a, e, _, hl⟩ := cut_at pre s after i hi
    exact ⟨a, e, hl⟩
  · rw [List.getElem?_eq_none (by omega), if_neg (by simp)]
    exact ⟨after, by rw [List.take_of_length_le (by omega)], by omega⟩

theorem contLine_rep {σ : Type} {h : Handler σ} {st : St σ} {sp : Spec.St σ} (r : Rep st sp)
    {pre t after : List Byte} (hl : st.line = pre ++ (t ++ 0 :: after)) (h0 : (0 : Byte) ∉ t) :
    ∃ st', contLine h st pre.length = some st' ∧
      Rep st' (sp.report h sp.prev (some (rtrim (uncomment t)))) := by
  unfold contLine
  rw [hl, findChars_eq none pre t after h0 rfl]
  simp only [Option.bind_eq_bind, Option.bind_some, Option.getD_none]
  obtain ⟨a1, e1, l1⟩ := cut_if pre t after _ (stop_le [] t) h0
  rw [e1, Option.bind_some, rstrip_eq _ _ _ (no0_take h0 _) rfl, Option.bind_some, r.prev.cstr,
    Option.bind_some]
  obtain ⟨a2, e2, l2⟩ := zeros_cons ((t.take (stop [] t)).length - (rtrim (t.take (stop [] t))).length) a1
  rw [e2, cstr_at (no0_rtrim (no0_take h0 _)) rfl, Option.bind_some]
  refine call_rep (st := { st with line := pre ++ (rtrim (t.take (stop [] t)) ++ 0 :: a2) }) (sp := sp)
    ⟨r.sec, r.prev, ?_, r.lineno, r.error, r.user, r.first⟩ h _ _
  have hL := r.line
  rw [hl] at hL
  have := rtrim_len (t.take (stop [] t))
  have hs := stop_le [] t
  simp only [List.length_append, List.length_cons, List.length_take] at *
  omega

theorem secLine_rep {σ : Type} {st : St σ} {sp : Spec.St σ} (r : Rep st sp)
    {pre t after : List Byte} (hl : st.line = pre ++ (91 :: t ++ 0 :: after)) (h0 : (0 : Byte) ∉ t) :
    ∃ st', secLine st pre.length = some st' ∧
      Rep st' (if t[stop [93] t]? = some 93 then { sp with sec := (t.take (stop [93] t)).take 49, prev := [] }
        else sp.fail) := by
  unfold secLine
  have e : pre ++ (91 :: t ++ 0 :: after) = (pre ++ [91]) ++ (t ++ 0 :: after) := by simp
  have hp : pre.length + 1 = (pre ++ [91]).length := by simp
  rw [hl, e, hp, findChars_eq _ _ _ _ h0 rfl]
  simp only [Option.bind_eq_bind, Option.bind_some, Option.getD_some]
  obtain ⟨hc, a1, e1, h1, l1⟩ := cut_at (pre ++ [91]) t after _ (stop_le [93] t)
  rw [hc, Option.bind_some, e1]
  have hL := r.line
  rw [hl] at hL
  by_cases hc : t[stop [93] t]? = some 93
  · rw [hc]
    simp only [Option.getD_some, if_true, Option.bind_some, Option.pure_def]
    obtain ⟨x, es, ls⟩ := strncpy0_eq st.sec (pre ++ [91]) (t.take (stop [93] t)) a1 (no0_take h0 _)
      (size := 50) rfl (by omega) r.sec.len.symm
    rw [es, Option.bind_some]
    obtain ⟨y, ey⟩ := r.prev.rep
    have lp := r.prev.len
    obtain ⟨b, w, hb⟩ : ∃ b w, st.prev = b :: w := by
      cases hst : st.prev with
      | nil => simp [hst] at lp
      | cons b w => exact ⟨b, w, rfl⟩
    have e3 : Mem.store st.prev 0 [0] = some (0 :: w) := by rw [hb]; exact store_mid [] b 0 w rfl
    rw [e3, Option.bind_some]
    refine ⟨_, rfl, ?_⟩
    refine ⟨⟨⟨x, rfl⟩, by rw [ls, r.sec.len], no0_take (no0_take h0 _) _⟩,
      ⟨⟨w, rfl⟩, by rw [hb] at lp; simpa using lp, by simp⟩, ?_, r.lineno, r.error, r.user, fun _ => rfl⟩
    have hs := stop_le [93] t
    simp only [List.length_append, List.length_cons, List.length_take] at *
    omega
  · have hne : t[stop [93] t]?.getD 0 ≠ 93 := by
      cases hx : t[stop [93] t]? with
      | none => simp
      | some x => rw [hx] at hc; simpa using hc
    rw [if_neg hne, if_neg hc]
    refine ⟨_, rfl, ?_⟩
    exact ⟨r.sec, r.prev, by rw [← e]; exact hL, r.lineno,
      by show (if st.error = 0 then st.lineno else st.error) = _; rw [r.error, r.lineno]; rfl, r.user, r.first⟩

theorem nameLine_rep {σ : Type} {h : Handler σ} {st : St σ} {sp : Spec.St σ} (r : Rep st sp)
    (hn : sp.lineno ≠ 0)
    {pre t after : List Byte} (hl : st.line = pre ++ (t ++ 0 :: after)) (h0 : (0 : Byte) ∉ t) :
    ∃ st', nameLine h st pre.length = some st' ∧
      Rep st' (if t[stop [61, 58] t]? = some 61 ∨ t[stop [61, 58] t]? = some 58 then
          { sp with prev := (rtrim (t.take (stop [61, 58] t))).take 49 }.report h
            (rtrim (t.take (stop [61, 58] t)))
            (some (rtrim (ltrim (uncomment (t.drop (stop [61, 58] t + 1))))))
        else if sp.error = 0 then sp.report h (rtrim (t.take (stop [61, 58] t))) none else sp) := by
  unfold nameLine
  rw [hl, findChars_eq _ pre t after h0 rfl]
  simp only [Option.bind_eq_bind, Option.bind_some, Option.getD_some]
  have hs := stop_le [61, 58] t
  generalize hi : stop [61, 58] t = i at *
  obtain ⟨hc, a1, e1, h1, l1⟩ := cut_at pre t after i hs
  rw [hc, Option.bind_some, e1]
  have hL := r.line
  rw [hl] at hL
  have n0 : (0 : Byte) ∉ t.take i := no0_take h0 _
  by_cases hc : t[i]? = some 61 ∨ t[i]? = some 58
  · have hlt : i < t.length := by
      rcases hc with hc | hc <;> exact (List.getElem?_eq_some_iff.mp hc).1
    rw [if_pos hc]
    have hcc : t[i]?.getD 0 = 61 ∨ t[i]?.getD 0 = 58 := by
      rcases hc with hc | hc <;> simp [hc]
    rw [if_pos hcc, Option.bind_some, rstrip_eq pre _ _ n0 rfl, Option.bind_some, h1 hlt]
    -- the buffer now: name, NULs, value
    have hk : (t.take i).length = i := by simp; omega
    have hr := rtrim_len (t.take i)
    generalize hz : List.replicate ((t.take i).length - (rtrim (t.take i)).length) (0 : Byte) = z
    have hzl : z.length = i - (rtrim (t.take i)).length := by rw [← hz]; simp [hk]
    have nv : (0 : Byte) ∉ t.drop (i + 1) := no0_drop h0 _
    have nn := no0_rtrim n0
    generalize hv : t.drop (i + 1) = v at *
    have hvl : v.length = t.length - (i + 1) := by rw [← hv]; simp
    generalize hname : rtrim (t.take i) = name at *
    have eb : pre ++ (name ++ (z ++ 0 :: (v ++ 0 :: after))) =
        (pre ++ name ++ z ++ [0]) ++ (v ++ 0 :: after) := by simp
    have lb : pre.length + i + 1 = (pre ++ name ++ z ++ [0]).length := by simp; omega
    rw [eb, lb, findChars_eq none _ v after nv rfl]
    simp only [Option.bind_some, Option.getD_none]
    obtain ⟨a2, e2, l2⟩ := cut_if (pre ++ name ++ z ++ [0]) v after _ (stop_le [] v) nv
    rw [e2, Option.bind_some]
    rw [show v.take (stop [] v) = uncomment v from rfl]
    have nu : (0 : Byte) ∉ uncomment v := no0_take nv _
    have hul : (uncomment v).length = stop [] v := by
      unfold uncomment; rw [List.length_take]; have := stop_le [] v; omega
    rw [lskip_eq _ _ _ nu rfl, Option.bind_some]
    obtain ⟨b, eu, bl, _⟩ := ltrim_suffix (uncomment v)
    have nl := no0_ltrim nu
    have eb2 : (pre ++ name ++ z ++ [0]) ++ (uncomment v ++ 0 :: a2) =
        (pre ++ name ++ z ++ [0] ++ b) ++ (ltrim (uncomment v) ++ 0 :: a2) := by
      conv => lhs; rw [eu]
      simp
    have lb2 : (pre ++ name ++ z ++ [0]).length + ((uncomment v).length - (ltrim (uncomment v)).length) =
        (pre ++ name ++ z ++ [0] ++ b).length := by
      rw [← bl]; simp only [List.length_append]
    rw [eb2, lb2, rstrip_eq _ _ _ nl rfl, Option.bind_some]
    obtain ⟨a3, e3, l3⟩ := zeros_cons ((ltrim (uncomment v)).length - (rtrim (ltrim (uncomment v))).length) a2
    rw [e3]
    have nr := no0_rtrim nl
    -- the name, seen again
    obtain ⟨x, ex, lx⟩ : ∃ x, pre ++ name ++ z ++ [0] ++ b ++ (rtrim (ltrim (uncomment v)) ++ 0 :: a3) =
        pre ++ (name ++ 0 :: x) ∧ True := by
      obtain ⟨w, ew, _⟩ : ∃ w, z ++ 0 :: (b ++ (rtrim (ltrim (uncomment v)) ++ 0 :: a3)) = 0 :: w ∧ _ := by
        rw [← hz]; exact zeros_cons _ _
      refine ⟨w, ?_, trivial⟩
      rw [← ew]; simp
    obtain ⟨y, ey, ly⟩ : ∃ y, strncpy0 st.prev (pre ++ name ++ z ++ [0] ++ b ++
        (rtrim (ltrim (uncomment v)) ++ 0 :: a3)) pre.length 50 = some (name.take 49 ++ 0 :: y) ∧
        (name.take 49 ++ 0 :: y).length = st.prev.length := by
      rw [ex]
      exact strncpy0_eq st.prev pre name x nn (size := 50) rfl (by omega) r.prev.len.symm
    rw [ey, Option.bind_some]
    have ec : Mem.cstr (pre ++ name ++ z ++ [0] ++ b ++ (rtrim (ltrim (uncomment v)) ++ 0 :: a3)) pre.length =
        some name := by rw [ex]; exact cstr_at nn rfl
    rw [ec, Option.bind_some, cstr_at nr rfl, Option.bind_some]
    refine call_rep (st := { st with
        line := pre ++ name ++ z ++ [0] ++ b ++ (rtrim (ltrim (uncomment v)) ++ 0 :: a3),
        prev := name.take 49 ++ 0 :: y }) (sp := { sp with prev := name.take 49 }) ⟨r.sec, ?_, ?_, r.lineno, r.error, r.user, ?_⟩ h _ _
    · exact ⟨⟨y, rfl⟩, by rw [ly, r.prev.len], no0_take nn _⟩
    · have h3 := rtrim_len (ltrim (uncomment v))
      have h4 := stop_le [] v
      simp only [List.length_append, List.length_cons] at *
      have h5 := congrArg List.length eu
      simp only [List.length_append] at h5
      omega
    · intro hz'; exact absurd hz' hn
  · have hne : ¬ (t[i]?.getD 0 = 61 ∨ t[i]?.getD 0 = 58) := by
      cases hx : t[i]? with
      | none => simp
      | some x => rw [hx] at hc; simpa using hc
    rw [if_neg hne, if_neg hc]
    by_cases he : sp.error = 0
    · rw [if_pos (by rw [r.error]; exact he), if_pos he, Option.bind_some, rstrip_eq pre _ _ n0 rfl,
        Option.bind_some]
      obtain ⟨a2, e2, l2⟩ := zeros_cons ((t.take i).length - (rtrim (t.take i)).length) a1
      rw [e2, cstr_at (no0_rtrim n0) rfl, Option.bind_some]
      refine call_rep (st := { st with line := pre ++ (rtrim (t.take i) ++ 0 :: a2) }) (sp := sp)
        ⟨r.sec, r.prev, ?_, r.lineno, r.error, r.user, r.first⟩ h _ _
      have := rtrim_len (t.take i)
      simp only [List.length_append, List.length_cons, List.length_take] at *
      omega
    · rw [if_neg (by rw [r.error]; exact he), if_neg he]
      exact ⟨_, rfl, r⟩

theorem bomStart_eq {l after : List Byte} (h0 : (0 : Byte) ∉ l) (n : Nat) :
    bomStart (l ++ 0 :: after) n = some (if n = 1 ∧ l.take 3 = [0xEF, 0xBB, 0xBF] then 3 else 0) := by
  unfold bomStart
  match l with
  | [] => simp
  | [a] => by_cases hn : n = 1 <;> by_cases ha : a = 0xEF <;> simp [hn, ha]
  | [a, b] => by_cases hn : n = 1 <;> by_cases ha : a = 0xEF <;> by_cases hb : b = 0xBB <;> simp [hn, ha, hb]
  | a :: b :: c :: l =>
    by_cases hn : n = 1 <;> by_cases ha : a = 0xEF <;> by_cases hb : b = 0xBB <;>
      by_cases hc : c = 0xBF <;> simp [hn, ha, hb, hc]

/-- `Spec.step` with the parts named as in the program -/
theorem step_eq {σ : Type} (h : Handler σ) (sp : Spec.St σ) (line : List Byte) (t : List Byte)
    (ht : t = ltrim (rtrim (if sp.lineno + 1 = 1 then skipBom line else line))) :
    step h sp line =
      let sp' := { sp with lineno := sp.lineno + 1 }
      if t = [] ∨ t.head? = some 59 ∨ t.head? = some 35 then sp'
      else if sp.prev ≠ [] ∧ line.head?.any isSpace then sp'.report h sp.prev (some (rtrim (uncomment t)))
      else if t.head? = some 91 then
        if (t.drop 1)[stop [93] (t.drop 1)]? = some 93 then
          { sp' with sec := ((t.drop 1).take (stop [93] (t.drop 1))).take 49, prev := [] }
        else sp'.fail
      else if t[stop [61, 58] t]? = some 61 ∨ t[stop [61, 58] t]? = some 58 then
        { sp' with prev := (rtrim (t.take (stop [61, 58] t))).take 49 }.report h
            (rtrim (t.take (stop [61, 58] t)))
            (some (rtrim (ltrim (uncomment (t.drop (stop [61, 58] t + 1))))))
      else if sp.error = 0 then sp'.report h (rtrim (t.take (stop [61, 58] t))) none else sp' := by
  unfold step classify classifyEntry
  simp only [decide_eq_true_eq, ← ht]
  by_cases h1 : t = [] ∨ t.head? = some 59 ∨ t.head? = some 35
  · simp only [h1, if_true]
  · simp only [h1, if_false]
    by_cases h2 : sp.prev ≠ [] ∧ line.head?.any isSpace
    · rw [if_pos h2, if_pos h2]
    · rw [if_neg h2, if_neg h2]
      by_cases h3 : t.head? = some 91
      · simp only [h3, if_true]
        by_cases h4 : (t.drop 1)[stop [93] (t.drop 1)]? = some 93
        · simp only [h4, if_true]
        · simp only [h4, if_false]
      · simp only [h3, if_false]
        by_cases h4 : t[stop [61, 58] t]? = some 61 ∨ t[stop [61, 58] t]? = some 58
        · simp only [h4, if_true]
        · simp only [h4, if_false]

theorem handleLine_rep {σ : Type} {h : Handler σ} {st : St σ} {sp : Spec.St σ} (r : Rep st sp)
    {l after : List Byte} (hl : st.line = l ++ 0 :: after) (h0 : (0 : Byte) ∉ l) :
    ∃ st', handleLine h st = some st' ∧ Rep st' (step h sp l) := by
  rw [step_eq h sp l _ rfl]
  unfold handleLine
  rw [hl]
  simp only [Option.bind_eq_bind]
  rw [bomStart_eq h0, Option.bind_some]
  obtain ⟨pre, body, epb, ebody, epre, hpre⟩ : ∃ pre body, l = pre ++ body ∧
      body = (if sp.lineno + 1 = 1 then skipBom l else l) ∧
      (if st.lineno + 1 = 1 ∧ l.take 3 = [0xEF, 0xBB, 0xBF] then 3 else 0) = pre.length ∧
      (sp.lineno + 1 ≠ 1 → pre = []) := by
    rw [r.lineno]
    by_cases hb : sp.lineno + 1 = 1 ∧ l.take 3 = [0xEF, 0xBB, 0xBF]
    · refine ⟨l.take 3, l.drop 3, (List.take_append_drop 3 l).symm, ?_, ?_, fun hh => absurd hb.1 hh⟩
      · rw [if_pos hb.1, skipBom, if_pos hb.2]
      · rw [if_pos hb, hb.2]; rfl
    · refine ⟨[], l, rfl, ?_, ?_, fun _ => rfl⟩
      · unfold skipBom
        by_cases h1 : sp.lineno + 1 = 1
        · rw [if_pos h1, if_neg (fun hh => hb ⟨h1, hh⟩)]
        · rw [if_neg h1]
      · rw [if_neg hb]; rfl
  rw [epre, ← ebody]
  have nb : (0 : Byte) ∉ body := fun hm => h0 (by rw [epb]; simp [hm])
  have e0 : l ++ 0 :: after = pre ++ (body ++ 0 :: after) := by rw [epb]; simp
  rw [e0, rstrip_eq _ _ _ nb rfl, Option.bind_some]
  obtain ⟨a1, e1, l1⟩ := zeros_cons (body.length - (rtrim body).length) after
  rw [e1]
  have nr := no0_rtrim nb
  rw [lskip_eq _ _ _ nr rfl, Option.bind_some]
  obtain ⟨sps, es, lsp, hsp⟩ := ltrim_suffix (rtrim body)
  have nt := no0_ltrim nr
  have hhead : ∀ c, (ltrim (rtrim body)).head? = some c → isSpace c = false := by
    intro c hc
    have := List.head?_dropWhile_not (p := isSpace) (l := rtrim body)
    unfold ltrim at hc
    rw [hc] at this
    simpa using this
  have hrb : body = (sps ++ ltrim (rtrim body)) ++ (body.drop (rtrim body).length) := by
    rw [← es]
    obtain ⟨x, ex⟩ := rtrim_prefix body
    conv => lhs; rw [ex]
    conv => rhs; rw [show body.drop (rtrim body).length = x by
      conv => lhs; rw [ex]
      have : (rtrim (rtrim body ++ x)) = rtrim body := by rw [← ex]
      rw [this, List.drop_left]]
  rw [← lsp]
  have eline : pre ++ (rtrim body ++ 0 :: a1) = (pre ++ sps) ++ (ltrim (rtrim body) ++ 0 :: a1) := by
    conv => lhs; rw [es]
    simp
  rw [eline, show pre.length + sps.length = (pre ++ sps).length by simp]
  have hL : (pre ++ (body ++ 0 :: after)).length = 200 := by rw [← e0, ← hl]; exact r.line
  have hlen : ((pre ++ sps) ++ (ltrim (rtrim body) ++ 0 :: a1)).length = 200 := by
    rw [← eline]
    have := rtrim_len body
    simp only [List.length_append, List.length_cons] at *
    omega
  generalize ht : ltrim (rtrim body) = t at *
  -- state with the line number advanced and the trimmed line
  have r1 : Rep { st with lineno := st.lineno + 1, line := (pre ++ sps) ++ (t ++ 0 :: a1) }
      { sp with lineno := sp.lineno + 1 } :=
    ⟨r.sec, r.prev, hlen, by show st.lineno + 1 = sp.lineno + 1; rw [r.lineno], r.error, r.user,
      fun hh => by simp at hh⟩
  obtain ⟨pr, epr⟩ := r.prev.rep
  have hp0 : st.prev[0]? = some (sp.prev.head?.getD 0) := by
    rw [epr]; cases sp.prev <;> simp
  have hpne : sp.prev.head?.getD 0 ≠ 0 ↔ sp.prev ≠ [] := by
    have := r.prev.no0
    cases hsp : sp.prev with
    | nil => simp
    | cons a q => rw [hsp] at this; simp at this ⊢; exact fun e => this.1 e.symm
  cases t with
  | nil =>
    rw [List.nil_append, getElem?_mid _ _ _ rfl, Option.bind_some, hp0, Option.bind_some]
    simp only [strchrIn, true_or, if_true]
    exact ⟨_, rfl, r1⟩
  | cons c t =>
    rw [List.cons_append, getElem?_mid _ _ _ rfl, Option.bind_some, hp0, Option.bind_some]
    have hc0 : c ≠ 0 := fun e => nt (by simp [e])
    have nt' : (0 : Byte) ∉ t := fun e => nt (by simp [e])
    by_cases h1 : c = 59 ∨ c = 35
    · have : strchrIn [59, 35] c = true := by rcases h1 with h1 | h1 <;> simp [strchrIn, h1]
      rw [if_pos this]
      simp only [List.head?_cons, Option.some.injEq, h1, or_true, if_true]
      exact ⟨_, rfl, r1⟩
    · have : ¬ strchrIn [59, 35] c = true := by simpa [strchrIn, hc0] using h1
      rw [if_neg this]
      have h1' : ¬ (c :: t = [] ∨ (c :: t).head? = some 59 ∨ (c :: t).head? = some 35) := by simpa using h1
      simp only [h1', if_false]
      have hcond : (sp.prev.head?.getD 0 ≠ 0 ∧ c ≠ 0 ∧ (pre ++ sps).length > 0) ↔
          (sp.prev ≠ [] ∧ l.head?.any isSpace) := by
        rw [hpne]
        constructor
        · rintro ⟨a, _, b⟩
          refine ⟨a, ?_⟩
          have hn : sp.lineno + 1 ≠ 1 := fun hh => a (r.first (by omega))
          rw [hpre hn, List.nil_append] at b epb
          rw [epb, hrb]
          cases sps with
          | nil => simp at b
          | cons q qs => simp [hsp q (by simp)]
        · rintro ⟨a, b⟩
          refine ⟨a, hc0, ?_⟩
          have hn : sp.lineno + 1 ≠ 1 := fun hh => a (r.first (by omega))
          rw [hpre hn, List.nil_append] at epb ⊢
          rw [epb, hrb] at b
          cases sps with
          | nil =>
            have hcs := hhead c rfl
            simp [hcs] at b
          | cons q qs => simp
      by_cases h2 : sp.prev ≠ [] ∧ l.head?.any isSpace
      · rw [if_pos (hcond.mpr h2), if_pos h2]
        exact contLine_rep (h := h) r1 (pre := pre ++ sps) (t := c :: t) (after := a1) rfl nt
      · rw [if_neg (fun hh => h2 (hcond.mp hh))]
        simp only [h2, if_false]
        by_cases h3 : c = 91
        · subst h3
          simp only [List.head?_cons, if_true, List.drop_succ_cons, List.drop_zero]
          exact secLine_rep r1 (pre := pre ++ sps) (t := t) (after := a1) rfl nt'
        · have h3' : ¬ (c :: t).head? = some 91 := by simpa using h3
          rw [if_neg h3, if_pos hc0]
          simp only [h3', if_false]
          exact nameLine_rep (h := h) r1 (by simp) (pre := pre ++ sps) (t := c :: t) (after := a1) rfl nt

end Verif.IniReader
