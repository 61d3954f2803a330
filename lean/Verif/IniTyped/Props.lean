import Verif.IniTyped.Lemmas
/-!
# C76: typed values, files and path detection of `ini_parser.c`

`execAll create ops` runs a history of puts and deletes on the model of the parser, `run empty ops` on the document of the
specification (C43); `Ok` keeps within the limits of C43, `CText`: the values put are C strings.
-/
namespace Verif.IniTyped
open Verif.IniParser Verif.IniParser.Spec Spec
open Verif.StrParams.Spec (IsInt IsNat toLong)
open StringBuilder (Alloc)

/-- **C76**: a typed getter that finds no value says so and writes nothing. -/
theorem get_missing {D F : Type} (lib : Lib D F) (ops : List Op) (h : Ok empty ops) (hc : ∀ o ∈ ops, CText o)
    (s k : List Byte) (ty : Ty) (hm : s = [] ∨ k = [] ∨ (run empty ops).1.val (norm s) (norm k) = none) :
    ∃ p, execAll create ops = some (p, (run empty ops).2) ∧
      getValue lib p (some s) (some k) ty = some (none,
        if s = [] then .invalidParam else if !(run empty ops).1.has (norm s) then .notFound
        else if k = [] then .invalidParam else .notFound) := by
  obtain ⟨p, e, r⟩ := execAll_rep ops rep_create h
  refine ⟨p, e, ?_⟩
  rw [getValue_rep lib r (textOk_run ops textOk_empty h hc)]
  by_cases h1 : s = []
  · simp [h1]
  by_cases h2 : (run empty ops).1.has (norm s)
  · by_cases h3 : k = []
    · simp [h1, h2, h3]
    · simp only [h1, h3, false_or] at hm
      simp [h1, h2, h3, hm]
  · simp [h1, h2]

/-- **C76**: NULL for the section or the key is answered without writing anything. -/
theorem get_null {D F : Type} (lib : Lib D F) (ops : List Op) (h : Ok empty ops)
    (s : List Byte) (k : Option (List Byte)) (ty : Ty) :
    ∃ p, execAll create ops = some (p, (run empty ops).2) ∧
      getValue lib p none k ty = some (none, .invalidParam) ∧
      getValue lib p (some s) none ty = some (none,
        if s = [] ∨ (run empty ops).1.has (norm s) then .invalidParam else .notFound) := by
  obtain ⟨p, e, r⟩ := execAll_rep ops rep_create h
  refine ⟨p, e, rfl, ?_⟩
  have hr := has_rep r s
  unfold getValue
  have hl : List.replicate 256 (0 : Byte) = [] ↔ False := by
    rw [iff_false]; intro hh; have := congrArg List.length hh; rw [List.length_replicate] at this; simp at this
  generalize List.replicate 256 (0 : Byte) = buf at hl
  unfold getString at hr ⊢
  by_cases h1 : s = []
  · simp [h1]
  · have h1' : ¬ s.length = 0 := by simpa using h1
    simp only [h1, h1', if_false, false_or, reduceCtorEq, and_false] at hr ⊢
    cases hs : search p s with
    | none => rw [hs] at hr; simp at hr
    | some x =>
      rw [hs] at hr
      cases x with
      | none =>
        by_cases h2 : (run empty ops).1.has (norm s)
        · simp [h2] at hr
        · simp [h2]
      | some x =>
        by_cases h2 : (run empty ops).1.has (norm s)
        · simp [h2]
        · simp [h2] at hr

/-- a key with a value is in a section -/
theorem val_has {p : Parser} {d : Doc} (r : Rep p d) {n k v : List Byte} (h : d.val n k = some v) : d.has n = true := by
  rw [r.val] at h
  rw [r.has]
  unfold valL at h
  unfold hasL
  cases hf : (docOf p).find? fun x => norm x.1 == n with
  | none => rw [hf] at h; simp at h
  | some x =>
    rw [List.any_eq_true]
    exact ⟨x, List.mem_of_find?_eq_some hf, by simpa using List.find?_some hf⟩

/-- the result of a getter for a stored text -/
theorem getValue_text {D F : Type} (lib : Lib D F) (ops : List Op) (h : Ok empty ops) (hc : ∀ o ∈ ops, CText o)
    (s k v : List Byte) (hs : s ≠ []) (hk : k ≠ []) (hv : (run empty ops).1.val (norm s) (norm k) = some v) :
    ∃ p, execAll create ops = some (p, (run empty ops).2) ∧
      ∀ ty, getValue lib p (some s) (some k) ty = some (if v = [] then (none, .failed) else convert lib v ty) := by
  obtain ⟨p, e, r⟩ := execAll_rep ops rep_create h
  refine ⟨p, e, fun ty => ?_⟩
  rw [getValue_rep lib r (textOk_run ops textOk_empty h hc)]
  simp [hs, hk, hv, val_has r hv]

/-- **C76** (empty text): every typed getter fails on an empty value and writes nothing. -/
theorem get_empty {D F : Type} (lib : Lib D F) (ops : List Op) (h : Ok empty ops) (hc : ∀ o ∈ ops, CText o)
    (s k : List Byte) (hs : s ≠ []) (hk : k ≠ []) (hv : (run empty ops).1.val (norm s) (norm k) = some []) :
    ∃ p, execAll create ops = some (p, (run empty ops).2) ∧
      ∀ ty, getValue lib p (some s) (some k) ty = some (none, .failed) := by
  obtain ⟨p, e, hg⟩ := getValue_text lib ops h hc s k [] hs hk hv
  exact ⟨p, e, fun ty => by rw [hg]; simp⟩

/-- **C76** (integers): the getters of integers succeed exactly on the texts that are C integers.  `get_long` and
`get_long_long` then store the nearest 64-bit number, `get_int` the low 32 bits of it.  On any other text they fail. -/
theorem get_integer {D F : Type} (lib : Lib D F) (ops : List Op) (h : Ok empty ops) (hc : ∀ o ∈ ops, CText o)
    (s k v : List Byte) (hs : s ≠ []) (hk : k ≠ []) (hv : (run empty ops).1.val (norm s) (norm k) = some v) :
    ∃ p, execAll create ops = some (p, (run empty ops).2) ∧
      (∀ n, IsInt v n →
        getValue lib p (some s) (some k) .longLong = some (some (.longLong (toLong n)), .succeed) ∧
        getValue lib p (some s) (some k) .long = some (some (.long (toLong n)), .succeed) ∧
        ∃ i, Low32 (toLong n) i ∧ getValue lib p (some s) (some k) .int = some (some (.int i), .succeed)) ∧
      ((¬ ∃ n, IsInt v n) → ∀ ty, ty = .int ∨ ty = .long ∨ ty = .longLong →
        ∃ out, getValue lib p (some s) (some k) ty = some (out, .failed)) := by
  obtain ⟨p, e, hg⟩ := getValue_text lib ops h hc s k v hs hk hv
  refine ⟨p, e, ?_, ?_⟩
  · intro n hn
    have hne : v ≠ [] := (StrParams.strtol_int hn).1
    refine ⟨?_, ?_, toInt (toLong n), toInt_low32 _, ?_⟩ <;> rw [hg, if_neg hne, convert, str2ll_int hn]
  · intro hn ty hty
    rw [hg]
    by_cases hne : v = []
    · rw [if_pos hne]; exact ⟨_, rfl⟩
    · rw [if_neg hne]
      rcases hty with rfl | rfl | rfl <;> exact ⟨_, by rw [convert, str2ll_not hne hn]⟩

/-- FINDING: a getter of integers that fails on a non-empty text has nevertheless overwritten the caller's variable (with the
number read before the first character that does not belong to it, or 0). -/
theorem get_integer_clobbers {D F : Type} (lib : Lib D F) (ops : List Op) (h : Ok empty ops) (hc : ∀ o ∈ ops, CText o)
    (s k v : List Byte) (hs : s ≠ []) (hk : k ≠ []) (hv : (run empty ops).1.val (norm s) (norm k) = some v)
    (hne : v ≠ []) (hn : ¬ ∃ n, IsInt v n) :
    ∃ p i j, execAll create ops = some (p, (run empty ops).2) ∧
      getValue lib p (some s) (some k) .int = some (some (.int i), .failed) ∧
      getValue lib p (some s) (some k) .long = some (some (.long j), .failed) ∧
      getValue lib p (some s) (some k) .longLong = some (some (.longLong j), .failed) := by
  obtain ⟨p, e, hg⟩ := getValue_text lib ops h hc s k v hs hk hv
  refine ⟨p, toInt (str2ll v).1, (str2ll v).1, e, ?_, ?_, ?_⟩
  · rw [hg, if_neg hne, convert, str2ll_not hne hn]
  · rw [hg, if_neg hne, convert, str2ll_not hne hn]
  · rw [hg, if_neg hne, convert, str2ll_not hne hn]

/-- **C76** (booleans): a text beginning with "true" or "yes" (any letter case) is true, with "false" or "no" false; a C
integer is true if the low 32 bits of the nearest 64-bit number are not all 0; any other text fails (and stores false, see
`get_bool_clobbers`). -/
theorem get_bool {D F : Type} (lib : Lib D F) (ops : List Op) (h : Ok empty ops) (hc : ∀ o ∈ ops, CText o)
    (s k v : List Byte) (hs : s ≠ []) (hk : k ≠ []) (hv : (run empty ops).1.val (norm s) (norm k) = some v) :
    ∃ p, execAll create ops = some (p, (run empty ops).2) ∧
      (∀ b, Word v b → getValue lib p (some s) (some k) .bool = some (some (.bool b), .succeed)) ∧
      (∀ n, IsInt v n → ∃ b, (b = false ↔ (2 ^ 32 : Int) ∣ toLong n) ∧
        getValue lib p (some s) (some k) .bool = some (some (.bool b), .succeed)) ∧
      ((∀ b, ¬ Word v b) → (¬ ∃ n, IsInt v n) → v ≠ [] →
        getValue lib p (some s) (some k) .bool = some (some (.bool false), .failed)) := by
  obtain ⟨p, e, hg⟩ := getValue_text lib ops h hc s k v hs hk hv
  have i1 := strncasecmp0_iff wTrue v
  have i2 := strncasecmp0_iff wFalse v
  have i3 := strncasecmp0_iff wYes v
  have i4 := strncasecmp0_iff wNo v
  simp only [wTrue, wFalse, wYes, wNo, List.length_cons, List.length_nil, Nat.zero_add, Nat.reduceAdd] at i1 i2 i3 i4
  have hnil : ∀ b, Word v b → v ≠ [] := by
    intro b hw
    cases b <;> simp only [Word, if_true, Bool.false_eq_true, if_false] at hw <;> rcases hw with hw | hw <;>
      obtain ⟨c, r, rfl, _⟩ := begins_head hw <;> simp
  refine ⟨p, e, ?_, ?_, ?_⟩
  · intro b hw
    rw [hg, if_neg (hnil b hw), convert]
    have key : str2bool v = (b, .succeed) := by
      unfold str2bool
      cases b
      · simp only [Word, Bool.false_eq_true, if_false] at hw
        rcases hw with hw | hw
        · have h1 : ¬ Begins v [116, 114, 117, 101] := fun hh => absurd (begins_clash hw hh) (by decide)
          rw [if_neg (by rwa [i1]), if_pos (i2.mpr hw)]
        · have h1 : ¬ Begins v [116, 114, 117, 101] := fun hh => absurd (begins_clash hw hh) (by decide)
          have h2 : ¬ Begins v [102, 97, 108, 115, 101] := fun hh => absurd (begins_clash hw hh) (by decide)
          have h3 : ¬ Begins v [121, 101, 115] := fun hh => absurd (begins_clash hw hh) (by decide)
          rw [if_neg (by rwa [i1]), if_neg (by rwa [i2]), if_neg (by rwa [i3]), if_pos (i4.mpr hw)]
      · simp only [Word, if_true] at hw
        rcases hw with hw | hw
        · rw [if_pos (i1.mpr hw)]
        · have h1 : ¬ Begins v [116, 114, 117, 101] := fun hh => absurd (begins_clash hw hh) (by decide)
          have h2 : ¬ Begins v [102, 97, 108, 115, 101] := fun hh => absurd (begins_clash hw hh) (by decide)
          rw [if_neg (by rwa [i1]), if_neg (by rwa [i2]), if_pos (i3.mpr hw)]
    rw [key]
  · intro n hn
    have hne : v ≠ [] := (StrParams.strtol_int hn).1
    have hw : ∀ b, ¬ Word v b := fun b hb => word_not_int hb n hn
    have hwt := hw true
    have hwf := hw false
    simp only [Word, if_true, Bool.false_eq_true, if_false, not_or] at hwt hwf
    refine ⟨(str2bool v).1, ?_, ?_⟩
    · unfold str2bool
      rw [if_neg (by rw [i1]; exact hwt.1), if_neg (by rw [i2]; exact hwf.1), if_neg (by rw [i3]; exact hwt.2),
        if_neg (by rw [i4]; exact hwf.2), str2ll_int hn]
      simp only [if_true]
      have hl := toInt_low32 (toLong n)
      by_cases hz : toInt (toLong n) = 0
      · rw [if_pos hz]
        obtain ⟨_, _, hd⟩ := hl
        rw [hz] at hd
        simpa using hd
      · rw [if_neg hz]
        simp only [Bool.true_eq_false, false_iff]
        intro hd
        exact hz (low32_unique hl ⟨by omega, by omega, by simpa using hd⟩)
    · rw [hg, if_neg hne, convert]
      congr 2
      unfold str2bool
      rw [if_neg (by rw [i1]; exact hwt.1), if_neg (by rw [i2]; exact hwf.1), if_neg (by rw [i3]; exact hwt.2),
        if_neg (by rw [i4]; exact hwf.2), str2ll_int hn]
      simp
  · intro hw hn hne
    have hwt := hw true
    have hwf := hw false
    simp only [Word, if_true, Bool.false_eq_true, if_false, not_or] at hwt hwf
    rw [hg, if_neg hne, convert]
    unfold str2bool
    rw [if_neg (by rw [i1]; exact hwt.1), if_neg (by rw [i2]; exact hwf.1), if_neg (by rw [i3]; exact hwt.2),
      if_neg (by rw [i4]; exact hwf.2), str2ll_not hne hn]
    simp

/-- **C76** (floating point): `get_double` and `get_float` store what the C library reads if it reads the whole text, and
fail without writing otherwise. -/
theorem get_floating {D F : Type} (lib : Lib D F) (ops : List Op) (h : Ok empty ops) (hc : ∀ o ∈ ops, CText o)
    (s k v : List Byte) (hs : s ≠ []) (hk : k ≠ []) (hne : v ≠ [])
    (hv : (run empty ops).1.val (norm s) (norm k) = some v) :
    ∃ p, execAll create ops = some (p, (run empty ops).2) ∧
      (∀ x, lib.strtod v = (x, []) → getValue lib p (some s) (some k) .double = some (some (.double x), .succeed)) ∧
      (∀ x, lib.strtof v = (x, []) → getValue lib p (some s) (some k) .float = some (some (.float x), .succeed)) ∧
      ((lib.strtod v).2 ≠ [] → getValue lib p (some s) (some k) .double = some (none, .failed)) ∧
      ((lib.strtof v).2 ≠ [] → getValue lib p (some s) (some k) .float = some (none, .failed)) := by
  obtain ⟨p, e, hg⟩ := getValue_text lib ops h hc s k v hs hk hv
  refine ⟨p, e, ?_, ?_, ?_, ?_⟩
  · intro x hx; rw [hg, if_neg hne, convert, hx]; simp
  · intro x hx; rw [hg, if_neg hne, convert, hx]; simp
  · intro hx; rw [hg, if_neg hne, convert, if_pos hx]
  · intro hx; rw [hg, if_neg hne, convert, if_pos hx]

theorem decimal_ctext (n : Int) : (0 : Byte) ∉ decimal n := by
  unfold decimal
  split
  · intro h
    rcases List.mem_cons.mp h with h | h
    · exact absurd h (by decide)
    · exact decText_no0 _ h
  · exact decText_no0 _

theorem decimal_length {n : Int} (h : -2 ^ 63 ≤ n ∧ n < 2 ^ 63) : (decimal n).length ≤ 20 := by
  have : (Strings.decText n.natAbs).length ≤ 19 := (decText_length_le (by decide)).mpr (by omega)
  unfold decimal
  split
  · rw [List.length_cons]; omega
  · omega

theorem ok_append (ops : List Op) : ∀ {d : Doc}, Ok d ops → ∀ o, Fits o → KeepsRecent (run d ops).1 o → Ok d (ops ++ [o]) := by
  induction ops with
  | nil => intro d _ o hf hk; exact ⟨hf, hk, trivial⟩
  | cons a ops ih => intro d h o hf hk; exact ⟨h.1, h.2.1, ih h.2.2 o hf hk⟩

theorem run_append (ops : List Op) : ∀ {d : Doc} (o : Op), (run d (ops ++ [o])).1 = (Spec.step (run d ops).1 o).1 := by
  induction ops with
  | nil => intro d o; rfl
  | cons a ops ih => intro d o; exact ih o

/-- **C76** (round trip): whatever happened before, after putting the decimal text of a 64-bit number under a key, every typed
getter of an integer reads that number back under any letter case of section and key (`get_int`: if it fits an `int`), and
`get_bool` tells whether an `int` is not 0. -/
theorem put_decimal_get {D F : Type} (lib : Lib D F) (ops : List Op) (h : Ok empty ops) (hc : ∀ o ∈ ops, CText o)
    (s k s' k' : List Byte) (hs : s ≠ []) (hk : k ≠ []) (hs' : s.length ≤ 63) (hk' : k.length ≤ 63)
    (es : norm s' = norm s) (ek : norm k' = norm k) (n : Int) (hn : -2 ^ 63 ≤ n ∧ n < 2 ^ 63) :
    ∃ p cs, execAll create (ops ++ [.put s k (decimal n)]) = some (p, cs) ∧
      getValue lib p (some s') (some k') .longLong = some (some (.longLong n), .succeed) ∧
      getValue lib p (some s') (some k') .long = some (some (.long n), .succeed) ∧
      (-2 ^ 31 ≤ n ∧ n < 2 ^ 31 →
        getValue lib p (some s') (some k') .int = some (some (.int n), .succeed) ∧
        getValue lib p (some s') (some k') .bool = some (some (.bool (n ≠ 0)), .succeed)) := by
  have hl := decimal_length hn
  have hok : Ok empty (ops ++ [.put s k (decimal n)]) := ok_append ops h _ ⟨hs', hk', by omega⟩ trivial
  have hct : ∀ o ∈ ops ++ [.put s k (decimal n)], CText o := by
    intro o ho
    rcases List.mem_append.mp ho with ho | ho
    · exact hc o ho
    · rw [List.mem_singleton.mp ho]; exact decimal_ctext n
  have hval : (run empty (ops ++ [.put s k (decimal n)])).1.val (norm s') (norm k') = some (decimal n) := by
    rw [run_append]
    simp [Spec.step, hs, hk, Spec.put, es, ek]
  have hs2 : s' ≠ [] := by rintro rfl; exact hs (norm_nil_iff.mp es.symm)
  have hk2 : k' ≠ [] := by rintro rfl; exact hk (norm_nil_iff.mp ek.symm)
  obtain ⟨p, e, h1, _⟩ := get_integer lib _ hok hct s' k' _ hs2 hk2 hval
  obtain ⟨p', e', _, h2, _⟩ := get_bool lib _ hok hct s' k' _ hs2 hk2 hval
  rw [e] at e'
  cases e'
  obtain ⟨a1, a2, i, a3, a4⟩ := h1 n (isInt_decimal n)
  obtain ⟨b, b1, b2⟩ := h2 n (isInt_decimal n)
  have hlong : toLong n = n := by unfold toLong; omega
  rw [hlong] at a1 a2 a3 b1
  refine ⟨p, _, e, a1, a2, fun hr => ?_⟩
  have hi : i = n := low32_unique a3 ⟨hr.1, hr.2, by simp⟩
  subst hi
  refine ⟨a4, ?_⟩
  rw [b2]
  have : b = decide (i ≠ 0) := by
    by_cases hz : i = 0
    · rw [show decide (i ≠ 0) = false by simp [hz]]
      exact b1.mpr (by rw [hz]; simp)
    · rw [show decide (i ≠ 0) = true by simp [hz]]
      cases hb : b with
      | true => rfl
      | false =>
        obtain ⟨q, hq⟩ := b1.mp hb
        exfalso
        have : q = 0 := by omega
        rw [this] at hq
        omega
  rw [this]

/-- FINDING: `get_int` of a number that does not fit reports success with another number; `get_bool` calls 2^32 false. -/
theorem get_int_truncates {D F : Type} (lib : Lib D F) (ops : List Op) (h : Ok empty ops) (hc : ∀ o ∈ ops, CText o)
    (s k v : List Byte) (hs : s ≠ []) (hk : k ≠ []) (hv : (run empty ops).1.val (norm s) (norm k) = some v)
    (n : Int) (hn : IsInt v n) (hbig : n < -2 ^ 31 ∨ 2 ^ 31 ≤ n) :
    ∃ p i, execAll create ops = some (p, (run empty ops).2) ∧ i ≠ n ∧
      getValue lib p (some s) (some k) .int = some (some (.int i), .succeed) := by
  obtain ⟨p, e, h1, _⟩ := get_integer lib ops h hc s k v hs hk hv
  obtain ⟨_, _, i, hi, hg⟩ := h1 n hn
  refine ⟨p, i, e, ?_, hg⟩
  obtain ⟨h1, h2, _⟩ := hi
  omega

/-- **C76** (existence): `has_section_key` and `has_section` answer as the document says. -/
theorem has_spec (ops : List Op) (h : Ok empty ops) (s k : List Byte) (hs : s ≠ []) (hk : k ≠ []) :
    ∃ p, execAll create ops = some (p, (run empty ops).2) ∧
      hasSection p (some s) = some (if (run empty ops).1.has (norm s) then .succeed else .notFound) ∧
      hasSectionKey p (some s) (some k) =
        some (if ((run empty ops).1.val (norm s) (norm k)).isSome then .succeed else .notFound) := by
  obtain ⟨p, e, r⟩ := execAll_rep ops rep_create h
  refine ⟨p, e, ?_, ?_⟩
  · unfold hasSection hasSectionKey
    rw [has_rep r s]; simp [hs]
  · unfold hasSectionKey
    have h1 := get_rep r s k [] 0 (by simp)
    have hl : ¬ s.length = 0 := by simpa using hs
    unfold getString at h1 ⊢
    simp only [hl, if_false, hk, reduceCtorEq, false_and, if_true] at h1 ⊢
    cases hsr : search p s with
    | none => rw [hsr] at h1; simp at h1
    | some x =>
      rw [hsr] at h1
      cases x with
      | none =>
        cases hv : (run empty ops).1.val (norm s) (norm k) with
        | none => simp
        | some v =>
          simp [answer, hs, hk, val_has r hv, hv] at h1
      | some x =>
        simp only at h1 ⊢
        cases hkv : kvsAt p x with
        | none => rw [hkv] at h1; simp at h1
        | some kvs =>
          rw [hkv] at h1
          simp only at h1 ⊢
          cases hf : (findKey kvs k).bind fun i => kvs[i]? with
          | none =>
            rw [hf] at h1
            simp only [Option.map_some, Option.some.injEq]
            cases hv : (run empty ops).1.val (norm s) (norm k) with
            | none => simp
            | some v => simp [answer, hs, hk, val_has r hv, hv] at h1
          | some kv =>
            rw [hf] at h1
            simp only [Option.map_some, Option.some.injEq]
            cases hv : (run empty ops).1.val (norm s) (norm k) with
            | some v => simp
            | none =>
              by_cases h2 : (run empty ops).1.has (norm s) <;> simp [answer, hs, hk, h2, hv] at h1

/-! ### Files -/

theorem dump_eq {p : Parser} (hsm : Small (docOf p)) (h0 : (0 : Byte) ∉ render (docOf p))
    (hsize : p.pred + 64 < 2 ^ 62 ∧ (render (docOf p)).length + 1 < 2 ^ 62) (j : Nat → Byte) {al : Nat → Alloc}
    (hal : ∀ i, (al i).isSome) (dup : Bool) :
    dump p true (some j) al dup = some (if dup then some (render (docOf p)) else none) := by
  unfold dump
  obtain ⟨sb, e, hs⟩ := sb_create hsize.1 j
  obtain ⟨sb', e', hs'⟩ := dumpSecs_ok hal p.secs sb 0 [] hs hsm (by simpa [docOf] using hsize.2)
  unfold dumpIni
  rw [e]
  simp only []
  rw [e']
  simp only [Option.map_some, ne_eq, not_true_eq_false, if_false]
  rw [List.nil_append] at hs'
  have hs'' : StringBuilder.Spec.Holds sb' (render (docOf p)) := hs'
  rw [StringBuilder.to_string_is_text hs'' h0]
  rfl

/-- **C76** (files): whatever document was built (within the limits of C45), saving it, all the system's answers being
favourable, succeeds exactly if the document has a section; then the file holds the text `ini_parser_dump` returns and no
`FILE*` stays open, and `ini_parser_parse_file` on that file gives a document with the same value for every key of every
section, whose sections are those that had a key. -/
theorem save_parse_file (ops : List Op) (hok : Ok empty ops) (hg : ∀ o ∈ ops, Readable o)
    (hm : (ops.map cost).sum + 65 < 2 ^ 62) (path : List Byte) (hpath : path ≠ []) (disk : Disk)
    (j : Nat → Byte) (al : Nat → Alloc) (hal : ∀ i, (al i).isSome) (written : Nat)
    (hw : (ops.map cost).sum ≤ written) (garbage : Mem) (hgl : garbage.length = 200)
    (hne : ∃ s, (run empty ops).1.has s = true) :
    ∃ p text disk' p' d', execAll create ops = some (p, (run empty ops).2) ∧
      dump p true (some j) al true = some (some text) ∧
      save p (some path) ⟨true, true, some j, al, true, written⟩ disk = some (disk', .succeed) ∧
      disk'.file = some text ∧ disk'.handles = disk.handles ∧
      parseFile (some path) ⟨true, true, true, garbage⟩ disk' = some (disk', some p') ∧
      Shows p' d' ∧
      (∀ n k, d'.val n k = (run empty ops).1.val n k) ∧
      (∀ n, d'.has n = true ↔ ∃ k v, (run empty ops).1.val n k = some v) := by
  have hrt := dump_parse_round_trip ops hok hg (List.replicate ((ops.map cost).sum + 64) 0) ((ops.map cost).sum + 64)
    (by rw [List.length_replicate]) hm j al hal garbage hgl
  obtain ⟨p, text, e, hnil, hdump, hback, _⟩ := hrt
  obtain ⟨p0, e0, r⟩ := execAll_rep ops rep_create hok
  have ep : p0 = p := by
    have := e0.symm.trans e
    simp only [Option.some.injEq, Prod.mk.injEq, and_true] at this
    exact this
  subst ep
  have hgd : GoodDoc (docOf p0) := execAll_good ops rep_create hok hg (by simp [GoodDoc, docOf, create]) e
  have hpred := execAll_pred ops e
  rw [show create.pred = 0 from rfl, Nat.zero_add] at hpred
  have hlen := execAll_len ops rep_create hok e
  rw [show (render (docOf create)).length = 0 from rfl, Nat.zero_add] at hlen
  have htn : text ≠ [] := by
    intro hh
    obtain ⟨s, hs⟩ := hne
    rw [hnil.mp hh s] at hs
    cases hs
  have hd1 := hdump htn (Nat.le_refl _)
  have hsec : p0.secs ≠ [] := by
    intro hh
    obtain ⟨s, hs⟩ := hne
    rw [r.has] at hs
    simp [docOf, hh, hasL] at hs
  have hd2 := dumpToMem_eq (goodDoc_small hgd) (zero_notin_render hgd) ⟨by omega, by omega⟩ j hal
    (List.replicate ((ops.map cost).sum + 64) 0) ((ops.map cost).sum + 64) (by rw [List.length_replicate])
  rw [hd1, if_neg (by omega), if_neg hsec, if_neg (by omega)] at hd2
  simp only [Option.some.injEq, Prod.mk.injEq, and_true] at hd2
  have htext : text = render (docOf p0) := by
    have h1 := congrArg (List.take text.length) hd2.1
    have h2 : text.length = (render (docOf p0)).length := by omega
    rw [List.take_left' rfl, h2, List.take_left' rfl] at h1
    exact h1
  have hdmp : dump p0 true (some j) al true = some (some text) := by
    rw [dump_eq (goodDoc_small hgd) (zero_notin_render hgd) ⟨by omega, by omega⟩ j hal, htext]; rfl
  obtain ⟨_, _, _, p', d', hparse, hshow, hval, hhas, _⟩ := hback _ _ hd1
  have hlen6 : 6 ≤ text.length := by
    rw [htext]
    unfold docOf
    cases hs : p0.secs with
    | nil => exact absurd hs hsec
    | cons x l =>
      have hx : x.name ≠ [] := (hgd (x.name, x.kvs) (by simp [docOf, hs])).1.1
      have : 0 < x.name.length := List.length_pos_iff.mpr hx
      simp only [List.map_cons, render, List.flatMap_cons, sectionText, List.length_append, List.length_cons,
        List.length_nil]
      omega
  have hz : (0 : Byte) ∉ text := by rw [htext]; exact zero_notin_render hgd
  have hparse' : parseStr (text ++ [0]) garbage = some (some p') := by
    have h1 := IniReader.parseString_spec handlerCb text [] garbage (some create) hz hgl
    have h2 := IniReader.parseString_spec handlerCb text
      ((List.replicate ((ops.map cost).sum + 64) 0).drop (text.length + 1)) garbage (some create) hz hgl
    rw [← hparse]
    unfold parseStr
    rw [h1, h2]
  refine ⟨p0, text, { file := some text, handles := disk.handles }, p', d', e, hdmp, ?_, rfl, rfl, ?_, hshow, hval, hhas⟩
  · unfold save
    simp only [hpath, if_false, Bool.not_true, Bool.false_eq_true, hdmp, htn]
    rw [List.take_of_length_le (by rw [htext]; omega)]
    rfl
  · unfold parseFile
    have h1 : ¬ path.length < 1 := by
      have := List.length_pos_iff.mpr hpath
      omega
    simp only [h1, if_false, Bool.not_true, Bool.false_eq_true, if_neg (show ¬ text.length < 6 by omega), hparse']
    rfl

/-- **C76** (files, the calls that fail early): without a path, or if the file cannot be opened, `save` leaves everything as it
was. -/
theorem save_refused (p : Parser) (path : Option (List Byte)) (e : SaveEnv) (d : Disk)
    (h : path = none ∨ path = some [] ∨ e.open_ = false) : save p path e d = some (d, .invalidParam) := by
  unfold save
  rcases h with rfl | rfl | h
  · rfl
  · simp
  · cases path with
    | none => rfl
    | some path => simp [h]

/-- FINDING: saving a document without sections, or one whose text cannot be built for want of memory, reports failure, but has
already emptied the file that was there, and never closes it. -/
theorem save_failed_destroys (p : Parser) (path : Option (List Byte)) (e : SaveEnv) (d d' : Disk)
    (h : save p path e d = some (d', .failed)) : d'.file = some [] ∧ d'.handles = d.handles + 1 := by
  unfold save at h
  cases path with
  | none => simp at h
  | some path =>
    simp only at h
    split at h
    · simp at h
    · split at h
      · simp at h
      · split at h
        · simp at h
        · simp only [Option.some.injEq, Prod.mk.injEq, and_true] at h
          subst h; exact ⟨rfl, rfl⟩
        · split at h
          · simp only [Option.some.injEq, Prod.mk.injEq, and_true] at h
            subst h; exact ⟨rfl, rfl⟩
          · simp at h

/-- FINDING: the empty document is such a case, whatever the system answers. -/
theorem save_empty_document (path : List Byte) (hp : path ≠ []) (d : Disk) (j : Nat → Byte) (al : Nat → Alloc) (dup : Bool)
    (hal : ∀ i, (al i).isSome) (w : Nat) :
    save create (some path) ⟨true, true, some j, al, dup, w⟩ d = some (⟨some [], d.handles + 1⟩, .failed) := by
  unfold save
  simp only [hp, Bool.not_true, Bool.false_eq_true, if_false]
  rw [dump_eq (p := create) (by intro x hx; simp [docOf, create] at hx) (by simp [docOf, create, render])
    ⟨by decide, by decide⟩ j hal dup]
  cases dup
  · rfl
  · rfl

/-- FINDING: `save` reports success although only a part of the text (here: `written` bytes of it) reached the file. -/
theorem save_ignores_fwrite (p : Parser) (path : List Byte) (hp : path ≠ []) (d : Disk) (e : SaveEnv) (t : List Byte)
    (ho : e.open_ = true) (ht : dump p e.a0 e.a1 e.al e.dup = some (some t)) (hne : t ≠ []) :
    save p (some path) e d = some (⟨some (t.take e.written), d.handles⟩, .succeed) := by
  unfold save
  simp [hp, ho, ht, hne]

/-- **C76** (files): `ini_parser_parse_file` never changes the file, never leaves it open; it returns NULL unless the file can be
opened and read and has at least 6 bytes; then it parses the bytes up to the first NUL. -/
theorem parse_file_spec (path : Option (List Byte)) (e : ParseEnv) (d d' : Disk) (r : Option Parser)
    (h : parseFile path e d = some (d', r)) :
    d' = d ∧
    (∀ p, r = some p → ∃ bytes, d.file = some bytes ∧ path ≠ none ∧ path ≠ some [] ∧ e.open_ = true ∧ e.mem = true ∧
      e.read = true ∧ 6 ≤ bytes.length) ∧
    (∀ bytes, d.file = some bytes → path ≠ none → path ≠ some [] → e.open_ = true → e.mem = true → e.read = true →
      6 ≤ bytes.length → parseStr (bytes ++ [0]) e.garbage = some r) := by
  unfold parseFile at h
  cases path with
  | none => simp only [Option.some.injEq, Prod.mk.injEq] at h; obtain ⟨rfl, rfl⟩ := h; simp
  | some path =>
    simp only at h
    by_cases hp : path = []
    · subst hp
      simp at h
      obtain ⟨rfl, rfl⟩ := h
      simp
    · have hp1 : ¬ path.length < 1 := by
        have := List.length_pos_iff.mpr hp
        omega
      rw [if_neg hp1] at h
      cases hf : d.file with
      | none =>
        rw [hf] at h
        simp only [Option.some.injEq, Prod.mk.injEq] at h; obtain ⟨rfl, rfl⟩ := h; simp
      | some bytes =>
        rw [hf] at h
        simp only at h
        by_cases h1 : e.open_ = true
        · by_cases h2 : bytes.length < 6
          · simp only [h1, h2, if_true, Bool.not_true, Bool.false_eq_true, if_false, Option.some.injEq, Prod.mk.injEq] at h
            obtain ⟨rfl, rfl⟩ := h
            refine ⟨by cases d; simp; exact hf.symm, by simp, ?_⟩
            intro b hb _ _ _ _ _ h6
            cases hb; omega
          · by_cases h3 : e.mem = true
            · by_cases h4 : e.read = true
              · simp only [h1, h2, h3, h4, Bool.not_true, Bool.false_eq_true, if_false, Option.map_eq_some_iff,
                  Prod.mk.injEq] at h
                obtain ⟨x, hx, rfl, rfl⟩ := h
                refine ⟨by cases d; simp; exact hf.symm, ?_, ?_⟩
                · intro p _
                  exact ⟨bytes, rfl, by simp, by simp [hp], h1, h3, h4, by omega⟩
                · intro b hb _ _ _ _ _ _
                  cases hb; exact hx
              · simp [h1, h2, h3, h4] at h
                obtain ⟨rfl, rfl⟩ := h
                exact ⟨by cases d; simp; exact hf.symm, by simp, by intro b _ _ _ _ _ hh; exact absurd hh h4⟩
            · simp [h1, h2, h3] at h
              obtain ⟨rfl, rfl⟩ := h
              exact ⟨by cases d; simp; exact hf.symm, by simp, by intro b _ _ _ _ hh; exact absurd hh h3⟩
        · simp [h1] at h
          obtain ⟨rfl, rfl⟩ := h
          exact ⟨rfl, by simp, by intro b _ _ _ hh; exact absurd hh h1⟩

/-! ### Paths -/

theorem isspaceChar_spec {c : Byte} {b : Bool} (h : isspaceChar c = some b) : b = true ↔ White c := by
  unfold isspaceChar at h
  unfold White
  split at h
  · cases h
    simp only [Bool.or_eq_true, beq_iff_eq, Bool.and_eq_true, decide_eq_true_eq, UInt8.le_iff_toNat_le]
    rfl
  · split at h
    · cases h
      simp only [Bool.false_eq_true, false_iff, not_or]
      exact ⟨by rintro rfl; simp_all, by omega⟩
    · cases h

theorem pathLoop_false {t : List Byte} (h : pathLoop t = some false) :
    ∃ ws c rest, t = ws ++ c :: rest ∧ (∀ x ∈ ws, White x) ∧ (c = 35 ∨ c = 91) := by
  induction t with
  | nil => simp [pathLoop] at h
  | cons c t ih =>
    unfold pathLoop at h
    cases hc : isspaceChar c with
    | none => rw [hc] at h; simp at h
    | some b =>
      rw [hc] at h
      cases b with
      | true =>
        obtain ⟨ws, c', rest, rfl, h1, h2⟩ := ih h
        refine ⟨c :: ws, c', rest, rfl, ?_, h2⟩
        intro x hx
        rcases List.mem_cons.mp hx with rfl | hx
        · exact (isspaceChar_spec hc).mp rfl
        · exact h1 x hx
      | false =>
        simp only at h
        by_cases h2 : c = 35 ∨ c = 91
        · exact ⟨[], c, t, rfl, by simp, h2⟩
        · rw [if_neg h2] at h; cases h

theorem white_isspace {c : Byte} (h : White c) : isspaceChar c = some true := by
  cases hc : isspaceChar c with
  | none =>
    exfalso
    unfold isspaceChar at hc
    split at hc
    · cases hc
    · rcases h with rfl | h
      · simp at *
      · omega
  | some b => rw [(isspaceChar_spec hc).mpr h]

theorem pathLoop_content (ws : List Byte) (c : Byte) (rest : List Byte) (hw : ∀ x ∈ ws, White x) (hc : c = 35 ∨ c = 91) :
    pathLoop (ws ++ c :: rest) = some false := by
  induction ws with
  | nil =>
    rcases hc with rfl | rfl
    · rfl
    · rfl
  | cons x ws ih =>
    rw [List.cons_append, pathLoop, white_isspace (hw x (by simp))]
    exact ih fun y hy => hw y (by simp [hy])

/-- **C76** (paths): `ini_parser_is_file_path`, where it is defined, says "content" exactly for the texts of `Content`, and NULL
is no path. -/
theorem is_file_path_spec (t : List Byte) (b : Bool) (h : isFilePath (some t) = some b) : b = false ↔ Content t := by
  unfold isFilePath at h
  simp only at h
  by_cases h1 : t = []
  · rw [if_pos h1] at h; cases h; simp [Content, h1]
  rw [if_neg h1] at h
  by_cases h2 : (10 : Byte) ∈ t
  · rw [if_pos (by simpa using h2)] at h; cases h; simp [Content, h2]
  rw [if_neg (by simpa using h2)] at h
  constructor
  · rintro rfl
    exact .inr (.inr (pathLoop_false h))
  · rintro (hh | hh | ⟨ws, c, rest, rfl, hw, hc⟩)
    · exact absurd hh h1
    · exact absurd hh h2
    · rw [pathLoop_content ws c rest hw hc] at h; cases h; rfl

/-- **C76** (paths): texts of ASCII characters are within the domain; so is every text whose first character is an ASCII
character other than white space. -/
theorem is_file_path_defined (t : List Byte) (h : ∀ c ∈ t, c.toNat < 128) : ∃ b, isFilePath (some t) = some b := by
  have key : ∀ t : List Byte, (∀ c ∈ t, c.toNat < 128) → ∃ b, pathLoop t = some b := by
    intro t
    induction t with
    | nil => intro _; exact ⟨true, rfl⟩
    | cons c t ih =>
      intro h
      unfold pathLoop isspaceChar
      rw [if_pos (h c (by simp))]
      cases (c == 32 || (9 ≤ c && c ≤ 13)) with
      | true => exact ih fun d hd => h d (by simp [hd])
      | false => exact ⟨_, rfl⟩
  unfold isFilePath
  simp only
  split
  · exact ⟨_, rfl⟩
  · split
    · exact ⟨_, rfl⟩
    · exact key t h

/-- FINDING: a path of one line whose first character is a non-ASCII one makes `isspace` get a negative argument, which is
undefined behaviour (every UTF-8 name in a language with a non-Latin script). -/
theorem is_file_path_utf8 (c : Byte) (t : List Byte) (hc : 128 ≤ c.toNat ∧ c.toNat ≤ 254) (h : (10 : Byte) ∉ t) :
    isFilePath (some (c :: t)) = none := by
  unfold isFilePath
  have h1 : ¬ ((c :: t).contains 10 = true) := by
    rw [List.contains_iff_mem]
    intro hh
    rcases List.mem_cons.mp hh with hh | hh
    · rw [← hh] at hc; simp at hc
    · exact h hh
  simp only [reduceCtorEq, if_false]
  rw [if_neg h1, pathLoop, isspaceChar, if_neg (by omega), if_neg (by omega)]

theorem is_file_path_null : isFilePath none = some false := rfl

/-! ### Examples -/

def exLib : Lib Nat Nat := ⟨fun t => (t.length, if t = [49, 46, 53] then [] else t), fun t => (t.length, [])⟩

/-- `[a] n = 12abc, m = 4294967296, b = YESterday, e = , d = 1.5` -/
def exOps2 : List Op :=
  [.put [97] [110] [49, 50, 97, 98, 99], .put [97] [109] (decimal 4294967296), .put [97] [98] [89, 69, 83, 116],
    .put [97] [101] [], .put [97] [100] [49, 46, 53]]

theorem exOps2_ok : Ok empty exOps2 := by
  refine ⟨⟨by decide, by decide, by decide⟩, trivial, ⟨by decide, by decide, by decide⟩, trivial,
    ⟨by decide, by decide, by decide⟩, trivial, ⟨by decide, by decide, by decide⟩, trivial,
    ⟨by decide, by decide, by decide⟩, trivial, trivial⟩

theorem exOps2_c : ∀ o ∈ exOps2, CText o := by
  intro o ho
  simp only [exOps2, List.mem_cons, List.not_mem_nil, or_false] at ho
  rcases ho with rfl | rfl | rfl | rfl | rfl
  · show (0 : Byte) ∉ _; decide
  · exact decimal_ctext _
  · show (0 : Byte) ∉ _; decide
  · show (0 : Byte) ∉ _; decide
  · show (0 : Byte) ∉ _; decide

example : (run empty exOps2).1.val (norm [65]) (norm [78]) = some [49, 50, 97, 98, 99] := by decide +kernel

/-- "12abc": `get_int` fails and stores 12 -/
example : (execAll create exOps2).bind (fun r => getValue exLib r.1 (some [97]) (some [110]) .int) =
    some (some (.int 12), .failed) := by decide +kernel
/-- "4294967296": `get_int` succeeds with 0, `get_bool` with false, `get_long` with the number -/
example : (execAll create exOps2).bind (fun r => getValue exLib r.1 (some [97]) (some [109]) .int) =
    some (some (.int 0), .succeed) := by decide +kernel
example : (execAll create exOps2).bind (fun r => getValue exLib r.1 (some [97]) (some [109]) .bool) =
    some (some (.bool false), .succeed) := by decide +kernel
example : (execAll create exOps2).bind (fun r => getValue exLib r.1 (some [97]) (some [109]) .long) =
    some (some (.long 4294967296), .succeed) := by decide +kernel
/-- "YESt" is true -/
example : (execAll create exOps2).bind (fun r => getValue exLib r.1 (some [97]) (some [66]) .bool) =
    some (some (.bool true), .succeed) := by decide +kernel
example : Word [89, 69, 83, 116] true := Or.inr ⟨[89, 69, 83], [116], rfl, by decide⟩
example : (execAll create exOps2).bind (fun r => getValue exLib r.1 (some [97]) (some [101]) .bool) =
    some (none, .failed) := by decide +kernel
example : (execAll create exOps2).bind (fun r => getValue exLib r.1 (some [97]) (some [100]) .double) =
    some (some (.double 3), .succeed) := by decide +kernel

example := put_decimal_get exLib exOps2 exOps2_ok exOps2_c [98] [120] [66] [88] (by decide) (by decide) (by decide)
  (by decide) (by decide) (by decide) (-77) (by decide)
example := get_missing exLib exOps2 exOps2_ok exOps2_c [97] [113] .int (.inr (.inr (by decide +kernel)))
example := get_int_truncates exLib exOps2 exOps2_ok exOps2_c [97] [109] _ (by decide) (by decide)
  (show _ = some (decimal 4294967296) by decide +kernel) _ (isInt_decimal _) (by decide)
example := get_empty exLib exOps2 exOps2_ok exOps2_c [97] [101] (by decide) (by decide) (by decide +kernel)

example := save_parse_file exOps exOps_ok exOps_readable (by decide) [102] (by decide) ⟨some [1, 2], 0⟩ (fun _ => 5)
  (fun _ => some fun _ => 6) (fun _ => rfl) 1000 (by decide) (List.replicate 200 85) List.length_replicate
  ⟨[99], by decide +kernel⟩

/-- "[a]\n", " #x" and "" are contents, "a.ini" is a path -/
example : isFilePath (some [91, 97, 93]) = some false ∧ isFilePath (some [32, 35, 120]) = some false ∧
    isFilePath (some [97, 46, 105, 110, 105]) = some true ∧ isFilePath (some [97, 10]) = some false := by decide

end Verif.IniTyped
