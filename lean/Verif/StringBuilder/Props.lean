import Verif.StringBuilder.Spec
/-!
# stringbuilder (C33)
-/
namespace Verif.StringBuilder
open Spec

theorem grow_ne_none (need : Nat) (a : Nat) : ∀ (fuel k sz : Nat), 65 ≤ k + fuel → sz ≠ 0 →
    sz = a * 2 ^ k % 2 ^ 64 → grow need fuel sz ≠ none := by
  intro fuel
  induction fuel with
  | zero =>
    intro k sz hk h0 he
    exfalso
    apply h0
    rw [he]
    obtain ⟨j, rfl⟩ : ∃ j, k = 64 + j := ⟨k - 64, by omega⟩
    rw [Nat.pow_add, Nat.mul_left_comm]
    exact Nat.mul_mod_right _ _
  | succ fuel ih =>
    intro k sz hk h0 he
    unfold grow
    split
    · split
      · simp
      · rename_i hz
        refine ih (k + 1) _ (by omega) hz ?_
        rw [he, Nat.pow_succ 2 k, ← Nat.mul_assoc, Nat.mod_mul_mod]
    · simp

theorem grow_some {need : Nat} : ∀ {fuel sz r : Nat}, sz < 2 ^ 64 → grow need fuel sz = some (some r) →
    need ≤ r ∧ r < 2 ^ 64 := by
  intro fuel
  induction fuel with
  | zero => intro sz r _ h; simp [grow] at h
  | succ fuel ih =>
    intro sz r hs h
    unfold grow at h
    split at h
    · split at h
      · simp at h
      · exact ih (Nat.mod_lt _ (by omega)) h
    · simp at h; subst h; omega

/-- Without overflow the doubling loop always finds a size, below twice what is needed. -/
theorem grow_fits {need : Nat} (hn : need < 2 ^ 62) : ∀ {fuel sz : Nat}, 0 < sz → need ≤ sz * 2 ^ fuel →
    sz < 2 ^ 63 → ∃ r, grow need (fuel + 1) sz = some (some r) ∧ r < 2 ^ 63 := by
  intro fuel
  induction fuel with
  | zero =>
    intro sz h0 h hs
    refine ⟨sz, ?_, hs⟩
    unfold grow
    rw [if_neg (by simp at h; omega)]
  | succ fuel ih =>
    intro sz h0 h hs
    unfold grow
    by_cases hlt : sz < need
    · rw [if_pos hlt]
      have e : sz * 2 % 2 ^ 64 = sz * 2 := Nat.mod_eq_of_lt (by omega)
      rw [e, if_neg (by omega)]
      exact ih (by omega) (by rw [Nat.mul_assoc, Nat.mul_comm 2, ← Nat.pow_succ]; exact h) (by omega)
    · rw [if_neg hlt]
      exact ⟨sz, rfl, hs⟩

theorem grow_le {need : Nat} : ∀ {fuel sz r : Nat}, sz < need → grow need fuel sz = some (some r) →
    r < 2 * need := by
  intro fuel
  induction fuel with
  | zero => intro sz r _ h; simp [grow] at h
  | succ fuel ih =>
    intro sz r hs h
    unfold grow at h
    rw [if_pos hs] at h
    split at h
    · simp at h
    · by_cases h2 : sz * 2 % 2 ^ 64 < need
      · exact ih h2 h
      · cases fuel with
        | zero => simp [grow] at h
        | succ f =>
          unfold grow at h
          rw [if_neg h2] at h
          simp at h
          subst h
          have := Nat.mod_le (sz * 2) (2 ^ 64)
          omega

theorem holds_alloc_pos {sb : Sb} {text : List Byte} (h : Holds sb text) :
    text.length + 1 ≤ sb.allocated := by
  obtain ⟨h1, _, _, junk, h4⟩ := h
  unfold toStr at h4
  rw [← h1, h4]; simp

/-- `sb_ensure_space` either makes room, leaving the text alone, or fails and changes nothing. -/
theorem ensure_spec {sb : Sb} {text : List Byte} (h : Holds sb text) (n : Nat) (h1 : 1 ≤ n)
    (hn : n < 2 ^ 63) (a : Alloc) :
    ∃ sb' r, ensureSpace sb n a = some (sb', r) ∧ Holds sb' text ∧
      ((r = 0 ∧ text.length + n + 1 ≤ sb'.allocated) ∨ (r ≠ 0 ∧ sb' = sb)) ∧
      (text.length + n + 1 < 2 ^ 62 → (a.isSome ∨ text.length + n + 1 ≤ sb.allocated) → r = 0) := by
  have hp := holds_alloc_pos h
  obtain ⟨hb, hal, hlen, junk, htext⟩ := h
  unfold len at hlen
  unfold toStr at htext
  unfold ensureSpace
  rw [if_neg (by omega)]
  have enw : (sb.length + n + 1) % 2 ^ 64 = sb.length + n + 1 := Nat.mod_eq_of_lt (by omega)
  rw [enw]
  by_cases hfit : sb.length + n + 1 ≤ sb.allocated
  · rw [if_pos hfit]
    exact ⟨sb, 0, rfl, ⟨hb, hal, hlen, junk, htext⟩, Or.inl ⟨rfl, by omega⟩, fun _ _ => rfl⟩
  · rw [if_neg hfit]
    cases hg : grow (sb.length + n + 1) 65 sb.allocated with
    | none =>
      exact absurd hg (grow_ne_none _ sb.allocated 65 0 _ (by omega) (by omega)
        (by simp; omega))
    | some o =>
      cases o with
      | none =>
        refine ⟨sb, -3, rfl, ⟨hb, hal, hlen, junk, htext⟩, Or.inr ⟨by decide, rfl⟩, ?_⟩
        intro hsm
        exfalso
        obtain ⟨r, hr, _⟩ := grow_fits (need := sb.length + n + 1) (by omega) (fuel := 64)
          (sz := sb.allocated) (by omega) (by omega) hal
        rw [hg] at hr; simp at hr
      | some sz =>
        have hsz := grow_some (by omega) hg
        simp only
        cases ha : realloc sb.buf sz a with
        | none =>
          refine ⟨sb, -4, rfl, ⟨hb, hal, hlen, junk, htext⟩, Or.inr ⟨by decide, rfl⟩, ?_⟩
          intro hsm hor
          exfalso
          obtain ⟨r, hr, hr63⟩ := grow_fits (need := sb.length + n + 1) (by omega) (fuel := 64)
            (sz := sb.allocated) (by omega) (by omega) hal
          rw [hg] at hr
          simp at hr
          subst hr
          cases a with
          | none => simp at hor; omega
          | some j => simp [realloc] at ha; omega
        | some buf =>
          cases a with
          | none => simp [realloc] at ha
          | some j =>
            simp only [realloc] at ha
            split at ha
            · rename_i h63
              simp at ha
              refine ⟨_, 0, rfl, ⟨?_, h63, hlen, junk ++ fresh j (sz - sb.buf.length), ?_⟩,
                Or.inl ⟨rfl, by simp only; omega⟩, fun _ _ => rfl⟩
              · simp only [← ha]
                simp [fresh]; omega
              · simp only [toStr, ← ha, htext]
                simp
            · simp at ha

/-- Storing a piece for which there is room. -/
theorem put_spec {sb : Sb} {text : List Byte} (h : Holds sb text) (bs : List Byte)
    (hroom : text.length + bs.length + 1 ≤ sb.allocated) :
    ∃ sb', put sb bs = some (sb', 0) ∧ Holds sb' (text ++ bs) := by
  obtain ⟨hb, hal, hlen, junk, htext⟩ := h
  unfold len at hlen
  unfold toStr at htext
  unfold put
  have hf : sb.buf = Mem.front sb.buf text := by
    unfold Mem.front; rw [htext]; simp
  have hs : sb.buf.store sb.length bs = some (Mem.front sb.buf (text ++ bs)) := by
    conv => lhs; rw [hf]
    exact Mem.store_front' bs hlen (by omega)
  rw [hs]
  simp only
  rw [Mem.poke_front' 0 (by simp; omega) (by simp; omega)]
  refine ⟨_, rfl, ?_, hal, ?_, sb.buf.drop (text ++ bs ++ [0]).length, ?_⟩
  · simp only
    rw [Mem.front_length (by simp; omega)]; exact hb
  · simp [len]; omega
  · simp [toStr, Mem.front]

/-- The common form of all append calls. -/
theorem append_spec {sb : Sb} {text : List Byte} (h : Holds sb text) (bs : List Byte) (h1 : bs ≠ [])
    (hn : bs.length < 2 ^ 63) (a : Alloc) (e : Int) (he : e ≠ 0)
    (k : Sb → Option (Sb × Int)) (hk : ∀ sb', sb'.buf = sb'.buf → Holds sb' text →
      text.length + bs.length + 1 ≤ sb'.allocated → k sb' = put sb' bs) :
    ∃ sb' r, (match ensureSpace sb bs.length a with
        | none => none
        | some (sb, r) => if r ≠ 0 then some (sb, e) else k sb) = some (sb', r) ∧
      Holds sb' (if r = 0 then text ++ bs else text) ∧ (r ≠ 0 → sb' = sb) ∧
      (text.length + bs.length + 1 < 2 ^ 62 → a.isSome → r = 0) := by
  have hl : 1 ≤ bs.length := by cases bs <;> simp_all
  obtain ⟨sb1, r, h2, h3, h4, h5⟩ := ensure_spec h bs.length hl hn a
  rw [h2]
  simp only
  by_cases hr : r = 0
  · rw [if_neg (by simp [hr])]
    have hroom : text.length + bs.length + 1 ≤ sb1.allocated := by
      rcases h4 with h4 | h4
      · exact h4.2
      · exact absurd hr h4.1
    obtain ⟨sb2, h6, h7⟩ := put_spec h3 bs hroom
    rw [hk sb1 rfl h3 hroom]
    exact ⟨sb2, 0, h6, by simpa using h7, fun hne => absurd rfl hne, fun _ _ => rfl⟩
  · rw [if_pos hr]
    have hsb : sb1 = sb := by
      rcases h4 with h4 | h4
      · exact absurd h4.1 hr
      · exact h4.2
    refine ⟨sb1, e, rfl, ?_, fun _ => hsb, ?_⟩
    · rw [if_neg he]; exact h3
    · intro hx ha
      exact absurd (h5 hx (Or.inl ha)) hr

theorem cstr_of_mem {s : Mem} (h : (0 : Byte) ∈ s) :
    ∃ t after, s = t ++ 0 :: after ∧ (0 : Byte) ∉ t := by
  induction s with
  | nil => simp at h
  | cons c s ih =>
    by_cases hc : c = 0
    · exact ⟨[], s, by simp [hc], by simp⟩
    · obtain ⟨t, after, e, h0⟩ := ih (by simpa [Ne.symm hc] using h)
      refine ⟨c :: t, after, by simp [e], ?_⟩
      simp [Ne.symm hc, h0]

theorem appendnstr_spec {sb : Sb} {text : List Byte} (h : Holds sb text) (s : Mem) (n : Nat) (a : Alloc)
    (hok : ok (.nstr s n a)) :
    ∃ sb' r, appendnstr sb s n a = some (sb', r) ∧
      Holds sb' (if r = 0 then text ++ piece (.nstr s n a) else text) ∧ (r ≠ 0 → sb' = sb) ∧
      (piece (.nstr s n a) ≠ [] → text.length + (piece (.nstr s n a)).length + 1 < 2 ^ 62 → a.isSome →
        r = 0) := by
  obtain ⟨h1, h2⟩ := hok
  have key : ∀ (m : Nat) (bs : List Byte), pieceLen s n = some m → bs = s.take m → m ≤ s.length →
      piece (.nstr s n a) = bs → ∃ sb' r, appendnstr sb s n a = some (sb', r) ∧
      Holds sb' (if r = 0 then text ++ piece (.nstr s n a) else text) ∧ (r ≠ 0 → sb' = sb) ∧
      (piece (.nstr s n a) ≠ [] → text.length + (piece (.nstr s n a)).length + 1 < 2 ^ 62 → a.isSome →
        r = 0) := by
    intro m bs hm hbs hle hp
    rw [hp]
    have hbl : bs.length = m := by rw [hbs]; simp; omega
    unfold appendnstr
    rw [hm]
    simp only
    by_cases hm0 : m = 0
    · rw [if_pos hm0]
      have : bs = [] := by rw [← List.length_eq_zero_iff]; omega
      exact ⟨sb, -2, rfl, by simpa using h, fun _ => rfl, fun hne => absurd this hne⟩
    · rw [if_neg hm0]
      have hne : bs ≠ [] := by intro he; rw [he] at hbl; simp at hbl; omega
      rw [← hbl]
      obtain ⟨sb', r, g1, g2, g3, g4⟩ := append_spec h bs hne (by omega) a (-3) (by decide)
        (fun sb => match s.load 0 bs.length with
          | none => none
          | some bs => put sb bs) (by
          intro sb' _ _ _
          rw [Mem.load_eq_some (by omega)]
          simp only [List.drop_zero]
          rw [hbl, ← hbs])
      exact ⟨sb', r, g1, g2, g3, fun _ => g4⟩
  by_cases hn : n = 0
  · rw [if_pos hn] at h1
    obtain ⟨t, after, e, h0⟩ := cstr_of_mem h1
    have hlen : s.strlen 0 = some t.length := by
      unfold Mem.strlen; rw [e, Mem.cstr_zero h0]; rfl
    refine key t.length t ?_ (by rw [e]; simp) (by rw [e]; simp) ?_
    · unfold pieceLen; rw [if_pos hn, hlen]
    · simp only [piece]; rw [if_pos hn, e, takeWhile_no0 h0]
  · rw [if_neg hn] at h1
    refine key n (s.take n) ?_ rfl h1 ?_
    · unfold pieceLen; rw [if_neg hn]
    · simp only [piece]; rw [if_neg hn]

/-- One call: never undefined behaviour; the text grows by the piece exactly if 0 is returned; a failing
call changes nothing; a call fails only for an empty piece or lack of memory. -/
theorem step_spec {sb : Sb} {text : List Byte} (h : Holds sb text) (op : Op) (hok : ok op) :
    ∃ sb' r, step sb op = some (sb', r) ∧ Holds sb' (Spec.step text op r) ∧ (r ≠ 0 → sb' = sb) ∧
      (piece op ≠ [] → text.length + (piece op).length + 1 < 2 ^ 62 → (answer op).isSome → r = 0) := by
  cases op with
  | chr c a =>
    obtain ⟨sb', r, g1, g2, g3, g4⟩ := append_spec h [c] (by simp) (by simp) a (-1) (by decide)
      (fun sb => put sb [c]) (fun _ _ _ _ => rfl)
    rw [show ([c] : List Byte).length = 1 from rfl] at g1
    refine ⟨sb', r, ?_, g2, g3, fun _ => g4⟩
    simp only [step, appendchar]
    exact g1
  | str s a => exact appendnstr_spec h s 0 a (by simpa [ok] using hok)
  | nstr s n a => exact appendnstr_spec h s n a hok
  | fmt t a =>
    obtain ⟨x, rfl, hx⟩ := hok
    simp only [step, appendf, piece, Option.getD_some, answer, Spec.step]
    by_cases h0 : x.length < 1
    · rw [if_pos h0]
      have : x = [] := by rw [← List.length_eq_zero_iff]; omega
      exact ⟨sb, -2, rfl, by simpa using h, fun _ => rfl, fun hne => absurd this hne⟩
    · rw [if_neg h0]
      have hne : x ≠ [] := by intro he; rw [he] at h0; simp at h0
      obtain ⟨sb', r, g1, g2, g3, g4⟩ := append_spec h x hne (by omega) a (-3) (by decide)
        (fun sb => putf sb x) (by
          intro sb' _ hH hroom
          obtain ⟨hb, hal, hlen, junk, htext⟩ := hH
          unfold len at hlen
          unfold toStr at htext
          unfold putf put
          have hf : sb'.buf = Mem.front sb'.buf text := by
            unfold Mem.front; rw [htext]; simp
          have hs1 : sb'.buf.store sb'.length (x ++ [0]) =
              some (Mem.front sb'.buf (text ++ (x ++ [0]))) := by
            conv => lhs; rw [hf]
            exact Mem.store_front' _ hlen (by simp; omega)
          have hs2 : sb'.buf.store sb'.length x = some (Mem.front sb'.buf (text ++ x)) := by
            conv => lhs; rw [hf]
            exact Mem.store_front' _ hlen (by omega)
          unfold Mem.snprintf
          rw [if_neg (by omega), show x.length + 1 - 1 = x.length by omega, List.take_length, hs1, hs2]
          simp only [Option.map_some]
          rw [Mem.poke_front' (w := text ++ x) 0 (by simp; omega) (by simp; omega)]
          have hi : sb'.length + x.length < (Mem.front sb'.buf (text ++ (x ++ [0]))).length := by
            rw [Mem.front_length (by simp; omega)]; omega
          unfold Mem.poke
          rw [if_pos hi]
          simp only [Option.map_some, Option.some.injEq, Prod.mk.injEq, and_true, Sb.mk.injEq]
          rw [← List.append_assoc]
          unfold Mem.front
          rw [hlen]
          simp [List.set_append_right])
      exact ⟨sb', r, g1, g2, g3, fun _ => g4⟩
  | clear =>
    obtain ⟨hb, hal, hlen, junk, htext⟩ := h
    have hl := congrArg List.length htext
    unfold toStr at hl
    simp only [List.length_append, List.length_cons] at hl
    have hp := Mem.poke_front (out := sb.buf) (w := []) 0 (by simp; omega)
    rw [Mem.front_nil] at hp
    refine ⟨{ sb with buf := Mem.front sb.buf [0], length := 0 }, 0, ?_, ?_, fun h => absurd rfl h, fun _ _ _ => rfl⟩
    · simp only [step, clear]
      simp only [List.length_nil, List.nil_append] at hp
      rw [hp]; rfl
    · refine ⟨?_, hal, rfl, sb.buf.drop 1, ?_⟩
      · simp only
        rw [Mem.front_length (by simp; omega)]; exact hb
      · simp [toStr, Mem.front, Spec.step]

/-- C33: every history of calls.  No undefined behaviour; afterwards the string is the concatenation of
the pieces of the successful calls since the last `clear`, its length is reported exactly, the text is
NUL-terminated, and all of it lies in a buffer of exactly `allocated` bytes. -/
theorem history_concatenates (init : Nat) (hinit : init < 2 ^ 63) (a0 : Bool) (a : Alloc) (ops : List Op)
    (hok : ∀ op ∈ ops, ok op) :
    create init a0 a = some none ∨
    ∃ sb sb' codes, create init a0 a = some (some sb) ∧ run sb ops = some (sb', codes) ∧
      codes.length = ops.length ∧
      let text := after [] (ops.zip codes)
      len sb' = text.length ∧ (toStr sb').take (len sb') = text ∧ (toStr sb')[len sb']? = some 0 ∧
      (toStr sb').length = sb'.allocated := by
  have hrun : ∀ (ops : List Op) (sb : Sb) (text : List Byte), Holds sb text → (∀ op ∈ ops, ok op) →
      ∃ sb' codes, run sb ops = some (sb', codes) ∧ codes.length = ops.length ∧
        Holds sb' (after text (ops.zip codes)) := by
    intro ops
    induction ops with
    | nil => intro sb text h _; exact ⟨sb, [], rfl, rfl, h⟩
    | cons op ops ih =>
      intro sb text h hall
      obtain ⟨sb1, r, g1, g2, _, _⟩ := step_spec h op (hall op (by simp))
      obtain ⟨sb', codes, k1, k2, k3⟩ := ih sb1 _ g2 (fun o ho => hall o (by simp [ho]))
      refine ⟨sb', r :: codes, ?_, by simp [k2], ?_⟩
      · unfold run; rw [g1]; simp only; rw [k1]; rfl
      · exact k3
  cases hc : create init a0 a with
  | none =>
    exfalso
    unfold create at hc
    cases a0 with
    | false => simp at hc
    | true =>
      simp only [if_true] at hc
      cases a with
      | none => simp [realloc] at hc
      | some j =>
        simp only [realloc] at hc
        have : initSize init < 2 ^ 63 ∧ 0 < initSize init := by unfold initSize; split <;> omega
        rw [if_pos this.1] at hc
        simp only at hc
        unfold Mem.poke at hc
        rw [if_pos (by simp [fresh]; omega)] at hc
        simp at hc
  | some o =>
    cases o with
    | none => exact Or.inl rfl
    | some sb =>
      right
      have hH : Holds sb [] := by
        unfold create at hc
        cases a0 with
        | false => simp at hc
        | true =>
          simp only [if_true] at hc
          cases a with
          | none => simp [realloc] at hc
          | some j =>
            simp only [realloc] at hc
            have hi : initSize init < 2 ^ 63 ∧ 0 < initSize init := by unfold initSize; split <;> omega
            rw [if_pos hi.1] at hc
            simp only at hc
            have hp := Mem.poke_front (out := [] ++ fresh j (initSize init - ([] : Mem).length)) (w := [])
              0 (by simp [fresh]; omega)
            rw [Mem.front_nil] at hp
            simp only [List.length_nil] at hp
            simp only [List.length_nil] at hc
            rw [hp] at hc
            simp at hc
            subst hc
            refine ⟨?_, hi.1, rfl, ?_⟩
            · simp [Mem.front, fresh]; omega
            · exact ⟨_, rfl⟩
      obtain ⟨sb', codes, k1, k2, k3⟩ := hrun ops sb [] hH hok
      refine ⟨sb, sb', codes, rfl, k1, k2, ?_⟩
      obtain ⟨hb, hal, hlen, junk, htext⟩ := k3
      refine ⟨hlen, ?_, ?_, hb⟩
      · rw [hlen, htext]; simp
      · rw [hlen, htext]; simp

/-- If the pieces contain no NUL, the returned pointer is a C string with exactly the text. -/
theorem to_string_is_text {sb : Sb} {text : List Byte} (h : Holds sb text) (h0 : (0 : Byte) ∉ text) :
    (toStr sb).cstr 0 = some text := by
  obtain ⟨_, _, _, junk, htext⟩ := h
  rw [htext, Mem.cstr_zero h0]

/-- C33, progress: an append of a non-empty piece succeeds whenever the allocator answers and the
result stays below 2^62 bytes. -/
theorem append_succeeds {sb : Sb} {text : List Byte} (h : Holds sb text) (op : Op) (hok : ok op)
    (hne : piece op ≠ []) (hsmall : text.length + (piece op).length + 1 < 2 ^ 62)
    (hmem : (answer op).isSome) :
    ∃ sb', step sb op = some (sb', 0) ∧ Holds sb' (text ++ piece op) := by
  obtain ⟨sb', r, g1, g2, _, g4⟩ := step_spec h op hok
  have hr := g4 hne hsmall hmem
  subst hr
  refine ⟨sb', g1, ?_⟩
  cases op with
  | clear => simp [answer] at hmem
  | chr c a => exact g2
  | str s a => exact g2
  | nstr s n a => exact g2
  | fmt t a => exact g2

/-- C33: a failing call leaves the builder exactly as it was. -/
theorem failed_append_unchanged {sb sb' : Sb} {text : List Byte} {r : Int} (h : Holds sb text) (op : Op)
    (hok : ok op) (hs : step sb op = some (sb', r)) (hr : r ≠ 0) : sb' = sb := by
  obtain ⟨sb1, r1, g1, _, g3, _⟩ := step_spec h op hok
  rw [hs] at g1
  simp at g1
  obtain ⟨rfl, rfl⟩ := g1
  exact g3 hr

/-- FINDING: a format error (`vsnprintf` returning -1) is reported as success and removes the last
character of a non-empty text ... -/
theorem appendf_error_drops_char {sb : Sb} {text : List Byte} (c : Byte) (h : Holds sb (text ++ [c]))
    (a : Alloc) : ∃ sb', appendf sb none a = some (sb', 0) ∧ Holds sb' text := by
  show ∃ sb', appendfErr sb SIZE_MAX a = _ ∧ _
  obtain ⟨hb, hal, hlen, junk, htext⟩ := h
  unfold len at hlen
  unfold toStr at htext
  have hl := congrArg List.length htext
  simp only [List.length_append, List.length_cons, List.length_nil] at hl hlen
  obtain ⟨N, hS, hN⟩ : ∃ N, SIZE_MAX = N ∧ N = 2 ^ 64 - 1 := ⟨SIZE_MAX, rfl, rfl⟩
  rw [hS]
  unfold appendfErr ensureSpace
  rw [if_neg (by omega)]
  have e1 : (sb.length + N + 1) % 2 ^ 64 = sb.length := by omega
  have e2 : (sb.length + N) % 2 ^ 64 = text.length := by omega
  rw [e1, if_pos (by omega)]
  simp only [ne_eq, not_true, if_false]
  rw [e2]
  unfold Mem.poke
  rw [if_pos (by omega)]
  refine ⟨_, rfl, ?_, hal, rfl, 0 :: junk, ?_⟩
  · simp only [List.length_set]; exact hb
  · simp only [toStr, htext]; simp [List.set_append_right]

/-- ... and on an empty builder writes outside the buffer. -/
theorem appendf_error_overflow {sb : Sb} (h : Holds sb []) (a : Alloc) : appendf sb none a = none := by
  show appendfErr sb SIZE_MAX a = none
  obtain ⟨hb, hal, hlen, junk, htext⟩ := h
  unfold len at hlen
  simp only [List.length_nil] at hlen
  obtain ⟨N, hS, hN⟩ : ∃ N, SIZE_MAX = N ∧ N = 2 ^ 64 - 1 := ⟨SIZE_MAX, rfl, rfl⟩
  rw [hS]
  unfold appendfErr ensureSpace
  have e1 : (sb.length + N + 1) % 2 ^ 64 = 0 := by omega
  have e2 : (sb.length + N) % 2 ^ 64 = N := by omega
  rw [if_neg (by omega), e1, if_pos (Nat.zero_le _)]
  simp only [ne_eq, not_true, if_false]
  unfold Mem.poke
  rw [e2, if_neg (by omega)]
  rfl

/-! ### Concrete cases -/

def exSb : Option (Option Sb) := create 2 true (some fun _ => 170)
def exOps : List Op :=
  [.chr 65 none, .str [66, 67, 0] (some fun _ => 9), .nstr [68, 0, 69] 3 none,
   .nstr [68, 0, 69] 3 (some fun _ => 8), .fmt (some [70, 71]) (some fun _ => 7), .str [0] none, .clear,
   .chr 72 none]
/-- Growth 2 → 4 → 8, two refused calls, clear. -/
example : (exSb.bind fun s => s.bind fun sb => (run sb exOps).map fun x => (x.1.buf.take 9, x.2)) =
    some ([72, 0, 67, 68, 0, 69, 70, 71, 0], [0, 0, -3, 0, 0, -2, 0, 0]) := by decide +kernel
example : (exSb.bind fun s => s.bind fun sb => (run sb (exOps.take 5)).map fun x =>
    (x.1.buf.take 9, x.1.allocated)) = some ([65, 66, 67, 68, 0, 69, 70, 71, 0], 16) := by decide +kernel

end Verif.StringBuilder
