import Verif.Dirent.Model

/-! # Names, hashes and patterns -/
namespace Verif.Dirent
open Spec (W FindData Ent Locale FullRes FindRes OpenAns Event Ret Pos Stream Abs)

theorem and_pow (a k : Nat) : a &&& 2 ^ k ≠ 0 ↔ a.testBit k = true := by
  constructor
  · intro h
    cases e : a.testBit k with
    | true => rfl
    | false =>
      exfalso; apply h
      apply Nat.eq_of_testBit_eq
      intro i
      rw [Nat.testBit_and, Nat.testBit_two_pow, Nat.zero_testBit]
      by_cases hi : k = i
      · subst hi; rw [e]; rfl
      · simp [hi]
  · intro h e
    have := congrArg (Nat.testBit · k) e
    simp only [Nat.testBit_and, Nat.testBit_two_pow_self, h, Nat.zero_testBit] at this
    cases this

theorem typeOf_spec (d : FindData) : typeOf d.attr = Spec.type d := by
  have h1 := and_pow d.attr 6
  have h2 := and_pow d.attr 4
  unfold typeOf Spec.type
  simp only [show (0x40 : Nat) = 2 ^ 6 from rfl, show (0x10 : Nat) = 2 ^ 4 from rfl, h1, h2]

/-! ### The hash -/

theorem hashLoop_spec (b : List W) (hb : b.length = 260) : ∀ (fuel i : Nat) (h : UInt32), i ≤ 260 → 261 ≤ fuel + i →
    ∃ r, hashLoop b fuel i h = some r ∧ r.toNat = ((b.drop i).takeWhile (· ≠ 0)).foldl (fun h c => h * 33 + c.toNat) h.toNat % 2 ^ 32
  | 0, i, h, hi, hf => by omega
  | fuel + 1, i, h, hi, hf => by
    unfold hashLoop
    by_cases e : i = 260
    · refine ⟨h, by simp [e], ?_⟩
      have : b.drop i = [] := List.drop_eq_nil_of_le (by omega)
      rw [this]
      exact (Nat.mod_eq_of_lt h.toNat_lt).symm
    · have hlt : i < b.length := by omega
      have hd : b.drop i = b[i] :: b.drop (i + 1) := List.drop_eq_getElem_cons hlt
      simp only [e, if_false, List.getElem?_eq_getElem hlt, Option.bind_eq_bind, Option.bind_some, Option.pure_def]
      by_cases z : b[i] = 0
      · refine ⟨h, by simp [z], ?_⟩
        rw [hd, List.takeWhile_cons]
        simp only [z, ne_eq, not_true, decide_false]
        exact (Nat.mod_eq_of_lt h.toNat_lt).symm
      · obtain ⟨r, h1, h2⟩ := hashLoop_spec b hb fuel (i + 1) ((h <<< 5) + h + b[i].toUInt32) (by omega) (by omega)
        refine ⟨r, by simp only [z, if_false]; exact h1, ?_⟩
        rw [hd, List.takeWhile_cons]
        simp only [z, ne_eq, not_false_eq_true, decide_true, if_true, List.foldl_cons]
        rw [h2]
        have key : ∀ (l : List W) (x y : Nat), x % 2 ^ 32 = y % 2 ^ 32 →
            l.foldl (fun h c => h * 33 + c.toNat) x % 2 ^ 32 = l.foldl (fun h c => h * 33 + c.toNat) y % 2 ^ 32 := by
          intro l
          induction l with
          | nil => intro x y h; exact h
          | cons c l ih => intro x y h; exact ih _ _ (by show (x * 33 + c.toNat) % 2 ^ 32 = (y * 33 + c.toNat) % 2 ^ 32; omega)
        apply key
        have : (h <<< 5).toNat = h.toNat * 32 % 2 ^ 32 := by
          rw [UInt32.toNat_shiftLeft]
          show (h.toNat <<< 5) % 2 ^ 32 = _
          rw [Nat.shiftLeft_eq]
        rw [UInt32.toNat_add, UInt32.toNat_add, this]
        have : b[i].toUInt32.toNat = b[i].toNat := by simp
        rw [this]
        omega

theorem direntHash_spec {d : FindData} (h : d.Valid) : direntHash d = some (Spec.hash d) := by
  obtain ⟨r, h1, h2⟩ := hashLoop_spec d.cFileName h.1 262 0 5381 (by omega) (by omega)
  unfold direntHash Spec.hash FindData.name
  rw [h1]
  simp only [Option.bind_eq_bind, Option.bind_some, Option.pure_def, Option.some.injEq]
  have : (r &&& ((~~~ (0 : UInt32)) >>> 1)).toNat = r.toNat % 2 ^ 31 := by
    rw [UInt32.toNat_and]
    have : ((~~~ (0 : UInt32)) >>> 1).toNat = 2 ^ 31 - 1 := by decide
    rw [this, Nat.and_two_pow_sub_one_eq_mod]
  rw [this, h2]
  simp only [List.drop_zero]
  have : (5381 : UInt32).toNat = 5381 := by decide
  rw [this]
  generalize List.foldl _ _ _ = n
  congr 1
  omega

theorem longMax_spec : longMax = 2 ^ 31 - 1 := by decide

/-! ### Names -/

theorem copyName_spec (b : List W) (hb : b.length = 260) : ∀ (fuel i : Nat) (acc : List W), i ≤ 260 → 261 ≤ fuel + i →
    copyName b fuel i acc = some (acc ++ (b.drop i).takeWhile (· ≠ 0))
  | 0, i, acc, hi, hf => by omega
  | fuel + 1, i, acc, hi, hf => by
    unfold copyName
    by_cases e : i < 260
    · have hlt : i < b.length := by omega
      have hd : b.drop i = b[i] :: b.drop (i + 1) := List.drop_eq_getElem_cons hlt
      simp only [e, if_true, List.getElem?_eq_getElem hlt, Option.bind_eq_bind, Option.bind_some, Option.pure_def]
      by_cases z : b[i] = 0
      · simp [z, hd]
      · rw [if_pos z, if_pos (by omega), copyName_spec b hb fuel (i + 1) _ (by omega) (by omega), hd, List.takeWhile_cons]
        simp [z]
    · have : b.drop i = [] := List.drop_eq_nil_of_le (by omega)
      simp only [e, if_false, this]
      rw [if_pos (by omega)]
      simp

theorem convLoop_spec {α : Type} : ∀ (l : List (Option (List α))) (limit : Nat) (acc : List α), acc.length ≤ limit →
    convLoop limit l acc = (Spec.fit (limit - acc.length) l).map (acc ++ ·)
  | [], _, acc, _ => by simp [convLoop, Spec.fit]
  | none :: _, _, _, _ => rfl
  | some b :: r, limit, acc, h => by
    unfold convLoop Spec.fit
    by_cases e : acc.length + b.length ≤ limit
    · rw [if_pos e, if_pos (by omega), convLoop_spec r limit (acc ++ b) (by simpa using e)]
      simp only [List.length_append, Option.map_map]
      rw [Nat.sub_add_eq]
      congr 1
      funext x
      simp
    · rw [if_neg e, if_neg (by omega)]; simp

theorem fit_le {α : Type} : ∀ (l : List (Option (List α))) (limit : Nat) (b : List α), Spec.fit limit l = some b → b.length ≤ limit
  | [], _, b, h => by cases h; simp
  | none :: _, _, _, h => by cases h
  | some c :: r, limit, b, h => by
    unfold Spec.fit at h
    by_cases e : c.length ≤ limit
    · rw [if_pos e] at h
      obtain ⟨x, hx, rfl⟩ := Option.map_eq_some_iff.1 h
      have := fit_le r _ x hx
      simp; omega
    · rw [if_neg e] at h; cases h; simp

theorem wcstombsS_spec (l : List (Option (List Byte))) : wcstombsS l 261 261 = Spec.convert l := by
  unfold wcstombsS Spec.convert
  rw [convLoop_spec l 261 [] (by simp)]
  simp only [List.length_nil, Nat.sub_zero, List.nil_append, Option.map_id_fun', id]
  cases h : Spec.fit 261 l with
  | none => rfl
  | some b =>
    simp only
    by_cases e : b.length ≤ 260
    · rw [if_neg (by omega), if_pos e, List.take_of_length_le (by omega)]
    · rw [if_pos (by omega), if_neg e]

theorem mbstowcsS_spec (l : List (Option (List W))) : mbstowcsS l 261 261 = Spec.convert l := by
  unfold mbstowcsS Spec.convert
  rw [convLoop_spec l 261 [] (by simp)]
  simp only [List.length_nil, Nat.sub_zero, List.nil_append, Option.map_id_fun', id]
  cases h : Spec.fit 261 l with
  | none => rfl
  | some b =>
    simp only
    by_cases e : b.length ≤ 260
    · rw [if_neg (by omega), if_pos e, List.take_of_length_le (by omega)]
    · rw [if_pos (by omega), if_neg e]

/-! ### The pattern -/

theorem cstr_append {p r : List W} (h : (0 : W) ∉ p) : cstr (p ++ 0 :: r) = some p := by
  unfold cstr
  rw [if_pos (by simp)]
  congr 1
  rw [List.takeWhile_append_of_pos]
  · simp
  · intro c hc
    have : c ≠ 0 := fun e => h (e ▸ hc)
    simp [this]

theorem poke_end {p : List W} {k : Nat} {c : W} : poke (p ++ List.replicate (k + 1) 0) p.length c = some (p ++ [c] ++ List.replicate k 0) := by
  unfold poke
  rw [if_pos (by simp)]
  congr 1
  rw [List.set_append_right _ _ (Nat.le_refl _)]
  simp [List.replicate_succ]

theorem poke_zero {p : List W} {k : Nat} : poke (p ++ List.replicate (k + 1) 0) p.length 0 = some (p ++ 0 :: List.replicate k 0) := by
  rw [poke_end]; simp

theorem appendPattern_spec {p : List W} (hp : p ≠ []) (h0 : (0 : W) ∉ p) {k : Nat} (hk : 3 ≤ k) :
    ∃ b, appendPattern (p ++ List.replicate k 0) p.length = some b ∧ cstr b = some (Spec.pattern p) := by
  obtain ⟨k, rfl⟩ : ∃ j, k = j + 3 := ⟨k - 3, by omega⟩
  have hl : (p ++ List.replicate (k + 3) (0 : W))[p.length - 1]? = p.getLast? := by
    have : 0 < p.length := List.length_pos_iff.2 hp
    rw [List.getElem?_append_left (by omega), List.getLast?_eq_getElem?]
  obtain ⟨c, hc⟩ : ∃ c, p.getLast? = some c := by
    cases h : p.getLast? with
    | none => exact absurd (List.getLast?_eq_none_iff.1 h) hp
    | some c => exact ⟨c, rfl⟩
  have hn : p.length ≠ 0 := by have := List.length_pos_iff.2 hp; omega
  unfold appendPattern Spec.pattern
  rw [if_neg hn]
  simp only [hl, hc, Option.bind_eq_bind, Option.bind_some, Option.pure_def, Option.some.injEq]
  by_cases e : c = 92 ∨ c = 47 ∨ c = 58
  · simp only [e, if_true]
    rw [poke_end, Option.bind_some]
    have := poke_zero (p := p ++ [42]) (k := k + 1)
    rw [show (p ++ [(42 : W)]).length = p.length + 1 by simp] at this
    rw [this]
    refine ⟨_, rfl, cstr_append ?_⟩
    simp [h0]
  · simp only [e, if_false]
    rw [poke_end, Option.bind_some]
    have h1 := poke_end (p := p ++ [92]) (k := k + 1) (c := 42)
    rw [show (p ++ [(92 : W)]).length = p.length + 1 by simp] at h1
    rw [h1, Option.bind_some]
    have h2 := poke_zero (p := p ++ [92] ++ [42]) (k := k)
    have h3 : (p ++ [(92 : W)] ++ [42]).length = p.length + 2 := by simp
    rw [h3] at h2
    rw [h2]
    refine ⟨_, rfl, ?_⟩
    rw [cstr_append (by simp [h0])]
    simp

end Verif.Dirent
