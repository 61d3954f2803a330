import Verif.IniTyped.Model
import Verif.IniTyped.Spec
import Verif.IniParser.Props
/-! Lemmas for C76. -/
namespace Verif.IniTyped
open Verif.IniParser Verif.IniParser.Spec Spec
open Verif.StrParams (strtol0 strtol_int strtol_not_int)
open Verif.StrParams.Spec (IsInt IsNat toLong)

def TextOk (d : Doc) : Prop := ∀ s k v, d.val s k = some v → (0 : Byte) ∉ v ∧ v.length ≤ 255

theorem textOk_step {d : Doc} (h : TextOk d) {o : Op} (hf : Fits o) (hc : CText o) : TextOk (Spec.step d o).1 := by
  intro s k v hv
  cases o with
  | put s' k' v' =>
    simp only [Spec.step] at hv
    split at hv
    · exact h s k v hv
    · simp only [Spec.put] at hv
      split at hv
      · cases hv; exact ⟨hc, hf.2.2⟩
      · exact h s k v hv
  | delKey s' k' =>
    simp only [Spec.step] at hv
    split at hv
    · simp only [Spec.delKey] at hv
      split at hv
      · simp at hv
      · exact h s k v hv
    · exact h s k v hv
  | delSec s' =>
    simp only [Spec.step] at hv
    split at hv
    · simp only [Spec.delSec] at hv
      split at hv
      · simp at hv
      · exact h s k v hv
    · exact h s k v hv

theorem textOk_run (ops : List Op) : ∀ {d : Doc}, TextOk d → Ok d ops → (∀ o ∈ ops, CText o) →
    TextOk (Spec.run d ops).1 := by
  induction ops with
  | nil => intro d h _ _; exact h
  | cons o ops ih =>
    intro d h hok hc
    exact ih (textOk_step h hok.1 (hc o (by simp))) hok.2.2 fun o' ho' => hc o' (by simp [ho'])

theorem textOk_empty : TextOk empty := by intro s k v h; simp [empty] at h

/-- conversion of a non-empty text -/
def convert {D F : Type} (lib : Lib D F) (t : List Byte) : Ty → Option (Cell D F) × Code
  | .bool => (some (.bool (str2bool t).1), (str2bool t).2)
  | .double => if (lib.strtod t).2 ≠ [] then (none, .failed) else (some (.double (lib.strtod t).1), .succeed)
  | .float => if (lib.strtof t).2 ≠ [] then (none, .failed) else (some (.float (lib.strtof t).1), .succeed)
  | .int => (some (.int (toInt (str2ll t).1)), (str2ll t).2)
  | .long => (some (.long (str2ll t).1), (str2ll t).2)
  | .longLong => (some (.longLong (str2ll t).1), (str2ll t).2)

theorem getValue_rep {D F : Type} (lib : Lib D F) {p : Parser} {d : Doc} (r : Rep p d) (ht : TextOk d)
    (s k : List Byte) (ty : Ty) :
    getValue lib p (some s) (some k) ty = some
      (if s = [] then (none, .invalidParam)
       else if !d.has (norm s) then (none, .notFound)
       else if k = [] then (none, .invalidParam)
       else match d.val (norm s) (norm k) with
        | none => (none, .notFound)
        | some v => if v = [] then (none, .failed) else convert lib v ty) := by
  have hl : (List.replicate 256 (0 : Byte)).length = 256 := List.length_replicate
  unfold getValue
  rw [get_rep r s k _ 256 (by rw [hl])]
  generalize List.replicate 256 (0 : Byte) = buf at hl
  unfold answer
  by_cases h1 : s = []
  · simp [h1]
  by_cases h2 : d.has (norm s)
  · by_cases h3 : k = []
    · simp [h1, h2, h3]
    · simp only [h1, h2, h3, if_false, Bool.not_true, Bool.false_eq_true]
      cases hv : d.val (norm s) (norm k) with
      | none => simp
      | some v =>
        obtain ⟨h0, hlen⟩ := ht _ _ _ hv
        simp only [show ¬ (256 : Nat) = 0 by omega, show ¬ (256 ≤ v.length) by omega, if_false, ne_eq,
          not_true_eq_false, Mem.cstr_zero h0]
        by_cases h4 : v = []
        · simp [h4]
        · simp only [h4, if_false]
          cases ty <;> rfl
  · simp [h1, h2]

theorem norm_nil_left {a : List Byte} (h : norm a = []) : a = [] := by simpa [norm] using h

theorem strncasecmp0_iff (w : List Byte) : ∀ (t : List Byte), strncasecmp0 w.length t w = true ↔ Begins t w := by
  induction w with
  | nil => intro t; simp [strncasecmp0, Begins, norm]
  | cons x w ih =>
    intro t
    cases t with
    | nil =>
      simp only [List.length_cons, strncasecmp0, Bool.false_eq_true, false_iff]
      rintro ⟨a, b, h, hn⟩
      have : a = [] := by cases a <;> simp_all
      subst this
      simp [norm] at hn
    | cons c t =>
      simp only [List.length_cons, strncasecmp0, Bool.and_eq_true, beq_iff_eq, ih t, lower_eq]
      constructor
      · rintro ⟨h1, a, b, rfl, hn⟩
        exact ⟨c :: a, b, rfl, by simp [norm] at hn ⊢; exact ⟨h1, hn⟩⟩
      · rintro ⟨a, b, h, hn⟩
        cases a with
        | nil => simp [norm] at hn
        | cons c' a =>
          simp only [List.cons_append, List.cons.injEq] at h
          obtain ⟨rfl, rfl⟩ := h
          simp only [norm, List.map_cons, List.cons.injEq] at hn
          exact ⟨hn.1, a, b, rfl, hn.2⟩

/-- the first letter of a text beginning with a word -/
theorem begins_head {t : List Byte} {x : Byte} {w : List Byte} (h : Begins t (x :: w)) :
    ∃ c r, t = c :: r ∧ lowerCase c = lowerCase x := by
  obtain ⟨a, b, rfl, hn⟩ := h
  cases a with
  | nil => simp [norm] at hn
  | cons c a =>
    simp only [norm, List.map_cons, List.cons.injEq] at hn
    exact ⟨c, a ++ b, rfl, hn.1⟩

theorem begins_clash {t : List Byte} {x y : Byte} {w w' : List Byte} (h : Begins t (x :: w)) (h' : Begins t (y :: w')) :
    lowerCase x = lowerCase y := by
  obtain ⟨c, r, e, hc⟩ := begins_head h
  obtain ⟨c', r', e', hc'⟩ := begins_head h'
  rw [e] at e'
  cases e'
  exact hc.symm.trans hc'

theorem int_head {t : List Byte} {n : Int} (h : IsInt t n) :
    ∃ c r, t = c :: r ∧ (White c ∨ c = 43 ∨ c = 45 ∨ (48 ≤ c.toNat ∧ c.toNat ≤ 57)) := by
  cases h with
  | plain ws b v hw hb =>
    obtain ⟨c, t, rfl, hc⟩ := StrParams.nat_head hb
    cases ws with
    | nil => exact ⟨c, t, rfl, .inr (.inr (.inr hc))⟩
    | cons x ws => exact ⟨x, _, rfl, .inl (hw x (by simp))⟩
  | plus ws b v hw hb =>
    cases ws with
    | nil => exact ⟨43, b, rfl, .inr (.inl rfl)⟩
    | cons x ws => exact ⟨x, _, rfl, .inl (hw x (by simp))⟩
  | minus ws b v hw hb =>
    cases ws with
    | nil => exact ⟨45, b, rfl, .inr (.inr (.inl rfl))⟩
    | cons x ws => exact ⟨x, _, rfl, .inl (hw x (by simp))⟩

theorem lowerCase_eq_letter : ∀ (c : Byte), (lowerCase c = 116 ∨ lowerCase c = 102 ∨ lowerCase c = 121 ∨ lowerCase c = 110) →
    58 ≤ c.toNat := by
  have key : ∀ n < 256, (lowerCase (UInt8.ofNat n) = 116 ∨ lowerCase (UInt8.ofNat n) = 102 ∨
      lowerCase (UInt8.ofNat n) = 121 ∨ lowerCase (UInt8.ofNat n) = 110) → 58 ≤ n := by decide +kernel
  intro c h
  have := key c.toNat c.toNat_lt
  rw [UInt8.ofNat_toNat] at this
  exact this h

theorem word_not_int {t : List Byte} {b : Bool} (h : Word t b) (n : Int) : ¬ IsInt t n := by
  intro hi
  obtain ⟨c, r, rfl, hc⟩ := int_head hi
  have h58 : 58 ≤ c.toNat := by
    apply lowerCase_eq_letter
    cases b <;> simp only [Word, if_true, Bool.false_eq_true, if_false] at h <;> rcases h with h | h <;>
      obtain ⟨c', r', e, hl⟩ := begins_head h <;> cases e <;> rw [hl] <;> decide
  rcases hc with hc | rfl | rfl | hc
  · rcases hc with rfl | hc
    · simp at h58
    · omega
  · simp at h58
  · simp at h58
  · omega

theorem toInt_low32 (n : Int) : Low32 n (toInt n) := by
  unfold toInt Low32
  have h1 := Int.emod_nonneg (n + 2 ^ 31) (b := 2 ^ 32) (by decide)
  have h2 := Int.emod_lt_of_pos (n + 2 ^ 31) (b := 2 ^ 32) (by decide)
  refine ⟨by omega, by omega, ?_⟩
  have := Int.mul_ediv_add_emod (n + 2 ^ 31) (2 ^ 32)
  exact ⟨(n + 2 ^ 31) / 2 ^ 32, by omega⟩

theorem low32_unique {n i j : Int} (h : Low32 n i) (h' : Low32 n j) : i = j := by
  obtain ⟨a1, a2, a, ha⟩ := h
  obtain ⟨b1, b2, b, hb⟩ := h'
  have : i - j = 2 ^ 32 * (b - a) := by rw [Int.mul_sub, ← ha, ← hb]; omega
  have hba : b - a = 0 := by omega
  rw [hba] at this
  omega

theorem str2ll_int {t : List Byte} {n : Int} (h : IsInt t n) : str2ll t = (toLong n, .succeed) := by
  unfold str2ll; rw [(strtol_int h).2]; simp

theorem str2ll_not {t : List Byte} (hne : t ≠ []) (h : ¬ ∃ n, IsInt t n) : (str2ll t).2 = .failed := by
  unfold str2ll
  rw [if_pos]
  exact fun hh => h (strtol_not_int hne hh)

theorem isInt_decimal (n : Int) : IsInt (decimal n) n := by
  have key : ∀ m : Nat, IsNat (Strings.decText m) m := by
    intro m
    by_cases hm : m = 0
    · subst hm
      have : Strings.decText 0 = [48] := by decide
      rw [this]
      exact .oct [] (by simp)
    · obtain ⟨c, t, e, hc⟩ := decText_head m (by omega)
      have hv := decText_value m
      have hd := decText_digit m
      rw [e] at hv hd ⊢
      have hc1 := hd c (by simp)
      have : c.toNat ≠ 48 := fun hh => hc (UInt8.toNat_inj.mp hh)
      have := IsNat.dec c t ⟨by omega, hc1.2⟩ fun d hd' => hd d (by simp [hd'])
      rw [hv] at this
      exact this
  unfold decimal
  by_cases h : n < 0
  · rw [if_pos h]
    have := IsInt.minus [] _ _ (by simp) (key n.natAbs)
    have e : -((n.natAbs : Nat) : Int) = n := by omega
    rw [e] at this
    exact this
  · rw [if_neg h]
    have := IsInt.plain [] _ _ (by simp) (key n.natAbs)
    have e : ((n.natAbs : Nat) : Int) = n := by omega
    rw [e] at this
    exact this

end Verif.IniTyped
