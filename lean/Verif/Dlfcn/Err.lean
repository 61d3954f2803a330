import Verif.Dlfcn.Spec
/-! The error buffer (C78). -/
namespace Verif.Dlfcn
open Spec

theorem store_at {pre rest bs : List Byte} {pos : Nat} (hp : pos = pre.length) (h : bs.length ≤ rest.length) :
    Mem.store (pre ++ rest) pos bs = some (pre ++ bs ++ rest.drop bs.length) := by
  subst hp
  rw [Mem.store_eq_some (by simp; omega), List.take_left' rfl, ← List.drop_drop, List.drop_left' rfl]

/-- `save_err_str` fills the buffer with the error text and nothing else is touched outside the buffer -/
theorem saveErr_spec (buf : Mem) (hb : 5 ≤ buf.length) (str : List Byte) (hs : (0 : Byte) ∉ str) (msg : Option (List Byte))
    (hm : ∀ m, msg = some m → (0 : Byte) ∉ m) :
    ∃ buf', saveErr buf str msg = some buf' ∧ buf'.length = buf.length ∧
      buf'.cstr 0 = some (errorText buf.length str msg) := by
  have hlen : (if str.length > buf.length - 5 then buf.length - 5 else str.length) = (str.take (buf.length - 5)).length := by
    rw [List.length_take]; split <;> omega
  have htk : str.take ((str.take (buf.length - 5)).length) = str.take (buf.length - 5) := by
    rw [List.length_take]
    by_cases h : buf.length - 5 ≤ str.length
    · rw [Nat.min_eq_left h]
    · rw [Nat.min_eq_right (by omega), List.take_of_length_le (Nat.le_refl _), List.take_of_length_le (by omega)]
  have h0 : (0 : Byte) ∉ str.take (buf.length - 5) := fun h => hs (List.mem_of_mem_take h)
  have hl : (str.take (buf.length - 5)).length ≤ buf.length - 5 := List.length_take_le _ _
  unfold saveErr
  rw [hlen]
  simp only [htk]
  unfold errorText
  generalize hA : str.take (buf.length - 5) = A at *
  simp only [Option.bind_eq_bind]
  -- the first three stores
  have e1 : Mem.store buf 0 [34] = some ([34] ++ buf.drop 1) := by
    rw [Mem.store_eq_some (by simp; omega)]; simp
  rw [e1]
  simp only [Option.bind_some]
  have e2 : Mem.store ([34] ++ buf.drop 1) 1 A = some ([34] ++ A ++ buf.drop (1 + A.length)) := by
    rw [store_at (by simp) (by simp; omega), List.drop_drop]
  rw [e2]
  simp only [Option.bind_some]
  have e3 : Mem.store ([34] ++ A ++ buf.drop (1 + A.length)) (1 + A.length) [34, 58, 32] =
      some ([34] ++ A ++ [34, 58, 32] ++ buf.drop (4 + A.length)) := by
    rw [store_at (by simp; omega) (by simp; omega), List.drop_drop]
    congr 3
    simp only [List.length_cons, List.length_nil]
    omega
  rw [e3]
  simp only [Option.bind_some]
  -- the message
  have hbl : ([34] ++ A ++ [34, 58, 32] ++ buf.drop (4 + A.length) : Mem).length = buf.length := by
    simp; omega
  rw [hbl]
  have hpre0 : (0 : Byte) ∉ [34] ++ A ++ [34, 58, 32] := by
    simp only [List.mem_append, List.mem_cons, List.not_mem_nil, or_false, not_or]
    exact ⟨⟨by decide, h0⟩, by decide, by decide, by decide⟩
  have hpl : ([34] ++ A ++ [34, 58, 32]).length = 1 + A.length + 3 := by simp; omega
  -- case no message
  have hnone : (((if ([] : List Byte) = [] then some ([34] ++ A ++ [34, 58, 32] ++ buf.drop (4 + A.length))
        else Mem.store ([34] ++ A ++ [34, 58, 32] ++ buf.drop (4 + A.length)) (1 + A.length + 3) (([] : List Byte) ++ [0])).bind
      fun b => (if ([] : List Byte) = [] then Mem.store b (1 + A.length + 3 + ([] : List Byte).length) [0] else some b).bind
        fun b => if 1 + A.length + 3 + ([] : List Byte).length > 1 then
            (Mem.load b (1 + A.length + 3 + ([] : List Byte).length - 2) 2).bind fun two =>
              if two = [13, 10] then Mem.store b (1 + A.length + 3 + ([] : List Byte).length - 2) [0] else some b
          else some b)) = some ([34] ++ A ++ [34, 58, 32] ++ 0 :: buf.drop (5 + A.length)) := by
    simp only [if_true, Option.bind_some, List.length_nil, Nat.add_zero]
    have e4 : Mem.store ([34] ++ A ++ [34, 58, 32] ++ buf.drop (4 + A.length)) (1 + A.length + 3) [0] =
        some ([34] ++ A ++ [34, 58, 32] ++ 0 :: buf.drop (5 + A.length)) := by
      rw [store_at hpl.symm (by simp; omega), List.drop_drop, List.append_assoc _ [0]]
      congr 3
      simp only [List.length_cons, List.length_nil, List.singleton_append]
      congr 2
      omega
    rw [e4]
    simp only [Option.bind_some]
    rw [if_pos (by omega), Mem.load_eq_some (by simp; omega)]
    simp only [Option.bind_some]
    have e5 : (([34] ++ A ++ [34, 58, 32] ++ 0 :: buf.drop (5 + A.length)).drop (1 + A.length + 3 - 2)).take 2 = [58, 32] := by
      have : [34] ++ A ++ [34, 58, 32] ++ 0 :: buf.drop (5 + A.length) =
          ([34] ++ A ++ [34]) ++ ([58, 32] ++ 0 :: buf.drop (5 + A.length)) := by simp
      rw [this, List.drop_left' (by simp; omega), List.take_left' (by rfl)]
    rw [e5, if_neg (by decide)]
  have hnone_ok : ∃ buf', (some ([34] ++ A ++ [34, 58, 32] ++ 0 :: buf.drop (5 + A.length)) : Option Mem) = some buf' ∧
      buf'.length = buf.length ∧ buf'.cstr 0 = some ([34] ++ A ++ [34, 58, 32] ++ []) :=
    ⟨_, rfl, by simp; omega, by rw [List.append_nil]; exact Mem.cstr_zero hpre0⟩
  by_cases hfit : ∃ m, msg = some m ∧ 1 + A.length + 3 + m.length + 1 ≤ buf.length
  · obtain ⟨m, rfl, hfit⟩ := hfit
    have hm0 := hm m rfl
    rw [show (some m).filter (fun m => decide (1 + A.length + 3 + m.length + 1 ≤ buf.length)) = some m by simp [hfit]]
    simp only [Option.getD_some]
    rw [if_pos (show A.length + 4 + m.length + 1 ≤ buf.length by omega)]
    by_cases hme : m = []
    · subst hme
      rw [hnone]
      simp only [show ([13, 10] : List Byte).isSuffixOf [] = false from rfl, Bool.false_eq_true, if_false]
      exact hnone_ok
    · rw [if_neg hme]
      have e4 : Mem.store ([34] ++ A ++ [34, 58, 32] ++ buf.drop (4 + A.length)) (1 + A.length + 3) (m ++ [0]) =
          some ([34] ++ A ++ [34, 58, 32] ++ m ++ 0 :: buf.drop (5 + A.length + m.length)) := by
        rw [store_at hpl.symm (by simp; omega), List.drop_drop]
        have hd : 4 + A.length + (m ++ [0]).length = 5 + A.length + m.length := by simp; omega
        rw [hd]
        simp only [List.append_assoc, List.singleton_append]
      rw [e4]
      simp only [Option.bind_some]
      rw [if_neg hme]
      simp only [Option.bind_some]
      rw [if_pos (by omega), Mem.load_eq_some (by simp; omega)]
      simp only [Option.bind_some]
      by_cases hsuf : ([13, 10] : List Byte).isSuffixOf m = true
      · obtain ⟨m', rfl⟩ := List.isSuffixOf_iff_suffix.mp hsuf
        rw [if_pos hsuf]
        have hm'0 : (0 : Byte) ∉ m' := fun h => hm0 (List.mem_append_left _ h)
        have e5 : [34] ++ A ++ [34, 58, 32] ++ (m' ++ [13, 10]) ++ 0 :: buf.drop (5 + A.length + (m' ++ [13, 10]).length) =
            ([34] ++ A ++ [34, 58, 32] ++ m') ++ ([13, 10] ++ 0 :: buf.drop (5 + A.length + (m' ++ [13, 10]).length)) := by
          simp only [List.append_assoc]
        have hpos : 1 + A.length + 3 + (m' ++ [13, 10]).length - 2 = ([34] ++ A ++ [34, 58, 32] ++ m').length := by
          simp; omega
        rw [e5, hpos, List.drop_left' rfl, List.take_left' (by rfl), if_pos rfl, Mem.store_eq_some (by simp; omega),
          List.take_left' rfl]
        refine ⟨_, rfl, ?_, ?_⟩
        · simp at hfit ⊢; omega
        · have hx : (0 : Byte) ∉ [34] ++ A ++ [34, 58, 32] ++ m' := by
            rw [List.mem_append]; exact fun h => h.elim hpre0 hm'0
          have : (m' ++ [13, 10]).take ((m' ++ [13, 10]).length - 2) = m' := by
            apply List.take_left'; simp
          rw [this, List.append_assoc]
          exact Mem.cstr_zero hx
      · rw [if_neg hsuf]
        rw [if_neg ?_]
        · refine ⟨_, rfl, ?_, ?_⟩
          · simp; omega
          · have hx : (0 : Byte) ∉ [34] ++ A ++ [34, 58, 32] ++ m := by
              rw [List.mem_append]; exact fun h => h.elim hpre0 hm0
            exact Mem.cstr_zero hx
        · intro hh
          apply hsuf
          rw [List.isSuffixOf_iff_suffix]
          -- the last two characters before the NUL
          rcases List.eq_nil_or_concat m with rfl | ⟨m1, y, hmm⟩
          · exact absurd rfl hme
          rw [List.concat_eq_append] at hmm
          subst hmm
          rcases List.eq_nil_or_concat m1 with rfl | ⟨m2, z, hmm⟩
          · exfalso
            have : [34] ++ A ++ [34, 58, 32] ++ ([] ++ [y]) ++ 0 :: buf.drop (5 + A.length + ([] ++ [y]).length) =
                ([34] ++ A ++ [34, 58]) ++ ([32, y] ++ 0 :: buf.drop (5 + A.length + ([] ++ [y]).length)) := by simp
            rw [this, List.drop_left' (by simp; omega), List.take_left' (by rfl)] at hh
            simp at hh
          · rw [List.concat_eq_append] at hmm
            subst hmm
            have : [34] ++ A ++ [34, 58, 32] ++ (m2 ++ [z] ++ [y]) ++ 0 :: buf.drop (5 + A.length + (m2 ++ [z] ++ [y]).length) =
                ([34] ++ A ++ [34, 58, 32] ++ m2) ++ ([z, y] ++ 0 :: buf.drop (5 + A.length + (m2 ++ [z] ++ [y]).length)) := by
              simp
            rw [this, List.drop_left' (by simp; omega), List.take_left' (by rfl)] at hh
            exact ⟨m2, by simp at hh ⊢; exact ⟨hh.1.symm, hh.2.symm⟩⟩
  · have hf : (msg.filter fun m => decide (1 + A.length + 3 + m.length + 1 ≤ buf.length)).getD [] = [] := by
      cases msg with
      | none => rfl
      | some m =>
        have : ¬ (1 + A.length + 3 + m.length + 1 ≤ buf.length) := fun h => hfit ⟨m, rfl, h⟩
        simp [Option.filter, this]
    rw [hf, hnone]
    cases msg with
    | none => exact hnone_ok
    | some m =>
      have : ¬ (1 + A.length + 3 + m.length + 1 ≤ buf.length) := fun h => hfit ⟨m, rfl, h⟩
      simp only
      rw [if_neg (show ¬ (A.length + 4 + m.length + 1 ≤ buf.length) by omega)]
      exact hnone_ok

end Verif.Dlfcn
