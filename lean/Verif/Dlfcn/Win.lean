import Verif.Dlfcn.Spec
/-! Facts about the list of loaded modules (C78). -/
namespace Verif.Dlfcn
open Spec

theorem loaded_iff {ms : List Mod} {h : Nat} : loaded ms h = true ↔ h ∈ ms.map (·.h) := by
  simp only [loaded, List.any_eq_true, List.mem_map, beq_iff_eq]

/-- modules with loads not yet undone stay -/
def Keeps (ms ms' : List Mod) (x : Nat) : Prop := (∃ m ∈ ms, m.h = x ∧ 1 ≤ m.exp) → ∃ m ∈ ms', m.h = x ∧ 1 ≤ m.exp

theorem Keeps.trans {a b c : List Mod} {x : Nat} (h : Keeps a b x) (h' : Keeps b c x) : Keeps a c x := fun hh => h' (h hh)

theorem keeps_map {ms : List Mod} {f : Mod → Mod} {x : Nat} (h1 : ∀ m, m.h = x → (f m).h = x) (h2 : ∀ m, m.h = x → m.exp ≤ (f m).exp) :
    Keeps ms (ms.map f) x := by
  rintro ⟨m, hm, rfl, he⟩
  exact ⟨f m, List.mem_map.mpr ⟨m, hm, rfl⟩, h1 m rfl, Nat.le_trans he (h2 m rfl)⟩

theorem keeps_append {ms ns : List Mod} {x : Nat} : Keeps ms (ms ++ ns) x := by
  rintro ⟨m, hm, h⟩
  exact ⟨m, List.mem_append_left _ hm, h⟩

theorem map_h {ms : List Mod} {f : Mod → Mod} (h : ∀ m, (f m).h = m.h) : (ms.map f).map (·.h) = ms.map (·.h) := by
  rw [List.map_map]
  exact List.map_congr_left fun a _ => h a

theorem addImp_h (ms : List Mod) (d : Nat) :
    (addImp ms d).map (·.h) = if loaded ms d then ms.map (·.h) else ms.map (·.h) ++ [d] := by
  unfold addImp
  split
  · apply map_h; intro m; split <;> rfl
  · simp

theorem addImp_keeps (ms : List Mod) (d x : Nat) : Keeps ms (addImp ms d) x := by
  unfold addImp
  split
  · apply keeps_map <;> intro m hm <;> split <;> simp_all
  · exact keeps_append

theorem addImps (ds : List Nat) : ∀ ms : List Mod,
    (∀ x, Keeps ms (ds.foldl addImp ms) x) ∧ ms.length ≤ (ds.foldl addImp ms).length ∧
    ((ms.map (·.h)).Nodup → ((ds.foldl addImp ms).map (·.h)).Nodup) ∧
    (∀ x, loaded (ds.foldl addImp ms) x = true ↔ loaded ms x = true ∨ x ∈ ds) := by
  induction ds with
  | nil => intro ms; exact ⟨fun x h => h, Nat.le_refl _, id, fun x => by simp⟩
  | cons d ds ih =>
    intro ms
    obtain ⟨h1, h2, h3, h4⟩ := ih (addImp ms d)
    have hh := addImp_h ms d
    refine ⟨fun x => (addImp_keeps ms d x).trans (h1 x), ?_, ?_, ?_⟩
    · refine Nat.le_trans ?_ h2
      have := congrArg List.length hh
      rw [List.length_map] at this
      rw [this]
      split <;> simp
    · intro hn
      apply h3
      rw [hh]
      split
      · exact hn
      · rename_i hl
        rw [List.nodup_append]
        refine ⟨hn, by simp, ?_⟩
        intro a ha b hb
        rw [List.mem_singleton.mp hb]
        rintro rfl
        exact hl (loaded_iff.mpr ha)
    · intro x
      rw [List.foldl_cons, h4, loaded_iff, hh]
      split
      · rename_i hl
        rw [loaded_iff] at hl ⊢
        simp only [List.mem_cons]
        constructor
        · rintro (h | h)
          · exact .inl h
          · exact .inr (.inr h)
        · rintro (h | rfl | h)
          · exact .inl h
          · exact .inl hl
          · exact .inr h
      · rw [loaded_iff]
        simp only [List.mem_append, List.mem_cons, List.not_mem_nil, or_false]
        constructor
        · rintro ((h | h) | h)
          · exact .inl h
          · exact .inr (.inl h)
          · exact .inr (.inr h)
        · rintro (h | h | h)
          · exact .inl (.inl h)
          · exact .inl (.inr h)
          · exact .inr h

theorem load_keeps (ms : List Mod) (l : Load) (x : Nat) : Keeps ms (loadLibrary ms l) x := by
  unfold loadLibrary
  refine (addImps l.deps ms).1 x |>.trans ?_
  simp only
  split
  · apply keeps_map <;> intro m hm <;> split <;> simp_all
  · exact keeps_append

theorem load_nodup {ms : List Mod} (l : Load) (h : (ms.map (·.h)).Nodup) : ((loadLibrary ms l).map (·.h)).Nodup := by
  unfold loadLibrary
  have h3 := (addImps l.deps ms).2.2.1 h
  simp only
  split
  · rw [map_h (by intro m; split <;> rfl)]; exact h3
  · rename_i hl
    rw [List.map_append, List.nodup_append]
    refine ⟨h3, by simp, ?_⟩
    intro a ha b hb
    simp only [List.map_cons, List.map_nil, List.mem_singleton] at hb
    rw [hb]
    rintro rfl
    exact hl (loaded_iff.mpr ha)

theorem load_has (ms : List Mod) (l : Load) : ∃ m ∈ loadLibrary ms l, m.h = l.h ∧ 1 ≤ m.exp := by
  unfold loadLibrary
  simp only
  split
  · rename_i hl
    obtain ⟨m, hm, he⟩ := List.mem_map.mp (loaded_iff.mp hl)
    exact ⟨_, List.mem_map.mpr ⟨m, hm, rfl⟩, by rw [if_pos he]; exact he, by rw [if_pos he]; simp⟩
  · exact ⟨⟨l.h, 1, false⟩, by simp, rfl, Nat.le_refl _⟩

/-- the number of modules tells whether the module was loaded before -/
theorem load_length (ms : List Mod) (l : Load) (h1 : l.h ∉ l.deps) (h2 : loaded ms l.h = true → l.deps = []) :
    (loadLibrary ms l).length = ms.length ↔ loaded ms l.h = true := by
  constructor
  · intro hlen
    cases hl : loaded ms l.h with
    | true => rfl
    | false =>
      have h4 := (addImps l.deps ms).2.2.2 l.h
      have h5 := (addImps l.deps ms).2.1
      have : loaded (l.deps.foldl addImp ms) l.h = false := by
        cases hx : loaded (l.deps.foldl addImp ms) l.h with
        | false => rfl
        | true => rcases h4.mp hx with h | h
                  · rw [hl] at h; cases h
                  · exact absurd h h1
      unfold loadLibrary at hlen
      simp only [this, Bool.false_eq_true, if_false, List.length_append, List.length_singleton] at hlen
      omega
  · intro hl
    unfold loadLibrary
    rw [h2 hl]
    simp only [List.foldl_nil]
    simp [hl]

theorem free_sub (ms : List Mod) (h : Nat) (drops : List Nat) (ans : Bool) :
    ((freeLibrary ms h drops ans).1.map (·.h)).Sublist (ms.map (·.h)) := by
  unfold freeLibrary
  split
  · exact List.Sublist.refl _
  · split
    · exact List.Sublist.refl _
    · simp only
      refine (List.Sublist.map (fun m : Mod => m.h) List.filter_sublist).trans ?_
      split
      · rw [map_h (by intro m; split <;> rfl), map_h (by intro m; split <;> rfl)]
        exact List.Sublist.refl _
      · rw [map_h (by intro m; split <;> rfl)]
        exact List.Sublist.refl _

theorem free_keeps (ms : List Mod) (h : Nat) (drops : List Nat) (ans : Bool) (x : Nat) (hx : x ≠ h) :
    Keeps ms (freeLibrary ms h drops ans).1 x := by
  unfold freeLibrary
  split
  · exact id
  · split
    · exact id
    · simp only
      have hf : ∀ l : List Mod, Keeps l (l.filter fun x => x.exp != 0 || x.imp) x := by
        rintro l ⟨m, hm, rfl, he⟩
        refine ⟨m, List.mem_filter.mpr ⟨hm, ?_⟩, rfl, he⟩
        have : m.exp ≠ 0 := by omega
        simp [this]
      refine Keeps.trans ?_ (hf _)
      have h1 : Keeps ms (ms.map fun x => if x.h = h then { x with exp := x.exp - 1 } else x) x := by
        apply keeps_map
        · intro m hm; split <;> simp_all
        · intro m hm; rw [if_neg (by rw [hm]; exact hx)]; exact Nat.le_refl _
      split
      · refine h1.trans ?_
        apply keeps_map <;> intro m hm <;> split <;> simp_all
      · exact h1

/-- a module `dlopen` loaded can be closed -/
theorem free_true {ms : List Mod} {h : Nat} (hn : (ms.map (·.h)).Nodup) (hm : ∃ m ∈ ms, m.h = h ∧ 1 ≤ m.exp) (drops : List Nat)
    (ans : Bool) : (freeLibrary ms h drops ans).2 = true := by
  obtain ⟨m, hm, he, h1⟩ := hm
  unfold freeLibrary
  cases hf : ms.find? fun m => m.h == h with
  | none =>
    rw [List.find?_eq_none] at hf
    exact absurd he (by simpa using hf m hm)
  | some m' =>
    have hm' := List.mem_of_find?_eq_some hf
    have he' : m'.h = h := by simpa using List.find?_some hf
    have : m' = m := by
      have hp := List.pairwise_map.mp hn
      refine Classical.byContradiction fun hne => ?_
      obtain ⟨i, hi, e1⟩ := List.getElem_of_mem hm
      obtain ⟨j, hj, e2⟩ := List.getElem_of_mem hm'
      have hij : i ≠ j := by rintro rfl; exact hne (e2.symm.trans e1)
      rcases Nat.lt_or_gt_of_ne hij with hlt | hlt
      · have := List.pairwise_iff_getElem.mp hp i j hi hj hlt
        rw [e1, e2] at this
        exact this (he.trans he'.symm)
      · have := List.pairwise_iff_getElem.mp hp j i hj hi hlt
        rw [e1, e2] at this
        exact this (he'.trans he.symm)
    subst this
    simp only
    rw [if_neg (by omega)]

/-- a module that was not loaded, loaded once and freed, is gone -/
theorem load_free (ms : List Mod) (l : Load) (h1 : l.h ∉ l.deps) (hl : loaded ms l.h = false) (drops : List Nat) (ans : Bool) :
    loaded (freeLibrary (loadLibrary ms l) l.h drops ans).1 l.h = false := by
  have h4 := (addImps l.deps ms).2.2.2 l.h
  have hno : loaded (l.deps.foldl addImp ms) l.h = false := by
    cases hx : loaded (l.deps.foldl addImp ms) l.h with
    | false => rfl
    | true => rcases h4.mp hx with h | h
              · rw [hl] at h; cases h
              · exact absurd h h1
  have hld : loadLibrary ms l = l.deps.foldl addImp ms ++ [⟨l.h, 1, false⟩] := by
    unfold loadLibrary; simp [hno]
  rw [hld]
  generalize l.deps.foldl addImp ms = k at hno
  have hk : ∀ m ∈ k, m.h ≠ l.h := by
    intro m hm he
    have : loaded k l.h = true := loaded_iff.mpr (List.mem_map.mpr ⟨m, hm, he⟩)
    rw [hno] at this; cases this
  have hfind : (k ++ [(⟨l.h, 1, false⟩ : Mod)]).find? (fun m => m.h == l.h) = some ⟨l.h, 1, false⟩ := by
    rw [List.find?_append, List.find?_eq_none.mpr (by simpa using hk)]
    simp
  unfold freeLibrary
  rw [hfind]
  simp only [Nat.one_ne_zero, if_false, and_self, if_true]
  cases hx : loaded _ l.h with
  | false => rfl
  | true =>
    exfalso
    rw [loaded_iff] at hx
    obtain ⟨m, hm, he⟩ := List.mem_map.mp hx
    rw [List.mem_filter] at hm
    obtain ⟨hm, hc⟩ := hm
    rw [List.mem_map] at hm
    obtain ⟨m1, hm1, rfl⟩ := hm
    rw [List.mem_map] at hm1
    obtain ⟨m2, hm2, rfl⟩ := hm1
    have e2 : m2.h = l.h := by
      revert he; split <;> split <;> simp
    rcases List.mem_append.mp hm2 with h | h
    · exact hk m2 h e2
    · rw [List.mem_singleton] at h
      subst h
      revert hc
      split <;> simp

end Verif.Dlfcn
