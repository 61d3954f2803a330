import Verif.AllocMt.Run
import Verif.Allocator.Props
/-! # The invariant holds in every state a quiet client reaches -/
namespace Verif.AllocMt
open Verif.Allocator
open Verif.Hashmap (Map kv)
open Verif.Allocator.Spec (Intact tinybird total)

theorem Start.inv {n : Nat} {s : Sys} (h : Start n s) : SInv s := by
  obtain ⟨⟨mem, hi⟩, ht, ho, hl⟩ := h
  have hon : s.st.allocations ≠ none := by
    obtain ⟨r, h1, h2, _⟩ := Hashmap.create_terminates trackerCfg 1024 true true
    unfold trackerInit Allocator.start at hi
    simp only [h1, Res.ofOption, Res.bind, Res.ok.injEq] at hi
    rw [← hi]
    intro e
    simp only at e
    rw [e] at h2
    cases h1' : r with
    | none => rw [h1'] at h1; exact absurd h1 (by decide +kernel)
    | some m => rw [h1'] at e; cases e
  obtain ⟨⟨m, hr⟩, hrecs⟩ := init_rel mem hi hon
  have hraw : s.st.raw = [] := by
    obtain ⟨r, h1, _⟩ := Hashmap.create_terminates trackerCfg 1024 true true
    unfold trackerInit Allocator.start at hi
    simp only [h1, Res.ofOption, Res.bind, Res.ok.injEq] at hi
    rw [← hi]
  have hpc : ∀ pc ∈ s.ths, pc = .ret .unit := by
    rw [ht]
    intro pc hp
    exact (List.mem_replicate.mp hp).2
  have hc : claims s = [] := by
    unfold claims
    rw [ho]
    simp only [List.map_nil, List.nil_append]
    rw [List.filterMap_eq_nil_iff]
    intro pc hp
    rw [hpc pc hp]
    rfl
  refine ⟨?_, ?_, ?_, ?_, ?_⟩
  · rw [hc]
    refine ⟨⟨m, [], hr.on, hr.map, .nil⟩, by rw [hraw]; exact .nil, nofun, .nil, nofun, nofun, nofun, .nil, ?_, nofun, nofun⟩
    intro q hq
    rw [hrecs] at hq
    exact absurd rfl hq
  · intro pc hp; rw [hpc pc hp]; trivial
  · intro i e; rw [hl] at e; cases e
  · intro i todo t rep e
    have := hpc _ (List.mem_of_getElem? e)
    cases this
  · rintro ⟨pc, hp, e⟩
    rw [hpc pc hp] at e
    cases e

/-- The client takes a block out of its list and passes it to a call. -/
theorem claims_take {s : Sys} {i : Nat} {pc pc' : Pc} {b : Blk} (h : s.ths[i]? = some pc) (hp : claimOf pc = none)
    (hp' : claimOf pc' = some (full b false)) (hb : b ∈ s.owned) (st : St) :
    (claims s).Perm (claims ⟨st, s.ths.set i pc', s.owned.erase b, s.lock⟩) := by
  have h1 := filterMap_set h pc'
  have h2 := filterMap_set h pc
  have e : s.ths.set i pc = s.ths := by
    obtain ⟨hi, rfl⟩ := List.getElem?_eq_some_iff.mp h
    exact List.set_getElem_self hi
  rw [e, hp] at h2
  rw [hp'] at h1
  unfold claims
  simp only
  refine (List.Perm.append ((List.perm_cons_erase hb).map _) h2).trans ?_
  refine List.Perm.trans ?_ (List.Perm.append_left _ h1).symm
  simp only [List.map_cons, Option.toList_none, Option.toList_some, List.nil_append, List.cons_append]
  exact List.perm_middle.symm

theorem SInv.step {s : Sys} (h : SInv s) {r : Res Sys} (hs : Step true s r) : ∃ s', r = .ok s' ∧ SInv s' := by
  cases hs with
  | run i e _ hq he ha => exact h.act hq he ha
  | malloc i n o hi hn hl =>
    have p1 := claims_at hi
    have p2 := claims_set hi (.mRaw n) s.st s.lock
    refine ⟨_, rfl, h.move hi s.st s.owned rfl rfl hn (fun q => by cases q) (fun _ => .inr (hl rfl))
      (h.inv.perm (p1.trans p2.symm)) fun _ => Keep.perm (p1.trans p2.symm)⟩
  | free i b o hi hb =>
    have p := claims_take hi rfl (pc' := .fGet b) rfl hb s.st
    exact ⟨_, rfl, h.move hi s.st _ rfl rfl trivial (fun q => by cases q) (fun q => by cases q) (h.inv.perm p)
      fun _ => Keep.perm p⟩
  | size i b o hi hb =>
    have p := claims_take hi rfl (pc' := .sGet b) rfl hb s.st
    exact ⟨_, rfl, h.move hi s.st _ rfl rfl trivial (fun q => by cases q) (fun q => by cases q) (h.inv.perm p)
      fun _ => Keep.perm p⟩
  | leaks i o hi hl =>
    have p1 := claims_at hi
    have p2 := claims_set hi .lGo s.st s.lock
    refine ⟨_, rfl, h.move hi s.st s.owned rfl rfl trivial (fun _ => .inr (hl rfl)) (fun q => by cases q)
      (h.inv.perm (p1.trans p2.symm)) fun _ => Keep.perm (p1.trans p2.symm)⟩
  | write b k v hb hk =>
    have hp : (claims s).Perm (full b false :: claims ⟨s.st, s.ths, s.owned.erase b, s.lock⟩) := by
      unfold claims
      exact List.Perm.append_right _ ((List.perm_cons_erase hb).map _)
    have h1 := h.inv.perm hp
    have h8 : 8 < b.p := h1.p8 _ (List.mem_cons_self ..)
    have hacc := Inv.access (a := b.p + k) (n := 1) h1 (by simp only [full]; omega) (by simp only [full]; omega)
    rw [store_ok (.inr hacc)]
    refine ⟨_, rfl, ?_⟩
    have h2 := Inv.setMem h1 (fun x => if b.p + k ≤ x ∧ x < b.p + k + [v].length then [v].getD (x - (b.p + k)) 0 else s.st.mem x)
      true true ?_ ?_ ?_
    · exact ⟨h2.perm hp.symm, h.good, h.lock, h.walk, h.quiet⟩
    · intro a ha
      simp only [full] at ha
      have : ¬ (b.p + k ≤ a ∧ a < b.p + k + [v].length) := by simp only [List.length_singleton]; omega
      simp only [if_neg this]
    · intro _ i hi
      have : ¬ (b.p + k ≤ b.p - 8 + i ∧ b.p - 8 + i < b.p + k + [v].length) := by
        simp only [List.length_singleton]; omega
      exact (if_neg this).trans (h1.front _ (List.mem_cons_self ..) rfl i hi)
    · intro _ i hi
      have : ¬ (b.p + k ≤ b.p + b.n + i ∧ b.p + b.n + i < b.p + k + [v].length) := by
        simp only [List.length_singleton]; omega
      exact (if_neg this).trans (h1.back _ (List.mem_cons_self ..) rfl i hi)

theorem Reach.inv {n : Nat} {s : Sys} (h : Reach true n s) : SInv s := by
  induction h with
  | start s h => exact h.inv
  | step s s' _ hs ih =>
    obtain ⟨s1, e, h1⟩ := ih.step hs
    cases e
    exact h1

end Verif.AllocMt
