import Verif.StrParams.Lemmas
/-!
# str_params is a string map (C34)
-/
namespace Verif.StrParams
open Verif.Hashmap (Ptr Cfg Map Ev R Inv kv hashKey)
open Verif.Hashmap.Spec (FMap GoodCfg)
open Spec

theorem create_good (d : Option (List Byte)) (ok1 ok2 : Bool) (s : St)
    (h : create d ok1 ok2 = some (some s)) : Good s [] [] ∧ s.delim = (d.getD [59]).take 1 := by
  unfold create at h
  obtain ⟨r, h1, h2, _⟩ := Hashmap.create_terminates (cfg ⟨fun _ => [], [], 1⟩) 16 ok1 ok2
  rw [h1] at h
  cases r with
  | none => simp at h
  | some m =>
    simp only [Option.some.injEq] at h
    subst h
    exact ⟨⟨h2 m rfl, List.Perm.refl _, List.nodup_nil, by simp, ⟨Nat.le_refl _, by simp⟩, by simp⟩, rfl⟩

theorem step_spec {s : St} {L : FMap} {X : List Ptr} (g : Good s L X) (o : Op) (ho : Spec.ok o) :
    ∃ s' L' r, step s o = some (s', r) ∧ Good s' L' X ∧ s'.delim = s.delim ∧
      (texts s'.heap L', r) = Spec.step (texts s.heap L) o := by
  cases o with
  | add k v ok =>
    obtain ⟨s', L', r, h1, h2, h3, h4⟩ := addStr_spec g k v ho.1 ho.2.1 ok ho.2.2
    exact ⟨s', L', .code r, by simp only [step]; rw [h1]; rfl, h2, h3, h4⟩
  | del k =>
    obtain ⟨s', L', h1, h2, h3, h4⟩ := del_spec g k
    exact ⟨s', L', .unit, by simp only [step]; rw [h1]; rfl, h2, h3, by rw [h4]; rfl⟩
  | has k =>
    exact ⟨s, L, _, by simp only [step]; rw [hasKey_spec g k]; rfl, g, rfl, rfl⟩
  | get k out size =>
    refine ⟨s, L, _, by simp only [step]; rw [getStr_spec g k out size ho.2]; rfl, g, rfl, ?_⟩
    simp only [Spec.step]
    cases find (texts s.heap L) k with
    | none => rfl
    | some v =>
      simp only
      split <;> rfl

theorem run_spec (ops : List Op) : ∀ {s : St} {L : FMap} {X : List Ptr}, Good s L X →
    (∀ o ∈ ops, Spec.ok o) →
    ∃ s' L' rs, run s ops = some (s', rs) ∧ Good s' L' X ∧ s'.delim = s.delim ∧
      (texts s'.heap L', rs) = Spec.run (texts s.heap L) ops := by
  induction ops with
  | nil => intro s L X g _; exact ⟨s, L, [], rfl, g, rfl, rfl⟩
  | cons o os ih =>
    intro s L X g ho
    obtain ⟨s1, L1, r, h1, h2, h3, h4⟩ := step_spec g o (ho o (by simp))
    obtain ⟨s2, L2, rs, k1, k2, k3, k4⟩ := ih h2 (fun o h => ho o (by simp [h]))
    refine ⟨s2, L2, r :: rs, ?_, k2, k3.trans h3, ?_⟩
    · unfold run; rw [h1]; simp only; rw [k1]; rfl
    · unfold Spec.run
      rw [← h4]
      simp only
      rw [← k4]

/-- C34: for every history of `add_str`, `del`, `has_key`, `get_str` on a new object (any memory failures
except of the table growth, see `add_growth_failure_uaf`), all results are those of a finite map from
strings to strings; nothing is used after being freed, and destroying the object leaves no string behind. -/
theorem history_is_string_map (d : Option (List Byte)) (ok1 ok2 : Bool) (s : St)
    (hs : create d ok1 ok2 = some (some s)) (ops : List Op) (hok : ∀ o ∈ ops, Spec.ok o) :
    ∃ s' rs h, run s ops = some (s', rs) ∧ rs = (Spec.run [] ops).2 ∧
      destroy s' = some h ∧ h.live = [] := by
  obtain ⟨g, _⟩ := create_good d ok1 ok2 s hs
  obtain ⟨s', L', rs, h1, h2, _, h4⟩ := run_spec ops g hok
  obtain ⟨h, k1, k2⟩ := destroy_spec h2
  have h4' : (texts s'.heap L', rs) = Spec.run [] ops := h4
  exact ⟨s', rs, h, h1, by rw [← h4'], k1, List.Perm.eq_nil k2⟩

/-- States reached by histories of calls. -/
def Reachable (s : St) : Prop :=
  ∃ d ok1 ok2 s0 ops rs, create d ok1 ok2 = some (some s0) ∧ (∀ o ∈ ops, Spec.ok o) ∧
    run s0 ops = some (s, rs)

theorem reachable_good {s : St} (h : Reachable s) : ∃ L, Good s L [] := by
  obtain ⟨d, ok1, ok2, s0, ops, rs, h1, h2, h3⟩ := h
  obtain ⟨g, _⟩ := create_good d ok1 ok2 s0 h1
  obtain ⟨s', L', rs', k1, k2, _, _⟩ := run_spec ops g h2
  rw [h3] at k1
  simp only [Option.some.injEq, Prod.mk.injEq] at k1
  rw [← k1.1] at k2
  exact ⟨L', k2⟩

theorem find_map_ne (T : SMap) (k v k' : List Byte) (hk : k' ≠ k) :
    find (T.map fun p => if p.1 == k then (k, v) else p) k' = find T k' := by
  induction T with
  | nil => rfl
  | cons p T ih =>
    unfold find at *
    rw [List.map_cons, List.find?_cons, List.find?_cons]
    by_cases hp : p.1 = k
    · have h1 : (k == k') = false := by simpa using fun h => hk h.symm
      have h2 : (p.1 == k) = true := by simpa using hp
      rw [if_pos h2]
      simp only [h1, hp]
      exact ih
    · have h2 : (p.1 == k) = false := by simpa using hp
      simp only [h2, Bool.false_eq_true, if_false]
      cases h : p.1 == k' with
      | true => rfl
      | false => exact ih

theorem find_map_eq (T : SMap) (k v : List Byte) (hf : (find T k).isSome) :
    find (T.map fun p => if p.1 == k then (k, v) else p) k = some v := by
  induction T with
  | nil => simp [find] at hf
  | cons p T ih =>
    unfold find at *
    rw [List.find?_cons] at hf
    rw [List.map_cons, List.find?_cons]
    by_cases hp : p.1 = k
    · have h2 : (p.1 == k) = true := by simpa using hp
      simp [hp]
    · have h2 : (p.1 == k) = false := by simpa using hp
      rw [h2] at hf
      simp only [h2, Bool.false_eq_true, if_false]
      exact ih hf

theorem find_insert (T : SMap) (k v k' : List Byte) :
    find (Spec.insert T k v) k' = if k' = k then some v else find T k' := by
  unfold Spec.insert
  by_cases hf : (find T k).isSome
  · rw [if_pos hf]
    by_cases hk : k' = k
    · rw [if_pos hk, hk, find_map_eq T k v hf]
    · rw [if_neg hk, find_map_ne T k v k' hk]
  · rw [if_neg hf]
    unfold find at *
    rw [List.find?_append]
    by_cases hk : k' = k
    · subst hk
      rw [if_pos rfl]
      have : T.find? (fun p => p.1 == k') = none := by
        cases h : T.find? (fun p => p.1 == k') with
        | none => rfl
        | some x => rw [h] at hf; simp at hf
      rw [this]; simp
    · rw [if_neg hk]
      have hkk : (k == k') = false := by simpa using fun h => hk h.symm
      simp [hkk]

/-- C34, in one sentence: after a successful `add_str(k, v)`, `get_str(k)` gives `v` (if the buffer has room
for it and its NUL, -ENOMEM otherwise) and every other key gives what it gave before. -/
theorem add_then_get (s : St) (hs : Reachable s) (k v : List Byte) (ok : Oks) (hk : (0 : Byte) ∉ k)
    (hv : (0 : Byte) ∉ v) (hg : ok.grow = true) (s' : St) (hadd : addStr s k v ok = some (s', 0))
    (out : Mem) (size : Nat) (hsz : size ≤ out.length) :
    getStr s' k out size =
      some (if v.length + 1 ≤ size then (out.front (v ++ [0]), 0) else (out, -12)) ∧
    ∀ k', k' ≠ k → getStr s' k' out size = getStr s k' out size ∧ hasKey s' k' = hasKey s k' := by
  obtain ⟨L, g⟩ := reachable_good hs
  obtain ⟨s1, L', r, h1, h2, _, h4⟩ := addStr_spec g k v hk hv ok hg
  rw [hadd] at h1
  simp only [Option.some.injEq, Prod.mk.injEq] at h1
  obtain ⟨e1, e2⟩ := h1
  subst e1; subst e2
  have ht : texts s'.heap L' = Spec.insert (texts s.heap L) k v := by
    simp only [Spec.step] at h4
    split at h4
    · exact congrArg Prod.fst h4
    · have := congrArg Prod.snd h4; simp at this
  constructor
  · rw [getStr_spec h2 k out size hsz, ht, find_insert, if_pos rfl]
    simp only
    congr 1
    by_cases hlt : size < v.length + 1
    · rw [if_pos hlt, if_neg (by omega)]
    · rw [if_neg hlt, if_pos (by omega)]
  · intro k' hne
    rw [getStr_spec h2 k' out size hsz, getStr_spec g k' out size hsz, hasKey_spec h2, hasKey_spec g, ht,
      find_insert, if_neg hne]
    exact ⟨rfl, rfl⟩

/-- C34: after `del(k)` the key is absent and the others are untouched. -/
theorem del_then_get (s : St) (hs : Reachable s) (k : List Byte) :
    ∃ s', del s k = some s' ∧ hasKey s' k = some false ∧
      ∀ k', k' ≠ k → hasKey s' k' = hasKey s k' ∧ ∀ out size, size ≤ out.length →
        getStr s' k' out size = getStr s k' out size := by
  obtain ⟨L, g⟩ := reachable_good hs
  obtain ⟨s', L', h1, h2, _, h4⟩ := del_spec g k
  refine ⟨s', h1, ?_, ?_⟩
  · rw [hasKey_spec h2, h4]
    have : find (erase (texts s.heap L) k) k = none := by
      unfold find erase
      rw [Option.map_eq_none_iff, List.find?_eq_none]
      intro p hp
      have := (List.mem_filter.mp hp).2
      simpa using this
    rw [this]; rfl
  · intro k' hne
    have hf : find (erase (texts s.heap L) k) k' = find (texts s.heap L) k' := by
      unfold find erase
      rw [List.find?_filter]
      congr 2
      funext p
      by_cases hp : p.1 = k'
      · have : p.1 ≠ k := by rw [hp]; exact hne
        simp [hp, hne]
      · simp [hp]
    refine ⟨by rw [hasKey_spec h2, hasKey_spec g, h4, hf], ?_⟩
    intro out size hsz
    rw [getStr_spec h2 k' out size hsz, getStr_spec g k' out size hsz, h4, hf]

/-- FINDING: when adding a new key makes the table grow and the growth's memory request fails,
`str_params_add_str` reports -ENOMEM and frees key and value although the map has taken them: the next
look-up of that key reads freed memory. -/
theorem add_growth_failure_uaf (s : St) (hs : Reachable s) (k v : List Byte) (hk : (0 : Byte) ∉ k)
    (hv : (0 : Byte) ∉ v) (hnew : hasKey s k = some false) (hsz : s.map.size < 2 ^ 59)
    (hfull : s.map.size + 1 > (s.map.bucketCount * 3 % 2 ^ 64) / 4) :
    ∃ s', addStr s k v ⟨true, true, true, false⟩ = some (s', -12) ∧ hasKey s' k = none := by
  obtain ⟨L, g⟩ := reachable_good hs
  obtain ⟨g1, t1⟩ := g.dup k hk
  obtain ⟨g2, t2⟩ := g1.dup v hv
  simp only at g2 t2
  have hkt : ((s.heap.dup k).2.dup v).2.txt (s.heap.dup k).1 = k := by
    rw [dup_txt_old (by simp only [Heap.dup]; exact Nat.lt_succ_self _), dup_txt_new]
  unfold addStr
  simp only [Bool.true_eq_false, if_false]
  generalize ((s.heap.dup k).2.dup v).2 = hp at *
  generalize ((s.heap.dup k).2.dup v).1 = vp at *
  generalize (s.heap.dup k).1 = kp at *
  obtain ⟨m', old, h', L', X', p1, p2, p3, p4⟩ := mapPut_spec g2 ⟨true, true, true, false⟩
  simp only at p1 p3 p4
  rw [hasKey_spec g] at hnew
  simp only [Option.some.injEq] at hnew
  rw [hkt, t2, t1] at p4
  rcases p4 with ⟨q1, _⟩ | ⟨q1, q2, q3, q4, q5, q6, q7⟩ | ⟨q1, q2, q3, _⟩
  · rw [hnew] at q1; cases q1
  · unfold addTail
    rw [p1]
    simp only
    rw [if_pos q2]
    have hen : putEnomem s.map m' ⟨true, true, true, false⟩ = true := by
      unfold putEnomem
      rw [if_neg (by omega)]
      simp only [Hashmap.callocOk, Bool.false_and, Bool.not_false, Bool.and_true, decide_eq_true_eq]
      omega
    rw [hen]
    simp only [if_true]
    have hmem : (kp, vp) ∈ L' := by rw [q7]; simp
    have hkl : kp ∈ h'.live := p2.mem1 hmem
    have hvl : vp ∈ h'.live := p2.mem2 hmem
    have hne : vp ≠ kp := by
      have hn := p2.live.nodup_iff.mp p2.nodup
      rw [List.append_assoc] at hn
      exact fun e => (List.nodup_append.mp hn).2.2 kp (List.mem_map.mpr ⟨_, hmem, rfl⟩) vp
        (by simp only [List.mem_append]; exact Or.inl (List.mem_map.mpr ⟨_, hmem, rfl⟩)) e.symm
    have hvl2 : vp ∈ h'.live.erase kp := (List.mem_erase_of_ne hne).mpr hvl
    unfold Heap.free
    rw [if_pos hkl]
    simp only [Option.bind_some]
    rw [if_pos hvl2]
    refine ⟨_, rfl, ?_⟩
    have hdead : kp ∉ (h'.live.erase kp).erase vp := by
      intro h
      have := List.mem_of_mem_erase h
      exact absurd this (p2.nodup.not_mem_erase)
    unfold hasKey lookup
    simp only
    have htouch : touchOk (Heap.name { h' with live := (h'.live.erase kp).erase vp } k).2 m'
        (Heap.name { h' with live := (h'.live.erase kp).erase vp } k).1 = false := by
      generalize hnm : Heap.name { h' with live := (h'.live.erase kp).erase vp } k = nm
      have hnl : nm.2.live = (h'.live.erase kp).erase vp := by rw [← hnm]; rfl
      have hnt : nm.2.txt nm.1 = k := by rw [← hnm]; exact name_txt_new _ _
      have hkk : nm.2.txt kp = k := by
        have := name_txt_old (h := { h' with live := (h'.live.erase kp).erase vp }) (s := k)
          (show kp < h'.next from p2.lt _ hkl)
        rw [← hnm, this]
        show h'.txt kp = k
        rw [p3]; exact hkt
      have hent : ∃ e ∈ m'.buckets.flatten, kv e = (kp, vp) := by
        have := p2.r.perm.mem_iff.mpr hmem
        exact List.mem_map.mp this
      obtain ⟨e, he, hekv⟩ := hent
      have hek : e.key = kp := congrArg Prod.fst hekv
      have hhash : e.hash = hashKey (cfg nm.2) nm.1 := by
        rw [p2.r.inv.hash e he, hek]
        have : h'.txt kp = nm.2.txt nm.1 := by
          rw [hnt, p3]; exact hkt
        simp only [hashKey, cfg, this]
      rw [List.mem_flatten] at he
      obtain ⟨ch, hch, hein⟩ := he
      obtain ⟨i, hi⟩ := List.mem_iff_getElem?.mp hch
      have hplace := p2.r.inv.place i ch hi e hein
      simp only at hplace
      unfold touchOk
      rw [← hhash, hplace, hi]
      simp only [Option.getD_some]
      rw [List.all_eq_false]
      refine ⟨e, hein, ?_⟩
      rw [hek, hnl]
      simp only [decide_eq_true_eq]
      intro hor
      rcases hor with hor | hor
      · exact hor rfl
      · exact hdead hor
    rw [htouch]
    rfl
  · exact absurd ⟨trivial, by rw [← g.r.size_eq]; exact hsz⟩ q3

end Verif.StrParams
