import Verif.IniParser.Core
/-! # Histories of `ini_parser` operations (C43, C44) -/
namespace Verif.IniParser
open Spec

/-- One call of the API (allocations succeed). -/
def exec (p : Parser) : Op → Option (Parser × Code)
  | .put s k v => putString p s (some k) (some v) .ok
  | .delKey s k => deleteKey p s k
  | .delSec s => deleteSection p s

/-- A history of calls, and their results; `none`: undefined behaviour. -/
def execAll : Parser → List Op → Option (Parser × List Code)
  | p, [] => some (p, [])
  | p, o :: ops => do
    let (p, c) ← exec p o
    let (p, cs) ← execAll p ops
    return (p, c :: cs)

/-- the parser represents the document -/
structure Rep (p : Parser) (d : Doc) : Prop where
  inv : Inv p
  has : ∀ n, d.has n = hasL (docOf p) n
  val : ∀ n k, d.val n k = valL (docOf p) n k
  recent : d.recent = recentOf p
  names : ∀ x ∈ docOf p, x.1 ≠ []

theorem rep_create : Rep create empty :=
  ⟨inv_create, fun _ => rfl, fun _ _ => rfl, rfl, by simp [docOf, create]⟩

theorem norm_nil_iff {s : List Byte} : norm s = [] ↔ s = [] := by simp [norm]

theorem Rep.no_nil {p : Parser} {d : Doc} (r : Rep p d) : d.has (norm []) = false := by
  rw [r.has]
  apply hasL_false
  intro x hx e
  exact r.names x hx (norm_nil_iff.mp e)

theorem valL_some_has {D : LDoc} {n k : List Byte} (h : (valL D n k).isSome) : hasL D n = true := by
  cases hh : hasL D n
  · rw [valL_none_of_not_has hh] at h; simp at h
  · rfl

theorem exec_rep {p : Parser} {d : Doc} (r : Rep p d) {o : Op} (hf : Fits o) (hk : KeepsRecent d o) :
    ∃ p', exec p o = some (p', (Spec.step d o).2) ∧ Rep p' (Spec.step d o).1 := by
  cases o with
  | put s k v =>
    unfold Spec.step exec
    simp only []
    by_cases h0 : s = [] ∨ k = []
    · rw [put_invalid p _ _ h0]
      simp only [h0, if_true]
      exact ⟨p, rfl, r⟩
    · have hs : s ≠ [] := fun e => h0 (.inl e)
      have hk0 : k ≠ [] := fun e => h0 (.inr e)
      obtain ⟨h1, h2, h3⟩ := hf
      obtain ⟨p', e, hi, hd, hr⟩ := put_ok r.inv (some v) hs hk0 h1 h2
      rw [Option.getD_some, List.take_of_length_le h3] at hd
      simp only [h0, if_false]
      refine ⟨p', e, hi, ?_, ?_, ?_, ?_⟩
      · intro n
        rw [hd, hasL_putL, ← r.has]; rfl
      · intro n k'
        rw [hd, valL_putL, ← r.val]; rfl
      · rw [hr, ← r.has, ← r.recent]; rfl
      · intro x hx
        rw [hd] at hx
        rcases mem_putL hx with hx | ⟨y, hy, rfl⟩ | rfl
        · exact r.names x hx
        · exact r.names y hy
        · exact hs
  | delKey s k =>
    by_cases hs : s = []
    · subst hs
      have hv : d.val (norm []) (norm k) = none := by
        rw [r.val]; apply valL_none_of_not_has; rw [← r.has]; exact r.no_nil
      refine ⟨p, ?_, ?_⟩
      · simp [exec, deleteKey, search_nil, Spec.step, hv]
      · simpa [Spec.step, hv] using r
    · obtain ⟨p', e, hi, hr, hd⟩ := delKey_ok r.inv hs k
      unfold exec Spec.step
      rw [← r.val] at e hd
      cases hv : (d.val (norm s) (norm k)).isSome
      · simp only [hv, Bool.false_eq_true, if_false] at e hd ⊢
        exact ⟨p', e, hi, by rw [hd]; exact r.has, by rw [hd]; exact r.val, by rw [hr]; exact r.recent,
          by rw [hd]; exact r.names⟩
      · simp only [hv, if_true] at e hd ⊢
        refine ⟨p', e, hi, ?_, ?_, ?_, ?_⟩
        · intro n; rw [hd, hasL_updL, ← r.has]; rfl
        · intro n k'
          rw [hd, valL_updL]
          show (if n = norm s ∧ k' = norm k then none else d.val n k') = _
          rw [r.val]
          by_cases hn : n = norm s
          · rw [if_pos hn]
            unfold valL
            cases hfd : (docOf p).find? fun x => norm x.1 == n with
            | none => simp
            | some x =>
              simp only [Option.bind_some]
              rw [valK_delK (r.inv.uniq.keys x (List.mem_of_find?_eq_some hfd))]
              simp [hn]
          · rw [if_neg hn, if_neg (fun hh => hn hh.1)]
        · rw [hr]; exact r.recent
        · intro x hx
          rw [hd] at hx
          rcases mem_updL hx with hx | ⟨y, hy, rfl⟩
          · exact r.names x hx
          · exact r.names y hy
  | delSec s =>
    by_cases hs : s = []
    · subst hs
      have hv := r.no_nil
      refine ⟨p, ?_, ?_⟩
      · simp [exec, deleteSection, search_nil, Spec.step, hv]
      · simpa [Spec.step, hv] using r
    · obtain ⟨p', e, hi, hr, hd⟩ := delSec_ok r.inv hs (by rw [← r.recent]; exact hk)
      unfold exec Spec.step
      rw [← r.has] at e hd
      cases hv : d.has (norm s)
      · simp only [hv, Bool.false_eq_true, if_false] at e hd ⊢
        exact ⟨p', e, hi, by rw [hd]; exact r.has, by rw [hd]; exact r.val, by rw [hr]; exact r.recent,
          by rw [hd]; exact r.names⟩
      · simp only [hv, if_true] at e hd ⊢
        refine ⟨p', e, hi, ?_, ?_, ?_, ?_⟩
        · intro n; rw [hd, hasL_delL r.inv.uniq, ← r.has]; rfl
        · intro n k'; rw [hd, valL_delL r.inv.uniq, ← r.val]; rfl
        · rw [hr]; exact r.recent
        · intro x hx
          rw [hd] at hx
          exact r.names x ((delL_sublist _ _).subset hx)

theorem execAll_rep (ops : List Op) : ∀ {p : Parser} {d : Doc}, Rep p d → Ok d ops →
    ∃ p', execAll p ops = some (p', (Spec.run d ops).2) ∧ Rep p' (Spec.run d ops).1 := by
  induction ops with
  | nil => intro p d r _; exact ⟨p, rfl, r⟩
  | cons o ops ih =>
    intro p d r h
    obtain ⟨p1, e1, r1⟩ := exec_rep r h.1 h.2.1
    obtain ⟨p2, e2, r2⟩ := ih r1 h.2.2
    refine ⟨p2, ?_, r2⟩
    rw [execAll, e1]
    simp only [Option.bind_eq_bind, Option.bind_some]
    rw [e2]
    rfl

theorem get_rep {p : Parser} {d : Doc} (r : Rep p d) (s k : List Byte) (buf : Mem) (size : Nat)
    (hb : size ≤ buf.length) :
    getString p (some s) (some k) (some buf) size =
      some (some (answer d s k buf size).1, (answer d s k buf size).2) := by
  unfold getString answer
  by_cases hs : s = []
  · simp [hs]
  · have hsl : ¬ s.length = 0 := by simpa using hs
    simp only [hsl, if_false, hs]
    rw [search_eq r.inv hs, r.has, r.val, hasL_iff, valL_eq]
    cases hf : searchList p.secs s with
    | none => simp
    | some t =>
      simp only [Option.map_some, Option.isSome_some, Bool.not_true, Bool.false_eq_true, if_false, reduceCtorEq,
        false_and, and_false, Option.bind_some]
      by_cases hk : k = []
      · simp [hk]
      · simp only [hk, if_false]
        rw [kvsAt_eq r.inv (searchList_mem hf).1]
        simp only []
        rw [← findKey_val]
        cases hkv : (findKey t.kvs k).bind fun i => t.kvs[i]? with
        | none => simp
        | some kv =>
          simp only [Option.map_some]
          by_cases h0 : size = 0
          · simp [h0]
          · simp only [h0, if_false]
            by_cases h1 : size ≤ kv.value.length
            · simp [h1]
            · simp only [h1, if_false]
              rw [Mem.store_eq_some (by simp; omega)]
              simp

theorem has_rep {p : Parser} {d : Doc} (r : Rep p d) (s : List Byte) :
    getString p (some s) none none 0 =
      some (none, if s = [] then .invalidParam else if d.has (norm s) then .succeed else .notFound) := by
  unfold getString
  by_cases hs : s = []
  · simp [hs]
  · have hsl : ¬ s.length = 0 := by simpa using hs
    simp only [hsl, if_false, hs]
    rw [search_eq r.inv hs, r.has, hasL_iff]
    cases hf : searchList p.secs s with
    | none => simp
    | some t => simp

/-! ### Failed allocations -/

theorem put_succeed_ok {p p' : Parser} {s : List Byte} {k v : Option (List Byte)} {a : Allocs}
    (h : putString p s k v a = some (p', .succeed)) : putString p s k v .ok = some (p', .succeed) := by
  unfold putString at h ⊢
  cases k with
  | none => simp at h
  | some k =>
    simp only [] at h ⊢
    by_cases h0 : k = [] ∨ s.length < 1
    · simp only [h0, if_true, Option.some.injEq, Prod.mk.injEq, reduceCtorEq, and_false] at h
    · simp only [h0, if_false] at h ⊢
      unfold searchOrAdd at h ⊢
      have fin : ∀ (q : Parser) (x : Nat), (kvsAt q x).map (fun kvs =>
          match findKey kvs k with
          | some i => (setKvs q x fun kvs => kvs.modify i fun kv => { kv with value := (v.getD []).take 255 }, Code.succeed)
          | none =>
            if (!a.kv) = true then (q, .noMemory)
            else if a.kvNode then
              (setKvs q x fun kvs => kvs ++ [{ key := k.take 63, value := (v.getD []).take 255 }], .succeed)
            else (q, .failed)) = some (p', Code.succeed) →
          (kvsAt q x).map (fun kvs =>
          match findKey kvs k with
          | some i => (setKvs q x fun kvs => kvs.modify i fun kv => { kv with value := (v.getD []).take 255 }, Code.succeed)
          | none =>
            if (!Allocs.ok.kv) = true then (q, .noMemory)
            else if Allocs.ok.kvNode then
              (setKvs q x fun kvs => kvs ++ [{ key := k.take 63, value := (v.getD []).take 255 }], .succeed)
            else (q, .failed)) = some (p', Code.succeed) := by
        intro q x
        cases kvsAt q x with
        | none => simp
        | some kvs =>
          simp only [Option.map_some]
          cases findKey kvs k with
          | some i => exact id
          | none =>
            simp only []
            cases a.kv
            · simp
            · cases a.kvNode
              · simp
              · simp [Allocs.ok]
      cases hsr : search p s with
      | none => rw [hsr] at h; simp at h
      | some r =>
        rw [hsr] at h
        simp only [Option.map_some] at h ⊢
        cases r with
        | some x => simp only [] at h ⊢; exact fin p x h
        | none =>
          simp only [] at h ⊢
          by_cases hs : s = []
          · simp [hs] at h0
          · simp only [hs, if_false] at h ⊢
            unfold addSection at h ⊢
            by_cases ha : (!a.sec) = true ∨ (!a.lst) = true ∨ (!a.node) = true
            · simp only [ha, if_true, Option.some.injEq, Prod.mk.injEq, reduceCtorEq, and_false] at h
            · simp only [ha, if_false] at h
              have hok : ¬ ((!Allocs.ok.sec) = true ∨ (!Allocs.ok.lst) = true ∨ (!Allocs.ok.node) = true) := by
                simp [Allocs.ok]
              simp only [hok, if_false]
              exact fin _ _ h

theorem put_fail {p p' : Parser} {d : Doc} (r : Rep p d) {s k : List Byte} {v : Option (List Byte)} {a : Allocs} {c : Code}
    (hsl : s.length ≤ 63)
    (h : putString p s (some k) v a = some (p', c)) (hc : c ≠ .succeed) :
    Inv p' ∧ (∀ x ∈ docOf p', x.1 ≠ []) ∧ ∀ n k', valL (docOf p') n k' = valL (docOf p) n k' := by
  unfold putString at h
  simp only [] at h
  by_cases h0 : k = [] ∨ s.length < 1
  · simp only [h0, if_true, Option.some.injEq, Prod.mk.injEq] at h
    rw [← h.1]; exact ⟨r.inv, r.names, fun _ _ => rfl⟩
  · simp only [h0, if_false] at h
    have hs : s ≠ [] := fun e => h0 (.inr (by simp [e]))
    unfold searchOrAdd at h
    rw [search_eq r.inv hs] at h
    simp only [Option.map_some] at h
    cases hf : searchList p.secs s with
    | some t =>
      rw [hf] at h
      simp only [Option.map_some] at h
      rw [kvsAt_eq r.inv (searchList_mem hf).1] at h
      simp only [Option.map_some, Option.some.injEq] at h
      cases hk : findKey t.kvs k with
      | some i => rw [hk] at h; simp at h; exact absurd h.2.symm hc
      | none =>
        rw [hk] at h
        simp only [] at h
        cases hkv : a.kv
        · simp [hkv] at h; rw [← h.1]; exact ⟨r.inv, r.names, fun _ _ => rfl⟩
        · cases hkn : a.kvNode
          · simp [hkv, hkn] at h; rw [← h.1]; exact ⟨r.inv, r.names, fun _ _ => rfl⟩
          · simp [hkv, hkn] at h; exact absurd h.2.symm hc
    | none =>
      rw [hf] at h
      simp only [Option.map_none, hs, if_false] at h
      unfold addSection at h
      by_cases ha : (!a.sec) = true ∨ (!a.lst) = true ∨ (!a.node) = true
      · simp only [ha, if_true, Option.some.injEq, Prod.mk.injEq] at h
        rw [← h.1]; exact ⟨r.inv, r.names, fun _ _ => rfl⟩
      · simp only [ha, if_false] at h
        rw [List.take_of_length_le hsl] at h
        -- the section was created, the entry was not
        have hhas : hasL (docOf p) (norm s) = false := by rw [hasL_iff, hf]; rfl
        generalize hq : Parser.mk (p.secs ++ [Sec.mk p.next s []]) (p.pred + (s.length + 6)) (some p.next)
          (p.next + 1) = q at h
        have hqs : q.secs = p.secs ++ [Sec.mk p.next s []] := by rw [← hq]
        have hmem : Sec.mk p.next s [] ∈ q.secs := by rw [hqs]; simp
        have hqd : docOf q = docOf p ++ [(s, [])] := by unfold docOf; rw [hqs]; simp
        have hqi : Inv q := by
          refine ⟨?_, ?_, ?_, ?_, ?_⟩
          · rw [hqs, List.pairwise_append]
            refine ⟨r.inv.addrs, by simp, ?_⟩
            intro a ha b hb
            simp only [List.mem_singleton] at hb
            subst hb
            have := r.inv.fresh a ha
            simp only []
            omega
          · intro x hx
            rw [hqs] at hx
            rw [← hq]
            rcases List.mem_append.mp hx with hx | hx
            · have := r.inv.fresh x hx; simp only []; omega
            · simp only [List.mem_singleton] at hx
              subst hx; simp
          · intro a ha
            rw [← hq] at ha
            cases ha
            exact ⟨_, hmem, rfl⟩
          · rw [hqd, List.pairwise_append]
            refine ⟨r.inv.uniq.secs, by simp, ?_⟩
            intro a ha b hb
            simp only [List.mem_singleton] at hb
            subst hb
            intro e
            unfold hasL at hhas
            rw [List.any_eq_false] at hhas
            exact hhas a ha (by simp [e])
          · rw [hqd]
            intro x hx
            rcases List.mem_append.mp hx with hx | hx
            · exact r.inv.uniq.keys x hx
            · simp only [List.mem_singleton] at hx
              subst hx; simp
        have hqn : ∀ x ∈ docOf q, x.1 ≠ [] := by
          rw [hqd]
          intro x hx
          rcases List.mem_append.mp hx with hx | hx
          · exact r.names x hx
          · simp only [List.mem_singleton] at hx
            subst hx; exact hs
        have hk0 := kvsAt_eq hqi hmem
        simp only [] at hk0
        rw [hk0] at h
        simp only [Option.map_some, findKey, List.findIdx?_nil] at h
        have hval : ∀ n k', valL (docOf q) n k' = valL (docOf p) n k' := by
          intro n k'
          rw [hqd]
          generalize docOf p = D
          induction D with
          | nil =>
            rw [List.nil_append, valL_cons]
            split <;> simp [valK, valL]
          | cons x D ih => rw [List.cons_append, valL_cons, valL_cons, ih]
        cases hkv : a.kv
        · simp [hkv] at h; rw [← h.1]; exact ⟨hqi, hqn, hval⟩
        · cases hkn : a.kvNode
          · simp [hkv, hkn] at h; rw [← h.1]; exact ⟨hqi, hqn, hval⟩
          · simp [hkv, hkn] at h; exact absurd h.2.symm hc

/-! ### The dangling cache -/

theorem delete_recent {p : Parser} (h : Inv p) {s : List Byte} (hs : s ≠ []) (hr : recentOf p = some (norm s)) :
    ∃ p', deleteSection p s = some (p', .succeed) ∧ cached p' = none := by
  obtain ⟨c, hc, hl, _⟩ := cached_live h
  cases c with
  | none => unfold recentOf at hr; rw [hc] at hr; simp at hr
  | some t =>
    obtain ⟨ht, hlast⟩ := hl t rfl
    have hn : norm t.name = norm s := by
      unfold recentOf at hr; rw [hc] at hr; simpa using hr
    have hf := find_name h.names ht hn.symm
    refine ⟨{ p with secs := p.secs.filter fun x => decide (x.addr ≠ t.addr) }, ?_, ?_⟩
    · unfold deleteSection
      rw [search_eq h hs, hf]; rfl
    · unfold cached
      simp only [hlast]
      have : ((p.secs.filter fun x => decide (x.addr ≠ t.addr)).find? fun x => x.addr == t.addr) = none := by
        rw [List.find?_eq_none]
        intro x hx
        rw [List.mem_filter] at hx
        simpa using hx.2
      rw [this]; rfl

theorem search_dangling {p : Parser} (h : cached p = none) {s : List Byte} (hs : s ≠ []) : search p s = none := by
  unfold search
  rw [if_neg hs, h]; rfl

end Verif.IniParser
