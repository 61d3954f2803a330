import Verif.HashmapMt.Model
import Verif.Hashmap.Props
/-! # The pieces of a hash map call, run alone, are the sequential call -/
set_option simprocs false
namespace Verif.HashmapMt
open Verif.Locked
open Verif.Hashmap (Map Entry Cfg Ptr Ev hashKey calculateIndex equalKeys callocOk entryOk freeKeyEv freeValEv)

/-- The same map; the calls of `acquire` and `release` are left to the thread model. -/
def seq (c : Cfg) : Cfg := { c with lock := false }

/-- `hashmap_foreach` with a callback that sees what was visited so far. -/
def callback (cb : List (Ptr × Ptr) → Ptr → Ptr → Bool) (seen : List (Ptr × Ptr)) (k v : Ptr) : Bool × List (Ptr × Ptr) :=
  (cb seen k v, seen ++ [(k, v)])

/-- One call made alone, by the sequential model. -/
def seqStep (c : Cfg) (m : Map) : Op → Option (Map × Nat × List Ev)
  | .put k v ok1 ok2 => Hashmap.step (seq c) m (.put k v ok1 ok2)
  | .get k => Hashmap.step (seq c) m (.get k)
  | .remove k => Hashmap.step (seq c) m (.remove k)
  | .clear => Hashmap.step (seq c) m .clear
  | .each cb => (Hashmap.foreach (seq c) (callback cb) m []).map fun r => (m, 0, r.2)

theorem exec_fail {α : Type} [Inhabited α] (m : Map) : exec (fail : P α) m = none := rfl
theorem exec_rdSize (m : Map) : exec rdSize m = some (m, m.size) := rfl
theorem exec_rdCount (m : Map) : exec rdCount m = some (m, m.bucketCount) := rfl
theorem exec_chainLen (ix : Nat) (m : Map) : exec (chainLen ix) m = (m.buckets[ix]?).map fun ch => (m, ch.length) := by
  rw [chainLen, exec_tryRead]; cases m.buckets[ix]? <;> rfl
theorem exec_entryAt {ix : Nat} {m : Map} {ch : List Entry} (h : m.buckets[ix]? = some ch) (j : Nat) :
    exec (entryAt ix j) m = some (m, ch[j]?) := by
  rw [entryAt, exec_tryRead, h]; rfl
theorem exec_onChain {ix : Nat} {m : Map} {ch : List Entry} (h : m.buckets[ix]? = some ch) (f : List Entry → List Entry) :
    exec (onChain ix f) m = some ({ m with buckets := m.buckets.set ix (f ch) }, ()) := by
  rw [onChain, exec_change, h]; rfl
theorem exec_sizeUp (m : Map) : exec sizeUp m = some ({ m with size := (m.size + 1) % 2 ^ 64 }, ()) := rfl
theorem exec_sizeDown (m : Map) : exec sizeDown m = some ({ m with size := (m.size + 2 ^ 64 - 1) % 2 ^ 64 }, ()) := rfl

theorem exec_moveEntries (n ix : Nat) (m : Map) (ch : List Entry) (h : m.buckets[ix]? = some ch) (rest : List Entry) :
    ∀ (j : Nat) (nb : List (List Entry)), ch.drop j = rest →
    exec (moveEntries n ix rest.length j nb) m = (Hashmap.moveChain n rest nb).map fun nb => (m, nb) := by
  induction rest with
  | nil => intro j nb _; rfl
  | cons e es ih =>
    intro j nb hd
    have hj : ch[j]? = some e := by
      rw [← List.head?_drop, hd]; rfl
    have hd' : ch.drop (j + 1) = es := by
      rw [← List.drop_drop, hd]; rfl
    simp only [List.length_cons, moveEntries, exec_bind, exec_entryAt h, Option.bind_some, hj, Hashmap.moveChain,
      Option.bind_eq_bind]
    cases nb[calculateIndex n e.hash]? with
    | none => rfl
    | some b => simp only [Option.bind_some]; exact ih (j + 1) _ hd'

theorem exec_moveBuckets (n : Nat) (m : Map) (cnt : Nat) : ∀ (i : Nat) (nb : List (List Entry)),
    exec (moveBuckets n cnt i nb) m = (Hashmap.moveAll m.buckets n cnt i nb).map fun nb => (m, nb) := by
  induction cnt with
  | zero => intro i nb; rfl
  | succ cnt ih =>
    intro i nb
    simp only [moveBuckets, exec_bind, exec_chainLen, Hashmap.moveAll, Option.bind_eq_bind]
    cases h : m.buckets[i]? with
    | none => rfl
    | some ch =>
      simp only [Option.map_some, Option.bind_some]
      rw [exec_moveEntries n i m ch h ch 0 nb rfl]
      cases Hashmap.moveChain n ch nb with
      | none => rfl
      | some nb' => simp only [Option.map_some, Option.bind_some, ih]

theorem exec_expand (ok : Bool) (m : Map) : exec (expand ok) m = (Hashmap.expandIfNecessary m ok).map fun m => (m, ()) := by
  unfold expand Hashmap.expandIfNecessary
  simp only [exec_bind, exec_rdSize, exec_rdCount, Option.bind_some]
  by_cases h : m.size ≤ (m.bucketCount * 3 % 2 ^ 64) / 4
  · rw [if_pos h, if_pos h]; rfl
  · rw [if_neg h, if_neg h]
    cases callocOk ok (m.bucketCount * 2 % 2 ^ 64) with
    | false => rfl
    | true =>
      simp only [if_true, exec_bind, exec_moveBuckets, Option.bind_eq_bind]
      cases Hashmap.moveAll m.buckets (m.bucketCount * 2 % 2 ^ 64) m.bucketCount 0
          (List.replicate (m.bucketCount * 2 % 2 ^ 64) []) <;> rfl

theorem drop_cons {ch : List Entry} {j : Nat} {e : Entry} {es : List Entry} (hd : ch.drop j = e :: es) :
    ch[j]? = some e ∧ ch.drop (j + 1) = es ∧ ch = ch.take j ++ e :: es ∧ (ch.take j).length = j := by
  have hj : ch[j]? = some e := by rw [← List.head?_drop, hd]; rfl
  refine ⟨hj, by rw [← List.drop_drop, hd]; rfl, by rw [← hd, List.take_append_drop], ?_⟩
  have := (List.getElem?_eq_some_iff.mp hj).1
  rw [List.length_take]; omega

theorem exec_putLoop (c : Cfg) (key : Ptr) (value : Ptr) (ok1 ok2 : Bool) (ix : Nat) (m : Map) (ch : List Entry)
    (h : m.buckets[ix]? = some ch) (rest : List Entry) : ∀ (fuel j : Nat), rest.length ≤ fuel → ch.drop j = rest → j ≤ ch.length →
    exec (putLoop c key (hashKey c key) value ok1 ok2 ix fuel j) m =
      (match Hashmap.putWalk c (entryOk ok1 m.size) key (hashKey c key) value rest with
       | (_, .nomem) => some (m, 0, [])
       | (rest', .inserted) => (Hashmap.expandIfNecessary { m with
            buckets := m.buckets.set ix (ch.take j ++ rest')
            size := (m.size + 1) % 2 ^ 64 } ok2).map fun m => (m, 0, [])
       | (rest', .replaced old) => some ({ m with
            buckets := m.buckets.set ix (ch.take j ++ rest') }, old, freeValEv c old)) := by
  induction rest with
  | nil =>
    intro fuel j _ hd hj
    have hn : ch[j]? = none := by rw [← List.head?_drop, hd]; rfl
    unfold putLoop
    simp only [exec_bind, exec_entryAt h, Option.bind_some, hn, Hashmap.putWalk, insertAt, exec_rdSize]
    cases entryOk ok1 m.size with
    | false => rfl
    | true =>
      simp only [if_true, exec_bind, exec_onChain h, Option.bind_some, exec_sizeUp, exec_expand, exec_pure]
      cases Hashmap.expandIfNecessary { m with
            buckets := m.buckets.set ix (ch.take j ++ [⟨key, hashKey c key, value⟩])
            size := (m.size + 1) % 2 ^ 64 } ok2 <;> rfl
  | cons e es ih =>
    intro fuel j hf hd hj
    obtain ⟨h1, h2, h3, h4⟩ := drop_cons hd
    unfold putLoop
    simp only [exec_bind, exec_entryAt h, Option.bind_some, h1, Hashmap.putWalk]
    cases equalKeys c e.key e.hash key (hashKey c key) with
    | true =>
      simp only [if_true, exec_bind, exec_onChain h, Option.bind_some, exec_pure]
      have : ch.modify j (fun e => { e with value := value }) = ch.take j ++ { e with value := value } :: es := by
        rw [List.modify_eq_take_cons_drop (List.getElem?_eq_some_iff.mp h1).1]
        have hge : ch[j]'(List.getElem?_eq_some_iff.mp h1).1 = e := (List.getElem?_eq_some_iff.mp h1).2
        rw [hge, h2]
      rw [this]
    | false =>
      cases fuel with
      | zero => simp at hf
      | succ fuel =>
        simp only [Bool.false_eq_true, if_false]
        have ht : ch.take (j + 1) = ch.take j ++ [e] := by
          rw [List.take_add_one, h1]; rfl
        rw [ih fuel (j + 1) (by simpa using hf) h2 (by have := (List.getElem?_eq_some_iff.mp h1).1; omega), ht]
        cases Hashmap.putWalk c (entryOk ok1 m.size) key (hashKey c key) value es with
        | mk r e' => cases e' <;> simp

theorem putWalk_seq (c : Cfg) (ok : Bool) (key : Ptr) (hash : BitVec 32) (value : Ptr) (ch : List Entry) :
    Hashmap.putWalk (seq c) ok key hash value ch = Hashmap.putWalk c ok key hash value ch := by
  induction ch with
  | nil => rfl
  | cons e es ih => simp only [Hashmap.putWalk, ih]; rfl

theorem exec_put (c : Cfg) (key value : Ptr) (ok1 ok2 : Bool) (m : Map) :
    exec (put c key value ok1 ok2) m = Hashmap.put (seq c) m key value ok1 ok2 := by
  unfold put Hashmap.put
  simp only [exec_bind, exec_rdCount, Option.bind_some, exec_chainLen]
  have e1 : hashKey (seq c) key = hashKey c key := rfl
  rw [e1]
  cases h : m.buckets[calculateIndex m.bucketCount (hashKey c key)]? with
  | none => rfl
  | some ch =>
    simp only [Option.map_some, Option.bind_some]
    rw [exec_putLoop c key value ok1 ok2 _ m ch h ch ch.length 0 (Nat.le_refl _) rfl (Nat.zero_le _)]
    rw [putWalk_seq]
    cases Hashmap.putWalk c (entryOk ok1 m.size) key (hashKey c key) value ch with
    | mk r e' =>
      cases e' with
      | nomem => rfl
      | inserted =>
        simp only [List.take_zero, List.nil_append, Option.bind_eq_bind]
        cases Hashmap.expandIfNecessary { m with
            buckets := m.buckets.set (calculateIndex m.bucketCount (hashKey c key)) r
            size := (m.size + 1) % 2 ^ 64 } ok2 <;> rfl
      | replaced old => rfl

theorem exec_getLoop (c : Cfg) (key : Ptr) (ix : Nat) (m : Map) (ch : List Entry)
    (h : m.buckets[ix]? = some ch) (rest : List Entry) : ∀ (fuel j : Nat), rest.length ≤ fuel → ch.drop j = rest →
    exec (getLoop c key (hashKey c key) ix fuel j) m = some (m, Hashmap.getWalk c key (hashKey c key) rest) := by
  induction rest with
  | nil =>
    intro fuel j _ hd
    have hn : ch[j]? = none := by rw [← List.head?_drop, hd]; rfl
    unfold getLoop
    simp only [exec_bind, exec_entryAt h, Option.bind_some, hn, Hashmap.getWalk, exec_pure]
  | cons e es ih =>
    intro fuel j hf hd
    obtain ⟨h1, h2, h3, h4⟩ := drop_cons hd
    unfold getLoop
    simp only [exec_bind, exec_entryAt h, Option.bind_some, h1, Hashmap.getWalk]
    cases equalKeys c e.key e.hash key (hashKey c key) with
    | true => rfl
    | false =>
      cases fuel with
      | zero => simp at hf
      | succ fuel =>
        simp only [Bool.false_eq_true, if_false]
        exact ih fuel (j + 1) (by simpa using hf) h2

theorem getWalk_seq (c : Cfg) (key : Ptr) (hash : BitVec 32) (ch : List Entry) :
    Hashmap.getWalk (seq c) key hash ch = Hashmap.getWalk c key hash ch := by
  induction ch with
  | nil => rfl
  | cons e es ih => simp only [Hashmap.getWalk, ih]; rfl

theorem exec_get (c : Cfg) (key : Ptr) (m : Map) :
    exec (get c key) m = (Hashmap.get (seq c) m key).map fun r => (m, r.1, r.2) := by
  unfold get Hashmap.get
  simp only [exec_bind, exec_rdCount, Option.bind_some, exec_chainLen]
  have e1 : hashKey (seq c) key = hashKey c key := rfl
  rw [e1]
  cases h : m.buckets[calculateIndex m.bucketCount (hashKey c key)]? with
  | none => rfl
  | some ch =>
    simp only [Option.map_some, Option.bind_some]
    rw [exec_getLoop c key _ m ch h ch ch.length 0 (Nat.le_refl _) rfl, getWalk_seq]
    rfl

theorem exec_removeLoop (c : Cfg) (key : Ptr) (ix : Nat) (m : Map) (ch : List Entry)
    (h : m.buckets[ix]? = some ch) (rest : List Entry) : ∀ (fuel j : Nat), rest.length ≤ fuel → ch.drop j = rest →
    exec (removeLoop c key (hashKey c key) ix fuel j) m =
      (match Hashmap.removeWalk c key (hashKey c key) rest with
       | (_, none) => some (m, 0, [])
       | (rest', some e) => some ({ m with
            buckets := m.buckets.set ix (ch.take j ++ rest')
            size := (m.size + 2 ^ 64 - 1) % 2 ^ 64 }, e.value, freeKeyEv c e.key ++ freeValEv c e.value)) := by
  induction rest with
  | nil =>
    intro fuel j _ hd
    have hn : ch[j]? = none := by rw [← List.head?_drop, hd]; rfl
    unfold removeLoop
    simp only [exec_bind, exec_entryAt h, Option.bind_some, hn, Hashmap.removeWalk, exec_pure]
  | cons e es ih =>
    intro fuel j hf hd
    obtain ⟨h1, h2, h3, h4⟩ := drop_cons hd
    unfold removeLoop
    simp only [exec_bind, exec_entryAt h, Option.bind_some, h1, Hashmap.removeWalk]
    cases equalKeys c e.key e.hash key (hashKey c key) with
    | true =>
      simp only [if_true, exec_bind, exec_onChain h, Option.bind_some, exec_sizeDown, exec_pure]
      have : ch.eraseIdx j = ch.take j ++ es := by rw [List.eraseIdx_eq_take_drop_succ, h2]
      rw [this]
    | false =>
      cases fuel with
      | zero => simp at hf
      | succ fuel =>
        simp only [Bool.false_eq_true, if_false]
        have ht : ch.take (j + 1) = ch.take j ++ [e] := by
          rw [List.take_add_one, h1]; rfl
        rw [ih fuel (j + 1) (by simpa using hf) h2, ht]
        cases Hashmap.removeWalk c key (hashKey c key) es with
        | mk r e' => cases e' <;> simp

theorem removeWalk_seq (c : Cfg) (key : Ptr) (hash : BitVec 32) (ch : List Entry) :
    Hashmap.removeWalk (seq c) key hash ch = Hashmap.removeWalk c key hash ch := by
  induction ch with
  | nil => rfl
  | cons e es ih => simp only [Hashmap.removeWalk, ih]; rfl

theorem exec_remove (c : Cfg) (key : Ptr) (m : Map) : exec (remove c key) m = Hashmap.remove (seq c) m key := by
  unfold remove Hashmap.remove
  simp only [exec_bind, exec_rdCount, Option.bind_some, exec_chainLen]
  have e1 : hashKey (seq c) key = hashKey c key := rfl
  rw [e1]
  cases h : m.buckets[calculateIndex m.bucketCount (hashKey c key)]? with
  | none => rfl
  | some ch =>
    simp only [Option.map_some, Option.bind_some]
    rw [exec_removeLoop c key _ m ch h ch ch.length 0 (Nat.le_refl _) rfl, removeWalk_seq]
    cases Hashmap.removeWalk c key (hashKey c key) ch with
    | mk r e' => cases e' <;> rfl

theorem exec_sizeDown' (bs : List (List Entry)) (cnt sz : Nat) :
    exec sizeDown ⟨bs, cnt, sz⟩ = some (⟨bs, cnt, (sz + 2 ^ 64 - 1) % 2 ^ 64⟩, ()) := rfl

theorem clearChain_cons (c : Cfg) (e : Entry) (es : List Entry) (sz : Nat) : Hashmap.clearChain c (e :: es) sz =
    ((Hashmap.clearChain c es ((sz + 2 ^ 64 - 1) % 2 ^ 64)).1,
      freeKeyEv c e.key ++ freeValEv c e.value ++ (Hashmap.clearChain c es ((sz + 2 ^ 64 - 1) % 2 ^ 64)).2) := rfl

theorem exec_clearEntries (c : Cfg) (ix : Nat) (bs : List (List Entry)) (cnt : Nat) (ch : List Entry) (h : bs[ix]? = some ch) (rest : List Entry) :
    ∀ (j sz : Nat), ch.drop j = rest →
    exec (clearEntries c ix rest.length j) ⟨bs, cnt, sz⟩ =
      some (⟨bs, cnt, (Hashmap.clearChain c rest sz).1⟩, (Hashmap.clearChain c rest sz).2) := by
  induction rest with
  | nil => intro j sz _; rfl
  | cons e es ih =>
    intro j sz hd
    obtain ⟨h1, h2, h3, h4⟩ := drop_cons hd
    simp only [List.length_cons, clearEntries, exec_bind]
    rw [exec_entryAt (m := ⟨bs, cnt, sz⟩) h]
    rw [clearChain_cons, h1, Option.bind_some]
    have hk : ∀ s', exec (do
        let evs ← clearEntries c ix es.length (j + 1)
        return freeKeyEv c e.key ++ freeValEv c e.value ++ evs : P (List Ev)) ⟨bs, cnt, s'⟩ =
          some (⟨bs, cnt, (Hashmap.clearChain c es s').1⟩,
            freeKeyEv c e.key ++ freeValEv c e.value ++ (Hashmap.clearChain c es s').2) := by
      intro s'
      rw [exec_bind, ih (j + 1) s' h2]
      rfl
    refine (exec_bind sizeDown _ _).trans ?_
    rw [exec_sizeDown', Option.bind_some]
    exact hk _

theorem clearChain_seq (c : Cfg) (ch : List Entry) : ∀ sz, Hashmap.clearChain (seq c) ch sz = Hashmap.clearChain c ch sz := by
  induction ch with
  | nil => intro sz; rfl
  | cons e es ih => intro sz; simp only [Hashmap.clearChain, ih]; rfl

theorem exec_clearBuckets (c : Cfg) (cnt : Nat) : ∀ (i : Nat) (m : Map),
    exec (clearBuckets c cnt i) m = Hashmap.clearAll (seq c) cnt i m := by
  induction cnt with
  | zero => intro i m; rfl
  | succ cnt ih =>
    intro i m
    simp only [clearBuckets, exec_bind, exec_chainLen, Hashmap.clearAll, Option.bind_eq_bind]
    cases h : m.buckets[i]? with
    | none => rfl
    | some ch =>
      simp only [Option.map_some, Option.bind_some]
      obtain ⟨bs, n, sz⟩ := m
      rw [exec_clearEntries c i bs n ch h ch 0 sz rfl]
      simp only [Option.bind_some]
      rw [exec_onChain (m := ⟨bs, n, (Hashmap.clearChain c ch sz).1⟩) h]
      simp only [Option.bind_some, ih, exec_pure, clearChain_seq]

theorem exec_clear (c : Cfg) (m : Map) : exec (clear c) m = (Hashmap.clear (seq c) m).map fun r => (r.1, 0, r.2) := by
  unfold clear Hashmap.clear
  simp only [exec_bind, exec_rdCount, Option.bind_some, exec_clearBuckets, Option.bind_eq_bind]
  cases Hashmap.clearAll (seq c) m.bucketCount 0 m <;> rfl

def visited (vs : List (Ptr × Ptr)) : List Ev := vs.map fun p => .visit p.1 p.2

theorem exec_eachEntries (cb : List (Ptr × Ptr) → Ptr → Ptr → Bool) (ix : Nat) (m : Map) (ch : List Entry)
    (h : m.buckets[ix]? = some ch) (rest : List Entry) : ∀ (j : Nat) (seen : List (Ptr × Ptr)), ch.drop j = rest →
    exec (eachEntries cb ix rest.length j seen) m = some (m, (Hashmap.foreachChain (callback cb) rest seen).1) ∧
    visited (Hashmap.foreachChain (callback cb) rest seen).1 =
      visited seen ++ (Hashmap.foreachChain (callback cb) rest seen).2 := by
  induction rest with
  | nil => intro j seen _; exact ⟨rfl, by simp [Hashmap.foreachChain]⟩
  | cons e es ih =>
    intro j seen hd
    obtain ⟨h1, h2, h3, h4⟩ := drop_cons hd
    obtain ⟨i1, i2⟩ := ih (j + 1) (seen ++ [(e.key, e.value)]) h2
    have hf : Hashmap.foreachChain (callback cb) (e :: es) seen =
        if cb seen e.key e.value = false then (seen ++ [(e.key, e.value)], [.visit e.key e.value])
        else ((Hashmap.foreachChain (callback cb) es (seen ++ [(e.key, e.value)])).1,
          .visit e.key e.value :: (Hashmap.foreachChain (callback cb) es (seen ++ [(e.key, e.value)])).2) := rfl
    rw [hf]
    simp only [List.length_cons, eachEntries, exec_bind, exec_entryAt h, Option.bind_some, h1]
    by_cases hc : cb seen e.key e.value = false
    · rw [if_pos hc, if_pos hc]
      exact ⟨rfl, by simp [visited]⟩
    · rw [if_neg hc, if_neg hc]
      refine ⟨i1, ?_⟩
      show visited (Hashmap.foreachChain (callback cb) es (seen ++ [(e.key, e.value)])).1 = _
      rw [i2]
      simp [visited]

theorem exec_eachBuckets (cb : List (Ptr × Ptr) → Ptr → Ptr → Bool) (m : Map) (cnt : Nat) : ∀ (i : Nat) (seen : List (Ptr × Ptr)),
    exec (eachBuckets cb cnt i seen) m = (Hashmap.foreachAll (callback cb) m cnt i seen).map (fun r => (m, r.1)) ∧
    ∀ r, Hashmap.foreachAll (callback cb) m cnt i seen = some r → visited r.1 = visited seen ++ r.2 := by
  induction cnt with
  | zero => intro i seen; exact ⟨rfl, fun r e => by cases e; simp⟩
  | succ cnt ih =>
    intro i seen
    simp only [eachBuckets, exec_bind, exec_chainLen, Hashmap.foreachAll, Option.bind_eq_bind]
    cases h : m.buckets[i]? with
    | none => exact ⟨rfl, fun r e => by cases e⟩
    | some ch =>
      obtain ⟨h1, h2⟩ := exec_eachEntries cb i m ch h ch 0 seen rfl
      obtain ⟨i1, i2⟩ := ih (i + 1) (Hashmap.foreachChain (callback cb) ch seen).1
      simp only [Option.map_some, Option.bind_some, h1, i1]
      cases e : Hashmap.foreachAll (callback cb) m cnt (i + 1) (Hashmap.foreachChain (callback cb) ch seen).1 with
      | none => exact ⟨rfl, fun r e => by cases e⟩
      | some t =>
        refine ⟨rfl, fun r e' => ?_⟩
        simp only [Option.bind_some, Option.some.injEq] at e'
        subst e'
        simp only
        rw [i2 t e, h2, List.append_assoc]

theorem exec_each (c : Cfg) (cb : List (Ptr × Ptr) → Ptr → Ptr → Bool) (m : Map) :
    exec (each cb) m = (Hashmap.foreach (seq c) (callback cb) m []).map fun r => (m, 0, r.2) := by
  unfold each Hashmap.foreach
  obtain ⟨h1, h2⟩ := exec_eachBuckets cb m m.bucketCount 0 []
  simp only [exec_bind, exec_rdCount, Option.bind_some, h1, Option.bind_eq_bind]
  cases e : Hashmap.foreachAll (callback cb) m m.bucketCount 0 [] with
  | none => rfl
  | some t =>
    simp only [Option.map_some, Option.bind_some, exec_pure]
    have := h2 t e
    unfold visited at this
    rw [this]
    rfl

theorem exec_body (c : Cfg) (op : Op) (m : Map) : exec (body c op) m = seqStep c m op := by
  cases op with
  | put k v ok1 ok2 => exact exec_put c k v ok1 ok2 m
  | get k => exact exec_get c k m
  | remove k => exact exec_remove c k m
  | clear => exact exec_clear c m
  | each cb => exact exec_each c cb m

end Verif.HashmapMt
