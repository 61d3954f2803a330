import Verif.HashmapMt.Exec
/-! # What `size` can be while a call is in progress -/
set_option simprocs false
namespace Verif.HashmapMt
open Verif.Locked
open Verif.Hashmap (Map Entry Cfg Ptr Ev hashKey calculateIndex equalKeys callocOk entryOk freeKeyEv freeValEv)

theorem along_fail {α : Type} [Inhabited α] {Q : Map → Prop} {m : Map} (h : Q m) : Along Q (fail : P α) m :=
  ⟨h, fun _ e => by cases e⟩

theorem along_rdSize {Q : Map → Prop} {m : Map} (h : Q m) : Along Q rdSize m := along_read h
theorem along_rdCount {Q : Map → Prop} {m : Map} (h : Q m) : Along Q rdCount m := along_read h
theorem along_chainLen {Q : Map → Prop} {m : Map} (h : Q m) (ix : Nat) : Along Q (chainLen ix) m := along_tryRead h
theorem along_entryAt {Q : Map → Prop} {m : Map} (h : Q m) (ix j : Nat) : Along Q (entryAt ix j) m := along_tryRead h

theorem exec_same_read {α : Type} {g : Map → α} {m m' : Map} {a : α} (h : exec (read g) m = some (m', a)) : m' = m := by
  rw [exec_read] at h; cases h; rfl
theorem exec_same_tryRead {α : Type} [Inhabited α] {g : Map → Option α} {m m' : Map} {a : α}
    (h : exec (tryRead g) m = some (m', a)) : m' = m := by
  rw [exec_tryRead, Option.map_eq_some_iff] at h
  obtain ⟨_, _, e⟩ := h
  cases e; rfl

theorem along_onChain {Q : Map → Prop} {m : Map} (ix : Nat) (f : List Entry → List Entry) (h : Q m)
    (h2 : ∀ bs, Q { m with buckets := bs }) : Along Q (onChain ix f) m := by
  refine along_change h fun s' e => ?_
  rw [Option.map_eq_some_iff] at e
  obtain ⟨ch, _, rfl⟩ := e
  exact h2 _

theorem along_sizeUp {Q : Map → Prop} {m : Map} (h : Q m) (h2 : Q { m with size := (m.size + 1) % 2 ^ 64 }) :
    Along Q sizeUp m := by
  refine along_bind (along_rdSize h) fun m' a e => ?_
  rw [exec_rdSize] at e
  cases e
  exact along_change h fun s' e => by cases e; exact h2

theorem along_sizeDown {Q : Map → Prop} {m : Map} (h : Q m) (h2 : Q { m with size := (m.size + 2 ^ 64 - 1) % 2 ^ 64 }) :
    Along Q sizeDown m := by
  refine along_bind (along_rdSize h) fun m' a e => ?_
  rw [exec_rdSize] at e
  cases e
  exact along_change h fun s' e => by cases e; exact h2

theorem exec_along_end {α : Type} {Q : Map → Prop} {p : P α} {m m' : Map} {a : α} (h : Along Q p m) (he : exec p m = some (m', a)) :
    Q m' := by
  induction p generalizing m with
  | ret x => cases he; exact h
  | act f k ih =>
    simp only [exec, Option.bind_eq_some_iff] at he
    obtain ⟨s', e1, e2⟩ := he
    exact ih m (h.2 s' e1) e2

theorem along_moveEntries {Q : Map → Prop} {m : Map} (h : Q m) (n ix : Nat) (cnt : Nat) : ∀ (j : Nat) (nb : List (List Entry)),
    Along Q (moveEntries n ix cnt j nb) m := by
  induction cnt with
  | zero => intro j nb; exact h
  | succ cnt ih =>
    intro j nb
    refine along_bind (along_entryAt h ix j) fun m' a e => ?_
    obtain rfl := exec_same_tryRead e
    cases a with
    | none => exact h
    | some en =>
      show Along Q (match nb[calculateIndex n en.hash]? with
        | none => fail
        | some b => moveEntries n ix cnt (j + 1) (nb.set (calculateIndex n en.hash) (en :: b))) m'
      cases nb[calculateIndex n en.hash]? with
      | none => exact along_fail h
      | some b => exact ih _ _

theorem same_moveEntries (n ix : Nat) (cnt : Nat) : ∀ (j : Nat) (nb nb' : List (List Entry)) (m m' : Map),
    exec (moveEntries n ix cnt j nb) m = some (m', nb') → m' = m := by
  induction cnt with
  | zero => intro j nb nb' m m' h; cases h; rfl
  | succ cnt ih =>
    intro j nb nb' m m' h
    rw [moveEntries, exec_bind] at h
    cases e : exec (entryAt ix j) m with
    | none => rw [e] at h; cases h
    | some t =>
      obtain ⟨m1, a⟩ := t
      obtain rfl := exec_same_tryRead e
      rw [e, Option.bind_some] at h
      cases a with
      | none => cases h; rfl
      | some en =>
        change exec (match nb[calculateIndex n en.hash]? with
          | none => fail
          | some b => moveEntries n ix cnt (j + 1) (nb.set (calculateIndex n en.hash) (en :: b))) m1 = some (m', nb') at h
        cases hb : nb[calculateIndex n en.hash]? with
        | none => rw [hb] at h; cases h
        | some b => rw [hb] at h; exact ih _ _ _ _ _ h

theorem along_moveBuckets {Q : Map → Prop} {m : Map} (h : Q m) (n : Nat) (cnt : Nat) : ∀ (i : Nat) (nb : List (List Entry)),
    Along Q (moveBuckets n cnt i nb) m := by
  induction cnt with
  | zero => intro i nb; exact h
  | succ cnt ih =>
    intro i nb
    refine along_bind (along_chainLen h i) fun m' len e => ?_
    obtain rfl := exec_same_tryRead e
    refine along_bind (along_moveEntries h n i len 0 nb) fun m'' nb' e => ?_
    obtain rfl := same_moveEntries _ _ _ _ _ _ _ _ e
    exact ih _ _

/-- Growing does not touch `size`. -/
theorem along_expand {Q : Map → Prop} {m : Map} (ok : Bool) (h : ∀ bs n, Q ⟨bs, n, m.size⟩) : Along Q (expand ok) m := by
  have h0 : Q m := h m.buckets m.bucketCount
  refine along_bind (along_rdSize h0) fun m' s e => ?_
  obtain rfl := exec_same_read e
  refine along_bind (along_rdCount h0) fun m'' b e => ?_
  obtain rfl := exec_same_read e
  by_cases hs : s ≤ (b * 3 % 2 ^ 64) / 4
  · rw [if_pos hs]; exact h0
  · rw [if_neg hs]
    simp only
    cases callocOk ok (b * 2 % 2 ^ 64) with
    | false => exact h0
    | true =>
      rw [if_pos rfl]
      refine along_bind (along_moveBuckets h0 _ _ _ _) fun m1 nb e => ?_
      rw [exec_moveBuckets, Option.map_eq_some_iff] at e
      obtain ⟨_, _, e⟩ := e
      obtain ⟨rfl, rfl⟩ := Prod.mk.inj e
      refine along_bind (along_change h0 fun s' e => by cases e; exact h _ _) fun m2 _ e => ?_
      rw [exec_change] at e
      cases e
      exact along_change (h _ _) fun s' e => by cases e; exact h _ _

theorem expand_size {m m' : Map} {ok : Bool} (h : Hashmap.expandIfNecessary m ok = some m') : m'.size = m.size := by
  unfold Hashmap.expandIfNecessary at h
  split at h
  · cases h; rfl
  · simp only at h
    split at h
    · simp only [Option.bind_eq_bind, Option.bind_eq_some_iff] at h
      obtain ⟨nb, _, e⟩ := h
      cases e; rfl
    · cases h; rfl

theorem along_insertAt (key : Ptr) (hash : BitVec 32) (value : Ptr) (ok1 ok2 : Bool) (ix j : Nat) (m : Map) (ch : List Entry)
    (h : m.buckets[ix]? = some ch) (b : Nat) (m' : Map) (r : Nat × List Ev)
    (he : exec (insertAt key hash value ok1 ok2 ix j) m = some (m', r)) (hb : m'.size = b) :
    Along (fun x => x.size = m.size ∨ x.size = b) (insertAt key hash value ok1 ok2 ix j) m := by
  unfold insertAt at he ⊢
  refine along_bind (along_rdSize (Or.inl rfl)) fun m1 live e => ?_
  rw [exec_rdSize] at e
  obtain ⟨rfl, rfl⟩ := Prod.mk.inj (Option.some.inj e)
  rw [exec_bind, exec_rdSize, Option.bind_some] at he
  simp only at he
  cases hk : entryOk ok1 m.size with
  | false => rw [if_neg (by simp)]; exact Or.inl rfl
  | true =>
    rw [hk, if_pos rfl] at he
    rw [if_pos rfl]
    refine along_bind (along_onChain ix _ (Or.inl rfl) fun _ => Or.inl rfl) fun m1 _ e1 => ?_
    rw [exec_onChain h] at e1
    rw [exec_bind, exec_onChain h, Option.bind_some] at he
    obtain ⟨rfl, _⟩ := Prod.mk.inj (Option.some.inj e1)
    rw [exec_bind, exec_sizeUp, Option.bind_some, exec_bind, exec_expand] at he
    have hsz : (m.size + 1) % 2 ^ 64 = b := by
      simp only [Option.bind_eq_some_iff, Option.map_eq_some_iff] at he
      obtain ⟨a, ⟨m2, h2, rfl⟩, h3⟩ := he
      obtain ⟨rfl, _⟩ := Prod.mk.inj (Option.some.inj h3)
      rw [← hb, expand_size h2]
    refine along_bind (along_sizeUp (Or.inl rfl) (Or.inr hsz)) fun m2 _ e2 => ?_
    rw [exec_sizeUp] at e2
    obtain ⟨rfl, _⟩ := Prod.mk.inj (Option.some.inj e2)
    refine along_bind (along_expand ok2 fun _ _ => Or.inr hsz) fun m3 _ e3 => ?_
    rw [exec_expand, Option.map_eq_some_iff] at e3
    obtain ⟨m4, h4, h5⟩ := e3
    obtain ⟨rfl, _⟩ := Prod.mk.inj h5
    exact Or.inr ((expand_size h4).trans hsz)

theorem along_putLoop (c : Cfg) (key : Ptr) (hash : BitVec 32) (value : Ptr) (ok1 ok2 : Bool) (ix : Nat) (m : Map) (ch : List Entry)
    (h : m.buckets[ix]? = some ch) (b : Nat) (fuel : Nat) : ∀ (j : Nat) (m' : Map) (r : Nat × List Ev),
    exec (putLoop c key hash value ok1 ok2 ix fuel j) m = some (m', r) → m'.size = b →
    Along (fun x => x.size = m.size ∨ x.size = b) (putLoop c key hash value ok1 ok2 ix fuel j) m := by
  induction fuel with
  | zero =>
    intro j m' r he hb
    unfold putLoop at he ⊢
    refine along_bind (along_entryAt (Or.inl rfl) ix j) fun m1 a e => ?_
    rw [exec_entryAt h] at e
    obtain ⟨rfl, rfl⟩ := Prod.mk.inj (Option.some.inj e)
    rw [exec_bind, exec_entryAt h, Option.bind_some] at he
    simp only at he
    cases hc : ch[j]? with
    | none => rw [hc] at he; exact along_insertAt key hash value ok1 ok2 ix j m ch h b m' r he hb
    | some en =>
      simp only
      cases equalKeys c en.key en.hash key hash with
      | true =>
        rw [if_pos rfl]
        refine along_bind (along_onChain ix _ (Or.inl rfl) fun _ => Or.inl rfl) fun m1 _ e1 => ?_
        rw [exec_onChain h] at e1
        obtain ⟨rfl, _⟩ := Prod.mk.inj (Option.some.inj e1)
        exact Or.inl rfl
      | false => rw [if_neg (by simp)]; exact along_fail (Or.inl rfl)
  | succ fuel ih =>
    intro j m' r he hb
    unfold putLoop at he ⊢
    refine along_bind (along_entryAt (Or.inl rfl) ix j) fun m1 a e => ?_
    rw [exec_entryAt h] at e
    obtain ⟨rfl, rfl⟩ := Prod.mk.inj (Option.some.inj e)
    rw [exec_bind, exec_entryAt h, Option.bind_some] at he
    simp only at he
    cases hc : ch[j]? with
    | none => rw [hc] at he; exact along_insertAt key hash value ok1 ok2 ix j m ch h b m' r he hb
    | some en =>
      rw [hc] at he
      simp only at he ⊢
      cases hk : equalKeys c en.key en.hash key hash with
      | true =>
        rw [if_pos rfl]
        refine along_bind (along_onChain ix _ (Or.inl rfl) fun _ => Or.inl rfl) fun m1 _ e1 => ?_
        rw [exec_onChain h] at e1
        obtain ⟨rfl, _⟩ := Prod.mk.inj (Option.some.inj e1)
        exact Or.inl rfl
      | false =>
        rw [hk, if_neg (by simp)] at he
        rw [if_neg (by simp)]
        exact ih (j + 1) m' r he hb

theorem along_put (c : Cfg) (key value : Ptr) (ok1 ok2 : Bool) (m m' : Map) (r : Nat × List Ev)
    (he : exec (put c key value ok1 ok2) m = some (m', r)) :
    Along (fun x => x.size = m.size ∨ x.size = m'.size) (put c key value ok1 ok2) m := by
  unfold put at he ⊢
  refine along_bind (along_rdCount (Or.inl rfl)) fun m1 b e => ?_
  rw [exec_rdCount] at e
  obtain ⟨rfl, rfl⟩ := Prod.mk.inj (Option.some.inj e)
  rw [exec_bind, exec_rdCount, Option.bind_some] at he
  simp only at he ⊢
  refine along_bind (along_chainLen (Or.inl rfl) _) fun m1 len e => ?_
  rw [exec_bind, e, Option.bind_some] at he
  rw [exec_chainLen, Option.map_eq_some_iff] at e
  obtain ⟨ch, hc, e⟩ := e
  obtain ⟨rfl, rfl⟩ := Prod.mk.inj e
  exact along_putLoop c key _ value ok1 ok2 _ m ch hc m'.size _ 0 m' r he rfl

theorem along_getLoop (c : Cfg) (key : Ptr) (hash : BitVec 32) (ix : Nat) (m : Map) (fuel : Nat) : ∀ j,
    Along (· = m) (getLoop c key hash ix fuel j) m := by
  induction fuel with
  | zero =>
    intro j
    unfold getLoop
    refine along_bind (along_entryAt (Q := (· = m)) rfl ix j) fun m1 a e => ?_
    obtain rfl := exec_same_tryRead e
    cases a with
    | none => exact rfl
    | some en =>
      simp only
      cases equalKeys c en.key en.hash key hash with
      | true => rw [if_pos rfl]; exact rfl
      | false => rw [if_neg (by simp)]; exact along_fail rfl
  | succ fuel ih =>
    intro j
    unfold getLoop
    refine along_bind (along_entryAt (Q := (· = m)) rfl ix j) fun m1 a e => ?_
    obtain rfl := exec_same_tryRead e
    cases a with
    | none => exact rfl
    | some en =>
      simp only
      cases equalKeys c en.key en.hash key hash with
      | true => rw [if_pos rfl]; exact rfl
      | false => rw [if_neg (by simp)]; exact ih _

/-- `Along (· = m)` programs leave the state alone. -/
theorem Along.exec_same {α : Type} {p : P α} {m m' : Map} {a : α} (h : Along (· = m) p m) (he : exec p m = some (m', a)) : m' = m := by
  have key : ∀ (p : P α) (s : Map), Along (· = m) p s → exec p s = some (m', a) → m' = m := by
    intro p
    induction p with
    | ret x => intro s h1 h2; cases h2; exact h1
    | act f k ih =>
      intro s h1 h2
      simp only [exec, Option.bind_eq_some_iff] at h2
      obtain ⟨s', e1, e2⟩ := h2
      exact ih s s' (h1.2 s' e1) e2
  exact key p m h he

theorem along_get (c : Cfg) (key : Ptr) (m : Map) : Along (· = m) (get c key) m := by
  unfold get
  refine along_bind (along_rdCount rfl) fun m1 b e => ?_
  obtain rfl := exec_same_read e
  refine along_bind (along_chainLen (Q := (· = m1)) rfl _) fun m2 len e => ?_
  obtain rfl := exec_same_tryRead e
  refine along_bind (along_getLoop c key _ _ m2 len 0) fun m3 v e => ?_
  obtain rfl := Along.exec_same (along_getLoop c key _ _ m2 len 0) e
  exact rfl

theorem along_eachEntries (cb : List (Ptr × Ptr) → Ptr → Ptr → Bool) (ix : Nat) (m : Map) (cnt : Nat) : ∀ j seen,
    Along (· = m) (eachEntries cb ix cnt j seen) m := by
  induction cnt with
  | zero => intro j seen; exact rfl
  | succ cnt ih =>
    intro j seen
    unfold eachEntries
    refine along_bind (along_entryAt (Q := (· = m)) rfl ix j) fun m1 a e => ?_
    obtain rfl := exec_same_tryRead e
    cases a with
    | none => exact rfl
    | some en =>
      simp only
      by_cases hc : cb seen en.key en.value = false
      · rw [if_pos hc]; exact rfl
      · rw [if_neg hc]; exact ih _ _

theorem along_eachBuckets (cb : List (Ptr × Ptr) → Ptr → Ptr → Bool) (m : Map) (cnt : Nat) : ∀ i seen,
    Along (· = m) (eachBuckets cb cnt i seen) m := by
  induction cnt with
  | zero => intro j seen; exact rfl
  | succ cnt ih =>
    intro i seen
    unfold eachBuckets
    refine along_bind (along_chainLen (Q := (· = m)) rfl i) fun m1 a e => ?_
    obtain rfl := exec_same_tryRead e
    refine along_bind (along_eachEntries cb i m1 a 0 seen) fun m2 v e => ?_
    obtain rfl := Along.exec_same (along_eachEntries cb i m1 a 0 seen) e
    exact ih _ _

theorem along_each (cb : List (Ptr × Ptr) → Ptr → Ptr → Bool) (m : Map) : Along (· = m) (each cb) m := by
  unfold each
  refine along_bind (along_rdCount rfl) fun m1 b e => ?_
  obtain rfl := exec_same_read e
  refine along_bind (along_eachBuckets cb m1 b 0 []) fun m3 v e => ?_
  obtain rfl := Along.exec_same (along_eachBuckets cb m1 b 0 []) e
  exact rfl

theorem along_removeLoop (c : Cfg) (key : Ptr) (hash : BitVec 32) (ix : Nat) (m : Map) (ch : List Entry)
    (h : m.buckets[ix]? = some ch) (b : Nat) (fuel : Nat) : ∀ (j : Nat) (m' : Map) (r : Nat × List Ev),
    exec (removeLoop c key hash ix fuel j) m = some (m', r) → m'.size = b →
    Along (fun x => x.size = m.size ∨ x.size = b) (removeLoop c key hash ix fuel j) m := by
  have found : ∀ (en : Entry) (j : Nat) (m' : Map) (r : Nat × List Ev),
      exec (do
        onChain ix fun ch => ch.eraseIdx j
        sizeDown
        return (en.value, freeKeyEv c en.key ++ freeValEv c en.value) : P (Nat × List Ev)) m = some (m', r) → m'.size = b →
      Along (fun x => x.size = m.size ∨ x.size = b) (do
        onChain ix fun ch => ch.eraseIdx j
        sizeDown
        return (en.value, freeKeyEv c en.key ++ freeValEv c en.value) : P (Nat × List Ev)) m := by
    intro en j m' r he hb
    refine along_bind (along_onChain ix _ (Or.inl rfl) fun _ => Or.inl rfl) fun m1 _ e1 => ?_
    rw [exec_onChain h] at e1
    rw [exec_bind, exec_onChain h, Option.bind_some] at he
    obtain ⟨rfl, _⟩ := Prod.mk.inj (Option.some.inj e1)
    rw [exec_bind, exec_sizeDown, Option.bind_some, exec_pure] at he
    obtain ⟨rfl, _⟩ := Prod.mk.inj (Option.some.inj he)
    refine along_bind (along_sizeDown (Or.inl rfl) (Or.inr hb)) fun m2 _ e2 => ?_
    rw [exec_sizeDown] at e2
    obtain ⟨rfl, _⟩ := Prod.mk.inj (Option.some.inj e2)
    exact Or.inr hb
  induction fuel with
  | zero =>
    intro j m' r he hb
    unfold removeLoop at he ⊢
    refine along_bind (along_entryAt (Or.inl rfl) ix j) fun m1 a e => ?_
    rw [exec_entryAt h] at e
    obtain ⟨rfl, rfl⟩ := Prod.mk.inj (Option.some.inj e)
    rw [exec_bind, exec_entryAt h, Option.bind_some] at he
    simp only at he
    cases hc : ch[j]? with
    | none => exact Or.inl rfl
    | some en =>
      rw [hc] at he
      simp only at he ⊢
      cases hk : equalKeys c en.key en.hash key hash with
      | true => rw [hk, if_pos rfl] at he; rw [if_pos rfl]; exact found en j m' r he hb
      | false => rw [if_neg (by simp)]; exact along_fail (Or.inl rfl)
  | succ fuel ih =>
    intro j m' r he hb
    unfold removeLoop at he ⊢
    refine along_bind (along_entryAt (Or.inl rfl) ix j) fun m1 a e => ?_
    rw [exec_entryAt h] at e
    obtain ⟨rfl, rfl⟩ := Prod.mk.inj (Option.some.inj e)
    rw [exec_bind, exec_entryAt h, Option.bind_some] at he
    simp only at he
    cases hc : ch[j]? with
    | none => exact Or.inl rfl
    | some en =>
      rw [hc] at he
      simp only at he ⊢
      cases hk : equalKeys c en.key en.hash key hash with
      | true => rw [hk, if_pos rfl] at he; rw [if_pos rfl]; exact found en j m' r he hb
      | false =>
        rw [hk, if_neg (by simp)] at he
        rw [if_neg (by simp)]
        exact ih (j + 1) m' r he hb

theorem along_remove (c : Cfg) (key : Ptr) (m m' : Map) (r : Nat × List Ev)
    (he : exec (remove c key) m = some (m', r)) :
    Along (fun x => x.size = m.size ∨ x.size = m'.size) (remove c key) m := by
  unfold remove at he ⊢
  refine along_bind (along_rdCount (Or.inl rfl)) fun m1 b e => ?_
  rw [exec_rdCount] at e
  obtain ⟨rfl, rfl⟩ := Prod.mk.inj (Option.some.inj e)
  rw [exec_bind, exec_rdCount, Option.bind_some] at he
  simp only at he ⊢
  refine along_bind (along_chainLen (Or.inl rfl) _) fun m1 len e => ?_
  rw [exec_bind, e, Option.bind_some] at he
  rw [exec_chainLen, Option.map_eq_some_iff] at e
  obtain ⟨ch, hc, e⟩ := e
  obtain ⟨rfl, rfl⟩ := Prod.mk.inj e
  exact along_removeLoop c key _ _ m ch hc m'.size _ 0 m' r he rfl

theorem dec_pos {sz : Nat} (h : 0 < sz) (h2 : sz ≤ 2 ^ 59) : (sz + 2 ^ 64 - 1) % 2 ^ 64 = sz - 1 := by
  rw [show sz + 2 ^ 64 - 1 = (sz - 1) + 2 ^ 64 by omega, Nat.add_mod_right, Nat.mod_eq_of_lt (by omega)]

theorem along_clearEntries (c : Cfg) (ix : Nat) (bs : List (List Entry)) (n : Nat) (ch : List Entry) (h : bs[ix]? = some ch) (top : Nat)
    (htop : top ≤ 2 ^ 59) (cnt : Nat) : ∀ (j sz : Nat), cnt ≤ sz → sz ≤ top →
    Along (fun x => x.size ≤ top) (clearEntries c ix cnt j) ⟨bs, n, sz⟩ := by
  induction cnt with
  | zero => intro j sz _ h2; exact h2
  | succ cnt ih =>
    intro j sz h1 h2
    unfold clearEntries
    refine along_bind (along_entryAt (Q := fun x => x.size ≤ top) (m := ⟨bs, n, sz⟩) h2 ix j) fun m1 a e => ?_
    obtain rfl := exec_same_tryRead e
    cases a with
    | none => exact h2
    | some en =>
      have hd : (sz + 2 ^ 64 - 1) % 2 ^ 64 = sz - 1 := dec_pos (by omega) (by omega)
      have hd' : sz - 1 ≤ top := by omega
      refine along_bind (along_sizeDown (Q := fun x => x.size ≤ top) (m := ⟨bs, n, sz⟩) h2 ?_) fun m2 _ e2 => ?_
      · show (sz + 2 ^ 64 - 1) % 2 ^ 64 ≤ top
        rw [hd]; exact hd'
      · rw [exec_sizeDown', hd] at e2
        obtain ⟨rfl, _⟩ := Prod.mk.inj (Option.some.inj e2)
        refine along_bind (ih (j + 1) (sz - 1) (by omega) hd') fun m3 evs e3 => ?_
        exact along_pure (exec_along_end (ih (j + 1) (sz - 1) (by omega) hd') e3)

theorem along_clearBuckets (c : Cfg) (top : Nat) (htop : top ≤ 2 ^ 59) (cnt : Nat) : ∀ (i : Nat) (m : Map), i + cnt = m.buckets.length →
    m.size = (m.buckets.drop i).flatten.length → m.size ≤ top →
    Along (fun x => x.size ≤ top) (clearBuckets c cnt i) m := by
  induction cnt with
  | zero => intro i m _ _ h; exact h
  | succ cnt ih =>
    intro i m h1 h2 h3
    have hi : i < m.buckets.length := by omega
    have hb := List.getElem?_eq_getElem hi
    rw [List.drop_eq_getElem_cons hi, List.flatten_cons, List.length_append] at h2
    unfold clearBuckets
    refine along_bind (along_chainLen (Q := fun x => x.size ≤ top) h3 i) fun m1 len e => ?_
    rw [exec_chainLen, hb] at e
    obtain ⟨rfl, rfl⟩ := Prod.mk.inj (Option.some.inj e)
    obtain ⟨bs, n, sz⟩ := m
    have hA := along_clearEntries c i bs n _ hb top htop (bs[i]'hi).length 0 sz (by simp only at h2; omega) h3
    have hE := exec_clearEntries c i bs n _ hb _ 0 sz (List.drop_zero (l := bs[i]'hi))
    rw [Hashmap.clearChain_eq c _ sz (by simp only at h2; omega) (by simp only at h3; omega)] at hE
    refine along_bind hA fun m1 evs e => ?_
    rw [show exec (clearEntries c i (bs[i]'hi).length 0) ⟨bs, n, sz⟩ = _ from hE] at e
    obtain ⟨rfl, rfl⟩ := Prod.mk.inj (Option.some.inj e)
    have hs : sz - (bs[i]'hi).length ≤ top := by simp only at h3; omega
    refine along_bind (along_onChain (Q := fun x => x.size ≤ top) i _ hs fun _ => hs) fun m2 _ e2 => ?_
    rw [exec_onChain (m := ⟨bs, n, sz - (bs[i]'hi).length⟩) hb] at e2
    obtain ⟨rfl, _⟩ := Prod.mk.inj (Option.some.inj e2)
    have hrec := ih (i + 1) ⟨bs.set i [], n, sz - (bs[i]'hi).length⟩ (by simp only [List.length_set] at h1 ⊢; omega)
      (by simp only [List.drop_set_of_lt (show i < i + 1 by omega)]; simp only at h2; omega) hs
    refine along_bind hrec fun m3 rest e3 => ?_
    exact along_pure (exec_along_end hrec e3)

theorem along_clear (c : Cfg) (m : Map) (L : Hashmap.Spec.FMap) (r : Hashmap.R c m L) : Along (fun x => x.size ≤ m.size) (clear c) m := by
  unfold clear
  refine along_bind (along_rdCount (Q := fun x => x.size ≤ m.size) (Nat.le_refl _)) fun m1 b e => ?_
  rw [exec_rdCount] at e
  obtain ⟨rfl, rfl⟩ := Prod.mk.inj (Option.some.inj e)
  have h := along_clearBuckets c m.size r.inv.bound m.bucketCount 0 m (by rw [r.inv.len]; omega) (by simpa using r.inv.size) (Nat.le_refl _)
  refine along_bind h fun m3 evs e3 => ?_
  exact along_pure (exec_along_end h e3)

end Verif.HashmapMt
