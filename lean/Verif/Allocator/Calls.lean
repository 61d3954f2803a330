import Verif.Allocator.Steps
namespace Verif.Allocator
open Verif.Hashmap (Ptr Cfg Map Ev Entry kv)
open Spec (Intact tinybird total Heap Block shape Fresh)

/-- The three ways an allocating call can end while the tracker is on: no memory for the block; no
memory for the record (abort); a block, whose final contents differ from the fresh ones by `upd`. -/
def Outcome (s : St) (L : List (Nat × Nat)) (size : Nat) (e : Env) (data : Option (List UInt8))
    (out : Res (St × Nat)) : Prop :=
  out = .ok (s, 0) ∨
  (¬ (e.q ≠ 0 ∧ s.recs e.q = none) ∧ out = .abort) ∨
  (e.q ≠ 0 ∧ s.recs e.q = none ∧ ∃ junk s1 f, Allocated s L e.r size e.q junk s1 ∧
    out = .ok ({ s1 with mem := f }, e.r + 8) ∧
    (∀ a, a < e.r + 8 ∨ e.r + 8 + size ≤ a → f a = s1.mem a) ∧
    (∀ d, data = some d → bytes f (e.r + 8) size = d))

theorem setMem_self (s : St) : ({ s with mem := s.mem } : St) = s := rfl

theorem resize_on {s : St} {m : Map} {L : List (Nat × Nat)} (h : Rel s m L) {n : Nat}
    (hn : n + 16 < 2 ^ 64) : resizeForCanary s n = n + 16 := by
  unfold resizeForCanary
  simp only [h.on, canarySize_eq]
  omega

theorem malloc_core {s : St} {m : Map} {L : List (Nat × Nat)} (h : Rel s m L) {n : Nat} {e : Env}
    (hn : n + 16 < 2 ^ 64) (he : e.entryOk = true) (hL : L.length < 2 ^ 59) :
    Outcome s L n e none (lcuMalloc s n e) := by
  unfold lcuMalloc
  rw [resize_on h hn]
  rcases alloc_ok h n e e.junk he hL with h1 | ⟨h1, h2, h3⟩
  · exact Or.inl (by simp [h1])
  · simp only [h1, if_neg h2]
    rcases h3 with ⟨h3, h4⟩ | ⟨h3, h4, s', h5, h6⟩
    · exact Or.inr (Or.inl ⟨h3, h4⟩)
    · exact Or.inr (Or.inr ⟨h3, h4, e.junk, s', s'.mem, h6, h5, fun _ _ => rfl, by simp⟩)

theorem calloc_core {s : St} {m : Map} {L : List (Nat × Nat)} (h : Rel s m L) {c n : Nat} {e : Env}
    (hn : c * n + 16 < 2 ^ 64) (he : e.entryOk = true) (hL : L.length < 2 ^ 59) :
    Outcome s L (c * n) e (some (List.replicate (c * n) 0)) (lcuCalloc s c n e) := by
  unfold lcuCalloc
  simp only
  rw [Nat.mod_eq_of_lt (show c * n < 2 ^ 64 by omega), resize_on h hn]
  rcases alloc_ok h (c * n) e (fun _ => 0) he hL with h1 | ⟨h1, h2, h3⟩
  · exact Or.inl (by simp [h1])
  · simp only [h1, if_neg h2]
    rcases h3 with ⟨h3, h4⟩ | ⟨h3, h4, s', h5, h6⟩
    · exact Or.inr (Or.inl ⟨h3, h4⟩)
    · refine Or.inr (Or.inr ⟨h3, h4, _, s', s'.mem, h6, h5, fun _ _ => rfl, ?_⟩)
      intro d hd
      simp only [Option.some.injEq] at hd
      subst hd
      rw [List.eq_replicate_iff]
      refine ⟨by simp, ?_⟩
      intro b hb
      obtain ⟨i, hi, rfl⟩ := List.mem_map.mp hb
      exact h6.fill i (List.mem_range.mp hi)

theorem payload_access {s s' : St} {L : List (Nat × Nat)} {r size q : Nat}
    {junk : Nat → UInt8} (a : Allocated s L r size q junk s') {i n : Nat} (h : i + n ≤ size) :
    canAccess s' (r + 8 + i) n = true :=
  canAccess_of_mem (b := (r, size + 16)) (by rw [a.raw]; simp) (by simp only; omega)
    (by simp only; omega)

theorem strdup_core {s : St} {m : Map} {L : List (Nat × Nat)} (h : Rel s m L) {str : List UInt8}
    {e : Env} (hn : str.length + 17 < 2 ^ 64) (he : e.entryOk = true) (hL : L.length < 2 ^ 59) :
    Outcome s L (str.length + 1) e (some (str ++ [0])) (lcuStrdup s str e) := by
  unfold lcuStrdup
  simp only
  rw [resize_on h (by omega)]
  rcases alloc_ok h (str.length + 1) e e.junk he hL with h1 | ⟨h1, h2, h3⟩
  · exact Or.inl (by simp [h1])
  · simp only [h1, if_neg h2]
    rcases h3 with ⟨h3, h4⟩ | ⟨h3, h4, s', h5, h6⟩
    · exact Or.inr (Or.inl ⟨h3, by
        simp only [allocatorId, h4, Res.bind]⟩)
    · have hacc := payload_access h6 (i := 0) (n := (str ++ [0]).length) (by simp)
      refine Or.inr (Or.inr ⟨h3, h4, _, s', (fun x =>
        if e.r + 8 ≤ x ∧ x < e.r + 8 + (str ++ [0]).length then (str ++ [0]).getD (x - (e.r + 8)) 0
        else s'.mem x), h6, ?_, ?_, ?_⟩)
      · simp only [allocatorId, h5, Res.bind]
        rw [if_neg (by omega), store_ok (Or.inr hacc)]
      · intro a ha
        simp only [List.length_append, List.length_singleton]
        rw [if_neg (by omega)]
      · intro d hd
        simp only [Option.some.injEq] at hd
        subst hd
        apply List.ext_getElem?
        intro i
        rw [bytes_getElem?]
        by_cases hi : i < str.length + 1
        · simp only [List.length_append, List.length_singleton]
          rw [if_pos hi, if_pos (by omega), Nat.add_sub_cancel_left, List.getD_eq_getElem?_getD,
            List.getElem?_eq_getElem (by simpa using hi)]
          rfl
        · rw [if_neg hi, List.getElem?_eq_none (by simpa using hi)]

theorem take_min (str : List UInt8) (len : Nat) :
    str.take (if len < str.length then len else str.length) = str.take len := by
  split
  · rfl
  · rw [List.take_length, List.take_of_length_le (by omega)]

theorem strndup_core {s : St} {m : Map} {L : List (Nat × Nat)} (h : Rel s m L) {str : List UInt8}
    {len : Nat} {e : Env} (hn : str.length + 17 < 2 ^ 64) (he : e.entryOk = true)
    (hL : L.length < 2 ^ 59) :
    Outcome s L ((str.take len).length + 1) e (some (str.take len ++ [0])) (lcuStrndup s str len e) := by
  unfold lcuStrndup
  simp only [take_min]
  have hsz : (if len < str.length then len else str.length) = (str.take len).length := by
    rw [List.length_take]; split <;> omega
  have hle : (str.take len).length ≤ str.length := by rw [List.length_take]; omega
  rw [hsz]
  generalize str.take len = t at *
  rw [resize_on h (by omega)]
  rcases alloc_ok h (t.length + 1) e e.junk he hL with h1 | ⟨h1, h2, h3⟩
  · exact Or.inl (by simp [h1])
  · simp only [h1, if_neg h2]
    rcases h3 with ⟨h3, h4⟩ | ⟨h3, h4, s', h5, h6⟩
    · exact Or.inr (Or.inl ⟨h3, by
        simp only [allocatorId, h4, Res.bind]⟩)
    · have hacc := payload_access h6 (i := 0) (n := t.length) (by simp)
      have hacc2 := payload_access h6 (i := t.length) (n := 1) (by simp)
      refine Or.inr (Or.inr ⟨h3, h4, _, s', (fun x =>
        if e.r + 8 + t.length ≤ x ∧ x < e.r + 8 + t.length + [(0 : UInt8)].length
        then [(0 : UInt8)].getD (x - (e.r + 8 + t.length)) 0
        else if e.r + 8 ≤ x ∧ x < e.r + 8 + t.length then t.getD (x - (e.r + 8)) 0
        else s'.mem x), h6, ?_, ?_, ?_⟩)
      · simp only [allocatorId, h5, Res.bind]
        rw [if_neg (by omega), store_ok (Or.inr hacc)]
        simp only
        rw [store_ok (Or.inr hacc2)]
      · intro a ha
        simp only [List.length_singleton]
        rw [if_neg (by omega), if_neg (by omega)]
      · intro d hd
        simp only [Option.some.injEq] at hd
        subst hd
        apply List.ext_getElem?
        intro i
        rw [bytes_getElem?]
        by_cases hi : i < t.length
        · simp only [List.length_singleton]
          rw [if_pos (by omega), if_neg (by omega), if_pos (by omega), Nat.add_sub_cancel_left,
            List.getD_eq_getElem?_getD, List.getElem?_append_left hi, List.getElem?_eq_getElem hi]
          rfl
        · by_cases hi2 : i = t.length
          · subst hi2
            simp
          · rw [if_neg (by omega), List.getElem?_eq_none (by simp; omega)]

/-! ### what an outcome means to the client -/

theorem Outcome.view {s : St} {m : Map} {L : List (Nat × Nat)} (h : Rel s m L) {size : Nat} {e : Env}
    {data : Option (List UInt8)} {out : Res (St × Nat)} (o : Outcome s L size e data out) :
    out = .ok (s, 0) ∨ (¬ (e.q ≠ 0 ∧ s.recs e.q = none) ∧ out = .abort) ∨
    (e.q ≠ 0 ∧ s.recs e.q = none ∧ ∃ s' m' bs, out = .ok (s', e.r + 8) ∧
      Rel s' m' (L ++ [(e.r + 8, e.q)]) ∧
      s'.recs = (fun x => if x = e.q then some ⟨99, e.r + 8, size, false⟩ else s.recs x) ∧
      led s' (L ++ [(e.r + 8, e.q)]) = led s L ++ [(e.r + 8, size)] ∧
      heapOf s' (L ++ [(e.r + 8, e.q)]) = heapOf s L ++ [⟨e.r + 8, bs⟩] ∧ bs.length = size ∧
      (∀ d, data = some d → bs = d) ∧
      (AllIntact s L → AllIntact s' (L ++ [(e.r + 8, e.q)])) ∧
      Fresh (heapOf s L) (e.r + 8) size ∧ canAccess s' (e.r + 8) size = true ∧
      (∀ x ∈ L, ∀ a, x.1 - 8 ≤ a → a < x.1 + sz s x.2 + 8 → s'.mem a = s.mem a) ∧
      (∀ x ∈ L, sz s' x.2 = sz s x.2) ∧ sz s' e.q = size) := by
  rcases o with o | o | ⟨h1, h2, junk, s1, f, ha, ho, hf, hd⟩
  · exact Or.inl o
  · exact Or.inr (Or.inl o)
  · refine Or.inr (Or.inr ⟨h1, h2, ?_⟩)
    obtain ⟨m', hr⟩ := ha.rel
    obtain ⟨f1, f2, f3, f4, f5, f6, f7⟩ := ha.frame h h2
    have hx : (e.r + 8, e.q) ∈ L ++ [(e.r + 8, e.q)] := by simp
    obtain ⟨p1, p2⟩ := payload_store hr hx f (by simp only [f2]; exact hf)
    refine ⟨{ s1 with mem := f }, m', bytes f (e.r + 8) size, ho, hr.setMem f, ha.recs, f4, ?_,
      by simp, hd, fun hi => p2 (f6 hi), f7, ?_, ?_, f1, f2⟩
    · rw [p1, f5, List.map_append, List.map_singleton]
      simp only [f2, if_true]
      congr 1
      rw [List.map_congr_left (g := id), List.map_id]
      intro b hb
      have := f7.2 b hb
      rw [if_neg (by omega)]
      rfl
    · exact canAccess_of_mem (b := (e.r, size + 16)) (by show _ ∈ s1.raw; rw [ha.raw]; simp)
        (by simp only; omega) (by simp only; omega)
    · intro x hx a ha1 ha2
      show f a = s.mem a
      rw [hf a, f3 x hx a ha1 ha2]
      obtain ⟨h8, hraw⟩ := h.live x hx
      have := ha.disj _ hraw
      simp only [disjB, Bool.or_eq_true, decide_eq_true_eq] at this
      omega

/-! ### free, as the client sees it -/

theorem Freed.view {s s' : St} {m : Map} {L : List (Nat × Nat)} (h : Rel s m L) {p q : Nat}
    (hp : (p, q) ∈ L) (f : Freed s L p q s') :
    led s' (L.filter fun b => b.1 != p) = (led s L).filter (fun b => b.1 != p) ∧
    heapOf s' (L.filter fun b => b.1 != p) = Spec.remove (heapOf s L) p ∧
    (AllIntact s L → AllIntact s' (L.filter fun b => b.1 != p)) := by
  have hs : ∀ x ∈ L.filter (fun b => b.1 != p), sz s' x.2 = sz s x.2 := by
    intro x hx
    obtain ⟨hx1, hx2⟩ := List.mem_filter.mp hx
    have : x.2 ≠ q := by
      intro hq
      have := map_ndv h.ndv hx1 hp hq
      rw [this] at hx2
      simp at hx2
    simp [sz, f.recs, this]
  have h1 : led s' (L.filter fun b => b.1 != p) = (led s L).filter (fun b => b.1 != p) := by
    unfold led
    rw [List.filter_map]
    apply List.map_congr_left
    intro x hx
    rw [hs x hx]
  refine ⟨h1, ?_, ?_⟩
  · unfold Spec.remove
    rw [heap_frame (s := s) (fun x hx => ⟨hs x hx, fun i _ => by rw [f.mem]⟩)]
    unfold heapOf
    rw [List.filter_map]
    rfl
  · intro ha b hb
    rw [h1] at hb
    rw [f.mem]
    exact ha b (List.mem_filter.mp hb).1

/-! ### realloc to a larger size -/

theorem realloc_move {s : St} {m : Map} {L : List (Nat × Nat)} (h : Rel s m L) {p q n : Nat} {e : Env}
    (hp : (p, q) ∈ L) (hn0 : n ≠ 0) (hn : n + 2064 < 2 ^ 64) (hgt : sz s q < n)
    (he : e.entryOk = true) (hL : L.length < 2 ^ 59) :
    lcuRealloc s p n e = .ok (s, 0) ∨
    (¬ (e.q ≠ 0 ∧ s.recs e.q = none) ∧ lcuRealloc s p n e = .abort) ∨
    (e.q ≠ 0 ∧ s.recs e.q = none ∧ ∃ s2 m' rest,
      Rel s2 m' (L ++ [(e.r + 8, e.q)]) ∧
      s2.recs = (fun x => if x = e.q then some ⟨99, e.r + 8, n + 2048, false⟩ else s.recs x) ∧
      led s2 (L ++ [(e.r + 8, e.q)]) = led s L ++ [(e.r + 8, n + 2048)] ∧
      heapOf s2 (L ++ [(e.r + 8, e.q)]) =
        heapOf s L ++ [⟨e.r + 8, bytes s.mem p (sz s q) ++ rest⟩] ∧
      sz s q + rest.length = n + 2048 ∧
      (∀ x ∈ L, Intact s2.mem (x.1, sz s x.2) ↔ Intact s.mem (x.1, sz s x.2)) ∧
      Intact s2.mem (e.r + 8, n + 2048) ∧
      Fresh (heapOf s L) (e.r + 8) (n + 2048) ∧ sz s2 q = sz s q ∧
      lcuRealloc s p n e = (lcuFree s2 p).bind fun s'' => .ok (s'', e.r + 8)) := by
  obtain ⟨hp8, hraw⟩ := h.live _ hp
  simp only at hp8 hraw
  have hp0 : p ≠ 0 := by omega
  have hmod : (n + 2048) % 2 ^ 64 = n + 2048 := Nat.mod_eq_of_lt (by omega)
  have key : lcuRealloc s p n e = (lcuMalloc s (n + 2048) e).bind fun t =>
      if t.2 = 0 then .ok (t.1, 0)
      else
        (load t.1 p (sz s q)).bind fun bs =>
        (store t.1 t.2 bs).bind fun s' =>
        (lcuFree s' p).bind fun s'' => .ok (s'', t.2) := by
    unfold lcuRealloc
    simp only [if_neg hn0, if_neg hp0, ptrSize_ok h hp]
    rw [hmod]
    show (if sz s q ≠ 0 ∧ n ≤ sz s q then _ else _) = _
    rw [if_neg (by omega)]
  have ho := malloc_core h (n := n + 2048) (by omega) he hL
  rcases ho with ho | ⟨hq, ho⟩ | ⟨hq1, hq2, junk, s1, f, ha, ho, hf, _⟩
  · refine Or.inl ?_
    rw [key, ho]; rfl
  · refine Or.inr (Or.inl ⟨hq, ?_⟩)
    rw [key, ho]; rfl
  · refine Or.inr (Or.inr ⟨hq1, hq2, ?_⟩)
    obtain ⟨m', hr⟩ := ha.rel
    obtain ⟨f1, f2, f3, f4, f5, f6, f7⟩ := ha.frame h hq2
    let s1' : St := { s1 with mem := f }
    have hfp : ∀ x ∈ L, ∀ a, x.1 - 8 ≤ a → a < x.1 + sz s x.2 + 8 → f a = s.mem a := by
      intro x hx a ha1 ha2
      rw [hf a, f3 x hx a ha1 ha2]
      obtain ⟨h8, hraw⟩ := h.live x hx
      have := ha.disj _ hraw
      simp only [disjB, Bool.or_eq_true, decide_eq_true_eq] at this
      omega
    have hload : load s1' p (sz s q) = .ok (bytes s.mem p (sz s q)) := by
      unfold load
      rw [if_pos (Or.inr (canAccess_of_mem (s := s1') (b := (p - 8, sz s q + 16))
        (by show _ ∈ s1.raw; rw [ha.raw]; exact List.mem_append_left _ hraw)
        (by simp only; omega) (by simp only; omega)))]
      exact congrArg Res.ok
        (bytes_congr (fun i hi => hfp _ hp _ (by simp only; omega) (by simp only; omega)))
    have hacc : canAccess s1' (e.r + 8) (bytes s.mem p (sz s q)).length = true :=
      canAccess_of_mem (b := (e.r, n + 2048 + 16)) (by show _ ∈ s1.raw; rw [ha.raw]; simp)
        (by simp only; omega) (by simp only [bytes_length]; omega)
    have hstore := store_ok (s := s1') (Or.inr hacc)
    simp only [bytes_length] at hstore
    let g : Nat → UInt8 := fun x => if e.r + 8 ≤ x ∧ x < e.r + 8 + sz s q then
      (bytes s.mem p (sz s q)).getD (x - (e.r + 8)) 0 else f x
    have hg : ∀ a, a < e.r + 8 ∨ e.r + 8 + (n + 2048) ≤ a → g a = s1.mem a := by
      intro a hh
      simp only [g]
      rw [if_neg (by omega)]
      exact hf a hh
    have hx : (e.r + 8, e.q) ∈ L ++ [(e.r + 8, e.q)] := by simp
    obtain ⟨p1, p2⟩ := payload_store hr hx g (by simp only [f2]; exact hg)
    have hgp : ∀ x ∈ L, ∀ a, x.1 - 8 ≤ a → a < x.1 + sz s x.2 + 8 → g a = s.mem a := by
      intro x hx a ha1 ha2
      rw [hg a, f3 x hx a ha1 ha2]
      obtain ⟨h8, hraw⟩ := h.live x hx
      have := ha.disj _ hraw
      simp only [disjB, Bool.or_eq_true, decide_eq_true_eq] at this
      omega
    refine ⟨{ s1 with mem := g }, m', (bytes g (e.r + 8) (n + 2048)).drop (sz s q), hr.setMem g,
      ha.recs, f4, ?_, ?_, ?_, ?_, f7, f1 _ hp, ?_⟩
    · have e1 : bytes s.mem p (sz s q) = (bytes g (e.r + 8) (n + 2048)).take (sz s q) := by
        apply List.ext_getElem?
        intro i
        rw [List.getElem?_take, bytes_getElem?, bytes_getElem?]
        by_cases hi : i < sz s q
        · simp only [if_pos hi, g]
          rw [if_pos (by omega), if_pos (by omega), Nat.add_sub_cancel_left,
            List.getD_eq_getElem?_getD, bytes_getElem?, if_pos hi]
          rfl
        · rw [if_neg hi, if_neg hi]
      have e2 : (heapOf s L).map (fun b => if b.ptr = e.r + 8 then
          (⟨e.r + 8, bytes g (e.r + 8) (n + 2048)⟩ : Block) else b) = heapOf s L := by
        rw [List.map_congr_left (g := id), List.map_id]
        intro b hb
        have := f7.2 b hb
        rw [if_neg (by omega)]
        rfl
      rw [p1, f5, List.map_append, List.map_singleton]
      simp only [f2, if_true]
      rw [e2, e1, List.take_append_drop]
    · simp only [List.length_drop, bytes_length]; omega
    · intro x hx
      have h8 := (h.live x hx).1
      constructor
      · exact intact_frame (fun i hi => ⟨(hgp x hx _ (by omega) (by omega)).symm,
          (hgp x hx _ (by omega) (by omega)).symm⟩)
      · exact intact_frame (fun i hi => ⟨hgp x hx _ (by omega) (by omega),
          hgp x hx _ (by omega) (by omega)⟩)
    · exact intact_frame (fun i hi => ⟨hg _ (by omega), hg _ (by omega)⟩) ha.intact
    · rw [key, ho]
      simp only [Res.bind]
      rw [if_neg (by omega)]
      have : load { s1 with mem := f } p (sz s q) = .ok (bytes s.mem p (sz s q)) := hload
      simp only [this]
      have : store { s1 with mem := f } (e.r + 8) (bytes s.mem p (sz s q)) =
        .ok { s1 with mem := g } := hstore
      simp only [this]

end Verif.Allocator
