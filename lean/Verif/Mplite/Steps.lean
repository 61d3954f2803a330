import Verif.Mplite.Hist
/-!
# mplite: every legal call keeps the invariant
-/
namespace Verif.Mplite

theorem isPow2_iff (n : Int) : isPow2 n = true ↔ PowTwo n := by
  unfold isPow2 PowTwo
  rw [Bool.and_eq_true, decide_eq_true_eq, decide_eq_true_eq]
  constructor
  · rintro ⟨h1, h2⟩
    refine ⟨h1, ?_⟩
    obtain ⟨k, hk⟩ := (Nat.and_sub_one_eq_zero_iff_isPowerOfTwo (by omega)).mp h2
    rw [hk, Nat.log2_two_pow]
  · rintro ⟨h1, h2⟩
    exact ⟨h1, (Nat.and_sub_one_eq_zero_iff_isPowerOfTwo (by omega)).mpr ⟨_, h2⟩⟩

theorem RInv.mallocUnsafe {bufSize minAlloc : Nat} {s : St} {L : Ledger} (h : RInv bufSize minAlloc s L) (n : Int) :
    ∃ s' r, mallocUnsafe s n = some (s', r) ∧
      RInv bufSize minAlloc s' (L.asked (atomOf minAlloc) n r (fun _ => none)) ∧ (¬ Acceptable n → r = none) := by
  by_cases ha : Acceptable n
  · obtain ⟨h1, h2⟩ := ha
    obtain ⟨k, rfl⟩ : ∃ k : Nat, n = k := ⟨n.toNat, by omega⟩
    obtain ⟨fr, hinv⟩ := h.inv
    obtain ⟨l, m1, m2, m3, m4⟩ := mallocUnsafe_spec hinv (by have := h.szSmall; omega) (n := k) (by omega) (by omega)
    have hasked : ∀ r, L.asked (atomOf minAlloc) (k : Int) r (fun _ => none) =
        (match r with
         | none => L.request k
         | some p => (L.request k).add (atomOf minAlloc) p k (fun _ => none)) := by
      intro r
      unfold Ledger.asked
      rw [if_pos ⟨h1, h2⟩, Int.toNat_natCast]
      cases r <;> rfl
    rcases m4 with ⟨s', fr', i, e1, e2, e3, e4⟩ | ⟨e1, _⟩
    · refine ⟨_, _, e1, ?_, fun hc => absurd ⟨h1, h2⟩ hc⟩
      rw [hasked]
      exact h.alloc (by omega) m1 m2 e2 e3 e4
    · refine ⟨_, _, e1, ?_, fun hc => absurd ⟨h1, h2⟩ hc⟩
      rw [hasked]
      exact h.request k
  · refine ⟨s, none, ?_, ?_, fun _ => rfl⟩
    · unfold Verif.Mplite.mallocUnsafe
      unfold Acceptable at ha
      rw [if_pos (by unfold MAXALLOC; omega)]
    · unfold Ledger.asked
      rw [if_neg ha]; exact h

theorem malloc_eq (s : St) (n : Int) : malloc s n = mallocUnsafe s n := by
  unfold malloc
  split
  · rename_i h
    unfold mallocUnsafe
    rw [if_pos (Or.inl h)]
  · rfl

/-- Facts about one held block. -/
theorem RInv.bounds {bufSize minAlloc : Nat} {s : St} {L : Ledger} (h : RInv bufSize minAlloc s L) {b : Blk}
    (hb : b ∈ L.live) : b.off + b.size ≤ s.nBlock * s.szAtom ∧ b.size ∣ b.off ∧
      (∃ k, k ≤ 30 ∧ b.size = s.szAtom * 2 ^ k) := by
  obtain ⟨fr, hinv⟩ := h.inv
  have g := h.good b hb
  have ho : NF fr (L.live.map (toOut s.szAtom)) (toOut s.szAtom b).1 (toOut s.szAtom b).2 :=
    Or.inr (List.mem_map.mpr ⟨b, hb, rfl⟩)
  obtain ⟨a1, a2⟩ := hinv.core.til.align _ _ ho
  refine ⟨?_, ?_, _, hinv.core.til.log ho, by rw [g.size, Nat.mul_comm]⟩
  · rw [g.end]; exact Nat.mul_le_mul_right _ a2
  · rw [g.off, g.size]; exact Nat.mul_dvd_mul_right a1 _

theorem RInv.calloc {bufSize minAlloc : Nat} {s : St} {L : Ledger} (h : RInv bufSize minAlloc s L) (n : Int) :
    ∃ s' r, calloc s n = some (s', r) ∧ RInv bufSize minAlloc s' (L.after (atomOf minAlloc) (.calloc n) r) := by
  obtain ⟨s1, r, e1, e2, e3⟩ := h.mallocUnsafe n
  unfold Verif.Mplite.calloc
  rw [malloc_eq, e1]
  cases r with
  | none =>
    refine ⟨s1, none, rfl, ?_⟩
    show RInv _ _ _ (L.asked (atomOf minAlloc) n none (fun j => if j < n.toNat then some 0 else none))
    unfold Ledger.asked at e2 ⊢
    exact e2
  | some p =>
    have ha : Acceptable n := Classical.byContradiction fun hc => by simpa using e3 hc
    unfold Ledger.asked at e2
    rw [if_pos ha] at e2
    simp only at e2
    have hb := e2.bounds (b := ⟨p, n.toNat, fit (atomOf minAlloc) n.toNat, fun _ => none⟩) (by simp [Ledger.add])
    have hg := e2.good ⟨p, n.toNat, fit (atomOf minAlloc) n.toNat, fun _ => none⟩ (by simp [Ledger.add])
    have hreq := hg.req
    simp only at hb hreq
    obtain ⟨fr, hinv⟩ := e2.inv
    have hd := held_disjoint hinv e2.good
    simp only [Ledger.add, Ledger.request, List.pairwise_cons] at hd
    simp only
    unfold memset0
    rw [if_pos (by omega), Option.map_some]
    refine ⟨_, some p, rfl, ?_⟩
    show RInv _ _ _ (L.asked (atomOf minAlloc) n (some p) (fun j => if j < n.toNat then some 0 else none))
    unfold Ledger.asked
    rw [if_pos ha]
    simp only
    refine e2.rewrite (fun x => if p ≤ x ∧ x < p + n.toNat then 0 else s1.mem x)
      (⟨p, n.toNat, fit (atomOf minAlloc) n.toNat, fun j => if j < n.toNat then some 0 else none⟩ :: L.live) rfl ?_ ?_
    · intro x hx
      refine ⟨⟨p, n.toNat, fit (atomOf minAlloc) n.toNat, fun _ => none⟩, by simp [Ledger.add], ?_⟩
      by_cases hc : p ≤ x ∧ x < p + n.toNat
      · exact ⟨hc.1, by simp only; omega⟩
      · simp [hc] at hx
    · intro b hb'
      rw [List.mem_cons] at hb'
      rcases hb' with rfl | hb'
      · refine ⟨hreq, hg.pos, ?_⟩
        intro j v hj
        simp only at hj
        by_cases hjn : j < n.toNat
        · rw [if_pos hjn] at hj
          simp only
          rw [if_pos ⟨by omega, by omega⟩]
          exact ⟨by omega, by simpa using hj⟩
        · rw [if_neg hjn] at hj; simp at hj
      · have g := e2.good b (by simp [Ledger.add, Ledger.request, hb'])
        refine ⟨g.req, g.pos, ?_⟩
        intro j v hj
        obtain ⟨g1, g2⟩ := g.data j v hj
        refine ⟨g1, ?_⟩
        have := hd.1 b hb'
        rw [if_neg (by omega)]
        exact g2

theorem RInv.store {bufSize minAlloc : Nat} {s : St} {L : Ledger} (h : RInv bufSize minAlloc s L) {b : Blk}
    (hb : b ∈ L.live) {j : Nat} (hj : j < b.size) (v : Byte) :
    RInv bufSize minAlloc (write s (b.off + j) v) (L.after (atomOf minAlloc) (.store b.off j v) none) := by
  obtain ⟨fr, hinv⟩ := h.inv
  have hd := held_disjoint hinv h.good
  have key : ∀ c ∈ L.live, c.off ≠ b.off → c.off + c.size ≤ b.off ∨ b.off + b.size ≤ c.off := by
    intro c hc hne
    rw [List.pairwise_iff_forall_sublist] at hd
    obtain ⟨i, hi⟩ := List.getElem_of_mem hc
    obtain ⟨k, hk⟩ := List.getElem_of_mem hb
    obtain ⟨hi1, hi2⟩ := hi
    obtain ⟨hk1, hk2⟩ := hk
    rw [← List.pairwise_iff_forall_sublist, List.pairwise_iff_getElem] at hd
    rcases Nat.lt_trichotomy i k with hlt | heq | hgt
    · have := hd i k hi1 hk1 hlt
      rw [hi2, hk2] at this; exact this
    · subst heq
      exact absurd (by rw [← hi2, ← hk2]) hne
    · have := hd k i hk1 hi1 hgt
      rw [hi2, hk2] at this; exact this.symm
  have key2 : ∀ c ∈ L.live, c.off = b.off → c.size = b.size := by
    intro c hc he
    have gc := h.good c hc
    have gb := h.good b hb
    have n1 : NF fr (L.live.map (toOut s.szAtom)) (toOut s.szAtom c).1 (toOut s.szAtom c).2 :=
      Or.inr (List.mem_map.mpr ⟨c, hc, rfl⟩)
    have n2 : NF fr (L.live.map (toOut s.szAtom)) (toOut s.szAtom b).1 (toOut s.szAtom b).2 :=
      Or.inr (List.mem_map.mpr ⟨b, hb, rfl⟩)
    have e1 : (toOut s.szAtom c).1 = (toOut s.szAtom b).1 := by unfold toOut; simp only; rw [he]
    have p1 : 0 < 2 ^ (toOut s.szAtom c).2 := Nat.pow_pos (by decide)
    have p2 : 0 < 2 ^ (toOut s.szAtom b).2 := Nat.pow_pos (by decide)
    have := (hinv.core.til.disj _ _ _ _ n1 n2 (by omega) (by omega)).2
    rw [gc.size, gb.size, this]
  show RInv _ _ { s with mem := _ } (L.modify b.off _)
  unfold Ledger.modify
  refine h.rewrite _ _ ?_ ?_ ?_
  · rw [List.map_map]
    apply List.map_congr_left
    intro c _
    simp only [Function.comp]
    split <;> rfl
  · intro x hx
    refine ⟨b, hb, ?_⟩
    by_cases hc : x = b.off + j
    · omega
    · simp [hc] at hx
  · intro c hc
    obtain ⟨c', hc', rfl⟩ := List.mem_map.mp hc
    have g := h.good c' hc'
    by_cases he : c'.off = b.off
    · rw [if_pos he]
      refine ⟨g.req, g.pos, ?_⟩
      intro k w hk
      simp only at hk ⊢
      by_cases hkj : k = j
      · subst hkj
        rw [if_pos rfl] at hk
        rw [if_pos (by omega), key2 c' hc' he]
        exact ⟨hj, by simpa using hk⟩
      · rw [if_neg hkj] at hk
        obtain ⟨g1, g2⟩ := g.data k w hk
        exact ⟨g1, by rw [if_neg (by omega)]; exact g2⟩
    · rw [if_neg he]
      refine ⟨g.req, g.pos, ?_⟩
      intro k w hk
      obtain ⟨g1, g2⟩ := g.data k w hk
      have := key c' hc' he
      exact ⟨g1, by rw [if_neg (by omega)]; exact g2⟩

theorem RInv.size {bufSize minAlloc : Nat} {s : St} {L : Ledger} (h : RInv bufSize minAlloc s L) {b : Blk}
    (hb : b ∈ L.live) : size s b.off = some b.size := by
  obtain ⟨fr, hinv⟩ := h.inv
  have g := h.good b hb
  have ho : toOut s.szAtom b ∈ L.live.map (toOut s.szAtom) := List.mem_map.mpr ⟨b, hb, rfl⟩
  have hn : NF fr (L.live.map (toOut s.szAtom)) (toOut s.szAtom b).1 (toOut s.szAtom b).2 := Or.inr ho
  have hlt := hinv.core.til.lt hn
  have hl := hinv.core.til.log hn
  have hc := hinv.ctrlO _ ho
  have hs := g.size
  have e1 : b.off / s.szAtom = (toOut s.szAtom b).1 := rfl
  unfold Verif.Mplite.size
  rw [e1, if_pos hlt, getCtrl_eq hinv.core.geo hlt, hc, Option.map_some, (ofNat_log _ hl).1, Nat.mul_comm, ← hs]

theorem RInv.realloc {bufSize minAlloc : Nat} {s : St} {L : Ledger} (h : RInv bufSize minAlloc s L) {p : Nat}
    (hb : ∃ b ∈ L.live, b.off = p) (n : Int) :
    ∃ s' r, realloc s p n = some (s', r) ∧ RInv bufSize minAlloc s' (L.after (atomOf minAlloc) (.realloc p n) r) := by
  have hf : ∃ b, L.live.find? (fun b => decide (b.off = p)) = some b := by
    cases he : L.live.find? (fun b => decide (b.off = p)) with
    | none =>
      obtain ⟨b, hb, e⟩ := hb
      rw [List.find?_eq_none] at he
      exact absurd (by simpa using e) (he b hb)
    | some b => exact ⟨b, rfl⟩
  obtain ⟨b, hf⟩ := hf
  have hb : b ∈ L.live := List.mem_of_find?_eq_some hf
  have hoff : b.off = p := by simpa using List.find?_some hf
  unfold Verif.Mplite.realloc Ledger.after
  simp only
  rw [hf]
  simp only
  by_cases hp : PowTwo n
  · have hp2 := (isPow2_iff n).mpr hp
    simp only [hp, if_true]
    rw [if_neg (by rw [hp2]; simp), ← hoff, h.size hb, Option.bind_some]
    by_cases hn : n ≤ b.size
    · simp only [hn, if_true]
      refine ⟨s, some b.off, rfl, ?_⟩
      obtain ⟨fr, hinv⟩ := h.inv
      unfold Ledger.modify
      refine h.rewrite s.mem _ ?_ (fun x hx => absurd rfl hx) ?_
      · rw [List.map_map]
        apply List.map_congr_left
        intro c _
        simp only [Function.comp]
        split <;> rfl
      · intro c hc
        obtain ⟨c', hc', rfl⟩ := List.mem_map.mp hc
        have g := h.good c' hc'
        by_cases he : c'.off = b.off
        · rw [if_pos he]
          have gb := h.good b hb
          have n1 : NF fr (L.live.map (toOut s.szAtom)) (toOut s.szAtom c').1 (toOut s.szAtom c').2 :=
            Or.inr (List.mem_map.mpr ⟨c', hc', rfl⟩)
          have n2 : NF fr (L.live.map (toOut s.szAtom)) (toOut s.szAtom b).1 (toOut s.szAtom b).2 :=
            Or.inr (List.mem_map.mpr ⟨b, hb, rfl⟩)
          have e1 : (toOut s.szAtom c').1 = (toOut s.szAtom b).1 := by unfold toOut; simp only; rw [he]
          have p1 : 0 < 2 ^ (toOut s.szAtom c').2 := Nat.pow_pos (by decide)
          have p2 : 0 < 2 ^ (toOut s.szAtom b).2 := Nat.pow_pos (by decide)
          have e2 := (hinv.core.til.disj _ _ _ _ n1 n2 (by omega) (by omega)).2
          have e3 : c'.size = b.size := by rw [g.size, gb.size, e2]
          refine ⟨by simp only; omega, by have := hp.1; simp only; omega, g.data⟩
        · rw [if_neg he]
          exact ⟨g.req, g.pos, g.data⟩
    · simp only [hn, if_false]
      unfold reallocMove
      obtain ⟨s1, r, e1, e2, e3⟩ := h.mallocUnsafe n
      rw [e1]
      cases r with
      | none =>
        refine ⟨s1, none, rfl, ?_⟩
        simp only
        unfold Ledger.asked at e2 ⊢
        exact e2
      | some q =>
        have ha : Acceptable n := Classical.byContradiction fun hc => by simpa using e3 hc
        unfold Ledger.asked at e2
        rw [if_pos ha] at e2
        simp only at e2 ⊢
        have hbn := e2.bounds (b := ⟨q, n.toNat, fit (atomOf minAlloc) n.toNat, fun _ => none⟩) (by simp [Ledger.add])
        have hg := e2.good ⟨q, n.toNat, fit (atomOf minAlloc) n.toNat, fun _ => none⟩ (by simp [Ledger.add])
        have hbb := e2.bounds (b := b) (by simp [Ledger.add, Ledger.request, hb])
        have gb1 := e2.good b (by simp [Ledger.add, Ledger.request, hb])
        have hreq := hg.req
        simp only at hbn hreq
        obtain ⟨fr, hinv⟩ := e2.inv
        have hd := held_disjoint hinv e2.good
        simp only [Ledger.add, Ledger.request, List.pairwise_cons] at hd
        have hdb := hd.1 b hb
        have hle : b.size ≤ n.toNat := by omega
        obtain ⟨m, hm⟩ : ∃ m : Nat → Byte, m = fun x => if q ≤ x ∧ x < q + b.size then s1.mem (x - q + b.off) else s1.mem x :=
          ⟨_, rfl⟩
        have hcpy : memcpy s1 q b.off b.size = some { s1 with mem := m } := by
          unfold memcpy
          rw [if_pos (by omega), hm]
        have e4 : RInv bufSize minAlloc { s1 with mem := m }
            ((L.request n.toNat).add (atomOf minAlloc) q n.toNat b.copy) := by
          refine e2.rewrite m (⟨q, n.toNat, fit (atomOf minAlloc) n.toNat, b.copy⟩ :: L.live) rfl ?_ ?_
          · intro x hx
            refine ⟨⟨q, n.toNat, fit (atomOf minAlloc) n.toNat, fun _ => none⟩, by simp [Ledger.add], ?_⟩
            by_cases hc : q ≤ x ∧ x < q + b.size
            · exact ⟨hc.1, by simp only; omega⟩
            · simp [hm, hc] at hx
          · intro c hc
            rw [List.mem_cons] at hc
            rcases hc with rfl | hc
            · refine ⟨hreq, hg.pos, ?_⟩
              intro j v hj
              simp only [Blk.copy] at hj
              by_cases hjn : j < b.size
              · rw [if_pos hjn] at hj
                obtain ⟨g1, g2⟩ := gb1.data j v hj
                refine ⟨by simp only; omega, ?_⟩
                simp only [hm]
                rw [if_pos ⟨by omega, by omega⟩, show q + j - q + b.off = b.off + j by omega]
                exact g2
              · rw [if_neg hjn] at hj; simp at hj
            · have g := e2.good c (by simp [Ledger.add, Ledger.request, hc])
              refine ⟨g.req, g.pos, ?_⟩
              intro j v hj
              obtain ⟨g1, g2⟩ := g.data j v hj
              refine ⟨g1, ?_⟩
              have := hd.1 c hc
              simp only [hm]
              rw [if_neg (by omega)]
              exact g2
        rw [hcpy, Option.bind_some]
        obtain ⟨s2, f1, f2, _⟩ := e4.free (b := b) (by simp [Ledger.add, Ledger.request, hb])
        rw [f1, Option.map_some]
        refine ⟨s2, some q, rfl, ?_⟩
        simp only
        unfold Ledger.asked
        rw [if_pos ha]
        exact f2
  · have hp2 : isPow2 n = false := by
      cases he : isPow2 n with
      | false => rfl
      | true => exact absurd ((isPow2_iff n).mp he) hp
    simp only [hp, if_false]
    rw [if_pos hp2]
    exact ⟨s, none, rfl, h⟩

/-- Every legal call runs (no undefined behaviour, no failing ASSERT) and keeps the invariant. -/
theorem RInv.step {bufSize minAlloc : Nat} {s : St} {L : Ledger} (h : RInv bufSize minAlloc s L) {op : Op}
    (hl : Legal L op) : ∃ s' r, exec s op = some (s', r) ∧ RInv bufSize minAlloc s' (L.after (atomOf minAlloc) op r) := by
  cases op with
  | malloc n =>
    obtain ⟨s', r, h1, h2, _⟩ := h.mallocUnsafe n
    exact ⟨s', r, by show malloc s n = _; rw [malloc_eq]; exact h1, h2⟩
  | calloc n => exact h.calloc n
  | free p =>
    obtain ⟨b, hb, rfl⟩ := hl
    obtain ⟨s', h1, h2, _⟩ := h.free hb
    exact ⟨s', none, by show (Verif.Mplite.free s b.off).map _ = _; rw [h1]; rfl, h2⟩
  | realloc p n => exact h.realloc hl n
  | store p j v =>
    obtain ⟨b, hb, rfl, hj⟩ := hl
    exact ⟨_, none, rfl, h.store hb hj v⟩

theorem Reach.inv {bufSize minAlloc : Nat} (hp : GoodParams bufSize minAlloc) {s : St} {L : Ledger}
    (h : Reach bufSize minAlloc s L) : RInv bufSize minAlloc s L := by
  induction h with
  | @init mem s hi =>
    obtain ⟨s', h1, h2⟩ := RInv.init hp mem
    rw [h1] at hi
    injection hi with hi; injection hi with hi
    subst hi; exact h2
  | step _ hl he ih =>
    obtain ⟨s', r, h1, h2⟩ := ih.step hl
    rw [h1] at he
    injection he with he
    injection he with e1 e2
    subst e1; subst e2; exact h2

end Verif.Mplite
