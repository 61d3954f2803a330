import Verif.MpliteMt.Commute
import Verif.MpliteMt.Steps
/-!
# mplite: stores in held blocks and locked sections of other threads can be swapped
-/
namespace Verif.Mplite

/-- A byte of a held block. -/
theorem RInv.poke {bs ma : Nat} {s : St} {L : Ledger} (h : RInv bs ma s L) {b : Blk} (hb : b ∈ L.live) {a : Nat} {v : Byte}
    (h1 : b.off ≤ a) (h2 : a < b.off + b.size) : Poke s.szAtom s.nBlock (toOut s.szAtom b) a v := by
  obtain ⟨fr, hinv⟩ := h.inv
  have g := h.good b hb
  have ho : NF fr (L.live.map (toOut s.szAtom)) (toOut s.szAtom b).1 (toOut s.szAtom b).2 :=
    Or.inr (List.mem_map.mpr ⟨b, hb, rfl⟩)
  exact ⟨hinv.core.geo.atom, (hinv.core.til.align _ _ ho).2, Or.inl ⟨by rw [← g.off]; exact h1, by rw [← g.end]; exact h2⟩⟩

theorem RInv.mallocUnsafe_w {bs ma : Nat} {s : St} {L : Ledger} (h : RInv bs ma s L) {b : Blk} (hb : b ∈ L.live) {a : Nat}
    (v : Byte) (h1 : b.off ≤ a) (h2 : a < b.off + b.size) (n : Int) :
    Verif.Mplite.mallocUnsafe (write s a v) n = (Verif.Mplite.mallocUnsafe s n).map (onPool a v) := by
  obtain ⟨fr, hinv⟩ := h.inv
  exact Verif.Mplite.mallocUnsafe_w hinv n (List.mem_map.mpr ⟨b, hb, rfl⟩) (h.poke hb h1 h2)

theorem RInv.free_w {bs ma : Nat} {s : St} {L : Ledger} (h : RInv bs ma s L) {b d : Blk} (hb : b ∈ L.live)
    (hd : d ∈ L.live) (hne : d.off ≠ b.off) {a : Nat} (v : Byte) (h1 : b.off ≤ a) (h2 : a < b.off + b.size) :
    Verif.Mplite.free (write s a v) d.off = (Verif.Mplite.free s d.off).map (write · a v) := by
  obtain ⟨fr, hinv⟩ := h.inv
  obtain ⟨u, w, e⟩ := List.append_of_mem hd
  have hp : (L.live.map (toOut s.szAtom)).Perm (((toOut s.szAtom d).1, (toOut s.szAtom d).2) :: (u ++ w).map (toOut s.szAtom)) := by
    rw [e]
    simp only [List.map_append, List.map_cons]
    exact List.perm_middle
  have hbm : toOut s.szAtom b ∈ (u ++ w).map (toOut s.szAtom) := by
    rw [e] at hb
    refine List.mem_map.mpr ⟨b, ?_, rfl⟩
    simp only [List.mem_append, List.mem_cons] at hb ⊢
    rcases hb with hb | rfl | hb
    · exact Or.inl hb
    · exact absurd rfl hne
    · exact Or.inr hb
  have := Verif.Mplite.free_w (hinv.perm hp) hbm (h.poke hb h1 h2 (v := v))
  rw [← (h.good d hd).off] at this
  exact this

theorem RInv.reallocMove_w {bs ma : Nat} {s : St} {L : Ledger} (h : RInv bs ma s L) {c b : Blk} (hc : c ∈ L.live)
    (hb : b ∈ L.live) (hne : b.off ≠ c.off) {a : Nat} (v : Byte) (h1 : c.off ≤ a) (h2 : a < c.off + c.size) {n : Int}
    (hn : ¬ n ≤ b.size) :
    reallocMove (write s a v) b.off b.size n = (reallocMove s b.off b.size n).map (onPool a v) := by
  unfold reallocMove
  rw [h.mallocUnsafe_w hc v h1 h2 n]
  obtain ⟨s1, r, e1, e2, e3⟩ := h.mallocUnsafe n
  rw [e1]
  cases r with
  | none => rfl
  | some q =>
    have ha : Acceptable n := Classical.byContradiction fun hc => by simpa using e3 hc
    unfold Ledger.asked at e2
    rw [if_pos ha] at e2
    simp only [Option.map_some] at e2 ⊢
    have hbn := e2.bounds (b := ⟨q, n.toNat, fit (atomOf ma) n.toNat, fun _ => none⟩) (by simp [Ledger.add])
    have hg := e2.good ⟨q, n.toNat, fit (atomOf ma) n.toNat, fun _ => none⟩ (by simp [Ledger.add])
    have hbb := e2.bounds (b := b) (by simp [Ledger.add, Ledger.request, hb])
    have hreq := hg.req
    simp only at hbn hreq
    obtain ⟨fr, hinv⟩ := e2.inv
    have hd := held_disjoint hinv e2.good
    simp only [Ledger.add, Ledger.request, List.pairwise_cons] at hd
    have hdb := hd.1 b hb
    have hdc := hd.1 c hc
    have hle : b.size ≤ n.toNat := by omega
    have hbc : b.off + b.size ≤ c.off ∨ c.off + c.size ≤ b.off := by
      obtain ⟨fr0, hinv0⟩ := h.inv
      have h3 := held_disjoint hinv0 h.good
      obtain ⟨i, hi, ei⟩ := List.getElem_of_mem hb
      obtain ⟨k, hk, ek⟩ := List.getElem_of_mem hc
      rw [List.pairwise_iff_getElem] at h3
      rcases Nat.lt_trichotomy i k with hlt | heq | hgt
      · have := h3 i k hi hk hlt; rw [ei, ek] at this; exact this
      · subst heq; rw [ei] at ek; exact absurd (by rw [ek]) hne
      · have := h3 k i hk hi hgt; rw [ei, ek] at this; exact this.symm
    obtain ⟨m, hm⟩ : ∃ m : Nat → Byte, m = fun x => if q ≤ x ∧ x < q + b.size then s1.mem (x - q + b.off) else s1.mem x :=
      ⟨_, rfl⟩
    have hcpy : memcpy s1 q b.off b.size = some { s1 with mem := m } := by
      unfold memcpy
      rw [if_pos (by omega), hm]
    have hcpyw : memcpy (write s1 a v) q b.off b.size = some (write { s1 with mem := m } a v) := by
      unfold memcpy
      rw [show (write s1 a v).nBlock = s1.nBlock from rfl, show (write s1 a v).szAtom = s1.szAtom from rfl,
        if_pos (show q + b.size ≤ s1.nBlock * s1.szAtom ∧ b.off + b.size ≤ s1.nBlock * s1.szAtom ∧
        (q + b.size ≤ b.off ∨ b.off + b.size ≤ q) by omega)]
      have : (fun x => if q ≤ x ∧ x < q + b.size then (write s1 a v).mem (x - q + b.off) else (write s1 a v).mem x) =
          fun x => if x = a then v else m x := by
        funext x
        show (if q ≤ x ∧ x < q + b.size then (if x - q + b.off = a then v else s1.mem (x - q + b.off))
          else (if x = a then v else s1.mem x)) = _
        rw [hm]
        by_cases hx : q ≤ x ∧ x < q + b.size
        · rw [if_pos hx, if_neg (by omega), if_neg (by omega)]
          exact (if_pos hx).symm
        · rw [if_neg hx]
          by_cases hxa : x = a
          · rw [if_pos hxa, if_pos hxa]
          · rw [if_neg hxa, if_neg hxa]
            exact (if_neg hx).symm
      rw [this]; rfl
    have e4 : RInv bs ma { s1 with mem := m } ((L.request n.toNat).add (atomOf ma) q n.toNat (fun _ => none)) := by
      refine e2.rewrite m (⟨q, n.toNat, fit (atomOf ma) n.toNat, fun _ => none⟩ :: L.live) rfl ?_ ?_
      · intro x hx
        refine ⟨⟨q, n.toNat, fit (atomOf ma) n.toNat, fun _ => none⟩, by simp [Ledger.add], ?_⟩
        by_cases hc : q ≤ x ∧ x < q + b.size
        · exact ⟨hc.1, by simp only; omega⟩
        · simp [hm, hc] at hx
      · intro c hc
        rw [List.mem_cons] at hc
        rcases hc with rfl | hc
        · exact ⟨hreq, hg.pos, fun j v hj => nomatch hj⟩
        · have g := e2.good c (by simp [Ledger.add, Ledger.request, hc])
          refine ⟨g.req, g.pos, ?_⟩
          intro j v hj
          obtain ⟨g1, g2⟩ := g.data j v hj
          refine ⟨g1, ?_⟩
          have := hd.1 c hc
          simp only [hm]
          rw [if_neg (by omega)]
          exact g2
    rw [hcpy, hcpyw, Option.bind_some, Option.bind_some,
      e4.free_w (b := c) (d := b) (by simp [Ledger.add, Ledger.request, hc]) (by simp [Ledger.add, Ledger.request, hb]) hne v h1 h2]
    cases Verif.Mplite.free { s1 with mem := m } b.off <;> rfl

theorem freememLoop_fr {s t : St} {fr : Nat → List Nat} {out : List (Nat × Nat)} (h : Inv s fr out) (h' : Inv t fr out) :
    ∀ (k l : Nat), freememLoop t k l = freememLoop s k l
  | 0, _ => rfl
  | k + 1, l => by
    unfold freememLoop
    rw [freememLoop_fr h h' k (l + 1), (h.lists l).1, (h'.lists l).1]

theorem RInv.freemem_w {bs ma : Nat} {s : St} {L : Ledger} (h : RInv bs ma s L) {b : Blk} (hb : b ∈ L.live) {a : Nat}
    (v : Byte) (h1 : b.off ≤ a) (h2 : a < b.off + b.size) : freemem (write s a v) = freemem s := by
  obtain ⟨fr, hinv⟩ := h.inv
  have h3 : Inv (write s a v) fr (L.live.map (toOut s.szAtom)) := by
    refine hinv.mem_change _ ?_
    intro x hx
    have g := h.good b hb
    by_cases hxa : x = a
    · subst hxa
      exact ⟨toOut s.szAtom b, List.mem_map.mpr ⟨b, hb, rfl⟩, by rw [← g.off]; exact h1, by rw [← g.end]; exact h2⟩
    · rw [if_neg hxa] at hx
      exact absurd rfl hx
  unfold freemem
  rw [freememLoop_fr hinv h3]
  rfl

theorem maxmemLoop_w (s : St) (a : Nat) (v : Byte) : ∀ k, maxmemLoop (write s a v) k = maxmemLoop s k
  | 0 => rfl
  | k + 1 => by unfold maxmemLoop; rw [maxmemLoop_w s a v k]; rfl

end Verif.Mplite

namespace Verif.MpliteMt
open Verif.Mplite (St Blk Ledger fit atomOf atoms PowTwo Acceptable Reach GoodParams RInv write)

/-- The locked section of thread `i` and a store elsewhere. -/
theorem body_w {bs ma : Nat} (hp : GoodParams bs ma) {x : Sys} {B : Books} (h : Inv bs ma x B) {i old : Nat} {c : Call}
    (hi : x.ph i = .inside c old) {b : Blk} {a : Nat} (v : Byte) (h1 : b.off ≤ a) (h2 : a < b.off + b.size)
    (hb : (∃ k, (k, b) ∈ B.held) ∨ ∃ k, k ≠ i ∧ carry (atomOf ma) (x.ph k) (B.lent k) = some b) :
    body c old (write x.pool a v) = (body c old x.pool).map fun t => (write t.1 a v, t.2) := by
  obtain ⟨L, act, l1, l2, l3⟩ := h.led
  have hr := l1.inv hp
  have hbL : b ∈ L.live := by
    rw [l2.mem_iff, List.mem_append]
    rcases hb with ⟨k, hk⟩ | ⟨k, _, hk⟩
    · exact Or.inl (List.mem_map.mpr ⟨_, hk, rfl⟩)
    · exact Or.inr (List.mem_map.mpr ⟨(k, b), (l3.2 k b).mpr hk, rfl⟩)
  -- the block of thread `i` is another one
  have hown : ∀ d, carry (atomOf ma) (x.ph i) (B.lent i) = some d → d ∈ L.live ∧ d.off ≠ b.off := by
    intro d hd
    have hm : (i, d) ∈ act := (l3.2 i d).mpr hd
    refine ⟨l2.mem_iff.mpr (List.mem_append.mpr (Or.inr (List.mem_map.mpr ⟨_, hm, rfl⟩))), ?_⟩
    obtain ⟨u, w, e⟩ := List.append_of_mem hm
    have h3 : L.live.Perm (d :: (B.held.map (·.2) ++ (u ++ w).map (·.2))) := by
      refine l2.trans ?_
      rw [e]
      simp only [List.map_append, List.map_cons]
      rw [← List.append_assoc]
      refine List.perm_middle.trans ?_
      rw [List.append_assoc]
    have h4 := perm_off hp l1 h3 b (by
      rw [List.mem_append]
      rcases hb with ⟨k, hk⟩ | ⟨k, hki, hk⟩
      · exact Or.inl (List.mem_map.mpr ⟨_, hk, rfl⟩)
      · have hm2 := (l3.2 k b).mpr hk
        refine Or.inr (List.mem_map.mpr ⟨(k, b), ?_, rfl⟩)
        rw [e] at hm2
        simp only [List.mem_append, List.mem_cons, Prod.mk.injEq] at hm2 ⊢
        rcases hm2 with h5 | ⟨h5, _⟩ | h5
        · exact Or.inl h5
        · exact absurd h5 hki
        · exact Or.inr h5)
    exact fun e => h4 e.symm
  have hf := h.fine i
  rw [hi] at hf hown
  unfold body
  cases c with
  | malloc n =>
    simp only
    rw [hr.mallocUnsafe_w hbL v h1 h2]
    cases Mplite.mallocUnsafe x.pool n <;> rfl
  | calloc n =>
    simp only
    rw [hr.mallocUnsafe_w hbL v h1 h2]
    cases Mplite.mallocUnsafe x.pool n <;> rfl
  | free p =>
    obtain ⟨d, e1, e2⟩ := hf
    obtain ⟨d1, d2⟩ := hown d e1
    simp only
    rw [← e2, hr.free_w hbL d1 d2 v h1 h2]
    cases Mplite.free x.pool d.off <;> rfl
  | realloc p n =>
    obtain ⟨d, e1, e2, e3, _, e4⟩ := hf
    obtain ⟨d1, d2⟩ := hown d e1
    simp only
    rw [← e2, e3, hr.reallocMove_w hbL d1 d2 v h1 h2 (by rw [← e3]; exact e4)]
    cases Mplite.reallocMove x.pool d.off d.size n <;> rfl
  | resize p n => rfl
  | maxmem =>
    simp only [Option.map_some]
    unfold Mplite.maxmem
    rw [Mplite.maxmemLoop_w]
  | freemem =>
    simp only
    rw [hr.freemem_w hbL v h1 h2]
    cases Mplite.freemem x.pool <;> rfl

end Verif.MpliteMt
