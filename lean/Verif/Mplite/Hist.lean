import Verif.Mplite.Ops
import Verif.Mplite.Spec
/-!
# mplite: the invariant of all histories
-/
namespace Verif.Mplite

/-! ### Sizes -/

theorem find_range {p : Nat → Bool} {f : Nat → Nat} : ∀ (n l : Nat), l < n → p (f l) = true → (∀ j, j < l → p (f j) = false) →
    ((List.range n).map f).find? p = some (f l) := by
  intro n l hl hp hj
  have e : List.range n = List.range l ++ (List.range' l (n - l)) := by
    rw [List.range_eq_range', List.range_eq_range']
    have := List.range'_append_1 (s := 0) (m := l) (n := n - l)
    rw [show l + (n - l) = n by omega, Nat.zero_add] at this
    exact this.symm
  rw [e, List.map_append, List.find?_append]
  have h1 : ((List.range l).map f).find? p = none := by
    rw [List.find?_eq_none]
    intro x hx
    obtain ⟨j, h1, rfl⟩ := List.mem_map.mp hx
    rw [List.mem_range] at h1
    simp [hj j h1]
  rw [h1, Option.none_or, show n - l = (n - l - 1) + 1 by omega, List.range'_succ, List.map_cons]
  simp [hp]

theorem fit_eq {atom n l : Nat} (h1 : n ≤ atom * 2 ^ l) (h2 : l = 0 ∨ atom * 2 ^ (l - 1) < n) (h3 : l ≤ 30) :
    fit atom n = atom * 2 ^ l := by
  unfold fit
  rw [find_range (f := fun k => atom * 2 ^ k) 31 l (by omega) (by simpa using h1)]
  · rfl
  · intro j hj
    rcases h2 with h2 | h2
    · omega
    · have h4 : 2 ^ j ≤ 2 ^ (l - 1) := Nat.pow_le_pow_right (by decide) (by omega)
      have := Nat.mul_le_mul_left atom h4
      simp only [decide_eq_false_iff_not]
      omega

theorem atomOf_eq {m e : Nat} (h3 : 3 ≤ e) (h30 : e ≤ 30) (h1 : m ≤ 2 ^ e) (h2 : e = 3 ∨ 2 ^ (e - 1) < m) :
    atomOf m = 2 ^ e := by
  have e8 : 8 * 2 ^ (e - 3) = 2 ^ e := by
    rw [show (8 : Nat) = 2 ^ 3 from rfl, ← Nat.pow_add, show 3 + (e - 3) = e by omega]
  unfold atomOf
  rw [fit_eq (l := e - 3) (by rw [e8]; exact h1) ?_ (by omega), e8]
  rcases h2 with h2 | h2
  · left; omega
  · by_cases h : e = 3
    · left; omega
    · right
      have e9 : 8 * 2 ^ (e - 3 - 1) = 2 ^ (e - 1) := by
        rw [show (8 : Nat) = 2 ^ 3 from rfl, ← Nat.pow_add, show 3 + (e - 3 - 1) = e - 1 by omega]
      omega

/-! ### The client's blocks and the taken blocks -/

/-- Index and logarithm of a block. -/
def toOut (atom : Nat) (b : Blk) : Nat × Nat := (b.off / atom, Nat.log2 (b.size / atom))

/-- The block is described by `toOut`, and holds the client's data. -/
structure Good (s : St) (b : Blk) : Prop where
  off : b.off = (toOut s.szAtom b).1 * s.szAtom
  size : b.size = 2 ^ (toOut s.szAtom b).2 * s.szAtom
  req : b.req ≤ b.size
  pos : 0 < b.req
  data : ∀ j v, b.data j = some v → j < b.size ∧ s.mem (b.off + j) = v

/-- Invariant of all histories. -/
structure RInv (bufSize minAlloc : Nat) (s : St) (L : Ledger) : Prop where
  inv : ∃ fr, Inv s fr (L.live.map (toOut s.szAtom))
  good : ∀ b ∈ L.live, Good s b
  atom : s.szAtom = atomOf minAlloc
  nB : s.nBlock = atoms bufSize minAlloc
  buf : s.bufSize = bufSize
  szSmall : s.szAtom < 2147483648
  nAlloc : s.nAlloc = L.count % 2 ^ 64
  totalAlloc : s.totalAlloc = L.given % 2 ^ 64
  totalExcess : s.totalExcess = L.excess % 2 ^ 64
  curOut : s.currentOut = heldBytes L.live
  curCount : s.currentCount = L.live.length
  maxOut : s.maxOut = L.peakOut
  maxCount : s.maxCount = L.peakCount
  maxReq : s.maxRequest = L.largest

theorem heldBytes_outSum {s : St} : ∀ {bs : List Blk}, (∀ b ∈ bs, Good s b) →
    outSum (bs.map (toOut s.szAtom)) * s.szAtom = heldBytes bs
  | [], _ => by simp [outSum, heldBytes]
  | b :: bs, h => by
    have ih := heldBytes_outSum (bs := bs) (fun b hb => h b (by simp [hb]))
    have h1 := (h b (by simp)).size
    unfold heldBytes at ih ⊢
    simp only [List.map_cons, List.sum_cons, outSum]
    rw [Nat.add_mul, ih, ← h1]

theorem heldBytes_lt {s : St} {fr : Nat → List Nat} {bs : List Blk} (h : Inv s fr (bs.map (toOut s.szAtom)))
    (hg : ∀ b ∈ bs, Good s b) : heldBytes bs ≤ s.nBlock * s.szAtom ∧ bs.length ≤ s.nBlock ∧ s.nBlock * s.szAtom < 2147483648 := by
  have h1 := h.core.til.total
  have h2 := h.core.geo.tot
  have h3 := h.core.geo.small
  rw [← heldBytes_outSum hg]
  refine ⟨Nat.mul_le_mul_right _ (by omega), ?_, by omega⟩
  have h4 : ∀ os : List (Nat × Nat), os.length ≤ outSum os := by
    intro os
    induction os with
    | nil => simp
    | cons o os ih =>
      have : 0 < 2 ^ o.2 := Nat.pow_pos (by decide)
      simp only [List.length_cons, outSum]; omega
  have := h4 (bs.map (toOut s.szAtom))
  rw [List.length_map] at this
  omega

theorem toOut_mk {atom i l : Nat} (ha : 0 < atom) (n : Nat) (d : Nat → Option Byte) :
    toOut atom ⟨i * atom, n, atom * 2 ^ l, d⟩ = (i, l) := by
  unfold toOut
  simp only
  rw [Nat.mul_div_cancel _ ha, Nat.mul_div_cancel_left _ ha, Nat.log2_two_pow]

/-- Only bytes of taken blocks changed. -/
theorem Inv.mem_change {s : St} {fr : Nat → List Nat} {out : List (Nat × Nat)} (h : Inv s fr out) (m : Nat → Byte)
    (hm : ∀ x, m x ≠ s.mem x → ∃ b ∈ out, b.1 * s.szAtom ≤ x ∧ x < (b.1 + 2 ^ b.2) * s.szAtom) :
    Inv { s with mem := m } fr out := by
  have t := h.core.til
  have g := h.core.geo
  have hpool : ∀ x, s.nBlock * s.szAtom ≤ x → m x = s.mem x := by
    intro x hx
    refine Classical.byContradiction fun hc => ?_
    obtain ⟨b, hb, h1, h2⟩ := hm x hc
    have := (t.align b.1 b.2 (Or.inr hb)).2
    have := Nat.mul_le_mul_right s.szAtom this
    omega
  have hlink : ∀ l, ∀ j ∈ fr l, ∀ x, j * s.szAtom ≤ x → x < j * s.szAtom + 8 → m x = s.mem x := by
    intro l j hj x h1 h2
    refine Classical.byContradiction fun hc => ?_
    obtain ⟨b, hb, h3, h4⟩ := hm x hc
    rcases link_byte_outside t g.atom (Or.inl hj) hb (fun e => t.excl j l hj (by rw [← e]; exact hb)) h3 h4 with h | h <;> omega
  refine ⟨⟨⟨g.atom, g.fits, g.small⟩, t, h.core.head, ?_, ?_⟩, ?_, h.coal⟩
  · intro l
    refine (h.core.seg l).congr ?_
    intro x hx
    exact ⟨rd32_congr (fun y h1 h2 => hlink l x hx y h1 (by simp only at h2; omega)),
      rd32_congr (fun y h1 h2 => hlink l x hx y (by simp only at h1; omega) (by simp only at h2; omega))⟩
  · intro i l hi
    rw [← h.core.ctrl i l hi]
    exact hpool _ (Nat.le_add_right _ _)
  · intro b hb
    rw [← h.ctrlO b hb]
    exact hpool _ (Nat.le_add_right _ _)

/-- Blocks stay good when their bytes stay the same. -/
theorem Good.keep {s s' : St} {b : Blk} (h : Good s b) (hs : s'.szAtom = s.szAtom)
    (hk : ∀ x, b.off ≤ x → x < b.off + b.size → s'.mem x = s.mem x) : Good s' b := by
  refine ⟨by rw [hs]; exact h.off, by rw [hs]; exact h.size, h.req, h.pos, ?_⟩
  intro j v hj
  obtain ⟨h1, h2⟩ := h.data j v hj
  exact ⟨h1, by rw [hk _ (by omega) (by omega)]; exact h2⟩

theorem Good.end {s : St} {b : Blk} (h : Good s b) :
    b.off + b.size = ((toOut s.szAtom b).1 + 2 ^ (toOut s.szAtom b).2) * s.szAtom := by
  rw [Nat.add_mul, ← h.off, ← h.size]

theorem Keeps.good {s s' : St} {bs : List Blk} (hk : Keeps s s' (bs.map (toOut s.szAtom))) (hs : s'.szAtom = s.szAtom)
    (hg : ∀ b ∈ bs, Good s b) : ∀ b ∈ bs, Good s' b := by
  intro b hb
  have g := hg b hb
  refine g.keep hs (fun x h1 h2 => ?_)
  refine hk (toOut s.szAtom b) (List.mem_map.mpr ⟨b, hb, rfl⟩) x ?_ ?_
  · rw [← g.off]; exact h1
  · rw [← g.end]; exact h2

/-- Two different positions of the list of held blocks are disjoint ranges. -/
theorem held_disjoint {s : St} {fr : Nat → List Nat} : ∀ {bs : List Blk},
    Inv s fr (bs.map (toOut s.szAtom)) → (∀ b ∈ bs, Good s b) →
    bs.Pairwise (fun a b => a.off + a.size ≤ b.off ∨ b.off + b.size ≤ a.off) := by
  intro bs h hg
  have hnod := h.core.til.nodO
  have ha := h.core.geo.atom
  have key : ∀ a ∈ bs, ∀ b ∈ bs, toOut s.szAtom a ≠ toOut s.szAtom b → a.off + a.size ≤ b.off ∨ b.off + b.size ≤ a.off := by
    intro a ha' b hb hne
    have ga := hg a ha'
    have gb := hg b hb
    have da := h.core.til.disj (toOut s.szAtom a).1 (toOut s.szAtom a).2 (toOut s.szAtom b).1 (toOut s.szAtom b).2
      (Or.inr (List.mem_map.mpr ⟨a, ha', rfl⟩)) (Or.inr (List.mem_map.mpr ⟨b, hb, rfl⟩))
    refine Classical.byContradiction fun hc => ?_
    have h1 : b.off < a.off + a.size ∧ a.off < b.off + b.size := by omega
    rw [ga.end, gb.end, ga.off, gb.off] at h1
    obtain ⟨e1, e2⟩ := da (Nat.lt_of_mul_lt_mul_right h1.2) (Nat.lt_of_mul_lt_mul_right h1.1)
    exact hne (Prod.ext e1 e2)
  rw [List.nodup_iff_pairwise_ne, List.pairwise_map] at hnod
  exact hnod.imp_of_mem (fun ha' hb hne => key _ ha' _ hb hne)

/-- A successful allocation. -/
theorem RInv.alloc {bufSize minAlloc : Nat} {s s' : St} {L : Ledger} {fr' : Nat → List Nat} {i l n : Nat}
    (h : RInv bufSize minAlloc s L) (h0 : 0 < n) (hn : n ≤ s.szAtom * 2 ^ l) (hn2 : l = 0 ∨ s.szAtom * 2 ^ (l - 1) < n)
    (hs : Same (noteRequest s n) s') (hi : Inv s' fr' ((i, l) :: L.live.map (toOut s.szAtom)))
    (hk : Keeps s s' (L.live.map (toOut s.szAtom))) :
    RInv bufSize minAlloc (allocStats s' (s.szAtom * 2 ^ l) n)
      ((L.request n).add (atomOf minAlloc) (i * s.szAtom) n (fun _ => none)) := by
  obtain ⟨fr, hinv⟩ := h.inv
  have ha := hinv.core.geo.atom
  have hsz : s'.szAtom = s.szAtom := hs.szAtom
  have hl30 : l ≤ 30 := hi.core.til.log (i := i) (Or.inr (by simp))
  have hfit : fit (atomOf minAlloc) n = s.szAtom * 2 ^ l := by
    rw [← h.atom]; exact fit_eq hn hn2 hl30
  have hto := toOut_mk (atom := s.szAtom) (i := i) (l := l) (by omega) n (fun _ => none)
  have hgood' : ∀ b ∈ (⟨i * s.szAtom, n, s.szAtom * 2 ^ l, fun _ => none⟩ : Blk) :: L.live, Good s' b := by
    intro b hb
    rw [List.mem_cons] at hb
    rcases hb with rfl | hb
    · refine ⟨?_, ?_, hn, h0, fun j v hj => by simp at hj⟩
      · rw [hsz, hto]
      · rw [hsz, hto]; exact Nat.mul_comm _ _
    · exact hk.good hsz h.good b hb
  have hi2 : Inv s' fr' (((⟨i * s.szAtom, n, s.szAtom * 2 ^ l, fun _ => none⟩ : Blk) :: L.live).map (toOut s'.szAtom)) := by
    rw [hsz, List.map_cons, hto]; exact hi
  obtain ⟨b1, b2, b3⟩ := heldBytes_lt hi2 hgood'
  have b4 : s'.nBlock ≤ s'.nBlock * s'.szAtom := Nat.le_mul_of_pos_right _ (by omega)
  have hheld : heldBytes ((⟨i * s.szAtom, n, s.szAtom * 2 ^ l, fun _ => none⟩ : Blk) :: L.live) =
      s.szAtom * 2 ^ l + heldBytes L.live := by simp [heldBytes]
  have eco : s'.currentOut = heldBytes L.live := by rw [hs.currentOut]; exact h.curOut
  have ecc : s'.currentCount = L.live.length := by rw [hs.currentCount]; exact h.curCount
  rw [List.length_cons] at b2
  rw [hheld] at b1
  have m1 : (s'.currentCount + 1) % 2 ^ 32 = L.live.length + 1 := by
    rw [ecc]; exact Nat.mod_eq_of_lt (by omega)
  have m2 : (s'.currentOut + s.szAtom * 2 ^ l) % 2 ^ 32 = s.szAtom * 2 ^ l + heldBytes L.live := by
    rw [eco, Nat.add_comm]; exact Nat.mod_eq_of_lt (by omega)
  have e1 : s'.nAlloc = L.count % 2 ^ 64 := by rw [hs.nAlloc]; exact h.nAlloc
  have e2 : s'.totalAlloc = L.given % 2 ^ 64 := by rw [hs.totalAlloc]; exact h.totalAlloc
  have e3 : s'.totalExcess = L.excess % 2 ^ 64 := by rw [hs.totalExcess]; exact h.totalExcess
  have e4 : s'.maxOut = L.peakOut := by rw [hs.maxOut]; exact h.maxOut
  have e5 : s'.maxCount = L.peakCount := by rw [hs.maxCount]; exact h.maxCount
  have e6 : s'.maxRequest = max L.largest n := by
    rw [hs.maxRequest]
    show (if n > s.maxRequest then n else s.maxRequest) = _
    rw [h.maxReq]
    split <;> omega
  unfold Ledger.add Ledger.request
  simp only
  rw [hfit]
  refine ⟨⟨fr', hi2.stats rfl rfl rfl rfl rfl⟩, ?_, hsz.trans h.atom, hs.nBlock.trans h.nB, hs.bufSize.trans h.buf,
    by show s'.szAtom < _; rw [hsz]; exact h.szSmall, ?_, ?_, ?_, ?_, ?_, ?_, ?_, e6⟩
  · intro b hb
    exact (hgood' b hb).keep rfl (fun _ _ _ => rfl)
  · show (s'.nAlloc + 1) % 2 ^ 64 = _
    rw [e1]; exact Nat.mod_add_mod _ _ _
  · show (s'.totalAlloc + _) % 2 ^ 64 = _
    rw [e2]; exact Nat.mod_add_mod _ _ _
  · show (s'.totalExcess + _) % 2 ^ 64 = _
    rw [e3]; exact Nat.mod_add_mod _ _ _
  · show (s'.currentOut + _) % 2 ^ 32 = _
    rw [m2]; exact hheld.symm
  · show (s'.currentCount + 1) % 2 ^ 32 = _
    rw [m1]; rfl
  · show (if s'.maxOut < (s'.currentOut + s.szAtom * 2 ^ l) % 2 ^ 32 then (s'.currentOut + s.szAtom * 2 ^ l) % 2 ^ 32 else s'.maxOut) = _
    rw [m2, e4, hheld]
    simp only
    split <;> omega
  · show (if s'.maxCount < (s'.currentCount + 1) % 2 ^ 32 then (s'.currentCount + 1) % 2 ^ 32 else s'.maxCount) = _
    rw [m1, e5, List.length_cons]
    simp only
    split <;> omega

/-- A request that was not met. -/
theorem RInv.request {bufSize minAlloc : Nat} {s : St} {L : Ledger} (h : RInv bufSize minAlloc s L) (n : Nat) :
    RInv bufSize minAlloc (noteRequest s n) (L.request n) := by
  obtain ⟨fr, hinv⟩ := h.inv
  refine ⟨⟨fr, hinv.stats rfl rfl rfl rfl rfl⟩, fun b hb => (h.good b hb).keep rfl (fun _ _ _ => rfl), h.atom, h.nB, h.buf,
    h.szSmall, h.nAlloc, h.totalAlloc, h.totalExcess, h.curOut, h.curCount, h.maxOut, h.maxCount, ?_⟩
  show (if n > s.maxRequest then n else s.maxRequest) = max L.largest n
  rw [h.maxReq]
  split <;> omega

/-- The bytes of held blocks change, and the client's knowledge of them. -/
theorem RInv.rewrite {bufSize minAlloc : Nat} {s : St} {L : Ledger} (h : RInv bufSize minAlloc s L) (m : Nat → Byte)
    (live : List Blk) (ho : live.map (fun b => (b.off, b.size)) = L.live.map (fun b => (b.off, b.size)))
    (hm : ∀ x, m x ≠ s.mem x → ∃ b ∈ L.live, b.off ≤ x ∧ x < b.off + b.size)
    (hg : ∀ b ∈ live, b.req ≤ b.size ∧ 0 < b.req ∧ ∀ j v, b.data j = some v → j < b.size ∧ m (b.off + j) = v) :
    RInv bufSize minAlloc { s with mem := m } { L with live := live } := by
  obtain ⟨fr, hinv⟩ := h.inv
  have hmap : live.map (toOut s.szAtom) = L.live.map (toOut s.szAtom) := by
    have := congrArg (List.map (fun p : Nat × Nat => (p.1 / s.szAtom, Nat.log2 (p.2 / s.szAtom)))) ho
    rw [List.map_map, List.map_map] at this
    exact this
  have hlen : live.length = L.live.length := by simpa using congrArg List.length ho
  have hheld : heldBytes live = heldBytes L.live := by
    have := congrArg (List.map Prod.snd) ho
    unfold heldBytes
    rw [List.map_map, List.map_map] at this
    exact congrArg List.sum this
  refine ⟨⟨fr, ?_⟩, ?_, h.atom, h.nB, h.buf, h.szSmall, h.nAlloc, h.totalAlloc, h.totalExcess,
    by rw [hheld]; exact h.curOut, by rw [hlen]; exact h.curCount, h.maxOut, h.maxCount, h.maxReq⟩
  · rw [hmap]
    refine hinv.mem_change m ?_
    intro x hx
    obtain ⟨b, hb, h1, h2⟩ := hm x hx
    have g := h.good b hb
    exact ⟨toOut s.szAtom b, List.mem_map.mpr ⟨b, hb, rfl⟩, by rw [← g.off]; exact h1, by rw [← g.end]; exact h2⟩
  · intro b hb
    obtain ⟨g1, g2, g3⟩ := hg b hb
    have : (b.off, b.size) ∈ L.live.map (fun b => (b.off, b.size)) := by
      rw [← ho]; exact List.mem_map.mpr ⟨b, hb, rfl⟩
    obtain ⟨b', hb', e⟩ := List.mem_map.mp this
    simp only [Prod.mk.injEq] at e
    have g := h.good b' hb'
    have et : toOut s.szAtom b = toOut s.szAtom b' := by unfold toOut; rw [e.1, e.2]
    refine ⟨?_, ?_, g1, g2, g3⟩
    · show b.off = (toOut s.szAtom b).1 * s.szAtom
      rw [et, ← e.1]; exact g.off
    · show b.size = 2 ^ (toOut s.szAtom b).2 * s.szAtom
      rw [et, ← e.2]; exact g.size

/-- A block is given back. -/
theorem RInv.free {bufSize minAlloc : Nat} {s : St} {L : Ledger} (h : RInv bufSize minAlloc s L) {b : Blk}
    (hb : b ∈ L.live) : ∃ s', free s b.off = some s' ∧ RInv bufSize minAlloc s' (L.remove b.off) ∧
      (∀ c ∈ (L.remove b.off).live, ∀ x, c.off ≤ x → x < c.off + c.size → s'.mem x = s.mem x) := by
  obtain ⟨fr, hinv⟩ := h.inv
  obtain ⟨a, l1, l2, h1, h2, h3, h4⟩ := List.exists_of_eraseP (p := fun c => decide (c.off = b.off)) hb (by simp)
  simp only [decide_eq_true_eq] at h2
  have hmem : ∀ c ∈ a :: (l1 ++ l2), c ∈ L.live := by
    intro c hc
    rw [h3]
    simp only [List.mem_cons, List.mem_append] at hc ⊢
    rcases hc with h | h | h
    · exact Or.inr (Or.inl h)
    · exact Or.inl h
    · exact Or.inr (Or.inr h)
  have ga := h.good a (hmem a (by simp))
  have hp : (L.live.map (toOut s.szAtom)).Perm (toOut s.szAtom a :: (l1 ++ l2).map (toOut s.szAtom)) := by
    rw [← List.map_cons]
    apply List.Perm.map
    rw [h3]
    exact List.perm_middle
  have hinv2 := hinv.perm hp
  have hheld : heldBytes L.live = a.size + heldBytes (l1 ++ l2) := by
    rw [h3]; simp [heldBytes]; omega
  have hlen : L.live.length = (l1 ++ l2).length + 1 := by rw [h3]; simp; omega
  have hgl : ∀ c ∈ l1 ++ l2, Good s c := fun c hc => h.good c (hmem c (by simp only [List.mem_cons]; exact Or.inr hc))
  have hsum := heldBytes_outSum hgl
  obtain ⟨s', fr', f1, f2, f3, f4⟩ := free_spec (i := (toOut s.szAtom a).1) (l := (toOut s.szAtom a).2) hinv2 (by
      rw [h.curOut, hheld, ← hsum]
      simp only [outSum]
      rw [Nat.add_mul, ← ga.size]) (by rw [h.curCount, hlen, List.length_map])
  rw [← ga.off, h2] at f1
  rw [← ga.size] at f2
  have hsz : s'.szAtom = s.szAtom := f2.szAtom
  have hrem : (L.remove b.off).live = l1 ++ l2 := h4
  refine ⟨s', f1, ⟨⟨fr', by rw [hrem, hsz]; exact f3⟩, ?_, hsz.trans h.atom, f2.nBlock.trans h.nB, f2.bufSize.trans h.buf,
    by rw [hsz]; exact h.szSmall, f2.nAlloc.trans h.nAlloc, f2.totalAlloc.trans h.totalAlloc,
    f2.totalExcess.trans h.totalExcess, ?_, ?_, f2.maxOut.trans h.maxOut, f2.maxCount.trans h.maxCount,
    f2.maxRequest.trans h.maxReq⟩, ?_⟩
  · rw [hrem]; exact f4.good hsz hgl
  · rw [hrem, f2.currentOut]
    show s.currentOut - a.size = _
    rw [h.curOut, hheld]; omega
  · rw [hrem, f2.currentCount]
    show s.currentCount - 1 = _
    rw [h.curCount, hlen]; omega
  · rw [hrem]
    intro c hc x hx1 hx2
    have g := hgl c hc
    exact f4 (toOut s.szAtom c) (List.mem_map.mpr ⟨c, hc, rfl⟩) x (by rw [← g.off]; exact hx1) (by rw [← g.end]; exact hx2)

theorem RInv.init {bufSize minAlloc : Nat} (hp : GoodParams bufSize minAlloc) (mem : Nat → Byte) :
    ∃ s, init mem bufSize minAlloc = some (some s) ∧ RInv bufSize minAlloc s Ledger.empty := by
  obtain ⟨p1, p2, p3, p4⟩ := hp
  obtain ⟨s, fr, e, h1, h2, h3, h4, h5, h6, h7⟩ := init_spec mem p1 p2 p3 p4
  have ha := atomOf_eq h4 h5 h6 h7
  have h30 : 2 ^ e ≤ 2 ^ 30 := Nat.pow_le_pow_right (by decide) h5
  have hsz : s.szAtom = 2 ^ e := h3.szAtom
  refine ⟨s, h1, ⟨fr, h2⟩, by simp [Ledger.empty], hsz.trans ha.symm, ?_, h3.bufSize, by rw [hsz]; omega, h3.nAlloc,
    h3.totalAlloc, h3.totalExcess, h3.currentOut, h3.currentCount, h3.maxOut, h3.maxCount, h3.maxRequest⟩
  unfold atoms
  rw [ha]; exact h3.nBlock

end Verif.Mplite
