import Verif.Mplite.Model
/-!
# mplite: memory accessors and the doubly linked free lists
-/
namespace Verif.Mplite

theorem wr32_other (m : Nat → Byte) (a : Nat) (v : Int) (x : Nat) (h : x < a ∨ a + 4 ≤ x) :
    wr32 m a v x = m x := by
  unfold wr32
  simp only
  rw [if_neg (by omega), if_neg (by omega), if_neg (by omega), if_neg (by omega)]

theorem rd32_congr {m m' : Nat → Byte} {a : Nat} (h : ∀ x, a ≤ x → x < a + 4 → m' x = m x) :
    rd32 m' a = rd32 m a := by
  unfold rd32
  rw [h a (by omega) (by omega), h (a + 1) (by omega) (by omega), h (a + 2) (by omega) (by omega),
    h (a + 3) (by omega) (by omega)]

theorem rd32_wr32 (m : Nat → Byte) (a : Nat) (v : Int) (h1 : -2147483648 ≤ v) (h2 : v < 2147483648) :
    rd32 (wr32 m a v) a = v := by
  have e0 : wr32 m a v a = UInt8.ofNat (v % 4294967296).toNat := by
    unfold wr32; simp only; rw [if_pos trivial]
  have e1 : wr32 m a v (a + 1) = UInt8.ofNat ((v % 4294967296).toNat / 256) := by
    unfold wr32; simp only; rw [if_neg (by omega), if_pos trivial]
  have e2 : wr32 m a v (a + 2) = UInt8.ofNat ((v % 4294967296).toNat / 65536) := by
    unfold wr32; simp only; rw [if_neg (by omega), if_neg (by omega), if_pos trivial]
  have e3 : wr32 m a v (a + 3) = UInt8.ofNat ((v % 4294967296).toNat / 16777216) := by
    unfold wr32; simp only; rw [if_neg (by omega), if_neg (by omega), if_neg (by omega), if_pos trivial]
  unfold rd32
  rw [e0, e1, e2, e3]
  simp only [UInt8.toNat_ofNat']
  generalize hu : (v % 4294967296).toNat = u
  have hu2 : (u : Int) = v % 4294967296 := by omega
  have hult : u < 4294967296 := by omega
  have hsum : u % 2 ^ 8 + 256 * (u / 256 % 2 ^ 8) + 65536 * (u / 65536 % 2 ^ 8) +
      16777216 * (u / 16777216 % 2 ^ 8) = u := by omega
  rw [hsum]
  split <;> omega

/-! ### Geometry and pure accessors -/

/-- Shape of the buffer. -/
structure Geo (s : St) : Prop where
  atom : 8 ≤ s.szAtom
  fits : s.nBlock * (s.szAtom + 1) ≤ s.bufSize
  small : s.bufSize < 2147483648

theorem Geo.blk {s : St} (g : Geo s) {i : Nat} (h : i < s.nBlock) : i * s.szAtom + 8 ≤ s.nBlock * s.szAtom := by
  have := Nat.mul_le_mul_right s.szAtom (show i + 1 ≤ s.nBlock from h)
  rw [Nat.add_mul, Nat.one_mul] at this
  have := g.atom
  omega

theorem Geo.tot {s : St} (g : Geo s) : s.nBlock * s.szAtom + s.nBlock ≤ s.bufSize := by
  have := g.fits
  rw [Nat.mul_add, Nat.mul_one] at this
  exact this

theorem Geo.nB {s : St} (g : Geo s) : s.nBlock < 2147483648 := by
  have := g.tot
  have := g.small
  omega

/-- next link of atom `i`. -/
def nx (s : St) (i : Nat) : Int := rd32 s.mem (i * s.szAtom)
/-- previous link of atom `i`. -/
def pv (s : St) (i : Nat) : Int := rd32 s.mem (i * s.szAtom + 4)
/-- control byte of atom `i`. -/
def ct (s : St) (i : Nat) : Byte := s.mem (s.nBlock * s.szAtom + i)

theorem getNext_eq {s : St} (g : Geo s) {i : Nat} (h : i < s.nBlock) : s.getNext i = some (nx s i) := by
  unfold St.getNext nx
  have := g.blk h
  have := g.tot
  rw [if_pos (by omega)]

theorem getPrev_eq {s : St} (g : Geo s) {i : Nat} (h : i < s.nBlock) : s.getPrev i = some (pv s i) := by
  unfold St.getPrev pv
  have := g.blk h
  have := g.tot
  rw [if_pos (by omega)]

theorem getCtrl_eq {s : St} (g : Geo s) {i : Nat} (h : i < s.nBlock) : s.getCtrl i = some (ct s i) := by
  unfold St.getCtrl ct
  have := g.tot
  rw [if_pos (by omega)]

/-- Everything but the memory and the free list heads is the same. -/
structure Same (s s' : St) : Prop where
  szAtom : s'.szAtom = s.szAtom
  nBlock : s'.nBlock = s.nBlock
  bufSize : s'.bufSize = s.bufSize
  nAlloc : s'.nAlloc = s.nAlloc
  totalAlloc : s'.totalAlloc = s.totalAlloc
  totalExcess : s'.totalExcess = s.totalExcess
  currentOut : s'.currentOut = s.currentOut
  currentCount : s'.currentCount = s.currentCount
  maxOut : s'.maxOut = s.maxOut
  maxCount : s'.maxCount = s.maxCount
  maxRequest : s'.maxRequest = s.maxRequest

theorem Same.refl (s : St) : Same s s := ⟨rfl, rfl, rfl, rfl, rfl, rfl, rfl, rfl, rfl, rfl, rfl⟩

theorem Same.trans {a b c : St} (h : Same a b) (k : Same b c) : Same a c :=
  ⟨k.1.trans h.1, k.2.trans h.2, k.3.trans h.3, k.4.trans h.4, k.5.trans h.5, k.6.trans h.6, k.7.trans h.7,
    k.8.trans h.8, k.9.trans h.9, k.10.trans h.10, k.11.trans h.11⟩

theorem Same.geo {s s' : St} (h : Same s s') (g : Geo s) : Geo s' := by
  refine ⟨?_, ?_, ?_⟩
  · rw [h.szAtom]; exact g.atom
  · rw [h.nBlock, h.szAtom, h.bufSize]; exact g.fits
  · rw [h.bufSize]; exact g.small

theorem mul_sep {a i j : Nat} (ha : 8 ≤ a) (h : i ≠ j) : i * a + 8 ≤ j * a ∨ j * a + 8 ≤ i * a := by
  rcases Nat.lt_or_gt_of_ne h with h | h
  · left
    have := Nat.mul_le_mul_right a (show i + 1 ≤ j from h)
    rw [Nat.add_mul, Nat.one_mul] at this; omega
  · right
    have := Nat.mul_le_mul_right a (show j + 1 ≤ i from h)
    rw [Nat.add_mul, Nat.one_mul] at this; omega

theorem setNext_spec {s : St} (g : Geo s) {i : Nat} (h : i < s.nBlock) (v : Int)
    (h1 : -2147483648 ≤ v) (h2 : v < 2147483648) :
    ∃ s', s.setNext i v = some s' ∧ Same s s' ∧ s'.flist = s.flist ∧ nx s' i = v ∧
      (∀ j, j ≠ i → nx s' j = nx s j) ∧ (∀ j, pv s' j = pv s j) ∧ (∀ j, ct s' j = ct s j) ∧
      (∀ x, (x < i * s.szAtom ∨ i * s.szAtom + 8 ≤ x) → s'.mem x = s.mem x) := by
  have hb := g.blk h
  have ht := g.tot
  refine ⟨{ s with mem := wr32 s.mem (i * s.szAtom) v }, by unfold St.setNext; rw [if_pos (by omega)], ⟨rfl, rfl, rfl, rfl, rfl, rfl, rfl, rfl, rfl, rfl, rfl⟩,
    rfl, ?_, ?_, ?_, ?_, ?_⟩
  · exact rd32_wr32 _ _ _ h1 h2
  · intro j hj
    apply rd32_congr
    intro x hx1 hx2
    apply wr32_other
    simp only at hx1 hx2
    rcases mul_sep g.atom hj with h | h <;> omega
  · intro j
    apply rd32_congr
    intro x hx1 hx2
    apply wr32_other
    simp only at hx1 hx2
    by_cases hj : j = i
    · subst hj; omega
    · rcases mul_sep g.atom hj with h | h <;> omega
  · intro j
    apply wr32_other
    simp only; omega
  · intro x hx
    apply wr32_other
    omega

theorem setPrev_spec {s : St} (g : Geo s) {i : Nat} (h : i < s.nBlock) (v : Int)
    (h1 : -2147483648 ≤ v) (h2 : v < 2147483648) :
    ∃ s', s.setPrev i v = some s' ∧ Same s s' ∧ s'.flist = s.flist ∧ pv s' i = v ∧
      (∀ j, j ≠ i → pv s' j = pv s j) ∧ (∀ j, nx s' j = nx s j) ∧ (∀ j, ct s' j = ct s j) ∧
      (∀ x, (x < i * s.szAtom ∨ i * s.szAtom + 8 ≤ x) → s'.mem x = s.mem x) := by
  have hb := g.blk h
  have ht := g.tot
  refine ⟨{ s with mem := wr32 s.mem (i * s.szAtom + 4) v }, by unfold St.setPrev; rw [if_pos (by omega)], ⟨rfl, rfl, rfl, rfl, rfl, rfl, rfl, rfl, rfl, rfl, rfl⟩,
    rfl, ?_, ?_, ?_, ?_, ?_⟩
  · exact rd32_wr32 _ _ _ h1 h2
  · intro j hj
    apply rd32_congr
    intro x hx1 hx2
    apply wr32_other
    simp only at hx1 hx2
    rcases mul_sep g.atom hj with h | h <;> omega
  · intro j
    apply rd32_congr
    intro x hx1 hx2
    apply wr32_other
    simp only at hx1 hx2
    by_cases hj : j = i
    · subst hj; omega
    · rcases mul_sep g.atom hj with h | h <;> omega
  · intro j
    apply wr32_other
    simp only; omega
  · intro x hx
    apply wr32_other
    omega

theorem setCtrl_spec {s : St} (g : Geo s) {i : Nat} (h : i < s.nBlock) (c : Byte) :
    ∃ s', s.setCtrl i c = some s' ∧ Same s s' ∧ s'.flist = s.flist ∧ ct s' i = c ∧
      (∀ j, j ≠ i → ct s' j = ct s j) ∧ (∀ j < s.nBlock, nx s' j = nx s j) ∧
      (∀ j < s.nBlock, pv s' j = pv s j) ∧
      (∀ x, x < s.nBlock * s.szAtom → s'.mem x = s.mem x) := by
  have ht := g.tot
  refine ⟨{ s with mem := fun x => if x = s.nBlock * s.szAtom + i then c else s.mem x },
    by unfold St.setCtrl; rw [if_pos (by omega)], ⟨rfl, rfl, rfl, rfl, rfl, rfl, rfl, rfl, rfl, rfl, rfl⟩,
    rfl, ?_, ?_, ?_, ?_, ?_⟩
  · unfold ct; simp only; rw [if_pos trivial]
  · intro j hj
    unfold ct; simp only; rw [if_neg (by omega)]
  · intro j hj
    have := g.blk hj
    apply rd32_congr
    intro x hx1 hx2
    simp only at hx1 hx2 ⊢
    rw [if_neg (by omega)]
  · intro j hj
    have := g.blk hj
    apply rd32_congr
    intro x hx1 hx2
    simp only at hx1 hx2 ⊢
    rw [if_neg (by omega)]
  · intro x hx
    simp only
    rw [if_neg (by omega)]

/-! ### Linked list segments -/

/-- The first element, or `e`. -/
def first (xs : List Nat) (e : Int) : Int := match xs with
  | [] => e
  | x :: _ => (x : Int)

/-- The last element, or `p`. -/
def lastI : Int → List Nat → Int
  | p, [] => p
  | _, x :: xs => lastI (x : Int) xs

/-- `xs` is linked in order; before it `p`, after it `e`. -/
def Seg (s : St) : Int → List Nat → Int → Prop
  | _, [], _ => True
  | p, x :: xs, e => pv s x = p ∧ nx s x = first xs e ∧ Seg s (x : Int) xs e

theorem Seg.congr {s s' : St} : ∀ {xs : List Nat} {p e : Int}, Seg s p xs e →
    (∀ x ∈ xs, nx s' x = nx s x ∧ pv s' x = pv s x) → Seg s' p xs e
  | [], _, _, _, _ => trivial
  | x :: xs, p, e, h, hx => by
    obtain ⟨h1, h2, h3⟩ := h
    obtain ⟨k1, k2⟩ := hx x (by simp)
    exact ⟨by rw [k2, h1], by rw [k1, h2], h3.congr (fun y hy => hx y (by simp [hy]))⟩

theorem first_append (A B : List Nat) (e : Int) : first (A ++ B) e = first A (first B e) := by
  cases A <;> rfl

theorem Seg_append {s : St} {B : List Nat} {e : Int} : ∀ {A : List Nat} {p : Int},
    Seg s p (A ++ B) e ↔ Seg s p A (first B e) ∧ Seg s (lastI p A) B e
  | [], p => by simp [Seg, lastI]
  | x :: A, p => by
    simp only [List.cons_append, Seg, lastI, first_append, Seg_append (A := A), and_assoc]

theorem lastI_snoc (A : List Nat) (a : Nat) : ∀ p, lastI p (A ++ [a]) = (a : Int) := by
  induction A with
  | nil => intro p; rfl
  | cons x A ih => intro p; exact ih _

/-- Change what comes after a segment. -/
theorem Seg.newNext {s s' : St} {A : List Nat} {a : Nat} {p e e' : Int} (h : Seg s p (A ++ [a]) e)
    (hn : a ∉ A) (h1 : nx s' a = e') (h2 : ∀ j, j ≠ a → nx s' j = nx s j) (h3 : ∀ j, pv s' j = pv s j) :
    Seg s' p (A ++ [a]) e' := by
  rw [Seg_append] at h ⊢
  obtain ⟨k1, k2, k3, _⟩ := h
  refine ⟨?_, ?_, ?_, trivial⟩
  · exact k1.congr (fun x hx => ⟨h2 x (fun e => hn (e ▸ hx)), h3 x⟩)
  · rw [h3]; exact k2
  · rw [h1]; rfl

/-- Change what comes before a segment. -/
theorem Seg.newPrev {s s' : St} {B : List Nat} {b : Nat} {p p' e : Int} (h : Seg s p (b :: B) e)
    (hn : b ∉ B) (h1 : pv s' b = p') (h2 : ∀ j, j ≠ b → pv s' j = pv s j) (h3 : ∀ j, nx s' j = nx s j) :
    Seg s' p' (b :: B) e := by
  obtain ⟨_, k2, k3⟩ := h
  exact ⟨h1, by rw [h3]; exact k2,
    k3.congr (fun x hx => ⟨h3 x, h2 x (fun e => hn (e ▸ hx))⟩)⟩

theorem first_bound {xs : List Nat} {n : Nat} (h : ∀ x ∈ xs, x < n) (hn : n < 2147483648) :
    -1 ≤ first xs (-1) ∧ first xs (-1) < 2147483648 := by
  cases xs with
  | nil => exact ⟨by decide, by decide⟩
  | cons x xs => have := h x (by simp); simp only [first]; omega

end Verif.Mplite
