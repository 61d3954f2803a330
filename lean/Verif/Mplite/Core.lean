import Verif.Mplite.Bytes
import Verif.Mplite.Tiling
/-!
# mplite: link and unlink on a tiled pool
-/
namespace Verif.Mplite

/-- Control byte of a free block. -/
def freeByte (l : Nat) : Byte := UInt8.ofNat (0x20 ||| l)

/-- Memory and free lists describe the tiling; nothing is said about the control bytes of the blocks in
`out`. -/
structure Core (s : St) (fr : Nat → List Nat) (out : List (Nat × Nat)) : Prop where
  geo : Geo s
  til : Tiling s.nBlock fr out
  head : ∀ l, s.flist l = first (fr l) (-1)
  seg : ∀ l, Seg s (-1) (fr l) (-1)
  ctrl : ∀ i l, i ∈ fr l → ct s i = freeByte l

/-- The bytes of the blocks in `out` are the same in `s'`. -/
def Keeps (s s' : St) (out : List (Nat × Nat)) : Prop :=
  ∀ b ∈ out, ∀ x, b.1 * s.szAtom ≤ x → x < (b.1 + 2 ^ b.2) * s.szAtom → s'.mem x = s.mem x

/-- The control bytes outside the block `(i, l)` are the same in `s'`. -/
def CtrlKeeps (s s' : St) (i l : Nat) : Prop := ∀ j, (j < i ∨ i + 2 ^ l ≤ j) → ct s' j = ct s j

theorem Keeps.trans {a b c : St} {out : List (Nat × Nat)} (h : Keeps a b out) (k : Keeps b c out)
    (hs : b.szAtom = a.szAtom) : Keeps a c out := by
  intro p hp x h1 h2
  rw [k p hp x (by rw [hs]; exact h1) (by rw [hs]; exact h2), h p hp x h1 h2]

theorem Keeps.sub {a b : St} {o o' : List (Nat × Nat)} (h : Keeps a b o) (hs : ∀ p ∈ o', p ∈ o) : Keeps a b o' :=
  fun p hp => h p (hs p hp)

theorem assertBlk_eq {s : St} (g : Geo s) {i l : Nat} (h1 : i < s.nBlock) (h2 : l ≤ 30)
    (h3 : (ct s i &&& 0x1f).toNat = l) : s.assertBlk i l = true := by
  unfold St.assertBlk
  rw [getCtrl_eq g h1]
  simp [h1, LOGMAX, h2, h3]

theorem freeByte_log : ∀ l, l ≤ 30 → (freeByte l &&& 0x1f).toNat = l := by
  intro l hl
  have h : ∀ l < 31, (freeByte l &&& 0x1f).toNat = l := by decide
  exact h l (by omega)

/-- A byte of a link of a block of the tiling is not a byte of another block. -/
theorem link_byte_outside {n a : Nat} {fr : Nat → List Nat} {out : List (Nat × Nat)} (t : Tiling n fr out)
    (ha : 8 ≤ a) {j k : Nat} (hj : NF fr out j k) {b : Nat × Nat} (hb : b ∈ out) (hne : b ≠ (j, k)) {x : Nat}
    (h1 : b.1 * a ≤ x) (h2 : x < (b.1 + 2 ^ b.2) * a) : x < j * a ∨ j * a + 8 ≤ x := by
  refine Classical.byContradiction fun hc => ?_
  have h3 : j * a ≤ x ∧ x < j * a + 8 := by omega
  have h4 : j < b.1 + 2 ^ b.2 := by
    have : j * a < (b.1 + 2 ^ b.2) * a := by omega
    exact Nat.lt_of_mul_lt_mul_right this
  have h5 : b.1 < j + 1 := by
    have : b.1 * a < (j + 1) * a := by rw [Nat.add_mul, Nat.one_mul]; omega
    exact Nat.lt_of_mul_lt_mul_right this
  have hp : 0 < 2 ^ k := Nat.pow_pos (by decide)
  obtain ⟨e1, e2⟩ := t.disj b.1 b.2 j k (Or.inr hb) hj (by omega) h4
  exact hne (Prod.ext e1 e2)

/-- `setList` only. -/
theorem setList_same (s : St) (l : Nat) (v : Int) : Same s (s.setList l v) :=
  ⟨rfl, rfl, rfl, rfl, rfl, rfl, rfl, rfl, rfl, rfl, rfl⟩

theorem nx_setList (s : St) (l : Nat) (v : Int) (i : Nat) : nx (s.setList l v) i = nx s i := rfl
theorem pv_setList (s : St) (l : Nat) (v : Int) (i : Nat) : pv (s.setList l v) i = pv s i := rfl
theorem ct_setList (s : St) (l : Nat) (v : Int) (i : Nat) : ct (s.setList l v) i = ct s i := rfl

theorem fixPrev_nil (s : St) (i : Nat) : fixPrev s (-1) i = some s := by
  unfold fixPrev; rw [if_neg (by decide)]

theorem fixPrev_cons (s : St) (x i : Nat) (h : x < s.nBlock) : fixPrev s (x : Int) i = s.setPrev x i := by
  unfold fixPrev; rw [if_pos (Int.natCast_nonneg x), Int.toNat_natCast, if_pos h]

theorem unlinkNext_nil (s : St) (p : Int) : unlinkNext s (-1) p = some s := by
  unfold unlinkNext; rw [if_neg (by decide)]

theorem unlinkNext_cons (s : St) (x : Nat) (p : Int) : unlinkNext s (x : Int) p = s.setPrev x p := by
  unfold unlinkNext; rw [if_pos (Int.natCast_nonneg x), Int.toNat_natCast]

theorem unlinkPrev_nil (s : St) (l : Nat) (n : Int) : unlinkPrev s l n (-1) = some (s.setList l n) := by
  unfold unlinkPrev; rw [if_pos (by decide)]

theorem unlinkPrev_cons (s : St) (l x : Nat) (n : Int) : unlinkPrev s l n (x : Int) = s.setNext x n := by
  unfold unlinkPrev; rw [if_neg (by omega), Int.toNat_natCast]

/-- `mplite_link` puts the block at the head of its free list. -/
theorem link_spec {s : St} {fr : Nat → List Nat} {out : List (Nat × Nat)} {i l : Nat}
    (c : Core s fr ((i, l) :: out)) (hc : ct s i = freeByte l) :
    ∃ s', link s i l = some s' ∧ Same s s' ∧ Core s' (upd fr l (i :: fr l)) out ∧ Keeps s s' out ∧
      (∀ j, ct s' j = ct s j) := by
  have g := c.geo
  have hb : NF fr ((i, l) :: out) i l := Or.inr (by simp)
  have hi := c.til.lt hb
  have hl := c.til.log hb
  have hnf : i ∉ fr l := fun h => c.til.excl i l h (by simp)
  have hfl : ∀ x ∈ fr l, x < s.nBlock := fun x hx => c.til.lt (Or.inl hx)
  have hfb := first_bound hfl g.nB
  obtain ⟨s1, a1, a2, a3, a4, a5, a6, a7, a8⟩ := setNext_spec g hi (s.flist l)
    (by rw [c.head]; omega) (by rw [c.head]; omega)
  have g1 := a2.geo g
  obtain ⟨s2, b1, b2, b3, b4, b5, b6, b7, b8⟩ := setPrev_spec g1 (i := i) (by rw [a2.nBlock]; exact hi) (-1)
    (by decide) (by decide)
  have s02 := a2.trans b2
  have g2 := b2.geo g1
  -- the third step
  have h3 : ∃ s3, fixPrev s2 (s.flist l) i = some s3 ∧ Same s2 s3 ∧ s3.flist = s2.flist ∧
      (∀ j, nx s3 j = nx s2 j) ∧ (∀ j, ct s3 j = ct s2 j) ∧ (∀ j, j ∉ fr l → pv s3 j = pv s2 j) ∧
      (Seg s3 (i : Int) (fr l) (-1)) ∧
      (∀ x, (∀ j ∈ fr l, x < j * s.szAtom ∨ j * s.szAtom + 8 ≤ x) → s3.mem x = s2.mem x) := by
    rw [c.head]
    have hseg := c.seg l
    have hnod := c.til.nodF l
    cases hf : fr l with
    | nil =>
      rw [hf] at hseg
      rw [show first [] (-1) = -1 from rfl, fixPrev_nil]
      exact ⟨s2, rfl, Same.refl _, rfl, fun _ => rfl, fun _ => rfl, fun _ _ => rfl, trivial, fun _ _ => rfl⟩
    | cons x xs =>
      have hx := hfl x (by rw [hf]; simp)
      rw [hf] at hseg hnod hnf
      rw [show first (x :: xs) (-1) = (x : Int) from rfl, fixPrev_cons s2 x i (by rw [s02.nBlock]; exact hx)]
      obtain ⟨s3, d1, d2, d3, d4, d5, d6, d7, d8⟩ := setPrev_spec g2 (i := x) (by rw [s02.nBlock]; exact hx) (i : Int)
        (by omega) (by have := g.nB; omega)
      refine ⟨s3, d1, d2, d3, d6, d7, fun j hj => d5 j (fun e => hj (by simp [e])), ?_, ?_⟩
      · have hs2 : Seg s2 (-1) (x :: xs) (-1) := by
          refine hseg.congr ?_
          intro y hy
          have hyi : y ≠ i := fun e => hnf (e ▸ hy)
          exact ⟨by rw [b6, a5 y hyi], by rw [b5 y hyi, a6]⟩
        exact hs2.newPrev (List.nodup_cons.mp hnod).1 d4 d5 d6
      · intro y hy
        apply d8
        rw [s02.szAtom]
        exact hy x (by simp)
  obtain ⟨s3, d1, d2, d3, d4, d5, d6, d7, d8⟩ := h3
  have s03 := s02.trans d2
  have hct : ∀ j, ct s3 j = ct s j := fun j => by rw [d5, b7, a7]
  have hmem : ∀ x, (∀ j ∈ i :: fr l, x < j * s.szAtom ∨ j * s.szAtom + 8 ≤ x) → s3.mem x = s.mem x := by
    intro x hx
    rw [d8 x (fun j hj => hx j (by simp [hj])), b8 x (by rw [a2.szAtom]; exact hx i (by simp)),
      a8 x (hx i (by simp))]
  refine ⟨s3.setList l i, ?_, s03.trans (setList_same _ _ _), ?_, ?_, ?_⟩
  · unfold link
    rw [assertBlk_eq g hi hl (by rw [hc]; exact freeByte_log l hl)]
    simp only [if_true]
    rw [a1, Option.bind_some, b1, Option.bind_some, d1]
    rfl
  · have hsame := s03.trans (setList_same s3 l i)
    refine ⟨hsame.geo g, by rw [hsame.nBlock]; exact c.til.put, ?_, ?_, ?_⟩
    · intro k
      simp only [St.setList]
      by_cases hk : k = l
      · subst hk; rw [if_pos rfl, upd_self]; rfl
      · rw [if_neg hk, upd_ne fr _ hk, d3, b3, a3, c.head]
    · intro k
      by_cases hk : k = l
      · subst hk
        rw [upd_self]
        refine ⟨?_, ?_, ?_⟩
        · rw [pv_setList, d6 i hnf, b4]
        · rw [nx_setList, d4, b6, a4, c.head]
        · exact d7.congr (fun x _ => ⟨rfl, rfl⟩)
      · rw [upd_ne fr _ hk]
        refine (c.seg k).congr ?_
        intro y hy
        have hyb : NF fr ((i, l) :: out) y k := Or.inl hy
        have hp : 0 < 2 ^ k := Nat.pow_pos (by decide)
        have hpl : 0 < 2 ^ l := Nat.pow_pos (by decide)
        have hyi : y ≠ i := by
          intro e; subst e
          exact hk ((c.til.disj y k y l hyb hb (by omega) (by omega)).2)
        have hyf : y ∉ fr l := by
          intro e
          exact hk ((c.til.disj y k y l hyb (Or.inl e) (by omega) (by omega)).2)
        refine ⟨?_, ?_⟩
        · rw [nx_setList, d4, b6, a5 y hyi]
        · rw [pv_setList, d6 y hyf, b5 y hyi, a6]
    · intro j k hj
      rw [ct_setList, hct]
      by_cases hk : k = l
      · subst hk
        rw [upd_self, List.mem_cons] at hj
        rcases hj with rfl | hj
        · exact hc
        · exact c.ctrl j k hj
      · rw [upd_ne fr _ hk] at hj
        exact c.ctrl j k hj
  · intro b hbo x h1 h2
    apply hmem
    intro j hj
    rw [List.mem_cons] at hj
    have hno := List.nodup_cons.mp c.til.nodO
    rcases hj with rfl | hj
    · exact link_byte_outside c.til g.atom hb (by simp [hbo]) (fun e => hno.1 (e ▸ hbo)) h1 h2
    · exact link_byte_outside c.til g.atom (Or.inl hj : NF fr ((i, l) :: out) j l) (by simp [hbo])
        (fun e => c.til.excl j l hj (by rw [← e]; simp [hbo])) h1 h2
  · intro j; rw [ct_setList, hct]

theorem eq_nil_or_snoc {α : Type} (l : List α) : l = [] ∨ ∃ A a, l = A ++ [a] := by
  cases h : l.reverse with
  | nil => left; simpa using h
  | cons a A =>
    right
    refine ⟨A.reverse, a, ?_⟩
    have := congrArg List.reverse h
    simpa using this

/-- `mplite_unlink` takes the block off its free list. -/
theorem unlink_spec {s : St} {fr : Nat → List Nat} {out : List (Nat × Nat)} {i l : Nat}
    (c : Core s fr out) (hi : i ∈ fr l) :
    ∃ s', unlink s i l = some s' ∧ Same s s' ∧ Core s' (upd fr l ((fr l).erase i)) ((i, l) :: out) ∧
      Keeps s s' out ∧ (∀ j, ct s' j = ct s j) := by
  have g := c.geo
  have hb : NF fr out i l := Or.inl hi
  have hin := c.til.lt hb
  have hl := c.til.log hb
  have hnod := c.til.nodF l
  have hfl : ∀ x ∈ fr l, x < s.nBlock := fun x hx => c.til.lt (Or.inl hx)
  obtain ⟨A, B, hAB⟩ := List.append_of_mem hi
  have hseg := c.seg l
  rw [hAB] at hseg hnod hfl
  have hiA : i ∉ A := by
    intro h
    exact (List.nodup_append.mp hnod).2.2 i h i (by simp) rfl
  have hiB : i ∉ B := (List.nodup_cons.mp (List.nodup_append.mp hnod).2.1).1
  have her : (fr l).erase i = A ++ B := by rw [hAB, List.erase_append_right _ hiA, List.erase_cons_head]
  rw [Seg_append] at hseg
  obtain ⟨hA, hpv, hnx, hB⟩ := hseg
  have hA : Seg s (-1) A (i : Int) := hA
  have hfB : ∀ x ∈ B, x < s.nBlock := fun x hx => hfl x (by simp [hx])
  have hfA : ∀ x ∈ A, x < s.nBlock := fun x hx => hfl x (by simp [hx])
  have hbB := first_bound hfB g.nB
  have hdisAB : ∀ x ∈ A, x ∉ B := fun x hx hxB =>
    (List.nodup_append.mp hnod).2.2 x hx x (by simp [hxB]) rfl
  -- step 1
  have h1 : ∃ s1, unlinkPrev s l (first B (-1)) (lastI (-1) A) = some s1 ∧ Same s s1 ∧
      (∀ k, s1.flist k = if k = l then first (A ++ B) (-1) else s.flist k) ∧
      (∀ j, j ∉ A → nx s1 j = nx s j) ∧ (∀ j, pv s1 j = pv s j) ∧ (∀ j, ct s1 j = ct s j) ∧
      Seg s1 (-1) A (first B (-1)) ∧
      (∀ x, (∀ j ∈ A, x < j * s.szAtom ∨ j * s.szAtom + 8 ≤ x) → s1.mem x = s.mem x) := by
    rcases eq_nil_or_snoc A with rfl | ⟨A', a, rfl⟩
    · rw [show lastI (-1) [] = -1 from rfl, unlinkPrev_nil]
      exact ⟨_, rfl, setList_same _ _ _, fun k => rfl, fun _ _ => rfl, fun _ => rfl, fun _ => rfl, trivial,
        fun _ _ => rfl⟩
    · have ha : a < s.nBlock := hfA a (by simp)
      rw [lastI_snoc, unlinkPrev_cons]
      obtain ⟨s1, d1, d2, d3, d4, d5, d6, d7, d8⟩ := setNext_spec g ha (first B (-1)) (by omega) (by omega)
      have hnA : (A' ++ [a]).Nodup := (List.nodup_append.mp hnod).1
      have haA : a ∉ A' := fun h => (List.nodup_append.mp hnA).2.2 a h a (by simp) rfl
      refine ⟨s1, d1, d2, ?_, fun j hj => d5 j (fun e => hj (by simp [e])), d6, d7, hA.newNext haA d4 d5 d6,
        fun x hx => d8 x (hx a (by simp))⟩
      intro k
      rw [d3]
      by_cases hk : k = l
      · subst hk
        rw [if_pos rfl, c.head, hAB]
        cases A' <;> rfl
      · rw [if_neg hk]
  obtain ⟨s1, a1, a2, a3, a4, a5, a6, a7, a8⟩ := h1
  have g1 := a2.geo g
  -- step 2
  have hlast : -1 ≤ lastI (-1) A ∧ lastI (-1) A < 2147483648 := by
    rcases eq_nil_or_snoc A with rfl | ⟨A', a, rfl⟩
    · exact ⟨by decide, by decide⟩
    · rw [lastI_snoc]
      have := hfA a (by simp)
      have := g.nB
      omega
  have hB1 : Seg s1 (i : Int) B (-1) := hB.congr (fun x hx => ⟨a4 x (fun h => hdisAB x h hx), a5 x⟩)
  have h2 : ∃ s2, unlinkNext s1 (first B (-1)) (lastI (-1) A) = some s2 ∧ Same s1 s2 ∧ s2.flist = s1.flist ∧
      (∀ j, nx s2 j = nx s1 j) ∧ (∀ j, j ∉ B → pv s2 j = pv s1 j) ∧ (∀ j, ct s2 j = ct s1 j) ∧
      Seg s2 (lastI (-1) A) B (-1) ∧
      (∀ x, (∀ j ∈ B, x < j * s.szAtom ∨ j * s.szAtom + 8 ≤ x) → s2.mem x = s1.mem x) := by
    cases B with
    | nil =>
      rw [show first [] (-1) = -1 from rfl, unlinkNext_nil]
      exact ⟨s1, rfl, Same.refl _, rfl, fun _ => rfl, fun _ _ => rfl, fun _ => rfl, trivial, fun _ _ => rfl⟩
    | cons b B =>
      rw [show first (b :: B) (-1) = (b : Int) from rfl, unlinkNext_cons]
      have hbn : b < s.nBlock := hfB b (by simp)
      obtain ⟨s2, d1, d2, d3, d4, d5, d6, d7, d8⟩ := setPrev_spec g1 (i := b) (by rw [a2.nBlock]; exact hbn)
        (lastI (-1) A) (by omega) (by omega)
      have hnB : (b :: B).Nodup := (List.nodup_cons.mp (List.nodup_append.mp hnod).2.1).2
      refine ⟨s2, d1, d2, d3, d6, fun j hj => d5 j (fun e => hj (by simp [e])), d7,
        hB1.newPrev (List.nodup_cons.mp hnB).1 d4 d5 d6, ?_⟩
      intro x hx
      apply d8
      rw [a2.szAtom]; exact hx b (by simp)
  obtain ⟨s2, b1, b2, b3, b4, b5, b6, b7, b8⟩ := h2
  have hsame := a2.trans b2
  have hmem : ∀ x, (∀ j ∈ fr l, x < j * s.szAtom ∨ j * s.szAtom + 8 ≤ x) → s2.mem x = s.mem x := by
    intro x hx
    rw [b8 x (fun j hj => hx j (by rw [hAB]; simp [hj])), a8 x (fun j hj => hx j (by rw [hAB]; simp [hj]))]
  refine ⟨s2, ?_, hsame, ?_, ?_, fun j => by rw [b6, a6]⟩
  · unfold unlink
    rw [assertBlk_eq g hin hl (by rw [c.ctrl i l hi]; exact freeByte_log l hl)]
    simp only [if_true]
    rw [getNext_eq g hin, Option.bind_some, getPrev_eq g hin, Option.bind_some, hnx, hpv, a1, Option.bind_some, b1]
  · refine ⟨hsame.geo g, by rw [hsame.nBlock]; exact c.til.take hi, ?_, ?_, ?_⟩
    · intro k
      rw [b3, a3]
      by_cases hk : k = l
      · subst hk; rw [if_pos rfl, upd_self, her]
      · rw [if_neg hk, upd_ne fr _ hk, c.head]
    · intro k
      by_cases hk : k = l
      · subst hk
        rw [upd_self, her, Seg_append]
        refine ⟨a7.congr (fun x hx => ⟨b4 x, b5 x (hdisAB x hx)⟩), b7⟩
      · rw [upd_ne fr _ hk]
        refine (c.seg k).congr ?_
        intro y hy
        have hyf : y ∉ fr l := by
          intro e
          have hp : 0 < 2 ^ k := Nat.pow_pos (by decide)
          have hpl : 0 < 2 ^ l := Nat.pow_pos (by decide)
          exact hk ((c.til.disj y k y l (Or.inl hy) (Or.inl e) (by omega) (by omega)).2)
        have hyA : y ∉ A := fun h => hyf (by rw [hAB]; simp [h])
        have hyB : y ∉ B := fun h => hyf (by rw [hAB]; simp [h])
        exact ⟨by rw [b4, a4 y hyA], by rw [b5 y hyB, a5]⟩
    · intro j k hj
      rw [b6, a6]
      by_cases hk : k = l
      · subst hk
        rw [upd_self] at hj
        exact c.ctrl j k (List.mem_of_mem_erase hj)
      · rw [upd_ne fr _ hk] at hj
        exact c.ctrl j k hj
  · intro b hbo x h1 h2
    apply hmem
    intro j hj
    exact link_byte_outside c.til g.atom (Or.inl hj) hbo
      (fun e => c.til.excl j l hj (by rw [← e]; exact hbo)) h1 h2

/-- Writing a control byte inside a block that is not free. -/
theorem setCtrl_core {s : St} {fr : Nat → List Nat} {out : List (Nat × Nat)} {i l : Nat}
    (c : Core s fr out) (hb : (i, l) ∈ out) {j : Nat} (h1 : i ≤ j) (h2 : j < i + 2 ^ l) (v : Byte) :
    ∃ s', s.setCtrl j v = some s' ∧ Same s s' ∧ Core s' fr out ∧ Keeps s s' out ∧ ct s' j = v ∧
      (∀ k, k ≠ j → ct s' k = ct s k) := by
  have hj : j < s.nBlock := by have := (c.til.align i l (Or.inr hb)).2; omega
  obtain ⟨s', a1, a2, a3, a4, a5, a6, a7, a8⟩ := setCtrl_spec c.geo hj v
  refine ⟨s', a1, a2, ⟨a2.geo c.geo, by rw [a2.nBlock]; exact c.til, fun l => by rw [a3, c.head], ?_, ?_⟩, ?_, a4, a5⟩
  · intro k
    exact (c.seg k).congr (fun x hx => ⟨a6 x (c.til.lt (Or.inl hx)), a7 x (c.til.lt (Or.inl hx))⟩)
  · intro p k hp
    have hne : p ≠ j := by
      intro e
      subst e
      have hpk : 0 < 2 ^ k := Nat.pow_pos (by decide)
      obtain ⟨e1, e2⟩ := c.til.disj p k i l (Or.inl hp) (Or.inr hb) h2 (by omega)
      subst e1; subst e2
      exact c.til.excl _ _ hp hb
    rw [a5 p hne]; exact c.ctrl p k hp
  · intro b hbo x h3 h4
    apply a8
    have := (c.til.align b.1 b.2 (Or.inr hbo)).2
    have := Nat.mul_le_mul_right s.szAtom this
    omega

/-- Replace the non-free blocks by another tiling of the same space. -/
theorem Core.retile {s : St} {fr : Nat → List Nat} {out out' : List (Nat × Nat)} (c : Core s fr out)
    (t : Tiling s.nBlock fr out') : Core s fr out' := ⟨c.geo, t, c.head, c.seg, c.ctrl⟩

theorem Core.stats {s s' : St} {fr : Nat → List Nat} {out : List (Nat × Nat)} (c : Core s fr out)
    (h1 : s'.szAtom = s.szAtom) (h2 : s'.nBlock = s.nBlock) (h3 : s'.bufSize = s.bufSize)
    (h4 : s'.mem = s.mem) (h5 : s'.flist = s.flist) : Core s' fr out := by
  refine ⟨⟨by rw [h1]; exact c.geo.atom, by rw [h1, h2, h3]; exact c.geo.fits, by rw [h3]; exact c.geo.small⟩,
    by rw [h2]; exact c.til, by rw [h5]; exact c.head, ?_, ?_⟩
  · intro l
    exact (c.seg l).congr (fun x _ => ⟨by unfold nx; rw [h4, h1], by unfold pv; rw [h4, h1]⟩)
  · intro i l hi
    have := c.ctrl i l hi
    unfold ct at this ⊢
    rw [h4, h1, h2]; exact this

end Verif.Mplite
