import Verif.Mplite.Props
/-!
# mplite: a locked section and a byte of a block it does not work on

Putting any value into a byte of a taken block, or a value without the "free" bit into its control byte, before or
after a locked section that works on other blocks comes to the same: the section neither reads nor writes the bytes of
the block, does not write its control byte and sees only its "free" bit.
-/
namespace Verif.Mplite

/-- The byte `a` is one of block `o`, or is its control byte and `v` is not marked free. -/
structure Poke (sz nB : Nat) (o : Nat × Nat) (a : Nat) (v : Byte) : Prop where
  atom : 8 ≤ sz
  fits : o.1 + 2 ^ o.2 ≤ nB
  at' : (o.1 * sz ≤ a ∧ a < (o.1 + 2 ^ o.2) * sz) ∨ (a = nB * sz + o.1 ∧ v &&& 0x20 = 0)

/-- Index `j` is not in block `o`. -/
def Off (nB : Nat) (o : Nat × Nat) (j : Nat) : Prop := j < nB ∧ (j < o.1 ∨ o.1 + 2 ^ o.2 ≤ j)

theorem Poke.link {sz nB : Nat} {o : Nat × Nat} {a : Nat} {v : Byte} (h : Poke sz nB o a v) {j : Nat} (hj : Off nB o j) :
    a < j * sz ∨ j * sz + 8 ≤ a := by
  obtain ⟨h1, h2, h3⟩ := h
  obtain ⟨h4, h5⟩ := hj
  have e : (j + 1) * sz = j * sz + sz := by rw [Nat.add_mul, Nat.one_mul]
  rcases h3 with ⟨h3, h6⟩ | ⟨h3, _⟩
  · rcases h5 with h5 | h5
    · have := Nat.mul_le_mul_right sz (show j + 1 ≤ o.1 by omega)
      omega
    · have := Nat.mul_le_mul_right sz h5
      omega
  · have := Nat.mul_le_mul_right sz (show j + 1 ≤ nB by omega)
    omega

theorem Poke.ctrl {sz nB : Nat} {o : Nat × Nat} {a : Nat} {v : Byte} (h : Poke sz nB o a v) {j : Nat} (hj : Off nB o j) :
    nB * sz + j ≠ a := by
  obtain ⟨h1, h2, h3⟩ := h
  obtain ⟨h4, h5⟩ := hj
  have hp : 0 < 2 ^ o.2 := Nat.pow_pos (by decide)
  rcases h3 with ⟨h3, h6⟩ | ⟨h3, _⟩
  · have := Nat.mul_le_mul_right sz h2
    omega
  · omega

/-- Blocks other than `o`. -/
theorem Tiling.off {n : Nat} {fr : Nat → List Nat} {out : List (Nat × Nat)} (t : Tiling n fr out) {o : Nat × Nat}
    (ho : o ∈ out) {i l j : Nat} (h : NF fr out i l) (hne : (i, l) ≠ o) (h1 : i ≤ j) (h2 : j < i + 2 ^ l) : Off n o j := by
  refine ⟨by have := (t.align i l h).2; omega, ?_⟩
  refine Classical.byContradiction fun hc => hne ?_
  obtain ⟨e1, e2⟩ := t.disj i l o.1 o.2 h (Or.inr ho) (by omega) (by omega)
  exact Prod.ext e1 e2

theorem Tiling.offF {n : Nat} {fr : Nat → List Nat} {out : List (Nat × Nat)} (t : Tiling n fr out) {o : Nat × Nat}
    (ho : o ∈ out) {i l : Nat} (h : i ∈ fr l) : Off n o i :=
  t.off ho (Or.inl h) (fun e => t.excl i l h (by rw [e]; exact ho)) (Nat.le_refl _)
    (by have : 0 < 2 ^ l := Nat.pow_pos (by decide); omega)

theorem Tiling.offO {n : Nat} {fr : Nat → List Nat} {out : List (Nat × Nat)} {i l : Nat} (t : Tiling n fr ((i, l) :: out))
    {o : Nat × Nat} (ho : o ∈ out) {j : Nat} (h1 : i ≤ j) (h2 : j < i + 2 ^ l) : Off n o j :=
  t.off (by simp [ho]) (Or.inr (by simp)) (fun e => (List.nodup_cons.mp t.nodO).1 (by rw [e]; exact ho)) h1 h2

section
variable {a : Nat} {v : Byte} {o : Nat × Nat}

/-! ### The accesses -/

theorem getNext_w {s : St} (hp : Poke s.szAtom s.nBlock o a v) {j : Nat} (hj : Off s.nBlock o j) :
    (write s a v).getNext j = s.getNext j := by
  have h := hp.link hj
  unfold St.getNext
  show (if _ then some (rd32 (write s a v).mem (j * s.szAtom)) else none) = _
  rw [rd32_congr (m := s.mem) (m' := (write s a v).mem) (fun x h1 h2 => if_neg (by omega))]; rfl

theorem getPrev_w {s : St} (hp : Poke s.szAtom s.nBlock o a v) {j : Nat} (hj : Off s.nBlock o j) :
    (write s a v).getPrev j = s.getPrev j := by
  have h := hp.link hj
  unfold St.getPrev
  show (if _ then some (rd32 (write s a v).mem (j * s.szAtom + 4)) else none) = _
  rw [rd32_congr (m := s.mem) (m' := (write s a v).mem) (fun x h1 h2 => if_neg (by omega))]; rfl

theorem getCtrl_w {s : St} (hp : Poke s.szAtom s.nBlock o a v) {j : Nat} (hj : Off s.nBlock o j) :
    (write s a v).getCtrl j = s.getCtrl j := by
  have h := hp.ctrl hj
  unfold St.getCtrl
  show (if s.nBlock * s.szAtom + j < s.bufSize then
    some (if s.nBlock * s.szAtom + j = a then v else s.mem (s.nBlock * s.szAtom + j)) else none) = _
  rw [if_neg h]

theorem wr32_w (m : Nat → Byte) {p : Nat} (y : Int) (h : a < p ∨ p + 4 ≤ a) :
    wr32 (fun x => if x = a then v else m x) p y = fun x => if x = a then v else wr32 m p y x := by
  funext x
  by_cases hx : x = a
  · subst hx
    rw [wr32_other _ _ _ _ h]
    simp
  · rw [if_neg hx]
    unfold wr32
    simp only [hx, if_false]

theorem setNext_w {s : St} (hp : Poke s.szAtom s.nBlock o a v) {j : Nat} (hj : Off s.nBlock o j) (y : Int) :
    (write s a v).setNext j y = (s.setNext j y).map (write · a v) := by
  have h := hp.link hj
  unfold St.setNext
  by_cases hb : j * s.szAtom + 4 ≤ s.bufSize
  · rw [if_pos hb, if_pos (show j * (write s a v).szAtom + 4 ≤ (write s a v).bufSize from hb)]
    show some { s with mem := wr32 (fun x => if x = a then v else s.mem x) (j * s.szAtom) y } = _
    rw [wr32_w _ _ (by omega)]; rfl
  · rw [if_neg hb, if_neg (show ¬ j * (write s a v).szAtom + 4 ≤ (write s a v).bufSize from hb)]; rfl

theorem setPrev_w {s : St} (hp : Poke s.szAtom s.nBlock o a v) {j : Nat} (hj : Off s.nBlock o j) (y : Int) :
    (write s a v).setPrev j y = (s.setPrev j y).map (write · a v) := by
  have h := hp.link hj
  unfold St.setPrev
  by_cases hb : j * s.szAtom + 8 ≤ s.bufSize
  · rw [if_pos hb, if_pos (show j * (write s a v).szAtom + 8 ≤ (write s a v).bufSize from hb)]
    show some { s with mem := wr32 (fun x => if x = a then v else s.mem x) (j * s.szAtom + 4) y } = _
    rw [wr32_w _ _ (by omega)]; rfl
  · rw [if_neg hb, if_neg (show ¬ j * (write s a v).szAtom + 8 ≤ (write s a v).bufSize from hb)]; rfl

theorem setCtrl_w {s : St} (hp : Poke s.szAtom s.nBlock o a v) {j : Nat} (hj : Off s.nBlock o j) (c : Byte) :
    (write s a v).setCtrl j c = (s.setCtrl j c).map (write · a v) := by
  have h := hp.ctrl hj
  unfold St.setCtrl
  by_cases hb : s.nBlock * s.szAtom + j < s.bufSize
  · rw [if_pos hb, if_pos (show (write s a v).nBlock * (write s a v).szAtom + j < (write s a v).bufSize from hb),
      Option.map_some]
    congr 1
    show { s with mem := fun x => if x = s.nBlock * s.szAtom + j then c else if x = a then v else s.mem x } =
      { s with mem := fun x => if x = a then v else if x = s.nBlock * s.szAtom + j then c else s.mem x }
    congr 1
    funext x
    by_cases h1 : x = a
    · rw [if_pos h1, if_neg (by omega), if_pos h1]
    · rw [if_neg h1, if_neg h1]
  · rw [if_neg hb, if_neg (show ¬ (write s a v).nBlock * (write s a v).szAtom + j < (write s a v).bufSize from hb)]; rfl

theorem setList_w (s : St) (l : Nat) (y : Int) : (write s a v).setList l y = write (s.setList l y) a v := rfl

/-- Same dimensions. -/
def Dim (s t : St) : Prop := t.szAtom = s.szAtom ∧ t.nBlock = s.nBlock

theorem setNext_dim {s t : St} {j : Nat} {y : Int} (h : s.setNext j y = some t) : Dim s t := by
  unfold St.setNext at h
  split at h
  · injection h with h; subst h; exact ⟨rfl, rfl⟩
  · cases h

theorem setPrev_dim {s t : St} {j : Nat} {y : Int} (h : s.setPrev j y = some t) : Dim s t := by
  unfold St.setPrev at h
  split at h
  · injection h with h; subst h; exact ⟨rfl, rfl⟩
  · cases h

theorem setCtrl_dim {s t : St} {j : Nat} {y : Byte} (h : s.setCtrl j y = some t) : Dim s t := by
  unfold St.setCtrl at h
  split at h
  · injection h with h; subst h; exact ⟨rfl, rfl⟩
  · cases h

theorem bind_w {β : Type} {x : Option St} {f : St → Option β} {g : β → β}
    (h : ∀ t, x = some t → f (write t a v) = (f t).map g) : (x.map (write · a v)).bind f = (x.bind f).map g := by
  cases x with
  | none => rfl
  | some t => exact h t rfl

theorem assertBlk_w {s : St} (hp : Poke s.szAtom s.nBlock o a v) {j : Nat} (hj : Off s.nBlock o j) (l : Nat) :
    (write s a v).assertBlk j l = s.assertBlk j l := by
  unfold St.assertBlk
  rw [getCtrl_w hp hj]; rfl

theorem fixPrev_w {s : St} (hp : Poke s.szAtom s.nBlock o a v) {x : Int} (hx : 0 ≤ x → Off s.nBlock o x.toNat) (i : Nat) :
    fixPrev (write s a v) x i = (fixPrev s x i).map (write · a v) := by
  unfold fixPrev
  by_cases h : 0 ≤ x
  · rw [if_pos h, if_pos h]
    have := hx h
    rw [if_pos (show x.toNat < (write s a v).nBlock from this.1), if_pos this.1, setPrev_w hp this]
  · rw [if_neg h, if_neg h]; rfl

theorem link_prim {s : St} (hp : Poke s.szAtom s.nBlock o a v) {i l : Nat} (hi : Off s.nBlock o i)
    (hx : 0 ≤ s.flist l → Off s.nBlock o (s.flist l).toNat) :
    link (write s a v) i l = (link s i l).map (write · a v) := by
  unfold link
  rw [assertBlk_w hp hi]
  cases s.assertBlk i l with
  | false => rfl
  | true =>
    simp only [if_true]
    rw [show (write s a v).flist = s.flist from rfl, setNext_w hp hi]
    refine bind_w fun s1 h1 => ?_
    obtain ⟨e1, e2⟩ := setNext_dim h1
    have hp1 : Poke s1.szAtom s1.nBlock o a v := by rw [e1, e2]; exact hp
    rw [setPrev_w hp1 (by rw [e2]; exact hi)]
    refine bind_w fun s2 h2 => ?_
    obtain ⟨e3, e4⟩ := setPrev_dim h2
    have hp2 : Poke s2.szAtom s2.nBlock o a v := by rw [e3, e4]; exact hp1
    rw [fixPrev_w hp2 (by rw [e4, e2]; exact hx)]
    cases fixPrev s2 (s.flist l) i <;> rfl

theorem unlink_prim {s : St} (hp : Poke s.szAtom s.nBlock o a v) {i l : Nat} (hi : Off s.nBlock o i)
    (hn : ∀ y, s.getNext i = some y → 0 ≤ y → Off s.nBlock o y.toNat)
    (hq : ∀ y, s.getPrev i = some y → 0 ≤ y → Off s.nBlock o y.toNat) :
    unlink (write s a v) i l = (unlink s i l).map (write · a v) := by
  unfold unlink
  rw [assertBlk_w hp hi]
  cases s.assertBlk i l with
  | false => rfl
  | true =>
    simp only [if_true]
    rw [getNext_w hp hi, getPrev_w hp hi]
    cases h1 : s.getNext i with
    | none => rfl
    | some next =>
      cases h2 : s.getPrev i with
      | none => rfl
      | some prev =>
        simp only [Option.bind_some]
        have h3 : unlinkPrev (write s a v) l next prev = (unlinkPrev s l next prev).map (write · a v) ∧
            ∀ t, unlinkPrev s l next prev = some t → Dim s t := by
          unfold unlinkPrev
          by_cases h : prev < 0
          · rw [if_pos h, if_pos h]
            refine ⟨rfl, fun t e => ?_⟩
            injection e with e; subst e; exact ⟨rfl, rfl⟩
          · rw [if_neg h, if_neg h]
            exact ⟨setNext_w hp (hq prev h2 (by omega)) next, fun t e => setNext_dim e⟩
        rw [h3.1]
        refine bind_w fun s1 e1 => ?_
        obtain ⟨d1, d2⟩ := h3.2 s1 e1
        have hp1 : Poke s1.szAtom s1.nBlock o a v := by rw [d1, d2]; exact hp
        unfold unlinkNext
        by_cases h : 0 ≤ next
        · rw [if_pos h, if_pos h]
          exact setPrev_w hp1 (by rw [d2]; exact hn next h1 h) prev
        · rw [if_neg h, if_neg h]; rfl

/-! ### The operations on a tiled pool -/

theorem head_off {s : St} {fr : Nat → List Nat} {out : List (Nat × Nat)} (c : Core s fr out) (ho : o ∈ out) (l : Nat) :
    0 ≤ s.flist l → Off s.nBlock o (s.flist l).toNat := by
  rw [c.head]
  cases hf : fr l with
  | nil => intro h; exact absurd h (by decide)
  | cons x xs =>
    intro _
    show Off _ _ (x : Int).toNat
    rw [Int.toNat_natCast]
    exact c.til.offF ho (l := l) (by rw [hf]; simp)

theorem link_w {s : St} {fr : Nat → List Nat} {out : List (Nat × Nat)} {i l : Nat} (c : Core s fr ((i, l) :: out))
    (ho : o ∈ out) (hp : Poke s.szAtom s.nBlock o a v) : link (write s a v) i l = (link s i l).map (write · a v) :=
  link_prim hp (c.til.offO ho (Nat.le_refl _) (by have : 0 < 2 ^ l := Nat.pow_pos (by decide); omega))
    (head_off c (by simp [ho]) l)

/-- The neighbours in a list. -/
theorem Seg.nbr {s : St} {xs : List Nat} (h : Seg s (-1) xs (-1)) {i : Nat} (hi : i ∈ xs) :
    (0 ≤ nx s i → (nx s i).toNat ∈ xs) ∧ (0 ≤ pv s i → (pv s i).toNat ∈ xs) := by
  obtain ⟨A, B, rfl⟩ := List.append_of_mem hi
  rw [Seg_append] at h
  obtain ⟨_, h1, h2, _⟩ := h
  constructor
  · rw [h2]
    cases B with
    | nil => intro h; exact absurd h (by decide)
    | cons b B =>
      intro _
      show (b : Int).toNat ∈ _
      rw [Int.toNat_natCast]; simp
  · rw [h1]
    rcases eq_nil_or_snoc A with rfl | ⟨A', x, rfl⟩
    · intro h; exact absurd h (by decide)
    · intro _
      rw [lastI_snoc, Int.toNat_natCast]; simp

theorem unlink_w {s : St} {fr : Nat → List Nat} {out : List (Nat × Nat)} {i l : Nat} (c : Core s fr out) (hi : i ∈ fr l)
    (ho : o ∈ out) (hp : Poke s.szAtom s.nBlock o a v) : unlink (write s a v) i l = (unlink s i l).map (write · a v) := by
  have hl := c.til.lt (Or.inl hi : NF fr out i l)
  refine unlink_prim hp (c.til.offF ho hi) ?_ ?_
  · intro y hy h0
    rw [getNext_eq c.geo hl] at hy
    injection hy with hy
    subst hy
    exact c.til.offF ho ((c.seg l).nbr hi |>.1 h0)
  · intro y hy h0
    rw [getPrev_eq c.geo hl] at hy
    injection hy with hy
    subst hy
    exact c.til.offF ho ((c.seg l).nbr hi |>.2 h0)

theorem Poke.same {s t : St} (hp : Poke s.szAtom s.nBlock o a v) (h : Same s t) : Poke t.szAtom t.nBlock o a v := by
  rw [h.szAtom, h.nBlock]; exact hp

theorem splitLoop_w {i l : Nat} {out : List (Nat × Nat)} (ho : o ∈ out) : ∀ (d : Nat) {s : St} {fr : Nat → List Nat},
    Core s fr ((i, l + d) :: out) → Poke s.szAtom s.nBlock o a v →
    splitLoop (write s a v) i l d = (splitLoop s i l d).map (write · a v)
  | 0, s, fr, c, hp => rfl
  | d + 1, s, fr, c, hp => by
    have hpp : 0 < 2 ^ (l + d) := Nat.pow_pos (by decide)
    have hpe : 2 ^ (l + (d + 1)) = 2 ^ (l + d) + 2 ^ (l + d) := by rw [← pow_double]; rfl
    have c1 : Core s fr ((i + 2 ^ (l + d), l + d) :: (i, l + d) :: out) :=
      c.retile ((c.til.split).perm (List.Perm.swap _ _ _))
    obtain ⟨s1, a1, a2, a3, a4, a5, a6⟩ := setCtrl_core c1 (i := i + 2 ^ (l + d)) (l := l + d)
      (j := i + 2 ^ (l + d)) (by simp) (Nat.le_refl _) (by omega) (UInt8.ofNat (0x20 ||| (l + d)))
    obtain ⟨s2, b1, b2, b3, b4, b5⟩ := link_spec a3 a5
    unfold splitLoop
    rw [setCtrl_w hp (c.til.offO ho (by omega) (by omega)), a1]
    simp only [Option.map_some, Option.bind_some]
    rw [link_w a3 (by simp [ho]) (hp.same a2), b1]
    simp only [Option.map_some, Option.bind_some]
    exact splitLoop_w ho d b3 (hp.same (a2.trans b2))

/-- The result of an allocation. -/
abbrev onPool (a : Nat) (v : Byte) {β : Type} (t : St × β) : St × β := (write t.1 a v, t.2)

theorem takeBlock_w {s : St} {fr : Nat → List Nat} {out : List (Nat × Nat)} (h : Inv s fr out) {i b l : Nat}
    (hi : i ∈ fr b) (hlb : l ≤ b) (full n : Nat) (ho : o ∈ out) (hp : Poke s.szAtom s.nBlock o a v) :
    takeBlock (write s a v) i b full l n = (takeBlock s i b full l n).map (onPool a v) := by
  obtain ⟨s1, a1, a2, a3, a4, a5⟩ := unlink_spec h.core hi
  have hb : b = l + (b - l) := by omega
  rw [hb] at a3
  rw [← hb] at a3
  have a3' : Core s1 (upd fr b ((fr b).erase i)) ((i, l + (b - l)) :: out) := by rw [← hb]; exact a3
  obtain ⟨s2, fr2, b1, b2, b3, b4, b5, b6⟩ := splitLoop_spec (i := i) (l := l) (b - l) (s := s1) a3' h.coal.erase
  have hpl : 0 < 2 ^ l := Nat.pow_pos (by decide)
  unfold takeBlock
  rw [unlink_w h.core hi ho hp, a1]
  simp only [Option.map_some, Option.bind_some]
  rw [splitLoop_w ho (b - l) a3' (hp.same a2), b1]
  simp only [Option.map_some, Option.bind_some]
  rw [setCtrl_w (hp.same (a2.trans b2)) (b3.til.offO ho (Nat.le_refl _) (by omega))]
  cases s2.setCtrl i (UInt8.ofNat l) <;> rfl

theorem findBin_w (s : St) : ∀ k b, findBin (write s a v) k b = findBin s k b
  | 0, _ => rfl
  | k + 1, b => by
    unfold findBin
    rw [findBin_w s k, show (write s a v).flist = s.flist from rfl]

theorem mallocUnsafe_w {s : St} {fr : Nat → List Nat} {out : List (Nat × Nat)} (h : Inv s fr out) (n : Int) (ho : o ∈ out)
    (hp : Poke s.szAtom s.nBlock o a v) : mallocUnsafe (write s a v) n = (mallocUnsafe s n).map (onPool a v) := by
  unfold mallocUnsafe
  by_cases hn : n ≤ 0 ∨ n > MAXALLOC
  · rw [if_pos hn, if_pos hn]; rfl
  · rw [if_neg hn, if_neg hn, show (write s a v).szAtom = s.szAtom from rfl]
    cases hr : roundLoop 32 s.szAtom 0 n.toNat with
    | none => rfl
    | some r =>
      simp only [Option.bind_some]
      have h1 : Inv (noteRequest s n.toNat) fr out := h.stats rfl rfl rfl rfl rfl
      show fromBin (write (noteRequest s n.toNat) a v) r.1 r.2 n.toNat = _
      have hp1 : Poke (noteRequest s n.toNat).szAtom (noteRequest s n.toNat).nBlock o a v := hp
      generalize noteRequest s n.toNat = t at h1 hp1
      unfold fromBin
      obtain ⟨f1, f2, f3, f4⟩ := findBin_spec t (LOGMAX + 1 - r.2) r.2
      rw [findBin_w]
      generalize findBin t (LOGMAX + 1 - r.2) r.2 = b at *
      by_cases hb : b > LOGMAX
      · rw [if_pos hb, if_pos hb]; rfl
      · rw [if_neg hb, if_neg hb]
        have hge := f4 (by unfold LOGMAX at *; omega)
        rw [show (write t a v).flist = t.flist from rfl]
        rw [h1.core.head] at hge ⊢
        cases hf : fr b with
        | nil => rw [hf, show first [] (-1) = -1 from rfl] at hge; omega
        | cons x xs =>
          rw [show first (x :: xs) (-1) = (x : Int) from rfl, Int.toNat_natCast]
          exact takeBlock_w h1 (by rw [hf]; simp) f1 _ _ ho hp1

/-! ### Release -/

theorem mergeCtrl_w {s : St} (hp : Poke s.szAtom s.nBlock o a v) {lo hi : Nat} (h1 : Off s.nBlock o lo)
    (h2 : Off s.nBlock o hi) (l : Nat) : mergeCtrl (write s a v) lo hi l = (mergeCtrl s lo hi l).map (write · a v) := by
  unfold mergeCtrl
  rw [setCtrl_w hp h1]
  refine bind_w fun t ht => ?_
  obtain ⟨d1, d2⟩ := setCtrl_dim ht
  exact setCtrl_w (by rw [d1, d2]; exact hp) (by rw [d2]; exact h2) 0

theorem not_freeByte {w : Byte} (hw : w &&& 0x20 = 0) {l : Nat} (hl : l ≤ 30) : w ≠ freeByte l := by
  intro e
  rw [e] at hw
  have h : ∀ l < 31, freeByte l &&& 0x20 ≠ 0 := by decide
  exact h l (by omega) hw

theorem buddyOf_w (s : St) (i l : Nat) : buddyOf (write s a v) i l = buddyOf s i l := rfl

theorem mergeLoop_w {out : List (Nat × Nat)} (ho : o ∈ out) : ∀ (k : Nat) {s : St} {fr : Nat → List Nat} {i l : Nat},
    Core s fr ((i, l) :: out) → (∀ b ∈ out, ct s b.1 = UInt8.ofNat b.2) → Coal fr → ct s i = freeByte l → k + l = 30 →
    Poke s.szAtom s.nBlock o a v →
    mergeLoop k (write s a v) i l = (mergeLoop k s i l).map (onPool a v)
  | 0, s, fr, i, l, c, co, cl, hc, hk, hp => rfl
  | k + 1, s, fr, i, l, c, co, cl, hc, hk, hp => by
    have hb : NF fr ((i, l) :: out) i l := Or.inr (by simp)
    have hal := (c.til.align i l hb).1
    have hi := c.til.lt hb
    have hl := c.til.log hb
    have hpl : 0 < 2 ^ l := Nat.pow_pos (by decide)
    have hoi : Off s.nBlock o i := c.til.offO ho (Nat.le_refl _) (by omega)
    unfold mergeLoop
    rw [buddyOf_w]
    rcases buddyOf_eq (s := s) (i := i) (l := l) with ⟨e1, e2⟩ | ⟨e1, e2⟩
    · rw [e1]; rfl
    · have e2 := e2 hi
      rw [e1]
      simp only
      have hgc : (write s a v).getCtrl (buddy i l) =
          some (if s.nBlock * s.szAtom + buddy i l = a then v else ct s (buddy i l)) := by
        have := c.geo.tot
        unfold St.getCtrl
        rw [if_pos (show (write s a v).nBlock * (write s a v).szAtom + buddy i l < (write s a v).bufSize by
          show s.nBlock * s.szAtom + buddy i l < s.bufSize; omega)]
        rfl
      rw [hgc, getCtrl_eq c.geo e2]
      simp only
      by_cases hf : ct s (buddy i l) = freeByte l
      · have hmem := buddy_free c co e2 hf
        have hob : Off s.nBlock o (buddy i l) := c.til.offF (by simp [ho]) hmem
        rw [if_neg (hp.ctrl hob), if_neg (by rw [hf]; exact fun h => h rfl), if_neg (by rw [hf]; exact fun h => h rfl)]
        obtain ⟨s1, a1, a2, a3, a4, a5⟩ := unlink_spec c hmem
        rw [unlink_w c hmem (by simp [ho]) hp, a1]
        simp only [Option.map_some, Option.bind_some]
        have co1 : ∀ b ∈ out, ct s1 b.1 = UInt8.ofNat b.2 := fun b hb => by rw [a5, co b hb]
        have hp1 := hp.same a2
        have hoi1 : Off s1.nBlock o i := by rw [a2.nBlock]; exact hoi
        have hob1 : Off s1.nBlock o (buddy i l) := by rw [a2.nBlock]; exact hob
        rcases buddy_cases hal with ⟨g1, g2, _⟩ | ⟨g1, g2, _⟩
        · rw [g2] at a3 hob1 ⊢
          rw [if_neg (by omega), if_neg (by omega)]
          obtain ⟨s2, b1, b2, b3, b4, b5, b6⟩ := mergeCtrl_spec (a3.retile (a3.til.perm (List.Perm.swap _ _ _))) g1
          rw [mergeCtrl_w hp1 hoi1 hob1, b1]
          simp only [Option.map_some, Option.bind_some]
          exact mergeLoop_w ho k b3 (fun b hb => by rw [b6 b hb, co1 b hb]) cl.erase b5 (by omega) (hp1.same b2)
        · generalize buddy i l = b at *
          subst g2
          rw [if_pos (by omega), if_pos (by omega)]
          obtain ⟨s2, b1, b2, b3, b4, b5, b6⟩ := mergeCtrl_spec a3 g1
          rw [mergeCtrl_w hp1 hob1 hoi1, b1]
          simp only [Option.map_some, Option.bind_some]
          exact mergeLoop_w ho k b3 (fun b hb => by rw [b6 b hb, co1 b hb]) cl.erase b5 (by omega) (hp1.same b2)
      · rw [if_pos (show ct s (buddy i l) ≠ UInt8.ofNat (32 ||| l) from hf), if_pos]
        · rfl
        · split
          · rename_i ha
            rcases hp.at' with ⟨h1, h2⟩ | ⟨_, h2⟩
            · exfalso
              have := Nat.mul_le_mul_right s.szAtom hp.fits
              omega
            · exact not_freeByte h2 hl
          · exact hf

theorem markFree_w {s : St} (hp : Poke s.szAtom s.nBlock o a v) {i l : Nat} (h1 : Off s.nBlock o i)
    (h2 : Off s.nBlock o (i + 2 ^ l - 1)) : markFree (write s a v) i l = (markFree s i l).map (write · a v) := by
  unfold markFree
  rw [getCtrl_w hp h1]
  cases s.getCtrl i with
  | none => rfl
  | some c =>
    simp only [Option.bind_some]
    rw [setCtrl_w hp h1]
    refine bind_w fun t ht => ?_
    obtain ⟨d1, d2⟩ := setCtrl_dim ht
    have hp1 : Poke t.szAtom t.nBlock o a v := by rw [d1, d2]; exact hp
    rw [getCtrl_w hp1 (by rw [d2]; exact h2)]
    cases t.getCtrl (i + 2 ^ l - 1) with
    | none => rfl
    | some c =>
      simp only [Option.bind_some]
      rw [setCtrl_w hp1 (by rw [d2]; exact h2)]
      refine bind_w fun u hu => ?_
      obtain ⟨d3, d4⟩ := setCtrl_dim hu
      exact setCtrl_w (by rw [d3, d4]; exact hp1) (by rw [d4, d2]; exact h1) _

theorem free_w {s : St} {fr : Nat → List Nat} {out : List (Nat × Nat)} {i l : Nat} (h : Inv s fr ((i, l) :: out))
    (ho : o ∈ out) (hp : Poke s.szAtom s.nBlock o a v) :
    free (write s a v) (i * s.szAtom) = (free s (i * s.szAtom)).map (write · a v) := by
  have c := h.core
  have hb : NF fr ((i, l) :: out) i l := Or.inr (by simp)
  have hi := c.til.lt hb
  have hl := c.til.log hb
  have hpl : 0 < 2 ^ l := Nat.pow_pos (by decide)
  have ha := c.geo.atom
  have hdiv : i * s.szAtom / s.szAtom = i := Nat.mul_div_cancel _ (by omega)
  have hmod : i * s.szAtom % s.szAtom = 0 := Nat.mul_mod_left _ _
  have hct : ct s i = UInt8.ofNat l := h.ctrlO (i, l) (by simp)
  have hoi : Off s.nBlock o i := c.til.offO ho (Nat.le_refl _) (by omega)
  have hoe : Off s.nBlock o (i + 2 ^ l - 1) := c.til.offO ho (by omega) (by omega)
  unfold free
  rw [show (write s a v).szAtom = s.szAtom from rfl, show (write s a v).nBlock = s.nBlock from rfl, hdiv, hmod,
    if_pos ⟨hi, rfl⟩, if_pos ⟨hi, rfl⟩, getCtrl_w hp hoi, getCtrl_eq c.geo hi]
  simp only [Option.bind_some]
  rw [hct, if_neg (by rw [(ofNat_log l hl).2]; simp), if_neg (by rw [(ofNat_log l hl).2]; simp), (ofNat_log l hl).1]
  unfold freeBlock
  rw [show (write s a v).szAtom = s.szAtom from rfl, show (write s a v).nBlock = s.nBlock from rfl,
    show freeAsserts (write s a v) (2 ^ l * s.szAtom) = freeAsserts s (2 ^ l * s.szAtom) from rfl]
  split
  · rw [markFree_w hp hoi hoe]
    obtain ⟨s1, a1, a2, a3, a4, a5, a6⟩ := markFree_spec c
    rw [a1]
    simp only [Option.map_some, Option.bind_some]
    have hc1 : Core (freeStats s1 (2 ^ l * s1.szAtom)) fr ((i, l) :: out) := a3.stats rfl rfl rfl rfl rfl
    have hp1 : Poke (freeStats s1 (2 ^ l * s1.szAtom)).szAtom (freeStats s1 (2 ^ l * s1.szAtom)).nBlock o a v := by
      have := hp.same a2
      exact this
    have hco1 : ∀ b ∈ out, ct (freeStats s1 (2 ^ l * s1.szAtom)) b.1 = UInt8.ofNat b.2 := fun b hb => by
      show ct s1 b.1 = _
      rw [a6 b hb, h.ctrlO b (by simp [hb])]
    obtain ⟨s2, i2, l2, fr2, b1, b2, b3, b4, b5, b6, b7, b8⟩ := mergeLoop_spec (30 - l) hc1 hco1 h.coal a5 (by omega)
    have hm := mergeLoop_w ho (30 - l) hc1 hco1 h.coal a5 (by omega) hp1
    rw [b1] at hm
    show (mergeLoop (30 - l) (write (freeStats s1 (2 ^ l * s1.szAtom)) a v) i l).bind _ = _
    rw [hm, show LOGMAX - l = 30 - l from rfl, b1]
    simp only [Option.map_some, Option.bind_some]
    exact link_w b3 ho (hp1.same b2)
  · rfl

end

end Verif.Mplite
