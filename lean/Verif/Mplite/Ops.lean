import Verif.Mplite.Core
/-!
# mplite: initialisation, allocation and release on a tiled pool
-/
namespace Verif.Mplite

/-- The state describes the blocks in `fr` (free, coalesced) and `out` (taken). -/
structure Inv (s : St) (fr : Nat → List Nat) (out : List (Nat × Nat)) : Prop where
  core : Core s fr out
  ctrlO : ∀ b ∈ out, ct s b.1 = UInt8.ofNat b.2
  coal : Coal fr

theorem Inv.perm {s : St} {fr : Nat → List Nat} {out out' : List (Nat × Nat)} (h : Inv s fr out)
    (p : out.Perm out') : Inv s fr out' :=
  ⟨h.core.retile (h.core.til.perm p), fun b hb => h.ctrlO b (p.mem_iff.mpr hb), h.coal⟩

theorem Inv.stats {s s' : St} {fr : Nat → List Nat} {out : List (Nat × Nat)} (h : Inv s fr out)
    (h1 : s'.szAtom = s.szAtom) (h2 : s'.nBlock = s.nBlock) (h3 : s'.bufSize = s.bufSize)
    (h4 : s'.mem = s.mem) (h5 : s'.flist = s.flist) : Inv s' fr out := by
  refine ⟨h.core.stats h1 h2 h3 h4 h5, ?_, h.coal⟩
  intro b hb
  have := h.ctrlO b hb
  unfold ct at this ⊢
  rw [h4, h1, h2]; exact this

/-! ### Initialisation -/

/-- The blocks made by the initialisation loop. -/
def rem (n : Nat) : Nat → Nat → List (Nat × Nat)
  | _, 0 => []
  | off, ii + 1 => if off + 2 ^ ii ≤ n then (off, ii) :: rem n (off + 2 ^ ii) ii else rem n off ii

theorem pow_double (k : Nat) : 2 ^ (k + 1) = 2 ^ k + 2 ^ k := by rw [Nat.pow_succ]; omega

theorem rem_mem {n : Nat} : ∀ {k off : Nat}, 2 ^ k ∣ off → ∀ b ∈ rem n off k,
    2 ^ b.2 ∣ b.1 ∧ off ≤ b.1 ∧ b.1 + 2 ^ b.2 ≤ n ∧ b.2 < k
  | 0, _, _, b, hb => by simp [rem] at hb
  | k + 1, off, hd, b, hb => by
    have hdk : 2 ^ k ∣ off := Nat.dvd_trans (Nat.pow_dvd_pow 2 (by omega)) hd
    unfold rem at hb
    split at hb
    · rename_i hn
      rw [List.mem_cons] at hb
      rcases hb with rfl | hb
      · exact ⟨hdk, Nat.le_refl _, hn, by simp⟩
      · obtain ⟨h1, h2, h3, h4⟩ := rem_mem (Nat.dvd_add hdk (Nat.dvd_refl _)) b hb
        exact ⟨h1, by omega, h3, by omega⟩
    · obtain ⟨h1, h2, h3, h4⟩ := rem_mem hdk b hb
      exact ⟨h1, h2, h3, by omega⟩

theorem rem_disj {n : Nat} : ∀ {k off : Nat}, 2 ^ k ∣ off → ∀ b ∈ rem n off k, ∀ c ∈ rem n off k,
    (b.2 = c.2 ∨ (b.1 < c.1 + 2 ^ c.2 ∧ c.1 < b.1 + 2 ^ b.2)) → b = c
  | 0, _, _, b, hb, _, _, _ => by simp [rem] at hb
  | k + 1, off, hd, b, hb, c, hc, h => by
    have hdk : 2 ^ k ∣ off := Nat.dvd_trans (Nat.pow_dvd_pow 2 (by omega)) hd
    unfold rem at hb hc
    split at hb
    · rename_i hn
      rw [if_pos hn] at hc
      have hd2 : 2 ^ k ∣ off + 2 ^ k := Nat.dvd_add hdk (Nat.dvd_refl _)
      rw [List.mem_cons] at hb hc
      rcases hb with rfl | hb <;> rcases hc with rfl | hc
      · rfl
      · obtain ⟨_, h2, _, h4⟩ := rem_mem hd2 c hc
        simp only at h; omega
      · obtain ⟨_, h2, _, h4⟩ := rem_mem hd2 b hb
        simp only at h; omega
      · exact rem_disj hd2 b hb c hc h
    · rename_i hn
      rw [if_neg hn] at hc
      exact rem_disj hdk b hb c hc h

theorem rem_cover {n : Nat} : ∀ {k off : Nat}, n < off + 2 ^ k → ∀ x, off ≤ x → x < n →
    ∃ b ∈ rem n off k, b.1 ≤ x ∧ x < b.1 + 2 ^ b.2
  | 0, off, hn, x, h1, h2 => by simp at hn; omega
  | k + 1, off, hn, x, h1, h2 => by
    rw [pow_double] at hn
    unfold rem
    split
    · by_cases hx : x < off + 2 ^ k
      · exact ⟨(off, k), by simp, h1, hx⟩
      · obtain ⟨b, hb, h3⟩ := rem_cover (k := k) (off := off + 2 ^ k) (by omega) x (by omega) h2
        exact ⟨b, by simp [hb], h3⟩
    · exact rem_cover (by omega) x h1 h2

theorem rem_nodup {n : Nat} : ∀ {k off : Nat}, 2 ^ k ∣ off → (rem n off k).Nodup
  | 0, _, _ => by simp [rem]
  | k + 1, off, hd => by
    have hdk : 2 ^ k ∣ off := Nat.dvd_trans (Nat.pow_dvd_pow 2 (by omega)) hd
    have hd2 : 2 ^ k ∣ off + 2 ^ k := Nat.dvd_add hdk (Nat.dvd_refl _)
    unfold rem
    split
    · refine List.nodup_cons.mpr ⟨fun h => ?_, rem_nodup hd2⟩
      have := (rem_mem hd2 _ h).2.2.2
      simp at this
    · exact rem_nodup hdk

theorem rem_sum {n : Nat} : ∀ {k off : Nat}, off ≤ n → n < off + 2 ^ k → outSum (rem n off k) + off = n
  | 0, off, h1, h2 => by simp at h2; simp [rem, outSum]; omega
  | k + 1, off, h1, h2 => by
    rw [pow_double] at h2
    unfold rem
    split
    · have := rem_sum (k := k) (off := off + 2 ^ k) (n := n) (by omega) (by omega)
      simp only [outSum]; omega
    · exact rem_sum h1 (by omega)

theorem freeSum_nil : ∀ m, freeSum (fun _ => []) m = 0
  | 0 => rfl
  | m + 1 => by simp [freeSum, freeSum_nil m]

theorem rem_tiling {n : Nat} (hn : n < 2 ^ 31) : Tiling n (fun _ => []) (rem n 0 31) := by
  have hd : 2 ^ 31 ∣ 0 := Nat.dvd_zero _
  have e : ∀ i l, NF (fun _ => []) (rem n 0 31) i l ↔ (i, l) ∈ rem n 0 31 := by
    intro i l; unfold NF; simp
  refine ⟨?_, ?_, ?_, ?_, ?_, rem_nodup hd, ?_, hn⟩
  · intro i l h
    obtain ⟨h1, _, h3, _⟩ := rem_mem hd _ ((e i l).mp h)
    exact ⟨h1, h3⟩
  · intro i l j k h1 h2 h3 h4
    have := rem_disj hd _ ((e i l).mp h1) _ ((e j k).mp h2) (Or.inr ⟨h3, h4⟩)
    simpa using this
  · intro i l h; simp at h
  · intro x hx
    obtain ⟨b, hb, h1, h2⟩ := rem_cover (n := n) (k := 31) (off := 0) (by omega) x (by omega) hx
    exact ⟨b.1, b.2, (e _ _).mpr hb, h1, h2⟩
  · intro l; simp
  · have := rem_sum (n := n) (k := 31) (off := 0) (by omega) (by omega)
    rw [freeSum_nil]; omega

theorem initLoop_spec {W : List (Nat × Nat)} : ∀ (k : Nat) {s : St} {fr : Nat → List Nat} {off : Nat},
    Core s fr (rem s.nBlock off k) → 2 ^ k ∣ off → s.nBlock < off + 2 ^ k → k ≤ 31 →
    (∀ i l, NF fr (rem s.nBlock off k) i l → (i, l) ∈ W) →
    ∃ s' fr', initLoop s off k = some s' ∧ Same s s' ∧ Core s' fr' [] ∧ ∀ i l, i ∈ fr' l → (i, l) ∈ W
  | 0, s, fr, off, c, _, _, _, hw =>
    ⟨s, fr, rfl, Same.refl s, c, fun i l h => hw i l (Or.inl h)⟩
  | k + 1, s, fr, off, c, hd, hn, hk, hw => by
    have hdk : 2 ^ k ∣ off := Nat.dvd_trans (Nat.pow_dvd_pow 2 (by omega)) hd
    rw [pow_double] at hn
    unfold initLoop
    unfold rem at c hw
    by_cases hoff : off + 2 ^ k ≤ s.nBlock
    · rw [if_pos hoff] at c hw ⊢
      have hp : 0 < 2 ^ k := Nat.pow_pos (by decide)
      obtain ⟨s1, a1, a2, a3, a4, a5, a6⟩ := setCtrl_core c (i := off) (l := k) (j := off) (by simp) (Nat.le_refl _)
        (by omega) (UInt8.ofNat (k ||| 0x20))
      obtain ⟨s2, b1, b2, b3, b4, b5⟩ := link_spec (i := off) (l := k) a3 (by rw [a5, Nat.or_comm]; rfl)
      have hs := a2.trans b2
      rw [a1, Option.bind_some, b1, Option.bind_some, if_pos (by omega)]
      rw [← hs.nBlock] at b3
      obtain ⟨s', fr', d1, d2, d3, d4⟩ := initLoop_spec (W := W) k b3 (Nat.dvd_add hdk (Nat.dvd_refl _))
        (by rw [hs.nBlock]; omega) (by omega) (by
          intro i l h
          apply hw
          rw [hs.nBlock] at h
          unfold NF at h ⊢
          rw [List.mem_cons]
          rcases h with h | h
          · by_cases hl : l = k
            · subst hl
              rw [upd_self, List.mem_cons] at h
              rcases h with rfl | h
              · exact Or.inr (Or.inl rfl)
              · exact Or.inl h
            · rw [upd_ne fr _ hl] at h; exact Or.inl h
          · exact Or.inr (Or.inr h))
      exact ⟨s', fr', d1, hs.trans d2, d3, d4⟩
    · rw [if_neg hoff] at c hw ⊢
      exact initLoop_spec k c hdk (by omega) (by omega) hw

theorem logLoop_spec : ∀ (k i v : Nat), v ≤ 2 ^ (i + k) → i ≤ logLoop k i v ∧ logLoop k i v ≤ i + k ∧
    v ≤ 2 ^ logLoop k i v ∧ (i < logLoop k i v → 2 ^ (logLoop k i v - 1) < v)
  | 0, i, v, h => by simp [logLoop]; simpa using h
  | k + 1, i, v, h => by
    unfold logLoop
    split
    · rename_i hlt
      obtain ⟨h1, h2, h3, h4⟩ := logLoop_spec k (i + 1) v (by rw [show i + 1 + k = i + (k + 1) by omega]; exact h)
      refine ⟨by omega, by omega, h3, fun h => ?_⟩
      by_cases he : logLoop k (i + 1) v = i + 1
      · rw [he]; simpa using hlt
      · exact h4 (by omega)
    · exact ⟨Nat.le_refl _, by omega, by omega, fun h => by omega⟩

/-- The logarithm of `mplite_logarithm` is the ceiling. -/
theorem logarithm_spec {v : Nat} (h : v ≤ 2 ^ 31) : v ≤ 2 ^ logarithm v ∧ logarithm v ≤ 31 ∧
    (logarithm v = 0 ∨ 2 ^ (logarithm v - 1) < v) := by
  obtain ⟨h1, h2, h3, h4⟩ := logLoop_spec 31 0 v (by simpa using h)
  unfold logarithm
  refine ⟨h3, by omega, ?_⟩
  by_cases h0 : logLoop 31 0 v = 0
  · exact Or.inl h0
  · exact Or.inr (h4 (by omega))

theorem logarithm_lt {v : Nat} (h : v ≤ 2 ^ 30) : logarithm v < 31 := by
  obtain ⟨h1, h2, h3⟩ := logarithm_spec (v := v) (by omega)
  rcases h3 with h3 | h3
  · omega
  · have : 2 ^ (logarithm v - 1) < 2 ^ 30 := by omega
    have := (Nat.pow_lt_pow_iff_right (a := 2) (by decide)).mp this
    omega

/-- The atom size: the least power of two that is at least 8 and at least `minAlloc`. -/
theorem atomLoop_pow : ∀ m, atomLoop 4 (2 ^ m) = some (2 ^ (if m < 3 then 3 else m)) := by
  intro m
  match m with
  | 0 => rfl
  | 1 => rfl
  | 2 => rfl
  | m + 3 =>
    rw [if_neg (by omega)]
    have : 2 ^ (m + 3) = 2 ^ m * 8 := by rw [Nat.pow_add]
    have hp : 0 < 2 ^ m := Nat.pow_pos (by decide)
    unfold atomLoop
    rw [if_neg (by omega)]

/-- `mplite_init` gives a pool with no taken block. -/
theorem init_spec (mem : Nat → Byte) {bufSize minAlloc : Nat} (hb : 0 < bufSize) (hb2 : bufSize < 2147483648)
    (hm : 0 < minAlloc) (hm2 : minAlloc ≤ 1073741824) :
    ∃ s fr e, init mem bufSize minAlloc = some (some s) ∧ Inv s fr [] ∧
      Same (initSt mem bufSize (2 ^ e)) s ∧ 3 ≤ e ∧ e ≤ 30 ∧ minAlloc ≤ 2 ^ e ∧ (e = 3 ∨ 2 ^ (e - 1) < minAlloc) := by
  obtain ⟨l1, l2, l3⟩ := logarithm_spec (v := minAlloc) (by omega)
  have l4 := logarithm_lt (v := minAlloc) (by omega)
  generalize hL : logarithm minAlloc = L at *
  obtain ⟨e, he⟩ : ∃ e, e = if L < 3 then 3 else L := ⟨_, rfl⟩
  have he3 : 3 ≤ e := by rw [he]; split <;> omega
  have hsz : 8 ≤ 2 ^ e := by
    have := Nat.pow_le_pow_right (n := 2) (by decide) he3
    omega
  have hn : (initSt mem bufSize (2 ^ e)).nBlock = bufSize / (2 ^ e + 1) := rfl
  have hn2 : (initSt mem bufSize (2 ^ e)).nBlock ≤ bufSize := by rw [hn]; exact Nat.div_le_self _ _
  have c : Core (initSt mem bufSize (2 ^ e)) (fun _ => []) (rem (initSt mem bufSize (2 ^ e)).nBlock 0 31) :=
    ⟨⟨hsz, Nat.div_mul_le_self _ _, hb2⟩, rem_tiling (by omega), fun _ => rfl, fun _ => trivial,
      fun i l h => by simp at h⟩
  obtain ⟨s, fr, a1, a2, a3, a4⟩ := initLoop_spec (W := rem (initSt mem bufSize (2 ^ e)).nBlock 0 31) 31 c
    (Nat.dvd_zero _) (by omega) (by omega) (by intro i l h; unfold NF at h; simpa using h)
  refine ⟨s, fr, e, ?_, ⟨a3, by simp, ?_⟩, a2, he3, ?_, ?_, ?_⟩
  · unfold init
    rw [if_neg (by omega), Int.toNat_natCast, Int.toNat_natCast, hL, if_neg (by omega), atomLoop_pow, ← he,
      Option.bind_some, show LOGMAX + 1 = 31 from rfl, a1]
    rfl
  · intro i l h hbud
    have hp : 0 < 2 ^ l := Nat.pow_pos (by decide)
    have h1 := a4 i l h
    have h2 := a4 _ l hbud
    have h3 := rem_disj (Nat.dvd_zero _) _ h1 _ h2 (Or.inl rfl)
    have h4 : i = buddy i l := by simpa using h3
    rcases buddy_cases (rem_mem (Nat.dvd_zero _) _ h1).1 with ⟨_, h, _⟩ | ⟨_, h, _⟩ <;> simp only at h <;> omega
  · rw [he]; split <;> omega
  · have : 2 ^ L ≤ 2 ^ e := Nat.pow_le_pow_right (by decide) (by rw [he]; split <;> omega)
    omega
  · rw [he]
    split
    · exact Or.inl rfl
    · rcases l3 with l3 | l3
      · omega
      · exact Or.inr l3

/-! ### Allocation -/

/-- `roundLoop` finds the least `szAtom * 2 ^ l` that is at least `n`. -/
theorem roundLoop_spec {sz n : Nat} (hsz : 0 < sz) (hsm : sz < 2 ^ 31) (hn : n ≤ 2 ^ 30) : ∀ (fuel l : Nat), 30 < fuel + l →
    (l = 0 ∨ sz * 2 ^ (l - 1) < n) → ∃ m, roundLoop fuel (sz * 2 ^ l) l n = some (sz * 2 ^ m, m) ∧
      n ≤ sz * 2 ^ m ∧ (m = 0 ∨ sz * 2 ^ (m - 1) < n) ∧ sz * 2 ^ m < 2 ^ 31 := by
  intro fuel
  induction fuel with
  | zero =>
    intro l hf hl
    rcases hl with hl | hl
    · omega
    · have h1 : 2 ^ 30 ≤ 2 ^ (l - 1) := Nat.pow_le_pow_right (by decide) (by omega)
      have h2 : 1 * 2 ^ (l - 1) ≤ sz * 2 ^ (l - 1) := Nat.mul_le_mul_right _ hsz
      omega
  | succ fuel ih =>
    intro l hf hl
    unfold roundLoop
    have e : sz * 2 ^ l * 2 = sz * 2 ^ (l + 1) := by rw [Nat.pow_succ, Nat.mul_assoc]
    by_cases h : sz * 2 ^ l < n
    · rw [if_pos h, if_pos (by omega), e]
      exact ih (l + 1) (by omega) (Or.inr (by simpa using h))
    · rw [if_neg h]
      refine ⟨l, rfl, by omega, hl, ?_⟩
      rcases hl with rfl | hl
      · simpa using hsm
      · by_cases hl0 : l = 0
        · subst hl0; simpa using hsm
        · have : sz * 2 ^ l = sz * 2 ^ (l - 1) * 2 := by
            rw [Nat.mul_assoc, ← Nat.pow_succ, show (l - 1).succ = l by omega]
          omega

theorem findBin_spec (s : St) : ∀ (k b : Nat), b ≤ findBin s k b ∧ findBin s k b ≤ b + k ∧
    (∀ j, b ≤ j → j < findBin s k b → s.flist j < 0) ∧ (findBin s k b < b + k → ¬ s.flist (findBin s k b) < 0)
  | 0, b => by simp [findBin]; omega
  | k + 1, b => by
    unfold findBin
    split
    · rename_i hb
      obtain ⟨h1, h2, h3, h4⟩ := findBin_spec s k (b + 1)
      refine ⟨by omega, by omega, ?_, fun h => h4 (by omega)⟩
      intro j hj1 hj2
      by_cases hj : j = b
      · subst hj; exact hb
      · exact h3 j (by omega) hj2
    · rename_i hb
      exact ⟨Nat.le_refl _, by omega, fun j h1 h2 => by omega, fun _ => hb⟩

theorem splitLoop_spec {i l : Nat} {out : List (Nat × Nat)} : ∀ (d : Nat) {s : St} {fr : Nat → List Nat},
    Core s fr ((i, l + d) :: out) → Coal fr →
    ∃ s' fr', splitLoop s i l d = some s' ∧ Same s s' ∧ Core s' fr' ((i, l) :: out) ∧ Coal fr' ∧ Keeps s s' out ∧
      ∀ b ∈ out, ct s' b.1 = ct s b.1
  | 0, s, fr, c, co => ⟨s, fr, rfl, Same.refl s, c, co, fun _ _ _ _ _ => rfl, fun _ _ => rfl⟩
  | d + 1, s, fr, c, co => by
    have hal := (c.til.align i (l + (d + 1)) (Or.inr (by simp))).1
    have hp : 0 < 2 ^ (l + d) := Nat.pow_pos (by decide)
    have hpe : 2 ^ (l + (d + 1)) = 2 ^ (l + d) + 2 ^ (l + d) := by rw [← pow_double]; rfl
    have hno : ∀ b ∈ out, b.1 ≠ i + 2 ^ (l + d) := by
      intro b hb e
      have hpb : 0 < 2 ^ b.2 := Nat.pow_pos (by decide)
      obtain ⟨e1, e2⟩ := c.til.disj i (l + (d + 1)) b.1 b.2 (Or.inr (by simp)) (Or.inr (by simp [hb])) (by omega)
        (by omega)
      omega
    have c1 : Core s fr ((i + 2 ^ (l + d), l + d) :: (i, l + d) :: out) :=
      c.retile ((c.til.split).perm (List.Perm.swap _ _ _))
    obtain ⟨s1, a1, a2, a3, a4, a5, a6⟩ := setCtrl_core c1 (i := i + 2 ^ (l + d)) (l := l + d)
      (j := i + 2 ^ (l + d)) (by simp) (Nat.le_refl _) (by omega) (UInt8.ofNat (0x20 ||| (l + d)))
    obtain ⟨s2, b1, b2, b3, b4, b5⟩ := link_spec a3 a5
    have hbud := buddy_of_lower (i := i) (l := l + d) hal
    have co2 : Coal (upd fr (l + d) ((i + 2 ^ (l + d)) :: fr (l + d))) := by
      refine co.cons (a3.til.align _ _ (Or.inr (by simp))).1 (fun j hj => (a3.til.align _ _ (Or.inl hj)).1) ?_
      rw [hbud.2]
      intro h
      exact a3.til.excl _ _ h (by simp)
    obtain ⟨s3, fr3, d1, d2, d3, d4, d5, d6⟩ := splitLoop_spec d b3 co2
    have hs := a2.trans b2
    refine ⟨s3, fr3, ?_, hs.trans d2, d3, d4, ?_, ?_⟩
    · unfold splitLoop
      rw [a1, Option.bind_some, b1, Option.bind_some, d1]
    · refine Keeps.trans (Keeps.trans (a4.sub (by intro p hp; simp [hp])) (b4.sub (by intro p hp; simp [hp])) a2.szAtom) d5 hs.szAtom
    · intro b hb
      rw [d6 b hb, b5, a6 _ (hno b hb)]

theorem ofNat_log : ∀ l, l ≤ 30 → (UInt8.ofNat l &&& 0x1f).toNat = l ∧ UInt8.ofNat l &&& 0x20 = 0 := by
  intro l hl
  have h : ∀ l < 31, (UInt8.ofNat l &&& 0x1f).toNat = l ∧ UInt8.ofNat l &&& 0x20 = 0 := by decide
  exact h l (by omega)

theorem freeByte_ne : ∀ l, l ≤ 30 → ∀ m, m ≤ 30 → UInt8.ofNat m ≠ freeByte l := by
  intro l hl m hm
  have h : ∀ l < 31, ∀ m < 31, UInt8.ofNat m ≠ freeByte l := by decide
  exact h l (by omega) m (by omega)

/-- Take a free block and cut it to size. -/
theorem takeBlock_spec {s : St} {fr : Nat → List Nat} {out : List (Nat × Nat)} (h : Inv s fr out) {i b l : Nat}
    (hi : i ∈ fr b) (hlb : l ≤ b) (full n : Nat) :
    ∃ s' fr', takeBlock s i b full l n = some (allocStats s' full n, some (i * s.szAtom)) ∧ Same s s' ∧
      Inv s' fr' ((i, l) :: out) ∧ Keeps s s' out := by
  obtain ⟨s1, a1, a2, a3, a4, a5⟩ := unlink_spec h.core hi
  have hb : b = l + (b - l) := by omega
  rw [hb] at a3
  rw [← hb] at a3
  obtain ⟨s2, fr2, b1, b2, b3, b4, b5, b6⟩ := splitLoop_spec (i := i) (l := l) (b - l) (s := s1)
    (by rw [← hb]; exact a3) h.coal.erase
  have hp : 0 < 2 ^ l := Nat.pow_pos (by decide)
  obtain ⟨s3, d1, d2, d3, d4, d5, d6⟩ := setCtrl_core b3 (i := i) (l := l) (j := i) (by simp) (Nat.le_refl _)
    (by omega) (UInt8.ofNat l)
  have hs := (a2.trans b2).trans d2
  refine ⟨s3, fr2, ?_, hs, ⟨d3, ?_, b4⟩, ?_⟩
  · unfold takeBlock
    rw [a1, Option.bind_some, b1, Option.bind_some, d1, Option.map_some, hs.szAtom]
  · intro p hp'
    rw [List.mem_cons] at hp'
    rcases hp' with rfl | hp'
    · exact d5
    · have hne : p.1 ≠ i := by
        intro e
        have hpp : 0 < 2 ^ p.2 := Nat.pow_pos (by decide)
        obtain ⟨e1, e2⟩ := d3.til.disj i l p.1 p.2 (Or.inr (by simp)) (Or.inr (by simp [hp'])) (by omega) (by omega)
        have : (i, l) ∉ out := (List.nodup_cons.mp d3.til.nodO).1
        exact this (by rw [e1, e2]; exact hp')
      rw [d6 _ hne, b6 p hp', a5, h.ctrlO p hp']
  · exact Keeps.trans (Keeps.trans a4 b5 a2.szAtom) (d4.sub (by intro p hp; simp [hp])) (a2.trans b2).szAtom

/-- `mplite_malloc_unsafe` for a request in range. -/
theorem mallocUnsafe_spec {s : St} {fr : Nat → List Nat} {out : List (Nat × Nat)} (h : Inv s fr out)
    (hsz : s.szAtom < 2 ^ 31) {n : Nat} (h0 : 0 < n) (hn : n ≤ 1073741824) :
    ∃ l, n ≤ s.szAtom * 2 ^ l ∧ (l = 0 ∨ s.szAtom * 2 ^ (l - 1) < n) ∧ s.szAtom * 2 ^ l < 2 ^ 31 ∧
    ((∃ s' fr' i, mallocUnsafe s n = some (allocStats s' (s.szAtom * 2 ^ l) n, some (i * s.szAtom)) ∧
        Same (noteRequest s n) s' ∧ Inv s' fr' ((i, l) :: out) ∧ Keeps s s' out) ∨
     (mallocUnsafe s n = some (noteRequest s n, none) ∧ ∀ k, l ≤ k → fr k = [])) := by
  have hg := h.core.geo.atom
  obtain ⟨l, r1, r2, r3, r4⟩ := roundLoop_spec (sz := s.szAtom) (n := n) (by omega) hsz (by omega) 32 0 (by omega)
    (Or.inl rfl)
  simp only [Nat.pow_zero, Nat.mul_one] at r1
  refine ⟨l, r2, r3, r4, ?_⟩
  have hl30 : l ≤ 30 := by
    apply pow_lt_log
    have : 1 * 2 ^ l ≤ s.szAtom * 2 ^ l := Nat.mul_le_mul_right _ (by omega)
    omega
  have h1 : Inv (noteRequest s n) fr out := h.stats rfl rfl rfl rfl rfl
  have hmu : mallocUnsafe s n = fromBin (noteRequest s n) (s.szAtom * 2 ^ l) l n := by
    unfold mallocUnsafe
    rw [if_neg (by unfold MAXALLOC; omega), Int.toNat_natCast, r1, Option.bind_some]
  rw [hmu]
  obtain ⟨f1, f2, f3, f4⟩ := findBin_spec (noteRequest s n) (LOGMAX + 1 - l) l
  have hLM : l + (LOGMAX + 1 - l) = 31 := by unfold LOGMAX; omega
  rw [hLM] at f2 f4
  unfold fromBin
  generalize findBin (noteRequest s n) (LOGMAX + 1 - l) l = b at *
  have hneg : ∀ k, (noteRequest s n).flist k < 0 → fr k = [] := by
    intro k hk
    rw [h1.core.head] at hk
    cases hf : fr k with
    | nil => rfl
    | cons x xs => rw [hf, show first (x :: xs) (-1) = (x : Int) from rfl] at hk; omega
  by_cases hb : b > LOGMAX
  · right
    rw [if_pos hb]
    refine ⟨rfl, fun k hk => ?_⟩
    by_cases hk2 : k < b
    · exact hneg k (f3 k hk hk2)
    · cases hf : fr k with
      | nil => rfl
      | cons x xs =>
        have := h1.core.til.log (i := x) (l := k) (Or.inl (by rw [hf]; simp))
        unfold LOGMAX at hb; omega
  · left
    rw [if_neg hb]
    have hge := f4 (by unfold LOGMAX at hb; omega)
    rw [h1.core.head] at hge
    cases hf : fr b with
    | nil => rw [hf, show first [] (-1) = -1 from rfl] at hge; omega
    | cons x xs =>
      rw [h1.core.head, hf, show first (x :: xs) (-1) = (x : Int) from rfl, Int.toNat_natCast]
      obtain ⟨s', fr', a1, a2, a3, a4⟩ := takeBlock_spec h1 (i := x) (b := b) (l := l) (by rw [hf]; simp) f1
        (s.szAtom * 2 ^ l) n
      exact ⟨s', fr', x, a1, a2, a3, a4⟩

/-! ### Release -/

/-- The buddy of a taken block: if its control byte says "free, same size", it is on the free list. -/
theorem buddy_free {s : St} {fr : Nat → List Nat} {out : List (Nat × Nat)} {i l : Nat}
    (c : Core s fr ((i, l) :: out)) (co : ∀ b ∈ out, ct s b.1 = UInt8.ofNat b.2)
    (hb : buddy i l < s.nBlock) (hc : ct s (buddy i l) = freeByte l) : buddy i l ∈ fr l := by
  have t := c.til
  have hi : NF fr ((i, l) :: out) i l := Or.inr (by simp)
  have hal := (t.align i l hi).1
  have hl := t.log hi
  have hp : 0 < 2 ^ l := Nat.pow_pos (by decide)
  have hbd := buddy_dvd hal
  obtain ⟨j, m, h1, h2, h3⟩ := t.cover _ hb
  have hjm := t.log h1
  have hja := (t.align j m h1).1
  have hml : m ≤ l := by
    refine Classical.byContradiction fun hm => ?_
    -- the lower half
    have hlow : j ≤ i ∧ i < j + 2 ^ m := by
      rcases buddy_cases hal with ⟨g1, g2, _⟩ | ⟨g1, g2, _⟩
      · have := aligned_inside g1 hja (by omega) (by rw [g2] at h3; omega) (by rw [g2] at h2; rw [pow_double]; omega)
        omega
      · have := aligned_inside g1 hja (by omega) (by omega) (by rw [pow_double]; omega)
        rw [pow_double] at this
        omega
    have hpm : 0 < 2 ^ m := Nat.pow_pos (by decide)
    obtain ⟨_, e⟩ := t.disj i l j m hi h1 (by omega) (by omega)
    omega
  have hpm : 0 < 2 ^ m := Nat.pow_pos (by decide)
  have hin := aligned_inside hja hbd hml (by omega) (by omega)
  have hjb : j = buddy i l := by omega
  subst hjb
  rcases h1 with h1 | h1
  · have := c.ctrl _ m h1
    rw [hc] at this
    have e := congrArg (fun b => (b &&& 0x1f).toNat) this
    rw [freeByte_log l hl, freeByte_log m hjm] at e
    subst e; exact h1
  · rw [List.mem_cons, Prod.mk.injEq] at h1
    rcases h1 with h1 | h1
    · exfalso
      rcases buddy_cases hal with ⟨g1, g2, _⟩ | ⟨g1, g2, _⟩ <;> omega
    · have := co _ h1
      simp only at this
      rw [hc] at this
      exact absurd this.symm (freeByte_ne l hl m hjm)

theorem buddyOf_eq {s : St} {i l : Nat} :
    (buddyOf s i l = none ∧ s.nBlock ≤ buddy i l) ∨ (buddyOf s i l = some (buddy i l) ∧ (i < s.nBlock → buddy i l < s.nBlock)) := by
  unfold buddyOf buddy
  by_cases h : i / 2 ^ l % 2 = 1
  · right
    rw [if_pos h, if_pos h]
    exact ⟨rfl, fun hi => Nat.lt_of_le_of_lt (Nat.sub_le _ _) hi⟩
  · rw [if_neg h, if_neg h]
    by_cases h2 : i + 2 ^ l ≥ s.nBlock
    · left; rw [if_pos h2]; exact ⟨rfl, h2⟩
    · right; rw [if_neg h2]; exact ⟨rfl, fun _ => by omega⟩

/-- Control bytes of a merged pair. -/
theorem mergeCtrl_spec {s : St} {fr : Nat → List Nat} {out : List (Nat × Nat)} {lo l : Nat}
    (c : Core s fr ((lo, l) :: (lo + 2 ^ l, l) :: out)) (hal : 2 ^ (l + 1) ∣ lo) :
    ∃ s', mergeCtrl s lo (lo + 2 ^ l) l = some s' ∧ Same s s' ∧ Core s' fr ((lo, l + 1) :: out) ∧
      Keeps s s' out ∧ ct s' lo = freeByte (l + 1) ∧ ∀ b ∈ out, ct s' b.1 = ct s b.1 := by
  have hp : 0 < 2 ^ l := Nat.pow_pos (by decide)
  obtain ⟨s1, a1, a2, a3, a4, a5, a6⟩ := setCtrl_core c (i := lo) (l := l) (j := lo) (by simp) (Nat.le_refl _)
    (by omega) (UInt8.ofNat (0x20 ||| (l + 1)))
  obtain ⟨s2, b1, b2, b3, b4, b5, b6⟩ := setCtrl_core a3 (i := lo + 2 ^ l) (l := l) (j := lo + 2 ^ l) (by simp)
    (Nat.le_refl _) (by omega) 0
  have hs := a2.trans b2
  have hne : ∀ b ∈ out, b.1 ≠ lo ∧ b.1 ≠ lo + 2 ^ l := by
    intro b hb
    have hpb : 0 < 2 ^ b.2 := Nat.pow_pos (by decide)
    have hn := List.nodup_cons.mp c.til.nodO
    have hn2 := List.nodup_cons.mp hn.2
    refine ⟨fun e => ?_, fun e => ?_⟩
    · obtain ⟨e1, e2⟩ := c.til.disj lo l b.1 b.2 (Or.inr (by simp)) (Or.inr (by simp [hb])) (by omega) (by omega)
      exact hn.1 (by rw [e1, e2]; simp [hb])
    · obtain ⟨e1, e2⟩ := c.til.disj (lo + 2 ^ l) l b.1 b.2 (Or.inr (by simp)) (Or.inr (by simp [hb])) (by omega)
        (by omega)
      apply hn2.1
      rw [← e, e2]; exact hb
  refine ⟨s2, ?_, hs, b3.retile (b3.til.merge hal), ?_, ?_, ?_⟩
  · unfold mergeCtrl
    rw [a1, Option.bind_some, b1]
  · exact Keeps.trans (a4.sub (by intro p hp; simp [hp])) (b4.sub (by intro p hp; simp [hp])) a2.szAtom
  · rw [b6 _ (by omega), a5]; rfl
  · intro b hb
    rw [b6 _ (hne b hb).2, a6 _ (hne b hb).1]

theorem mergeLoop_spec {out : List (Nat × Nat)} : ∀ (k : Nat) {s : St} {fr : Nat → List Nat} {i l : Nat},
    Core s fr ((i, l) :: out) → (∀ b ∈ out, ct s b.1 = UInt8.ofNat b.2) → Coal fr → ct s i = freeByte l → k + l = 30 →
    ∃ s' i' l' fr', mergeLoop k s i l = some (s', i', l') ∧ Same s s' ∧ Core s' fr' ((i', l') :: out) ∧
      (∀ b ∈ out, ct s' b.1 = UInt8.ofNat b.2) ∧ Coal fr' ∧ ct s' i' = freeByte l' ∧ buddy i' l' ∉ fr' l' ∧
      Keeps s s' out
  | 0, s, fr, i, l, c, co, cl, hc, hk => by
    refine ⟨s, i, l, fr, rfl, Same.refl s, c, co, cl, hc, ?_, fun _ _ _ _ _ => rfl⟩
    intro h
    have h1 := c.til.align i l (Or.inr (by simp))
    have h2 := c.til.align _ l (Or.inl h)
    have := c.til.small
    have hl : l = 30 := by omega
    subst hl
    rcases buddy_cases h1.1 with ⟨_, g, _⟩ | ⟨_, g, _⟩ <;> omega
  | k + 1, s, fr, i, l, c, co, cl, hc, hk => by
    have hb : NF fr ((i, l) :: out) i l := Or.inr (by simp)
    have hal := (c.til.align i l hb).1
    have hi := c.til.lt hb
    unfold mergeLoop
    rcases buddyOf_eq (s := s) (i := i) (l := l) with ⟨e1, e2⟩ | ⟨e1, e2⟩
    · rw [e1]
      refine ⟨s, i, l, fr, rfl, Same.refl s, c, co, cl, hc, ?_, fun _ _ _ _ _ => rfl⟩
      intro h
      have := c.til.lt (Or.inl h : NF fr ((i, l) :: out) (buddy i l) l)
      omega
    · have e2 := e2 hi
      rw [e1]
      simp only
      rw [getCtrl_eq c.geo e2]
      simp only
      by_cases hf : ct s (buddy i l) = freeByte l
      · have hmem := buddy_free c co e2 hf
        rw [if_neg (by rw [hf]; exact fun h => h rfl)]
        obtain ⟨s1, a1, a2, a3, a4, a5⟩ := unlink_spec c hmem
        rw [a1, Option.bind_some]
        have hp : 0 < 2 ^ l := Nat.pow_pos (by decide)
        have co1 : ∀ b ∈ out, ct s1 b.1 = UInt8.ofNat b.2 := fun b hb => by rw [a5, co b hb]
        rcases buddy_cases hal with ⟨g1, g2, _⟩ | ⟨g1, g2, _⟩
        · rw [g2] at a3 ⊢
          rw [if_neg (by omega)]
          obtain ⟨s2, b1, b2, b3, b4, b5, b6⟩ := mergeCtrl_spec (a3.retile (a3.til.perm (List.Perm.swap _ _ _))) g1
          rw [b1, Option.bind_some]
          obtain ⟨s3, i3, l3, fr3, d1, d2, d3, d4, d5, d6, d7, d8⟩ := mergeLoop_spec k b3
            (fun b hb => by rw [b6 b hb, co1 b hb]) cl.erase b5 (by omega)
          exact ⟨s3, i3, l3, fr3, d1, (a2.trans b2).trans d2, d3, d4, d5, d6, d7,
            Keeps.trans (Keeps.trans (a4.sub (by intro p hp; simp [hp])) b4 a2.szAtom) d8 (a2.trans b2).szAtom⟩
        · generalize buddy i l = b at *
          subst g2
          rw [if_pos (by omega)]
          obtain ⟨s2, b1, b2, b3, b4, b5, b6⟩ := mergeCtrl_spec a3 g1
          rw [b1, Option.bind_some]
          obtain ⟨s3, i3, l3, fr3, d1, d2, d3, d4, d5, d6, d7, d8⟩ := mergeLoop_spec k b3
            (fun b hb => by rw [b6 b hb, co1 b hb]) cl.erase b5 (by omega)
          exact ⟨s3, i3, l3, fr3, d1, (a2.trans b2).trans d2, d3, d4, d5, d6, d7,
            Keeps.trans (Keeps.trans (a4.sub (by intro p hp; simp [hp])) b4 a2.szAtom) d8 (a2.trans b2).szAtom⟩
      · rw [if_pos (show ct s (buddy i l) ≠ UInt8.ofNat (32 ||| l) from hf)]
        refine ⟨s, i, l, fr, rfl, Same.refl s, c, co, cl, hc, ?_, fun _ _ _ _ _ => rfl⟩
        intro h
        exact hf (c.ctrl _ _ h)

theorem markFree_spec {s : St} {fr : Nat → List Nat} {out : List (Nat × Nat)} {i l : Nat}
    (c : Core s fr ((i, l) :: out)) :
    ∃ s', markFree s i l = some s' ∧ Same s s' ∧ Core s' fr ((i, l) :: out) ∧ Keeps s s' out ∧
      ct s' i = freeByte l ∧ ∀ b ∈ out, ct s' b.1 = ct s b.1 := by
  have hp : 0 < 2 ^ l := Nat.pow_pos (by decide)
  have hb : NF fr ((i, l) :: out) i l := Or.inr (by simp)
  have hin := (c.til.align i l hb).2
  have hne : ∀ b ∈ out, ∀ x, i ≤ x → x < i + 2 ^ l → b.1 ≠ x := by
    intro b hbo x h1 h2 e
    have hpb : 0 < 2 ^ b.2 := Nat.pow_pos (by decide)
    obtain ⟨e1, e2⟩ := c.til.disj i l b.1 b.2 hb (Or.inr (by simp [hbo])) (by omega) (by omega)
    exact (List.nodup_cons.mp c.til.nodO).1 (by rw [e1, e2]; exact hbo)
  obtain ⟨s1, a1, a2, a3, a4, a5, a6⟩ := setCtrl_core c (i := i) (l := l) (j := i) (by simp) (Nat.le_refl _)
    (by omega) (ct s i ||| 0x20)
  obtain ⟨s2, b1, b2, b3, b4, b5, b6⟩ := setCtrl_core a3 (i := i) (l := l) (j := i + 2 ^ l - 1) (by simp)
    (by omega) (by omega) (ct s1 (i + 2 ^ l - 1) ||| 0x20)
  obtain ⟨s3, d1, d2, d3, d4, d5, d6⟩ := setCtrl_core b3 (i := i) (l := l) (j := i) (by simp) (Nat.le_refl _)
    (by omega) (UInt8.ofNat (0x20 ||| l))
  refine ⟨s3, ?_, (a2.trans b2).trans d2, d3, ?_, d5, ?_⟩
  · unfold markFree
    rw [getCtrl_eq c.geo (c.til.lt hb), Option.bind_some, a1, Option.bind_some,
      getCtrl_eq a3.geo (by rw [a2.nBlock]; omega), Option.bind_some, b1, Option.bind_some, d1]
  · exact (Keeps.trans (Keeps.trans a4 b4 a2.szAtom) d4 (a2.trans b2).szAtom).sub (by intro p hp; simp [hp])
  · intro b hbo
    rw [d6 _ (hne b hbo i (Nat.le_refl _) (by omega)), b6 _ (hne b hbo _ (by omega) (by omega)),
      a6 _ (hne b hbo i (Nat.le_refl _) (by omega))]

/-- `mplite_free` of a taken block. -/
theorem free_spec {s : St} {fr : Nat → List Nat} {out : List (Nat × Nat)} {i l : Nat}
    (h : Inv s fr ((i, l) :: out)) (hco : s.currentOut = outSum ((i, l) :: out) * s.szAtom)
    (hcc : s.currentCount = out.length + 1) :
    ∃ s' fr', free s (i * s.szAtom) = some s' ∧ Same (freeStats s (2 ^ l * s.szAtom)) s' ∧ Inv s' fr' out ∧
      Keeps s s' out := by
  have c := h.core
  have hb : NF fr ((i, l) :: out) i l := Or.inr (by simp)
  have hi := c.til.lt hb
  have hl := c.til.log hb
  have hin := (c.til.align i l hb).2
  have ha := c.geo.atom
  have hp : 0 < 2 ^ l := Nat.pow_pos (by decide)
  have hdiv : i * s.szAtom / s.szAtom = i := Nat.mul_div_cancel _ (by omega)
  have hmod : i * s.szAtom % s.szAtom = 0 := Nat.mul_mod_left _ _
  have hct : ct s i = UInt8.ofNat l := h.ctrlO (i, l) (by simp)
  have hsum : outSum ((i, l) :: out) * s.szAtom = 2 ^ l * s.szAtom + outSum out * s.szAtom := by
    simp only [outSum]; rw [Nat.add_mul]
  obtain ⟨s1, a1, a2, a3, a4, a5, a6⟩ := markFree_spec c
  have hc1 : Core (freeStats s1 (2 ^ l * s.szAtom)) fr ((i, l) :: out) := a3.stats rfl rfl rfl rfl rfl
  obtain ⟨s2, i2, l2, fr2, b1, b2, b3, b4, b5, b6, b7, b8⟩ := mergeLoop_spec (30 - l) hc1
    (fun b hb => by
      show ct s1 b.1 = _
      rw [a6 b hb, h.ctrlO b (by simp [hb])]) h.coal a5 (by omega)
  obtain ⟨s3, d1, d2, d3, d4, d5⟩ := link_spec b3 b6
  have hsame1 : Same (freeStats s (2 ^ l * s.szAtom)) (freeStats s1 (2 ^ l * s.szAtom)) := by
    refine ⟨a2.szAtom, a2.nBlock, a2.bufSize, a2.nAlloc, a2.totalAlloc, a2.totalExcess, ?_, ?_, a2.maxOut, a2.maxCount,
      a2.maxRequest⟩
    · show s1.currentOut - _ = s.currentOut - _
      rw [a2.currentOut]
    · show s1.currentCount - _ = s.currentCount - _
      rw [a2.currentCount]
  refine ⟨s3, upd fr2 l2 (i2 :: fr2 l2), ?_, (hsame1.trans b2).trans d2, ⟨d3, ?_, ?_⟩, ?_⟩
  · unfold free
    rw [hdiv, hmod, if_pos ⟨hi, rfl⟩, getCtrl_eq c.geo hi, Option.bind_some, hct, if_neg (by
      rw [(ofNat_log l hl).2]; simp), (ofNat_log l hl).1]
    unfold freeBlock
    rw [if_pos]
    · rw [a1, Option.bind_some, a2.szAtom, show LOGMAX - l = 30 - l from rfl, b1, Option.bind_some, d1]
    · refine ⟨by omega, ?_⟩
      unfold freeAsserts
      rw [hco, hcc, hsum]
      have hpos : 0 < s.szAtom := by omega
      have e1 : 2 ^ l * s.szAtom + outSum out * s.szAtom - 2 ^ l * s.szAtom = outSum out * s.szAtom := by omega
      rw [e1]
      cases out with
      | nil => simp [outSum]
      | cons b bs =>
        have h2 : 0 < 2 ^ b.2 := Nat.pow_pos (by decide)
        have h3 : 0 < outSum (b :: bs) * s.szAtom := Nat.mul_pos (by simp only [outSum]; omega) hpos
        simp only [List.length_cons]
        simp [h3]
  · intro b hb
    rw [d5, b4 b hb]
  · exact b5.cons (b3.til.align _ _ (Or.inr (by simp))).1 (fun j hj => (b3.til.align _ _ (Or.inl hj)).1) b7
  · exact Keeps.trans (Keeps.trans (a4 : Keeps s s1 out) (show Keeps s1 s2 out from b8) a2.szAtom) d4 (by
      rw [b2.szAtom]; exact a2.szAtom)

end Verif.Mplite
