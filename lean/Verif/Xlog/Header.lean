import Verif.Xlog.Model
import Verif.Xlog.Spec
import Verif.TimeUtil.Props
import Verif.Common.Dec

/-! # The header functions write the specified text -/
namespace Verif.Xlog
open Strings (decText)

/-- The object has `n` bytes and begins with `w`. -/
def Buf (n : Nat) (m : Mem) (w : List Byte) : Prop := m.length = n ∧ ∃ r, m = w ++ r

theorem Buf.front {n : Nat} {m : Mem} {w : List Byte} (h : Buf n m w) : m = Mem.front m w := by
  obtain ⟨_, r, rfl⟩ := h
  simp [Mem.front]

theorem Buf.le {n : Nat} {m : Mem} {w : List Byte} (h : Buf n m w) : w.length ≤ n := by
  obtain ⟨h1, r, rfl⟩ := h
  simp at h1; omega

theorem Buf.cut {n : Nat} {m : Mem} {w x : List Byte} (h : Buf n m (w ++ x)) : Buf n m w := by
  obtain ⟨h1, r, rfl⟩ := h
  exact ⟨h1, x ++ r, by simp⟩

theorem Buf.poke {n : Nat} {m : Mem} {w : List Byte} (h : Buf n m w) {i : Nat} (c : Byte) (hi : i = w.length)
    (hn : w.length < n) : ∃ m', m.poke i c = some m' ∧ Buf n m' (w ++ [c]) := by
  rw [h.front, Mem.poke_front' c hi (by rw [h.1]; exact hn)]
  refine ⟨_, rfl, ?_, _, rfl⟩
  rw [Mem.front_length (by simp [h.1]; omega), h.1]

theorem Buf.store {n : Nat} {m : Mem} {w : List Byte} (h : Buf n m w) {i : Nat} (bs : List Byte) (hi : i = w.length)
    (hn : w.length + bs.length ≤ n) : ∃ m', m.store i bs = some m' ∧ Buf n m' (w ++ bs) := by
  rw [h.front, Mem.store_front' bs hi (by rw [h.1]; exact hn)]
  refine ⟨_, rfl, ?_, _, rfl⟩
  rw [Mem.front_length (by simp [h.1]; omega), h.1]

theorem cstr_some {m : Mem} {s : List Byte} (h : m.cstr 0 = some s) : (0 : Byte) ∉ s ∧ ∃ r, m = s ++ 0 :: r := by
  simp only [Mem.cstr, List.drop_zero, Nat.zero_add] at h
  split at h
  · rename_i hlt
    simp only [Option.some.injEq] at h
    have h2 := List.takeWhile_append_dropWhile (p := (· ≠ (0 : Byte))) (l := m)
    constructor
    · intro h0
      rw [← h] at h0
      have hall : ∀ (l : List Byte), (0 : Byte) ∉ l.takeWhile (· ≠ (0 : Byte)) := by
        intro l
        induction l with
        | nil => simp
        | cons a l ih =>
          rw [List.takeWhile_cons]
          split
          · rename_i ha; simp only [List.mem_cons, not_or]; exact ⟨fun h => by simp [← h] at ha, ih⟩
          · simp
      exact hall m h0
    · rw [← h]
      cases hd : m.dropWhile (· ≠ (0 : Byte)) with
      | nil => rw [hd, List.append_nil] at h2; rw [h2] at hlt; omega
      | cons a r =>
        have ha : a = 0 := by
          have hall : ∀ (l : List Byte), l.dropWhile (· ≠ (0 : Byte)) = a :: r → a = 0 := by
            intro l
            induction l with
            | nil => simp
            | cons b l ih =>
              rw [List.dropWhile_cons]
              split
              · exact ih
              · rename_i hb; intro e; simp only [List.cons.injEq] at e; simp at hb; rw [← e.1]; exact hb
          exact hall m hd
        subst ha
        exact ⟨r, by rw [← hd]; exact h2.symm⟩
  · simp at h

/-! ### print_level_tag -/

theorem tagLoop_ok {n : Nat} (tag : Mem) (s r : List Byte) (ht : tag = s ++ 0 :: r) (cpy align : Nat) (hc : cpy ≤ s.length)
    (ha : cpy ≤ align) : ∀ (fuel i : Nat) (m : Mem) (w : List Byte) (off : Nat), Buf n m (w ++ (Spec.padR align (s.take cpy)).take i) →
    off = w.length + i → i ≤ align → align < fuel + i → w.length + align < n →
    ∃ m', tagLoop tag cpy align fuel i m off = some m' ∧ Buf n m' (w ++ Spec.padR align (s.take cpy)) := by
  have hl : (Spec.padR align (s.take cpy)).length = align := by
    simp [Spec.padR]; omega
  intro fuel
  induction fuel with
  | zero => intro i m w off _ _ h1 h2; omega
  | succ fuel ih =>
    intro i m w off hb ho h1 h2 h3
    unfold tagLoop
    by_cases hi : i < align
    · rw [if_pos hi]
      have hch : (if i < cpy then tag[i]? else some 32) = (Spec.padR align (s.take cpy))[i]? := by
        unfold Spec.padR
        split
        · rw [List.getElem?_append_left (by simp; omega), List.getElem?_take_of_lt (by omega), ht,
            List.getElem?_append_left (by omega)]
        · rw [List.getElem?_append_right (by simp; omega), List.getElem?_replicate_of_lt (by simp; omega)]
      rw [hch, List.getElem?_eq_getElem (by omega)]
      simp only [Option.bind_eq_bind, Option.bind_some]
      obtain ⟨m1, e1, b1⟩ := hb.poke ((Spec.padR align (s.take cpy))[i]'(by omega)) (i := off) (by simp; omega) (by simp; omega)
      rw [e1]
      simp only [Option.bind_some]
      refine ih (i + 1) m1 w (off + 1) ?_ (by omega) (by omega) (by omega) h3
      rw [List.append_assoc, List.take_append_getElem] at b1
      exact b1
    · rw [if_neg hi]
      have : i = align := by omega
      subst this
      rw [List.take_of_length_le (by omega)] at hb
      exact ⟨m, rfl, hb⟩

theorem levelChars_get {level : Nat} (h : level ≤ 6) : levelChars[level]? = some (Spec.letter level) := by
  have : ∀ l ≤ 6, levelChars[l]? = some (Spec.letter l) := by decide
  exact this level h

theorem levelTag_length (level : Nat) (s : List Byte) : (Spec.levelTag level s).length ≤ 25 := by
  simp [Spec.levelTag, Spec.padR]; omega

theorem printLevelTag_ok {n : Nat} {m : Mem} {w : List Byte} (h : Buf n m w) {level : Nat} (hl : level ≤ 6) {tag : Mem}
    {s : List Byte} (ht : tag.cstr 0 = some s) (hn : w.length + 25 < n) :
    ∃ m', printLevelTag m w.length level tag = some (m', (Spec.levelTag level s).length) ∧
      Buf n m' (w ++ Spec.levelTag level s) := by
  obtain ⟨h0, r, hr⟩ := cstr_some ht
  unfold printLevelTag
  obtain ⟨m1, e1, b1⟩ := h.poke 32 rfl (by omega)
  obtain ⟨m2, e2, b2⟩ := b1.poke (i := w.length + 1) (Spec.letter level) (by simp) (by simp; omega)
  obtain ⟨m3, e3, b3⟩ := b2.poke (i := w.length + 2) 47 (by simp) (by simp; omega)
  simp only [e1, levelChars_get hl, e2, e3, Mem.strlen, ht, Option.map_some, Option.bind_eq_bind, Option.bind_some]
  have hcpy : (if s.length > 22 then 22 else s.length) = (s.take 22).length := by
    rw [List.length_take]; split <;> omega
  rw [hcpy]
  generalize hA : (if (s.take 22).length < 8 then 8 else (s.take 22).length) = A
  have hA1 : (s.take 22).length ≤ A ∧ A ≤ 22 := by
    have : (s.take 22).length ≤ 22 := by simp; omega
    subst hA; split <;> omega
  have hpad : Spec.padR A ((s.take ((s.take 22).length))) = Spec.padR 8 (s.take 22) := by
    have : s.take ((s.take 22).length) = s.take 22 := by
      rw [List.length_take]
      by_cases h22 : s.length ≤ 22
      · rw [Nat.min_eq_right h22, List.take_of_length_le (Nat.le_refl _), List.take_of_length_le h22]
      · rw [Nat.min_eq_left (by omega)]
    rw [this]
    unfold Spec.padR
    congr 2
    subst hA; split <;> omega
  obtain ⟨m4, e4, b4⟩ := tagLoop_ok (n := n) tag s r hr (s.take 22).length A (by simp; omega) hA1.1 (A + 1) 0 m3
    (w ++ [32] ++ [Spec.letter level] ++ [47]) (w.length + 3) (by simpa using b3) (by simp) (by omega) (by omega) (by simp; omega)
  rw [hpad] at b4
  rw [e4]
  simp only [Option.bind_some]
  have hlen : (Spec.padR 8 (s.take 22)).length = A := by
    rw [← hpad]
    simp only [Spec.padR, List.length_append, List.length_replicate, List.length_take]
    rw [List.length_take] at hA1; omega
  obtain ⟨m5, e5, b5⟩ := b4.poke (i := w.length + 3 + A) 0 (by simp [hlen]; omega) (by simp [hlen]; omega)
  rw [e5]
  simp only [Option.bind_some, Option.pure_def, Option.some.injEq, Prod.mk.injEq]
  refine ⟨m5, ⟨rfl, ?_⟩, ?_⟩
  · simp [Spec.levelTag, hlen]; omega
  · have := b5.cut
    simpa [Spec.levelTag] using this

/-! ### print_tid -/

/-- The digits of a number, none for 0. -/
def digs (t : Nat) : List Byte := if t = 0 then [] else decText t

theorem digit_byte {d : Nat} (h : d < 10) : UInt8.ofNat (48 + d) = UInt8.ofNat (Nat.digitChar d).toNat := by
  have : ∀ d < 10, UInt8.ofNat (48 + d) = UInt8.ofNat (Nat.digitChar d).toNat := by decide
  exact this d h

theorem digs_succ {t : Nat} (h : 0 < t) : digs t = digs (t / 10) ++ [UInt8.ofNat (48 + t % 10)] := by
  unfold digs
  rw [if_neg (by omega), digit_byte (by omega)]
  by_cases h10 : t < 10
  · rw [if_pos (by omega), decText_lt h10, Nat.mod_eq_of_lt h10]; rfl
  · rw [if_neg (by omega), decText_ge (by omega)]

/-- `n` bytes before position `w.length + n` are filled from the right. -/
theorem tidLoop_ok {N : Nat} (w : List Byte) : ∀ (n t : Nat) (m : Mem) (x y : List Byte), x.length = n →
    Buf N m (w ++ x ++ y) →
    ∃ m' k x', tidLoop m w.length n t = some (m', k) ∧ k = n - (digs t).length ∧ x'.length = k ∧
      Buf N m' (w ++ x' ++ (digs t).drop ((digs t).length - n) ++ y) := by
  intro n
  induction n with
  | zero =>
    intro t m x y hx hb
    refine ⟨m, 0, [], rfl, by omega, rfl, ?_⟩
    rw [List.length_eq_zero_iff.1 hx] at hb
    simpa using hb
  | succ n ih =>
    intro t m x y hx hb
    unfold tidLoop
    by_cases ht : 0 < t
    · rw [if_pos ht]
      obtain ⟨a, hx1⟩ : ∃ a, x = x.take n ++ [a] := by
        refine ⟨x[n]'(by omega), ?_⟩
        rw [List.take_append_getElem, List.take_of_length_le (by omega)]
      have hbn : w.length + n < N := by
        have := hb.le; simp at this; omega
      have e1 : m.poke (w.length + n) (UInt8.ofNat (48 + t % 10)) =
          some (m.set (w.length + n) (UInt8.ofNat (48 + t % 10))) := by
        unfold Mem.poke; rw [if_pos (by rw [hb.1]; exact hbn)]
      have b1 : Buf N (m.set (w.length + n) (UInt8.ofNat (48 + t % 10))) (w ++ x.take n ++ ([UInt8.ofNat (48 + t % 10)] ++ y)) := by
        obtain ⟨h1, r, hr⟩ := hb
        refine ⟨by simp [h1], r, ?_⟩
        rw [hr, hx1]
        have hl : (x.take n).length = n := by simp; omega
        simp only [List.append_assoc]
        rw [List.set_append_right _ _ (by omega), show w.length + n - w.length = n by omega,
          List.set_append_right _ _ (by simp; omega)]
        simp [hl]
      rw [e1]
      simp only [Option.bind_eq_bind, Option.bind_some]
      obtain ⟨m', k, x', e2, hk, hx', b2⟩ := ih (t / 10) _ (x.take n) _ (by simp; omega) b1
      refine ⟨m', k, x', e2, ?_, hx', ?_⟩
      · rw [hk, digs_succ ht]; simp
      · rw [digs_succ ht]
        have : ((digs (t / 10) ++ [UInt8.ofNat (48 + t % 10)]).drop
            ((digs (t / 10) ++ [UInt8.ofNat (48 + t % 10)]).length - (n + 1))) =
            (digs (t / 10)).drop ((digs (t / 10)).length - n) ++ [UInt8.ofNat (48 + t % 10)] := by
          rw [List.length_append, List.length_singleton,
            show (digs (t / 10)).length + 1 - (n + 1) = (digs (t / 10)).length - n by omega,
            List.drop_append_of_le_length (by omega)]
        rw [this]
        simpa using b2
    · rw [if_neg ht]
      have : t = 0 := by omega
      subst this
      refine ⟨m, n + 1, x, rfl, by simp [digs], hx, ?_⟩
      simpa [digs] using hb

theorem printTid_ok {n : Nat} {m : Mem} {w : List Byte} (h : Buf n m w) {tid : Int} (ht : tid ≠ -2147483648)
    (hn : w.length + 8 ≤ n) :
    ∃ m', printTid m w.length tid = some (m', 7) ∧ Buf n m' (w ++ Spec.tidText tid) ∧ (Spec.tidText tid).length = 7 := by
  have hd : digs tid.natAbs = Spec.tidDigits tid := by
    unfold digs Spec.tidDigits
    by_cases h0 : tid = 0
    · simp [h0]
    · rw [if_neg (by omega), if_neg h0]
  have hlast : (Spec.tidDigits tid).length - ((Spec.tidDigits tid).length - 5) ≤ 5 := by omega
  unfold printTid
  have e0 : (if tid < 0 then (if tid = -2147483648 then none else some (-tid)) else some tid) = some (tid.natAbs : Int) := by
    rw [if_neg ht]
    split
    · congr 1; omega
    · congr 1; omega
  rw [e0]
  simp only [Option.bind_eq_bind, Option.bind_some, Int.toNat_natCast]
  obtain ⟨m1, e1, b1⟩ := h.poke 40 rfl (by omega)
  rw [e1]
  simp only [Option.bind_some]
  obtain ⟨x, hx, b1'⟩ : ∃ x : List Byte, x.length = 5 ∧ Buf n m1 (w ++ [40] ++ x ++ []) := by
    obtain ⟨hl, r, hr⟩ := b1
    have hr5 : 5 ≤ r.length := by
      have := congrArg List.length hr
      simp at this; omega
    exact ⟨r.take 5, by simp; omega, hl, r.drop 5, by rw [hr]; simp⟩
  obtain ⟨m2, k, x', e2, hk, hx', b2⟩ := tidLoop_ok (w ++ [40]) 5 tid.natAbs m1 x [] hx b1'
  rw [List.length_append, List.length_singleton] at e2
  rw [e2]
  simp only [Option.bind_some]
  rw [hd] at hk b2
  generalize hT : (Spec.tidDigits tid).drop ((Spec.tidDigits tid).length - 5) = T at b2
  have hTl : T.length + k = 5 := by rw [← hT]; simp; omega
  have hb2l := b2.le
  simp only [List.length_append, List.length_singleton, List.length_nil] at hb2l
  obtain ⟨m3, e3, b3⟩ : ∃ m3, m2.store (w.length + 1) (List.replicate k 32) = some m3 ∧
      Buf n m3 (w ++ [40] ++ List.replicate k 32 ++ T) := by
    obtain ⟨hl, r, hr⟩ := b2
    rw [Mem.store_eq_some (by simp [hl]; omega)]
    refine ⟨_, rfl, by rw [Mem.store_length _ _ _ (by simp [hl]; omega), hl], r, ?_⟩
    have e1 : m2 = (w ++ [40]) ++ (x' ++ (T ++ r)) := by rw [hr]; simp
    have e3 : m2.take (w.length + 1) = w ++ [40] := by
      rw [e1, List.take_append_of_le_length (by simp), List.take_of_length_le (by simp)]
    have e4 : m2.drop (w.length + 1 + (List.replicate k (32 : Byte)).length) = T ++ r := by
      rw [← List.drop_drop, e1, show w.length + 1 = (w ++ [(40 : Byte)]).length by simp, List.drop_left,
        List.length_replicate, ← hx', List.drop_left]
    rw [e3, e4]; simp
  rw [e3]
  simp only [Option.bind_some]
  obtain ⟨m4, e4, b4⟩ := b3.poke (i := w.length + 6) 41 (by simp; omega) (by simp; omega)
  rw [e4]
  simp only [Option.bind_some]
  obtain ⟨m5, e5, b5⟩ := b4.poke (i := w.length + 7) 0 (by simp; omega) (by simp; omega)
  rw [e5]
  have htext : Spec.tidText tid = [40] ++ (List.replicate k 32 ++ T) ++ [41] := by
    unfold Spec.tidText Spec.padL
    rw [hT, show 5 - T.length = k by omega]
  refine ⟨m5, rfl, ?_, ?_⟩
  · rw [htext]
    have := b5.cut
    simpa using this
  · rw [htext]; simp; omega

/-! ### my_int2str -/

theorem decText_digs (t : Nat) (h : 0 < t) : decText t = digs t := by
  unfold digs; rw [if_neg (by omega)]

theorem digitLoop_ok {N : Nat} : ∀ (fuel num : Nat) (m : Mem) (w x : List Byte), Buf N m (w ++ x) → num < fuel →
    w.length + x.length + (decText num).length ≤ N →
    ∃ m', digitLoop fuel m w.length x.length num = some (m', x.length + (decText num).length) ∧
      Buf N m' (w ++ (x ++ (decText num).reverse)) := by
  intro fuel
  induction fuel with
  | zero => intro num m w x _ h; omega
  | succ fuel ih =>
    intro num m w x hb hf hn
    have hne := List.length_pos_iff.2 (decText_ne_nil num)
    unfold digitLoop
    obtain ⟨m1, e1, b1⟩ := hb.poke (i := w.length + x.length) (UInt8.ofNat (num % 10 + 48)) (by simp) (by simp; omega)
    rw [e1]
    simp only [Option.bind_eq_bind, Option.bind_some]
    rw [Nat.add_comm (num % 10) 48, digit_byte (by omega)] at b1
    by_cases h10 : num < 10
    · rw [if_neg (by omega)]
      rw [decText_lt h10]
      rw [Nat.mod_eq_of_lt h10] at b1
      exact ⟨m1, by simp, by simpa using b1⟩
    · rw [if_pos (by omega)]
      rw [decText_ge (by omega)] at hn ⊢
      simp only [List.length_append, List.length_singleton] at hn
      obtain ⟨m2, e2, b2⟩ := ih (num / 10) m1 w (x ++ [UInt8.ofNat (Nat.digitChar (num % 10)).toNat]) (by simpa using b1) (by omega)
        (by simp; omega)
      rw [List.length_append, List.length_singleton] at e2
      refine ⟨m2, ?_, ?_⟩
      · rw [e2]; simp; omega
      · simpa using b2

/-- The `len` characters at `off` with the outer `i` on both sides exchanged. -/
theorem swapLoop_ok {N : Nat} (w x y : List Byte) : ∀ (fuel i : Nat) (m : Mem) (z : List Byte), Buf N m (w ++ z ++ y) →
    z.length = x.length → i ≤ x.length →
    (∀ k, k < x.length → z[k]? = if k < i ∨ x.length - i ≤ k then x[x.length - 1 - k]? else x[k]?) →
    x.length < fuel + i →
    ∃ m', swapLoop fuel m w.length x.length i = some m' ∧ Buf N m' (w ++ x.reverse ++ y) := by
  intro fuel
  induction fuel with
  | zero => intro i m z _ _ h2 _ h3; omega
  | succ fuel ih =>
    intro i m z hb hl hi hz hf
    unfold swapLoop
    by_cases hlt : i < x.length / 2
    · rw [if_pos hlt]
      obtain ⟨hlen, r, hr⟩ := hb
      have hm : m = w ++ (z ++ (y ++ r)) := by rw [hr]; simp
      have get : ∀ (z' : List Byte) k, k < z'.length → (w ++ (z' ++ (y ++ r)))[w.length + k]? = z'[k]? := by
        intro z' k hk
        rw [List.getElem?_append_right (by omega), show w.length + k - w.length = k by omega, List.getElem?_append_left hk]
      have pk : ∀ (z' : List Byte) k c, k < z'.length →
          Mem.poke (w ++ (z' ++ (y ++ r))) (w.length + k) c = some (w ++ (z'.set k c ++ (y ++ r))) := by
        intro z' k c hk
        unfold Mem.poke
        rw [if_pos (by simp; omega), List.set_append_right _ _ (by omega), show w.length + k - w.length = k by omega,
          List.set_append_left _ _ hk]
      generalize hj : x.length - 1 - i = j
      have hjl : j < z.length := by omega
      have hil : i < z.length := by omega
      have hij : i ≠ j := by omega
      rw [hm]
      rw [get z i hil, get z j hjl, List.getElem?_eq_getElem hil, List.getElem?_eq_getElem hjl]
      simp only [Option.bind_eq_bind, Option.bind_some]
      rw [pk z i _ hil]
      simp only [Option.bind_some]
      rw [get _ i (by simpa using hil), get _ j (by simpa using hjl), List.getElem?_set_self hil,
        List.getElem?_set_ne hij, List.getElem?_eq_getElem hjl]
      simp only [Option.bind_some]
      rw [pk _ j _ (by simpa using hjl)]
      simp only [Option.bind_some]
      rw [get _ i (by simpa using hil), get _ j (by simpa using hjl), List.getElem?_set_ne (Ne.symm hij),
        List.getElem?_set_self hil, List.getElem?_set_self (by simpa using hjl)]
      simp only [Option.bind_some]
      rw [pk _ i _ (by simpa using hil)]
      simp only [Option.bind_some]
      have ea : z[i] + z[j] - z[j] = z[i] := UInt8.add_sub_cancel _ _
      have eb : z[i] + z[j] - z[i] = z[j] := by rw [UInt8.add_comm]; exact UInt8.add_sub_cancel _ _
      rw [ea, eb]
      refine ih (i + 1) _ (((z.set i (z[i] + z[j])).set j z[i]).set i z[j]) ?_ (by simpa using hl) (by omega) ?_ (by omega)
      · refine ⟨?_, r, by simp⟩
        rw [hm] at hlen
        simpa using hlen
      · intro k hk
        have hzi := hz i (by omega)
        have hzj := hz j (by omega)
        rw [if_neg (by omega)] at hzi hzj
        rw [List.getElem?_eq_getElem hil] at hzi
        rw [List.getElem?_eq_getElem hjl] at hzj
        by_cases hki : k = i
        · subst hki
          rw [List.getElem?_set_self (by simpa using hil), if_pos (by omega), hj, hzj]
        · rw [List.getElem?_set_ne (fun h => hki h.symm)]
          by_cases hkj : k = j
          · subst hkj
            rw [List.getElem?_set_self (by simpa using hjl), if_pos (by omega), show x.length - 1 - k = i by omega, hzi]
          · rw [List.getElem?_set_ne (fun h => hkj h.symm), List.getElem?_set_ne (fun h => hki h.symm), hz k hk]
            by_cases hc : k < i ∨ x.length - i ≤ k
            · rw [if_pos hc, if_pos (by omega)]
            · rw [if_neg hc, if_neg (by omega)]
    · rw [if_neg hlt]
      refine ⟨m, rfl, ?_⟩
      have : z = x.reverse := by
        apply List.ext_getElem?
        intro k
        by_cases hk : k < x.length
        · rw [hz k hk, List.getElem?_reverse hk]
          split
          · rfl
          · rw [show x.length - 1 - k = k by omega]
        · rw [List.getElem?_eq_none (by omega), List.getElem?_eq_none (by simp; omega)]
      rw [← this]; exact hb

theorem int2str_ok {N : Nat} {m : Mem} {w : List Byte} (h : Buf N m w) (num : Nat)
    (hn : w.length + (decText num).length < N) :
    ∃ m', int2str m w.length num = some (m', (decText num).length) ∧ Buf N m' (w ++ decText num) := by
  unfold int2str
  obtain ⟨m1, e1, b1⟩ := digitLoop_ok (num + 1) num m w [] (by simpa using h) (by omega) (by simp; omega)
  rw [List.length_nil, Nat.zero_add, List.nil_append] at *
  rw [e1]
  simp only [Option.bind_eq_bind, Option.bind_some]
  obtain ⟨m2, e2, b2⟩ := b1.poke (i := w.length + (decText num).length) 0 (by simp) (by simp; omega)
  rw [e2]
  simp only [Option.bind_some]
  obtain ⟨m3, e3, b3⟩ := swapLoop_ok w (decText num).reverse [0] ((decText num).length + 1) 0 m2 (decText num).reverse
    (by simpa using b2) rfl (by omega) (by intro k hk; rw [if_neg (by simp at hk ⊢; omega)]) (by simp)
  rw [List.length_reverse] at e3
  rw [e3]
  refine ⟨m3, rfl, ?_⟩
  rw [List.reverse_reverse] at b3
  exact b3.cut

theorem printFuncLine_ok {N : Nat} {m : Mem} {w : List Byte} (h : Buf N m w) {func : Mem} {f : List Byte}
    (hf : func.cstr 0 = some f) (line : Nat) (hn : w.length + (Spec.traceText f line).length < N) :
    ∃ m', printFuncLine m w.length func line = some (m', (Spec.traceText f line).length) ∧
      Buf N m' (w ++ Spec.traceText f line) := by
  have htl : (Spec.traceText f line).length = f.length + (decText line).length + 4 := by
    simp [Spec.traceText]; omega
  unfold printFuncLine
  obtain ⟨m1, e1, b1⟩ := h.poke 40 rfl (by omega)
  rw [e1, hf]
  simp only [Option.bind_eq_bind, Option.bind_some]
  obtain ⟨m2, e2, b2⟩ := b1.store (i := w.length + 1) f (by simp) (by simp; omega)
  rw [e2]
  simp only [Option.bind_some]
  obtain ⟨m3, e3, b3⟩ := b2.poke (i := w.length + 1 + f.length) 58 (by simp; omega) (by simp; omega)
  rw [e3]
  simp only [Option.bind_some]
  obtain ⟨m4, e4, b4⟩ := int2str_ok b3 line (by simp; omega)
  have hw4 : (w ++ [40] ++ f ++ [58]).length = w.length + 2 + f.length := by simp; omega
  rw [hw4] at e4
  rw [e4]
  simp only [Option.bind_some]
  obtain ⟨m5, e5, b5⟩ := b4.poke (i := w.length + 2 + f.length + (decText line).length) 41 (by simp; omega) (by simp; omega)
  rw [e5]
  simp only [Option.bind_some]
  obtain ⟨m6, e6, b6⟩ := b5.poke (i := w.length + 2 + f.length + (decText line).length + 1) 32 (by simp; omega) (by simp; omega)
  rw [e6]
  simp only [Option.bind_some]
  obtain ⟨m7, e7, b7⟩ := b6.poke (i := w.length + 2 + f.length + (decText line).length + 2) 0 (by simp; omega) (by simp; omega)
  rw [e7]
  simp only [Option.bind_some, Option.pure_def, Option.some.injEq, Prod.mk.injEq]
  refine ⟨m7, ⟨rfl, by omega⟩, ?_⟩
  have := b7.cut
  simpa [Spec.traceText] using this

end Verif.Xlog
