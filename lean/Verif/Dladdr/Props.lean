import Verif.Dladdr.Model

/-! # C83: `dladdr` -/
namespace Verif.Dladdr
open Spec

theorem rd_word {mem : Nat → Option Byte} : ∀ {n a v : Nat}, Word mem a n v → rd mem a n = some v
  | 0, a, v, h => by
    have : v = 0 := by simpa using h.1
    simp [rd, this]
  | n + 1, a, v, h => by
    obtain ⟨h1, h2⟩ := h
    have h0 := h2 0 (by omega)
    simp only [Nat.add_zero, Nat.pow_zero, Nat.div_one] at h0
    have hw : Word mem (a + 1) n (v / 256) := by
      refine ⟨by rw [Nat.pow_succ] at h1; exact Nat.div_lt_of_lt_mul (by omega), ?_⟩
      intro i hi
      have := h2 (i + 1) (by omega)
      rw [Nat.pow_succ, Nat.mul_comm, ← Nat.div_div_eq_div_mul] at this
      rw [← this]; congr 1; omega
    simp only [rd, h0, rd_word hw, Option.bind_eq_bind, Option.bind_some, Option.pure_def]
    congr 1
    simp only [UInt8.toNat_ofNat']
    omega

theorem rd_readable {mem : Nat → Option Byte} : ∀ {n a : Nat}, (∀ i, i < n → mem (a + i) ≠ none) → ∃ v, rd mem a n = some v
  | 0, a, _ => ⟨0, rfl⟩
  | n + 1, a, h => by
    obtain ⟨b, hb⟩ := Option.ne_none_iff_exists'.1 (h 0 (by omega))
    obtain ⟨r, hr⟩ := rd_readable (mem := mem) (n := n) (a := a + 1) (fun i hi => by
      have := h (i + 1) (by omega)
      rwa [show a + 1 + i = a + (i + 1) by omega])
    exact ⟨b.toNat + 256 * r, by simp only [Nat.add_zero] at hb; simp [rd, hb, hr]⟩

theorem rd_lt {mem : Nat → Option Byte} : ∀ {n a v : Nat}, rd mem a n = some v → v < 256 ^ n
  | 0, a, v, h => by simp [rd] at h; omega
  | n + 1, a, v, h => by
    simp only [rd, Option.bind_eq_bind] at h
    cases hb : mem a with
    | none => simp [hb] at h
    | some b =>
      cases hr : rd mem (a + 1) n with
      | none => simp [hb, hr] at h
      | some r =>
        simp [hb, hr] at h
        have := rd_lt hr
        have := b.toNat_lt
        rw [Nat.pow_succ]
        omega

/-- The bytes of what was read. -/
theorem word_rd {mem : Nat → Option Byte} : ∀ {n a v : Nat}, rd mem a n = some v → Word mem a n v
  | 0, a, v, h => ⟨by simp [rd] at h; simp [← h], by intro i hi; omega⟩
  | n + 1, a, v, h => by
    refine ⟨rd_lt h, ?_⟩
    simp only [rd, Option.bind_eq_bind] at h
    cases hb : mem a with
    | none => simp [hb] at h
    | some b =>
      cases hr : rd mem (a + 1) n with
      | none => simp [hb, hr] at h
      | some r =>
        simp [hb, hr] at h
        have hw := word_rd hr
        intro i hi
        have hbl := b.toNat_lt
        cases i with
        | zero =>
          simp only [Nat.add_zero, hb, Nat.pow_zero, Nat.div_one]
          congr 1
          apply UInt8.toNat.inj
          simp only [UInt8.toNat_ofNat']
          omega
        | succ i =>
          have := hw.2 i (by omega)
          rw [show a + 1 + i = a + (i + 1) by omega] at this
          rw [this, Nat.pow_succ, Nat.mul_comm, ← Nat.div_div_eq_div_mul]
          congr 3
          omega

/-! ### Sections -/

theorem section_some {mem : Nat → Option Byte} {base l i rva size : Nat} (h1 : Word mem base 2 0x5A4D) (hl : l < 2 ^ 31) (h2 : Word mem (base + 60) 4 l)
    (h3 : Word mem (base + l + 24) 2 0x20b) (hi : i ≤ 14) (he : Entry mem (base + l + 24) i rva size) :
    getImageSection mem base i = some (if rva = 0 ∨ size = 0 then none else some (base + rva, size)) := by
  have hl' : ¬ l ≥ 2 ^ 31 := by omega
  have hi' : ¬ i > 14 := by omega
  have e1 := rd_word he.1
  have e2 := rd_word he.2
  rw [show base + l + 24 + 116 + 8 * i = base + l + 24 + 112 + 8 * i + 4 by omega] at e2
  unfold getImageSection
  simp only [rd_word h1, rd_word h2, rd_word h3, Option.bind_eq_bind, Option.bind_some, ne_eq, not_true, if_false, hl', hi', e1, e2, Option.pure_def]
  by_cases k1 : size = 0
  · simp [k1]
  · by_cases k2 : rva = 0
    · simp [k1, k2]
    · simp [k1, k2]

/-! ### The nearest symbol -/

/-- What the loop knows after the first `i` functions. -/
def Best (base : Nat) (fs : List Nat) (addr i cand : Nat) (idx : Int) : Prop :=
  (idx = -1 ∧ cand = 0 ∧ ∀ j v, j < i → fs[j]? = some v → addr < base + v) ∨
  ∃ k r : Nat, idx = k ∧ k < i ∧ fs[k]? = some r ∧ cand = base + r ∧ base + r ≤ addr ∧ (∀ j v, j < i → fs[j]? = some v → base + v ≤ addr → v ≤ r) ∧ ∀ j, j < k → fs[j]? ≠ some r

theorem funcLoop_spec {mem : Nat → Option Byte} {base tab addr : Nat} {fs : List Nat} (hb : base ≠ 0) (hn : fs.length < 2 ^ 31)
    (ht : ∀ (i v : Nat), fs[i]? = some v → Word mem (tab + 4 * i) 4 v) :
    ∀ (n i cand : Nat) (idx : Int), i + n = fs.length → Best base fs addr i cand idx →
      ∃ cand' idx', funcLoop mem base tab addr n i cand idx = some (cand', idx') ∧ Best base fs addr fs.length cand' idx'
  | 0, i, cand, idx, h, hB => by
    have : i = fs.length := by omega
    subst this
    exact ⟨cand, idx, rfl, hB⟩
  | n + 1, i, cand, idx, h, hB => by
    have hi : i < fs.length := by omega
    have hr : fs[i]? = some fs[i] := List.getElem?_eq_getElem hi
    generalize fs[i] = r at hr
    unfold funcLoop
    simp only [rd_word (ht i r hr), Option.bind_eq_bind, Option.bind_some]
    have hai : asInt i = i := by unfold asInt; rw [if_pos (by omega)]
    by_cases hc : base + r > addr ∨ cand ≥ base + r
    · rw [if_pos hc]
      refine funcLoop_spec hb hn ht n (i + 1) cand idx (by omega) ?_
      rcases hB with ⟨k1, k2, k3⟩ | ⟨k, r', k1, k2, k3, k4, k5, k6, k7⟩
      · refine .inl ⟨k1, k2, ?_⟩
        intro j v hj hv
        by_cases e : j = i
        · subst e; rw [hr] at hv; cases hv; omega
        · exact k3 j v (by omega) hv
      · refine .inr ⟨k, r', k1, by omega, k3, k4, k5, ?_, k7⟩
        intro j v hj hv hle
        by_cases e : j = i
        · subst e; rw [hr] at hv; cases hv; omega
        · exact k6 j v (by omega) hv hle
    · rw [if_neg hc]
      have hc1 : base + r ≤ addr := by omega
      have hc2 : cand < base + r := by omega
      refine funcLoop_spec hb hn ht n (i + 1) (base + r) (asInt i) (by omega) ?_
      refine .inr ⟨i, r, hai, by omega, hr, rfl, hc1, ?_, ?_⟩
      · intro j v hj hv hle
        by_cases e : j = i
        · subst e; rw [hr] at hv; cases hv; omega
        · rcases hB with ⟨k1, k2, k3⟩ | ⟨k, r', k1, k2, k3, k4, k5, k6, k7⟩
          · have := k3 j v (by omega) hv; omega
          · have := k6 j v (by omega) hv hle; omega
      · intro j hj hv
        rcases hB with ⟨k1, k2, k3⟩ | ⟨k, r', k1, k2, k3, k4, k5, k6, k7⟩
        · have := k3 j r hj hv; omega
        · have := k6 j r hj hv hc1; omega

theorem nameLoop_spec {mem : Nat → Option Byte} {base names ords k : Nat} {ns : List (Nat × Nat)} (hb : base ≠ 0)
    (ht : ∀ (i : Nat) (v : Nat × Nat), ns[i]? = some v → Word mem (names + 4 * i) 4 v.1 ∧ Word mem (ords + 2 * i) 2 v.2) :
    ∀ (n i : Nat), i + n = ns.length → (∀ j v, j < i → ns[j]? = some v → v.2 ≠ k) →
      ∃ r, nameLoop mem base names ords k n i = some r ∧ ((r = 0 ∧ ∀ n, ¬ NameOf ns k n) ∨ ∃ x, NameOf ns k x ∧ r = base + x)
  | 0, i, h, hno => by
    refine ⟨0, rfl, .inl ⟨rfl, ?_⟩⟩
    rintro n ⟨j, hj, _⟩
    have hlt := (List.getElem?_eq_some_iff.1 hj).1
    exact hno j _ (by omega) hj rfl
  | n + 1, i, h, hno => by
    have hi : i < ns.length := by omega
    have hr : ns[i]? = some ns[i] := List.getElem?_eq_getElem hi
    generalize ns[i] = v at hr
    obtain ⟨w1, w2⟩ := ht i v hr
    unfold nameLoop
    simp only [rd_word w2, Option.bind_eq_bind, Option.bind_some]
    by_cases hc : v.2 = k
    · rw [if_pos (by omega)]
      simp only [rd_word w1, Option.bind_some, Option.pure_def]
      refine ⟨base + v.1, rfl, .inr ⟨v.1, ⟨i, ?_, hno⟩, rfl⟩⟩
      rw [hr, ← hc]
    · rw [if_neg (by omega)]
      refine nameLoop_spec hb ht n (i + 1) (by omega) ?_
      intro j u hj hu
      by_cases e : j = i
      · subst e; rw [hr] at hu; cases hu; exact hc
      · exact hno j u (by omega) hu

/-! ### `is_valid_address` and modules -/

theorem isValid_iff {w : World} {addr : Nat} : isValid w addr = true ↔ Valid w addr := by
  unfold isValid Valid
  by_cases h : addr = 0
  · simp [h]
  · simp only [h, if_false, ne_eq, not_false_eq_true, true_and]
    cases hq : w.query addr with
    | none => simp
    | some x =>
      obtain ⟨b, p⟩ := x
      simp only [Option.some.injEq, Prod.mk.injEq]
      by_cases k : b = 0 ∨ p = 0 ∨ p = 1
      · rw [if_pos k]
        constructor
        · intro h; cases h
        · rintro ⟨_, _, ⟨rfl, rfl⟩, k1, k2, k3⟩
          rcases k with k | k | k <;> contradiction
      · rw [if_neg k]
        refine ⟨fun _ => ⟨b, p, ⟨rfl, rfl⟩, ?_⟩, fun _ => rfl⟩
        exact ⟨fun e => k (.inl e), fun e => k (.inr (.inl e)), fun e => k (.inr (.inr e))⟩

theorem moduleOf_iff {w : World} {addr m : Nat} (hm : m ≠ 0) : moduleOf w addr = m ↔ InModule w addr m := by
  unfold moduleOf InModule
  cases hx : w.handleEx with
  | some f =>
    simp only
    cases hf : f addr with
    | none => simp; intro h; exact hm h.symm
    | some x => simp [hm]
  | none =>
    simp only
    cases hq : w.query addr with
    | none => simp; intro h; exact hm h.symm
    | some x => obtain ⟨b, p⟩ := x; simp [hm]

/-! ### The information -/

theorem fillInfo_spec {w : World} {addr : Nat} {info : Info} {img : Image} {n : Nat} {name : List Byte} (hm : InModule w addr img.base)
    (hf : w.fileName img.base = (n, name)) (h0 : n ≠ 0) (h1 : n ≠ 520) (hM : Mapped w.mem img) :
    ∃ sname saddr, fillInfo w addr info = some (true, ⟨name, img.base, sname, saddr⟩) ∧ Symbol img addr sname saddr := by
  obtain ⟨hb, m1, l, hl, m2, m3, m4, m5, m6⟩ := hM
  unfold fillInfo
  simp only [(moduleOf_iff hb).2 hm, hb, if_false, hf, h0, h1, or_self]
  cases he : img.exports with
  | none =>
    rw [he] at m4
    obtain ⟨rva, size, k1, k2⟩ := m4
    simp only [section_some m1 hl m2 m3 (by omega) k1, k2, if_true, Option.bind_eq_bind, Option.bind_some, Option.pure_def]
    exact ⟨0, 0, rfl, .inr ⟨rfl, rfl, by intro e i n h; rw [he] at h; cases h⟩⟩
  | some e =>
    rw [he] at m4
    obtain ⟨rva, size, f, nm, x, k1, k2, k3, t1, t2, t3, t4, t5, t6, t7, t8⟩ := m4
    have hno : ¬ (rva = 0 ∨ size = 0) := fun h => h.elim k2 k3
    simp only [section_some m1 hl m2 m3 (by omega) k1, hno, if_false, Option.bind_eq_bind, Option.bind_some, Option.pure_def]
    unfold getExportSymbolName
    obtain ⟨cand, idx, f1, f2⟩ := funcLoop_spec (addr := addr) hb t6 t7 e.funcs.length 0 0 (-1) (by omega) (.inl ⟨rfl, rfl, by intro j v hj; omega⟩)
    simp only [rd_word t1, rd_word t2, rd_word t3, rd_word t4, rd_word t5, f1, Option.bind_eq_bind, Option.bind_some, Option.pure_def]
    rcases f2 with ⟨e1, e2, e3⟩ | ⟨k, r, e1, e2, e3, e4, e5, e6, e7⟩
    · simp only [e1, if_true, Option.bind_some]
      refine ⟨0, 0, rfl, .inr ⟨rfl, rfl, ?_⟩⟩
      rintro e' i n h ⟨r, hr, hle, _⟩ _
      rw [he] at h; cases h
      have := e3 i r (List.getElem?_eq_some_iff.1 hr).1 hr
      omega
    · have hidx : ¬ idx = -1 := by omega
      subst e1
      obtain ⟨p, n1, n2⟩ := nameLoop_spec (k := k) hb t8 e.names.length 0 (by omega) (by intro j v hj; omega)
      simp only [hidx, if_false, n1, Option.bind_some]
      have near : Nearest img.base e.funcs addr k :=
        ⟨r, e3, e5, fun j v hv hle => e6 j v (List.getElem?_eq_some_iff.1 hv).1 hv hle, e7⟩
      rcases n2 with ⟨rfl, n2⟩ | ⟨y, n2, rfl⟩
      · refine ⟨0, 0, rfl, .inr ⟨rfl, rfl, ?_⟩⟩
        intro e' i n h near' hn
        rw [he] at h; cases h
        obtain ⟨r', q1, q2, q3, q4⟩ := near'
        have h1 := q3 k r e3 e5
        have h2 := e6 i r' (List.getElem?_eq_some_iff.1 q1).1 q1 q2
        have hrr : r' = r := by omega
        subst hrr
        have hik : i = k := by
          rcases Nat.lt_trichotomy i k with h | h | h
          · exact absurd q1 (e7 i h)
          · exact h
          · exact absurd e3 (q4 k h)
        subst hik
        exact n2 n hn
      · have hs : img.base + y ≠ 0 := by omega
        have hc : cand ≠ 0 := by omega
        refine ⟨img.base + y, cand, ?_, .inl ⟨e, k, r, y, he, near, e3, n2, rfl, e4⟩⟩
        simp only [hs, hc, if_false, ne_eq, not_false_eq_true, if_true]

/-! ### Thunks -/

theorem findIat_spec {w : World} {img : Image} (hM : Mapped w.mem img) :
    (∃ a size, findIat w img.base = some (some (a, size)) ∧ Table img a size) ∨ (findIat w img.base = some none ∧ ∀ a size, ¬ Table img a size) := by
  obtain ⟨hb, m1, l, hl, m2, m3, m4, m5, m6⟩ := hM
  unfold findIat Table
  cases hi : img.iat with
  | some t =>
    obtain ⟨rva, size⟩ := t
    rw [hi] at m5
    obtain ⟨k1, k2, k3⟩ := m5
    have hno : ¬ (rva = 0 ∨ size = 0) := fun h => h.elim k2 k3
    simp only [section_some m1 hl m2 m3 (by omega) k1, hno, if_false, Option.bind_eq_bind, Option.bind_some, Option.pure_def]
    exact .inl ⟨_, _, rfl, by simp⟩
  | none =>
    rw [hi] at m5
    obtain ⟨rva, size, k1, k2⟩ := m5
    simp only [section_some m1 hl m2 m3 (by omega) k1, k2, if_true, Option.bind_eq_bind, Option.bind_some, Option.pure_def]
    cases hj : img.imports with
    | none =>
      rw [hj] at m6
      obtain ⟨rva, size, k1, k2⟩ := m6
      simp only [section_some m1 hl m2 m3 (by omega) k1, k2, if_true, Option.bind_some]
      exact .inr ⟨by simp, by rintro a size ⟨i, hx, _⟩; cases hx⟩
    | some i =>
      rw [hj] at m6
      obtain ⟨k1, k2, k3, k4, k5⟩ := m6
      have hno : ¬ (i.rva = 0 ∨ i.size = 0) := fun h => h.elim k2 k3
      simp only [section_some m1 hl m2 m3 (by omega) k1, hno, if_false, Option.bind_some, rd_word k4, rd_word k5]
      by_cases c1 : i.characteristics = 0
      · simp only [c1, or_true, if_true]
        exact .inr ⟨by simp, by rintro a size ⟨i', hx, h, _⟩; cases hx; exact h c1⟩
      · have hno2 : ¬ (img.base + i.rva = 0 ∨ i.characteristics = 0) := fun h => h.elim (by omega) c1
        simp only [hno2, if_false]
        by_cases c2 : i.firstThunk = 0
        · simp only [c2, if_true]
          exact .inr ⟨by simp, by rintro a size ⟨i', hx, _, h, _⟩; cases hx; exact h c2⟩
        · simp only [c2, if_false]
          refine .inl ⟨_, _, rfl, i, rfl, c1, c2, rfl, ?_⟩
          omega

/-- Which address `dladdr` describes: the given one, or where the import thunk there jumps to. -/
def Target (w : World) (img : Nat → Image) (addr t : Nat) : Prop :=
  Valid w addr ∧ ((¬ (∃ slot, Thunk w.mem addr slot) ∧ t = addr) ∨
    ∃ slot m a size, Thunk w.mem addr slot ∧ InModule w addr m ∧ Table (img m) a size ∧ a ≤ slot ∧ slot ≤ a + size ∧ Valid w slot ∧ Word w.mem slot 8 t ∧ Valid w t)

/-- Memory Windows calls valid can be read (8 bytes), and every module is a mapped image. -/
structure Sane (w : World) (img : Nat → Image) : Prop where
  readable : ∀ a, Valid w a → ∀ i, i < 8 → w.mem (a + i) ≠ none
  mapped : ∀ a m, InModule w a m → (img m).base = m ∧ Mapped w.mem (img m)

theorem word_unique {mem : Nat → Option Byte} {a n v v' : Nat} (h : Word mem a n v) (h' : Word mem a n v') : v = v' := by
  have := rd_word h
  rw [rd_word h'] at this
  exact (Option.some.inj this).symm

theorem inModule_unique {w : World} {a m m' : Nat} (h : InModule w a m) (h' : InModule w a m') : m = m' := by
  rw [← moduleOf_iff h.1] at h
  rw [← moduleOf_iff h'.1] at h'
  omega

theorem thunk_unique {mem : Nat → Option Byte} {a s s' : Nat} (h : Thunk mem a s) (h' : Thunk mem a s') : s = s' := by
  obtain ⟨_, d, h1, rfl⟩ := h
  obtain ⟨_, d', h2, rfl⟩ := h'
  rw [word_unique h1 h2]

theorem table_unique {img : Image} {a s a' s' : Nat} (h : Table img a s) (h' : Table img a' s') : a = a' ∧ s = s' := by
  unfold Table at h h'
  cases hi : img.iat with
  | some t => rw [hi] at h h'; obtain ⟨_, _⟩ := t; simp only at h h'; omega
  | none =>
    rw [hi] at h h'
    obtain ⟨i, h1, _, _, h2, h3⟩ := h
    obtain ⟨i', h1', _, _, h2', h3'⟩ := h'
    rw [h1] at h1'; cases h1'
    omega

theorem target_unique {w : World} {img : Nat → Image} {a t t' : Nat} (h : Target w img a t) (h' : Target w img a t') : t = t' := by
  rcases h with ⟨_, ⟨h1, rfl⟩ | ⟨s, m, b, z, h1, h2, h3, _, _, _, h4, _⟩⟩
  · rcases h' with ⟨_, ⟨_, rfl⟩ | ⟨s', m', b', z', h1', _⟩⟩
    · rfl
    · exact absurd ⟨s', h1'⟩ h1
  · rcases h' with ⟨_, ⟨h1', _⟩ | ⟨s', m', b', z', h1', h2', h3', _, _, _, h4', _⟩⟩
    · exact absurd ⟨s, h1⟩ h1'
    · have := thunk_unique h1 h1'; subst this
      exact word_unique h4 h4'

/-- 733-770: the address that is looked up -/
def lookup (w : World) (addr : Nat) : Option (Option Nat) := do
  if ← isImportThunk w.mem addr then
    let m := moduleOf w addr
    if m = 0 then return none
    match ← findIat w m with
    | none => return none
    | some (iat, size) =>
      let a ← getAddressFromIat w iat size addr
      if isValid w a = false then return none
      return some a
  else return some addr

theorem lookup_spec {w : World} {img : Nat → Image} (hs : Sane w img) {addr : Nat} (hv : Valid w addr) :
    ∃ r, lookup w addr = some r ∧ ∀ t, r = some t ↔ Target w img addr t := by
  obtain ⟨x, hx⟩ := rd_readable (mem := w.mem) (n := 2) (a := addr) (fun i hi => hs.readable addr hv i (by omega))
  unfold lookup isImportThunk
  simp only [hx, Option.bind_eq_bind, Option.bind_some, Option.pure_def, decide_eq_true_eq]
  by_cases hth : x = 0x25ff
  · subst hth
    simp only [if_true]
    obtain ⟨d, hd⟩ := rd_readable (mem := w.mem) (n := 4) (a := addr + 2) (fun i hi => by
      rw [Nat.add_assoc]; exact hs.readable addr hv (2 + i) (by omega))
    have hT : Thunk w.mem addr ((((addr : Int) + 6 + asInt d) % 2 ^ 64 : Int)).toNat := ⟨word_rd hx, d, word_rd hd, rfl⟩
    generalize hslot : ((((addr : Int) + 6 + asInt d) % 2 ^ 64 : Int)).toNat = slot at hT
    have only : ∀ t, Target w img addr t → ∃ m a size, InModule w addr m ∧ Table (img m) a size ∧ a ≤ slot ∧ slot ≤ a + size ∧ Valid w slot ∧ Word w.mem slot 8 t ∧ Valid w t := by
      rintro t ⟨_, ⟨h1, rfl⟩ | ⟨s, m, b, z, h1, h2, h3, h4⟩⟩
      · exact absurd ⟨slot, hT⟩ h1
      · have := thunk_unique h1 hT; subst this
        exact ⟨m, b, z, h2, h3, h4⟩
    by_cases hm : moduleOf w addr = 0
    · simp only [hm, if_true]
      refine ⟨none, rfl, fun t => ⟨fun h => (by cases h), fun h => ?_⟩⟩
      obtain ⟨m, a, size, h1, _⟩ := only t h
      rw [(moduleOf_iff h1.1).2 h1] at hm
      exact absurd hm h1.1
    · simp only [hm, if_false]
      have hin := (moduleOf_iff (w := w) (addr := addr) hm).1 rfl
      obtain ⟨hb, hM⟩ := hs.mapped addr _ hin
      generalize hmm : moduleOf w addr = m at *
      rcases findIat_spec hM with ⟨a, size, f1, f2⟩ | ⟨f1, f2⟩
      · rw [hb] at f1
        simp only [f1, Option.bind_some]
        unfold getAddressFromIat
        simp only [hd, Option.bind_eq_bind, Option.bind_some, hslot, Option.pure_def]
        by_cases hbad : isValid w slot = false ∨ slot < a ∨ slot > a + size
        · simp only [hbad, if_true, Option.bind_some]
          have h0 : isValid w 0 = false := by simp [isValid]
          simp only [h0, if_true]
          refine ⟨none, rfl, fun t => ⟨fun h => (by cases h), fun h => ?_⟩⟩
          obtain ⟨m', a', size', h1, h2, h3, h4, h5, h6, h7⟩ := only t h
          have := inModule_unique h1 hin; subst this
          obtain ⟨rfl, rfl⟩ := table_unique h2 f2
          rcases hbad with k | k | k
          · rw [isValid_iff.2 h5] at k; cases k
          · omega
          · omega
        · have hsv : Valid w slot := isValid_iff.1 (by cases k : isValid w slot with | true => rfl | false => exact absurd (.inl k) hbad)
          obtain ⟨t, ht⟩ := rd_readable (mem := w.mem) (n := 8) (a := slot) (hs.readable slot hsv)
          simp only [hbad, if_false, ht, Option.bind_some]
          have htw := word_rd ht
          by_cases htv : isValid w t = false
          · simp only [htv, if_true]
            refine ⟨none, rfl, fun t' => ⟨fun h => (by cases h), fun h => ?_⟩⟩
            obtain ⟨m', a', size', h1, h2, h3, h4, h5, h6, h7⟩ := only t' h
            have := word_unique h6 htw; subst this
            rw [isValid_iff.2 h7] at htv; cases htv
          · simp only [htv]
            have hTt : Target w img addr t := ⟨hv, .inr ⟨slot, m, a, size, hT, hin, f2, by omega, by omega, hsv, htw, isValid_iff.1 (by simpa using htv)⟩⟩
            refine ⟨some t, rfl, fun t' => ⟨fun h => ?_, fun h => ?_⟩⟩
            · cases h; exact hTt
            · rw [target_unique hTt h]
      · rw [hb] at f1
        simp only [f1, Option.bind_some]
        refine ⟨none, rfl, fun t => ⟨fun h => (by cases h), fun h => ?_⟩⟩
        obtain ⟨m', a', size', h1, h2, _⟩ := only t h
        have := inModule_unique h1 hin; subst this
        exact absurd h2 (f2 _ _)
  · simp only [hth, if_false]
    have hno : ¬ ∃ slot, Thunk w.mem addr slot := by
      rintro ⟨slot, h, _⟩
      exact hth (word_unique (word_rd hx) h)
    have hTt : Target w img addr addr := ⟨hv, .inl ⟨hno, rfl⟩⟩
    refine ⟨some addr, rfl, fun t => ⟨fun h => ?_, fun h => ?_⟩⟩
    · cases h; exact hTt
    · rw [target_unique hTt h]

theorem dladdr_eq (w : World) (addr : Nat) (info : Info) :
    dladdr w addr (some info) = if isValid w addr = false then some (0, some info) else
      (lookup w addr).bind fun
        | none => some (0, some info)
        | some t => (fillInfo w t info).bind fun r => some (if r.1 then 1 else 0, some r.2) := by
  unfold dladdr lookup
  simp only
  split <;> rfl

/-- **C83.** `dladdr` is memory-safe; it fails, and leaves `*info` alone, exactly if the address is not valid, is an import thunk that leads nowhere, or
belongs to no module with a (not too long) file name; otherwise it gives the module's file name and base and the nearest exported symbol below the address,
or below the address an import thunk jumps to. -/
theorem dladdr_spec {w : World} {img : Nat → Image} (hs : Sane w img) (addr : Nat) (info : Info) :
    ∃ r info', dladdr w addr (some info) = some (r, some info') ∧
      ((r = 0 ∧ info' = info ∧ ∀ t m, Target w img addr t → InModule w t m → (w.fileName m).1 = 0 ∨ (w.fileName m).1 = 520) ∨
       (r = 1 ∧ ∃ t m, Target w img addr t ∧ InModule w t m ∧ (w.fileName m).1 ≠ 0 ∧ (w.fileName m).1 ≠ 520 ∧
          info'.fname = (w.fileName m).2 ∧ info'.fbase = m ∧ Symbol (img m) t info'.sname info'.saddr)) := by
  rw [dladdr_eq]
  cases hv : isValid w addr with
  | false =>
    refine ⟨0, info, rfl, .inl ⟨rfl, rfl, ?_⟩⟩
    rintro t m ⟨h, _⟩
    rw [isValid_iff.2 h] at hv; cases hv
  | true =>
    simp only [Bool.true_eq_false, if_false]
    obtain ⟨r, h1, h2⟩ := lookup_spec hs (isValid_iff.1 hv)
    rw [h1, Option.bind_some]
    cases r with
    | none =>
      refine ⟨0, info, rfl, .inl ⟨rfl, rfl, fun t m ht => ?_⟩⟩
      have := (h2 t).2 ht; cases this
    | some t =>
      have ht := (h2 t).1 rfl
      simp only
      by_cases hm : moduleOf w t = 0
      · have : fillInfo w t info = some (false, info) := by simp [fillInfo, hm]
        simp only [this, Option.bind_some, Bool.false_eq_true, if_false]
        refine ⟨0, info, rfl, .inl ⟨rfl, rfl, fun t' m ht' hin => ?_⟩⟩
        have := target_unique ht ht'; subst this
        rw [(moduleOf_iff hin.1).2 hin] at hm
        exact absurd hm hin.1
      · have hin := (moduleOf_iff (w := w) (addr := t) hm).1 rfl
        obtain ⟨hb, hM⟩ := hs.mapped t _ hin
        by_cases hf : (w.fileName (moduleOf w t)).1 = 0 ∨ (w.fileName (moduleOf w t)).1 = 520
        · have : fillInfo w t info = some (false, info) := by simp [fillInfo, hm, hf]
          simp only [this, Option.bind_some, Bool.false_eq_true, if_false]
          refine ⟨0, info, rfl, .inl ⟨rfl, rfl, fun t' m ht' hin' => ?_⟩⟩
          have := target_unique ht ht'; subst this
          rw [inModule_unique hin' hin]
          exact hf
        · have hin' : InModule w t (img (moduleOf w t)).base := by rw [hb]; exact hin
          obtain ⟨sn, sa, f1, f2⟩ := fillInfo_spec (info := info) (n := (w.fileName (moduleOf w t)).1) (name := (w.fileName (moduleOf w t)).2) hin' (by rw [hb])
            (fun h => hf (.inl h)) (fun h => hf (.inr h)) hM
          simp only [f1, Option.bind_some, if_true]
          exact ⟨1, _, rfl, .inr ⟨rfl, t, moduleOf w t, ht, hin, fun h => hf (.inl h), fun h => hf (.inr h), rfl, hb, f2⟩⟩

/-- A null `info` is an error. -/
theorem dladdr_null (w : World) (addr : Nat) : dladdr w addr none = some (0, none) := rfl

/-- The symbol is unique: the specification leaves no choice. -/
theorem symbol_unique {img : Image} {addr s a s' a' : Nat} (h : Symbol img addr s a) (h' : Symbol img addr s' a') : s = s' ∧ a = a' := by
  have near : ∀ {fs : List Nat} {i j : Nat}, Nearest img.base fs addr i → Nearest img.base fs addr j → i = j := by
    rintro fs i j ⟨r, h1, h2, h3, h4⟩ ⟨r', h1', h2', h3', h4'⟩
    have a1 := h3 j r' h1' h2'
    have a2 := h3' i r h1 h2
    have : r = r' := by omega
    subst this
    rcases Nat.lt_trichotomy i j with h | h | h
    · exact absurd h1 (h4' i h)
    · exact h
    · exact absurd h1' (h4 j h)
  have name : ∀ {ns : List (Nat × Nat)} {i n n' : Nat}, NameOf ns i n → NameOf ns i n' → n = n' := by
    rintro ns i n n' ⟨k, h1, h2⟩ ⟨k', h1', h2'⟩
    rcases Nat.lt_trichotomy k k' with h | h | h
    · exact absurd rfl (h2' k _ h h1)
    · subst h; rw [h1] at h1'; cases h1'; rfl
    · exact absurd rfl (h2 k' _ h h1')
  rcases h with ⟨e, i, r, n, h1, h2, h3, h4, rfl, rfl⟩ | ⟨rfl, rfl, h⟩
  · rcases h' with ⟨e', i', r', n', h1', h2', h3', h4', rfl, rfl⟩ | ⟨rfl, rfl, h'⟩
    · rw [h1] at h1'; cases h1'
      have := near h2 h2'; subst this
      rw [h3] at h3'; cases h3'
      have := name h4 h4'; subst this
      exact ⟨rfl, rfl⟩
    · exact absurd h4 (h' e i n h1 h2)
  · rcases h' with ⟨e', i', r', n', h1', h2', h3', h4', rfl, rfl⟩ | ⟨rfl, rfl, h'⟩
    · exact absurd h4' (h e' i' n' h1' h2')
    · exact ⟨rfl, rfl⟩

end Verif.Dladdr
