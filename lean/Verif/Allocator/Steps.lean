import Verif.Allocator.Ops
namespace Verif.Allocator
open Verif.Hashmap (Ptr Cfg Map Ev Entry kv)
open Spec (Intact tinybird total Heap Block shape Fresh)

/-- The bytes at `[p, p+n)`. -/
def bytes (mem : Nat → UInt8) (p n : Nat) : List UInt8 := (List.range n).map fun i => mem (p + i)

@[simp] theorem bytes_length (mem : Nat → UInt8) (p n : Nat) : (bytes mem p n).length = n := by
  simp [bytes]

theorem bytes_congr {f g : Nat → UInt8} {p n : Nat} (h : ∀ i < n, f (p + i) = g (p + i)) :
    bytes f p n = bytes g p n := by
  unfold bytes
  apply List.map_congr_left
  intro i hi
  exact h i (List.mem_range.mp hi)

theorem bytes_getElem? (mem : Nat → UInt8) (p n i : Nat) :
    (bytes mem p n)[i]? = if i < n then some (mem (p + i)) else none := by
  unfold bytes
  rw [List.getElem?_map]
  by_cases h : i < n
  · rw [List.getElem?_range h, if_pos h]; rfl
  · rw [List.getElem?_eq_none (by simpa using h), if_neg h]; rfl

/-- The client's heap a state stands for. -/
def heapOf (s : St) (L : List (Nat × Nat)) : Heap :=
  L.map fun kv => ⟨kv.1, bytes s.mem kv.1 (sz s kv.2)⟩

theorem shape_heapOf (s : St) (L : List (Nat × Nat)) : shape (heapOf s L) = led s L := by
  simp [shape, heapOf, led, Function.comp_def]

theorem heap_frame {s s' : St} {L : List (Nat × Nat)}
    (h : ∀ kv ∈ L, sz s' kv.2 = sz s kv.2 ∧ ∀ i < sz s kv.2, s'.mem (kv.1 + i) = s.mem (kv.1 + i)) :
    heapOf s' L = heapOf s L := by
  unfold heapOf
  apply List.map_congr_left
  intro kv hkv
  obtain ⟨h1, h2⟩ := h kv hkv
  rw [h1, bytes_congr h2]

theorem intact_frame {f g : Nat → UInt8} {p n : Nat}
    (h : ∀ i < 8, g (p - 8 + i) = f (p - 8 + i) ∧ g (p + n + i) = f (p + n + i))
    (hi : Intact f (p, n)) : Intact g (p, n) := by
  intro i hi8
  have h1 := h i hi8
  have h2 := hi i hi8
  simp only at *
  exact ⟨h1.1.trans h2.1, h1.2.trans h2.2⟩

/-- The whole region (canaries included) of one tracked block is disjoint from that of another. -/
theorem regions {s : St} {m : Map} {L : List (Nat × Nat)} (h : Rel s m L) {x y : Nat × Nat} (hx : x ∈ L)
    (hy : y ∈ L) (hne : x.1 ≠ y.1) :
    x.1 + sz s x.2 + 16 ≤ y.1 ∨ y.1 + sz s y.2 + 16 ≤ x.1 := by
  obtain ⟨hx8, hx⟩ := h.live x hx
  obtain ⟨hy8, hy⟩ := h.live y hy
  rcases raw_eq h hx hy with e | e
  · simp only [Prod.mk.injEq] at e; omega
  · simp only [disjB, Bool.or_eq_true, decide_eq_true_eq] at e
    omega

/-- State `s` implements the client's heap `H`, and no canary has been touched. -/
def Ref (s : St) (H : Heap) : Prop :=
  ∃ m L, Rel s m L ∧ H = heapOf s L ∧ ∀ b ∈ led s L, Intact s.mem b

/-- Canaries of all blocks of a ledger. -/
def AllIntact (s : St) (L : List (Nat × Nat)) : Prop := ∀ b ∈ led s L, Intact s.mem b

theorem Allocated.frame {s s' : St} {m : Map} {L : List (Nat × Nat)} {r size q : Nat}
    {junk : Nat → UInt8} (h : Rel s m L) (a : Allocated s L r size q junk s') (hq : s.recs q = none) :
    (∀ kv ∈ L, sz s' kv.2 = sz s kv.2) ∧ sz s' q = size ∧
    (∀ kv ∈ L, ∀ x, kv.1 - 8 ≤ x → x < kv.1 + sz s kv.2 + 8 → s'.mem x = s.mem x) ∧
    led s' (L ++ [(r + 8, q)]) = led s L ++ [(r + 8, size)] ∧
    heapOf s' (L ++ [(r + 8, q)]) = heapOf s L ++ [⟨r + 8, bytes s'.mem (r + 8) size⟩] ∧
    (AllIntact s L → AllIntact s' (L ++ [(r + 8, q)])) ∧
    Fresh (heapOf s L) (r + 8) size := by
  have h1 : ∀ kv ∈ L, sz s' kv.2 = sz s kv.2 := by
    intro kv hkv
    have : kv.2 ≠ q := by
      intro e
      have := h.recs kv hkv
      rw [e, hq] at this
      cases this
    simp [sz, a.recs, this]
  have h2 : sz s' q = size := by simp [sz, a.recs]
  have h3 : ∀ kv ∈ L, ∀ x, kv.1 - 8 ≤ x → x < kv.1 + sz s kv.2 + 8 → s'.mem x = s.mem x := by
    intro kv hkv x hx1 hx2
    obtain ⟨h8, hraw⟩ := h.live kv hkv
    have := a.disj _ hraw
    simp only [disjB, Bool.or_eq_true, decide_eq_true_eq] at this
    exact a.other x (by omega)
  have h4 : led s' L = led s L := by
    unfold led
    apply List.map_congr_left
    intro kv hkv
    rw [h1 kv hkv]
  refine ⟨h1, h2, h3, ?_, ?_, ?_, ?_⟩
  · have : led s' (L ++ [(r + 8, q)]) = led s' L ++ [(r + 8, sz s' q)] := by simp [led]
    rw [this, h4, h2]
  · have : heapOf s' (L ++ [(r + 8, q)]) = heapOf s' L ++ [⟨r + 8, bytes s'.mem (r + 8) (sz s' q)⟩] := by
      simp [heapOf]
    rw [this, h2, heap_frame]
    intro kv hkv
    refine ⟨h1 kv hkv, fun i hi => h3 kv hkv _ (by omega) (by omega)⟩
  · intro ha b hb
    have e : led s' (L ++ [(r + 8, q)]) = led s' L ++ [(r + 8, sz s' q)] := by simp [led]
    rw [e, h4, h2] at hb
    rcases List.mem_append.mp hb with hb' | hb'
    · obtain ⟨kv, hkv, rfl⟩ := List.mem_map.mp hb'
      have h8 := (h.live kv hkv).1
      refine intact_frame ?_ (ha _ hb')
      intro i hi
      exact ⟨h3 kv hkv _ (by omega) (by omega), h3 kv hkv _ (by omega) (by omega)⟩
    · simp only [List.mem_singleton] at hb'
      subst hb'
      exact a.intact
  · refine ⟨by omega, ?_⟩
    intro b hb
    obtain ⟨kv, hkv, rfl⟩ := List.mem_map.mp hb
    obtain ⟨h8, hraw⟩ := h.live kv hkv
    have := a.disj _ hraw
    simp only [disjB, Bool.or_eq_true, decide_eq_true_eq] at this
    simp only [bytes_length]
    omega

/-- A store inside the payload of one block: what the client sees of it. -/
theorem payload_store {s : St} {m : Map} {L : List (Nat × Nat)} (h : Rel s m L) {x : Nat × Nat}
    (hx : x ∈ L) (f : Nat → UInt8)
    (hf : ∀ a, a < x.1 ∨ x.1 + sz s x.2 ≤ a → f a = s.mem a) :
    heapOf { s with mem := f } L =
      (heapOf s L).map (fun b => if b.ptr = x.1 then ⟨x.1, bytes f x.1 (sz s x.2)⟩ else b) ∧
    (AllIntact s L → AllIntact { s with mem := f } L) := by
  constructor
  · unfold heapOf
    rw [List.map_map]
    apply List.map_congr_left
    intro y hy
    show (⟨y.1, bytes f y.1 (sz s y.2)⟩ : Block) = _
    simp only [Function.comp_apply]
    by_cases he : y.1 = x.1
    · have hxy : y = x := by
        have h1 := lookup_mem h hx
        have h2 := lookup_mem h hy
        rw [he] at h2
        rw [h1] at h2
        exact (Option.some.inj h2).symm
      subst hxy
      rw [if_pos rfl]
    · rw [if_neg he]
      congr 1
      apply bytes_congr
      intro i hi
      have := regions h hx hy (fun e => he e.symm)
      exact hf _ (by omega)
  · intro ha b hb
    have hb' : b ∈ led s L := hb
    obtain ⟨y, hy, rfl⟩ := List.mem_map.mp hb'
    have h8y := (h.live y hy).1
    have h8x := (h.live x hx).1
    refine intact_frame ?_ (ha _ hb')
    intro i hi
    by_cases he : y.1 = x.1
    · have hxy : y = x := by
        have h1 := lookup_mem h hx
        have h2 := lookup_mem h hy
        rw [he] at h2
        rw [h1] at h2
        exact (Option.some.inj h2).symm
      subst hxy
      exact ⟨hf _ (by omega), hf _ (by omega)⟩
    · have := regions h hx hy (fun e => he e.symm)
      exact ⟨hf _ (by omega), hf _ (by omega)⟩

end Verif.Allocator
