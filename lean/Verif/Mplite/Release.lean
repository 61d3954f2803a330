import Verif.Mplite.Props
/-!
# C37 in release builds: what the missing ASSERTs let through

mplite.c 494-561 tests with ASSERT only (a no-op unless `_DEBUG` is defined: common_macro.h 208-209) that the pointer is one of an
outstanding block.  `freeR` is `mplite_free_unsafe` without those tests.  It does what `free` does on every call that is allowed; it takes
a pointer into the middle of the first atom of a block for the block; and a block that is released twice is handed out twice.

Simplifications: the two counters are natural numbers (`uint32_t` in C, where they would wrap around; in the examples they do not get
below zero); the ASSERTs inside link and unlink are kept (they hold in the examples); pointers before the pool are not modelled.
-/
namespace Verif.Mplite

/-- mplite.c 494-561 with `ASSERT(expr)` as `(void)(expr)`. -/
def freeR (s : St) (p : Nat) : Option St :=
  (s.getCtrl (p / s.szAtom)).bind fun c =>
  (markFree s (p / s.szAtom) (c &&& 0x1f).toNat).bind fun s1 =>
  (mergeLoop (LOGMAX - (c &&& 0x1f).toNat) (freeStats s1 (2 ^ (c &&& 0x1f).toNat * s1.szAtom)) (p / s.szAtom)
    (c &&& 0x1f).toNat).bind fun r => link r.1 r.2.1 r.2.2

theorem markFree_atom {s s1 : St} {i l : Nat} (h : markFree s i l = some s1) : s1.szAtom = s.szAtom := by
  have hs : ∀ {s s1 : St} {i : Nat} {c : Byte}, s.setCtrl i c = some s1 → s1.szAtom = s.szAtom := by
    intro s s1 i c h
    unfold St.setCtrl at h
    split at h
    · cases h; rfl
    · cases h
  unfold markFree at h
  simp only [Option.bind_eq_some_iff] at h
  obtain ⟨_, _, a, ha, _, _, b, hb, hc⟩ := h
  rw [hs hc, hs hb, hs ha]

/-- **C37, release builds.** A call the documentation allows does the same in both builds. -/
theorem release_free {s s' : St} {p : Nat} (h : free s p = some s') : freeR s p = some s' := by
  unfold free at h
  split at h
  · simp only [Option.bind_eq_some_iff] at h
    obtain ⟨c, hc, h⟩ := h
    split at h
    · cases h
    · unfold freeBlock at h
      split at h
      · simp only [Option.bind_eq_some_iff] at h
        obtain ⟨s1, h1, r, h2, h3⟩ := h
        unfold freeR
        simp only [Option.bind_eq_some_iff]
        refine ⟨c, hc, s1, h1, r, ?_, h3⟩
        rw [← h2, markFree_atom h1]
      · cases h
  · cases h

/-- **Finding.** In a release build a pointer into the first atom of a block releases the block. -/
theorem release_interior (s : St) (p k : Nat) (hp : p % s.szAtom = 0) (hk : k < s.szAtom) : freeR s (p + k) = freeR s p := by
  have : (p + k) / s.szAtom = p / s.szAtom := by
    obtain ⟨q, hq⟩ := Nat.dvd_of_mod_eq_zero hp
    have h0 : 0 < s.szAtom := by omega
    rw [hq, Nat.mul_add_div h0, Nat.div_eq_of_lt hk, Nat.mul_div_cancel_left _ h0, Nat.add_zero]
  unfold freeR
  rw [this]

/-- Debug builds stop there. -/
theorem debug_interior (s : St) (p k : Nat) (hp : p % s.szAtom = 0) (h0 : 0 < k) (hk : k < s.szAtom) : free s (p + k) = none := by
  unfold free
  rw [if_neg]
  rintro ⟨_, h⟩
  rw [Nat.add_mod, hp, Nat.zero_add, Nat.mod_mod, Nat.mod_eq_of_lt hk] at h
  omega

/-- Allocates three blocks of 16 bytes, releases the last twice, and asks for two blocks again. -/
def twice (s : St) : Option (List (Option Nat) × Nat) :=
  (malloc s 10).bind fun a => (malloc a.1 10).bind fun b => (malloc b.1 10).bind fun c =>
  (c.2.bind fun p => (freeR c.1 p).bind fun s => freeR s p).bind fun s =>
  (malloc s 10).bind fun d => (malloc d.1 10).map fun e => ([a.2, b.2, c.2, d.2, e.2], e.1.currentCount)

/-- **Finding.** In a release build a block that is released twice is handed out twice: the last two requests, both outstanding, got the
same 16 bytes. -/
theorem release_double_free : ∃ s, demo = some s ∧ twice s = some ([some 352, some 320, some 336, some 336, some 336], 3) := by
  have h : demo.bind twice = some ([some 352, some 320, some 336, some 336, some 336], 3) := by decide +kernel
  cases e : demo with
  | none => rw [e] at h; cases h
  | some s => rw [e] at h; exact ⟨s, rfl, h⟩

/-- Without the second release the two requests get different blocks. -/
example : (demo.bind fun s => results s [.malloc 10, .malloc 10, .malloc 10, .free 336, .malloc 10, .malloc 10]) =
    some [some 352, some 320, some 336, none, some 336, some 256] := by decide +kernel

end Verif.Mplite
