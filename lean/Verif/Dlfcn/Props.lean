import Verif.Dlfcn.Err
import Verif.Dlfcn.List
import Verif.Dlfcn.Win
/-! C78: `dlopen`, `dlclose`, `dlsym`, `dlerror` on Windows keep the promises of `Spec.lean` through every history. -/
namespace Verif.Dlfcn
open Spec

/-! ### Pointers as text -/

theorem hex_fold (p k : Nat) :
    ((List.range k).map fun i => p / 16 ^ (k - (i + 1)) % 16).foldl (fun a d => 16 * a + d) 0 = p % 16 ^ k := by
  induction k generalizing p with
  | zero => simp [Nat.mod_one]
  | succ k ih =>
    rw [List.range_succ, List.map_append, List.foldl_append]
    have : (List.range k).map (fun i => p / 16 ^ (k + 1 - (i + 1)) % 16) =
        (List.range k).map (fun i => p / 16 / 16 ^ (k - (i + 1)) % 16) := by
      apply List.map_congr_left
      intro i hi
      rw [List.mem_range] at hi
      rw [Nat.div_div_eq_div_mul, ← Nat.pow_succ', show (k - (i + 1)).succ = k + 1 - (i + 1) by omega]
    rw [this, ih]
    simp only [List.map_cons, List.map_nil, List.foldl_cons, List.foldl_nil, Nat.sub_self, Nat.pow_zero, Nat.div_one]
    rw [Nat.pow_succ, Nat.mul_comm, Nat.mul_comm (16 ^ k) 16, Nat.mod_mul]
    omega

theorem hexDigit_table : ∀ d, d < 16 → hexDigit d =
    (([48, 49, 50, 51, 52, 53, 54, 55, 56, 57, 65, 66, 67, 68, 69, 70] : List Byte)[d]?).getD 0 := by decide

/-- The error text of `dlclose` shows the handle as `0x` and 16 upper case hexadecimal digits. -/
theorem ptr_text (p : Nat) : IsPtrText p (ptrText p) := by
  refine ⟨(List.range 16).map fun i => p / 16 ^ (16 - (i + 1)) % 16, by simp, ?_, ?_, ?_⟩
  · intro d hd
    obtain ⟨i, _, rfl⟩ := List.mem_map.mp hd
    exact Nat.mod_lt _ (by decide)
  · rw [hex_fold]
  · unfold ptrText
    rw [List.map_map]
    congr 1
    apply List.map_congr_left
    intro i hi
    rw [List.mem_range] at hi
    simp only [Function.comp_apply]
    rw [← hexDigit_table _ (Nat.mod_lt _ (by decide)), Nat.shiftRight_eq_div_pow,
      show 64 - 4 * (i + 1) = 4 * (16 - (i + 1)) by omega, Nat.pow_mul]

theorem ptrText_nul (p : Nat) : (0 : Byte) ∉ ptrText p := by
  obtain ⟨ds, _, hd, _, ht⟩ := ptr_text p
  rw [ht, List.mem_append, not_or]
  refine ⟨by decide, ?_⟩
  rw [List.mem_map]
  rintro ⟨d, hm, he⟩
  have : ∀ d, d < 16 → (([48, 49, 50, 51, 52, 53, 54, 55, 56, 57, 65, 66, 67, 68, 69, 70] : List Byte)[d]?).getD 0 ≠ 0 := by
    decide
  exact this d (hd d hm) he

/-! ### Histories -/

/-- One call, on the model. -/
def exec (s : St) : Call → Option (St × Out)
  | .dlopen f l e => (dlopen s f l e).map fun r => (r.1, .ptr r.2)
  | .dlclose h d a m => (dlclose s h d a m).map fun r => (r.1, .int r.2)
  | .dlsym h n e => (dlsym s h n e).map fun r => (r.1, .ptr r.2)
  | .dlerror => (dlerror s).map fun r => (r.1, .text r.2)

/-- A history, on the model; `none`: undefined behaviour. -/
def execAll (s : St) : List Call → Option (St × List Out)
  | [] => some (s, [])
  | c :: cs => (exec s c).bind fun r => (execAll r.1 cs).map fun r' => (r'.1, r.2 :: r'.2)

/-- the list of local objects is that of the private modules -/
def Private (h : Heap) (priv : Nat → Bool) : Prop := ∃ L, Rep h L ∧ ∀ x, priv x = true ↔ x ∈ L.map (·.2)

/-- what holds of the modules between calls -/
def WOk (w : World) : Prop := (w.mods.map (·.h)).Nodup ∧ ∀ x, w.priv x = true → ∃ m ∈ w.mods, m.h = x ∧ 1 ≤ m.exp

/-- the error state -/
def BufOk (cap : Nat) (s : St) (p : Option (List Byte)) : Prop :=
  5 ≤ cap ∧ s.buf.length = cap ∧ s.err = p.isSome ∧ ∀ t, p = some t → s.buf.cstr 0 = some t

structure Inv (cap : Nat) (s : St) (w : World) : Prop where
  mods : s.mods = w.mods
  priv : Private s.heap w.priv
  wok : WOk w
  buf : BufOk cap s w.pending

theorem fail_ok {cap : Nat} {s : St} {p : Option (List Byte)} (hb : BufOk cap s p) {str : List Byte} (hs : (0 : Byte) ∉ str)
    {msg : Option (List Byte)} (hm : CStr msg) :
    ∃ b, fail s str msg = some { s with buf := b, err := true } ∧
      ∀ heap mods, BufOk cap { heap := heap, mods := mods, buf := b, err := true } (some (errorText cap str msg)) := by
  obtain ⟨h5, hl, _, _⟩ := hb
  obtain ⟨b, h1, h2, h3⟩ := saveErr_spec s.buf (by omega) str hs msg hm
  refine ⟨b, by rw [fail, h1]; rfl, fun heap mods => ⟨h5, by simpa [hl] using h2, rfl, ?_⟩⟩
  intro t ht
  cases ht
  rw [← hl]; exact h3

theorem private_congr {h : Heap} {p q : Nat → Bool} (hp : Private h p) (e : ∀ x, p x = q x) : Private h q := by
  obtain ⟨L, r, hL⟩ := hp
  exact ⟨L, r, fun x => by rw [← e]; exact hL x⟩

theorem private_rem {h : Heap} {p : Nat → Bool} (hp : Private h p) (m : Nat) :
    ∃ h', localRem h m = some h' ∧ Private h' (fun x => x != m && p x) := by
  obtain ⟨L, r, hL⟩ := hp
  obtain ⟨h', L', h1, h2, h3⟩ := localRem_rep r m
  refine ⟨h', h1, L', h2, fun x => ?_⟩
  rw [h3, List.mem_filter, ← hL, Bool.and_eq_true, and_comm]

theorem private_add {h : Heap} {p : Nat → Bool} (hp : Private h p) {m : Nat} (hm : m ≠ 0) (hpm : p m = false) (mem : Bool) :
    ∃ h', localAdd h m mem = some (h', mem) ∧ Private h' (fun x => (mem && x == m) || p x) := by
  obtain ⟨L, r, hL⟩ := hp
  obtain ⟨h', L', h1, h2, h3⟩ := localAdd_rep r hm mem
  have hn : m ∉ L.map (·.2) := by rw [← hL, hpm]; simp
  rw [if_neg hn] at h3
  refine ⟨h', by simpa [hn] using h1, L', h2, fun x => ?_⟩
  rw [h3, Bool.or_eq_true, hL]
  cases mem with
  | false => simp
  | true => simp [or_comm]

theorem symLoop_zero {h : Heap} {p : Nat → Bool} (hp : Private h p) (proc : Nat → List Byte → Nat) (name : List Byte) :
    ∀ ms, symLoop h proc name 0 ms = some (lookup proc name (ms.filter fun x => !p x)) := by
  obtain ⟨L, r, hL⟩ := hp
  intro ms
  induction ms with
  | nil => rfl
  | cons m ms ih =>
    rw [symLoop, if_neg (by simp)]
    obtain ⟨o, ho, hi⟩ := localSearch_isSome r m
    rw [ho]
    cases o with
    | some a =>
      have : p m = true := (hL m).mpr (hi.mp rfl)
      simp only
      rw [List.filter_cons_of_neg (by simp [this])]
      exact ih
    | none =>
      have : p m = false := by
        cases hpm : p m with
        | false => rfl
        | true => have := hi.mpr ((hL m).mp hpm); simp at this
      simp only
      rw [List.filter_cons_of_pos (by simp [this]), lookup]
      split
      · rfl
      · exact ih

theorem symLoop_caller {h : Heap} {p : Nat → Bool} (hp : Private h p) (proc : Nat → List Byte → Nat) (name : List Byte)
    {caller : Nat} (hc : caller ≠ 0) :
    ∀ ms, symLoop h proc name caller ms =
      some (lookup proc name (((ms.dropWhile fun x => x != caller).drop 1).filter fun x => !p x)) := by
  intro ms
  induction ms with
  | nil => rfl
  | cons m ms ih =>
    rw [symLoop, if_pos hc]
    by_cases e : caller = m
    · rw [if_pos e, symLoop_zero hp, List.dropWhile_cons_of_neg (by simp [e])]
      rfl
    · rw [if_neg e, ih, List.dropWhile_cons_of_pos (by simpa using fun hh => e hh.symm)]

/-- the world after a `dlsym` that found `x` -/
def ended (w : World) (x : Nat) (t : List Byte) : World := { w with pending := if x = 0 then some t else none }

theorem symEnd_ok {cap : Nat} {s : St} {w : World} {p : Option (List Byte)} (hb : BufOk cap s p)
    {name : List Byte} (hn : (0 : Byte) ∉ name) {msg : Option (List Byte)} (hm : CStr msg) (x : Nat) (herr : s.err = false)
    (h1 : s.mods = w.mods) (h2 : Private s.heap w.priv) (h3 : WOk w) :
    ∃ s', symEnd s x name msg = some (s', x) ∧
      Inv cap s' (ended w x (errorText cap name msg)) := by
  unfold symEnd
  by_cases hx : x = 0
  · rw [if_pos hx]
    obtain ⟨b, e1, e2⟩ := fail_ok hb hn hm
    refine ⟨{ s with buf := b, err := true }, by rw [e1, hx]; rfl, ⟨h1, h2, h3, ?_⟩⟩
    rw [ended, if_pos hx]
    exact e2 _ _
  · rw [if_neg hx]
    refine ⟨s, rfl, ⟨h1, h2, h3, hb.1, hb.2.1, ?_, ?_⟩⟩
    · rw [ended, if_neg hx]; exact herr
    · rw [ended, if_neg hx]; intro t ht; cases ht

/-- the outcome of the search through all modules -/
def found (w : World) (e : SymEnv) (name : List Byte) (caller : Nat) : Nat :=
  if e.en1 && e.mem && e.en2 then lookup e.proc name (if caller = 0 then visible w else visibleAfter w caller) else 0

theorem symAll_ok {cap : Nat} {s : St} {w : World} {p : Option (List Byte)} (hb : BufOk cap s p)
    {name : List Byte} (hn : (0 : Byte) ∉ name) (e : SymEnv) (hm1 : CStr e.msgMem) (hm2 : CStr e.msgProc) (herr : s.err = false)
    (h1 : s.mods = w.mods) (h2 : Private s.heap w.priv) (h3 : WOk w) (caller : Nat) :
    ∃ s', symAll s caller name e = some (s', found w e name caller) ∧
      Inv cap s' (ended w (found w e name caller)
        (errorText cap name (if e.en1 = true ∧ e.mem = false then e.msgMem else e.msgProc))) := by
  unfold found
  unfold symAll
  cases hen1 : e.en1 with
  | false => simpa using symEnd_ok hb hn hm2 0 herr h1 h2 h3
  | true =>
    cases hmem : e.mem with
    | false => simpa using symEnd_ok hb hn hm1 0 herr h1 h2 h3
    | true =>
      cases hen2 : e.en2 with
      | false => simpa using symEnd_ok hb hn hm2 0 herr h1 h2 h3
      | true =>
        simp only [Bool.not_true, Bool.false_eq_true, if_false, Bool.and_self, if_true, and_false]
        have : symLoop s.heap e.proc name caller (s.mods.map (·.h)) =
            some (lookup e.proc name (if caller = 0 then visible w else visibleAfter w caller)) := by
          by_cases hc : caller = 0
          · rw [if_pos hc, hc, symLoop_zero h2, h1]; rfl
          · rw [if_neg hc, symLoop_caller h2 _ _ hc, h1]; rfl
        rw [this]
        exact symEnd_ok hb hn hm2 _ herr h1 h2 h3

/-- Every call succeeds or fails as specified, and keeps the invariant. -/
theorem exec_step {cap : Nat} {s : St} {w : World} (i : Inv cap s w) (c : Call) (h : EnvOk w c) (hf : Fine w c) :
    ∃ s' o w', exec s c = some (s', o) ∧ Step cap w c w' o ∧ Inv cap s' w' := by
  obtain ⟨hmods, hpriv, hwok, hbuf⟩ := i
  have hb0 : BufOk cap { s with err := false } none := ⟨hbuf.1, hbuf.2.1, rfl, fun t ht => by cases ht⟩
  have hbX : ∀ heap mods, BufOk cap { heap := heap, mods := mods, buf := s.buf, err := false } none :=
    fun heap mods => ⟨hbuf.1, hbuf.2.1, rfl, fun t ht => by cases ht⟩
  cases c with
  | dlopen file loc e =>
    obtain ⟨hfile, hm1, hm2, hm3, hen, hld⟩ := h
    cases file with
    | none =>
      simp only [exec, dlopen]
      by_cases hmain : e.main = 0
      · rw [if_pos hmain]
        obtain ⟨b, e1, e2⟩ := fail_ok hb0 (str := [40, 110, 117, 108, 108, 41]) (by decide) hm1
        rw [e1]
        exact ⟨_, _, _, rfl, .noMain hmain, hmods, hpriv, hwok, e2 _ _⟩
      · rw [if_neg hmain]
        exact ⟨_, _, _, rfl, .main hmain, hmods, hpriv, hwok, hb0⟩
    | some file =>
      have hfz := hfile file rfl
      have hbz : (0 : Byte) ∉ backslash file := by
        unfold backslash
        rw [List.mem_map]
        rintro ⟨c, hc, he⟩
        split at he
        · cases he
        · rw [he] at hc; exact hfz hc
      simp only [exec, dlopen, maxPath]
      by_cases hlong : file.length ≥ 260
      · rw [if_pos hlong]
        obtain ⟨b, e1, e2⟩ := fail_ok hb0 hfz hm2
        rw [e1]
        exact ⟨_, _, _, rfl, .tooLong hlong, hmods, hpriv, hwok, e2 _ _⟩
      · rw [if_neg hlong]
        have hshort : file.length < 260 := by omega
        cases hl : e.load with
        | none =>
          obtain ⟨b, e1, e2⟩ := fail_ok hb0 hbz hm1
          simp only
          rw [e1]
          exact ⟨_, _, _, rfl, .noLoad hshort hl, hmods, hpriv, hwok, e2 _ _⟩
        | some l =>
          obtain ⟨hl0, hl1, hl2⟩ := hld l hl
          obtain ⟨hen1, hen2⟩ := hen (by simp)
          have hlen := load_length w.mods l hl1 hl2
          have hnd := load_nodup l hwok.1
          simp only [hen1, hen2, if_true, hmods]
          cases loc with
          | true =>
            simp only [true_and, Bool.not_true, Bool.false_eq_true, false_and, if_false]
            cases hlo : loaded w.mods l.h with
            | true =>
              rw [if_neg (by have := hlen.mpr hlo; omega)]
              refine ⟨_, _, _, rfl, .openAgain hshort hl hlo, rfl, hpriv, ⟨hnd, fun x hx => ?_⟩, hbX _ _⟩
              exact load_keeps w.mods l x (hwok.2 x hx)
            | false =>
              have hne : w.mods.length ≠ (loadLibrary w.mods l).length := fun hh => by
                have := hlen.mp hh.symm; rw [hlo] at this; cases this
              rw [if_pos hne]
              have hpf : w.priv l.h = false := by
                cases hp : w.priv l.h with
                | false => rfl
                | true =>
                  obtain ⟨m, hm, he, _⟩ := hwok.2 _ hp
                  have : loaded w.mods l.h = true := loaded_iff.mpr (List.mem_map.mpr ⟨m, hm, he⟩)
                  rw [hlo] at this; cases this
              obtain ⟨h', ha1, ha2⟩ := private_add hpriv hl0 hpf e.mem
              rw [ha1]
              cases hmem : e.mem with
              | true =>
                rw [hmem] at ha2
                refine ⟨_, _, _, rfl, .openLocal hshort hl hlo hmem, rfl, private_congr ha2 (by simp), ⟨hnd, fun x hx => ?_⟩, hbX _ _⟩
                simp only [Bool.or_eq_true, beq_iff_eq] at hx
                rcases hx with rfl | hx
                · exact load_has _ _
                · exact load_keeps w.mods l x (hwok.2 x hx)
              | false =>
                rw [hmem] at ha2
                simp only
                obtain ⟨b, e1, e2⟩ := fail_ok (hbX h' (loadLibrary w.mods l)) hbz hm3
                rw [e1]
                refine ⟨_, _, _, rfl, .openNoMem hshort hl hlo hmem, rfl, private_congr ha2 (by simp), ⟨?_, fun x hx => ?_⟩, e2 _ _⟩
                · exact hnd.sublist (free_sub _ _ _ _)
                · have hxl : x ≠ l.h := by rintro rfl; rw [hpf] at hx; cases hx
                  exact free_keeps _ _ _ _ x hxl (load_keeps w.mods l x (hwok.2 x hx))
          | false =>
            simp only [Bool.false_eq_true, false_and, if_false, Bool.not_false, true_and]
            by_cases hcnt : w.mods.length = (loadLibrary w.mods l).length
            · rw [if_pos hcnt]
              obtain ⟨h', hr1, hr2⟩ := private_rem hpriv l.h
              rw [hr1]
              refine ⟨_, _, _, rfl, .openGlobal hshort hl, rfl, hr2, ⟨hnd, fun x hx => ?_⟩, hbX _ _⟩
              simp only [Bool.and_eq_true] at hx
              exact load_keeps w.mods l x (hwok.2 x hx.2)
            · rw [if_neg hcnt]
              refine ⟨_, _, _, rfl, .openGlobal hshort hl, rfl, private_congr hpriv ?_, ⟨hnd, fun x hx => ?_⟩, hbX _ _⟩
              · intro x
                by_cases hx : x = l.h
                · subst hx
                  cases hp : w.priv l.h with
                  | false => simp
                  | true =>
                    obtain ⟨m, hm, he, _⟩ := hwok.2 _ hp
                    exact absurd (hlen.mpr (loaded_iff.mpr (List.mem_map.mpr ⟨m, hm, he⟩))).symm hcnt
                · simp [hx]
              · simp only [Bool.and_eq_true] at hx
                exact load_keeps w.mods l x (hwok.2 x hx.2)
  | dlclose k drops ans msg =>
    simp only [exec, dlclose, hmods]
    cases hr : (freeLibrary w.mods k drops ans).2 with
    | true =>
      simp only [if_true]
      obtain ⟨h', hr1, hr2⟩ := private_rem hpriv k
      rw [hr1]
      refine ⟨_, _, _, rfl, .close hr, rfl, private_congr hr2 ?_, ⟨hwok.1.sublist (free_sub _ _ _ _), fun x hx => ?_⟩, hbX _ _⟩
      · intro x
        show (x != k && w.priv x) = (w.priv x && (x != k || loaded (freeLibrary w.mods k drops ans).1 k))
        by_cases hx : x = k
        · subst hx
          cases hp : w.priv x with
          | false => simp
          | true => rw [hf hp]; simp
        · have : (x != k) = true := by simpa using hx
          rw [this]; simp
      · simp only [Bool.and_eq_true, Bool.or_eq_true, bne_iff_ne, ne_eq] at hx
        have hxh : x ≠ k := by
          rintro rfl
          rcases hx.2 with h | h
          · exact h rfl
          · rw [hf hx.1] at h; cases h
        exact free_keeps _ _ _ _ x hxh (hwok.2 x hx.1)
    | false =>
      simp only [Bool.false_eq_true, if_false]
      obtain ⟨b, e1, e2⟩ := fail_ok (hbX s.heap (freeLibrary w.mods k drops ans).1) (ptrText_nul k) h
      rw [e1]
      refine ⟨_, _, _, rfl, .closeFail hr (ptr_text k), rfl, hpriv, ⟨hwok.1.sublist (free_sub _ _ _ _), fun x hx => ?_⟩, e2 _ _⟩
      have hxh : x ≠ k := by
        rintro rfl
        rw [free_true hwok.1 (hwok.2 x hx)] at hr
        cases hr
      exact free_keeps _ _ _ _ x hxh (hwok.2 x hx)
  | dlsym hd name e =>
    obtain ⟨hn, hm1, hm2, hm3⟩ := h
    -- from the result to the step
    have fin : ∀ s' x msg, x = symbol w hd name e → (x = 0 → msg = symMsg hd e) →
        Inv cap s' (ended w x (errorText cap name msg)) →
        ∀ r, r = some (s', x) → ∃ s' o w', (r.map fun r => (r.1, Out.ptr r.2)) = some (s', o) ∧
          Step cap w (.dlsym hd name e) w' o ∧ Inv cap s' w' := by
      rintro s' x msg hx hmsg hi r rfl
      by_cases h0 : x = 0
      · rw [ended, if_pos h0, hmsg h0] at hi
        rw [h0]
        exact ⟨s', .ptr 0, _, rfl, .noSym (hx ▸ h0), hi⟩
      · rw [ended, if_neg h0] at hi
        refine ⟨s', .ptr x, _, rfl, ?_, hi⟩
        rw [hx]
        exact .sym (hx ▸ h0)
    cases hd with
    | next =>
      simp only [exec, dlsym]
      by_cases hc : e.caller = 0
      · rw [if_pos hc]
        obtain ⟨s', e1, e2⟩ := symEnd_ok (w := w) hb0 hn hm1 0 rfl hmods hpriv hwok
        exact fin s' 0 e.msgParam (by simp [symbol, hc]) (by simp [symMsg, hc]) e2 _ e1
      · rw [if_neg hc]
        obtain ⟨s', e1, e2⟩ := symAll_ok (w := w) hb0 hn e hm2 hm3 rfl hmods hpriv hwok e.caller
        refine fin s' _ _ ?_ ?_ e2 _ e1
        · simp [symbol, found, hc]
        · intro _; simp [symMsg, hc]
    | mod h =>
      simp only [exec, dlsym]
      by_cases hp : e.proc (if h = 0 then e.main else h) name ≠ 0
      · rw [if_pos hp]
        refine fin { s with err := false } (e.proc (if h = 0 then e.main else h) name) none ?_ (fun hh => absurd hh hp) ?_ _ rfl
        · simp only [symbol]; rw [if_pos hp]
        · rw [ended, if_neg hp]
          exact ⟨hmods, hpriv, hwok, hb0⟩
      · rw [if_neg hp]
        by_cases hmain : (if h = 0 then e.main else h) = e.main
        · rw [if_pos hmain]
          obtain ⟨s', e1, e2⟩ := symAll_ok (w := w) hb0 hn e hm2 hm3 rfl hmods hpriv hwok 0
          refine fin s' _ _ ?_ ?_ e2 _ e1
          · simp only [symbol]
            rw [if_neg hp]
            simp [hmain, found]
          · intro _
            have : h = 0 ∨ h = e.main := by
              by_cases h0 : h = 0
              · exact .inl h0
              · rw [if_neg h0] at hmain; exact .inr hmain
            unfold symMsg
            rw [if_neg (show ¬ (Handle.mod h = Handle.next ∧ e.caller = 0) by simp)]
            have hor : (Handle.mod h = Handle.next ∨ Handle.mod h = Handle.mod 0 ∨ Handle.mod h = Handle.mod e.main) := by
              simpa using this
            simp only [hor, and_true]
        · rw [if_neg hmain]
          obtain ⟨s', e1, e2⟩ := symEnd_ok (w := w) hb0 hn hm3 0 rfl hmods hpriv hwok
          refine fin s' 0 e.msgProc ?_ ?_ e2 _ e1
          · simp only [symbol]
            rw [if_neg hp]
            simp [hmain]
          · intro _
            have : ¬ (h = 0 ∨ h = e.main) := by
              rintro (h0 | h0)
              · rw [if_pos h0] at hmain; exact hmain rfl
              · apply hmain; split <;> simp_all
            unfold symMsg
            rw [if_neg (show ¬ (Handle.mod h = Handle.next ∧ e.caller = 0) by simp)]
            have hor : ¬ (Handle.mod h = Handle.next ∨ Handle.mod h = Handle.mod 0 ∨ Handle.mod h = Handle.mod e.main) := by
              simpa using this
            simp only [hor, and_false, if_false]
  | dlerror =>
    simp only [exec, dlerror]
    obtain ⟨b1, b2, b3, b4⟩ := hbuf
    cases hp : w.pending with
    | none =>
      rw [hp] at b3
      rw [b3]
      refine ⟨s, .text none, { w with pending := none }, rfl, by have := @Step.error cap w; rw [hp] at this; exact this, hmods, hpriv, hwok, b1, b2, b3, fun t ht => by cases ht⟩
    | some t =>
      rw [hp] at b3
      rw [b3, b4 t hp]
      refine ⟨{ s with err := false }, .text (some t), { w with pending := none }, rfl, by have := @Step.error cap w; rw [hp] at this; exact this, hmods, hpriv, hwok, hb0⟩

/-- The program starts: some modules, no error. -/
def start (mods : List Mod) (buf : Mem) : St := { heap := Heap.init, mods := mods, buf := buf, err := false }

/-- The same in the specification: nothing is private. -/
def start' (mods : List Mod) : World := { mods := mods, priv := fun _ => false, pending := none }

theorem start_inv {mods : List Mod} {buf : Mem} (hn : (mods.map (·.h)).Nodup) (hb : 5 ≤ buf.length) :
    Inv buf.length (start mods buf) (start' mods) :=
  ⟨rfl, ⟨[], rep_init, fun x => by simp [start']⟩, ⟨hn, fun x hx => by cases hx⟩, hb, rfl, rfl, fun t ht => by cases ht⟩

theorem run_inv {cap : Nat} (cs : List Call) : ∀ {s : St} {w : World}, Inv cap s w → Ok cap w cs →
    ∃ s' os w', execAll s cs = some (s', os) ∧ Run cap w cs w' os ∧ Inv cap s' w' := by
  induction cs with
  | nil => intro s w i _; exact ⟨s, [], w, rfl, .nil, i⟩
  | cons c cs ih =>
    intro s w i hok
    obtain ⟨h1, h2, h3⟩ : EnvOk w c ∧ Fine w c ∧ ∀ w' o, Step cap w c w' o → Ok cap w' cs := by
      cases hok with
      | cons a b d => exact ⟨a, b, d⟩
    obtain ⟨s1, o, w1, e1, st, i1⟩ := exec_step i c h1 h2
    obtain ⟨s', os, w', e2, r, i2⟩ := ih i1 (h3 _ _ st)
    exact ⟨s', o :: os, w', by simp [execAll, e1, e2], .cons st r, i2⟩

/-- **C78.** Through every history of `dlopen`, `dlclose`, `dlsym` and `dlerror` (in which no private module that stays loaded is
closed) no call reads or writes outside its objects, and every result is the specified one: in particular a symbol of a module
opened with `RTLD_LOCAL` is not found through the handle of the program, and `dlerror` returns the text of the last error once. -/
theorem history (mods : List Mod) (buf : Mem) (hn : (mods.map (·.h)).Nodup) (hb : 5 ≤ buf.length) (cs : List Call)
    (hok : Ok buf.length (start' mods) cs) :
    ∃ s' os w', execAll (start mods buf) cs = some (s', os) ∧ Run buf.length (start' mods) cs w' os := by
  obtain ⟨s', os, w', h1, h2, _⟩ := run_inv cs (start_inv hn hb) hok
  exact ⟨s', os, w', h1, h2⟩

theorem chain_live {h : Heap} : ∀ {L : List (Nat × Nat)} {prev : Option Nat}, Chain h prev L → ∀ x ∈ L, h.at_ x.1 ≠ none
  | [], _, _, x, hx => by cases hx
  | (a, m) :: L, _, hc, x, hx => by
    rcases List.mem_cons.mp hx with rfl | hx
    · rw [hc.1]; simp
    · exact chain_live hc.2 x hx

/-- **C78.** No leak: besides the static first object there is exactly one object for every private module; all others were freed. -/
theorem no_leak (mods : List Mod) (buf : Mem) (hn : (mods.map (·.h)).Nodup) (hb : 5 ≤ buf.length) (cs : List Call)
    (hok : Ok buf.length (start' mods) cs) :
    ∃ s' os w', execAll (start mods buf) cs = some (s', os) ∧ Run buf.length (start' mods) cs w' os ∧
      ∃ L : List (Nat × Nat), (L.map (·.1)).Nodup ∧ (L.map (·.2)).Nodup ∧
        (∀ a, s'.heap.at_ a ≠ none ↔ a = 0 ∨ a ∈ L.map (·.1)) ∧ ∀ x, w'.priv x = true ↔ x ∈ L.map (·.2) := by
  obtain ⟨s', os, w', h1, h2, i⟩ := run_inv cs (start_inv hn hb) hok
  obtain ⟨L, r, hL⟩ := i.priv
  refine ⟨s', os, w', h1, h2, L, ?_, r.uniq, fun a => ⟨fun ha => ?_, fun ha => ?_⟩, hL⟩
  · have := r.nodup
    simp only [List.map_cons, List.nodup_cons] at this
    exact this.2
  · simpa using r.live a ha
  · rcases ha with rfl | ha
    · exact chain_live r.chain (0, 0) (by simp)
    · obtain ⟨x, hx, rfl⟩ := List.mem_map.mp ha
      exact chain_live r.chain x (by simp [hx])

theorem lookup_mem {proc : Nat → List Byte → Nat} {name : List Byte} : ∀ {ms : List Nat}, lookup proc name ms ≠ 0 →
    ∃ m ∈ ms, lookup proc name ms = proc m name
  | [], h => absurd rfl h
  | m :: ms, h => by
    unfold lookup at h ⊢
    by_cases hp : proc m name ≠ 0
    · rw [if_pos hp]; exact ⟨m, by simp, rfl⟩
    · rw [if_neg hp] at h ⊢
      obtain ⟨m', hm, he⟩ := lookup_mem h
      exact ⟨m', by simp [hm], he⟩

/-- **C78.** What `dlsym(RTLD_DEFAULT, ...)` finds is in the program itself or in a loaded public module, and it finds a symbol of
the program or of a public module if there is one. -/
theorem default_public {w : World} {name : List Byte} {e : SymEnv} (ha : e.en1 = true ∧ e.mem = true ∧ e.en2 = true) :
    (symbol w (.mod 0) name e ≠ 0 → symbol w (.mod 0) name e = e.proc e.main name ∨
      ∃ m, loaded w.mods m = true ∧ w.priv m = false ∧ symbol w (.mod 0) name e = e.proc m name) ∧
    ((e.proc e.main name ≠ 0 ∨ ∃ m, loaded w.mods m = true ∧ w.priv m = false ∧ e.proc m name ≠ 0) →
      symbol w (.mod 0) name e ≠ 0) := by
  obtain ⟨h1, h2, h3⟩ := ha
  simp only [symbol, if_true, h1, h2, h3, Bool.and_self, and_self]
  by_cases hp : e.proc e.main name ≠ 0
  · rw [if_pos hp]
    exact ⟨fun _ => .inl rfl, fun _ => hp⟩
  · rw [if_neg hp]
    constructor
    · intro hx
      obtain ⟨m, hm, he⟩ := lookup_mem hx
      rw [visible, List.mem_filter] at hm
      exact .inr ⟨m, loaded_iff.mpr hm.1, by simpa using hm.2, he⟩
    · rintro (h | ⟨m, hl, hpr, hm⟩)
      · exact absurd h hp
      · have hmem : m ∈ visible w := by
          rw [visible, List.mem_filter]
          exact ⟨loaded_iff.mp hl, by simp [hpr]⟩
        generalize visible w = ms at hmem
        induction ms with
        | nil => cases hmem
        | cons m' ms ih =>
          unfold lookup
          by_cases hq : e.proc m' name ≠ 0
          · rw [if_pos hq]; exact hq
          · rw [if_neg hq]
            rcases List.mem_cons.mp hmem with rfl | h
            · exact absurd hm hq
            · exact ih h

/-! ### What the code does not keep -/

/-- Windows as in the examples: the program is module 1; module 7 has the symbol `f` at 70. -/
def openEnv : OpenEnv :=
  { main := 1, load := some ⟨7, []⟩, en1 := true, en2 := true, mem := true, msgLast := none, msgRange := none, msgMem := none,
    drops := [], ans := true }

def symEnv : SymEnv :=
  { main := 1, caller := 1, proc := fun m n => if m = 7 ∧ n = [102] then 70 else 0, en1 := true, en2 := true, mem := true,
    msgParam := none, msgMem := none, msgProc := none }

/-- "a.dll" -/
def aDll : List Byte := [97, 46, 100, 108, 108]

def outs (cs : List Call) : Option (List Out) := (execAll (start [⟨1, 0, true⟩] (List.replicate 64 0)) cs).map (·.2)

/-- A module opened with `RTLD_LOCAL` is private ... -/
example : outs [.dlopen (some aDll) true openEnv, .dlsym (.mod 0) [102] symEnv, .dlsym (.mod 7) [102] symEnv, .dlerror] =
    some [.ptr 7, .ptr 0, .ptr 70, .text none] := by decide +kernel

/-- ... but if it is opened twice and closed once, it stays loaded and its symbols are public from then on: without the
restriction on histories the property does not hold. -/
theorem close_exposes :
    outs [.dlopen (some aDll) true openEnv, .dlopen (some aDll) true openEnv, .dlclose 7 [] true none, .dlsym (.mod 0) [102] symEnv] =
      some [.ptr 7, .ptr 7, .int 0, .ptr 70] := by decide +kernel

/-- If Windows does not list the modules, `RTLD_LOCAL` is ignored. -/
theorem no_list_exposes :
    outs [.dlopen (some aDll) true { openEnv with en1 := false, en2 := false }, .dlsym (.mod 0) [102] symEnv] =
      some [.ptr 7, .ptr 70] := by decide +kernel

/-- The error text: `"f": not found`, once. -/
example : outs [.dlsym (.mod 0) [102] { symEnv with msgProc := some [110, 111, 13, 10] }, .dlerror, .dlerror] =
    some [.ptr 0, .text (some [34, 102, 34, 58, 32, 110, 111]), .text none] := by decide +kernel

/-- Non-vacuity: a history with a private module, closed, that meets the hypotheses. -/
example : Ok 64 (start' [⟨1, 0, true⟩])
    [.dlopen (some aDll) true openEnv, .dlsym (.mod 0) [102] symEnv, .dlclose 7 [] true none, .dlerror] := by
  have cn : CStr none := fun m hm => by cases hm
  refine .cons ⟨?_, cn, cn, cn, fun _ => ⟨rfl, rfl⟩, ?_⟩ trivial fun w o h => ?_
  · intro m hm; cases hm; decide
  · intro l hl; cases hl; exact ⟨by decide, by decide, fun h => by cases h⟩
  · cases h with
    | tooLong h => exact absurd h (by decide)
    | noLoad _ hl => cases hl
    | openAgain _ hl ho => cases hl; cases ho
    | openNoMem _ _ _ hm => cases hm
    | openLocal _ hl ho hm =>
      cases hl
      refine .cons ⟨by decide, cn, cn, cn⟩ trivial fun w o h => ?_
      have fin : ∀ p, Ok 64 ⟨loadLibrary (start' [⟨1, 0, true⟩]).mods ⟨7, []⟩,
          fun h => h == 7 || (start' [⟨1, 0, true⟩]).priv h, p⟩ [.dlclose 7 [] true none, .dlerror] := by
        intro p
        refine .cons cn (fun _ => rfl) fun w o h => ?_
        exact .cons trivial trivial fun w o h => .nil
      cases h with
      | sym => exact fin _
      | noSym => exact fin _

end Verif.Dlfcn
