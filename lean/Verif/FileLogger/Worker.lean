import Verif.FileLogger.Model
import Verif.FileLogger.Spec
import Verif.TimeUtil.Props
import Verif.Xlog.Header

/-! # The worker's side of the file logger -/
namespace Verif.FileLogger
open MsgQueue (Code encHdr)
open MsgHandler (objLen)
open TimeUtil (TimeOk)
open TimeUtil.Spec (IsLocal fileText Civil)

/-- `m` is a delivered `queue_msg_t` carrying the bytes `d`. -/
structure IsMsg (m : Mem) (d : List Byte) : Prop where
  data : m.drop 16 = d
  len : objLen m = BitVec.ofNat 32 d.length
  size : d.length < 2 ^ 31

/-- The environment of one callback: clock in range, arrays as declared. -/
structure EnvOk (tz : Int) (e : Env) : Prop where
  time : TimeOk e.sec e.usec tz
  arr1 : e.time.length = 24
  arr2 : e.path.length = 256

/-- The strings of the configuration. -/
structure CfgOk (c : Cfg) (f p : List Byte) : Prop where
  folder : c.folder.cstr 0 = some f
  pre : c.pre.cstr 0 = some p
  size1 : c.folder.length = 128
  size2 : c.pre.length = 32

theorem cstr_lt {m : Mem} {s : List Byte} (h : m.cstr 0 = some s) : s.length < m.length ∧ (0 : Byte) ∉ s := by
  obtain ⟨h0, r, rfl⟩ := Xlog.cstr_some h
  exact ⟨by simp, h0⟩

theorem path_ok {c : Cfg} {f p : List Byte} (hc : CfgOk c f p) {tz : Int} {e : Env} (he : EnvOk tz e) :
    ∃ now : Civil, IsLocal now e.sec tz ∧
      path c tz e = some (f ++ p ++ fileText now (e.usec.toNat / 1000) ++ [46, 108, 111, 103]) := by
  obtain ⟨now, after, hl, ee, hlen⟩ := TimeUtil.fresh_eq e.time .file he.time (by rw [he.arr1]; decide)
  refine ⟨now, hl, ?_⟩
  obtain ⟨hf1, hf0⟩ := cstr_lt hc.folder
  obtain ⟨hp1, hp0⟩ := cstr_lt hc.pre
  rw [hc.size1] at hf1
  rw [hc.size2] at hp1
  have ht0 := TimeUtil.text_no0 .file now (e.usec.toNat / 1000)
  have htl : (fileText now (e.usec.toNat / 1000)).length = 14 := by
    simp [fileText, TimeUtil.Spec.two, TimeUtil.Spec.three]
  change (0 : Byte) ∉ fileText now (e.usec.toNat / 1000) at ht0
  change TimeUtil.fresh e.time e.sec e.usec .file tz = some (fileText now (e.usec.toNat / 1000) ++ 0 :: after, _) at ee
  generalize fileText now (e.usec.toNat / 1000) = t at *
  unfold path TimeUtil.getTimeStr
  rw [ee]
  simp only [Option.bind_eq_bind, Option.bind_some]
  rw [Mem.cstr_zero ht0, hc.folder, hc.pre]
  simp only [Option.bind_some]
  have h0 : (0 : Byte) ∉ f ++ p ++ t ++ [46, 108, 111, 103] := by
    simp [hf0, hp0, ht0]
  have hL : (f ++ p ++ t ++ [46, 108, 111, 103]).length < 255 := by simp [htl]; omega
  generalize f ++ p ++ t ++ [46, 108, 111, 103] = full at *
  unfold Mem.poke
  rw [if_pos (by rw [he.arr2]; omega)]
  simp only [Option.bind_some]
  unfold Mem.snprintf
  rw [if_neg (by omega), List.take_of_length_le (by omega)]
  rw [Mem.store_eq_some (by simp [he.arr2]; omega)]
  simp only [Option.map_some, Option.bind_some, List.take_zero, List.nil_append]
  rw [List.append_assoc]
  exact Mem.cstr_zero h0

theorem printed_ok (d : List Byte) : printed d (some d.length) = some (d.takeWhile (· ≠ 0)) := by
  unfold printed
  simp only [List.take_length]
  rw [if_neg (by omega)]

/-! ### One callback -/

/-- The state of the worker relative to the files written so far. -/
structure Inv (max : Nat) (before : List Byte → Option (List Byte)) (w : W) (lines : List (List Byte))
    (names : List (List Byte)) : Prop where
  st : (w.fp = none ∧ ∃ gs : List (List (List Byte)), gs.flatten = lines ∧ (∀ g ∈ gs, Spec.Full max g) ∧
          w.sess = names.zip (gs.map List.flatten) ∧ gs.length = names.length) ∨
       (∃ name gs g ns, w.fp = some name ∧ names = ns ++ [name] ∧ (gs ++ [g]).flatten = lines ∧
          (∀ g ∈ gs, Spec.Full max g) ∧ Spec.Growing max g ∧ w.counter = g.flatten.length ∧
          w.sess = ns.zip (gs.map List.flatten) ++ [(name, g.flatten)] ∧ gs.length = ns.length)
  fs : ∀ n, w.fs n = Spec.replay before w.sess n

theorem replay_append (before : List Byte → Option (List Byte)) (l : List (List Byte × List Byte)) (m c : List Byte) (n : List Byte) :
    Spec.replay before (l ++ [(m, c)]) n = if n = m then some c else Spec.replay before l n := by
  induction l generalizing before with
  | nil => simp [Spec.replay]
  | cons a l ih => rw [List.cons_append, Spec.replay, ih, Spec.replay]

theorem flatten_snoc (gs : List (List (List Byte))) (g : List (List Byte)) (x : List Byte) :
    (gs ++ [g ++ [x]]).flatten = (gs ++ [g]).flatten ++ [x] := by simp

/-- After `openFile`: there is a file, possibly still empty. -/
structure Open (max : Nat) (before : List Byte → Option (List Byte)) (w : W) (lines : List (List Byte))
    (names : List (List Byte)) (name : List Byte) : Prop where
  fp : w.fp = some name
  st : ∃ gs g ns, names = ns ++ [name] ∧ (gs ++ [g]).flatten = lines ∧ (∀ g ∈ gs, Spec.Full max g) ∧
    (max = 0 ∨ g.flatten.length < max) ∧ w.counter = g.flatten.length ∧
    w.sess = ns.zip (gs.map List.flatten) ++ [(name, g.flatten)] ∧ gs.length = ns.length
  fs : ∀ n, w.fs n = Spec.replay before w.sess n

theorem openFile_ok {c : Cfg} {f p : List Byte} (hc : CfgOk c f p) {tz : Int} {e : Env} (he : EnvOk tz e) (hopen : e.openOk = true)
    {before : List Byte → Option (List Byte)} {w : W} {lines names : List (List Byte)} (h : Inv c.maxLen before w lines names) :
    ∃ w' names' name, openFile c tz w e = some w' ∧ Open c.maxLen before w' lines names' name ∧
      (names' = names ∨ ∃ now : Civil, IsLocal now e.sec tz ∧ w.fp = none ∧
        names' = names ++ [f ++ p ++ fileText now (e.usec.toNat / 1000) ++ [46, 108, 111, 103]]) := by
  unfold openFile
  rcases h.st with ⟨h0, gs, h1, h2, h3, h4⟩ | ⟨name, gs, g, ns, h0, h1, h2, h3, h4, h5, h6, h7⟩
  · obtain ⟨now, hnow, hp⟩ := path_ok hc he
    rw [h0, hp]
    refine ⟨_, _, f ++ p ++ fileText now (e.usec.toNat / 1000) ++ [46, 108, 111, 103], rfl, ?_, Or.inr ⟨now, hnow, rfl, rfl⟩⟩
    generalize f ++ p ++ fileText now (e.usec.toNat / 1000) ++ [46, 108, 111, 103] = name
    rw [if_pos hopen]
    refine ⟨rfl, ⟨gs, [], names, rfl, ?_, h2, ?_, ?_, ?_, h4⟩, ?_⟩
    · simpa using h1
    · by_cases hm : c.maxLen = 0
      · exact Or.inl hm
      · exact Or.inr (by simp; omega)
    · simp
    · simp [W.create, h3]
    · intro n
      simp only [W.create, replay_append, h.fs]
  · rw [h0]
    refine ⟨w, names, name, rfl, ⟨h0, ⟨gs, g, ns, h1, h2, h3, h4.2, h5, h6, h7⟩, h.fs⟩, Or.inl rfl⟩

theorem append_sess {w : W} {l : List (List Byte × List Byte)} {name x bytes : List Byte} (h : w.sess = l ++ [(name, x)]) :
    (w.append name bytes).sess = l ++ [(name, x ++ bytes)] := by
  simp [W.append, h]

theorem append_fs {before : List Byte → Option (List Byte)} {w : W} {l : List (List Byte × List Byte)} {name x bytes : List Byte} (h : w.sess = l ++ [(name, x)])
    (hf : ∀ n, w.fs n = Spec.replay before w.sess n) (n : List Byte) :
    (w.append name bytes).fs n = Spec.replay before (w.append name bytes).sess n := by
  rw [append_sess h, replay_append]
  simp only [W.append, hf, h, replay_append]
  split <;> simp

/-- One callback with a non-empty message in a good environment: its line is written, whole, to one file. -/
theorem handle_ok {c : Cfg} {f p : List Byte} (hc : CfgOk c f p) {tz : Int} {e : Env} (he : EnvOk tz e) (hopen : e.openOk = true)
    (hwr : e.wr = none) {before : List Byte → Option (List Byte)} {w : W} {lines names : List (List Byte)}
    (h : Inv c.maxLen before w lines names) {m d : List Byte} (hm : IsMsg m d) (hd : d ≠ []) :
    ∃ w' names', handle c tz w e m = some w' ∧ Inv c.maxLen before w' (lines ++ [Spec.line d]) names' ∧
      (names' = names ∨ ∃ now : Civil, IsLocal now e.sec tz ∧ w.fp = none ∧
        names' = names ++ [f ++ p ++ fileText now (e.usec.toNat / 1000) ++ [46, 108, 111, 103]]) := by
  obtain ⟨w1, names', name, e1, ho, hn⟩ := openFile_ok hc he hopen h
  have hpos : 0 < d.length := List.length_pos_iff.2 hd
  have hlen : (objLen m).toInt = d.length := by
    rw [hm.len, BitVec.toInt_eq_toNat_of_lt (by rw [BitVec.toNat_ofNat, Nat.mod_eq_of_lt (by have := hm.size; omega)]; have := hm.size; omega)]
    rw [BitVec.toNat_ofNat, Nat.mod_eq_of_lt (by have := hm.size; omega)]
  have hlenN : (objLen m).toNat = d.length := by
    rw [hm.len, BitVec.toNat_ofNat, Nat.mod_eq_of_lt (by have := hm.size; omega)]
  unfold handle
  rw [if_neg (by rw [hlen]; omega), e1]
  simp only [Option.bind_eq_bind, Option.bind_some]
  rw [ho.fp]
  simp only []
  rw [hm.data, hlenN, printed_ok, hwr]
  simp only [Option.bind_some]
  change ∃ w' names', some (if c.maxLen ≠ 0 ∧ w1.counter + (Spec.line d).length ≥ c.maxLen then _ else _) = some w' ∧ _
  obtain ⟨gs, g, ns, h1, h2, h3, h4, h5, h6, h7⟩ := ho.st
  have hs := append_sess (w := w1) (bytes := Spec.line d) h6
  have hf := append_fs (bytes := Spec.line d) h6 ho.fs
  have hg : g.flatten ++ Spec.line d = (g ++ [Spec.line d]).flatten := by simp
  have hl : w1.counter + (Spec.line d).length = (g ++ [Spec.line d]).flatten.length := by
    rw [h5]; simp
  refine ⟨_, names', rfl, ?_, hn⟩
  rw [hg] at hs
  split
  · next hfull =>
    refine ⟨Or.inl ⟨rfl, gs ++ [g ++ [Spec.line d]], ?_, ?_, ?_, ?_⟩, hf⟩
    · rw [flatten_snoc, h2]
    · intro x hx
      rcases List.mem_append.1 hx with hx | hx
      · exact h3 x hx
      · rw [List.mem_singleton] at hx
        subst hx
        refine ⟨hfull.1, by simp, by rw [← hl]; exact hfull.2, ?_⟩
        rw [List.dropLast_concat]
        rcases h4 with h4 | h4
        · exact absurd h4 hfull.1
        · exact h4
    · rw [h1, List.map_append, List.zip_append (by simp [h7])]
      exact hs
    · simp [h1, h7]
  · next hfull =>
    refine ⟨Or.inr ⟨name, gs, g ++ [Spec.line d], ns, ho.fp, h1, ?_, h3, ⟨by simp, ?_⟩, hl, hs, h7⟩, hf⟩
    · rw [flatten_snoc, h2]
    · rw [← hl]; omega

/-- An empty message is ignored. -/
theorem handle_empty {c : Cfg} {tz : Int} {e : Env} {w : W} {m : Mem} (hm : IsMsg m []) : handle c tz w e m = some w := by
  unfold handle
  rw [if_pos (by rw [hm.len]; decide)]

/-- A message for which no file can be opened is dropped; the next one tries again. -/
theorem handle_open_fails {c : Cfg} {f p : List Byte} (hc : CfgOk c f p) {tz : Int} {e : Env} (he : EnvOk tz e) (hopen : e.openOk = false)
    {w : W} (hw : w.fp = none) {m d : List Byte} (hm : IsMsg m d) (hd : d ≠ []) :
    handle c tz w e m = some { w with counter := 0 } := by
  have hpos : 0 < d.length := List.length_pos_iff.2 hd
  have hlen : (objLen m).toInt = d.length := by
    rw [hm.len, BitVec.toInt_eq_toNat_of_lt (by rw [BitVec.toNat_ofNat, Nat.mod_eq_of_lt (by have := hm.size; omega)]; have := hm.size; omega)]
    rw [BitVec.toNat_ofNat, Nat.mod_eq_of_lt (by have := hm.size; omega)]
  obtain ⟨now, _, hp⟩ := path_ok hc he
  unfold handle openFile
  rw [if_neg (by rw [hlen]; omega), hw, hp]
  simp only [Option.bind_eq_bind, Option.bind_some, hopen]
  simp [hw]

end Verif.FileLogger
