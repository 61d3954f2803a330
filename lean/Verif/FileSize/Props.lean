import Verif.FileSize.Model
/-!
# C102: the sizes `file_util_get_size_by_fs` and `file_util_get_size_by_path` report
-/
namespace Verif.FileSize

/-- What a reader of the file finds once everything written to the stream has arrived: byte `i` is the buffered
byte if the buffered bytes cover it, else the byte of the file, else (a hole) zero. -/
def Whole (s : Stream) (content : List Byte) : Prop :=
  content.length = (if s.pend = [] then s.disk.length else max s.disk.length (s.off + s.pend.length)) ∧
  ∀ i, i < content.length → content[i]? = some (
    if s.off ≤ i ∧ i < s.off + s.pend.length then s.pend.getD (i - s.off) 0 else s.disk.getD i 0)

theorem flush_whole (s : Stream) : Whole s s.flush.disk := by
  unfold Whole Stream.flush Stream.pos
  by_cases hp : s.pend = []
  · simp only [hp, if_true, List.length_nil, Nat.add_zero, true_and]
    intro i hi
    rw [if_neg (by omega), List.getElem?_eq_getElem hi]
    simp [List.getD_eq_getElem?_getD, hi]
  · have hl : 0 < s.pend.length := List.length_pos_iff.mpr hp
    simp only [if_neg hp]
    have hlen : ((s.disk ++ List.replicate (s.off - s.disk.length) 0).take s.off ++ s.pend ++
        s.disk.drop (s.off + s.pend.length)).length = max s.disk.length (s.off + s.pend.length) := by
      simp; omega
    refine ⟨hlen, ?_⟩
    intro i hi
    rw [hlen] at hi
    have ht : ((s.disk ++ List.replicate (s.off - s.disk.length) 0).take s.off).length = s.off := by
      simp; omega
    by_cases h1 : i < s.off
    · rw [if_neg (by omega), List.append_assoc, List.getElem?_append_left (by omega),
        List.getElem?_take_of_lt h1]
      by_cases h2 : i < s.disk.length
      · rw [List.getElem?_append_left h2]
        simp [List.getD_eq_getElem?_getD, h2]
      · rw [List.getElem?_append_right (by omega), List.getElem?_replicate, if_pos (by omega),
          List.getD_eq_getElem?_getD, List.getElem?_eq_none (by omega)]
        rfl
    · by_cases h2 : i < s.off + s.pend.length
      · rw [if_pos (by omega), List.getElem?_append_left (by rw [List.length_append]; omega),
          List.getElem?_append_right (by omega), ht]
        have : i - s.off < s.pend.length := by omega
        simp [List.getD_eq_getElem?_getD, this]
      · rw [if_neg (by omega), List.getElem?_append_right (by rw [List.length_append]; omega),
          List.getElem?_drop, List.length_append, ht,
          show s.off + s.pend.length + (i - (s.off + s.pend.length)) = i by omega]
        have : i < s.disk.length := by omega
        simp [List.getD_eq_getElem?_getD, this]

/-- **C102** (by stream, success): if the library calls succeed and the size is a `long`, the answer is the size of
the file with everything written to the stream so far, the stream is at position 0 with nothing pending, and
reading that many bytes gives the whole file. -/
theorem by_fs_size {w : Nat} {s : Stream} {content : List Byte} (hc : Whole s content)
    (hl : content.length < 2 ^ (w - 1)) :
    ∃ s', getSizeByFs w ⟨false, false, false⟩ (some s) = (some s', (content.length : Int)) ∧
      s'.pos = 0 ∧ s'.pend = [] ∧ s'.eof = false ∧ s'.disk = content ∧
      (s'.disk.drop s'.pos).take content.length = content := by
  have hw := flush_whole s
  have he : s.flush.disk = content := by
    have hlen : s.flush.disk.length = content.length := by rw [hw.1, hc.1]
    apply List.ext_getElem? 
    intro i
    by_cases hi : i < content.length
    · rw [hw.2 i (by omega), hc.2 i hi]
    · rw [List.getElem?_eq_none (by omega), List.getElem?_eq_none (by omega)]
  have hp : s.flush.pend = [] := by
    unfold Stream.flush
    split <;> simp_all
  refine ⟨⟨content, 0, [], false⟩, ?_, rfl, rfl, rfl, rfl, by simp [Stream.pos]⟩
  simp only [getSizeByFs, fseekEnd, fseekSet, if_false, Bool.false_eq_true]
  generalize hf : s.flush = f at hp he ⊢
  rcases f with ⟨d, o, p, ef⟩
  cases hp
  cases he
  have : ¬ 2 ^ (w - 1) ≤ d.length := Nat.not_le.mpr hl
  simp [Stream.flush, ftell, Stream.pos, this]

/-- **C102** (by stream, every case): a non-negative answer is the size, and then the stream is at position 0; the
negative answers say what went wrong: `-1` no stream or no position, `-2` no end to go to (and then the stream is
untouched), `-3` the way back failed. -/
theorem by_fs_answers (w : Nat) (e : Env) (fs : Option Stream) :
    (fs = none ∧ getSizeByFs w e fs = (none, -1)) ∨
    (∃ s, fs = some s ∧ e.seekEnd = true ∧ getSizeByFs w e fs = (some s, -2)) ∨
    (∃ s s', fs = some s ∧ e.seekEnd = false ∧ e.seekSet = true ∧ getSizeByFs w e fs = (some s', -3) ∧
      s'.pos = s'.disk.length ∧ Whole s s'.disk) ∨
    (∃ s s' r, fs = some s ∧ e.seekEnd = false ∧ e.seekSet = false ∧ getSizeByFs w e fs = (some s', r) ∧
      s'.pos = 0 ∧ Whole s s'.disk ∧
      r = if e.tell ∨ 2 ^ (w - 1) ≤ s'.disk.length then -1 else (s'.disk.length : Int)) := by
  cases fs with
  | none => exact .inl ⟨rfl, rfl⟩
  | some s =>
    right
    have hw := flush_whole s
    have hp : s.flush.pend = [] := by
      unfold Stream.flush
      split <;> simp_all
    rcases e with ⟨e1, e2, e3⟩
    cases e1 with
    | true => exact .inl ⟨s, rfl, rfl, rfl⟩
    | false =>
      right
      cases e3 with
      | true =>
        left
        exact ⟨s, ⟨s.flush.disk, s.flush.disk.length, s.flush.pend, false⟩, rfl, rfl, rfl, rfl,
          by simp [Stream.pos, hp], hw⟩
      | false =>
        right
        refine ⟨s, ⟨s.flush.disk, 0, [], false⟩, _, rfl, rfl, rfl, ?_, rfl, hw, rfl⟩
        simp only [getSizeByFs, fseekEnd, fseekSet, if_false, Bool.false_eq_true]
        generalize hf : s.flush = f at hp ⊢
        rcases f with ⟨d, o, p, ef⟩
        cases hp
        simp [Stream.flush, ftell, Stream.pos]
        congr

/-- **C102** (by path): if `st_size` is a `long`, the answer is the size of the file. -/
theorem by_path_size {w size : Nat} (hw : 1 ≤ w) (h : size < 2 ^ (w - 1)) :
    getSizeByPath w (.ok size) = (size : Int) := by
  have e : (2 : Nat) ^ w = 2 * 2 ^ (w - 1) := by
    rw [← Nat.pow_succ']; congr 1; omega
  have h1 : (size : Int) % (2 ^ w : Int) = (size : Int) := by
    apply Int.emod_eq_of_lt (by omega)
    have : ((2 ^ w : Nat) : Int) = (2 ^ w : Int) := by simp
    omega
  have h2 : (size : Int) < (2 ^ (w - 1) : Int) := by
    have : ((2 ^ (w - 1) : Nat) : Int) = (2 ^ (w - 1) : Int) := by simp
    omega
  simp only [getSizeByPath, toLong, h1, h2, if_true]

/-- **C102** (by path, failure): the `-1` of a failing `stat` is passed on. -/
theorem by_path_fails {w : Nat} (hw : 1 ≤ w) : getSizeByPath w (.error (-1)) = -1 := by
  have e : (2 : Nat) ^ w = 2 * 2 ^ (w - 1) := by
    rw [← Nat.pow_succ']; congr 1; omega
  have hp : 0 < (2 : Nat) ^ (w - 1) := Nat.two_pow_pos _
  have c1 : ((2 ^ (w - 1) : Nat) : Int) = (2 ^ (w - 1) : Int) := by simp
  have c2 : ((2 ^ w : Nat) : Int) = (2 ^ w : Int) := by simp
  have h1 : (-1 : Int) % (2 ^ w : Int) = (2 ^ w : Int) - 1 := by
    rw [← c2]
    have : (-1 : Int) = ((2 ^ w : Nat) : Int) - 1 + ((2 ^ w : Nat) : Int) * (-1) := by omega
    rw [this, Int.add_mul_emod_self_left, Int.emod_eq_of_lt (by omega) (by omega)]
  simp only [getSizeByPath, toLong, h1]
  rw [if_neg (by omega)]
  omega

/-- **C102** (both ways agree) exactly if nothing the stream has buffered makes the file longer. -/
theorem by_path_eq_by_fs {w : Nat} {s : Stream} (hw : 1 ≤ w) (hl : s.disk.length < 2 ^ (w - 1))
    (hp : s.pos < 2 ^ (w - 1)) :
    getSizeByPath w (.ok s.disk.length) = (getSizeByFs w ⟨false, false, false⟩ (some s)).2 ↔
      s.pend = [] ∨ s.pos ≤ s.disk.length := by
  have hwh := flush_whole s
  have hlen := hwh.1
  unfold Stream.pos at hp ⊢
  obtain ⟨s', e, -⟩ := by_fs_size (w := w) hwh (by rw [hlen]; split <;> omega)
  rw [e, by_path_size hw hl]
  simp only [hlen]
  split
  · rename_i h; simp [h]
  · rename_i h; simp only [h, false_or]; omega

/-- **C102** (finding): where `long` has 32 bits and `st_size` 64 (Android on 32-bit ARM), the size is reported
modulo 4 GiB: negative from 2 GiB on, too small from 4 GiB on. -/
theorem by_path_wraps (k : Nat) (h : k < 2147483648) :
    getSizeByPath 32 (.ok (4294967296 + k)) = (k : Int) ∧
    getSizeByPath 32 (.ok (2147483648 + k)) < 0 := by
  simp only [getSizeByPath, toLong]
  constructor
  · rw [if_pos (by simp; omega)]; simp; omega
  · rw [if_neg (by simp; omega)]; simp; omega

/-! ### The hypotheses are met -/

/-- Two buffered bytes behind a file of three: the stream says 5, the path 3. -/
example : (getSizeByFs 64 ⟨false, false, false⟩ (some ⟨[1, 2, 3], 3, [4, 5], false⟩)).2 = 5 ∧
    getSizeByPath 64 (.ok 3) = 3 := by
  decide

/-- Nothing buffered: hypotheses of `by_fs_size`. -/
example : ∃ s', getSizeByFs 64 ⟨false, false, false⟩ (some ⟨[1, 2, 3], 1, [], true⟩) = (some s', 3) ∧ s'.pos = 0 :=
  let ⟨s', h1, h2, _⟩ := by_fs_size (w := 64) (flush_whole ⟨[1, 2, 3], 1, [], true⟩) (by decide)
  ⟨s', h1, h2⟩

/-- A pipe. -/
example : getSizeByFs 64 ⟨true, false, false⟩ (some ⟨[], 0, [], false⟩) = (some ⟨[], 0, [], false⟩, -2) := rfl

end Verif.FileSize
