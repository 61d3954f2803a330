import Verif.IniReader.Model
/-!
# What an INI text means (specification)

Pure functions on lists of characters: no buffers, no pointers, no NULs.
-/
namespace Verif.IniReader.Spec

/-- Drop the blanks at the end. -/
def rtrim (s : List Byte) : List Byte := (s.reverse.dropWhile isSpace).reverse

/-- Drop the blanks at the beginning. -/
def ltrim (s : List Byte) : List Byte := s.dropWhile isSpace

/-- Position `i` of `s` holds one of `chars`, or starts an inline comment: a `;` right after a blank. -/
def stopsAt (chars s : List Byte) (i : Nat) : Bool :=
  chars.contains (s.getD i 0) || (decide (0 < i) && isSpace (s.getD (i - 1) 0) && s.getD i 0 == 59)

/-- The first such position (the length of `s` if there is none). -/
def stop (chars s : List Byte) : Nat := ((List.range s.length).find? (stopsAt chars s)).getD s.length

/-- `s` without its inline comment. -/
def uncomment (s : List Byte) : List Byte := s.take (stop [] s)

/-- What a line can be. -/
inductive Line
  /-- blank line or comment line -/
  | ignored
  /-- `[name]` -/
  | section (name : List Byte)
  /-- `[` without `]` -/
  | broken
  /-- `name = value` or `name : value` -/
  | pair (name value : List Byte)
  /-- a name alone -/
  | bare (name : List Byte)
  /-- an indented line after a `name = value` line -/
  | more (value : List Byte)
  deriving DecidableEq, Repr

/-- The text after a UTF-8 byte order mark. -/
def skipBom (line : List Byte) : List Byte :=
  if line.take 3 = [0xEF, 0xBB, 0xBF] then line.drop 3 else line

/-- The kind of a line that is neither blank nor comment nor continuation; `t` is the line without
surrounding blanks. -/
def classifyEntry (t : List Byte) : Line :=
  if t.head? = some 91 then
    let name := t.drop 1
    let i := stop [93] name
    if name[i]? = some 93 then .section (name.take i) else .broken
  else
    let i := stop [61, 58] t
    if t[i]? = some 61 ∨ t[i]? = some 58 then
      .pair (rtrim (t.take i)) (rtrim (ltrim (uncomment (t.drop (i + 1)))))
    else .bare (rtrim (t.take i))

/-- The kind of a line.  `first`: it is the first line of the text; `open_`: there is an entry that an
indented line continues. -/
def classify (first open_ : Bool) (line : List Byte) : Line :=
  let t := ltrim (rtrim (if first then skipBom line else line))
  if t = [] ∨ t.head? = some 59 ∨ t.head? = some 35 then .ignored
  else if open_ ∧ (line.head?.any isSpace) then .more (rtrim (uncomment t))
  else classifyEntry t

/-- State of the reading. -/
structure St (σ : Type) where
  /-- current section -/
  sec : List Byte
  /-- entry an indented line continues (`[]`: none) -/
  prev : List Byte
  lineno : Nat
  /-- first line in error, 0 if none -/
  error : Nat
  user : σ

/-- Note an error in the current line. -/
def St.fail {σ : Type} (st : St σ) : St σ := { st with error := if st.error = 0 then st.lineno else st.error }

/-- Report an entry. -/
def St.report {σ : Type} (st : St σ) (h : Handler σ) (name : List Byte) (value : Option (List Byte)) : St σ :=
  let r := h st.user st.sec name value
  let st := { st with user := r.1 }
  if r.2 then st else st.fail

/-- One line. -/
def step {σ : Type} (h : Handler σ) (st : St σ) (line : List Byte) : St σ :=
  let st := { st with lineno := st.lineno + 1 }
  match classify (st.lineno = 1) (st.prev ≠ []) line with
  | .ignored => st
  | .section name => { st with sec := name.take 49, prev := [] }
  | .broken => st.fail
  | .pair name value => { st with prev := name.take 49 }.report h name (some value)
  | .bare name => if st.error = 0 then st.report h name none else st
  | .more value => st.report h st.prev (some value)

/-- Length of the first line of `text` as delivered by the reader: up to and including the first line
feed, but at most 199 characters. -/
def lineLen (text : List Byte) : Nat := min 199 (min (text.idxOf 10 + 1) text.length)

/-- The lines as delivered by the reader. -/
def lines : List Byte → List (List Byte)
  | [] => []
  | c :: rest => (c :: rest).take (lineLen (c :: rest)) :: lines ((c :: rest).drop (lineLen (c :: rest)))
termination_by s => s.length
decreasing_by
  simp only [List.length_drop, List.length_cons, lineLen]
  omega

/-- Reading a whole text: the first line in error (0 if none) and the final user state. -/
def run {σ : Type} (h : Handler σ) (text : List Byte) (user : σ) : Nat × σ :=
  let st := (lines text).foldl (step h) { sec := [], prev := [], lineno := 0, error := 0, user := user }
  (st.error, st.user)

end Verif.IniReader.Spec
