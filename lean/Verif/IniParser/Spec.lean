import Verif.IniParser.Model
/-!
# What an INI document is (specification)

A document is seen through two functions: which sections exist, and the value of a key in a section.
Names count up to letter case.
-/
namespace Verif.IniParser.Spec
open Verif.IniParser (Code)

/-- The letters, as pairs of upper and lower case (ASCII codes). -/
def letters : List (Byte × Byte) :=
  [(65, 97), (66, 98), (67, 99), (68, 100), (69, 101), (70, 102), (71, 103), (72, 104), (73, 105), (74, 106), (75, 107),
   (76, 108), (77, 109), (78, 110), (79, 111), (80, 112), (81, 113), (82, 114), (83, 115), (84, 116), (85, 117), (86, 118),
   (87, 119), (88, 120), (89, 121), (90, 122)]

/-- A character without its letter case. -/
def lowerCase (c : Byte) : Byte := (letters.lookup c).getD c

/-- A name up to letter case. -/
def norm (s : List Byte) : List Byte := s.map lowerCase

/-- The document, and the (normalised) name of the section created last. -/
structure Doc where
  has : List Byte → Bool
  val : List Byte → List Byte → Option (List Byte)
  recent : Option (List Byte)

/-- The empty document. -/
def empty : Doc := { has := fun _ => false, val := fun _ _ => none, recent := none }

/-- The operations. -/
inductive Op
  | put (sec key value : List Byte)
  | delKey (sec key : List Byte)
  | delSec (sec : List Byte)

/-- Put a value. -/
def put (d : Doc) (s k v : List Byte) : Doc where
  has := fun s' => s' == norm s || d.has s'
  val := fun s' k' => if s' = norm s ∧ k' = norm k then some v else d.val s' k'
  recent := if d.has (norm s) then d.recent else some (norm s)

/-- Remove a key. -/
def delKey (d : Doc) (s k : List Byte) : Doc :=
  { d with val := fun s' k' => if s' = norm s ∧ k' = norm k then none else d.val s' k' }

/-- Remove a section with all its keys. -/
def delSec (d : Doc) (s : List Byte) : Doc :=
  { d with has := fun s' => s' != norm s && d.has s', val := fun s' k' => if s' = norm s then none else d.val s' k' }

/-- Effect and result of an operation. -/
def step (d : Doc) : Op → Doc × Code
  | .put s k v => if s = [] ∨ k = [] then (d, .invalidParam) else (put d s k v, .succeed)
  | .delKey s k => if (d.val (norm s) (norm k)).isSome then (delKey d s k, .succeed) else (d, .notFound)
  | .delSec s => if d.has (norm s) then (delSec d s, .succeed) else (d, .notFound)

/-- The document after a history, and the results. -/
def run : Doc → List Op → Doc × List Code
  | d, [] => (d, [])
  | d, o :: ops => ((run (step d o).1 ops).1, (step d o).2 :: (run (step d o).1 ops).2)

/-- What `ini_parser_get_string` must answer: the caller's array afterwards and the code. -/
def answer (d : Doc) (s k : List Byte) (buf : Mem) (size : Nat) : Mem × Code :=
  if s = [] then (buf, .invalidParam)
  else if !d.has (norm s) then (buf, .notFound)
  else if k = [] then (buf, .invalidParam)
  else
    match d.val (norm s) (norm k) with
    | none => (buf, .notFound)
    | some v =>
      if size = 0 then (buf, .succeed)
      else if size ≤ v.length then (buf, .noMemory)
      else (v ++ 0 :: buf.drop (v.length + 1), .succeed)

/-- Names and values within the limits of the parser's arrays. -/
def Fits : Op → Prop
  | .put s k v => s.length ≤ 63 ∧ k.length ≤ 63 ∧ v.length ≤ 255
  | _ => True

/-- The operation does not delete the section created last. -/
def KeepsRecent (d : Doc) : Op → Prop
  | .delSec s => d.recent ≠ some (norm s)
  | _ => True

/-- All operations of a history are within the limits and none deletes the section created last. -/
def Ok : Doc → List Op → Prop
  | _, [] => True
  | d, o :: ops => Fits o ∧ KeepsRecent d o ∧ Ok (step d o).1 ops

/-! ### The text of a document -/

/-- One entry: `key = value\r\n`. -/
def entryText (kv : KV) : List Byte := kv.key ++ [32, 61, 32] ++ kv.value ++ [13, 10]

/-- One section: `[name]\r\n`, its entries, `\r\n`. -/
def sectionText (name : List Byte) (kvs : List KV) : List Byte :=
  [91] ++ name ++ [93, 13, 10] ++ kvs.flatMap entryText ++ [13, 10]

/-- A document given as the list of its sections. -/
def render (doc : List (List Byte × List KV)) : List Byte := doc.flatMap fun x => sectionText x.1 x.2

/-- No `;` right after a blank (that would begin a comment). -/
def NoComment (s : List Byte) : Prop := ∀ a x b, s = a ++ x :: 59 :: b → IniReader.isSpace x = false

/-- Neither begins nor ends with a blank. -/
def Trimmed (s : List Byte) : Prop := (∀ c, s.head? = some c → IniReader.isSpace c = false) ∧
  (∀ c, s.getLast? = some c → IniReader.isSpace c = false)

/-- A section name that can be written as `[name]` and read back: at most 49 characters, no NUL, line feed, `]`
or comment. -/
def GoodName (n : List Byte) : Prop :=
  n ≠ [] ∧ n.length ≤ 49 ∧ (0 : Byte) ∉ n ∧ (10 : Byte) ∉ n ∧ (93 : Byte) ∉ n ∧ NoComment n

/-- An entry that can be written as `key = value` on one line of 199 characters and read back. -/
def GoodEntry (kv : KV) : Prop :=
  kv.key ≠ [] ∧ kv.key.length ≤ 63 ∧ kv.key.length + kv.value.length ≤ 194 ∧
  ((0 : Byte) ∉ kv.key ∧ (10 : Byte) ∉ kv.key ∧ (61 : Byte) ∉ kv.key ∧ (58 : Byte) ∉ kv.key) ∧
  (∀ c, kv.key.head? = some c → c ≠ 59 ∧ c ≠ 35 ∧ c ≠ 91) ∧ Trimmed kv.key ∧ NoComment kv.key ∧
  ((0 : Byte) ∉ kv.value ∧ (10 : Byte) ∉ kv.value) ∧ kv.value.head? ≠ some 59 ∧ Trimmed kv.value ∧
  NoComment kv.value

end Verif.IniParser.Spec
