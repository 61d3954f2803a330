import Verif.Common.Out
/-!
# Model of src/net/url_encoder_decoder.c

`char` is signed (`sc`).  The output object is written with bounds-checked writes, the source read with
bounds-checked reads; leaving an object is `none`.  Sizes are mathematical naturals; the `(int)`
conversion of the returned index is the identity (sizes below 2^31).
-/
namespace Verif.Url

/-- url_encoder_decoder.c 3: `hexchars`. -/
def hexchars : List Byte :=
  [48, 49, 50, 51, 52, 53, 54, 55, 56, 57, 65, 66, 67, 68, 69, 70, 0]

/-- url_encoder_decoder.c 19-22 and 133-136: the characters copied unchanged. -/
def isSafe (ch : Byte) : Bool :=
  (sc ch ≥ 65 ∧ sc ch ≤ 90) ∨ (sc ch ≥ 97 ∧ sc ch ≤ 122) ∨ (sc ch ≥ 48 ∧ sc ch ≤ 57) ∨
    sc ch = 46 ∨ sc ch = 45 ∨ sc ch = 42 ∨ sc ch = 95

/-- url_encoder_decoder.c 16-54: the loop at `input_index = i`, `output_index = o`, and the code behind
it (reached when a loop test fails).  `n` is `src_buf_plain_strlen`. -/
def encLoop (size : Nat) (src : Mem) (n : Nat) : Nat → Nat → Nat → Mem → Option (Mem × Int)
  | 0, _, _, _ => none
  | fuel + 1, i, o, out =>
    if i < n ∧ o < size - 1 then
      match src[i]? with
      | none => none
      | some ch =>
        if isSafe ch then
          match out.poke o ch with
          | none => none
          | some out => encLoop size src n fuel (i + 1) (o + 1) out
        else if sc ch = 32 then
          match out.poke o 43 with
          | none => none
          | some out => encLoop size src n fuel (i + 1) (o + 1) out
        else if o + 3 < size then do
          let out ← out.poke o 37
          let out ← out.poke (o + 1) (← hexchars[ch.toNat >>> 4]?)
          let out ← out.poke (o + 2) (← hexchars[ch.toNat &&& 0xF]?)
          encLoop size src n fuel (i + 1) (o + 3) out
        else some (out, -2)
    else if i = 0 then some (out, 0)
    else if i = n then do
      let out ← out.poke o 0
      some (out, (o : Int))
    else some (out, -3)

/-- url_encoder_decoder.c 5-55: `lcu_url_encode`. Result: output object and returned value. -/
def encode (out : Mem) (size : Nat) (src : Mem) (n : Nat) : Option (Mem × Int) :=
  if n < 1 ∨ size < 2 then some (out, -1)
  else encLoop size src n (n + 1) 0 0 out

/-- url_encoder_decoder.c 88-103 and 108-123: value of a hexadecimal digit; `none` is `return -2`. -/
def hexDigit (c : Byte) : Option Nat :=
  if sc c ≥ 65 ∧ sc c ≤ 70 then some (sc c - 65 + 10).toNat
  else if sc c ≥ 48 ∧ sc c ≤ 57 then some (sc c - 48).toNat
  else if sc c ≥ 97 ∧ sc c ≤ 102 then some (sc c - 97 + 10).toNat
  else none

/-- Result of the decoder: object, returned value, `*last_src_pos - src_buf_plain`. -/
abbrev DecRes := Mem × Int × Nat

/-- url_encoder_decoder.c 146-151. -/
def decEnd (o i : Nat) (out : Mem) : Option DecRes :=
  match out.poke o 0 with
  | none => none
  | some out => some (out, (o : Int), i)

/-- url_encoder_decoder.c 73-151: the loop at `input_index = i`, `output_index = o`, and the code
behind it.  `last_src_pos` is left at the start (0) by the `return -2` paths. -/
def decLoop (size : Nat) (src : Mem) (n : Nat) : Nat → Nat → Nat → Mem → Option DecRes
  | 0, _, _, _ => none
  | fuel + 1, i, o, out =>
    if i < n ∧ o < size - 1 then
      match src[i]? with
      | none => none
      | some ch =>
        if sc ch = 43 then
          match out.poke o 32 with
          | none => none
          | some out => decLoop size src n fuel (i + 1) (o + 1) out
        else if sc ch = 37 then
          if i + 3 ≤ n then
            match src[i + 1]? with
            | none => none
            | some c1 =>
              match hexDigit c1 with
              | none => some (out, -2, 0)
              | some h1 =>
                match src[i + 2]? with
                | none => none
                | some c2 =>
                  match hexDigit c2 with
                  | none => some (out, -2, 0)
                  | some h2 =>
                    match out.poke o (UInt8.ofNat ((h1 <<< 4) ||| h2)) with
                    | none => none
                    | some out => decLoop size src n fuel (i + 3) (o + 1) out
          else decEnd o i out
        else if isSafe ch then
          match out.poke o ch with
          | none => none
          | some out => decLoop size src n fuel (i + 1) (o + 1) out
        else some (out, -2, 0)
    else decEnd o i out

/-- url_encoder_decoder.c 57-152: `lcu_url_decode`. -/
def decode (out : Mem) (size : Nat) (src : Mem) (n : Nat) : Option DecRes :=
  if n < 1 ∨ size < 2 then some (out, -1, 0)
  else decLoop size src n (n + 1) 0 0 out

end Verif.Url
