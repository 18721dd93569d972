import Verif.Json
import Mathlib.Data.Nat.Digits.Defs
/-
The text of JSON files: `serde_json::from_reader`, called at `src/nspc/mod.rs:159-162` and `src/manifest/mod.rs:114`, and `serde_json::to_writer_pretty`, called at
`src/nspc/mod.rs:164-167`. serde_json itself is not part of `/repo`; these definitions follow its documented behaviour (two blanks of indentation, `"key": value`,
empty arrays as `[]`) and RFC 8259. The writer is for integers and for strings of printable ASCII characters without `"`
and `\`, as songs have them; the reader is for all of RFC 8259 (UTF-8 is decoded by Lean's library).
-/
namespace M2S.Text

/-- The bytes of an ASCII string. -/
def ascii (s : String) : List UInt8 := s.toList.map fun c => UInt8.ofNat c.toNat

/-- Decimal digits of a number. -/
def decimal (n : Nat) : List UInt8 := if n = 0 then [48] else (Nat.digits 10 n).reverse.map fun d => UInt8.ofNat (48 + d)

/-- A line break with the indentation of level `n`. -/
def newline (n : Nat) : List UInt8 := 10 :: List.replicate (2 * n) 32

/-- A string in quotes. -/
def quoted (s : String) : List UInt8 := 34 :: ascii s ++ [34]

mutual

/-- `PrettyFormatter` at level `n`. Floats are not covered. -/
def pretty (n : Nat) : Json → List UInt8
  | .null => ascii "null"
  | .bool b => ascii (if b then "true" else "false")
  | .int (.ofNat k) => decimal k
  | .int (.negSucc k) => 45 :: decimal (k + 1)
  | .float _ => []
  | .str s => quoted s
  | .arr [] => ascii "[]"
  | .arr (x :: xs) => 91 :: newline (n + 1) ++ pretty (n + 1) x ++ prettyItems n xs
  | .obj [] => ascii "{}"
  | .obj (f :: fs) => 123 :: newline (n + 1) ++ prettyField n f ++ prettyFields n fs

/-- The rest of an array. -/
def prettyItems (n : Nat) : List Json → List UInt8
  | [] => newline n ++ [93]
  | x :: xs => 44 :: newline (n + 1) ++ pretty (n + 1) x ++ prettyItems n xs

/-- One field. -/
def prettyField (n : Nat) : String × Json → List UInt8
  | (k, v) => quoted k ++ [58, 32] ++ pretty (n + 1) v

/-- The rest of an object. -/
def prettyFields (n : Nat) : List (String × Json) → List UInt8
  | [] => newline n ++ [125]
  | f :: fs => 44 :: newline (n + 1) ++ prettyField n f ++ prettyFields n fs

end

/-- White space of RFC 8259. -/
def isSpace (b : UInt8) : Bool := b = 32 || b = 10 || b = 13 || b = 9

/-- Leaves out white space. -/
def skip (t : List UInt8) : List UInt8 := t.dropWhile isSpace

/-- A decimal digit. -/
def isDigit (b : UInt8) : Bool := 48 ≤ b && b ≤ 57

/-- The value of a hexadecimal digit. -/
def hexValue (b : UInt8) : Option Nat :=
  if 48 ≤ b ∧ b ≤ 57 then some (b.toNat - 48)
  else if 97 ≤ b ∧ b ≤ 102 then some (b.toNat - 87)
  else if 65 ≤ b ∧ b ≤ 70 then some (b.toNat - 55)
  else none

/-- Four hexadecimal digits. -/
def readHex : List UInt8 → Option (Nat × List UInt8)
  | a :: b :: c :: d :: t =>
    match hexValue a, hexValue b, hexValue c, hexValue d with
    | some a, some b, some c, some d => some (4096 * a + 256 * b + 16 * c + d, t)
    | _, _, _, _ => none
  | _ => none

/-- What a letter stands for after a backslash. -/
def escaped (b : UInt8) : Option Char :=
  if b = 34 then some '"' else if b = 92 then some '\\' else if b = 47 then some '/' else if b = 98 then some '\x08' else if b = 102 then some '\x0c'
  else if b = 110 then some '\n' else if b = 114 then some '\r' else if b = 116 then some '\t' else none

/-- The second half of a surrogate pair. -/
def readLow (n : Nat) : List UInt8 → Option (Char × List UInt8)
  | 92 :: 117 :: t =>
    match readHex t with
    | some (l, t) => if 0xDC00 ≤ l ∧ l < 0xE000 then some (Char.ofNat (0x10000 + 0x400 * (n - 0xD800) + (l - 0xDC00)), t) else none
    | none => none
  | _ => none

/-- What stands after `\u`: a character, or a surrogate pair. -/
def readCode (t : List UInt8) : Option (Char × List UInt8) :=
  match readHex t with
  | some (n, t) => if 0xD800 ≤ n ∧ n < 0xDC00 then readLow n t else if 0xDC00 ≤ n ∧ n < 0xE000 then none else some (Char.ofNat n, t)
  | none => none

/-- One character of a string: itself in UTF-8, unless it is a control character, a quote or a backslash, or an escape. -/
def readChar (t : List UInt8) : Option (Char × List UInt8) :=
  match t with
  | [] => none
  | b :: r =>
    if b = 92 then
      match r with
      | [] => none
      | e :: r => if e = 117 then readCode r else (escaped e).map fun c => (c, r)
    else if b < 32 ∨ b = 34 then none
    else if b < 128 then some (Char.ofNat b.toNat, r)
    else (t.toByteArray.utf8DecodeChar? 0).map fun c => (c, t.drop c.utf8Size)

/-- Characters up to the closing quote; the first argument bounds the number of calls. -/
def readChars : Nat → List UInt8 → Option (List Char × List UInt8)
  | 0, _ => none
  | k + 1, t =>
    if t.head? = some 34 then some ([], t.tail)
    else (readChar t).bind fun p => (readChars k p.2).map fun q => (p.1 :: q.1, q.2)

/-- A string after its opening quote. -/
def readString (t : List UInt8) : Option (String × List UInt8) := (readChars (t.length + 1) t).map fun p => (String.ofList p.1, p.2)

/-- The value of a row of digits. -/
def digitsValue (ds : List UInt8) : Nat := ds.foldl (fun n d => 10 * n + (d.toNat - 48)) 0

/-- A row of digits: no superfluous zero in front, no fraction or exponent behind. -/
def readDigits (t : List UInt8) : Option (Nat × List UInt8) :=
  let ds := t.takeWhile isDigit
  let rest := t.dropWhile isDigit
  if ds = [] ∨ (1 < ds.length ∧ ds.head? = some 48) ∨ rest.head? = some 46 ∨ rest.head? = some 69 ∨ rest.head? = some 101 then none
  else some (digitsValue ds, rest)

/-- An integer of 64 bits. (`-0` is a float to serde_json.) -/
def readInt (t : List UInt8) : Option (Json × List UInt8) :=
  if t.head? = some 45 then
    match readDigits t.tail with
    | some (n, rest) => if n ≠ 0 ∧ n ≤ 2 ^ 63 then some (.int (-(n : Int)), rest) else none
    | none => none
  else
    match readDigits t with
    | some (n, rest) => if n < 2 ^ 64 then some (.int n, rest) else none
    | none => none

/-- Digits, at least one. -/
def readRow (t : List UInt8) : Option (List UInt8 × List UInt8) :=
  if t.takeWhile isDigit = [] then none else some (t.takeWhile isDigit, t.dropWhile isDigit)

/-- The digits of a fraction, none if there is no fraction. -/
def readFrac (t : List UInt8) : Option (List UInt8 × List UInt8) :=
  if t.head? = some 46 then readRow t.tail else some ([], t)

/-- An exponent, if there is one. -/
def readExpo (t : List UInt8) : Option (Option Int × List UInt8) :=
  if t.head? = some 69 ∨ t.head? = some 101 then
    if t.tail.head? = some 45 then (readRow t.tail.tail).map fun p => (some (-(digitsValue p.1 : Int)), p.2)
    else if t.tail.head? = some 43 then (readRow t.tail.tail).map fun p => (some (digitsValue p.1 : Int), p.2)
    else (readRow t.tail).map fun p => (some (digitsValue p.1 : Int), p.2)
  else some (none, t)

/-- The value of a number without its sign, unless it is an integer that has a type of its own. -/
def readDecimal (int : Nat → Bool) (t : List UInt8) : Option (ℚ × List UInt8) :=
  (readRow t).bind fun p =>
    if 1 < p.1.length ∧ p.1.head? = some 48 then none
    else (readFrac p.2).bind fun f => (readExpo f.2).bind fun e =>
      if f.1 = [] ∧ e.1 = none ∧ int (digitsValue p.1) = true then none
      else some ((digitsValue p.1 + digitsValue f.1 / 10 ^ f.1.length) * 10 ^ (e.1.getD 0), e.2)

/-- A number with a fraction or an exponent, or beyond 64 bits, or `-0`: the nearest binary64, if there is one. (serde_json 1.0.35 rounds twice if there are many digits or a large
exponent, which is not modelled; there is no sign of 0 here.) -/
def readReal (t : List UInt8) : Option (Json × List UInt8) :=
  if t.head? = some 45 then
    (readDecimal (fun n => n ≠ 0 && n ≤ 2 ^ 63) t.tail).bind fun p => if |rnd64 (-p.1)| < 2 ^ 1024 then some (.float (rnd64 (-p.1)), p.2) else none
  else (readDecimal (fun n => n < 2 ^ 64) t).bind fun p => if |rnd64 p.1| < 2 ^ 1024 then some (.float (rnd64 p.1), p.2) else none

/-- A number. -/
def readNumber (t : List UInt8) : Option (Json × List UInt8) :=
  match readInt t with
  | some p => some p
  | none => readReal t

/-- The rest of a word. -/
def readWord (w : String) (j : Json) (t : List UInt8) : Option (Json × List UInt8) :=
  if (ascii w).isPrefixOf t then some (j, t.drop (ascii w).length) else none

/-- The next byte that is not white space, and what follows it. -/
def next (t : List UInt8) : Option (UInt8 × List UInt8) :=
  match skip t with
  | [] => none
  | b :: t => some (b, t)

mutual

/-- A value; the first argument bounds the number of calls. -/
def readValue : Nat → List UInt8 → Option (Json × List UInt8)
  | 0, _ => none
  | k + 1, t =>
    match next t with
    | none => none
    | some (b, r) =>
      if b = 110 then readWord "ull" .null r
      else if b = 116 then readWord "rue" (.bool true) r
      else if b = 102 then readWord "alse" (.bool false) r
      else if b = 34 then (readString r).map fun p => (.str p.1, p.2)
      else if b = 91 then
        match next r with
        | none => none
        | some (c, rest) =>
          if c = 93 then some (.arr [], rest)
          else (readValue k r).bind fun p => (readItems k p.2).map fun q => (.arr (p.1 :: q.1), q.2)
      else if b = 123 then
        match next r with
        | none => none
        | some (c, rest) =>
          if c = 125 then some (.obj [], rest)
          else (readField k r).bind fun p => (readFields k p.2).map fun q => (.obj (p.1 :: q.1), q.2)
      else readNumber (b :: r)

/-- The rest of an array. -/
def readItems : Nat → List UInt8 → Option (List Json × List UInt8)
  | 0, _ => none
  | k + 1, t =>
    match next t with
    | none => none
    | some (b, r) =>
      if b = 93 then some ([], r)
      else if b = 44 then (readValue k r).bind fun p => (readItems k p.2).map fun q => (p.1 :: q.1, q.2)
      else none

/-- One field. -/
def readField : Nat → List UInt8 → Option ((String × Json) × List UInt8)
  | 0, _ => none
  | k + 1, t =>
    match next t with
    | none => none
    | some (b, r) =>
      if b = 34 then
        (readString r).bind fun p =>
          match next p.2 with
          | none => none
          | some (c, r) => if c = 58 then (readValue k r).map fun q => ((p.1, q.1), q.2) else none
      else none

/-- The rest of an object. -/
def readFields : Nat → List UInt8 → Option (List (String × Json) × List UInt8)
  | 0, _ => none
  | k + 1, t =>
    match next t with
    | none => none
    | some (b, r) =>
      if b = 125 then some ([], r)
      else if b = 44 then (readField k r).bind fun p => (readFields k p.2).map fun q => (p.1 :: q.1, q.2)
      else none

end

/-- `serde_json::from_reader`: one value, and nothing but white space behind it. -/
def readJson (t : List UInt8) : Option Json :=
  match readValue (t.length + 1) t with
  | some (j, rest) => if skip rest = [] then some j else none
  | none => none

/-- `serde_json::to_writer_pretty`. -/
def writeJson (j : Json) : List UInt8 := pretty 0 j

end M2S.Text
