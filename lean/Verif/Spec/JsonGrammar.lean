import Verif.Json
/-
A grammar of JSON texts (RFC 8259). Numbers are integers of 64 bits or the nearest binary64 (`rnd64`). It says which texts denote which value, without saying how
to read them.
-/
namespace M2S.JsonSpec

/-- White space: blanks, tabs, line feeds, carriage returns. -/
def Blank (w : List UInt8) : Prop := ∀ b ∈ w, b ∈ [32, 9, 10, 13]

/-- Digits without a superfluous zero in front. -/
inductive Row : List UInt8 → Nat → Prop
  | one {d : Nat} (h : d < 10) : Row [UInt8.ofNat (48 + d)] d
  | more {t : List UInt8} {n d : Nat} (r : Row t n) (hn : n ≠ 0) (h : d < 10) : Row (t ++ [UInt8.ofNat (48 + d)]) (10 * n + d)

/-- Digits: their value and their number. -/
inductive Numeral : List UInt8 → Nat → Nat → Prop
  | one {d : Nat} (h : d < 10) : Numeral [UInt8.ofNat (48 + d)] d 1
  | more {t : List UInt8} {n k d : Nat} (r : Numeral t n k) (h : d < 10) : Numeral (t ++ [UInt8.ofNat (48 + d)]) (10 * n + d) (k + 1)

/-- A fraction, or nothing. -/
inductive Frac : List UInt8 → ℚ → Prop
  | none : Frac [] 0
  | some {t : List UInt8} {n k : Nat} (r : Numeral t n k) : Frac (46 :: t) (n / 10 ^ k)

/-- An exponent, or nothing. -/
inductive Expo : List UInt8 → Int → Prop
  | none : Expo [] 0
  | bare {b : UInt8} {t : List UInt8} {n k : Nat} (h : b = 69 ∨ b = 101) (r : Numeral t n k) : Expo (b :: t) n
  | plus {b : UInt8} {t : List UInt8} {n k : Nat} (h : b = 69 ∨ b = 101) (r : Numeral t n k) : Expo (b :: 43 :: t) n
  | minus {b : UInt8} {t : List UInt8} {n k : Nat} (h : b = 69 ∨ b = 101) (r : Numeral t n k) : Expo (b :: 45 :: t) (-n)

/-- A number without its sign, other than the integers of a type of their own. -/
inductive Decimal (int : Nat → Prop) : List UInt8 → ℚ → Prop
  | mk {t u x : List UInt8} {n : Nat} {f : ℚ} {e : Int} (r : Row t n) (hf : Frac u f) (he : Expo x e) (h : u ≠ [] ∨ x ≠ [] ∨ ¬ int n) :
      Decimal int (t ++ (u ++ x)) ((n + f) * 10 ^ e)

/-- A hexadecimal digit. -/
def Hex (b : UInt8) (d : Nat) : Prop := b.toNat = 48 + d ∧ d < 10 ∨ b.toNat = 97 + (d - 10) ∧ 10 ≤ d ∧ d < 16 ∨ b.toNat = 65 + (d - 10) ∧ 10 ≤ d ∧ d < 16

/-- A number of four hexadecimal digits. -/
def Hex4 (t : List UInt8) (n : Nat) : Prop :=
  ∃ a b c d x y z w, t = [a, b, c, d] ∧ Hex a x ∧ Hex b y ∧ Hex c z ∧ Hex d w ∧ n = 4096 * x + 256 * y + 16 * z + w

/-- One character: in UTF-8, or a backslash with a letter, the number of the character, or the numbers of a surrogate pair. -/
inductive OneChar : List UInt8 → Char → Prop
  | self (c : Char) (h : 32 ≤ c.toNat) (hq : c ≠ '"') (hb : c ≠ '\\') : OneChar (String.utf8EncodeChar c) c
  | letter {e : UInt8} {c : Char} (h : (e, c) ∈ [((34 : UInt8), '"'), (92, '\\'), (47, '/'), (98, '\x08'), (102, '\x0c'), (110, '\n'), (114, '\r'), (116, '\t')]) : OneChar [92, e] c
  | number {t : List UInt8} {n : Nat} (h : Hex4 t n) (hn : n < 0xD800 ∨ 0xE000 ≤ n) : OneChar (92 :: 117 :: t) (Char.ofNat n)
  | pair {t t' : List UInt8} {n l : Nat} (h : Hex4 t n) (h' : Hex4 t' l) (hn : 0xD800 ≤ n ∧ n < 0xDC00) (hl : 0xDC00 ≤ l ∧ l < 0xE000) :
      OneChar (92 :: 117 :: (t ++ 92 :: 117 :: t')) (Char.ofNat (0x10000 + 0x400 * (n - 0xD800) + (l - 0xDC00)))

/-- Characters one after the other. -/
inductive Letters : List UInt8 → List Char → Prop
  | nil : Letters [] []
  | cons {u t : List UInt8} {c : Char} {l : List Char} (h : OneChar u c) (ht : Letters t l) : Letters (u ++ t) (c :: l)

/-- The characters of a string. -/
def Chars (t : List UInt8) (s : String) : Prop := Letters t s.toList

mutual

/-- The text of a value. -/
inductive Value : List UInt8 → Json → Prop
  | null : Value [110, 117, 108, 108] .null
  | yes : Value [116, 114, 117, 101] (.bool true)
  | no : Value [102, 97, 108, 115, 101] (.bool false)
  | int {t : List UInt8} {n : Nat} (r : Row t n) (h : n < 2 ^ 64) : Value t (.int n)
  | neg {t : List UInt8} {n : Nat} (r : Row t n) (h0 : n ≠ 0) (h : n ≤ 2 ^ 63) : Value (45 :: t) (.int (-n))
  | real {t : List UInt8} {q : ℚ} (r : Decimal (fun n => n < 2 ^ 64) t q) (h : |rnd64 q| < 2 ^ 1024) : Value t (.float (rnd64 q))
  | negReal {t : List UInt8} {q : ℚ} (r : Decimal (fun n => n ≠ 0 ∧ n ≤ 2 ^ 63) t q) (h : |rnd64 (-q)| < 2 ^ 1024) : Value (45 :: t) (.float (rnd64 (-q)))
  | str {t : List UInt8} {s : String} (h : Chars t s) : Value (34 :: (t ++ [34])) (.str s)
  | noItems {w : List UInt8} (h : Blank w) : Value (91 :: (w ++ [93])) (.arr [])
  | arr {t : List UInt8} {l : List Json} (h : Items t l) : Value (91 :: (t ++ [93])) (.arr l)
  | noMembers {w : List UInt8} (h : Blank w) : Value (123 :: (w ++ [125])) (.obj [])
  | obj {t : List UInt8} {l : List (String × Json)} (h : Members t l) : Value (123 :: (t ++ [125])) (.obj l)

/-- Values with commas between them. -/
inductive Items : List UInt8 → List Json → Prop
  | one {w v w' : List UInt8} {j : Json} (h : Blank w) (hv : Value v j) (h' : Blank w') : Items (w ++ (v ++ w')) [j]
  | more {w v w' t : List UInt8} {j : Json} {l : List Json} (h : Blank w) (hv : Value v j) (h' : Blank w') (ht : Items t l) : Items (w ++ (v ++ (w' ++ 44 :: t))) (j :: l)

/-- A key, a colon, a value. -/
inductive Member : List UInt8 → String × Json → Prop
  | mk {w k w₁ w₂ v : List UInt8} {s : String} {j : Json} (h : Blank w) (hk : Chars k s) (h₁ : Blank w₁) (h₂ : Blank w₂) (hv : Value v j) :
      Member (w ++ 34 :: (k ++ 34 :: (w₁ ++ 58 :: (w₂ ++ v)))) (s, j)

/-- Members with commas between them. -/
inductive Members : List UInt8 → List (String × Json) → Prop
  | one {m w' : List UInt8} {f : String × Json} (h : Member m f) (h' : Blank w') : Members (m ++ w') [f]
  | more {m w' t : List UInt8} {f : String × Json} {l : List (String × Json)} (h : Member m f) (h' : Blank w') (ht : Members t l) : Members (m ++ (w' ++ 44 :: t)) (f :: l)

end

/-- A file: one value with white space around it. -/
def Denotes (t : List UInt8) (j : Json) : Prop := ∃ w v w', t = w ++ (v ++ w') ∧ Blank w ∧ Value v j ∧ Blank w'

end M2S.JsonSpec
