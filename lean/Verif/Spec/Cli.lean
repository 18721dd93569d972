import Verif.Cli
/-
Hexadecimal numbers, written independently of `Verif/Cli.lean`.
-/
namespace M2S.CliSpec

/-- The hexadecimal digits with their values; letters in either case. -/
def digits : List (Char × Nat) :=
  [('0', 0), ('1', 1), ('2', 2), ('3', 3), ('4', 4), ('5', 5), ('6', 6), ('7', 7), ('8', 8), ('9', 9), ('a', 10), ('b', 11), ('c', 12), ('d', 13),
   ('e', 14), ('f', 15), ('A', 10), ('B', 11), ('C', 12), ('D', 13), ('E', 14), ('F', 15)]

/-- `cs` is a hexadecimal numeral (most significant digit first) of value `n`. -/
inductive Numeral : List Char → Nat → Prop
  | one {c : Char} {d : Nat} (h : (c, d) ∈ digits) : Numeral [c] d
  | more {cs : List Char} {n : Nat} {c : Char} {d : Nat} (t : Numeral cs n) (h : (c, d) ∈ digits) : Numeral (cs ++ [c]) (16 * n + d)

/-- An address as the option takes it: a numeral below 2^32, possibly with a plus sign. -/
def Address (s : String) (n : Nat) : Prop :=
  n < 2 ^ 32 ∧ (Numeral s.toList n ∨ ∃ cs, s.toList = '+' :: cs ∧ Numeral cs n)

end M2S.CliSpec
