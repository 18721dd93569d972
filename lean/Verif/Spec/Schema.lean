import Verif.Schema
import Verif.Spec.Manifest
/-
What it means for a document to be valid under a schema.
-/
namespace M2S.ManifestSpec

/-- The text has `part` in it. -/
def Contains (text part : String) : Prop := ∃ a b, text.toList = a ++ part.toList ++ b

/-- Valid documents. A pattern may match anywhere in a text, and `.*` may match nothing: the ending is somewhere in it. Properties that are not mentioned are allowed. -/
inductive Valid : Schema → Json → Prop
  | string (endings : List String) (s e : String) : e ∈ endings → Contains s e → Valid (.string endings) (.str s)
  | int (d : String) (n : Int) : Valid (.number d) (.int n)
  | float (d : String) (q : ℚ) : Valid (.number d) (.float q)
  | boolean (b : Bool) : Valid .boolean (.bool b)
  | object (props : List (String × Schema)) (required : List String) (fields : List (String × Json)) :
      (∀ k ∈ required, ∃ v, Field (.obj fields) k v) → (∀ k s v, (k, s) ∈ props → Field (.obj fields) k v → Valid s v) → Valid (.object props required) (.obj fields)

/-- The number a JSON value stands for; whole numbers up to the 53 bits of a double. -/
inductive Denotes : Json → ℚ → Prop
  | int (n : Int) : |n| < 2 ^ 53 → Denotes (.int n) n
  | float (q : ℚ) : Denotes (.float q) q

/-- What a song entry says is heeded: the tempo if there is one, and whether to loop. -/
structure Heeded (e : Json) (d : SongDef String) : Prop where
  tempo : ∀ v, Field e "tempoAdjust" v → (∃ n : Int, v = .int n ∧ 2 ^ 53 ≤ |n|) ∨ ∃ q, Denotes v q ∧ d.tempoFactor = .ofRat q
  loops : ∀ v, Field e "loop" v → v = .bool d.loops

/-- The last name of the path has the ending `e`, with something before it. -/
def NamedWith (path e : String) : Prop := ∃ stem : List Char, (names path).getLast? = some (stem ++ e.toList) ∧ stem ≠ []

/-- The default of `tempoAdjust` according to its description in the schema: "Tempo adjustment factor (default 0.3)". -/
def documentedTempo : ℚ := 3 / 10

end M2S.ManifestSpec
