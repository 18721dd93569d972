import Verif.Manifest
/-
What a manifest means: the game's song slots, JSON documents up to the order of keys, paths as lists of names. Independent of `Verif/Manifest.lean`
except for the types.
-/
namespace M2S.ManifestSpec

/-- The game's banks and their songs, in the order of the song table. -/
def gameOrder : List (String × List String) :=
  [("overworld", ["Title", "World Map", "Beginning", "Rabbit", "Forest", "Intro", "Town", "Warp", "Dark World", "Master Sword", "File Select", "Soldier",
      "Mountain", "Shop", "Fanfare"]),
   ("indoor", ["Castle", "Palace", "Cave", "Clear", "Church", "Boss", "Dungeon", "Psychic", "Secret Way", "Rescue", "Crystal", "Fountain", "Pyramid",
      "Kill Agahnim", "Ganon Room", "Last Boss"]),
   ("ending", ["Triforce", "Ending", "Staff"])]

/-- `j` is an object with value `v` for `key` (the last one counts). -/
def Field (j : Json) (key : String) (v : Json) : Prop :=
  ∃ before after, j = .obj (before ++ (key, v) :: after) ∧ ∀ p ∈ after, p.1 ≠ key

/-- Documents that differ only in the order of the keys of objects without repeated keys. -/
inductive Reordered : Json → Json → Prop
  | refl (j : Json) : Reordered j j
  | trans {a b c : Json} : Reordered a b → Reordered b c → Reordered a c
  | keys {fs gs : List (String × Json)} (h : fs.Perm gs) (hd : (fs.map (·.1)).Nodup) : Reordered (.obj fs) (.obj gs)
  | inside (before after : List (String × Json)) (key : String) {a b : Json} :
      Reordered a b → Reordered (.obj (before ++ (key, a) :: after)) (.obj (before ++ (key, b) :: after))

/-- Split at slashes. -/
def splitSlash : List Char → List (List Char)
  | [] => [[]]
  | c :: cs =>
    if c = '/' then [] :: splitSlash cs
    else match splitSlash cs with
      | [] => [[c]]
      | p :: ps => (c :: p) :: ps

/-- The names in a path. -/
def names (path : String) : List (List Char) := (splitSlash path.toList).filter (· ≠ [])

/-- The names in a path that matter to the file system: `.` does not. -/
def places (l : List Char) : List (List Char) := (splitSlash l).filter fun n => n ≠ [] ∧ n ≠ ['.']

/-- Does a path start at the root? -/
def Rooted (path : String) : Prop := ∃ cs, path.toList = '/' :: cs

/-- `q` is the path `p` as seen from the directory `dir`. -/
def Resolves (dir p q : String) : Prop :=
  (Rooted p → q = p) ∧ (¬ Rooted p → names q = names dir ++ names p ∧ (Rooted q ↔ Rooted dir))

/-- The slot described by a song entry `j` of a manifest in directory `dir`. Whole numbers are covered up to the 53 bits of a double. -/
structure Slot (dir : String) (j : Json) (d : SongDef String) : Prop where
  input : ∃ p q, Field j "input" (.str p) ∧ d.input = some q ∧ Resolves dir p q
  tempo : ∀ x, Field j "tempoAdjust" (.float x) → d.tempoFactor = .ofRat x
  tempoInt : ∀ n : Int, Field j "tempoAdjust" (.int n) → |n| < 2 ^ 53 → d.tempoFactor = .ofRat n
  tempoDefault : (∀ x, ¬ Field j "tempoAdjust" (.float x)) → (∀ n, ¬ Field j "tempoAdjust" (.int n)) → d.tempoFactor = .ofRat (1 / 5)
  loops : ∀ b, Field j "loop" (.bool b) → d.loops = b
  loopsDefault : (∀ b, ¬ Field j "loop" (.bool b)) → d.loops = true

end M2S.ManifestSpec
