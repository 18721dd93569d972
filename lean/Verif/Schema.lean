import Verif.Manifest
/-
The published schema of manifests, `src/manifest.schema.json`, as data, and the path functions that decide how an input file is read and where it is looked for.
-/
namespace M2S

/-- The part of JSON Schema (draft 07) that the file uses. -/
inductive Schema
  /-- `"type": "string"`, `"pattern": ".*\\.(mid|json)"` given by the texts after `.*`. -/
  | string (endings : List String)
  /-- `"type": "number"` with its `"description"`. -/
  | number (description : String)
  /-- `"type": "boolean"`. -/
  | boolean
  /-- `"type": "object"`, `"properties"`, `"required"`. -/
  | object (properties : List (String × Schema)) (required : List String)

/-- `"definitions": { "song": … }`, `src/manifest.schema.json:171-192`. -/
def songSchema : Schema :=
  .object [("input", .string [".mid", ".json"]), ("tempoAdjust", .number "Tempo adjustment factor (default 0.3)"), ("loop", .boolean)] ["input"]

/-- A bank: all entries are `"$ref": "#/definitions/song"` and required. (In draft 07 the `"type"` beside `"$ref"` is ignored.) -/
def bankSchema (names : List String) : Schema := .object (names.map fun n => (n, songSchema)) names

/-- `src/manifest.schema.json`, the whole file. -/
def manifestSchema : Schema :=
  .object
    [("overworld", bankSchema ["Title", "World Map", "Beginning", "Rabbit", "Forest", "Intro", "Town", "Warp", "Dark World", "Master Sword", "File Select", "Soldier", "Mountain", "Shop", "Fanfare"]),
     ("indoor", bankSchema ["Castle", "Palace", "Cave", "Clear", "Church", "Boss", "Dungeon", "Psychic", "Secret Way", "Rescue", "Crystal", "Fountain", "Pyramid", "Kill Agahnim", "Ganon Room", "Last Boss"]),
     ("ending", bankSchema ["Triforce", "Ending", "Staff"])]
    ["overworld", "indoor", "ending"]

/-- The last name in a Unix path (`Path::file_name`): empty names and `.` do not count, `..` is no file name. -/
def fileName (p : String) : Option (List Char) :=
  match ((p.toList.splitOn '/').filter fun n => n ≠ [] ∧ n ≠ ['.']).getLast? with
  | some ['.', '.'] => none
  | n => n

/-- `Path::extension`: what follows the last dot of the file name, unless nothing is before that dot. -/
def pathExtension (p : String) : Option String :=
  (fileName p).bind fun n =>
    match n.reverse.dropWhile (· ≠ '.') with
    | _ :: _ :: _ => some (String.ofList (n.reverse.takeWhile (· ≠ '.')).reverse)
    | _ => none

example : ["a.mid", "/x/b.c.mid", "x.d/b.mid/", ".mid", "mid", "a.midi", "a.MID", "..", "b.mid/.", "b."].map pathExtension =
    [some "mid", some "mid", some "mid", none, none, some "midi", some "MID", none, some "mid", some ""] := by decide +kernel

/-- A path from its end, without what `Path` ignores there: slashes and names `.`, except for the root and a path `.`. -/
def trimPath : List Char → List Char
  | '.' :: '/' :: r => trimPath ('/' :: r)
  | '/' :: c :: r => trimPath (c :: r)
  | r => r

/-- `Path::parent`: the path without its last name; the root and the empty path have none. -/
def pathParent (p : String) : Option String :=
  let r := trimPath p.toList.reverse
  if r = [] ∨ r = ['/'] then none else some (String.ofList (trimPath (r.dropWhile (· ≠ '/'))).reverse)

end M2S
