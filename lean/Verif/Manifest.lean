import Verif.Json
import Verif.Rom
/-
Model of `src/manifest/mod.rs`. Paths are Unix path strings.
-/
namespace M2S

/-- `Path::is_absolute` on Unix. -/
def isAbsolute (p : String) : Bool := p.toList.head? = some '/'

/-- `Path::join` on Unix. -/
def joinPath (base p : String) : String :=
  if isAbsolute p then p
  else if base = "" then p
  else if base.toList.getLast? = some '/' then base ++ p
  else base ++ "/" ++ p

/-- `DEFAULT_TEMPO_ADJUST: f32 = 0.2`, `src/manifest/mod.rs:7`. -/
def defaultTempoAdjust : F32 := .ofRat (1 / 5)

/-- `OVERWORLD_SONGS`, `src/manifest/mod.rs:9-25`. -/
def overworldSongs : List String :=
  ["Title", "World Map", "Beginning", "Rabbit", "Forest", "Intro", "Town", "Warp", "Dark World", "Master Sword",
   "File Select", "Soldier", "Mountain", "Shop", "Fanfare"]

/-- `INDOOR_SONGS`, `src/manifest/mod.rs:26-43`. -/
def indoorSongs : List String :=
  ["Castle", "Palace", "Cave", "Clear", "Church", "Boss", "Dungeon", "Psychic", "Secret Way", "Rescue", "Crystal",
   "Fountain", "Pyramid", "Kill Agahnim", "Ganon Room", "Last Boss"]

/-- `ENDING_SONGS`, `src/manifest/mod.rs:44`. -/
def endingSongs : List String := ["Triforce", "Ending", "Staff"]

/-- `value[key]` on `&Value`: the field, or `null` if it is missing or `value` is not an object. In a `Value` the last of
several equal keys wins. -/
def Json.index (j : Json) (key : String) : Json :=
  match j with
  | .obj fs => ((Json.fieldsNamed key fs).getLast?).getD .null
  | _ => .null

/-- `Value::as_str`. -/
def Json.asStr : Json → Option String
  | .str s => some s
  | _ => none

/-- `Value::as_bool`. -/
def Json.asBool : Json → Option Bool
  | .bool b => some b
  | _ => none

/-- `Value::as_f64`. -/
def Json.asF64 : Json → Option ℚ
  | .int n => some (rnd64 n)
  | .float q => some q
  | _ => none

/-- `manifest::Song::new`, `src/manifest/mod.rs:54-69`; `unwrap` of a missing `input` panics. (`0.2f32 as f64 as f32` is
`0.2f32`.) -/
def songDefNew (j : Json) (base : String) : Res (SongDef String) :=
  match (j.index "input").asStr with
  | none => panicked
  | some p =>
    .ok { input := some (if isAbsolute p then p else joinPath base p)
          tempoFactor := match (j.index "tempoAdjust").asF64 with
            | some q => .ofRat q
            | none => defaultTempoAdjust
          loops := (j.index "loop").asBool.getD true }

/-- `manifest::Song::default`, `src/manifest/mod.rs:71-77`. -/
def songDefDefault (path : String) : SongDef String := ⟨some path, defaultTempoAdjust, true⟩

/-- `manifest::Song::empty`, `src/manifest/mod.rs:79-85`. -/
def songDefEmpty : SongDef String := ⟨none, defaultTempoAdjust, false⟩

/-- `Bank::new`, `src/manifest/mod.rs:95-103`. -/
def bankNew (j : Json) (names : List String) (base : String) : Res (List (SongDef String)) :=
  names.mapM fun n => songDefNew (j.index n) base

/-- `Manifest`: the song lists of its three banks (`src/manifest/mod.rs:88-109`; the bank names are only printed). -/
abbrev Manifest := List (List (SongDef String))

/-- `Manifest::new` after reading the file, `src/manifest/mod.rs:112-123`; `base` is the parent directory. -/
def manifestNew (j : Json) (base : String) : Res Manifest := do
  let o ← bankNew (j.index "overworld") overworldSongs base
  let i ← bankNew (j.index "indoor") indoorSongs base
  let e ← bankNew (j.index "ending") endingSongs base
  return [o, i, e]

/-- `Manifest::single_song`, `src/manifest/mod.rs:125-179`. -/
def manifestSingleSong (p : String) : Manifest :=
  let d := songDefDefault p
  [[d, d, d, d, d, d, d, d, d, d, d, d, d, d, d],
   [d, d, d, d, d, d, d, d, d, d, d, d, d, d, d, d],
   [d, d, d]]

/-- `Manifest::file_select`, `src/manifest/mod.rs:181-231`. -/
def manifestFileSelect (p : String) : Manifest :=
  let d := songDefDefault p
  let e := songDefEmpty
  [[e, e, e, e, e, e, e, e, e, e, d, e, e, e, e],
   [e, e, e, e, e, e, e, e, e, e, e, e, e, e, e, e],
   [e, e, e]]

end M2S
