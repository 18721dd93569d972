import Verif.Song
/-
JSON values (`serde_json::Value`) and the serde encoding of songs (`#[derive(Serialize, Deserialize)]` in
`src/nspc/mod.rs:35,40`, `src/nspc/track.rs:9`, `src/nspc/command.rs:93,276`; `from_json`/`write_to_json`,
`src/nspc/mod.rs:159-167`). The text syntax of JSON is not modelled here.
-/
namespace M2S

/-- The binary64 nearest to a rational, as long as it is in range (`u64/i64 as f64`, numbers in JSON texts). -/
def rnd64 (q : ℚ) : ℚ :=
  let e := max (Int.log 2 |q|) (-1022) - 52
  roundEven (q / 2 ^ e) * 2 ^ e

/-- A JSON value. Integers and floats are kept apart, as in `serde_json::Number`; a float is an `f64`, hence a rational. -/
inductive Json
  | null
  | bool (b : Bool)
  | int (n : Int)
  | float (q : ℚ)
  | str (s : String)
  | arr (l : List Json)
  | obj (fields : List (String × Json))

/-- The fields of an object with a given key. -/
def Json.fieldsNamed (key : String) (fields : List (String × Json)) : List Json :=
  (fields.filter fun p => p.1 = key).map (·.2)

/-- A `u8` or `usize` number, as serialised by serde. -/
def Json.ofNat (n : Nat) : Json := .int n

/-- An integer in `0 .. bound`. -/
def Json.toNat? (bound : Nat) : Json → Option Nat
  | .int n => if 0 ≤ n ∧ n.toNat < bound then some n.toNat else none
  | _ => none

/-- Deserialising a `u8`. -/
def Json.toU8? (j : Json) : Option UInt8 := (j.toNat? 256).map UInt8.ofNat

/-- Deserialising a `usize` (64 bits). -/
def Json.toUsize? (j : Json) : Option Nat := j.toNat? (2 ^ 64)

/-- Serialising a `u8`. -/
def Json.u8 (b : UInt8) : Json := .ofNat b.toNat

/-- An externally tagged tuple variant: one operand is written bare, several as an array. -/
def Json.tagged (tag : String) : List Json → Json
  | [] => .str tag
  | [x] => .obj [(tag, x)]
  | xs => .obj [(tag, .arr xs)]

/-- Serialisation of `Command` (serde's externally tagged representation of the enum at
`src/nspc/command.rs:93-125`). -/
def Command.toJson : Command → Json
  | .note p1 => .tagged "Note" [.u8 p1]
  | .rest => .tagged "Rest" []
  | .tie => .tagged "Tie" []
  | .setInstrument p1 => .tagged "SetInstrument" [.u8 p1]
  | .pan p1 => .tagged "Pan" [.u8 p1]
  | .panFade p1 p2 => .tagged "PanFade" [.u8 p1, .u8 p2]
  | .vibrato p1 p2 p3 => .tagged "Vibrato" [.u8 p1, .u8 p2, .u8 p3]
  | .vibratoOff => .tagged "VibratoOff" []
  | .masterVolume p1 => .tagged "MasterVolume" [.u8 p1]
  | .masterVolumeFade p1 p2 => .tagged "MasterVolumeFade" [.u8 p1, .u8 p2]
  | .tempo p1 => .tagged "Tempo" [.u8 p1]
  | .tempoFade p1 p2 => .tagged "TempoFade" [.u8 p1, .u8 p2]
  | .globalTranspose p1 => .tagged "GlobalTranspose" [.u8 p1]
  | .channelTranspose p1 => .tagged "ChannelTranspose" [.u8 p1]
  | .tremolo p1 p2 p3 => .tagged "Tremolo" [.u8 p1, .u8 p2, .u8 p3]
  | .tremoloOff => .tagged "TremoloOff" []
  | .channelVolume p1 => .tagged "ChannelVolume" [.u8 p1]
  | .channelVolumeFade p1 => .tagged "ChannelVolumeFade" [.u8 p1]
  | .callLoop t k => .tagged "CallLoop" [.ofNat t, .u8 k]
  | .vibratoFade p1 => .tagged "VibratoFade" [.u8 p1]
  | .pitchEnvelopeTo p1 p2 p3 => .tagged "PitchEnvelopeTo" [.u8 p1, .u8 p2, .u8 p3]
  | .pitchEnvelopeFrom p1 p2 p3 => .tagged "PitchEnvelopeFrom" [.u8 p1, .u8 p2, .u8 p3]
  | .pitchEnvelopeOff => .tagged "PitchEnvelopeOff" []
  | .tuning p1 => .tagged "Tuning" [.u8 p1]
  | .echoVolume p1 p2 p3 => .tagged "EchoVolume" [.u8 p1, .u8 p2, .u8 p3]
  | .echoOff => .tagged "EchoOff" []
  | .echoParams p1 p2 p3 => .tagged "EchoParams" [.u8 p1, .u8 p2, .u8 p3]
  | .echoVolumeFade p1 p2 p3 => .tagged "EchoVolumeFade" [.u8 p1, .u8 p2, .u8 p3]
  | .pitchSlide p1 p2 p3 => .tagged "PitchSlide" [.u8 p1, .u8 p2, .u8 p3]
  | .percussionPatchBase p1 => .tagged "PercussionPatchBase" [.u8 p1]

/-- Deserialising a variant without operands: `"Tag"` or `{"Tag": null}`. -/
def Json.unitVariant : Json → Option String
  | .str s => some s
  | .obj [(s, .null)] => some s
  | _ => none

/-- One `u8` operand. -/
def Json.args1 (j : Json) (f : UInt8 → Command) : Option Command := j.toU8?.map f

/-- Two `u8` operands. -/
def Json.args2 (j : Json) (f : UInt8 → UInt8 → Command) : Option Command :=
  match j with
  | .arr [a, b] => do return f (← a.toU8?) (← b.toU8?)
  | _ => none

/-- Three `u8` operands. -/
def Json.args3 (j : Json) (f : UInt8 → UInt8 → UInt8 → Command) : Option Command :=
  match j with
  | .arr [a, b, c] => do return f (← a.toU8?) (← b.toU8?) (← c.toU8?)
  | _ => none

/-- A variant without operands, by name. -/
def Command.ofUnit : String → Option Command
  | "Rest" => some .rest
  | "Tie" => some .tie
  | "VibratoOff" => some .vibratoOff
  | "TremoloOff" => some .tremoloOff
  | "PitchEnvelopeOff" => some .pitchEnvelopeOff
  | "EchoOff" => some .echoOff
  | _ => none

/-- A variant with operands, by name. -/
def Command.ofTagged (tag : String) (j : Json) : Option Command :=
  match tag with
  | "Note" => j.args1 .note
  | "SetInstrument" => j.args1 .setInstrument
  | "Pan" => j.args1 .pan
  | "PanFade" => j.args2 .panFade
  | "Vibrato" => j.args3 .vibrato
  | "MasterVolume" => j.args1 .masterVolume
  | "MasterVolumeFade" => j.args2 .masterVolumeFade
  | "Tempo" => j.args1 .tempo
  | "TempoFade" => j.args2 .tempoFade
  | "GlobalTranspose" => j.args1 .globalTranspose
  | "ChannelTranspose" => j.args1 .channelTranspose
  | "Tremolo" => j.args3 .tremolo
  | "ChannelVolume" => j.args1 .channelVolume
  | "ChannelVolumeFade" => j.args1 .channelVolumeFade
  | "CallLoop" =>
    match j with
    | .arr [a, b] => do return .callLoop (← a.toUsize?) (← b.toU8?)
    | _ => none
  | "VibratoFade" => j.args1 .vibratoFade
  | "PitchEnvelopeTo" => j.args3 .pitchEnvelopeTo
  | "PitchEnvelopeFrom" => j.args3 .pitchEnvelopeFrom
  | "Tuning" => j.args1 .tuning
  | "EchoVolume" => j.args3 .echoVolume
  | "EchoParams" => j.args3 .echoParams
  | "EchoVolumeFade" => j.args3 .echoVolumeFade
  | "PitchSlide" => j.args3 .pitchSlide
  | "PercussionPatchBase" => j.args1 .percussionPatchBase
  | _ => none

/-- Deserialisation of `Command`. -/
def Command.ofJson (j : Json) : Option Command :=
  match j.unitVariant with
  | some s => Command.ofUnit s
  | none =>
    match j with
    | .obj [(tag, v)] => Command.ofTagged tag v
    | _ => none

/-- Serialisation of `Option<u8>`. -/
def Json.optU8 : Option UInt8 → Json
  | none => .null
  | some b => .u8 b

/-- Deserialisation of an optional field: a missing field or `null` is `None`; a repeated field is an error. -/
def Json.getOptU8 (key : String) (fields : List (String × Json)) : Option (Option UInt8) :=
  match Json.fieldsNamed key fields with
  | [] => some none
  | [.null] => some none
  | [j] => j.toU8?.map some
  | _ => none

/-- Deserialisation of an `Option<u8>` that is there. -/
def Json.toOptU8? : Json → Option (Option UInt8)
  | .null => some none
  | j => j.toU8?.map some

/-- A required field: exactly one occurrence. -/
def Json.getField (key : String) (fields : List (String × Json)) : Option Json :=
  match Json.fieldsNamed key fields with
  | [j] => some j
  | _ => none

/-- Serialisation of `ParameterizedCommand`. -/
def PCmd.toJson (c : PCmd) : Json :=
  .obj [("duration", .optU8 c.duration), ("velocity", .optU8 c.velocity), ("sustain", .optU8 c.sustain),
        ("command", c.command.toJson)]

/-- Deserialisation of `ParameterizedCommand` (`src/nspc/command.rs:277-283`) from an object (unknown fields are ignored) or from an array with the fields in the order of
their declaration, as serde derives it for all structures. -/
def PCmd.ofJson : Json → Option PCmd
  | .arr [d, v, s, c] => do return ⟨← d.toOptU8?, ← v.toOptU8?, ← s.toOptU8?, ← Command.ofJson c⟩
  | .obj fs => do
    let d ← Json.getOptU8 "duration" fs
    let v ← Json.getOptU8 "velocity" fs
    let s ← Json.getOptU8 "sustain" fs
    let c ← (← Json.getField "command" fs) |> Command.ofJson
    return ⟨d, v, s, c⟩
  | _ => none

/-- Deserialisation of a sequence. -/
def Json.toList? {α : Type} (f : Json → Option α) : Json → Option (List α)
  | .arr l => l.mapM f
  | _ => none

/-- Serialisation of `Song`, `src/nspc/mod.rs:35-44`, `src/nspc/track.rs:9-12`. -/
def Song.toJson (s : Song) : Json :=
  .obj [("parts", .arr (s.parts.map fun p => .obj [("tracks", .arr (p.map Json.ofNat))])),
        ("tracks", .arr (s.tracks.map fun t => .obj [("commands", .arr (t.map PCmd.toJson))]))]

/-- Deserialisation of `Part`. -/
def partOfJson : Json → Option (List Nat)
  | .arr [j] => j.toList? Json.toUsize?
  | .obj fs => do (← Json.getField "tracks" fs).toList? Json.toUsize?
  | _ => none

/-- Deserialisation of `Track`. -/
def trackOfJson : Json → Option (List PCmd)
  | .arr [j] => j.toList? PCmd.ofJson
  | .obj fs => do (← Json.getField "commands" fs).toList? PCmd.ofJson
  | _ => none

/-- Deserialisation of `Song`. -/
def Song.ofJson : Json → Option Song
  | .arr [p, t] => do return ⟨← p.toList? partOfJson, ← t.toList? trackOfJson⟩
  | .obj fs => do
    let ps ← (← Json.getField "parts" fs).toList? partOfJson
    let ts ← (← Json.getField "tracks" fs).toList? trackOfJson
    return ⟨ps, ts⟩
  | _ => none

end M2S
