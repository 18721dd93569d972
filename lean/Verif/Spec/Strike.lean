import Verif.Spec.Changes
/-
How notes are struck: pitch, velocity, and the instrument and volume in force.
-/
namespace M2S.Timing
open Nspc

/-- Instrument and volume in force; `none` if nothing has been set yet. -/
abbrev Settings := Option UInt8 × Option UInt8

/-- A note that is struck. -/
structure Strike where
  pitch : UInt8
  velocity : Option UInt8
  settings : Settings
deriving DecidableEq, Repr

/-- Leave the velocity out. -/
def Strike.quiet (x : Strike) : Strike := { x with velocity := none }

/-- The settings after a command heard in a channel: E0 is an instrument, ED a volume. -/
def setByOp (s : Settings) (op : UInt8) (args : List UInt8) : Settings :=
  match op, args with
  | 0xe0, [i] => (some i, s.2)
  | 0xed, [v] => (s.1, some v)
  | _, _ => s

/-- The notes struck in a channel. -/
def heardStrikes : Settings → List Ev → List Strike
  | _, [] => []
  | s, .note p _ v _ :: l => ⟨p, some v, s⟩ :: heardStrikes s l
  | s, .perc p _ v _ :: l => ⟨p, some v, s⟩ :: heardStrikes s l
  | s, .tie _ :: l => heardStrikes s l
  | s, .rest _ :: l => heardStrikes s l
  | s, .cmd op args :: l => heardStrikes (setByOp s op args) l

/-- The settings after a command of a track. -/
def setByCmd (s : Settings) : Command → Settings
  | .setInstrument i => (some i, s.2)
  | .channelVolume v => (s.1, some v)
  | _ => s

/-- The notes struck by a command list. -/
def struck : Settings → List PCmd → List Strike
  | _, [] => []
  | s, c :: cs => (match c.command with
      | .note p => [⟨p, c.velocity, s⟩]
      | _ => []) ++ struck (setByCmd s c.command) cs

/-- The settings after an event of a voice: program changes and controller 7. -/
def setByEvent (s : Settings) : Message → Settings
  | .midiEvent _ (.programChange ch p) => (some (instrumentFor ch p), s.2)
  | .midiEvent _ (.controlChange _ c d) => if c = 7 then (s.1, some (2 * d)) else s
  | _ => s

/-- The notes a voice should strike, with the settings at their starts. The second argument is velocity and settings of the note that sounds. -/
def strikes : Settings → Option (UInt8 × Settings) → List (Message × Nat) → List Strike
  | _, _, [] => []
  | s, o, (m, _) :: evs =>
    match m with
    | .midiEvent _ (.noteOn _ _ v) => strikes s (some (v, s)) evs
    | .midiEvent _ (.noteOff _ n _) =>
      (match o with
        | some (v, s') => [⟨n + 0x68, some (v / 8), s'⟩]
        | none => []) ++ strikes s none evs
    | m => strikes (setByEvent s m) o evs

/-- The same with the settings at their ends. -/
def strikesAtEnd : Settings → Option UInt8 → List (Message × Nat) → List Strike
  | _, _, [] => []
  | s, o, (m, _) :: evs =>
    match m with
    | .midiEvent _ (.noteOn _ _ v) => strikesAtEnd s (some v) evs
    | .midiEvent _ (.noteOff _ n _) =>
      (match o with
        | some v => [⟨n + 0x68, some (v / 8), s⟩]
        | none => []) ++ strikesAtEnd s none evs
    | m => strikesAtEnd (setByEvent s m) o evs

/-- No program or volume change happens while a note is sounding. -/
def settingsBetweenNotes : Bool → List (Message × Nat) → Bool
  | _, [] => true
  | sounding, (m, _) :: evs =>
    match m with
    | .midiEvent _ (.noteOn _ _ _) => settingsBetweenNotes true evs
    | .midiEvent _ (.noteOff _ _ _) => settingsBetweenNotes false evs
    | .midiEvent _ (.programChange _ _) => !sounding && settingsBetweenNotes sounding evs
    | .midiEvent _ (.controlChange _ c _) => !(sounding && c == 7) && settingsBetweenNotes sounding evs
    | _ => settingsBetweenNotes sounding evs

end M2S.Timing
