import Verif.Track
import Verif.Spec.Timing
import Verif.Spec.Nspc
/-
Instrument, volume and tempo changes: which ones a voice asks for, and when they take effect.
-/
namespace M2S.Timing
open Nspc

/-- Is this a command that changes instrument, volume or tempo? -/
def isChange : Command → Bool
  | .setInstrument _ => true
  | .channelVolume _ => true
  | .tempo _ => true
  | _ => false

/-- When the changes of a command list happen, in units. -/
def changeOnsets (cs : List PCmd) : List (Nat × Command) := (onsets 0 cs).filter fun x => isChange x.2

/-- When the changes heard in a channel happen, in units, with opcode and operands: instrument E0, tempo E7, volume ED. -/
def heardChanges : Nat → List Ev → List (Nat × UInt8 × List UInt8)
  | _, [] => []
  | t, .note _ d _ _ :: l => heardChanges (t + d.toNat) l
  | t, .perc _ d _ _ :: l => heardChanges (t + d.toNat) l
  | t, .tie d :: l => heardChanges (t + d.toNat) l
  | t, .rest d :: l => heardChanges (t + d.toNat) l
  | t, .cmd op args :: l => (if op = 0xe0 ∨ op = 0xe7 ∨ op = 0xed then [(t, op, args)] else []) ++ heardChanges t l

/-- A change that the events of a voice ask for: the time of its message in ticks, the time of the latest start or end of a note or program change of the voice before
(0 if there is none), and the command for it. For a program change `since` is its own time. -/
structure Change where
  time : Nat
  since : Nat
  command : Command
deriving DecidableEq, Repr

/-- The instrument for a program: percussion programs are used as they are, others are looked up in the table. -/
def instrumentFor (ch : Fin 16) (program : UInt8) : UInt8 := if ch = 9 then program else Instr.instrumentMap.getD program.toNat 0

/-- A big-endian number. -/
def bigEndian (l : List UInt8) : Nat := l.foldl (fun n b => 256 * n + b.toNat) 0

/-- The change one event asks for: program changes, volume (control 7; the engine's scale is twice that of MIDI) and tempo (three bytes, microseconds per beat). -/
def changeOf (f : F32) (since : Nat) : Message × Nat → List Change
  | (.midiEvent _ (.programChange ch p), t) => [⟨t, t, .setInstrument (instrumentFor ch p)⟩]
  | (.midiEvent _ (.controlChange _ c d), t) => if c = 7 then [⟨t, since, .channelVolume (2 * d)⟩] else []
  | (.metaEvent _ .setTempo data, t) => [⟨t, since, .tempo (tempoByte (bigEndian (data.take 3)) f)⟩]
  | _ => []

/-- The latest start or end of a note or program change after one event. A note-off without a note is none. -/
def sinceAfter (since : Nat) (sounding : Bool) : Message × Nat → Nat
  | (.midiEvent _ (.noteOn _ _ _), t) => t
  | (.midiEvent _ (.noteOff _ _ _), t) => if sounding then t else since
  | (.midiEvent _ (.programChange _ _), t) => t
  | _ => since

/-- Does a note sound after an event? -/
def soundingAfter (sounding : Bool) : Message × Nat → Bool
  | (.midiEvent _ (.noteOn _ _ _), _) => true
  | (.midiEvent _ (.noteOff _ _ _), _) => false
  | _ => sounding

/-- The changes the events of a voice ask for, in order. -/
def changes (f : F32) : Nat → Bool → List (Message × Nat) → List Change
  | _, _, [] => []
  | since, sounding, ev :: evs => changeOf f since ev ++ changes f (sinceAfter since sounding ev) (soundingAfter sounding ev) evs

/-- A set-tempo message as a timed tempo command. -/
def tempoOf (f : F32) : Message × Nat → Option (Nat × Command)
  | (.metaEvent _ .setTempo data, t) => some (t, .tempo (tempoByte (bigEndian (data.take 3)) f))
  | _ => none

/-- A program change as a timed instrument command. -/
def instrumentOf : Message × Nat → Option (Nat × Command)
  | (.midiEvent _ (.programChange ch p), t) => some (t, .setInstrument (instrumentFor ch p))
  | _ => none

/-- Is this a change of instrument? -/
def isInstrument : Command → Bool
  | .setInstrument _ => true
  | _ => false

/-- Is this a change of tempo? -/
def isTempo : Command → Bool
  | .tempo _ => true
  | _ => false

/-- A change that happens at the latest start or end of a note or program change before its message, less than a unit more or less; `k` as for `Near`. -/
def MadeNear (p k : Nat) (o : Nat × Command) (c : Change) : Prop :=
  o.2 = c.command ∧ o.1 * p < 24 * c.since + p + k ∧ 24 * c.since < o.1 * p + p + k

end M2S.Timing
