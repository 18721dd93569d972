import Verif.Spec.Strike
import Verif.Spec.Tidy
/-
Notes with all that is heard of them: start, pitch, loudness, instrument and volume.
-/
namespace M2S.MidiSpec
open Timing Nspc

structure Sound where
  time : Nat
  pitch : UInt8
  velocity : UInt8
  /-- Instrument and volume. -/
  settings : Settings
deriving DecidableEq, Repr

/-- What is heard in a channel; times in units of 1/24 beat. -/
def heardSounds : Nat → Settings → List Ev → List Sound
  | _, _, [] => []
  | t, s, .note p d v _ :: l => ⟨t, p, v, s⟩ :: heardSounds (t + d.toNat) s l
  | t, s, .perc p d v _ :: l => ⟨t, p, v, s⟩ :: heardSounds (t + d.toNat) s l
  | t, s, .tie d :: l => heardSounds (t + d.toNat) s l
  | t, s, .rest d :: l => heardSounds (t + d.toNat) s l
  | t, s, .cmd op args :: l => heardSounds t (setByOp s op args) l

/-- The sound of a message that starts a note, played with settings `s`; times in ticks. -/
def soundOf (s : Settings) : Message × Nat → Option Sound
  | (.midiEvent _ (.noteOn _ n v), t) => if v = 0 then none else some ⟨t, n + 0x68, v / 8, s⟩
  | _ => none

/-- What a file asks for, if `set` says with which settings each note is played; snare drums have note number 68. -/
def fileSounds (set : Message × Nat → Settings) (l : List (Message × Nat)) : List Sound :=
  l.filterMap fun m => soundOf (set (drum m.1, m.2)) (drum m.1, m.2)

/-- The instrument of a program change. -/
def instrumentOfProgram (p : Fin 16 × UInt8) : UInt8 := instrumentFor p.1 p.2

/-- What a voice asks for: each note with the settings made before it. -/
def voiceSounds : Settings → List (Message × Nat) → List Sound
  | _, [] => []
  | s, m :: l => (soundOf s m).toList ++ voiceSounds (setByEvent s m.1) l

end M2S.MidiSpec
