import Verif.Spec.Midi
/-
Channel volumes: controller 7.
-/
namespace M2S.MidiSpec

/-- Channel and value, if the message sets the volume of a channel. -/
def volumeOf : Message → Option (Fin 16 × UInt8)
  | .midiEvent _ (.controlChange ch 7 x) => some (ch, x)
  | _ => none

/-- The last volume set. -/
def lastVolume (l : List (Message × Nat)) : Option (Fin 16 × UInt8) := (l.filterMap fun m => volumeOf m.1).getLast?

/-- The last volume set up to time `t`. -/
def volumeAt (l : List (Message × Nat)) (t : Nat) : Option (Fin 16 × UInt8) := lastVolume (l.filter fun m => m.2 ≤ t)

end M2S.MidiSpec
