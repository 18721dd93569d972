import Verif.Spec.Sane
import Verif.Spec.Polyphony
import Verif.Song
/-
What is left of a file and of a song without the values of velocities, volumes, programs and tempos.
-/
namespace M2S.MidiSpec

/-- A message without the values of velocity, volume (controller 7), program and tempo. Of a velocity only whether it is 0 is left, because a note-on with velocity 0 ends a
note. -/
def outline : Message → Message
  | .midiEvent d (.noteOff ch n _) => .midiEvent d (.noteOff ch n 0)
  | .midiEvent d (.noteOn ch n v) => .midiEvent d (.noteOn ch n (if v = 0 then 0 else 1))
  | .midiEvent d (.controlChange ch c x) => .midiEvent d (.controlChange ch c (if c = 7 then 0 else x))
  | .midiEvent d (.programChange ch _) => .midiEvent d (.programChange ch 0)
  | .metaEvent d .setTempo _ => .metaEvent d .setTempo []
  | m => m

/-- The same with the time of the message. -/
def outlined (m : Message × Nat) : Message × Nat := (outline m.1, m.2)

/-- Files that differ at most in the values of velocities, volumes, programs and tempos. -/
structure SameOutline (a b : List Callback) : Prop where
  base : timeBase a = timeBase b
  messages : (file a).map outlined = (file b).map outlined

end M2S.MidiSpec

namespace M2S.Nspc

/-- A command without velocity, and without the values of tempo, volume and instrument. -/
def outlineCmd (c : PCmd) : PCmd :=
  { c with
    velocity := c.velocity.map fun _ => 0
    command := match c.command with
      | .setInstrument _ => .setInstrument 0
      | .channelVolume _ => .channelVolume 0
      | .tempo _ => .tempo 0
      | d => d }

/-- A song without them. -/
def outlineSong (s : Song) : Song := { s with tracks := s.tracks.map (List.map outlineCmd) }

end M2S.Nspc
