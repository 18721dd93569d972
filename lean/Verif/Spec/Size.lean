import Verif.Messages
/-
How many bytes of a track a message of the MIDI file can account for (C88).
-/
namespace M2S.MidiSpec

/-- Does this message switch portamento on? -/
def glideOn : Message → Bool
  | .midiEvent _ (.controlChange _ control data) => control = 65 ∧ data ≥ 64
  | _ => false

/-- Bytes of a track per event of its voice, not counting the pieces of 127 units of long notes and rests. A note: at its end the note byte with length and velocity (3); at its start
the rest before it (2) and, where portamento is used, a slide (4). A program change: the rest before it (2) and the instrument (2). -/
def eventBytes (glide : Bool) : Message → Nat
  | .metaEvent _ .setTempo _ => 2
  | .midiEvent _ (.noteOff _ _ _) => 3
  | .midiEvent _ (.noteOn _ _ _) => if glide then 6 else 2
  | .midiEvent _ (.controlChange _ control _) => if control = 7 then 2 else 0
  | .midiEvent _ (.programChange _ _) => 4
  | _ => 0

/-- Bytes of a song per message of the file. A note-on may end a sounding note (3), bring along its channel's volume and program (6) and, on the drum channel, the
drum's program (4), besides what it takes itself. Volume and program changes may be sent to all eight voices. -/
def messageBytes (glide : Bool) : Message → Nat
  | .midiEvent _ (.noteOn ch _ velocity) => if velocity = 0 then 3 else 9 + (if ch = 9 then 4 else 0) + if glide then 6 else 2
  | .midiEvent _ (.controlChange _ control _) => if control = 7 then 16 else 0
  | .midiEvent _ (.programChange _ _) => 32
  | m => eventBytes glide m

/-- Does the file switch portamento on anywhere? -/
def usesGlide (l : List (Message × Nat)) : Bool := l.any fun m => glideOn m.1

/-- The bytes the messages of a file account for. -/
def fileBytes (l : List (Message × Nat)) : Nat := (l.map fun m => messageBytes (usesGlide l) m.1).sum

end M2S.MidiSpec
