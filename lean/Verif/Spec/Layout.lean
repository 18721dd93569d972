import Verif.Spec.Polyphony
/-
What of a MIDI file matters for the song: the music in it, not how it is laid out in tracks and not what the converter has no use for.
-/
namespace M2S.MidiSpec

/-- What of a message matters: notes, program changes, the four controllers for volume and portamento, and tempo (three bytes); of these neither the delta time nor
the velocity of a note-off. -/
def music : Message → Option Message
  | .midiEvent _ (.noteOff ch n _) => some (.midiEvent 0 (.noteOff ch n 0))
  | .midiEvent _ (.noteOn ch n v) => some (.midiEvent 0 (.noteOn ch n v))
  | .midiEvent _ (.programChange ch p) => some (.midiEvent 0 (.programChange ch p))
  | .midiEvent _ (.controlChange ch c d) => if c = 5 ∨ c = 7 ∨ c = 37 ∨ c = 65 then some (.midiEvent 0 (.controlChange ch c d)) else none
  | .metaEvent _ .setTempo data => some (.metaEvent 0 .setTempo (data.take 3))
  | _ => none

/-- The music in a list of messages. -/
def musicOf (l : List (Message × Nat)) : List (Message × Nat) := l.filterMap fun m => (music m.1).map (·, m.2)

/-- The time of the last channel message (of any kind, also of those that do not matter otherwise). -/
def lastEvent (l : List (Message × Nat)) : Nat := ((l.filter fun m => !isSystem m.1).map (·.2)).foldr max 0

/-- Two files with the same music: same resolution, same length, and on every channel at every instant the same ends of notes, the same other messages that matter and
the same starts of notes, each in the same order. -/
structure SameMusic (a b : List Callback) : Prop where
  base : timeBase a = timeBase b
  last : lastEvent (file a) = lastEvent (file b)
  same : ∀ c t r, musicOf ((ofChannel (file a) c).filter fun m => m.2 = t ∧ rank m.1 = r) = musicOf ((ofChannel (file b) c).filter fun m => m.2 = t ∧ rank m.1 = r)

/-- A message with another delta time. -/
def withDelta (d : Nat) : Message → Message
  | .metaEvent _ e data => .metaEvent d e data
  | .midiEvent _ e => .midiEvent d e
  | .sysEx _ data => .sysEx d data
  | .trackChange => .trackChange

/-- A track whose messages come at the given times (which must not decrease), from the instant `t` on. -/
def retime : Nat → List (Message × Nat) → List Message
  | _, [] => []
  | t, m :: ms => withDelta (m.2 - t) m.1 :: retime m.2 ms

/-- The callback for a message. -/
def callOf : Message → Callback
  | .metaEvent d e data => .metaEvent d e data
  | .midiEvent d e => .midiEvent d e
  | .sysEx d data => .sysExEvent d data
  | .trackChange => .trackChange

/-- A file made of tracks. -/
def fileOf (base : Nat) (tracks : List (List Message)) : List Callback := .header 1 base :: tracks.flatMap fun t => .trackChange :: t.map callOf

/-- The messages in the order of their times. -/
def byTime (l : List (Message × Nat)) : List (Message × Nat) := l.insertionSort fun a b => a.2 ≤ b.2

/-- The same file with sixteen tracks: one for each channel (tempo and other system messages with the first). -/
def perChannel (calls : List Callback) : List Callback :=
  fileOf (timeBase calls) ((List.finRange 16).map fun c => retime 0 (byTime (ofChannel (file calls) c)))

/-- A track without the messages that `keep` rejects; the remaining messages come at their old times. -/
def without (keep : Message → Bool) (track : List Message) : List Message := retime 0 ((stamp 0 track).filter fun m => keep m.1)

/-- A file without the messages that `keep` rejects. -/
def fileWithout (keep : Message → Bool) (calls : List Callback) : List Callback := fileOf (timeBase calls) ((split calls).2.map (without keep))

/-- Whether a track has a message of the given rank that matters for a channel at an instant. -/
def hasAt (c : Fin 16) (t r : Nat) (track : List Message) : Bool := (stamp 0 track).any fun m => home m.1 = some c && m.2 = t && rank m.1 = r && (music m.1).isSome

/-- No two tracks compete: at most one of them has ends of notes for a channel at an instant, and likewise for starts of notes and for other messages that matter. -/
def TracksApart (tracks : List (List Message)) : Prop := ∀ c t r, (tracks.filter (hasAt c t r)).length ≤ 1

end M2S.MidiSpec
