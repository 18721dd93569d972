import Verif.Midi
/-
What a MIDI file says, independent of how the converter processes it: absolute times, destination channels, sounding notes.
-/
namespace M2S.MidiSpec

/-- The delta time of a message. -/
def delta : Message → Nat
  | .metaEvent d _ _ => d
  | .midiEvent d _ => d
  | .sysEx d _ => d
  | .trackChange => 0

/-- A track with absolute times: every message is stamped with the sum of the delta times up to and including its own. -/
def stamp : Nat → List Message → List (Message × Nat)
  | _, [] => []
  | t, m :: ms => (m, t + delta m) :: stamp (t + delta m) ms

/-- All messages of the file, track by track. -/
def fileMessages (tracks : List (List Message)) : List (Message × Nat) := tracks.flatMap (stamp 0)

/-- The channel a message belongs to. -/
def home : Message → Option (Fin 16)
  | .metaEvent _ _ _ => some 0
  | .sysEx _ _ => some 0
  | .trackChange => none
  | .midiEvent _ e => some (match e with
    | .noteOff ch _ _ | .noteOn ch _ _ | .polyphonicKeyPressure ch _ _ | .controlChange ch _ _ | .programChange ch _ | .channelPressure ch _
    | .pitchBendChange ch _ | .unknown ch => ch)

/-- Does the message start a note? -/
def starts : Message → Bool
  | .midiEvent _ (.noteOn _ _ v) => v ≠ 0
  | _ => false

/-- Does the message end a note? A note-on of velocity 0 does. -/
def ends : Message → Bool
  | .midiEvent _ (.noteOff _ _ _) => true
  | .midiEvent _ (.noteOn _ _ v) => v = 0
  | _ => false

/-- Order within an instant: ends of notes, then everything else, then starts of notes. -/
def rank (m : Message) : Nat := if ends m then 0 else if starts m then 2 else 1

/-- `a` may come before `b`. -/
def Before (a b : Message × Nat) : Prop := a.2 < b.2 ∨ (a.2 = b.2 ∧ rank a.1 ≤ rank b.1)

/-- The tracks the parser reported: the messages between the `trackChange` callbacks; the first component are the messages before the first. -/
def split : List Callback → List Message × List (List Message)
  | [] => ([], [])
  | .header _ _ :: cs => split cs
  | .metaEvent d e data :: cs => (.metaEvent d e data :: (split cs).1, (split cs).2)
  | .midiEvent d e :: cs => (.midiEvent d e :: (split cs).1, (split cs).2)
  | .sysExEvent d data :: cs => (.sysEx d data :: (split cs).1, (split cs).2)
  | .trackChange :: cs => ([], (split cs).1 :: (split cs).2)

/-- All messages of a file, stamped, given the parser's callbacks. -/
def file (calls : List Callback) : List (Message × Nat) := fileMessages (split calls).2

/-- Notes started up to and including the instant `t`. -/
def startsBy (l : List (Message × Nat)) (t : Nat) : Nat := l.countP fun m => starts m.1 && m.2 ≤ t

/-- Notes ended up to and including the instant `t`. -/
def endsBy (l : List (Message × Nat)) (t : Nat) : Nat := l.countP fun m => ends m.1 && m.2 ≤ t

/-- The number of notes sounding just after the instant `t`. -/
def sounding (l : List (Message × Nat)) (t : Nat) : Int := startsBy l t - endsBy l t

/-- Consecutive, non-empty intervals from `a` to `b`. -/
def Chain : Nat → List VoiceInterval → Nat → Prop
  | a, [], b => a = b
  | a, i :: is, b => i.start = a ∧ i.start < i.stop ∧ Chain i.stop is b

/-- According to a list of intervals a note sounds at the instant `t`. -/
def SoundsAt (l : List VoiceInterval) (t : Nat) : Prop := ∃ i ∈ l, i.start ≤ t ∧ t < i.stop ∧ 0 < i.voices

/-- The messages of the file that belong to channel `c`, in file order. -/
def ofChannel (l : List (Message × Nat)) (c : Fin 16) : List (Message × Nat) := l.filter fun m => home m.1 = some c

/-- The order in which the events of all channels are to be processed: by time, then rank, then channel number. -/
def MergeOrder (a b : Fin 16 × (Message × Nat)) : Prop :=
  a.2.2 < b.2.2 ∨ (a.2.2 = b.2.2 ∧ (rank a.2.1 < rank b.2.1 ∨ (rank a.2.1 = rank b.2.1 ∧ a.1 ≤ b.1)))

/-- One message on a voice that holds (`true`) or does not hold a note; `none` if a note starts while another is held or ends while none is. -/
def altStep (held : Bool) (m : Message × Nat) : Option Bool :=
  if starts m.1 then (if held then none else some true)
  else if ends m.1 then (if held then some false else none)
  else some held

/-- On the list, starts and ends of notes strictly alternate, beginning with a start. -/
def Alternates (l : List (Message × Nat)) : Prop := (l.foldlM altStep false).isSome

/-- The note message's channel and note number. -/
def noteOf : Message → Option (Fin 16 × UInt8)
  | .midiEvent _ (.noteOn ch n _) => some (ch, n)
  | .midiEvent _ (.noteOff ch n _) => some (ch, n)
  | _ => none

/-- As `altStep`, remembering channel and number of the held note; `ok held stop` says whether the note `held` may be ended by the message `stop`. -/
def holdStep (ok : Fin 16 × UInt8 → Fin 16 × UInt8 → Bool) (held : Option (Fin 16 × UInt8)) (m : Message × Nat) : Option (Option (Fin 16 × UInt8)) :=
  if starts m.1 then (match held with | none => some (noteOf m.1) | some _ => none)
  else if ends m.1 then
    match held, noteOf m.1 with
    | some a, some b => if ok a b then some none else none
    | _, _ => none
  else some held

/-- The note-on a voice gets for a note-on of the file: notes 38 and 40 of channel 10 (number 9) become the snare note 68. -/
def drum : Message → Message
  | .midiEvent d (.noteOn ch n v) => .midiEvent d (.noteOn ch (if ch = 9 ∧ (n = 38 ∨ n = 40) then 68 else n) v)
  | m => m

/-- Set-tempo and system exclusive messages. -/
def isGlobal : Message → Bool
  | .metaEvent _ .setTempo _ => true
  | .sysEx _ _ => true
  | _ => false

/-- Any message that is not a channel message. -/
def isSystem : Message → Bool
  | .midiEvent _ _ => false
  | _ => true

/-- The channel and number of a program change. -/
def programOf : Message → Option (Fin 16 × UInt8)
  | .midiEvent _ (.programChange ch p) => some (ch, p)
  | _ => none

/-- The last program change in a list of messages. -/
def lastProgram (l : List (Message × Nat)) : Option (Fin 16 × UInt8) := (l.filterMap fun m => programOf m.1).getLast?

/-- The program selected by a list of messages at the instant `t`. -/
def programAt (l : List (Message × Nat)) (t : Nat) : Option (Fin 16 × UInt8) := lastProgram (l.filter fun m => m.2 ≤ t)

/-- The message starts a note of channel `ch`. -/
def startsOn (ch : Fin 16) (m : Message) : Bool := starts m ∧ home m = some ch

end M2S.MidiSpec
