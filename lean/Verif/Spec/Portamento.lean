import Verif.Spec.Timing
import Verif.Spec.Playback
/-
Notes reached by a pitch slide. The engine has no command for a note that the previous note glides to: the converter emits a pitch slide to the new pitch and
continues the previous note with a tie.
-/
namespace M2S.Timing
open Nspc

/-- A command list with gliding notes written as notes: a tie that directly follows a pitch slide is a note of the slide's target pitch, and slides are left out. The first
argument is the target of the slide directly before. -/
def unglide : Option UInt8 → List PCmd → List PCmd
  | _, [] => []
  | o, c :: cs =>
    match c.command with
    | .pitchSlide _ _ p => unglide (some p) cs
    | .tie => (match o with
      | some p => { c with command := .note p }
      | none => c) :: unglide none cs
    | _ => c :: unglide none cs

/-- Start times and pitches of the notes of a command list, struck or reached by a slide. -/
def pitchOnsets (cs : List PCmd) : List (Nat × UInt8) := noteOnsets (unglide none cs)

/-- Start times and pitches of the notes heard in a channel, struck or reached by a slide (command F9). -/
def heardPitches : Nat → Option UInt8 → List Ev → List (Nat × UInt8)
  | _, _, [] => []
  | t, _, .note n d _ _ :: l => (t, n) :: heardPitches (t + d.toNat) none l
  | t, _, .perc n d _ _ :: l => (t, n) :: heardPitches (t + d.toNat) none l
  | t, some p, .tie d :: l => (t, p) :: heardPitches (t + d.toNat) none l
  | t, none, .tie d :: l => heardPitches (t + d.toNat) none l
  | t, _, .rest d :: l => heardPitches (t + d.toNat) none l
  | t, _, .cmd op args :: l => heardPitches t (match op, args with
    | 0xf9, [_, _, p] => some p
    | _, _ => none) l

/-- Every note is ended by a message of the same note number. The first argument is the note number of the open note. -/
def endsMatch : Option UInt8 → List (Message × Nat) → Bool
  | _, [] => true
  | o, (m, _) :: evs =>
    match m with
    | .midiEvent _ (.noteOn _ n _) => endsMatch (some n) evs
    | .midiEvent _ (.noteOff _ n _) => (o = none || o = some n) && endsMatch none evs
    | _ => endsMatch o evs

end M2S.Timing
