import Verif.Messages
import Verif.Command
/-
What it means for a command list to take time, independent of how the converter makes it.
A unit is 1/24 beat; a tick is `1/ticksPerBeat` beat.
-/
namespace M2S.Timing

/-- The number of units one command takes. -/
def units (c : PCmd) : Nat := (c.duration.map UInt8.toNat).getD 0

/-- The number of units a command list takes. -/
def total (cs : List PCmd) : Nat := (cs.map units).sum

/-- When each command other than a rest starts, in units. -/
def onsets : Nat → List PCmd → List (Nat × Command)
  | _, [] => []
  | t, c :: cs => (if c.command = .rest then [] else [(t, c.command)]) ++ onsets (t + units c) cs

/-- A sounding note: start and end in units, pitch byte, velocity. -/
structure Span where
  start : Nat
  stop : Nat
  pitch : UInt8
  velocity : Option UInt8
deriving DecidableEq, Repr

/-- Listening to one command: time so far and the notes heard so far, latest first. A note starts a new span, a tie prolongs the latest. -/
def listen (s : Nat × List Span) (c : PCmd) : Nat × List Span :=
  let t := s.1 + units c
  match c.command, s.2 with
  | .note p, l => (t, ⟨s.1, t, p, c.velocity⟩ :: l)
  | .tie, x :: l => (t, { x with stop := t } :: l)
  | _, l => (t, l)

/-- The notes heard in a command list, in order. -/
def spans (cs : List PCmd) : List Span := (cs.foldl listen (0, [])).2.reverse

/-- A note of a voice's MIDI events: on and off time in ticks, note number and velocity. -/
structure MidiNote where
  on : Nat
  off : Nat
  note : UInt8
  velocity : UInt8
deriving DecidableEq, Repr

/-- The notes of a voice: every note-on with the next note-off, given the note-on still open. -/
def midiNotes : Option (Nat × UInt8) → List (Message × Nat) → List MidiNote
  | _, [] => []
  | o, (.midiEvent _ (.noteOn _ _ v), t) :: evs => midiNotes (o.or (some (t, v))) evs
  | some (on, v), (.midiEvent _ (.noteOff _ n _), t) :: evs => ⟨on, t, n, v⟩ :: midiNotes none evs
  | o, _ :: evs => midiNotes o evs

/-- Ticks (times 24) that one group of commands can lose by integer division. -/
def slack (p : Nat) : Nat := if p % 24 = 0 then 0 else 23

/-- The played note against the MIDI note: `k` is the allowance for lost ticks (times 24), 0 when the resolution is a multiple of 24. -/
structure Near (p k : Nat) (x : Span) (n : MidiNote) : Prop where
  startLate : x.start * p < 24 * n.on + p + k
  startEarly : 24 * n.on < x.start * p + p + k
  stopLate : x.stop * p < 24 * n.off + p + k
  stopEarly : 24 * n.off ≤ x.stop * p
  pitch : x.pitch = n.note + 0x68
  velocity : x.velocity = some (n.velocity / 8)

/-- The pitch of a timed command if it is a note. -/
def noteAt : Nat × Command → Option (Nat × UInt8)
  | (t, .note p) => some (t, p)
  | _ => none

/-- Start times and pitches of the notes of a command list. -/
def noteOnsets (cs : List PCmd) : List (Nat × UInt8) := (onsets 0 cs).filterMap noteAt

/-- Lengths below this number of ticks are converted to units exactly although `f32` is used: 349525 ticks, and up to 24 times as many if the resolution shares
factors with 24 (8388600 ticks, more than an hour at 200 beats per minute and 480 ticks per beat). -/
def exactTicks (tpb : Nat) : Nat := 349525 * Nat.gcd 24 tpb

/-- Well-formed events of one voice: times of channel events do not decrease and are at most `last`; notes alternate on/off; every note is at least one unit
long; data bytes are in the MIDI range; tempo data has three bytes; no note, and no time without a note or program change, is longer than `gap`
ticks. `now` is the time of the previous channel event, `adv` that of the previous note or program change, `o` that of the open note-on. -/
def voiceOk (tpb gap last : Nat) : Nat → Nat → Option Nat → List (Message × Nat) → Bool
  | _, adv, _, [] => last - adv ≤ gap
  | now, adv, o, (m, t) :: evs =>
    match m with
    | .midiEvent _ e => now ≤ t && t ≤ last &&
      match e with
      | .noteOn _ n v => o.isNone && n ≤ 127 && v ≤ 127 && t - adv ≤ gap && voiceOk tpb gap last t t (some t) evs
      | .noteOff _ n _ =>
        n ≤ 127 && (match o with
          | some on => tpb ≤ 24 * (t - on) && t - on ≤ gap && voiceOk tpb gap last t t none evs
          | none => voiceOk tpb gap last t adv none evs)
      | .controlChange _ _ d => d ≤ 127 && voiceOk tpb gap last t adv o evs
      | .programChange _ p => p ≤ 127 && t - adv ≤ gap && voiceOk tpb gap last t t o evs
      | _ => voiceOk tpb gap last t adv o evs
    | .metaEvent _ .setTempo data => data.length ≥ 3 && voiceOk tpb gap last now adv o evs
    | _ => voiceOk tpb gap last now adv o evs

/-- No program change happens while a note is sounding. -/
def programsBetweenNotes : Bool → List (Message × Nat) → Bool
  | _, [] => true
  | sounding, (m, _) :: evs =>
    match m with
    | .midiEvent _ (.noteOn _ _ _) => programsBetweenNotes true evs
    | .midiEvent _ (.noteOff _ _ _) => programsBetweenNotes false evs
    | .midiEvent _ (.programChange _ _) => !sounding && programsBetweenNotes sounding evs
    | _ => programsBetweenNotes sounding evs

/-- Portamento is never switched on. -/
def noPortamento (evs : List (Message × Nat)) : Bool :=
  evs.all fun (m, _) => match m with
    | .midiEvent _ (.controlChange _ 65 d) => d < 64
    | _ => true

/-- `b` is `a` with some notes followed by a rest turned into one longer note with a shorter sustain: the durations add up, and the sustain is the
part of the note that sounds, in eighths; sustain 7 also stands for more than seven eighths. -/
inductive Fused : List PCmd → List PCmd → Prop
  | nil : Fused [] []
  | keep (c : PCmd) {a b : List PCmd} : Fused a b → Fused (c :: a) (c :: b)
  | fuse (p : UInt8) (dn dr s dt : UInt8) (vn : Option UInt8) (sn vr sr : Option UInt8) {a b : List PCmd} :
      dt.toNat = dn.toNat + dr.toNat → s.toNat ≤ 7 →
      0 < dt.toNat → 8 * dn.toNat = s.toNat * dt.toNat ∨ s = 7 ∧ 7 * dt.toNat ≤ 8 * dn.toNat →
      Fused a b → Fused (⟨some dn, vn, sn, .note p⟩ :: ⟨some dr, vr, sr, .rest⟩ :: a) (⟨some dt, vn, some s, .note p⟩ :: b)

end M2S.Timing
