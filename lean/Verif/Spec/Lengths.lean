import Verif.Spec.Sound
/-
How long notes last.
-/
namespace M2S.MidiSpec
open Timing Nspc

/-- A heard note with its length: the note and its ties are pieces; `last` is when the last piece starts, `stop` when it is over, `sus` the sustain the note was struck with. A note is released in
its last piece, earlier or later depending on the sustain (`release`). -/
structure Tone where
  sound : Sound
  last : Nat
  stop : Nat
  sus : UInt8
deriving DecidableEq, Repr

/-- Hearing one event: the time, the settings and the notes so far, latest first. -/
def hear : Nat × Settings × List Tone → Ev → Nat × Settings × List Tone
  | (t, s, l), .note p d v u => (t + d.toNat, s, ⟨⟨t, p, v, s⟩, t, t + d.toNat, u⟩ :: l)
  | (t, s, l), .perc p d v u => (t + d.toNat, s, ⟨⟨t, p, v, s⟩, t, t + d.toNat, u⟩ :: l)
  | (t, s, x :: l), .tie d => (t + d.toNat, s, { x with last := t, stop := t + d.toNat } :: l)
  | (t, s, []), .tie d => (t + d.toNat, s, [])
  | (t, s, l), .rest d => (t + d.toNat, s, l)
  | (t, s, l), .cmd op args => (t, setByOp s op args, l)

/-- The notes heard in a channel, with their lengths; times in units of 1/24 beat. -/
def heardTones (l : List Ev) : List Tone := (l.foldl hear (0, (none, none), [])).2.2.reverse

/-- When the engine releases a note, if it plays the fraction `gate s` of the last piece of a note of sustain `s`. -/
def release (gate : Nat → ℚ) (x : Tone) : ℚ := x.last + gate x.sus.toNat * (x.stop - x.last)

/-- A gate table in steps of eighths, as the converter assumes: sustain `s` stands for a fraction from `s` to `s + 1` eighths. -/
def Eighths (gate : Nat → ℚ) : Prop := ∀ s : Nat, s ≤ 7 → (s : ℚ) / 8 ≤ gate s ∧ gate s ≤ (s + 1) / 8

/-- The tone's pieces and sustain stand for an end at `stop`: it lies in the last piece, `sus` eighths into it; for sustain 7, seven eighths or more. -/
structure Rings (x : Tone) (stop : Nat) : Prop where
  after : x.last ≤ stop
  before : stop ≤ x.stop
  sustain : x.sus.toNat ≤ 7
  part : 8 * (stop - x.last) = x.sus.toNat * (x.stop - x.last) ∨ x.sus = 7 ∧ 7 * (x.stop - x.last) ≤ 8 * (stop - x.last)

/-- When the note that `a` starts is over: when its key is next mentioned. -/
def endOf (l : List (Message × Nat)) (a : Message × Nat) : Option Nat := ((l.filter fun m => noteOf m.1 = noteOf a.1 ∧ a.2 < m.2).map (·.2)).min?

/-- What a file asks for, with the ends of the notes; `set` as in `fileSounds`. -/
def fileTones (set : Message × Nat → Settings) (l : List (Message × Nat)) : List (Sound × Option Nat) :=
  l.filterMap fun m => (soundOf (set (drum m.1, m.2)) (drum m.1, m.2)).map fun x => (x, endOf l m)

end M2S.MidiSpec
