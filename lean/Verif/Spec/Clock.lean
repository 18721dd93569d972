import Mathlib.Data.Rat.Defs
import Mathlib.Algebra.Order.Ring.Rat
import Mathlib.Algebra.Order.Field.Rat
import Mathlib.Algebra.BigOperators.Group.Finset.Basic
import Verif.Spec.Changes
/-
Real time: the engine's clock, written from the engine's documentation, and the time a MIDI file says.
-/
namespace M2S.Timing
open Nspc

/-- What is in force at time `n`, if it is `start` before and changes as in the list (times with new values; of changes at the same time the last one in the list counts). -/
def inForce {α : Type} (start : α) (cs : List (Nat × α)) : Nat → α
  | 0 => ((cs.filter fun c => c.1 = 0).getLast?.map Prod.snd).getD start
  | n + 1 => ((cs.filter fun c => c.1 = n + 1).getLast?.map Prod.snd).getD (inForce start cs n)

/-! The engine. It polls a timer that ticks every 2 ms. At each poll it adds the tempo to an accumulator of eight bits; when that overflows, the next unit of time begins, and
all channels do what they have to do then. Command E7 sets the tempo. -/

/-- Microseconds between two polls. -/
def pollMicros : Nat := 2000

/-- One poll, with the tempo given for every unit: the unit and the accumulator. -/
def poll (tempo : Nat → Nat) (s : Nat × Nat) : Nat × Nat :=
  if s.2 + tempo s.1 < 256 then (s.1, s.2 + tempo s.1) else (s.1 + 1, s.2 + tempo s.1 - 256)

/-- Unit and accumulator after so many polls. The song starts with unit 0; the accumulator may have any value then. -/
def clock (tempo : Nat → Nat) (acc : Nat) : Nat → Nat × Nat
  | 0 => (0, acc)
  | p + 1 => poll tempo (clock tempo acc p)

/-- Unit `n` begins at poll `p`. -/
def Begins (tempo : Nat → Nat) (acc n p : Nat) : Prop := (clock tempo acc p).1 = n ∧ ∀ q < p, (clock tempo acc q).1 < n

/-- The tempo changes heard in a channel: units and tempos. -/
def heardTempos (l : List Ev) : List (Nat × Nat) := (heardChanges 0 l).filterMap fun c => if c.2.1 = 0xe7 then c.2.2.head?.map fun b => (c.1, b.toNat) else none

/-- The tempo changes of the song: in each unit the channels are served in order. -/
def songTempos (evs : List (Option (List Ev))) : List (Nat × Nat) := evs.flatMap fun c => c.elim [] heardTempos

/-- The tempo in each unit of the song, if `start` is the tempo that the previous song left. -/
def engineTempo (start : Nat) (evs : List (Option (List Ev))) : Nat → Nat := inForce start (songTempos evs)

/-! The file. -/

/-- The tempo a message sets, in microseconds per beat, with its time in ticks. -/
def tempoMessage : Message × Nat → Option (Nat × Nat)
  | (.metaEvent _ .setTempo data, t) => some (t, bigEndian (data.take 3))
  | _ => none

/-- The tempo changes of a file in time order. -/
def tempoMap (l : List (Message × Nat)) : List (Nat × Nat) := (l.filterMap tempoMessage).mergeSort fun a b => a.1 ≤ b.1

/-- The time from the start of the file to a tick, in microseconds. Without a tempo there are 120 beats per minute. -/
def fileMicros (l : List (Message × Nat)) (tpb t : Nat) : ℚ := ∑ x ∈ Finset.range t, ((inForce 500000 (tempoMap l) x : Nat) : ℚ) / tpb

/-- How much a list of values varies, beginning at `a`. -/
def variation : ℚ → List ℚ → ℚ
  | _, [] => 0
  | a, b :: l => |b - a| + variation b l

/-- The length of a unit at a tempo, in polls. -/
def unitPolls (tempo : Nat) : ℚ := 256 / tempo

/-- How far the engine may be from the time it should have reached, in microseconds, apart from the precision of the tempos: one poll, two units of the first tempo, and three times the variation of
the length of a unit. -/
def leeway (first : Nat) (tempos : List Nat) : ℚ := pollMicros * (1 + 2 * unitPolls first + 3 * variation (unitPolls first) (tempos.map unitPolls))

/-- A time in polls is a time in the file, up to a part `ε` of it and `room`. -/
def InTime (l : List (Message × Nat)) (tpb : Nat) (ε room : ℚ) (polls tick : Nat) : Prop := |(pollMicros : ℚ) * polls - fileMicros l tpb tick| ≤ ε * fileMicros l tpb tick + room

end M2S.Timing
