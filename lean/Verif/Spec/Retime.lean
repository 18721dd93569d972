import Verif.Spec.Layout
/-
A file whose messages come at other times, in the same order.
-/
namespace M2S.MidiSpec

/-- A message moved to another time. -/
def moved (τ : Nat → Nat) (m : Message × Nat) : Message × Nat := (m.1, τ m.2)

/-- A message moved to another time, without the delta time it stores (which is its distance from the message before it in its track). -/
def bare (τ : Nat → Nat) (m : Message × Nat) : Message × Nat := (withDelta 0 m.1, τ m.2)

/-- The file with every message moved from its time `t` to `τ t`. -/
def retimed (τ : Nat → Nat) (calls : List Callback) : List Callback :=
  fileOf (timeBase calls) ((split calls).2.map fun track => retime 0 ((stamp 0 track).map (moved τ)))

end M2S.MidiSpec
