import Verif.Spec.Midi
/-
When a channel counts as sounding without overflow checks.
-/
namespace M2S.MidiSpec

/-- At the instant `t` the starts and the ends of notes of channel `c` so far differ in number, and another note message of the channel comes later. -/
abbrev OffBalance (l : List (Message × Nat)) (c : Fin 16) (t : Nat) : Prop :=
  sounding (ofChannel l c) t ≠ 0 ∧ ∃ m ∈ ofChannel l c, (starts m.1 || ends m.1) = true ∧ t < m.2

end M2S.MidiSpec
