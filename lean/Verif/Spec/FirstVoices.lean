import Verif.Spec.Failures
/-
The order of choices of voices for the channels.
-/
namespace M2S.MidiSpec

/-- At the first channel for which the two choices differ, if any, the first choice has the lower voice. -/
def ComesFirst (f g : Fin 16 → Fin 8) : Prop := f = g ∨ ∃ c, f c < g c ∧ ∀ c' < c, f c' = g c'

end M2S.MidiSpec
