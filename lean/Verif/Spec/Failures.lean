import Verif.Spec.Polyphony
import Verif.Spec.ReadReport
/-
The ways in which reading a MIDI file fails.
-/
namespace M2S.MidiSpec

/-- On some channel more notes have been ended, at some instant, than were started before it. (A note-on with velocity 0 ends a note.) -/
def StrayEnd (l : List (Message × Nat)) : Prop :=
  ∃ c t, ((ofChannel l c).countP fun m => starts m.1 && m.2 < t) < endsBy (ofChannel l c) t

/-- A choice of a voice for every channel such that two channels with the same voice never sound at the same time. -/
def Separates (l : List (Message × Nat)) (f : Fin 16 → Fin 8) : Prop :=
  ∀ c c', c ≠ c' → f c = f c' → ∀ t, ¬ (SoundsOn l c t ∧ SoundsOn l c' t)

end M2S.MidiSpec
