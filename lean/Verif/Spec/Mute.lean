import Verif.Spec.Layout
import Verif.Spec.Failures
/-
A file with some of its channels muted.
-/
namespace M2S.MidiSpec

/-- System messages, and messages of the channels that `on` selects. -/
def audible (on : Fin 16 → Bool) (m : Message) : Bool := isSystem m || (home m).any on

/-- The file with the channels muted that `on` does not select: their messages are left out, and all other messages come at their old times. -/
def muted (on : Fin 16 → Bool) (calls : List Callback) : List Callback := fileWithout (audible on) calls

end M2S.MidiSpec
