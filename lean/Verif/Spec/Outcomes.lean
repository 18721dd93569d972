import Verif.Cli
/-
How a run of the tool can end.
-/
namespace M2S

/-- A computation comes to an end: with a result, with a panic, or with one of the given messages. -/
def Ends {α : Type} (allowed : List Err) (r : Res α) : Prop :=
  (∃ a, r = .ok a) ∨ r = .error .panic ∨ ∃ e ∈ allowed, r = .error (.err e)

/-- The messages that the conversion of a MIDI file can end with: the file is not there, it is no MIDI file, its notes do not fit on eight voices. -/
def midiMessages : List Err := [.io, .conversion, .couldntFit]

/-- The messages that a subcommand can end with. -/
def Cmd.messages : Cmd → List Err
  | .dumpMidi _ => []
  | .midi2json _ _ => midiMessages
  | .genFakeRom _ _ _ => [.badNumber, .io]
  | _ => [.badNumber, .io, .conversion, .couldntFit, .noBaseChunk, .doesNotFit]

end M2S
