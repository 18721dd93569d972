import Verif.Spec.Midi
import Verif.Command
/-
Files that agree up to some time.
-/
namespace M2S.MidiSpec

/-- The messages before the time `T`. -/
def earlier (T : Nat) (l : List (Message × Nat)) : List (Message × Nat) := l.filter fun m => m.2 < T

/-- The track `t` begins like `t0`: with the commands of `t0`, of which only the last can differ, and only in duration and sustain. -/
structure BeginsLike (t0 t : List PCmd) : Prop where
  commands : t0.dropLast <+: t
  last : (t0.map fun c => (c.velocity, c.command)) <+: t.map fun c => (c.velocity, c.command)

end M2S.MidiSpec
