import Verif.Spec.Sane
/-
The clock of a converted voice, in whole numbers: where the notes of a voice start and end once they are moved to the grid of 1/24 beats.
-/
namespace M2S.Timing

/-- The last point of the grid laid at `e` that is not after `t` (`e` itself if `t` is before `e`), in ticks rounded down. -/
def gridDown (p e t : Nat) : Nat := e + 24 * (t - e) / p * p / 24

/-- The first point of the grid laid at `s` that is not before `t`, in ticks rounded down. -/
def gridUp (p s t : Nat) : Nat := s + (24 * (t - s) + p - 1) / p * p / 24

/-- The clock, and the start of the note that sounds, after an event: a note starts at the clock, which has been moved down to the grid; the end of a note moves the clock up
to the grid laid at the note's start. -/
def clockStep (p : Nat) (k : Nat × Option Nat) (ev : Message × Nat) : Nat × Option Nat :=
  match ev with
  | (.midiEvent _ (.noteOn _ _ _), t) => (gridDown p k.1 t, some (gridDown p k.1 t))
  | (.midiEvent _ (.noteOff _ _ _), t) =>
    match k.2 with
    | some s => (gridUp p s t, none)
    | none => k
  | (.midiEvent _ (.programChange _ _), t) => (gridDown p k.1 t, k.2)
  | _ => k

/-- The clock after some events of a voice at `p` ticks per beat. -/
def clockOf (p : Nat) (evs : List (Message × Nat)) : Nat × Option Nat := evs.foldl (clockStep p) (0, none)

/-- A note is started while another one sounds. -/
def Clash (p : Nat) (evs : List (Message × Nat)) : Prop :=
  ∃ pre d c n v t post, evs = pre ++ (.midiEvent d (.noteOn c n v), t) :: post ∧ (clockOf p pre).2.isSome

/-- A note ends before the point of the grid at which it starts. -/
def Premature (p : Nat) (evs : List (Message × Nat)) : Prop :=
  ∃ pre d c n v t post s, evs = pre ++ (.midiEvent d (.noteOff c n v), t) :: post ∧ (clockOf p pre).2 = some s ∧ t < s

end M2S.Timing
