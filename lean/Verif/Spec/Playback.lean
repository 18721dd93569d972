import Verif.Spec.Engine
import Verif.Spec.Loops
import Verif.Song
/-
What a song should sound like, channel by channel.
-/
namespace M2S.Engine
open Nspc

/-- Addresses for events that contain none. -/
def noAddr : Nat → UInt8 × UInt8 := fun _ => (0, 0)

/-- What a track should sound like: the commands of its preamble, then its commands with the subroutine calls carried out. An empty track is silent. -/
def trackSound (s : Song) (t : Nat) : Option (List Ev) :=
  match s.tracks[t]? with
  | none => none
  | some tr =>
    if tr = [] then none
    else some ((preambleFor s.parts t).map (fun c => .cmd (encodeCmd noAddr c).1 (encodeCmd noAddr c).2) ++ intended noAddr (expand s.tracks tr) 0 13 7)

/-- What the eight channels of a part should sound like. -/
def partSound (s : Song) (part : List Nat) : List (Option (List Ev)) := (List.range 8).map fun k => part[k]?.bind (trackSound s)

/-- Hide velocities and sustains. -/
def timingOf (l : List (Option (List Ev))) : List (Option (List Ev)) := l.map (Option.map (List.map Ev.timing))

/-- A song that can be played: its tracks can be encoded, its parts consist of tracks it has, and its subroutine calls are like those of the optimiser: they reset the duration, have a count, and
call a non-empty track without calls that belongs to no part. -/
structure Playable (s : Song) : Prop where
  enc : ∀ tr ∈ s.tracks, Encodable 0xff tr
  calls : ∀ tr ∈ s.tracks, ∀ c ∈ tr, ∀ t k, c.command = .callLoop t k → c.duration = some 0 ∧ 1 ≤ k.toNat ∧
    (∃ body, s.tracks[t]? = some body ∧ body ≠ [] ∧ ∀ b ∈ body, isCall b.command = false) ∧ ∀ p ∈ s.parts, t ∉ p
  parts : ∀ p ∈ s.parts, ∀ t ∈ p, t < s.tracks.length

/-- The values in a song are in the engine's ranges: durations 1 to 7F, velocities up to 15, notes 80 to C7. -/
structure InRange (s : Song) : Prop where
  dur : ∀ tr ∈ s.tracks, ∀ c ∈ tr, isCall c.command = false → ∀ d ∈ c.duration, 0 < d ∧ d < 0x80
  vel : ∀ tr ∈ s.tracks, ∀ c ∈ tr, ∀ v ∈ c.velocity, v < 0x10
  note : ∀ tr ∈ s.tracks, ∀ c ∈ tr, ∀ n, c.command = .note n → 0x80 ≤ n ∧ n < 0xc8

/-- Start times (in units) and bytes of the notes heard in a channel, from time `t`. -/
def heardNotes : Nat → List Ev → List (Nat × UInt8)
  | _, [] => []
  | t, .note n d _ _ :: l => (t, n) :: heardNotes (t + d.toNat) l
  | t, .perc n d _ _ :: l => (t, n) :: heardNotes (t + d.toNat) l
  | t, .tie d :: l => heardNotes (t + d.toNat) l
  | t, .rest d :: l => heardNotes (t + d.toNat) l
  | t, .cmd _ _ :: l => heardNotes t l

/-- How long (in units) what is heard in a channel takes. -/
def heardTime : List Ev → Nat
  | [] => 0
  | .note _ d _ _ :: l => d.toNat + heardTime l
  | .perc _ d _ _ :: l => d.toNat + heardTime l
  | .tie d :: l => d.toNat + heardTime l
  | .rest d :: l => d.toNat + heardTime l
  | .cmd _ _ :: l => heardTime l

end M2S.Engine
