import Verif.Spec.Polyphony
import Verif.Spec.Tidy
import Verif.Spec.Volume
import Verif.Spec.Sound
import Verif.Spec.Lengths
/-
Files in which instruments and volumes are set as the converter can follow.
-/
namespace M2S.MidiSpec
open Timing

/-- The message selects a program or sets a volume. -/
def isSetting (m : Message) : Bool := (programOf m).isSome || (volumeOf m).isSome

/-- What C73 assumes about channels, instruments and volumes. -/
structure Orchestra (l : List (Message × Nat)) : Prop where
  /-- Any two channels that play sound at the same time somewhere. -/
  together : ∀ c ∈ playing l, ∀ c' ∈ playing l, c ≠ c' → Together l c c'
  /-- Only channels that play select programs or set volumes. -/
  silent : ∀ m ∈ l, isSetting m.1 = true → ∃ c ∈ playing l, home m.1 = some c
  /-- A channel that plays chords selects a program and a volume, and does so before its notes only. -/
  chords : ∀ c, Chords l c → (∃ m ∈ l, home m.1 = some c ∧ programOf m.1 ≠ none) ∧ (∃ m ∈ l, home m.1 = some c ∧ volumeOf m.1 ≠ none) ∧
    ∀ m ∈ l, home m.1 = some c → isSetting m.1 = true → ∀ a ∈ l, home a.1 = some c → starts a.1 = true → m.2 ≤ a.2
  /-- The drum channel selects no programs and does not play the number used for snares. -/
  drums : ∀ m ∈ l, home m.1 = some 9 → programOf m.1 = none ∧ noteOf m.1 ≠ some (9, 68)
  /-- When a channel sets its volume, none of its notes sounds (at an instant, ends of notes come first and starts last). -/
  volumes : ∀ p ∈ l, (volumeOf p.1).isSome = true → ∀ a ∈ l, starts a.1 = true → home a.1 = home p.1 → a.2 < p.2 → EndedBy l a p.2

/-- What `f` reads from the messages of channel `c` at the instant `t`: the last in the file of those that are latest up to `t`. -/
def settingAt (f : Message → Option (Fin 16 × UInt8)) (l : List (Message × Nat)) (c : Fin 16) (t : Nat) : Option (Fin 16 × UInt8) :=
  let past := l.filter fun m => home m.1 = some c ∧ (f m.1).isSome ∧ m.2 ≤ t
  ((past.filter fun m => m.2 = (past.map (·.2)).foldr max 0).filterMap fun m => f m.1).getLast?

/-- The instrument a note of a file should have: for drums 19 for snares and 12 otherwise, else the one of its channel's program. -/
def fileInstrument (l : List (Message × Nat)) (m : Message × Nat) : Option UInt8 :=
  match noteOf m.1 with
  | some (ch, n) => if ch = 9 then some (if n = 68 then 19 else 12) else (settingAt programOf l ch m.2).map instrumentOfProgram
  | none => none

/-- The volume a note of a file should have: twice the value its channel has set, or 200. -/
def fileVolume (l : List (Message × Nat)) (m : Message × Nat) : Option UInt8 :=
  match noteOf m.1 with
  | some (ch, _) => ((settingAt volumeOf l ch m.2).map fun p => 2 * p.2).or (some 200)
  | none => none

/-- No rest of at most 127 units makes a fused note of more than 127 units out of a note of `a` units: it would have to last a number of eighths of the whole, or seven eighths at least. -/
def FuseSafe (a : Nat) : Prop := a < 128 → ∀ r < 128, 128 ≤ a + r → ¬ (a + r ∣ 8 * a) ∧ 8 * a < 7 * (a + r)

instance (a : Nat) : Decidable (FuseSafe a) := by unfold FuseSafe; infer_instance

/-- The lengths a note can get, in units: its end is rounded up, its start up or down. -/
def unitLengths (p on off : Nat) : List Nat := [(24 * off + p - 1) / p - 24 * on / p, (24 * off + p - 1) / p - (24 * on + p - 1) / p]

/-- No note of the file can be fused with a rest into one that is too long (C07). -/
def SafeLengths (p : Nat) (l : List (Message × Nat)) : Prop :=
  ∀ a ∈ l, starts a.1 = true → ∀ off ∈ endOf l a, ∀ n ∈ unitLengths p a.2 off, FuseSafe n

instance (p : Nat) (l : List (Message × Nat)) : Decidable (SafeLengths p l) := by unfold SafeLengths; infer_instance

/-- Lengths that are safe (as well as all from 128): a quarter has 24 units. -/
example : ((List.range 128).filter fun a => FuseSafe a) = List.range 16 ++ List.range' 19 13 ++ List.range' 43 5 ++ [49, 50, 52, 53, 55, 56, 58, 59, 61, 62] := by decide +kernel

end M2S.MidiSpec
