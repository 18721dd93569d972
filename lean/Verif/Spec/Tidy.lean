import Verif.Spec.Sane
/-
Files whose notes the converter can play: everything C64 assumes about the music.
-/
namespace M2S.MidiSpec

/-- The note that `a` starts has an end after its start and not after the instant `t`. -/
abbrev EndedBy (l : List (Message × Nat)) (a : Message × Nat) (t : Nat) : Prop :=
  ∃ e ∈ l, ends e.1 = true ∧ noteOf e.1 = noteOf a.1 ∧ a.2 < e.2 ∧ e.2 ≤ t

instance {α : Type} (o : Option α) (p : α → Prop) [DecidablePred p] : Decidable (∃ a ∈ o, p a) := decidable_of_iff (∃ a ∈ o.toList, p a) (by simp)

/-- Notes of channel `c` sound at the instant `t`: more have started than ended, and another note message of the channel comes later. -/
abbrev SoundsOn (l : List (Message × Nat)) (c : Fin 16) (t : Nat) : Prop :=
  0 < sounding (ofChannel l c) t ∧ ∃ m ∈ ofChannel l c, (starts m.1 || ends m.1) = true ∧ t < m.2

/-- The two channels sound at the same time somewhere. -/
abbrev Together (l : List (Message × Nat)) (c c' : Fin 16) : Prop := ∃ x ∈ l, starts x.1 = true ∧ SoundsOn l c x.2 ∧ SoundsOn l c' x.2

/-- The messages belong to different channels that sound at the same time somewhere (and so cannot share a voice). -/
abbrev Elsewhere (l : List (Message × Nat)) (m m' : Message) : Prop := ∃ c ∈ home m, ∃ c' ∈ home m', c ≠ c' ∧ Together l c c'

/-- The note that `a` starts is not in the way of the setting `p`: it has ended, or belongs to another channel that sounds together with that of `p` somewhere. -/
abbrev OutOfTheWay (l : List (Message × Nat)) (p a : Message × Nat) : Prop := EndedBy l a p.2 ∨ Elsewhere l p.1 a.1

/-- A message about a snare drum: note 38 or 40 of channel 10 (number 9). -/
def isSnareMsg (m : Message) : Bool := noteOf m = some (9, 38) || noteOf m = some (9, 40)

/-- A note-on of velocity 0. -/
def isZeroOn : Message → Bool
  | .midiEvent _ (.noteOn _ _ v) => v = 0
  | _ => false

/-- A tidy file: every note is ended; when a channel changes its program, none of its notes sounds, and none of a channel that never sounds together with it (at an instant, ends
of notes come first and starts last); notes are 24 to 95; snare drums are ended by note-off messages, and before they are struck again. -/
structure Tidy (l : List (Message × Nat)) : Prop where
  closed : ∀ a ∈ l, starts a.1 = true → ∃ e ∈ l, ends e.1 = true ∧ noteOf e.1 = noteOf a.1 ∧ a.2 < e.2
  programs : ∀ p ∈ l, (programOf p.1).isSome = true → ∀ a ∈ l, starts a.1 = true → a.2 < p.2 → OutOfTheWay l p a
  range : ∀ m ∈ l, ∀ x ∈ noteOf m.1, 24 ≤ x.2 ∧ x.2 ≤ 95
  snareEnds : ∀ m ∈ l, isSnareMsg m.1 = true → isZeroOn m.1 = false
  snareStarts : ∀ a ∈ l, ∀ b ∈ l, starts a.1 = true → starts b.1 = true → isSnareMsg a.1 = true → noteOf b.1 = noteOf a.1 → a.2 < b.2 → EndedBy l a b.2

/-- The notes of a file: start in ticks and note number, 68 for snare drums. -/
def fileNotes (l : List (Message × Nat)) : List (Nat × UInt8) :=
  l.filterMap fun m => if starts m.1 then (noteOf (drum m.1)).map fun x => (m.2, x.2) else none

end M2S.MidiSpec
