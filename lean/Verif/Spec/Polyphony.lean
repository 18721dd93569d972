import Verif.Spec.Tidy
/-
How many notes of a file sound at once.
-/
namespace M2S.MidiSpec

/-- The notes (channel and number) held just after the instant `t`, each once: started at or before `t` and not ended since. -/
def heldAt (l : List (Message × Nat)) (t : Nat) : List (Fin 16 × UInt8) :=
  ((l.filter fun a => starts a.1 = true ∧ a.2 ≤ t ∧ ¬ EndedBy l a t).filterMap fun a => noteOf a.1).dedup

/-- The notes of channel `c` held just after the instant `t`. -/
def heldOn (l : List (Message × Nat)) (c : Fin 16) (t : Nat) : List (Fin 16 × UInt8) := (heldAt l t).filter fun x => x.1 = c

/-- Channel `c` plays chords: it holds two or more notes at once at some time. -/
def Chords (l : List (Message × Nat)) (c : Fin 16) : Prop := ∃ a ∈ l, starts a.1 = true ∧ 2 ≤ (heldOn l c a.2).length

instance (l : List (Message × Nat)) (c : Fin 16) : Decidable (Chords l c) := inferInstanceAs (Decidable (∃ a ∈ l, _))

/-- The channels that start notes. -/
def playing (l : List (Message × Nat)) : List (Fin 16) := (List.finRange 16).filter fun c => ∃ a ∈ l, starts a.1 = true ∧ home a.1 = some c

/-- Notes start and end in pairs: every end belongs to a start of the same note at an earlier time, and every start has a later end of the same note. -/
structure Paired (l : List (Message × Nat)) : Prop where
  ended : ∀ e ∈ l, ends e.1 = true → (l.countP fun m => ends m.1 && noteOf m.1 = noteOf e.1 && m.2 ≤ e.2) ≤
    l.countP fun m => starts m.1 && noteOf m.1 = noteOf e.1 && m.2 < e.2
  closed : ∀ a ∈ l, starts a.1 = true → ∃ e ∈ l, ends e.1 = true ∧ noteOf e.1 = noteOf a.1 ∧ a.2 < e.2

/-- The parser's callbacks make a file the reader can take: format 1, no event before the first track, all times below 2^32. -/
structure Readable (calls : List Callback) : Prop where
  format : ∀ f tb, Callback.header f tb ∈ calls → f = 1
  tracks : (split calls).1 = []
  times : ∀ m ∈ file calls, m.2 < 2 ^ 32

/-- The ticks per beat the file's header states. -/
def timeBase (calls : List Callback) : Nat := calls.foldl (fun b c => match c with | .header _ tb => tb | _ => b) 0

/-- At most eight channels play, and whenever a note starts, the notes held by the channels that play chords number at most nine minus the number of playing channels. -/
def FewVoices (l : List (Message × Nat)) : Prop :=
  (playing l).length ≤ 8 ∧ ∀ a ∈ l, starts a.1 = true → ((heldAt l a.2).filter fun x => Chords l x.1).length + (playing l).length ≤ 9

instance (l : List (Message × Nat)) : Decidable (FewVoices l) := inferInstanceAs (Decidable (_ ∧ ∀ a ∈ l, _))

end M2S.MidiSpec
