import Verif.Midi
import Verif.Song
import Verif.Spec.Polyphony
/-
Two ways of rewriting a MIDI file: with all times multiplied by a number, and with all notes renamed.
-/
namespace M2S.MidiSpec

/-- A channel message with its note number renamed (by a renaming for its channel). -/
def renameEvent (ν : Fin 16 → UInt8 → UInt8) : MidiEvent → MidiEvent
  | .noteOff ch n v => .noteOff ch (ν ch n) v
  | .noteOn ch n v => .noteOn ch (ν ch n) v
  | .polyphonicKeyPressure ch n v => .polyphonicKeyPressure ch (ν ch n) v
  | e => e

/-- A message with its delta time multiplied by `k` and its note renamed. -/
def rewrite (k : Nat) (ν : Fin 16 → UInt8 → UInt8) : Message → Message
  | .metaEvent d e data => .metaEvent (k * d) e data
  | .midiEvent d e => .midiEvent (k * d) (renameEvent ν e)
  | .sysEx d data => .sysEx (k * d) data
  | .trackChange => .trackChange

/-- A message and its time, rewritten. -/
def rewriteAt (k : Nat) (ν : Fin 16 → UInt8 → UInt8) (m : Message × Nat) : Message × Nat := (rewrite k ν m.1, k * m.2)

/-- A file rewritten: the resolution and all delta times multiplied by `k`, notes renamed. -/
def rewriteCall (k : Nat) (ν : Fin 16 → UInt8 → UInt8) : Callback → Callback
  | .header f tb => .header f (k * tb)
  | .metaEvent d e data => .metaEvent (k * d) e data
  | .midiEvent d e => .midiEvent (k * d) (renameEvent ν e)
  | .sysExEvent d data => .sysExEvent (k * d) data
  | .trackChange => .trackChange

/-- The file with a resolution and all times `k` times as large. -/
def finer (k : Nat) (calls : List Callback) : List Callback := calls.map (rewriteCall k fun _ n => n)

/-- Notes of all channels but the drum channel moved by `j` semitones. -/
def shift (j : UInt8) (ch : Fin 16) (n : UInt8) : UInt8 := if ch = 9 then n else n + j

/-- The file transposed by `j` semitones (for a transposition downwards `j` is 256 minus the number of semitones). -/
def transposed (j : UInt8) (calls : List Callback) : List Callback := calls.map (rewriteCall 1 (shift j))

/-- A command transposed. -/
def transposeCommand (j : UInt8) : Command → Command
  | .note p => .note (p + j)
  | .pitchSlide a b p => .pitchSlide a b (p + j)
  | c => c

/-- A command with its parameters, transposed. -/
def transposeCmd (j : UInt8) (c : PCmd) : PCmd := { c with command := transposeCommand j c.command }

/-- A song transposed: every note and every target of a pitch slide is moved, nothing else is changed. -/
def transposeSong (j : UInt8) (s : Song) : Song := ⟨s.parts, s.tracks.map (List.map (transposeCmd j))⟩

/-- A portamento switch that is on. -/
def slideOn : Message → Bool
  | .midiEvent _ (.controlChange _ 65 d) => d ≥ 64
  | _ => false

/-- A file for which the resolution should not matter: whole ticks per 1/24 beat, times of the finer file short enough for exact arithmetic (C08), no portamento. -/
structure Scalable (k : Nat) (calls : List Callback) : Prop where
  whole : 24 ∣ timeBase calls
  some : 0 < timeBase calls
  header : k * timeBase calls < 65536
  short : ∀ m ∈ file calls, k * m.2 < 8388600
  plain : ∀ m ∈ file calls, slideOn m.1 = false

/-- A file that can be transposed: no notes on the drum channel, all notes in the MIDI range before and after. -/
def Transposable (j : UInt8) (calls : List Callback) : Prop :=
  ∀ m ∈ file calls, ∀ x ∈ noteOf m.1, x.1 ≠ 9 ∧ x.2 ≤ 127 ∧ x.2 + j ≤ 127

instance (j : UInt8) (calls : List Callback) : Decidable (Transposable j calls) := by unfold Transposable; infer_instance

/-- A renaming of commands: different commands stay different; ties, pitch slides and calls of loops stay what they are, and calls are not changed at all. -/
structure Respectful (f : PCmd → PCmd) : Prop where
  distinct : ∀ a b, f a = f b → a = b
  tie : ∀ c, (f c).command = .tie ↔ c.command = .tie
  slide : ∀ c, (∃ a b p, (f c).command = .pitchSlide a b p) ↔ ∃ a b p, c.command = .pitchSlide a b p
  call : ∀ c, (∃ t n, (f c).command = .callLoop t n) ↔ ∃ t n, c.command = .callLoop t n
  calls : ∀ c t n, c.command = .callLoop t n → f c = c

end M2S.MidiSpec
