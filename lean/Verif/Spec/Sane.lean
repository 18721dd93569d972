import Verif.Spec.Midi
/-
Files whose content makes sense.
-/
namespace M2S.MidiSpec

/-- Data bytes in the MIDI range, as far as the converter looks at them; three bytes of tempo. -/
def dataOk : Message → Bool
  | .midiEvent _ (.noteOff _ n _) => n ≤ 127
  | .midiEvent _ (.noteOn _ n v) => n ≤ 127 && v ≤ 127
  | .midiEvent _ (.controlChange _ _ d) => d ≤ 127
  | .midiEvent _ (.programChange _ p) => p ≤ 127
  | .metaEvent _ .setTempo d => d.length ≥ 3
  | _ => true

/-- A file of sane content at `tpb` ticks per beat: data bytes are in range, a note message comes at least 1/24 beat after any earlier start of the same note on
the same channel, and no note starts twice in one instant. -/
structure Sane (tpb : Nat) (l : List (Message × Nat)) : Prop where
  bytes : ∀ m ∈ l, dataOk m.1 = true
  apart : ∀ a ∈ l, ∀ b ∈ l, starts a.1 = true → noteOf b.1 = noteOf a.1 → a.2 < b.2 → tpb ≤ 24 * (b.2 - a.2)
  once : ((l.filter fun m => starts m.1).map fun m => (noteOf m.1, m.2)).Nodup

end M2S.MidiSpec
