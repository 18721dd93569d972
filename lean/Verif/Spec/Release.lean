import Verif.Spec.Midi
/-
Messages the conversion of a voice can take.
-/
namespace M2S.MidiSpec

/-- A tempo has three bytes; the number of an instrument is below 128, except on channel 10, where it is not looked up. -/
def accepted : Message → Bool
  | .metaEvent _ .setTempo data => 3 ≤ data.length
  | .midiEvent _ (.programChange ch p) => ch = 9 || p ≤ 127
  | _ => true

end M2S.MidiSpec
