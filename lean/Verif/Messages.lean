import Verif.Base
/-
The part of the `ghakuf` crate's message types (`ghakuf::messages`, crate version 0.5.1, imported in
`src/midi/mod.rs:2` and `src/nspc/track.rs:2`) that midi2spc looks at. The crate itself is not in the
repository; only the shape of its data is used here.
-/
namespace M2S

/-- `ghakuf::messages::MidiEvent`. The channel is the low nibble of a status byte, hence `Fin 16`. -/
inductive MidiEvent
  | noteOff (ch : Fin 16) (note velocity : UInt8)
  | noteOn (ch : Fin 16) (note velocity : UInt8)
  | polyphonicKeyPressure (ch : Fin 16) (note velocity : UInt8)
  | controlChange (ch : Fin 16) (control data : UInt8)
  | programChange (ch : Fin 16) (program : UInt8)
  | channelPressure (ch : Fin 16) (pressure : UInt8)
  | pitchBendChange (ch : Fin 16) (data : Int)
  | unknown (ch : Fin 16)
deriving DecidableEq, Repr

/-- `ghakuf::messages::MetaEvent`: only `SetTempo` is distinguished by midi2spc; the other kinds are
numbered by their type byte. -/
inductive MetaEvent
  | setTempo
  | other (kind : UInt8)
deriving DecidableEq, Repr

/-- `ghakuf::messages::Message`. Delta times are `u32`. -/
inductive Message
  | metaEvent (delta : Nat) (event : MetaEvent) (data : List UInt8)
  | midiEvent (delta : Nat) (event : MidiEvent)
  | sysEx (delta : Nat) (data : List UInt8)
  | trackChange
deriving DecidableEq, Repr

end M2S
