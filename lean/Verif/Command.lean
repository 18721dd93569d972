import Verif.Base
/-
Model of `src/nspc/command.rs`: N-SPC commands, their byte encoding, and the helpers on
parameterised commands.
-/
namespace M2S

/-- `enum Command`, `src/nspc/command.rs:93-125` (same variants, same operand order;
`usize` track indices are `Nat`). -/
inductive Command
  | note (n : UInt8)
  | rest
  | tie
  | setInstrument (p1 : UInt8)
  | pan (p1 : UInt8)
  | panFade (p1 p2 : UInt8)
  | vibrato (p1 p2 p3 : UInt8)
  | vibratoOff
  | masterVolume (p1 : UInt8)
  | masterVolumeFade (p1 p2 : UInt8)
  | tempo (p1 : UInt8)
  | tempoFade (p1 p2 : UInt8)
  | globalTranspose (p1 : UInt8)
  | channelTranspose (p1 : UInt8)
  | tremolo (p1 p2 p3 : UInt8)
  | tremoloOff
  | channelVolume (p1 : UInt8)
  | channelVolumeFade (p1 : UInt8)
  | callLoop (target : Nat) (count : UInt8)
  | vibratoFade (p1 : UInt8)
  | pitchEnvelopeTo (p1 p2 p3 : UInt8)
  | pitchEnvelopeFrom (p1 p2 p3 : UInt8)
  | pitchEnvelopeOff
  | tuning (p1 : UInt8)
  | echoVolume (p1 p2 p3 : UInt8)
  | echoOff
  | echoParams (p1 p2 p3 : UInt8)
  | echoVolumeFade (p1 p2 p3 : UInt8)
  | pitchSlide (p1 p2 p3 : UInt8)
  | percussionPatchBase (p1 : UInt8)
deriving DecidableEq, Repr

/-- `struct CallLoopRef`, `src/nspc/mod.rs:29-33`. -/
structure CallLoopRef where
  targetTrack : Nat
  refPos : Nat
deriving DecidableEq, Repr

/-- Output of the writers: the bytes in the `Cursor<Vec<u8>>` (the cursor is only ever used for
appending, so `out.position()` is the number of bytes) and the `call_loops` vector. -/
structure Out where
  bytes : List UInt8
  refs : List CallLoopRef
deriving DecidableEq, Repr

/-- `out.write_u8(..)` of several bytes in sequence (writing to a `Vec` cursor cannot fail). -/
def Out.put (o : Out) (bs : List UInt8) : Out := { o with bytes := o.bytes ++ bs }

/-- `Command::write`, `src/nspc/command.rs:128-274`. -/
def Command.write (c : Command) (o : Out) : Out :=
  match c with
  | .note n => o.put [n]
  | .tie => o.put [0xc8]
  | .rest => o.put [0xc9]
  | .setInstrument p1 => o.put [0xe0, p1]
  | .pan p1 => o.put [0xe1, p1]
  | .panFade p1 p2 => o.put [0xe2, p1, p2]
  | .vibrato p1 p2 p3 => o.put [0xe3, p1, p2, p3]
  | .vibratoOff => o.put [0xe4]
  | .masterVolume p1 => o.put [0xe5, p1]
  | .masterVolumeFade p1 p2 => o.put [0xe6, p1, p2]
  | .tempo p1 => o.put [0xe7, p1]
  | .tempoFade p1 p2 => o.put [0xe8, p1, p2]
  | .globalTranspose p1 => o.put [0xe9, p1]
  | .channelTranspose p1 => o.put [0xea, p1]
  | .tremolo p1 p2 p3 => o.put [0xeb, p1, p2, p3]
  | .tremoloOff => o.put [0xec]
  | .channelVolume p1 => o.put [0xed, p1]
  | .channelVolumeFade p1 => o.put [0xee, p1]
  | .callLoop t k =>
    let o := o.put [0xef]
    let o := { o with refs := o.refs ++ [CallLoopRef.mk t o.bytes.length] }
    o.put [0x00, 0xd0, k]
  | .vibratoFade p1 => o.put [0xf0, p1]
  | .pitchEnvelopeTo p1 p2 p3 => o.put [0xf1, p1, p2, p3]
  | .pitchEnvelopeFrom p1 p2 p3 => o.put [0xf2, p1, p2, p3]
  | .pitchEnvelopeOff => o.put [0xf3]
  | .tuning p1 => o.put [0xf4, p1]
  | .echoVolume p1 p2 p3 => o.put [0xf5, p1, p2, p3]
  | .echoOff => o.put [0xf6]
  | .echoParams p1 p2 p3 => o.put [0xf7, p1, p2, p3]
  | .echoVolumeFade p1 p2 p3 => o.put [0xf8, p1, p2, p3]
  | .pitchSlide p1 p2 p3 => o.put [0xf9, p1, p2, p3]
  | .percussionPatchBase p1 => o.put [0xfa, p1]

/-- `struct ParameterizedCommand`, `src/nspc/command.rs:277-283`. -/
structure PCmd where
  duration : Option UInt8
  velocity : Option UInt8
  sustain : Option UInt8
  command : Command
deriving DecidableEq, Repr

/-- `if let Command::Note(..) = self.command`. -/
def Command.isNote : Command → Bool
  | .note _ => true
  | _ => false

/-- The velocity/sustain value a command asks for, `src/nspc/command.rs:318-337`
(`None` when neither a non-zero velocity nor a non-zero sustain is given). -/
def PCmd.velSus (c : PCmd) (prevVS : Option UInt8) : Option UInt8 :=
  let v0 : UInt8 := prevVS.getD 0x7d
  let (v1, nz1) : UInt8 × Bool :=
    match c.velocity with
    | some v => if v > 0 then ((v0 &&& (0x70 : UInt8)) ||| v, true) else (v0, false)
    | none => (v0, false)
  let (v2, nz2) : UInt8 × Bool :=
    match c.sustain with
    | some s => if s > 0 then ((v1 &&& (0x0f : UInt8)) ||| (s <<< 4), true) else (v1, nz1)
    | none => (v1, nz1)
  if nz2 then some v2 else none

/-- `ParameterizedCommand::write`, `src/nspc/command.rs:300-361`. Returns the output and the new
`(duration, velocity_sustain)` pair. -/
def PCmd.write (c : PCmd) (o : Out) (prevDur : UInt8) (prevVS : Option UInt8) :
    Out × UInt8 × Option UInt8 :=
  let (durOut, durToWrite) : UInt8 × Option UInt8 :=
    match c.duration with
    | some d => if d ≠ prevDur then (d, if d > 0 then some d else none) else (prevDur, none)
    | none => (prevDur, none)
  let (vsOut, vsToWrite) : Option UInt8 × Option UInt8 :=
    match c.velSus prevVS with
    | some vs => if prevVS = none ∨ prevVS ≠ some vs then (some vs, some vs) else (prevVS, none)
    | none =>
      if prevVS = none then
        if c.command.isNote then (some 0x7d, some 0x7d) else (prevVS, none)
      else (prevVS, none)
  let o :=
    match durToWrite with
    | some d => o.put [d]
    | none => if vsToWrite.isSome then o.put [prevDur] else o
  let o :=
    match vsToWrite with
    | some vs => o.put [vs]
    | none => o
  (c.command.write o, durOut, vsOut)

/-- `call_loop_eligible`, `src/nspc/command.rs:363-369`. -/
def PCmd.callLoopEligible (c : PCmd) : Bool :=
  match c.command with
  | .callLoop _ _ => false
  | .pitchSlide _ _ _ => false
  | _ => true

/-- `set_sustain`, `src/nspc/command.rs:371-386`. Returns the updated command and the answer.
`u16` arithmetic on values below 256 cannot overflow (at most `255 * 16`), so it is done in `Nat`. -/
def PCmd.setSustain (c next : PCmd) : Res (PCmd × Bool) :=
  match c.command, next.command with
  | .note _, .rest =>
    match c.duration, next.duration with
    | some n, some r =>
      let note := n.toNat
      let rest := r.toNat
      let total := note + rest
      if total = 0 then panicked           -- `% total_duration` divides by zero
      else if (note * 8) % total = 0 ∨ note > rest * 16 then
        let sus := (note * 8) / total
        .ok ({ c with sustain := some (UInt8.ofNat (min sus 7)), duration := some (UInt8.ofNat total) }, true)
      else .ok (c, false)
    | _, _ => panicked                     -- `unwrap()` of a missing duration
  | _, _ => .ok (c, false)

/-- `create_pitch_slide`, `src/nspc/command.rs:388-402`. -/
def PCmd.createPitchSlide (c : PCmd) (slideTime targetNote : UInt8) : Option PCmd :=
  match c.command with
  | .rest => none
  | _ => c.duration.map fun d =>
    { duration := none, velocity := none, sustain := none
      command := .pitchSlide (d - min slideTime d) slideTime targetNote }

/-- `is_slide`, `src/nspc/command.rs:404-409`. -/
def PCmd.isSlide (c : PCmd) : Bool :=
  match c.command with
  | .pitchSlide _ _ _ => true
  | _ => false

/-- `can_be_first_in_call_loop`, `src/nspc/command.rs:411-416`. -/
def PCmd.canBeFirst (c : PCmd) : Bool :=
  match c.command with
  | .tie => false
  | _ => true

/-- `can_be_last_in_call_loop`, `src/nspc/command.rs:418-423`. -/
def PCmd.canBeLast (c : PCmd) : Bool :=
  match c.command with
  | .pitchSlide _ _ _ => false
  | _ => true

end M2S
