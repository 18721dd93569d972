import Verif.Command
import Verif.F32
import Verif.Messages
import Verif.Instruments
/-
Model of `src/nspc/track.rs`: conversion of one voice's MIDI events to N-SPC commands, and writing.
-/
namespace M2S

/-- `struct Duration`, `src/nspc/track.rs:14-19`. -/
structure Duration where
  length : UInt8
  quantizedTicks : Nat
  overflowCount : Nat     -- a `u8`
deriving DecidableEq, Repr

/-- The `f32` computation of the length in 1/24 beats, `src/nspc/track.rs:23-29`. -/
def quantizedLength (ticks ticksPerBeat : Nat) (ceil : Bool) : Nat :=
  let lengthBeats := (F32.ofNat ticks).div (F32.ofNat ticksPerBeat)
  let length := lengthBeats.mul (F32.ofNat 24)
  (if ceil then length.ceil else length.floor).toUnsigned (2 ^ 32 - 1)

/-- The split of a length into pieces of `0x7f`, `src/nspc/track.rs:31-53`. The casts `as u8` wrap. -/
def splitLength (q ticks : Nat) : Duration :=
  if q > 0x7f then
    let overflowAmount := q % 0x7f
    let overflowCount := q / 0x7f
    if overflowAmount = 0 then
      { length := 0x7f, quantizedTicks := ticks, overflowCount := (overflowCount - 1) % 256 }
    else
      { length := UInt8.ofNat overflowAmount, quantizedTicks := ticks, overflowCount := overflowCount % 256 }
  else
    { length := UInt8.ofNat q, quantizedTicks := ticks, overflowCount := 0 }

/-- `Track::get_duration`, `src/nspc/track.rs:22-54`. -/
def getDuration (ticks ticksPerBeat : Nat) (ceil : Bool) : Res Duration := do
  let q := quantizedLength ticks ticksPerBeat ceil
  let m ← mulU32 q ticksPerBeat
  return splitLength q (m / 24)

/-- A rest of the given length, as pushed in `src/nspc/track.rs:65-70,73-78`. -/
def restCmd (d : UInt8) : PCmd := ⟨some d, none, none, .rest⟩

/-- `Track::insert_rest`, `src/nspc/track.rs:56-84`. Returns the commands and the new clock. -/
def insertRest (commands : List PCmd) (lastNoteEnd absTime ticksPerBeat : Nat) :
    Res (List PCmd × Nat) :=
  if absTime > lastNoteEnd then do
    let d ← getDuration (absTime - lastNoteEnd) ticksPerBeat false
    let commands := commands ++ List.replicate d.overflowCount (restCmd 0x7f)
    let commands := if d.length > 0 then commands ++ [restCmd d.length] else commands
    let t ← addU32 lastNoteEnd d.quantizedTicks
    return (commands, t)
  else
    return (commands, lastNoteEnd)

/-- The local variables of the event loop of `Track::new`, `src/nspc/track.rs:93-98`. -/
structure TrackState where
  commands : List PCmd := []
  noteStart : Option Nat := none
  noteVelocity : UInt8 := 0
  lastNoteEnd : Nat := 0
  portamento : Bool := false
  portTime : Nat := 0       -- a `u16`
deriving DecidableEq, Repr

/-- A command without parameters, as pushed in `src/nspc/track.rs:111-116,198-203,225-230`. -/
def plainCmd (c : Command) : PCmd := ⟨none, none, none, c⟩

/-- The ties that continue a long note, `src/nspc/track.rs:140-151`. -/
def noteTies (d : Duration) : List PCmd :=
  (List.range d.overflowCount).map fun i =>
    ⟨some (if i < d.overflowCount - 1 then 0x7f else d.length), none, none, .tie⟩

/-- `usec_per_beat`, `src/nspc/track.rs:107-109`: three big-endian bytes; fewer bytes panic. -/
def usecPerBeat (data : List UInt8) : Res Nat :=
  match data with
  | a :: b :: c :: _ => .ok (a.toNat * 0x10000 + b.toNat * 0x100 + c.toNat)
  | _ => panicked

/-- The tempo byte, `src/nspc/track.rs:110,115`. `tempoFactor` is the `f32` factor. -/
def tempoByte (usec : Nat) (tempoFactor : F32) : UInt8 :=
  let bpm := ((F32.fin 60000000).div (F32.ofNat usec)).ceil
  UInt8.ofNat ((bpm.mul tempoFactor).toUnsigned 255)

/-- The `NoteOff` arm of `Track::new`, `src/nspc/track.rs:121-155`. -/
def trackNoteOff (tpb : Nat) (st : TrackState) (note : UInt8) (absTime : Nat) : Res TrackState :=
  match st.noteStart with
  | none => .ok st
  | some start => do
    let dt ← subU absTime start
    let d ← getDuration dt tpb true
    let pushAsTie := (st.commands.getLast?).any PCmd.isSlide
    let cmd ← if pushAsTie then pure Command.tie else do
      let n ← addU8 note 0x68
      pure (Command.note n)
    let first : PCmd :=
      ⟨some (if d.overflowCount > 0 then 0x7f else d.length), some (st.noteVelocity / 8), some 7, cmd⟩
    let t ← addU32 start d.quantizedTicks
    return { st with
      commands := st.commands ++ first :: noteTies d
      lastNoteEnd := t
      noteStart := none }

/-- The `NoteOn` arm of `Track::new`, `src/nspc/track.rs:156-186`. -/
def trackNoteOn (tpb : Nat) (st : TrackState) (note velocity : UInt8) (absTime : Nat) :
    Res TrackState := do
  let (commands, t) ← insertRest st.commands st.lastNoteEnd absTime tpb
  let commands ←
    match commands.getLast? with
    | some last =>
      if st.portamento then do
        let d ← getDuration st.portTime tpb true
        let n ← addU8 note 0x68
        pure (commands ++ (last.createPitchSlide d.length n).toList)
      else pure commands
    | none => pure commands
  if st.noteStart.isSome then failed .moreThanOneVoice
  else return { st with commands := commands, lastNoteEnd := t, noteStart := some t, noteVelocity := velocity }

/-- The `ControlChange` arm of `Track::new`, `src/nspc/track.rs:190-216`. The `u16` bit operations are
written with `256 *`, `/ 256` and `% 256`. -/
def trackControl (st : TrackState) (control data : UInt8) : Res TrackState :=
  if control = 5 then .ok { st with portTime := data.toNat * 256 + st.portTime % 256 }
  else if control = 7 then do
    let v ← mulU8 data 2
    return { st with commands := st.commands ++ [plainCmd (.channelVolume v)] }
  else if control = 37 then .ok { st with portTime := st.portTime / 256 * 256 + data.toNat }
  else if control = 65 then .ok { st with portamento := data ≥ 64 }
  else .ok st

/-- The `ProgramChange` arm of `Track::new`, `src/nspc/track.rs:217-231`. -/
def trackProgram (tpb : Nat) (st : TrackState) (ch : Fin 16) (program : UInt8) (absTime : Nat) :
    Res TrackState := do
  let (commands, t) ← insertRest st.commands st.lastNoteEnd absTime tpb
  let instrument ←
    if ch = 9 then pure program
    else match Instr.instrumentMap[program.toNat]? with
      | some i => pure i
      | none => panicked
  return { st with commands := commands ++ [plainCmd (.setInstrument instrument)], lastNoteEnd := t }

/-- One iteration of the event loop of `Track::new`, `src/nspc/track.rs:99-246`. -/
def trackStep (tpb : Nat) (tempoFactor : F32) (st : TrackState) (ev : Message × Nat) : Res TrackState :=
  match ev with
  | (.metaEvent _ .setTempo data, _) => do
    let usec ← usecPerBeat data
    return { st with commands := st.commands ++ [plainCmd (.tempo (tempoByte usec tempoFactor))] }
  | (.midiEvent _ e, absTime) =>
    match e with
    | .noteOff _ note _ => trackNoteOff tpb st note absTime
    | .noteOn _ note velocity => trackNoteOn tpb st note velocity absTime
    | .controlChange _ control data => trackControl st control data
    | .programChange ch program => trackProgram tpb st ch program absTime
    | _ => .ok st
  | _ => .ok st

/-- The sustain pass at the end of `Track::new`, `src/nspc/track.rs:252-265`, with the
`skip_next_rest` flag turned into skipping a list element. -/
def sustainPass : List PCmd → Res (List PCmd)
  | [] => .ok []
  | [c] => .ok [c]
  | c :: n :: rest => do
    let (c', fused) ← c.setSustain n
    let tail ← if fused then sustainPass rest else sustainPass (n :: rest)
    return c' :: tail

/-- `Track::new`, `src/nspc/track.rs:86-270`; a `Track` is its command list (`src/nspc/track.rs:9-12`). -/
def trackNew (events : List (Message × Nat)) (tpb maxTime : Nat) (tempoFactor : F32) : Res (List PCmd) := do
  let st ← events.foldlM (trackStep tpb tempoFactor) {}
  if st.commands.isEmpty then return []
  else
    let commands ←
      if maxTime > st.lastNoteEnd then do
        let (commands, _) ← insertRest st.commands st.lastNoteEnd maxTime tpb
        pure commands
      else pure st.commands
    sustainPass commands

/-- The loop of `Track::write`, `src/nspc/track.rs:279-283`, from given values of the loop variables. -/
def writeCmds : List PCmd → Out → UInt8 → Option UInt8 → Out
  | [], o, _, _ => o
  | c :: cs, o, d, vs =>
    let (o, d, vs) := c.write o d vs
    writeCmds cs o d vs

/-- `Track::write`, `src/nspc/track.rs:272-285`. -/
def trackWrite (commands : List PCmd) (o : Out) : Out := writeCmds commands o 0xff none

end M2S
