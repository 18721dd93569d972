import Verif.Messages
import Verif.Instruments
import Mathlib.Data.List.Sort
import Mathlib.Logic.Function.Basic
import Mathlib.Data.Prod.Lex
/-
Model of `src/midi/mod.rs`: collecting MIDI callbacks, routing events to channels, assigning base voices
and dealing channel events to the eight voices.
-/
namespace M2S

/-- A message with its absolute time (`(Message, u32)`). -/
abbrev TMsg := Message × Nat

/-- `SNARE_NOTE`, `src/midi/mod.rs:9`. -/
def snareNote : UInt8 := 68

/-- `fn channel`, `src/midi/mod.rs:17-28`. -/
def MidiEvent.channel : MidiEvent → Fin 16
  | .noteOff ch _ _ => ch
  | .noteOn ch _ _ => ch
  | .polyphonicKeyPressure ch _ _ => ch
  | .controlChange ch _ _ => ch
  | .programChange ch _ => ch
  | .channelPressure ch _ => ch
  | .pitchBendChange ch _ => ch
  | .unknown ch => ch

/-- `fn priority`, `src/midi/mod.rs:30-45`. -/
def priority : Message → Nat
  | .midiEvent _ (.noteOff _ _ _) => 0
  | .midiEvent _ (.noteOn _ _ velocity) => if velocity = 0 then 0 else 2
  | _ => 1

/-- `struct VoiceInterval`, `src/midi/mod.rs:47-53` (the `channel` field is only printed; kept). -/
structure VoiceInterval where
  start : Nat
  stop : Nat
  channel : Fin 16
  voices : Nat
deriving DecidableEq, Repr

/-- `struct MidiChannel`, `src/midi/mod.rs:68-83`. -/
structure MidiChannel where
  messages : List TMsg := []
  intervals : List VoiceInterval := []
  baseVoice : Fin 8 := 0

/-- `struct MidiHandler`, `src/midi/mod.rs:98-105`; the arrays of 16 channels and 8 voices are functions. -/
structure MidiHandler where
  tracks : List (List Message) := []
  channels : Fin 16 → MidiChannel := fun _ => {}
  voices : Fin 8 → List TMsg := fun _ => []
  ticksPerBeat : Nat := 0
  maxTime : Nat := 0

/-- The calls ghakuf's `Reader` makes on its `Handler`. -/
inductive Callback
  | header (format timeBase : Nat)
  | metaEvent (delta : Nat) (event : MetaEvent) (data : List UInt8)
  | midiEvent (delta : Nat) (event : MidiEvent)
  | sysExEvent (delta : Nat) (data : List UInt8)
  | trackChange
deriving DecidableEq, Repr

/-- `self.tracks.last_mut().unwrap().messages.push(m)`, `src/midi/mod.rs:615-623` and similar. -/
def pushMessage (tracks : List (List Message)) (m : Message) : Res (List (List Message)) :=
  match tracks.getLast? with
  | none => panicked
  | some t => .ok (tracks.dropLast ++ [t ++ [m]])

/-- `impl Handler for MidiHandler`, `src/midi/mod.rs:606-652`. -/
def MidiHandler.handle (h : MidiHandler) : Callback → Res MidiHandler
  | .header format timeBase =>
    if format ≠ 1 then panicked else .ok { h with ticksPerBeat := timeBase }
  | .metaEvent d e data => do
    let ts ← pushMessage h.tracks (.metaEvent d e data)
    return { h with tracks := ts }
  | .midiEvent d e => do
    let ts ← pushMessage h.tracks (.midiEvent d e)
    return { h with tracks := ts }
  | .sysExEvent d data => do
    let ts ← pushMessage h.tracks (.sysEx d data)
    return { h with tracks := ts }
  | .trackChange => .ok { h with tracks := h.tracks ++ [[]] }

/-- Per-channel message lists while routing. -/
abbrev ChanMsgs := Fin 16 → List TMsg

/-- Append a message to one channel. -/
def pushChan (cs : ChanMsgs) (c : Fin 16) (m : TMsg) : ChanMsgs :=
  Function.update cs c (cs c ++ [m])

/-- One message of a track in `tracks_to_channels`, `src/midi/mod.rs:223-244`. -/
def routeMessage (st : ChanMsgs × Nat) (m : Message) : Res (ChanMsgs × Nat) :=
  match m with
  | .metaEvent d _ _ => do
    let t ← addU32 st.2 d
    return (pushChan st.1 0 (m, t), t)
  | .midiEvent d e => do
    let t ← addU32 st.2 d
    return (pushChan st.1 e.channel (m, t), t)
  | .sysEx d _ => do
    let t ← addU32 st.2 d
    return (pushChan st.1 0 (m, t), t)
  | .trackChange => .ok st

/-- The outer loop of `tracks_to_channels`, `src/midi/mod.rs:218-245`. -/
def routeTracks (tracks : List (List Message)) (cs : ChanMsgs) : Res ChanMsgs :=
  tracks.foldlM (fun cs track => do
    let (cs, _) ← track.foldlM routeMessage (cs, 0)
    return cs) cs

/-- The sort key `(abs_time, priority)`, `src/midi/mod.rs:249`. -/
def sortKey (m : TMsg) : Nat × Nat := (m.2, priority m.1)

/-- Lexicographic comparison of keys (Rust's tuple order). -/
def keyLe (a b : TMsg) : Prop := a.2 < b.2 ∨ (a.2 = b.2 ∧ priority a.1 ≤ priority b.1)

instance : DecidableRel keyLe := fun _ _ => inferInstanceAs (Decidable (_ ∨ _))

/-- `sort_by_key` (a stable sort), `src/midi/mod.rs:246-250`; modelled by insertion sort, which is
stable; a stable sort is determined by its key, so the algorithm does not matter. -/
def sortMessages (l : List TMsg) : List TMsg := l.insertionSort keyLe

/-- `tracks_to_channels`, `src/midi/mod.rs:217-251`. -/
def tracksToChannels (tracks : List (List Message)) (cs : ChanMsgs) : Res ChanMsgs := do
  let cs ← routeTracks tracks cs
  return fun c => sortMessages (cs c)

/-- Loop variables of the interval scan, `src/midi/mod.rs:157-159`, plus `self.max_time`. -/
structure ScanState where
  intervals : List VoiceInterval := []
  lastEnd : Nat := 0
  active : Nat := 0
  maxTime : Nat := 0
deriving DecidableEq, Repr

/-- `if abs_time > last_interval_end { intervals.push(..) }`, `src/midi/mod.rs:165-172,177-184`. -/
def pushInterval (i : Fin 16) (st : ScanState) (t : Nat) : List VoiceInterval :=
  if t > st.lastEnd then st.intervals ++ [⟨st.lastEnd, t, i, st.active⟩] else st.intervals

/-- One message of the interval scan in `read`, `src/midi/mod.rs:160-200`. -/
def scanMessage (i : Fin 16) (st : ScanState) (m : TMsg) : Res ScanState :=
  match m with
  | (.midiEvent _ e, t) => do
    let st ←
      match e with
      | .noteOff _ _ _ => do
        let a ← subU st.active 1
        pure { st with intervals := pushInterval i st t, active := a, lastEnd := t }
      | .noteOn _ _ velocity => do
        let a ← if velocity = 0 then subU st.active 1 else pure (st.active + 1)
        pure { st with intervals := pushInterval i st t, active := a, lastEnd := t }
      | _ => pure st
    return { st with maxTime := max st.maxTime t }
  | _ => .ok st

/-- The interval scan of one channel, `src/midi/mod.rs:157-200`. -/
def scanChannel (i : Fin 16) (msgs : List TMsg) (maxTime : Nat) : Res ScanState :=
  msgs.foldlM (scanMessage i) { maxTime := maxTime }

/-- The scan of all channels, `src/midi/mod.rs:156-201`: interval lists and the final `max_time`. -/
def scanChannels (cs : ChanMsgs) (maxTime : Nat) : Res ((Fin 16 → List VoiceInterval) × Nat) :=
  (List.finRange 16).foldlM (fun (acc : (Fin 16 → List VoiceInterval) × Nat) i => do
    let st ← scanChannel i (cs i) acc.2
    return (Function.update acc.1 i st.intervals, st.maxTime)) (fun _ => [], maxTime)

/-- The overlap test of `overlapping_interval`, `src/midi/mod.rs:318-321`. -/
def intervalsClash (a b : VoiceInterval) : Bool :=
  a.voices > 0 && b.voices > 0 && a.stop > b.start && a.start < b.stop

/-- `overlapping_interval`, `src/midi/mod.rs:312-328`. -/
def overlappingInterval (channel active : List VoiceInterval) : Option VoiceInterval :=
  channel.findSome? fun interval => active.find? fun existing => intervalsClash interval existing

/-- `active_base_intervals`. -/
abbrev ActiveIntervals := Fin 8 → List VoiceInterval

/-- The loop computing `valid_voices`, `src/midi/mod.rs:266-288`; state is `(valid_voices, found_empty)`. -/
def validVoices (channel : List VoiceInterval) (active : ActiveIntervals) : List (Fin 8) :=
  ((List.finRange 8).foldl (fun (st : List (Fin 8) × Bool) i =>
    let empty := (active i).isEmpty
    if !st.2 || !empty then
      match overlappingInterval channel (active i) with
      | some _ => st
      | none => (st.1 ++ [i], st.2 || empty)
    else st) ([], false)).1

/-- `find_base_voices`, `src/midi/mod.rs:253-310`, for the interval lists of the channels from
`channel_idx` on. The result lists the base voices of those channels; the `base_voice` fields the Rust
code sets are set exactly on the successful path. `none` is the `CouldntFit` error. -/
def findBaseVoices : List (List VoiceInterval) → ActiveIntervals → Option (List (Fin 8))
  | [], _ => some []
  | ch :: chs, active =>
    (validVoices ch active).findSome? fun v =>
      (findBaseVoices chs (Function.update active v (active v ++ ch))).map (v :: ·)

/-- The mutable state of `channels_to_voices`, `src/midi/mod.rs:332-361`. The vectors
`last_*_per_voice` for control/program/pitch and `last_abs_time` are never read and are omitted.
`active` models the `HashMap<u8, usize>` of sounding notes of each channel. -/
structure DealState where
  voices : Fin 8 → List TMsg
  lastCtrl : Fin 16 → Option Message := fun _ => none
  lastProg : Fin 16 → Option Message := fun _ => none
  lastBend : Fin 16 → Option Message := fun _ => none
  lastChan : Fin 8 → Option (Fin 16)
  active : Fin 16 → List (UInt8 × Fin 8) := fun _ => []
  lastPerc : UInt8 := 0

/-- `self.voices[v].messages.push(m)`. -/
def DealState.push (st : DealState) (v : Fin 8) (m : TMsg) : DealState :=
  { st with voices := Function.update st.voices v (st.voices v ++ [m]) }

/-- `HashMap::remove`. -/
def removeNote (l : List (UInt8 × Fin 8)) (note : UInt8) : List (UInt8 × Fin 8) :=
  l.filter fun p => p.1 ≠ note

/-- `HashMap::insert`. -/
def insertNote (l : List (UInt8 × Fin 8)) (note : UInt8) (v : Fin 8) : List (UInt8 × Fin 8) :=
  (note, v) :: removeNote l note

/-- `active_notes.iter().flat_map(|n| n.values()).any(|&voice| voice == v)`,
`src/midi/mod.rs:435-438,453-456`. -/
def voiceBusy (active : Fin 16 → List (UInt8 × Fin 8)) (v : Fin 8) : Bool :=
  (List.finRange 16).any fun c => (active c).any fun p => p.2 = v

/-- Choice of the voice for a new note, `src/midi/mod.rs:433-470`. -/
def chooseVoice (base : Fin 16 → Fin 8) (active : Fin 16 → List (UInt8 × Fin 8)) (ch : Fin 16) :
    Option (Fin 8) :=
  if voiceBusy active (base ch) then
    (List.finRange 8).find? fun v =>
      !((List.finRange 16).any fun c => base c = v) && !voiceBusy active v
  else some (base ch)

/-- Is this a snare note of the drum channel (`note == 38 || note == 40`)? -/
def isSnare (note : UInt8) : Bool := note = 38 ∨ note = 40

/-- The note number written for drum-channel notes, `src/midi/mod.rs:407,504`. -/
def percNote (note : UInt8) : UInt8 := if isSnare note then snareNote else note

/-- The `NoteOff` arm, `src/midi/mod.rs:398-415`. -/
def dealNoteOff (st : DealState) (delta : Nat) (ch : Fin 16) (note velocity : UInt8) (t : Nat) : DealState :=
  match (st.active ch).lookup note with
  | some voice =>
    let st := { st with active := Function.update st.active ch (removeNote (st.active ch) note) }
    if ch = 9 then st.push voice (.midiEvent delta (.noteOff ch (percNote note) velocity), t)
    else st.push voice (.midiEvent delta (.noteOff ch note velocity), t)
  | none => st

/-- The first half of the `NoteOn` arm: close the same note if it is sounding,
`src/midi/mod.rs:418-431`. -/
def dealCloseSame (st : DealState) (delta : Nat) (ch : Fin 16) (note velocity : UInt8) (t : Nat) : DealState :=
  match (st.active ch).lookup note with
  | some voice =>
    { st with active := Function.update st.active ch (removeNote (st.active ch) note) }.push voice
      (.midiEvent delta (.noteOff ch note velocity), t)
  | none => st

/-- Push an optional remembered message (`opt.as_ref().map(|event| messages.push(..))`). -/
def DealState.pushOpt (st : DealState) (v : Fin 8) (m : Option Message) (t : Nat) : DealState :=
  match m with
  | some m => st.push v (m, t)
  | none => st

/-- Re-send controller, program and bend when a voice changes channel, `src/midi/mod.rs:474-482`. -/
def dealSwitchChannel (st : DealState) (ch : Fin 16) (v : Fin 8) (t : Nat) : DealState :=
  if st.lastChan v ≠ some ch then
    let st := st.pushOpt v (st.lastCtrl ch) t
    let st := st.pushOpt v (st.lastProg ch) t
    let st := st.pushOpt v (st.lastBend ch) t
    { st with lastChan := Function.update st.lastChan v (some ch) }
  else st

/-- The drum instrument for a note, `src/midi/mod.rs:484`. -/
def percInstr (note : UInt8) : UInt8 := if isSnare note then Instr.snare else Instr.cymbal

/-- Select the drum instrument if it changed, `src/midi/mod.rs:484-499`. -/
def dealPercussion (st : DealState) (delta : Nat) (ch : Fin 16) (note : UInt8) (v : Fin 8) (t : Nat) : DealState :=
  let instr := percInstr note
  if st.lastPerc ≠ instr then
    let m : Message := .midiEvent delta (.programChange ch instr)
    { st with lastProg := Function.update st.lastProg ch (some m), lastPerc := instr }.push v (m, t)
  else st

/-- The `NoteOn` arm, `src/midi/mod.rs:416-512`. -/
def dealNoteOn (base : Fin 16 → Fin 8) (st : DealState) (delta : Nat) (ch : Fin 16)
    (note velocity : UInt8) (t : Nat) : Res DealState :=
  let st := dealCloseSame st delta ch note velocity t
  if velocity > 0 then
    match chooseVoice base st.active ch with
    | none => failed .couldntFit
    | some v =>
      let st := { st with active := Function.update st.active ch (insertNote (st.active ch) note v) }
      let st := dealSwitchChannel st ch v t
      if ch = 9 then
        let st := dealPercussion st delta ch note v t
        .ok (st.push v (.midiEvent delta (.noteOn ch (percNote note) velocity), t))
      else .ok (st.push v (.midiEvent delta (.noteOn ch note velocity), t))
  else .ok st

/-- Hash-map enumeration order: some function giving the order in which `values()` enumerates. -/
abbrev EnumOrder := List (UInt8 × Fin 8) → List (UInt8 × Fin 8)

/-- Send an event to all voices on which its channel is sounding, and to the channel's base voice,
`src/midi/mod.rs:522-536` (same code at 543-555, 560-571, 575-587). -/
def dealToChannel (ord : EnumOrder) (base : Fin 16 → Fin 8) (st : DealState) (ch : Fin 16) (m : TMsg) : DealState :=
  let vs := (ord (st.active ch)).map (·.2)
  let st := vs.foldl (fun st v => st.push v m) st
  if vs.any (· = base ch) then st else st.push (base ch) m

/-- One event of `channels_to_voices`, `src/midi/mod.rs:385-596`. -/
def dealEvent (ord : EnumOrder) (base : Fin 16 → Fin 8) (st : DealState) (m : TMsg) : Res DealState :=
  match m with
  | (.metaEvent _ .setTempo _, _) => .ok (st.push 0 m)
  | (.metaEvent _ _ _, _) => .ok st
  | (.midiEvent delta e, t) =>
    match e with
    | .noteOff ch note velocity => .ok (dealNoteOff st delta ch note velocity t)
    | .noteOn ch note velocity => dealNoteOn base st delta ch note velocity t
    | .polyphonicKeyPressure ch note _ =>
      match (st.active ch).lookup note with
      | some v => .ok (st.push v m)
      | none => .ok st
    | .controlChange ch control _ =>
      let st := dealToChannel ord base st ch m
      if control = 7 then .ok { st with lastCtrl := Function.update st.lastCtrl ch (some m.1) } else .ok st
    | .programChange ch _ =>
      let st := dealToChannel ord base st ch m
      .ok { st with lastProg := Function.update st.lastProg ch (some m.1) }
    | .channelPressure ch _ => .ok (dealToChannel ord base st ch m)
    | .pitchBendChange ch _ =>
      let st := dealToChannel ord base st ch m
      .ok { st with lastBend := Function.update st.lastBend ch (some m.1) }
    | .unknown _ => .ok st
  | (.sysEx _ _, _) => .ok (st.push 0 m)
  | (.trackChange, _) => .ok st

/-- The key `min_by_key` compares, `src/midi/mod.rs:370-377`; an exhausted channel has
`(u32::MAX, u8::MAX)`. -/
def headKey : List TMsg → Nat × Nat
  | [] => (2 ^ 32 - 1, 255)
  | m :: _ => sortKey m

/-- Strict lexicographic order on keys. -/
def keyLt (a b : Nat × Nat) : Bool := a.1 < b.1 ∨ (a.1 = b.1 ∧ a.2 < b.2)

/-- `channels.iter().enumerate().min_by_key(..)`: the first channel with the least key,
`src/midi/mod.rs:367-378`. -/
def nextChannel (rem : ChanMsgs) : Fin 16 :=
  (List.finRange 16).foldl (fun best i => if keyLt (headKey (rem i)) (headKey (rem best)) then i else best) 0

/-- The main loop of `channels_to_voices`, `src/midi/mod.rs:362-597`. `rem` holds the messages from
`curr_event_idx` on, `done` is `channels_done`. `fuel` bounds the number of iterations; `Proofs/Merge.lean` shows that the
number of messages is enough. -/
def mergeLoop (ord : EnumOrder) (base : Fin 16 → Fin 8) : Nat → ChanMsgs → Nat → DealState → Res DealState
  | fuel, rem, done, st =>
    if done < 16 then
      match fuel with
      | 0 => .error .diverged
      | fuel + 1 =>
        let c := nextChannel rem
        match rem c with
        | [] => panicked       -- index out of range
        | m :: ms => do
          let st ← dealEvent ord base st m
          mergeLoop ord base fuel (Function.update rem c ms) (if ms.isEmpty then done + 1 else done) st
    else .ok st

/-- Number of messages in all channels. -/
def countMsgs (cs : ChanMsgs) : Nat := ((List.finRange 16).map fun c => (cs c).length).sum

/-- `channels_to_voices`, `src/midi/mod.rs:330-599`. -/
def channelsToVoices (ord : EnumOrder) (cs : ChanMsgs) (base : Fin 16 → Fin 8) (voices : Fin 8 → List TMsg) :
    Res (Fin 8 → List TMsg) := do
  let st : DealState :=
    { voices := voices
      lastChan := fun v => (List.finRange 16).find? fun c => base c = v }
  let done := (List.finRange 16).countP fun c => (cs c).isEmpty
  let st ← mergeLoop ord base (countMsgs cs) cs done st
  return st.voices

/-- `MidiHandler::read` after parsing, `src/midi/mod.rs:155-214`. -/
def MidiHandler.process (ord : EnumOrder) (h : MidiHandler) : Res MidiHandler := do
  let cs ← tracksToChannels h.tracks (fun c => (h.channels c).messages)
  let (ivs, maxTime) ← scanChannels cs h.maxTime
  match findBaseVoices ((List.finRange 16).map ivs) (fun _ => []) with
  | none => failed .couldntFit
  | some bs =>
    let base : Fin 16 → Fin 8 := fun c => bs.getD c 0
    let voices ← channelsToVoices ord cs base h.voices
    return { h with
      channels := fun c => { messages := cs c, intervals := ivs c, baseVoice := base c }
      voices := voices
      maxTime := maxTime }

/-- `MidiHandler::new()` followed by `read`, `src/midi/mod.rs:108-215`, given the callbacks the
parser makes. -/
def readMidi (ord : EnumOrder) (calls : List Callback) : Res MidiHandler := do
  let h ← calls.foldlM MidiHandler.handle {}
  h.process ord

end M2S
