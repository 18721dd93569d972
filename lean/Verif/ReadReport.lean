import Verif.Cli
/-
What reading and converting a MIDI file prints under `--verbose`. `Verif/Midi.lean` and `Verif/Song.lean` model what is computed; here are the same functions with the `println!`s
in place. `Proofs/ReadReport.lean` shows that leaving out the messages gives those functions. Not modelled: the wording of the messages, which is a constructor of `ReadLine` each,
and their place between the messages of the ROM builder (`Verif/Report.lean`).
-/
namespace M2S

/-- A message with the values it contains, in the order of the text. -/
inductive ReadLine
  /-- "reading {:?}", `src/midi/mod.rs:145-147`. -/
  | reading (path : String)
  /-- "extracting events from midi track {}", `src/midi/mod.rs:219-221`. -/
  | track (i : Nat)
  /-- "find base voice for channel {}", `src/midi/mod.rs:263-265`. -/
  | find (c : Fin 16)
  /-- "voice {} overlaps with {:?}", `src/midi/mod.rs:276-278`. -/
  | overlaps (v : Fin 8) (i : VoiceInterval)
  /-- "non-overlapping voices: {:?}", `src/midi/mod.rs:289-291`. -/
  | candidates (vs : List (Fin 8))
  /-- "channel {}: trying {}", `src/midi/mod.rs:293-295`. -/
  | trying (c : Fin 16) (v : Fin 8)
  /-- "channel {} base voice occupied at {} - base voices {:?} active notes {:?}", `src/midi/mod.rs:440-446`. -/
  | occupied (c : Fin 16) (t : Nat) (bases : List (Fin 8)) (active : List (List (UInt8 × Fin 8)))
  /-- "using {}", `src/midi/mod.rs:458-460`. -/
  | chosen (v : Fin 8)
  /-- "optimal call loop sequence {:?}", `src/nspc/mod.rs:104-106`. -/
  | best (s : Option Sequence)
deriving DecidableEq, Repr

/-- A computation with messages: those printed so far stay when it fails. -/
structure Said (α : Type) where
  lines : List ReadLine
  result : Res α

instance : Monad Said where
  pure a := ⟨[], .ok a⟩
  bind x f := match x.result with
    | .ok a => ⟨x.lines ++ (f a).lines, (f a).result⟩
    | .error e => ⟨x.lines, .error e⟩

/-- `if verbose { println!(…) }`. -/
def shown (verbose : Bool) (l : ReadLine) : List ReadLine := if verbose then [l] else []

/-- A step without messages. -/
def mute {α : Type} (r : Res α) : Said α := ⟨[], r⟩

/-- `tracks_to_channels`, `src/midi/mod.rs:217-251`. -/
def tellTracks (verbose : Bool) (tracks : List (List Message)) (cs : ChanMsgs) : Said ChanMsgs := do
  let cs ← tracks.zipIdx.foldlM (fun cs (track, i) => do
    let _ ← (⟨shown verbose (.track i), .ok ()⟩ : Said Unit)
    let (cs, _) ← mute (track.foldlM routeMessage (cs, 0))
    return cs) cs
  return fun c => sortMessages (cs c)

/-- One voice in the loop computing `valid_voices`, `src/midi/mod.rs:269-287`; state is the messages, `valid_voices` and `found_empty`. -/
def tellVoice (verbose : Bool) (channel : List VoiceInterval) (active : ActiveIntervals) (st : List ReadLine × List (Fin 8) × Bool) (i : Fin 8) :
    List ReadLine × List (Fin 8) × Bool :=
  let empty := (active i).isEmpty
  if !st.2.2 || !empty then
    match overlappingInterval channel (active i) with
    | some interval => (st.1 ++ shown verbose (.overlaps i interval), st.2)
    | none => (st.1, st.2.1 ++ [i], st.2.2 || empty)
  else st

/-- The computation of `valid_voices`, `src/midi/mod.rs:266-291`. -/
def tellValid (verbose : Bool) (channel : List VoiceInterval) (active : ActiveIntervals) : List ReadLine × List (Fin 8) :=
  let r := (List.finRange 8).foldl (tellVoice verbose channel active) ([], [], false)
  (r.1 ++ shown verbose (.candidates r.2.1), r.2.1)

/-- The loop over `valid_voices`, `src/midi/mod.rs:292-306`; `next` is the recursive call. -/
def tellTries (verbose : Bool) (c : Fin 16) (next : Fin 8 → List ReadLine × Option (List (Fin 8))) : List (Fin 8) → List ReadLine × Option (List (Fin 8))
  | [] => ([], none)
  | v :: vs =>
    match next v with
    | (ls, some bs) => (shown verbose (.trying c v) ++ ls, some (v :: bs))
    | (ls, none) => (shown verbose (.trying c v) ++ ls ++ (tellTries verbose c next vs).1, (tellTries verbose c next vs).2)

/-- `find_base_voices`, `src/midi/mod.rs:253-310`, for the channels from `channel_idx` on with their intervals. -/
def tellFind (verbose : Bool) : List (Fin 16 × List VoiceInterval) → ActiveIntervals → List ReadLine × Option (List (Fin 8))
  | [], _ => ([], some [])
  | (c, ch) :: chs, active =>
    let found := tellValid verbose ch active
    let tries := tellTries verbose c (fun v => tellFind verbose chs (Function.update active v (active v ++ ch))) found.2
    (shown verbose (.find c) ++ found.1 ++ tries.1, tries.2)

/-- Choice of the voice for a new note, `src/midi/mod.rs:433-470`. A map is printed in its enumeration order. -/
def tellChoose (ord : EnumOrder) (verbose : Bool) (base : Fin 16 → Fin 8) (active : Fin 16 → List (UInt8 × Fin 8)) (ch : Fin 16) (t : Nat) :
    List ReadLine × Option (Fin 8) :=
  if voiceBusy active (base ch) then
    let said := shown verbose (.occupied ch t ((List.finRange 16).map base) ((List.finRange 16).map fun c => ord (active c)))
    match (List.finRange 8).find? fun v => !((List.finRange 16).any fun c => base c = v) && !voiceBusy active v with
    | some v => (said ++ shown verbose (.chosen v), some v)
    | none => (said, none)
  else ([], some (base ch))

/-- The `NoteOn` arm, `src/midi/mod.rs:416-512`. -/
def tellNoteOn (ord : EnumOrder) (verbose : Bool) (base : Fin 16 → Fin 8) (st : DealState) (delta : Nat) (ch : Fin 16)
    (note velocity : UInt8) (t : Nat) : Said DealState :=
  let st := dealCloseSame st delta ch note velocity t
  if velocity > 0 then
    match tellChoose ord verbose base st.active ch t with
    | (ls, none) => ⟨ls, failed .couldntFit⟩
    | (ls, some v) =>
      let st := { st with active := Function.update st.active ch (insertNote (st.active ch) note v) }
      let st := dealSwitchChannel st ch v t
      if ch = 9 then
        let st := dealPercussion st delta ch note v t
        ⟨ls, .ok (st.push v (.midiEvent delta (.noteOn ch (percNote note) velocity), t))⟩
      else ⟨ls, .ok (st.push v (.midiEvent delta (.noteOn ch note velocity), t))⟩
  else ⟨[], .ok st⟩

/-- One event of `channels_to_voices`, `src/midi/mod.rs:385-596`: only the `NoteOn` arm prints. -/
def tellEvent (ord : EnumOrder) (verbose : Bool) (base : Fin 16 → Fin 8) (st : DealState) (m : TMsg) : Said DealState :=
  match m with
  | (.midiEvent delta (.noteOn ch note velocity), t) => tellNoteOn ord verbose base st delta ch note velocity t
  | m => mute (dealEvent ord base st m)

/-- The main loop of `channels_to_voices`, `src/midi/mod.rs:362-597`, as `mergeLoop`. -/
def tellMerge (ord : EnumOrder) (verbose : Bool) (base : Fin 16 → Fin 8) : Nat → ChanMsgs → Nat → DealState → Said DealState
  | fuel, rem, done, st =>
    if done < 16 then
      match fuel with
      | 0 => mute (.error .diverged)
      | fuel + 1 =>
        let c := nextChannel rem
        match rem c with
        | [] => mute panicked
        | m :: ms => do
          let st ← tellEvent ord verbose base st m
          tellMerge ord verbose base fuel (Function.update rem c ms) (if ms.isEmpty then done + 1 else done) st
    else pure st

/-- `channels_to_voices`, `src/midi/mod.rs:330-599`. -/
def tellVoices (ord : EnumOrder) (verbose : Bool) (cs : ChanMsgs) (base : Fin 16 → Fin 8) (voices : Fin 8 → List TMsg) : Said (Fin 8 → List TMsg) := do
  let st : DealState :=
    { voices := voices
      lastChan := fun v => (List.finRange 16).find? fun c => base c = v }
  let done := (List.finRange 16).countP fun c => (cs c).isEmpty
  let st ← tellMerge ord verbose base (countMsgs cs) cs done st
  return st.voices

/-- `MidiHandler::read` after parsing, `src/midi/mod.rs:155-214`. -/
def tellProcess (ord : EnumOrder) (verbose : Bool) (h : MidiHandler) : Said MidiHandler := do
  let cs ← tellTracks verbose h.tracks (fun c => (h.channels c).messages)
  let (ivs, maxTime) ← mute (scanChannels cs h.maxTime)
  match tellFind verbose ((List.finRange 16).map fun c => (c, ivs c)) (fun _ => []) with
  | (ls, none) => ⟨ls, failed .couldntFit⟩
  | (ls, some bs) => do
    let _ ← (⟨ls, .ok ()⟩ : Said Unit)
    let base : Fin 16 → Fin 8 := fun c => bs.getD c 0
    let voices ← tellVoices ord verbose cs base h.voices
    return { h with
      channels := fun c => { messages := cs c, intervals := ivs c, baseVoice := base c }
      voices := voices
      maxTime := maxTime }

/-- `MidiHandler::new()` followed by `read`, `src/midi/mod.rs:108-215`, given the callbacks the parser makes. -/
def tellRead (ord : EnumOrder) (verbose : Bool) (path : String) (calls : List Callback) : Said MidiHandler := do
  let _ ← (⟨shown verbose (.reading path), .ok ()⟩ : Said Unit)
  let h ← mute (calls.foldlM MidiHandler.handle {})
  tellProcess ord verbose h

/-- `Song::optimize_call_loops`, `src/nspc/mod.rs:94-115`, as `optimizeFuel`. -/
def tellOptimise (verbose : Bool) : Nat → List (List PCmd) → Nat → Said (List (List PCmd))
  | 0, _, _ => mute (.error .diverged)
  | fuel + 1, tracks, topLevel => do
    let tree ← mute (buildTree tracks topLevel)
    let seq ← mute (bestSequence tree)
    let _ ← (⟨shown verbose (.best seq), .ok ()⟩ : Said Unit)
    match seq with
    | none => return tracks
    | some seq => do
      let tracks ← mute (extractSequence tracks seq topLevel)
      tellOptimise verbose fuel tracks topLevel

/-- `Song::from_midi`, `src/nspc/mod.rs:47-92`. -/
def tellSongOf (verbose : Bool) (h : MidiHandler) (tempoFactor : F32) (optimize : Bool) : Said Song := do
  let tracks ← mute (voiceTracks h tempoFactor)
  let parts := [List.range tracks.length]
  if optimize then do
    let opt ← tellOptimise verbose (topLevelSize tracks tracks.length + 1) tracks tracks.length
    return ⟨parts, opt⟩
  else return ⟨parts, tracks⟩

/-- `song_from_midi`, `src/lib.rs:145-154`; the file is opened and parsed after the first message, `src/midi/mod.rs:144-154`. -/
def Ext.tellSongFile (x : Ext) (verbose : Bool) (fs : FS) (path : String) (tempo : F32) (optimize : Bool) : Said Song :=
  match fs path with
  | none => ⟨shown verbose (.reading path), failed .io⟩
  | some bytes =>
    match x.parseMidi bytes with
    | none => ⟨shown verbose (.reading path), failed .conversion⟩
    | some calls => do
      let h ← tellRead x.ord verbose path calls
      tellSongOf verbose h tempo optimize

end M2S
