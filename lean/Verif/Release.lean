import Verif.Cli
/-
The program built without overflow checks (`cargo build --release`, the default profile for releases; `Cargo.toml` changes no
profile): `+`, `-` and `*` wrap around. Only the functions in which something can overflow are modelled again here, under their old names in the namespace
`M2S.Release`; the others are used as they are. Indices, slices, `unwrap`, division by zero and `unimplemented!` still panic.
`usize` has 64 bits.
-/
namespace M2S.Release

/-- `u32` addition. -/
def addU32 (a b : Nat) : Nat := (a + b) % 2 ^ 32

/-- `u32` multiplication. -/
def mulU32 (a b : Nat) : Nat := (a * b) % 2 ^ 32

/-- `u32` subtraction. -/
def subU32 (a b : Nat) : Nat := if b ≤ a then a - b else a + 2 ^ 32 - b

/-- `usize` addition. -/
def addUsize (a b : Nat) : Nat := (a + b) % 2 ^ 64

/-- `usize` subtraction. -/
def subUsize (a b : Nat) : Nat := if b ≤ a then a - b else a + 2 ^ 64 - b

/-! ### `src/midi/mod.rs` -/

/-- One message of a track in `tracks_to_channels`, `src/midi/mod.rs:223-244`. -/
def routeMessage (st : ChanMsgs × Nat) (m : Message) : ChanMsgs × Nat :=
  match m with
  | .metaEvent d _ _ => (pushChan st.1 0 (m, addU32 st.2 d), addU32 st.2 d)
  | .midiEvent d e => (pushChan st.1 e.channel (m, addU32 st.2 d), addU32 st.2 d)
  | .sysEx d _ => (pushChan st.1 0 (m, addU32 st.2 d), addU32 st.2 d)
  | .trackChange => st

/-- `tracks_to_channels`, `src/midi/mod.rs:217-251`. -/
def tracksToChannels (tracks : List (List Message)) (cs : ChanMsgs) : ChanMsgs :=
  let cs := tracks.foldl (fun cs track => (track.foldl routeMessage (cs, 0)).1) cs
  fun c => sortMessages (cs c)

/-- One message of the interval scan in `read`, `src/midi/mod.rs:160-200`: `active_voices` is a `usize`. -/
def scanMessage (i : Fin 16) (st : ScanState) (m : TMsg) : ScanState :=
  match m with
  | (.midiEvent _ e, t) =>
    let st :=
      match e with
      | .noteOff _ _ _ => { st with intervals := pushInterval i st t, active := subUsize st.active 1, lastEnd := t }
      | .noteOn _ _ velocity =>
        { st with intervals := pushInterval i st t, active := if velocity = 0 then subUsize st.active 1 else addUsize st.active 1, lastEnd := t }
      | _ => st
    { st with maxTime := max st.maxTime t }
  | _ => st

/-- The scan of all channels, `src/midi/mod.rs:156-201`. -/
def scanChannels (cs : ChanMsgs) (maxTime : Nat) : (Fin 16 → List VoiceInterval) × Nat :=
  (List.finRange 16).foldl (fun (acc : (Fin 16 → List VoiceInterval) × Nat) i =>
    let st := (cs i).foldl (scanMessage i) { maxTime := acc.2 }
    (Function.update acc.1 i st.intervals, st.maxTime)) (fun _ => [], maxTime)

/-- `MidiHandler::read` after parsing, `src/midi/mod.rs:155-214`. -/
def process (ord : EnumOrder) (h : MidiHandler) : Res MidiHandler := do
  let cs := tracksToChannels h.tracks (fun c => (h.channels c).messages)
  let (ivs, maxTime) := scanChannels cs h.maxTime
  match findBaseVoices ((List.finRange 16).map ivs) (fun _ => []) with
  | none => failed .couldntFit
  | some bs =>
    let base : Fin 16 → Fin 8 := fun c => bs.getD c 0
    let voices ← channelsToVoices ord cs base h.voices
    return { h with
      channels := fun c => { messages := cs c, intervals := ivs c, baseVoice := base c }
      voices := voices
      maxTime := maxTime }

/-- `MidiHandler::new()` followed by `read`, `src/midi/mod.rs:108-215`. -/
def readMidi (ord : EnumOrder) (calls : List Callback) : Res MidiHandler := do
  let h ← calls.foldlM MidiHandler.handle {}
  process ord h

/-! ### `src/nspc/track.rs` -/

/-- `Track::get_duration`, `src/nspc/track.rs:22-54`. -/
def getDuration (ticks ticksPerBeat : Nat) (ceil : Bool) : Duration :=
  let q := quantizedLength ticks ticksPerBeat ceil
  splitLength q (mulU32 q ticksPerBeat / 24)

/-- `Track::insert_rest`, `src/nspc/track.rs:56-84`. -/
def insertRest (commands : List PCmd) (lastNoteEnd absTime ticksPerBeat : Nat) : List PCmd × Nat :=
  if absTime > lastNoteEnd then
    let d := getDuration (absTime - lastNoteEnd) ticksPerBeat false
    let commands := commands ++ List.replicate d.overflowCount (restCmd 0x7f)
    let commands := if d.length > 0 then commands ++ [restCmd d.length] else commands
    (commands, addU32 lastNoteEnd d.quantizedTicks)
  else (commands, lastNoteEnd)

/-- The `NoteOff` arm of `Track::new`, `src/nspc/track.rs:121-155`. -/
def trackNoteOff (tpb : Nat) (st : TrackState) (note : UInt8) (absTime : Nat) : TrackState :=
  match st.noteStart with
  | none => st
  | some start =>
    let d := getDuration (subU32 absTime start) tpb true
    let cmd := if (st.commands.getLast?).any PCmd.isSlide then Command.tie else Command.note (note + 0x68)
    let first : PCmd :=
      ⟨some (if d.overflowCount > 0 then 0x7f else d.length), some (st.noteVelocity / 8), some 7, cmd⟩
    { st with
      commands := st.commands ++ first :: noteTies d
      lastNoteEnd := addU32 start d.quantizedTicks
      noteStart := none }

/-- The `NoteOn` arm of `Track::new`, `src/nspc/track.rs:156-186`. -/
def trackNoteOn (tpb : Nat) (st : TrackState) (note velocity : UInt8) (absTime : Nat) : Res TrackState :=
  let (commands, t) := insertRest st.commands st.lastNoteEnd absTime tpb
  let commands :=
    match commands.getLast? with
    | some last =>
      if st.portamento then commands ++ (last.createPitchSlide (getDuration st.portTime tpb true).length (note + 0x68)).toList
      else commands
    | none => commands
  if st.noteStart.isSome then failed .moreThanOneVoice
  else .ok { st with commands := commands, lastNoteEnd := t, noteStart := some t, noteVelocity := velocity }

/-- The `ControlChange` arm of `Track::new`, `src/nspc/track.rs:190-216`. -/
def trackControl (st : TrackState) (control data : UInt8) : TrackState :=
  if control = 5 then { st with portTime := data.toNat * 256 + st.portTime % 256 }
  else if control = 7 then { st with commands := st.commands ++ [plainCmd (.channelVolume (data * 2))] }
  else if control = 37 then { st with portTime := st.portTime / 256 * 256 + data.toNat }
  else if control = 65 then { st with portamento := data ≥ 64 }
  else st

/-- The `ProgramChange` arm of `Track::new`, `src/nspc/track.rs:217-231`. -/
def trackProgram (tpb : Nat) (st : TrackState) (ch : Fin 16) (program : UInt8) (absTime : Nat) : Res TrackState := do
  let (commands, t) := insertRest st.commands st.lastNoteEnd absTime tpb
  let instrument ←
    if ch = 9 then pure program
    else match Instr.instrumentMap[program.toNat]? with
      | some i => pure i
      | none => panicked
  return { st with commands := commands ++ [plainCmd (.setInstrument instrument)], lastNoteEnd := t }

/-- One iteration of the event loop of `Track::new`, `src/nspc/track.rs:99-246`. -/
def trackStep (tpb : Nat) (tempoFactor : F32) (st : TrackState) (ev : Message × Nat) : Res TrackState :=
  match ev with
  | (.metaEvent _ .setTempo data, _) => do
    let usec ← usecPerBeat data
    return { st with commands := st.commands ++ [plainCmd (.tempo (tempoByte usec tempoFactor))] }
  | (.midiEvent _ e, absTime) =>
    match e with
    | .noteOff _ note _ => .ok (trackNoteOff tpb st note absTime)
    | .noteOn _ note velocity => trackNoteOn tpb st note velocity absTime
    | .controlChange _ control data => .ok (trackControl st control data)
    | .programChange ch program => trackProgram tpb st ch program absTime
    | _ => .ok st
  | _ => .ok st

/-- `Track::new`, `src/nspc/track.rs:86-270`. -/
def trackNew (events : List (Message × Nat)) (tpb maxTime : Nat) (tempoFactor : F32) : Res (List PCmd) := do
  let st ← events.foldlM (trackStep tpb tempoFactor) {}
  if st.commands.isEmpty then return []
  else sustainPass (if maxTime > st.lastNoteEnd then (insertRest st.commands st.lastNoteEnd maxTime tpb).1 else st.commands)

/-! ### `src/nspc/seqtree.rs` -/

/-- `fn add_location`, `src/nspc/seqtree.rs:353-371`. -/
def addLocation (locs : List Location) (trackIdx cmdIdx seqLen : Nat) : List Location :=
  match locs with
  | [] => [⟨trackIdx, cmdIdx, 1⟩]
  | l :: ls =>
    if l.trackIdx = trackIdx ∧ l.cmdIdx + seqLen = cmdIdx then { l with repeatCount := l.repeatCount + 1 } :: ls
    else l :: addLocation ls trackIdx cmdIdx seqLen

/-- `SeqTree::add_commands`, `src/nspc/seqtree.rs:387-498`. -/
def addCommands (tree : SeqTree) (commands : List PCmd) (trackIdx seqStart seqLen : Nat) : SeqTree :=
  let locations := if seqLen > 0 then addLocation tree.locations trackIdx seqStart seqLen else tree.locations
  match commands with
  | [] => .node locations tree.edges
  | c :: cs =>
    let fresh : SeqTree := .node locations (tree.edges ++ freshEdge (c :: cs) trackIdx seqStart)
    match findEdge c tree.edges with
    | none => fresh
    | some i =>
      match tree.edges[i]? with
      | none => fresh            -- cannot happen: `i` is an index of an edge
      | some (ecmds, target) =>
        let n := prefixLen (c :: cs) ecmds
        if n ≠ 0 ∧ c.canBeFirst then
          let sharedSeqLen := seqLen + n
          if n = ecmds.length then
            let target := SeqTree.node (addLocation target.locations trackIdx seqStart sharedSeqLen) target.edges
            let target :=
              if n < (c :: cs).length then addCommands target ((c :: cs).drop n) trackIdx seqStart sharedSeqLen
              else target
            .node locations (tree.edges.set i (ecmds, target))
          else
            let nl := target.locations.foldl (fun acc l => addLocation acc l.trackIdx l.cmdIdx sharedSeqLen) []
            let newTarget := addCommands (.node nl [(ecmds.drop n, target)]) ((c :: cs).drop n) trackIdx seqStart sharedSeqLen
            .node locations (tree.edges.set i ((c :: cs).take n, newTarget))
        else fresh
termination_by commands.length
decreasing_by all_goals (simp only [List.length_drop, List.length_cons] at *; omega)

/-- `SeqTree::add_track`, `src/nspc/seqtree.rs:381-385`. -/
def addTrack (tree : SeqTree) (track : List PCmd) (trackIdx : Nat) : SeqTree :=
  (List.range track.length).foldl (fun t i => addCommands t (track.drop i) trackIdx i 0) tree

/-- `consolidate_locations`, `src/nspc/seqtree.rs:572-590`. -/
def consolidate (locations : List Location) (seqLen : Nat) : List Location :=
  match locations with
  | [] => []
  | l :: ls => go l ls
where
  go (cur : Location) : List Location → List Location
    | [] => [cur]
    | l :: ls =>
      if cur.trackIdx = l.trackIdx ∧ cur.cmdIdx + seqLen * cur.repeatCount.toNat > l.cmdIdx then go cur ls
      else if cur.trackIdx = l.trackIdx ∧ cur.cmdIdx + seqLen * cur.repeatCount.toNat = l.cmdIdx then
        go { cur with repeatCount := cur.repeatCount + 1 } ls
      else cur :: go l ls

/-- The `Item`s of `TreeIter`, `src/nspc/seqtree.rs:511-560`. -/
def sequences (t : SeqTree) : List Sequence := (t.paths []).map fun p => ⟨p.1, consolidate p.2 p.1.length⟩

/-- The filter of `best_sequence`, `src/nspc/seqtree.rs:561-568`: the sum is a `u8`. -/
def worthwhile (s : Sequence) : Bool := s.commands.length > 3 ∧ s.locations.foldl (fun acc l => acc + l.repeatCount) (0 : UInt8) > 1

/-- `fn score`, `src/nspc/seqtree.rs:501-509`. -/
def score (s : Sequence) : Nat :=
  subUsize ((s.locations.map fun l => l.repeatCount.toNat).sum * s.commands.length) (s.commands.length + s.locations.length)

/-- `filter(..).max_by_key(score)`, `src/nspc/seqtree.rs:561-569`: the last of the best elements. -/
def bestOf : List Sequence → Option (Nat × Sequence) :=
  List.foldl (fun best s =>
    if worthwhile s then
      match best with
      | none => some (score s, s)
      | some (b, t) => if b ≤ score s then some (score s, s) else some (b, t)
    else best) none

/-- `best_sequence`, `src/nspc/seqtree.rs:500-570`. -/
def bestSequence (t : SeqTree) : Option Sequence := (bestOf (sequences t)).map (·.2)

/-! ### `src/nspc/mod.rs` -/

/-- The tree of all top-level tracks, `src/nspc/mod.rs:99-102`. -/
def buildTree (tracks : List (List PCmd)) (topLevel : Nat) : SeqTree :=
  (tracks.take topLevel).zipIdx.foldl (fun t (track, i) => addTrack t track i) (.node [] [])

/-- `Song::optimize_call_loops`, `src/nspc/mod.rs:94-115`, with fuel. -/
def optimizeFuel : Nat → List (List PCmd) → Nat → Res (List (List PCmd))
  | 0, _, _ => .error .diverged
  | fuel + 1, tracks, topLevel =>
    match bestSequence (buildTree tracks topLevel) with
    | none => .ok tracks
    | some seq => do
      let tracks ← extractSequence tracks seq topLevel
      optimizeFuel fuel tracks topLevel

/-- `optimize_call_loops` with enough fuel. -/
def optimizeCallLoops (tracks : List (List PCmd)) (topLevel : Nat) : Res (List (List PCmd)) :=
  optimizeFuel (topLevelSize tracks topLevel + 1) tracks topLevel

/-- The non-empty voice tracks, `src/nspc/mod.rs:53-72`. -/
def voiceTracks (h : MidiHandler) (tempoFactor : F32) : Res (List (List PCmd)) := do
  let ts ← (List.finRange 8).mapM fun v => trackNew (h.voices v) h.ticksPerBeat h.maxTime tempoFactor
  return ts.filter fun t => !t.isEmpty

/-- `Song::from_midi`, `src/nspc/mod.rs:47-92`. -/
def songFromMidi (h : MidiHandler) (tempoFactor : F32) (optimize : Bool) : Res Song := do
  let tracks ← voiceTracks h tempoFactor
  let parts := [List.range tracks.length]
  if optimize then do
    let opt ← optimizeCallLoops tracks tracks.length
    return ⟨parts, opt⟩
  else return ⟨parts, tracks⟩

/-! ### `src/rom/mod.rs` -/

/-- The position of the first chunk: `src/rom/mod.rs:140-143`. -/
def bankStart (rom : Rom) (baseAddr : Nat) : Res (Nat × UInt8 × UInt8 × UInt8) := do
  let bank ← peek rom (snesToPc (addU32 baseAddr 8))
  let high ← peek rom (snesToPc (addU32 baseAddr 4))
  let low ← peek rom (snesToPc baseAddr)
  return (snesBytesToPc bank high low, bank, high, low)

/-- Finding the two chunks of a bank, `src/rom/mod.rs:140-174`. -/
def findChunks (rom : Rom) (baseAddr : Nat) : Res Walk := do
  let (addr, _) ← bankStart rom baseAddr
  let w ← walkLoop rom (rom.length + 1) { addr := addr }
  if w.baseAddr = 0 then failed .noBaseChunk
  else if w.overflowAddr = 0 then failed .noOverflowChunk
  else return w

/-- `write_bank`, `src/rom/mod.rs:128-400`. The subtraction in the message about a chunk switch wraps around, so that the song loop is that of a run without
`verbose`. `first_song_addr` is one of the constants, none of which is below `ARAM_BASE`; `Song::empty` has no events. -/
def writeBank {Path : Type} (conv : Converter Path) (songs : List (SongDef Path)) (rom : Rom) (baseAddr firstSongAddr firstSong : Nat) : Res Rom := do
  let w ← findChunks rom baseAddr
  let st ← songs.foldlM (fun st d => do
      let song ← loadSong conv d
      writeSong w false st song d.loops)
    { rom := rom, romAddr := w.baseAddr, chunkLength := w.baseLen, aramBaseAddr := aramBase
      songOffset := subUsize firstSongAddr aramBase, songTableAddr := w.baseAddr + firstSong * 2 : BankState }
  let stop := w.baseAddr + firstSongAddr - aramBase
  pokes st.rom ((List.range' st.songTableAddr (stop - st.songTableAddr)).map fun i => (i, 0))

/-- The fold over the banks in `rom::write`, `src/rom/mod.rs:99-119`. -/
def writeBanks {Path : Type} (conv : Converter Path) : List (List (SongDef Path) × Nat × Nat) → Rom → Nat → Res Rom
  | [], rom, _ => .ok rom
  | (songs, baseAddr, firstAddr) :: bs, rom, firstSong => do
    let rom ← writeBank conv songs rom baseAddr firstAddr firstSong
    writeBanks conv bs rom (firstSong + songs.length)

/-- `rom::write`, `src/rom/mod.rs:63-126`. -/
def romWrite {Path : Type} (conv : Converter Path) (banks : List (List (SongDef Path))) (addrs : List Nat) (accepted : Nat) (file : List UInt8) :
    Res Unit × List UInt8 :=
  match writeBanks conv (banks.zip (addrs.zip bankFirstSongAddrs)) file 0 with
  | .error e => (.error e, file)
  | .ok rom => (.ok (), rom.take accepted ++ file.drop (min accepted rom.length))

/-- One bank of `gen_fake_rom`, `src/rom/mod.rs:447-461`. -/
def fakeBank (rom : Rom) (out : Rom) (baseAddr : Nat) : Res Rom := do
  let (addr, bank, high, low) ← bankStart rom baseAddr
  let out ← pokes out [(snesToPc (addU32 baseAddr 8), bank), (snesToPc (addU32 baseAddr 4), high), (snesToPc baseAddr, low)]
  fakeLoop rom (rom.length + 1) 0xffff addr out

/-- The image `gen_fake_rom` computes, `src/rom/mod.rs:441-462`. -/
def genFakeRom (rom : Rom) (addrs : List Nat) : Res Rom :=
  addrs.foldlM (fakeBank rom) (List.replicate rom.length 0)

/-! ### `src/lib.rs` -/

/-- `song_from_midi`, `src/lib.rs:145-154`. -/
def songFromMidiFile (x : Ext) (fs : FS) (path : String) (tempo : F32) (optimize : Bool) : Res Song :=
  match fs path with
  | none => failed .io
  | some bytes =>
    match x.parseMidi bytes with
    | none => failed .conversion
    | some calls => do
      let h ← readMidi x.ord calls
      songFromMidi h tempo optimize

/-- `converter`, `src/lib.rs:120-129`. -/
def converter (x : Ext) (fs : FS) (optimize : Bool) : Converter String := fun path tempo =>
  if x.extension path = some "mid" then songFromMidiFile x fs path tempo optimize
  else x.songFromJsonFile fs path

/-- `rom::write`, `src/rom/mod.rs:63-126`, on the file system. -/
def writeRom (x : Ext) (fs : FS) (m : Manifest) (rom : String) (addrs : List Nat) (optimize : Bool) : Res Unit × FS :=
  match fs rom with
  | none => (failed .io, fs)
  | some file =>
    let (r, file') := romWrite (converter x fs optimize) m addrs (x.accept file.length) file
    (r, Function.update fs rom (some file'))

/-- `run`, `src/lib.rs:23-66`. -/
def run (x : Ext) (fs : FS) (optimize : Bool) : Cmd → Res Unit × FS
  | .buildRom manifest rom addrs =>
    match readBankAddrs addrs with
    | .error e => (.error e, fs)
    | .ok addrs =>
      match x.loadManifest fs manifest with
      | .error e => (.error e, fs)
      | .ok m => writeRom x fs m rom addrs optimize
  | .allOverworld input rom addrs =>
    match readBankAddrs addrs with
    | .error e => (.error e, fs)
    | .ok addrs => writeRom x fs (manifestSingleSong input) rom addrs optimize
  | .fileSelect input rom addrs =>
    match readBankAddrs addrs with
    | .error e => (.error e, fs)
    | .ok addrs => writeRom x fs (manifestFileSelect input) rom addrs optimize
  | .dumpMidi input =>
    match (fs input).bind x.parseMidi with
    | none => (.ok (), fs)
    | some calls =>
      match readMidi x.ord calls with
      | .ok _ => (.ok (), fs)
      | .error (.err _) => (.ok (), fs)
      | .error e => (.error e, fs)
  | .midi2json input output =>
    match songFromMidiFile x fs input defaultTempoAdjust optimize with
    | .error e => (.error e, fs)
    | .ok song => (.ok (), Function.update fs output (some (x.printJson song.toJson)))
  | .genFakeRom input output addrs =>
    match readBankAddrs addrs with
    | .error e => (.error e, fs)
    | .ok addrs =>
      match fs input with
      | none => (failed .io, fs)
      | some rom =>
        match genFakeRom rom addrs with
        | .error e => (.error e, fs)
        | .ok out =>
          (.ok (), Function.update fs output (some (out.take (x.accept rom.length) ++ ((fs output).getD []).drop (min (x.accept rom.length) out.length))))

end M2S.Release
