import Verif.Rom
/-
What `write_bank` prints. `Verif/Rom.lean` models what it writes; here are the same functions with the `println!`s of `--verbose` in place, and with
the names of the files, which are also needed for the progress bar. `Proofs/Report.lean` shows that leaving out the messages gives `Verif/Rom.lean`.
Not modelled: the progress bars themselves (crate `pbr`), and the wording of the messages, which is a constructor of `Line` each.
-/
namespace M2S

/-- A message of `write_bank` with the values it contains, in the order of the text. -/
inductive Line
  /-- "Writing {} bank to 0x{:X} starting at song {}.  Available chunk length is 0x{:X}", `src/rom/mod.rs:180-183`. -/
  | bank (name : String) (rom first length : Nat)
  /-- "Switching to overflow chunk - data size before switch 0x{:X}", `src/rom/mod.rs:219-222` and `293-296`. -/
  | switched (size : Nat)
  /-- "Writing song address 0x{:X} (0x{:X}) to song table at 0x{:X}", `src/rom/mod.rs:232-237`. -/
  | song (rom aram table : Nat)
  /-- "Writing track to 0x{:X} (0x{:X})", `src/rom/mod.rs:307-311`. -/
  | track (rom aram : Nat)
  /-- "Writing part data to 0x{:X} (0x{:X})", `src/rom/mod.rs:344-347`. -/
  | part (rom aram : Nat)
  /-- "Writing track address 0x{:X} to part data at 0x{:X}", `src/rom/mod.rs:355-358`. -/
  | trackPointer (addr at_ : Nat)
  /-- "Writing loop address 0x{:X} to CallLoop instruction at 0x{:X}", `src/rom/mod.rs:369-372`. -/
  | loopPointer (addr at_ : Nat)
  /-- "{} - total track size in current bank 0x{:X}", `src/rom/mod.rs:380-391`. -/
  | total (name : String) (size : Nat)
deriving DecidableEq, Repr

/-- A computation with messages: those printed so far stay when it fails. -/
structure Told (α : Type) where
  lines : List Line
  result : Res α

instance : Monad Told where
  pure a := ⟨[], .ok a⟩
  bind x f := match x.result with
    | .ok a => ⟨x.lines ++ (f a).lines, (f a).result⟩
    | .error e => ⟨x.lines, .error e⟩

/-- `if verbose { println!(…) }`. -/
def say (verbose : Bool) (l : Line) : Told Unit := ⟨if verbose then [l] else [], .ok ()⟩

/-- A step without messages. -/
def quiet {α : Type} (r : Res α) : Told α := ⟨[], r⟩

/-- The message of a switch, `src/rom/mod.rs:218-223` and `292-297`, with its checked subtraction `chunk_length - song_offset`. -/
def saySwitched (verbose : Bool) (chunkLength songOffset : Nat) : Told Unit :=
  if verbose then do
    let size ← quiet (subU chunkLength songOffset)
    say verbose (.switched size)
  else pure ()

/-- `src/rom/mod.rs:212-228` and `286-304`. -/
def tellSwitch (w : Walk) (verbose : Bool) (songOffset offset need romAddr chunkLength aram : Nat) : Told (Bool × Nat × Nat × Nat × Nat) :=
  if offset + need > chunkLength then
    if aram = w.overflowAram then quiet (failed .doesNotFit)
    else do
      let _ ← saySwitched verbose chunkLength songOffset
      pure (true, 0, w.overflowAddr, w.overflowLen, w.overflowAram)
  else pure (false, offset, romAddr, chunkLength, aram)

/-- `src/rom/mod.rs:277-339`. -/
def tellTrack (w : Walk) (verbose : Bool) (songOffset : Nat) (song : Song) (st : TrackLoop) (i : Nat) : Told TrackLoop := do
  let startOffset := st.trackOffset
  let o ← quiet (song.writeTrack i)
  let (switched, off, romAddr, len, aram) ←
    tellSwitch w verbose songOffset st.trackOffset o.bytes.length st.romAddr st.chunkLength st.aramBaseAddr
  let _ ← say verbose (.track (romAddr + off) (aram + off))
  if o.bytes.length > 0 then
    let rom ← quiet (spliceRom st.rom (romAddr + off) o.bytes)
    let pre := if switched then
        o.refs.map fun r => RomCallLoopRef.mk r.targetTrack (w.baseAddr + startOffset) r.refPos
      else []
    let cur := if switched then []
      else o.refs.map fun r => RomCallLoopRef.mk r.targetTrack (romAddr + off) r.refPos
    return { rom := rom, romAddr := romAddr, chunkLength := len, aramBaseAddr := aram
             trackOffset := off + o.bytes.length
             trackAddrs := st.trackAddrs ++ [aram + off]
             callLoops := st.callLoops ++ pre ++ cur }
  else
    return { rom := st.rom, romAddr := romAddr, chunkLength := len, aramBaseAddr := aram
             trackOffset := off
             trackAddrs := st.trackAddrs ++ [0]
             callLoops := st.callLoops }

/-- `src/rom/mod.rs:354-362` and `367-376`: the message comes after the look-up of the track's address and before the bytes are stored. -/
def tellTrackAddr (verbose : Bool) (line : Nat → Nat → Line) (rom : Rom) (trackAddrs : List Nat) (t p : Nat) : Told Rom :=
  match trackAddrs[t]? with
  | none => quiet panicked
  | some a => do
    let _ ← say verbose (line a p)
    quiet (pokes rom (pointerPokes p a))

/-- `src/rom/mod.rs:353-364`. -/
def tellPartTracks (verbose : Bool) (trackAddrs : List Nat) : List Nat → Nat → Rom → Told Rom
  | [], _, rom => pure rom
  | t :: ts, p, rom => do
    let rom ← tellTrackAddr verbose .trackPointer rom trackAddrs t p
    tellPartTracks verbose trackAddrs ts (p + 2) rom

/-- `src/rom/mod.rs:366-377`. -/
def tellCallLoops (verbose : Bool) (trackAddrs : List Nat) (refs : List RomCallLoopRef) (rom : Rom) : Told Rom :=
  refs.foldlM (fun rom r => tellTrackAddr verbose .loopPointer rom trackAddrs r.targetTrack (r.chunkBase + r.refPos)) rom

/-- One song, `src/rom/mod.rs:211-394`; `name` is what the last message calls it. -/
def tellSong (w : Walk) (verbose : Bool) (st : BankState) (song : Song) (loops : Bool) (name : String) : Told BankState := do
  let (_, off, romAddr, len, aram) ←
    tellSwitch w verbose st.songOffset st.songOffset (songHeaderSize loops + 16) st.romAddr st.chunkLength st.aramBaseAddr
  let _ ← say verbose (.song (romAddr + off) (aram + off) st.songTableAddr)
  let rom ← quiet (pokes st.rom (pointerPokes st.songTableAddr (aram + off)))
  let partOff := off + songHeaderSize loops
  let partAram := aram + partOff
  let partRom := romAddr + partOff
  let rom ← quiet (pokes rom (songHeaderPokes loops (romAddr + off) (aram + off) partAram))
  let tl ← (List.range song.tracks.length).foldlM (tellTrack w verbose off song)
    { rom := rom, romAddr := romAddr, chunkLength := len, aramBaseAddr := aram
      trackOffset := partOff + 16, trackAddrs := [], callLoops := [] }
  let _ ← say verbose (.part partRom partAram)
  let rom ← quiet (pokes tl.rom ((List.range 16).map fun i => (partRom + i, 0)))
  let part ← quiet (song.partTracks 0)
  let rom ← tellPartTracks verbose tl.trackAddrs part partRom rom
  let rom ← tellCallLoops verbose tl.trackAddrs tl.callLoops rom
  let _ ← say verbose (.total name (if tl.trackOffset > off then tl.trackOffset - off else tl.trackOffset))
  return { rom := rom, romAddr := tl.romAddr, chunkLength := tl.chunkLength, aramBaseAddr := tl.aramBaseAddr
           songOffset := tl.trackOffset, songTableAddr := st.songTableAddr + 2 }

/-- The name of a slot in the messages, `src/rom/mod.rs:193-196` and `382-385`: `fileName` is `path.file_name()` followed by `to_str()`; both results
are unwrapped. -/
def slotName {Path : Type} (fileName : Path → Option String) (d : SongDef Path) : Res String :=
  match d.input with
  | some p => match fileName p with
    | some n => .ok n
    | none => panicked
  | none => .ok "[empty song]"

/-- The parts of a path between slashes. -/
def pathParts : List Char → List (List Char)
  | [] => [[]]
  | c :: cs => if c = '/' then [] :: pathParts cs
    else match pathParts cs with
      | [] => [[c]]
      | n :: ns => (c :: n) :: ns

/-- `Path::file_name` of the standard library on Unix, then `to_str` (manifest paths are strings, so the name is one too): empty parts and `.` do not count; the last part, unless
it is `..`. -/
def unixFileName (path : String) : Option String :=
  match ((pathParts path.toList).filter fun n => n ≠ [] ∧ n ≠ ['.']).getLast? with
  | none => none
  | some n => if n = ['.', '.'] then none else some (String.ofList n)

/-- `write_bank`, `src/rom/mod.rs:128-400`. The name is needed before the song is converted (for the progress bar). -/
def tellBank {Path : Type} (conv : Converter Path) (fileName : Path → Option String) (verbose : Bool) (bankName : String) (songs : List (SongDef Path))
    (rom : Rom) (baseAddr firstSongAddr firstSong : Nat) : Told Rom := do
  let w ← quiet (findChunks rom baseAddr)
  let _ ← say verbose (.bank bankName w.baseAddr firstSong w.baseLen)
  let songOffset ← quiet (subU firstSongAddr aramBase)
  let st ← songs.foldlM (fun st d => do
      let name ← quiet (slotName fileName d)
      let song ← quiet (loadSong conv d)
      tellSong w verbose st song d.loops name)
    { rom := rom, romAddr := w.baseAddr, chunkLength := w.baseLen, aramBaseAddr := aramBase
      songOffset := songOffset, songTableAddr := w.baseAddr + firstSong * 2 : BankState }
  let stop := w.baseAddr + firstSongAddr - aramBase
  quiet (pokes st.rom ((List.range' st.songTableAddr (stop - st.songTableAddr)).map fun i => (i, 0)))

/-- The fold over the banks in `rom::write`, `src/rom/mod.rs:99-119`; banks with their name, base address and first song address. -/
def tellBanks {Path : Type} (conv : Converter Path) (fileName : Path → Option String) (verbose : Bool) :
    List (String × List (SongDef Path) × Nat × Nat) → Rom → Nat → Told Rom
  | [], rom, _ => pure rom
  | (name, songs, baseAddr, firstAddr) :: bs, rom, firstSong => do
    let rom ← tellBank conv fileName verbose name songs rom baseAddr firstAddr firstSong
    tellBanks conv fileName verbose bs rom (firstSong + songs.length)

end M2S
