import Verif.Song
/-
Model of `src/rom/mod.rs`: finding the song chunks in a ROM image and writing songs into them.
`usize` additions are unchecked `Nat` additions (addresses are below `2^25`); subtractions, indices, ranges
and the `u32` additions on the user-supplied bank addresses are checked.
-/
namespace M2S

/-- `romdata: Vec<u8>`. -/
abbrev Rom := List UInt8

/-- `DEFAULT_BANK_BASE_ADDRS`, `src/rom/mod.rs:14`. -/
def defaultBankBaseAddrs : List Nat := [0x914, 0x926, 0x932]
/-- `BANK_FIRST_SONG_ADDRS`, `src/rom/mod.rs:15`. -/
def bankFirstSongAddrs : List Nat := [0xD036, 0xD046, 0xD046]
/-- `ARAM_BASE`, `src/rom/mod.rs:16`. -/
def aramBase : Nat := 0xd000

/-- `snes_to_pc_addr`, `src/rom/mod.rs:18-20` (the sum of a 15-bit and a 24-bit number cannot overflow `u32`). -/
def snesToPc (a : Nat) : Nat := (a &&& 0x7FFF) + ((a / 2) &&& 0xFF8000)

/-- `snes_bytes_to_pc_addr`, `src/rom/mod.rs:22-24` (24-bit values, no overflow). -/
def snesBytesToPc (bank high low : UInt8) : Nat :=
  snesToPc ((bank.toNat <<< 16) + (high.toNat <<< 8) + low.toNat)

/-- `addr_to_bytes`, `src/rom/mod.rs:26-28`: `(high, low)`. -/
def addrToBytes (addr : Nat) : UInt8 × UInt8 :=
  (UInt8.ofNat ((addr >>> 8) &&& 0xFF), UInt8.ofNat (addr &&& 0xFF))

/-- `romdata[i]` as a read. -/
def peek (rom : Rom) (i : Nat) : Res UInt8 :=
  match rom[i]? with
  | some b => .ok b
  | none => panicked

/-- `romdata[i] = b`. -/
def poke (rom : Rom) (i : Nat) (b : UInt8) : Res Rom :=
  if i < rom.length then .ok (rom.set i b) else panicked

/-- A sequence of single-byte writes, in order. -/
def pokes (rom : Rom) : List (Nat × UInt8) → Res Rom
  | [] => .ok rom
  | (i, b) :: ws => do
    let rom ← poke rom i b
    pokes rom ws

/-- `romdata.splice(start..start+len, data)` with `data.len() == len`. -/
def spliceRom (rom : Rom) (start : Nat) (data : List UInt8) : Res Rom :=
  if start + data.length ≤ rom.length then
    .ok (rom.take start ++ data ++ rom.drop (start + data.length))
  else panicked

/-- `struct Chunk`, `src/rom/mod.rs:36-40`. -/
structure Chunk where
  offsetAddr : Nat
  length : Nat
  aramAddr : Nat
deriving DecidableEq, Repr

/-- `Chunk::load`, `src/rom/mod.rs:43-53`. -/
def chunkLoad (rom : Rom) (start : Nat) : Res Chunk := do
  let b1 ← peek rom (start + 1)
  let b0 ← peek rom start
  let b3 ← peek rom (start + 3)
  let b2 ← peek rom (start + 2)
  return { offsetAddr := start + 4
           length := (b1.toNat <<< 8) + b0.toNat
           aramAddr := (b3.toNat <<< 8) + b2.toNat }

/-- `Chunk::write_header`, `src/rom/mod.rs:55-60`. -/
def Chunk.writeHeader (c : Chunk) (rom : Rom) (start : Nat) : Res Rom :=
  pokes rom
    [(start, UInt8.ofNat (c.length &&& 0xff)), (start + 1, UInt8.ofNat ((c.length >>> 8) &&& 0xff)),
     (start + 2, UInt8.ofNat (c.aramAddr &&& 0xff)), (start + 3, UInt8.ofNat ((c.aramAddr >>> 8) &&& 0xff))]

/-- A song slot of a bank: `manifest::Song`, `src/manifest/mod.rs:46-51`. -/
structure SongDef (Path : Type) where
  input : Option Path
  tempoFactor : F32
  loops : Bool

/-- `converter: &Fn(&Path, f32) -> Result<Song, Error>`. -/
abbrev Converter (Path : Type) := Path → F32 → Res Song

/-- The position of the first chunk: `src/rom/mod.rs:140-143`. -/
def bankStart (rom : Rom) (baseAddr : Nat) : Res (Nat × UInt8 × UInt8 × UInt8) := do
  let a8 ← addU32 baseAddr 8
  let bank ← peek rom (snesToPc a8)
  let a4 ← addU32 baseAddr 4
  let high ← peek rom (snesToPc a4)
  let low ← peek rom (snesToPc baseAddr)
  return (snesBytesToPc bank high low, bank, high, low)

/-- Loop variables of the chunk walk, `src/rom/mod.rs:143-149`. -/
structure Walk where
  addr : Nat
  lastLength : Nat := 0xffff
  baseAddr : Nat := 0
  baseLen : Nat := 0
  overflowAddr : Nat := 0
  overflowLen : Nat := 0
  overflowAram : Nat := 0
deriving DecidableEq, Repr

/-- One iteration of the chunk walk, `src/rom/mod.rs:151-163`. As in the Rust code the inner `chunk` is a
new variable, so `addr` ends up behind the outer chunk. -/
def walkStep (rom : Rom) (w : Walk) : Res Walk := do
  let c ← chunkLoad rom w.addr
  if c.aramAddr = aramBase then
    let o ← chunkLoad rom (c.offsetAddr + c.length)
    return { addr := c.offsetAddr + c.length
             lastLength := o.length
             baseAddr := c.offsetAddr
             baseLen := c.length
             overflowAddr := o.offsetAddr
             overflowLen := o.length
             overflowAram := o.aramAddr }
  else return { w with addr := c.offsetAddr + c.length, lastLength := c.length }

/-- The chunk walk, `src/rom/mod.rs:150-164`, with fuel (`rom.length + 1` suffices, `Proofs/RomWalk.lean`). -/
def walkLoop (rom : Rom) : Nat → Walk → Res Walk
  | 0, w => if w.lastLength = 0 then .ok w else .error .diverged
  | fuel + 1, w =>
    if w.lastLength = 0 then .ok w
    else do
      let w ← walkStep rom w
      walkLoop rom fuel w

/-- Finding the two chunks of a bank, `src/rom/mod.rs:140-174`. -/
def findChunks (rom : Rom) (baseAddr : Nat) : Res Walk := do
  let (addr, _) ← bankStart rom baseAddr
  let w ← walkLoop rom (rom.length + 1) { addr := addr }
  if w.baseAddr = 0 then failed .noBaseChunk
  else if w.overflowAddr = 0 then failed .noOverflowChunk
  else return w

/-- Loop variables of the song loop of `write_bank`, `src/rom/mod.rs:175-190`, plus the ROM. -/
structure BankState where
  rom : Rom
  romAddr : Nat
  chunkLength : Nat
  aramBaseAddr : Nat
  songOffset : Nat
  songTableAddr : Nat

/-- `struct RomCallLoopRef`, `src/rom/mod.rs:30-34`. -/
structure RomCallLoopRef where
  targetTrack : Nat
  chunkBase : Nat
  refPos : Nat
deriving DecidableEq, Repr

/-- Loop variables of the track loop, `src/rom/mod.rs:271-276`, plus those of the song loop it changes. -/
structure TrackLoop where
  rom : Rom
  romAddr : Nat
  chunkLength : Nat
  aramBaseAddr : Nat
  trackOffset : Nat
  trackAddrs : List Nat
  callLoops : List RomCallLoopRef

/-- The test-and-switch to the overflow chunk (`src/rom/mod.rs:212-228` and `286-304`): `need` is what must fit.
Returns `(switched, offset, romAddr, chunkLength, aramBase)`. With `verbose` the message computes
`chunk_length - song_offset`, a checked subtraction. -/
def switchChunk (w : Walk) (verbose : Bool) (songOffset offset need romAddr chunkLength aram : Nat) :
    Res (Bool × Nat × Nat × Nat × Nat) :=
  if offset + need > chunkLength then
    if aram = w.overflowAram then failed .doesNotFit
    else if verbose ∧ songOffset > chunkLength then panicked
    else .ok (true, 0, w.overflowAddr, w.overflowLen, w.overflowAram)
  else .ok (false, offset, romAddr, chunkLength, aram)

/-- One track of a song, `src/rom/mod.rs:277-339`. -/
def writeSongTrack (w : Walk) (verbose : Bool) (songOffset : Nat) (song : Song) (st : TrackLoop) (i : Nat) :
    Res TrackLoop := do
  let startOffset := st.trackOffset
  let o ← song.writeTrack i
  let (switched, off, romAddr, len, aram) ←
    switchChunk w verbose songOffset st.trackOffset o.bytes.length st.romAddr st.chunkLength st.aramBaseAddr
  if o.bytes.length > 0 then
    let rom ← spliceRom st.rom (romAddr + off) o.bytes
    let pre := if switched then
        o.refs.map fun r => RomCallLoopRef.mk r.targetTrack (w.baseAddr + startOffset) r.refPos
      else []
    let cur := if switched then []
      else o.refs.map fun r => RomCallLoopRef.mk r.targetTrack (romAddr + off) r.refPos
    return { rom := rom, romAddr := romAddr, chunkLength := len, aramBaseAddr := aram
             trackOffset := off + o.bytes.length
             trackAddrs := st.trackAddrs ++ [aram + off]
             callLoops := st.callLoops ++ pre ++ cur }
  else
    return { rom := st.rom, romAddr := romAddr, chunkLength := len, aramBaseAddr := aram
             trackOffset := off
             trackAddrs := st.trackAddrs ++ [0]
             callLoops := st.callLoops }

/-- The two bytes of a pointer, high byte written first (`src/rom/mod.rs:240-241,256-257,361-362,375-376`). -/
def pointerPokes (at_ : Nat) (addr : Nat) : List (Nat × UInt8) :=
  [(at_ + 1, (addrToBytes addr).1), (at_, (addrToBytes addr).2)]

/-- `romdata[p..] = address of track t`, `src/rom/mod.rs:360-362,374-376`. -/
def pokeTrackAddr (rom : Rom) (trackAddrs : List Nat) (t p : Nat) : Res Rom :=
  match trackAddrs[t]? with
  | none => panicked
  | some a => pokes rom (pointerPokes p a)

/-- The part's track pointers, `src/rom/mod.rs:353-364`. -/
def writePartTracks (trackAddrs : List Nat) : List Nat → Nat → Rom → Res Rom
  | [], _, rom => .ok rom
  | t :: ts, p, rom => do
    let rom ← pokeTrackAddr rom trackAddrs t p
    writePartTracks trackAddrs ts (p + 2) rom

/-- The CallLoop operands, `src/rom/mod.rs:366-377`. -/
def writeCallLoops (trackAddrs : List Nat) (refs : List RomCallLoopRef) (rom : Rom) : Res Rom :=
  refs.foldlM (fun rom r => pokeTrackAddr rom trackAddrs r.targetTrack (r.chunkBase + r.refPos)) rom

/-- Size of the song header before the part data, `src/rom/mod.rs:212,246-252`. -/
def songHeaderSize (loops : Bool) : Nat := if loops then 8 else 4

/-- The song header, `src/rom/mod.rs:255-268`: `at_` is its ROM position, `songAram`/`partAram` the ARAM addresses of the song
and of its part data. -/
def songHeaderPokes (loops : Bool) (at_ songAram partAram : Nat) : List (Nat × UInt8) :=
  pointerPokes at_ partAram ++
  if loops then
    [(at_ + 3, 0x00), (at_ + 2, 0xff)] ++
    [(at_ + 5, (addrToBytes songAram).1), (at_ + 4, (addrToBytes songAram).2)] ++
    [(at_ + 7, 0x00), (at_ + 6, 0x00)]
  else [(at_ + 3, 0x00), (at_ + 2, 0x00)]

/-- One song of the song loop, `src/rom/mod.rs:192-395`, after the song has been converted. -/
def writeSong (w : Walk) (verbose : Bool) (st : BankState) (song : Song) (loops : Bool) : Res BankState := do
  let (_, off, romAddr, len, aram) ←
    switchChunk w verbose st.songOffset st.songOffset (songHeaderSize loops + 16) st.romAddr st.chunkLength st.aramBaseAddr
  let rom ← pokes st.rom (pointerPokes st.songTableAddr (aram + off))
  let partOff := off + songHeaderSize loops
  let partAram := aram + partOff
  let partRom := romAddr + partOff
  let rom ← pokes rom (songHeaderPokes loops (romAddr + off) (aram + off) partAram)
  let tl ← (List.range song.tracks.length).foldlM (writeSongTrack w verbose off song)
    { rom := rom, romAddr := romAddr, chunkLength := len, aramBaseAddr := aram
      trackOffset := partOff + 16, trackAddrs := [], callLoops := [] }
  let rom ← pokes tl.rom ((List.range 16).map fun i => (partRom + i, 0))
  let part ← song.partTracks 0
  let rom ← writePartTracks tl.trackAddrs part partRom rom
  let rom ← writeCallLoops tl.trackAddrs tl.callLoops rom
  return { rom := rom, romAddr := tl.romAddr, chunkLength := tl.chunkLength, aramBaseAddr := tl.aramBaseAddr
           songOffset := tl.trackOffset, songTableAddr := st.songTableAddr + 2 }

/-- Loading the song of a slot, `src/rom/mod.rs:206-209`. -/
def loadSong {Path : Type} (conv : Converter Path) (d : SongDef Path) : Res Song :=
  match d.input with
  | some p => conv p d.tempoFactor
  | none => songEmpty

/-- `write_bank`, `src/rom/mod.rs:128-400`. Progress bars and messages are omitted, with them the panic of
`path.file_name().unwrap()` in the progress message of a song path without file name; `tellBank` in `Report.lean` has them. -/
def writeBank {Path : Type} (conv : Converter Path) (verbose : Bool) (songs : List (SongDef Path)) (rom : Rom)
    (baseAddr firstSongAddr firstSong : Nat) : Res Rom := do
  let w ← findChunks rom baseAddr
  let songOffset ← subU firstSongAddr aramBase
  let st ← songs.foldlM (fun st d => do
      let song ← loadSong conv d
      writeSong w verbose st song d.loops)
    { rom := rom, romAddr := w.baseAddr, chunkLength := w.baseLen, aramBaseAddr := aramBase
      songOffset := songOffset, songTableAddr := w.baseAddr + firstSong * 2 : BankState }
  let stop := w.baseAddr + firstSongAddr - aramBase
  pokes st.rom ((List.range' st.songTableAddr (stop - st.songTableAddr)).map fun i => (i, 0))

/-- The fold over the banks in `rom::write`, `src/rom/mod.rs:99-119`: banks with their base address and first
song address. -/
def writeBanks {Path : Type} (conv : Converter Path) (verbose : Bool) :
    List (List (SongDef Path) × Nat × Nat) → Rom → Nat → Res Rom
  | [], rom, _ => .ok rom
  | (songs, baseAddr, firstAddr) :: bs, rom, firstSong => do
    let rom ← writeBank conv verbose songs rom baseAddr firstAddr firstSong
    writeBanks conv verbose bs rom (firstSong + songs.length)

/-- What `rom::write` computes in memory, `src/rom/mod.rs:74-119`: `banks` are the manifest's banks, `addrs` the three bank
base addresses. Manifests always have three banks, so nothing is lost by `zip`. -/
def buildRom {Path : Type} (conv : Converter Path) (verbose : Bool) (banks : List (List (SongDef Path)))
    (addrs : List Nat) (rom : Rom) : Res Rom :=
  writeBanks conv verbose (banks.zip (addrs.zip bankFirstSongAddrs)) rom 0

/-- `rom::write`, `src/rom/mod.rs:63-126`, as a function of the file's contents: the outcome and the new contents.
`accepted` is the number of bytes the single `file.write` call stores (the operating system may store fewer than asked;
the code ignores the count). -/
def romWrite {Path : Type} (conv : Converter Path) (verbose : Bool) (banks : List (List (SongDef Path)))
    (addrs : List Nat) (accepted : Nat) (file : List UInt8) : Res Unit × List UInt8 :=
  match buildRom conv verbose banks addrs file with
  | .error e => (.error e, file)
  | .ok rom => (.ok (), rom.take accepted ++ file.drop (min accepted rom.length))

/-- One chunk of the copy loop of `gen_fake_rom`, `src/rom/mod.rs:456-461`. -/
def fakeLoop (rom : Rom) : Nat → Nat → Nat → Rom → Res Rom
  | 0, last, _, out => if last = 0 then .ok out else .error .diverged
  | fuel + 1, last, addr, out =>
    if last = 0 then .ok out
    else do
      let c ← chunkLoad rom addr
      let out ← c.writeHeader out addr
      fakeLoop rom fuel c.length (c.offsetAddr + c.length) out

/-- One bank of `gen_fake_rom`, `src/rom/mod.rs:447-461`. -/
def fakeBank (rom : Rom) (out : Rom) (baseAddr : Nat) : Res Rom := do
  let (addr, bank, high, low) ← bankStart rom baseAddr
  let out ← pokes out [(snesToPc (baseAddr + 8), bank), (snesToPc (baseAddr + 4), high), (snesToPc baseAddr, low)]
  fakeLoop rom (rom.length + 1) 0xffff addr out

/-- The image `gen_fake_rom` computes, `src/rom/mod.rs:441-462`. -/
def genFakeRom (rom : Rom) (addrs : List Nat) : Res Rom :=
  addrs.foldlM (fakeBank rom) (List.replicate rom.length 0)

/-- The output file after `gen_fake_rom`, `src/rom/mod.rs:464-468`: the file is opened without truncation, so bytes of an
older, longer file stay. (`accepted` as in `romWrite`.) -/
def genFakeRomFile (rom : Rom) (addrs : List Nat) (accepted : Nat) (oldFile : List UInt8) : Res Unit × List UInt8 :=
  match genFakeRom rom addrs with
  | .error e => (.error e, oldFile)
  | .ok out => (.ok (), out.take accepted ++ oldFile.drop (min accepted out.length))

end M2S
