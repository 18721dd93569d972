import Verif.Rom
import Verif.Spec.Nspc
/-
The ROM and the sound memory (ARAM) as the game sees them, written independently of the builder in `Verif/Rom.lean`:
LoROM addressing, little-endian words, the chunk list of a sound bank, and the upload of a bank to ARAM.
-/
namespace M2S.RomSpec

/-- File position of an SNES address in a LoROM cartridge: 32 KiB per bank. -/
def lorom (bank offset : Nat) : Nat := bank * 0x8000 + offset % 0x8000

/-- A memory: a byte for each address, or nothing. -/
abbrev Mem := Nat → Option UInt8

/-- A little-endian 16-bit word. -/
def word (m : Mem) (a : Nat) : Option Nat :=
  match m a, m (a + 1) with
  | some lo, some hi => some (lo.toNat + 256 * hi.toNat)
  | _, _ => none

/-- The ROM as a memory. -/
def ofRom (rom : List UInt8) : Mem := fun i => rom[i]?

/-- One chunk of a sound bank: position of its four-byte header, length of its data, destination in ARAM. -/
structure ChunkInfo where
  pos : Nat
  len : Nat
  aram : Nat
deriving DecidableEq, Repr

/-- Position of the chunk's data. -/
def ChunkInfo.data (c : ChunkInfo) : Nat := c.pos + 4

/-- Position of the next chunk's header. -/
def ChunkInfo.next (c : ChunkInfo) : Nat := c.pos + 4 + c.len

/-- The header at a position: length, then destination. -/
def header (m : Mem) (p : Nat) : Option ChunkInfo :=
  match word m p, word m (p + 2) with
  | some len, some aram => some ⟨p, len, aram⟩
  | _, _ => none

/-- Consecutive chunks in memory: each one starts where the one before ends. -/
inductive Chunks (m : Mem) : Nat → List ChunkInfo → Prop
  | nil (p : Nat) : Chunks m p []
  | cons {p : Nat} {c : ChunkInfo} {cs : List ChunkInfo} (h : header m p = some c) (t : Chunks m c.next cs) :
      Chunks m p (c :: cs)

/-- The chunk list of a bank as the game uploads it: consecutive chunks up to the first one of length 0, which is the end mark
(its destination is the entry point). -/
def ChunkList (m : Mem) (p : Nat) (cs : List ChunkInfo) (stop : ChunkInfo) : Prop :=
  Chunks m p (cs ++ [stop]) ∧ (∀ c ∈ cs, c.len ≠ 0) ∧ stop.len = 0

/-- The start of a bank's chunk list: the three operand bytes (low, high, bank) of the loading instructions at `base`,
`base + 4`, `base + 8` (SNES addresses of 24 bits). -/
def bankPointer (m : Mem) (base : Nat) : Option Nat :=
  match m (lorom (base / 0x10000) base), m (lorom ((base + 4) / 0x10000) (base + 4)),
    m (lorom ((base + 8) / 0x10000) (base + 8)) with
  | some low, some high, some bank => some (lorom bank.toNat (256 * high.toNat + low.toNat))
  | _, _, _ => none

/-- ARAM after the chunks have been copied there in order: later chunks overwrite earlier ones. -/
def upload (m : Mem) : List ChunkInfo → Mem → Mem
  | [], aram => aram
  | c :: cs, aram => upload m cs fun a => if c.aram ≤ a ∧ a < c.aram + c.len then m (c.data + (a - c.aram)) else aram a

/-! Layout of a bank's songs. -/

/-- A block of data that is stored in one piece; `calls` says whether it is a track with subroutine calls. -/
structure Block where
  size : Nat
  calls : Bool
deriving DecidableEq, Repr

/-- The blocks of a song in order: its header (4 bytes, or 8 if it loops) with the part's eight track pointers, then the encoded tracks. -/
def songBlocks (loops : Bool) (tracks : List Out) : List Block :=
  ⟨(if loops then 8 else 4) + 16, false⟩ :: tracks.map fun o => ⟨o.bytes.length, !o.refs.isEmpty⟩

/-- The blocks that fit one after the other into `free` bytes, and the rest, beginning with the first that does not fit. -/
def takeFit : Nat → List Block → List Block × List Block
  | _, [] => ([], [])
  | free, b :: bs => if b.size ≤ free then (b :: (takeFit (free - b.size) bs).1, (takeFit (free - b.size) bs).2) else ([], b :: bs)

/-- Total size of blocks. -/
def total (bs : List Block) : Nat := (bs.map Block.size).sum

/-- A song ready to be stored: does it loop, the track numbers of its part, its encoded tracks. -/
structure Encoded where
  loops : Bool
  part : List Nat
  tracks : List Out

/-- `e` is the song of slot `d`: converted, and each track encoded. -/
def EncodedOf {Path : Type} (conv : Converter Path) (d : SongDef Path) (e : Encoded) : Prop :=
  ∃ song, loadSong conv d = .ok song ∧ e.loops = d.loops ∧ song.partTracks 0 = .ok e.part ∧
    List.Forall₂ (fun i o => song.writeTrack i = .ok o) (List.range song.tracks.length) e.tracks

/-- The blocks of a bank, in order. -/
def blocks (es : List Encoded) : List Block := es.flatMap fun e => songBlocks e.loops e.tracks

/-- The songs fit into a base chunk of `baseLen` and an overflow chunk of `overLen` bytes, when the first song is at offset `off` of the
base chunk and the song table starts with entry `fs` (the first bank starts with 0): there is room for the table; what does not fit into
the base chunk fits into the overflow chunk; parts have at most eight tracks; and the first block in the overflow chunk is not a track with subroutine calls. -/
structure Fits (baseLen overLen off fs : Nat) (es : List Encoded) : Prop where
  table : 2 * (fs + es.length) ≤ off
  start : off ≤ baseLen
  rest : total (takeFit (baseLen - off) (blocks es)).2 ≤ overLen
  parts : ∀ e ∈ es, e.part.length ≤ 8
  calls : ∀ b ∈ (takeFit (baseLen - off) (blocks es)).2.head?, b.calls = false

/-! A sound bank of a ROM. -/

/-- A bank: its chunk list starts at `start` and is `pre`, the song chunk, the overflow chunk, `post`. -/
structure Bank where
  start : Nat
  pre : List ChunkInfo
  songs : ChunkInfo
  over : ChunkInfo
  post : List ChunkInfo

/-- All chunks of a bank. -/
def Bank.chunks (b : Bank) : List ChunkInfo := b.pre ++ b.songs :: b.over :: b.post

/-- The bank is in memory, with its pointer bytes in the instructions at `base`: exactly the last chunk has length 0, and the song chunk is the last one for D000. -/
structure Bank.In (b : Bank) (m : Mem) (base : Nat) : Prop where
  pointer : bankPointer m base = some b.start
  chunks : Chunks m b.start b.chunks
  last : ∀ c ∈ b.chunks.getLast?, c.len = 0
  inner : ∀ c ∈ b.chunks.dropLast, c.len ≠ 0
  songs : b.songs.aram = 0xd000
  later : ∀ c ∈ b.over :: b.post, c.aram ≠ 0xd000

/-- Positions of the data of the song chunk and the overflow chunk. -/
def Bank.Data (b : Bank) (i : Nat) : Prop :=
  (b.songs.data ≤ i ∧ i < b.songs.next) ∨ (b.over.data ≤ i ∧ i < b.over.next)

/-- Positions of the pointer bytes for `base` and of the headers of the chunks `cs`. -/
def Skeleton (base : Nat) (cs : List ChunkInfo) (i : Nat) : Prop :=
  i = lorom (base / 0x10000) base ∨ i = lorom ((base + 4) / 0x10000) (base + 4) ∨ i = lorom ((base + 8) / 0x10000) (base + 8) ∨
  ∃ c ∈ cs, c.pos ≤ i ∧ i < c.pos + 4

/-- Positions of the pointer bytes and the chunk headers of a bank. -/
def Bank.Meta (b : Bank) (base i : Nat) : Prop := Skeleton base b.chunks i

/-- A chunk list with its start and its end mark. -/
structure Listed where
  start : Nat
  chunks : List ChunkInfo
  stop : ChunkInfo

/-- The bank of the instructions at `base` is this chunk list. -/
def Listed.In (l : Listed) (m : Mem) (base : Nat) : Prop :=
  bankPointer m base = some l.start ∧ ChunkList m l.start l.chunks l.stop

/-! Songs in ARAM. -/

/-- The track's bytes at an address, with the operands of its subroutine calls filled in. -/
def TrackAt (a : Mem) (addr : Nat → Nat) (pos : Nat) (o : Out) : Prop :=
  ∀ j, j < o.bytes.length →
    a (pos + j) = (o.refs.foldl (Nspc.patchOne fun t => (UInt8.ofNat (addr t), UInt8.ofNat (addr t / 256))) o.bytes)[j]?

/-- A song at address `T`, as the engine reads it: the address of the part, then 0, or FF and the address to go on with (the song itself) and 0;
the part's eight track pointers, 0 for none; `addr` gives the addresses of the tracks, 0 for empty ones. Addresses of parts and tracks are at least 100, because smaller
numbers have other meanings. -/
structure SongAt (a : Mem) (T : Nat) (e : Encoded) (addr : Nat → Nat) : Prop where
  part : ∃ P, word a T = some P ∧ 0x100 ≤ P ∧ ∀ k < 8, word a (P + 2 * k) = some ((e.part[k]?.map addr).getD 0)
  stop : if e.loops then word a (T + 2) = some 0xff ∧ word a (T + 4) = some T ∧ word a (T + 6) = some 0 else word a (T + 2) = some 0
  tracks : ∀ t o, e.tracks[t]? = some o → if o.bytes = [] then addr t = 0 else 0x100 ≤ addr t ∧ TrackAt a addr (addr t) o
  range : ∀ t, addr t < 0x10000

/-- Two ranges of ARAM have nothing in common. -/
def ChunkInfo.Apart (c d : ChunkInfo) : Prop := c.aram + c.len ≤ d.aram ∨ d.aram + d.len ≤ c.aram

/-! Building several banks. -/

/-- One bank of a build: its slots, the address of its pointer instructions, the ARAM address of its first song; the bank in the ROM and the encoded songs. -/
structure Job (Path : Type) where
  songs : List (SongDef Path)
  base : Nat
  first : Nat
  bank : Bank
  encoded : List Encoded

/-- The job as given to the builder. -/
def Job.args {Path : Type} (j : Job Path) : List (SongDef Path) × Nat × Nat := (j.songs, j.base, j.first)

/-- The bank is in the ROM, the songs of its slots are the encoded ones, and they fit. -/
structure Job.Ready {Path : Type} (conv : Converter Path) (m : Mem) (fs : Nat) (j : Job Path) : Prop where
  addr : j.base + 8 < 2 ^ 24
  bank : j.bank.In m j.base
  songs : List.Forall₂ (EncodedOf conv) j.songs j.encoded
  fits : Fits j.bank.songs.len j.bank.over.len (j.first - 0xd000) fs j.encoded

/-- All jobs are ready; songs are numbered through. -/
def AllReady {Path : Type} (conv : Converter Path) (m : Mem) : Nat → List (Job Path) → Prop
  | _, [] => True
  | fs, j :: js => j.Ready conv m fs ∧ AllReady conv m (fs + j.songs.length) js

/-- No song data lies over pointers or chunk headers. -/
def HeadersSafe {Path : Type} (js : List (Job Path)) : Prop :=
  ∀ i ∈ js, ∀ j ∈ js, ∀ q, i.bank.Data q → ¬ j.bank.Meta j.base q

/-- The song data of different banks lies in different places. -/
def DataApart {Path : Type} (js : List (Job Path)) : Prop :=
  js.Pairwise fun i j => ∀ q, i.bank.Data q → ¬ j.bank.Data q

/-- The chunks of a bank do not overwrite its songs in ARAM, and songs are above the engine's page 0 and end below 10000. -/
structure Bank.Clean (b : Bank) : Prop where
  songs : ∀ c ∈ b.over :: b.post, c.Apart b.songs
  over : ∀ c ∈ b.post, c.Apart b.over
  top : 0xd000 + b.songs.len ≤ 0x10000
  overTop : b.over.aram + b.over.len ≤ 0x10000
  overPage : 0x100 ≤ b.over.aram

end M2S.RomSpec
