import Verif.Report
import Verif.Spec.Rom
/-
What the messages of a build must say, in terms of the finished ROM.
-/
namespace M2S.RomSpec

/-- A position in the ROM and an address in ARAM that mean the same place in the bank's song chunk or overflow chunk (or right behind its end). -/
def Bank.Place (b : Bank) (rom aram : Nat) : Prop :=
  (∃ off, off ≤ b.songs.len ∧ rom = b.songs.data + off ∧ aram = 0xd000 + off) ∨
  ∃ off, off ≤ b.over.len ∧ rom = b.over.data + off ∧ aram = b.over.aram + off

/-- The messages that give a size only. -/
def sizeOnly : Line → Bool
  | .switched _ => true
  | .total _ _ => true
  | _ => false

/-- The name of a slot in the messages. -/
def shownName {Path : Type} (fileName : Path → Option String) (d : SongDef Path) : String :=
  match d.input with
  | none => "[empty song]"
  | some p => (fileName p).getD ""

/-- The messages `seg` about the song `e`, whose entry of the song table is at `table`, are true in the memory `m`. The song's header is at `rom` (`aram` in ARAM); `places` are the places of the tracks;
`addr` gives the tracks' pointers. -/
structure SongTold (b : Bank) (m : Mem) (e : Encoded) (table : Nat) (seg : List Line) (rom aram : Nat) (places : List (Nat × Nat)) (addr : Nat → Nat) : Prop where
  /-- The messages, in order: the song, its tracks, its part, the part's pointers, the operands of its subroutine calls. -/
  lines : seg.filter (fun l => !sizeOnly l) =
    [.song rom aram table] ++ places.map (fun p => .track p.1 p.2) ++
    [.part (rom + (if e.loops then 8 else 4)) (aram + (if e.loops then 8 else 4))] ++
    e.part.mapIdx (fun k t => .trackPointer (addr t) (rom + (if e.loops then 8 else 4) + 2 * k)) ++
    (places.zip e.tracks).flatMap (fun x => x.2.refs.map fun r => .loopPointer (addr r.targetTrack) (x.1.1 + r.refPos))
  place : b.Place rom aram
  /-- The song table has the song's address. -/
  entry : word m table = some aram
  /-- The header has the part's address. -/
  head : word m rom = some (aram + (if e.loops then 8 else 4))
  count : places.length = e.tracks.length
  /-- Each track is at its place; its pointer is the place's address, or 0 for an empty track. -/
  tracks : ∀ (i : Nat) (p : Nat × Nat) (o : Out), places[i]? = some p → e.tracks[i]? = some o →
    b.Place p.1 p.2 ∧ addr i = (if o.bytes = [] then 0 else p.2) ∧ TrackAt m addr p.1 o
  /-- The part has the pointers. -/
  part : ∀ k t, e.part[k]? = some t → word m (rom + (if e.loops then 8 else 4) + 2 * k) = some (addr t)
  /-- The subroutine calls have the called tracks' pointers. -/
  calls : ∀ (i : Nat) (p : Nat × Nat) (o : Out), places[i]? = some p → e.tracks[i]? = some o → ∀ r ∈ o.refs, m (p.1 + r.refPos - 1) = some 0xef ∧ word m (p.1 + r.refPos) = some (addr r.targetTrack)

/-- The messages `rep` about a bank with the songs `es`, called `names`, from song number `fs` on, are true in the memory `m`. -/
def BankTold (b : Bank) (m : Mem) (fs : Nat) (name : String) (names : List String) (es : List Encoded) (rep : List Line) : Prop :=
  ∃ segs : List (List Line), rep = .bank name b.songs.data fs b.songs.len :: segs.flatten ∧ segs.length = es.length ∧
    ∀ k seg e n, segs[k]? = some seg → es[k]? = some e → names[k]? = some n →
      (∃ rom aram places addr, SongTold b m e (b.songs.data + 2 * (fs + k)) seg rom aram places addr) ∧
      (∃ size, seg.getLast? = some (.total n size)) ∧
      -- the size is right if the chunk is not switched inside the song
      (∀ rom aram table pre post, seg = pre ++ .song rom aram table :: post → (∀ size, .switched size ∉ post) →
        seg.getLast? = some (.total n (RomSpec.total (songBlocks e.loops e.tracks))))

end M2S.RomSpec
