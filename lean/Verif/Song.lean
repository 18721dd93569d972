import Verif.Track
import Verif.SeqTree
import Verif.Midi
/-
Model of `src/nspc/mod.rs`: songs, loop optimisation and writing of tracks.
-/
namespace M2S

/-- `PREAMBLE_TRACK_0`, `src/nspc/mod.rs:19-23`. -/
def preambleTrack0 : List UInt8 := [0xfa, 0x19, 0xe5, 0xc8, 0xed, 0xc8]

/-- `PREAMBLE_OTHER_TRACK`, `src/nspc/mod.rs:25-27`. -/
def preambleOtherTrack : List UInt8 := [0xed, 0xc8]

/-- `struct Song` and `struct Part`, `src/nspc/mod.rs:35-44`: a part is its list of track indices, a track its list of
commands. -/
structure Song where
  parts : List (List Nat)
  tracks : List (List PCmd)
deriving DecidableEq, Repr

/-- The CallLoop command inserted by `extract_sequence`, `src/nspc/mod.rs:134-139`. -/
def loopCmd (target : Nat) (count : UInt8) : PCmd := ⟨some 0, some 0, some 0, .callLoop target count⟩

/-- `&track[a..b]` as a checked slice. -/
def slice (l : List PCmd) (a b : Nat) : Res (List PCmd) :=
  if a ≤ b ∧ b ≤ l.length then .ok ((l.take b).drop a) else panicked

/-- The loop over one track's locations in `extract_sequence`, `src/nspc/mod.rs:129-147`. `last` is
`last_index.unwrap_or(0)`; while it is `None` the slices start at 0, and the final test
`last_index.is_none() || last_index < len` differs from `last < len` only for an empty track, whose slice is empty. -/
def extractTrack (track : List PCmd) (seqLen target : Nat) : List Location → Nat → Res (List PCmd)
  | [], last => .ok (if last < track.length then track.drop last else [])
  | l :: ls, last => do
    let before ← slice track last l.cmdIdx
    let rest ← extractTrack track seqLen target ls (l.cmdIdx + seqLen * l.repeatCount.toNat)
    return before ++ loopCmd target l.repeatCount :: rest

/-- `Song::extract_sequence`, `src/nspc/mod.rs:117-157`. -/
def extractSequence (tracks : List (List PCmd)) (seq : Sequence) (topLevel : Nat) : Res (List (List PCmd)) := do
  let newTop ← (tracks.take topLevel).zipIdx.mapM fun (track, i) =>
    extractTrack track seq.commands.length tracks.length (seq.locations.filter fun l => l.trackIdx = i) 0
  return newTop ++ tracks.drop topLevel ++ [seq.commands]

/-- The tree of all top-level tracks, `src/nspc/mod.rs:99-102`. -/
def buildTree (tracks : List (List PCmd)) (topLevel : Nat) : Res SeqTree :=
  (tracks.take topLevel).zipIdx.foldlM (fun t (track, i) => addTrack t track i) (.node [] [])

/-- Number of commands in the top-level tracks. -/
def topLevelSize (tracks : List (List PCmd)) (topLevel : Nat) : Nat :=
  ((tracks.take topLevel).map List.length).sum

/-- `Song::optimize_call_loops`, `src/nspc/mod.rs:94-115`. The Rust recursion is unbounded; `fuel` bounds the
number of rounds and running out of it is the fault `diverged`. `Props/Optimise.lean` proves that
`topLevelSize + 1` rounds always suffice. -/
def optimizeFuel : Nat → List (List PCmd) → Nat → Res (List (List PCmd))
  | 0, _, _ => .error .diverged
  | fuel + 1, tracks, topLevel => do
    let tree ← buildTree tracks topLevel
    match ← bestSequence tree with
    | none => return tracks
    | some seq => do
      let tracks ← extractSequence tracks seq topLevel
      optimizeFuel fuel tracks topLevel

/-- `optimize_call_loops` with enough fuel. -/
def optimizeCallLoops (tracks : List (List PCmd)) (topLevel : Nat) : Res (List (List PCmd)) :=
  optimizeFuel (topLevelSize tracks topLevel + 1) tracks topLevel

/-- The non-empty voice tracks, `src/nspc/mod.rs:53-72`. -/
def voiceTracks (h : MidiHandler) (tempoFactor : F32) : Res (List (List PCmd)) := do
  let ts ← (List.finRange 8).mapM fun v => trackNew (h.voices v) h.ticksPerBeat h.maxTime tempoFactor
  return ts.filter fun t => !t.isEmpty

/-- `Song::from_midi`, `src/nspc/mod.rs:47-92`. -/
def songFromMidi (h : MidiHandler) (tempoFactor : F32) (optimize : Bool) : Res Song := do
  let tracks ← voiceTracks h tempoFactor
  let parts := [List.range tracks.length]
  if optimize then do
    let opt ← optimizeCallLoops tracks tracks.length
    return ⟨parts, opt⟩
  else return ⟨parts, tracks⟩

/-- `Song::empty`, `src/nspc/mod.rs:169-174` (tempo factor `0.3f32`, no events). -/
def songEmpty : Res Song := do
  let t ← trackNew [] 24 0 (F32.ofRat (3 / 10))
  return ⟨[[0]], [t]⟩

/-- `get_part_tracks`, `src/nspc/mod.rs:176-178`. -/
def Song.partTracks (s : Song) (i : Nat) : Res (List Nat) :=
  match s.parts[i]? with
  | some p => .ok p
  | none => panicked

/-- Is some part's first track `i`? `part.tracks[0]` panics on a part without tracks (evaluated
left to right until the answer is yes), `src/nspc/mod.rs:192`. -/
def anyPartFirst : List (List Nat) → Nat → Res Bool
  | [], _ => .ok false
  | [] :: _, _ => panicked
  | (t :: _) :: ps, i => if t = i then .ok true else anyPartFirst ps i

/-- `Song::write_track`, `src/nspc/mod.rs:184-205`, on an empty cursor. -/
def Song.writeTrack (s : Song) (i : Nat) : Res Out :=
  match s.tracks[i]? with
  | none => panicked
  | some track =>
    if track.isEmpty then .ok ⟨[], []⟩
    else do
      let first ← anyPartFirst s.parts i
      let pre : List UInt8 :=
        if first then preambleTrack0
        else if s.parts.any (fun p => p.contains i) then preambleOtherTrack
        else []
      let o := trackWrite track ⟨pre, []⟩
      return o.put [0x00]

end M2S
