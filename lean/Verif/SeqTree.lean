import Verif.Command
/-
Model of `src/nspc/seqtree.rs`: the suffix tree of command sequences used to find CallLoop candidates.
-/
namespace M2S

/-- `struct Location`, `src/nspc/seqtree.rs:328-333`; `repeat_count` is a `u8`. -/
structure Location where
  trackIdx : Nat
  cmdIdx : Nat
  repeatCount : UInt8
deriving DecidableEq, Repr

/-- `struct SeqTree` and `struct Edge`, `src/nspc/seqtree.rs:335-345`. An edge is a pair (commands,
target); the Rust `target: Option<SeqTree>` is `None` only inside `add_commands` while an edge is
being split. -/
inductive SeqTree
  | node (locations : List Location) (edges : List (List PCmd × SeqTree))

/-- The `locations` field. -/
def SeqTree.locations : SeqTree → List Location
  | .node ls _ => ls

/-- The `edges` field. -/
def SeqTree.edges : SeqTree → List (List PCmd × SeqTree)
  | .node _ es => es

/-- `struct Sequence`, `src/nspc/seqtree.rs:347-351`. -/
structure Sequence where
  commands : List PCmd
  locations : List Location
deriving DecidableEq, Repr

/-- `fn add_location`, `src/nspc/seqtree.rs:353-371`: the first adjoining location gets its count
incremented, otherwise a new location is appended. -/
def addLocation (locs : List Location) (trackIdx cmdIdx seqLen : Nat) : Res (List Location) :=
  match locs with
  | [] => .ok [⟨trackIdx, cmdIdx, 1⟩]
  | l :: ls =>
    if l.trackIdx = trackIdx ∧ l.cmdIdx + seqLen = cmdIdx then do
      let k ← addU8 l.repeatCount 1
      return { l with repeatCount := k } :: ls
    else do
      let ls ← addLocation ls trackIdx cmdIdx seqLen
      return l :: ls

/-- Length of the longest common prefix: the `take_while` of `src/nspc/seqtree.rs:405-412`. -/
def sharedLen : List PCmd → List PCmd → Nat
  | a :: as, b :: bs => if a = b then sharedLen as bs + 1 else 0
  | _, _ => 0

/-- The `while` loop of `src/nspc/seqtree.rs:413-422` on the length of `shared_prefix`: shorten it
while it is a proper prefix ending in a command that cannot end a loop. -/
def trimShared (commands edge : List PCmd) : Nat → Nat
  | 0 => 0
  | n + 1 =>
    if (n + 1 < commands.length ∨ n + 1 < edge.length) ∧ (commands[n]?.any fun c => !c.canBeLast) then
      trimShared commands edge n
    else n + 1

theorem trimShared_le (commands edge : List PCmd) (n : Nat) : trimShared commands edge n ≤ n := by
  induction n with
  | zero => simp [trimShared]
  | succ n ih => unfold trimShared; split <;> omega

/-- Length of `shared_prefix` after trimming. -/
def prefixLen (commands edge : List PCmd) : Nat := trimShared commands edge (sharedLen commands edge)

/-- Index of the first edge whose first command equals `c`: `src/nspc/seqtree.rs:400-403`. -/
def findEdge (c : PCmd) (edges : List (List PCmd × SeqTree)) : Option Nat :=
  edges.findIdx? fun e => e.1.head? = some c

/-- Re-adding the old target's locations to the new inner node, `src/nspc/seqtree.rs:448-455`. -/
def readdLocations (old : List Location) (seqLen : Nat) (acc : List Location) : Res (List Location) :=
  old.foldlM (fun acc l => addLocation acc l.trackIdx l.cmdIdx seqLen) acc

/-- The new edge of `src/nspc/seqtree.rs:475-496`, if any: the eligible prefix of the commands, leading to a
node with the single location. -/
def freshEdge (commands : List PCmd) (trackIdx seqStart : Nat) : List (List PCmd × SeqTree) :=
  let rest := commands.takeWhile PCmd.callLoopEligible
  if rest.isEmpty then [] else [(rest, .node [⟨trackIdx, seqStart, 1⟩] [])]

/-- `SeqTree::add_commands`, `src/nspc/seqtree.rs:387-498`. The call
`target.add_commands(&[], .., rest_len)` at line 494 on the fresh node just records the location (`freshEdge`). -/
def addCommands (tree : SeqTree) (commands : List PCmd) (trackIdx seqStart seqLen : Nat) : Res SeqTree := do
  let locations ←
    if seqLen > 0 then addLocation tree.locations trackIdx seqStart seqLen else pure tree.locations
  match commands with
  | [] => return .node locations tree.edges
  | c :: cs =>
    let fresh : SeqTree := .node locations (tree.edges ++ freshEdge (c :: cs) trackIdx seqStart)
    match findEdge c tree.edges with
    | none => return fresh
    | some i =>
      match tree.edges[i]? with
      | none => return fresh            -- cannot happen: `i` is an index of an edge
      | some (ecmds, target) =>
        let n := prefixLen (c :: cs) ecmds
        if n ≠ 0 ∧ c.canBeFirst then
          let sharedSeqLen := seqLen + n
          if n = ecmds.length then do
            let tl ← addLocation target.locations trackIdx seqStart sharedSeqLen
            let target := SeqTree.node tl target.edges
            let target ←
              if n < (c :: cs).length then addCommands target ((c :: cs).drop n) trackIdx seqStart sharedSeqLen
              else pure target
            return .node locations (tree.edges.set i (ecmds, target))
          else do
            let nl ← readdLocations target.locations sharedSeqLen []
            let newTarget := SeqTree.node nl [(ecmds.drop n, target)]
            let newTarget ← addCommands newTarget ((c :: cs).drop n) trackIdx seqStart sharedSeqLen
            return .node locations (tree.edges.set i ((c :: cs).take n, newTarget))
        else return fresh
termination_by commands.length
decreasing_by all_goals (simp only [List.length_drop, List.length_cons] at *; omega)

/-- `SeqTree::add_track`, `src/nspc/seqtree.rs:381-385`. -/
def addTrack (tree : SeqTree) (track : List PCmd) (trackIdx : Nat) : Res SeqTree :=
  (List.range track.length).foldlM (fun t i => addCommands t (track.drop i) trackIdx i 0) tree

/-- `consolidate_locations`, `src/nspc/seqtree.rs:572-590`; `done` is the vector built so far, the last
element of which (`cur`) may still be changed. -/
def consolidate (locations : List Location) (seqLen : Nat) : Res (List Location) :=
  match locations with
  | [] => .ok []
  | l :: ls => go l ls
where
  go (cur : Location) : List Location → Res (List Location)
    | [] => .ok [cur]
    | l :: ls =>
      if cur.trackIdx = l.trackIdx ∧ cur.cmdIdx + seqLen * cur.repeatCount.toNat > l.cmdIdx then go cur ls
      else if cur.trackIdx = l.trackIdx ∧ cur.cmdIdx + seqLen * cur.repeatCount.toNat = l.cmdIdx then do
        let k ← addU8 cur.repeatCount 1
        go { cur with repeatCount := k } ls
      else do
        let rest ← go l ls
        return cur :: rest

/-- The sequences (before consolidation) in the order `TreeIter` visits them (pre-order, edges left to right),
`src/nspc/seqtree.rs:511-560`: the path from the root and the locations of the node. The explicit stack of
`TreeIter` is replaced by recursion (see `treeIter_paths` in `Proofs/TreeIter.lean` for the stack machine). -/
def SeqTree.paths (pre : List PCmd) : SeqTree → List (List PCmd × List Location)
  | .node _ edges => go edges
where
  go : List (List PCmd × SeqTree) → List (List PCmd × List Location)
    | [] => []
    | (cmds, t) :: es => (pre ++ cmds, t.locations) :: (t.paths (pre ++ cmds) ++ go es)

/-- The `Item`s of `TreeIter`. -/
def SeqTree.sequences (t : SeqTree) : Res (List Sequence) :=
  (t.paths []).mapM fun p => do
    let ls ← consolidate p.2 p.1.length
    return ⟨p.1, ls⟩

/-- The `u8` sum of the repeat counts in the filter, `src/nspc/seqtree.rs:563-566`. -/
def sumRepeatsU8 (ls : List Location) : Res UInt8 :=
  ls.foldlM (fun acc l => addU8 acc l.repeatCount) 0

/-- The filter of `best_sequence`, `src/nspc/seqtree.rs:561-568`. -/
def Sequence.worthwhile (s : Sequence) : Res Bool :=
  if s.commands.length > 3 then do
    let n ← sumRepeatsU8 s.locations
    return n > 1
  else return false

/-- `fn score`, `src/nspc/seqtree.rs:501-509` (the subtraction of `usize`s is checked). -/
def Sequence.score (s : Sequence) : Res Nat :=
  let replaced := (s.locations.map fun l => l.repeatCount.toNat).sum * s.commands.length
  let used := s.commands.length + s.locations.length
  subU replaced used

/-- `filter(..).max_by_key(score)`, `src/nspc/seqtree.rs:561-569`: the last of the best elements. -/
def bestOf : List Sequence → Res (Option (Nat × Sequence)) :=
  List.foldlM (fun best s => do
    if ← s.worthwhile then
      let sc ← s.score
      match best with
      | none => return some (sc, s)
      | some (b, t) => return if b ≤ sc then some (sc, s) else some (b, t)
    else return best) none

/-- `best_sequence`, `src/nspc/seqtree.rs:500-570`. (Rust computes items lazily; a panic in any item panics the
call either way.) -/
def bestSequence (t : SeqTree) : Res (Option Sequence) := do
  let seqs ← t.sequences
  let best ← bestOf seqs
  return best.map (·.2)

end M2S
