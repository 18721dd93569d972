import Verif.Proofs.TreeIter
import Verif.Proofs.Optimise
/-
The unit tests of the repository (`src/nspc/command.rs:7-91`, `src/nspc/seqtree.rs:4-326`), run on the model by the kernel. They are no
theorems about all inputs; they check that the model behaves as the code is expected to.
-/
namespace M2S.RepoTests

/-- `ParameterizedCommand::new(d, None, None, c)`. -/
def pc (d : Option UInt8) (c : Command) : PCmd := ⟨d, none, none, c⟩
/-- `convert_commands` for notes. -/
def notes (l : List UInt8) : List PCmd := l.map fun n => pc none (.note n)

example : (pc (some 1) .rest).setSustain (pc (some 1) .rest) = .ok (pc (some 1) .rest, false) := by decide
example : (pc (some 1) (.note 0)).setSustain (pc (some 1) .tie) = .ok (pc (some 1) (.note 0), false) := by decide
example : (pc (some 1) (.note 0)).setSustain (pc (some 1) .rest) = .ok (⟨some 2, none, some 4, .note 0⟩, true) := by decide
example : (pc (some 1) (.note 0)).setSustain (pc (some 7) .rest) = .ok (⟨some 8, none, some 1, .note 0⟩, true) := by decide
example : (pc (some 5) (.note 0)).setSustain (pc (some 3) .rest) = .ok (⟨some 8, none, some 5, .note 0⟩, true) := by decide
example : (pc (some 1) (.note 0)).setSustain (pc (some 12) .rest) = .ok (pc (some 1) (.note 0), false) := by decide
example : (pc (some 12) (.note 0)).setSustain (pc (some 1) .rest) = .ok (pc (some 12) (.note 0), false) := by decide
example : (pc (some 5) (.note 0)).setSustain (pc (some 6) .rest) = .ok (pc (some 5) (.note 0), false) := by decide
example : (pc (some 24) (.note 0)).setSustain (pc (some 1) .rest) = .ok (⟨some 25, none, some 7, .note 0⟩, true) := by decide

/-- The edges of the root. -/
def rootEdges (track : List PCmd) : Res (List (List PCmd)) := (buildTree [track] 1).map fun t => t.edges.map (·.1)

/-- The edges and locations of the node at the end of the root's edge `e`. -/
def child (track e : List PCmd) : Res (Option (List (List PCmd) × List Location)) :=
  (buildTree [track] 1).map fun t => (t.edges.find? fun x => x.1 = e).map fun x => (x.2.edges.map (·.1), x.2.locations)

/-- `best_sequence` of the tree of one track. -/
def best (track : List PCmd) : Res (Option Sequence) := do bestSequence (← buildTree [track] 1)

example : rootEdges (notes [1, 2, 3]) = .ok [notes [1, 2, 3], notes [2, 3], notes [3]] := by unfold rootEdges; rw [buildTreeF_eq]; decide +kernel
example : rootEdges (notes [1, 1, 2]) = .ok [notes [1], notes [2]] := by unfold rootEdges; rw [buildTreeF_eq]; decide +kernel
example : (child (notes [1, 1, 2]) (notes [1])).map (fun x => x.map (·.1)) = .ok (some [notes [1, 2], notes [2]]) := by unfold child; rw [buildTreeF_eq]; decide +kernel
example : (child (notes [1, 2, 1, 2]) (notes [1, 2])).map (fun x => x.map (·.2)) = .ok (some [⟨0, 0, 2⟩]) := by unfold child; rw [buildTreeF_eq]; decide +kernel
example : rootEdges [pc none (.note 1), pc none (.callLoop 0 0), pc none (.note 2)] = .ok [notes [1], notes [2]] := by
  unfold rootEdges; rw [buildTreeF_eq]; decide +kernel
example : best (notes [1, 2, 3]) = .ok none := by unfold best; rw [buildTreeF_eq]; decide +kernel
example : best (notes [1, 2, 3, 4, 5, 1, 2, 3, 4]) = .ok (some ⟨notes [1, 2, 3, 4], [⟨0, 0, 1⟩, ⟨0, 5, 1⟩]⟩) := by unfold best; rw [buildTreeF_eq]; decide +kernel
example : best (notes [1, 2, 3, 4, 5, 6, 1, 2, 3, 4, 5, 1, 2, 3, 4, 1, 2, 3, 4, 1, 2, 3, 4]) =
    .ok (some ⟨notes [1, 2, 3, 4], [⟨0, 0, 1⟩, ⟨0, 6, 1⟩, ⟨0, 11, 3⟩]⟩) := by unfold best; rw [buildTreeF_eq]; decide +kernel

/-- A note of one unit, a slide and the tie after it. -/
def n1 (n : UInt8) : PCmd := pc (some 1) (.note n)
/-- See `n1`. -/
def sl (n : UInt8) : PCmd := pc none (.pitchSlide 1 n 3)
/-- See `n1`. -/
def ti (d : UInt8) : PCmd := pc (some d) .tie

example : (best [n1 1, n1 2, n1 3, n1 4, sl 2, ti 2, n1 1, n1 2, n1 3, n1 4, sl 2, ti 3]).map (fun s => s.map fun s => s.commands.length) = .ok (some 4) := by
  unfold best; rw [buildTreeF_eq]; decide +kernel
example : (best [n1 1, sl 2, ti 2, n1 2, n1 3, n1 4, n1 5, n1 1, sl 3, ti 2, n1 2, n1 3, n1 4, n1 5]).map (fun s => s.map fun s => s.commands.length) = .ok (some 4) := by
  unfold best; rw [buildTreeF_eq]; decide +kernel
example : best [n1 1, sl 2, ti 2, sl 3, ti 2, sl 4, ti 2, sl 3, ti 2, sl 2, ti 2, sl 3, ti 2, sl 4, ti 2] = .ok none := by
  unfold best; rw [buildTreeF_eq]; decide +kernel

end M2S.RepoTests
