import Verif.SeqTree
import Verif.Song
import Mathlib.Tactic.SplitIfs
import Verif.Proofs.SeqTree
/-
The explicit stack of `TreeIter`, and a structurally recursive form of `add_commands` that the kernel can run.
-/
namespace M2S

/-- `struct StackItem`, `src/nspc/seqtree.rs:512-516`. -/
structure StackItem where
  node : SeqTree
  commands : List PCmd
  childIdx : Nat

/-- `TreeIter::next`, `src/nspc/seqtree.rs:525-556`, without the consolidation of the item's locations: drop exhausted
items from the stack, then visit the next edge of the top one. -/
def iterNext : List StackItem → Option ((List PCmd × List Location) × List StackItem)
  | [] => none
  | top :: rest =>
    if top.childIdx = top.node.edges.length then iterNext rest
    else
      match top.node.edges[top.childIdx]? with
      | none => none                   -- out of range: cannot happen, `childIdx ≤ edges.len()`
      | some (cmds, target) =>
        some ((top.commands ++ cmds, target.locations),
          ⟨target, top.commands ++ cmds, 0⟩ :: { top with childIdx := top.childIdx + 1 } :: rest)

/-- Collecting the items of the iterator; `none` when `fuel` items were not enough. -/
def iterRun : Nat → List StackItem → Option (List (List PCmd × List Location))
  | 0, _ => none
  | fuel + 1, st =>
    match iterNext st with
    | none => some []
    | some (x, st') => (iterRun fuel st').map (x :: ·)

/-- What is still to come from a stack. -/
def iterRest (st : List StackItem) : List (List PCmd × List Location) :=
  st.flatMap fun s => SeqTree.paths.go s.commands (s.node.edges.drop s.childIdx)

theorem paths_eq_go (pre : List PCmd) (t : SeqTree) : t.paths pre = SeqTree.paths.go pre t.edges := by
  cases t; rfl

theorem iterNext_spec (st : List StackItem) : (∀ s ∈ st, s.childIdx ≤ s.node.edges.length) →
    (iterNext st = none ∧ iterRest st = []) ∨
    ∃ x st', iterNext st = some (x, st') ∧ iterRest st = x :: iterRest st' ∧ ∀ s ∈ st', s.childIdx ≤ s.node.edges.length := by
  induction st with
  | nil => intro _; exact .inl ⟨rfl, rfl⟩
  | cons top rest ih =>
    intro h
    have ih := ih (fun s hs => h s (by simp [hs]))
    have htop := h top (by simp)
    rw [iterNext]
    split_ifs with hc
    · have e : iterRest (top :: rest) = iterRest rest := by
        unfold iterRest
        rw [List.flatMap_cons, hc, List.drop_length]; rfl
      rw [e]; exact ih
    · have hlt : top.childIdx < top.node.edges.length := by omega
      rw [List.getElem?_eq_getElem hlt]
      refine .inr ⟨_, _, rfl, ?_, ?_⟩
      · unfold iterRest
        rw [List.flatMap_cons, List.flatMap_cons, List.flatMap_cons, List.drop_eq_getElem_cons hlt]
        rw [SeqTree.paths.go, paths_eq_go]
        simp
      · intro s hs
        rcases List.mem_cons.1 hs with rfl | hs
        · simp
        · rcases List.mem_cons.1 hs with rfl | hs
          · exact hlt
          · exact h s (by simp [hs])

/-- The iterator stops and visits exactly the paths of the tree, in this order. -/
theorem treeIter_paths (t : SeqTree) (fuel : Nat) (hf : (t.paths []).length < fuel) : iterRun fuel [⟨t, [], 0⟩] = some (t.paths []) := by
  have key : ∀ fuel st, (∀ s ∈ st, s.childIdx ≤ s.node.edges.length) → (iterRest st).length < fuel → iterRun fuel st = some (iterRest st) := by
    intro fuel
    induction fuel with
    | zero => intro st _ h; omega
    | succ fuel ih =>
      intro st h hl
      rw [iterRun]
      rcases iterNext_spec st h with ⟨h1, h2⟩ | ⟨x, st', h1, h2, h3⟩
      · rw [h1, h2]
      · rw [h1, h2]
        simp only
        rw [ih st' h3 (by rw [h2, List.length_cons] at hl; omega)]; rfl
  have e : iterRest [⟨t, [], 0⟩] = t.paths [] := by
    unfold iterRest
    rw [List.flatMap_cons, List.flatMap_nil, List.append_nil, List.drop_zero, paths_eq_go]
  rw [← e]
  exact key fuel _ (by simp) (by rw [e]; exact hf)

/-! ### A form of the tree building that the kernel can run -/

/-- `addCommands` by recursion on a bound of the number of commands. -/
def addCommandsF : Nat → SeqTree → List PCmd → Nat → Nat → Nat → Res SeqTree
  | 0, tree, _, t, i, L =>
    (if L > 0 then addLocation tree.locations t i L else pure tree.locations) >>= fun locations => pure (.node locations tree.edges)
  | n + 1, tree, commands, t, i, L =>
    (if L > 0 then addLocation tree.locations t i L else pure tree.locations) >>= fun locations =>
      match commands with
      | [] => pure (.node locations tree.edges)
      | c :: cs =>
        match findEdge c tree.edges with
        | none => pure (.node locations (tree.edges ++ freshEdge (c :: cs) t i))
        | some k =>
          match tree.edges[k]? with
          | none => pure (.node locations (tree.edges ++ freshEdge (c :: cs) t i))
          | some (ecmds, target) =>
            let m := prefixLen (c :: cs) ecmds
            if m ≠ 0 ∧ c.canBeFirst = true then
              if m = ecmds.length then
                addLocation target.locations t i (L + m) >>= fun tl =>
                (if m < (c :: cs).length then addCommandsF n (.node tl target.edges) ((c :: cs).drop m) t i (L + m)
                else pure (.node tl target.edges)) >>= fun target => pure (.node locations (tree.edges.set k (ecmds, target)))
              else
                readdLocations target.locations (L + m) [] >>= fun nl =>
                addCommandsF n (.node nl [(ecmds.drop m, target)]) ((c :: cs).drop m) t i (L + m) >>= fun newTarget =>
                pure (.node locations (tree.edges.set k ((c :: cs).take m, newTarget)))
            else pure (.node locations (tree.edges ++ freshEdge (c :: cs) t i))

theorem addCommandsF_eq (t i n : Nat) : ∀ (commands : List PCmd) (tree : SeqTree) (L : Nat), commands.length ≤ n →
    addCommands tree commands t i L = addCommandsF n tree commands t i L := by
  induction n with
  | zero =>
    intro commands tree L h
    have : commands = [] := List.length_eq_zero_iff.1 (by omega)
    subst this
    rw [addCommands_unfold, addCommandsF]
  | succ n ih =>
    intro commands tree L h
    rw [addCommands_unfold, addCommandsF]
    congr 1
    funext locs
    cases commands with
    | nil => rfl
    | cons c cs =>
      simp only
      cases findEdge c tree.edges with
      | none => rfl
      | some k =>
        simp only
        cases tree.edges[k]? with
        | none => rfl
        | some e =>
          obtain ⟨ecmds, target⟩ := e
          simp only
          split_ifs with h1 h2 h3
          · congr 1; funext tl
            rw [ih _ _ _ (by rw [List.length_drop]; omega)]
          · rfl
          · congr 1; funext nl
            rw [ih _ _ _ (by rw [List.length_drop]; omega)]
          · rfl

/-- `addTrack` in runnable form. -/
def addTrackF (tree : SeqTree) (track : List PCmd) (trackIdx : Nat) : Res SeqTree :=
  (List.range track.length).foldlM (fun t i => addCommandsF (track.length + 1) t (track.drop i) trackIdx i 0) tree

/-- `buildTree` in runnable form. -/
def buildTreeF (tracks : List (List PCmd)) (topLevel : Nat) : Res SeqTree :=
  (tracks.take topLevel).zipIdx.foldlM (fun t (track, i) => addTrackF t track i) (.node [] [])

theorem buildTreeF_eq (tracks : List (List PCmd)) (top : Nat) : buildTree tracks top = buildTreeF tracks top := by
  unfold buildTree buildTreeF
  congr 1
  funext t x
  obtain ⟨track, i⟩ := x
  simp only
  unfold addTrack addTrackF
  congr 1
  funext T j
  exact addCommandsF_eq _ _ _ _ _ _ (by rw [List.length_drop]; omega)

/-- `optimizeFuel` in runnable form. -/
def optimizeFuelF : Nat → List (List PCmd) → Nat → Res (List (List PCmd))
  | 0, _, _ => .error .diverged
  | fuel + 1, tracks, topLevel => do
    let tree ← buildTreeF tracks topLevel
    match ← bestSequence tree with
    | none => return tracks
    | some seq => do
      let tracks ← extractSequence tracks seq topLevel
      optimizeFuelF fuel tracks topLevel

theorem optimizeFuelF_eq (fuel : Nat) : ∀ tracks top, optimizeFuel fuel tracks top = optimizeFuelF fuel tracks top := by
  induction fuel with
  | zero => intro _ _; rfl
  | succ fuel ih =>
    intro tracks top
    rw [optimizeFuel, optimizeFuelF, buildTreeF_eq]
    congr 1; funext tree
    congr 1; funext b
    cases b with
    | none => rfl
    | some s =>
      simp only
      congr 1; funext tr
      exact ih tr top

theorem optimizeCallLoops_run (tracks : List (List PCmd)) (top : Nat) :
    optimizeCallLoops tracks top = optimizeFuelF (topLevelSize tracks top + 1) tracks top := optimizeFuelF_eq _ _ _

end M2S
