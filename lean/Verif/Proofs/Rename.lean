import Verif.Proofs.Relabel
import Verif.Proofs.SeqTree
/-
Loop extraction does not care what the commands are: it commutes with renaming commands.
-/
namespace M2S
open MidiSpec

/-- A renaming of commands that loop extraction cannot notice. -/
structure Renaming (f : PCmd → PCmd) : Prop where
  inj : Function.Injective f
  eligible : ∀ c, (f c).callLoopEligible = c.callLoopEligible
  first : ∀ c, (f c).canBeFirst = c.canBeFirst
  last : ∀ c, (f c).canBeLast = c.canBeLast
  loop : ∀ t n, f (loopCmd t n) = loopCmd t n

/-- A tree with all commands renamed. -/
def SeqTree.rename (f : PCmd → PCmd) : SeqTree → SeqTree
  | .node ls es => .node ls (go es)
where
  go : List (List PCmd × SeqTree) → List (List PCmd × SeqTree)
    | [] => []
    | (cs, t) :: es => (cs.map f, t.rename f) :: go es

theorem rename_go (f : PCmd → PCmd) (es : List (List PCmd × SeqTree)) : SeqTree.rename.go f es = es.map fun e => (e.1.map f, e.2.rename f) := by
  induction es with
  | nil => rfl
  | cons e es ih => obtain ⟨a, b⟩ := e; simp [SeqTree.rename.go, ih]

theorem rename_node (f : PCmd → PCmd) (ls : List Location) (es : List (List PCmd × SeqTree)) :
    (SeqTree.node ls es).rename f = .node ls (es.map fun e => (e.1.map f, e.2.rename f)) := by
  rw [SeqTree.rename, rename_go]

theorem rename_locations (f : PCmd → PCmd) (t : SeqTree) : (t.rename f).locations = t.locations := by
  cases t; rfl

theorem rename_edges (f : PCmd → PCmd) (t : SeqTree) : (t.rename f).edges = t.edges.map fun e => (e.1.map f, e.2.rename f) := by
  cases t; rw [rename_node]; rfl

variable {f : PCmd → PCmd}

theorem sharedLen_rename (hf : Renaming f) (a : List PCmd) : ∀ b, sharedLen (a.map f) (b.map f) = sharedLen a b := by
  induction a with
  | nil => intro b; cases b <;> rfl
  | cons x a ih =>
    intro b
    cases b with
    | nil => rfl
    | cons y b => simp only [List.map_cons, sharedLen, hf.inj.eq_iff, ih]

theorem trimShared_rename (hf : Renaming f) (a b : List PCmd) (n : Nat) : trimShared (a.map f) (b.map f) n = trimShared a b n := by
  induction n with
  | zero => rfl
  | succ n ih =>
    unfold trimShared
    simp only [List.length_map, ih, List.getElem?_map]
    have : (Option.map f a[n]?).any (fun c => !c.canBeLast) = a[n]?.any fun c => !c.canBeLast := by
      cases a[n]? <;> simp [hf.last]
    rw [this]

theorem prefixLen_rename (hf : Renaming f) (a b : List PCmd) : prefixLen (a.map f) (b.map f) = prefixLen a b := by
  unfold prefixLen
  rw [sharedLen_rename hf, trimShared_rename hf]

theorem findEdge_rename (hf : Renaming f) (c : PCmd) (es : List (List PCmd × SeqTree)) :
    findEdge (f c) (es.map fun e => (e.1.map f, e.2.rename f)) = findEdge c es := by
  unfold findEdge
  rw [List.findIdx?_map]
  congr 1
  funext e
  obtain ⟨l, t⟩ := e
  cases l with
  | nil => rfl
  | cons x l => simp [hf.inj.eq_iff]

theorem freshEdge_rename (hf : Renaming f) (cs : List PCmd) (t s : Nat) :
    freshEdge (cs.map f) t s = (freshEdge cs t s).map fun e => (e.1.map f, e.2.rename f) := by
  unfold freshEdge
  have : (cs.map f).takeWhile PCmd.callLoopEligible = (cs.takeWhile PCmd.callLoopEligible).map f := by
    rw [List.takeWhile_map]
    congr 2
    funext c
    exact hf.eligible c
  simp only [this, List.isEmpty_map]
  split
  · rfl
  · simp [rename_node]

theorem addCommands_rename (hf : Renaming f) (n : Nat) : ∀ (cs : List PCmd), cs.length ≤ n → ∀ (tree : SeqTree) (t s l : Nat),
    addCommands (tree.rename f) (cs.map f) t s l = (addCommands tree cs t s l).map (SeqTree.rename f) := by
  induction n with
  | zero =>
    intro cs hn tree t s l
    have : cs = [] := List.length_eq_zero_iff.1 (Nat.le_zero.1 hn)
    subst this
    rw [List.map_nil, addCommands_unfold, addCommands_unfold tree, rename_locations]
    simp only [rename_edges]
    cases (if l > 0 then addLocation tree.locations t s l else pure tree.locations : Res _) with
    | error e => rfl
    | ok ls => simp [Except.map, bind, Except.bind, pure, Except.pure, rename_node]
  | succ n ih =>
    intro cs hn tree t s l
    cases cs with
    | nil =>
      rw [List.map_nil, addCommands_unfold, addCommands_unfold tree, rename_locations]
      simp only [rename_edges]
      cases (if l > 0 then addLocation tree.locations t s l else pure tree.locations : Res _) with
      | error e => rfl
      | ok ls => simp [Except.map, bind, Except.bind, pure, Except.pure, rename_node]
    | cons c cs =>
      rw [List.map_cons, addCommands_unfold, addCommands_unfold tree, rename_locations]
      cases (if l > 0 then addLocation tree.locations t s l else pure tree.locations : Res _) with
      | error e => rfl
      | ok ls =>
        simp only [bind, Except.bind, rename_edges, findEdge_rename hf, List.getElem?_map]
        have hfresh : SeqTree.node ls ((tree.edges.map fun e => (e.1.map f, e.2.rename f)) ++ freshEdge (f c :: cs.map f) t s) =
            (SeqTree.node ls (tree.edges ++ freshEdge (c :: cs) t s)).rename f := by
          rw [rename_node, List.map_append, ← freshEdge_rename hf, List.map_cons]
        rw [hfresh]
        cases findEdge c tree.edges with
        | none => rfl
        | some i =>
          cases hi : tree.edges[i]? with
          | none => simp [hi, Except.map, pure, Except.pure]
          | some e =>
            obtain ⟨ec, target⟩ := e
            simp only [hi, Option.map_some]
            rw [← List.map_cons, prefixLen_rename hf, hf.first]
            generalize hp : prefixLen (c :: cs) ec = p
            split
            · rename_i hpos
              simp only [List.length_map]
              have hdrop : ((c :: cs).drop p).length ≤ n := by
                simp only [List.length_drop, List.length_cons] at hn ⊢
                omega
              split
              · rw [rename_locations]
                cases addLocation target.locations t s (l + p) with
                | error e => rfl
                | ok tl =>
                  simp only [rename_edges]
                  by_cases hlt : p < (c :: cs).length
                  · simp only [hlt, if_true]
                    rw [← rename_node, ← List.map_drop, ih _ hdrop]
                    cases addCommands (.node tl target.edges) ((c :: cs).drop p) t s (l + p) with
                    | error e => rfl
                    | ok tg => simp [Except.map, pure, Except.pure, rename_node, List.map_set]
                  · simp only [hlt, if_false]
                    simp [Except.map, pure, Except.pure, rename_node, List.map_set]
              · rw [rename_locations]
                cases readdLocations target.locations (l + p) [] with
                | error e => rfl
                | ok nl =>
                  simp only
                  have : SeqTree.node nl [((ec.map f).drop p, target.rename f)] = (SeqTree.node nl [(ec.drop p, target)]).rename f := by
                    rw [rename_node]; simp
                  rw [this, ← List.map_drop, ih _ hdrop]
                  cases addCommands (.node nl [(ec.drop p, target)]) ((c :: cs).drop p) t s (l + p) with
                  | error e => rfl
                  | ok tg => simp [Except.map, pure, Except.pure, rename_node, List.map_set, List.map_take]
            · rfl

theorem addTrack_rename (hf : Renaming f) (tree : SeqTree) (track : List PCmd) (i : Nat) :
    addTrack (tree.rename f) (track.map f) i = (addTrack tree track i).map (SeqTree.rename f) := by
  unfold addTrack
  have := foldlM_rewrite (fun t j => addCommands t (track.drop j) i j 0) (fun t j => addCommands t ((track.map f).drop j) i j 0) id (SeqTree.rename f)
    (List.range track.length) (fun t j _ => by rw [← List.map_drop]; exact addCommands_rename hf _ _ (Nat.le_refl _) t i j 0) tree
  rw [List.map_id] at this
  rw [List.length_map]
  exact this

theorem buildTree_rename (hf : Renaming f) (tracks : List (List PCmd)) (top : Nat) :
    buildTree (tracks.map (List.map f)) top = (buildTree tracks top).map (SeqTree.rename f) := by
  unfold buildTree
  have := foldlM_rewrite (fun t (x : List PCmd × Nat) => addTrack t x.1 x.2) (fun t (x : List PCmd × Nat) => addTrack t x.1 x.2)
    (fun x => (x.1.map f, x.2)) (SeqTree.rename f) (tracks.take top).zipIdx (fun t x _ => addTrack_rename hf t x.1 x.2) (.node [] [])
  rw [show (SeqTree.node [] []).rename f = .node [] [] from rfl] at this
  rw [← List.map_take, List.zipIdx_map]
  exact this

/-- A sequence with its commands renamed. -/
def renameSeq (f : PCmd → PCmd) (s : Sequence) : Sequence := ⟨s.commands.map f, s.locations⟩

theorem paths_rename (t : SeqTree) : ∀ pre, (t.rename f).paths (pre.map f) = (t.paths pre).map fun p => (p.1.map f, p.2) := by
  intro pre
  induction t using SeqTree.rec (motive_2 := fun es => ∀ pre, SeqTree.paths.go (pre.map f) (es.map fun e => (e.1.map f, e.2.rename f)) = (SeqTree.paths.go pre es).map fun p => (p.1.map f, p.2))
    (motive_3 := fun e => ∀ pre, (e.2.rename f).paths (pre.map f) = (e.2.paths pre).map fun p => (p.1.map f, p.2)) generalizing pre with
  | node ls es ih => rw [rename_node, SeqTree.paths, SeqTree.paths, ih]
  | nil => rfl
  | cons e es ihe ihes =>
    obtain ⟨c, t⟩ := e
    simp only [List.map_cons, SeqTree.paths.go, rename_locations, ← List.map_append, ihe, ihes]
  | mk c t ih => exact ih _

theorem mapM_rewrite {α β γ δ : Type} (g : α → Res β) (g' : γ → Res δ) (φ : α → γ) (ψ : β → δ) (l : List α)
    (h : ∀ a, g' (φ a) = (g a).map ψ) : (l.map φ).mapM g' = (l.mapM g).map (List.map ψ) := by
  induction l with
  | nil => rfl
  | cons a l ih =>
    rw [List.map_cons, List.mapM_cons, List.mapM_cons, h]
    cases g a with
    | error e => rfl
    | ok b =>
      simp only [Except.map, bind, Except.bind, ih]
      cases l.mapM g <;> rfl

theorem sequences_rename (t : SeqTree) : (t.rename f).sequences = t.sequences.map (List.map (renameSeq f)) := by
  unfold SeqTree.sequences
  have := paths_rename (f := f) t []
  rw [List.map_nil] at this
  rw [this]
  apply mapM_rewrite
  intro p
  simp only [List.length_map]
  cases consolidate p.2 p.1.length <;> rfl

theorem bestOf_rename (l : List Sequence) : bestOf (l.map (renameSeq f)) = (bestOf l).map (Option.map fun p => (p.1, renameSeq f p.2)) := by
  unfold bestOf
  refine foldlM_rewrite _ _ (renameSeq f) (Option.map fun (p : _ × Sequence) => (p.1, renameSeq f p.2)) l ?_ none
  intro best s _
  have h1 : (renameSeq f s).worthwhile = s.worthwhile := by simp [Sequence.worthwhile, renameSeq]
  have h2 : (renameSeq f s).score = s.score := by simp [Sequence.score, renameSeq]
  rw [h1]
  cases s.worthwhile with
  | error e => rfl
  | ok w =>
    simp only [bind, Except.bind]
    cases w with
    | false => rfl
    | true =>
      simp only [if_true, h2]
      cases s.score with
      | error e => rfl
      | ok sc =>
        cases best with
        | none => rfl
        | some b =>
          obtain ⟨b, u⟩ := b
          simp only [Option.map_some]
          split <;> simp [Except.map, pure, Except.pure, *]

theorem bestSequence_rename (t : SeqTree) : bestSequence (t.rename f) = (bestSequence t).map (Option.map (renameSeq f)) := by
  unfold bestSequence
  rw [sequences_rename]
  cases t.sequences with
  | error e => rfl
  | ok seqs =>
    simp only [Except.map, bind, Except.bind]
    rw [bestOf_rename]
    cases bestOf seqs with
    | error e => rfl
    | ok b => cases b <;> rfl

theorem slice_rename (l : List PCmd) (a b : Nat) : slice (l.map f) a b = (slice l a b).map (List.map f) := by
  unfold slice
  simp only [List.length_map]
  split
  · simp [Except.map]
  · rfl

theorem extractTrack_rename (hf : Renaming f) (track : List PCmd) (n target : Nat) (ls : List Location) :
    ∀ last, extractTrack (track.map f) n target ls last = (extractTrack track n target ls last).map (List.map f) := by
  induction ls with
  | nil =>
    intro last
    simp only [extractTrack, List.length_map, Except.map]
    congr 1
    split <;> simp
  | cons l ls ih =>
    intro last
    simp only [extractTrack, slice_rename, ih]
    cases slice track last l.cmdIdx with
    | error e => rfl
    | ok b =>
      simp only [Except.map, bind, Except.bind]
      cases extractTrack track n target ls (l.cmdIdx + n * l.repeatCount.toNat) with
      | error e => rfl
      | ok r => simp [pure, Except.pure, hf.loop]

theorem extractSequence_rename (hf : Renaming f) (tracks : List (List PCmd)) (seq : Sequence) (top : Nat) :
    extractSequence (tracks.map (List.map f)) (renameSeq f seq) top = (extractSequence tracks seq top).map (List.map (List.map f)) := by
  unfold extractSequence
  rw [← List.map_take, List.zipIdx_map]
  rw [mapM_rewrite (fun (x : List PCmd × Nat) => extractTrack x.1 seq.commands.length tracks.length (seq.locations.filter fun l => l.trackIdx = x.2) 0)
    _ (Prod.map (List.map f) id) (List.map f)]
  · cases (tracks.take top).zipIdx.mapM fun (x : List PCmd × Nat) =>
      extractTrack x.1 seq.commands.length tracks.length (seq.locations.filter fun l => l.trackIdx = x.2) 0 with
    | error e => rfl
    | ok nt => simp [Except.map, bind, Except.bind, pure, Except.pure, renameSeq]
  · intro x
    simp only [Prod.map, renameSeq, List.length_map, id]
    exact extractTrack_rename hf ..

theorem optimizeFuel_rename (hf : Renaming f) (top : Nat) (fuel : Nat) : ∀ tracks : List (List PCmd),
    optimizeFuel fuel (tracks.map (List.map f)) top = (optimizeFuel fuel tracks top).map (List.map (List.map f)) := by
  induction fuel with
  | zero => intro tracks; rfl
  | succ fuel ih =>
    intro tracks
    simp only [optimizeFuel]
    rw [buildTree_rename hf]
    cases buildTree tracks top with
    | error e => rfl
    | ok tree =>
      simp only [Except.map, bind, Except.bind]
      rw [bestSequence_rename]
      cases bestSequence tree with
      | error e => rfl
      | ok best =>
        simp only [Except.map]
        cases best with
        | none => rfl
        | some seq =>
          simp only [Option.map_some]
          rw [extractSequence_rename hf]
          cases extractSequence tracks seq top with
          | error e => rfl
          | ok ts => exact ih ts

theorem optimize_rename (hf : Renaming f) (tracks : List (List PCmd)) (top : Nat) :
    optimizeCallLoops (tracks.map (List.map f)) top = (optimizeCallLoops tracks top).map (List.map (List.map f)) := by
  unfold optimizeCallLoops
  rw [optimizeFuel_rename hf]
  have : topLevelSize (tracks.map (List.map f)) top = topLevelSize tracks top := by
    unfold topLevelSize
    rw [← List.map_take, List.map_map]
    congr 2
    funext l
    simp
  rw [this]

end M2S
