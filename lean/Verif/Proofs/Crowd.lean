import Verif.Proofs.Counts
import Verif.Props.Optimise
/-
Tracks of repeated blocks, and what the sequence tree makes of them.
-/
namespace M2S

/-! ### Exactly when the search for a sequence panics -/

theorem bestSequence_panics_iff (tree : SeqTree) (seqs : List Sequence) (hs : tree.sequences = .ok seqs) (h1 : ∀ s ∈ seqs, ∀ l ∈ s.locations, 1 ≤ l.repeatCount.toNat) :
    bestSequence tree = .error .panic ↔ ∃ s ∈ seqs, 4 ≤ s.commands.length ∧ 256 ≤ (s.locations.map fun l => l.repeatCount.toNat).sum := by
  constructor
  · intro h
    by_contra hno
    push Not at hno
    obtain ⟨b, hb⟩ := bestOf_ok seqs (fun s hss hl => hno s hss (by omega)) h1
    unfold bestSequence at h
    rw [hs] at h
    simp only [bind, Except.bind, hb] at h
    cases h
  · rintro ⟨s, hss, hl, hsum⟩
    cases hb : bestSequence tree with
    | ok b =>
      exfalso
      unfold bestSequence at hb
      rw [hs] at hb
      simp only [bind, Except.bind] at hb
      cases hbo : bestOf seqs with
      | error e => rw [hbo] at hb; cases hb
      | ok o =>
        have hspec := bestOf_spec seqs o hbo
        have hw : ∃ x, s.worthwhile = .ok x := by
          cases o with
          | none => exact ⟨_, hspec.1 rfl s hss⟩
          | some p =>
            rcases (hspec.2 p.1 p.2 rfl).2.2.2 s hss with h | ⟨h, -⟩
            · exact ⟨_, h⟩
            · exact ⟨_, h⟩
        obtain ⟨x, hx⟩ := hw
        unfold Sequence.worthwhile at hx
        rw [if_pos (by omega), res_bind] at hx
        obtain ⟨n, hn, -⟩ := hx
        have := sumRepeats_foldlM s.locations 0 n hn
        have h3 := n.toNat_lt
        rw [show (0 : UInt8).toNat = 0 from rfl] at this
        omega
    | error e => rw [panicOnly_bestSequence tree e hb]

/-! ### Blocks -/

/-- Four notes and a slide. -/
def loopBlock : List PCmd := [noteCmd 1, noteCmd 2, noteCmd 3, noteCmd 4, plainCmd (.pitchSlide 1 2 3)]

/-- The tree of the blocks. -/
def blockTree (a b c d : List Location) : SeqTree :=
  .node [] [([1, 2, 3, 4].map noteCmd, .node a []), ([2, 3, 4].map noteCmd, .node b []), ([3, 4].map noteCmd, .node c []), ([4].map noteCmd, .node d [])]

/-- A slide at the end of a node is recorded and adds nothing. -/
theorem addCommands_slide (ls : List Location) (t i L : Nat) (rest : List PCmd) (hL : L > 0) (T : SeqTree)
    (h : addCommands (.node ls []) (plainCmd (.pitchSlide 1 2 3) :: rest) t i L = .ok T) : ∃ a, addLocation ls t i L = .ok a ∧ T = .node a [] := by
  rw [addCommands_unfold, if_pos hL] at h
  simp only [SeqTree.locations, SeqTree.edges, findEdge, List.findIdx?_nil] at h
  have : freshEdge (plainCmd (.pitchSlide 1 2 3) :: rest) t i = [] := rfl
  rw [this] at h
  simp only [List.append_nil, res_bind, res_pure] at h
  obtain ⟨x, h, rfl⟩ := h
  exact ⟨x, h, rfl⟩

/-- No edge begins with the command. -/
theorem addCommands_none (es : List (List PCmd × SeqTree)) (c : PCmd) (cs : List PCmd) (t i : Nat) (hf : findEdge c es = none) :
    addCommands (.node [] es) (c :: cs) t i 0 = .ok (.node [] (es ++ freshEdge (c :: cs) t i)) := by
  rw [addCommands_unfold, if_neg (by omega)]
  simp only [SeqTree.locations, SeqTree.edges, hf]
  rfl

/-- One edge is followed to its end, where a slide comes. -/
theorem addCommands_edge (es : List (List PCmd × SeqTree)) (k : Nat) (path : List PCmd) (c : PCmd) (cs rest : List PCmd) (a : List Location) (t i : Nat) (T : SeqTree)
    (hp : path = c :: cs) (hf : findEdge c es = some k) (hk : es[k]? = some (path, .node a []))
    (hl : prefixLen (path ++ plainCmd (.pitchSlide 1 2 3) :: rest) path = path.length) (hc : c.canBeFirst = true)
    (h : addCommands (.node [] es) (path ++ plainCmd (.pitchSlide 1 2 3) :: rest) t i 0 = .ok T) :
    ∃ a1 a2, addLocation a t i path.length = .ok a1 ∧ addLocation a1 t i path.length = .ok a2 ∧ T = .node [] (es.set k (path, .node a2 [])) := by
  rw [addCommands_unfold, if_neg (by omega)] at h
  have hdrop : (path ++ plainCmd (.pitchSlide 1 2 3) :: rest).drop path.length = plainCmd (.pitchSlide 1 2 3) :: rest := List.drop_left
  have hlen : path.length < (path ++ plainCmd (.pitchSlide 1 2 3) :: rest).length := by rw [List.length_append, List.length_cons]; omega
  generalize hx : path ++ plainCmd (.pitchSlide 1 2 3) :: rest = x at *
  obtain ⟨c', cs', rfl⟩ : ∃ c' cs', x = c' :: cs' := by rw [← hx, hp]; exact ⟨_, _, rfl⟩
  have hcc : c' = c := by rw [hp, List.cons_append, List.cons.injEq] at hx; exact hx.1.symm
  subst hcc
  simp only [SeqTree.locations, SeqTree.edges, hf, hk] at h
  rw [show (pure [] : Res (List Location)) = .ok [] from rfl] at h
  simp only [bind, Except.bind] at h
  rw [hl, if_pos ⟨by rw [hp]; simp, hc⟩, if_pos rfl, Nat.zero_add] at h
  cases h1 : addLocation a t i path.length with
  | error e => rw [h1] at h; cases h
  | ok a1 =>
    rw [h1] at h
    simp only at h
    rw [if_pos hlen, hdrop] at h
    cases h2 : addCommands (.node a1 []) (plainCmd (.pitchSlide 1 2 3) :: rest) t i path.length with
    | error e => rw [h2] at h; cases h
    | ok T2 =>
      rw [h2] at h
      simp only [res_pure] at h
      obtain ⟨a2, h3, rfl⟩ := addCommands_slide _ _ _ _ _ (by rw [hp]; simp) _ h2
      exact ⟨a1, a2, rfl, h3, h.symm⟩

theorem block_scan (tr : List PCmd) (t s : Nat) (rest : List PCmd) (hd : tr.drop s = loopBlock ++ rest) (a b c d : List Location) (T : SeqTree)
    (h : (List.range' s 5).foldlM (fun T i => addCommands T (tr.drop i) t i 0) (blockTree a b c d) = .ok T) :
    ∃ a1 a2 b' c' d', addLocation a t s 4 = .ok a1 ∧ addLocation a1 t s 4 = .ok a2 ∧ T = blockTree a2 b' c' d' := by
  have e1 : tr.drop (s + 1) = [2, 3, 4].map noteCmd ++ plainCmd (.pitchSlide 1 2 3) :: rest := by rw [← List.drop_drop, hd]; rfl
  have e2 : tr.drop (s + 1 + 1) = [3, 4].map noteCmd ++ plainCmd (.pitchSlide 1 2 3) :: rest := by rw [← List.drop_drop, e1]; rfl
  have e3 : tr.drop (s + 1 + 1 + 1) = [4].map noteCmd ++ plainCmd (.pitchSlide 1 2 3) :: rest := by rw [← List.drop_drop, e2]; rfl
  have e4 : tr.drop (s + 1 + 1 + 1 + 1) = plainCmd (.pitchSlide 1 2 3) :: rest := by rw [← List.drop_drop, e3]; rfl
  have e0 : tr.drop s = [1, 2, 3, 4].map noteCmd ++ plainCmd (.pitchSlide 1 2 3) :: rest := hd
  rw [show List.range' s 5 = [s, s + 1, s + 1 + 1, s + 1 + 1 + 1, s + 1 + 1 + 1 + 1] from rfl] at h
  simp only [List.foldlM_cons, List.foldlM_nil, e0, e1, e2, e3, e4, res_bind, res_pure] at h
  obtain ⟨T0, h0, T1, h1, T2, h2, T3, h3, T4, h4, rfl⟩ := h
  obtain ⟨a1, a2, g1, g2, rfl⟩ := addCommands_edge _ 0 ([1, 2, 3, 4].map noteCmd) (noteCmd 1) _ rest a t s T0 rfl rfl rfl rfl rfl h0
  obtain ⟨b1, b2, -, -, rfl⟩ := addCommands_edge _ 1 ([2, 3, 4].map noteCmd) (noteCmd 2) _ rest b t _ T1 rfl rfl rfl rfl rfl h1
  obtain ⟨c1, c2, -, -, rfl⟩ := addCommands_edge _ 2 ([3, 4].map noteCmd) (noteCmd 3) _ rest c t _ T2 rfl rfl rfl rfl rfl h2
  obtain ⟨d1, d2, -, -, rfl⟩ := addCommands_edge _ 3 ([4].map noteCmd) (noteCmd 4) _ rest d t _ T3 rfl rfl rfl rfl rfl h3
  refine ⟨a1, a2, b2, c2, d2, g1, g2, ?_⟩
  rw [addCommands_none _ _ _ _ _ rfl] at h4
  cases h4
  rfl

theorem block_first (tr : List PCmd) (rest : List PCmd) (hd : tr.drop 0 = loopBlock ++ rest) :
    (List.range' 0 5).foldlM (fun T i => addCommands T (tr.drop i) 0 i 0) (.node [] []) = .ok (blockTree [⟨0, 0, 1⟩] [⟨0, 1, 1⟩] [⟨0, 2, 1⟩] [⟨0, 3, 1⟩]) := by
  have e1 : tr.drop 1 = [2, 3, 4].map noteCmd ++ plainCmd (.pitchSlide 1 2 3) :: rest := by
    rw [show (1 : Nat) = 0 + 1 from rfl, ← List.drop_drop, hd]; rfl
  have e2 : tr.drop 2 = [3, 4].map noteCmd ++ plainCmd (.pitchSlide 1 2 3) :: rest := by rw [show (2 : Nat) = 1 + 1 from rfl, ← List.drop_drop, e1]; rfl
  have e3 : tr.drop 3 = [4].map noteCmd ++ plainCmd (.pitchSlide 1 2 3) :: rest := by rw [show (3 : Nat) = 2 + 1 from rfl, ← List.drop_drop, e2]; rfl
  have e4 : tr.drop 4 = plainCmd (.pitchSlide 1 2 3) :: rest := by rw [show (4 : Nat) = 3 + 1 from rfl, ← List.drop_drop, e3]; rfl
  have e0 : tr.drop 0 = [1, 2, 3, 4].map noteCmd ++ plainCmd (.pitchSlide 1 2 3) :: rest := hd
  rw [show List.range' 0 5 = [0, 1, 2, 3, 4] from rfl]
  simp only [List.foldlM_cons, List.foldlM_nil, e0, e1, e2, e3, e4]
  rw [show [1, 2, 3, 4].map noteCmd ++ plainCmd (.pitchSlide 1 2 3) :: rest = noteCmd 1 :: ([2, 3, 4].map noteCmd ++ plainCmd (.pitchSlide 1 2 3) :: rest) from rfl,
    addCommands_none _ _ _ _ _ rfl]
  simp only [bind, Except.bind]
  rw [show [2, 3, 4].map noteCmd ++ plainCmd (.pitchSlide 1 2 3) :: rest = noteCmd 2 :: ([3, 4].map noteCmd ++ plainCmd (.pitchSlide 1 2 3) :: rest) from rfl,
    addCommands_none _ _ _ _ _ rfl]
  simp only
  rw [show [3, 4].map noteCmd ++ plainCmd (.pitchSlide 1 2 3) :: rest = noteCmd 3 :: ([4].map noteCmd ++ plainCmd (.pitchSlide 1 2 3) :: rest) from rfl,
    addCommands_none _ _ _ _ _ rfl]
  simp only
  rw [show [4].map noteCmd ++ plainCmd (.pitchSlide 1 2 3) :: rest = noteCmd 4 :: (plainCmd (.pitchSlide 1 2 3) :: rest) from rfl,
    addCommands_none _ _ _ _ _ rfl]
  simp only
  rw [addCommands_none _ _ _ _ _ rfl]
  rfl

/-- Positions, each recorded so many times. -/
def locsOf (ms : List ((Nat × Nat) × Nat)) : List Location := ms.flatMap fun m => List.replicate m.2 ⟨m.1.1, m.1.2, 1⟩

theorem addLocation_new (ls : List Location) (t i L : Nat) (h : ∀ l ∈ ls, ¬ (l.trackIdx = t ∧ l.cmdIdx + L = i)) : addLocation ls t i L = .ok (ls ++ [⟨t, i, 1⟩]) := by
  induction ls with
  | nil => rfl
  | cons l ls ih =>
    rw [addLocation, if_neg (h l (by simp)), ih (fun x hx => h x (by simp [hx]))]
    rfl

/-- The tree while blocks are scanned: `n` blocks so far, all before position `s` of track `t`. -/
def BlocksDone (n t s : Nat) (T : SeqTree) : Prop :=
  (n = 0 ∧ t = 0 ∧ s = 0 ∧ T = .node [] []) ∨ ∃ ms b c d, T = blockTree (locsOf ms) b c d ∧ ms.length = n ∧ (∀ m ∈ ms, 1 ≤ m.2) ∧
    ms.Pairwise (fun x y => x.1.1 < y.1.1 ∨ (x.1.1 = y.1.1 ∧ x.1.2 + 5 ≤ y.1.2)) ∧ ∀ m ∈ ms, m.1.1 < t ∨ (m.1.1 = t ∧ m.1.2 + 5 ≤ s)

theorem mem_locsOf {ms : List ((Nat × Nat) × Nat)} {l : Location} (h : l ∈ locsOf ms) : ∃ m ∈ ms, l.trackIdx = m.1.1 ∧ l.cmdIdx = m.1.2 := by
  unfold locsOf at h
  obtain ⟨m, hm, hl⟩ := List.mem_flatMap.1 h
  rw [List.eq_of_mem_replicate hl]
  exact ⟨m, hm, rfl, rfl⟩

theorem BlocksDone.step {n t s : Nat} {T T' : SeqTree} (h : BlocksDone n t s T) (tr rest : List PCmd) (hd : tr.drop s = loopBlock ++ rest)
    (he : (List.range' s 5).foldlM (fun T i => addCommands T (tr.drop i) t i 0) T = .ok T') : BlocksDone (n + 1) t (s + 5) T' := by
  right
  rcases h with ⟨rfl, rfl, rfl, rfl⟩ | ⟨ms, b, c, d, rfl, h1, h2, h3, h4⟩
  · rw [block_first tr rest hd] at he
    cases he
    exact ⟨[((0, 0), 1)], _, _, _, rfl, rfl, by simp, by simp, by simp⟩
  · obtain ⟨a1, a2, b', c', d', g1, g2, rfl⟩ := block_scan tr t s rest hd _ _ _ _ _ he
    have hno : ∀ l ∈ locsOf ms, ¬ (l.trackIdx = t ∧ l.cmdIdx + 4 = s) := by
      intro l hl hx
      obtain ⟨m, hm, e1, e2⟩ := mem_locsOf hl
      have := h4 m hm
      omega
    rw [addLocation_new _ _ _ _ hno] at g1
    cases g1
    rw [addLocation_new _ _ _ _ (by
      intro l hl
      rcases List.mem_append.1 hl with hl | hl
      · exact hno l hl
      · rw [List.mem_singleton] at hl; subst hl; simp)] at g2
    cases g2
    refine ⟨ms ++ [((t, s), 2)], b', c', d', ?_, by simp [h1], ?_, ?_, ?_⟩
    · unfold locsOf
      rw [List.flatMap_append, List.append_assoc]
      rfl
    · intro m hm
      rcases List.mem_append.1 hm with hm | hm
      · exact h2 m hm
      · rw [List.mem_singleton] at hm; subst hm; simp
    · rw [List.pairwise_append]
      refine ⟨h3, by simp, ?_⟩
      intro x hx y hy
      rw [List.mem_singleton] at hy; subst hy
      exact h4 x hx
    · intro m hm
      rcases List.mem_append.1 hm with hm | hm
      · have := h4 m hm; omega
      · rw [List.mem_singleton] at hm; subst hm; exact .inr ⟨rfl, le_rfl⟩

/-- A track of `k` blocks. -/
def loopBlocks (k : Nat) : List PCmd := (List.replicate k loopBlock).flatten

theorem blocks_length (k : Nat) : (loopBlocks k).length = k * 5 := by
  induction k with
  | zero => rfl
  | succ k ih =>
    have : loopBlocks (k + 1) = loopBlock ++ loopBlocks k := by unfold loopBlocks; rw [List.replicate_succ, List.flatten_cons]
    rw [this, List.length_append, ih, show loopBlock.length = 5 from rfl]; omega

theorem BlocksDone.track {n t k : Nat} {T T' : SeqTree} (hk : 1 ≤ k) (h : BlocksDone n t 0 T) (he : addTrack T (loopBlocks k) t = .ok T') : BlocksDone (n + k) (t + 1) 0 T' := by
  have key : ∀ (j s n : Nat) (T : SeqTree), (loopBlocks k).drop s = loopBlocks j → BlocksDone n t s T →
      (List.range' s (j * 5)).foldlM (fun T i => addCommands T ((loopBlocks k).drop i) t i 0) T = .ok T' → BlocksDone (n + j) t (s + j * 5) T' := by
    intro j
    induction j with
    | zero =>
      intro s n T _ h he
      simp only [Nat.zero_mul, List.range'_zero, List.foldlM_nil, res_pure] at he
      subst he; simpa using h
    | succ j ih =>
      intro s n T hd h he
      have hb : loopBlocks (j + 1) = loopBlock ++ loopBlocks j := by unfold loopBlocks; rw [List.replicate_succ, List.flatten_cons]
      rw [hb] at hd
      have hsplit : List.range' s ((j + 1) * 5) = List.range' s 5 ++ List.range' (s + 5) (j * 5) := by
        rw [show (j + 1) * 5 = 5 + j * 5 by omega, ← List.range'_append_1]
      rw [hsplit, List.foldlM_append, res_bind] at he
      obtain ⟨T1, h1, h2⟩ := he
      have hs := h.step _ _ hd h1
      have := ih (s + 5) (n + 1) T1 (by rw [← List.drop_drop, hd]; rfl) hs h2
      rw [show s + (j + 1) * 5 = s + 5 + j * 5 by omega, show n + (j + 1) = n + 1 + j by omega]
      exact this
  unfold addTrack at he
  rw [List.range_eq_range', blocks_length] at he
  have := key k 0 n T rfl h he
  rcases this with ⟨h0, -⟩ | ⟨ms, b, c, d, h1, h2, h3, h4, h5⟩
  · omega
  · refine .inr ⟨ms, b, c, d, h1, h2, h3, h4, ?_⟩
    intro m hm
    have := h5 m hm
    omega

theorem blocks_tree (n k : Nat) (hk : 1 ≤ k) (T : SeqTree) (h : buildTree (List.replicate n (loopBlocks k)) n = .ok T) : BlocksDone (n * k) n 0 T := by
  unfold buildTree at h
  rw [List.take_of_length_le (by simp)] at h
  have key : ∀ (j t m : Nat) (T0 : SeqTree), BlocksDone m t 0 T0 → ((List.replicate j (loopBlocks k)).zipIdx t).foldlM (fun t x => addTrack t x.1 x.2) T0 = .ok T →
      BlocksDone (m + j * k) (t + j) 0 T := by
    intro j
    induction j with
    | zero =>
      intro t m T0 h0 h
      simp only [List.replicate_zero, List.zipIdx_nil, List.foldlM_nil, res_pure] at h
      subst h; simpa using h0
    | succ j ih =>
      intro t m T0 h0 h
      rw [List.replicate_succ, List.zipIdx_cons, List.foldlM_cons, res_bind] at h
      obtain ⟨T1, h1, h2⟩ := h
      have := ih (t + 1) (m + k) T1 (h0.track hk h1) h2
      rw [show m + (j + 1) * k = m + k + j * k by rw [Nat.add_mul]; omega, show t + (j + 1) = t + 1 + j by omega]
      exact this
  have := key n 0 0 _ (.inl ⟨rfl, rfl, rfl, rfl⟩) h
  rwa [Nat.zero_add, Nat.zero_add] at this

theorem consolidate_blocks (ms : List ((Nat × Nat) × Nat)) (h1 : ∀ m ∈ ms, 1 ≤ m.2)
    (h2 : ms.Pairwise (fun x y => x.1.1 < y.1.1 ∨ (x.1.1 = y.1.1 ∧ x.1.2 + 5 ≤ y.1.2))) :
    consolidate (locsOf ms) 4 = .ok (ms.map fun m => ⟨m.1.1, m.1.2, 1⟩) := by
  have skip : ∀ (j : Nat) (l : Location) (ls : List Location), l.repeatCount = 1 → consolidate.go 4 l (List.replicate j l ++ ls) = consolidate.go 4 l ls := by
    intro j l ls hl
    induction j with
    | zero => rfl
    | succ j ih =>
      rw [List.replicate_succ, List.cons_append, consolidate.go, if_pos ⟨rfl, by rw [hl, show (1 : UInt8).toNat = 1 from rfl]; omega⟩, ih]
  have key : ∀ (ms : List ((Nat × Nat) × Nat)) (p : Nat × Nat), (∀ m ∈ ms, 1 ≤ m.2) →
      (∀ y ∈ ms, p.1 < y.1.1 ∨ (p.1 = y.1.1 ∧ p.2 + 5 ≤ y.1.2)) →
      ms.Pairwise (fun x y => x.1.1 < y.1.1 ∨ (x.1.1 = y.1.1 ∧ x.1.2 + 5 ≤ y.1.2)) →
      consolidate.go 4 ⟨p.1, p.2, 1⟩ (locsOf ms) = .ok (⟨p.1, p.2, 1⟩ :: ms.map fun m => ⟨m.1.1, m.1.2, 1⟩) := by
    intro ms
    induction ms with
    | nil => intro p _ _ _; rfl
    | cons m ms ih =>
      intro p k1 k2 k3
      rw [List.pairwise_cons] at k3
      obtain ⟨j, hj⟩ : ∃ j, m.2 = j + 1 := ⟨m.2 - 1, by have := k1 m (by simp); omega⟩
      have hl : locsOf (m :: ms) = ⟨m.1.1, m.1.2, 1⟩ :: (List.replicate j ⟨m.1.1, m.1.2, 1⟩ ++ locsOf ms) := by
        unfold locsOf; rw [List.flatMap_cons, hj, List.replicate_succ, List.cons_append]
      have hp := k2 m (by simp)
      rw [hl, consolidate.go, if_neg, if_neg, skip _ _ _ rfl, ih m.1 (fun x hx => k1 x (by simp [hx])) k3.1 k3.2]
      · rfl
      · simp only [show (1 : UInt8).toNat = 1 from rfl]; omega
      · simp only [show (1 : UInt8).toNat = 1 from rfl]; omega
  cases ms with
  | nil => rfl
  | cons m ms =>
    rw [List.pairwise_cons] at h2
    obtain ⟨j, hj⟩ : ∃ j, m.2 = j + 1 := ⟨m.2 - 1, by have := h1 m (by simp); omega⟩
    have hl : locsOf (m :: ms) = ⟨m.1.1, m.1.2, 1⟩ :: (List.replicate j ⟨m.1.1, m.1.2, 1⟩ ++ locsOf ms) := by
      unfold locsOf; rw [List.flatMap_cons, hj, List.replicate_succ, List.cons_append]
    rw [hl]
    unfold consolidate
    simp only
    rw [skip _ _ _ rfl, key ms m.1 (fun x hx => h1 x (by simp [hx])) h2.1 h2.2]
    rfl

/-- 256 blocks are too many. -/
theorem blocks_panic (n k : Nat) (h : 256 ≤ n * k) : optimizeCallLoops (List.replicate n (loopBlocks k)) n = .error .panic := by
  have hk : 1 ≤ k := by
    rcases Nat.eq_zero_or_pos k with rfl | hk
    · simp at h
    · exact hk
  obtain ⟨tree, seqs, h1, h2, h3⟩ := candidates_ok (List.replicate n (loopBlocks k)) n
  unfold optimizeCallLoops
  rw [optimizeFuel, h1]
  have hb : bestSequence tree = .error .panic := by
    rw [bestSequence_panics_iff tree seqs h2 (fun s hs l hl => (h3 s hs).1.once l hl)]
    rcases blocks_tree n k hk tree h1 with ⟨h0, -⟩ | ⟨ms, b, c, d, rfl, g1, g2, g3, -⟩
    · omega
    · have hp : ([1, 2, 3, 4].map noteCmd, locsOf ms) ∈ (blockTree (locsOf ms) b c d).paths [] := by
        unfold blockTree
        rw [mem_paths]
        exact ⟨_, List.mem_cons_self, .inl rfl⟩
      unfold SeqTree.sequences at h2
      obtain ⟨s, hs, he⟩ := mapM_mem_rev _ _ _ h2 _ hp
      simp only [res_bind, res_pure] at he
      obtain ⟨ls, e1, rfl⟩ := he
      refine ⟨_, hs, by simp, ?_⟩
      rw [show ([1, 2, 3, 4].map noteCmd).length = 4 from rfl, consolidate_blocks ms g2 g3] at e1
      cases e1
      have : ∀ l : List ((Nat × Nat) × Nat), ((l.map fun m => (⟨m.1.1, m.1.2, 1⟩ : Location)).map fun l => l.repeatCount.toNat).sum = l.length := by
        intro l
        induction l with
        | nil => rfl
        | cons a l ih => rw [List.map_cons, List.map_cons, List.sum_cons, ih, List.length_cons, show (1 : UInt8).toNat = 1 from rfl]; omega
      simp only
      rw [this, g1]
      exact h
  simp only [bind, Except.bind, hb]

end M2S
