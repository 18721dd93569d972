import Verif.Proofs.NoCalls
import Verif.Proofs.TreeIter
import Verif.Proofs.Held
import Verif.Props.Voices
/-
Properties C31–C35: the loop optimiser.
-/
namespace M2S

/-- A quarter note, for the examples. -/
def noteCmd (n : UInt8) : PCmd := ⟨some 24, some 15, some 7, .note n⟩

/-! ## C31 -/

/-- **C31.** Extraction at locations that really hold the stated number of copies, in order and without overlap, succeeds; replacing the new calls by copies of the sequence gives
back every top-level track, exactly the stated number of commands is saved, the other subroutines stay, and the sequence is the new last track. -/
theorem C31_extraction_reversible (tracks : List (List PCmd)) (top : Nat) (htop : top ≤ tracks.length) (s : Sequence)
    (htrue : ∀ l ∈ s.locations, ∃ tr, (tracks.take top)[l.trackIdx]? = some tr ∧ l.cmdIdx ≤ tr.length ∧ copies l.repeatCount.toNat s.commands <+: tr.drop l.cmdIdx)
    (hapart : Apart s.commands.length s.locations)
    (hfresh : ∀ tr ∈ tracks, ∀ c ∈ tr, ∀ n, c.command ≠ .callLoop tracks.length n) :
    ∃ out, extractSequence tracks s top = .ok out ∧ out.length = tracks.length + 1 ∧
      (∀ i < top, unroll tracks.length s.commands (out.getD i []) = tracks.getD i [] ∧
        (out.getD i []).length + s.commands.length * ((s.locations.filter fun l => l.trackIdx = i).map fun l => l.repeatCount.toNat).sum =
          (tracks.getD i []).length + (s.locations.filter fun l => l.trackIdx = i).length) ∧
      (∀ j, top ≤ j → j < tracks.length → out[j]? = tracks[j]?) ∧ out[tracks.length]? = some s.commands := by
  have htr : ∀ (i : Nat) (tr : List PCmd), (tracks.take top)[i]? = some tr → ∃ o,
      extractTrack tr s.commands.length tracks.length (s.locations.filter fun l => l.trackIdx = i) 0 = .ok o ∧ unroll tracks.length s.commands o = tr ∧
      o.length + ((s.locations.filter fun l => l.trackIdx = i).map fun l => s.commands.length * l.repeatCount.toNat).sum =
        tr.length + (s.locations.filter fun l => l.trackIdx = i).length := by
    intro i tr hi
    have hmem : tr ∈ tracks := List.mem_of_mem_take (List.mem_of_getElem? hi)
    obtain ⟨o, ho, hu, hs⟩ := extractTrack_unroll tr s.commands tracks.length (hfresh tr hmem) (s.locations.filter fun l => l.trackIdx = i) 0 (Nat.zero_le _) (by
      intro l hl
      simp only [List.mem_filter, decide_eq_true_eq] at hl
      obtain ⟨hl, rfl⟩ := hl
      obtain ⟨tr', ht', hle, hc⟩ := htrue l hl
      rw [hi] at ht'; cases ht'
      exact ⟨Nat.zero_le _, hc, hle⟩) (by
      refine List.Pairwise.imp_of_mem ?_ (List.Pairwise.filter (fun l : Location => decide (l.trackIdx = i)) hapart)
      intro a b ha hb hab
      simp only [List.mem_filter, decide_eq_true_eq] at ha hb
      rcases hab with hab | hab
      · omega
      · exact hab.2)
    exact ⟨o, ho, by rw [hu, List.drop_zero], by simpa using hs⟩
  obtain ⟨newTop, hn⟩ := mapM_zipIdx (fun x : List PCmd × Nat =>
    extractTrack x.1 s.commands.length tracks.length (s.locations.filter fun l => l.trackIdx = x.2) 0) (tracks.take top) 0
    (fun i a ha => by
      obtain ⟨o, ho, -⟩ := htr i a ha
      exact ⟨o, by simpa using ho⟩)
  have he : extractSequence tracks s top = .ok (newTop ++ tracks.drop top ++ [s.commands]) := by
    unfold extractSequence
    rw [hn]; rfl
  obtain ⟨h1, h2⟩ := mapM_zipIdx_get _ _ 0 newTop hn
  have hnl : newTop.length = top := by rw [h1, List.length_take]; omega
  refine ⟨_, he, ?_, ?_, ?_, ?_⟩
  · simp only [List.length_append, hnl, List.length_drop, List.length_singleton]; omega
  · intro i hi
    have hlt : i < (tracks.take top).length := by rw [List.length_take]; omega
    have hg := List.getElem?_eq_getElem hlt
    obtain ⟨b, hb, hf⟩ := h2 i _ hg
    obtain ⟨o, ho, hu, hs⟩ := htr i _ hg
    simp only [Nat.zero_add] at hf
    rw [hf] at ho; cases ho
    have e1 : (newTop ++ tracks.drop top ++ [s.commands]).getD i [] = b := by
      rw [List.getD_eq_getElem?_getD, List.append_assoc, List.getElem?_append_left (by omega), hb]; rfl
    have e2 : tracks.getD i [] = (tracks.take top)[i] := by
      rw [List.getD_eq_getElem?_getD, List.getElem_take, List.getElem?_eq_getElem (by omega)]; rfl
    rw [e1, e2]
    rw [sum_mul_left] at hs
    exact ⟨hu, hs⟩
  · intro j h1 h2
    rw [List.append_assoc, List.getElem?_append_right (by omega), List.getElem?_append_left (by rw [List.length_drop]; omega), List.getElem?_drop,
      show top + (j - newTop.length) = j by omega]
  · rw [List.getElem?_append_right (by simp only [List.length_append, List.length_drop]; omega)]
    rw [List.length_append, List.length_drop, show tracks.length - (newTop.length + (tracks.length - top)) = 0 by omega]; rfl

/-- Two top-level tracks and a subroutine; two locations, one of them twice. -/
example : extractSequence [[1, 2, 3, 4, 9, 1, 2, 3, 4, 1, 2, 3, 4, 5].map noteCmd, [7, 1, 2, 3, 4].map noteCmd, [5, 6].map noteCmd]
      ⟨[1, 2, 3, 4].map noteCmd, [⟨0, 5, 2⟩, ⟨1, 1, 1⟩]⟩ 2 =
    .ok [[1, 2, 3, 4, 9].map noteCmd ++ [loopCmd 3 2, noteCmd 5], [noteCmd 7, loopCmd 3 1], [5, 6].map noteCmd, [1, 2, 3, 4].map noteCmd] ∧
    Apart 4 [⟨0, 5, 2⟩, ⟨1, 1, 1⟩] ∧
    copies 2 ([1, 2, 3, 4].map noteCmd) <+: ([1, 2, 3, 4, 9, 1, 2, 3, 4, 1, 2, 3, 4, 5].map noteCmd).drop 5 := by
  refine ⟨by decide +kernel, ?_, ?_⟩
  · unfold Apart; decide
  · exact ⟨[noteCmd 5], by decide⟩

/-! ## C32 -/

/-- **C32.** Every candidate reported for a set of tracks occurs, command for command, at each of its locations (in a top-level track) and, if it is said to be repeated there, also
right after; the locations are in order and the commands they claim do not overlap. -/
theorem C32_candidates (tracks : List (List PCmd)) (top : Nat) (tree : SeqTree) (ht : buildTree tracks top = .ok tree) (seqs : List Sequence)
    (hs : tree.sequences = .ok seqs) (s : Sequence) (hm : s ∈ seqs) :
    s.commands ≠ [] ∧ (∀ l ∈ s.locations, 1 ≤ l.repeatCount.toNat ∧ Occurs (tracks.take top) s.commands l.trackIdx l.cmdIdx ∧
      (2 ≤ l.repeatCount.toNat → Occurs (tracks.take top) s.commands l.trackIdx (l.cmdIdx + s.commands.length))) ∧
    Apart s.commands.length s.locations := by
  obtain ⟨t, i, hT⟩ := buildTree_ok tracks top tree ht
  have h := sequences_ok _ t i tree hT seqs hs s hm
  exact ⟨h.ne, fun l hl => ⟨h.once l hl, h.occurs l hl, h.twice l hl⟩, h.apart⟩

/-- The iterator of the code visits exactly the sequences of the model, in the same order. -/
theorem C32_iterator (t : SeqTree) (fuel : Nat) (hf : (t.paths []).length < fuel) : iterRun fuel [⟨t, [], 0⟩] = some (t.paths []) :=
  treeIter_paths t fuel hf

/-- The sequence chosen is a worthwhile candidate of the best score; if none is chosen, none is worthwhile. -/
theorem C32_best (t : SeqTree) (seqs : List Sequence) (hs : t.sequences = .ok seqs) :
    (bestSequence t = .ok none → ∀ x ∈ seqs, x.worthwhile = .ok false) ∧
    (∀ s, bestSequence t = .ok (some s) → s ∈ seqs ∧ 4 ≤ s.commands.length ∧ 2 ≤ (s.locations.map fun l => l.repeatCount.toNat).sum ∧
      ∃ sc, s.score = .ok sc ∧ ∀ x ∈ seqs, x.worthwhile = .ok false ∨ ∃ y, x.score = .ok y ∧ y ≤ sc) := by
  unfold bestSequence
  rw [hs]
  constructor
  · intro h
    change (bestOf seqs >>= fun best => pure (best.map (·.2))) = _ at h
    simp only [res_bind, res_pure] at h
    obtain ⟨b, h1, h2⟩ := h
    cases b with
    | some b => cases h2
    | none => exact (bestOf_spec seqs _ h1).1 rfl
  · intro s h
    change (bestOf seqs >>= fun best => pure (best.map (·.2))) = _ at h
    simp only [res_bind, res_pure] at h
    obtain ⟨b, h1, h2⟩ := h
    cases b with
    | none => cases h2
    | some b =>
      obtain ⟨sc, s'⟩ := b
      simp only [Option.map_some, Option.some.injEq] at h2
      subst h2
      obtain ⟨g1, g2, g3, g4⟩ := (bestOf_spec seqs _ h1).2 sc s' rfl
      have := worthwhile_spec s' g2
      refine ⟨g1, by omega, this.2, sc, g3, ?_⟩
      intro x hx
      rcases g4 x hx with h | ⟨-, h⟩
      · exact .inl h
      · exact .inr h

/-- A tree with overlapping and repeated occurrences, and the best sequence in it (the repository's test `test_best_seq_repeats`). -/
example : (do
    let tree ← buildTree [[1, 2, 3, 4, 5, 6, 1, 2, 3, 4, 5, 1, 2, 3, 4, 1, 2, 3, 4, 1, 2, 3, 4].map noteCmd] 1
    bestSequence tree) = .ok (some ⟨[1, 2, 3, 4].map noteCmd, [⟨0, 0, 1⟩, ⟨0, 6, 1⟩, ⟨0, 11, 3⟩]⟩) := by
  rw [buildTreeF_eq]; decide +kernel

/-! ## C33 -/

/-- **C33, partial** (missing: optimised songs with a loop count above 2; see `C33_counts_false`): if no loop of the optimised song has a count above 2, replacing the calls of the optimised
tracks by copies of the called tracks gives back the original tracks. -/
theorem C33_small_counts_partial (tracks out : List (List PCmd)) (hcalls : ∀ tr ∈ tracks, ∀ c ∈ tr, ∀ t n, c.command ≠ .callLoop t n)
    (h : optimizeCallLoops tracks tracks.length = .ok out)
    (hcount : ∀ i < tracks.length, ∀ c ∈ out.getD i [], ∀ t n, c.command = .callLoop t n → n.toNat ≤ 2) (i : Nat) (hi : i < tracks.length) :
    expand out (out.getD i []) = tracks.getD i [] := by
  rw [(optimizeFuel_two tracks.length _ tracks out le_rfl (noCalls_loopsOk tracks hcalls) h hcount i hi).1]
  apply expand_self
  intro c hc
  refine hcalls (tracks.getD i []) ?_ c hc
  rw [List.getD_eq_getElem?_getD, List.getElem?_eq_getElem hi]; exact List.getElem_mem hi

/-- **C33, partial** (missing: songs that repeat four or more commands immediately): if no sequence of four or more commands of a track is repeated right after itself, replacing the
calls by copies of the called tracks gives back the original tracks. -/
theorem C33_no_repeats_partial (tracks out : List (List PCmd)) (hcalls : ∀ tr ∈ tracks, ∀ c ∈ tr, ∀ t n, c.command ≠ .callLoop t n)
    (h : optimizeCallLoops tracks tracks.length = .ok out)
    (hrep : ∀ tr ∈ tracks, ∀ w, 4 ≤ w.length → ¬ (w ++ w) <:+: tr) (i : Nat) (hi : i < tracks.length) :
    expand out (out.getD i []) = tracks.getD i [] := by
  have hmem : ∀ j < tracks.length, tracks.getD j [] ∈ tracks := by
    intro j hj
    rw [List.getD_eq_getElem?_getD, List.getElem?_eq_getElem hj]; exact List.getElem_mem hj
  have hself : ∀ j < tracks.length, expand tracks (tracks.getD j []) = tracks.getD j [] := fun j hj =>
    expand_self _ _ (fun c hc => hcalls _ (hmem j hj) c hc)
  rw [optimizeFuel_squarefree tracks.length _ tracks out le_rfl (noCalls_loopsOk tracks hcalls) h
    (fun j hj w hw => by rw [hself j hj]; exact hrep _ (hmem j hj) w hw) i hi]
  exact hself i hi

/-- The same for songs: with the two results for the same MIDI data, the parts are the same and the tracks of the parts are the same after expansion. -/
theorem C33_song_partial (m : MidiHandler) (f : F32) (plain opt : Song) (hp : songFromMidi m f false = .ok plain) (ho : songFromMidi m f true = .ok opt)
    (hcond : (∀ tr ∈ plain.tracks, ∀ w, 4 ≤ w.length → ¬ (w ++ w) <:+: tr) ∨
      ∀ i < plain.tracks.length, ∀ c ∈ opt.tracks.getD i [], ∀ t n, c.command = .callLoop t n → n.toNat ≤ 2) :
    opt.parts = plain.parts ∧ plain.tracks.length ≤ opt.tracks.length ∧
      ∀ i < plain.tracks.length, expand opt.tracks (opt.tracks.getD i []) = plain.tracks.getD i [] := by
  unfold songFromMidi at hp ho
  rw [res_bind] at hp ho
  obtain ⟨tracks, h1, h2⟩ := hp
  obtain ⟨tracks', h1', h3⟩ := ho
  rw [h1] at h1'; cases h1'
  simp only [Bool.false_eq_true, if_false, res_pure] at h2
  simp only [if_true, res_bind, res_pure] at h3
  obtain ⟨out, h4, h5⟩ := h3
  subst h2 h5
  have hcalls := fun tr htr => (voiceTracks_noCalls m f tracks h1 tr htr).2
  have hlen := (optimizeFuel_loopsOk tracks.length _ tracks out le_rfl (noCalls_loopsOk tracks hcalls) h4).2
  refine ⟨rfl, hlen, ?_⟩
  rcases hcond with hc | hc
  · exact C33_no_repeats_partial tracks out hcalls h4 hc
  · exact C33_small_counts_partial tracks out hcalls h4 hc

/-- Two rounds without immediate repetition (the second extracts from what the first left). -/
example : optimizeCallLoops [[1, 2, 3, 4, 5, 10, 6, 7, 8, 9, 11, 1, 2, 3, 4, 5].map noteCmd, [6, 7, 8, 9, 12].map noteCmd] 2 =
      .ok [[loopCmd 2 1, noteCmd 10, loopCmd 3 1, noteCmd 11, loopCmd 2 1], [loopCmd 3 1, noteCmd 12], [1, 2, 3, 4, 5].map noteCmd, [6, 7, 8, 9].map noteCmd] := by
  rw [optimizeCallLoops_run]; decide +kernel

/-- **C33 is false of the code.** A sequence that occurs exactly twice in a row is counted three times, because both `add_commands` and its recursive call record the second
occurrence; the four commands after it (6 7 8 9) are lost. -/
theorem C33_counts_false : ∃ tracks out, (∀ tr ∈ tracks, ∀ c ∈ tr, c.isCall = false) ∧ optimizeCallLoops tracks tracks.length = .ok out ∧
    expand out (out.getD 0 []) ≠ tracks.getD 0 [] ∧ (∀ c ∈ out, ∀ n ∈ [6, 7, 8, 9].map noteCmd, n ∉ c) :=
  ⟨[[1, 2, 3, 4, 5, 1, 2, 3, 4, 1, 2, 3, 4, 6, 7, 8, 9].map noteCmd], [[loopCmd 1 1, noteCmd 5, loopCmd 1 3], [1, 2, 3, 4].map noteCmd],
    by decide, by rw [optimizeCallLoops_run]; decide +kernel, by decide, by decide⟩

/-! ## C34 -/

/-- All commands of all tracks. -/
def totalSize (tracks : List (List PCmd)) : Nat := (tracks.map List.length).sum

/-- **C34.** Whatever the tracks: if a best sequence is found, extracting it succeeds and strictly reduces both the number of top-level commands and the total number of commands. -/
theorem C34_round_shrinks (tracks : List (List PCmd)) (top : Nat) (htop : top ≤ tracks.length) (tree : SeqTree) (s : Sequence)
    (ht : buildTree tracks top = .ok tree) (hb : bestSequence tree = .ok (some s)) :
    ∃ out, extractSequence tracks s top = .ok out ∧ topLevelSize out top < topLevelSize tracks top ∧ totalSize out < totalSize tracks := by
  obtain ⟨g1, g2, g3⟩ := bestSequence_ok tracks top tree s ht hb
  obtain ⟨out, e1, e2, e3⟩ := round_shrinks tracks s top htop g1 g2 g3
  refine ⟨out, e1, by omega, ?_⟩
  obtain ⟨newTop, rfl, hn, -⟩ := extractSequence_inv tracks s top out e1
  have hnl : newTop.length = top := by rw [hn, List.length_take]; omega
  have h1 : totalSize tracks = topLevelSize tracks top + ((tracks.drop top).map List.length).sum := by
    unfold totalSize topLevelSize
    rw [← List.sum_append, ← List.map_append, List.take_append_drop]
  have h2 : topLevelSize (newTop ++ tracks.drop top ++ [s.commands]) top = (newTop.map List.length).sum := by
    unfold topLevelSize
    rw [List.append_assoc, List.take_append_of_le_length (by omega), List.take_of_length_le (by omega)]
  rw [h2] at e3
  rw [h1]
  unfold totalSize
  simp only [List.map_append, List.sum_append, List.map_cons, List.map_nil, List.sum_cons, List.sum_nil]
  omega

/-- **C34.** Optimisation stops: the recursion of the code never goes deeper than the number of top-level commands (more fuel changes nothing), and it ends with tracks or with an
arithmetic overflow panic, never with an `Err`. -/
theorem C34_terminates (tracks : List (List PCmd)) (top : Nat) (htop : top ≤ tracks.length) :
    ((∃ out, optimizeCallLoops tracks top = .ok out) ∨ optimizeCallLoops tracks top = .error .panic) ∧
    ∀ fuel, topLevelSize tracks top < fuel → optimizeFuel fuel tracks top = optimizeCallLoops tracks top := by
  obtain ⟨h1, h2⟩ := optimizeFuel_total top (topLevelSize tracks top) tracks (topLevelSize tracks top + 1) htop le_rfl (Nat.lt_succ_self _)
  refine ⟨?_, h2⟩
  unfold optimizeCallLoops
  cases h : optimizeFuel (topLevelSize tracks top + 1) tracks top with
  | ok out => exact .inl ⟨out, rfl⟩
  | error e => rw [h1 e h]; exact .inr rfl

/-- **C34.** The result is the song itself or has fewer commands. -/
theorem C34_never_grows (tracks out : List (List PCmd)) (top : Nat) (htop : top ≤ tracks.length) (h : optimizeCallLoops tracks top = .ok out) :
    out = tracks ∨ (totalSize out < totalSize tracks ∧ topLevelSize out top < topLevelSize tracks top) := by
  have key : ∀ fuel (tracks out : List (List PCmd)), top ≤ tracks.length → optimizeFuel fuel tracks top = .ok out →
      out = tracks ∨ (totalSize out < totalSize tracks ∧ topLevelSize out top < topLevelSize tracks top) := by
    intro fuel
    induction fuel with
    | zero => intro tracks out _ h; cases h
    | succ fuel ih =>
      intro tracks out htop h
      rcases optimizeFuel_succ fuel tracks out top h with ⟨rfl, -⟩ | ⟨s, tracks1, hr, h⟩
      · exact .inl rfl
      · have hlen := (hr.facts htop).2.2.2.1
        obtain ⟨tree, r1, r2, r3⟩ := hr
        obtain ⟨o, q1, q2, q3⟩ := C34_round_shrinks tracks top htop tree s r1 r2
        rw [r3] at q1; cases q1
        rcases ih tracks1 out (by omega) h with rfl | ⟨i1, i2⟩
        · exact .inr ⟨q3, q2⟩
        · exact .inr ⟨by omega, by omega⟩
  exact key _ tracks out htop h

/-- A song that shrinks, and one that does not (three notes are never a loop). -/
example : optimizeCallLoops [[1, 2, 3, 4, 5, 1, 2, 3, 4].map noteCmd] 1 = .ok [[loopCmd 1 1, noteCmd 5, loopCmd 1 1], [1, 2, 3, 4].map noteCmd] ∧
    optimizeCallLoops [[1, 2, 3, 5, 1, 2, 3].map noteCmd] 1 = .ok [[1, 2, 3, 5, 1, 2, 3].map noteCmd] := by
  constructor <;> rw [optimizeCallLoops_run] <;> decide +kernel

/-! ## C35 -/

/-- **C35.** In the result of optimising tracks without CallLoops: the tracks after the original ones contain at least four commands, no CallLoop and no PitchSlide, and do not begin with a tie;
every CallLoop names one of them, with a count of at least 1. -/
theorem C35_loops_well_formed (tracks out : List (List PCmd)) (hcalls : ∀ tr ∈ tracks, ∀ c ∈ tr, ∀ t n, c.command ≠ .callLoop t n)
    (h : optimizeCallLoops tracks tracks.length = .ok out) :
    tracks.length ≤ out.length ∧
    (∀ j b, tracks.length ≤ j → out[j]? = some b → 4 ≤ b.length ∧ (∀ c ∈ b, (∀ t n, c.command ≠ .callLoop t n) ∧ ∀ x y z, c.command ≠ .pitchSlide x y z) ∧
      ∀ c, b.head? = some c → c.command ≠ .tie) ∧
    (∀ tr ∈ out, ∀ c ∈ tr, ∀ t n, c.command = .callLoop t n → tracks.length ≤ t ∧ t < out.length ∧ 1 ≤ n.toNat) := by
  obtain ⟨h1, h2⟩ := optimizeFuel_loopsOk tracks.length _ tracks out le_rfl (noCalls_loopsOk tracks hcalls) h
  refine ⟨h2, ?_, h1.call⟩
  intro j b hj hb
  obtain ⟨g1, g2, g3⟩ := h1.sub j b hj hb
  refine ⟨g1, ?_, ?_⟩
  · intro c hc
    refine ⟨eligible_no_call (g2 c hc), ?_⟩
    intro x y z hcmd
    have := g2 c hc
    unfold PCmd.callLoopEligible at this
    rw [hcmd] at this; cases this
  · intro c hc hcmd
    have := g3 c hc
    unfold PCmd.canBeFirst at this
    rw [hcmd] at this; cases this

/-- **C35** for songs converted from MIDI data: the one part names exactly the original tracks. -/
theorem C35_song (m : MidiHandler) (f : F32) (song : Song) (h : songFromMidi m f true = .ok song) :
    ∃ top, top ≤ 8 ∧ top ≤ song.tracks.length ∧ song.parts = [List.range top] ∧
      (∀ j b, top ≤ j → song.tracks[j]? = some b → 4 ≤ b.length ∧ (∀ c ∈ b, (∀ t n, c.command ≠ .callLoop t n) ∧ ∀ x y z, c.command ≠ .pitchSlide x y z) ∧
        ∀ c, b.head? = some c → c.command ≠ .tie) ∧
      (∀ tr ∈ song.tracks, ∀ c ∈ tr, ∀ t n, c.command = .callLoop t n → top ≤ t ∧ t < song.tracks.length ∧ 1 ≤ n.toNat) := by
  unfold songFromMidi at h
  rw [res_bind] at h
  obtain ⟨tracks, h1, h3⟩ := h
  simp only [if_true, res_bind, res_pure] at h3
  obtain ⟨out, h4, rfl⟩ := h3
  have hcalls := fun tr htr => (voiceTracks_noCalls m f tracks h1 tr htr).2
  obtain ⟨g1, g2, g3⟩ := C35_loops_well_formed tracks out hcalls h4
  exact ⟨tracks.length, voiceTracks_le m f tracks h1, g1, rfl, g2, g3⟩

/-- Slides and ties: the loops start after the tie that ends a slide (the repository's test `test_seq_doesnt_break_slides_at_start`). -/
example : optimizeCallLoops [[noteCmd 1, plainCmd (.pitchSlide 1 2 3), ⟨some 2, none, none, .tie⟩, noteCmd 2, noteCmd 3, noteCmd 4, noteCmd 5,
      noteCmd 1, plainCmd (.pitchSlide 1 3 3), ⟨some 2, none, none, .tie⟩, noteCmd 2, noteCmd 3, noteCmd 4, noteCmd 5]] 1 =
    .ok [[noteCmd 1, plainCmd (.pitchSlide 1 2 3), ⟨some 2, none, none, .tie⟩, loopCmd 1 1,
      noteCmd 1, plainCmd (.pitchSlide 1 3 3), ⟨some 2, none, none, .tie⟩, loopCmd 1 1], [noteCmd 2, noteCmd 3, noteCmd 4, noteCmd 5]] := by
  rw [optimizeCallLoops_run]; decide +kernel

/-! ## C23 for optimised songs -/

/-- **C23**, for the whole song, with or without loop extraction. -/
theorem C23_song_any (ord : EnumOrder) (calls : List Callback) (h : MidiHandler) (hr : readMidi ord calls = .ok h) (f : F32) (optimize : Bool) :
    songFromMidi h f optimize ≠ .error (.err .moreThanOneVoice) := by
  cases optimize with
  | false => exact C23_song ord calls h hr f
  | true =>
    have h0 := C23_song ord calls h hr f
    intro h1
    unfold songFromMidi at h0 h1
    cases hv : voiceTracks h f with
    | error e =>
      rw [hv] at h0 h1
      simp only [bind, Except.bind] at h0 h1
      exact h0 h1
    | ok tracks =>
      rw [hv] at h1
      simp only [bind, Except.bind, if_true] at h1
      rcases (C34_terminates tracks tracks.length le_rfl).1 with ⟨out, ho⟩ | ho
      · rw [ho] at h1; cases h1
      · rw [ho] at h1; cases h1

end M2S
