import Verif.Proofs.Crowd
import Verif.Proofs.TreeIter
import Verif.Props.Optimise
/-
Property C92: how large repeat counts get, and when loop extraction can panic.
-/
namespace M2S

/-- **C92.** Whatever the tracks: their sequences can be collected and listed without a failure; no location of a candidate has a count above 4, and of the `n` repeats that a location
claims, the sequence really stands at `2n/3` or more places, one after the other, within the commands that the location covers. -/
theorem C92_candidates (tracks : List (List PCmd)) (top : Nat) : ∃ tree seqs, buildTree tracks top = .ok tree ∧ tree.sequences = .ok seqs ∧
    ∀ s ∈ seqs, ∀ l ∈ s.locations, l.repeatCount.toNat ≤ 4 ∧ ∃ os : List Nat, 2 * l.repeatCount.toNat ≤ 3 * os.length ∧
      os.Pairwise (fun a b => a + s.commands.length ≤ b) ∧ ∀ o ∈ os, Occurs (tracks.take top) s.commands l.trackIdx o ∧
        l.cmdIdx ≤ o ∧ o + s.commands.length ≤ l.cmdIdx + s.commands.length * l.repeatCount.toNat := by
  obtain ⟨tree, seqs, h1, h2, h3⟩ := candidates_ok tracks top
  refine ⟨tree, seqs, h1, h2, fun s hs l hl => ?_⟩
  obtain ⟨os, ho⟩ := (h3 s hs).2 l hl
  exact ⟨ho.le, os, ho.many, ho.apart, ho.occ⟩

/-- **C92.** Exactly when the search for the best sequence panics: when the counts of one candidate of four or more commands add up to 256 or more. -/
theorem C92_search (tracks : List (List PCmd)) (top : Nat) : ∃ tree seqs, buildTree tracks top = .ok tree ∧ tree.sequences = .ok seqs ∧
    (bestSequence tree = .error .panic ↔ ∃ s ∈ seqs, 4 ≤ s.commands.length ∧ 256 ≤ (s.locations.map fun l => l.repeatCount.toNat).sum) := by
  obtain ⟨tree, seqs, h1, h2, h3⟩ := candidates_ok tracks top
  exact ⟨tree, seqs, h1, h2, bestSequence_panics_iff tree seqs h2 fun s hs l hl => (h3 s hs).1.once l hl⟩

/-- **C92.** Every CallLoop of an optimised song repeats its subroutine one to four times. -/
theorem C92_loops (tracks out : List (List PCmd)) (hcalls : ∀ tr ∈ tracks, ∀ c ∈ tr, ∀ t n, c.command ≠ .callLoop t n)
    (h : optimizeCallLoops tracks tracks.length = .ok out) : ∀ tr ∈ out, ∀ c ∈ tr, ∀ t n, c.command = .callLoop t n → 1 ≤ n.toNat ∧ n.toNat ≤ 4 := by
  intro tr htr c hc t n hcmd
  refine ⟨((C35_loops_well_formed tracks out hcalls h).2.2 tr htr c hc t n hcmd).2.2, ?_⟩
  exact optimizeFuel_callsLe _ _ tracks out le_rfl (fun tr htr c hc t n hcmd => absurd hcmd (hcalls tr htr c hc t n)) h tr htr c hc t n hcmd

/-- The same for songs converted from MIDI data. -/
theorem C92_song_loops (m : MidiHandler) (f : F32) (song : Song) (h : songFromMidi m f true = .ok song) :
    ∀ tr ∈ song.tracks, ∀ c ∈ tr, ∀ t n, c.command = .callLoop t n → 1 ≤ n.toNat ∧ n.toNat ≤ 4 := by
  unfold songFromMidi at h
  rw [res_bind] at h
  obtain ⟨tracks, h1, h3⟩ := h
  simp only [if_true, res_bind, res_pure] at h3
  obtain ⟨out, h4, rfl⟩ := h3
  exact C92_loops tracks out (fun tr htr => (voiceTracks_noCalls m f tracks h1 tr htr).2) h4

/-- **C92, partial** (missing: tracks in which a sequence occurs more than 170 times; see `C92_panics`): tracks in which no sequence of four or more loopable commands occurs more than 170
times without overlapping are optimised. -/
theorem C92_sparse_partial (tracks : List (List PCmd)) (h : Sparse tracks 170) : ∃ out, optimizeCallLoops tracks tracks.length = .ok out := by
  refine optimizeFuel_ok tracks.length (fun ts => Sparse (ts.take tracks.length) 170) ?_ ?_ _ tracks le_rfl (by rw [List.take_length]; exact h) (Nat.lt_succ_self _)
  · intro ts hts s hs hl
    have := hs.sum_sparse hts hl
    omega
  · intro ts s out htop hts hr
    exact hr.sparse htop hts

/-- **C92, partial** (missing: tracks with more commands; see `C92_panics`): `t` tracks with fewer than `4 * (256 - t)` commands in all are optimised. -/
theorem C92_small_partial (tracks : List (List PCmd)) (h : totalSize tracks < 4 * (256 - tracks.length)) : ∃ out, optimizeCallLoops tracks tracks.length = .ok out := by
  refine optimizeFuel_ok tracks.length (fun ts => ((ts.take tracks.length).map List.length).sum < 4 * (256 - tracks.length)) ?_ ?_ _ tracks le_rfl
    (by rw [List.take_length]; exact h) (Nat.lt_succ_self _)
  · intro ts hts s hs hl
    have h1 := hs.sum_size
    by_contra hge
    have h2 : (ts.take tracks.length).length ≤ tracks.length := by rw [List.length_take]; omega
    have h3 : s.commands.length * 256 ≤ s.commands.length * (s.locations.map fun l => l.repeatCount.toNat).sum := Nat.mul_le_mul_left _ (by omega)
    have h4 : s.commands.length * (ts.take tracks.length).length ≤ s.commands.length * tracks.length := Nat.mul_le_mul_left _ h2
    have h5 : s.commands.length * 256 = s.commands.length * (256 - tracks.length) + s.commands.length * tracks.length := by
      rw [← Nat.mul_add]; congr 1; omega
    have h6 : 4 * (256 - tracks.length) ≤ s.commands.length * (256 - tracks.length) := Nat.mul_le_mul_right _ (by omega)
    omega
  · intro ts s out htop hts hr
    have := (hr.facts htop).2.2.2.2
    unfold topLevelSize at this
    omega

/-- **C92, partial** for songs: a song that is converted without extraction of repeats, and has fewer than 992 commands or no sequence of commands that occurs more than 170 times,
is converted with extraction too. -/
theorem C92_song_partial (m : MidiHandler) (f : F32) (plain : Song) (hp : songFromMidi m f false = .ok plain)
    (h : totalSize plain.tracks < 992 ∨ Sparse plain.tracks 170) : ∃ opt, songFromMidi m f true = .ok opt := by
  unfold songFromMidi at hp ⊢
  rw [res_bind] at hp
  obtain ⟨tracks, h1, h2⟩ := hp
  simp only [Bool.false_eq_true, if_false, res_pure] at h2
  subst h2
  have hok : ∃ out, optimizeCallLoops tracks tracks.length = .ok out := by
    rcases h with h | h
    · have := voiceTracks_le m f tracks h1
      exact C92_small_partial tracks (by simp only at h; omega)
    · exact C92_sparse_partial tracks h
  obtain ⟨out, ho⟩ := hok
  rw [h1]
  simp only [bind, Except.bind, if_true, ho]
  exact ⟨_, rfl⟩

/-! ### Cases -/

/-- A count of 4: 1 2 3 4 stands at 9, 13 and 21; 3 of the 4 are real. -/
example : (do
    let tree ← buildTree [[1, 2, 3, 4, 5, 6, 7, 8, 9, 1, 2, 3, 4, 1, 2, 3, 4, 10, 11, 12, 13, 1, 2, 3, 4, 14].map noteCmd] 1
    let seqs ← tree.sequences
    return (seqs.filter fun s => s.commands = [1, 2, 3, 4].map noteCmd).map (·.locations) : Res (List (List Location))) = .ok [[⟨0, 0, 1⟩, ⟨0, 9, 4⟩]] := by
  rw [buildTreeF_eq]; decide +kernel

/-- The optimised song calls it four times. -/
example : optimizeCallLoops [[1, 2, 3, 4, 5, 6, 7, 8, 9, 1, 2, 3, 4, 1, 2, 3, 4, 10, 11, 12, 13, 1, 2, 3, 4, 14].map noteCmd] 1 =
    .ok [[loopCmd 1 1] ++ [5, 6, 7, 8, 9].map noteCmd ++ [loopCmd 1 4, noteCmd 14], [1, 2, 3, 4].map noteCmd] := by
  rw [optimizeCallLoops_run]; decide +kernel

/-- Tracks without a repeat are sparse. -/
example : Sparse [[1, 2, 3, 4, 5].map noteCmd] 1 := by
  intro w hw _ ps hps hd
  match ps, hps, hd with
  | [], _, _ => simp
  | [_], _, _ => simp
  | a :: b :: ps, hps, hd =>
    exfalso
    have hne : w ≠ [] := by rintro rfl; simp at hw
    obtain ⟨h1, h2⟩ := occurs_le (hps a (by simp)) hne
    obtain ⟨h3, h4⟩ := occurs_le (hps b (by simp)) hne
    unfold Disjoint at hd
    rw [List.pairwise_cons] at hd
    have := hd.1 b (by simp)
    simp only [List.length_cons, List.length_nil, Nat.zero_add, Nat.lt_one_iff] at h1 h3
    rw [h1] at h2 this
    rw [h3] at h4 this
    simp only [List.getD_cons_zero, List.length_map, List.length_cons, List.length_nil] at h2 h4
    omega

/-- **C92: extraction can panic.** In `n` tracks of `k` blocks (four notes and a slide), the four notes occur `n * k` times; from 256 on, whatever `n` and `k`, the optimiser panics. -/
theorem C92_panics (n k : Nat) (h : 256 ≤ n * k) : optimizeCallLoops (List.replicate n (loopBlocks k)) n = .error .panic := blocks_panic n k h

/-- Eight voices with 32 blocks, 1280 commands in all. -/
example : optimizeCallLoops (List.replicate 8 (loopBlocks 32)) 8 = .error .panic ∧ totalSize (List.replicate 8 (loopBlocks 32)) = 1280 :=
  ⟨C92_panics 8 32 (by decide), by decide +kernel⟩

/-- With two blocks in a track there is no panic, and the notes become a subroutine. -/
example : optimizeCallLoops [loopBlocks 2] 1 =
    .ok [[loopCmd 1 1, plainCmd (.pitchSlide 1 2 3), loopCmd 1 1, plainCmd (.pitchSlide 1 2 3)], [1, 2, 3, 4].map noteCmd] := by
  rw [optimizeCallLoops_run]; decide +kernel

end M2S
