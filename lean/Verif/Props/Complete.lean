import Verif.Proofs.Complete
import Verif.Props.Optimise
/-
Property C62: how complete the search for repeats is.
-/
namespace M2S

/-- No sequence of four or more commands that may go into a loop occurs in one track at two places closer together than its length. -/
def NoSelfOverlap (tracks : List (List PCmd)) : Prop :=
  ∀ v : List PCmd, 4 ≤ v.length → (∀ c ∈ v, c.callLoopEligible = true) → ∀ t i j, i < j → j < i + v.length → ¬ (Occurs tracks v t i ∧ Occurs tracks v t j)

/-- A sequence is plain if it has neither calls nor slides nor ties. -/
def PlainSeq (w : List PCmd) : Prop := ∀ c ∈ w, (∀ t n, c.command ≠ .callLoop t n) ∧ (∀ x y z, c.command ≠ .pitchSlide x y z) ∧ c.command ≠ .tie

theorem PlainSeq.elig {w : List PCmd} (h : PlainSeq w) : ∀ c ∈ w, c.callLoopEligible = true ∧ c.canBeFirst = true := by
  intro c hc
  obtain ⟨h1, h2, h3⟩ := h c hc
  unfold PCmd.callLoopEligible PCmd.canBeFirst
  refine ⟨?_, ?_⟩
  · split
    · next a b e => exact absurd e (h1 a b)
    · next a b d e => exact absurd e (h2 a b d)
    · rfl
  · split
    · next e => exact absurd e h3
    · rfl

/-- **C62**, what holds. After optimisation no plain sequence of four or more commands occurs in two different top-level tracks. If moreover no long sequence overlaps itself in a
top-level track, such a sequence occurs at no two places at all. Missing for the full claim: repeats within one track when a long sequence overlaps itself (`C62_missed_false`),
and repeats that contain ties. -/
theorem C62_no_repeats_partial (tracks out : List (List PCmd)) (top : Nat) (h : optimizeCallLoops tracks top = .ok out) (w : List PCmd) (h4 : 4 ≤ w.length) (hw : PlainSeq w)
    (t i t' i' : Nat) (ho : Occurs (out.take top) w t i) (ho' : Occurs (out.take top) w t' i') :
    t = t' ∧ (NoSelfOverlap (out.take top) → i = i') := by
  unfold optimizeCallLoops at h
  obtain ⟨tree, h1, h2⟩ := optimizeFuel_end top _ tracks out h
  have hi := buildTree_inv h1
  refine ⟨none_left_tracks hi h2 h4 hw.elig ho ho', fun hn => ?_⟩
  exact congrArg Prod.snd (none_left_apart hi h2 hn h4 hw.elig ho ho')

/-- **C62** for songs converted from MIDI data: two voices of an optimised song have no plain sequence of four or more commands in common. -/
theorem C62_song_partial (m : MidiHandler) (f : F32) (song : Song) (h : songFromMidi m f true = .ok song) :
    ∃ top, song.parts = [List.range top] ∧ ∀ (t t' : Nat) (tr tr' : List PCmd), t < top → t' < top → t ≠ t' → song.tracks[t]? = some tr → song.tracks[t']? = some tr' →
      ∀ w, 4 ≤ w.length → PlainSeq w → ¬ (w <:+: tr ∧ w <:+: tr') := by
  unfold songFromMidi at h
  rw [res_bind] at h
  obtain ⟨tracks, h1, h3⟩ := h
  simp only [if_true, res_bind, res_pure] at h3
  obtain ⟨out, h4, rfl⟩ := h3
  refine ⟨tracks.length, rfl, ?_⟩
  rintro t t' tr tr' ht ht' hne htr htr' w hw4 hw ⟨hin, hin'⟩
  have occ : ∀ {k : Nat} {x : List PCmd}, k < tracks.length → out[k]? = some x → w <:+: x → ∃ i, Occurs (out.take tracks.length) w k i := by
    rintro k x hk hx ⟨a, b, rfl⟩
    refine ⟨a.length, a ++ w ++ b, by rw [List.getElem?_take_of_lt hk]; exact hx, ?_⟩
    rw [List.append_assoc, List.drop_left]
    exact List.prefix_append _ _
  obtain ⟨i, hi⟩ := occ ht htr hin
  obtain ⟨i', hi'⟩ := occ ht' htr' hin'
  exact hne (C62_no_repeats_partial tracks out tracks.length h4 w hw4 hw t i t' i' hi hi').1

/-- The track of the counterexample: two notes in the order `0 0 1 0 0 1 0 0 0 1 0`. -/
def missedTrack : List PCmd := [0, 0, 1, 0, 0, 1, 0, 0, 0, 1, 0].map noteCmd

/-- **C62** as one would wish it is false: the sequence `0 0 1 0` occurs at the commands 0 and 7 of this track, apart from each other, and replacing both by calls would save two
commands; the optimiser leaves the track as it is. -/
theorem C62_missed_false : optimizeCallLoops [missedTrack] 1 = .ok [missedTrack] ∧
    Occurs [missedTrack] ([0, 0, 1, 0].map noteCmd) 0 0 ∧ Occurs [missedTrack] ([0, 0, 1, 0].map noteCmd) 0 7 := by
  refine ⟨?_, ⟨missedTrack, rfl, ?_⟩, ⟨missedTrack, rfl, ?_⟩⟩
  · rw [optimizeCallLoops_run]; decide +kernel
  · exact ⟨_, rfl⟩
  · exact ⟨[], rfl⟩

/-- A search that finds the repeat in two tracks and one with a repeat inside a track; what remains. -/
example : optimizeCallLoops [[1, 2, 3, 4, 5].map noteCmd, [6, 1, 2, 3, 4, 5, 7].map noteCmd] 2 =
    .ok [[loopCmd 2 1], [noteCmd 6, loopCmd 2 1, noteCmd 7], [1, 2, 3, 4, 5].map noteCmd] := by
  rw [optimizeCallLoops_run]; decide +kernel

example : optimizeCallLoops [[1, 2, 3, 4, 6, 1, 2, 3, 4].map noteCmd] 1 =
    .ok [[loopCmd 1 1, noteCmd 6, loopCmd 1 1], [1, 2, 3, 4].map noteCmd] := by
  rw [optimizeCallLoops_run]; decide +kernel

/-- The hypotheses of `C62_no_repeats_partial` on a track that is left alone. -/
example : optimizeCallLoops [[1, 2, 3, 4, 5].map noteCmd] 1 = .ok [[1, 2, 3, 4, 5].map noteCmd] ∧ PlainSeq ([1, 2, 3, 4].map noteCmd) ∧
    Occurs [[1, 2, 3, 4, 5].map noteCmd] ([1, 2, 3, 4].map noteCmd) 0 0 ∧ NoSelfOverlap [[1, 2, 3, 4, 5].map noteCmd] := by
  refine ⟨by rw [optimizeCallLoops_run]; decide +kernel, ?_, ⟨_, rfl, ⟨_, rfl⟩⟩, ?_⟩
  · intro c hc
    obtain ⟨n, -, rfl⟩ := List.mem_map.mp hc
    exact ⟨fun _ _ h => (by cases h), fun _ _ _ h => (by cases h), fun h => (by cases h)⟩
  · rintro v h4 - t i j hij hlt ⟨⟨tr, h1, h2⟩, ⟨tr', h1', h2'⟩⟩
    rw [h1] at h1'
    cases h1'
    cases t with
    | succ t => cases h1
    | zero =>
      cases h1
      have hl := h2.length_le
      have hl' := h2'.length_le
      simp only [List.length_drop, List.length_map, List.length_cons, List.length_nil] at hl hl'
      obtain rfl : i = 0 := by omega
      obtain rfl : j = 1 := by omega
      obtain ⟨x, xs, rfl⟩ := List.exists_cons_of_ne_nil (l := v) (by rintro rfl; simp at h4)
      obtain ⟨r, hr⟩ := h2
      obtain ⟨r', hr'⟩ := h2'
      have e1 := (List.cons.inj hr).1
      have e2 := (List.cons.inj hr').1
      rw [e1] at e2
      exact absurd e2 (by decide)

end M2S
