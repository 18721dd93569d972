import Verif.Proofs.Damage
import Verif.Props.Counts
/-
Property C98: how far loop extraction can damage a song.
-/
namespace M2S

/-- **C98 (rounds).** Whatever the tracks, the optimiser works in rounds in which stretches of the tracks are replaced by calls: one or two copies of the new subroutine by a call with
that count; and two copies with a stretch of the length of one more, or with such a stretch and a further copy, by calls with counts 3 and 4. -/
theorem C98_rounds (tracks out : List (List PCmd)) (h : optimizeCallLoops tracks tracks.length = .ok out) : Rounds tracks.length tracks out :=
  optimizeFuel_rounds _ _ tracks out le_rfl h

/-- **C98.** The tracks of a song are what the optimised tracks stand for, except that the third copy played by a call with a count of 3 or 4 can replace other commands. -/
theorem C98_damage (tracks out : List (List PCmd)) (hcalls : ∀ tr ∈ tracks, ∀ c ∈ tr, c.isCall = false) (h : optimizeCallLoops tracks tracks.length = .ok out)
    (i : Nat) (hi : i < tracks.length) : Played out (tracks.getD i []) (out.getD i []) :=
  (C98_rounds tracks out h).damage hcalls i hi

/-- **C98 (stretches).** A stretch of an optimised track without calls of counts above 2 is sound, wherever it stands: its expansion stands in the original track. -/
theorem C98_stretch (tracks out : List (List PCmd)) (hcalls : ∀ tr ∈ tracks, ∀ c ∈ tr, c.isCall = false) (h : optimizeCallLoops tracks tracks.length = .ok out)
    (i : Nat) (hi : i < tracks.length) (u w v : List PCmd) (hu : out.getD i [] = u ++ w ++ v) (hw : ∀ c ∈ w, ∀ t n, c.command = .callLoop t n → n.toNat ≤ 2) :
    ∃ x y, tracks.getD i [] = x ++ expand out w ++ y ∧ Played out x u ∧ Played out y v := by
  obtain ⟨a1, a2, h1, h2, h3⟩ := (C98_damage tracks out hcalls h i hi).split _ _ hu
  obtain ⟨a3, a4, rfl, h4, h5⟩ := h2.split _ _ rfl
  exact ⟨a3, a2, by rw [h1, h5.exact hw], h4, h3⟩

/-- **C98 (beginning).** An optimised track begins as the original one at least up to the third copy of the first call with a count above 2. -/
theorem C98_beginning (tracks out : List (List PCmd)) (hcalls : ∀ tr ∈ tracks, ∀ c ∈ tr, c.isCall = false) (h : optimizeCallLoops tracks tracks.length = .ok out)
    (i : Nat) (hi : i < tracks.length) (w v : List PCmd) (c : PCmd) (t : Nat) (n : UInt8) (hu : out.getD i [] = w ++ c :: v)
    (hw : ∀ c ∈ w, ∀ t n, c.command = .callLoop t n → n.toNat ≤ 2) (hc : c.command = .callLoop t n) (hn : 2 ≤ n.toNat) :
    expand out w ++ copies 2 (out.getD t []) <+: tracks.getD i [] := by
  obtain ⟨a1, a2, h1, h2, h3⟩ := (C98_damage tracks out hcalls h i hi).split _ _ hu
  rw [h1, h2.exact hw]
  cases h3 with
  | keep _ hk => simp [PCmd.isCall, hc] at hk
  | @call a _ _ t' n' hc' hn' h =>
    rw [hc] at hc'; cases hc'
    rw [show n.toNat = 2 by omega]
    exact ⟨a, by rw [List.append_assoc]⟩
  | @third a _ _ t' n' x hc' hn' h =>
    rw [hc] at hc'; cases hc'
    exact ⟨x ++ copies (n.toNat - 3) (out.getD t []) ++ a, by simp only [List.append_assoc]⟩

/-- For songs: with and without optimisation the conversion of the same MIDI data gives tracks related in this way. -/
theorem C98_song (m : MidiHandler) (f : F32) (plain opt : Song) (hp : songFromMidi m f false = .ok plain) (ho : songFromMidi m f true = .ok opt) :
    opt.parts = plain.parts ∧ ∀ i < plain.tracks.length, Played opt.tracks (plain.tracks.getD i []) (opt.tracks.getD i []) := by
  unfold songFromMidi at hp ho
  rw [res_bind] at hp ho
  obtain ⟨tracks, h1, h2⟩ := hp
  obtain ⟨tracks', h1', h3⟩ := ho
  rw [h1] at h1'; cases h1'
  simp only [Bool.false_eq_true, if_false, res_pure] at h2
  simp only [if_true, res_bind, res_pure] at h3
  obtain ⟨out, h4, h5⟩ := h3
  subst h2 h5
  refine ⟨rfl, C98_damage tracks out (fun tr htr c hc => ?_) h4⟩
  have := (voiceTracks_noCalls m f tracks h1 tr htr).2 c hc
  unfold PCmd.isCall
  split
  · rename_i t n e; exact absurd e (this t n)
  · rfl

/-- The theorems at work on the track of `C33_counts_false`: the first nine commands, up to the third copy, are sound; 6 7 8 9 are lost. -/
example : ∃ x, Played [[loopCmd 1 1, noteCmd 5, loopCmd 1 3], [1, 2, 3, 4].map noteCmd] ([1, 2, 3, 4, 5, 1, 2, 3, 4, 1, 2, 3, 4].map noteCmd ++ x) [loopCmd 1 1, noteCmd 5, loopCmd 1 3] ∧
    x = [6, 7, 8, 9].map noteCmd :=
  ⟨_, C98_damage [[1, 2, 3, 4, 5, 1, 2, 3, 4, 1, 2, 3, 4, 6, 7, 8, 9].map noteCmd] _ (by decide) (by rw [optimizeCallLoops_run]; decide +kernel) 0 (by decide), rfl⟩

/-- Other commands, or fewer copies, are not what such a track can stand for. -/
example (x : List PCmd) : ¬ Played [[loopCmd 1 1, noteCmd 5, loopCmd 1 3], [1, 2, 3, 4].map noteCmd] ([1, 2, 3, 4, 5, 1, 2, 3, 4, 1, 2, 3, 6].map noteCmd ++ x) [loopCmd 1 1, noteCmd 5, loopCmd 1 3] := by
  intro h
  obtain ⟨a1, a2, h1, h2, h3⟩ := h.split [loopCmd 1 1, noteCmd 5] [loopCmd 1 3] rfl
  have e := h2.exact (by
    intro c hc t n e
    simp only [List.mem_cons, List.not_mem_nil, or_false] at hc
    rcases hc with rfl | rfl <;> cases e
    decide)
  subst e
  cases h3 with
  | keep _ hk => cases hk
  | call t n _ hc hn h => cases hc; exact absurd hn (by decide)
  | third t n x' _ hc hn h =>
    cases hc
    revert h1
    simp [expand, expandCmd, loopCmd, noteCmd, copies, List.replicate]

/-- Calls with a count of 4 can replace other commands in the same place, with a true copy after them. -/
example : optimizeCallLoops [[1, 2, 3, 4, 5, 1, 2, 3, 4, 1, 2, 3, 4, 6, 7, 8, 9, 1, 2, 3, 4, 10].map noteCmd] 1 =
    .ok [[loopCmd 1 1, noteCmd 5, loopCmd 1 4, noteCmd 10], [1, 2, 3, 4].map noteCmd] := by
  rw [optimizeCallLoops_run]; decide +kernel

end M2S
