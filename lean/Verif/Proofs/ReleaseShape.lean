import Verif.Proofs.ReleaseSong
import Verif.Proofs.MidiPlayable
import Verif.Props.MidiPlayback
import Verif.Props.Release
/-
The form of songs converted without overflow checks.
-/
namespace M2S
open Nspc MidiSpec

theorem shaped_rest (d : UInt8) : Shaped (restCmd d) := ⟨fun _ => ⟨_, rfl⟩, (fun h => by cases h), rfl, (fun x h => by cases h), by simp [restCmd]⟩

theorem shaped_snoc {cs : List PCmd} {x : PCmd} (h : ∀ c ∈ cs, Shaped c) (hx : Shaped x) : ∀ c ∈ cs ++ [x], Shaped c := by
  intro c hc
  rcases List.mem_append.1 hc with hc | hc
  · exact h c hc
  · rw [List.mem_singleton] at hc; subst hc; exact hx

theorem shaped_insertRest (cs : List PCmd) (a b p : Nat) (h : ∀ c ∈ cs, Shaped c) : ∀ c ∈ (Release.insertRest cs a b p).1, Shaped c := by
  unfold Release.insertRest
  simp only
  have h0 : ∀ (n : Nat), ∀ c ∈ cs ++ List.replicate n (restCmd 0x7f), Shaped c := by
    intro n c hc
    rcases List.mem_append.1 hc with hc | hc
    · exact h c hc
    · rw [List.eq_of_mem_replicate hc]; exact shaped_rest _
  split_ifs
  · exact shaped_snoc (h0 _) (shaped_rest _)
  · exact h0 _
  · exact h

theorem shaped_noteOff (p : Nat) (st : TrackState) (n : UInt8) (t : Nat) (h : ∀ c ∈ st.commands, Shaped c) : ∀ c ∈ (Release.trackNoteOff p st n t).commands, Shaped c := by
  unfold Release.trackNoteOff
  split
  · exact h
  · rename_i start hst
    simp only
    intro c hc
    rcases List.mem_append.1 hc with hc | hc
    · exact h c hc
    · refine shaped_group (if (st.commands.getLast?).any PCmd.isSlide then .tie else .note (n + 0x68)) ?_ st.noteVelocity (Release.getDuration (Release.subU32 t start) p true) c hc
      split_ifs <;> rfl

theorem shaped_slide (c : PCmd) (a b : UInt8) : ∀ x ∈ (c.createPitchSlide a b).toList, Shaped x := by
  intro x hx
  unfold PCmd.createPitchSlide at hx
  split at hx
  · cases hx
  · cases hd : c.duration with
    | none => rw [hd] at hx; cases hx
    | some d =>
      rw [hd] at hx
      simp only [Option.map_some, Option.toList_some, List.mem_singleton] at hx
      subst hx
      exact shaped_plain rfl rfl (fun x h => by cases h)

theorem shaped_noteOn (p : Nat) (st st' : TrackState) (n v : UInt8) (t : Nat) (h : ∀ c ∈ st.commands, Shaped c) (hs : Release.trackNoteOn p st n v t = .ok st') :
    ∀ c ∈ st'.commands, Shaped c := by
  have h1 := shaped_insertRest st.commands st.lastNoteEnd t p h
  unfold Release.trackNoteOn at hs
  simp only at hs
  by_cases h2 : st.noteStart.isSome = true
  · rw [if_pos h2] at hs; cases hs
  rw [if_neg h2] at hs
  cases hs
  simp only
  split
  · split_ifs
    · intro c hc
      rcases List.mem_append.1 hc with hc | hc
      · exact h1 c hc
      · exact shaped_slide _ _ _ c hc
    · exact h1
  · exact h1

theorem shaped_step (p : Nat) (f : F32) (st st' : TrackState) (ev : Message × Nat) (h : ∀ c ∈ st.commands, Shaped c) (hs : Release.trackStep p f st ev = .ok st') :
    ∀ c ∈ st'.commands, Shaped c := by
  obtain ⟨m, t⟩ := ev
  unfold Release.trackStep at hs
  split at hs
  · rw [res_bind] at hs
    obtain ⟨u, -, hs⟩ := hs
    simp only [res_pure] at hs
    subst hs
    exact shaped_snoc h (shaped_plain rfl rfl (fun x h => by cases h))
  · split at hs
    · cases hs; exact shaped_noteOff p st _ _ h
    · exact shaped_noteOn p st st' _ _ _ h hs
    · cases hs
      unfold Release.trackControl
      split_ifs
      · exact h
      · exact shaped_snoc h (shaped_plain rfl rfl (fun x h => by cases h))
      · exact h
      · exact h
      · exact h
    · unfold Release.trackProgram at hs
      simp only at hs
      have hi := fun i t => shaped_snoc (shaped_insertRest st.commands st.lastNoteEnd t p h) (shaped_plain (c := .setInstrument i) rfl rfl (fun x h => by cases h))
      split at hs
      · cases hs; exact hi _ _
      · split at hs
        · cases hs; exact hi _ _
        · cases hs
    · cases hs; exact h
  · cases hs; exact h

theorem shaped_setSustain (c n c' : PCmd) (b : Bool) (h : Shaped c) (hs : c.setSustain n = .ok (c', b)) : Shaped c' := by
  unfold PCmd.setSustain at hs
  split at hs
  · rename_i x e1 e2
    split at hs
    · simp only at hs
      split_ifs at hs
      · cases hs
      · cases hs
        refine ⟨fun _ => ⟨_, rfl⟩, fun g => ?_, h.call, h.fade, ?_⟩
        · simp only [e1] at g; cases g
        · intro s hs
          simp only [Option.some.injEq] at hs
          subst hs
          rw [UInt8.toNat_ofNat']
          exact le_trans (Nat.mod_le _ _) (min_le_right _ _)
      · cases hs; exact h
    · cases hs
  · cases hs; exact h

theorem shaped_sustain (cs : List PCmd) (h : ∀ c ∈ cs, Shaped c) (out : List PCmd) (ho : sustainPass cs = .ok out) : ∀ c ∈ out, Shaped c := by
  induction cs using sustainPass.induct generalizing out with
  | case1 => cases ho; simp
  | case2 c => cases ho; exact h
  | case3 c n rest ih1 ih2 =>
    rw [sustainPass, res_bind] at ho
    obtain ⟨⟨c', b⟩, hs, ho⟩ := ho
    have hc' := shaped_setSustain c n c' b (h c (by simp)) hs
    cases b with
    | true =>
      simp only [if_true, res_bind, res_pure] at ho
      obtain ⟨t, h1, rfl⟩ := ho
      intro x hx
      rcases List.mem_cons.1 hx with rfl | hx
      · exact hc'
      · exact ih1 (fun x hx => h x (by simp [hx])) t h1 x hx
    | false =>
      simp only [Bool.false_eq_true, if_false, res_bind, res_pure] at ho
      obtain ⟨t, h1, rfl⟩ := ho
      intro x hx
      rcases List.mem_cons.1 hx with rfl | hx
      · exact hc'
      · exact ih2 (fun x hx => h x (by simp only [List.mem_cons] at hx ⊢; tauto)) t h1 x hx

theorem trackNew_shaped_release (evs : List (Message × Nat)) (p T : Nat) (f : F32) (cs : List PCmd) (h : Release.trackNew evs p T f = .ok cs) : ∀ c ∈ cs, Shaped c := by
  unfold Release.trackNew at h
  rw [res_bind] at h
  obtain ⟨st, h1, h2⟩ := h
  have key : ∀ (evs : List (Message × Nat)) (st st' : TrackState), (∀ c ∈ st.commands, Shaped c) → evs.foldlM (Release.trackStep p f) st = .ok st' → ∀ c ∈ st'.commands, Shaped c := by
    intro evs
    induction evs with
    | nil => intro st st' h hs; simp only [List.foldlM_nil, res_pure] at hs; subst hs; exact h
    | cons ev evs ih =>
      intro st st' h hs
      simp only [List.foldlM_cons, res_bind] at hs
      obtain ⟨st1, g1, hs⟩ := hs
      exact ih st1 st' (shaped_step p f st st1 ev h g1) hs
  have hst := key evs {} st (by simp) h1
  split_ifs at h2
  · simp only [res_pure] at h2; subst h2; simp
  · exact shaped_sustain _ (shaped_insertRest _ _ _ _ hst) _ h2
  · exact shaped_sustain _ hst _ h2

theorem voiceTracks_shaped_release (h : MidiHandler) (f : F32) (tracks : List (List PCmd)) (hv : Release.voiceTracks h f = .ok tracks) :
    tracks.length ≤ 8 ∧ ∀ tr ∈ tracks, tr ≠ [] ∧ ∀ c ∈ tr, Shaped c := by
  unfold Release.voiceTracks at hv
  simp only [res_bind, res_pure] at hv
  obtain ⟨ts, h1, rfl⟩ := hv
  constructor
  · have h8 : ts.length = 8 := by
      have key : ∀ (l : List (Fin 8)) ts, l.mapM (fun v => Release.trackNew (h.voices v) h.ticksPerBeat h.maxTime f) = .ok ts → ts.length = l.length := by
        intro l
        induction l with
        | nil => intro ts h; simp only [List.mapM_nil, res_pure] at h; subst h; rfl
        | cons a l ih =>
          intro ts h
          simp only [List.mapM_cons, res_bind, res_pure] at h
          obtain ⟨b, -, bs, hbs, rfl⟩ := h
          simp [ih bs hbs]
      simpa using key _ ts h1
    have := List.length_filter_le (fun t : List PCmd => !t.isEmpty) ts
    omega
  · intro tr htr
    rw [List.mem_filter] at htr
    obtain ⟨v, -, hn⟩ := mapM_mem _ _ _ h1 tr htr.1
    exact ⟨by simpa using htr.2, trackNew_shaped_release _ _ _ _ _ hn⟩

theorem optimizeFuel_old_release (top fuel : Nat) : ∀ (tracks out : List (List PCmd)), top ≤ tracks.length → Release.optimizeFuel fuel tracks top = .ok out →
    tracks.length ≤ out.length ∧ ∀ tr ∈ out, ∀ c ∈ tr, OldOrCall tracks c := by
  induction fuel with
  | zero => intro tracks out _ h; cases h
  | succ fuel ih =>
    intro tracks out htop h
    rw [Release.optimizeFuel] at h
    cases hb : Release.bestSequence (Release.buildTree tracks top) with
    | none => rw [hb] at h; cases h; exact ⟨le_rfl, fun tr htr c hc => .inl ⟨tr, htr, hc⟩⟩
    | some s =>
      rw [hb] at h
      simp only [res_bind] at h
      obtain ⟨tracks1, he, h⟩ := h
      obtain ⟨hcand, -, g3⟩ := release_best tracks top s hb
      obtain ⟨newTop, rfl, hn, hg⟩ := extractSequence_inv tracks s top tracks1 he
      obtain ⟨i1, i2⟩ := ih _ out (by simp only [List.length_append, List.length_drop, List.length_singleton, hn, List.length_take]; omega) h
      refine ⟨?_, ?_⟩
      · simp only [List.length_append, List.length_drop, List.length_singleton, hn, List.length_take] at i1
        omega
      intro tr htr c hc
      rcases i2 tr htr c hc with ⟨tr', htr', hc'⟩ | g
      · rw [List.append_assoc] at htr'
        rcases List.mem_append.1 htr' with htr' | htr'
        · obtain ⟨i, hi, rfl⟩ := List.mem_iff_getElem.1 htr'
          obtain ⟨o, ho, hx⟩ := hg i _ (List.getElem?_eq_getElem (by omega))
          rw [List.getElem?_eq_getElem hi] at ho
          cases ho
          rcases extractTrack_mem _ _ _ _ _ _ hx c hc' with h | ⟨l, -, h⟩
          · exact .inl ⟨_, List.mem_of_mem_take (List.getElem_mem (by omega)), h⟩
          · exact .inr ⟨_, _, h⟩
        · rcases List.mem_append.1 htr' with htr' | htr'
          · exact .inl ⟨tr', List.mem_of_mem_drop htr', hc'⟩
          · simp only [List.mem_singleton] at htr'
            subst htr'
            cases hl : s.locations with
            | nil => rw [hl] at g3; simp at g3
            | cons l ls =>
              obtain ⟨tr, ht, hp⟩ := hcand.1.occurs l (by rw [hl]; exact List.mem_cons_self)
              exact .inl ⟨tr, List.mem_of_mem_take (List.mem_of_getElem? ht), List.mem_of_mem_drop (hp.subset hc')⟩
      · exact .inr g

/-- The commands, the part and the calls of a song converted without overflow checks. -/
theorem song_release (m : MidiHandler) (f : F32) (opt : Bool) (s : Song) (h : Release.songFromMidi m f opt = .ok s) :
    Structured s ∧ ∀ tr ∈ s.tracks, ∀ c ∈ tr, Shaped c ∨ ∃ t n, c = loopCmd t n := by
  unfold Release.songFromMidi at h
  rw [res_bind] at h
  obtain ⟨tracks, h1, h3⟩ := h
  obtain ⟨h8, hsh⟩ := voiceTracks_shaped_release m f tracks h1
  have hno : ∀ tr ∈ tracks, ∀ c ∈ tr, ∀ t n, c.command ≠ .callLoop t n := by
    intro tr htr c hc t n e
    have := ((hsh tr htr).2 c hc).call
    rw [e] at this
    cases this
  cases opt with
  | false =>
    simp only [Bool.false_eq_true, if_false, res_pure] at h3
    subst h3
    refine ⟨⟨tracks.length, h8, le_rfl, rfl, fun h => List.length_pos_iff.2 h, fun tr htr c hc t n e => absurd e (hno tr htr c hc t n)⟩, ?_⟩
    exact fun tr htr c hc => .inl ((hsh tr htr).2 c hc)
  | true =>
    simp only [if_true, res_bind, res_pure] at h3
    obtain ⟨out, h4, rfl⟩ := h3
    obtain ⟨o1, o2⟩ := optimizeFuel_old_release tracks.length _ tracks out le_rfl h4
    refine ⟨⟨tracks.length, h8, o1, rfl, ?_, ?_⟩, ?_⟩
    · intro hne
      apply List.length_pos_iff.2
      rintro rfl
      have e : Release.optimizeCallLoops [] 0 = .ok [] := by rfl
      rw [List.length_nil, e] at h4
      cases h4
      exact hne rfl
    · intro tr htr c hc t n e
      obtain ⟨g1, g2, -, body, g4, g5, g6⟩ := C102_calls tracks out (fun tr htr c hc => by
        have := hno tr htr c hc
        unfold PCmd.isCall
        split
        · rename_i e; exact absurd e (this _ _)
        · rfl) h4 tr htr c hc t n e
      refine ⟨g1, g2, body, g4, ?_, ?_⟩
      · rintro rfl; simp at g5
      · intro b hb
        have := g6 b hb
        unfold PCmd.isCall at this
        unfold isCall
        split <;> simp_all
    · intro tr htr c hc
      rcases o2 tr htr c hc with ⟨tr', g1, g2⟩ | g
      · exact .inl ((hsh tr' g1).2 c g2)
      · exact .inr g

end M2S
