import Verif.Proofs.TrackNew
import Verif.Proofs.Optimise
/-
Converted tracks contain no CallLoops.
-/
namespace M2S
open Timing

theorem emitted_noCall (vel : UInt8) (m : Message) (c : PCmd) (h : Emitted vel m c) (t : Nat) (n : UInt8) : c.command ≠ .callLoop t n := by
  cases h with
  | rest => simp [restCmd]
  | tempo => simp [plainCmd]
  | volume => simp [plainCmd]
  | instrument => simp [plainCmd]
  | slide => simp [plainCmd]
  | note dl ch n' v n'' d c h1 h2 hc =>
    unfold noteGroup at hc
    rcases List.mem_cons.1 hc with rfl | hc
    · simp
    · simp only [noteTies, List.mem_map] at hc
      obtain ⟨i, -, rfl⟩ := hc
      simp
  | tied dl ch n' v d c h2 hc =>
    unfold noteGroup at hc
    rcases List.mem_cons.1 hc with rfl | hc
    · simp
    · simp only [noteTies, List.mem_map] at hc
      obtain ⟨i, -, rfl⟩ := hc
      simp

theorem trackNew_noCalls (evs : List (Message × Nat)) (p T : Nat) (f : F32) (cs : List PCmd) (h : trackNew evs p T f = .ok cs) :
    ∀ c ∈ cs, ∀ t n, c.command ≠ .callLoop t n := by
  obtain ⟨st, cs0, h1, h2, h3, h4⟩ := trackNew_pre evs p T f cs h
  have hf := sustainPass_fused' cs0 cs h4 h3
  have hst : ∀ (evs : List (Message × Nat)) (st st' : TrackState), (∀ c ∈ st.commands, ∀ t n, c.command ≠ .callLoop t n) →
      evs.foldlM (trackStep p f) st = .ok st' → ∀ c ∈ st'.commands, ∀ t n, c.command ≠ .callLoop t n := by
    intro evs
    induction evs with
    | nil => intro st st' h hs; simp only [List.foldlM_nil, res_pure] at hs; subst hs; exact h
    | cons ev evs ih =>
      intro st st' h hs
      simp only [List.foldlM_cons, res_bind] at hs
      obtain ⟨st1, g1, hs⟩ := hs
      obtain ⟨⟨new, e1, e2⟩, -⟩ := emits_step p f st st1 ev g1
      refine ih st1 st' ?_ hs
      rw [e1]
      intro c hc
      rcases List.mem_append.1 hc with hc | hc
      · exact h c hc
      · exact emitted_noCall _ _ c (e2 c hc)
  have hst := hst evs {} st (by simp) h1
  have h0 : ∀ c ∈ cs0, ∀ t n, c.command ≠ .callLoop t n := by
    rcases h2 with ⟨-, rfl⟩ | ⟨-, e, h2⟩
    · simp
    · obtain ⟨new, e1, e2⟩ := emits_insertRest 0 (.sysEx 0 []) _ _ _ _ _ _ h2
      rw [e1]
      intro c hc
      rcases List.mem_append.1 hc with hc | hc
      · exact hst c hc
      · exact emitted_noCall _ _ c (e2 c hc)
  clear h1 h2 h3 h4 h hst
  induction hf with
  | nil => exact h0
  | keep c _ ih =>
    intro x hx
    rcases List.mem_cons.1 hx with rfl | hx
    · exact h0 _ (by simp)
    · exact ih (fun y hy => h0 y (by simp [hy])) x hx
  | fuse p dn dr s dt vn sn vr sr _ hs _ _ _ ih =>
    intro x hx
    rcases List.mem_cons.1 hx with rfl | hx
    · simp
    · exact ih (fun y hy => h0 y (by simp [hy])) x hx

theorem voiceTracks_noCalls (h : MidiHandler) (f : F32) (tracks : List (List PCmd)) (hv : voiceTracks h f = .ok tracks) :
    ∀ tr ∈ tracks, tr ≠ [] ∧ ∀ c ∈ tr, ∀ t n, c.command ≠ .callLoop t n := by
  intro tr htr
  unfold voiceTracks at hv
  simp only [res_bind, res_pure] at hv
  obtain ⟨ts, h1, rfl⟩ := hv
  rw [List.mem_filter] at htr
  obtain ⟨v, -, hn⟩ := mapM_mem _ _ _ h1 tr htr.1
  exact ⟨by simpa using htr.2, trackNew_noCalls _ _ _ _ _ hn⟩

theorem voiceTracks_le (h : MidiHandler) (f : F32) (tracks : List (List PCmd)) (hv : voiceTracks h f = .ok tracks) : tracks.length ≤ 8 := by
  unfold voiceTracks at hv
  simp only [res_bind, res_pure] at hv
  obtain ⟨ts, h1, rfl⟩ := hv
  have h8 : ts.length = 8 := by
    have key : ∀ (l : List (Fin 8)) ts, l.mapM (fun v => trackNew (h.voices v) h.ticksPerBeat h.maxTime f) = .ok ts → ts.length = l.length := by
      intro l
      induction l with
      | nil => intro ts h; simp only [List.mapM_nil, res_pure] at h; subst h; rfl
      | cons a l ih =>
        intro ts h
        simp only [List.mapM_cons, res_bind, res_pure] at h
        obtain ⟨b, -, bs, hbs, rfl⟩ := h
        simp [ih bs hbs]
    have := key _ ts h1
    simpa using this
  have := List.length_filter_le (fun t : List PCmd => !t.isEmpty) ts
  omega

theorem noCalls_loopsOk (tracks : List (List PCmd)) (h : ∀ tr ∈ tracks, ∀ c ∈ tr, ∀ t n, c.command ≠ .callLoop t n) : LoopsOk tracks.length tracks := by
  constructor
  · intro j b hj hb
    rw [List.getElem?_eq_none hj] at hb; cases hb
  · intro tr htr c hc t n hcmd
    exact absurd hcmd (h tr htr c hc t n)

end M2S
