import Verif.Proofs.ReleaseRead
import Verif.Spec.Release
/-
Converting a voice without overflow checks.
-/
namespace M2S
open MidiSpec

/-- What the sustain pass needs: notes and rests have lengths, those of rests not 0; no calls. -/
def Clean (c : PCmd) : Prop :=
  match c.command with
  | .note _ => c.duration.isSome = true
  | .rest => ∃ d, c.duration = some d ∧ 0 < d.toNat
  | .callLoop _ _ => False
  | _ => True

theorem clean_rests (cs : List PCmd) (d : Duration) (h : ∀ c ∈ cs, Clean c) : ∀ c ∈ (if d.length > 0 then (cs ++ List.replicate d.overflowCount (restCmd 0x7f)) ++ [restCmd d.length]
    else cs ++ List.replicate d.overflowCount (restCmd 0x7f)), Clean c := by
  have h0 : ∀ c ∈ cs ++ List.replicate d.overflowCount (restCmd 0x7f), Clean c := by
    intro c hc
    rcases List.mem_append.1 hc with hc | hc
    · exact h c hc
    · rw [List.eq_of_mem_replicate hc]
      exact ⟨0x7f, rfl, by decide⟩
  split_ifs with hl
  · intro c hc
    rcases List.mem_append.1 hc with hc | hc
    · exact h0 c hc
    · rw [List.mem_singleton] at hc
      subst hc
      exact ⟨d.length, rfl, hl⟩
  · exact h0

theorem clean_insertRest (cs : List PCmd) (a b p : Nat) (h : ∀ c ∈ cs, Clean c) : ∀ c ∈ (Release.insertRest cs a b p).1, Clean c := by
  unfold Release.insertRest
  split_ifs
  · exact clean_rests cs _ h
  · exact h

theorem clean_snoc (cs : List PCmd) (x : PCmd) (h : ∀ c ∈ cs, Clean c) (hx : Clean x) : ∀ c ∈ cs ++ [x], Clean c := by
  intro c hc
  rcases List.mem_append.1 hc with hc | hc
  · exact h c hc
  · rw [List.mem_singleton] at hc; subst hc; exact hx

theorem clean_noteOff (p : Nat) (st : TrackState) (n : UInt8) (t : Nat) (h : ∀ c ∈ st.commands, Clean c) : ∀ c ∈ (Release.trackNoteOff p st n t).commands, Clean c := by
  unfold Release.trackNoteOff
  split
  · exact h
  · simp only
    intro c hc
    rcases List.mem_append.1 hc with hc | hc
    · exact h c hc
    · rcases List.mem_cons.1 hc with rfl | hc
      · split_ifs <;> simp [Clean]
      · simp only [noteTies, List.mem_map] at hc
        obtain ⟨i, -, rfl⟩ := hc
        simp [Clean]

theorem clean_slide (c : PCmd) (a b : UInt8) : ∀ x ∈ (c.createPitchSlide a b).toList, Clean x := by
  intro x hx
  unfold PCmd.createPitchSlide at hx
  split at hx
  · cases hx
  · cases hd : c.duration with
    | none => rw [hd] at hx; cases hx
    | some d =>
      rw [hd] at hx
      simp only [Option.map_some, Option.toList_some, List.mem_singleton] at hx
      subst hx
      simp [Clean]

theorem noteOn_release (p : Nat) (st : TrackState) (n v : UInt8) (t : Nat) (hs : st.noteStart = none) (h : ∀ c ∈ st.commands, Clean c) :
    ∃ st', Release.trackNoteOn p st n v t = .ok st' ∧ st'.noteStart.isSome = true ∧ ∀ c ∈ st'.commands, Clean c := by
  unfold Release.trackNoteOn
  simp only [hs, Option.isSome_none, Bool.false_eq_true, if_false]
  refine ⟨_, rfl, rfl, ?_⟩
  have h1 := clean_insertRest st.commands st.lastNoteEnd t p h
  simp only
  split
  · split_ifs
    · intro c hc
      rcases List.mem_append.1 hc with hc | hc
      · exact h1 c hc
      · exact clean_slide _ _ _ c hc
    · exact h1
  · exact h1

/-- A message the conversion accepts is converted. -/
theorem step_release (p : Nat) (f : F32) (st : TrackState) (m : TMsg) (b b' : Bool) (hb : st.noteStart.isSome = b) (hc : ∀ c ∈ st.commands, Clean c)
    (hv : ∀ d ch n v, m.1 = .midiEvent d (.noteOn ch n v) → v ≠ 0) (ha : altStep b m = some b') (hm : accepted m.1 = true) :
    ∃ st', Release.trackStep p f st m = .ok st' ∧ st'.noteStart.isSome = b' ∧ ∀ c ∈ st'.commands, Clean c := by
  obtain ⟨m, t⟩ := m
  cases m with
  | metaEvent d e data =>
    simp only [altStep, starts, ends, Bool.false_eq_true, if_false, Option.some.injEq] at ha
    subst ha
    cases e with
    | setTempo =>
      match data, hm with
      | x :: y :: z :: rest, _ =>
        exact ⟨_, rfl, hb, clean_snoc _ _ hc (by simp [Clean, plainCmd])⟩
      | [], hm => cases hm
      | [_], hm => cases hm
      | [_, _], hm => cases hm
    | other x => exact ⟨_, rfl, hb, hc⟩
  | sysEx d data =>
    simp only [altStep, starts, ends, Bool.false_eq_true, if_false, Option.some.injEq] at ha
    subst ha
    exact ⟨_, rfl, hb, hc⟩
  | trackChange =>
    simp only [altStep, starts, ends, Bool.false_eq_true, if_false, Option.some.injEq] at ha
    subst ha
    exact ⟨_, rfl, hb, hc⟩
  | midiEvent d e =>
    cases e with
    | noteOff ch n v =>
      simp only [altStep, starts, ends, Bool.false_eq_true, if_false, if_true] at ha
      split_ifs at ha with hb2
      simp only [Option.some.injEq] at ha
      subst ha
      refine ⟨_, rfl, ?_, clean_noteOff p st n t hc⟩
      rw [hb2] at hb
      obtain ⟨s, hs⟩ := Option.isSome_iff_exists.1 hb
      unfold Release.trackNoteOff
      rw [hs]
      rfl
    | noteOn ch n v =>
      have hv0 := hv d ch n v rfl
      simp only [altStep, starts, decide_not, hv0, decide_false, Bool.not_false, if_true] at ha
      split_ifs at ha with hb2
      simp only [Option.some.injEq] at ha
      subst ha
      have hn : st.noteStart = none := by
        rw [← Option.isSome_eq_false_iff.trans Option.isNone_iff_eq_none, hb]; simpa using hb2
      exact noteOn_release p st n v t hn hc
    | controlChange ch c v =>
      simp only [altStep, starts, ends, Bool.false_eq_true, if_false, Option.some.injEq] at ha
      subst ha
      refine ⟨_, rfl, ?_, ?_⟩
      · unfold Release.trackControl; split_ifs <;> exact hb
      · unfold Release.trackControl
        split_ifs
        · exact hc
        · exact clean_snoc _ _ hc (by simp [Clean, plainCmd])
        · exact hc
        · exact hc
        · exact hc
    | programChange ch q =>
      simp only [altStep, starts, ends, Bool.false_eq_true, if_false, Option.some.injEq] at ha
      subst ha
      simp only [Release.trackStep, Release.trackProgram]
      have hcl := fun i => clean_snoc _ (plainCmd (.setInstrument i)) (clean_insertRest st.commands st.lastNoteEnd t p hc) (by simp [Clean, plainCmd])
      by_cases h9 : ch = 9
      · simp only [h9, if_true]
        exact ⟨_, rfl, hb, hcl q⟩
      · simp only [h9, if_false]
        have hq : q.toNat < Instr.instrumentMap.length := by
          simp only [accepted, h9, decide_false, Bool.false_or, decide_eq_true_eq] at hm
          rw [instrumentMap_length]
          have : q.toNat ≤ 127 := hm
          omega
        rw [List.getElem?_eq_getElem hq]
        exact ⟨_, rfl, hb, hcl _⟩
    | polyphonicKeyPressure ch n v =>
      simp only [altStep, starts, ends, Bool.false_eq_true, if_false, Option.some.injEq] at ha
      subst ha
      exact ⟨_, rfl, hb, hc⟩
    | channelPressure ch v =>
      simp only [altStep, starts, ends, Bool.false_eq_true, if_false, Option.some.injEq] at ha
      subst ha
      exact ⟨_, rfl, hb, hc⟩
    | pitchBendChange ch v =>
      simp only [altStep, starts, ends, Bool.false_eq_true, if_false, Option.some.injEq] at ha
      subst ha
      exact ⟨_, rfl, hb, hc⟩
    | unknown ch =>
      simp only [altStep, starts, ends, Bool.false_eq_true, if_false, Option.some.injEq] at ha
      subst ha
      exact ⟨_, rfl, hb, hc⟩

/-- Another message is not. -/
theorem step_rejected (p : Nat) (f : F32) (st : TrackState) (m : TMsg) (hm : accepted m.1 = false) : Release.trackStep p f st m = .error .panic := by
  obtain ⟨m, t⟩ := m
  cases m with
  | metaEvent d e data =>
    cases e with
    | setTempo =>
      match data, hm with
      | x :: y :: z :: rest, hm => simp [accepted] at hm
      | [], _ => rfl
      | [_], _ => rfl
      | [_, _], _ => rfl
    | other x => cases hm
  | sysEx d data => cases hm
  | trackChange => cases hm
  | midiEvent d e =>
    cases e with
    | programChange ch q =>
      simp only [accepted, Bool.or_eq_false_iff, decide_eq_false_iff_not] at hm
      simp only [Release.trackStep, Release.trackProgram, hm.1, if_false]
      have hq : Instr.instrumentMap.length ≤ q.toNat := by
        rw [instrumentMap_length]
        have : ¬ q.toNat ≤ 127 := hm.2
        omega
      rw [List.getElem?_eq_none hq]
      rfl
    | _ => cases hm

theorem clean_sustain (cs : List PCmd) (h : ∀ c ∈ cs, Clean c) : ∃ out, sustainPass cs = .ok out ∧ ∀ c ∈ out, Clean c := by
  induction cs using sustainPass.induct with
  | case1 => exact ⟨[], rfl, by simp⟩
  | case2 c => exact ⟨[c], rfl, h⟩
  | case3 c n rest ih1 ih2 =>
    have hcl : Clean c := h c (by simp)
    have hn : Clean n := h n (by simp)
    have hset : ∃ c' b, c.setSustain n = .ok (c', b) ∧ Clean c' := by
      unfold PCmd.setSustain
      split
      · rename_i x e1 e2
        simp only [Clean, e1] at hcl
        simp only [Clean, e2] at hn
        obtain ⟨r, hr, hr0⟩ := hn
        obtain ⟨d, hd⟩ := Option.isSome_iff_exists.1 hcl
        rw [hd, hr]
        simp only
        rw [if_neg (by omega)]
        split_ifs
        · exact ⟨_, true, rfl, by simp [Clean, e1]⟩
        · exact ⟨_, false, rfl, by simp [Clean, e1, hd]⟩
      · exact ⟨c, false, rfl, hcl⟩
    obtain ⟨c', b, hs, hc'⟩ := hset
    rw [sustainPass, hs]
    cases b with
    | true =>
      obtain ⟨out, e, g⟩ := ih1 (fun x hx => h x (by simp [hx]))
      refine ⟨c' :: out, ?_, ?_⟩
      · simp only [bind, Except.bind, if_true, e]; rfl
      · intro x hx
        rcases List.mem_cons.1 hx with rfl | hx
        · exact hc'
        · exact g x hx
    | false =>
      obtain ⟨out, e, g⟩ := ih2 (fun x hx => h x (by simp only [List.mem_cons] at hx ⊢; tauto))
      refine ⟨c' :: out, ?_, ?_⟩
      · simp only [bind, Except.bind, Bool.false_eq_true, if_false, e]; rfl
      · intro x hx
        rcases List.mem_cons.1 hx with rfl | hx
        · exact hc'
        · exact g x hx

theorem loop_release (p : Nat) (f : F32) (l : List TMsg) : ∀ (st : TrackState) (b b' : Bool), st.noteStart.isSome = b → (∀ c ∈ st.commands, Clean c) →
    (∀ m ∈ l, ∀ d ch n v, m.1 = .midiEvent d (.noteOn ch n v) → v ≠ 0) → l.foldlM altStep b = some b' →
    if ∀ m ∈ l, accepted m.1 = true then ∃ st', l.foldlM (Release.trackStep p f) st = .ok st' ∧ ∀ c ∈ st'.commands, Clean c
    else l.foldlM (Release.trackStep p f) st = .error .panic := by
  induction l with
  | nil => intro st b b' _ hc _ _; rw [if_pos (by simp)]; exact ⟨st, rfl, hc⟩
  | cons m l ih =>
    intro st b b' hb hc hv ha
    rw [List.foldlM_cons] at ha ⊢
    cases h1 : altStep b m with
    | none => rw [h1] at ha; cases ha
    | some b1 =>
      rw [h1] at ha
      cases hm : accepted m.1 with
      | false =>
        rw [if_neg (by simp [hm]), step_rejected p f st m hm]
        rfl
      | true =>
        obtain ⟨st1, e1, e2, e3⟩ := step_release p f st m b b1 hb hc (hv m (by simp)) h1 hm
        have := ih st1 b1 b' e2 e3 (fun x hx => hv x (by simp [hx])) ha
        simp only [List.mem_cons, forall_eq_or_imp, hm, true_and]
        rw [e1]
        exact this

/-- A voice on which notes alternate is converted, unless a message is not accepted. -/
theorem trackNew_converts (l : List TMsg) (p T : Nat) (f : F32) (hv : ∀ m ∈ l, ∀ d ch n v, m.1 = .midiEvent d (.noteOn ch n v) → v ≠ 0) (ha : Alternates l) :
    if ∀ m ∈ l, accepted m.1 = true then ∃ cs, Release.trackNew l p T f = .ok cs ∧ ∀ c ∈ cs, Clean c
    else Release.trackNew l p T f = .error .panic := by
  unfold Alternates at ha
  obtain ⟨b, hb⟩ := Option.isSome_iff_exists.1 ha
  have := loop_release p f l {} false b rfl (by simp) hv hb
  unfold Release.trackNew
  split_ifs at this ⊢
  · obtain ⟨st, e, hc⟩ := this
    rw [e, show ∀ {α β : Type} (a : α) (f : α → Res β), ((Except.ok a : Res α) >>= f) = f a from fun _ _ => rfl]
    split_ifs
    · exact ⟨[], rfl, by simp⟩
    · exact clean_sustain _ (clean_insertRest _ _ _ _ hc)
    · exact clean_sustain _ hc
  · rw [this]; rfl

theorem mapM_both_ways {α β : Type} (f : α → Res β) (P : α → Prop) [DecidablePred P] (Q : β → Prop) (h : ∀ a, if P a then ∃ b, f a = .ok b ∧ Q b else f a = .error .panic) (l : List α) :
    if ∀ a ∈ l, P a then ∃ bs, l.mapM f = .ok bs ∧ ∀ b ∈ bs, Q b else l.mapM f = .error .panic := by
  induction l with
  | nil => rw [if_pos (by simp)]; exact ⟨[], rfl, by simp⟩
  | cons a l ih =>
    have ha := h a
    rw [List.mapM_cons]
    by_cases hp : P a
    · rw [if_pos hp] at ha
      obtain ⟨b, e, hb⟩ := ha
      rw [e, show ∀ {α β : Type} (a : α) (f : α → Res β), ((Except.ok a : Res α) >>= f) = f a from fun _ _ => rfl]
      simp only [List.mem_cons, forall_eq_or_imp, hp, true_and]
      split_ifs at ih ⊢
      · obtain ⟨bs, e, hbs⟩ := ih
        rw [e]
        exact ⟨b :: bs, rfl, by simpa using ⟨hb, hbs⟩⟩
      · rw [ih]; rfl
    · rw [if_neg hp] at ha
      rw [if_neg (fun hh => hp (hh a (by simp))), ha]
      rfl

theorem voiceTracks_converts (h : MidiHandler) (f : F32) (hv : ∀ v, ∀ m ∈ h.voices v, ∀ d ch n w, m.1 = .midiEvent d (.noteOn ch n w) → w ≠ 0) (ha : ∀ v, Alternates (h.voices v)) :
    if ∀ v, ∀ m ∈ h.voices v, accepted m.1 = true then ∃ ts, Release.voiceTracks h f = .ok ts ∧ ∀ tr ∈ ts, tr ≠ [] ∧ ∀ c ∈ tr, Clean c
    else Release.voiceTracks h f = .error .panic := by
  have := mapM_both_ways (fun v => Release.trackNew (h.voices v) h.ticksPerBeat h.maxTime f) (fun v => ∀ m ∈ h.voices v, accepted m.1 = true) (fun tr => ∀ c ∈ tr, Clean c)
    (fun v => trackNew_converts (h.voices v) _ _ f (hv v) (ha v)) (List.finRange 8)
  simp only [List.mem_finRange, true_implies] at this
  unfold Release.voiceTracks
  split_ifs at this ⊢
  · obtain ⟨ts, e, hc⟩ := this
    rw [e]
    refine ⟨_, rfl, ?_⟩
    intro tr htr
    rw [List.mem_filter] at htr
    exact ⟨by simpa using htr.2, hc tr htr.1⟩
  · rw [this]; rfl

theorem Clean.noCall {c : PCmd} (h : Clean c) : c.isCall = false ∧ ∀ t n, c.command ≠ .callLoop t n := by
  unfold Clean at h
  constructor
  · unfold PCmd.isCall
    split
    · rename_i e; rw [e] at h; exact h.elim
    · rfl
  · intro t n e
    rw [e] at h
    exact h

end M2S
