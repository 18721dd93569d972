import Verif.Proofs.TrackTiming
import Verif.Proofs.Res
/-
`Track::new` as a whole.
-/
namespace M2S
open Timing

/-- The end of `Track::new`: the final rest. -/
def finish (p T : Nat) (st : TrackState) : List PCmd → Prop := fun cs0 =>
  (st.commands = [] ∧ cs0 = []) ∨
  (st.commands ≠ [] ∧ ∃ e', insertRest st.commands st.lastNoteEnd T p = .ok (cs0, e'))

theorem trackNew_eq (evs : List (Message × Nat)) (p T : Nat) (f : F32) (st : TrackState) (cs0 : List PCmd)
    (h : evs.foldlM (trackStep p f) {} = .ok st) (hf : finish p T st cs0) : trackNew evs p T f = sustainPass cs0 := by
  unfold trackNew
  simp only [h, bind, Except.bind]
  rcases hf with ⟨h1, rfl⟩ | ⟨h1, e', h2⟩
  · simp [h1, pure, Except.pure, sustainPass]
  · rw [if_neg (by simpa using h1)]
    by_cases hT : T > st.lastNoteEnd
    · simp only [if_pos hT, h2]; rfl
    · have : insertRest st.commands st.lastNoteEnd T p = .ok (st.commands, st.lastNoteEnd) := by
        unfold insertRest; rw [if_neg hT]; rfl
      rw [this] at h2
      simp only [Except.ok.injEq, Prod.mk.injEq] at h2
      simp only [if_neg hT, pure, Except.pure, h2.1]

/-- Conversion of a well-formed voice, with the state after the event loop. -/
theorem trackNew_state (evs : List (Message × Nat)) (p G T : Nat) (f : F32) (hp : 0 < p) (hp2 : p < 65536) (hG : G + 3525 ≤ exactTicks p)
    (hT : T < 2 ^ 31) (hv : voiceOk p G T 0 0 none evs = true) :
    ∃ st cs0 cs, evs.foldlM (trackStep p f) {} = .ok st ∧ finish p T st cs0 ∧ trackNew evs p T f = .ok cs ∧ Fused cs0 cs ∧ (∀ c ∈ cs0, CmdOk c) ∧
      (24 * (G + 1) ≤ 32511 * p → programsBetweenNotes false evs = true →
        (cs ≠ [] → total cs0 * p < 24 * T + p + slack p * (evs.length + 1) ∧ 24 * T < total cs0 * p + p + slack p * (evs.length + 1)) ∧
        (noPortamento evs = true → List.Forall₂ (Near p (slack p * evs.length)) (spans cs0) (midiNotes none evs))) := by
  obtain ⟨st, now, adv, o, h1, h2, h3, h4⟩ := safe_loop p G T f hp hp2 hG hT evs 0 0 none {} (by omega) hv (safe_init p hp)
  have hcl := h2.clock
  have hlag := h2.lag
  obtain ⟨rs, e', hr, hok, ⟨q, hrs, he', hqa, hqb⟩, hmax, hlag'⟩ :=
    insertRest_facts st.commands st.lastNoteEnd T p (by omega) (by omega) hp hp2 h2.cmds
  have hsync : 24 * (G + 1) ≤ 32511 * p → programsBetweenNotes false evs = true → _ := fun hG2 hpr =>
    sync_loop p G T f hp hp2 hG hG2 hT evs 0 0 0 none {} st (by omega) hv hpr (safe_init p hp) (sync_init p) h1
  by_cases he : st.commands = []
  · refine ⟨st, [], [], h1, .inl ⟨he, rfl⟩, ?_, .nil, by simp, ?_⟩
    · rw [trackNew_eq evs p T f st [] h1 (.inl ⟨he, rfl⟩)]; rfl
    · intro hG2 hpr
      obtain ⟨-, -, o', -, s2, -, -, s3⟩ := hsync hG2 hpr
      refine ⟨by simp, fun hno => ?_⟩
      obtain ⟨-, new, e1, e2⟩ := s3 ⟨rfl, by simp⟩ hno (by simp)
      rw [he] at e1
      have : new = [] := by simpa [spans] using e1.symm
      subst this
      simpa [spans] using e2
  · obtain ⟨cs, hcs⟩ := sustainPass_ok (st.commands ++ rs) (fun c hc => (hok c hc).dur)
    refine ⟨st, st.commands ++ rs, cs, h1, .inr ⟨he, e', hr⟩, ?_, sustainPass_fused _ _ (fun c hc => (hok c hc).dur) hcs, hok, ?_⟩
    · rw [trackNew_eq evs p T f st _ h1 (.inr ⟨he, e', hr⟩), hcs]
    · intro hG2 hpr
      obtain ⟨-, -, o', -, s2, -, -, s3⟩ := hsync hG2 hpr
      rw [Nat.zero_add] at s2
      constructor
      · intro _
        have hq : q ≤ 32512 := by
          by_contra hc
          have h3 : 32513 * p ≤ q * p := Nat.mul_le_mul_right _ (by omega)
          rcases Nat.lt_or_ge st.lastNoteEnd T with hlt | hge
          · have := (hqb hlt).1; omega
          · have := hqa hge; omega
        have hadd := sync_add p _ _ _ q s2.lo s2.hi
        rw [total_append, hrs, total_restsOf_split _ _ hq]
        rw [← he'] at hadd
        have hsl := slack_bounds q p
        constructor
        · rcases Nat.lt_or_ge st.lastNoteEnd T with hlt | hge
          · have := (hqb hlt).1; omega
          · omega
        · have := s2.lo
          rw [Nat.mul_add, Nat.mul_one]
          rcases Nat.lt_or_ge st.lastNoteEnd T with hlt | hge
          · have := (hqb hlt).2; omega
          · omega
      · intro hno
        obtain ⟨-, new, e1, e2⟩ := s3 ⟨rfl, by simp⟩ hno (by simp)
        rw [spans_quiet _ _ (by rw [hrs]; exact restsOf_quiet _), e1]
        simpa [spans] using e2

/-- Conversion of a well-formed voice. -/
theorem trackNew_ok (evs : List (Message × Nat)) (p G T : Nat) (f : F32) (hp : 0 < p) (hp2 : p < 65536) (hG : G + 3525 ≤ exactTicks p)
    (hT : T < 2 ^ 31) (hv : voiceOk p G T 0 0 none evs = true) :
    ∃ cs0 cs, trackNew evs p T f = .ok cs ∧ Fused cs0 cs ∧ (∀ c ∈ cs0, CmdOk c) ∧
      (24 * (G + 1) ≤ 32511 * p → programsBetweenNotes false evs = true →
        (cs ≠ [] → total cs0 * p < 24 * T + p + slack p * (evs.length + 1) ∧ 24 * T < total cs0 * p + p + slack p * (evs.length + 1)) ∧
        (noPortamento evs = true → List.Forall₂ (Near p (slack p * evs.length)) (spans cs0) (midiNotes none evs))) := by
  obtain ⟨-, cs0, cs, -, -, h⟩ := trackNew_state evs p G T f hp hp2 hG hT hv
  exact ⟨cs0, cs, h⟩

/-- All durations in a list fit the duration byte. -/
def Short (cs : List PCmd) : Prop := ∀ c ∈ cs, ∀ d, c.duration = some d → d.toNat ≤ 127

theorem short_append {a b : List PCmd} : Short (a ++ b) ↔ Short a ∧ Short b := by
  unfold Short
  constructor
  · intro h; exact ⟨fun c hc => h c (by simp [hc]), fun c hc => h c (by simp [hc])⟩
  · rintro ⟨h1, h2⟩ c hc
    rcases List.mem_append.1 hc with hc | hc
    · exact h1 c hc
    · exact h2 c hc

theorem short_plain (c : Command) : Short [plainCmd c] := by
  intro x hx d hd
  simp only [List.mem_singleton] at hx
  subst hx
  simp [plainCmd] at hd

theorem short_insertRest (cs cs' : List PCmd) (e t p e' : Nat) (h : Short cs) (hr : insertRest cs e t p = .ok (cs', e')) : Short cs' := by
  unfold insertRest at hr
  split_ifs at hr
  · simp only [bind, Except.bind, getDuration] at hr
    split at hr
    · simp at hr
    · rename_i d hd
      split at hr
      · simp at hr
      · simp only [pure, Except.pure, Except.ok.injEq, Prod.mk.injEq] at hr
        obtain ⟨hr, -⟩ := hr
        have hle : d.length.toNat ≤ 127 := by
          split at hd
          · simp at hd
          · simp only [pure, Except.pure, Except.ok.injEq] at hd
            subst hd
            exact splitLength_le _ _
        have : cs' = cs ++ restsOf d := by
          rw [← hr]; unfold restsOf; split_ifs <;> simp
        rw [this, short_append]
        refine ⟨h, ?_⟩
        intro c hc x hx
        obtain ⟨u, rfl, -, h2⟩ := restsOf_mem d hle c hc
        simp only [restCmd, Option.some.injEq] at hx
        subst hx
        exact h2
  · simp only [pure, Except.pure, Except.ok.injEq, Prod.mk.injEq] at hr
    rw [← hr.1]; exact h

theorem getDuration_short (t p : Nat) (c : Bool) (d : Duration) (h : getDuration t p c = .ok d) : d.length.toNat ≤ 127 := by
  simp only [getDuration, bind, Except.bind] at h
  split at h
  · simp at h
  · simp only [pure, Except.pure, Except.ok.injEq] at h
    subst h
    exact splitLength_le _ _

theorem short_group (cmd : Command) (v : UInt8) (d : Duration) (h : d.length.toNat ≤ 127) : Short (noteGroup cmd v d) := by
  intro c hc x hx
  unfold noteGroup at hc
  rw [List.mem_cons] at hc
  rcases hc with rfl | hc
  · simp only [Option.some.injEq] at hx
    subst hx
    split_ifs
    · decide
    · exact h
  · simp only [noteTies, List.mem_map] at hc
    obtain ⟨i, -, rfl⟩ := hc
    simp only [Option.some.injEq] at hx
    subst hx
    split_ifs
    · decide
    · exact h

/-- What one event can add to the command list. -/
inductive Emitted (vel : UInt8) : Message → PCmd → Prop
  | rest (m : Message) (u : UInt8) : u.toNat ≤ 127 → Emitted vel m (restCmd u)
  | tempo (m : Message) (x : UInt8) : Emitted vel m (plainCmd (.tempo x))
  | volume (m : Message) (x : UInt8) : Emitted vel m (plainCmd (.channelVolume x))
  | instrument (m : Message) (x : UInt8) : Emitted vel m (plainCmd (.setInstrument x))
  | slide (dl ch n v) (a b n' : UInt8) : addU8 n 0x68 = .ok n' → Emitted vel (.midiEvent dl (.noteOn ch n v)) (plainCmd (.pitchSlide a b n'))
  | note (dl ch n v) (n' : UInt8) (d : Duration) (c : PCmd) : addU8 n 0x68 = .ok n' → d.length.toNat ≤ 127 →
      c ∈ noteGroup (.note n') vel d → Emitted vel (.midiEvent dl (.noteOff ch n v)) c
  | tied (dl ch n v) (d : Duration) (c : PCmd) : d.length.toNat ≤ 127 → c ∈ noteGroup .tie vel d → Emitted vel (.midiEvent dl (.noteOff ch n v)) c

theorem emits_insertRest (vel : UInt8) (m : Message) (cs cs' : List PCmd) (e t p e' : Nat) (hr : insertRest cs e t p = .ok (cs', e')) :
    ∃ new, cs' = cs ++ new ∧ ∀ c ∈ new, Emitted vel m c := by
  unfold insertRest at hr
  split_ifs at hr
  · simp only [res_bind] at hr
    obtain ⟨d, hd, e'', -, hr⟩ := hr
    simp only [res_pure, Prod.mk.injEq] at hr
    obtain ⟨hr, -⟩ := hr
    have hle := getDuration_short _ _ _ d hd
    refine ⟨restsOf d, ?_, ?_⟩
    · rw [← hr]; unfold restsOf; split_ifs <;> simp
    · intro c hc
      obtain ⟨u, rfl, -, h2⟩ := restsOf_mem d hle c hc
      exact .rest m u h2
  · simp only [res_pure, Prod.mk.injEq] at hr
    exact ⟨[], by simp [hr.1], by simp⟩

/-- Whatever the events, the loop only appends, and only such commands. -/
theorem emits_step (p : Nat) (f : F32) (st st' : TrackState) (ev : Message × Nat) (hs : trackStep p f st ev = .ok st') :
    (∃ new, st'.commands = st.commands ++ new ∧ ∀ c ∈ new, Emitted st.noteVelocity ev.1 c) ∧
    (st'.noteVelocity = st.noteVelocity ∨ ∃ dl ch n v, ev.1 = .midiEvent dl (.noteOn ch n v) ∧ st'.noteVelocity = v) := by
  have same : st = st' → (∃ new, st'.commands = st.commands ++ new ∧ ∀ c ∈ new, Emitted st.noteVelocity ev.1 c) ∧
    (st'.noteVelocity = st.noteVelocity ∨ ∃ dl ch n v, ev.1 = .midiEvent dl (.noteOn ch n v) ∧ st'.noteVelocity = v) := by
    rintro rfl; exact ⟨⟨[], by simp, by simp⟩, .inl rfl⟩
  obtain ⟨m, t⟩ := ev
  rcases m with ⟨dl, e, data⟩ | ⟨dl, e⟩ | ⟨dl, data⟩ | _
  · rcases e with _ | k
    · simp only [trackStep, res_bind, res_pure] at hs
      obtain ⟨x, -, hs⟩ := hs
      subst hs
      refine ⟨⟨_, rfl, ?_⟩, .inl rfl⟩
      intro c hc
      simp only [List.mem_singleton] at hc
      subst hc
      exact .tempo _ _
    · simp only [trackStep, Except.ok.injEq] at hs; exact same hs
  · rcases e with ⟨ch, n, v⟩ | ⟨ch, n, v⟩ | ⟨ch, n, v⟩ | ⟨ch, c, d⟩ | ⟨ch, pr⟩ | ⟨ch, pr⟩ | ⟨ch, x⟩ | ⟨ch⟩
    · simp only [trackStep, trackNoteOff] at hs
      split at hs
      · simp only [Except.ok.injEq] at hs; exact same hs
      · rw [res_bind] at hs
        obtain ⟨dt, -, hs⟩ := hs
        rw [res_bind] at hs
        obtain ⟨d, hd, hs⟩ := hs
        by_cases hsl : Option.any PCmd.isSlide st.commands.getLast? = true
        · rw [if_pos hsl] at hs
          simp only [res_bind, res_pure] at hs
          obtain ⟨cmd, rfl, t', -, hs⟩ := hs
          subst hs
          exact ⟨⟨_, rfl, fun c hc => .tied _ _ _ _ d c (getDuration_short _ _ _ d hd) hc⟩, .inl rfl⟩
        · rw [if_neg hsl] at hs
          simp only [res_bind, res_pure] at hs
          obtain ⟨n', hn', cmd, rfl, t', -, hs⟩ := hs
          subst hs
          exact ⟨⟨_, rfl, fun c hc => .note _ _ _ _ n' d c hn' (getDuration_short _ _ _ d hd) hc⟩, .inl rfl⟩
    · simp only [trackStep, trackNoteOn] at hs
      rw [res_bind] at hs
      obtain ⟨w, hw, hs⟩ := hs
      obtain ⟨new, hnew, hnew2⟩ := emits_insertRest st.noteVelocity (.midiEvent dl (.noteOn ch n v)) _ _ _ _ _ _ hw
      have fin : ∀ cs : List PCmd, (∃ new, cs = st.commands ++ new ∧ ∀ c ∈ new, Emitted st.noteVelocity (.midiEvent dl (.noteOn ch n v)) c) →
          (if st.noteStart.isSome = true then failed Err.moreThanOneVoice
          else pure { st with commands := cs, lastNoteEnd := w.2, noteStart := some w.2, noteVelocity := v } : Res TrackState) = .ok st' →
          (∃ new, st'.commands = st.commands ++ new ∧ ∀ c ∈ new, Emitted st.noteVelocity (.midiEvent dl (.noteOn ch n v)) c) ∧
          (st'.noteVelocity = st.noteVelocity ∨ ∃ dl' ch' n' v', Message.midiEvent dl (.noteOn ch n v) = .midiEvent dl' (.noteOn ch' n' v') ∧ st'.noteVelocity = v') := by
        intro cs hcs hs
        split_ifs at hs
        · simp [failed] at hs
        · rw [res_pure] at hs
          subst hs
          exact ⟨hcs, .inr ⟨_, _, _, _, rfl, rfl⟩⟩
      split at hs
      · by_cases hpm : st.portamento = true
        · rw [if_pos hpm] at hs
          simp only [res_bind] at hs
          obtain ⟨d, -, n', hn', cs, hcs, hs⟩ := hs
          rw [res_pure] at hcs
          subst hcs
          refine fin _ ⟨new ++ (PCmd.createPitchSlide _ d.length n').toList, by rw [hnew, List.append_assoc], ?_⟩ hs
          intro c hc
          rcases List.mem_append.1 hc with hc | hc
          · exact hnew2 c hc
          · unfold PCmd.createPitchSlide at hc
            split at hc
            · simp at hc
            · simp only [Option.mem_toList, Option.map_eq_some_iff] at hc
              obtain ⟨u, -, rfl⟩ := hc
              exact .slide _ _ _ _ _ _ n' hn'
        · rw [if_neg hpm] at hs
          simp only [res_bind] at hs
          obtain ⟨cs, hcs, hs⟩ := hs
          rw [res_pure] at hcs
          subst hcs
          exact fin _ ⟨new, hnew, hnew2⟩ hs
      · simp only [res_bind] at hs
        obtain ⟨cs, hcs, hs⟩ := hs
        rw [res_pure] at hcs
        subst hcs
        exact fin _ ⟨new, hnew, hnew2⟩ hs
    · simp only [trackStep, Except.ok.injEq] at hs; exact same hs
    · simp only [trackStep, trackControl] at hs
      split_ifs at hs
      · simp only [Except.ok.injEq] at hs; subst hs; exact ⟨⟨[], by simp, by simp⟩, .inl rfl⟩
      · simp only [res_bind, res_pure] at hs
        obtain ⟨x, -, hs⟩ := hs
        subst hs
        refine ⟨⟨_, rfl, ?_⟩, .inl rfl⟩
        intro c hc
        simp only [List.mem_singleton] at hc
        subst hc
        exact .volume _ _
      · simp only [Except.ok.injEq] at hs; subst hs; exact ⟨⟨[], by simp, by simp⟩, .inl rfl⟩
      · simp only [Except.ok.injEq] at hs; subst hs; exact ⟨⟨[], by simp, by simp⟩, .inl rfl⟩
      · simp only [Except.ok.injEq] at hs; exact same hs
    · simp only [trackStep, trackProgram] at hs
      rw [res_bind] at hs
      obtain ⟨w, hw, hs⟩ := hs
      obtain ⟨new, hnew, hnew2⟩ := emits_insertRest st.noteVelocity (.midiEvent dl (.programChange ch pr)) _ _ _ _ _ _ hw
      have fin : ∀ i, { st with commands := w.1 ++ [plainCmd (.setInstrument i)], lastNoteEnd := w.2 } = st' →
          (∃ new, st'.commands = st.commands ++ new ∧ ∀ c ∈ new, Emitted st.noteVelocity (.midiEvent dl (.programChange ch pr)) c) ∧
          (st'.noteVelocity = st.noteVelocity ∨ ∃ dl' ch' n' v', Message.midiEvent dl (.programChange ch pr) = .midiEvent dl' (.noteOn ch' n' v') ∧ st'.noteVelocity = v') := by
        rintro i rfl
        refine ⟨⟨new ++ [plainCmd (.setInstrument i)], by simp only [hnew, List.append_assoc], ?_⟩, .inl rfl⟩
        intro c hc
        rcases List.mem_append.1 hc with hc | hc
        · exact hnew2 c hc
        · simp only [List.mem_singleton] at hc
          subst hc
          exact .instrument _ _
      split_ifs at hs
      · simp only [res_bind, res_pure] at hs
        obtain ⟨i, -, hs⟩ := hs
        exact fin _ hs
      · split at hs
        · simp only [res_bind, res_pure] at hs
          obtain ⟨i, -, hs⟩ := hs
          exact fin _ hs
        · simp only [res_bind, res_panicked] at hs
          obtain ⟨i, hs, -⟩ := hs
          exact hs.elim
    all_goals (simp only [trackStep, Except.ok.injEq] at hs; exact same hs)
  all_goals (simp only [trackStep, Except.ok.injEq] at hs; exact same hs)

theorem emitted_short (vel : UInt8) (m : Message) (c : PCmd) (h : Emitted vel m c) : Short [c] := by
  intro x hx d hd
  simp only [List.mem_singleton] at hx
  subst hx
  cases h with
  | rest u hu => simp only [restCmd, Option.some.injEq] at hd; subst hd; assumption
  | tempo => simp [plainCmd] at hd
  | volume => simp [plainCmd] at hd
  | instrument => simp [plainCmd] at hd
  | slide => simp [plainCmd] at hd
  | note _ _ _ _ n' dd _ _ hl hm => exact short_group _ _ dd hl _ hm d hd
  | tied _ _ _ _ dd _ hl hm => exact short_group _ _ dd hl _ hm d hd

/-- Whatever the events, the loop emits durations that fit. -/
theorem short_step (p : Nat) (f : F32) (st st' : TrackState) (ev : Message × Nat) (h : Short st.commands)
    (hs : trackStep p f st ev = .ok st') : Short st'.commands := by
  obtain ⟨⟨new, h1, h2⟩, -⟩ := emits_step p f st st' ev hs
  rw [h1, short_append]
  exact ⟨h, fun c hc d hd => emitted_short _ _ c (h2 c hc) c (by simp) d hd⟩

/-- MIDI-range velocities. -/
def velocitiesOk (evs : List (Message × Nat)) : Prop := ∀ t dl ch n v, (Message.midiEvent dl (.noteOn ch n v), t) ∈ evs → v.toNat ≤ 127

/-- The note-off events. -/
def hasOff (evs : List (Message × Nat)) (n : UInt8) : Prop := ∃ t dl ch v, (Message.midiEvent dl (.noteOff ch n v), t) ∈ evs

/-- A command with parameters in range, whose pitch comes from a note-off among `evs`. -/
structure Ranged (evs : List (Message × Nat)) (c : PCmd) : Prop where
  vel : ∀ v, c.velocity = some v → v.toNat ≤ 15
  sus : ∀ s, c.sustain = some s → s.toNat ≤ 7
  pitch : ∀ p, c.command = .note p → ∃ n, hasOff evs n ∧ p.toNat = n.toNat + 0x68

theorem group_params (cmd : Command) (vel : UInt8) (hv : vel.toNat ≤ 127) (d : Duration) (c : PCmd) (hc : c ∈ noteGroup cmd vel d) :
    (∀ v, c.velocity = some v → v.toNat ≤ 15) ∧ (∀ s, c.sustain = some s → s.toNat ≤ 7) ∧ (c.command = cmd ∨ c.command = .tie) := by
  unfold noteGroup at hc
  rw [List.mem_cons] at hc
  rcases hc with rfl | hc
  · refine ⟨?_, ?_, .inl rfl⟩
    · intro v hv
      simp only [Option.some.injEq] at hv
      subst hv
      rw [UInt8.toNat_div]
      simp
      omega
    · intro s hs
      simp only [Option.some.injEq] at hs
      subst hs
      decide
  · simp only [noteTies, List.mem_map] at hc
    obtain ⟨i, -, rfl⟩ := hc
    simp

theorem emitted_ranged (evs : List (Message × Nat)) (vel : UInt8) (hv : vel.toNat ≤ 127) (m : Message) (t : Nat) (hm : (m, t) ∈ evs) (c : PCmd)
    (h : Emitted vel m c) : Ranged evs c := by
  cases h with
  | rest u hu => exact ⟨by simp [restCmd], by simp [restCmd], by simp [restCmd]⟩
  | tempo => exact ⟨by simp [plainCmd], by simp [plainCmd], by simp [plainCmd]⟩
  | volume => exact ⟨by simp [plainCmd], by simp [plainCmd], by simp [plainCmd]⟩
  | instrument => exact ⟨by simp [plainCmd], by simp [plainCmd], by simp [plainCmd]⟩
  | slide => exact ⟨by simp [plainCmd], by simp [plainCmd], by simp [plainCmd]⟩
  | note dl ch n v n' dd _ hn' hl hc =>
    obtain ⟨h1, h2, h3⟩ := group_params _ _ hv _ _ hc
    refine ⟨h1, h2, ?_⟩
    intro p hp
    rcases h3 with h3 | h3
    · rw [h3] at hp
      cases hp
      refine ⟨n, ⟨t, dl, ch, v, hm⟩, ?_⟩
      unfold addU8 at hn'
      split_ifs at hn' with hlt
      · simp only [Except.ok.injEq] at hn'
        subst hn'
        rw [UInt8.toNat_add]
        have : (0x68 : UInt8).toNat = 0x68 := rfl
        omega
      · simp [panicked] at hn'
    · rw [h3] at hp; cases hp
  | tied dl ch n v dd _ hl hc =>
    obtain ⟨h1, h2, h3⟩ := group_params _ _ hv _ _ hc
    refine ⟨h1, h2, ?_⟩
    intro p hp
    rcases h3 with h3 | h3 <;> (rw [h3] at hp; cases hp)

theorem ranged_loop (all : List (Message × Nat)) (hall : velocitiesOk all) (p : Nat) (f : F32) (evs : List (Message × Nat)) (hsub : ∀ e ∈ evs, e ∈ all)
    (st st' : TrackState) (h : ∀ c ∈ st.commands, Ranged all c) (hv : st.noteVelocity.toNat ≤ 127)
    (hs : evs.foldlM (trackStep p f) st = .ok st') : ∀ c ∈ st'.commands, Ranged all c := by
  induction evs generalizing st with
  | nil => simp only [List.foldlM_nil, res_pure] at hs; subst hs; exact h
  | cons ev evs ih =>
    simp only [List.foldlM_cons, res_bind] at hs
    obtain ⟨st1, h1, hs⟩ := hs
    obtain ⟨⟨new, e1, e2⟩, e3⟩ := emits_step p f st st1 ev h1
    refine ih (fun e he => hsub e (by simp [he])) st1 ?_ ?_ hs
    · rw [e1]
      intro c hc
      rcases List.mem_append.1 hc with hc | hc
      · exact h c hc
      · exact emitted_ranged all _ hv ev.1 ev.2 (hsub ev (by simp)) c (e2 c hc)
    · rcases e3 with e3 | ⟨dl, ch, n, v, e4, e5⟩
      · rw [e3]; exact hv
      · rw [e5]
        exact hall ev.2 dl ch n v (by rw [← e4]; exact hsub ev (by simp))

theorem fused_ranged (evs : List (Message × Nat)) {a b : List PCmd} (h : Fused a b) (ha : ∀ c ∈ a, Ranged evs c) : ∀ c ∈ b, Ranged evs c := by
  induction h with
  | nil => exact ha
  | keep c _ ih =>
    intro x hx
    rcases List.mem_cons.1 hx with rfl | hx
    · exact ha _ (by simp)
    · exact ih (fun y hy => ha y (by simp [hy])) x hx
  | fuse p dn dr s dt vn sn vr sr _ hs _ _ _ ih =>
    intro x hx
    rcases List.mem_cons.1 hx with rfl | hx
    · have h1 := ha ⟨some dn, vn, sn, .note p⟩ (by simp)
      exact ⟨h1.vel, by intro s' hs'; cases hs'; exact hs, h1.pitch⟩
    · exact ih (fun y hy => ha y (by simp [hy])) x hx

theorem short_loop (p : Nat) (f : F32) (evs : List (Message × Nat)) (st st' : TrackState) (h : Short st.commands)
    (hs : evs.foldlM (trackStep p f) st = .ok st') : Short st'.commands := by
  induction evs generalizing st with
  | nil => simp only [List.foldlM_nil, pure, Except.pure, Except.ok.injEq] at hs; subst hs; exact h
  | cons ev evs ih =>
    simp only [List.foldlM_cons, bind, Except.bind] at hs
    split at hs
    · simp at hs
    · rename_i st1 h1
      exact ih st1 (short_step p f st st1 ev h h1) hs

/-- The commands before the sustain pass, for any events. -/
theorem trackNew_pre (evs : List (Message × Nat)) (p T : Nat) (f : F32) (cs : List PCmd) (h : trackNew evs p T f = .ok cs) :
    ∃ st cs0, evs.foldlM (trackStep p f) {} = .ok st ∧ finish p T st cs0 ∧ sustainPass cs0 = .ok cs ∧ Short cs0 := by
  rcases hst : evs.foldlM (trackStep p f) {} with e | st
  · simp [trackNew, hst, bind, Except.bind] at h
  have hsh := short_loop p f evs {} st (by simp [Short]) hst
  by_cases he : st.commands = []
  · have hf : finish p T st [] := .inl ⟨he, rfl⟩
    rw [trackNew_eq evs p T f st [] hst hf] at h
    exact ⟨st, [], rfl, hf, h, by simp [Short]⟩
  · rcases hr : insertRest st.commands st.lastNoteEnd T p with e | ⟨cs0, e'⟩
    · unfold trackNew at h
      simp only [hst, bind, Except.bind] at h
      rw [if_neg (by simpa using he)] at h
      by_cases hT : T > st.lastNoteEnd
      · simp [if_pos hT, hr] at h
      · have : insertRest st.commands st.lastNoteEnd T p = .ok (st.commands, st.lastNoteEnd) := by
          unfold insertRest; rw [if_neg hT]; rfl
        rw [this] at hr; simp at hr
    · have hf : finish p T st cs0 := .inr ⟨he, e', hr⟩
      rw [trackNew_eq evs p T f st cs0 hst hf] at h
      exact ⟨st, cs0, rfl, hf, h, short_insertRest _ _ _ _ _ _ hsh hr⟩

/-- The pass only fuses, for any list of representable durations. -/
theorem sustainPass_fused' (cs r : List PCmd) (h : Short cs) (hr : sustainPass cs = .ok r) : Fused cs r := by
  induction cs using sustainPass.induct generalizing r with
  | case1 => cases hr; exact .nil
  | case2 c => cases hr; exact .keep c .nil
  | case3 c n rest ih1 ih2 =>
    unfold sustainPass at hr
    rcases hs : c.setSustain n with _ | ⟨c', b⟩
    · rw [hs] at hr; simp [bind, Except.bind] at hr
    rw [hs] at hr
    simp only [bind, Except.bind] at hr
    rcases setSustain_cases c n c' b hs with ⟨rfl, rfl⟩ | ⟨rfl, p, dn, dr, vn, sn, vr, sr, rfl, rfl, h0, hf, rfl⟩
    · simp only [Bool.false_eq_true, if_false] at hr
      rcases ht : sustainPass (n :: rest) with _ | t
      · rw [ht] at hr; simp at hr
      · rw [ht] at hr
        simp only [pure, Except.pure, Except.ok.injEq] at hr
        subst hr
        exact .keep _ (ih2 t (fun x hx => h x (by simpa using Or.inr (by simpa using hx))) ht)
    · simp only [if_true] at hr
      rcases ht : sustainPass rest with _ | t
      · rw [ht] at hr; simp at hr
      · rw [ht] at hr
        simp only [pure, Except.pure, Except.ok.injEq] at hr
        subst hr
        have b1 := h _ List.mem_cons_self _ rfl
        have b2 := h _ (List.mem_cons_of_mem _ List.mem_cons_self) _ rfl
        have hd : (UInt8.ofNat (dn.toNat + dr.toNat)).toNat = dn.toNat + dr.toNat := by
          rw [UInt8.toNat_ofNat']; omega
        have hm : (UInt8.ofNat (min (dn.toNat * 8 / (dn.toNat + dr.toNat)) 7)).toNat = min (dn.toNat * 8 / (dn.toNat + dr.toNat)) 7 := by
          rw [UInt8.toNat_ofNat']
          have := Nat.min_le_right (dn.toNat * 8 / (dn.toNat + dr.toNat)) 7
          exact Nat.mod_eq_of_lt (by omega)
        refine .fuse p dn dr _ _ vn sn vr sr hd (by rw [hm]; exact Nat.min_le_right _ _) (by rw [hd]; exact h0) ?_
          (ih1 t (fun x hx => h x (by simp [hx])) ht)
        rw [hm, hd]
        exact (sus_exact dn.toNat dr.toNat h0 hf).imp_right fun e => ⟨UInt8.toNat_inj.1 (by rw [hm]; exact e.1), e.2⟩

/-- The spans start at the note onsets. -/
theorem spans_onsets (cs : List PCmd) : (spans cs).map (fun x => (x.start, x.pitch)) = noteOnsets cs := by
  have key : ∀ (cs : List PCmd) (t : Nat) (l : List Span), ((cs.foldl listen (t, l)).2.reverse.map (fun x => (x.start, x.pitch))) =
      l.reverse.map (fun x => (x.start, x.pitch)) ++ (onsets t cs).filterMap noteAt := by
    intro cs
    induction cs with
    | nil => intro t l; simp [onsets]
    | cons c cs ih =>
      intro t l
      rw [List.foldl_cons]
      obtain ⟨d, v, s, cmd⟩ := c
      cases cmd
      case note p => simp [listen, ih, onsets, noteAt, List.filterMap_cons]
      case tie =>
        cases l with
        | nil => simp [listen, ih, onsets, noteAt, List.filterMap_cons]
        | cons x l => simp [listen, ih, onsets, noteAt, List.filterMap_cons]
      all_goals simp [listen, ih, onsets, noteAt, List.filterMap_cons]
  simpa [spans, noteOnsets] using key cs 0 []

/-- The clock after every prefix. -/
theorem sync_prefix (p G T : Nat) (f : F32) (hp : 0 < p) (hp2 : p < 65536) (hG : G + 3525 ≤ exactTicks p) (hG2 : 24 * (G + 1) ≤ 32511 * p) (hT : T < 2 ^ 31)
    (suf pre : List (Message × Nat)) :
    ∀ (now adv g : Nat) (o : Option (Nat × UInt8)) (st : TrackState), voiceOk p G T now adv (o.map Prod.fst) (pre ++ suf) = true →
      programsBetweenNotes o.isSome (pre ++ suf) = true → Safe p now adv (o.map Prod.fst) st → Sync p g (o.map Prod.fst) st →
      ∃ st' o', pre.foldlM (trackStep p f) st = .ok st' ∧ Sync p (g + pre.length) o' st' := by
  induction pre with
  | nil => intro now adv g o st _ _ _ hy; exact ⟨st, _, rfl, hy⟩
  | cons ev pre ih =>
    intro now adv g o st hv hpr hs hy
    rw [List.cons_append] at hv hpr
    obtain ⟨st1, h1, h2, h3, h4, h5⟩ := safe_step p G T f hp hp2 hG hT now adv _ st ev (pre ++ suf) hv hs
    obtain ⟨k1, k2, k3, k4⟩ := sync_step p G T f hp hp2 hG hG2 hT now adv g o st st1 ev (pre ++ suf) hv hpr hs hy h1
    rw [k3] at h2 h3 k1
    obtain ⟨st2, o', i1, i2⟩ := ih _ _ _ _ _ h3 k2 h2 k1
    refine ⟨st2, o', ?_, ?_⟩
    · simp only [List.foldlM_cons, h1]; exact i1
    · rw [List.length_cons, show g + (pre.length + 1) = g + 1 + pre.length by omega]; exact i2

end M2S
