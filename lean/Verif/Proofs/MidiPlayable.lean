import Verif.Spec.Portamento
import Verif.Proofs.NoCalls
import Verif.Proofs.Optimise
import Verif.Spec.Playback
/-
The form of the commands of converted songs, and when they can be played.
-/
namespace M2S
open Nspc

/-- Notes, ties and rests have durations of their own; other commands have no parameters, and are not calls or volume fades. -/
structure Shaped (c : PCmd) : Prop where
  timed : timed c.command = true → ∃ d, c.duration = some d
  plain : Nspc.timed c.command = false → c.duration = none ∧ c.velocity = none ∧ c.sustain = none
  call : isCall c.command = false
  fade : ∀ x, c.command ≠ .channelVolumeFade x
  sus : ∀ s, c.sustain = some s → s.toNat ≤ 7

theorem shaped_plain {c : Command} (h1 : Nspc.timed c = false) (h2 : isCall c = false) (h3 : ∀ x, c ≠ .channelVolumeFade x) : Shaped (plainCmd c) :=
  ⟨(fun h => by rw [show (plainCmd c).command = c from rfl, h1] at h; cases h), fun _ => ⟨rfl, rfl, rfl⟩, h2, h3, by simp [plainCmd]⟩

theorem shaped_group (cmd : Command) (hc : Nspc.timed cmd = true) (v : UInt8) (d : Duration) (c : PCmd) (h : c ∈ noteGroup cmd v d) : Shaped c := by
  unfold noteGroup at h
  rw [List.mem_cons] at h
  rcases h with rfl | h
  · refine ⟨fun _ => ⟨_, rfl⟩, fun h => ?_, ?_, ?_, ?_⟩
    · simp only [hc] at h; cases h
    · cases cmd <;> first | rfl | cases hc
    · rintro x rfl; cases hc
    · intro s hs; simp only [Option.some.injEq] at hs; subst hs; decide
  · simp only [noteTies, List.mem_map] at h
    obtain ⟨i, -, rfl⟩ := h
    exact ⟨fun _ => ⟨_, rfl⟩, (fun h => by cases h), rfl, (fun x h => by cases h), by simp⟩

theorem emitted_shaped (vel : UInt8) (m : Message) (c : PCmd) (h : Emitted vel m c) : Shaped c := by
  cases h with
  | rest u hu => exact ⟨fun _ => ⟨_, rfl⟩, (fun h => by cases h), rfl, (fun x h => by cases h), by simp [restCmd]⟩
  | tempo => exact shaped_plain rfl rfl (fun x h => by cases h)
  | volume => exact shaped_plain rfl rfl (fun x h => by cases h)
  | instrument => exact shaped_plain rfl rfl (fun x h => by cases h)
  | slide => exact shaped_plain rfl rfl (fun x h => by cases h)
  | note dl ch n v n' dd _ hn' hl hc => exact shaped_group _ rfl _ _ _ hc
  | tied dl ch n v dd _ hl hc => exact shaped_group _ rfl _ _ _ hc

theorem shaped_loop (p : Nat) (f : F32) : ∀ (evs : List (Message × Nat)) (st st' : TrackState), (∀ c ∈ st.commands, Shaped c) →
    evs.foldlM (trackStep p f) st = .ok st' → ∀ c ∈ st'.commands, Shaped c := by
  intro evs
  induction evs with
  | nil => intro st st' h hs; simp only [List.foldlM_nil, res_pure] at hs; subst hs; exact h
  | cons ev evs ih =>
    intro st st' h hs
    simp only [List.foldlM_cons, res_bind] at hs
    obtain ⟨st1, g1, hs⟩ := hs
    obtain ⟨⟨new, e1, e2⟩, -⟩ := emits_step p f st st1 ev g1
    refine ih st1 st' ?_ hs
    rw [e1]
    intro c hc
    rcases List.mem_append.1 hc with hc | hc
    · exact h c hc
    · exact emitted_shaped _ _ c (e2 c hc)

theorem trackNew_shaped (evs : List (Message × Nat)) (p T : Nat) (f : F32) (cs : List PCmd) (h : trackNew evs p T f = .ok cs) : ∀ c ∈ cs, Shaped c := by
  obtain ⟨st, cs0, h1, h2, h3, h4⟩ := trackNew_pre evs p T f cs h
  have hf := sustainPass_fused' cs0 cs h4 h3
  have hst := shaped_loop p f evs {} st (by simp) h1
  have h0 : ∀ c ∈ cs0, Shaped c := by
    rcases h2 with ⟨-, rfl⟩ | ⟨-, e, h2⟩
    · simp
    · obtain ⟨new, e1, e2⟩ := emits_insertRest 0 (.sysEx 0 []) _ _ _ _ _ _ h2
      rw [e1]
      intro c hc
      rcases List.mem_append.1 hc with hc | hc
      · exact hst c hc
      · exact emitted_shaped _ _ c (e2 c hc)
  clear h1 h2 h3 h4 h hst
  induction hf with
  | nil => exact h0
  | keep c _ ih =>
    intro x hx
    rcases List.mem_cons.1 hx with rfl | hx
    · exact h0 _ (by simp)
    · exact ih (fun y hy => h0 y (by simp [hy])) x hx
  | fuse p dn dr s dt vn sn vr sr _ hs _ _ _ ih =>
    intro x hx
    rcases List.mem_cons.1 hx with rfl | hx
    · exact ⟨fun _ => ⟨_, rfl⟩, (fun h => by cases h), rfl, (fun x h => by cases h), by intro s' hs'; cases hs'; exact hs⟩
    · exact ih (fun y hy => h0 y (by simp [hy])) x hx

theorem voiceTracks_shaped (h : MidiHandler) (f : F32) (tracks : List (List PCmd)) (hv : voiceTracks h f = .ok tracks) : ∀ tr ∈ tracks, ∀ c ∈ tr, Shaped c := by
  intro tr htr
  unfold voiceTracks at hv
  simp only [res_bind, res_pure] at hv
  obtain ⟨ts, h1, rfl⟩ := hv
  rw [List.mem_filter] at htr
  obtain ⟨v, -, hn⟩ := mapM_mem _ _ _ h1 tr htr.1
  exact trackNew_shaped _ _ _ _ _ hn

/-! Optimised tracks consist of old commands and calls. -/

/-- From the tracks, or a new call. -/
def OldOrCall (tracks : List (List PCmd)) (c : PCmd) : Prop := (∃ tr ∈ tracks, c ∈ tr) ∨ ∃ t n, c = loopCmd t n

theorem Round.old {top : Nat} {tracks out : List (List PCmd)} {s : Sequence} (htop : top ≤ tracks.length) (h : Round top tracks s out) :
    ∀ tr ∈ out, ∀ c ∈ tr, OldOrCall tracks c := by
  obtain ⟨g1, -, g3, -⟩ := h.facts htop
  obtain ⟨tree, -, hb, he⟩ := h
  obtain ⟨newTop, rfl, hn, hg⟩ := extractSequence_inv tracks s top out he
  intro tr htr c hc
  rw [List.append_assoc] at htr
  rcases List.mem_append.1 htr with htr | htr
  · obtain ⟨i, hi, rfl⟩ := List.mem_iff_getElem.1 htr
    obtain ⟨o, ho, hx⟩ := hg i _ (List.getElem?_eq_getElem (by omega))
    rw [List.getElem?_eq_getElem hi] at ho
    cases ho
    rcases extractTrack_mem _ _ _ _ _ _ hx c hc with h | ⟨l, -, h⟩
    · exact .inl ⟨_, List.mem_of_mem_take (List.getElem_mem (by omega)), h⟩
    · exact .inr ⟨_, _, h⟩
  · rcases List.mem_append.1 htr with htr | htr
    · exact .inl ⟨tr, List.mem_of_mem_drop htr, hc⟩
    · simp only [List.mem_singleton] at htr
      subst htr
      cases hl : s.locations with
      | nil => rw [hl] at g3; simp at g3
      | cons l ls =>
        obtain ⟨tr, ht, hp⟩ := g1.occurs l (by rw [hl]; exact List.mem_cons_self)
        exact .inl ⟨tr, List.mem_of_mem_take (List.mem_of_getElem? ht), List.mem_of_mem_drop (hp.subset hc)⟩

theorem optimizeFuel_old (top fuel : Nat) : ∀ (tracks out : List (List PCmd)), top ≤ tracks.length → optimizeFuel fuel tracks top = .ok out →
    ∀ tr ∈ out, ∀ c ∈ tr, OldOrCall tracks c := by
  induction fuel with
  | zero => intro tracks out _ h; cases h
  | succ fuel ih =>
    intro tracks out htop h tr htr c hc
    rcases optimizeFuel_succ fuel tracks out top h with ⟨rfl, -⟩ | ⟨s, tracks1, hr, h⟩
    · exact .inl ⟨tr, htr, hc⟩
    · have hlen := (hr.facts htop).2.2.2.1
      rcases ih tracks1 out (by omega) h tr htr c hc with ⟨tr', h1, h2⟩ | h
      · exact hr.old htop tr' h1 c h2
      · exact .inr h

/-! Commands that can be encoded after anything. -/

structure SelfContained (c : PCmd) : Prop where
  good : GoodCommand c.command
  dur : ∀ d ∈ c.duration, d < 0x80
  vel : ∀ v ∈ c.velocity, v < 0x10
  sus : ∀ s ∈ c.sustain, s < 0x08
  timed : timed c.command = true → ∃ d, c.duration = some d ∧ 0 < d
  plain : Nspc.timed c.command = false → asked c.velocity = none ∧ asked c.sustain = none

theorem selfContained_encodable (cs : List PCmd) (h : ∀ c ∈ cs, SelfContained c) (d : UInt8) : Encodable d cs := by
  induction cs generalizing d with
  | nil => trivial
  | cons c cs ih =>
    have hc := h c List.mem_cons_self
    refine ⟨hc.good, hc.dur, hc.vel, hc.sus, fun hx => ?_, ih (fun x hx => h x (List.mem_cons_of_mem _ hx)) _⟩
    have ht : timed c.command = true := by
      by_contra hn
      have hn : timed c.command = false := by simpa using hn
      obtain ⟨h1, h2⟩ := hc.plain hn
      rw [hn, h1, h2] at hx
      simp at hx
    obtain ⟨d', e1, e2⟩ := hc.timed ht
    have := hc.dur d' (by rw [e1]; rfl)
    have h0 : d' ≠ 0 := by rintro rfl; exact absurd e2 (by decide)
    rw [e1]
    simpa [asked, h0] using ⟨e2, this⟩

theorem selfContained_call (t : Nat) (n : UInt8) : SelfContained (loopCmd t n) :=
  ⟨trivial, by simp [loopCmd], by simp [loopCmd], by simp [loopCmd], by simp [loopCmd, Nspc.timed], by simp [loopCmd, asked]⟩

/-! Converted songs. -/

open Engine

/-- All there is to know about the commands of a converted song. -/
theorem song_cmds (m : MidiHandler) (f : F32) (opt : Bool) (s : Song) (h : songFromMidi m f opt = .ok s) :
    ∀ tr ∈ s.tracks, ∀ c ∈ tr, Shaped c ∨ ∃ t n, c = loopCmd t n := by
  unfold songFromMidi at h
  rw [res_bind] at h
  obtain ⟨tracks, h1, h3⟩ := h
  have hsh := voiceTracks_shaped m f tracks h1
  cases opt with
  | false =>
    simp only [Bool.false_eq_true, if_false, res_pure] at h3
    subst h3
    exact fun tr htr c hc => .inl (hsh tr htr c hc)
  | true =>
    simp only [if_true, res_bind, res_pure] at h3
    obtain ⟨out, h4, rfl⟩ := h3
    intro tr htr c hc
    rcases optimizeFuel_old tracks.length _ tracks out le_rfl h4 tr htr c hc with ⟨tr', g1, g2⟩ | g
    · exact .inl (hsh tr' g1 c g2)
    · exact .inr g

theorem inRange_selfContained {s : Song} (hr : InRange s) (hs : ∀ tr ∈ s.tracks, ∀ c ∈ tr, Shaped c ∨ ∃ t n, c = loopCmd t n) :
    ∀ tr ∈ s.tracks, ∀ c ∈ tr, SelfContained c := by
  intro tr htr c hc
  rcases hs tr htr c hc with h | ⟨t, n, rfl⟩
  · refine ⟨?_, fun d hd => (hr.dur tr htr c hc h.call d hd).2, hr.vel tr htr c hc, ?_, ?_, ?_⟩
    · have h1 := hr.note tr htr c hc
      have h2 := h.fade
      cases hcc : c.command <;> first | trivial | (rw [hcc] at h1; exact h1 _ rfl) | exact absurd hcc (h2 _)
    · intro x hx
      have := h.sus x hx
      rw [UInt8.lt_iff_toNat_lt]
      have : (0x08 : UInt8).toNat = 8 := rfl
      omega
    · intro ht
      obtain ⟨d, hd⟩ := h.timed ht
      exact ⟨d, hd, (hr.dur tr htr c hc h.call d hd).1⟩
    · intro ht
      obtain ⟨-, e1, e2⟩ := h.plain ht
      rw [e1, e2]
      exact ⟨rfl, rfl⟩
  · exact selfContained_call t n

/-! What is heard of a command list. -/

theorem heardNotes_cmds (t : Nat) (l : List Command) (g : Command → Ev) (hg : ∀ c, ∃ o a, g c = .cmd o a) (evs : List Ev) :
    heardNotes t (l.map g ++ evs) = heardNotes t evs := by
  induction l with
  | nil => rfl
  | cons c l ih =>
    obtain ⟨o, a, h⟩ := hg c
    simp only [List.map_cons, List.cons_append, h, heardNotes, ih]

theorem heardTime_cmds (l : List Command) (g : Command → Ev) (hg : ∀ c, ∃ o a, g c = .cmd o a) (evs : List Ev) :
    heardTime (l.map g ++ evs) = heardTime evs := by
  induction l with
  | nil => rfl
  | cons c l ih =>
    obtain ⟨o, a, h⟩ := hg c
    simp only [List.map_cons, List.cons_append, h, heardTime, ih]

theorem heardNotes_timing (t : Nat) (l : List Ev) : heardNotes t (l.map Ev.timing) = heardNotes t l := by
  induction l generalizing t with
  | nil => rfl
  | cons e l ih => cases e <;> simp only [List.map_cons, Ev.timing, heardNotes, ih]

theorem heardTime_timing (l : List Ev) : heardTime (l.map Ev.timing) = heardTime l := by
  induction l with
  | nil => rfl
  | cons e l ih => cases e <;> simp only [List.map_cons, Ev.timing, heardTime, ih]

open Timing in
theorem heardNotes_intended (addr : Nat → UInt8 × UInt8) (cs : List PCmd) (h1 : ∀ c ∈ cs, Shaped c) (h2 : ∀ c ∈ cs, ∀ d ∈ c.duration, 0 < d) :
    ∀ (t : Nat) (dur vel sus : UInt8), heardNotes t (intended addr cs dur vel sus) = (onsets t cs).filterMap noteAt ∧
      heardTime (intended addr cs dur vel sus) = total cs := by
  induction cs with
  | nil => intros; exact ⟨rfl, rfl⟩
  | cons c cs ih =>
    intro t dur vel sus
    have ih := ih (fun x hx => h1 x (List.mem_cons_of_mem _ hx)) (fun x hx => h2 x (List.mem_cons_of_mem _ hx))
    have hs := h1 c List.mem_cons_self
    have hd := h2 c List.mem_cons_self
    have htot : total (c :: cs) = units c + total cs := by simp [total]
    rw [htot]
    cases hc : c.command
    case note n =>
      obtain ⟨d, e⟩ := hs.timed (by rw [hc]; rfl)
      have h0 : d ≠ 0 := by rintro rfl; exact absurd (hd 0 e) (by decide)
      have hu : units c = d.toNat := by simp [units, e]
      simp only [intended, hc, onsets, heardNotes, heardTime, hu, List.filterMap_append, reduceCtorEq, if_false]
      simp only [e, asked, h0, if_false, Option.getD_some]
      exact ⟨by rw [(ih _ _ _ _).1]; simp [noteAt], by rw [(ih 0 _ _ _).2]⟩
    case tie =>
      obtain ⟨d, e⟩ := hs.timed (by rw [hc]; rfl)
      have h0 : d ≠ 0 := by rintro rfl; exact absurd (hd 0 e) (by decide)
      have hu : units c = d.toNat := by simp [units, e]
      simp only [intended, hc, onsets, heardNotes, heardTime, hu, List.filterMap_append, reduceCtorEq, if_false]
      simp only [e, asked, h0, if_false, Option.getD_some]
      exact ⟨by rw [(ih _ _ _ _).1]; simp [noteAt], by rw [(ih 0 _ _ _).2]⟩
    case rest =>
      obtain ⟨d, e⟩ := hs.timed (by rw [hc]; rfl)
      have h0 : d ≠ 0 := by rintro rfl; exact absurd (hd 0 e) (by decide)
      have hu : units c = d.toNat := by simp [units, e]
      simp only [intended, hc, onsets, heardNotes, heardTime, hu, List.filterMap_append, if_true]
      simp only [e, asked, h0, if_false, Option.getD_some]
      exact ⟨by rw [(ih _ _ _ _).1]; simp, by rw [(ih 0 _ _ _).2]⟩
    all_goals
      obtain ⟨e, -, -⟩ := hs.plain (by rw [hc]; rfl)
      have hu : units c = 0 := by simp [units, e]
      simp only [intended, hc, onsets, heardNotes, heardTime, hu, List.filterMap_append, reduceCtorEq, if_false, Nat.add_zero, Nat.zero_add]
      exact ⟨by rw [(ih _ _ _ _).1]; simp [noteAt], by rw [(ih 0 _ _ _).2]⟩

open Timing in
theorem heardPitches_timing (l : List Ev) : ∀ t o, heardPitches t o (l.map Ev.timing) = heardPitches t o l := by
  induction l with
  | nil => intros; rfl
  | cons e l ih =>
    intro t o
    cases e <;> cases o <;> simp only [List.map_cons, Ev.timing, heardPitches, ih]

open Timing in
theorem heardPitches_preamble (parts : List (List Nat)) (i t : Nat) (evs : List Ev) :
    heardPitches t none ((preambleFor parts i).map (fun c => Ev.cmd (encodeCmd noAddr c).1 (encodeCmd noAddr c).2) ++ evs) = heardPitches t none evs := by
  unfold preambleFor
  split_ifs <;> rfl

open Timing in
theorem heardPitches_intended (addr : Nat → UInt8 × UInt8) (cs : List PCmd) (h1 : ∀ c ∈ cs, Shaped c) (h2 : ∀ c ∈ cs, ∀ d ∈ c.duration, 0 < d) :
    ∀ (t : Nat) (o : Option UInt8) (dur vel sus : UInt8), heardPitches t o (intended addr cs dur vel sus) = (onsets t (unglide o cs)).filterMap noteAt := by
  induction cs with
  | nil => intros; rfl
  | cons c cs ih =>
    intro t o dur vel sus
    have ih := ih (fun x hx => h1 x (List.mem_cons_of_mem _ hx)) (fun x hx => h2 x (List.mem_cons_of_mem _ hx))
    have hs := h1 c List.mem_cons_self
    have hd := h2 c List.mem_cons_self
    cases hc : c.command
    case note n =>
      obtain ⟨d, e⟩ := hs.timed (by rw [hc]; rfl)
      have h0 : d ≠ 0 := by rintro rfl; exact absurd (hd 0 e) (by decide)
      simp only [intended, unglide, hc, onsets, heardPitches, List.filterMap_append, reduceCtorEq, if_false]
      simp only [e, asked, h0, if_false, Option.getD_some, ih]
      simp [noteAt, units, e]
    case tie =>
      obtain ⟨d, e⟩ := hs.timed (by rw [hc]; rfl)
      have h0 : d ≠ 0 := by rintro rfl; exact absurd (hd 0 e) (by decide)
      cases o <;> simp only [intended, unglide, hc, onsets, heardPitches, List.filterMap_append, reduceCtorEq, if_false] <;>
        simp only [e, asked, h0, if_false, Option.getD_some, ih] <;> simp [noteAt, units, e]
    case rest =>
      obtain ⟨d, e⟩ := hs.timed (by rw [hc]; rfl)
      have h0 : d ≠ 0 := by rintro rfl; exact absurd (hd 0 e) (by decide)
      cases o <;> simp only [intended, unglide, hc, onsets, heardPitches, List.filterMap_append, if_true] <;>
        simp only [e, asked, h0, if_false, Option.getD_some, ih] <;> simp [units, e]
    case pitchSlide a b p =>
      simp only [intended, unglide, hc, heardPitches, encodeCmd, ih]
    all_goals
      obtain ⟨e, -, -⟩ := hs.plain (by rw [hc]; rfl)
      have hu : units c = 0 := by simp [units, e]
      simp only [intended, unglide, hc, onsets, heardPitches, encodeCmd, hu, List.filterMap_append, reduceCtorEq, if_false, Nat.add_zero, ih]
      simp [noteAt]

/-! The voices that have tracks. -/

theorem voiceTracks_voices (h : MidiHandler) (f : F32) (tracks : List (List PCmd)) (hv : voiceTracks h f = .ok tracks) :
    ∃ vs : List (Fin 8), vs.Pairwise (· < ·) ∧
      List.Forall₂ (fun v tr => trackNew (h.voices v) h.ticksPerBeat h.maxTime f = .ok tr ∧ tr ≠ []) vs tracks ∧
      ∀ v, v ∉ vs → trackNew (h.voices v) h.ticksPerBeat h.maxTime f = .ok [] := by
  unfold voiceTracks at hv
  simp only [res_bind, res_pure] at hv
  obtain ⟨ts, h1, rfl⟩ := hv
  have key : ∀ (l : List (Fin 8)) ts, l.Pairwise (· < ·) → l.mapM (fun v => trackNew (h.voices v) h.ticksPerBeat h.maxTime f) = .ok ts →
      ∃ vs : List (Fin 8), vs.Sublist l ∧
        List.Forall₂ (fun v tr => trackNew (h.voices v) h.ticksPerBeat h.maxTime f = .ok tr ∧ tr ≠ []) vs (ts.filter fun t => !t.isEmpty) ∧
        ∀ v ∈ l, v ∉ vs → trackNew (h.voices v) h.ticksPerBeat h.maxTime f = .ok [] := by
    intro l
    induction l with
    | nil => intro ts _ h; simp only [List.mapM_nil, res_pure] at h; subst h; exact ⟨[], List.Sublist.refl _, .nil, by simp⟩
    | cons a l ih =>
      intro ts hp h
      simp only [List.mapM_cons, res_bind, res_pure] at h
      obtain ⟨b, hb, bs, hbs, rfl⟩ := h
      rw [List.pairwise_cons] at hp
      obtain ⟨vs, g1, g2, g3⟩ := ih bs hp.2 hbs
      by_cases he : b = []
      · subst he
        refine ⟨vs, g1.cons _, by simpa using g2, ?_⟩
        intro v hv hn
        rcases List.mem_cons.1 hv with rfl | hv
        · exact hb
        · exact g3 v hv hn
      · refine ⟨a :: vs, g1.cons_cons _, ?_, ?_⟩
        · rw [List.filter_cons_of_pos (by simpa using he)]
          exact .cons ⟨hb, he⟩ g2
        · intro v hv hn
          rcases List.mem_cons.1 hv with rfl | hv
          · simp at hn
          · exact g3 v hv (fun h => hn (List.mem_cons_of_mem _ h))
  have hp : (List.finRange 8).Pairwise (· < ·) := by decide
  obtain ⟨vs, g1, g2, g3⟩ := key _ ts hp h1
  exact ⟨vs, hp.sublist g1, g2, fun v => g3 v (List.mem_finRange v)⟩

end M2S
