import Verif.Proofs.VelocityZero
import Verif.Proofs.Programs
import Verif.Props.Voices
/-
Properties C26–C28: ends of notes written in either way; instruments of notes.
-/
namespace M2S
open MidiSpec

/-- `b` is `a`, or `a` is a note-off and `b` the same note-off written as a note-on of velocity 0; notes 38 and 40 of channel 10 excepted. -/
def SameEnd (a b : Callback) : Prop :=
  a = b ∨ ∃ d ch n v, a = .midiEvent d (.noteOff ch n v) ∧ b = .midiEvent d (.noteOn ch n 0) ∧ ¬ (ch = 9 ∧ (n = 38 ∨ n = 40))

/-- **C26.** Writing any of the note-offs of a file as note-ons of velocity 0 leaves the song unchanged, with or without loop extraction, including the ways in
which reading or converting fails. Not covered: notes 38 and 40 of channel 10, for which the claim is false. -/
theorem C26_velocity_zero_partial (ord : EnumOrder) (calls calls' : List Callback) (hc : List.Forall₂ SameEnd calls calls') (f : F32) (optimize : Bool) :
    (readMidi ord calls >>= fun h => songFromMidi h f optimize) = (readMidi ord calls' >>= fun h => songFromMidi h f optimize) := by
  apply song_norm
  induction hc with
  | nil => rfl
  | cons h _ ih =>
    rw [List.map_cons, List.map_cons, ih]
    congr 1
    rcases h with rfl | ⟨d, ch, n, v, rfl, rfl, h⟩
    · rfl
    · simp only [normC, normE]
      rw [if_pos]
      refine ⟨trivial, ?_⟩
      simpa [isSnare] using h

/-- A file whose song has a note, and its rewriting. -/
example : List.Forall₂ SameEnd [.header 1 24, .trackChange, .midiEvent 0 (.noteOn 2 60 100), .midiEvent 24 (.noteOff 2 60 64)]
      [.header 1 24, .trackChange, .midiEvent 0 (.noteOn 2 60 100), .midiEvent 24 (.noteOn 2 60 0)] ∧
    (readMidi id [.header 1 24, .trackChange, .midiEvent 0 (.noteOn 2 60 100), .midiEvent 24 (.noteOff 2 60 64)] >>= fun h => songFromMidi h (F32.ofRat (1 / 5)) false)
      = .ok ⟨[[0]], [[⟨some 24, some 12, some 7, .note 164⟩]]⟩ := by
  refine ⟨?_, by decide +kernel⟩
  refine .cons (.inl rfl) (.cons (.inl rfl) (.cons (.inl rfl) (.cons (.inr ⟨24, 2, 60, 64, rfl, rfl, by decide⟩) .nil)))

/-- **C26** in full is false: a snare ended by a note-on of velocity 0 sounds at another pitch than one ended by a note-off. -/
theorem C26_snare_false : (readMidi id [.header 1 24, .trackChange, .midiEvent 0 (.noteOn 9 38 100), .midiEvent 24 (.noteOff 9 38 0)] >>= fun h => songFromMidi h (F32.ofRat (1 / 5)) false)
    ≠ (readMidi id [.header 1 24, .trackChange, .midiEvent 0 (.noteOn 9 38 100), .midiEvent 24 (.noteOn 9 38 0)] >>= fun h => songFromMidi h (F32.ofRat (1 / 5)) false) := by
  decide +kernel

/-- The messages of a file in processing order, with what the dealing loop made of them. -/
theorem read_processing (ord : EnumOrder) (calls : List Callback) (h : MidiHandler) (hr : readMidi ord calls = .ok h) :
    ∃ (seq : List TMsg) (outs : List (Fin 8 × TMsg)) (k : Ctl), (∀ c, (seq.filter fun m => home m.1 = some c) = (h.channels c).messages) ∧ seq.Pairwise Before ∧
      emits ord (fun c => (h.channels c).baseVoice) (ctl0 fun c => (h.channels c).baseVoice) seq = some (outs, k) ∧ (∀ v, h.voices v = onVoice outs v) ∧
      (∀ m ∈ seq, ∀ c, home m.1 = some c → m ∈ (h.channels c).messages) := by
  obtain ⟨seq, outs, k, s1, s2, s3, s4⟩ := read_emits ord calls h hr
  have hm : ∀ p ∈ seq, home p.2.1 = some p.1 := by
    intro p hp
    have : p.2 ∈ (h.channels p.1).messages := by
      rw [← s1]; exact List.mem_map.2 ⟨p, List.mem_filter.2 ⟨hp, by simp⟩, rfl⟩
    have := (C17_routing ord calls h hr p.1).1.mem_iff.1 this
    have := (List.mem_filter.1 this).2
    simpa using this
  have hf : ∀ c, ((seq.map (·.2)).filter fun m => home m.1 = some c) = (h.channels c).messages := by
    intro c
    rw [← s1 c, List.filter_map]
    congr 1
    apply List.filter_congr
    intro p hp
    simp [hm p hp]
  refine ⟨seq.map (·.2), outs, k, hf, merge_before s2, s3, s4, ?_⟩
  intro m hmm c hc
  rw [← hf c]
  exact List.mem_filter.2 ⟨hmm, by simpa using hc⟩

/-- **C27**, on base voices. A note of a channel other than 10 that starts on the base voice of its channel plays with the program its channel has selected at
that time, provided the other channels with that base voice never select a program (and are not the drum channel playing notes). -/
theorem C27_base_voice_partial (ord : EnumOrder) (ho : ∀ l, (ord l).Perm l) (calls : List Callback) (h : MidiHandler) (hr : readMidi ord calls = .ok h)
    (ch : Fin 16) (hch : ch ≠ 9)
    (hq : ∀ c ≠ ch, (h.channels c).baseVoice = (h.channels ch).baseVoice → ∀ m ∈ (h.channels c).messages, programOf m.1 = none ∧ startsOn 9 m.1 = false)
    (a b : List (Message × Nat)) (x : Message) (t : Nat) (hv : h.voices (h.channels ch).baseVoice = a ++ (x, t) :: b) (hx : startsOn ch x) :
    lastProgram a = programAt (h.channels ch).messages t := by
  obtain ⟨seq, outs, k, s1, s2, s3, s4, s5⟩ := read_processing ord calls h hr
  obtain ⟨hx1, hx2⟩ : starts x = true ∧ home x = some ch := by simpa [startsOn] using hx
  rw [s4] at hv
  obtain ⟨done, rest, outs1, k1, o1, k2, d, c, n, vel, e1, e2, e3, e4, e5, e6, e7, -⟩ := start_context ord _ seq outs k s3 _ a b x t hv hx1
  have hc : c = ch := by rw [e3] at hx2; simpa [home] using hx2
  subst hc
  have hriv : ∀ m ∈ seq, NoRival (fun c => (h.channels c).baseVoice) c m.1 := by
    intro m hm c' hc' hb
    constructor
    · intro hp
      cases hpm : programOf m.1 with
      | none => rw [hpm] at hp; cases hp
      | some cp =>
        rw [hpm] at hp
        simp only [Option.map_some, Option.some.injEq] at hp
        have := home_program m.1 cp.1 cp.2 hpm
        rw [hp] at this
        have := (hq c' hc' hb m (s5 m hm c' this)).1
        rw [hpm] at this; cases this
    · rintro rfl
      by_contra hs
      have hs : startsOn 9 m.1 = true := by simpa using hs
      have hh : home m.1 = some 9 := (by simpa [startsOn] using hs : _ ∧ _).2
      have := (hq 9 hc' hb m (s5 m hm 9 hh)).2
      rw [hs] at this; cases this
  have hal := alone_emits ord ho _ c hch done outs1 k1 (fun m hm => hriv m (by rw [e1]; simp [hm])) e4
  have hvp := emit_progs ord ho _ k1 hal.lasts _ _ _ e5 (h.channels c).baseVoice
  simp only [voiceProgs] at hvp
  rw [if_pos ⟨e2, e6⟩, if_neg (show ¬ (c = 9 ∧ k1.lastPerc ≠ percInstr n) from fun h => hch h.1), List.append_nil] at hvp
  have hpa := progIn_at c seq done rest _ t e1 s2 (by
    have hv0 : vel ≠ 0 := by rintro rfl; exact absurd e2 (by decide)
    simp [starts, hv0])
  rw [e7, hvp, hal.voice, ← s1 c, ← hpa]
  split_ifs
  · rw [hal.prog]; cases progIn c done <;> rfl
  · rfl

/-- **C27**, on overflow voices (voices that are no channel's base voice). A note of a channel other than 10 that starts there plays with the program its channel
has selected, provided the channel selects a program and does so before its first note only. -/
theorem C27_overflow_voice_partial (ord : EnumOrder) (ho : ∀ l, (ord l).Perm l) (calls : List Callback) (h : MidiHandler) (hr : readMidi ord calls = .ok h)
    (ch : Fin 16) (hch : ch ≠ 9) (v : Fin 8) (hv : ∀ c, (h.channels c).baseVoice ≠ v)
    (hp : ∃ m ∈ (h.channels ch).messages, programOf m.1 ≠ none)
    (hq : ∀ m ∈ (h.channels ch).messages, ∀ m' ∈ (h.channels ch).messages, programOf m.1 ≠ none → startsOn ch m'.1 → m.2 ≤ m'.2)
    (a b : List (Message × Nat)) (x : Message) (t : Nat) (hs : h.voices v = a ++ (x, t) :: b) (hx : startsOn ch x) :
    lastProgram a = programAt (h.channels ch).messages t := by
  obtain ⟨seq, outs, k, s1, s2, s3, s4, s5⟩ := read_processing ord calls h hr
  obtain ⟨hx1, hx2⟩ : starts x = true ∧ home x = some ch := by simpa [startsOn] using hx
  rw [s4] at hs
  obtain ⟨done, rest, outs1, k1, o1, k2, d, c, n, vel, e1, e2, e3, e4, e5, e6, e7, -⟩ := start_context ord _ seq outs k s3 _ a b x t hs hx1
  have hc : c = ch := by rw [e3] at hx2; simpa [home] using hx2
  subst hc
  have rankP : ∀ m : Message, programOf m ≠ none → rank m = 1 := by
    intro m hm
    cases m with
    | midiEvent d e => cases e <;> simp_all [programOf, rank, ends, starts]
    | _ => simp [programOf] at hm
  have rankS : ∀ m : Message, startsOn c m = true → rank m = 2 ∧ home m = some c := by
    intro m hm
    obtain ⟨h1, h2⟩ : starts m = true ∧ home m = some c := by simpa [startsOn] using hm
    refine ⟨?_, h2⟩
    have : ends m = false := by
      cases m with
      | midiEvent d e => cases e <;> simp_all [starts, ends]
      | _ => simp [starts] at h1
    simp [rank, this, h1]
  have homeP : ∀ (m : Message), (programOf m).map (·.1) = some c → home m = some c ∧ programOf m ≠ none := by
    intro m hm
    cases hpm : programOf m with
    | none => rw [hpm] at hm; cases hm
    | some cp =>
      rw [hpm] at hm
      simp only [Option.map_some, Option.some.injEq] at hm
      have := home_program m cp.1 cp.2 hpm
      rw [hm] at this
      exact ⟨this, by simp⟩
  have g1 : ∀ a x b, seq = a ++ x :: b → (∃ y ∈ a, startsOn c y.1 = true) → (programOf x.1).map (·.1) ≠ some c := by
    rintro a x b hab ⟨y, hy, hys⟩ hxp
    obtain ⟨p1, p2⟩ := homeP _ hxp
    have hle := hq x (s5 x (by rw [hab]; simp) c p1) y (s5 y (by rw [hab]; simp [hy]) c (rankS _ hys).2) p2 hys
    rw [hab, List.pairwise_append] at s2
    have hb := s2.2.2 y hy x (by simp)
    unfold Before at hb
    rw [rankP _ p2, (rankS _ hys).1] at hb
    omega
  have g2 : ∀ a x b, seq = a ++ x :: b → startsOn c x.1 = true → progIn c a ≠ none := by
    intro a x b hab hxs
    obtain ⟨p, hpm, hpp⟩ := hp
    have hph : home p.1 = some c := by
      rw [← s1 c] at hpm
      simpa using (List.mem_filter.1 hpm).2
    have hps : p ∈ seq := by rw [← s1 c] at hpm; exact (List.mem_filter.1 hpm).1
    have hle := hq p hpm x (s5 x (by rw [hab]; simp) c (rankS _ hxs).2) hpp hxs
    have hpa : p ∈ a := by
      rw [hab] at hps
      rcases List.mem_append.1 hps with hps | hps
      · exact hps
      · exfalso
        rcases List.mem_cons.1 hps with rfl | hpb
        · have := rankP _ hpp; rw [(rankS _ hxs).1] at this; omega
        · rw [hab, List.pairwise_append, List.pairwise_cons] at s2
          have hb := s2.2.1.1 p hpb
          unfold Before at hb
          rw [rankP _ hpp, (rankS _ hxs).1] at hb
          omega
    unfold progIn lastProgram
    intro hn
    rw [List.getLast?_eq_none_iff, List.filterMap_eq_nil_iff] at hn
    exact hpp (hn p (List.mem_filter.2 ⟨hpa, by simpa using hph⟩))
  have hst := stray_emits ord ho _ c hch v hv done outs1 k1
    (fun a x b hab => g1 a x (b ++ (.midiEvent d (.noteOn c n vel), t) :: rest) (by rw [e1, hab]; simp))
    (fun a x b hab => g2 a x (b ++ (.midiEvent d (.noteOn c n vel), t) :: rest) (by rw [e1, hab]; simp)) e4
  have hvp := emit_progs ord ho _ k1 hst.lasts _ _ _ e5 v
  simp only [voiceProgs] at hvp
  rw [if_pos ⟨e2, e6⟩, if_neg (show ¬ (c = 9 ∧ k1.lastPerc ≠ percInstr n) from fun h => hch h.1), List.append_nil] at hvp
  have hon : startsOn c (.midiEvent d (.noteOn c n vel)) = true := startsOn_noteOn d c n vel e2
  have hpa := progIn_at c seq done rest _ t e1 s2 (by simpa [startsOn] using hon : _ ∧ _).1
  have hne := g2 done _ rest e1 hon
  rw [e7, hvp, ← s1 c, ← hpa]
  split_ifs with hl
  · rw [hst.prog]
    cases hpi : progIn c done with
    | none => exact absurd hpi hne
    | some y => rfl
  · simp only [List.getLast?_nil, Option.none_or]
    exact hst.voice (by simpa using hl)

/-- Channel 3 of the example file plays on its base voice 0 and on voice 2, which is no channel's base voice. -/
example : (readMidi id demoCalls).map (fun h => ((h.channels 3).baseVoice, (List.finRange 16).all (fun c => (h.channels c).baseVoice ≠ 2),
    (List.finRange 16).all (fun c => c = 3 ∨ (h.channels c).messages.all fun m => programOf m.1 = none), (h.channels 3).messages.any fun m => programOf m.1 ≠ none))
    = .ok (0, true, true, true) := by decide +kernel

/-- **C27** in full is false on shared base voices: channels 0 and 1 share voice 0; the program of channel 1 is selected when the note of channel 0 starts. -/
theorem C27_shared_voice_false : ∃ calls h a b x t, readMidi id calls = .ok h ∧ h.voices 0 = a ++ (x, t) :: b ∧ startsOn 0 x ∧
    lastProgram a ≠ programAt (h.channels 0).messages t := by
  have hd : (readMidi id [.header 1 24, .trackChange, .midiEvent 0 (.programChange 0 5), .midiEvent 0 (.noteOn 0 60 100), .midiEvent 10 (.noteOff 0 60 0),
      .trackChange, .midiEvent 0 (.programChange 1 7), .midiEvent 20 (.noteOn 1 62 100), .midiEvent 10 (.noteOff 1 62 0)]).map
      (fun h => (h.voices 0 = (h.voices 0).take 2 ++ (.midiEvent 0 (.noteOn 0 60 100), 0) :: (h.voices 0).drop 3 : Bool) &&
        (lastProgram ((h.voices 0).take 2) ≠ programAt (h.channels 0).messages 0 : Bool)) = .ok true := by decide +kernel
  revert hd
  generalize hc : ([.header 1 24, .trackChange, .midiEvent 0 (.programChange 0 5), .midiEvent 0 (.noteOn 0 60 100), .midiEvent 10 (.noteOff 0 60 0),
      .trackChange, .midiEvent 0 (.programChange 1 7), .midiEvent 20 (.noteOn 1 62 100), .midiEvent 10 (.noteOff 1 62 0)] : List Callback) = calls
  cases hr : readMidi id calls with
  | error e => intro hd; cases hd
  | ok h =>
    intro hd
    simp only [Except.map, Except.ok.injEq, Bool.and_eq_true, decide_eq_true_eq] at hd
    exact ⟨calls, h, _, _, _, _, hr, hd.1, by decide, hd.2⟩

/-- **C27** in full is false on overflow voices: the second note of channel 0 on voice 1 plays with the program selected before the first one. -/
theorem C27_stale_voice_false : ∃ calls h a b x t, readMidi id calls = .ok h ∧ h.voices 1 = a ++ (x, t) :: b ∧ startsOn 0 x ∧
    lastProgram a ≠ programAt (h.channels 0).messages t := by
  have hd : (readMidi id [.header 1 24, .trackChange, .midiEvent 0 (.programChange 0 5), .midiEvent 0 (.noteOn 0 60 100), .midiEvent 1 (.noteOn 0 62 100),
      .midiEvent 10 (.noteOff 0 62 0), .midiEvent 1 (.programChange 0 7), .midiEvent 20 (.noteOn 0 62 100), .midiEvent 10 (.noteOff 0 62 0), .midiEvent 10 (.noteOff 0 60 0)]).map
      (fun h => (h.voices 1 = (h.voices 1).take 3 ++ (.midiEvent 20 (.noteOn 0 62 100), 32) :: (h.voices 1).drop 4 : Bool) &&
        (lastProgram ((h.voices 1).take 3) ≠ programAt (h.channels 0).messages 32 : Bool)) = .ok true := by decide +kernel
  revert hd
  generalize hc : ([.header 1 24, .trackChange, .midiEvent 0 (.programChange 0 5), .midiEvent 0 (.noteOn 0 60 100), .midiEvent 1 (.noteOn 0 62 100),
      .midiEvent 10 (.noteOff 0 62 0), .midiEvent 1 (.programChange 0 7), .midiEvent 20 (.noteOn 0 62 100), .midiEvent 10 (.noteOff 0 62 0), .midiEvent 10 (.noteOff 0 60 0)] :
      List Callback) = calls
  cases hr : readMidi id calls with
  | error e => intro hd; cases hd
  | ok h =>
    intro hd
    simp only [Except.map, Except.ok.injEq, Bool.and_eq_true, decide_eq_true_eq] at hd
    exact ⟨calls, h, _, _, _, _, hr, hd.1, by decide, hd.2⟩

/-- **C28.** If all notes of channel 10 start on the channel's base voice, and no channel with that base voice (channel 10 included) has program changes, every note of
channel 10 plays with instrument 19 (snare) for notes 38 and 40 and instrument 12 (cymbal) otherwise. -/
theorem C28_percussion_partial (ord : EnumOrder) (ho : ∀ l, (ord l).Perm l) (calls : List Callback) (h : MidiHandler) (hr : readMidi ord calls = .ok h)
    (hq : ∀ c, (h.channels c).baseVoice = (h.channels 9).baseVoice → ∀ m ∈ (h.channels c).messages, programOf m.1 = none)
    (hb : ∀ v ≠ (h.channels 9).baseVoice, ∀ m ∈ h.voices v, startsOn 9 m.1 = false)
    (v : Fin 8) (a b : List (Message × Nat)) (x : Message) (t : Nat) (hs : h.voices v = a ++ (x, t) :: b) (hx : startsOn 9 x) :
    ∃ d n vel, (.midiEvent d (.noteOn 9 n vel), t) ∈ file calls ∧ x = drum (.midiEvent d (.noteOn 9 n vel)) ∧
      lastProgram a = some (9, if n = 38 ∨ n = 40 then 19 else 12) := by
  obtain ⟨seq, outs, k, s1, s2, s3, s4, s5⟩ := read_processing ord calls h hr
  obtain ⟨hx1, hx2⟩ : starts x = true ∧ home x = some 9 := by simpa [startsOn] using hx
  have hvb : v = (h.channels 9).baseVoice := by
    by_contra hne
    have := hb v hne (x, t) (by rw [hs]; simp)
    simp only at this
    rw [this] at hx; cases hx
  rw [s4] at hs
  obtain ⟨done, rest, outs1, k1, o1, k2, d, c, n, vel, e1, e2, e3, e4, e5, e6, e7, post, e8⟩ := start_context ord _ seq outs k s3 _ a b x t hs hx1
  have hc : c = 9 := by rw [e3] at hx2; simpa [home] using hx2
  subst hc
  have hon : startsOn 9 (.midiEvent d (.noteOn 9 n vel)) = true := startsOn_noteOn d 9 n vel e2
  refine ⟨d, n, vel, ?_, ?_, ?_⟩
  · have : (Message.midiEvent d (.noteOn 9 n vel), t) ∈ (h.channels 9).messages := s5 _ (by rw [e1]; simp) 9 rfl
    exact List.mem_of_mem_filter ((C17_routing ord calls h hr 9).1.mem_iff.1 this)
  · rw [e3, drumNote_eq]; rfl
  · have hstart : ∀ p ∈ outs, startsOn 9 p.2.1 = true → p.1 = (h.channels 9).baseVoice := by
      intro p hp hps
      by_contra hne
      have : p.2 ∈ h.voices p.1 := by rw [s4]; exact (mem_onVoice _ _ _).2 hp
      have := hb p.1 hne p.2 this
      rw [hps] at this; cases this
    have hmq : ∀ m ∈ seq, ∀ c, (h.channels c).baseVoice = (h.channels 9).baseVoice → (programOf m.1).map (·.1) ≠ some c := by
      intro m hm c hcb hp
      cases hpm : programOf m.1 with
      | none => rw [hpm] at hp; cases hp
      | some cp =>
        rw [hpm] at hp
        simp only [Option.map_some, Option.some.injEq] at hp
        have := home_program m.1 cp.1 cp.2 hpm
        rw [hp] at this
        have := hq c hcb m (s5 m hm c this)
        rw [hpm] at this; cases this
    have hdr := drums_emits ord ho _ done outs1 k1 (fun m hm => hmq m (by rw [e1]; simp [hm]))
      (fun p hp => hstart p (by rw [e8]; simp [hp])) e4
    have hdr2 := drums_step ord ho _ outs1 k1 _ t _ k2 hdr (hmq (.midiEvent d (.noteOn 9 n vel), t) (by rw [e1]; simp))
      (by
        intro p hp
        exact hstart (p.1, (p.2, t)) (by rw [e8]; exact List.mem_append_left _ (List.mem_append_right _ (List.mem_map.2 ⟨p, hp, rfl⟩)))) e5
    have hperc : k2.lastPerc = percInstr n := by
      simp only [emit, if_pos e2, e6, Option.some.injEq, Prod.mk.injEq] at e5
      rw [← e5.2]; rfl
    subst hvb
    have hl : lastProgram a = lastProgram (onVoice (outs1 ++ (o1 ++ [((h.channels 9).baseVoice, x)]).map fun q => (q.1, (q.2, t))) (h.channels 9).baseVoice) := by
      rw [e7, onVoice_append outs1, onVoice_stamp, lastProgram_append, lastProgram_stamp]
    rw [hl]
    rcases hdr2.perc with ⟨h0, -⟩ | ⟨-, h0⟩
    · rw [hperc] at h0; exact absurd h0 (percInstr_ne n)
    · rw [h0, hperc]
      unfold percInstr isSnare Instr.snare Instr.cymbal
      by_cases h38 : n = 38 ∨ n = 40 <;> simp [h38]

/-- A drum part meeting the hypotheses. -/
example : (readMidi id [.header 1 24, .trackChange, .midiEvent 0 (.noteOn 9 38 100), .midiEvent 5 (.noteOff 9 38 0), .midiEvent 5 (.noteOn 9 42 100), .midiEvent 5 (.noteOff 9 42 0)]).map
    (fun h => ((List.finRange 16).all (fun c => (h.channels c).messages.all fun m => programOf m.1 = none),
      (List.finRange 8).all (fun v => v = (h.channels 9).baseVoice ∨ (h.voices v).all fun m => startsOn 9 m.1 = false), h.voices (h.channels 9).baseVoice))
    = .ok (true, true, [(.midiEvent 0 (.programChange 9 19), 0), (.midiEvent 0 (.noteOn 9 68 100), 0), (.midiEvent 5 (.noteOff 9 68 0), 5),
        (.midiEvent 5 (.programChange 9 12), 10), (.midiEvent 5 (.noteOn 9 42 100), 10), (.midiEvent 5 (.noteOff 9 42 0), 15)]) := by decide +kernel

/-- **C28** in full is false: the second snare plays on voice 0 with the cymbal selected by the first note, because the converter remembers the last drum
instrument of the channel, not of the voice. -/
theorem C28_two_voices_false : ∃ calls h a b t, readMidi id calls = .ok h ∧ h.voices 0 = a ++ (.midiEvent 10 (.noteOn 9 68 100), t) :: b ∧
    (∀ m ∈ file calls, ∀ d vel, m.1 ≠ .midiEvent d (.noteOn 9 68 vel)) ∧ lastProgram a = some (9, 12) := by
  have hd : (readMidi id [.header 1 24, .trackChange, .midiEvent 0 (.noteOn 9 36 100), .midiEvent 10 (.noteOn 9 38 100), .midiEvent 10 (.noteOff 9 38 0),
      .midiEvent 80 (.noteOff 9 36 0), .midiEvent 10 (.noteOn 9 38 100), .midiEvent 10 (.noteOff 9 38 0)]).map
      (fun h => (h.voices 0 = (h.voices 0).take 3 ++ (.midiEvent 10 (.noteOn 9 68 100), 110) :: (h.voices 0).drop 4 : Bool) &&
        (lastProgram ((h.voices 0).take 3) = some (9, 12) : Bool)) = .ok true := by decide +kernel
  have hn : ∀ m ∈ file [.header 1 24, .trackChange, .midiEvent 0 (.noteOn 9 36 100), .midiEvent 10 (.noteOn 9 38 100), .midiEvent 10 (.noteOff 9 38 0),
      .midiEvent 80 (.noteOff 9 36 0), .midiEvent 10 (.noteOn 9 38 100), .midiEvent 10 (.noteOff 9 38 0)], noteOf m.1 ≠ some (9, 68) := by decide
  revert hd hn
  generalize hc : ([.header 1 24, .trackChange, .midiEvent 0 (.noteOn 9 36 100), .midiEvent 10 (.noteOn 9 38 100), .midiEvent 10 (.noteOff 9 38 0),
      .midiEvent 80 (.noteOff 9 36 0), .midiEvent 10 (.noteOn 9 38 100), .midiEvent 10 (.noteOff 9 38 0)] : List Callback) = calls
  cases hr : readMidi id calls with
  | error e => intro hd; cases hd
  | ok h =>
    intro hd hn
    simp only [Except.map, Except.ok.injEq, Bool.and_eq_true, decide_eq_true_eq] at hd
    refine ⟨calls, h, _, _, _, hr, hd.1, ?_, hd.2⟩
    intro m hm d vel he
    exact hn m hm (by rw [he]; rfl)

end M2S
