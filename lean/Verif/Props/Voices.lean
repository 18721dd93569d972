import Verif.Proofs.OneVoice
import Verif.Props.Channels
/-
Properties C21–C25, C29 and C53: dealing the events of the channels to the voices.
-/
namespace M2S
open MidiSpec

/-- **C21.** Dealing channels to voices processes one interleaving of the channels: every event of every channel once and in the channel's order, ordered by
time, then ends of notes before other events before starts of notes, then channel number. The interleaving depends only on the channels. -/
theorem C21_merge_order (cs : Fin 16 → List (Message × Nat)) (hs : ∀ c, (cs c).Pairwise Before) (ht : ∀ c, ∀ m ∈ cs c, m.2 < 2 ^ 32) :
    ∃ seq : List (Fin 16 × (Message × Nat)), (∀ c, (seq.filter fun p => p.1 = c).map (·.2) = cs c) ∧ seq.Pairwise MergeOrder ∧
      ∀ ord base voices, channelsToVoices ord cs base voices =
        ((seq.map (·.2)).foldlM (dealEvent ord base) { voices := voices, lastChan := fun v => (List.finRange 16).find? fun c => base c = v }).map (·.voices) := by
  obtain ⟨seq, s1, s2, s3⟩ := merge_seq _ cs rfl hs ht
  refine ⟨seq, s1, s2, ?_⟩
  intro ord base voices
  unfold channelsToVoices
  simp only
  rw [show ((List.finRange 16).countP fun c => (cs c).isEmpty) = emptyCount cs from rfl, s3]
  generalize (seq.map (·.2)).foldlM (dealEvent ord base) { voices := voices, lastChan := fun v => (List.finRange 16).find? fun c => base c = v } = r
  rcases r with e | st <;> rfl

/-- **C21**, the loop ends: the only way in which dealing sorted channels can fail is that no voice is free for a note; in particular the loop runs out of
events before it runs out of fuel and never indexes beyond a channel. -/
theorem C21_loop_ends (ord : EnumOrder) (cs : Fin 16 → List (Message × Nat)) (base : Fin 16 → Fin 8) (voices : Fin 8 → List (Message × Nat))
    (hs : ∀ c, (cs c).Pairwise Before) (ht : ∀ c, ∀ m ∈ cs c, m.2 < 2 ^ 32) (f : Fault) (h : channelsToVoices ord cs base voices = .error f) :
    f = .err .couldntFit := by
  obtain ⟨seq, -, -, s3⟩ := C21_merge_order cs hs ht
  rw [s3, deal_emits] at h
  split at h
  · simp only [failed, Except.map, Except.error.injEq] at h; exact h.symm
  · simp [Except.map] at h

/-- The channels of a file that was read satisfy the hypotheses. -/
theorem C21_read_channels (ord : EnumOrder) (calls : List Callback) (h : MidiHandler) (hr : readMidi ord calls = .ok h) :
    (∀ c, (h.channels c).messages.Pairwise Before) ∧ ∀ c, ∀ m ∈ (h.channels c).messages, m.2 < 2 ^ 32 := by
  refine ⟨fun c => (C17_routing ord calls h hr c).2.1, fun c m hm => ?_⟩
  have := (C17_routing ord calls h hr c).1.mem_iff.1 hm
  exact (readMidi_ok ord calls h hr).1 m (List.mem_of_mem_filter this)

example : (∃ h, readMidi id demoCalls = .ok h) ∧
    (readMidi id demoCalls).map (fun h => (List.finRange 8).map h.voices) = .ok
      [ [(.metaEvent 0 .setTempo [7, 161, 32], 0), (.midiEvent 0 (.programChange 3 5), 0), (.midiEvent 0 (.programChange 3 5), 10),
          (.midiEvent 10 (.noteOn 3 60 100), 10), (.midiEvent 15 (.noteOff 3 60 0), 30), (.sysEx 0 [1, 2], 30)],
        [(.midiEvent 20 (.noteOn 5 50 90), 20), (.midiEvent 40 (.noteOff 5 50 64), 60)],
        [(.midiEvent 0 (.programChange 3 5), 15), (.midiEvent 5 (.noteOn 3 64 100), 15), (.midiEvent 0 (.noteOff 3 64 0), 30)], [], [], [], [], []] := by
  have hok : (readMidi id demoCalls).toOption.isSome = true := by decide +kernel
  refine ⟨?_, by decide +kernel⟩
  cases h : readMidi id demoCalls with
  | ok x => exact ⟨x, rfl⟩
  | error e => rw [h] at hok; cases hok

/-- **C22.** On every voice of a file that was read starts and ends of notes strictly alternate, beginning with a start, and times never decrease. -/
theorem C22_alternate (ord : EnumOrder) (calls : List Callback) (h : MidiHandler) (hr : readMidi ord calls = .ok h) (v : Fin 8) :
    Alternates (h.voices v) ∧ (h.voices v).Pairwise fun a b => a.2 ≤ b.2 := by
  obtain ⟨seq, outs, k, s1, s2, s3, s4⟩ := read_emits ord calls h hr
  have hh := held_emits ord _ _ _ _ s3
  obtain ⟨s, h1, -⟩ := hh.hold v
  rw [s4]
  constructor
  · unfold Alternates
    rw [show false = (none : Option (Fin 16 × UInt8)).isSome from rfl, hold_alt endOk _ _ _ h1]; rfl
  · have := (emits_times ord _ _ _ _ _ s3).2 (merge_times s2)
    unfold onVoice
    rw [List.pairwise_map]
    exact this.filter _

/-- **C53.** On every voice a note is ended by a message of the same channel and the same note number as the message that started it, except that a snare of
channel 10 (which starts with note 68) may be ended by its original number 38 or 40. -/
theorem C53_end_matches_partial (ord : EnumOrder) (calls : List Callback) (h : MidiHandler) (hr : readMidi ord calls = .ok h) (v : Fin 8) :
    ((h.voices v).foldlM (holdStep fun held stop => held.1 = stop.1 ∧ (held.2 = stop.2 ∨ (held = (9, 68) ∧ (stop.2 = 38 ∨ stop.2 = 40)))) none).isSome := by
  obtain ⟨seq, outs, k, s1, s2, s3, s4⟩ := read_emits ord calls h hr
  obtain ⟨s, h1, -⟩ := (held_emits ord _ _ _ _ s3).hold v
  have e : endOk = fun (held stop : Fin 16 × UInt8) => decide (held.1 = stop.1 ∧ (held.2 = stop.2 ∨ (held = (9, 68) ∧ (stop.2 = 38 ∨ stop.2 = 40)))) := by
    funext a b
    obtain ⟨c, n⟩ := a
    obtain ⟨c', n'⟩ := b
    unfold endOk percNote isSnare snareNote
    simp only [decide_eq_decide, Prod.mk.injEq]
    by_cases h2 : n' = 38 ∨ n' = 40
    · simp only [h2, decide_true, if_true, and_true]
    · simp only [h2, decide_false, Bool.false_eq_true, if_false, and_false, or_false]; tauto
  rw [s4, ← e, h1]; rfl

/-- **C53** in full is false: a snare whose end is given as a note-on of velocity 0 starts with note 68 and ends with note 38. (As the converter takes the
pitch from the end message, the note sounds with the wrong pitch.) -/
theorem C53_snare_false : ∃ calls h, readMidi id calls = .ok h ∧
    ¬ ((h.voices 0).foldlM (holdStep fun held stop => held = stop) none).isSome := by
  have hok : (readMidi id [.header 1 24, .trackChange, .midiEvent 0 (.noteOn 9 38 100), .midiEvent 24 (.noteOn 9 38 0)]).map
      (fun h => ((h.voices 0).foldlM (holdStep fun held stop => held = stop) none).isSome) = .ok false := by decide +kernel
  cases hr : readMidi id [.header 1 24, .trackChange, .midiEvent 0 (.noteOn 9 38 100), .midiEvent 24 (.noteOn 9 38 0)] with
  | error e => rw [hr] at hok; cases hok
  | ok h =>
    rw [hr] at hok
    refine ⟨_, h, hr, ?_⟩
    simp only [Except.map, Except.ok.injEq] at hok
    rw [hok]; simp

/-- Alternation rejects two notes at once and stray ends. -/
example : ¬ Alternates [(.midiEvent 0 (.noteOn 1 60 1), 0), (.midiEvent 0 (.noteOn 1 62 1), 0)] ∧ ¬ Alternates [(.midiEvent 0 (.noteOff 1 60 1), 0)] ∧
    Alternates [(.midiEvent 0 (.noteOn 1 60 1), 0), (.midiEvent 0 (.programChange 1 2), 5), (.midiEvent 0 (.noteOff 1 60 1), 9)] := by
  unfold Alternates; decide

/-- **C23.** After a successful read, converting any of its voices, with any timing and tempo parameters, never fails with "More than one voice needed". -/
theorem C23_one_voice (ord : EnumOrder) (calls : List Callback) (h : MidiHandler) (hr : readMidi ord calls = .ok h) (v : Fin 8) (tpb maxTime : Nat) (f : F32) :
    trackNew (h.voices v) tpb maxTime f ≠ .error (.err .moreThanOneVoice) := by
  apply trackNew_noMulti _ _ _ _ ?_ (C22_alternate ord calls h hr v).1
  obtain ⟨seq, outs, k, s1, s2, s3, s4⟩ := read_emits ord calls h hr
  intro m hm
  rw [s4] at hm
  obtain ⟨p, hp, rfl⟩ := List.mem_map.1 hm
  exact starts_velocity ord _ _ _ _ s3 p (List.mem_of_mem_filter hp)

/-- **C23**, for the whole song without loop extraction. -/
theorem C23_song (ord : EnumOrder) (calls : List Callback) (h : MidiHandler) (hr : readMidi ord calls = .ok h) (f : F32) :
    songFromMidi h f false ≠ .error (.err .moreThanOneVoice) := by
  have : NoMulti (voiceTracks h f) := by
    unfold voiceTracks
    refine noMulti_bind _ _ ?_ (fun _ _ => noMulti_pure _)
    generalize List.finRange 8 = l
    induction l with
    | nil => exact noMulti_ok _
    | cons v l ih =>
      rw [List.mapM_cons]
      refine noMulti_bind _ _ (C23_one_voice ord calls h hr v _ _ _) (fun _ _ => noMulti_bind _ _ ih (fun _ _ => noMulti_pure _))
  unfold songFromMidi
  exact noMulti_bind _ _ this (fun _ _ => noMulti_pure _)

/-- The error exists: two notes at once on one voice. -/
example : trackNew [(.midiEvent 0 (.noteOn 1 60 100), 0), (.midiEvent 0 (.noteOn 1 62 100), 0)] 24 100 (F32.ofRat (1 / 5)) = .error (.err .moreThanOneVoice) := by
  decide +kernel

/-- The starts of notes on the voices are those of the messages that were dealt. -/
theorem starts_dealt (ord : EnumOrder) (l : List (Message × Nat)) (h : MidiHandler) (seq : List (Fin 16 × (Message × Nat))) (outs : List (Fin 8 × (Message × Nat))) (k : Ctl)
    (e2 : (seq.map (·.2)).Perm (l.filter fun m => (home m.1).isSome))
    (s3 : emits ord (fun c => (h.channels c).baseVoice) (ctl0 fun c => (h.channels c).baseVoice) (seq.map (·.2)) = some (outs, k)) (s4 : ∀ v, h.voices v = onVoice outs v) :
    (((List.finRange 8).flatMap h.voices).filter fun m => starts m.1).Perm ((l.filter fun m => starts m.1).map fun m => (drum m.1, m.2)) := by
  have e1 : ((List.finRange 8).flatMap h.voices).Perm (outs.map (·.2)) := by
    have : h.voices = fun v => onVoice outs v := funext s4
    rw [this]; exact voices_perm outs
  refine (e1.filter _).trans ?_
  rw [emits_starts ord _ _ _ _ s3]
  apply List.Perm.map
  refine (e2.filter _).trans ?_
  rw [List.filter_filter]
  apply List.Perm.of_eq
  apply List.filter_congr
  intro m _
  obtain ⟨m, t⟩ := m
  cases m <;> simp [starts, home]

/-- **C24.** The starts of notes on the eight voices together are exactly the starts of notes in the file, each once, with the same time, channel and velocity
and the same note (68 for notes 38 and 40 of channel 10). -/
theorem C24_notes_kept (ord : EnumOrder) (calls : List Callback) (h : MidiHandler) (hr : readMidi ord calls = .ok h) :
    (((List.finRange 8).flatMap h.voices).filter fun m => starts m.1).Perm
      (((file calls).filter fun m => starts m.1).map fun m => (drum m.1, m.2)) := by
  obtain ⟨seq, outs, k, s1, s2, s3, s4⟩ := read_emits ord calls h hr
  refine starts_dealt ord _ h seq outs k ?_ s3 s4
  refine (channels_perm seq).symm.trans (List.Perm.trans ?_ (ofChannel_perm _))
  apply List.Perm.flatMap_left
  intro c _
  rw [s1]
  exact (C17_routing ord calls h hr c).1

/-- Notes of the example file: all three, the snare renamed. -/
example : (((file [.header 1 24, .trackChange, .midiEvent 0 (.noteOn 9 38 100), .midiEvent 3 (.noteOn 2 38 50), .midiEvent 2 (.noteOff 2 38 0)]).filter
    fun m => starts m.1).map fun m => (drum m.1, m.2)) = [(.midiEvent 0 (.noteOn 9 68 100), 0), (.midiEvent 3 (.noteOn 2 38 50), 3)] := by decide

/-- **C25.** Reading a file gives the same result whatever orders hash maps enumerate their entries in. -/
theorem C25_order_independent (ord ord' : EnumOrder) (h1 : ∀ l, (ord l).Perm l) (h2 : ∀ l, (ord' l).Perm l) (calls : List Callback) :
    readMidi ord calls = readMidi ord' calls := by
  have deal : ∀ base st m, dealEvent ord base st m = dealEvent ord' base st m := by
    rintro base st ⟨m, t⟩
    have out : ∀ ch (m : Message) v, onVoice (outChannel ord base st.ctl ch m) v = onVoice (outChannel ord' base st.ctl ch m) v := by
      intro ch m v
      unfold outChannel
      have hp : (ord (st.ctl.active ch)).Perm (ord' (st.ctl.active ch)) := (h1 _).trans (h2 _).symm
      rw [hp.any_eq, onVoice_append, onVoice_append]
      congr 1
      have key : ∀ l : List (UInt8 × Fin 8), onVoice (l.map fun p => (p.2, m)) v = List.replicate (l.countP fun p => p.2 = v) m := by
        intro l
        unfold onVoice
        rw [List.filter_map, List.map_map, List.eq_replicate_iff]
        constructor
        · simp [List.countP_eq_length_filter, Function.comp_def]
        · intro x hx; obtain ⟨q, -, rfl⟩ := List.mem_map.1 hx; rfl
      rw [key, key, hp.countP_eq]
    have same : ∀ o o' : List (Fin 8 × Message), (∀ v, onVoice o v = onVoice o' v) → ∀ k, st.after o t k = st.after o' t k := by
      intro o o' h k
      unfold DealState.after
      congr 1
      funext v; rw [h v]
    rw [dealEvent_emit, dealEvent_emit]
    cases m with
    | midiEvent d e =>
      cases e with
      | controlChange ch c v => simp only [emit]; rw [same _ _ (out ch _)]
      | programChange ch v => simp only [emit]; rw [same _ _ (out ch _)]
      | channelPressure ch v => simp only [emit]; rw [same _ _ (out ch _)]
      | pitchBendChange ch v => simp only [emit]; rw [same _ _ (out ch _)]
      | _ => rfl
    | metaEvent d e data => cases e <;> rfl
    | _ => rfl
  have loop : ∀ base fuel rem done st, mergeLoop ord base fuel rem done st = mergeLoop ord' base fuel rem done st := by
    intro base fuel
    induction fuel with
    | zero => intro rem done st; unfold mergeLoop; rfl
    | succ n ih =>
      intro rem done st
      rw [mergeLoop, mergeLoop]
      simp only [deal, ih]
  have ctv : ∀ cs base voices, channelsToVoices ord cs base voices = channelsToVoices ord' cs base voices := by
    intro cs base voices
    unfold channelsToVoices
    simp only [loop]
  unfold readMidi MidiHandler.process
  simp only [ctv]

example : ∀ l, ((List.reverse : EnumOrder) l).Perm l := fun l => List.reverse_perm l

/-- **C29.** The messages on voice 0 that are not channel messages are exactly the set-tempo and system exclusive messages of the file, in time order, in file
order at equal times; no other voice receives any. -/
theorem C29_system_messages (ord : EnumOrder) (calls : List Callback) (h : MidiHandler) (hr : readMidi ord calls = .ok h) :
    ((h.voices 0).filter fun m => isSystem m.1).Perm ((file calls).filter fun m => isGlobal m.1) ∧
    ((h.voices 0).filter fun m => isSystem m.1).Pairwise (fun a b => a.2 ≤ b.2) ∧
    (∀ t, ((h.voices 0).filter fun m => isSystem m.1).filter (fun m => m.2 = t) = ((file calls).filter fun m => isGlobal m.1).filter fun m => m.2 = t) ∧
    ∀ v ≠ 0, ∀ m ∈ h.voices v, isSystem m.1 = false := by
  obtain ⟨seq, outs, k, s1, s2, s3, s4⟩ := read_emits ord calls h hr
  have hsys := emits_system ord _ _ _ _ s3
  -- voice 0
  have v0 : (h.voices 0).filter (fun m => isSystem m.1) = (seq.map (·.2)).filter fun m => isGlobal m.1 := by
    rw [s4]
    unfold onVoice
    rw [List.filter_map, List.filter_filter]
    have : (outs.filter fun p => ((fun m : TMsg => isSystem m.1) ∘ fun x : Fin 8 × TMsg => x.2) p && decide (p.1 = 0)) = (outs.filter fun p => isSystem p.2.1).filter fun p => p.1 = 0 := by
      rw [List.filter_filter]; apply List.filter_congr; intro p _; simp [Bool.and_comm]
    rw [this, hsys, List.filter_map]
    simp [Function.comp_def]
  -- global messages belong to channel 0
  have hm : ∀ p ∈ seq, home p.2.1 = some p.1 := by
    intro p hp
    have : p.2 ∈ (h.channels p.1).messages := by
      rw [← s1]; exact List.mem_map.2 ⟨p, List.mem_filter.2 ⟨hp, by simp⟩, rfl⟩
    have := (C17_routing ord calls h hr p.1).1.mem_iff.1 this
    have := (List.mem_filter.1 this).2
    simpa using this
  have glob : ∀ m : Message, isGlobal m = true → home m = some 0 := by
    intro m hg; unfold isGlobal at hg; split at hg <;> simp_all [home]
  have grank : ∀ m : Message, isGlobal m = true → rank m = 1 := by
    intro m hg; unfold isGlobal at hg; split at hg <;> simp_all [rank, ends, starts]
  have chan0 : (seq.map (·.2)).filter (fun m => isGlobal m.1) = (h.channels 0).messages.filter fun m => isGlobal m.1 := by
    rw [← s1 0, List.filter_map, List.filter_map, List.filter_filter]
    congr 1
    apply List.filter_congr
    intro p hp
    by_cases hg : isGlobal p.2.1 = true
    · have h1 := hm p hp
      have h2 := glob _ hg
      rw [h1, Option.some.injEq] at h2
      simp [hg, h2]
    · simp [hg]
  have fileG : (ofChannel (file calls) 0).filter (fun m => isGlobal m.1) = (file calls).filter fun m => isGlobal m.1 := by
    unfold ofChannel
    rw [List.filter_filter]
    apply List.filter_congr
    intro m _
    by_cases hg : isGlobal m.1 = true
    · simp [hg, glob _ hg]
    · simp [hg]
  obtain ⟨r1, r2, r3⟩ := C17_routing ord calls h hr 0
  refine ⟨?_, ?_, ?_, ?_⟩
  · rw [v0, chan0, ← fileG]; exact r1.filter _
  · rw [v0]; exact (merge_times s2).filter _
  · intro t
    rw [v0, chan0, ← fileG]
    have e : ∀ l : List TMsg, (l.filter fun m => isGlobal m.1).filter (fun m => m.2 = t) = (l.filter fun m => m.2 = t ∧ rank m.1 = 1).filter fun m => isGlobal m.1 := by
      intro l
      rw [List.filter_filter, List.filter_filter]
      apply List.filter_congr
      intro m _
      by_cases hg : isGlobal m.1 = true
      · simp [hg, grank _ hg]
      · simp [hg]
    rw [e, e, r3]
  · intro v hv m hmv
    rw [s4] at hmv
    obtain ⟨p, hp, rfl⟩ := List.mem_map.1 hmv
    obtain ⟨hp1, hp2⟩ := List.mem_filter.1 hp
    by_contra hc
    have : p ∈ outs.filter fun p => isSystem p.2.1 := List.mem_filter.2 ⟨hp1, by simpa using hc⟩
    rw [hsys] at this
    obtain ⟨q, -, rfl⟩ := List.mem_map.1 this
    simp only [decide_eq_true_eq] at hp2
    exact hv hp2.symm

/-- The file of the examples has two such messages. -/
example : ((file demoCalls).filter fun m => isGlobal m.1) = [(.metaEvent 0 .setTempo [7, 161, 32], 0), (.sysEx 0 [1, 2], 30)] := by decide

end M2S
