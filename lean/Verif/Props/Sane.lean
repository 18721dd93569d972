import Verif.Proofs.Sane
import Verif.Props.Voices
import Verif.Props.Track
import Verif.Props.Optimise
/-
Property C63: files whose content makes sense are converted.
-/
namespace M2S
open MidiSpec Timing

/-- The messages dealt to the voices are those of the file. -/
theorem read_perm (ord : EnumOrder) (calls : List Callback) (h : MidiHandler) (hr : readMidi ord calls = .ok h) (seq : List (Fin 16 × TMsg))
    (hs : ∀ c, (seq.filter fun p => p.1 = c).map (·.2) = (h.channels c).messages) :
    (seq.map (·.2)).Perm ((file calls).filter fun m => (home m.1).isSome) := by
  refine (channels_perm seq).symm.trans (List.Perm.trans ?_ (ofChannel_perm _))
  apply List.Perm.flatMap_left
  intro c _
  rw [hs]
  exact (C17_routing ord calls h hr c).1

/-- The voices to which messages of sane content are dealt. -/
theorem sane_dealt (ord : EnumOrder) (l : List TMsg) (tpb maxTime : Nat) (hs : Sane tpb l) (hmax : ∀ m ∈ l, ∀ d e, m.1 = .midiEvent d e → m.2 ≤ maxTime)
    (base : Fin 16 → Fin 8) (seq : List (Fin 16 × TMsg)) (outs : List (Fin 8 × TMsg)) (k : Ctl)
    (hperm : (seq.map (·.2)).Perm (l.filter fun m => (home m.1).isSome)) (s2 : seq.Pairwise MergeOrder)
    (s3 : emits ord base (ctl0 base) (seq.map (·.2)) = some (outs, k)) (v : Fin 8) : voiceOk tpb maxTime maxTime 0 0 none (onVoice outs v) = true := by
  have hmem : ∀ x ∈ seq.map (·.2), x ∈ l := fun x hx => List.mem_of_mem_filter (hperm.mem_iff.1 hx)
  obtain ⟨s, h1, -⟩ := (len_emits tpb ord _ _ _ _ (spaced_of_sane _ _ hs seq hperm s2) s3).hold v
  have hin : ∀ m ∈ onVoice outs v, (v, m) ∈ outs := by
    intro m hm
    obtain ⟨p, hp, rfl⟩ := List.mem_map.1 hm
    obtain ⟨hp1, hp2⟩ := List.mem_filter.1 hp
    have : p.1 = v := by simpa using hp2
    rw [← this]; exact hp1
  have htimes : (onVoice outs v).Pairwise fun a b => a.2 ≤ b.2 := by
    have := (emits_times ord _ _ _ _ _ s3).2 (merge_times s2)
    unfold onVoice
    rw [List.pairwise_map]
    exact this.filter _
  refine voiceOk_of _ _ _ 0 0 none s htimes (fun _ _ => Nat.zero_le _) ?_ ?_ ?_ h1
  · intro m hm d e hme
    obtain ⟨x, hx, ⟨d', e', hxe⟩, ht⟩ := emits_times_midi ord _ _ _ _ s3 _ (hin m hm) d e hme
    have := hmax x (hmem x hx) d' e' hxe
    simp only at ht
    omega
  · intro m hm
    exact data_emits ord _ _ _ _ (fun x hx => hs.bytes x (hmem x hx)) s3 _ (hin m hm)
  · intro m hm
    exact starts_velocity ord _ _ _ _ s3 _ (hin m hm)

/-- **C63.** Every voice of a file with sane content that can be read is well-formed: the assumptions under which a voice's conversion is correct follow from
assumptions about the file. -/
theorem C63_voices (ord : EnumOrder) (calls : List Callback) (h : MidiHandler) (hr : readMidi ord calls = .ok h) (hs : Sane h.ticksPerBeat (file calls)) (v : Fin 8) :
    voiceOk h.ticksPerBeat h.maxTime h.maxTime 0 0 none (h.voices v) = true := by
  obtain ⟨seq, outs, k, s1, s2, s3, s4⟩ := read_emits ord calls h hr
  rw [s4]
  refine sane_dealt ord _ _ _ hs ?_ _ seq outs k (read_perm ord calls h hr seq s1) s2 s3 v
  intro m hm d e hme
  obtain ⟨-, -, ivs, bs, c1, c2, -⟩ := readMidi_ok ord calls h hr
  unfold scanChannels at c2
  refine (scans_max _ _ _ _ c2).2 e.channel (List.mem_finRange _) m ?_ d e hme
  refine (sort_perm _).mem_iff.2 (List.mem_filter.2 ⟨hm, ?_⟩)
  rw [hme]
  simp [channel_home]

/-- All voices are converted. -/
theorem voiceTracks_ok (h : MidiHandler) (f : F32) (ht : ∀ v, ∃ cs, trackNew (h.voices v) h.ticksPerBeat h.maxTime f = .ok cs) : ∃ ts, voiceTracks h f = .ok ts := by
  unfold voiceTracks
  have : ∀ l : List (Fin 8), ∃ ts, l.mapM (fun v => trackNew (h.voices v) h.ticksPerBeat h.maxTime f) = .ok ts := by
    intro l
    induction l with
    | nil => exact ⟨[], rfl⟩
    | cons v l ih =>
      obtain ⟨ts, ih⟩ := ih
      obtain ⟨cs, hc⟩ := ht v
      exact ⟨cs :: ts, by rw [List.mapM_cons, hc, ih]; rfl⟩
  obtain ⟨ts, hts⟩ := this (List.finRange 8)
  exact ⟨_, by rw [hts]; rfl⟩

/-- **C63, partial** (missing: songs longer than `exactTicks` ticks, over two hours at the usual resolutions, for which C16 is not proved): a file with sane content that can be read is converted; with
extraction of repeats there is a song too, unless a repeat count overflows (C33). -/
theorem C63_converts_partial (ord : EnumOrder) (calls : List Callback) (h : MidiHandler) (hr : readMidi ord calls = .ok h) (hs : Sane h.ticksPerBeat (file calls))
    (f : F32) (hp : 0 < h.ticksPerBeat) (hp2 : h.ticksPerBeat < 65536) (hT : h.maxTime + 3525 ≤ exactTicks h.ticksPerBeat) :
    (∃ s, songFromMidi h f false = .ok s) ∧ ((∃ s, songFromMidi h f true = .ok s) ∨ songFromMidi h f true = .error .panic) := by
  obtain ⟨ts, hts⟩ := voiceTracks_ok h f fun v =>
    C16_track_new_ok_partial _ _ h.maxTime h.maxTime f hp hp2 hT (by have := exactTicks_le h.ticksPerBeat; omega) (C63_voices ord calls h hr hs v)
  constructor
  · exact ⟨_, by unfold songFromMidi; rw [hts]; rfl⟩
  · unfold songFromMidi
    rw [hts]
    simp only [bind, Except.bind, if_true]
    rcases (C34_terminates ts ts.length le_rfl).1 with ⟨out, ho⟩ | ho
    · rw [ho]; exact .inl ⟨_, rfl⟩
    · rw [ho]; exact .inr rfl

/-- Two tracks; channels 3 and 5 sound together, channel 3 plays two notes at once and repeats one. -/
def saneCalls : List Callback :=
  [ .header 1 240, .trackChange, .metaEvent 0 .setTempo [7, 161, 32],
    .trackChange, .midiEvent 0 (.programChange 3 5), .midiEvent 10 (.noteOn 3 60 100), .midiEvent 5 (.noteOn 3 64 100), .midiEvent 15 (.noteOff 3 60 0),
    .midiEvent 0 (.noteOn 3 64 0), .midiEvent 0 (.noteOn 3 64 90), .midiEvent 480 (.noteOff 3 64 0),
    .trackChange, .midiEvent 20 (.noteOn 5 50 90), .midiEvent 40 (.noteOff 5 50 64) ]

example : Sane 240 (file saneCalls) := ⟨by decide +kernel, by decide +kernel, by decide +kernel⟩

/-- The file is read with 240 ticks per beat and lasts 510 ticks. -/
example : (readMidi id saneCalls).map (fun h => (h.ticksPerBeat, h.maxTime)) = .ok (240, 510) ∧ 510 + 3525 ≤ exactTicks 240 := by
  decide +kernel

/-- Three voices have notes. -/
example : (readMidi id saneCalls).map (fun h => (List.finRange 8).map fun v => (midiNotes none (h.voices v)).length) = .ok [2, 1, 1, 0, 0, 0, 0, 0] := by
  decide +kernel

/-- A note of one tick that starts one tick after the end of another note of one tick. -/
def shortCalls : List Callback :=
  [ .header 1 480, .trackChange, .midiEvent 0 (.noteOn 0 60 100), .midiEvent 1 (.noteOff 0 60 0), .midiEvent 1 (.noteOn 0 62 100), .midiEvent 1 (.noteOff 0 62 0) ]

/-- The condition on lengths is needed: at 480 ticks per beat this file can be read, but not converted. -/
example : (readMidi id shortCalls).toOption.isSome = true ∧ ((readMidi id shortCalls).bind fun h => (songFromMidi h (.fin (1 / 5)) false).map fun _ => ()) = .error .panic := by
  decide +kernel

end M2S
