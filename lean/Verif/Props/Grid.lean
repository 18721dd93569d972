import Verif.Proofs.Grid
import Verif.Props.Sane
/-
Property C93: exactly when the conversion of a voice, and of a file, fails.
-/
namespace M2S
open Timing MidiSpec

/-- **C93.** A voice whose data bytes are in the MIDI range is converted exactly if no note is started while another one sounds and no note ends before the point of the grid at
which it starts. -/
theorem C93_ok_iff (evs : List (Message × Nat)) (p T : Nat) (f : F32) (hp : 0 < p) (hp2 : p < 65536) (hd : ∀ ev ∈ evs, dataOk ev.1 = true)
    (ht : ∀ ev ∈ evs, ∀ d e, ev.1 = .midiEvent d e → ev.2 ≤ T) (hT : T < exactTicks p) :
    (∃ cs, trackNew evs p T f = .ok cs) ↔ ¬ Clash p evs ∧ ¬ Premature p evs := by
  rw [← faultFree_iff]
  rcases trackNew_clock evs p T f hp hp2 (fun ev h => ⟨hd ev h, fun d e he => by have := ht ev h d e he; omega⟩) hT with ⟨h1, h2⟩ | ⟨pre, ev, post, e, h1, h2, h3, h4⟩
  · exact ⟨fun _ => h1, fun _ => h2⟩
  · constructor
    · rintro ⟨cs, hc⟩; rw [h4] at hc; cases hc
    · intro hf
      rw [h1, faultFree_append, faultFree] at hf
      have := hf.2.1
      unfold clockOf at h3
      rw [h3] at this
      cases this

/-- **C93.** It is refused exactly if some beginning of it has a note started while another one sounds, and no note that ends too early. -/
theorem C93_refused_iff (evs : List (Message × Nat)) (p T : Nat) (f : F32) (hp : 0 < p) (hp2 : p < 65536) (hd : ∀ ev ∈ evs, dataOk ev.1 = true)
    (ht : ∀ ev ∈ evs, ∀ d e, ev.1 = .midiEvent d e → ev.2 ≤ T) (hT : T < exactTicks p) :
    trackNew evs p T f = .error (.err .moreThanOneVoice) ↔ ∃ pre, pre <+: evs ∧ Clash p pre ∧ ¬ Premature p pre := by
  rcases trackNew_clock evs p T f hp hp2 (fun ev h => ⟨hd ev h, fun d e he => by have := ht ev h d e he; omega⟩) hT with ⟨h1, cs, h2⟩ | ⟨pre, ev, post, e, h1, h2, h3, h4⟩
  · constructor
    · intro h; rw [h2] at h; cases h
    · rintro ⟨pre, hp, hc, -⟩
      exact absurd (hc.mono hp) ((faultFree_iff p evs).1 h1).1
  · rw [h4]
    constructor
    · intro he
      cases he
      rcases first_fault h2 h3 with ⟨h, -⟩ | ⟨-, h⟩
      · cases h
      · exact ⟨pre ++ [ev], ⟨post, by rw [h1]; simp⟩, h⟩
    · rintro ⟨a, ha, hc, hn⟩
      rcases first_fault h2 h3 with ⟨-, h, -⟩ | ⟨h, -⟩
      · exfalso
        rcases prefix_cut h1 ha with h' | h'
        · exact ((faultFree_iff p pre).1 h2).1 (hc.mono h')
        · exact hn (h.mono h')
      · rw [h]

/-- **C93.** It panics exactly if some beginning of it has a note that ends too early, and no note started while another one sounds. -/
theorem C93_panics_iff (evs : List (Message × Nat)) (p T : Nat) (f : F32) (hp : 0 < p) (hp2 : p < 65536) (hd : ∀ ev ∈ evs, dataOk ev.1 = true)
    (ht : ∀ ev ∈ evs, ∀ d e, ev.1 = .midiEvent d e → ev.2 ≤ T) (hT : T < exactTicks p) :
    trackNew evs p T f = .error .panic ↔ ∃ pre, pre <+: evs ∧ Premature p pre ∧ ¬ Clash p pre := by
  rcases trackNew_clock evs p T f hp hp2 (fun ev h => ⟨hd ev h, fun d e he => by have := ht ev h d e he; omega⟩) hT with ⟨h1, cs, h2⟩ | ⟨pre, ev, post, e, h1, h2, h3, h4⟩
  · constructor
    · intro h; rw [h2] at h; cases h
    · rintro ⟨pre, hp, hc, -⟩
      exact absurd (hc.mono hp) ((faultFree_iff p evs).1 h1).2
  · rw [h4]
    constructor
    · intro he
      cases he
      rcases first_fault h2 h3 with ⟨-, h⟩ | ⟨h, -⟩
      · exact ⟨pre ++ [ev], ⟨post, by rw [h1]; simp⟩, h⟩
      · cases h
    · rintro ⟨a, ha, hc, hn⟩
      rcases first_fault h2 h3 with ⟨h, -⟩ | ⟨-, h, -⟩
      · rw [h]
      · exfalso
        rcases prefix_cut h1 ha with h' | h'
        · exact ((faultFree_iff p pre).1 h2).2 (hc.mono h')
        · exact hn (h.mono h')

/-- **C93.** In a voice in time order, a note that ends too early is shorter than 1/24 beat, and starts before the point of the grid to which an earlier note was extended. -/
theorem C93_short (evs : List (Message × Nat)) (p : Nat) (hp : 0 < p) (ho : evs.Pairwise fun a b => a.2 ≤ b.2) (h : Premature p evs) :
    ∃ pre d c n v t mid d' c' n' v' t' post, evs = pre ++ (.midiEvent d (.noteOn c n v), t) :: mid ++ (.midiEvent d' (.noteOff c' n' v'), t') :: post ∧
      24 * (t' - t) < p ∧ t ≤ t' ∧ t' < (clockOf p pre).1 ∧ 24 < p := by
  obtain ⟨pre', d', c', n', v', t', post, s, h1, h2, h3⟩ := h
  obtain ⟨pre, d, c, n, v, t, mid, g1, g2⟩ := clock_start p pre' s h2
  refine ⟨pre, d, c, n, v, t, mid, d', c', n', v', t', post, by rw [h1, g1], ?_⟩
  rw [h1, g1, List.pairwise_append] at ho
  obtain ⟨o1, -, o3⟩ := ho
  have htt : t ≤ t' := o3 (.midiEvent d (.noteOn c n v), t) (by simp) (.midiEvent d' (.noteOff c' n' v'), t') (by simp)
  rw [List.pairwise_append] at o1
  have hpre : ∀ ev ∈ pre, ev.2 ≤ t := fun ev hev => o1.2.2 ev hev (.midiEvent d (.noteOn c n v), t) (by simp)
  have ha := (clock_ahead p hp pre t hpre).1
  have hg := gridDown_le p (clockOf p pre).1 t
  have he : (clockOf p pre).1 > t' := by omega
  omega

/-- Above 24 ticks per beat, some note from the beginning is extended beyond its end. -/
theorem extended (p : Nat) (hp : 24 < p) : ∃ t, t < 48 ∧ t < gridUp p 0 t := by
  rcases Nat.lt_or_ge p 48 with h | h
  · have : ∀ p < 48, 24 < p → ∃ t, t < 48 ∧ t < gridUp p 0 t := by decide +kernel
    exact this p h hp
  · refine ⟨1, by omega, ?_⟩
    have : (24 * (1 - 0) + p - 1) / p = 1 := by
      rw [Nat.div_eq_iff (by omega)]; omega
    unfold gridUp
    rw [this]
    omega

/-- **C93.** At 24 ticks per beat or fewer every voice in time order is converted whose notes follow one another; at every higher resolution there is one that makes the
converter panic, although its notes follow one another. -/
theorem C93_resolution (p : Nat) (hp : 0 < p) (hp2 : p < 65536) :
    (∀ evs T f, (evs.Pairwise fun a b => a.2 ≤ b.2) → (∀ ev ∈ evs, dataOk ev.1 = true) → (∀ ev ∈ evs, ev.2 ≤ T) → T < exactTicks p → Alternates evs →
      (∀ m ∈ evs, ∀ d c n v, m.1 = .midiEvent d (.noteOn c n v) → v ≠ 0) → ∃ cs, trackNew evs p T f = .ok cs) ↔ p ≤ 24 := by
  constructor
  · intro h
    by_contra hp24
    obtain ⟨t, ht, hg⟩ := extended p (by omega)
    have hge := exactTicks_ge p
    let evs : List (Message × Nat) := [evOn 0 60 100, evOff t 60, evOn t 62 100, evOff t 62]
    have hd : ∀ ev ∈ evs, dataOk ev.1 = true := by
      intro ev hev
      simp only [evs, List.mem_cons, List.not_mem_nil, or_false] at hev
      rcases hev with rfl | rfl | rfl | rfl <;> rfl
    have htt : ∀ ev ∈ evs, ev.2 ≤ t := by
      intro ev hev
      simp only [evs, List.mem_cons, List.not_mem_nil, or_false] at hev
      rcases hev with rfl | rfl | rfl | rfl <;> simp [evOn, evOff]
    have hok := h evs t (.fin (1 / 5)) (by simp [evs, evOn, evOff]) hd htt (by omega) rfl (by
      intro m hm d c n v hmv
      simp only [evs, List.mem_cons, List.not_mem_nil, or_false] at hm
      rcases hm with rfl | rfl | rfl | rfl <;> simp [evOn, evOff] at hmv <;> (obtain ⟨-, -, -, rfl⟩ := hmv; decide))
    have := ((C93_ok_iff evs p t (.fin (1 / 5)) hp hp2 hd (fun ev hev _ _ _ => htt ev hev) (by omega)).1 hok).2
    apply this
    refine ⟨[evOn 0 60 100, evOff t 60, evOn t 62 100], 0, 0, 62, 0, t, [], gridUp p 0 t, rfl, ?_, hg⟩
    have h0 : gridDown p 0 0 = 0 := by simp [gridDown]
    have h1 : gridDown p (gridUp p 0 t) t = gridUp p 0 t := by
      have : t - gridUp p 0 t = 0 := by omega
      simp [gridDown, this]
    simp [clockOf, clockStep, evOn, evOff, h0, h1]
  · intro h24 evs T f ho hd ht hT ha hz
    rw [C93_ok_iff evs p T f hp hp2 hd (fun ev hev _ _ _ => ht ev hev) hT]
    refine ⟨alternates_clash p evs ha hz, fun hpre => ?_⟩
    obtain ⟨-, -, -, -, -, -, -, -, -, -, -, -, -, -, -, -, -, h⟩ := C93_short evs p hp ho hpre
    omega

/-- What a readable file passes on to its voices. -/
theorem read_voice (ord : EnumOrder) (calls : List Callback) (h : MidiHandler) (hr : readMidi ord calls = .ok h) (hs : ∀ m ∈ file calls, dataOk m.1 = true) (v : Fin 8) :
    (∀ m ∈ h.voices v, dataOk m.1 = true) ∧ (∀ m ∈ h.voices v, ∀ d e, m.1 = .midiEvent d e → m.2 ≤ h.maxTime) ∧
    (∀ m ∈ h.voices v, ∀ d c n w, m.1 = .midiEvent d (.noteOn c n w) → w ≠ 0) := by
  obtain ⟨seq, outs, k, s1, s2, s3, s4⟩ := read_emits ord calls h hr
  have hperm := read_perm ord calls h hr seq s1
  have hmem : ∀ x ∈ seq.map (·.2), x ∈ file calls := fun x hx => List.mem_of_mem_filter (hperm.mem_iff.1 hx)
  have hin : ∀ m ∈ h.voices v, (v, m) ∈ outs := by
    intro m hm
    rw [s4] at hm
    obtain ⟨p, hp, rfl⟩ := List.mem_map.1 hm
    obtain ⟨hp1, hp2⟩ := List.mem_filter.1 hp
    have : p.1 = v := by simpa using hp2
    rw [← this]; exact hp1
  refine ⟨?_, ?_, ?_⟩
  · intro m hm
    exact data_emits ord _ _ _ _ (fun x hx => hs x (hmem x hx)) s3 _ (hin m hm)
  · intro m hm d e hme
    obtain ⟨x, hx, ⟨d', e', hxe⟩, ht⟩ := emits_times_midi ord _ _ _ _ s3 _ (hin m hm) d e hme
    obtain ⟨-, -, ivs, bs, c1, c2, -⟩ := readMidi_ok ord calls h hr
    unfold scanChannels at c2
    have hmx := (scans_max _ _ _ _ c2).2
    obtain ⟨⟨c, y⟩, hq, rfl⟩ := List.mem_map.1 hx
    have hy : y ∈ (h.channels c).messages := by
      rw [← s1 c]
      exact List.mem_map.2 ⟨(c, y), List.mem_filter.2 ⟨hq, by simp⟩, rfl⟩
    rw [c1 c] at hy
    have := hmx c (List.mem_finRange c) y hy d' e' hxe
    simp only at ht
    omega
  · intro m hm
    exact starts_velocity ord _ _ _ _ s3 _ (hin m hm)

/-- Each of a list of computations succeeds or panics: together they succeed if all do, and otherwise panic. -/
theorem mapM_outcome {α β : Type} (g : α → Res β) (bad : α → Prop) (l : List α)
    (hok : ∀ a ∈ l, ¬ bad a → ∃ b, g a = .ok b) (hbad : ∀ a ∈ l, bad a → g a = .error .panic) :
    ((∀ a ∈ l, ¬ bad a) ∧ ∃ bs, l.mapM g = .ok bs) ∨ ((∃ a ∈ l, bad a) ∧ l.mapM g = .error .panic) := by
  induction l with
  | nil => exact .inl ⟨by simp, [], rfl⟩
  | cons a l ih =>
    by_cases ha : bad a
    · refine .inr ⟨⟨a, by simp, ha⟩, ?_⟩
      rw [List.mapM_cons, hbad a (by simp) ha]; rfl
    · obtain ⟨b, hb⟩ := hok a (by simp) ha
      rcases ih (fun x hx => hok x (by simp [hx])) (fun x hx => hbad x (by simp [hx])) with ⟨h1, bs, h2⟩ | ⟨⟨x, hx, h1⟩, h2⟩
      · refine .inl ⟨?_, b :: bs, by rw [List.mapM_cons, hb, h2]; rfl⟩
        intro x hx
        rcases List.mem_cons.1 hx with rfl | hx
        · exact ha
        · exact h1 x hx
      · exact .inr ⟨⟨x, by simp [hx], h1⟩, by rw [List.mapM_cons, hb, h2]; rfl⟩

/-- **C93**, whole files: a file that can be read and whose data bytes are in the MIDI range is converted exactly if on none of its voices a note ends before the point of the
grid at which it starts; otherwise the converter panics. It is never refused. -/
theorem C93_file (ord : EnumOrder) (calls : List Callback) (h : MidiHandler) (hr : readMidi ord calls = .ok h) (hs : ∀ m ∈ file calls, dataOk m.1 = true)
    (f : F32) (hp : 0 < h.ticksPerBeat) (hp2 : h.ticksPerBeat < 65536) (hT : h.maxTime < exactTicks h.ticksPerBeat) :
    ((∃ s, songFromMidi h f false = .ok s) ↔ ∀ v, ¬ Premature h.ticksPerBeat (h.voices v)) ∧
    (songFromMidi h f false = .error .panic ↔ ∃ v, Premature h.ticksPerBeat (h.voices v)) := by
  have hnc : ∀ v, ¬ Clash h.ticksPerBeat (h.voices v) := fun v =>
    alternates_clash _ _ (C22_alternate ord calls h hr v).1 (read_voice ord calls h hr hs v).2.2
  have hv := mapM_outcome (fun v => trackNew (h.voices v) h.ticksPerBeat h.maxTime f) (fun v => Premature h.ticksPerBeat (h.voices v)) (List.finRange 8)
    (fun v _ hn => (C93_ok_iff _ _ _ f hp hp2 (read_voice ord calls h hr hs v).1 (read_voice ord calls h hr hs v).2.1 hT).2 ⟨hnc v, hn⟩)
    (fun v _ hb => (C93_panics_iff _ _ _ f hp hp2 (read_voice ord calls h hr hs v).1 (read_voice ord calls h hr hs v).2.1 hT).2
      ⟨_, List.prefix_rfl, hb, hnc v⟩)
  rcases hv with ⟨h1, bs, h2⟩ | ⟨⟨v, -, h1⟩, h2⟩
  · have hsong : ∃ s, songFromMidi h f false = .ok s := ⟨_, by unfold songFromMidi voiceTracks; rw [h2]; rfl⟩
    refine ⟨⟨fun _ v => h1 v (List.mem_finRange v), fun _ => hsong⟩, ?_, ?_⟩
    · intro he
      obtain ⟨s, hs⟩ := hsong
      rw [he] at hs; cases hs
    · rintro ⟨v, hb⟩
      exact absurd hb (h1 v (List.mem_finRange v))
  · have hsong : songFromMidi h f false = .error .panic := by unfold songFromMidi voiceTracks; rw [h2]; rfl
    refine ⟨⟨?_, fun hn => absurd h1 (hn v)⟩, fun _ => ⟨v, h1⟩, fun _ => hsong⟩
    rintro ⟨s, hs⟩
    rw [hsong] at hs; cases hs

/-- **C93**, files of at most 24 ticks per beat: every one that can be read, with data bytes in the MIDI range, is converted, whatever the lengths of its notes. -/
theorem C93_coarse_file (ord : EnumOrder) (calls : List Callback) (h : MidiHandler) (hr : readMidi ord calls = .ok h) (hs : ∀ m ∈ file calls, dataOk m.1 = true)
    (f : F32) (hp : 0 < h.ticksPerBeat) (hp2 : h.ticksPerBeat ≤ 24) (hT : h.maxTime < exactTicks h.ticksPerBeat) : ∃ s, songFromMidi h f false = .ok s := by
  rw [(C93_file ord calls h hr hs f hp (by omega) hT).1]
  intro v hb
  obtain ⟨-, -, -, -, -, -, -, -, -, -, -, -, -, -, -, -, -, h24⟩ := C93_short _ _ hp (C22_alternate ord calls h hr v).2 hb
  omega

/-- At 480 ticks per beat, a note of 1 tick at 21: the first note has been extended to 40 ticks. -/
example : clockOf 480 [evOn 0 60 100, evOff 21 60] = (40, none) ∧ clockOf 480 [evOn 0 60 100, evOff 21 60, evOn 22 62 100] = (40, some 40) := by decide

example : Premature 480 [evOn 0 60 100, evOff 21 60, evOn 22 62 100, evOff 30 62] :=
  ⟨[evOn 0 60 100, evOff 21 60, evOn 22 62 100], 0, 0, 62, 0, 30, [], 40, rfl, by decide, by decide⟩

/-- The same notes are converted if the second one lasts until 41: it is then a note of one unit, from 40 to 60. -/
example : ∃ cs, trackNew [evOn 0 60 100, evOff 21 60, evOn 22 62 100, evOff 41 62] 480 480 (.fin (1 / 5)) = .ok cs :=
  ⟨[⟨some 2, some 12, some 7, .note 164⟩, ⟨some 1, some 12, some 7, .note 166⟩, ⟨some 21, none, none, .rest⟩], by decide +kernel⟩

/-- The file `shortCalls` meets the assumptions of `C93_file`, and its first voice has such a note. -/
example : (∀ m ∈ file shortCalls, dataOk m.1 = true) ∧ (readMidi id shortCalls).map (fun h => (h.ticksPerBeat, h.maxTime, clockOf h.ticksPerBeat ((h.voices 0).take 3), (h.voices 0).length)) =
    .ok (480, 3, (20, some 20), 4) ∧ 3 < exactTicks 480 := by decide +kernel

end M2S
