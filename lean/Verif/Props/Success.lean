import Verif.Props.Reading
import Verif.Props.FileToSound
/-
Property C70, composed with conversion and playing: what follows from the file alone.
-/
namespace M2S
open MidiSpec Timing RomSpec Nspc Engine

/-- The header's ticks per beat are collected. -/
theorem handle_timeBase (cs : List Callback) : ∀ (g g' : MidiHandler), cs.foldlM MidiHandler.handle g = .ok g' →
    g'.ticksPerBeat = cs.foldl (fun b c => match c with | .header _ tb => tb | _ => b) g.ticksPerBeat := by
  induction cs with
  | nil => intro g g' hg; simp only [List.foldlM_nil, res_pure] at hg; rw [hg]; rfl
  | cons c cs ih =>
    intro g g' hg
    simp only [List.foldlM_cons, res_bind] at hg
    obtain ⟨g1, hc, hg⟩ := hg
    rw [ih g1 g' hg, List.foldl_cons]
    congr 1
    cases c with
    | header f tb =>
      simp only [MidiHandler.handle] at hc
      split_ifs at hc
      · simp [panicked] at hc
      · simp only [Except.ok.injEq] at hc; rw [← hc]
    | metaEvent d e data => simp only [MidiHandler.handle, res_bind, res_pure] at hc; obtain ⟨ts', -, rfl⟩ := hc; rfl
    | midiEvent d e => simp only [MidiHandler.handle, res_bind, res_pure] at hc; obtain ⟨ts', -, rfl⟩ := hc; rfl
    | sysExEvent d data => simp only [MidiHandler.handle, res_bind, res_pure] at hc; obtain ⟨ts', -, rfl⟩ := hc; rfl
    | trackChange => simp only [MidiHandler.handle, Except.ok.injEq] at hc; rw [← hc]

/-- The header's ticks per beat are kept. -/
theorem read_timeBase (ord : EnumOrder) (calls : List Callback) (h : MidiHandler) (hr : readMidi ord calls = .ok h) : h.ticksPerBeat = timeBase calls := by
  unfold readMidi at hr
  rw [res_bind] at hr
  obtain ⟨h0, e1, hr⟩ := hr
  have h1 := handle_timeBase calls {} h0 e1
  unfold MidiHandler.process at hr
  rw [res_bind] at hr
  obtain ⟨cs, -, hr⟩ := hr
  rw [res_bind] at hr
  obtain ⟨⟨ivs, mt⟩, -, hr⟩ := hr
  simp only at hr
  split at hr
  · simp [failed] at hr
  · rw [res_bind] at hr
    obtain ⟨vs, -, hr⟩ := hr
    rw [res_pure] at hr
    subst hr
    exact h1

/-- The end of the song is the time of some event of the file, if it is not 0. -/
theorem read_maxTime (ord : EnumOrder) (calls : List Callback) (h : MidiHandler) (hr : readMidi ord calls = .ok h) :
    h.maxTime = 0 ∨ ∃ m ∈ file calls, h.maxTime = m.2 := by
  obtain ⟨-, -, ivs, bs, -, c2, -⟩ := readMidi_ok ord calls h hr
  obtain ⟨-, -, -, h4⟩ := scanChannels_ok _ (fun c => before_time (sort_pairwise _)) 0 ivs _ c2
  rcases h4 with h4 | ⟨c, m, hm, -, h5⟩
  · exact .inl h4
  · exact .inr ⟨m, List.mem_of_mem_filter ((sort_perm _).mem_iff.1 hm), h5.symm⟩

/-- **C70 (conversion), partial** (missing: files that need more voices by this count, songs longer than `exactTicks` ticks). A readable file of sane content, with notes in pairs and few enough voices,
is read and converted. -/
theorem C70_converts_partial (ord : EnumOrder) (calls : List Callback) (hr : Readable calls) (hp : Paired (file calls)) (hfew : FewVoices (file calls))
    (hs : Sane (timeBase calls) (file calls)) (hb : 0 < timeBase calls) (hb2 : timeBase calls < 65536)
    (hT : ∀ m ∈ file calls, m.2 + 3525 ≤ exactTicks (timeBase calls)) (f : F32) : ∃ h s, readMidi ord calls = .ok h ∧ songFromMidi h f false = .ok s := by
  obtain ⟨h, hh⟩ := C70_few_channels_partial ord calls hr hp hfew
  have e := read_timeBase ord calls h hh
  have hmt : h.maxTime + 3525 ≤ exactTicks h.ticksPerBeat := by
    rw [e]
    rcases read_maxTime ord calls h hh with h0 | ⟨m, hm, h0⟩
    · have := exactTicks_ge (timeBase calls)
      omega
    · rw [h0]; exact hT m hm
  obtain ⟨⟨s, hs'⟩, -⟩ := C63_converts_partial ord calls h hh (by rw [e]; exact hs) f (by omega) (by omega) hmt
  exact ⟨h, s, hh, hs'⟩

/-- **C70 (sound), partial** (missing: as in C64, and files that need more voices by this count). A tidy file of sane content with few enough voices is read and converted; and if no fused note is too long (C07), the song
can be played, and whatever has the timing of its part, as the built ROM has by C54, lets every note of the file be heard once with the right pitch byte and less than one unit from its time, and no other note. -/
theorem C70_heard_partial (ord : EnumOrder) (ho : ∀ l, (ord l).Perm l) (calls : List Callback) (hr : Readable calls) (hp : Paired (file calls)) (hfew : FewVoices (file calls))
    (hs : Sane (timeBase calls) (file calls)) (ht : Tidy (file calls)) (h24 : 24 ∣ timeBase calls) (hb : 0 < timeBase calls) (hb2 : timeBase calls < 65536)
    (hT : ∀ m ∈ file calls, m.2 + 3525 ≤ exactTicks (timeBase calls)) (hT2 : ∀ m ∈ file calls, 24 * (m.2 + 1) ≤ 32511 * timeBase calls) (f : F32) :
    ∃ h s, readMidi ord calls = .ok h ∧ songFromMidi h f false = .ok s ∧
      ((∀ tr ∈ s.tracks, ∀ c ∈ tr, c.command.isNote = true → ∀ d ∈ c.duration, d < 0x80) →
        Playable s ∧ ∀ (part : List Nat) (evs : List (Option (List Ev))), s.parts[0]? = some part → timingOf evs = timingOf (partSound s part) →
          ∃ heard : List (Nat × UInt8), heard.Perm (heardIn evs) ∧ List.Forall₂ (OnTimeAt (timeBase calls)) heard (fileNotes (file calls))) := by
  obtain ⟨h, s, hh, hs'⟩ := C70_converts_partial ord calls hr hp hfew hs hb hb2 hT f
  refine ⟨h, s, hh, hs', ?_⟩
  intro hd
  have e := read_timeBase ord calls h hh
  have hmt : h.maxTime + 3525 ≤ exactTicks h.ticksPerBeat ∧ 24 * (h.maxTime + 1) ≤ 32511 * h.ticksPerBeat := by
    rw [e]
    rcases read_maxTime ord calls h hh with h0 | ⟨m, hm, h0⟩
    · have := exactTicks_ge (timeBase calls)
      omega
    · rw [h0]; exact ⟨hT m hm, hT2 m hm⟩
  have hnc : ∀ tr ∈ s.tracks, ∀ c ∈ tr, ∀ t n, c.command = .callLoop t n → n.toNat ≤ 2 := by
    unfold songFromMidi at hs'
    simp only [res_bind, res_pure, Bool.false_eq_true, if_false] at hs'
    obtain ⟨ts, h1, h2⟩ := hs'
    intro tr htr c hc t n hcmd
    subst h2
    exact absurd hcmd ((voiceTracks_noCalls h f ts h1 tr htr).2 c hc t n)
  obtain ⟨-, hP, hS⟩ := tidy_sound ord ho calls h hh (by rw [e]; exact hs) ht (by rw [e]; exact h24) (by omega) (by omega) hmt.1 hmt.2 f false s hs' hnc hd
  refine ⟨hP, ?_⟩
  intro part evs h1 h2
  obtain ⟨heard, -, g2, g3, -⟩ := hS part evs h1 h2
  rw [e] at g3
  exact ⟨heard, g2, g3⟩

/-- The file of C64, with snares, meets all the conditions. -/
example : Readable drumCalls ∧ Paired (file drumCalls) ∧ FewVoices (file drumCalls) ∧ timeBase drumCalls = 24 ∧
    (∀ m ∈ file drumCalls, m.2 + 3525 ≤ exactTicks (timeBase drumCalls)) ∧ ∀ m ∈ file drumCalls, 24 * (m.2 + 1) ≤ 32511 * timeBase drumCalls := by
  refine ⟨⟨?_, by decide, by decide⟩, ⟨by decide, by decide⟩, by decide, by decide, by decide, by decide⟩
  intro f tb h
  simp [drumCalls] at h
  exact h.1

end M2S
