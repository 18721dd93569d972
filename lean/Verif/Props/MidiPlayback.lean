import Verif.Proofs.MidiPlayable
import Verif.Props.Playback
import Verif.Props.Encoding
import Verif.Props.Optimise
import Verif.Props.Track
/-
Songs converted from MIDI data in the ROM: they can be stored and played (C55), and the engine plays the MIDI notes on time (C56).
-/
namespace M2S
open RomSpec Nspc Engine Timing

/-! ## C55 -/

/-- One part of at most eight tracks; calls name tracks behind the part, non-empty and without calls. -/
def Structured (s : Song) : Prop :=
  ∃ top, top ≤ 8 ∧ top ≤ s.tracks.length ∧ s.parts = [List.range top] ∧ (s.tracks ≠ [] → 0 < top) ∧
    ∀ tr ∈ s.tracks, ∀ c ∈ tr, ∀ t n, c.command = .callLoop t n → top ≤ t ∧ 1 ≤ n.toNat ∧
      ∃ body, s.tracks[t]? = some body ∧ body ≠ [] ∧ ∀ b ∈ body, isCall b.command = false

/-- The part and the calls of a converted song, with or without loop optimisation. -/
theorem song_structure (m : MidiHandler) (f : F32) (opt : Bool) (s : Song) (h : songFromMidi m f opt = .ok s) : Structured s := by
  cases opt with
  | true =>
    obtain ⟨top, h1, h2, h3, h4, h5⟩ := C35_song m f s h
    refine ⟨top, h1, h2, h3, ?_, ?_⟩
    · intro hne
      by_contra h0
      have h0 : top = 0 := by omega
      subst h0
      unfold songFromMidi at h
      rw [res_bind] at h
      obtain ⟨tracks, e1, e3⟩ := h
      simp only [if_true, res_bind, res_pure] at e3
      obtain ⟨out, e4, rfl⟩ := e3
      simp only [List.cons.injEq, and_true] at h3
      have e5 : tracks = [] := List.length_eq_zero_iff.mp (by simpa using congrArg List.length h3)
      subst e5
      have := optimizeFuel_old 0 _ [] out le_rfl e4
      obtain ⟨tr, rest, rfl⟩ : ∃ tr rest, out = tr :: rest := List.exists_cons_of_ne_nil hne
      obtain ⟨g1, -, -⟩ := h4 0 tr (by omega) rfl
      obtain ⟨c, cs, rfl⟩ : ∃ c cs, tr = c :: cs := List.exists_cons_of_ne_nil (by rintro rfl; simp at g1)
      rcases this (c :: cs) List.mem_cons_self c List.mem_cons_self with ⟨_, g, -⟩ | ⟨t, n, rfl⟩
      · simp at g
      · exact (h4 0 _ (by omega) rfl).2.1 _ List.mem_cons_self |>.1 t n rfl
    · intro tr htr c hc t n hcc
      obtain ⟨g1, g2, g3⟩ := h5 tr htr c hc t n hcc
      have hb := List.getElem?_eq_getElem g2
      obtain ⟨e1, e2, -⟩ := h4 t _ g1 hb
      refine ⟨g1, g3, _, hb, ?_, ?_⟩
      · intro h0; rw [h0] at e1; simp at e1
      · intro b hb'
        have := (e2 b hb').1
        cases hbc : b.command <;> first | rfl | exact absurd hbc (this _ _)
  | false =>
    unfold songFromMidi at h
    rw [res_bind] at h
    obtain ⟨tracks, h1, h3⟩ := h
    simp only [Bool.false_eq_true, if_false, res_pure] at h3
    subst h3
    refine ⟨tracks.length, voiceTracks_le m f tracks h1, le_rfl, rfl, fun h => List.length_pos_iff.mpr h, ?_⟩
    intro tr htr c hc t n hcc
    exact absurd hcc ((voiceTracks_noCalls m f tracks h1 tr htr).2 c hc t n)

theorem Structured.playable {s : Song} (h : Structured s) (hc : ∀ tr ∈ s.tracks, ∀ c ∈ tr, Shaped c ∨ ∃ t n, c = loopCmd t n) (hr : InRange s) : Playable s := by
  obtain ⟨top, -, h2, h3, -, h5⟩ := h
  refine ⟨fun tr htr => selfContained_encodable tr (inRange_selfContained hr hc tr htr) _, ?_, ?_⟩
  · intro tr htr c hcm t k hk
    obtain ⟨g1, g2, g3⟩ := h5 tr htr c hcm t k hk
    refine ⟨?_, g2, g3, ?_⟩
    · rcases hc tr htr c hcm with h | ⟨_, _, rfl⟩
      · have := h.call; rw [hk] at this; cases this
      · rfl
    · intro p hp
      rw [h3, List.mem_singleton] at hp
      subst hp
      rw [List.mem_range]
      omega
  · intro p hp t ht
    rw [h3, List.mem_singleton] at hp
    subst hp
    rw [List.mem_range] at ht
    omega

/-- **C55.** A song converted from MIDI data, with or without loop optimisation, can be played by the engine if its values are in the engine's ranges (that this is
not always so is C07 and C15). -/
theorem C55_playable (m : MidiHandler) (f : F32) (opt : Bool) (s : Song) (h : songFromMidi m f opt = .ok s) (hr : InRange s) : Playable s :=
  (song_structure m f opt s h).playable (song_cmds m f opt s h) hr

/-- A song of commands that are in range, besides calls. -/
theorem old_range (plain opt : Song) (hold : ∀ tr ∈ opt.tracks, ∀ c ∈ tr, OldOrCall plain.tracks c) (hr : InRange plain) : InRange opt := by
  refine ⟨?_, ?_, ?_⟩
  · intro tr htr c hc hcall d hd
    rcases hold tr htr c hc with ⟨tr', g1, g2⟩ | ⟨t, n, rfl⟩
    · exact hr.dur tr' g1 c g2 hcall d hd
    · cases hcall
  · intro tr htr c hc v hv
    rcases hold tr htr c hc with ⟨tr', g1, g2⟩ | ⟨t, n, rfl⟩
    · exact hr.vel tr' g1 c g2 v hv
    · simp only [loopCmd, Option.mem_some_iff] at hv; subst hv; decide
  · intro tr htr c hc n hn
    rcases hold tr htr c hc with ⟨tr', g1, g2⟩ | ⟨t, n, rfl⟩
    · exact hr.note tr' g1 c g2 n hn
    · cases hn

/-- **C55.** Loop optimisation brings no values out of range. -/
theorem C55_optimised_range (m : MidiHandler) (f : F32) (plain opt : Song) (hp : songFromMidi m f false = .ok plain) (ho : songFromMidi m f true = .ok opt)
    (hr : InRange plain) : InRange opt := by
  unfold songFromMidi at hp ho
  rw [res_bind] at hp ho
  obtain ⟨tracks, h1, h2⟩ := hp
  obtain ⟨tracks', h1', h3⟩ := ho
  rw [h1] at h1'; cases h1'
  simp only [Bool.false_eq_true, if_false, res_pure] at h2
  simp only [if_true, res_bind, res_pure] at h3
  obtain ⟨out, h4, h5⟩ := h3
  subst h2 h5
  have hold := optimizeFuel_old tracks.length _ tracks out le_rfl h4
  exact old_range ⟨_, tracks⟩ ⟨_, out⟩ hold hr

/-- **C55.** Well-formed voices with notes 24 to 95 give values in range, except that a note fused with the following rest may be too long (C07). -/
theorem C55_in_range (m : MidiHandler) (f : F32) (s : Song) (G : Nat) (h : songFromMidi m f false = .ok s) (hp : 0 < m.ticksPerBeat)
    (hp2 : m.ticksPerBeat < 65536) (hG : G + 3525 ≤ exactTicks m.ticksPerBeat) (hT : m.maxTime < 2 ^ 31) (hv : ∀ v, voiceOk m.ticksPerBeat G m.maxTime 0 0 none (m.voices v) = true)
    (hvel : ∀ v t dl ch n x, (Message.midiEvent dl (.noteOn ch n x), t) ∈ m.voices v → x.toNat ≤ 127)
    (hn : ∀ v t dl ch n x, (Message.midiEvent dl (.noteOff ch n x), t) ∈ m.voices v → 24 ≤ n.toNat ∧ n.toNat ≤ 95)
    (hd : ∀ tr ∈ s.tracks, ∀ c ∈ tr, c.command.isNote = true → ∀ d ∈ c.duration, d < 0x80) : InRange s := by
  unfold songFromMidi at h
  rw [res_bind] at h
  obtain ⟨tracks, h1, h3⟩ := h
  simp only [Bool.false_eq_true, if_false, res_pure] at h3
  subst h3
  have hof : ∀ tr ∈ tracks, ∃ v, trackNew (m.voices v) m.ticksPerBeat m.maxTime f = .ok tr := by
    intro tr htr
    unfold voiceTracks at h1
    simp only [res_bind, res_pure] at h1
    obtain ⟨ts, h1, rfl⟩ := h1
    rw [List.mem_filter] at htr
    obtain ⟨v, -, hn⟩ := mapM_mem _ _ _ h1 tr htr.1
    exact ⟨v, hn⟩
  refine ⟨?_, ?_, ?_⟩
  · intro tr htr c hc _ d hd'
    obtain ⟨v, hv'⟩ := hof tr htr
    obtain ⟨g1, g2, g3⟩ := C07_durations_partial _ _ _ _ f hp hp2 hG hT (hv v) tr hv' c hc d hd'
    have hlt : d < 0x80 := by
      cases hnote : c.command.isNote with
      | true => exact hd tr htr c hc hnote d hd'
      | false =>
        have := g3 hnote
        rw [UInt8.lt_iff_toNat_lt]
        have : (0x80 : UInt8).toNat = 128 := rfl
        omega
    refine ⟨?_, hlt⟩
    rw [UInt8.lt_iff_toNat_lt]
    have : (0 : UInt8).toNat = 0 := rfl
    omega
  · intro tr htr c hc x hx
    obtain ⟨v, hv'⟩ := hof tr htr
    obtain ⟨g1, -⟩ := C15_ranges _ (hvel v) _ _ f tr hv' c hc
    have := g1 x hx
    rw [UInt8.lt_iff_toNat_lt]
    have : (0x10 : UInt8).toNat = 16 := rfl
    omega
  · intro tr htr c hc x hx
    obtain ⟨v, hv'⟩ := hof tr htr
    obtain ⟨-, -, g⟩ := C15_ranges _ (hvel v) _ _ f tr hv' c hc
    obtain ⟨n, ⟨t, dl, ch, y, g1⟩, -, g3⟩ := g x hx
    obtain ⟨g4, g5⟩ := g3.mpr (hn v t dl ch n y g1)
    rw [UInt8.le_iff_toNat_le, UInt8.lt_iff_toNat_lt]
    have e1 : (0x80 : UInt8).toNat = 0x80 := rfl
    have e2 : (0xc8 : UInt8).toNat = 0xc8 := rfl
    omega

theorem Structured.storable {Path : Type} {conv : Converter Path} {d : SongDef Path} {s : Song} (h : Structured s) (hl : loadSong conv d = .ok s) :
    ∃ e, EncodedOf conv d e ∧ e.part.length ≤ 8 ∧ (∀ t ∈ e.part, t < e.tracks.length) ∧ ∀ o ∈ e.tracks, ∀ r ∈ o.refs, r.targetTrack < e.tracks.length := by
  obtain ⟨top, h1, h2, h3, h4, h5⟩ := h
  have hw : ∀ i ∈ List.range s.tracks.length, ∃ o, s.writeTrack i = .ok o := by
    intro i hi
    rw [List.mem_range] at hi
    refine writeTrack_ok s i _ (List.getElem?_eq_getElem hi) ?_
    intro p hp
    rw [h3, List.mem_singleton] at hp
    subst hp
    have := h4 (by rintro h0; rw [h0] at hi; simp at hi)
    intro h0
    rw [List.range_eq_nil] at h0
    omega
  obtain ⟨os, hos⟩ : ∃ os, List.Forall₂ (fun i o => s.writeTrack i = .ok o) (List.range s.tracks.length) os := by
    generalize List.range s.tracks.length = l at hw
    induction l with
    | nil => exact ⟨[], .nil⟩
    | cons i l ih =>
      obtain ⟨o, ho⟩ := hw i List.mem_cons_self
      obtain ⟨os, hos⟩ := ih (fun j hj => hw j (List.mem_cons_of_mem _ hj))
      exact ⟨o :: os, .cons ho hos⟩
  have hlen := hos.length_eq
  rw [List.length_range] at hlen
  refine ⟨⟨d.loops, List.range top, os⟩, ⟨s, hl, rfl, ?_, hos⟩, by simpa using h1, ?_, ?_⟩
  · unfold Song.partTracks; rw [h3]; rfl
  · intro t ht
    rw [List.mem_range] at ht
    show t < os.length
    omega
  · intro o ho r hr
    show r.targetTrack < os.length
    obtain ⟨i, hi, rfl⟩ := List.mem_iff_getElem.1 ho
    have hi' : i < s.tracks.length := by rw [hlen]; exact hi
    have hwi := List.Forall₂.get hos (i := i) (by simpa using hi') hi
    simp only [List.get_eq_getElem, List.getElem_range] at hwi
    by_cases hne : s.tracks[i] = []
    · unfold Song.writeTrack at hwi
      rw [List.getElem?_eq_getElem hi', hne] at hwi
      simp only [List.isEmpty_nil, if_true] at hwi
      injection hwi with hwi
      rw [← hwi] at hr
      cases hr
    · obtain ⟨e1, -⟩ := C05_call_refs s i _ (List.getElem?_eq_getElem hi') hne _ hwi
      have hm : r.targetTrack ∈ callTargets s.tracks[i] := by rw [← e1]; exact List.mem_map.mpr ⟨r, hr, rfl⟩
      obtain ⟨c, hc, n, hcc⟩ : ∃ c ∈ s.tracks[i], ∃ n, c.command = .callLoop r.targetTrack n := by
        unfold callTargets at hm
        rw [List.mem_filterMap] at hm
        obtain ⟨c, hc, hm⟩ := hm
        split at hm
        · rename_i t n hcc
          cases hm
          exact ⟨c, hc, n, hcc⟩
        · cases hm
      obtain ⟨-, -, body, hb, -⟩ := h5 _ (List.getElem_mem hi') c hc _ n hcc
      obtain ⟨hb, -⟩ := List.getElem?_eq_some_iff.mp hb
      omega

/-- **C55.** A song converted from MIDI data can be stored, whatever its values: all its tracks can be written, the part has at most eight tracks, and parts and calls name tracks that exist. -/
theorem C55_storable {Path : Type} (conv : Converter Path) (d : SongDef Path) (m : MidiHandler) (f : F32) (opt : Bool) (s : Song)
    (hl : loadSong conv d = .ok s) (h : songFromMidi m f opt = .ok s) :
    ∃ e, EncodedOf conv d e ∧ e.part.length ≤ 8 ∧ (∀ t ∈ e.part, t < e.tracks.length) ∧ ∀ o ∈ e.tracks, ∀ r ∈ o.refs, r.targetTrack < e.tracks.length :=
  (song_structure m f opt s h).storable hl

/-! ## C56 -/

theorem mem_expand {tracks : List (List PCmd)} {tr : List PCmd} {c : PCmd} (htr : tr ∈ tracks) (h : c ∈ expand tracks tr) : ∃ t ∈ tracks, c ∈ t := by
  unfold expand at h
  rw [List.mem_flatMap] at h
  obtain ⟨a, ha, h⟩ := h
  unfold expandCmd at h
  split at h
  · have hm := mem_copies h
    rename_i t n _
    cases ht : tracks[t]? with
    | none => rw [List.getD_eq_getElem?_getD, ht] at hm; simp at hm
    | some b => rw [List.getD_eq_getElem?_getD, ht] at hm; exact ⟨b, List.mem_of_getElem? ht, hm⟩
  · rw [List.mem_singleton] at h
    subst h
    exact ⟨tr, htr, ha⟩

/-- The song has one part, the tracks of the voices; with its calls written out these are the converted voices; and it has no other commands than these and calls. -/
def StandsFor (m : MidiHandler) (f : F32) (s : Song) : Prop :=
  ∃ tracks, voiceTracks m f = .ok tracks ∧ s.parts = [List.range tracks.length] ∧ tracks.length ≤ s.tracks.length ∧
    (∀ i < tracks.length, expand s.tracks (s.tracks.getD i []) = tracks.getD i []) ∧ ∀ tr ∈ s.tracks, ∀ c ∈ tr, OldOrCall tracks c

theorem song_standsFor (m : MidiHandler) (f : F32) (opt : Bool) (s : Song) (h : songFromMidi m f opt = .ok s)
    (hcount : ∀ tr ∈ s.tracks, ∀ c ∈ tr, ∀ t n, c.command = .callLoop t n → n.toNat ≤ 2) : StandsFor m f s := by
  cases opt with
  | false =>
    unfold songFromMidi at h
    rw [res_bind] at h
    obtain ⟨tracks, h1, h3⟩ := h
    simp only [Bool.false_eq_true, if_false, res_pure] at h3
    subst h3
    refine ⟨tracks, h1, rfl, le_rfl, fun i hi => ?_, fun tr htr c hc => .inl ⟨tr, htr, hc⟩⟩
    have := fun tr htr => (voiceTracks_noCalls m f tracks h1 tr htr).2
    refine expand_self _ _ (this _ ?_)
    rw [List.getD_eq_getElem?_getD, List.getElem?_eq_getElem hi]
    exact List.getElem_mem hi
  | true =>
    have h' := h
    unfold songFromMidi at h'
    rw [res_bind] at h'
    obtain ⟨tracks, h1, h3⟩ := h'
    have hp : songFromMidi m f false = .ok ⟨[List.range tracks.length], tracks⟩ := by
      unfold songFromMidi
      rw [h1]; rfl
    have hc2 : ∀ i < tracks.length, ∀ c ∈ s.tracks.getD i [], ∀ t n, c.command = .callLoop t n → n.toNat ≤ 2 := by
      intro i hi c hc t n hcc
      cases ht : s.tracks[i]? with
      | none => rw [List.getD_eq_getElem?_getD, ht] at hc; simp at hc
      | some tr =>
        rw [List.getD_eq_getElem?_getD, ht] at hc
        exact hcount tr (List.mem_of_getElem? ht) c hc t n hcc
    obtain ⟨g1, g2, g3⟩ := C33_song_partial m f _ s hp h (.inr hc2)
    simp only [if_true, res_bind, res_pure] at h3
    obtain ⟨out, h4, rfl⟩ := h3
    exact ⟨tracks, h1, g1, g2, g3, optimizeFuel_old tracks.length _ tracks out le_rfl h4⟩

/-- What the channels of a converted song should play: the tracks of the voices that have one, in order. -/
theorem stands_channels (m : MidiHandler) (f : F32) (s : Song) (hst : StandsFor m f s) (hr : InRange s) :
    ∃ vs : List (Fin 8), vs.Pairwise (· < ·) ∧ (∀ v, v ∉ vs → trackNew (m.voices v) m.ticksPerBeat m.maxTime f = .ok []) ∧
      s.parts = [List.range vs.length] ∧
      ∀ i < 8, match vs[i]? with
        | some v => ∃ cs l, trackNew (m.voices v) m.ticksPerBeat m.maxTime f = .ok cs ∧ cs ≠ [] ∧ (partSound s (List.range vs.length))[i]? = some (some l) ∧
            heardNotes 0 l = noteOnsets cs ∧ heardTime l = total cs ∧ heardPitches 0 none l = pitchOnsets cs ∧
            l = (preambleFor s.parts i).map (fun c => Ev.cmd (encodeCmd noAddr c).1 (encodeCmd noAddr c).2) ++ intended noAddr cs 0 13 7 ∧
            (∀ c ∈ cs, Shaped c) ∧ ∀ c ∈ cs, ∀ d ∈ c.duration, 0 < d
        | none => (partSound s (List.range vs.length))[i]? = some none := by
  obtain ⟨tracks, h1, h2, h3, h4, -⟩ := hst
  obtain ⟨vs, g1, g2, g3⟩ := voiceTracks_voices m f tracks h1
  have hlen := g2.length_eq
  refine ⟨vs, g1, g3, by rw [hlen]; exact h2, ?_⟩
  intro i hi
  have hps : (partSound s (List.range vs.length))[i]? = some ((List.range vs.length)[i]?.bind (trackSound s)) := by
    unfold partSound
    rw [List.getElem?_map, List.getElem?_range hi]
    rfl
  rw [hps]
  by_cases hiv : i < vs.length
  · rw [List.getElem?_eq_getElem hiv, List.getElem?_range hiv]
    have hit : i < tracks.length := by omega
    have his : i < s.tracks.length := by omega
    obtain ⟨e1, e2⟩ := List.Forall₂.get g2 hiv hit
    simp only [List.get_eq_getElem] at e1 e2
    have hex := h4 i hit
    rw [List.getD_eq_getElem?_getD, List.getElem?_eq_getElem his, List.getD_eq_getElem?_getD, List.getElem?_eq_getElem hit] at hex
    simp only [Option.getD_some] at hex
    have hne : s.tracks[i] ≠ [] := by
      intro h0
      rw [h0] at hex
      exact e2 hex.symm
    have hsh := voiceTracks_shaped m f tracks h1 tracks[i] (List.getElem_mem hit)
    have hpos : ∀ c ∈ tracks[i], ∀ d ∈ c.duration, 0 < d := by
      intro c hc d hd
      rw [← hex] at hc
      obtain ⟨t, ht, hc'⟩ := mem_expand (List.getElem_mem his) hc
      rw [hex] at hc
      exact (hr.dur t ht c hc' (hsh c hc).call d hd).1
    refine ⟨tracks[i], (preambleFor s.parts i).map (fun c => Ev.cmd (encodeCmd noAddr c).1 (encodeCmd noAddr c).2) ++ intended noAddr (expand s.tracks s.tracks[i]) 0 13 7,
      e1, e2, ?_, ?_⟩
    · simp only [Option.bind_some]
      unfold trackSound
      rw [List.getElem?_eq_getElem his]
      simp only [if_neg hne]
    · rw [heardNotes_cmds _ _ _ (fun c => ⟨_, _, rfl⟩), heardTime_cmds _ _ (fun c => ⟨_, _, rfl⟩), hex]
      obtain ⟨k1, k2⟩ := heardNotes_intended noAddr tracks[i] hsh hpos 0 0 13 7
      exact ⟨k1, k2, by rw [heardPitches_preamble]; exact heardPitches_intended noAddr tracks[i] hsh hpos 0 none 0 13 7, rfl, hsh, hpos⟩
  · rw [List.getElem?_eq_none (by omega), List.getElem?_eq_none (by simp; omega)]
    rfl

theorem song_channels (m : MidiHandler) (f : F32) (opt : Bool) (s : Song) (h : songFromMidi m f opt = .ok s) (hr : InRange s)
    (hcount : ∀ tr ∈ s.tracks, ∀ c ∈ tr, ∀ t n, c.command = .callLoop t n → n.toNat ≤ 2) :
    ∃ vs : List (Fin 8), vs.Pairwise (· < ·) ∧ (∀ v, v ∉ vs → trackNew (m.voices v) m.ticksPerBeat m.maxTime f = .ok []) ∧
      s.parts = [List.range vs.length] ∧
      ∀ i < 8, match vs[i]? with
        | some v => ∃ cs l, trackNew (m.voices v) m.ticksPerBeat m.maxTime f = .ok cs ∧ cs ≠ [] ∧ (partSound s (List.range vs.length))[i]? = some (some l) ∧
            heardNotes 0 l = noteOnsets cs ∧ heardTime l = total cs ∧ heardPitches 0 none l = pitchOnsets cs ∧
            l = (preambleFor s.parts i).map (fun c => Ev.cmd (encodeCmd noAddr c).1 (encodeCmd noAddr c).2) ++ intended noAddr cs 0 13 7 ∧
            (∀ c ∈ cs, Shaped c) ∧ ∀ c ∈ cs, ∀ d ∈ c.duration, 0 < d
        | none => (partSound s (List.range vs.length))[i]? = some none :=
  stands_channels m f s (song_standsFor m f opt s h hcount) hr

theorem timingOf_get {a b : List (Option (List Ev))} (h : timingOf a = timingOf b) (i : Nat) :
    (b[i]? = some none → a[i]? = some none) ∧
    ∀ l, b[i]? = some (some l) → ∃ l', a[i]? = some (some l') ∧ heardNotes 0 l' = heardNotes 0 l ∧ heardTime l' = heardTime l ∧
      heardPitches 0 none l' = heardPitches 0 none l ∧ l'.map Ev.timing = l.map Ev.timing := by
  have hi := congrArg (·[i]?) h
  simp only [timingOf, List.getElem?_map] at hi
  constructor
  · intro hb
    rw [hb] at hi
    simp only [Option.map_some, Option.map_none, Option.map_eq_some_iff, Option.map_eq_none_iff] at hi
    obtain ⟨x, hx, rfl⟩ := hi
    exact hx
  · intro l hb
    rw [hb] at hi
    simp only [Option.map_some, Option.map_eq_some_iff] at hi
    obtain ⟨x, hx, l', rfl, hl⟩ := hi
    refine ⟨l', hx, ?_, ?_, ?_, hl⟩
    · rw [← heardNotes_timing, hl, heardNotes_timing]
    · rw [← heardTime_timing, hl, heardTime_timing]
    · rw [← heardPitches_timing, hl, heardPitches_timing]

/-- A heard note against a MIDI note: the right byte, less than one unit (1/24 beat) from the note-on. -/
def OnTime (tpb : Nat) (o : Nat × UInt8) (n : MidiNote) : Prop := o.2 = n.note + 0x68 ∧ |(o.1 : ℚ) - 24 * n.on / tpb| < 1

/-- **C56 (one bank), partial** (missing: what is missing in C12, C33 and C54, all false of the code there). From MIDI data to sound: a song converted from MIDI data, with
or without loop optimisation, is built into a ROM; the bank is uploaded, and the engine plays the song. Then there is a channel for every voice that has notes, in order; in it
exactly the MIDI notes of the voice are heard, in order, each with the right pitch byte and starting less than one unit from its note-on; the channel lasts to the end of the MIDI song,
less than one unit more or less; the other channels are silent; and the song starts again for ever if the slot loops, and stops otherwise. -/
theorem C56_notes_on_time_partial {Path : Type} (conv : Converter Path) (verbose : Bool) (j : Job Path) (fs : Nat) (rom r : Rom)
    (hj : j.Ready conv (ofRom rom) fs) (hc : j.bank.Clean) (h : writeBank conv verbose j.songs rom j.base j.first fs = .ok r) (a0 : Mem) (regs : Regs)
    (k : Nat) (d : SongDef Path) (s : Song) (hk : j.songs[k]? = some d) (hs : loadSong conv d = .ok s)
    (m : MidiHandler) (f : F32) (opt : Bool) (hm : songFromMidi m f opt = .ok s) (hr : InRange s)
    (hcount : ∀ tr ∈ s.tracks, ∀ c ∈ tr, ∀ t n, c.command = .callLoop t n → n.toNat ≤ 2)
    (G : Nat) (h24 : 24 ∣ m.ticksPerBeat) (hp : 0 < m.ticksPerBeat) (hp2 : m.ticksPerBeat < 65536) (hG : G + 3525 ≤ exactTicks m.ticksPerBeat)
    (hG2 : 24 * (G + 1) ≤ 32511 * m.ticksPerBeat) (hT : m.maxTime < 2 ^ 31)
    (hv : ∀ v, voiceOk m.ticksPerBeat G m.maxTime 0 0 none (m.voices v) = true)
    (hpr : ∀ v, programsBetweenNotes false (m.voices v) = true) (hno : ∀ v, noPortamento (m.voices v) = true) :
    ∃ (vs : List (Fin 8)) (fuel : Nat) (evs : List (Option (List Ev))) (T : Nat), vs.Pairwise (· < ·) ∧ (∀ v, v ∉ vs → midiNotes none (m.voices v) = []) ∧
      (∀ n, playSong (upload (ofRom r) j.bank.chunks a0) (fuel + n) regs (fs + k) = some (evs, T, if d.loops then .goto 0xff T else .stop)) ∧
      ∀ i < 8, match vs[i]? with
        | some v => ∃ l, evs[i]? = some (some l) ∧ List.Forall₂ (OnTime m.ticksPerBeat) (heardNotes 0 l) (midiNotes none (m.voices v)) ∧
            |(heardTime l : ℚ) - 24 * m.maxTime / m.ticksPerBeat| < 1
        | none => evs[i]? = some none := by
  have hP := C55_playable m f opt s hm hr
  obtain ⟨part, fuel, evs, T, h1, h2, h3, -⟩ := C54_bank_partial conv verbose j fs rom r hj hc h a0 regs k d s hk hs hP
  obtain ⟨vs, g1, g2, g3, g4⟩ := song_channels m f opt s hm hr hcount
  have hpart : part = List.range vs.length := by rw [g3] at h1; simpa using h1.symm
  subst hpart
  refine ⟨vs, fuel, evs, T, g1, ?_, h2, ?_⟩
  · intro v hvn
    obtain ⟨cs, e1, e2⟩ := C12_notes_on_time_24_partial (m.voices v) _ G m.maxTime f h24 hp hp2 hG hG2 hT (hv v) (hpr v) (hno v)
    rw [g2 v hvn] at e1
    injection e1 with e1
    subst e1
    exact List.forall₂_nil_left_iff.mp e2
  · intro i hi
    have := g4 i hi
    cases hvi : vs[i]? with
    | none =>
      rw [hvi] at this
      exact (timingOf_get h3 i).1 this
    | some v =>
      rw [hvi] at this
      obtain ⟨cs, l, e1, e0, e2, e3, e4, -⟩ := this
      obtain ⟨l', k1, k2, k3, -⟩ := (timingOf_get h3 i).2 l e2
      obtain ⟨cs', e1', e2'⟩ := C12_notes_on_time_24_partial (m.voices v) _ G m.maxTime f h24 hp hp2 hG hG2 hT (hv v) (hpr v) (hno v)
      rw [e1] at e1'
      injection e1' with e1'
      subst e1'
      refine ⟨l', k1, ?_, ?_⟩
      · rw [k2, e3]; exact e2'
      · obtain ⟨cs'', f1, f2⟩ := C14_end_together_partial (m.voices v) _ G m.maxTime f hp hp2 h24 hG hG2 hT (hv v) (hpr v)
        rw [e1] at f1
        injection f1 with f1
        subst f1
        rw [k3, e4]
        exact f2 e0

/-! An example for C55 and C56: a file with two channels; in the first one four notes occur twice and become a subroutine. -/

/-- Notes one after the other. -/
def tuneNotes (ch : Fin 16) (l : List (UInt8 × Nat)) : List Callback := l.flatMap fun (n, d) => [.midiEvent 0 (.noteOn ch n 100), .midiEvent d (.noteOff ch n 0)]

def tuneCalls : List Callback := [.header 1 24, .trackChange] ++
  tuneNotes 0 [(60, 12), (62, 12), (64, 12), (65, 12), (67, 24), (60, 12), (62, 12), (64, 12), (65, 12), (69, 24)] ++
  [.trackChange, .midiEvent 12 (.noteOn 1 48 80), .midiEvent 30 (.noteOff 1 48 0)]

def tuneMidi : MidiHandler := match readMidi id tuneCalls with
  | .ok h => h
  | .error _ => {}

def tuneSong : Song := ⟨[[0, 1]],
  [[loopCmd 2 1, ⟨some 24, some 12, some 7, .note 171⟩, loopCmd 2 1, ⟨some 24, some 12, some 7, .note 173⟩],
   [restCmd 12, ⟨some 30, some 10, some 7, .note 152⟩, restCmd 102],
   [⟨some 12, some 12, some 7, .note 164⟩, ⟨some 12, some 12, some 7, .note 166⟩, ⟨some 12, some 12, some 7, .note 168⟩, ⟨some 12, some 12, some 7, .note 169⟩]]⟩

theorem tuneMidi_read : readMidi id tuneCalls = .ok tuneMidi := by
  have hok : (readMidi id tuneCalls).toOption.isSome = true := by decide +kernel
  unfold tuneMidi
  cases h : readMidi id tuneCalls with
  | ok x => rfl
  | error e => rw [h] at hok; cases hok

theorem tuneSong_of : songFromMidi tuneMidi (F32.ofRat (1 / 5)) true = .ok tuneSong := by
  unfold songFromMidi
  simp only [optimizeCallLoops_run]
  decide +kernel

theorem tuneSong_inRange : InRange tuneSong := by
  refine ⟨by decide, by decide, ?_⟩
  have h : ∀ tr ∈ tuneSong.tracks, ∀ c ∈ tr, match c.command with
      | .note n => 0x80 ≤ n ∧ n < 0xc8
      | _ => True := by
    simp only [tuneSong, List.mem_cons, List.not_mem_nil, or_false, forall_eq_or_imp, forall_eq, loopCmd, restCmd]
    decide
  intro tr htr c hc n hn
  have := h tr htr c hc
  rw [hn] at this
  exact this

def tuneConv : Converter Nat := fun _ _ => songFromMidi tuneMidi (F32.ofRat (1 / 5)) true

def tuneEncoded : Encoded := ⟨true, [0, 1],
  [⟨[250, 25, 229, 200, 237, 200, 239, 0, 208, 1, 24, 124, 171, 239, 0, 208, 1, 24, 173, 0], [⟨2, 7⟩, ⟨2, 14⟩]⟩,
   ⟨[237, 200, 12, 201, 30, 122, 152, 102, 201, 0], []⟩, ⟨[12, 124, 164, 166, 168, 169, 0], []⟩]⟩

def tuneJob : Job Nat := ⟨[slot (some 0) true, slot none false], 0, 0xd006, bankAt 12 62 30, [tuneEncoded, emptyEncoded false]⟩

theorem tuneEncoded_of : EncodedOf tuneConv (slot (some 0) true) tuneEncoded :=
  ⟨tuneSong, tuneSong_of, rfl, by rfl, .cons (by decide) (.cons (by decide) (.cons (by decide) .nil))⟩

theorem tuneJob_ready : tuneJob.Ready tuneConv (ofRom (oneRom 62 30)) 0 where
  addr := by decide
  bank := ⟨by decide, .cons (by decide) (.cons (by decide) (.cons (by decide) (.cons (by decide) (.nil _)))), by decide, by decide, rfl, by decide⟩
  songs := .cons tuneEncoded_of (.cons (emptyEncoded_of _ _) .nil)
  fits := ⟨by decide, by decide, by decide, by decide, by decide⟩

theorem tuneMidi_voices : tuneMidi.ticksPerBeat = 24 ∧ tuneMidi.maxTime = 144 ∧ (∀ v, voiceOk 24 1000 144 0 0 none (tuneMidi.voices v) = true) ∧
    (∀ v, programsBetweenNotes false (tuneMidi.voices v) = true) ∧ (∀ v, noPortamento (tuneMidi.voices v) = true) := by decide +kernel

/-- The example meets all hypotheses of C55 and C56. -/
example : readMidi id tuneCalls = .ok tuneMidi ∧ songFromMidi tuneMidi (F32.ofRat (1 / 5)) true = .ok tuneSong ∧ InRange tuneSong ∧
    tuneJob.Ready tuneConv (ofRom (oneRom 62 30)) 0 ∧ tuneJob.bank.Clean ∧
    (∃ r, writeBank tuneConv false tuneJob.songs (oneRom 62 30) tuneJob.base tuneJob.first 0 = .ok r) ∧
    (∃ d, tuneJob.songs[0]? = some d ∧ loadSong tuneConv d = .ok tuneSong) ∧
    (∀ tr ∈ tuneSong.tracks, ∀ c ∈ tr, ∀ t n, c.command = .callLoop t n → n.toNat ≤ 2) ∧
    24 ∣ tuneMidi.ticksPerBeat ∧ 0 < tuneMidi.ticksPerBeat ∧ 24 * (1000 + 1) ≤ 32511 * tuneMidi.ticksPerBeat ∧
    (∀ v, voiceOk tuneMidi.ticksPerBeat 1000 tuneMidi.maxTime 0 0 none (tuneMidi.voices v) = true) ∧
    (∀ v, programsBetweenNotes false (tuneMidi.voices v) = true) ∧ (∀ v, noPortamento (tuneMidi.voices v) = true) := by
  refine ⟨tuneMidi_read, tuneSong_of, tuneSong_inRange, tuneJob_ready, ⟨by decide, by decide, by decide, by decide, by decide⟩, ?_, ⟨_, rfl, tuneSong_of⟩, ?_, ?_⟩
  · exact C44_fits_ok tuneConv false tuneJob 0 (oneRom 62 30) tuneJob_ready (by decide) (by decide +kernel) (by decide +kernel)
  · intro tr htr c hc t n hcc
    simp only [tuneSong, List.mem_cons, List.not_mem_nil, or_false] at htr
    rcases htr with rfl | rfl | rfl <;> simp only [List.mem_cons, List.not_mem_nil, or_false] at hc
    · rcases hc with rfl | rfl | rfl | rfl <;> cases hcc <;> decide
    · rcases hc with rfl | rfl | rfl <;> cases hcc
    · rcases hc with rfl | rfl | rfl | rfl <;> cases hcc
  · obtain ⟨h1, h2, h3, h4, h5⟩ := tuneMidi_voices
    rw [h1, h2]
    exact ⟨by decide, by decide, by decide, h3, h4, h5⟩

/-- What should be heard: the notes of the first voice, the subroutine twice; the note of the second voice. -/
example : (partSound tuneSong [0, 1]).map (Option.map fun l => (heardNotes 0 l, heardTime l)) =
    [some ([(0, 164), (12, 166), (24, 168), (36, 169), (48, 171), (72, 164), (84, 166), (96, 168), (108, 169), (120, 173)], 144), some ([(12, 152)], 144),
      none, none, none, none, none, none] := by decide

end M2S
