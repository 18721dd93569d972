import Verif.Proofs.Portamento
import Verif.Props.MidiPlayback
/-
C12 and C56 for voices with portamento.
-/
namespace M2S
open RomSpec Nspc Engine Timing

/-- **C12 with portamento, partial** (missing as in `C12_notes_on_time_partial`, except portamento; notes ended by another note number, which after C53 are only snares):
the notes of a converted voice, struck or reached by a pitch slide, are the MIDI notes, in order, with the right pitch byte and velocity, each starting less than one
unit from its note-on and ending less than one unit from its note-off, before the sustain pass shortens some of them. -/
theorem C12_portamento_partial (evs : List (Message × Nat)) (tpb G T : Nat) (f : F32) (hp : 0 < tpb) (hp2 : tpb < 65536) (hG : G + 3525 ≤ exactTicks tpb)
    (hG2 : 24 * (G + 1) ≤ 32511 * tpb) (hT : T < 2 ^ 31) (hv : voiceOk tpb G T 0 0 none evs = true)
    (hpr : programsBetweenNotes false evs = true) (hm : endsMatch none evs = true) :
    ∃ cs0 cs, trackNew evs tpb T f = .ok cs ∧ Fused cs0 cs ∧
      List.Forall₂ (Near tpb (slack tpb * evs.length)) (spans (unglide none cs0)) (midiNotes none evs) ∧
      List.Forall₂ (fun (o : Nat × UInt8) (n : MidiNote) => o.2 = n.note + 0x68 ∧ o.1 * tpb < 24 * n.on + tpb + slack tpb * evs.length ∧
        24 * n.on < o.1 * tpb + tpb + slack tpb * evs.length) (pitchOnsets cs) (midiNotes none evs) := by
  obtain ⟨cs0, cs, h1, h2, h3⟩ := trackNew_portamento evs tpb G T f hp hp2 hG hG2 hT hv hpr hm
  refine ⟨cs0, cs, h1, h2, h3, ?_⟩
  have e : pitchOnsets cs = noteOnsets (unglide none cs0) := by unfold pitchOnsets noteOnsets; rw [fused_onsets (unglide_fused h2 none)]
  rw [e, ← spans_onsets, List.forall₂_map_left_iff]
  exact h3.imp fun x n hn => ⟨hn.pitch, hn.startLate, hn.startEarly⟩

/-- With the usual resolutions the deviation is less than one unit. -/
theorem C12_portamento_24_partial (evs : List (Message × Nat)) (tpb G T : Nat) (f : F32) (h24 : 24 ∣ tpb) (hp : 0 < tpb) (hp2 : tpb < 65536) (hG : G + 3525 ≤ exactTicks tpb)
    (hG2 : 24 * (G + 1) ≤ 32511 * tpb) (hT : T < 2 ^ 31) (hv : voiceOk tpb G T 0 0 none evs = true)
    (hpr : programsBetweenNotes false evs = true) (hm : endsMatch none evs = true) :
    ∃ cs, trackNew evs tpb T f = .ok cs ∧
      List.Forall₂ (fun (o : Nat × UInt8) (n : MidiNote) => o.2 = n.note + 0x68 ∧ |(o.1 : ℚ) - 24 * n.on / tpb| < 1) (pitchOnsets cs) (midiNotes none evs) := by
  obtain ⟨cs0, cs, h1, -, -, h4⟩ := C12_portamento_partial evs tpb G T f hp hp2 hG hG2 hT hv hpr hm
  refine ⟨cs, h1, h4.imp ?_⟩
  rintro o n ⟨e1, e2, e3⟩
  have : slack tpb = 0 := by unfold slack; rw [if_pos (by omega)]
  rw [this, Nat.zero_mul, Nat.add_zero] at e2 e3
  have hpq : (0 : ℚ) < tpb := by exact_mod_cast hp
  have q2 : (o.1 : ℚ) * tpb < 24 * n.on + tpb := by exact_mod_cast e2
  have q3 : (24 * n.on : ℚ) < o.1 * tpb + tpb := by exact_mod_cast e3
  refine ⟨e1, ?_⟩
  rw [abs_lt]
  constructor
  · have : (24 * n.on : ℚ) / tpb < o.1 + 1 := by rw [div_lt_iff₀ hpq]; linarith
    linarith
  · have : (o.1 : ℚ) - 1 < 24 * n.on / tpb := by rw [lt_div_iff₀ hpq]; linarith
    linarith

/-- A voice that switches portamento on after its first note and glides to the third. -/
def glideVoice : List (Message × Nat) :=
  [evOn 0 60 100, evOff 48 60, (.midiEvent 0 (.controlChange 0 65 127), 48), (.midiEvent 0 (.controlChange 0 37 6), 48), evOn 72 62 90, evOff 96 62, evOn 96 67 80, evOff 120 67]

example : voiceOk 24 1000 120 0 0 none glideVoice = true ∧ programsBetweenNotes false glideVoice = true ∧ endsMatch none glideVoice = true ∧
    noPortamento glideVoice = false ∧ midiNotes none glideVoice = [⟨0, 48, 60, 100⟩, ⟨72, 96, 62, 90⟩, ⟨96, 120, 67, 80⟩] := by decide

/-- The third note is not struck but reached by the slide. -/
example : ∃ cs, trackNew glideVoice 24 120 (.fin (1 / 5)) = .ok cs ∧ noteOnsets cs = [(0, 164), (72, 166)] ∧ pitchOnsets cs = [(0, 164), (72, 166), (96, 171)] :=
  ⟨(trackNew glideVoice 24 120 (.fin (1 / 5))).toOption.get!, by decide +kernel, by decide +kernel, by decide +kernel⟩

/-- The condition on note numbers is needed: the slide goes to the note of the note-on, whereas a struck note has the pitch of the note-off. -/
theorem C12_portamento_ends_false : ∃ cs, trackNew [evOn 0 60 100, evOff 48 60, (.midiEvent 0 (.controlChange 0 65 127), 48), evOn 48 62 90, evOff 96 64] 24 96 (.fin (1 / 5)) = .ok cs ∧
    pitchOnsets cs = [(0, 164), (48, 166)] :=
  ⟨(trackNew [evOn 0 60 100, evOff 48 60, (.midiEvent 0 (.controlChange 0 65 127), 48), evOn 48 62 90, evOff 96 64] 24 96 (.fin (1 / 5))).toOption.get!, by decide +kernel, by decide +kernel⟩

/-- What is heard of a converted song, if what is heard has the timing it should have. -/
theorem channels_on_time (m : MidiHandler) (f : F32) (s : Song) (hst : StandsFor m f s) (hr : InRange s)
    (G : Nat) (h24 : 24 ∣ m.ticksPerBeat) (hp : 0 < m.ticksPerBeat) (hp2 : m.ticksPerBeat < 65536) (hG : G + 3525 ≤ exactTicks m.ticksPerBeat)
    (hG2 : 24 * (G + 1) ≤ 32511 * m.ticksPerBeat) (hT : m.maxTime < 2 ^ 31)
    (hv : ∀ v, voiceOk m.ticksPerBeat G m.maxTime 0 0 none (m.voices v) = true)
    (hpr : ∀ v, programsBetweenNotes false (m.voices v) = true) (hm : ∀ v, endsMatch none (m.voices v) = true)
    (part : List Nat) (evs : List (Option (List Ev))) (h1 : s.parts[0]? = some part) (h3 : timingOf evs = timingOf (partSound s part)) :
    ∃ vs : List (Fin 8), vs.Pairwise (· < ·) ∧ (∀ v, v ∉ vs → midiNotes none (m.voices v) = []) ∧ evs.length = 8 ∧
      ∀ i < 8, match vs[i]? with
        | some v => ∃ l, evs[i]? = some (some l) ∧ List.Forall₂ (OnTime m.ticksPerBeat) (heardPitches 0 none l) (midiNotes none (m.voices v)) ∧
            |(heardTime l : ℚ) - 24 * m.maxTime / m.ticksPerBeat| < 1
        | none => evs[i]? = some none := by
  obtain ⟨vs, g1, g2, g3, g4⟩ := stands_channels m f s hst hr
  have hpart : part = List.range vs.length := by rw [g3] at h1; simpa using h1.symm
  subst hpart
  refine ⟨vs, g1, ?_, by have := congrArg List.length h3; simpa [timingOf, partSound] using this, ?_⟩
  · intro v hvn
    obtain ⟨cs, e1, e2⟩ := C12_portamento_24_partial (m.voices v) _ G m.maxTime f h24 hp hp2 hG hG2 hT (hv v) (hpr v) (hm v)
    rw [g2 v hvn] at e1
    injection e1 with e1
    subst e1
    exact List.forall₂_nil_left_iff.mp e2
  · intro i hi
    have := g4 i hi
    cases hvi : vs[i]? with
    | none =>
      rw [hvi] at this
      exact (timingOf_get h3 i).1 this
    | some v =>
      rw [hvi] at this
      obtain ⟨cs, l, e1, e0, e2, -, e4, e3, -⟩ := this
      obtain ⟨l', k1, -, k3, k2, -⟩ := (timingOf_get h3 i).2 l e2
      obtain ⟨cs', e1', e2'⟩ := C12_portamento_24_partial (m.voices v) _ G m.maxTime f h24 hp hp2 hG hG2 hT (hv v) (hpr v) (hm v)
      rw [e1] at e1'
      injection e1' with e1'
      subst e1'
      refine ⟨l', k1, ?_, ?_⟩
      · rw [k2, e3]; exact e2'
      · obtain ⟨cs'', f1, f2⟩ := C14_end_together_partial (m.voices v) _ G m.maxTime f hp hp2 h24 hG hG2 hT (hv v) (hpr v)
        rw [e1] at f1
        injection f1 with f1
        subst f1
        rw [k3, e4]
        exact f2 e0

/-- **C56 (one bank) with portamento, partial** (missing: what is missing in C12, C33 and C54, all false of the code there): like `C56_notes_on_time_partial`, with notes reached by pitch slides. -/
theorem C56_portamento_partial {Path : Type} (conv : Converter Path) (verbose : Bool) (j : Job Path) (fs : Nat) (rom r : Rom)
    (hj : j.Ready conv (ofRom rom) fs) (hc : j.bank.Clean) (h : writeBank conv verbose j.songs rom j.base j.first fs = .ok r) (a0 : Mem) (regs : Regs)
    (k : Nat) (d : SongDef Path) (s : Song) (hk : j.songs[k]? = some d) (hs : loadSong conv d = .ok s)
    (m : MidiHandler) (f : F32) (opt : Bool) (hsong : songFromMidi m f opt = .ok s) (hr : InRange s)
    (hcount : ∀ tr ∈ s.tracks, ∀ c ∈ tr, ∀ t n, c.command = .callLoop t n → n.toNat ≤ 2)
    (G : Nat) (h24 : 24 ∣ m.ticksPerBeat) (hp : 0 < m.ticksPerBeat) (hp2 : m.ticksPerBeat < 65536) (hG : G + 3525 ≤ exactTicks m.ticksPerBeat)
    (hG2 : 24 * (G + 1) ≤ 32511 * m.ticksPerBeat) (hT : m.maxTime < 2 ^ 31)
    (hv : ∀ v, voiceOk m.ticksPerBeat G m.maxTime 0 0 none (m.voices v) = true)
    (hpr : ∀ v, programsBetweenNotes false (m.voices v) = true) (hm : ∀ v, endsMatch none (m.voices v) = true) :
    ∃ (vs : List (Fin 8)) (fuel : Nat) (evs : List (Option (List Ev))) (T : Nat), vs.Pairwise (· < ·) ∧ (∀ v, v ∉ vs → midiNotes none (m.voices v) = []) ∧ evs.length = 8 ∧
      (∀ n, playSong (upload (ofRom r) j.bank.chunks a0) (fuel + n) regs (fs + k) = some (evs, T, if d.loops then .goto 0xff T else .stop)) ∧
      ∀ i < 8, match vs[i]? with
        | some v => ∃ l, evs[i]? = some (some l) ∧ List.Forall₂ (OnTime m.ticksPerBeat) (heardPitches 0 none l) (midiNotes none (m.voices v)) ∧
            |(heardTime l : ℚ) - 24 * m.maxTime / m.ticksPerBeat| < 1
        | none => evs[i]? = some none := by
  have hP := C55_playable m f opt s hsong hr
  obtain ⟨part, fuel, evs, T, h1, h2, h3, -⟩ := C54_bank_partial conv verbose j fs rom r hj hc h a0 regs k d s hk hs hP
  obtain ⟨vs, g1, g2, g3, g4⟩ := channels_on_time m f s (song_standsFor m f opt s hsong hcount) hr G h24 hp hp2 hG hG2 hT hv hpr hm part evs h1 h3
  exact ⟨vs, fuel, evs, T, g1, g2, g3, h2, g4⟩

/-- The example of `C56_notes_on_time_partial` meets the condition on note numbers too. -/
example : ∀ v, endsMatch none (tuneMidi.voices v) = true := by decide +kernel

end M2S
