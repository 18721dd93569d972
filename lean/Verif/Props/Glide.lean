import Verif.Proofs.Glide
import Verif.Props.FileToSound
/-
Portamento: which notes are glided to, and when the pitch moves (C85).
-/
namespace M2S
open MidiSpec RomSpec Nspc Engine Timing

/-! ## C85 -/

theorem leads_midiNotes (evs : List (Message × Nat)) : ∀ s : Port, (leads s evs).map (·.1) = midiNotes (s.held.map fun o => (o.1, o.2.1)) evs := by
  induction evs with
  | nil => intro s; rfl
  | cons ev evs ih =>
    intro s
    obtain ⟨m, t⟩ := ev
    have hcut : (s.cut.held.map fun o => (o.1, o.2.1)) = s.held.map fun o => (o.1, o.2.1) := by
      unfold Port.cut; cases s.held <;> rfl
    rcases m with ⟨dl, e, data⟩ | ⟨dl, e⟩ | ⟨dl, data⟩ | _
    · cases e <;> cases hh : s.held <;> simp only [leads, ih, hcut, hh, midiNotes, Option.map_none, Option.map_some]
    · cases e with
      | noteOn ch n v => cases hh : s.held <;> simp [leads, ih, hh, midiNotes]
      | noteOff ch n v => cases hh : s.held <;> simp [leads, ih, hh, midiNotes]
      | controlChange ch c d =>
        have : midiNotes (s.held.map fun o => (o.1, o.2.1)) ((.midiEvent dl (.controlChange ch c d), t) :: evs) = midiNotes (s.held.map fun o => (o.1, o.2.1)) evs := by
          cases s.held <;> rfl
        rw [this]
        simp only [leads]
        split_ifs <;> simp only [ih, hcut]
      | _ => cases hh : s.held <;> simp only [leads, ih, hcut, hh, midiNotes, Option.map_none, Option.map_some]
    · cases hh : s.held <;> simp only [leads, ih, hh, midiNotes, Option.map_none, Option.map_some]
    · cases hh : s.held <;> simp only [leads, ih, hh, midiNotes, Option.map_none, Option.map_some]

/-- The notes with leads are the notes. -/
theorem C85_notes (evs : List (Message × Nat)) : (leads {} evs).map (·.1) = midiNotes none evs := leads_midiNotes evs {}

/-- A heard note against a MIDI note and its lead. -/
def Glided (tpb : Nat) (o : Nat × UInt8 × Option Glide) (n : MidiNote × Option Lead) : Prop := OnTime tpb (o.1, o.2.1) n.1 ∧ Led tpb o.2.2 n

theorem forall₂_split {α β γ δ ε : Type} {R : γ → δ → Prop} {S : ε → β → Prop} (f : α → γ) (g : β → δ) (e : α → ε) : ∀ {a : List α} {b : List β},
    List.Forall₂ R (a.map f) (b.map g) → List.Forall₂ S (a.map e) b → List.Forall₂ (fun x y => R (f x) (g y) ∧ S (e x) y) a b := by
  intro a
  induction a with
  | nil => intro b h1 h2; cases h2; exact .nil
  | cons x a ih =>
    intro b h1 h2
    cases b with
    | nil => cases h2
    | cons y b =>
      simp only [List.map_cons, List.forall₂_cons] at h1 h2
      exact .cons ⟨h1.1, h2.1⟩ (ih h1.2 h2.2)

/-- What is heard of a converted song, if what is heard has the timing it should have. -/
theorem channels_glided (m : MidiHandler) (f : F32) (opt : Bool) (s : Song) (hsong : songFromMidi m f opt = .ok s) (hr : InRange s)
    (hcount : ∀ tr ∈ s.tracks, ∀ c ∈ tr, ∀ t n, c.command = .callLoop t n → n.toNat ≤ 2)
    (G : Nat) (h24 : 24 ∣ m.ticksPerBeat) (hp : 0 < m.ticksPerBeat) (hp2 : m.ticksPerBeat < 65536) (hG : G + 3525 ≤ exactTicks m.ticksPerBeat)
    (hG2 : 24 * (G + 1) ≤ 32511 * m.ticksPerBeat) (hT : m.maxTime < 2 ^ 31)
    (hv : ∀ v, voiceOk m.ticksPerBeat G m.maxTime 0 0 none (m.voices v) = true)
    (hpr : ∀ v, programsBetweenNotes false (m.voices v) = true) (hm : ∀ v, endsMatch none (m.voices v) = true)
    (part : List Nat) (evs : List (Option (List Ev))) (h1 : s.parts[0]? = some part) (h3 : timingOf evs = timingOf (partSound s part)) :
    ∃ vs : List (Fin 8), vs.Pairwise (· < ·) ∧ (∀ v, v ∉ vs → midiNotes none (m.voices v) = []) ∧ evs.length = 8 ∧
      ∀ i < 8, match vs[i]? with
        | some v => ∃ l, evs[i]? = some (some l) ∧ List.Forall₂ (Glided m.ticksPerBeat) (slurs 0 0 none l) (leads {} (m.voices v))
        | none => evs[i]? = some none := by
  obtain ⟨vs, g1, g2, g3, g4⟩ := song_channels m f opt s hsong hr hcount
  have hpart : part = List.range vs.length := by rw [g3] at h1; simpa using h1.symm
  subst hpart
  refine ⟨vs, g1, ?_, by have := congrArg List.length h3; simpa [timingOf, partSound] using this, ?_⟩
  · intro v hvn
    obtain ⟨cs, e1, e2⟩ := C12_portamento_24_partial (m.voices v) _ G m.maxTime f h24 hp hp2 hG hG2 hT (hv v) (hpr v) (hm v)
    rw [g2 v hvn] at e1
    injection e1 with e1
    subst e1
    exact List.forall₂_nil_left_iff.mp e2
  · intro i hi
    have := g4 i hi
    cases hvi : vs[i]? with
    | none =>
      rw [hvi] at this
      exact (timingOf_get h3 i).1 this
    | some v =>
      rw [hvi] at this
      obtain ⟨cs, l, e1, e0, e2, -, -, e3, e5, e6, e7⟩ := this
      obtain ⟨l', k1, -, -, k2, k3⟩ := (timingOf_get h3 i).2 l e2
      obtain ⟨cs', e1', e2'⟩ := C12_portamento_24_partial (m.voices v) _ G m.maxTime f h24 hp hp2 hG hG2 hT (hv v) (hpr v) (hm v)
      rw [e1] at e1'
      injection e1' with e1'
      subst e1'
      refine ⟨l', k1, ?_⟩
      have hsl : slurs 0 0 none l' = slurs 0 0 none (intended noAddr cs 0 13 7) := by
        rw [← slurs_timing, k3, slurs_timing, e5, slurs_preamble]
      have hled := trackNew_glides (m.voices v) m.ticksPerBeat G m.maxTime f hp hp2 h24 hG hT (hv v) cs e1
      rw [← Option.map_none (f := fun x : UInt8 × Glide => x.2), ← slurs_intended noAddr cs e6 e7 0 0 none 0 13 7, ← hsl] at hled
      refine forall₂_split (R := OnTime m.ticksPerBeat) (S := Led m.ticksPerBeat) (fun x : Nat × UInt8 × Option Glide => (x.1, x.2.1)) (fun x : MidiNote × Option Lead => x.1) (fun x : Nat × UInt8 × Option Glide => x.2.2) ?_ hled
      rw [slurs_pitches, C85_notes, Option.map_none, k2, e3]
      exact e2'

/-- **C85 (one bank), partial** (missing: what is missing in C56; the wish that every note with portamento after another is glided to, when it begins and in the portamento time, is false of the code, see below). -/
theorem C85_bank_partial {Path : Type} (conv : Converter Path) (verbose : Bool) (j : Job Path) (fs : Nat) (rom r : Rom)
    (hj : j.Ready conv (ofRom rom) fs) (hc : j.bank.Clean) (h : writeBank conv verbose j.songs rom j.base j.first fs = .ok r) (a0 : Mem) (regs : Regs)
    (k : Nat) (d : SongDef Path) (s : Song) (hk : j.songs[k]? = some d) (hs : loadSong conv d = .ok s)
    (m : MidiHandler) (f : F32) (opt : Bool) (hsong : songFromMidi m f opt = .ok s) (hr : InRange s)
    (hcount : ∀ tr ∈ s.tracks, ∀ c ∈ tr, ∀ t n, c.command = .callLoop t n → n.toNat ≤ 2)
    (G : Nat) (h24 : 24 ∣ m.ticksPerBeat) (hp : 0 < m.ticksPerBeat) (hp2 : m.ticksPerBeat < 65536) (hG : G + 3525 ≤ exactTicks m.ticksPerBeat)
    (hG2 : 24 * (G + 1) ≤ 32511 * m.ticksPerBeat) (hT : m.maxTime < 2 ^ 31)
    (hv : ∀ v, voiceOk m.ticksPerBeat G m.maxTime 0 0 none (m.voices v) = true)
    (hpr : ∀ v, programsBetweenNotes false (m.voices v) = true) (hm : ∀ v, endsMatch none (m.voices v) = true) :
    ∃ (vs : List (Fin 8)) (fuel : Nat) (evs : List (Option (List Ev))) (T : Nat), vs.Pairwise (· < ·) ∧ (∀ v, v ∉ vs → midiNotes none (m.voices v) = []) ∧ evs.length = 8 ∧
      (∀ n, playSong (upload (ofRom r) j.bank.chunks a0) (fuel + n) regs (fs + k) = some (evs, T, if d.loops then .goto 0xff T else .stop)) ∧
      ∀ i < 8, match vs[i]? with
        | some v => ∃ l, evs[i]? = some (some l) ∧ List.Forall₂ (Glided m.ticksPerBeat) (slurs 0 0 none l) (leads {} (m.voices v))
        | none => evs[i]? = some none := by
  have hP := C55_playable m f opt s hsong hr
  obtain ⟨part, fuel, evs, T, h1, h2, h3, -⟩ := C54_bank_partial conv verbose j fs rom r hj hc h a0 regs k d s hk hs hP
  obtain ⟨vs, g1, g2, g3, g4⟩ := channels_glided m f opt s hsong hr hcount G h24 hp hp2 hG hG2 hT hv hpr hm part evs h1 h3
  exact ⟨vs, fuel, evs, T, g1, g2, g3, h2, g4⟩

/-- **C85 (files), partial** (missing as in `C85_bank_partial` and `C64_file_to_sound_partial`): for a tidy file. -/
theorem C85_file_partial {Path : Type} (ord : EnumOrder) (ho : ∀ l, (ord l).Perm l) (calls : List Callback) (m : MidiHandler) (hread : readMidi ord calls = .ok m)
    (hsane : Sane m.ticksPerBeat (file calls)) (htidy : Tidy (file calls))
    (h24 : 24 ∣ m.ticksPerBeat) (hp : 0 < m.ticksPerBeat) (hp2 : m.ticksPerBeat < 65536)
    (hG : m.maxTime + 3525 ≤ exactTicks m.ticksPerBeat) (hG2 : 24 * (m.maxTime + 1) ≤ 32511 * m.ticksPerBeat)
    (f : F32) (opt : Bool) (s : Song) (hsong : songFromMidi m f opt = .ok s)
    (hcount : ∀ tr ∈ s.tracks, ∀ c ∈ tr, ∀ t n, c.command = .callLoop t n → n.toNat ≤ 2)
    (hd : ∀ tr ∈ s.tracks, ∀ c ∈ tr, c.command.isNote = true → ∀ d ∈ c.duration, d < 0x80)
    (conv : Converter Path) (verbose : Bool) (j : Job Path) (fs : Nat) (rom r : Rom)
    (hj : j.Ready conv (ofRom rom) fs) (hc : j.bank.Clean) (h : writeBank conv verbose j.songs rom j.base j.first fs = .ok r) (a0 : Mem) (regs : Regs)
    (k : Nat) (d : SongDef Path) (hk : j.songs[k]? = some d) (hs : loadSong conv d = .ok s) :
    ∃ (vs : List (Fin 8)) (fuel : Nat) (evs : List (Option (List Ev))) (T : Nat), vs.Pairwise (· < ·) ∧ (∀ v, v ∉ vs → midiNotes none (m.voices v) = []) ∧ evs.length = 8 ∧
      (∀ n, playSong (upload (ofRom r) j.bank.chunks a0) (fuel + n) regs (fs + k) = some (evs, T, if d.loops then .goto 0xff T else .stop)) ∧
      ∀ i < 8, match vs[i]? with
        | some v => ∃ l, evs[i]? = some (some l) ∧ List.Forall₂ (Glided m.ticksPerBeat) (slurs 0 0 none l) (leads {} (m.voices v))
        | none => evs[i]? = some none := by
  obtain ⟨hr, -, -⟩ := tidy_sound ord ho calls m hread hsane htidy h24 hp hp2 hG hG2 f opt s hsong hcount hd
  have hT : m.maxTime < 2 ^ 31 := by have := exactTicks_le m.ticksPerBeat; omega
  obtain ⟨v1, v2, -, -⟩ := C64_voices ord ho calls m hread hsane htidy
  exact C85_bank_partial conv verbose j fs rom r hj hc h a0 regs k d s hk hs m f opt hsong hr hcount m.maxTime h24 hp hp2 hG hG2 hT (C63_voices ord calls m hread hsane) v1 v2

/-! ### Examples -/

/-- The heard notes of a voice. -/
def voiceSlurs (evs : List (Message × Nat)) (T : Nat) : Option (List (Nat × UInt8 × Option Glide)) :=
  (trackNew evs 24 T (.fin (1 / 5))).toOption.map fun cs => slurs 0 0 none (intended noAddr cs 0 13 7)

/-- The third note is glided to from the end of the second: the pitch moves in the last 6 of its 24 units. The second is not, since there is a rest before it. -/
example : leads {} glideVoice = [(⟨0, 48, 60, 100⟩, none), (⟨72, 96, 62, 90⟩, some ⟨48, 6⟩), (⟨96, 120, 67, 80⟩, some ⟨96, 6⟩)] ∧ ¬ Legato 24 48 72 ∧ Legato 24 96 96 ∧
    voiceSlurs glideVoice 120 = some [(0, 164, none), (72, 166, none), (96, 171, some ⟨24, 18, 6⟩)] := by decide +kernel

/-! A file with portamento, built into a ROM and played. -/

def glideCalls : List Callback :=
  [ .header 1 24, .trackChange, .midiEvent 0 (.controlChange 0 65 127), .midiEvent 0 (.controlChange 0 37 6), .midiEvent 0 (.noteOn 0 60 100), .midiEvent 24 (.noteOff 0 60 0), .midiEvent 0 (.noteOn 0 67 100),
    .midiEvent 36 (.noteOff 0 67 0), .midiEvent 12 (.noteOn 0 64 80), .midiEvent 24 (.noteOff 0 64 0) ]

def glideMidi : MidiHandler := match readMidi id glideCalls with
  | .ok h => h
  | .error _ => {}

theorem glideMidi_read : readMidi id glideCalls = .ok glideMidi := by
  have hok : (readMidi id glideCalls).toOption.isSome = true := by decide +kernel
  unfold glideMidi
  cases h : readMidi id glideCalls with
  | ok x => rfl
  | error e => rw [h] at hok; cases hok

def glideSong : Song := ⟨[[0]],
  [[⟨some 24, some 12, some 7, .note 164⟩, ⟨none, none, none, .pitchSlide 18 6 171⟩, ⟨some 36, some 12, some 7, .tie⟩, restCmd 12, ⟨some 24, some 10, some 7, .note 168⟩]]⟩

theorem glideSong_of : songFromMidi glideMidi (F32.ofRat (1 / 5)) false = .ok glideSong := by decide +kernel

def glideConv : Converter Nat := fun _ _ => songFromMidi glideMidi (F32.ofRat (1 / 5)) false

def glideEncoded : Encoded := ⟨true, [0], [⟨[250, 25, 229, 200, 237, 200, 24, 124, 164, 249, 18, 6, 171, 36, 200, 12, 201, 24, 122, 168, 0], []⟩]⟩

def glideJob : Job Nat := ⟨[slot (some 0) true, slot none false], 0, 0xd006, bankAt 12 62 30, [glideEncoded, emptyEncoded false]⟩

theorem glideEncoded_of : EncodedOf glideConv (slot (some 0) true) glideEncoded :=
  ⟨glideSong, glideSong_of, rfl, by rfl, .cons (by decide) .nil⟩

theorem glideJob_ready : glideJob.Ready glideConv (ofRom (oneRom 62 30)) 0 where
  addr := by decide
  bank := ⟨by decide, .cons (by decide) (.cons (by decide) (.cons (by decide) (.cons (by decide) (.nil _)))), by decide, by decide, rfl, by decide⟩
  songs := .cons glideEncoded_of (.cons (emptyEncoded_of _ _) .nil)
  fits := ⟨by decide, by decide, by decide, by decide, by decide⟩

theorem glideMidi_facts : glideMidi.ticksPerBeat = 24 ∧ glideMidi.maxTime = 96 ∧ leads {} (glideMidi.voices 0) =
    [(⟨0, 24, 60, 100⟩, none), (⟨24, 60, 67, 100⟩, some ⟨24, 6⟩), (⟨72, 96, 64, 80⟩, some ⟨60, 6⟩)] := by decide +kernel

/-- All hypotheses of C85 for the file. -/
example : readMidi id glideCalls = .ok glideMidi ∧ Sane 24 (file glideCalls) ∧ Tidy (file glideCalls) ∧ songFromMidi glideMidi (F32.ofRat (1 / 5)) false = .ok glideSong ∧
    glideJob.Ready glideConv (ofRom (oneRom 62 30)) 0 ∧ glideJob.bank.Clean ∧
    (∃ r, writeBank glideConv false glideJob.songs (oneRom 62 30) glideJob.base glideJob.first 0 = .ok r) ∧
    (∃ d, glideJob.songs[0]? = some d ∧ loadSong glideConv d = .ok glideSong) ∧
    (∀ tr ∈ glideSong.tracks, ∀ c ∈ tr, ∀ t n, c.command = .callLoop t n → n.toNat ≤ 2) ∧
    (∀ tr ∈ glideSong.tracks, ∀ c ∈ tr, c.command.isNote = true → ∀ d ∈ c.duration, d < 0x80) ∧
    24 ∣ glideMidi.ticksPerBeat ∧ 0 < glideMidi.ticksPerBeat ∧ glideMidi.maxTime + 3525 ≤ exactTicks glideMidi.ticksPerBeat ∧
    24 * (glideMidi.maxTime + 1) ≤ 32511 * glideMidi.ticksPerBeat := by
  obtain ⟨h1, h2, -⟩ := glideMidi_facts
  rw [h1, h2]
  refine ⟨glideMidi_read, ⟨by decide +kernel, by decide +kernel, by decide +kernel⟩, ⟨by decide +kernel, by decide +kernel, by decide +kernel, by decide +kernel, by decide +kernel⟩, glideSong_of,
    glideJob_ready, ⟨by decide, by decide, by decide, by decide, by decide⟩, ?_, ⟨_, rfl, glideSong_of⟩, ?_, by decide, by decide, by decide, by decide +kernel, by decide⟩
  · exact C44_fits_ok glideConv false glideJob 0 (oneRom 62 30) glideJob_ready (by decide) (by decide +kernel) (by decide +kernel)
  · intro tr htr c hc t n hcc
    simp only [glideSong, List.mem_cons, List.not_mem_nil, or_false] at htr
    subst htr
    simp only [List.mem_cons, List.not_mem_nil, or_false] at hc
    rcases hc with rfl | rfl | rfl | rfl | rfl <;> cases hcc

/-- What is heard: the second note is glided to in the last 6 units of the first, the third is struck after a rest. -/
example : (partSound glideSong [0])[0]?.join.map (slurs 0 0 none) = some [(0, 164, none), (24, 171, some ⟨24, 18, 6⟩), (72, 168, none)] := by decide

/-! ### What is not so -/

/-- Two notes with portamento of six units, one right after the other. -/
def pairVoice (between during : List (Message × Nat)) : List (Message × Nat) :=
  [(.midiEvent 0 (.controlChange 0 65 127), 0), (.midiEvent 0 (.controlChange 0 37 6), 0), evOn 0 60 100, evOff 24 60] ++ between ++ [evOn 24 62 100] ++ during ++ [evOff 48 62]

example : voiceSlurs (pairVoice [] []) 48 = some [(0, 164, none), (24, 166, some ⟨24, 18, 6⟩)] := by decide +kernel

/-- The slide is over when the note begins. -/
theorem C85_early_false : voiceOk 24 1000 48 0 0 none (pairVoice [] []) = true ∧ ∃ g, voiceSlurs (pairVoice [] []) 48 = some [(0, 164, none), (24, 166, some g)] ∧ g.delay + g.time = g.piece :=
  ⟨by decide, ⟨24, 18, 6⟩, by decide +kernel, rfl⟩

/-- A volume message between the notes, or during the second, and the note is struck. -/
theorem C85_volume_false : voiceSlurs (pairVoice [(.midiEvent 0 (.controlChange 0 7 100), 24)] []) 48 = some [(0, 164, none), (24, 166, none)] ∧
    voiceSlurs (pairVoice [] [(.midiEvent 0 (.controlChange 0 7 100), 36)]) 48 = some [(0, 164, none), (24, 166, none)] := by decide +kernel

/-- A portamento time of 256 ticks (256 units) becomes a slide of 2 units. -/
theorem C85_long_false : voiceSlurs (pairVoice [(.midiEvent 0 (.controlChange 0 37 0), 24), (.midiEvent 0 (.controlChange 0 5 1), 24)] []) 48 = some [(0, 164, none), (24, 166, some ⟨24, 22, 2⟩)] := by decide +kernel

end M2S
