import Verif.Proofs.Tones
import Verif.Props.Sound
/-
Property C71: notes last as long as in the file.
-/
namespace M2S
open MidiSpec Timing RomSpec Nspc Engine

/-- A heard tone against a sound asked for with its end (in ticks): the sounds are near as in C68, and the tone's pieces reach the end, rounded up to units. If `exact`, the sustain stands for that end. -/
def ToneNear (tpb : Nat) (loud steady exact : Prop) (x : Tone) (n : Sound × Option Nat) : Prop :=
  SoundNear tpb loud steady x.sound n.1 ∧ ∃ off, n.2 = some off ∧ EndsAt tpb exact x off

/-- All that is heard in the channels, with lengths. -/
def tonesIn (evs : List (Option (List Ev))) : List Tone := evs.flatMap fun c => match c with
  | some l => heardTones l
  | none => []

theorem tonesIn_sounds (evs : List (Option (List Ev))) : (tonesIn evs).map Tone.sound = soundsIn evs := by
  unfold tonesIn soundsIn
  rw [List.map_flatMap]
  congr 1
  funext c
  cases c with
  | none => rfl
  | some l => exact heardTones_sounds l

theorem starts_sound (m : TMsg) (s : Settings) (h : starts m.1 = true) : (soundOf s m).isSome = true := by
  obtain ⟨m, t⟩ := m
  rcases m with ⟨dl, e, data⟩ | ⟨dl, e⟩ | ⟨dl, data⟩ | _ <;> try cases h
  cases e with
  | noteOn ch n v =>
    have : v ≠ 0 := by rintro rfl; cases h
    simp [soundOf, this]
  | _ => cases h

theorem plain_sound (m : TMsg) (s : Settings) (h : starts m.1 = false) : soundOf s m = none := by
  obtain ⟨m, t⟩ := m
  rcases m with ⟨dl, e, data⟩ | ⟨dl, e⟩ | ⟨dl, data⟩ | _ <;> try rfl
  cases e with
  | noteOn ch n v =>
    have : v = 0 := by simpa [starts] using h
    simp [soundOf, this]
  | _ => rfl

/-- What a voice asks for, with the ends. -/
def voiceTones (set : TMsg → Settings) (evs : List TMsg) : List (Sound × Option Nat) := (pairs evs).filterMap fun p => (soundOf (set p.1) p.1).map fun x => (x, p.2)

theorem voiceTones_cons (set : TMsg → Settings) (m : TMsg) (l : List TMsg) :
    voiceTones set (m :: l) = (((soundOf (set m) m).map fun x => (x, l.findSome? fun b => if ends b.1 then some b.2 else none))).toList ++ voiceTones set l := by
  unfold voiceTones
  rw [pairs, List.filterMap_append]
  congr 1
  by_cases h : starts m.1 = true
  · obtain ⟨x, hx⟩ := Option.isSome_iff_exists.1 (starts_sound m (set m) h)
    rw [if_pos h]
    simp [hx]
  · rw [if_neg h, plain_sound m (set m) (by simpa using h)]
    rfl

theorem voiceTones_sounds (set : TMsg → Settings) (evs : List TMsg) : (voiceTones set evs).map (·.1) = evs.filterMap fun m => soundOf (set m) m := by
  induction evs with
  | nil => rfl
  | cons m l ih =>
    rw [voiceTones_cons, List.map_append, ih, List.filterMap_cons]
    cases soundOf (set m) m <;> rfl

theorem voiceTones_ends (set : TMsg → Settings) (evs : List TMsg) :
    (evs.foldlM tidyStep none = some none → (voiceTones set evs).map (·.2) = (midiNotes none evs).map fun n => some n.off) ∧
    ∀ x on vel, evs.foldlM tidyStep (some x) = some none →
      (evs.findSome? fun b => if ends b.1 then some b.2 else none) :: (voiceTones set evs).map (·.2) = (midiNotes (some (on, vel)) evs).map fun n => some n.off := by
  induction evs with
  | nil => exact ⟨fun _ => rfl, fun x on vel h => by cases h⟩
  | cons m evs ih =>
    obtain ⟨m, t⟩ := m
    obtain ⟨ih1, ih2⟩ := ih
    have idle : noteOf m = none → (∀ o, midiNotes o ((m, t) :: evs) = midiNotes o evs) → voiceTones set ((m, t) :: evs) = voiceTones set evs ∧
        (((m, t) :: evs).findSome? fun b => if ends b.1 then some b.2 else none) = (evs.findSome? fun b => if ends b.1 then some b.2 else none) := by
      intro hm _
      have hs : starts m = false := by
        unfold starts
        split
        · cases hm
        · rfl
      have he : ends m = false := by
        unfold ends
        split
        · cases hm
        · cases hm
        · rfl
      constructor
      · rw [voiceTones_cons, plain_sound (m, t) _ hs]; rfl
      · simp [he]
    have quiet : noteOf m = none → (∀ o, midiNotes o ((m, t) :: evs) = midiNotes o evs) → (∀ s s', tidyStep s (m, t) = some s' → s' = s) →
        (((m, t) :: evs).foldlM tidyStep none = some none → (voiceTones set ((m, t) :: evs)).map (·.2) = (midiNotes none ((m, t) :: evs)).map fun n => some n.off) ∧
        ∀ x on vel, ((m, t) :: evs).foldlM tidyStep (some x) = some none →
          (((m, t) :: evs).findSome? fun b => if ends b.1 then some b.2 else none) :: (voiceTones set ((m, t) :: evs)).map (·.2) =
            (midiNotes (some (on, vel)) ((m, t) :: evs)).map fun n => some n.off := by
      intro h1 h2 h3
      obtain ⟨i1, i2⟩ := idle h1 h2
      rw [i1, i2]
      constructor
      · intro h
        rw [List.foldlM_cons, Option.bind_eq_bind, Option.bind_eq_some_iff] at h
        obtain ⟨s', hs, h⟩ := h
        rw [h3 _ _ hs] at h
        rw [h2]
        exact ih1 h
      · intro x on vel h
        rw [List.foldlM_cons, Option.bind_eq_bind, Option.bind_eq_some_iff] at h
        obtain ⟨s', hs, h⟩ := h
        rw [h3 _ _ hs] at h
        rw [h2]
        exact ih2 x on vel h
    rcases m with ⟨dl, e, data⟩ | ⟨dl, e⟩ | ⟨dl, data⟩ | _
    · exact quiet rfl (fun o => by cases o <;> rfl) (fun s s' h => by simpa [tidyStep] using h.symm)
    · rcases e with ⟨ch, n, v⟩ | ⟨ch, n, v⟩ | ⟨ch, n, v⟩ | ⟨ch, c, d⟩ | ⟨ch, pr⟩ | ⟨ch, pr⟩ | ⟨ch, x⟩ | ⟨ch⟩
      · have e1 : voiceTones set ((.midiEvent dl (.noteOff ch n v), t) :: evs) = voiceTones set evs := by
          rw [voiceTones_cons]; rfl
        rw [e1]
        constructor
        · intro h
          simp [List.foldlM_cons, tidyStep] at h
        · intro x on vel h
          rw [List.foldlM_cons, Option.bind_eq_bind, Option.bind_eq_some_iff] at h
          obtain ⟨s', hs, h⟩ := h
          simp only [tidyStep] at hs
          split_ifs at hs
          cases hs
          rw [midiNotes, List.map_cons, ← ih1 h]
          rfl
      · by_cases hv : v = 0
        · subst hv
          constructor
          · intro h
            simp [List.foldlM_cons, tidyStep] at h
          · intro x on vel h
            simp [List.foldlM_cons, tidyStep] at h
        · constructor
          · intro h
            rw [List.foldlM_cons, Option.bind_eq_bind, Option.bind_eq_some_iff] at h
            obtain ⟨s', hs, h⟩ := h
            simp only [tidyStep, if_neg hv, Option.some.injEq] at hs
            subst hs
            rw [midiNotes, voiceTones_cons]
            have := ih2 n t v h
            simp only [Option.none_or]
            rw [← this]
            simp [soundOf, hv]
          · intro x on vel h
            simp [List.foldlM_cons, tidyStep, hv] at h
      all_goals first
        | exact quiet rfl (fun o => by cases o <;> rfl) (fun s s' h => by simpa [tidyStep] using h.symm)
        | exact quiet rfl (fun o => by cases o <;> rfl) (fun s s' h => by
            simp only [tidyStep] at h
            split_ifs at h with hs
            rw [hs]
            simpa using h.symm)
    all_goals exact quiet rfl (fun o => by cases o <;> rfl) (fun s s' h => by simpa [tidyStep] using h.symm)

/-- The tones of the voices are those of the file. -/
theorem C71_voices (ord : EnumOrder) (calls : List Callback) (h : MidiHandler) (hr : readMidi ord calls = .ok h) (hs : Sane h.ticksPerBeat (file calls)) (set : TMsg → Settings) :
    ((List.finRange 8).flatMap fun v => voiceTones set (h.voices v)).Perm (fileTones set (file calls)) := by
  have e : ((List.finRange 8).flatMap fun v => voiceTones set (h.voices v)) =
      ((List.finRange 8).flatMap fun v => pairs (h.voices v)).filterMap fun p => (soundOf (set p.1) p.1).map fun x => (x, p.2) := by
    rw [List.filterMap_flatMap]; rfl
  rw [e]
  refine ((pairs_perm ord calls h hr hs).filterMap _).trans (.of_eq ?_)
  rw [List.filterMap_map, List.filterMap_filter]
  unfold fileTones
  apply List.filterMap_congr
  intro m _
  by_cases hm : starts m.1 = true
  · simp [hm]
  · have : starts (drum m.1) = false := by
      obtain ⟨m, t⟩ := m
      rcases m with ⟨dl, e, data⟩ | ⟨dl, e⟩ | ⟨dl, data⟩ | _ <;> try rfl
      cases e with
      | noteOn ch n v =>
        have : v = 0 := by simpa [starts] using hm
        simp [drum, starts, this]
      | _ => rfl
    rw [plain_sound (drum m.1, m.2) _ this]
    simp [hm]

theorem forall₂_pair {α β γ : Type} {R : α → β → Prop} {S : α → γ → Prop} : ∀ {a : List α} {l : List (β × γ)}, List.Forall₂ R a (l.map (·.1)) → List.Forall₂ S a (l.map (·.2)) →
    List.Forall₂ (fun x n => R x n.1 ∧ S x n.2) a l := by
  intro a
  induction a with
  | nil => intro l h1 _; cases l with | nil => exact .nil | cons => cases h1
  | cons x a ih =>
    intro l h1 h2
    cases l with
    | nil => cases h1
    | cons y l =>
      cases h1 with
      | cons k1 h1 => cases h2 with | cons k2 h2 => exact .cons ⟨k1, k2⟩ (ih h1 h2)

/-- The conversion of a tidy file, with the lengths of the notes. -/
theorem tidy_tones (ord : EnumOrder) (ho : ∀ l, (ord l).Perm l) (calls : List Callback) (m : MidiHandler) (hread : readMidi ord calls = .ok m)
    (hsane : Sane m.ticksPerBeat (file calls)) (htidy : Tidy (file calls)) (hslide : ∀ x ∈ file calls, noSlides x.1 = true)
    (h24 : 24 ∣ m.ticksPerBeat) (hp : 0 < m.ticksPerBeat) (hp2 : m.ticksPerBeat < 65536)
    (hG : m.maxTime + 3525 ≤ exactTicks m.ticksPerBeat) (hG2 : 24 * (m.maxTime + 1) ≤ 32511 * m.ticksPerBeat)
    (f : F32) (opt : Bool) (s : Song) (hsong : songFromMidi m f opt = .ok s)
    (hcount : ∀ tr ∈ s.tracks, ∀ c ∈ tr, ∀ t n, c.command = .callLoop t n → n.toNat ≤ 2)
    (hd : ∀ tr ∈ s.tracks, ∀ c ∈ tr, c.command.isNote = true → ∀ d ∈ c.duration, d < 0x80)
    (set : TMsg → Settings) (steady : Prop) (hsteady : steady → ∀ v, settingsBetweenNotes false (m.voices v) = true)
    (hset : ∀ v a x t b, m.voices v = a ++ (x, t) :: b → starts x = true → (lastProgram a).map instrumentOfProgram = (set (x, t)).1 ∧ (steady → volumeAfter a = (set (x, t)).2))
    (part : List Nat) (evs : List (Option (List Ev))) (h1 : s.parts[0]? = some part) (h3 : timingOf evs = timingOf (partSound s part))
    (h4 : (∀ tr ∈ s.tracks, ∀ c ∈ tr, isCall c.command = false) → evs = partSound s part) :
    ∃ heard : List Tone, evs.length = 8 ∧ heard.Perm (tonesIn evs) ∧
      List.Forall₂ (ToneNear m.ticksPerBeat (opt = false ∧ NotesLoud (file calls)) steady (opt = false)) heard (fileTones set (file calls)) := by
  obtain ⟨hr, -, -⟩ := tidy_sound ord ho calls m hread hsane htidy h24 hp hp2 hG hG2 f opt s hsong hcount hd
  obtain ⟨vs, g1, g2, g3, g4⟩ := song_channels m f opt s hsong hr hcount
  have hpart : part = List.range vs.length := by rw [g3] at h1; simpa using h1.symm
  subst hpart
  have hT : m.maxTime < 2 ^ 31 := by have := exactTicks_le m.ticksPerBeat; omega
  have hv := C63_voices ord calls m hread hsane
  obtain ⟨v1, -, -, -⟩ := C64_voices ord ho calls m hread hsane htidy
  have hfold := tidy_fold ord ho calls m hread hsane htidy
  have hno := voices_noSlides ord calls m hread hslide
  have hloud := fun hL => voices_loud ord calls m hread hfold hL
  have hlen : evs.length = 8 := by have := congrArg List.length h3; simpa [timingOf, partSound] using this
  have hvl : vs.length ≤ evs.length := by
    have hnd : vs.Nodup := g1.imp fun h => ne_of_lt h
    have := hnd.length_le_card
    simpa [hlen] using this
  have hall : List.Forall₂ (ToneNear m.ticksPerBeat (opt = false ∧ NotesLoud (file calls)) steady (opt = false)) (tonesIn evs) (vs.flatMap fun v => voiceTones set (m.voices v)) := by
    refine channels_forall _ heardTones _ evs vs hvl ?_
    intro i hi
    have := g4 i (by omega)
    cases hvi : vs[i]? with
    | none => rw [hvi] at this; exact (timingOf_get h3 i).1 this
    | some v =>
      rw [hvi] at this
      obtain ⟨cs, l, e1, -, e2, e3, -, -, e5, -, -⟩ := this
      obtain ⟨l', k1, -, -, -, k2⟩ := (timingOf_get h3 i).2 l e2
      have hin : i < vs.length := by
        by_contra hn
        rw [List.getElem?_eq_none (by omega)] at hvi
        cases hvi
      have hany : (s.parts.any fun p => p.contains i) = true := by rw [g3]; simp [hin]
      have hsame : opt = false → l' = l := by
        rintro rfl
        have := h4 (plain_noCalls m f s hsong)
        rw [this, e2] at k1
        simpa using k1.symm
      have hsounds := near_alike (channel_sounds _ _ m.maxTime _ f h24 hp hp2 hG hG2 hT (hv v) (v1 v) (hno v) (hfold v) cs e1 s.parts i hany l l' e5 e3 k2 (opt = false ∧ NotesLoud (file calls)) steady
          (fun h => ⟨hsame h.1, hloud h.2 v⟩) (fun hst => hsteady hst v))
        (voiceSounds_set steady set (m.voices v) [] fun a x t b hab => hset v a x t b (by simpa using hab))
      have hends := channel_ends _ _ m.maxTime _ f h24 hp hp2 hG hG2 hT (hv v) (v1 v) (hno v) cs e1 _ l l' e5 k2 (opt = false) hsame
      refine ⟨l', k1, forall₂_pair (R := fun (x : Tone) n => SoundNear m.ticksPerBeat (opt = false ∧ NotesLoud (file calls)) steady x.sound n)
        (S := fun x e => ∃ off, e = some off ∧ EndsAt m.ticksPerBeat (opt = false) x off) ?_ ?_⟩
      · rw [voiceTones_sounds]
        rw [← heardTones_sounds, List.forall₂_map_left_iff] at hsounds
        exact hsounds
      · rw [(voiceTones_ends set (m.voices v)).1 (hfold v), List.forall₂_map_right_iff]
        rw [List.forall₂_map_right_iff] at hends
        exact hends.imp fun x n h => ⟨n.off, rfl, h⟩
  have hempty : ∀ v, v ∉ vs → voiceTones set (m.voices v) = [] := by
    intro v hvn
    obtain ⟨cs, e1, e2⟩ := C12_notes_on_time_24_partial (m.voices v) _ m.maxTime m.maxTime f h24 hp hp2 hG hG2 hT (hv v) (v1 v) (hno v)
    rw [g2 v hvn] at e1
    injection e1 with e1
    subst e1
    have h0 := List.forall₂_nil_left_iff.mp e2
    have h1 := (voiceTones_ends set (m.voices v)).1 (hfold v)
    rw [h0] at h1
    simpa using h1
  have hperm := (flatMap_voices vs g1 (fun v => voiceTones set (m.voices v)) hempty).trans (C71_voices ord calls m hread hsane set)
  obtain ⟨heard, q1, q2⟩ := List.perm_comp_forall₂ hperm.symm hall.flip
  exact ⟨heard, hlen, q2, q1.flip⟩

/-- **C71 (release).** If sustain `s` lets a note sound for between `s` and `s + 1` eighths of its last piece, as the converter assumes, the note is released less than one unit and an eighth of that piece from
where the file ends it. -/
theorem C71_release (tpb : Nat) (x : Tone) (off : Nat) (h : EndsAt tpb True x off) (gate : Nat → ℚ) (hg : Eighths gate) :
    |release gate x - 24 * off / tpb| < 1 + ((x.stop : ℚ) - x.last) / 8 := by
  obtain ⟨stop, h1, h2, -, -, h5⟩ := h
  obtain ⟨r1, r2, r3, r4⟩ := h5 trivial
  obtain ⟨g1, g2⟩ := hg x.sus.toNat r3
  have hlen : (0 : ℚ) ≤ (x.stop : ℚ) - x.last := by
    have : ((x.last : ℕ) : ℚ) ≤ x.stop := by exact_mod_cast r1.trans r2
    linarith
  have k1 : (x.sus.toNat : ℚ) / 8 * (x.stop - x.last) ≤ gate x.sus.toNat * (x.stop - x.last) := mul_le_mul_of_nonneg_right g1 hlen
  have k2 : gate x.sus.toNat * (x.stop - x.last) ≤ ((x.sus.toNat : ℚ) + 1) / 8 * (x.stop - x.last) := mul_le_mul_of_nonneg_right g2 hlen
  have e1 : ((stop - x.last : ℕ) : ℚ) = stop - x.last := Nat.cast_sub r1
  have e2 : ((x.stop - x.last : ℕ) : ℚ) = x.stop - x.last := Nat.cast_sub (r1.trans r2)
  have hstop : ((stop : ℕ) : ℚ) ≤ x.stop := by exact_mod_cast r2
  unfold release
  rw [abs_lt]
  rcases r4 with r4 | ⟨r4, r5⟩
  · have q : (8 : ℚ) * (stop - x.last) = x.sus.toNat * (x.stop - x.last) := by rw [← e1, ← e2]; exact_mod_cast r4
    constructor <;> linarith
  · have q : (7 : ℚ) * (x.stop - x.last) ≤ 8 * (stop - x.last) := by rw [← e1, ← e2]; exact_mod_cast r5
    have e7 : (x.sus.toNat : ℚ) = 7 := by rw [r4]; rfl
    rw [e7] at k1 k2
    rw [e7] at *
    constructor <;> linarith

/-- **C71, partial** (missing: what is missing in C68; with loop optimisation, the sustains). A tidy file is read and converted; the song is built into a ROM; the bank is uploaded, and the engine plays the song. Then the
tones heard are, in some order, those of the file as in C68; and each lasts as long as the file says: its last piece (the note or its last tie) starts before and stops after the end of the note in the file, rounded up to
units, and without loop optimisation the sustain says, in eighths, how far into the piece that end is. -/
theorem C71_lengths_partial {Path : Type} (ord : EnumOrder) (ho : ∀ l, (ord l).Perm l) (calls : List Callback) (m : MidiHandler) (hread : readMidi ord calls = .ok m)
    (hsane : Sane m.ticksPerBeat (file calls)) (htidy : Tidy (file calls)) (hslide : ∀ x ∈ file calls, noSlides x.1 = true) (hclear : Clear (file calls) m)
    (h24 : 24 ∣ m.ticksPerBeat) (hp : 0 < m.ticksPerBeat) (hp2 : m.ticksPerBeat < 65536)
    (hG : m.maxTime + 3525 ≤ exactTicks m.ticksPerBeat) (hG2 : 24 * (m.maxTime + 1) ≤ 32511 * m.ticksPerBeat)
    (f : F32) (opt : Bool) (s : Song) (hsong : songFromMidi m f opt = .ok s)
    (hcount : ∀ tr ∈ s.tracks, ∀ c ∈ tr, ∀ t n, c.command = .callLoop t n → n.toNat ≤ 2)
    (hd : ∀ tr ∈ s.tracks, ∀ c ∈ tr, c.command.isNote = true → ∀ d ∈ c.duration, d < 0x80)
    (conv : Converter Path) (verbose : Bool) (j : Job Path) (fs : Nat) (rom r : Rom)
    (hj : j.Ready conv (ofRom rom) fs) (hc : j.bank.Clean) (h : writeBank conv verbose j.songs rom j.base j.first fs = .ok r) (a0 : Mem) (regs : Regs)
    (k : Nat) (d : SongDef Path) (hk : j.songs[k]? = some d) (hs : loadSong conv d = .ok s) :
    ∃ (fuel : Nat) (evs : List (Option (List Ev))) (T : Nat) (heard : List Tone), evs.length = 8 ∧
      (∀ n, playSong (upload (ofRom r) j.bank.chunks a0) (fuel + n) regs (fs + k) = some (evs, T, if d.loops then .goto 0xff T else .stop)) ∧
      heard.Perm (tonesIn evs) ∧
      List.Forall₂ (ToneNear m.ticksPerBeat (opt = false ∧ NotesLoud (file calls)) (Steady m) (opt = false)) heard (fileTones (ownSettings m) (file calls)) := by
  obtain ⟨-, hP, -⟩ := tidy_sound ord ho calls m hread hsane htidy h24 hp hp2 hG hG2 f opt s hsong hcount hd
  obtain ⟨part, fuel, evs, T, h1, h2, h3, h4⟩ := C54_bank_partial conv verbose j fs rom r hj hc h a0 regs k d s hk hs hP
  obtain ⟨heard, g1, g2, g3⟩ := tidy_tones ord ho calls m hread hsane htidy hslide h24 hp hp2 hG hG2 f opt s hsong hcount hd (ownSettings m) (Steady m) (fun hst => hst.between)
    (fun v a x t b h1 h2 => ⟨C68_instruments ord ho calls m hread hclear v a x t b h1 h2, fun hst => C69_volumes ord ho calls m hread hst v a x t b h1 h2⟩) part evs h1 h3 h4
  exact ⟨fuel, evs, T, heard, g1, h2, g2, g3⟩

/-- **C71 (command line), partial** (missing as in `C71_lengths_partial`). The tool is run without loop optimisation to build a ROM and succeeds; one of the songs of the build comes from a tidy MIDI file. Then in the ROM
file the song's number plays the notes of that file; and with sustains that stand for eighths each is released less than one unit and an eighth of its last piece from where the file ends it. -/
theorem C71_run_partial (x : Ext) (hord : ∀ l, (x.ord l).Perm l) (fs fs' : FS) (verbose : Bool) (cmd : Cmd) (rom : String) (addrs : List Nat) (js : List (Job String)) (file0 : Rom)
    (hb : Builds x fs (js.map Job.songs) rom addrs cmd) (hacc : ∀ n, x.accept n = n) (hrun : x.run fs false verbose cmd = (.ok (), fs'))
    (hrom : fs rom = some file0) (haddrs : addrs = js.map Job.base) (hfirst : bankFirstSongAddrs = js.map Job.first)
    (hr : AllReady (x.converter fs false) (ofRom file0) 0 js) (hs : HeadersSafe js) (hd : DataApart js)
    (pre : List (Job String)) (j : Job String) (post : List (Job String)) (hj : js = pre ++ j :: post) (hc : j.bank.Clean) (k : Nat) (d : SongDef String) (hk : j.songs[k]? = some d)
    (path : String) (bytes : List UInt8) (calls : List Callback) (m : MidiHandler) (s : Song)
    (hpath : d.input = some path) (hext : x.extension path = some "mid") (hbytes : fs path = some bytes) (hcalls : x.parseMidi bytes = some calls)
    (hread : readMidi x.ord calls = .ok m) (hsong : songFromMidi m d.tempoFactor false = .ok s)
    (hsane : Sane m.ticksPerBeat (file calls)) (htidy : Tidy (file calls)) (hslide : ∀ y ∈ file calls, noSlides y.1 = true) (hclear : Clear (file calls) m)
    (h24 : 24 ∣ m.ticksPerBeat) (hp : 0 < m.ticksPerBeat) (hp2 : m.ticksPerBeat < 65536)
    (hG : m.maxTime + 3525 ≤ exactTicks m.ticksPerBeat) (hG2 : 24 * (m.maxTime + 1) ≤ 32511 * m.ticksPerBeat)
    (hdur : ∀ tr ∈ s.tracks, ∀ c ∈ tr, c.command.isNote = true → ∀ d ∈ c.duration, d < 0x80) :
    ∃ image, fs' rom = some image ∧
      ∀ (a0 : Mem) (regs : Regs), ∃ (fuel : Nat) (evs : List (Option (List Ev))) (T : Nat) (heard : List Tone),
        (∀ n, playSong (upload (ofRom image) j.bank.chunks a0) (fuel + n) regs ((pre.map fun i => i.songs.length).sum + k) =
          some (evs, T, if d.loops then .goto 0xff T else .stop)) ∧
        heard.Perm (tonesIn evs) ∧
        List.Forall₂ (fun x n => SoundNear m.ticksPerBeat (NotesLoud (file calls)) (Steady m) x.sound n.1 ∧ ∃ off : Nat, n.2 = some off ∧
          ∀ gate, Eighths gate → |release gate x - 24 * off / m.ticksPerBeat| < 1 + ((x.stop : ℚ) - x.last) / 8) heard (fileTones (ownSettings m) (file calls)) := by
  rw [C66_builds x fs false verbose cmd _ rom addrs hb] at hrun
  obtain ⟨file', image, g1, g2, g3⟩ := C42_success x fs fs' _ rom addrs false verbose hacc hrun
  rw [hrom, Option.some.injEq] at g1
  subst g1
  refine ⟨image, g3, fun a0 regs => ?_⟩
  have hl : loadSong (x.converter fs false) d = .ok s := by
    unfold loadSong
    simp only [hpath, Ext.converter, hext, if_true, Ext.songFromMidiFile, hbytes, hcalls, hread]
    exact hsong
  have hcount : ∀ tr ∈ s.tracks, ∀ c ∈ tr, ∀ t n, c.command = .callLoop t n → n.toNat ≤ 2 := by
    intro tr htr c hc t n hcc
    have := plain_noCalls _ _ _ hsong tr htr c hc
    rw [hcc] at this; cases this
  obtain ⟨-, hP, -⟩ := tidy_sound x.ord hord calls m hread hsane htidy h24 hp hp2 hG hG2 _ false s hsong hcount hdur
  obtain ⟨part, fuel, evs, T, h1, h2, h3, h4⟩ := C54_build_partial _ verbose js addrs _ _ haddrs hfirst hr hs hd g2 pre j post hj hc a0 regs k d s hk hl hP
  obtain ⟨heard, e1, e2, e3⟩ := tidy_tones x.ord hord calls m hread hsane htidy hslide h24 hp hp2 hG hG2 _ false s hsong hcount hdur (ownSettings m) (Steady m) (fun hst => hst.between)
    (fun v a y t b h1 h2 => ⟨C68_instruments x.ord hord calls m hread hclear v a y t b h1 h2, fun hst => C69_volumes x.ord hord calls m hread hst v a y t b h1 h2⟩) part evs h1 h3 h4
  refine ⟨fuel, evs, T, heard, h2, e2, e3.imp ?_⟩
  rintro y n ⟨k1, off, k2, k3⟩
  refine ⟨⟨k1.pitch, k1.instrument, k1.time, fun h => k1.velocity ⟨rfl, h⟩, k1.volume⟩, off, k2, fun gate hg => ?_⟩
  obtain ⟨stop, q1, q2, q3, q4, q5⟩ := k3
  exact C71_release _ y off ⟨stop, q1, q2, q3, q4, fun _ => q5 rfl⟩ gate hg

/-- Gates in steps of eighths. -/
example : Eighths fun s => (s : ℚ) / 8 := by
  intro s _
  constructor
  · exact le_refl _
  · linarith

/-- The notes of the band of C68, with ends: the bass stops in the middle of a beat. -/
example : fileTones (ownSettings bandMidi) (file bandCalls) = [(⟨0, 164, 12, some 9, some 100⟩, some 24), (⟨24, 168, 8, some 9, some 100⟩, some 48), (⟨0, 152, 15, some 24, some 200⟩, some 36),
    (⟨0, 172, 11, some 19, some 200⟩, some 12), (⟨24, 146, 10, some 12, some 200⟩, some 36)] := by decide +kernel

/-- What is heard of the bass and of the drums: one piece of 48 units with sustain 6 for 36 units, and pieces of 24 units with sustain 4 for 12 units. -/
example : ((partSound bandSong [0, 1, 2]).drop 1).flatMap (fun c => match c with | some l => heardTones l | none => []) =
    [⟨⟨0, 152, 15, some 24, some 200⟩, 0, 48, 6⟩, ⟨⟨0, 172, 11, some 19, some 200⟩, 0, 24, 4⟩, ⟨⟨24, 146, 10, some 12, some 200⟩, 24, 48, 4⟩] := by decide +kernel

/-- The voice of C12: a note from tick 480 to 5001, units 24 to 250.05, is a piece of 127 units and a tie up to unit 251; the last note, units 265 to 270, is not fused with the rest after it. -/
example : (trackNew demoVoice 480 5520 (.fin (1 / 5))).map (fun cs => (heardTones (intended noAddr cs 0 13 7)).map fun x => (x.sound.time, x.last, x.stop, x.sus)) =
    .ok [(24, 151, 251, 7), (265, 265, 270, 7)] := by decide +kernel

/-- The tones of the built ROM. -/
example : ∃ r, writeBank bandConv false bandJob.songs (oneRom 80 30) bandJob.base bandJob.first 0 = .ok r ∧ ∀ (a0 : Mem) (regs : Regs),
    ∃ (fuel : Nat) (evs : List (Option (List Ev))) (T : Nat) (heard : List Tone), evs.length = 8 ∧
      (∀ n, playSong (upload (ofRom r) bandJob.bank.chunks a0) (fuel + n) regs (0 + 0) = some (evs, T, .stop)) ∧ heard.Perm (tonesIn evs) ∧
      List.Forall₂ (ToneNear bandMidi.ticksPerBeat (false = false ∧ NotesLoud (file bandCalls)) (Steady bandMidi) (false = false)) heard (fileTones (ownSettings bandMidi) (file bandCalls)) := by
  have h1 : bandMidi.ticksPerBeat = 24 ∧ bandMidi.maxTime = 48 := by decide +kernel
  obtain ⟨h1, h2⟩ := h1
  obtain ⟨r, hr⟩ := C44_fits_ok bandConv false bandJob 0 (oneRom 80 30) bandJob_ready (by decide) (by decide +kernel) (by decide +kernel)
  refine ⟨r, hr, fun a0 regs => ?_⟩
  refine C71_lengths_partial id (fun l => .refl l) bandCalls bandMidi bandMidi_read ?_ ?_ (by decide +kernel) band_clear (by rw [h1]) (by rw [h1]; decide) (by rw [h1]; decide)
    (by rw [h1, h2]; decide) (by rw [h1, h2]; decide) (F32.ofRat (1 / 5)) false bandSong bandSong_of ?_ ?_ bandConv false bandJob 0 (oneRom 80 30) r bandJob_ready
    ⟨by decide, by decide, by decide, by decide, by decide⟩ hr a0 regs 0 (slot (some 0) false) rfl bandSong_of
  · rw [h1]; exact ⟨by decide +kernel, by decide +kernel, by decide +kernel⟩
  · exact ⟨by decide +kernel, by decide +kernel, by decide +kernel, by decide +kernel, by decide +kernel⟩
  · intro tr htr c hc t n hcc
    have := plain_noCalls _ _ _ bandSong_of tr htr c hc
    rw [hcc] at this; cases this
  · decide

/-- The gate table of the engine as documented for N-SPC players (the table lies in the ROM, not in the repository). -/
def documentedGate (s : Nat) : ℚ := ([50, 101, 127, 152, 178, 203, 229, 252] : List ℚ).getD s 0 / 256

/-- **C71 (documented gates), false.** The converter's assumption does not hold for the documented table: the snare of the example, 12 units long in the file, is released at 16.7 units, more than one unit and an eighth of its
piece of 24 units late. -/
theorem C71_documented_false : ¬ Eighths documentedGate ∧
    ¬ |release documentedGate ⟨⟨0, 172, 11, some 19, some 200⟩, 0, 24, 4⟩ - 24 * 12 / 24| < 1 + ((24 : ℚ) - 0) / 8 := by
  constructor
  · intro h
    have := (h 0 (by omega)).2
    norm_num [documentedGate] at this
  · have : release documentedGate ⟨⟨0, 172, 11, some 19, some 200⟩, 0, 24, 4⟩ = 267 / 16 := by
      have e : (4 : UInt8).toNat = 4 := rfl
      simp only [release, documentedGate, e]
      norm_num
    rw [this]
    rw [abs_lt]
    norm_num

end M2S
