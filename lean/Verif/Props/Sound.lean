import Verif.Proofs.Sound
import Verif.Props.Strike
import Verif.Props.FileToSound
import Verif.Props.Programs
import Verif.Props.Volumes
import Verif.Props.WholeTool
/-
Properties C68 and C69: the music of a file is heard: every note at its time, with its pitch, loudness, instrument and volume.
-/
namespace M2S
open MidiSpec Timing RomSpec Nspc Engine

/-- A heard sound (in units) against one asked for (in ticks): the same pitch and instrument, less than one unit away; if `loud`, also the same velocity; if `steady`, also the same volume. -/
structure SoundNear (tpb : Nat) (loud steady : Prop) (o n : Sound) : Prop where
  pitch : o.pitch = n.pitch
  instrument : o.settings.1 = n.settings.1
  time : |(o.time : ℚ) - 24 * n.time / tpb| < 1
  velocity : loud → o.velocity = n.velocity
  volume : steady → o.settings.2 = n.settings.2

/-- All that is heard in the channels. -/
def soundsIn (evs : List (Option (List Ev))) : List Sound := evs.flatMap fun c => match c with
  | some l => heardSounds 0 (none, none) l
  | none => []

/-- No portamento is switched on. -/
def noSlides : Message → Bool
  | .midiEvent _ (.controlChange _ 65 d) => d < 64
  | _ => true

theorem noPortamento_eq (evs : List TMsg) : noPortamento evs = evs.all fun m => noSlides m.1 := by
  unfold noPortamento
  congr 1

/-- Every note has a velocity of at least 8. -/
def NotesLoud (l : List (Message × Nat)) : Prop := ∀ m ∈ l, ∀ d ch n v, m.1 = .midiEvent d (.noteOn ch n v) → v ≠ 0 → 8 ≤ v.toNat

/-- One channel. -/
theorem channel_sounds (evs : List TMsg) (tpb G T : Nat) (f : F32) (h24 : 24 ∣ tpb) (hp : 0 < tpb) (hp2 : tpb < 65536) (hG : G + 3525 ≤ exactTicks tpb)
    (hG2 : 24 * (G + 1) ≤ 32511 * tpb) (hT : T < 2 ^ 31) (hv : voiceOk tpb G T 0 0 none evs = true) (hpr : programsBetweenNotes false evs = true) (hno : noPortamento evs = true)
    (htidy : evs.foldlM tidyStep none = some none) (cs : List PCmd) (h : trackNew evs tpb T f = .ok cs) (parts : List (List Nat)) (i : Nat)
    (hi : (parts.any fun p => p.contains i) = true) (l l' : List Ev)
    (hl : l = (preambleFor parts i).map (fun c => Ev.cmd (encodeCmd noAddr c).1 (encodeCmd noAddr c).2) ++ intended noAddr cs 0 13 7)
    (hn : heardNotes 0 l = noteOnsets cs) (htm : l'.map Ev.timing = l.map Ev.timing) (loud steady : Prop)
    (hloud : loud → l' = l ∧ ∀ t dl ch n x, (Message.midiEvent dl (.noteOn ch n x), t) ∈ evs → 8 ≤ x.toNat)
    (hsteady : steady → settingsBetweenNotes false evs = true) :
    List.Forall₂ (SoundNear tpb loud steady) (heardSounds 0 (none, none) l') (voiceSounds (none, some 200) evs) := by
  obtain ⟨q1, q2⟩ := heard_struck evs tpb T f cs h hno parts i hi l hl
  have ts := (tidy_strikes evs).1 (none, some 200) htidy
  have hs := heardSounds_strikes l' 0 (none, none)
  obtain ⟨cs', e1, e2⟩ := C12_notes_on_time_24_partial evs _ G T f h24 hp hp2 hG hG2 hT hv hpr hno
  rw [h] at e1
  injection e1 with e1
  subst e1
  have ht : List.Forall₂ (fun (o n : Nat × UInt8) => o.2 = n.2 ∧ |(o.1 : ℚ) - 24 * n.1 / tpb| < 1) ((heardSounds 0 (none, none) l').map fun x => (x.time, x.pitch))
      ((voiceSounds (none, some 200) evs).map fun x => (x.time, x.pitch)) := by
    rw [heardSounds_notes, voiceSounds_starts, ← (tidy_notes evs).1 htidy, ← heardNotes_timing, htm, heardNotes_timing, hn, List.map_map, List.forall₂_map_right_iff]
    exact e2.imp fun o n hon => hon
  have a3 : (heardStrikes (none, none) l').map Strike.quiet = (strikesAtEnd (none, some 200) none evs).map Strike.quiet := by
    rw [← heardStrikes_timing, htm, heardStrikes_timing, q1]
  have hq : (heardSounds 0 (none, none) l').map (fun x => x.settings.1) = (voiceSounds (none, some 200) evs).map fun x => x.settings.1 := by
    have a1 := congrArg (List.map fun x : Strike => x.settings.1) hs
    have a2 := congrArg (List.map fun x : UInt8 × Option UInt8 × Option UInt8 => x.2.2) ts
    have a4 := congrArg (List.map fun x : Strike => x.settings.1) a3
    simp only [List.map_map] at a1 a2 a4
    exact a1.trans (a4.trans a2)
  have hvol : steady → (heardSounds 0 (none, none) l').map (fun x => x.settings.2) = (voiceSounds (none, some 200) evs).map fun x => x.settings.2 := by
    intro hst
    have a1 := congrArg (List.map fun x : Strike => x.settings.2) hs
    have a2 := congrArg (List.map fun x : Strike => x.settings.2) ((tidy_strikes_steady evs).1 (none, some 200) htidy (hsteady hst))
    have a4 := congrArg (List.map fun x : Strike => x.settings.2) a3
    simp only [List.map_map] at a1 a2 a4
    exact a1.trans (a4.trans a2)
  have hvel : loud → (heardSounds 0 (none, none) l').map (fun x => x.velocity) = (voiceSounds (none, some 200) evs).map fun x => x.velocity := by
    intro hL
    obtain ⟨rfl, hvel⟩ := hloud hL
    have a1 := congrArg (List.map fun x : Strike => x.velocity) hs
    have a2 := congrArg (List.map fun x : UInt8 × Option UInt8 × Option UInt8 => x.2.1) ts
    have a4 := congrArg (List.map fun x : Strike => x.velocity) (q2 hvel)
    simp only [List.map_map] at a1 a2 a4
    have := a1.trans (a4.trans a2)
    have hc : ∀ l : List Sound, l.map (fun x => some x.velocity) = (l.map (fun x => x.velocity)).map some := fun l => by rw [List.map_map]; rfl
    have h2 : ∀ x y : List UInt8, x.map some = y.map some → x = y := fun x y hxy => List.map_injective_iff.2 (Option.some_injective _) hxy
    apply h2
    rw [← hc, ← hc]
    exact this
  have hcond : ∀ {α : Type} (p : Prop) (f : Sound → α) (a b : List Sound), a.length = b.length → (p → a.map f = b.map f) → List.Forall₂ (fun x y => p → f x = f y) a b := by
    intro α p f a
    induction a with
    | nil => intro b hl _; cases b with | nil => exact .nil | cons y b => cases hl
    | cons x a ih =>
      intro b hl he
      cases b with
      | nil => cases hl
      | cons y b =>
        refine .cons (fun hp => ?_) (ih b (by simpa using hl) fun hp => ?_)
        · have := he hp; simp only [List.map_cons] at this; injection this
        · have := he hp; simp only [List.map_cons] at this; injection this
  have hlen : (heardSounds 0 (none, none) l').length = (voiceSounds (none, some 200) evs).length := by simpa using ht.length_eq
  have f1 := forall₂_both _ _ _ _ _ _ _ ht hq
  have f2 := hcond steady (fun x => x.settings.2) _ _ hlen hvol
  have f3 := hcond loud (fun x => x.velocity) _ _ hlen hvel
  generalize heardSounds 0 (none, none) l' = a at f1 f2 f3
  generalize voiceSounds (none, some 200) evs = b at f1 f2 f3
  clear ht hq hvol hvel hlen hs
  induction f1 with
  | nil => exact .nil
  | cons k1 _ ih =>
    cases f2 with
    | cons k2 f2 =>
      cases f3 with
      | cons k3 f3 => exact .cons ⟨k1.1.1, k1.2, k1.1.2, k3, k2⟩ (ih f2 f3)

/-- The sounds of the voices are those of the file, if each note of the voices has the settings `set`. -/
theorem C68_voices (ord : EnumOrder) (calls : List Callback) (h : MidiHandler) (hr : readMidi ord calls = .ok h) (set : TMsg → Settings) :
    ((List.finRange 8).flatMap fun v => (h.voices v).filterMap fun m => soundOf (set m) m).Perm (fileSounds set (file calls)) := by
  have key : ∀ l : List TMsg, (l.filterMap fun m => soundOf (set m) m) = (l.filter fun m => starts m.1).filterMap fun m => soundOf (set m) m := by
    intro l
    rw [List.filterMap_filter]
    apply List.filterMap_congr
    rintro ⟨m, t⟩ -
    rcases m with ⟨dl, e, data⟩ | ⟨dl, e⟩ | ⟨dl, data⟩ | _ <;> try rfl
    cases e with
    | noteOn ch n v =>
      by_cases hv : v = 0
      · simp [soundOf, starts, hv]
      · simp [starts, hv]
    | _ => rfl
  have e2 : ((List.finRange 8).flatMap fun v => (h.voices v).filterMap fun m => soundOf (set m) m) = ((List.finRange 8).flatMap h.voices).filterMap fun m => soundOf (set m) m := by
    rw [List.filterMap_flatMap]
  rw [e2, key]
  refine ((C24_notes_kept ord calls h hr).filterMap _).trans (.of_eq ?_)
  rw [List.filterMap_map, List.filterMap_filter]
  unfold fileSounds
  apply List.filterMap_congr
  rintro ⟨m, t⟩ -
  rcases m with ⟨dl, e, data⟩ | ⟨dl, e⟩ | ⟨dl, data⟩ | _ <;> try rfl
  cases e with
  | noteOn ch n v =>
    by_cases hv : v = 0
    · simp [soundOf, starts, hv, drum]
    · simp [starts, hv]
  | _ => rfl

/-- The volume after some messages of a voice: twice the value last set, or 200 from the preamble. -/
def volumeAfter (l : List TMsg) : Option UInt8 := ((lastVolume l).map fun p => 2 * p.2).or (some 200)

theorem near_alike {tpb : Nat} {loud steady : Prop} {a b c : List Sound} (h1 : List.Forall₂ (SoundNear tpb loud steady) a b) (h2 : List.Forall₂ (Alike steady) b c) :
    List.Forall₂ (SoundNear tpb loud steady) a c := by
  induction h1 generalizing c with
  | nil => cases h2; exact .nil
  | cons k1 _ ih =>
    cases h2 with
    | cons k2 h2 =>
      exact .cons ⟨k1.pitch.trans k2.pitch, k1.instrument.trans k2.instrument, by rw [← k2.time]; exact k1.time, fun h => (k1.velocity h).trans k2.velocity,
        fun h => (k1.volume h).trans (k2.volume h)⟩ (ih h2)

/-- Portamento is switched on on no voice. -/
theorem voices_noSlides (ord : EnumOrder) (calls : List Callback) (m : MidiHandler) (hread : readMidi ord calls = .ok m) (hslide : ∀ x ∈ file calls, noSlides x.1 = true) (v : Fin 8) :
    noPortamento (m.voices v) = true := by
  obtain ⟨seq, outs, k, s1, s2, s3, s4⟩ := read_emits ord calls m hread
  have hmem : ∀ x ∈ seq.map (·.2), x ∈ file calls := fun x hx => List.mem_of_mem_filter ((read_perm ord calls m hread seq s1).mem_iff.1 hx)
  rw [noPortamento_eq, List.all_eq_true]
  intro x hx
  rw [s4] at hx
  obtain ⟨p, hp, rfl⟩ := List.mem_map.1 hx
  refine kept_emits noSlides ?_ ord _ _ _ _ (fun x hx => hslide x (hmem x hx)) s3 p (List.mem_of_mem_filter hp)
  intro d e he
  cases e <;> first | rfl | cases he

/-- The notes of the voices are loud. -/
theorem voices_loud (ord : EnumOrder) (calls : List Callback) (m : MidiHandler) (hread : readMidi ord calls = .ok m) (hfold : ∀ v, (m.voices v).foldlM tidyStep none = some none)
    (hL : NotesLoud (file calls)) (v : Fin 8) (t dl : Nat) (ch : Fin 16) (n x : UInt8) (hm : (Message.midiEvent dl (.noteOn ch n x), t) ∈ m.voices v) : 8 ≤ x.toNat := by
  have hx0 : x ≠ 0 := by
    rintro rfl
    have := hfold v
    obtain ⟨a, b, hab⟩ := List.append_of_mem hm
    rw [hab, List.foldlM_append, Option.bind_eq_bind, Option.bind_eq_some_iff] at this
    obtain ⟨y, -, hy⟩ := this
    simp [List.foldlM_cons, tidyStep] at hy
  have : (Message.midiEvent dl (.noteOn ch n x), t) ∈ ((List.finRange 8).flatMap m.voices).filter fun m => starts m.1 :=
    List.mem_filter.2 ⟨List.mem_flatMap.2 ⟨v, List.mem_finRange v, hm⟩, by simp [starts, hx0]⟩
  obtain ⟨⟨y, ty⟩, hy, he⟩ := List.mem_map.1 ((C24_notes_kept ord calls m hread).mem_iff.1 this)
  obtain ⟨hy1, hy2⟩ := List.mem_filter.1 hy
  rcases y with ⟨dl', e, data⟩ | ⟨dl', e⟩ | ⟨dl', data⟩ | _ <;> try cases hy2
  cases e with
  | noteOn ch' n' v' =>
    simp only [drum, Prod.mk.injEq, Message.midiEvent.injEq, MidiEvent.noteOn.injEq] at he
    obtain ⟨⟨-, -, -, rfl⟩, -⟩ := he
    exact hL _ hy1 _ _ _ _ rfl hx0
  | _ => cases hy2

/-- The conversion of a tidy file: what is heard of the song if it has the timing it should have, and is exactly as it should be if there are no calls. -/
theorem tidy_music (ord : EnumOrder) (ho : ∀ l, (ord l).Perm l) (calls : List Callback) (m : MidiHandler) (hread : readMidi ord calls = .ok m)
    (hsane : Sane m.ticksPerBeat (file calls)) (htidy : Tidy (file calls)) (hslide : ∀ x ∈ file calls, noSlides x.1 = true)
    (h24 : 24 ∣ m.ticksPerBeat) (hp : 0 < m.ticksPerBeat) (hp2 : m.ticksPerBeat < 65536)
    (hG : m.maxTime + 3525 ≤ exactTicks m.ticksPerBeat) (hG2 : 24 * (m.maxTime + 1) ≤ 32511 * m.ticksPerBeat)
    (f : F32) (opt : Bool) (s : Song) (hsong : songFromMidi m f opt = .ok s)
    (hcount : ∀ tr ∈ s.tracks, ∀ c ∈ tr, ∀ t n, c.command = .callLoop t n → n.toNat ≤ 2)
    (hd : ∀ tr ∈ s.tracks, ∀ c ∈ tr, c.command.isNote = true → ∀ d ∈ c.duration, d < 0x80)
    (set : TMsg → Settings) (steady : Prop) (hsteady : steady → ∀ v, settingsBetweenNotes false (m.voices v) = true)
    (hset : ∀ v a x t b, m.voices v = a ++ (x, t) :: b → starts x = true → (lastProgram a).map instrumentOfProgram = (set (x, t)).1 ∧ (steady → volumeAfter a = (set (x, t)).2))
    (part : List Nat) (evs : List (Option (List Ev))) (h1 : s.parts[0]? = some part) (h3 : timingOf evs = timingOf (partSound s part))
    (h4 : (∀ tr ∈ s.tracks, ∀ c ∈ tr, isCall c.command = false) → evs = partSound s part) :
    ∃ heard : List Sound, evs.length = 8 ∧ heard.Perm (soundsIn evs) ∧ List.Forall₂ (SoundNear m.ticksPerBeat (opt = false ∧ NotesLoud (file calls)) steady) heard (fileSounds set (file calls)) := by
  obtain ⟨hr, -, -⟩ := tidy_sound ord ho calls m hread hsane htidy h24 hp hp2 hG hG2 f opt s hsong hcount hd
  obtain ⟨vs, g1, g2, g3, g4⟩ := song_channels m f opt s hsong hr hcount
  have hpart : part = List.range vs.length := by rw [g3] at h1; simpa using h1.symm
  subst hpart
  have hT : m.maxTime < 2 ^ 31 := by have := exactTicks_le m.ticksPerBeat; omega
  have hv := C63_voices ord calls m hread hsane
  obtain ⟨v1, -, -, -⟩ := C64_voices ord ho calls m hread hsane htidy
  have hfold := tidy_fold ord ho calls m hread hsane htidy
  have hno := voices_noSlides ord calls m hread hslide
  have hloud := fun hL => voices_loud ord calls m hread hfold hL
  have hlen : evs.length = 8 := by have := congrArg List.length h3; simpa [timingOf, partSound] using this
  have hvl : vs.length ≤ evs.length := by
    have hnd : vs.Nodup := g1.imp fun h => ne_of_lt h
    have := hnd.length_le_card
    simpa [hlen] using this
  have hall : List.Forall₂ (SoundNear m.ticksPerBeat (opt = false ∧ NotesLoud (file calls)) steady) (soundsIn evs)
      (vs.flatMap fun v => (m.voices v).filterMap fun x => soundOf (set x) x) := by
    refine channels_forall _ (heardSounds 0 (none, none)) _ evs vs hvl ?_
    intro i hi
    have := g4 i (by omega)
    cases hvi : vs[i]? with
    | none => rw [hvi] at this; exact (timingOf_get h3 i).1 this
    | some v =>
      rw [hvi] at this
      obtain ⟨cs, l, e1, -, e2, e3, -, -, e5, -, -⟩ := this
      obtain ⟨l', k1, -, -, -, k2⟩ := (timingOf_get h3 i).2 l e2
      have hin : i < vs.length := by
        by_contra hn
        rw [List.getElem?_eq_none (by omega)] at hvi
        cases hvi
      have hany : (s.parts.any fun p => p.contains i) = true := by rw [g3]; simp [hin]
      refine ⟨l', k1, near_alike (channel_sounds _ _ m.maxTime _ f h24 hp hp2 hG hG2 hT (hv v) (v1 v) (hno v) (hfold v) cs e1 s.parts i hany l l' e5 e3 k2 _ steady ?_ (fun hst => hsteady hst v))
        (voiceSounds_set steady set (m.voices v) [] fun a x t b hab => hset v a x t b (by simpa using hab))⟩
      rintro ⟨rfl, hL⟩
      refine ⟨?_, hloud hL v⟩
      have := h4 (plain_noCalls m f s hsong)
      rw [this, e2] at k1
      simpa using k1.symm
  have hempty : ∀ v, v ∉ vs → ((m.voices v).filterMap fun x => soundOf (set x) x) = [] := by
    intro v hvn
    obtain ⟨cs, e1, e2⟩ := C12_notes_on_time_24_partial (m.voices v) _ m.maxTime m.maxTime f h24 hp hp2 hG hG2 hT (hv v) (v1 v) (hno v)
    rw [g2 v hvn] at e1
    injection e1 with e1
    subst e1
    have h0 := List.forall₂_nil_left_iff.mp e2
    have h1 := (tidy_notes (m.voices v)).1 (hfold v)
    rw [h0] at h1
    have h2 := voiceSounds_starts (m.voices v) (none, some 200)
    rw [← h1] at h2
    have h3 := voiceSounds_set steady set (m.voices v) [] fun a x t b hab => hset v a x t b (by simpa using hab)
    have h4 : voiceSounds (none, some 200) (m.voices v) = [] := by simpa using h2
    have h5 : settingsAfter [] = (none, some 200) := rfl
    rw [h5, h4] at h3
    exact List.forall₂_nil_left_iff.mp h3
  have hperm := (flatMap_voices vs g1 (fun v => (m.voices v).filterMap fun x => soundOf (set x) x) hempty).trans (C68_voices ord calls m hread set)
  obtain ⟨heard, q1, q2⟩ := List.perm_comp_forall₂ hperm.symm hall.flip
  exact ⟨heard, hlen, q2, q1.flip⟩

/-- **C68, partial** (missing: what is missing in C64 and C67, and portamento). A tidy file is read and converted, with or without loop optimisation; the song is built into a ROM; the bank is uploaded, and the engine
plays the song. Then the sounds heard are, in some order, those of the file: for every note of the file one with the same pitch, the instrument `set` says it should have, and a start less than one unit away; without
loop optimisation and with velocities of at least 8 also with an eighth of its velocity; if volumes are steady also with the volume `set` says. No other sounds are heard. -/
theorem C68_music_partial {Path : Type} (ord : EnumOrder) (ho : ∀ l, (ord l).Perm l) (calls : List Callback) (m : MidiHandler) (hread : readMidi ord calls = .ok m)
    (hsane : Sane m.ticksPerBeat (file calls)) (htidy : Tidy (file calls)) (hslide : ∀ x ∈ file calls, noSlides x.1 = true)
    (h24 : 24 ∣ m.ticksPerBeat) (hp : 0 < m.ticksPerBeat) (hp2 : m.ticksPerBeat < 65536)
    (hG : m.maxTime + 3525 ≤ exactTicks m.ticksPerBeat) (hG2 : 24 * (m.maxTime + 1) ≤ 32511 * m.ticksPerBeat)
    (f : F32) (opt : Bool) (s : Song) (hsong : songFromMidi m f opt = .ok s)
    (hcount : ∀ tr ∈ s.tracks, ∀ c ∈ tr, ∀ t n, c.command = .callLoop t n → n.toNat ≤ 2)
    (hd : ∀ tr ∈ s.tracks, ∀ c ∈ tr, c.command.isNote = true → ∀ d ∈ c.duration, d < 0x80)
    (set : TMsg → Settings) (steady : Prop) (hsteady : steady → ∀ v, settingsBetweenNotes false (m.voices v) = true)
    (hset : ∀ v a x t b, m.voices v = a ++ (x, t) :: b → starts x = true → (lastProgram a).map instrumentOfProgram = (set (x, t)).1 ∧ (steady → volumeAfter a = (set (x, t)).2))
    (conv : Converter Path) (verbose : Bool) (j : Job Path) (fs : Nat) (rom r : Rom)
    (hj : j.Ready conv (ofRom rom) fs) (hc : j.bank.Clean) (h : writeBank conv verbose j.songs rom j.base j.first fs = .ok r) (a0 : Mem) (regs : Regs)
    (k : Nat) (d : SongDef Path) (hk : j.songs[k]? = some d) (hs : loadSong conv d = .ok s) :
    ∃ (fuel : Nat) (evs : List (Option (List Ev))) (T : Nat) (heard : List Sound), evs.length = 8 ∧
      (∀ n, playSong (upload (ofRom r) j.bank.chunks a0) (fuel + n) regs (fs + k) = some (evs, T, if d.loops then .goto 0xff T else .stop)) ∧
      heard.Perm (soundsIn evs) ∧ List.Forall₂ (SoundNear m.ticksPerBeat (opt = false ∧ NotesLoud (file calls)) steady) heard (fileSounds set (file calls)) := by
  obtain ⟨-, hP, -⟩ := tidy_sound ord ho calls m hread hsane htidy h24 hp hp2 hG hG2 f opt s hsong hcount hd
  obtain ⟨part, fuel, evs, T, h1, h2, h3, h4⟩ := C54_bank_partial conv verbose j fs rom r hj hc h a0 regs k d s hk hs hP
  obtain ⟨heard, g1, g2, g3⟩ := tidy_music ord ho calls m hread hsane htidy hslide h24 hp hp2 hG hG2 f opt s hsong hcount hd set steady hsteady hset part evs h1 h3 h4
  exact ⟨fuel, evs, T, heard, g1, h2, g2, g3⟩

/-! ## Instruments -/

/-- The instrument a note on a voice should have: the one its channel has selected; on channel 10 the snare (instrument 19) for the snare number 68, else the cymbal (12). -/
def ownInstrument (h : MidiHandler) (m : TMsg) : Option UInt8 :=
  match noteOf m.1 with
  | some (ch, n) => if ch = 9 then some (if n = 68 then 19 else 12) else (programAt (h.channels ch).messages m.2).map instrumentOfProgram
  | none => none

/-- What is needed for all notes to be played by the right instruments (see C27 and C28). -/
structure Clear (l : List (Message × Nat)) (h : MidiHandler) : Prop where
  /-- Channels with notes share their base voice only with channels that select no programs and are not the drum channel. -/
  apart : ∀ ch ≠ 9, (∃ m ∈ (h.channels ch).messages, starts m.1 = true) → ∀ c ≠ ch, (h.channels c).baseVoice = (h.channels ch).baseVoice →
    ∀ m ∈ (h.channels c).messages, programOf m.1 = none ∧ startsOn 9 m.1 = false
  /-- A channel that plays on other voices as well selects a program, and does so before its notes only. -/
  early : ∀ ch ≠ 9, (∃ v ≠ (h.channels ch).baseVoice, ∃ m ∈ h.voices v, startsOn ch m.1 = true) → (∃ m ∈ (h.channels ch).messages, programOf m.1 ≠ none) ∧
    ∀ m ∈ (h.channels ch).messages, ∀ m' ∈ (h.channels ch).messages, programOf m.1 ≠ none → startsOn ch m'.1 → m.2 ≤ m'.2
  /-- Drums play on one voice, whose channels select no programs; none has the number used for snares. -/
  drums : (∃ m ∈ (h.channels 9).messages, starts m.1 = true) → (∀ c, (h.channels c).baseVoice = (h.channels 9).baseVoice → ∀ m ∈ (h.channels c).messages, programOf m.1 = none) ∧
    (∀ v ≠ (h.channels 9).baseVoice, ∀ m ∈ h.voices v, startsOn 9 m.1 = false) ∧ ∀ m ∈ l, noteOf m.1 ≠ some (9, 68)

/-- **C68 (instruments).** Then every note plays with the instrument its channel has selected. -/
theorem C68_instruments (ord : EnumOrder) (ho : ∀ l, (ord l).Perm l) (calls : List Callback) (h : MidiHandler) (hr : readMidi ord calls = .ok h) (hcl : Clear (file calls) h)
    (v : Fin 8) (a : List TMsg) (x : Message) (t : Nat) (b : List TMsg) (hv : h.voices v = a ++ (x, t) :: b) (hx : starts x = true) :
    (lastProgram a).map instrumentOfProgram = ownInstrument h (x, t) := by
  obtain ⟨seq, outs, k, s1, s2, s3, s4, s5⟩ := read_processing ord calls h hr
  have hv' := hv
  rw [s4] at hv'
  obtain ⟨done, rest, outs1, k1, o1, k2, d, c, n, vel, e1, e2, e3, e4, e5, e6, e7, -⟩ := start_context ord _ seq outs k s3 _ a b x t hv' hx
  have hmem : (Message.midiEvent d (.noteOn c n vel), t) ∈ (h.channels c).messages := s5 _ (by rw [e1]; simp) c rfl
  have hst : starts (.midiEvent d (.noteOn c n vel)) = true := by
    have : vel ≠ 0 := by rintro rfl; exact absurd e2 (by decide)
    simp [starts, this]
  have hon : startsOn c x = true := by
    rw [e3] at hx ⊢
    simpa [startsOn, home] using hx
  by_cases h9 : c = 9
  · subst h9
    obtain ⟨q1, q2, q3⟩ := hcl.drums ⟨_, hmem, hst⟩
    obtain ⟨d', n', vel', f1, f2, f3⟩ := C28_percussion_partial ord ho calls h hr q1 q2 v a b x t hv hon
    have hn68 : n' ≠ 68 := by
      rintro rfl
      exact q3 _ f1 rfl
    rw [f3, f2]
    simp only [ownInstrument, drum, noteOf, true_and, if_true, Option.map_some, instrumentOfProgram, instrumentFor]
    by_cases h38 : n' = 38 ∨ n' = 40 <;> simp [h38, hn68]
  · have hown : ownInstrument h (x, t) = (programAt (h.channels c).messages t).map instrumentOfProgram := by
      rw [e3]
      simp [ownInstrument, noteOf, h9]
    rw [hown]
    congr 1
    by_cases hvb : v = (h.channels c).baseVoice
    · subst hvb
      exact C27_base_voice_partial ord ho calls h hr c h9 (fun c' hc' hb => hcl.apart c h9 ⟨_, hmem, hst⟩ c' hc' hb) a b x t hv hon
    · obtain ⟨q1, q2⟩ := hcl.early c h9 ⟨v, hvb, (x, t), by rw [hv]; simp, hon⟩
      refine C27_overflow_voice_partial ord ho calls h hr c h9 v ?_ q1 q2 a b x t hv hon
      intro c' hc'
      unfold chooseVoice at e6
      split_ifs at e6 with hbusy
      · have := List.find?_some e6
        simp only [Bool.and_eq_true, Bool.not_eq_true', List.any_eq_false] at this
        exact this.1 c' (List.mem_finRange c') (by simpa using hc')
      · exact hvb (by simpa using e6.symm)

/-- The volume a note should have: twice the value its channel has set, or 200. -/
def ownVolume (h : MidiHandler) (m : TMsg) : Option UInt8 :=
  match noteOf m.1 with
  | some (ch, _) => ((volumeAt (h.channels ch).messages m.2).map fun p => 2 * p.2).or (some 200)
  | none => none

/-- Instrument and volume a note should have. -/
def ownSettings (h : MidiHandler) (m : TMsg) : Settings := (ownInstrument h m, ownVolume h m)

/-- What is needed for all notes to be played with the right volume (see C69 and C67). -/
structure Steady (h : MidiHandler) : Prop where
  /-- Channels with notes share their base voice only with channels that set no volumes. -/
  apart : ∀ ch, (∃ m ∈ (h.channels ch).messages, starts m.1 = true) → ∀ c ≠ ch, (h.channels c).baseVoice = (h.channels ch).baseVoice →
    ∀ m ∈ (h.channels c).messages, volumeOf m.1 = none
  /-- A channel that plays on other voices as well sets its volume, and does so before its notes only. -/
  early : ∀ ch, (∃ v ≠ (h.channels ch).baseVoice, ∃ m ∈ h.voices v, startsOn ch m.1 = true) → (∃ m ∈ (h.channels ch).messages, volumeOf m.1 ≠ none) ∧
    ∀ m ∈ (h.channels ch).messages, ∀ m' ∈ (h.channels ch).messages, volumeOf m.1 ≠ none → startsOn ch m'.1 → m.2 ≤ m'.2
  /-- Volumes are set on a voice when no note sounds on it. -/
  between : ∀ v, settingsBetweenNotes false (h.voices v) = true

/-- **C69 (volumes).** Then every note plays with the volume its channel has set. -/
theorem C69_volumes (ord : EnumOrder) (ho : ∀ l, (ord l).Perm l) (calls : List Callback) (h : MidiHandler) (hr : readMidi ord calls = .ok h) (hst : Steady h)
    (v : Fin 8) (a : List TMsg) (x : Message) (t : Nat) (b : List TMsg) (hv : h.voices v = a ++ (x, t) :: b) (hx : starts x = true) :
    volumeAfter a = ownVolume h (x, t) := by
  obtain ⟨seq, outs, k, s1, s2, s3, s4, s5⟩ := read_processing ord calls h hr
  have hv' := hv
  rw [s4] at hv'
  obtain ⟨done, rest, outs1, k1, o1, k2, d, c, n, vel, e1, e2, e3, e4, e5, e6, e7, -⟩ := start_context ord _ seq outs k s3 _ a b x t hv' hx
  have hmem : (Message.midiEvent d (.noteOn c n vel), t) ∈ (h.channels c).messages := s5 _ (by rw [e1]; simp) c rfl
  have hs : starts (.midiEvent d (.noteOn c n vel)) = true := by
    have : vel ≠ 0 := by rintro rfl; exact absurd e2 (by decide)
    simp [starts, this]
  have hon : startsOn c x = true := by
    rw [e3] at hx ⊢
    simpa [startsOn, home] using hx
  have hown : ownVolume h (x, t) = ((volumeAt (h.channels c).messages t).map fun p => 2 * p.2).or (some 200) := by
    rw [e3]; rfl
  rw [hown]
  unfold volumeAfter
  congr 2
  by_cases hvb : v = (h.channels c).baseVoice
  · subst hvb
    exact C69_base_voice_partial ord ho calls h hr c (fun c' hc' hb => hst.apart c ⟨_, hmem, hs⟩ c' hc' hb) a b x t hv hon
  · obtain ⟨q1, q2⟩ := hst.early c ⟨v, hvb, (x, t), by rw [hv]; simp, hon⟩
    refine C69_overflow_voice_partial ord ho calls h hr c v ?_ q1 q2 a b x t hv hon
    intro c' hc'
    unfold chooseVoice at e6
    split_ifs at e6 with hbusy
    · have := List.find?_some e6
      simp only [Bool.and_eq_true, Bool.not_eq_true', List.any_eq_false] at this
      exact this.1 c' (List.mem_finRange c') (by simpa using hc')
    · exact hvb (by simpa using e6.symm)

/-- **C68 and C69 (instruments and volumes), partial** (missing as in `C68_music_partial`, C27, C28 and C69). The music of the file is heard, with the instruments its channels have selected, and if volumes
are steady with the volumes they have set. -/
theorem C68_orchestra_partial {Path : Type} (ord : EnumOrder) (ho : ∀ l, (ord l).Perm l) (calls : List Callback) (m : MidiHandler) (hread : readMidi ord calls = .ok m)
    (hsane : Sane m.ticksPerBeat (file calls)) (htidy : Tidy (file calls)) (hslide : ∀ x ∈ file calls, noSlides x.1 = true) (hclear : Clear (file calls) m)
    (h24 : 24 ∣ m.ticksPerBeat) (hp : 0 < m.ticksPerBeat) (hp2 : m.ticksPerBeat < 65536)
    (hG : m.maxTime + 3525 ≤ exactTicks m.ticksPerBeat) (hG2 : 24 * (m.maxTime + 1) ≤ 32511 * m.ticksPerBeat)
    (f : F32) (opt : Bool) (s : Song) (hsong : songFromMidi m f opt = .ok s)
    (hcount : ∀ tr ∈ s.tracks, ∀ c ∈ tr, ∀ t n, c.command = .callLoop t n → n.toNat ≤ 2)
    (hd : ∀ tr ∈ s.tracks, ∀ c ∈ tr, c.command.isNote = true → ∀ d ∈ c.duration, d < 0x80)
    (conv : Converter Path) (verbose : Bool) (j : Job Path) (fs : Nat) (rom r : Rom)
    (hj : j.Ready conv (ofRom rom) fs) (hc : j.bank.Clean) (h : writeBank conv verbose j.songs rom j.base j.first fs = .ok r) (a0 : Mem) (regs : Regs)
    (k : Nat) (d : SongDef Path) (hk : j.songs[k]? = some d) (hs : loadSong conv d = .ok s) :
    ∃ (fuel : Nat) (evs : List (Option (List Ev))) (T : Nat) (heard : List Sound), evs.length = 8 ∧
      (∀ n, playSong (upload (ofRom r) j.bank.chunks a0) (fuel + n) regs (fs + k) = some (evs, T, if d.loops then .goto 0xff T else .stop)) ∧
      heard.Perm (soundsIn evs) ∧ List.Forall₂ (SoundNear m.ticksPerBeat (opt = false ∧ NotesLoud (file calls)) (Steady m)) heard (fileSounds (ownSettings m) (file calls)) :=
  C68_music_partial ord ho calls m hread hsane htidy hslide h24 hp hp2 hG hG2 f opt s hsong hcount hd (ownSettings m) (Steady m) (fun hst => hst.between)
    (fun v a x t b h1 h2 => ⟨C68_instruments ord ho calls m hread hclear v a x t b h1 h2, fun hst => C69_volumes ord ho calls m hread hst v a x t b h1 h2⟩) conv verbose j fs rom r hj hc h a0 regs k d hk hs

/-- **C68 (command line), partial** (missing as in `C68_orchestra_partial`). From the command line to music: the tool is run to build a ROM and succeeds; one of the songs of the build comes from a tidy MIDI file. Then
in the ROM file the song's number plays the music of that file. -/
theorem C68_run_partial (x : Ext) (hord : ∀ l, (x.ord l).Perm l) (fs fs' : FS) (optimize verbose : Bool) (cmd : Cmd) (rom : String) (addrs : List Nat) (js : List (Job String)) (file0 : Rom)
    (hb : Builds x fs (js.map Job.songs) rom addrs cmd) (hacc : ∀ n, x.accept n = n) (hrun : x.run fs optimize verbose cmd = (.ok (), fs'))
    (hrom : fs rom = some file0) (haddrs : addrs = js.map Job.base) (hfirst : bankFirstSongAddrs = js.map Job.first)
    (hr : AllReady (x.converter fs optimize) (ofRom file0) 0 js) (hs : HeadersSafe js) (hd : DataApart js)
    (pre : List (Job String)) (j : Job String) (post : List (Job String)) (hj : js = pre ++ j :: post) (hc : j.bank.Clean) (k : Nat) (d : SongDef String) (hk : j.songs[k]? = some d)
    (path : String) (bytes : List UInt8) (calls : List Callback) (m : MidiHandler) (s : Song)
    (hpath : d.input = some path) (hext : x.extension path = some "mid") (hbytes : fs path = some bytes) (hcalls : x.parseMidi bytes = some calls)
    (hread : readMidi x.ord calls = .ok m) (hsong : songFromMidi m d.tempoFactor optimize = .ok s)
    (hsane : Sane m.ticksPerBeat (file calls)) (htidy : Tidy (file calls)) (hslide : ∀ y ∈ file calls, noSlides y.1 = true) (hclear : Clear (file calls) m)
    (h24 : 24 ∣ m.ticksPerBeat) (hp : 0 < m.ticksPerBeat) (hp2 : m.ticksPerBeat < 65536)
    (hG : m.maxTime + 3525 ≤ exactTicks m.ticksPerBeat) (hG2 : 24 * (m.maxTime + 1) ≤ 32511 * m.ticksPerBeat)
    (hcount : ∀ tr ∈ s.tracks, ∀ c ∈ tr, ∀ t n, c.command = .callLoop t n → n.toNat ≤ 2)
    (hdur : ∀ tr ∈ s.tracks, ∀ c ∈ tr, c.command.isNote = true → ∀ d ∈ c.duration, d < 0x80) :
    (∀ p, p ≠ rom → fs' p = fs p) ∧
    ∃ image, fs' rom = some image ∧ image.length = file0.length ∧
      ∀ (a0 : Mem) (regs : Regs), ∃ (fuel : Nat) (evs : List (Option (List Ev))) (T : Nat) (heard : List Sound), evs.length = 8 ∧
        (∀ n, playSong (upload (ofRom image) j.bank.chunks a0) (fuel + n) regs ((pre.map fun i => i.songs.length).sum + k) =
          some (evs, T, if d.loops then .goto 0xff T else .stop)) ∧
        heard.Perm (soundsIn evs) ∧ List.Forall₂ (SoundNear m.ticksPerBeat (optimize = false ∧ NotesLoud (file calls)) (Steady m)) heard (fileSounds (ownSettings m) (file calls)) := by
  rw [C66_builds x fs optimize verbose cmd _ rom addrs hb] at hrun
  obtain ⟨file', image, g1, g2, g3⟩ := C42_success x fs fs' _ rom addrs optimize verbose hacc hrun
  rw [hrom, Option.some.injEq] at g1
  subst g1
  refine ⟨fun p hp => ?_, image, g3, C39_size _ _ _ _ _ _ g2, fun a0 regs => ?_⟩
  · have := writeRom_other (x := x) (fs := fs) (m := js.map Job.songs) (addrs := addrs) (o := optimize) (v := verbose) hp
    rwa [hrun] at this
  have hl : loadSong (x.converter fs optimize) d = .ok s := by
    unfold loadSong
    simp only [hpath, Ext.converter, hext, if_true, Ext.songFromMidiFile, hbytes, hcalls, hread]
    exact hsong
  obtain ⟨-, hP, -⟩ := tidy_sound x.ord hord calls m hread hsane htidy h24 hp hp2 hG hG2 _ optimize s hsong hcount hdur
  obtain ⟨part, fuel, evs, T, h1, h2, h3, h4⟩ := C54_build_partial _ verbose js addrs _ _ haddrs hfirst hr hs hd g2 pre j post hj hc a0 regs k d s hk hl hP
  obtain ⟨heard, e1, e2, e3⟩ := tidy_music x.ord hord calls m hread hsane htidy hslide h24 hp hp2 hG hG2 _ optimize s hsong hcount hdur (ownSettings m) (Steady m) (fun hst => hst.between)
    (fun v a y t b h1 h2 => ⟨C68_instruments x.ord hord calls m hread hclear v a y t b h1 h2, fun hst => C69_volumes x.ord hord calls m hread hst v a y t b h1 h2⟩) part evs h1 h3 h4
  exact ⟨fuel, evs, T, heard, e1, h2, e2, e3⟩

/-! ## An example: two instruments and drums -/

def bandCalls : List Callback :=
  [ .header 1 24, .trackChange, .midiEvent 0 (.controlChange 0 7 50), .midiEvent 0 (.programChange 0 40), .midiEvent 0 (.noteOn 0 60 100), .midiEvent 24 (.noteOff 0 60 0), .midiEvent 0 (.noteOn 0 64 64), .midiEvent 24 (.noteOff 0 64 0),
    .trackChange, .midiEvent 0 (.programChange 1 0), .midiEvent 0 (.noteOn 1 48 127), .midiEvent 36 (.noteOff 1 48 0),
    .trackChange, .midiEvent 0 (.noteOn 9 38 90), .midiEvent 12 (.noteOff 9 38 0), .midiEvent 12 (.noteOn 9 42 80), .midiEvent 12 (.noteOff 9 42 0) ]

def bandMidi : MidiHandler := match readMidi id bandCalls with
  | .ok h => h
  | .error _ => {}

def bandSong : Song := ⟨[[0, 1, 2]],
  [[⟨none, none, none, .channelVolume 100⟩, ⟨none, none, none, .setInstrument 9⟩, ⟨some 24, some 12, some 7, .note 164⟩, ⟨some 24, some 8, some 7, .note 168⟩],
   [⟨none, none, none, .setInstrument 24⟩, ⟨some 48, some 15, some 6, .note 152⟩],
   [⟨none, none, none, .setInstrument 19⟩, ⟨some 24, some 11, some 4, .note 172⟩, ⟨none, none, none, .setInstrument 12⟩, ⟨some 24, some 10, some 4, .note 146⟩]]⟩

def bandConv : Converter Nat := fun _ _ => songFromMidi bandMidi (F32.ofRat (1 / 5)) false

def bandEncoded : Encoded := ⟨false, [0, 1, 2],
  [⟨[250, 25, 229, 200, 237, 200, 237, 100, 224, 9, 24, 124, 164, 24, 120, 168, 0], []⟩, ⟨[237, 200, 224, 24, 48, 111, 152, 0], []⟩, ⟨[237, 200, 224, 19, 24, 75, 172, 224, 12, 24, 74, 146, 0], []⟩]⟩

def bandJob : Job Nat := ⟨[slot (some 0) false], 0, 0xd002, bankAt 12 80 30, [bandEncoded]⟩

theorem bandMidi_read : readMidi id bandCalls = .ok bandMidi := by
  have hok : (readMidi id bandCalls).toOption.isSome = true := by decide +kernel
  unfold bandMidi
  cases h : readMidi id bandCalls with
  | ok h => rfl
  | error e => rw [h] at hok; cases hok

theorem bandSong_of : songFromMidi bandMidi (F32.ofRat (1 / 5)) false = .ok bandSong := by decide +kernel

theorem bandJob_ready : bandJob.Ready bandConv (ofRom (oneRom 80 30)) 0 where
  addr := by decide
  bank := ⟨by decide, .cons (by decide) (.cons (by decide) (.cons (by decide) (.cons (by decide) (.nil _)))), by decide, by decide, rfl, by decide⟩
  songs := .cons ⟨bandSong, bandSong_of, rfl, by rfl, .cons (by decide) (.cons (by decide) (.cons (by decide) .nil))⟩ .nil
  fits := ⟨by decide, by decide, by decide, by decide, by decide⟩

theorem band_clear : Clear (file bandCalls) bandMidi where
  apart := by decide +kernel
  early := by decide +kernel
  drums := by decide +kernel

/-- The notes of the file: a melody on instrument 9 with volume 100, a bass on instrument 24, a snare and a cymbal. -/
example : fileSounds (ownSettings bandMidi) (file bandCalls) = [⟨0, 164, 12, some 9, some 100⟩, ⟨24, 168, 8, some 9, some 100⟩, ⟨0, 152, 15, some 24, some 200⟩, ⟨0, 172, 11, some 19, some 200⟩,
    ⟨24, 146, 10, some 12, some 200⟩] := by decide +kernel

/-- The example meets all hypotheses, including those on loudness and volumes. -/
example : (∃ r, writeBank bandConv false bandJob.songs (oneRom 80 30) bandJob.base bandJob.first 0 = .ok r ∧ ∀ (a0 : Mem) (regs : Regs),
      ∃ (fuel : Nat) (evs : List (Option (List Ev))) (T : Nat) (heard : List Sound), evs.length = 8 ∧
        (∀ n, playSong (upload (ofRom r) bandJob.bank.chunks a0) (fuel + n) regs (0 + 0) = some (evs, T, .stop)) ∧
        heard.Perm (soundsIn evs) ∧ List.Forall₂ (SoundNear bandMidi.ticksPerBeat (false = false ∧ NotesLoud (file bandCalls)) (Steady bandMidi)) heard (fileSounds (ownSettings bandMidi) (file bandCalls))) ∧
    NotesLoud (file bandCalls) ∧ Steady bandMidi := by
  have h1 : bandMidi.ticksPerBeat = 24 ∧ bandMidi.maxTime = 48 := by decide +kernel
  obtain ⟨h1, h2⟩ := h1
  refine ⟨?_, ?_, by decide +kernel, by decide +kernel, by decide +kernel⟩
  · obtain ⟨r, hr⟩ := C44_fits_ok bandConv false bandJob 0 (oneRom 80 30) bandJob_ready (by decide) (by decide +kernel) (by decide +kernel)
    refine ⟨r, hr, fun a0 regs => ?_⟩
    refine C68_orchestra_partial id (fun l => .refl l) bandCalls bandMidi bandMidi_read ?_ ?_ (by decide +kernel) band_clear (by rw [h1]) (by rw [h1]; decide) (by rw [h1]; decide)
      (by rw [h1, h2]; decide) (by rw [h1, h2]; decide) (F32.ofRat (1 / 5)) false bandSong bandSong_of ?_ ?_ bandConv false bandJob 0 (oneRom 80 30) r bandJob_ready
      ⟨by decide, by decide, by decide, by decide, by decide⟩ hr a0 regs 0 (slot (some 0) false) rfl bandSong_of
    · rw [h1]; exact ⟨by decide +kernel, by decide +kernel, by decide +kernel⟩
    · exact ⟨by decide +kernel, by decide +kernel, by decide +kernel, by decide +kernel, by decide +kernel⟩
    · intro tr htr c hc t n hcc
      have := plain_noCalls _ _ _ bandSong_of tr htr c hc
      rw [hcc] at this; cases this
    · decide
  · have : ∀ m ∈ file bandCalls, (match m.1 with
        | .midiEvent _ (.noteOn _ _ v) => decide (v ≠ 0 → 8 ≤ v.toNat)
        | _ => true) = true := by decide +kernel
    intro m hm d ch n v he
    have := this m hm
    rw [he] at this
    exact of_decide_eq_true this

/-- The example of C66: the two notes are heard with velocity 12 (100 in the file), with no instrument selected, and volume 200. -/
example (v : Bool) (a0 : Mem) (regs : Regs) : ∃ image, (demoExt.run selectFS false v selectCmd).2 "small.sfc" = some image ∧
    ∃ fuel evs T x y, playSong (upload (ofRom image) (bankAt 36 250 250).chunks a0) fuel regs 10 = some (evs, T, .goto 0xff T) ∧
      (soundsIn evs).Perm [⟨x, 164, 12, none, some 200⟩, ⟨y, 168, 12, none, some 200⟩] ∧ |(x : ℚ)| < 1 ∧ |(y : ℚ) - 24| < 1 := by
  have hok : (readMidi id selectCalls).map (fun m => (m.ticksPerBeat, m.maxTime, decide (songFromMidi m defaultTempoAdjust false = .ok selectSong),
      (List.finRange 16).all fun c => (m.channels c).messages.all fun y => programOf y.1 = none ∧ startsOn 9 y.1 = false ∧ volumeOf y.1 = none,
      (List.finRange 8).all fun v => v = (m.channels 0).baseVoice ∨ m.voices v = [],
      (List.finRange 8).all fun v => ((m.voices v).all fun y => home y.1 = some 0) && settingsBetweenNotes false (m.voices v))) = .ok (48, 96, true, true, true, true) := by decide +kernel
  cases hr : readMidi id selectCalls with
  | error e => rw [hr] at hok; cases hok
  | ok m =>
    rw [hr] at hok
    simp only [Except.map, Except.ok.injEq, Prod.mk.injEq, decide_eq_true_eq, List.all_eq_true, List.mem_finRange, true_implies, Bool.and_eq_true] at hok
    obtain ⟨k1, k2, hsong, k4, k5, k6⟩ := hok
    have hclear : Clear (file selectCalls) m := by
      refine ⟨fun ch _ _ c _ _ y hy => ⟨(k4 c y hy).1, (k4 c y hy).2.1⟩, ?_, ?_⟩
      · rintro ch _ ⟨v, hv, y, hy, hys⟩
        have hh := (k6 v).1 y hy
        have h0 : ch = 0 := by
          have : home y.1 = some ch := (by simpa [startsOn] using hys : _ ∧ _).2
          rw [hh] at this
          simpa using this.symm
        subst h0
        rcases k5 v with h | h
        · exact absurd h hv
        · rw [h] at hy; cases hy
      · rintro ⟨y, hy, hys⟩
        have := (k4 9 y hy).2.1
        have hh := (C17_routing id selectCalls m hr 9).1.mem_iff.1 hy
        have hh : home y.1 = some 9 := by simpa using (List.mem_filter.1 hh).2
        simp [startsOn, hys, hh] at this
    have hsteady : Steady m := by
      refine ⟨fun ch _ c _ _ y hy => (k4 c y hy).2.2, ?_, fun v => (k6 v).2⟩
      rintro ch ⟨v, hv, y, hy, hys⟩
      have hh := (k6 v).1 y hy
      have h0 : ch = 0 := by
        have : home y.1 = some ch := (by simpa [startsOn] using hys : _ ∧ _).2
        rw [hh] at this
        simpa using this.symm
      subst h0
      rcases k5 v with h | h
      · exact absurd h hv
      · rw [h] at hy; cases hy
    have hrun : demoExt.run selectFS false v selectCmd = (.ok (), (demoExt.run selectFS false v selectCmd).2) := by
      have h := selectCmd_succeeds false v
      generalize demoExt.run selectFS false v selectCmd = r at h ⊢
      obtain ⟨a, b⟩ := r
      simp only at h
      subst h
      rfl
    obtain ⟨-, image, i1, -, i3⟩ := C68_run_partial demoExt (fun l => .refl l) selectFS (demoExt.run selectFS false v selectCmd).2 false v selectCmd "small.sfc" _ selectJobs wideRom selectCmd_builds (fun _ => rfl)
      hrun rfl rfl rfl (selectJobs_ready false) selectJobs_safe selectJobs_apart [] _ _ rfl (selectJobs_clean _ (List.mem_cons_self ..)) 10 (songDefDefault "tune.mid") rfl
      "tune.mid" [60, 64] selectCalls m selectSong rfl rfl rfl rfl hr hsong
      (by rw [k1]; exact ⟨by decide +kernel, by decide +kernel, by decide +kernel⟩)
      ⟨by decide +kernel, by decide +kernel, by decide +kernel, by decide +kernel, by decide +kernel⟩ (by decide +kernel) hclear
      (by rw [k1]; decide) (by rw [k1]; decide) (by rw [k1]; decide) (by rw [k1, k2]; decide) (by rw [k1, k2]; decide)
      (by intro tr htr c hc t n h; have := plain_noCalls _ _ _ hsong tr htr c hc; rw [h] at this; cases this)
      (by decide)
    obtain ⟨fuel, evs, T, heard, e1, e2, e3, e4⟩ := i3 a0 regs
    refine ⟨image, i1, fuel, evs, T, ?_⟩
    have hL : NotesLoud (file selectCalls) := by
      have : ∀ m ∈ file selectCalls, (match m.1 with
          | .midiEvent _ (.noteOn _ _ v) => decide (v ≠ 0 → 8 ≤ v.toNat)
          | _ => true) = true := by decide +kernel
      intro m hm d ch n v he
      have := this m hm
      rw [he] at this
      exact of_decide_eq_true this
    have hno : ∀ c t, programAt (m.channels c).messages t = none := by
      intro c t
      unfold programAt lastProgram
      rw [List.getLast?_eq_none_iff, List.filterMap_eq_nil_iff]
      intro y hy
      exact (k4 c y (List.mem_of_mem_filter hy)).1
    have hno2 : ∀ c t, volumeAt (m.channels c).messages t = none := by
      intro c t
      unfold volumeAt lastVolume
      rw [List.getLast?_eq_none_iff, List.filterMap_eq_nil_iff]
      intro y hy
      exact (k4 c y (List.mem_of_mem_filter hy)).2.2
    have hn : fileSounds (ownSettings m) (file selectCalls) = [⟨0, 164, 12, none, some 200⟩, ⟨48, 168, 12, none, some 200⟩] := by
      have : fileSounds (ownSettings m) (file selectCalls) = fileSounds (fun _ => (none, some 200)) (file selectCalls) := by
        unfold fileSounds
        apply List.filterMap_congr
        intro y hy
        have h9 : ∀ y ∈ file selectCalls, ∀ z ∈ noteOf (drum y.1), z.1 = 0 := by decide +kernel
        cases heq : noteOf (drum y.1) with
        | none =>
          have hs : ∀ (x : Message) (t : Nat) (s : Settings), noteOf x = none → soundOf s (x, t) = none := by
            intro x t s hx
            rcases x with ⟨dl, e, data⟩ | ⟨dl, e⟩ | ⟨dl, data⟩ | _ <;> try rfl
            cases e <;> first | rfl | cases hx
          rw [hs _ _ _ heq, hs _ _ _ heq]
        | some z =>
          obtain ⟨ch, n⟩ := z
          have := h9 y hy (ch, n) heq
          simp only at this
          subst this
          refine congrArg (fun i => soundOf i (drum y.1, y.2)) ?_
          unfold ownSettings ownInstrument ownVolume
          simp only [heq]
          rw [if_neg (by decide), hno, hno2]; rfl
      rw [this]
      decide +kernel
    rw [hn, k1] at e4
    cases e4 with
    | cons q1 e4 =>
      cases e4 with
      | cons q2 e4 =>
        cases e4
        rename_i a b
        refine ⟨a.time, b.time, e2 0, e3.symm.trans (.of_eq ?_), ?_, ?_⟩
        · obtain ⟨x, a1, a2, a3⟩ := a
          obtain ⟨y, b1, b2, b3⟩ := b
          have p1 := q1.pitch; have p2 := q1.instrument; have p3 := q1.velocity ⟨rfl, hL⟩; have p4 := q1.volume hsteady
          have r1 := q2.pitch; have r2 := q2.instrument; have r3 := q2.velocity ⟨rfl, hL⟩; have r4 := q2.volume hsteady
          obtain ⟨a4, a5⟩ := a3
          obtain ⟨b4, b5⟩ := b3
          simp only at p1 p2 p3 p4 r1 r2 r3 r4
          subst p1 p2 p3 p4 r1 r2 r3 r4
          rfl
        · have := q1.time; simpa using this
        · have := q2.time; norm_num at this; exact this

end M2S
