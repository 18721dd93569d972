import Verif.Proofs.Changes
import Verif.Props.Portamento
import Verif.Props.Voices
/-
C65: when instrument, volume and tempo changes take effect.
-/
namespace M2S
open RomSpec Nspc Engine Timing MidiSpec

/-- **C65 (one voice, any resolution), partial** (missing: program changes during a note and pieces above 32511 units or `exactTicks` ticks; and volume and tempo changes are
not made at the time of their message, see `C65_tempo_false` and `C65_volume_false`): the changes in a converted voice are those its events ask for, in order and with the right values: the table's instrument for
a program, twice the MIDI volume, the tempo byte of C30. Each happens at the latest start or end of a note or program change of the voice before its message, less than a unit
and 23/24 tick per event more or less. A program change thus happens at its own time. -/
theorem C65_changes_any_partial (evs : List (Message × Nat)) (tpb G T : Nat) (f : F32) (hp : 0 < tpb) (hp2 : tpb < 65536) (hG : G + 3525 ≤ exactTicks tpb)
    (hG2 : 24 * (G + 1) ≤ 32511 * tpb) (hT : T < 2 ^ 31) (hv : voiceOk tpb G T 0 0 none evs = true) (hpr : programsBetweenNotes false evs = true) :
    ∃ cs, trackNew evs tpb T f = .ok cs ∧ List.Forall₂ (MadeNear tpb (slack tpb * (evs.length + 1))) (changeOnsets cs) (changes f 0 false evs) :=
  trackNew_changes evs tpb G T f hp hp2 hG hG2 hT hv hpr

/-- A change in the converted voice against the change asked for: the same command, less than one unit from the latest start or end of a note or program change. -/
def MadeSince (tpb : Nat) (o : Nat × Command) (c : Change) : Prop := o.2 = c.command ∧ |(o.1 : ℚ) - 24 * c.since / tpb| < 1

theorem madeSince_of (tpb : Nat) (hp : 0 < tpb) (o : Nat × Command) (c : Change) (h : MadeNear tpb 0 o c) : MadeSince tpb o c := by
  obtain ⟨e1, e2, e3⟩ := h
  rw [Nat.add_zero] at e2 e3
  have hpq : (0 : ℚ) < tpb := by exact_mod_cast hp
  have q2 : (o.1 : ℚ) * tpb < 24 * c.since + tpb := by exact_mod_cast e2
  have q3 : (24 * c.since : ℚ) < o.1 * tpb + tpb := by exact_mod_cast e3
  refine ⟨e1, ?_⟩
  rw [abs_lt]
  constructor
  · have : (24 * c.since : ℚ) / tpb < o.1 + 1 := by rw [div_lt_iff₀ hpq]; linarith
    linarith
  · have : (o.1 : ℚ) - 1 < 24 * c.since / tpb := by rw [lt_div_iff₀ hpq]; linarith
    linarith

/-- **C65 (one voice), partial** (missing as above): with the usual resolutions the deviation is less than one unit. -/
theorem C65_changes_partial (evs : List (Message × Nat)) (tpb G T : Nat) (f : F32) (h24 : 24 ∣ tpb) (hp : 0 < tpb) (hp2 : tpb < 65536) (hG : G + 3525 ≤ exactTicks tpb)
    (hG2 : 24 * (G + 1) ≤ 32511 * tpb) (hT : T < 2 ^ 31) (hv : voiceOk tpb G T 0 0 none evs = true) (hpr : programsBetweenNotes false evs = true) :
    ∃ cs, trackNew evs tpb T f = .ok cs ∧ List.Forall₂ (MadeSince tpb) (changeOnsets cs) (changes f 0 false evs) := by
  obtain ⟨cs, h1, h2⟩ := trackNew_changes evs tpb G T f hp hp2 hG hG2 hT hv hpr
  have : slack tpb = 0 := by unfold slack; rw [if_pos (by omega)]
  rw [this, Nat.zero_mul] at h2
  exact ⟨cs, h1, h2.imp fun o c h => madeSince_of tpb hp o c h⟩

theorem changes_mem (f : F32) (evs : List (Message × Nat)) : ∀ (since : Nat) (b : Bool) (c : Change), c ∈ changes f since b evs →
    (∃ i, c.command = .setInstrument i ∧ c.since = c.time) ∨ (∃ x, c.command = .channelVolume x) ∨ ∃ x, c.command = .tempo x := by
  induction evs with
  | nil => intro s b c h; simp [changes] at h
  | cons ev evs ih =>
    intro s b c h
    rw [changes, List.mem_append] at h
    rcases h with h | h
    · unfold changeOf at h
      split at h
      · simp only [List.mem_singleton] at h; subst h; exact .inl ⟨_, rfl, rfl⟩
      · split_ifs at h
        · simp only [List.mem_singleton] at h; subst h; exact .inr (.inl ⟨_, rfl⟩)
        · simp at h
      · simp only [List.mem_singleton] at h; subst h; exact .inr (.inr ⟨_, rfl⟩)
      · simp at h
    · exact ih _ _ _ h

theorem forall₂_filter_command {R : Nat × Command → Change → Prop} (hR : ∀ o c, R o c → o.2 = c.command) (q : Command → Bool) {a : List (Nat × Command)} {b : List Change} (h : List.Forall₂ R a b) :
    List.Forall₂ R (a.filter fun o => q o.2) (b.filter fun c => q c.command) := by
  induction h with
  | nil => exact .nil
  | cons h1 _ ih =>
    rw [List.filter_cons, List.filter_cons, hR _ _ h1]
    split_ifs
    · exact .cons h1 ih
    · exact ih

/-- **C65 (instruments), partial** (missing: program changes during a note, where it is false: C11, C12): instrument changes are made on time. -/
theorem C65_instruments_partial (evs : List (Message × Nat)) (tpb G T : Nat) (f : F32) (h24 : 24 ∣ tpb) (hp : 0 < tpb) (hp2 : tpb < 65536) (hG : G + 3525 ≤ exactTicks tpb)
    (hG2 : 24 * (G + 1) ≤ 32511 * tpb) (hT : T < 2 ^ 31) (hv : voiceOk tpb G T 0 0 none evs = true) (hpr : programsBetweenNotes false evs = true) :
    ∃ cs, trackNew evs tpb T f = .ok cs ∧
      List.Forall₂ (fun (o : Nat × Command) (c : Change) => o.2 = c.command ∧ |(o.1 : ℚ) - 24 * c.time / tpb| < 1)
        ((changeOnsets cs).filter fun o => isInstrument o.2) ((changes f 0 false evs).filter fun c => isInstrument c.command) := by
  obtain ⟨cs, h1, h2⟩ := C65_changes_partial evs tpb G T f h24 hp hp2 hG hG2 hT hv hpr
  refine ⟨cs, h1, ?_⟩
  have h3 := forall₂_filter_command (fun o c h => h.1) isInstrument h2
  have h4 : ∀ c ∈ (changes f 0 false evs).filter (fun c => isInstrument c.command), c.since = c.time := by
    intro c hc
    obtain ⟨hc, hi⟩ := List.mem_filter.1 hc
    rcases changes_mem f evs 0 false c hc with ⟨i, -, h⟩ | ⟨x, h⟩ | ⟨x, h⟩
    · exact h
    · rw [h] at hi; cases hi
    · rw [h] at hi; cases hi
  generalize ((changes f 0 false evs).filter fun c => isInstrument c.command) = b at h3 h4
  generalize ((changeOnsets cs).filter fun o => isInstrument o.2) = a at h3
  induction h3 with
  | nil => exact .nil
  | cons g _ ih =>
    refine .cons ⟨g.1, ?_⟩ (ih fun c hc => h4 c (List.mem_cons_of_mem _ hc))
    rw [← h4 _ List.mem_cons_self]
    exact g.2

/-- The instrument changes are the program changes of the voice. -/
theorem C65_instruments_asked (f : F32) (evs : List (Message × Nat)) (since : Nat) (b : Bool) :
    ((changes f since b evs).filter fun c => isInstrument c.command).map (fun c => (c.time, c.command)) = evs.filterMap instrumentOf := by
  induction evs generalizing since b with
  | nil => rfl
  | cons ev evs ih =>
    rw [changes, List.filter_append, List.map_append, ih, List.filterMap_cons]
    obtain ⟨m, t⟩ := ev
    rcases m with ⟨dl, e, data⟩ | ⟨dl, e⟩ | ⟨dl, data⟩ | _ <;> try rfl
    · cases e <;> rfl
    · cases e with
      | controlChange ch c d =>
        simp only [changeOf]
        split_ifs <;> rfl
      | _ => rfl

/-- No change is late: if the events are in time order, each change happens at most one unit after its message. -/
theorem C65_never_late (f : F32) (evs : List (Message × Nat)) (h : evs.Pairwise fun a b => a.2 ≤ b.2) (since : Nat) (b : Bool) (hs : ∀ ev ∈ evs, since ≤ ev.2) :
    ∀ c ∈ changes f since b evs, c.since ≤ c.time := by
  induction evs generalizing since b with
  | nil => intro c hc; simp [changes] at hc
  | cons ev evs ih =>
    intro c hc
    rw [changes, List.mem_append] at hc
    have h0 := hs ev List.mem_cons_self
    obtain ⟨h1, h2⟩ := List.pairwise_cons.1 h
    rcases hc with hc | hc
    · unfold changeOf at hc
      split at hc
      · simp only [List.mem_singleton] at hc; subst hc; exact le_rfl
      · split_ifs at hc
        · simp only [List.mem_singleton] at hc; subst hc; exact h0
        · simp at hc
      · simp only [List.mem_singleton] at hc; subst hc; exact h0
      · simp at hc
    · refine ih h2 _ _ ?_ c hc
      intro x hx
      have := h1 x hx
      unfold sinceAfter
      split
      · exact this
      · split_ifs
        · exact this
        · omega
      · exact this
      · omega

/-- A voice with changes of each kind. Its tempo changes at tick 0, and at tick 480 with the second note. -/
def changeVoice : List (Message × Nat) :=
  [(.metaEvent 0 .setTempo [7, 161, 32], 0), evProgram 0 40, evOn 0 60 100, (.midiEvent 0 (.controlChange 0 7 100), 240), evOff 480 60, (.metaEvent 0 .setTempo [3, 208, 144], 480),
    evProgram 480 48, evOn 720 62 90, evOff 960 62]

example : voiceOk 480 8000 960 0 0 none changeVoice = true ∧ programsBetweenNotes false changeVoice = true ∧ changeVoice.Pairwise fun a b => a.2 ≤ b.2 := by decide

example : changes (.fin (1 / 5)) 0 false changeVoice = [⟨0, 0, .tempo 24⟩, ⟨0, 0, .setInstrument 9⟩, ⟨240, 0, .channelVolume 200⟩, ⟨480, 480, .tempo 48⟩, ⟨480, 480, .setInstrument 9⟩] := by
  decide +kernel

example : ∃ cs, trackNew changeVoice 480 960 (.fin (1 / 5)) = .ok cs ∧
    changeOnsets cs = [(0, .tempo 24), (0, .setInstrument 9), (0, .channelVolume 200), (24, .tempo 48), (24, .setInstrument 9)] :=
  ⟨(trackNew changeVoice 480 960 (.fin (1 / 5))).toOption.get!, by decide +kernel, by decide +kernel⟩

/-- **Tempo changes are not made on time**: a tempo change at beat 8 of a voice that has its first note there is made at the start of the song. -/
theorem C65_tempo_false : ∃ (evs : List (Message × Nat)) (cs : List PCmd), voiceOk 480 8000 4320 0 0 none evs = true ∧ programsBetweenNotes false evs = true ∧
    (evs.Pairwise fun a b => a.2 ≤ b.2) ∧ (changes (.fin (1 / 5)) 0 false evs).map (fun c => (c.time, c.command)) = [(3840, .tempo 48)] ∧
    trackNew evs 480 4320 (.fin (1 / 5)) = .ok cs ∧ changeOnsets cs = [(0, .tempo 48)] ∧ noteOnsets cs = [(192, 164)] :=
  ⟨[(.metaEvent 0 .setTempo [3, 208, 144], 3840), evOn 3840 60 100, evOff 4320 60],
    (trackNew [(.metaEvent 0 .setTempo [3, 208, 144], 3840), evOn 3840 60 100, evOff 4320 60] 480 4320 (.fin (1 / 5))).toOption.get!,
    by decide, by decide, by decide, by decide +kernel, by decide +kernel, by decide +kernel, by decide +kernel⟩

/-- **Volume changes are not made on time**: a volume change in the middle of a note is made when the note starts. -/
theorem C65_volume_false : ∃ (evs : List (Message × Nat)) (cs : List PCmd), voiceOk 480 8000 960 0 0 none evs = true ∧ programsBetweenNotes false evs = true ∧
    (evs.Pairwise fun a b => a.2 ≤ b.2) ∧ (changes (.fin (1 / 5)) 0 false evs).map (fun c => (c.time, c.command)) = [(480, .channelVolume 20)] ∧
    trackNew evs 480 960 (.fin (1 / 5)) = .ok cs ∧ onsets 0 cs = [(0, .channelVolume 20), (0, .note 164)] :=
  ⟨[evOn 0 60 100, (.midiEvent 0 (.controlChange 0 7 10), 480), evOff 960 60],
    (trackNew [evOn 0 60 100, (.midiEvent 0 (.controlChange 0 7 10), 480), evOff 960 60] 480 960 (.fin (1 / 5))).toOption.get!,
    by decide, by decide, by decide, by decide +kernel, by decide +kernel, by decide +kernel⟩

/-! ## The engine -/

theorem heardChanges_append_cmds (l : List Command) (t : Nat) (evs : List Ev) :
    heardChanges t (l.map (fun c => Ev.cmd (encodeCmd noAddr c).1 (encodeCmd noAddr c).2) ++ evs) =
      heardChanges t (l.map (fun c => Ev.cmd (encodeCmd noAddr c).1 (encodeCmd noAddr c).2)) ++ heardChanges t evs := by
  induction l with
  | nil => rfl
  | cons c l ih => simp only [List.map_cons, List.cons_append, heardChanges, ih, List.append_assoc]

/-- A change heard against a change asked for. -/
def HeardSince (tpb : Nat) (o : Nat × UInt8 × List UInt8) (c : Change) : Prop := o.2 = encodeCmd noAddr c.command ∧ |(o.1 : ℚ) - 24 * c.since / tpb| < 1

/-- The changes heard when a converted song is played with the timing it should have. -/
theorem changes_heard (m : MidiHandler) (f : F32) (opt : Bool) (s : Song) (hsong : songFromMidi m f opt = .ok s) (hr : InRange s)
    (hcount : ∀ tr ∈ s.tracks, ∀ c ∈ tr, ∀ t n, c.command = .callLoop t n → n.toNat ≤ 2)
    (G : Nat) (h24 : 24 ∣ m.ticksPerBeat) (hp : 0 < m.ticksPerBeat) (hp2 : m.ticksPerBeat < 65536) (hG : G + 3525 ≤ exactTicks m.ticksPerBeat)
    (hG2 : 24 * (G + 1) ≤ 32511 * m.ticksPerBeat) (hT : m.maxTime < 2 ^ 31)
    (hv : ∀ v, voiceOk m.ticksPerBeat G m.maxTime 0 0 none (m.voices v) = true)
    (hpr : ∀ v, programsBetweenNotes false (m.voices v) = true)
    (part : List Nat) (evs : List (Option (List Ev))) (h1 : s.parts[0]? = some part) (h3 : timingOf evs = timingOf (partSound s part)) :
    ∃ vs : List (Fin 8), vs.Pairwise (· < ·) ∧ (∀ v, v ∉ vs → changes f 0 false (m.voices v) = []) ∧ evs.length = 8 ∧
      ∀ i < 8, match vs[i]? with
        | some v => ∃ l rest, evs[i]? = some (some l) ∧ heardChanges 0 l = (0, 0xed, [0xc8]) :: rest ∧
            List.Forall₂ (HeardSince m.ticksPerBeat) rest (changes f 0 false (m.voices v))
        | none => evs[i]? = some none := by
  obtain ⟨vs, g1, g2, g3, g4⟩ := song_channels m f opt s hsong hr hcount
  have hpart : part = List.range vs.length := by rw [g3] at h1; simpa using h1.symm
  subst hpart
  refine ⟨vs, g1, ?_, by have := congrArg List.length h3; simpa [timingOf, partSound] using this, ?_⟩
  · intro v hvn
    obtain ⟨cs, e1, e2⟩ := C65_changes_partial (m.voices v) _ G m.maxTime f h24 hp hp2 hG hG2 hT (hv v) (hpr v)
    rw [g2 v hvn] at e1
    injection e1 with e1
    subst e1
    exact List.forall₂_nil_left_iff.mp e2
  · intro i hi
    have := g4 i hi
    cases hvi : vs[i]? with
    | none =>
      rw [hvi] at this
      exact (timingOf_get h3 i).1 this
    | some v =>
      rw [hvi] at this
      obtain ⟨cs, l, e1, e0, e2, -, -, -, e5, e6, e7⟩ := this
      obtain ⟨l', k1, -, -, -, k2⟩ := (timingOf_get h3 i).2 l e2
      obtain ⟨cs', e1', e2'⟩ := C65_changes_partial (m.voices v) _ G m.maxTime f h24 hp hp2 hG hG2 hT (hv v) (hpr v)
      rw [e1] at e1'
      injection e1' with e1'
      subst e1'
      refine ⟨l', (changeOnsets cs).map changeBytes, k1, ?_, ?_⟩
      · rw [← heardChanges_timing, k2, heardChanges_timing, e5, heardChanges_append_cmds, heardChanges_intended cs e6 e7]
        have hin : i < vs.length := by
          by_contra hn
          rw [List.getElem?_eq_none (by omega)] at hvi
          cases hvi
        have hpre : heardChanges 0 ((preambleFor s.parts i).map (fun c => Ev.cmd (encodeCmd noAddr c).1 (encodeCmd noAddr c).2)) = [(0, 0xed, [0xc8])] := by
          unfold preambleFor
          rw [g3]
          split_ifs with q1 q2
          · rfl
          · rfl
          · exact absurd (by simp [hin]) q2
        rw [hpre]
        rfl
      · rw [List.forall₂_map_left_iff]
        refine e2'.imp ?_
        rintro o c ⟨a, b⟩
        exact ⟨by show encodeCmd noAddr o.2 = _; rw [a], b⟩

/-- **C65 (one bank), partial** (missing as in C65 for one voice and in C56): a song converted from MIDI data, with or without loop optimisation, is built into a ROM; the bank is uploaded, and the engine plays
the song. Then in the channel of each voice the changes heard are a volume change to C8 at the start and then those the events of the voice ask for, in order, with the right opcode and value,
each at the latest start or end of a note or program change before its message, less than one unit more or less. Voices that ask for a change have a channel. -/
theorem C65_heard_partial {Path : Type} (conv : Converter Path) (verbose : Bool) (j : Job Path) (fs : Nat) (rom r : Rom)
    (hj : j.Ready conv (ofRom rom) fs) (hc : j.bank.Clean) (h : writeBank conv verbose j.songs rom j.base j.first fs = .ok r) (a0 : Mem) (regs : Regs)
    (k : Nat) (d : SongDef Path) (s : Song) (hk : j.songs[k]? = some d) (hs : loadSong conv d = .ok s)
    (m : MidiHandler) (f : F32) (opt : Bool) (hsong : songFromMidi m f opt = .ok s) (hr : InRange s)
    (hcount : ∀ tr ∈ s.tracks, ∀ c ∈ tr, ∀ t n, c.command = .callLoop t n → n.toNat ≤ 2)
    (G : Nat) (h24 : 24 ∣ m.ticksPerBeat) (hp : 0 < m.ticksPerBeat) (hp2 : m.ticksPerBeat < 65536) (hG : G + 3525 ≤ exactTicks m.ticksPerBeat)
    (hG2 : 24 * (G + 1) ≤ 32511 * m.ticksPerBeat) (hT : m.maxTime < 2 ^ 31)
    (hv : ∀ v, voiceOk m.ticksPerBeat G m.maxTime 0 0 none (m.voices v) = true)
    (hpr : ∀ v, programsBetweenNotes false (m.voices v) = true) :
    ∃ (vs : List (Fin 8)) (fuel : Nat) (evs : List (Option (List Ev))) (T : Nat), vs.Pairwise (· < ·) ∧ (∀ v, v ∉ vs → changes f 0 false (m.voices v) = []) ∧ evs.length = 8 ∧
      (∀ n, playSong (upload (ofRom r) j.bank.chunks a0) (fuel + n) regs (fs + k) = some (evs, T, if d.loops then .goto 0xff T else .stop)) ∧
      ∀ i < 8, match vs[i]? with
        | some v => ∃ l rest, evs[i]? = some (some l) ∧ heardChanges 0 l = (0, 0xed, [0xc8]) :: rest ∧
            List.Forall₂ (HeardSince m.ticksPerBeat) rest (changes f 0 false (m.voices v))
        | none => evs[i]? = some none := by
  have hP := C55_playable m f opt s hsong hr
  obtain ⟨part, fuel, evs, T, h1, h2, h3, -⟩ := C54_bank_partial conv verbose j fs rom r hj hc h a0 regs k d s hk hs hP
  obtain ⟨vs, g1, g2, g3, g4⟩ := changes_heard m f opt s hsong hr hcount G h24 hp hp2 hG hG2 hT hv hpr part evs h1 h3
  exact ⟨vs, fuel, evs, T, g1, g2, g3, h2, g4⟩

/-- What should be heard of the voice above: the volume of the preamble, then its changes. -/
example : ((partSound ⟨[[0]], [(trackNew changeVoice 480 960 (.fin (1 / 5))).toOption.get!]⟩ [0]).headD none).map (heardChanges 0) =
    some [(0, 0xed, [0xc8]), (0, 0xe7, [24]), (0, 0xe0, [9]), (0, 0xed, [200]), (24, 0xe7, [48]), (24, 0xe0, [9])] := by decide +kernel

/-! ## The file -/

theorem changes_tempos (f : F32) (evs : List (Message × Nat)) (since : Nat) (b : Bool) :
    ((changes f since b evs).filter fun c => isTempo c.command).map (fun c => (c.time, c.command)) = evs.filterMap (tempoOf f) := by
  induction evs generalizing since b with
  | nil => rfl
  | cons ev evs ih =>
    rw [changes, List.filter_append, List.map_append, ih, List.filterMap_cons]
    obtain ⟨m, t⟩ := ev
    rcases m with ⟨dl, e, data⟩ | ⟨dl, e⟩ | ⟨dl, data⟩ | _ <;> try rfl
    · cases e <;> rfl
    · cases e with
      | controlChange ch c d =>
        simp only [changeOf]
        split_ifs <;> rfl
      | _ => rfl

/-- **C65 (tempo).** The tempo changes asked for are those of the file: all in the voice of the first channel, in time order; no other voice asks for one. -/
theorem C65_file_tempos (ord : EnumOrder) (calls : List Callback) (h : MidiHandler) (hr : readMidi ord calls = .ok h) (f : F32) :
    (((changes f 0 false (h.voices 0)).filter fun c => isTempo c.command).map fun c => (c.time, c.command)).Perm ((file calls).filterMap (tempoOf f)) ∧
    (((changes f 0 false (h.voices 0)).filter fun c => isTempo c.command).map fun c => (c.time, c.command)).Pairwise (fun a b => a.1 ≤ b.1) ∧
    ∀ v ≠ 0, ∀ c ∈ changes f 0 false (h.voices v), isTempo c.command = false := by
  obtain ⟨s1, s2, s3, s4⟩ := C29_system_messages ord calls h hr
  have sys : ∀ m : Message × Nat, ¬ isSystem m.1 = true → tempoOf f m = none := by
    rintro ⟨m, t⟩ hm
    rcases m with ⟨dl, e, data⟩ | ⟨dl, e⟩ | ⟨dl, data⟩ | _ <;> try rfl
    cases e with
    | setTempo => exact absurd rfl hm
    | _ => rfl
  have glob : ∀ m : Message × Nat, ¬ isGlobal m.1 = true → tempoOf f m = none := by
    rintro ⟨m, t⟩ hm
    rcases m with ⟨dl, e, data⟩ | ⟨dl, e⟩ | ⟨dl, data⟩ | _ <;> try rfl
    cases e with
    | setTempo => exact absurd rfl hm
    | _ => rfl
  have sub : ∀ (q : Message × Nat → Bool), (∀ m, ¬ q m = true → tempoOf f m = none) → ∀ l : List (Message × Nat), l.filterMap (tempoOf f) = (l.filter q).filterMap (tempoOf f) := by
    intro q hq l
    rw [List.filterMap_filter]
    apply List.filterMap_congr
    intro m _
    split_ifs with h0
    · rfl
    · exact hq m h0
  have htime : ∀ (m : Message × Nat) x, tempoOf f m = some x → x.1 = m.2 := by
    rintro ⟨m, t⟩ x hx
    unfold tempoOf at hx
    split at hx
    · rename_i heq
      cases heq
      cases hx
      rfl
    · cases hx
  refine ⟨?_, ?_, ?_⟩
  · rw [changes_tempos, sub _ sys, sub (fun m => isGlobal m.1) glob (file calls)]
    exact s1.filterMap _
  · rw [changes_tempos, sub _ sys, List.pairwise_filterMap]
    refine s2.imp ?_
    intro a b hab x hx y hy
    rw [htime a x hx, htime b y hy]
    exact hab
  · intro v hv c hcm
    by_contra hct
    have hmem : (c.time, c.command) ∈ ((changes f 0 false (h.voices v)).filter fun c => isTempo c.command).map fun c => (c.time, c.command) :=
      List.mem_map.2 ⟨c, List.mem_filter.2 ⟨hcm, by simpa using hct⟩, rfl⟩
    rw [changes_tempos, List.mem_filterMap] at hmem
    obtain ⟨m, hm, hx⟩ := hmem
    rw [sys m (by rw [s4 v hv m hm]; decide)] at hx
    cases hx

/-- A file whose tempo changes while the first channel rests: the changes are in voice 0. -/
example : (readMidi id [.header 1 24, .trackChange, .metaEvent 0 .setTempo [7, 161, 32], .metaEvent 96 .setTempo [3, 208, 144], .trackChange, .midiEvent 0 (.noteOn 0 60 100), .midiEvent 24 (.noteOff 0 60 0)]).map
    (fun h => changes (.fin (1 / 5)) 0 false (h.voices 0)) = .ok [⟨0, 0, .tempo 24⟩, ⟨96, 24, .tempo 48⟩] := by decide +kernel

end M2S
