import Verif.Proofs.Strike
import Verif.Props.Changes
/-
Property C67: how notes are struck: velocity, instrument and volume.
-/
namespace M2S
open RomSpec Nspc Engine Timing MidiSpec

/-- **C67 (one voice).** In a successful conversion without portamento every note of the voice is struck with an eighth of its MIDI velocity, and with the instrument and volume in force when the note ends. -/
theorem C67_track (s0 : Settings) (evs : List (Message × Nat)) (tpb T : Nat) (f : F32) (cs : List PCmd) (h : trackNew evs tpb T f = .ok cs) (hno : noPortamento evs = true) :
    struck s0 cs = strikesAtEnd s0 none evs := trackNew_struck s0 evs tpb T f cs h hno

/-- **C67 (one voice), partial** (missing: portamento, and changes during a note, where it is false: `C67_settings_false`): every note is struck with the instrument and volume in force when it starts. -/
theorem C67_track_partial (s0 : Settings) (evs : List (Message × Nat)) (tpb T : Nat) (f : F32) (cs : List PCmd) (h : trackNew evs tpb T f = .ok cs) (hno : noPortamento evs = true)
    (hset : settingsBetweenNotes false evs = true) : struck s0 cs = strikes s0 none evs := by
  rw [C67_track s0 evs tpb T f cs h hno, strikesAtEnd_eq evs s0 none (by simpa using hset)]
  rfl

/-- A voice with three notes, two instruments and two volumes. -/
def strikeVoice : List (Message × Nat) :=
  [evProgram 0 40, evOn 0 60 100, evOff 480 60, (.midiEvent 0 (.controlChange 0 7 50), 480), evOn 480 62 64, evOff 960 62, evProgram 960 0, evOn 960 64 127, evOff 1440 64]

example : noPortamento strikeVoice = true ∧ settingsBetweenNotes false strikeVoice = true := by decide

example : (trackNew strikeVoice 480 1440 (.fin (1 / 5))).map (struck (none, none)) =
    .ok [⟨164, some 12, (some 9, none)⟩, ⟨166, some 8, (some 9, some 100)⟩, ⟨168, some 15, (some (instrumentFor 0 0), some 100)⟩] := by decide +kernel

/-- **A change in the middle of a note applies to the whole note**: the note starts at volume 100 in the file, but is struck at volume 20. -/
theorem C67_settings_false : ∃ (evs : List (Message × Nat)) (cs : List PCmd), voiceOk 480 8000 960 0 0 none evs = true ∧ noPortamento evs = true ∧ (evs.Pairwise fun a b => a.2 ≤ b.2) ∧
    trackNew evs 480 960 (.fin (1 / 5)) = .ok cs ∧ strikes (none, some 100) none evs = [⟨164, some 12, (none, some 100)⟩] ∧ struck (none, some 100) cs = [⟨164, some 12, (none, some 20)⟩] :=
  ⟨[evOn 0 60 100, (.midiEvent 0 (.controlChange 0 7 10), 480), evOff 960 60],
    (trackNew [evOn 0 60 100, (.midiEvent 0 (.controlChange 0 7 10), 480), evOff 960 60] 480 960 (.fin (1 / 5))).toOption.get!,
    by decide, by decide, by decide, by decide +kernel, by decide +kernel, by decide +kernel⟩

/-! ## The engine -/

/-- What is struck in a channel that plays a preamble and a converted voice. -/
theorem heard_struck (evs : List (Message × Nat)) (tpb T : Nat) (f : F32) (cs : List PCmd) (h : trackNew evs tpb T f = .ok cs) (hno : noPortamento evs = true)
    (parts : List (List Nat)) (i : Nat) (hi : (parts.any fun p => p.contains i) = true) (l : List Ev)
    (hl : l = (preambleFor parts i).map (fun c => Ev.cmd (encodeCmd noAddr c).1 (encodeCmd noAddr c).2) ++ intended noAddr cs 0 13 7) :
    (heardStrikes (none, none) l).map Strike.quiet = (strikesAtEnd (none, some 200) none evs).map Strike.quiet ∧
    ((∀ t dl ch n x, (Message.midiEvent dl (.noteOn ch n x), t) ∈ evs → 8 ≤ x.toNat) → heardStrikes (none, none) l = strikesAtEnd (none, some 200) none evs) := by
  have htr := C67_track (none, some 200) _ _ _ _ _ h hno
  refine ⟨?_, fun hvel => ?_⟩
  · rw [hl, heardStrikes_preamble _ _ hi, heardStrikes_intended_quiet, htr]
  · rw [hl, heardStrikes_preamble _ _ hi, heardStrikes_intended, htr]
    intro c hc p hp
    obtain ⟨y, y1, y2⟩ := mem_struck cs (none, some 200) c hc p hp
    rw [htr] at y1
    rw [← y2]
    exact strikesAtEnd_velocity _ hvel _ none (by simp) y y1

/-- What the channels of a song should strike. -/
theorem channels_struck (m : MidiHandler) (f : F32) (opt : Bool) (s : Song) (hsong : songFromMidi m f opt = .ok s) (hr : InRange s)
    (hcount : ∀ tr ∈ s.tracks, ∀ c ∈ tr, ∀ t n, c.command = .callLoop t n → n.toNat ≤ 2)
    (hno : ∀ v, noPortamento (m.voices v) = true) (part : List Nat) (hpart : s.parts[0]? = some part) :
    ∃ vs : List (Fin 8), vs.Pairwise (· < ·) ∧ (∀ v, v ∉ vs → strikesAtEnd (none, some 200) none (m.voices v) = []) ∧
      ∀ i < 8, match vs[i]? with
        | some v => ∃ l, (partSound s part)[i]? = some (some l) ∧
            (heardStrikes (none, none) l).map Strike.quiet = (strikesAtEnd (none, some 200) none (m.voices v)).map Strike.quiet ∧
            ((∀ t dl ch n x, (Message.midiEvent dl (.noteOn ch n x), t) ∈ m.voices v → 8 ≤ x.toNat) →
              heardStrikes (none, none) l = strikesAtEnd (none, some 200) none (m.voices v))
        | none => (partSound s part)[i]? = some none := by
  obtain ⟨vs, g1, g2, g3, g4⟩ := song_channels m f opt s hsong hr hcount
  have hpart' : part = List.range vs.length := by rw [g3] at hpart; simpa using hpart.symm
  subst hpart'
  refine ⟨vs, g1, fun v hvn => ?_, fun i hi => ?_⟩
  · rw [← C67_track (none, some 200) _ _ _ _ _ (g2 v hvn) (hno v)]; rfl
  · have := g4 i hi
    cases hvi : vs[i]? with
    | none => rw [hvi] at this; exact this
    | some v =>
      rw [hvi] at this
      obtain ⟨cs, l, e1, -, e2, -, -, -, e5, -, -⟩ := this
      have hin : i < vs.length := by
        by_contra hn
        rw [List.getElem?_eq_none (by omega)] at hvi
        cases hvi
      have hany : (s.parts.any fun p => p.contains i) = true := by rw [g3]; simp [hin]
      exact ⟨l, e2, heard_struck _ _ _ _ _ e1 (hno v) _ _ hany l e5⟩

/-- Without loop optimisation there are no calls. -/
theorem plain_noCalls (m : MidiHandler) (f : F32) (s : Song) (h : songFromMidi m f false = .ok s) : ∀ tr ∈ s.tracks, ∀ c ∈ tr, isCall c.command = false := by
  unfold songFromMidi at h
  rw [res_bind] at h
  obtain ⟨tracks, h1, h3⟩ := h
  simp only [Bool.false_eq_true, if_false, res_pure] at h3
  subst h3
  intro tr htr c hc
  have := (voiceTracks_noCalls m f tracks h1 tr htr).2 c hc
  cases hcc : c.command <;> first | rfl | exact absurd hcc (this _ _)

/-- **C67 (one bank), partial** (missing: portamento; velocities below 8, where it is false: `C67_quiet_false`; loop optimisation, where it is false: `C67_optimised_false`; changes during notes: `C67_settings_false`;
and as in C54): a song converted from MIDI data without loop optimisation is built into a ROM; the bank is uploaded, and the engine plays the song. Then in the channel of each voice the notes struck are
those of the voice, in order, each with its pitch byte, an eighth of its velocity, the instrument of the last program change before it and twice the volume of the last volume change before it, or C8 if there is none. Voices
without a channel have no notes. -/
theorem C67_heard_partial {Path : Type} (conv : Converter Path) (verbose : Bool) (j : Job Path) (fs : Nat) (rom r : Rom)
    (hj : j.Ready conv (ofRom rom) fs) (hc : j.bank.Clean) (h : writeBank conv verbose j.songs rom j.base j.first fs = .ok r) (a0 : Mem) (regs : Regs)
    (k : Nat) (d : SongDef Path) (s : Song) (hk : j.songs[k]? = some d) (hs : loadSong conv d = .ok s)
    (m : MidiHandler) (f : F32) (hsong : songFromMidi m f false = .ok s) (hr : InRange s)
    (hno : ∀ v, noPortamento (m.voices v) = true) (hset : ∀ v, settingsBetweenNotes false (m.voices v) = true)
    (hvel : ∀ v t dl ch n x, (Message.midiEvent dl (.noteOn ch n x), t) ∈ m.voices v → 8 ≤ x.toNat) :
    ∃ (vs : List (Fin 8)) (fuel : Nat) (evs : List (Option (List Ev))) (T : Nat), vs.Pairwise (· < ·) ∧ (∀ v, v ∉ vs → strikes (none, some 200) none (m.voices v) = []) ∧ evs.length = 8 ∧
      (∀ n, playSong (upload (ofRom r) j.bank.chunks a0) (fuel + n) regs (fs + k) = some (evs, T, if d.loops then .goto 0xff T else .stop)) ∧
      ∀ i < 8, match vs[i]? with
        | some v => ∃ l, evs[i]? = some (some l) ∧ heardStrikes (none, none) l = strikes (none, some 200) none (m.voices v)
        | none => evs[i]? = some none := by
  have hP := C55_playable m f false s hsong hr
  obtain ⟨part, fuel, evs, T, h1, h2, h3, h4⟩ := C54_bank_partial conv verbose j fs rom r hj hc h a0 regs k d s hk hs hP
  have hcalls := plain_noCalls m f s hsong
  have hcount : ∀ tr ∈ s.tracks, ∀ c ∈ tr, ∀ t n, c.command = .callLoop t n → n.toNat ≤ 2 := by
    intro tr htr c hc t n hcc
    have := hcalls tr htr c hc
    rw [hcc] at this; cases this
  have hevs := h4 hcalls
  subst hevs
  obtain ⟨vs, g1, g2, g3⟩ := channels_struck m f false s hsong hr hcount hno part h1
  have hat : ∀ v, strikesAtEnd (none, some 200) none (m.voices v) = strikes (none, some 200) none (m.voices v) := fun v =>
    strikesAtEnd_eq _ _ none (by simpa using hset v)
  refine ⟨vs, fuel, _, T, g1, fun v hv => by rw [← hat]; exact g2 v hv, by simp [partSound], h2, fun i hi => ?_⟩
  have := g3 i hi
  cases hvi : vs[i]? with
  | none => rw [hvi] at this; exact this
  | some v =>
    rw [hvi] at this
    obtain ⟨l, e1, -, e2⟩ := this
    exact ⟨l, e1, by rw [e2 (hvel v), hat]⟩

/-- **C67 (one bank, optimised), partial** (missing: the velocities, where it is false: `C67_optimised_false`; portamento, changes during notes, counts above 2, and as in C54): with or without loop optimisation, the
notes are struck with the right pitch, instrument and volume. -/
theorem C67_heard_optimised_partial {Path : Type} (conv : Converter Path) (verbose : Bool) (j : Job Path) (fs : Nat) (rom r : Rom)
    (hj : j.Ready conv (ofRom rom) fs) (hc : j.bank.Clean) (h : writeBank conv verbose j.songs rom j.base j.first fs = .ok r) (a0 : Mem) (regs : Regs)
    (k : Nat) (d : SongDef Path) (s : Song) (hk : j.songs[k]? = some d) (hs : loadSong conv d = .ok s)
    (m : MidiHandler) (f : F32) (opt : Bool) (hsong : songFromMidi m f opt = .ok s) (hr : InRange s)
    (hcount : ∀ tr ∈ s.tracks, ∀ c ∈ tr, ∀ t n, c.command = .callLoop t n → n.toNat ≤ 2)
    (hno : ∀ v, noPortamento (m.voices v) = true) (hset : ∀ v, settingsBetweenNotes false (m.voices v) = true) :
    ∃ (vs : List (Fin 8)) (fuel : Nat) (evs : List (Option (List Ev))) (T : Nat), vs.Pairwise (· < ·) ∧ (∀ v, v ∉ vs → strikes (none, some 200) none (m.voices v) = []) ∧ evs.length = 8 ∧
      (∀ n, playSong (upload (ofRom r) j.bank.chunks a0) (fuel + n) regs (fs + k) = some (evs, T, if d.loops then .goto 0xff T else .stop)) ∧
      ∀ i < 8, match vs[i]? with
        | some v => ∃ l, evs[i]? = some (some l) ∧ (heardStrikes (none, none) l).map Strike.quiet = (strikes (none, some 200) none (m.voices v)).map Strike.quiet
        | none => evs[i]? = some none := by
  have hP := C55_playable m f opt s hsong hr
  obtain ⟨part, fuel, evs, T, h1, h2, h3, -⟩ := C54_bank_partial conv verbose j fs rom r hj hc h a0 regs k d s hk hs hP
  obtain ⟨vs, g1, g2, g3⟩ := channels_struck m f opt s hsong hr hcount hno part h1
  have hat : ∀ v, strikesAtEnd (none, some 200) none (m.voices v) = strikes (none, some 200) none (m.voices v) := fun v =>
    strikesAtEnd_eq _ _ none (by simpa using hset v)
  refine ⟨vs, fuel, evs, T, g1, fun v hv => by rw [← hat]; exact g2 v hv, by have := congrArg List.length h3; simpa [timingOf, partSound] using this, h2, fun i hi => ?_⟩
  have := g3 i hi
  cases hvi : vs[i]? with
  | none => rw [hvi] at this; exact (timingOf_get h3 i).1 this
  | some v =>
    rw [hvi] at this
    obtain ⟨l, e1, e2, -⟩ := this
    obtain ⟨l', k1, -, -, -, k2⟩ := (timingOf_get h3 i).2 l e1
    refine ⟨l', k1, ?_⟩
    rw [← heardStrikes_timing, k2, heardStrikes_timing, e2, hat]

/-! ## Examples -/

/-- Notes one after the other: number, velocity, length. -/
def played : Nat → List (UInt8 × UInt8 × Nat) → List (Message × Nat)
  | _, [] => []
  | t, (n, v, d) :: l => evOn t n v :: evOff (t + d) n :: played (t + d) l

/-- One voice and nothing else. -/
def oneVoice (T : Nat) (evs : List (Message × Nat)) : MidiHandler := { ticksPerBeat := 24, maxTime := T, voices := fun v => if v = 0 then evs else [] }

/-- What is heard of these in the channels if the only song of a bank is made from them. -/
def strikesHeard (m : MidiHandler) (opt : Bool) (fuel : Nat) : Option (List (Option (List Strike))) :=
  match writeBank (fun (_ : Nat) _ => songFromMidi m (F32.ofRat (1 / 5)) opt) false [slot (some 0) false] (oneRom 90 40) 0 0xd002 0 with
  | .ok r => (playSong (upload (ofRom r) (bankAt 12 90 40).chunks fun _ => none) fuel ⟨1, 2, 3⟩ 0).map fun x => x.1.map (Option.map (heardStrikes (none, none)))
  | .error _ => none

def strikeMidi : MidiHandler := oneVoice 72 [evProgram 0 40, evOn 0 60 100, evOff 24 60, (.midiEvent 0 (.controlChange 0 7 50), 24), evOn 24 62 64, evOff 48 62, evProgram 48 0, evOn 48 64 127, evOff 72 64]

example : (∀ v, noPortamento (strikeMidi.voices v) = true) ∧ (∀ v, settingsBetweenNotes false (strikeMidi.voices v) = true) := by decide +kernel

example : strikesHeard strikeMidi false 60 =
    some [some [⟨164, some 12, (some 9, some 200)⟩, ⟨166, some 8, (some 9, some 100)⟩, ⟨168, some 15, (some (instrumentFor 0 0), some 100)⟩], none, none, none, none, none, none, none] := by decide +kernel

/-- **Very quiet notes are struck with the velocity of the note before**: the second note has velocity 4 in the file, but is as loud as the first. -/
theorem C67_quiet_false : ∃ m : MidiHandler, (∀ v, noPortamento (m.voices v) = true) ∧ (∀ v, settingsBetweenNotes false (m.voices v) = true) ∧
    m.voices 0 = played 0 [(60, 100, 24), (62, 4, 24)] ∧
    strikesHeard m false 60 = some [some [⟨164, some 12, (none, some 200)⟩, ⟨166, some 12, (none, some 200)⟩], none, none, none, none, none, none, none] ∧
    strikes (none, some 200) none (m.voices 0) = [⟨164, some 12, (none, some 200)⟩, ⟨166, some 0, (none, some 200)⟩] :=
  ⟨oneVoice 48 (played 0 [(60, 100, 24), (62, 4, 24)]), by decide +kernel, by decide +kernel, rfl, by decide +kernel, by decide +kernel⟩

/-- A loud note, four quiet ones, another loud one, the four again. -/
def accentMidi : MidiHandler := oneVoice 144 (played 0 ((67, 100, 24) :: [(60, 50, 12), (62, 50, 12), (64, 50, 12), (65, 50, 12)] ++ (69, 100, 24) :: [(60, 50, 12), (62, 50, 12), (64, 50, 12), (65, 50, 12)]))

/-- **Loop optimisation changes velocities**: the second loud note is heard quiet, since the writer does not know that the subroutine leaves another velocity. -/
theorem C67_optimised_false : (∀ v, noPortamento (accentMidi.voices v) = true) ∧ (∀ v, settingsBetweenNotes false (accentMidi.voices v) = true) ∧
    ((strikes (none, some 200) none (accentMidi.voices 0)).map fun x => (x.pitch, x.velocity)) = [(171, some 12), (164, some 6), (166, some 6), (168, some 6), (169, some 6),
      (173, some 12), (164, some 6), (166, some 6), (168, some 6), (169, some 6)] ∧
    (strikesHeard accentMidi false 90).map (fun x => x.headD none) = some (some (strikes (none, some 200) none (accentMidi.voices 0))) ∧
    (strikesHeard accentMidi true 90).map (fun x => (x.headD none).map (List.map fun x => (x.pitch, x.velocity))) = some (some [(171, some 12), (164, some 6), (166, some 6), (168, some 6), (169, some 6),
      (173, some 6), (164, some 6), (166, some 6), (168, some 6), (169, some 6)]) := by
  refine ⟨by decide +kernel, by decide +kernel, by decide +kernel, by decide +kernel, by decide +kernel⟩

end M2S
