import Verif.Props.ReleaseIntervals
import Verif.Props.ReleaseRom
/-
Property C106: the notes of files that only the build without overflow checks reads.
-/
namespace M2S
open MidiSpec Timing RomSpec Nspc Engine CliSpec

/-- **C106.** Without overflow checks, whatever ends and times a file has: the starts of notes on the eight voices together are exactly the starts of notes in the file, each once, with
the time modulo 2^32, and the same channel, velocity and note (68 for notes 38 and 40 of channel 10). -/
theorem C106_notes (ord : EnumOrder) (calls : List Callback) (h : MidiHandler) (hr : Release.readMidi ord calls = .ok h) :
    (((List.finRange 8).flatMap h.voices).filter fun m => starts m.1).Perm
      (((file calls).filter fun m => starts m.1).map fun m => (drum m.1, m.2 % 2 ^ 32)) := by
  obtain ⟨⟨seq, outs, k, s1, s2, s3, s4⟩, -⟩ := release_dealt ord calls h hr
  refine (starts_dealt ord _ h seq outs k s1 s3 s4).trans (.of_eq ?_)
  rw [List.filter_map, List.map_map]
  rfl

/-- **C106**, one note at a time: on every voice starts and ends of notes alternate, beginning with a start (ends that end nothing are gone), and times never decrease. -/
theorem C106_alternate (ord : EnumOrder) (calls : List Callback) (h : MidiHandler) (hr : Release.readMidi ord calls = .ok h) (v : Fin 8) :
    Alternates (h.voices v) ∧ (h.voices v).Pairwise fun a b => a.2 ≤ b.2 := by
  obtain ⟨⟨seq, outs, k, s1, s2, s3, s4⟩, -⟩ := release_dealt ord calls h hr
  refine ⟨(release_voices ord calls h hr).2.1 v, ?_⟩
  rw [s4]
  have := (emits_times ord _ _ _ _ _ s3).2 (merge_times s2)
  unfold onVoice
  rw [List.pairwise_map]
  exact this.filter _

/-- **C106**, the voices of a file with sane content are well-formed, as in C63. -/
theorem C106_sane (ord : EnumOrder) (calls : List Callback) (h : MidiHandler) (hr : Release.readMidi ord calls = .ok h) (ht : ∀ m ∈ file calls, m.2 < 2 ^ 32)
    (hs : Sane h.ticksPerBeat (file calls)) (v : Fin 8) : voiceOk h.ticksPerBeat h.maxTime h.maxTime 0 0 none (h.voices v) = true := by
  obtain ⟨⟨seq, outs, k, s1, s2, s3, s4⟩, hmax⟩ := release_dealt ord calls h hr
  rw [wrap_file _ ht] at s1 hmax
  rw [s4]
  exact sane_dealt ord _ _ _ hs hmax _ seq outs k s1 s2 s3 v

/-- **C106, partial** (missing, as for C63: songs longer than `exactTicks` ticks). From the voices on, the overflow checks make no difference for files with sane content: without
extraction of repeats both builds make the same song, if the file has been read. -/
theorem C106_converts_partial (ord : EnumOrder) (calls : List Callback) (h : MidiHandler) (hr : Release.readMidi ord calls = .ok h) (ht : ∀ m ∈ file calls, m.2 < 2 ^ 32)
    (hs : Sane h.ticksPerBeat (file calls)) (f : F32) (hp : 0 < h.ticksPerBeat) (hp2 : h.ticksPerBeat < 65536) (hT : h.maxTime + 3525 ≤ exactTicks h.ticksPerBeat) :
    ∃ s, Release.songFromMidi h f false = .ok s ∧ songFromMidi h f false = .ok s := by
  obtain ⟨ts, hts⟩ := voiceTracks_ok h f fun v =>
    C16_track_new_ok_partial _ _ h.maxTime h.maxTime f hp hp2 hT (by have := exactTicks_le h.ticksPerBeat; omega) (C106_sane ord calls h hr ht hs v)
  have hsong : ∃ s, songFromMidi h f false = .ok s := ⟨_, by unfold songFromMidi; rw [hts]; rfl⟩
  obtain ⟨s, hsong⟩ := hsong
  exact ⟨s, by rw [C101_song h f false (by rw [hsong]; simp), hsong], hsong⟩

theorem release_spread (ord : EnumOrder) (calls : List Callback) (h : MidiHandler) (hr : Release.readMidi ord calls = .ok h) (ht : ∀ m ∈ file calls, m.2 < 2 ^ 32)
    (hlen : (file calls).length < 2 ^ 64) (htidy : Tidy (file calls)) : Spread ord (file calls) h := by
  obtain ⟨hd, -⟩ := release_dealt ord calls h hr
  rw [wrap_file _ ht] at hd
  refine ⟨hd, fun m hm hp a ha hst hlt => ?_⟩
  rcases htidy.programs m hm hp a ha hst hlt with g | ⟨c, hc, c', hc', h1, h2⟩
  · exact .inl g
  · exact .inr ⟨c, hc, c', hc', h1, release_apart ord calls h hr hlen ht c c' h1 h2⟩

/-- **C106**, the voices of a tidy file, with any ends that end nothing (`Tidy` compares the numbers of starts and ends, as the code does): program changes come between notes, every note is ended by its own number, and
the notes of the eight voices together are the notes of the file. -/
theorem C106_voices (ord : EnumOrder) (ho : ∀ l, (ord l).Perm l) (calls : List Callback) (h : MidiHandler) (hr : Release.readMidi ord calls = .ok h) (ht : ∀ m ∈ file calls, m.2 < 2 ^ 32)
    (hs : Sane h.ticksPerBeat (file calls)) (htidy : Tidy (file calls)) (hlen : (file calls).length < 2 ^ 64) :
    (∀ v, programsBetweenNotes false (h.voices v) = true) ∧ (∀ v, endsMatch none (h.voices v) = true) ∧
    ((List.finRange 8).flatMap fun v => (midiNotes none (h.voices v)).map fun n => (n.on, n.note)).Perm (fileNotes (file calls)) ∧
    ∀ v d ch n x t, (Message.midiEvent d (.noteOff ch n x), t) ∈ h.voices v → 24 ≤ n ∧ n ≤ 95 :=
  spread_voices ord ho _ h (release_spread ord calls h hr ht hlen htidy) _ hs htidy

/-- The song of the release build stands for the voices as the build with checks converts them, even if that one panics on the repeats. -/
theorem release_standsFor (ord : EnumOrder) (calls : List Callback) (h : MidiHandler) (hr : Release.readMidi ord calls = .ok h) (ht : ∀ m ∈ file calls, m.2 < 2 ^ 32)
    (hs : Sane h.ticksPerBeat (file calls)) (f : F32) (hp : 0 < h.ticksPerBeat) (hp2 : h.ticksPerBeat < 65536) (hT : h.maxTime + 3525 ≤ exactTicks h.ticksPerBeat)
    (opt : Bool) (s : Song) (hsong : Release.songFromMidi h f opt = .ok s)
    (hcount : ∀ tr ∈ s.tracks, ∀ c ∈ tr, ∀ t n, c.command = .callLoop t n → n.toNat ≤ 2) : StandsFor h f s := by
  obtain ⟨s', e1, e2⟩ := C106_converts_partial ord calls h hr ht hs f hp hp2 hT
  cases opt with
  | false =>
    rw [e1] at hsong
    cases hsong
    exact song_standsFor h f false s e2 hcount
  | true =>
    unfold songFromMidi at e2
    unfold Release.songFromMidi at e1 hsong
    rw [res_bind] at e1 e2 hsong
    obtain ⟨tracks, h1, e1⟩ := e1
    obtain ⟨tracks', h1', e2⟩ := e2
    obtain ⟨tracks'', h1'', h3⟩ := hsong
    rw [h1] at h1''
    cases h1''
    simp only [Bool.false_eq_true, if_false, res_pure] at e1 e2
    subst e1
    simp only [Song.mk.injEq] at e2
    obtain ⟨-, rfl⟩ := e2
    simp only [if_true, res_bind, res_pure] at h3
    obtain ⟨out, h4, rfl⟩ := h3
    obtain ⟨o1, o2⟩ := optimizeFuel_old_release tracks'.length _ tracks' out le_rfl h4
    refine ⟨tracks', h1', rfl, o1, fun i hi => ?_, o2⟩
    have hno := fun tr htr => (voiceTracks_noCalls h f tracks' h1' tr htr).2
    refine ((C102_damage tracks' out ?_ h4 i hi).exact ?_).symm
    · intro tr htr c hc
      unfold PCmd.isCall
      split
      · rename_i e; exact absurd e (hno tr htr c hc _ _)
      · rfl
    · intro c hc t n e
      cases hg : out[i]? with
      | none => rw [List.getD_eq_getElem?_getD, hg] at hc; simp at hc
      | some tr =>
        rw [List.getD_eq_getElem?_getD, hg] at hc
        exact hcount tr (List.mem_of_getElem? hg) c hc t n e

/-- **C106, partial** (missing: what is false of the code, as for C66, and files that are tidy by the notes that sound but not by counting starts and ends, false by `C106_hidden_false`). From the command line to sound without
overflow checks, for files with any number of ends that end nothing: after a run that succeeds, the engine plays every note of the file, once, with the right pitch byte, less than one
unit (1/24 beat) from its start in the file, and no other note. -/
theorem C106_run_partial (x : Ext) (hord : ∀ l, (x.ord l).Perm l) (fs fs' : FS) (optimize : Bool) (cmd : Cmd) (rom : String) (addrs : List Nat) (js : List (Job String)) (file0 : Rom)
    (hb : Builds x fs (js.map Job.songs) rom addrs cmd) (hacc : ∀ n, x.accept n = n) (hrun : Release.run x fs optimize cmd = (.ok (), fs'))
    (hrom : fs rom = some file0) (haddrs : addrs = js.map Job.base) (hfirst : bankFirstSongAddrs = js.map Job.first)
    (hr : AllReady (Release.converter x fs optimize) (ofRom file0) 0 js) (hs : HeadersSafe js) (hd : DataApart js)
    (pre : List (Job String)) (j : Job String) (post : List (Job String)) (hj : js = pre ++ j :: post) (hc : j.bank.Clean) (k : Nat) (d : SongDef String) (hk : j.songs[k]? = some d)
    (path : String) (bytes : List UInt8) (calls : List Callback) (m : MidiHandler) (s : Song) (hpath : d.input = some path) (hext : x.extension path = some "mid")
    (hbytes : fs path = some bytes) (hcalls : x.parseMidi bytes = some calls)
    (hread : Release.readMidi x.ord calls = .ok m) (hsong : Release.songFromMidi m d.tempoFactor optimize = .ok s)
    (htimes : ∀ e ∈ file calls, e.2 < 2 ^ 32) (hsane : Sane m.ticksPerBeat (file calls)) (htidy : Tidy (file calls)) (hlen : (file calls).length < 2 ^ 64)
    (h24 : 24 ∣ m.ticksPerBeat) (hp : 0 < m.ticksPerBeat) (hp2 : m.ticksPerBeat < 65536)
    (hG : m.maxTime + 3525 ≤ exactTicks m.ticksPerBeat) (hG2 : 24 * (m.maxTime + 1) ≤ 32511 * m.ticksPerBeat)
    (hcount : ∀ tr ∈ s.tracks, ∀ c ∈ tr, ∀ t n, c.command = .callLoop t n → n.toNat ≤ 2)
    (hdur : ∀ tr ∈ s.tracks, ∀ c ∈ tr, c.command.isNote = true → ∀ d ∈ c.duration, d < 0x80) :
    ∃ image, fs' rom = some image ∧
      ∀ (a0 : Mem) (regs : Regs), ∃ (fuel : Nat) (evs : List (Option (List Ev))) (T : Nat) (heard : List (Nat × UInt8)), evs.length = 8 ∧
        (∀ n, playSong (upload (ofRom image) j.bank.chunks a0) (fuel + n) regs ((pre.map fun i => i.songs.length).sum + k) =
          some (evs, T, if d.loops then .goto 0xff T else .stop)) ∧
        heard.Perm (heardIn evs) ∧ List.Forall₂ (OnTimeAt m.ticksPerBeat) heard (fileNotes (file calls)) ∧
        ∀ l, some l ∈ evs → |(heardTime l : ℚ) - 24 * m.maxTime / m.ticksPerBeat| < 1 := by
  have hst := release_standsFor x.ord calls m hread htimes hsane d.tempoFactor hp hp2 hG optimize s hsong hcount
  obtain ⟨hin, hS⟩ := stands_sound x.ord hord _ m (release_spread x.ord calls m hread htimes hlen htidy) hsane htidy (C106_sane x.ord calls m hread htimes hsane) h24 hp hp2 hG hG2
    d.tempoFactor s hst hdur
  obtain ⟨-, image, i1, -, i3⟩ := C105_plays_partial x fs fs' optimize cmd rom addrs js file0 hb hacc hrun hrom haddrs hfirst hr hs hd
  refine ⟨image, i1, fun a0 regs => ?_⟩
  have hfile : Release.songFromMidiFile x fs path d.tempoFactor optimize = .ok s := by
    simp only [Release.songFromMidiFile, hbytes, hcalls, hread]
    exact hsong
  obtain ⟨part, fuel, evs, T, h1, h2, h3, -⟩ := i3 pre j post hj hc a0 regs k d path s hk hpath hext hfile hin
  obtain ⟨heard, e1, e2, e3, e4⟩ := hS part evs h1 h3
  exact ⟨fuel, evs, T, heard, e1, h2, e2, e3, e4⟩

/-! ### Where it fails -/

/-- Channel 3 plays a note from tick 24 to 120. Channel 5 plays from 24 to 48, changes its program at 72 and plays from 96 to 120. -/
def seenCalls : List Callback :=
  [ .header 1 24, .trackChange, .midiEvent 24 (.noteOn 3 60 100), .midiEvent 96 (.noteOff 3 60 0),
    .trackChange, .midiEvent 24 (.noteOn 5 64 100), .midiEvent 24 (.noteOff 5 64 0), .midiEvent 24 (.programChange 5 7), .midiEvent 24 (.noteOn 5 67 100),
    .midiEvent 24 (.noteOff 5 67 0) ]

/-- **C106** is false for `hiddenCalls`, which is `seenCalls` with an end that ends nothing at the beginning of channel 3: the channels get the same base voice (C107), and the program of
channel 5 is set there, during the note of channel 3. -/
theorem C106_hidden_false : (Release.readMidi id hiddenCalls).map (fun h => ((h.channels 3).baseVoice, (h.channels 5).baseVoice, h.voices 0)) =
    .ok (0, 0, [(.midiEvent 24 (.noteOn 3 60 100), 24), (.midiEvent 24 (.programChange 5 7), 72), (.midiEvent 96 (.noteOff 3 60 0), 120)]) := by
  decide +kernel

/-- The note of channel 3 starts 48 units late and with the wrong instrument (24); channel 5 goes on without its new program. -/
theorem C106_hidden_song_false : ((Release.readMidi id hiddenCalls).bind fun h => Release.songFromMidi h (.fin (1 / 5)) false).toOption.map (·.tracks) = some
    [ [⟨some 24, none, none, .rest⟩, ⟨some 48, none, none, .rest⟩, ⟨none, none, none, .setInstrument 24⟩, ⟨some 96, some 12, some 7, .note 164⟩],
      [⟨some 24, none, none, .rest⟩, ⟨some 24, some 12, some 7, .note 168⟩, ⟨some 48, none, none, .rest⟩, ⟨some 24, some 12, some 7, .note 171⟩] ] := by
  decide +kernel

/-- Without the stray end the same file is converted correctly. -/
example : ((Release.readMidi id seenCalls).bind fun h => Release.songFromMidi h (.fin (1 / 5)) false).toOption.map (·.tracks) = some
    [ [⟨some 24, none, none, .rest⟩, ⟨some 96, some 12, some 7, .note 164⟩],
      [⟨some 24, none, none, .rest⟩, ⟨some 48, some 12, some 4, .note 168⟩, ⟨none, none, none, .setInstrument 24⟩, ⟨some 24, none, none, .rest⟩,
        ⟨some 24, some 12, some 7, .note 171⟩] ] := by
  decide +kernel

/-- It is tidy, as channels 3 and 5 sound together; the stray end leaves the content sane. -/
example : Tidy (file seenCalls) := ⟨by decide +kernel, by decide +kernel, by decide +kernel, by decide +kernel, by decide +kernel⟩

example : Together (file seenCalls) 3 5 := by decide +kernel

example : Sane 24 (file hiddenCalls) := ⟨by decide +kernel, by decide +kernel, by decide +kernel⟩

example : readMidi id hiddenCalls = .error .panic := (C90_panics_iff _ _).2 (.inr (.inr (.inr ⟨3, 0, by decide⟩)))

/-! ### Examples -/

/-- The tune of C66 with an end that ends nothing. -/
def strayTune : List Callback :=
  [ .header 1 48, .trackChange, .midiEvent 0 (.noteOn 0 60 100), .midiEvent 48 (.noteOff 0 60 0), .midiEvent 0 (.noteOn 0 64 100), .midiEvent 48 (.noteOff 0 64 0),
    .midiEvent 0 (.noteOff 0 60 0) ]

theorem stray_parse : demoExt.parseMidi [60, 64, 0] = some strayTune := by decide +kernel

theorem stray_read : (Release.readMidi id strayTune).map (fun m => (m.ticksPerBeat, m.maxTime, decide (Release.songFromMidi m defaultTempoAdjust false = .ok selectSong))) =
    .ok (48, 96, true) := by decide +kernel

/-- The build with overflow checks panics, the other one makes a ROM in which both notes are heard. -/
example (a0 : Mem) (regs : Regs) : (demoExt.run straySelectFS false false selectCmd).1 = .error .panic ∧
    ∃ image, (Release.run demoExt straySelectFS false selectCmd).2 "small.sfc" = some image ∧
      ∃ fuel evs T x y, playSong (upload (ofRom image) (bankAt 36 250 250).chunks a0) fuel regs 10 = some (evs, T, .goto 0xff T) ∧
        (heardIn evs).Perm [(x, 60 + 0x68), (y, 64 + 0x68)] ∧ |(x : ℚ)| < 1 ∧ |(y : ℚ) - 24| < 1 := by
  refine ⟨by decide +kernel, ?_⟩
  have hok : (Release.run demoExt straySelectFS false selectCmd).1 = .ok () :=
    C105_succeeds demoExt straySelectFS false selectCmd "small.sfc" _ selectJobs wideRom strayCmd_builds rfl rfl rfl strayJobs_ready selectJobs_safe (by decide) (by decide +kernel)
  have hrun : Release.run demoExt straySelectFS false selectCmd = (.ok (), (Release.run demoExt straySelectFS false selectCmd).2) := by
    generalize Release.run demoExt straySelectFS false selectCmd = r at hok ⊢
    obtain ⟨a, b⟩ := r
    simp only at hok
    subst hok
    rfl
  have hm := stray_read
  cases hr : Release.readMidi id strayTune with
  | error e => rw [hr] at hm; cases hm
  | ok m =>
    rw [hr] at hm
    simp only [Except.map, Except.ok.injEq, Prod.mk.injEq, decide_eq_true_eq] at hm
    obtain ⟨k1, k2, k3⟩ := hm
    obtain ⟨image, i1, i3⟩ := C106_run_partial demoExt (fun _ => .refl _) straySelectFS _ false selectCmd "small.sfc" _ selectJobs wideRom strayCmd_builds (fun _ => rfl) hrun rfl rfl rfl
      strayJobs_ready selectJobs_safe selectJobs_apart [] _ _ rfl (selectJobs_clean _ (List.mem_cons_self ..)) 10 (songDefDefault "tune.mid") rfl
      "tune.mid" [60, 64, 0] strayTune m selectSong rfl rfl rfl stray_parse hr k3 (by decide +kernel)
      (by rw [k1]; exact ⟨by decide +kernel, by decide +kernel, by decide +kernel⟩)
      ⟨by decide +kernel, by decide +kernel, by decide +kernel, by decide +kernel, by decide +kernel⟩ (by decide +kernel)
      (by rw [k1]; decide) (by rw [k1]; decide) (by rw [k1]; decide) (by rw [k1, k2]; decide) (by rw [k1, k2]; decide)
      (by intro tr htr c hc t n h; simp only [selectSong, List.mem_cons, List.not_mem_nil, or_false] at htr; subst htr; simp only [List.mem_cons, List.not_mem_nil, or_false] at hc; rcases hc with rfl | rfl <;> cases h)
      (by decide)
    obtain ⟨fuel, evs, T, heard, -, e2, e3, e4, -⟩ := i3 a0 regs
    refine ⟨image, i1, fuel, evs, T, ?_⟩
    have hn : fileNotes (file strayTune) = [(0, 60), (48, 64)] := by decide +kernel
    rw [hn, k1] at e4
    cases e4 with
    | cons q1 e4 =>
      cases e4 with
      | cons q2 e4 =>
        cases e4
        rename_i a b
        obtain ⟨x, a⟩ := a
        obtain ⟨y, b⟩ := b
        obtain ⟨q1, q3⟩ := q1
        obtain ⟨q2, q4⟩ := q2
        simp only at q1 q2 q3 q4
        subst q1 q2
        refine ⟨x, y, e2 0, e3.symm, ?_, ?_⟩
        · simpa using q3
        · norm_num at q4; exact q4

/-- A note beyond 2^32 ticks keeps everything but its time. -/
example : (Release.readMidi id wrapCalls).map (fun h => ((List.finRange 8).flatMap h.voices).filter fun m => starts m.1) =
    .ok [(.midiEvent 0 (.noteOn 3 60 100), 0), (.midiEvent (2 ^ 32 - 24) (.noteOn 3 64 100), 0)] := by
  decide +kernel

/-- The notes of `hiddenCalls` are all there, one after the other on each voice. -/
example : (Release.readMidi id hiddenCalls).map (fun h => ((List.finRange 8).flatMap h.voices).filter fun m => starts m.1) =
    .ok [(.midiEvent 24 (.noteOn 3 60 100), 24), (.midiEvent 24 (.noteOn 5 64 100), 24), (.midiEvent 24 (.noteOn 5 67 100), 96)] := by
  decide +kernel

end M2S
