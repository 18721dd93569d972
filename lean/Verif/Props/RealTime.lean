import Verif.Proofs.RealTime
import Verif.Props.Tempo
import Verif.Props.WholeTool
/-
Property C81: real time.
-/
namespace M2S
open MidiSpec Timing RomSpec Nspc Engine

/-- **C81 (clock).** Whatever tempos the song sets, if none is 0, every unit begins, at one poll only: at the sum of the lengths the units before have at their tempos, at most one poll and the variation later
and one unit and the variation earlier. -/
theorem C81_clock (tempo : Nat → Nat) (acc : Nat) (ha : acc < 256) (ht : ∀ n, tempo n ≤ 255) (h0 : ∀ n, 0 < tempo n) (n : Nat) :
    ∃ p, Begins tempo acc n p ∧ (∀ q, Begins tempo acc n q → q = p) ∧
      ∑ i ∈ Finset.range n, unitPolls (tempo i) - unitPolls (tempo 0) - ∑ i ∈ Finset.range (n - 1), |unitPolls (tempo (i + 1)) - unitPolls (tempo i)| ≤ p ∧
      (p : ℚ) ≤ ∑ i ∈ Finset.range n, unitPolls (tempo i) + 1 + ∑ i ∈ Finset.range (n - 1), |unitPolls (tempo (i + 1)) - unitPolls (tempo i)| := by
  obtain ⟨p, h1, h2, h3⟩ := begins_ideal tempo acc ha ht h0 n
  exact ⟨p, h1, fun q hq => begins_unique hq h1, h2, h3⟩

/-- **C81 (precision of tempos).** A tempo of `u` microseconds per beat is sent as a byte; the engine then takes `12288000 / byte` microseconds for a beat. The tempo factor that is best is 0.2048: the difference is at most a part
`(beats per minute * |factor - 0.2048| + 1.001) / byte` of the beat. -/
theorem C81_speed (q : ℚ) (hq : 1 / 65536 ≤ q) (hq1 : q ≤ 1) (u : Nat) (h0 : 0 < u) (hu : u < 2 ^ 24) (hx : ((60000000 : ℚ) / u + 1) * q < 256) (hb : 0 < (tempoByte u (.fin q)).toNat) :
    |(12288000 : ℚ) / (tempoByte u (.fin q)).toNat - u| ≤ ((60000000 / u) * |q - 2048 / 10000| + 1001 / 1000) / (tempoByte u (.fin q)).toNat * u := by
  obtain ⟨h1, h2⟩ := C30_tempo_accuracy q hq u h0 hu hx
  have hu' : (0 : ℚ) < u := by exact_mod_cast h0
  have hb' : (0 : ℚ) < (tempoByte u (.fin q)).toNat := by exact_mod_cast hb
  generalize ((tempoByte u (.fin q)).toNat : ℚ) = b at h1 h2 hb'
  have e : (12288000 : ℚ) / b - u = (12288000 - b * u) / b := by field_simp
  rw [e, abs_div, abs_of_pos hb', div_mul_eq_mul_div]
  refine div_le_div_of_nonneg_right ?_ hb'.le
  have e2 : ((60000000 : ℚ) / u * |q - 2048 / 10000| + 1001 / 1000) * u = 60000000 * |q - 2048 / 10000| + 1001 / 1000 * u := by field_simp
  rw [e2]
  have m1 : 60000000 * q - (1 + 1 / 1000) * u < b * u := by
    have := mul_lt_mul_of_pos_right h1 hu'
    have e3 : ((60000000 : ℚ) / u * q - 1 - 1 / 1000) * u = 60000000 * q - (1 + 1 / 1000) * u := by field_simp; ring
    linarith
  have m2 : b * u < (60000000 + u) * q + 1 / 1000 * u := by
    have := mul_lt_mul_of_pos_right h2 hu'
    have e3 : (((60000000 : ℚ) / u + 1) * q + 1 / 1000) * u = (60000000 + u) * q + 1 / 1000 * u := by field_simp
    linarith
  have m3 : u * q ≤ u * 1 := mul_le_mul_of_nonneg_left hq1 hu'.le
  have m4 := le_abs_self (q - 2048 / 10000)
  have m5 := neg_abs_le (q - 2048 / 10000)
  rw [abs_le]
  constructor <;> linarith

/-- **The default tempo factor is too small**: with 0.2, everything from 43 beats per minute on is played slower than written. -/
theorem C81_default_slow (u : Nat) (h0 : 0 < u) (hu : u ≤ 1400000) (hx : ((60000000 : ℚ) / u + 1) * (13421773 / 67108864) < 256)
    (hb : 0 < (tempoByte u defaultTempoAdjust).toNat) : (u : ℚ) < 12288000 / (tempoByte u defaultTempoAdjust).toNat := by
  have hd : defaultTempoAdjust = .fin (13421773 / 67108864) := by
    have h : rnd (1 / 5) = 13421773 / 67108864 := by decide +kernel
    unfold defaultTempoAdjust F32.ofRat
    rw [h, if_neg (by decide +kernel)]
  rw [hd] at hb ⊢
  obtain ⟨h1, h2⟩ := C30_tempo_accuracy (13421773 / 67108864) (by norm_num) u h0 (by omega) hx
  have hu' : (0 : ℚ) < u := by exact_mod_cast h0
  have hu2 : (u : ℚ) ≤ 1400000 := by exact_mod_cast hu
  have hb' : (0 : ℚ) < (tempoByte u (.fin (13421773 / 67108864))).toNat := by exact_mod_cast hb
  generalize ((tempoByte u (.fin (13421773 / 67108864))).toNat : ℚ) = b at h1 h2 hb'
  rw [lt_div_iff₀ hb']
  have := mul_lt_mul_of_pos_right h2 hu'
  have e3 : (((60000000 : ℚ) / u + 1) * (13421773 / 67108864) + 1 / 1000) * u = (60000000 + u) * (13421773 / 67108864) + 1 / 1000 * u := by field_simp
  linarith

/-- The conversion of a tidy file that sets its tempo at the start, played with the timing it should have. -/
theorem tidy_real_time (ord : EnumOrder) (ho : ∀ l, (ord l).Perm l) (calls : List Callback) (m : MidiHandler) (hread : readMidi ord calls = .ok m)
    (hsane : Sane m.ticksPerBeat (file calls)) (htidy : Tidy (file calls))
    (h24 : 24 ∣ m.ticksPerBeat) (hp : 0 < m.ticksPerBeat) (hp2 : m.ticksPerBeat < 65536)
    (hG : m.maxTime + 3525 ≤ exactTicks m.ticksPerBeat) (hG2 : 24 * (m.maxTime + 1) ≤ 32511 * m.ticksPerBeat)
    (f : F32) (opt : Bool) (s : Song) (hsong : songFromMidi m f opt = .ok s)
    (hcount : ∀ tr ∈ s.tracks, ∀ c ∈ tr, ∀ t n, c.command = .callLoop t n → n.toNat ≤ 2)
    (hd : ∀ tr ∈ s.tracks, ∀ c ∈ tr, c.command.isNote = true → ∀ d ∈ c.duration, d < 0x80)
    (u0 : Nat) (more : List (Nat × Nat)) (hmap : tempoMap (file calls) = (0, u0) :: more) (hon : ∀ c ∈ changes f 0 false (m.voices 0), isTempo c.command = true → c.since = c.time)
    (ε : ℚ) (hε : ∀ x ∈ tempoMap (file calls), 0 < (tempoByte x.2 f).toNat ∧ |(12288000 : ℚ) / (tempoByte x.2 f).toNat - x.2| ≤ ε * x.2)
    (part : List Nat) (evs : List (Option (List Ev))) (h1 : s.parts[0]? = some part) (h3 : timingOf evs = timingOf (partSound s part)) :
    ∃ heard : List (Nat × UInt8), evs.length = 8 ∧ heard.Perm (heardIn evs) ∧ ∀ start acc, acc < 256 →
      List.Forall₂ (fun x n => x.2 = n.2 + 0x68 ∧ ∃ p, Begins (engineTempo start evs) acc x.1 p ∧
        InTime (file calls) m.ticksPerBeat ε (leeway (tempoByte u0 f).toNat (more.map fun x => (tempoByte x.2 f).toNat)) p n.1) heard (fileNotes (file calls)) ∧
      ∀ l, some l ∈ evs → ∃ p, Begins (engineTempo start evs) acc (heardTime l) p ∧
        InTime (file calls) m.ticksPerBeat ε (leeway (tempoByte u0 f).toNat (more.map fun x => (tempoByte x.2 f).toNat)) p m.maxTime := by
  have hT : m.maxTime < 2 ^ 31 := by have := exactTicks_le m.ticksPerBeat; omega
  have hv := C63_voices ord calls m hread hsane
  obtain ⟨v1, -, -, -⟩ := C64_voices ord ho calls m hread hsane htidy
  obtain ⟨hr, hP, hS⟩ := tidy_sound ord ho calls m hread hsane htidy h24 hp hp2 hG hG2 f opt s hsong hcount hd
  obtain ⟨heard, e1, e2, e3, e4⟩ := hS part evs h1 h3
  obtain ⟨vs, g1, g2, g3, g4⟩ := changes_heard m f opt s hsong hr hcount m.maxTime h24 hp hp2 hG hG2 hT hv v1 part evs h1 h3
  obtain ⟨s1, s2⟩ := song_tempos ord calls m hread f hon vs evs g1 g2 g3 g4
  have hsorted := tempoMap_sorted (file calls)
  rw [hmap] at s2 hε hsorted
  obtain ⟨us, hus, hx⟩ : ∃ us, songTempos evs = (0, (tempoByte u0 f).toNat) :: us ∧
      List.Forall₂ (fun x y => x.2 = (tempoByte y.2 f).toNat ∧ |(x.1 : ℚ) - 24 * y.1 / m.ticksPerBeat| < 1) us more := by
    generalize songTempos evs = st at s2
    cases s2 with
    | cons q hq =>
      rename_i x us
      refine ⟨us, ?_, hq⟩
      obtain ⟨x1, x2⟩ := x
      obtain ⟨q1, q2⟩ := q
      simp only at q1 q2
      rw [q1]
      have : x1 = 0 := by
        rw [Nat.cast_zero, mul_zero, zero_div, sub_zero, abs_of_nonneg (by positivity)] at q2
        have : x1 < 1 := by exact_mod_cast q2
        omega
      rw [this]
  rw [hus] at s1
  have key : ∀ start acc, acc < 256 → ∀ n t : Nat, |(n : ℚ) - 24 * t / m.ticksPerBeat| < 1 → ∃ p, Begins (engineTempo start evs) acc n p ∧
      InTime (file calls) m.ticksPerBeat ε (leeway (tempoByte u0 f).toNat (more.map fun x => (tempoByte x.2 f).toNat)) p t := by
    intro start acc ha n t hn
    obtain ⟨p, k1, k2⟩ := micros_near m.ticksPerBeat hp (fun u => (tempoByte u f).toNat) ε u0 us more (List.pairwise_cons.1 s1).2 (List.pairwise_cons.1 hsorted).2 hx (by
      intro u hu
      have hmem : ∃ x ∈ (0, u0) :: more, u = x.2 := by
        rcases hu with rfl | ⟨x, hx, e⟩
        · exact ⟨_, List.mem_cons_self, rfl⟩
        · exact ⟨x, List.mem_cons_of_mem _ hx, e⟩
      obtain ⟨x, hx, rfl⟩ := hmem
      obtain ⟨z1, z2⟩ := hε x hx
      exact ⟨z1, Nat.le_of_lt_succ (UInt8.toNat_lt _), z2⟩) acc ha n t hn
    refine ⟨p, ?_, ?_⟩
    · unfold engineTempo
      rw [hus]
      have : inForce start ((0, (tempoByte u0 f).toNat) :: us) = inForce (tempoByte u0 f).toNat us := by
        funext i
        rw [inForce_cons start _ 0 us (fun x _ => Nat.zero_le _) i, if_neg (by omega)]
      rw [this]
      exact k1
    · unfold InTime fileMicros leeway
      rw [hmap]
      have : inForce 500000 ((0, u0) :: more) = inForce u0 more := by
        funext i
        rw [inForce_cons 500000 _ 0 more (fun x _ => Nat.zero_le _) i, if_neg (by omega)]
      rw [this, List.map_map]
      exact k2
  refine ⟨heard, e1, e2, fun start acc ha => ⟨e3.imp fun x n hxn => ⟨hxn.1, key start acc ha x.1 n.1 hxn.2⟩, fun l hl => key start acc ha _ _ (e4 l hl)⟩⟩

/-- **C81 (one bank), partial** (missing: files without a tempo at the start, `C81_unset`; tempo changes while the first voice holds a note or rests, `C81_early_false`; and what is missing in C64). A tidy file that sets
its tempo at the start, and changes it where notes of the first voice start or end, is converted and built into a ROM; the bank is uploaded, and the engine plays the song. If each tempo byte is precise up to a part `ε`,
then every note of the file is heard, in microseconds since the start, at the time the file says, up to `ε` of that time and the leeway; and no other note is heard. The end of each channel is the end of the file as precisely. -/
theorem C81_bank_partial {Path : Type} (ord : EnumOrder) (ho : ∀ l, (ord l).Perm l) (calls : List Callback) (m : MidiHandler) (hread : readMidi ord calls = .ok m)
    (hsane : Sane m.ticksPerBeat (file calls)) (htidy : Tidy (file calls))
    (h24 : 24 ∣ m.ticksPerBeat) (hp : 0 < m.ticksPerBeat) (hp2 : m.ticksPerBeat < 65536)
    (hG : m.maxTime + 3525 ≤ exactTicks m.ticksPerBeat) (hG2 : 24 * (m.maxTime + 1) ≤ 32511 * m.ticksPerBeat)
    (f : F32) (opt : Bool) (s : Song) (hsong : songFromMidi m f opt = .ok s)
    (hcount : ∀ tr ∈ s.tracks, ∀ c ∈ tr, ∀ t n, c.command = .callLoop t n → n.toNat ≤ 2)
    (hd : ∀ tr ∈ s.tracks, ∀ c ∈ tr, c.command.isNote = true → ∀ d ∈ c.duration, d < 0x80)
    (u0 : Nat) (more : List (Nat × Nat)) (hmap : tempoMap (file calls) = (0, u0) :: more) (hon : ∀ c ∈ changes f 0 false (m.voices 0), isTempo c.command = true → c.since = c.time)
    (ε : ℚ) (hε : ∀ x ∈ tempoMap (file calls), 0 < (tempoByte x.2 f).toNat ∧ |(12288000 : ℚ) / (tempoByte x.2 f).toNat - x.2| ≤ ε * x.2)
    (conv : Converter Path) (verbose : Bool) (j : Job Path) (fs : Nat) (rom r : Rom)
    (hj : j.Ready conv (ofRom rom) fs) (hc : j.bank.Clean) (h : writeBank conv verbose j.songs rom j.base j.first fs = .ok r) (a0 : Mem) (regs : Regs)
    (k : Nat) (d : SongDef Path) (hk : j.songs[k]? = some d) (hs : loadSong conv d = .ok s) :
    ∃ (fuel : Nat) (evs : List (Option (List Ev))) (T : Nat) (heard : List (Nat × UInt8)), evs.length = 8 ∧
      (∀ n, playSong (upload (ofRom r) j.bank.chunks a0) (fuel + n) regs (fs + k) = some (evs, T, if d.loops then .goto 0xff T else .stop)) ∧
      heard.Perm (heardIn evs) ∧ ∀ start acc, acc < 256 →
        List.Forall₂ (fun x n => x.2 = n.2 + 0x68 ∧ ∃ p, Begins (engineTempo start evs) acc x.1 p ∧
          InTime (file calls) m.ticksPerBeat ε (leeway (tempoByte u0 f).toNat (more.map fun x => (tempoByte x.2 f).toNat)) p n.1) heard (fileNotes (file calls)) ∧
        ∀ l, some l ∈ evs → ∃ p, Begins (engineTempo start evs) acc (heardTime l) p ∧
          InTime (file calls) m.ticksPerBeat ε (leeway (tempoByte u0 f).toNat (more.map fun x => (tempoByte x.2 f).toNat)) p m.maxTime := by
  obtain ⟨-, hP, -⟩ := tidy_sound ord ho calls m hread hsane htidy h24 hp hp2 hG hG2 f opt s hsong hcount hd
  obtain ⟨part, fuel, evs, T, h1, h2, h3, -⟩ := C54_bank_partial conv verbose j fs rom r hj hc h a0 regs k d s hk hs hP
  obtain ⟨heard, g1, g2, g3⟩ := tidy_real_time ord ho calls m hread hsane htidy h24 hp hp2 hG hG2 f opt s hsong hcount hd u0 more hmap hon ε hε part evs h1 h3
  exact ⟨fuel, evs, T, heard, g1, h2, g2, g3⟩

/-- **C81 (command line), partial** (missing as in `C81_bank_partial`). The tool is run to build a ROM and succeeds; one of the songs of the build comes from a tidy MIDI file that sets its tempo at the start, and
changes it where notes of the first voice start or end. Then the engine, playing the song's number, starts every note of the file at the time the file says, and all channels end with the file, in microseconds since the
start, up to the precision `ε` of the tempo bytes and the leeway. -/
theorem C81_run_partial (x : Ext) (hord : ∀ l, (x.ord l).Perm l) (fs fs' : FS) (optimize verbose : Bool) (cmd : Cmd) (rom : String) (addrs : List Nat) (js : List (Job String)) (file0 : Rom)
    (hb : Builds x fs (js.map Job.songs) rom addrs cmd) (hacc : ∀ n, x.accept n = n) (hrun : x.run fs optimize verbose cmd = (.ok (), fs'))
    (hrom : fs rom = some file0) (haddrs : addrs = js.map Job.base) (hfirst : bankFirstSongAddrs = js.map Job.first)
    (hr : AllReady (x.converter fs optimize) (ofRom file0) 0 js) (hs : HeadersSafe js) (hd : DataApart js)
    (pre : List (Job String)) (j : Job String) (post : List (Job String)) (hj : js = pre ++ j :: post) (hc : j.bank.Clean) (k : Nat) (d : SongDef String) (hk : j.songs[k]? = some d)
    (path : String) (bytes : List UInt8) (calls : List Callback) (m : MidiHandler) (s : Song)
    (hpath : d.input = some path) (hext : x.extension path = some "mid") (hbytes : fs path = some bytes) (hcalls : x.parseMidi bytes = some calls)
    (hread : readMidi x.ord calls = .ok m) (hsong : songFromMidi m d.tempoFactor optimize = .ok s)
    (hsane : Sane m.ticksPerBeat (file calls)) (htidy : Tidy (file calls))
    (h24 : 24 ∣ m.ticksPerBeat) (hp : 0 < m.ticksPerBeat) (hp2 : m.ticksPerBeat < 65536)
    (hG : m.maxTime + 3525 ≤ exactTicks m.ticksPerBeat) (hG2 : 24 * (m.maxTime + 1) ≤ 32511 * m.ticksPerBeat)
    (hcount : ∀ tr ∈ s.tracks, ∀ c ∈ tr, ∀ t n, c.command = .callLoop t n → n.toNat ≤ 2)
    (hdur : ∀ tr ∈ s.tracks, ∀ c ∈ tr, c.command.isNote = true → ∀ d ∈ c.duration, d < 0x80)
    (u0 : Nat) (more : List (Nat × Nat)) (hmap : tempoMap (file calls) = (0, u0) :: more)
    (hon : ∀ c ∈ changes d.tempoFactor 0 false (m.voices 0), isTempo c.command = true → c.since = c.time)
    (ε : ℚ) (hε : ∀ y ∈ tempoMap (file calls), 0 < (tempoByte y.2 d.tempoFactor).toNat ∧ |(12288000 : ℚ) / (tempoByte y.2 d.tempoFactor).toNat - y.2| ≤ ε * y.2) :
    ∃ image, fs' rom = some image ∧ ∀ (a0 : Mem) (regs : Regs), ∃ (fuel : Nat) (evs : List (Option (List Ev))) (T : Nat) (heard : List (Nat × UInt8)), evs.length = 8 ∧
      (∀ n, playSong (upload (ofRom image) j.bank.chunks a0) (fuel + n) regs ((pre.map fun i => i.songs.length).sum + k) = some (evs, T, if d.loops then .goto 0xff T else .stop)) ∧
      heard.Perm (heardIn evs) ∧ ∀ start acc, acc < 256 →
        List.Forall₂ (fun y n => y.2 = n.2 + 0x68 ∧ ∃ p, Begins (engineTempo start evs) acc y.1 p ∧
          InTime (file calls) m.ticksPerBeat ε (leeway (tempoByte u0 d.tempoFactor).toNat (more.map fun y => (tempoByte y.2 d.tempoFactor).toNat)) p n.1) heard (fileNotes (file calls)) ∧
        ∀ l, some l ∈ evs → ∃ p, Begins (engineTempo start evs) acc (heardTime l) p ∧
          InTime (file calls) m.ticksPerBeat ε (leeway (tempoByte u0 d.tempoFactor).toNat (more.map fun y => (tempoByte y.2 d.tempoFactor).toNat)) p m.maxTime := by
  rw [C66_builds x fs optimize verbose cmd _ rom addrs hb] at hrun
  obtain ⟨file', image, g1, g2, g3⟩ := C42_success x fs fs' _ rom addrs optimize verbose hacc hrun
  rw [hrom, Option.some.injEq] at g1
  subst g1
  refine ⟨image, g3, fun a0 regs => ?_⟩
  have hl : loadSong (x.converter fs optimize) d = .ok s := by
    unfold loadSong
    simp only [hpath, Ext.converter, hext, if_true, Ext.songFromMidiFile, hbytes, hcalls, hread]
    exact hsong
  obtain ⟨-, hP, -⟩ := tidy_sound x.ord hord calls m hread hsane htidy h24 hp hp2 hG hG2 _ optimize s hsong hcount hdur
  obtain ⟨part, fuel, evs, T, h1, h2, h3, -⟩ := C54_build_partial _ verbose js addrs _ _ haddrs hfirst hr hs hd g2 pre j post hj hc a0 regs k d s hk hl hP
  obtain ⟨heard, e1, e2, e3⟩ := tidy_real_time x.ord hord calls m hread hsane htidy h24 hp hp2 hG hG2 _ optimize s hsong hcount hdur u0 more hmap hon ε hε part evs h1 h3
  exact ⟨fuel, evs, T, heard, e1, h2, e2, e3⟩

/-- **C81 (one tempo, command line), partial** (missing as in C64). The tool is run to build a ROM and succeeds; one of the songs of the build comes from a tidy MIDI file that sets one tempo, at the start. Then the engine,
playing the song's number, starts every note of the file at the time the file says, in microseconds, up to a part `ε` of that time, if the tempo byte is precise up to `ε`, and two units and a poll. -/
theorem C81_steady_partial (x : Ext) (hord : ∀ l, (x.ord l).Perm l) (fs fs' : FS) (optimize verbose : Bool) (cmd : Cmd) (rom : String) (addrs : List Nat) (js : List (Job String)) (file0 : Rom)
    (hb : Builds x fs (js.map Job.songs) rom addrs cmd) (hacc : ∀ n, x.accept n = n) (hrun : x.run fs optimize verbose cmd = (.ok (), fs'))
    (hrom : fs rom = some file0) (haddrs : addrs = js.map Job.base) (hfirst : bankFirstSongAddrs = js.map Job.first)
    (hr : AllReady (x.converter fs optimize) (ofRom file0) 0 js) (hs : HeadersSafe js) (hd : DataApart js)
    (pre : List (Job String)) (j : Job String) (post : List (Job String)) (hj : js = pre ++ j :: post) (hc : j.bank.Clean) (k : Nat) (d : SongDef String) (hk : j.songs[k]? = some d)
    (path : String) (bytes : List UInt8) (calls : List Callback) (m : MidiHandler) (s : Song)
    (hpath : d.input = some path) (hext : x.extension path = some "mid") (hbytes : fs path = some bytes) (hcalls : x.parseMidi bytes = some calls)
    (hread : readMidi x.ord calls = .ok m) (hsong : songFromMidi m d.tempoFactor optimize = .ok s)
    (hsane : Sane m.ticksPerBeat (file calls)) (htidy : Tidy (file calls))
    (h24 : 24 ∣ m.ticksPerBeat) (hp : 0 < m.ticksPerBeat) (hp2 : m.ticksPerBeat < 65536)
    (hG : m.maxTime + 3525 ≤ exactTicks m.ticksPerBeat) (hG2 : 24 * (m.maxTime + 1) ≤ 32511 * m.ticksPerBeat)
    (hcount : ∀ tr ∈ s.tracks, ∀ c ∈ tr, ∀ t n, c.command = .callLoop t n → n.toNat ≤ 2)
    (hdur : ∀ tr ∈ s.tracks, ∀ c ∈ tr, c.command.isNote = true → ∀ d ∈ c.duration, d < 0x80)
    (u : Nat) (hmap : tempoMap (file calls) = [(0, u)]) (ε : ℚ) (hpos : 0 < (tempoByte u d.tempoFactor).toNat) (hε : |(12288000 : ℚ) / (tempoByte u d.tempoFactor).toNat - u| ≤ ε * u) :
    ∃ image, fs' rom = some image ∧ ∀ (a0 : Mem) (regs : Regs), ∃ (fuel : Nat) (evs : List (Option (List Ev))) (T : Nat) (heard : List (Nat × UInt8)), evs.length = 8 ∧
      (∀ n, playSong (upload (ofRom image) j.bank.chunks a0) (fuel + n) regs ((pre.map fun i => i.songs.length).sum + k) = some (evs, T, if d.loops then .goto 0xff T else .stop)) ∧
      heard.Perm (heardIn evs) ∧ ∀ start acc, acc < 256 →
        List.Forall₂ (fun y n => y.2 = n.2 + 0x68 ∧ ∃ p, Begins (engineTempo start evs) acc y.1 p ∧
          |2000 * (p : ℚ) - n.1 * (u / m.ticksPerBeat)| ≤ ε * (n.1 * (u / m.ticksPerBeat)) + 2000 + 2 * (512000 / (tempoByte u d.tempoFactor).toNat)) heard (fileNotes (file calls)) := by
  have hon : ∀ c ∈ changes d.tempoFactor 0 false (m.voices 0), isTempo c.command = true → c.since = c.time := by
    intro c hcm hct
    have hle := C65_never_late d.tempoFactor (m.voices 0) (C22_alternate x.ord calls m hread 0).2 0 false (fun _ _ => Nat.zero_le _) c hcm
    have hmem : (c.time, c.command) ∈ ((changes d.tempoFactor 0 false (m.voices 0)).filter fun c => isTempo c.command).map (fun c => (c.time, c.command)) :=
      List.mem_map.2 ⟨c, List.mem_filter.2 ⟨hcm, hct⟩, rfl⟩
    rw [changes_tempos, List.filterMap_congr (fun y _ => tempoOf_message d.tempoFactor y), ← List.map_filterMap, voice_tempos x.ord calls m hread, hmap] at hmem
    simp only [List.map_cons, List.map_nil, List.mem_singleton, Prod.mk.injEq] at hmem
    omega
  obtain ⟨image, g3, g4⟩ := C81_run_partial x hord fs fs' optimize verbose cmd rom addrs js file0 hb hacc hrun hrom haddrs hfirst hr hs hd pre j post hj hc k d hk path bytes calls m s hpath hext hbytes hcalls
    hread hsong hsane htidy h24 hp hp2 hG hG2 hcount hdur u [] hmap hon ε (by rw [hmap]; intro y hy; rw [List.mem_singleton.1 hy]; exact ⟨hpos, hε⟩)
  refine ⟨image, g3, fun a0 regs => ?_⟩
  obtain ⟨fuel, evs, T, heard, e1, h2, e2, e3⟩ := g4 a0 regs
  refine ⟨fuel, evs, T, heard, e1, h2, e2, fun start acc ha => (e3 start acc ha).1.imp ?_⟩
  rintro y n ⟨y1, p, y2, y3⟩
  refine ⟨y1, p, y2, ?_⟩
  unfold InTime fileMicros leeway at y3
  rw [hmap] at y3
  have hconst : ∀ i, inForce 500000 [(0, u)] i = u := by
    intro i
    rw [inForce_cons 500000 u 0 [] (by simp) i, if_neg (by omega)]
    induction i with
    | zero => rfl
    | succ i ih => unfold inForce; exact ih
  simp only [hconst, Finset.sum_const, Finset.card_range, nsmul_eq_mul, List.map_nil, variation, pollMicros, unitPolls] at y3
  refine y3.trans (le_of_eq ?_)
  push_cast
  ring

/-- **Without a tempo message the tool sets no tempo**: the engine goes on with the tempo it had before (a MIDI file without one is played with 120 beats per minute). -/
theorem C81_unset (ord : EnumOrder) (ho : ∀ l, (ord l).Perm l) (calls : List Callback) (m : MidiHandler) (hread : readMidi ord calls = .ok m)
    (hsane : Sane m.ticksPerBeat (file calls)) (htidy : Tidy (file calls))
    (h24 : 24 ∣ m.ticksPerBeat) (hp : 0 < m.ticksPerBeat) (hp2 : m.ticksPerBeat < 65536)
    (hG : m.maxTime + 3525 ≤ exactTicks m.ticksPerBeat) (hG2 : 24 * (m.maxTime + 1) ≤ 32511 * m.ticksPerBeat)
    (f : F32) (opt : Bool) (s : Song) (hsong : songFromMidi m f opt = .ok s)
    (hcount : ∀ tr ∈ s.tracks, ∀ c ∈ tr, ∀ t n, c.command = .callLoop t n → n.toNat ≤ 2)
    (hd : ∀ tr ∈ s.tracks, ∀ c ∈ tr, c.command.isNote = true → ∀ d ∈ c.duration, d < 0x80)
    (hmap : tempoMap (file calls) = []) (part : List Nat) (evs : List (Option (List Ev))) (h1 : s.parts[0]? = some part) (h3 : timingOf evs = timingOf (partSound s part)) (start unit : Nat) :
    engineTempo start evs unit = start := by
  have hT : m.maxTime < 2 ^ 31 := by have := exactTicks_le m.ticksPerBeat; omega
  have hv := C63_voices ord calls m hread hsane
  obtain ⟨v1, -, -, -⟩ := C64_voices ord ho calls m hread hsane htidy
  obtain ⟨hr, -, -⟩ := tidy_sound ord ho calls m hread hsane htidy h24 hp hp2 hG hG2 f opt s hsong hcount hd
  obtain ⟨vs, g1, g2, g3, g4⟩ := changes_heard m f opt s hsong hr hcount m.maxTime h24 hp hp2 hG hG2 hT hv v1 part evs h1 h3
  have hon : ∀ c ∈ changes f 0 false (m.voices 0), isTempo c.command = true → c.since = c.time := by
    intro c hcm hct
    have hmem : (c.time, c.command) ∈ ((changes f 0 false (m.voices 0)).filter fun c => isTempo c.command).map (fun c => (c.time, c.command)) :=
      List.mem_map.2 ⟨c, List.mem_filter.2 ⟨hcm, hct⟩, rfl⟩
    rw [changes_tempos, List.filterMap_congr (fun y _ => tempoOf_message f y), ← List.map_filterMap, voice_tempos ord calls m hread, hmap] at hmem
    cases hmem
  obtain ⟨-, s2⟩ := song_tempos ord calls m hread f hon vs evs g1 g2 g3 g4
  rw [hmap] at s2
  unfold engineTempo
  rw [List.forall₂_nil_right_iff.1 s2]
  induction unit with
  | zero => rfl
  | succ x ih => unfold inForce; exact ih

/-! ## Examples -/

/-- A note of one beat at 120 beats per minute and one of two beats at 150. -/
def paceCalls : List Callback :=
  [ .header 1 24, .trackChange, .metaEvent 0 .setTempo [7, 161, 32], .midiEvent 0 (.noteOn 0 60 100), .midiEvent 24 (.noteOff 0 60 0), .metaEvent 0 .setTempo [6, 26, 128],
    .midiEvent 0 (.noteOn 0 64 100), .midiEvent 48 (.noteOff 0 64 0) ]

def paceMidi : MidiHandler := match readMidi id paceCalls with
  | .ok h => h
  | .error _ => {}

def paceSong : Song := ⟨[[0]], [[⟨none, none, none, .tempo 24⟩, ⟨some 24, some 12, some 7, .note 164⟩, ⟨none, none, none, .tempo 30⟩, ⟨some 48, some 12, some 7, .note 168⟩]]⟩

def paceConv : Converter Nat := fun _ _ => songFromMidi paceMidi (F32.ofRat (1 / 5)) false

def paceEncoded : Encoded := ⟨false, [0], [⟨[250, 25, 229, 200, 237, 200, 231, 24, 24, 124, 164, 231, 30, 48, 168, 0], []⟩]⟩

def paceJob : Job Nat := ⟨[slot (some 0) false], 0, 0xd002, bankAt 12 80 30, [paceEncoded]⟩

theorem paceMidi_read : readMidi id paceCalls = .ok paceMidi := by
  have hok : (readMidi id paceCalls).toOption.isSome = true := by decide +kernel
  unfold paceMidi
  cases h : readMidi id paceCalls with
  | ok h => rfl
  | error e => rw [h] at hok; cases hok

theorem paceSong_of : songFromMidi paceMidi (F32.ofRat (1 / 5)) false = .ok paceSong := by decide +kernel

theorem paceJob_ready : paceJob.Ready paceConv (ofRom (oneRom 80 30)) 0 where
  addr := by decide
  bank := ⟨by decide, .cons (by decide) (.cons (by decide) (.cons (by decide) (.cons (by decide) (.nil _)))), by decide, by decide, rfl, by decide⟩
  songs := .cons ⟨paceSong, paceSong_of, rfl, by rfl, .cons (by decide) .nil⟩ .nil
  fits := ⟨by decide, by decide, by decide, by decide, by decide⟩

theorem pace_tempos : tempoMap (file paceCalls) = [(0, 500000), (24, 400000)] := by
  have h : (file paceCalls).filterMap tempoMessage = [(0, 500000), (24, 400000)] := by decide +kernel
  unfold tempoMap
  rw [h]
  exact List.mergeSort_of_pairwise (by simp)

/-- The example meets all hypotheses, with a precision of 2.4 %. -/
example : ∃ r, writeBank paceConv false paceJob.songs (oneRom 80 30) paceJob.base paceJob.first 0 = .ok r ∧ ∀ (a0 : Mem) (regs : Regs),
      ∃ (fuel : Nat) (evs : List (Option (List Ev))) (T : Nat) (heard : List (Nat × UInt8)), evs.length = 8 ∧
        (∀ n, playSong (upload (ofRom r) paceJob.bank.chunks a0) (fuel + n) regs (0 + 0) = some (evs, T, .stop)) ∧
        heard.Perm (heardIn evs) ∧ ∀ start acc, acc < 256 →
        List.Forall₂ (fun x n => x.2 = n.2 + 0x68 ∧ ∃ p, Begins (engineTempo start evs) acc x.1 p ∧ InTime (file paceCalls) paceMidi.ticksPerBeat (24 / 1000) (leeway 24 [30]) p n.1) heard (fileNotes (file paceCalls)) := by
  have h1 : paceMidi.ticksPerBeat = 24 ∧ paceMidi.maxTime = 72 := by decide +kernel
  obtain ⟨h1, h2⟩ := h1
  have b1 : (tempoByte 500000 (F32.ofRat (1 / 5))).toNat = 24 := by decide +kernel
  have b2 : (tempoByte 400000 (F32.ofRat (1 / 5))).toNat = 30 := by decide +kernel
  obtain ⟨r, hr⟩ := C44_fits_ok paceConv false paceJob 0 (oneRom 80 30) paceJob_ready (by decide) (by decide +kernel) (by decide +kernel)
  refine ⟨r, hr, fun a0 regs => ?_⟩
  obtain ⟨fuel, evs, T, heard, k1, k2, k3, k4⟩ := C81_bank_partial id (fun l => .refl l) paceCalls paceMidi paceMidi_read
    (by rw [h1]; exact ⟨by decide +kernel, by decide +kernel, by decide +kernel⟩)
    ⟨by decide +kernel, by decide +kernel, by decide +kernel, by decide +kernel, by decide +kernel⟩ (by rw [h1]) (by rw [h1]; decide) (by rw [h1]; decide)
    (by rw [h1, h2]; decide) (by rw [h1, h2]; decide) (F32.ofRat (1 / 5)) false paceSong paceSong_of (by
      intro tr htr c hc t n hcc
      have h : ∀ tr ∈ paceSong.tracks, ∀ c ∈ tr, isCall c.command = false := by decide
      have := h tr htr c hc
      rw [hcc] at this; cases this) (by decide) 500000 [(24, 400000)] pace_tempos (by decide +kernel) (24 / 1000) (by
      rw [pace_tempos]
      intro x hx
      rcases List.mem_cons.1 hx with rfl | hx
      · rw [b1]; norm_num [abs_le]
      · rw [List.mem_singleton.1 hx, b2]; norm_num [abs_le]) paceConv false paceJob 0 (oneRom 80 30) r paceJob_ready
    ⟨by decide, by decide, by decide, by decide, by decide⟩ hr a0 regs 0 (slot (some 0) false) rfl paceSong_of
  refine ⟨fuel, evs, T, heard, k1, k2, k3, fun start acc ha => ?_⟩
  have := (k4 start acc ha).1
  rw [b1, List.map_cons, b2] at this
  exact this

/-- The second note of the example is half a second from the start. -/
example : fileNotes (file paceCalls) = [(0, 60), (24, 64)] ∧ fileMicros (file paceCalls) 24 24 = 500000 ∧ fileMicros (file paceCalls) 24 72 = 1300000 := by
  refine ⟨by decide +kernel, ?_, ?_⟩ <;> unfold fileMicros <;> rw [pace_tempos] <;> decide +kernel

/-- A file that changes its tempo when the first note starts, four seconds after the start. -/
def restCalls : List Callback :=
  [ .header 1 24, .trackChange, .metaEvent 0 .setTempo [7, 161, 32], .metaEvent 192 .setTempo [3, 208, 144], .midiEvent 0 (.noteOn 0 64 100), .midiEvent 24 (.noteOff 0 64 0) ]

def restSong : Song := ⟨[[0]], [[⟨none, none, none, .tempo 24⟩, ⟨none, none, none, .tempo 48⟩, restCmd 127, restCmd 65, ⟨some 24, some 12, some 7, .note 168⟩]]⟩

/-- **Tempo changes at the end of a rest come at its beginning**: a tidy file whose only note comes after four seconds, at a change of tempo; the engine plays it after two seconds. -/
theorem C81_early_false : ∃ (calls : List Callback) (m : MidiHandler) (s : Song), readMidi id calls = .ok m ∧ Sane m.ticksPerBeat (file calls) ∧ Tidy (file calls) ∧
    songFromMidi m defaultTempoAdjust false = .ok s ∧ s.parts[0]? = some [0] ∧ (∃ u more, tempoMap (file calls) = (0, u) :: more) ∧
    fileNotes (file calls) = [(192, 64)] ∧ fileMicros (file calls) m.ticksPerBeat 192 = 4000000 ∧
    heardIn (partSound s [0]) = [(192, 168)] ∧ ∀ start acc, acc < 256 → ∃ p, Begins (engineTempo start (partSound s [0])) acc 192 p ∧ 2000 * p < 2060000 := by
  obtain ⟨m, hm⟩ : ∃ m, readMidi id restCalls = .ok m := by
    have hok : (readMidi id restCalls).toOption.isSome = true := by decide +kernel
    cases h : readMidi id restCalls with
    | ok x => exact ⟨x, rfl⟩
    | error e => rw [h] at hok; cases hok
  have hmap : tempoMap (file restCalls) = [(0, 500000), (192, 250000)] := by
    have h : (file restCalls).filterMap tempoMessage = [(0, 500000), (192, 250000)] := by decide +kernel
    unfold tempoMap
    rw [h]
    exact List.mergeSort_of_pairwise (by simp)
  have hx : (readMidi id restCalls).map (fun h => (h.ticksPerBeat, (songFromMidi h defaultTempoAdjust false))) = .ok (24, .ok restSong) := by decide +kernel
  rw [hm] at hx
  simp only [Except.map, Except.ok.injEq, Prod.mk.injEq] at hx
  obtain ⟨h1, h2⟩ := hx
  refine ⟨restCalls, m, restSong, hm, ?_, ⟨by decide +kernel, by decide +kernel, by decide +kernel, by decide +kernel, by decide +kernel⟩, h2, rfl, ⟨_, _, hmap⟩, by decide +kernel, ?_, by decide +kernel, ?_⟩
  · rw [h1]; exact ⟨by decide +kernel, by decide +kernel, by decide +kernel⟩
  · unfold fileMicros
    rw [hmap, h1]
    have : ∀ i ∈ Finset.range 192, ((inForce 500000 [(0, 500000), (192, 250000)] i : Nat) : ℚ) / (24 : Nat) = 500000 / 24 := by
      intro i hi
      rw [inForce_cons 500000 _ 0 _ (by simp) i, if_neg (by omega), inForce_cons 500000 _ 192 _ (by simp) i, if_pos (Finset.mem_range.1 hi)]
      norm_num
    rw [Finset.sum_congr rfl this, Finset.sum_const, Finset.card_range]
    norm_num
  · intro start acc ha
    have hs : songTempos (partSound restSong [0]) = [(0, 24), (0, 48)] := by decide +kernel
    have hc : ∀ n, engineTempo start (partSound restSong [0]) n = 48 := by
      intro n
      unfold engineTempo
      rw [hs, inForce_cons start _ 0 _ (by simp) n, if_neg (by omega), inForce_cons _ _ 0 _ (by simp) n, if_neg (by omega)]
      induction n with
      | zero => rfl
      | succ x ih => unfold inForce; exact ih
    obtain ⟨p, k1, -, -, k2⟩ := C81_clock (engineTempo start (partSound restSong [0])) acc ha (fun n => by rw [hc]; omega) (fun n => by rw [hc]; omega) 192
    refine ⟨p, k1, ?_⟩
    simp only [hc, sub_self, abs_zero, Finset.sum_const_zero, Finset.sum_const, Finset.card_range, unitPolls] at k2
    norm_num at k2
    have : p ≤ 1025 := by exact_mod_cast k2
    omega

/-- The conditions of `C81_speed` and `C81_default_slow` for 120 beats per minute: the byte is 24. -/
example : ((60000000 : ℚ) / (500000 : Nat) + 1) * (13421773 / 67108864) < 256 ∧ (tempoByte 500000 defaultTempoAdjust).toNat = 24 ∧ (512000 : ℚ) = 12288000 / 24 := by
  refine ⟨by norm_num, by decide +kernel, by norm_num⟩

/-- A file without a tempo. -/
example : tempoMap (file tuneCalls) = [] := by
  have h : (file tuneCalls).filterMap tempoMessage = [] := by decide +kernel
  unfold tempoMap
  rw [h]
  exact List.mergeSort_of_pairwise (by simp)

end M2S
