import Verif.Props.FileToSound
import Verif.Props.Cli
import Verif.Props.RomMore
/-
Property C66: from the command line to sound.
-/
namespace M2S
open MidiSpec Timing RomSpec Nspc Engine

/-- What a subcommand that builds a ROM is to build: the songs of the banks, the ROM file, and the addresses of the banks. -/
def Builds (x : Ext) (fs : FS) (m : Manifest) (rom : String) (addrs : List Nat) : Cmd → Prop
  | .buildRom manifest rom' a => readBankAddrs a = .ok addrs ∧ x.loadManifest fs manifest = .ok m ∧ rom' = rom
  | .allOverworld input rom' a => readBankAddrs a = .ok addrs ∧ manifestSingleSong input = m ∧ rom' = rom
  | .fileSelect input rom' a => readBankAddrs a = .ok addrs ∧ manifestFileSelect input = m ∧ rom' = rom
  | _ => False

/-- **C66.** A run of one of the three building subcommands builds what it should. -/
theorem C66_builds (x : Ext) (fs : FS) (optimize verbose : Bool) (cmd : Cmd) (m : Manifest) (rom : String) (addrs : List Nat)
    (hb : Builds x fs m rom addrs cmd) : x.run fs optimize verbose cmd = x.writeRom fs m rom addrs optimize verbose := by
  cases cmd with
  | buildRom manifest rom' a =>
    obtain ⟨h1, h2, rfl⟩ := hb
    simp only [Ext.run, h1, h2]
  | allOverworld input rom' a =>
    obtain ⟨h1, rfl, rfl⟩ := hb
    simp only [Ext.run, h1]
  | fileSelect input rom' a =>
    obtain ⟨h1, rfl, rfl⟩ := hb
    simp only [Ext.run, h1]
  | _ => exact hb.elim

/-- **C66.** If the songs can be converted and fit, no song data lies over chunk headers or bank pointers, the indices in the songs are valid and all song chunks lie inside the ROM, the run succeeds. -/
theorem C66_succeeds (x : Ext) (fs : FS) (optimize verbose : Bool) (cmd : Cmd) (rom : String) (addrs : List Nat) (js : List (Job String)) (file0 : Rom)
    (hb : Builds x fs (js.map Job.songs) rom addrs cmd)
    (hrom : fs rom = some file0) (haddrs : addrs = js.map Job.base) (hfirst : bankFirstSongAddrs = js.map Job.first)
    (hr : AllReady (x.converter fs optimize) (ofRom file0) 0 js) (hs : HeadersSafe js)
    (hidx : ∀ j ∈ js, ∀ e ∈ j.encoded, (∀ t ∈ e.part, t < e.tracks.length) ∧ ∀ o ∈ e.tracks, ∀ r ∈ o.refs, r.targetTrack < e.tracks.length)
    (hlen : ∀ j ∈ js, j.bank.songs.next ≤ file0.length ∧ j.bank.over.next ≤ file0.length) :
    (x.run fs optimize verbose cmd).1 = .ok () := by
  obtain ⟨r, h⟩ := C44_build_ok (x.converter fs optimize) verbose js addrs file0 haddrs hfirst hr hs hidx hlen
  rw [C66_builds x fs optimize verbose cmd _ rom addrs hb]
  simp only [Ext.writeRom, hrom, romWrite, h]

/-- **C66, partial** (missing: what is false of the code, as for C64 and C54). From the command line to sound: the tool is run to build a ROM, with or without optimisation, and succeeds; one of
the songs of the build comes from a tidy MIDI file. Then the ROM file has an image in which, when the game uploads the song's bank, the engine plays under the song's number every note of
that file, once, with the right pitch byte, starting less than one unit (1/24 beat) from its start in the file, and no other note. The song goes back to its start or stops as the
build says, and no other file is changed. -/
theorem C66_run_partial (x : Ext) (hord : ∀ l, (x.ord l).Perm l) (fs fs' : FS) (optimize verbose : Bool) (cmd : Cmd) (rom : String) (addrs : List Nat) (js : List (Job String)) (file0 : Rom)
    (hb : Builds x fs (js.map Job.songs) rom addrs cmd) (hacc : ∀ n, x.accept n = n) (hrun : x.run fs optimize verbose cmd = (.ok (), fs'))
    (hrom : fs rom = some file0) (haddrs : addrs = js.map Job.base) (hfirst : bankFirstSongAddrs = js.map Job.first)
    (hr : AllReady (x.converter fs optimize) (ofRom file0) 0 js) (hs : HeadersSafe js) (hd : DataApart js)
    (pre : List (Job String)) (j : Job String) (post : List (Job String)) (hj : js = pre ++ j :: post) (hc : j.bank.Clean) (k : Nat) (d : SongDef String) (hk : j.songs[k]? = some d)
    (path : String) (bytes : List UInt8) (calls : List Callback) (m : MidiHandler) (s : Song)
    (hpath : d.input = some path) (hext : x.extension path = some "mid") (hbytes : fs path = some bytes) (hcalls : x.parseMidi bytes = some calls)
    (hread : readMidi x.ord calls = .ok m) (hsong : songFromMidi m d.tempoFactor optimize = .ok s)
    (hsane : Sane m.ticksPerBeat (file calls)) (htidy : Tidy (file calls))
    (h24 : 24 ∣ m.ticksPerBeat) (hp : 0 < m.ticksPerBeat) (hp2 : m.ticksPerBeat < 65536)
    (hG : m.maxTime + 3525 ≤ exactTicks m.ticksPerBeat) (hG2 : 24 * (m.maxTime + 1) ≤ 32511 * m.ticksPerBeat)
    (hcount : ∀ tr ∈ s.tracks, ∀ c ∈ tr, ∀ t n, c.command = .callLoop t n → n.toNat ≤ 2)
    (hdur : ∀ tr ∈ s.tracks, ∀ c ∈ tr, c.command.isNote = true → ∀ d ∈ c.duration, d < 0x80) :
    (∀ p, p ≠ rom → fs' p = fs p) ∧
    ∃ image, fs' rom = some image ∧ image.length = file0.length ∧
      ∀ (a0 : Mem) (regs : Regs), ∃ (fuel : Nat) (evs : List (Option (List Ev))) (T : Nat) (heard : List (Nat × UInt8)), evs.length = 8 ∧
        (∀ n, playSong (upload (ofRom image) j.bank.chunks a0) (fuel + n) regs ((pre.map fun i => i.songs.length).sum + k) =
          some (evs, T, if d.loops then .goto 0xff T else .stop)) ∧
        heard.Perm (heardIn evs) ∧ List.Forall₂ (OnTimeAt m.ticksPerBeat) heard (fileNotes (file calls)) ∧
        ∀ l, some l ∈ evs → |(heardTime l : ℚ) - 24 * m.maxTime / m.ticksPerBeat| < 1 := by
  rw [C66_builds x fs optimize verbose cmd _ rom addrs hb] at hrun
  obtain ⟨file', image, g1, g2, g3⟩ := C42_success x fs fs' _ rom addrs optimize verbose hacc hrun
  rw [hrom, Option.some.injEq] at g1
  subst g1
  refine ⟨fun p hp => ?_, image, g3, C39_size _ _ _ _ _ _ g2, fun a0 regs => ?_⟩
  · have := writeRom_other (x := x) (fs := fs) (m := js.map Job.songs) (addrs := addrs) (o := optimize) (v := verbose) hp
    rwa [hrun] at this
  have hl : loadSong (x.converter fs optimize) d = .ok s := by
    unfold loadSong
    simp only [hpath, Ext.converter, hext, if_true, Ext.songFromMidiFile, hbytes, hcalls, hread]
    exact hsong
  obtain ⟨-, hP, hS⟩ := tidy_sound x.ord hord calls m hread hsane htidy h24 hp hp2 hG hG2 _ optimize s hsong hcount hdur
  obtain ⟨part, fuel, evs, T, h1, h2, h3, -⟩ := C54_build_partial _ verbose js addrs _ _ haddrs hfirst hr hs hd g2 pre j post hj hc a0 regs k d s hk hl hP
  obtain ⟨heard, e1, e2, e3, e4⟩ := hS part evs h1 h3
  exact ⟨fuel, evs, T, heard, e1, h2, e2, e3, e4⟩

/-! An example: a tune of two notes is put into the file select slot of a small ROM. -/

/-- A ROM with three banks for all slots. -/
def wideRom : Rom := romPtr 36 ++ romPtr 553 ++ romPtr 1070 ++ romBank 250 250 ++ romBank 250 250 ++ romBank 250 250

/-- The ROM and the tune. -/
def selectFS : FS := fun p => if p = "small.sfc" then some wideRom else if p = "tune.mid" then some [60, 64] else none

/-- The tune as a song. -/
def selectSong : Song := ⟨[[0]], [[⟨some 24, some 12, some 7, .note 164⟩, ⟨some 24, some 12, some 7, .note 168⟩]]⟩

def selectEncoded : Encoded := ⟨true, [0], [⟨[250, 25, 229, 200, 237, 200, 24, 124, 164, 168, 0], []⟩]⟩

theorem tune_loads (o : Bool) : loadSong (demoExt.converter selectFS o) (songDefDefault "tune.mid") = .ok selectSong := by cases o <;> decide +kernel

/-- The build asked for by `file-select tune.mid small.sfc --bank-addrs 0 c 18`. -/
def selectJobs : List (Job String) :=
  [⟨List.replicate 10 songDefEmpty ++ songDefDefault "tune.mid" :: List.replicate 4 songDefEmpty, 0, 0xd036, bankAt 36 250 250,
      List.replicate 10 (emptyEncoded false) ++ selectEncoded :: List.replicate 4 (emptyEncoded false)⟩,
   ⟨List.replicate 16 songDefEmpty, 12, 0xd046, bankAt 553 250 250, List.replicate 16 (emptyEncoded false)⟩,
   ⟨List.replicate 3 songDefEmpty, 24, 0xd046, bankAt 1070 250 250, List.replicate 3 (emptyEncoded false)⟩]

theorem empties_of {Path : Type} {conv : Converter Path} (f : F32) (n : Nat) : List.Forall₂ (EncodedOf conv) (List.replicate n ⟨none, f, false⟩) (List.replicate n (emptyEncoded false)) := by
  induction n with
  | zero => exact .nil
  | succ n ih => exact .cons (emptyEncoded_of _ _) ih

theorem selectJobs_ready (o : Bool) : AllReady (demoExt.converter selectFS o) (ofRom wideRom) 0 selectJobs := by
  have htune : EncodedOf (demoExt.converter selectFS o) (songDefDefault "tune.mid") selectEncoded :=
    ⟨selectSong, tune_loads o, rfl, by rfl, .cons (by decide) .nil⟩
  refine ⟨⟨by decide, ?_, List.rel_append (empties_of _ 10) (.cons htune (empties_of _ 4)), ⟨by decide, by decide, by decide, by decide, by decide⟩⟩,
    ⟨by decide, ?_, empties_of _ 16, ⟨by decide, by decide, by decide, by decide, by decide⟩⟩,
    ⟨by decide, ?_, empties_of _ 3, ⟨by decide, by decide, by decide, by decide, by decide⟩⟩, trivial⟩ <;>
  exact ⟨by decide +kernel, .cons (by decide +kernel) (.cons (by decide +kernel) (.cons (by decide +kernel) (.cons (by decide +kernel) (.nil _)))),
    by decide, by decide, rfl, by decide⟩

theorem selectJobs_apart : DataApart selectJobs := by
  unfold DataApart selectJobs
  simp only [List.pairwise_cons, List.mem_cons, List.not_mem_nil, or_false, forall_eq_or_imp, forall_eq, IsEmpty.forall_iff, implies_true,
    List.Pairwise.nil, and_true, Bank.Data, bankAt, ChunkInfo.data, ChunkInfo.next]
  refine ⟨⟨?_, ?_⟩, ?_⟩ <;> intro q <;> omega

theorem selectJobs_safe : HeadersSafe selectJobs := by
  unfold HeadersSafe selectJobs
  simp only [List.mem_cons, List.not_mem_nil, or_false, forall_eq_or_imp, forall_eq, Bank.Data, bankAt, ChunkInfo.data, ChunkInfo.next,
    Bank.Meta, Skeleton, Bank.chunks, List.cons_append, List.nil_append, exists_eq_or_imp, exists_eq_left, lorom]
  refine ⟨⟨?_, ?_, ?_⟩, ⟨?_, ?_, ?_⟩, ?_, ?_, ?_⟩ <;> intro q <;> omega

theorem selectJobs_clean : ∀ j ∈ selectJobs, j.bank.Clean := by
  intro j hj
  simp only [selectJobs, List.mem_cons, List.not_mem_nil, or_false] at hj
  rcases hj with rfl | rfl | rfl <;> exact ⟨by decide, by decide, by decide, by decide, by decide⟩

/-- The command line. -/
def selectCmd : Cmd := .fileSelect "tune.mid" "small.sfc" (some ["0", "c", "18"])

theorem selectCmd_builds : Builds demoExt selectFS (selectJobs.map Job.songs) "small.sfc" (selectJobs.map Job.base) selectCmd := ⟨by decide, rfl, rfl⟩

/-- The run succeeds. -/
theorem selectCmd_succeeds (o v : Bool) : (demoExt.run selectFS o v selectCmd).1 = .ok () :=
  C66_succeeds demoExt selectFS o v selectCmd "small.sfc" _ selectJobs wideRom selectCmd_builds rfl rfl rfl (selectJobs_ready o) selectJobs_safe (by decide) (by decide +kernel)

/-- The callbacks of the tune. -/
def selectCalls : List Callback :=
  [.header 1 48, .trackChange, .midiEvent 0 (.noteOn 0 60 100), .midiEvent 48 (.noteOff 0 60 0), .midiEvent 0 (.noteOn 0 64 100), .midiEvent 48 (.noteOff 0 64 0)]

/-- All hypotheses of `C66_run_partial` can be met: with and without optimisation, slot 10 plays the two notes at 0 and 24 units, more or less, and nothing else. -/
example (o v : Bool) (a0 : Mem) (regs : Regs) : ∃ image, (demoExt.run selectFS o v selectCmd).2 "small.sfc" = some image ∧
    ∃ fuel evs T x y, playSong (upload (ofRom image) (bankAt 36 250 250).chunks a0) fuel regs 10 = some (evs, T, .goto 0xff T) ∧ (heardIn evs).Perm [(x, 164), (y, 168)] ∧
      |(x : ℚ)| < 1 ∧ |(y : ℚ) - 24| < 1 := by
  have hok : (readMidi id selectCalls).map (fun m => (m.ticksPerBeat, m.maxTime, decide (songFromMidi m defaultTempoAdjust true = .ok selectSong),
      decide (songFromMidi m defaultTempoAdjust false = .ok selectSong))) = .ok (48, 96, true, true) := by decide +kernel
  cases hr : readMidi id selectCalls with
  | error e => rw [hr] at hok; cases hok
  | ok m =>
    rw [hr] at hok
    simp only [Except.map, Except.ok.injEq, Prod.mk.injEq, decide_eq_true_eq] at hok
    obtain ⟨k1, k2, k3, k4⟩ := hok
    have hsong : songFromMidi m defaultTempoAdjust o = .ok selectSong := by cases o <;> assumption
    have hrun : demoExt.run selectFS o v selectCmd = (.ok (), (demoExt.run selectFS o v selectCmd).2) := by
      have h := selectCmd_succeeds o v
      generalize demoExt.run selectFS o v selectCmd = r at h ⊢
      obtain ⟨a, b⟩ := r
      simp only at h
      subst h
      rfl
    obtain ⟨-, image, i1, -, i3⟩ := C66_run_partial demoExt (fun _ => .refl _) selectFS (demoExt.run selectFS o v selectCmd).2 o v selectCmd "small.sfc" _ selectJobs wideRom selectCmd_builds (fun _ => rfl)
      hrun rfl rfl rfl (selectJobs_ready o) selectJobs_safe selectJobs_apart [] _ _ rfl (selectJobs_clean _ (List.mem_cons_self ..)) 10 (songDefDefault "tune.mid") rfl
      "tune.mid" [60, 64] selectCalls m selectSong rfl rfl rfl rfl hr hsong
      (by rw [k1]; exact ⟨by decide +kernel, by decide +kernel, by decide +kernel⟩)
      ⟨by decide +kernel, by decide +kernel, by decide +kernel, by decide +kernel, by decide +kernel⟩
      (by rw [k1]; decide) (by rw [k1]; decide) (by rw [k1]; decide) (by rw [k1, k2]; decide) (by rw [k1, k2]; decide)
      (by intro tr htr c hc t n h; simp only [selectSong, List.mem_cons, List.not_mem_nil, or_false] at htr; subst htr; simp only [List.mem_cons, List.not_mem_nil, or_false] at hc; rcases hc with rfl | rfl <;> cases h)
      (by decide)
    obtain ⟨fuel, evs, T, heard, e1, e2, e3, e4, -⟩ := i3 a0 regs
    refine ⟨image, i1, fuel, evs, T, ?_⟩
    have hn : fileNotes (file selectCalls) = [(0, 60), (48, 64)] := by decide +kernel
    rw [hn, k1] at e4
    cases e4 with
    | cons q1 e4 =>
      cases e4 with
      | cons q2 e4 =>
        cases e4
        rename_i a b
        obtain ⟨x, a⟩ := a
        obtain ⟨y, b⟩ := b
        obtain ⟨q1, q3⟩ := q1
        obtain ⟨q2, q4⟩ := q2
        simp only at q1 q2 q3 q4
        subst q1 q2
        refine ⟨x, y, e2 0, e3.symm, ?_, ?_⟩
        · simpa using q3
        · norm_num at q4; exact q4

end M2S
