import Verif.Proofs.ReleaseShape
import Verif.Proofs.ReleaseOutcomes
import Verif.Props.Cli
import Verif.Props.Playback
import Verif.Props.WholeTool
/-
Property C105: files and ROM images without overflow checks.
-/
namespace M2S
open CliSpec RomSpec Nspc Engine

/-! ### The ROM builder -/

/-- **C105.** With addresses of banks such that nothing overflows, the ROM builder itself does the same with and without overflow checks, whatever converts the songs: the properties of
`rom::write` for all converters are properties of both builds. -/
theorem C105_rom {Path : Type} (conv : Converter Path) (banks : List (List (SongDef Path))) (addrs : List Nat) (accepted : Nat) (file : List UInt8)
    (h : ∀ a ∈ addrs, a + 8 < 2 ^ 32) : Release.romWrite conv banks addrs accepted file = romWrite conv false banks addrs accepted file :=
  (romWrite_unchecked conv banks addrs accepted file h).symm

/-- **C105**, `gen_fake_rom`. -/
theorem C105_fake (rom : Rom) (addrs : List Nat) (h : ∀ a ∈ addrs, a + 8 < 2 ^ 32) : Release.genFakeRom rom addrs = genFakeRom rom addrs :=
  (genFakeRom_unchecked rom addrs h).symm

theorem writeBank_length_release {Path : Type} (conv : Converter Path) (songs : List (SongDef Path)) (rom r : Rom) (a f n : Nat)
    (h : Release.writeBank conv songs rom a f n = .ok r) : r.length = rom.length := by
  unfold Release.writeBank at h
  simp only [res_bind, songLoop_ok, pokes_ok] at h
  obtain ⟨w, -, st, ⟨ps, c, -, -, -, rfl⟩, -, rfl⟩ := h
  simp only [applyW_length]

/-- **C105.** Whatever the outcome, the addresses, and however many bytes the operating system stores, the file keeps its length. -/
theorem C105_size {Path : Type} (conv : Converter Path) (banks : List (List (SongDef Path))) (addrs : List Nat) (accepted : Nat) (file : List UInt8) :
    (Release.romWrite conv banks addrs accepted file).2.length = file.length := by
  unfold Release.romWrite
  split
  · rfl
  · rename_i r h
    have key : ∀ (js : List (List (SongDef Path) × Nat × Nat)) (rom r : Rom) (n : Nat), Release.writeBanks conv js rom n = .ok r → r.length = rom.length := by
      intro js
      induction js with
      | nil => intro rom r n h; cases h; rfl
      | cons j js ih =>
        obtain ⟨songs, a, f⟩ := j
        intro rom r n h
        rw [Release.writeBanks, res_bind] at h
        obtain ⟨r1, h1, h2⟩ := h
        rw [ih _ _ _ h2, writeBank_length_release _ _ _ _ _ _ _ h1]
    have := key _ _ _ _ h
    simp only [List.length_append, List.length_take, List.length_drop]
    omega

/-! ### Files -/

theorem writeRom_error_release {x : Ext} {fs : FS} {m : Manifest} {rom : String} {addrs : List Nat} {o : Bool} {e : Fault}
    (h : (Release.writeRom x fs m rom addrs o).1 = .error e) : (Release.writeRom x fs m rom addrs o).2 = fs := by
  unfold Release.writeRom at h ⊢
  cases hf : fs rom with
  | none => rfl
  | some file =>
    rw [hf] at h
    simp only [Release.romWrite] at h ⊢
    cases hb : Release.writeBanks (Release.converter x fs o) (m.zip (addrs.zip bankFirstSongAddrs)) file 0 with
    | error e' =>
      simp only
      rw [← hf, Function.update_eq_self]
    | ok r => rw [hb] at h; cases h

theorem writeRom_other_release {x : Ext} {fs : FS} {m : Manifest} {rom p : String} {addrs : List Nat} {o : Bool} (hp : p ≠ rom) :
    (Release.writeRom x fs m rom addrs o).2 p = fs p := by
  unfold Release.writeRom
  cases fs rom with
  | none => rfl
  | some file => exact Function.update_of_ne hp _ _

/-- **C105.** A run that fails leaves all files as they were. -/
theorem C105_failure (x : Ext) (fs : FS) (optimize : Bool) (cmd : Cmd) (e : Fault) (h : (Release.run x fs optimize cmd).1 = .error e) : (Release.run x fs optimize cmd).2 = fs := by
  cases cmd with
  | buildRom manifest rom addrs =>
    simp only [Release.run] at h ⊢
    cases ha : readBankAddrs addrs with
    | error e => rfl
    | ok as =>
      rw [ha] at h
      simp only at h ⊢
      cases hm : x.loadManifest fs manifest with
      | error e => rfl
      | ok m => rw [hm] at h; exact writeRom_error_release h
  | allOverworld input rom addrs =>
    simp only [Release.run] at h ⊢
    cases ha : readBankAddrs addrs with
    | error e => rfl
    | ok as => rw [ha] at h; exact writeRom_error_release h
  | fileSelect input rom addrs =>
    simp only [Release.run] at h ⊢
    cases ha : readBankAddrs addrs with
    | error e => rfl
    | ok as => rw [ha] at h; exact writeRom_error_release h
  | dumpMidi input =>
    simp only [Release.run]
    cases (fs input).bind x.parseMidi with
    | none => rfl
    | some calls =>
      simp only
      split <;> rfl
  | midi2json input output =>
    simp only [Release.run] at h ⊢
    cases hs : Release.songFromMidiFile x fs input defaultTempoAdjust optimize with
    | error e => rfl
    | ok s => rw [hs] at h; cases h
  | genFakeRom input output addrs =>
    simp only [Release.run] at h ⊢
    cases ha : readBankAddrs addrs with
    | error e => rfl
    | ok as =>
      rw [ha] at h
      simp only at h ⊢
      cases hf : fs input with
      | none => rfl
      | some rom =>
        rw [hf] at h
        simp only at h ⊢
        cases hg : Release.genFakeRom rom as with
        | error e => rfl
        | ok r => rw [hg] at h; cases h

/-- **C105.** No run, failed or not, changes any file but its target. -/
theorem C105_other_files (x : Ext) (fs : FS) (optimize : Bool) (cmd : Cmd) (p : String) (hp : cmd.target ≠ some p) : (Release.run x fs optimize cmd).2 p = fs p := by
  cases cmd with
  | buildRom manifest rom addrs =>
    have hp' : p ≠ rom := fun e => hp (by rw [e]; rfl)
    simp only [Release.run]
    cases readBankAddrs addrs with
    | error e => rfl
    | ok as =>
      simp only
      cases x.loadManifest fs manifest with
      | error e => rfl
      | ok m => exact writeRom_other_release hp'
  | allOverworld input rom addrs =>
    have hp' : p ≠ rom := fun e => hp (by rw [e]; rfl)
    simp only [Release.run]
    cases readBankAddrs addrs with
    | error e => rfl
    | ok as => exact writeRom_other_release hp'
  | fileSelect input rom addrs =>
    have hp' : p ≠ rom := fun e => hp (by rw [e]; rfl)
    simp only [Release.run]
    cases readBankAddrs addrs with
    | error e => rfl
    | ok as => exact writeRom_other_release hp'
  | dumpMidi input =>
    simp only [Release.run]
    cases (fs input).bind x.parseMidi with
    | none => rfl
    | some calls =>
      simp only
      split <;> rfl
  | midi2json input output =>
    have hp' : p ≠ output := fun e => hp (by rw [e]; rfl)
    simp only [Release.run]
    cases Release.songFromMidiFile x fs input defaultTempoAdjust optimize with
    | error e => rfl
    | ok s => exact Function.update_of_ne hp' _ _
  | genFakeRom input output addrs =>
    have hp' : p ≠ output := fun e => hp (by rw [e]; rfl)
    simp only [Release.run]
    cases readBankAddrs addrs with
    | error e => rfl
    | ok as =>
      simp only
      cases fs input with
      | none => rfl
      | some rom =>
        simp only
        cases Release.genFakeRom rom as with
        | error e => rfl
        | ok r => exact Function.update_of_ne hp' _ _

/-! ### Songs -/

/-- The song of a MIDI file, if there is one, comes from a MIDI reader. -/
theorem midiFile_song (x : Ext) (fs : FS) (path : String) (f : F32) (optimize : Bool) (s : Song) (h : Release.songFromMidiFile x fs path f optimize = .ok s) :
    ∃ m, Release.songFromMidi m f optimize = .ok s := by
  unfold Release.songFromMidiFile at h
  split at h
  · cases h
  · split at h
    · cases h
    · rw [res_bind] at h
      obtain ⟨m, -, h⟩ := h
      exact ⟨m, h⟩

/-- **C105.** The song of any MIDI file that is converted can be stored, whatever values have wrapped around: its tracks can be written, its part has at most eight tracks, and parts and calls
name tracks that exist. -/
theorem C105_storable (x : Ext) (fs : FS) (optimize : Bool) (d : SongDef String) (path : String) (f : F32) (s : Song)
    (hl : loadSong (Release.converter x fs optimize) d = .ok s) (h : Release.songFromMidiFile x fs path f optimize = .ok s) :
    ∃ e, EncodedOf (Release.converter x fs optimize) d e ∧ e.part.length ≤ 8 ∧ (∀ t ∈ e.part, t < e.tracks.length) ∧ ∀ o ∈ e.tracks, ∀ r ∈ o.refs, r.targetTrack < e.tracks.length := by
  obtain ⟨m, h⟩ := midiFile_song x fs path f optimize s h
  exact (song_release m f optimize s h).1.storable hl

/-- **C105.** It can be played if its values are in the engine's ranges. -/
theorem C105_playable (x : Ext) (fs : FS) (path : String) (f : F32) (optimize : Bool) (s : Song) (h : Release.songFromMidiFile x fs path f optimize = .ok s)
    (hr : InRange s) : Playable s := by
  obtain ⟨m, h⟩ := midiFile_song x fs path f optimize s h
  obtain ⟨h1, h2⟩ := song_release m f optimize s h
  exact h1.playable h2 hr

/-- A run of one of the three building subcommands builds what it should. -/
theorem builds_release (x : Ext) (fs : FS) (optimize : Bool) (cmd : Cmd) (m : Manifest) (rom : String) (addrs : List Nat)
    (hb : Builds x fs m rom addrs cmd) : Release.run x fs optimize cmd = Release.writeRom x fs m rom addrs optimize := by
  cases cmd with
  | buildRom manifest rom' a =>
    obtain ⟨h1, h2, rfl⟩ := hb
    simp only [Release.run, h1, h2]
  | allOverworld input rom' a =>
    obtain ⟨h1, rfl, rfl⟩ := hb
    simp only [Release.run, h1]
  | fileSelect input rom' a =>
    obtain ⟨h1, rfl, rfl⟩ := hb
    simp only [Release.run, h1]
  | _ => exact hb.elim

theorem allReady_addrs {Path : Type} {conv : Converter Path} {m : Mem} : ∀ (js : List (Job Path)) (n : Nat), AllReady conv m n js → ∀ a ∈ js.map Job.base, a + 8 < 2 ^ 32 := by
  intro js
  induction js with
  | nil => intro n _ a ha; cases ha
  | cons i js ih =>
    intro n h a ha
    rcases List.mem_cons.mp ha with rfl | ha
    · have := h.1.addr; omega
    · exact ih _ h.2 a ha

/-- **C105.** If the songs can be converted and fit, no song data lies over chunk headers or bank pointers, the indices in the songs are valid and all song chunks lie inside the ROM, the run succeeds. -/
theorem C105_succeeds (x : Ext) (fs : FS) (optimize : Bool) (cmd : Cmd) (rom : String) (addrs : List Nat) (js : List (Job String)) (file0 : Rom)
    (hb : Builds x fs (js.map Job.songs) rom addrs cmd)
    (hrom : fs rom = some file0) (haddrs : addrs = js.map Job.base) (hfirst : bankFirstSongAddrs = js.map Job.first)
    (hr : AllReady (Release.converter x fs optimize) (ofRom file0) 0 js) (hs : HeadersSafe js)
    (hidx : ∀ j ∈ js, ∀ e ∈ j.encoded, (∀ t ∈ e.part, t < e.tracks.length) ∧ ∀ o ∈ e.tracks, ∀ r ∈ o.refs, r.targetTrack < e.tracks.length)
    (hlen : ∀ j ∈ js, j.bank.songs.next ≤ file0.length ∧ j.bank.over.next ≤ file0.length) :
    (Release.run x fs optimize cmd).1 = .ok () := by
  obtain ⟨r, h⟩ := C44_build_ok (Release.converter x fs optimize) false js addrs file0 haddrs hfirst hr hs hidx hlen
  rw [builds_release x fs optimize cmd _ rom addrs hb]
  simp only [Release.writeRom, hrom]
  rw [C105_rom _ _ _ _ _ (by rw [haddrs]; exact allReady_addrs js 0 hr)]
  simp only [romWrite, h]

/-- **C105, partial** (missing: what is false of the code, as for C54). From the command line to sound without overflow checks: after a run that succeeds, the ROM file keeps its length, no other file is
changed, and when the game uploads a bank the engine plays the songs of its slots that come from MIDI files and have values in range, whatever happened to the file's times on the way: all
channels play the commands of their tracks, subroutines in their places, and the song repeats if the slot says so. -/
theorem C105_plays_partial (x : Ext) (fs fs' : FS) (optimize : Bool) (cmd : Cmd) (rom : String) (addrs : List Nat) (js : List (Job String)) (file0 : Rom)
    (hb : Builds x fs (js.map Job.songs) rom addrs cmd) (hacc : ∀ n, x.accept n = n) (hrun : Release.run x fs optimize cmd = (.ok (), fs'))
    (hrom : fs rom = some file0) (haddrs : addrs = js.map Job.base) (hfirst : bankFirstSongAddrs = js.map Job.first)
    (hr : AllReady (Release.converter x fs optimize) (ofRom file0) 0 js) (hs : HeadersSafe js) (hd : DataApart js) :
    (∀ p, p ≠ rom → fs' p = fs p) ∧ ∃ image, fs' rom = some image ∧ image.length = file0.length ∧
      ∀ (pre : List (Job String)) (j : Job String) (post : List (Job String)), js = pre ++ j :: post → j.bank.Clean →
        ∀ (a0 : Mem) (regs : Regs) (k : Nat) (d : SongDef String) (path : String) (s : Song), j.songs[k]? = some d → d.input = some path → x.extension path = some "mid" →
          Release.songFromMidiFile x fs path d.tempoFactor optimize = .ok s → InRange s →
          ∃ part fuel evs T, s.parts[0]? = some part ∧
            (∀ n, playSong (upload (ofRom image) j.bank.chunks a0) (fuel + n) regs ((pre.map fun i => i.songs.length).sum + k) =
              some (evs, T, if d.loops then .goto 0xff T else .stop)) ∧
            timingOf evs = timingOf (partSound s part) ∧ ((∀ tr ∈ s.tracks, ∀ c ∈ tr, isCall c.command = false) → evs = partSound s part) := by
  rw [builds_release x fs optimize cmd _ rom addrs hb] at hrun
  refine ⟨fun p hp => ?_, ?_⟩
  · have := writeRom_other_release (x := x) (fs := fs) (m := js.map Job.songs) (addrs := addrs) (o := optimize) hp
    rwa [hrun] at this
  have ha : ∀ a ∈ addrs, a + 8 < 2 ^ 32 := by rw [haddrs]; exact allReady_addrs js 0 hr
  simp only [Release.writeRom, hrom, hacc] at hrun
  rw [C105_rom _ _ _ _ _ ha] at hrun
  unfold romWrite at hrun
  cases hbr : buildRom (Release.converter x fs optimize) false (js.map Job.songs) addrs file0 with
  | error e => rw [hbr] at hrun; cases hrun
  | ok r =>
    rw [hbr] at hrun
    have hlen := C39_size _ _ _ _ _ _ hbr
    simp only [Prod.mk.injEq, true_and] at hrun
    rw [hlen, List.take_of_length_le (by omega), List.drop_of_length_le (by omega), List.append_nil] at hrun
    subst hrun
    refine ⟨r, Function.update_self .., hlen, fun pre j post hj hc a0 regs k d path s hk hpath hext hm hin => ?_⟩
    have hl : loadSong (Release.converter x fs optimize) d = .ok s := by
      unfold loadSong
      simp only [hpath, Release.converter, hext, if_true]
      exact hm
    exact C54_build_partial _ false js addrs file0 r haddrs hfirst hr hs hd hbr pre j post hj hc a0 regs k d s hk hl (C105_playable x fs path d.tempoFactor optimize s hm hin)

/-! Examples. -/

/-- At the last addresses the builds differ, if the ROM is large enough: the checked one panics, the other one goes on at address 0. -/
example : bankStart (List.replicate 0x1000000 0) 0xfffffff8 = .error .panic ∧ Release.bankStart (List.replicate 0x1000000 0) 0xfffffff8 = .ok (0, 0, 0, 0) := by
  have key : ∀ i, i < 0x1000000 → peek (List.replicate 0x1000000 0) i = .ok 0 := by
    intro i hi
    unfold peek
    rw [List.getElem?_replicate_of_lt hi]
  constructor
  · rfl
  · unfold Release.bankStart
    rw [key _ (by decide), key _ (by decide), key _ (by decide)]
    rfl

/-- The tune of C66 with a stray end behind it. -/
def straySelectFS : FS := fun p => if p = "small.sfc" then some wideRom else if p = "tune.mid" then some [60, 64, 0] else none

theorem stray_song : Release.songFromMidiFile demoExt straySelectFS "tune.mid" defaultTempoAdjust false = .ok selectSong := by decide +kernel

theorem strayJobs_ready : AllReady (Release.converter demoExt straySelectFS false) (ofRom wideRom) 0 selectJobs := by
  have htune : EncodedOf (Release.converter demoExt straySelectFS false) (songDefDefault "tune.mid") selectEncoded :=
    ⟨selectSong, stray_song, rfl, by rfl, .cons (by decide) .nil⟩
  refine ⟨⟨by decide, ?_, List.rel_append (empties_of _ 10) (.cons htune (empties_of _ 4)), ⟨by decide, by decide, by decide, by decide, by decide⟩⟩,
    ⟨by decide, ?_, empties_of _ 16, ⟨by decide, by decide, by decide, by decide, by decide⟩⟩,
    ⟨by decide, ?_, empties_of _ 3, ⟨by decide, by decide, by decide, by decide, by decide⟩⟩, trivial⟩ <;>
  exact ⟨by decide +kernel, .cons (by decide +kernel) (.cons (by decide +kernel) (.cons (by decide +kernel) (.cons (by decide +kernel) (.nil _)))),
    by decide, by decide, rfl, by decide⟩

theorem strayCmd_builds : Builds demoExt straySelectFS (selectJobs.map Job.songs) "small.sfc" (selectJobs.map Job.base) selectCmd := ⟨by decide, rfl, rfl⟩

/-- The build with overflow checks panics; the other one puts the tune into the ROM, and it can be heard. -/
example (a0 : Mem) (regs : Regs) : (demoExt.run straySelectFS false false selectCmd).1 = .error .panic ∧ (Release.run demoExt straySelectFS false selectCmd).1 = .ok () ∧
    ∃ image, (Release.run demoExt straySelectFS false selectCmd).2 "small.sfc" = some image ∧
      ∃ fuel T, playSong (upload (ofRom image) (bankAt 36 250 250).chunks a0) fuel regs 10 = some (partSound selectSong [0], T, .goto 0xff T) := by
  have hok : (Release.run demoExt straySelectFS false selectCmd).1 = .ok () :=
    C105_succeeds demoExt straySelectFS false selectCmd "small.sfc" _ selectJobs wideRom strayCmd_builds rfl rfl rfl strayJobs_ready selectJobs_safe (by decide) (by decide +kernel)
  refine ⟨by decide +kernel, hok, ?_⟩
  have hrun : Release.run demoExt straySelectFS false selectCmd = (.ok (), (Release.run demoExt straySelectFS false selectCmd).2) := by
    generalize Release.run demoExt straySelectFS false selectCmd = r at hok ⊢
    obtain ⟨a, b⟩ := r
    simp only at hok
    subst hok
    rfl
  obtain ⟨-, image, i1, -, i3⟩ := C105_plays_partial demoExt straySelectFS _ false selectCmd "small.sfc" _ selectJobs wideRom strayCmd_builds (fun _ => rfl) hrun rfl rfl rfl strayJobs_ready
    selectJobs_safe selectJobs_apart
  obtain ⟨part, fuel, evs, T, e1, e2, -, e4⟩ := i3 [] _ _ rfl (selectJobs_clean _ (List.mem_cons_self ..)) a0 regs 10 (songDefDefault "tune.mid") "tune.mid" selectSong rfl rfl rfl stray_song
    ⟨by decide, by decide, by
      intro tr htr c hc n e
      simp only [selectSong, List.mem_singleton] at htr
      subst htr
      simp only [List.mem_cons, List.not_mem_nil, or_false] at hc
      rcases hc with rfl | rfl <;> cases e <;> decide⟩
  cases e1
  have := e4 (by decide)
  subst this
  exact ⟨image, i1, fuel, T, e2 0⟩

end M2S
