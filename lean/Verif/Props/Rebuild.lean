import Verif.Props.RomSame
import Verif.Props.WholeTool
import Verif.Props.CliMore
/-
Property C82: building into a ROM that already holds the songs of an earlier build.
-/
namespace M2S
open MidiSpec Timing RomSpec Nspc Engine

/-- The jobs `ks` use banks of the jobs `js`. -/
def SameBanks {P Q : Type} (js : List (Job P)) (ks : List (Job Q)) : Prop := ∀ k ∈ ks, ∃ j ∈ js, k.base = j.base ∧ k.bank = j.bank

/-- A build leaves pointers and headers of the banks as they were. -/
theorem build_meta {P Q : Type} {conv : Converter P} {v : Bool} {js : List (Job P)} {addrs : List Nat} {rom r : Rom}
    (haddrs : addrs = js.map Job.base) (hfirst : bankFirstSongAddrs = js.map Job.first)
    (hr : AllReady conv (ofRom rom) 0 js) (hs : HeadersSafe js) (h : buildRom conv v (js.map Job.songs) addrs rom = .ok r) {ks : List (Job Q)} (hk : SameBanks js ks) :
    r.length = rom.length ∧ ∀ k ∈ ks, ∀ q, k.bank.Meta k.base q → r[q]? = rom[q]? := by
  have hz : (js.map Job.songs).zip (addrs.zip bankFirstSongAddrs) = js.map Job.args := by
    rw [haddrs, hfirst, List.zip_map', List.zip_map']; rfl
  unfold buildRom at h
  rw [hz] at h
  obtain ⟨h1, h2, -⟩ := writeBanks_built hr hs h
  refine ⟨h1, fun k hkm q hq => h2 q fun i hi hd => ?_⟩
  obtain ⟨j, hj, e1, e2⟩ := hk k hkm
  rw [e1, e2] at hq
  exact hs i hi j hj q hd hq

theorem headersSafe_same {P Q : Type} {js : List (Job P)} {ks : List (Job Q)} (hs : HeadersSafe js) (hk : SameBanks js ks) : HeadersSafe ks := by
  intro a ha b hb q hd hm
  obtain ⟨i, hi, -, e2⟩ := hk a ha
  obtain ⟨j, hj, e3, e4⟩ := hk b hb
  rw [e2] at hd
  rw [e3, e4] at hm
  exact hs i hi j hj q hd hm

/-- **C82 (conditions).** After a build that fits, everything that is known about builds into the original ROM (C40, C41, C44, C54 and so on) is known about builds of other songs into the result: their
conditions still hold. The two builds may use different converters, that is, other files or options. -/
theorem C82_ready {P Q : Type} (conv : Converter P) (conv' : Converter Q) (v : Bool) (js : List (Job P)) (ks : List (Job Q)) (addrs : List Nat) (rom r : Rom)
    (haddrs : addrs = js.map Job.base) (hfirst : bankFirstSongAddrs = js.map Job.first)
    (hr : AllReady conv (ofRom rom) 0 js) (hs : HeadersSafe js) (h : buildRom conv v (js.map Job.songs) addrs rom = .ok r)
    (hk : SameBanks js ks) (hr' : AllReady conv' (ofRom rom) 0 ks) : AllReady conv' (ofRom r) 0 ks :=
  allReady_congr hr' (build_meta haddrs hfirst hr hs h hk).2

/-- **C82, partial** (missing: builds that do not fit, which can destroy the chunk list, `C43_last_block_false`). Other songs are built into a ROM that already holds the songs of an earlier build. The outcome
is the same as in the original ROM: the same error, or an image with the same bytes, except in places that the second build does not touch. -/
theorem C82_same_partial {P Q : Type} (conv : Converter P) (conv' : Converter Q) (v v' : Bool) (js : List (Job P)) (ks : List (Job Q)) (addrs addrs' : List Nat) (rom r : Rom)
    (haddrs : addrs = js.map Job.base) (hfirst : bankFirstSongAddrs = js.map Job.first)
    (hr : AllReady conv (ofRom rom) 0 js) (hs : HeadersSafe js) (h : buildRom conv v (js.map Job.songs) addrs rom = .ok r)
    (haddrs' : addrs' = ks.map Job.base) (hfirst' : bankFirstSongAddrs = ks.map Job.first) (hk : SameBanks js ks) (hr' : AllReady conv' (ofRom rom) 0 ks) :
    SameOutcome rom r (buildRom conv' v' (ks.map Job.songs) addrs' rom) (buildRom conv' v' (ks.map Job.songs) addrs' r) := by
  have hz : (ks.map Job.songs).zip (addrs'.zip bankFirstSongAddrs) = ks.map Job.args := by
    rw [haddrs', hfirst', List.zip_map', List.zip_map']; rfl
  obtain ⟨hl, hm⟩ := build_meta haddrs hfirst hr hs h hk
  unfold buildRom
  rw [hz]
  have := sameOutcome_banks (v := v') hl hr' hm (headersSafe_same hs hk)
  revert this
  cases writeBanks conv' v' (ks.map Job.args) rom 0 <;> cases writeBanks conv' v' (ks.map Job.args) r 0 <;> intro this
  · exact this
  · exact this
  · exact this
  · exact ⟨this.1, this.2.1.trans hl.symm, this.2.2⟩

/-- **C82 (sound), partial** (as before, and what is missing in C54). From the ROM of the second build the engine plays the songs of the second build. -/
theorem C82_sound_partial {P Q : Type} (conv : Converter P) (conv' : Converter Q) (v v' : Bool) (js : List (Job P)) (ks : List (Job Q)) (addrs addrs' : List Nat) (rom r r' : Rom)
    (haddrs : addrs = js.map Job.base) (hfirst : bankFirstSongAddrs = js.map Job.first)
    (hr : AllReady conv (ofRom rom) 0 js) (hs : HeadersSafe js) (h : buildRom conv v (js.map Job.songs) addrs rom = .ok r)
    (haddrs' : addrs' = ks.map Job.base) (hfirst' : bankFirstSongAddrs = ks.map Job.first) (hk : SameBanks js ks) (hr' : AllReady conv' (ofRom rom) 0 ks) (hd : DataApart ks)
    (h' : buildRom conv' v' (ks.map Job.songs) addrs' r = .ok r')
    (pre : List (Job Q)) (j : Job Q) (post : List (Job Q)) (hj : ks = pre ++ j :: post) (hc : j.bank.Clean)
    (a0 : Mem) (regs : Regs) (k : Nat) (d : SongDef Q) (s : Song) (hkd : j.songs[k]? = some d) (hl : loadSong conv' d = .ok s) (hP : Playable s) :
    ∃ part fuel evs T, s.parts[0]? = some part ∧
      (∀ n, playSong (upload (ofRom r') j.bank.chunks a0) (fuel + n) regs ((pre.map fun i => i.songs.length).sum + k) =
        some (evs, T, if d.loops then .goto 0xff T else .stop)) ∧
      timingOf evs = timingOf (partSound s part) ∧ ((∀ tr ∈ s.tracks, ∀ c ∈ tr, isCall c.command = false) → evs = partSound s part) :=
  C54_build_partial conv' v' ks addrs' r r' haddrs' hfirst' (C82_ready conv conv' v js ks addrs rom r haddrs hfirst hr hs h hk hr') (headersSafe_same hs hk) hd h' pre j post hj hc a0 regs k d s hkd hl hP

/-- **C82 (runs), partial** (as before). The tool is run twice on the same ROM file, with other songs, options or subcommands the second time. The second run succeeds if and only if it would have succeeded
without the first, else it fails with the same error; and the ROM file it leaves is the one it would have left, except in places that it does not touch. -/
theorem C82_runs_partial (x : Ext) (fs fs' : FS) (optimize optimize' verbose verbose' : Bool) (cmd cmd' : Cmd) (rom : String) (addrs addrs' : List Nat) (js ks : List (Job String)) (file0 : Rom)
    (hacc : ∀ n, x.accept n = n) (hb : Builds x fs (js.map Job.songs) rom addrs cmd) (hrun : x.run fs optimize verbose cmd = (.ok (), fs'))
    (hrom : fs rom = some file0) (haddrs : addrs = js.map Job.base) (hfirst : bankFirstSongAddrs = js.map Job.first)
    (hr : AllReady (x.converter fs optimize) (ofRom file0) 0 js) (hs : HeadersSafe js)
    (hb' : Builds x fs (ks.map Job.songs) rom addrs' cmd') (hne : ∀ m a, cmd' = .buildRom m rom a → m ≠ rom) (hin : ∀ k ∈ ks, ∀ d ∈ k.songs, d.input ≠ some rom)
    (haddrs' : addrs' = ks.map Job.base) (hfirst' : bankFirstSongAddrs = ks.map Job.first) (hk : SameBanks js ks)
    (hr' : AllReady (x.converter fs optimize') (ofRom file0) 0 ks) :
    (x.run fs' optimize' verbose' cmd').1 = (x.run fs optimize' verbose' cmd').1 ∧
    ∀ image image' file1, fs' rom = some file1 → (x.run fs optimize' verbose' cmd').2 rom = some image → (x.run fs' optimize' verbose' cmd').2 rom = some image' →
      (x.run fs optimize' verbose' cmd').1 = .ok () → image'.length = image.length ∧ ∀ q : Nat, image'[q]? = image[q]? ∨ (image'[q]? = file1[q]? ∧ image[q]? = file0[q]?) := by
  have hother : ∀ p, p ≠ rom → fs' p = fs p := by
    intro p hp
    have := C42_other_files x fs optimize verbose cmd p (by
      cases cmd <;> first | exact hb.elim | (rw [Cmd.target, hb.2.2]; simpa using hp.symm))
    rw [hrun] at this
    exact this
  have hb2 : Builds x fs' (ks.map Job.songs) rom addrs' cmd' := by
    cases cmd' with
    | buildRom m rom' a =>
      obtain ⟨k1, k2, rfl⟩ := hb'
      refine ⟨k1, ?_, rfl⟩
      rw [← k2]
      unfold Ext.loadManifest
      rw [hother m (hne m a rfl)]
    | _ => exact hb'
  rw [C66_builds x fs optimize verbose cmd _ rom addrs hb] at hrun
  obtain ⟨f0, file1, g1, g2, g3⟩ := C42_success x fs fs' _ rom addrs optimize verbose hacc hrun
  rw [hrom, Option.some.injEq] at g1
  subst g1
  have hcongr : ∀ r : Rom, buildRom (x.converter fs' optimize') verbose' (ks.map Job.songs) addrs' r = buildRom (x.converter fs optimize') verbose' (ks.map Job.songs) addrs' r := by
    intro r
    refine buildRom_congr ?_ addrs' r
    rw [List.forall₂_map_left_iff, List.forall₂_map_right_iff, List.forall₂_same]
    intro k hkm
    rw [List.forall₂_same]
    intro d hd
    refine ⟨?_, rfl⟩
    unfold loadSong
    cases hi : d.input with
    | none => rfl
    | some p => exact converter_congr (hother p fun e => hin k hkm d hd (by rw [hi, e])) _
  have hsame := C82_same_partial (x.converter fs optimize) (x.converter fs optimize') verbose verbose' js ks addrs addrs' file0 file1 haddrs hfirst hr hs g2 haddrs' hfirst' hk hr'
  rw [C66_builds x fs optimize' verbose' cmd' _ rom addrs' hb', C66_builds x fs' optimize' verbose' cmd' _ rom addrs' hb2]
  simp only [Ext.writeRom, hrom, g3, romWrite, hcongr]
  revert hsame
  cases buildRom (x.converter fs optimize') verbose' (ks.map Job.songs) addrs' file0 <;> cases buildRom (x.converter fs optimize') verbose' (ks.map Job.songs) addrs' file1 <;> intro hsame
  · refine ⟨congrArg Except.error hsame.symm, fun image image' f1 _ _ _ hok => ?_⟩
    cases hok
  · exact hsame.elim
  · exact hsame.elim
  · rename_i r r'
    obtain ⟨s1, s2, s3⟩ := hsame
    refine ⟨rfl, fun image image' f1 hf1 hi hi' _ => ?_⟩
    rw [Option.some.injEq] at hf1
    subst hf1
    have hl : file1.length = file0.length := (build_meta haddrs hfirst hr hs g2 hk).1
    simp only [hacc, Function.update_self, Option.some.injEq] at hi hi'
    rw [← s1, min_self, List.take_length, s1, List.drop_length, List.append_nil] at hi
    rw [← s2, min_self, List.take_length, List.drop_eq_nil_of_le (by rw [s2]), List.append_nil] at hi'
    subst hi
    subst hi'
    refine ⟨by rw [s1, s2, hl], fun q => ?_⟩
    rcases s3 q with h | ⟨h1, h2⟩
    · exact .inl h.symm
    · exact .inr ⟨h2, h1⟩

/-! ## An example: the three banks of C43, first with one set of songs, then with another -/

/-- Other songs for the three banks. -/
def otherJobs : List (Job Nat) :=
  [⟨[slot none true, slot (some 1) false], 0, 0xd036, bankAt 36 114 40, [emptyEncoded true, noteEncoded 1 false]⟩,
   ⟨[slot (some 1) true], 12, 0xd046, bankAt 207 114 40, [noteEncoded 1 true]⟩,
   ⟨[slot (some 1) true, slot none false], 24, 0xd046, bankAt 378 114 40, [noteEncoded 1 true, emptyEncoded false]⟩]

theorem otherJobs_ready : AllReady demoConv (ofRom threeRom) 0 otherJobs := by
  obtain ⟨h1, h2, h3, -⟩ := threeJobs_ready
  exact ⟨⟨by decide, h1.bank, .cons (emptyEncoded_of _ _) (.cons (noteEncoded_of_one _) .nil), ⟨by decide, by decide, by decide, by decide, by decide⟩⟩,
    ⟨by decide, h2.bank, .cons (noteEncoded_of_one _) .nil, ⟨by decide, by decide, by decide, by decide, by decide⟩⟩,
    ⟨by decide, h3.bank, .cons (noteEncoded_of_one _) (.cons (emptyEncoded_of _ _) .nil), ⟨by decide, by decide, by decide, by decide, by decide⟩⟩, trivial⟩

theorem otherJobs_same : SameBanks threeJobs otherJobs := by
  intro k hk
  simp only [otherJobs, List.mem_cons, List.not_mem_nil, or_false] at hk
  rcases hk with rfl | rfl | rfl
  · exact ⟨_, List.mem_cons_self .., rfl, rfl⟩
  · exact ⟨_, List.mem_cons_of_mem _ (List.mem_cons_self ..), rfl, rfl⟩
  · exact ⟨_, List.mem_cons_of_mem _ (List.mem_cons_of_mem _ (List.mem_cons_self ..)), rfl, rfl⟩

attribute [local irreducible] SameOutcome in
/-- The example meets the conditions: the first build succeeds, and the second too when done after the first, with the same bytes where it writes. -/
example : ∃ r r', buildRom demoConv false (threeJobs.map Job.songs) [0, 12, 24] threeRom = .ok r ∧ buildRom demoConv false (otherJobs.map Job.songs) [0, 12, 24] r = .ok r' ∧
    SameOutcome threeRom r (buildRom demoConv false (otherJobs.map Job.songs) [0, 12, 24] threeRom) (buildRom demoConv false (otherJobs.map Job.songs) [0, 12, 24] r) := by
  have ha : [0, 12, 24] = threeJobs.map Job.base := rfl
  have hf : bankFirstSongAddrs = threeJobs.map Job.first := rfl
  have ha' : [0, 12, 24] = otherJobs.map Job.base := rfl
  have hf' : bankFirstSongAddrs = otherJobs.map Job.first := rfl
  obtain ⟨r, h1⟩ := C44_build_ok demoConv false threeJobs [0, 12, 24] threeRom ha hf threeJobs_ready threeJobs_safe (by decide +kernel) (by decide +kernel)
  have hl := (build_meta ha hf threeJobs_ready threeJobs_safe h1 otherJobs_same).1
  obtain ⟨r', h2⟩ := C44_build_ok demoConv false otherJobs [0, 12, 24] r ha' hf' (C82_ready demoConv demoConv false threeJobs otherJobs [0, 12, 24] threeRom r ha hf threeJobs_ready threeJobs_safe h1
    otherJobs_same otherJobs_ready) (headersSafe_same threeJobs_safe otherJobs_same) (by decide +kernel) (by rw [hl]; decide +kernel)
  exact ⟨r, r', h1, h2, C82_same_partial demoConv demoConv false false threeJobs otherJobs [0, 12, 24] [0, 12, 24] threeRom r ha hf threeJobs_ready threeJobs_safe h1 ha' hf' otherJobs_same
    otherJobs_ready⟩

end M2S
