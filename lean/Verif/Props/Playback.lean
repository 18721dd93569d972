import Verif.Proofs.Playback
import Verif.Props.RomBuild
/-
Playing songs from the ROM: C54.
-/
namespace M2S
open RomSpec Nspc Engine

/-! ## C54 -/

theorem encodedOf_play {Path : Type} {conv : Converter Path} {d : SongDef Path} {e : Encoded} {s : Song} (he : EncodedOf conv d e) (hs : loadSong conv d = .ok s)
    (hP : Playable s) {a : Mem} {number T : Nat} {addr : Nat → Nat} (hT : word a (0xd000 + 2 * number) = some T) (hS : SongAt a T e addr) (regs : Regs) :
    ∃ part n evs, s.parts[0]? = some part ∧ (∀ k, playSong a (n + k) regs number = some (evs, T, if d.loops then .goto 0xff T else .stop)) ∧
      timingOf evs = timingOf (partSound s part) ∧ ((∀ tr ∈ s.tracks, ∀ c ∈ tr, isCall c.command = false) → evs = partSound s part) := by
  obtain ⟨s', h1, h2, h3, h4⟩ := he
  rw [hs] at h1
  injection h1 with h1
  subst h1
  have hp : s.parts[0]? = some e.part := by
    unfold Song.partTracks at h3
    split at h3
    · rename_i p hp; injection h3 with h3; rw [hp, h3]
    · cases h3
  obtain ⟨n, evs, g1, g2, g3⟩ := play_songAt hT hS hP h4 (hP.parts _ (List.mem_of_getElem? hp)) regs
  rw [h2] at g1
  exact ⟨e.part, n, evs, hp, g1, g2, g3⟩

/-- **C54 (one bank).** After a build that fits, upload the bank to ARAM (over any contents `a0`) and let the engine play song `fs + k` from any registers: if the song
of slot `k` is playable, all eight channels play to their ends (so the fuel does not matter); in each channel the notes, ties, rests and commands of the
part's track are heard, with the called subroutines in their places, for the durations asked for; channels without a track or with an empty one are silent. Then the
song goes back to its start for ever if the slot loops, and stops if it does not. If no track has subroutine calls, velocities and sustains are also the ones asked for
(with calls this is false, see C04). What is missing for all successful builds is false of the code, see `C54_switch_call_false`. -/
theorem C54_bank_partial {Path : Type} (conv : Converter Path) (v : Bool) (j : Job Path) (fs : Nat) (rom r : Rom) (hj : j.Ready conv (ofRom rom) fs)
    (hc : j.bank.Clean) (h : writeBank conv v j.songs rom j.base j.first fs = .ok r) (a0 : Mem) (regs : Regs) (k : Nat) (d : SongDef Path) (s : Song)
    (hk : j.songs[k]? = some d) (hs : loadSong conv d = .ok s) (hP : Playable s) :
    ∃ part fuel evs T, s.parts[0]? = some part ∧
      (∀ n, playSong (upload (ofRom r) j.bank.chunks a0) (fuel + n) regs (fs + k) = some (evs, T, if d.loops then .goto 0xff T else .stop)) ∧
      timingOf evs = timingOf (partSound s part) ∧ ((∀ tr ∈ s.tracks, ∀ c ∈ tr, isCall c.command = false) → evs = partSound s part) := by
  obtain ⟨hk', hkd⟩ := List.getElem?_eq_some_iff.mp hk
  have hlen := hj.songs.length_eq
  have he := List.Forall₂.get hj.songs hk' (by omega)
  simp only [List.get_eq_getElem, hkd] at he
  obtain ⟨T, addr, hT, hS⟩ := C41_bank_partial conv v j fs rom r hj hc h a0 k _ (List.getElem?_eq_getElem (by omega))
  obtain ⟨part, n, evs, h1, h2, h3, h4⟩ := encodedOf_play he hs hP hT hS regs
  exact ⟨part, n, evs, T, h1, h2, h3, h4⟩

/-- **C54 (whole build).** The same for every slot of every bank of a build. -/
theorem C54_build_partial {Path : Type} (conv : Converter Path) (v : Bool) (js : List (Job Path)) (addrs : List Nat) (rom r : Rom)
    (haddrs : addrs = js.map Job.base) (hfirst : bankFirstSongAddrs = js.map Job.first)
    (hr : AllReady conv (ofRom rom) 0 js) (hs : HeadersSafe js) (hd : DataApart js) (h : buildRom conv v (js.map Job.songs) addrs rom = .ok r)
    (pre : List (Job Path)) (j : Job Path) (post : List (Job Path)) (hj : js = pre ++ j :: post) (hc : j.bank.Clean)
    (a0 : Mem) (regs : Regs) (k : Nat) (d : SongDef Path) (s : Song) (hk : j.songs[k]? = some d) (hl : loadSong conv d = .ok s) (hP : Playable s) :
    ∃ part fuel evs T, s.parts[0]? = some part ∧
      (∀ n, playSong (upload (ofRom r) j.bank.chunks a0) (fuel + n) regs ((pre.map fun i => i.songs.length).sum + k) =
        some (evs, T, if d.loops then .goto 0xff T else .stop)) ∧
      timingOf evs = timingOf (partSound s part) ∧ ((∀ tr ∈ s.tracks, ∀ c ∈ tr, isCall c.command = false) → evs = partSound s part) := by
  obtain ⟨hk', hkd⟩ := List.getElem?_eq_some_iff.mp hk
  have hsongs : ∀ {js : List (Job Path)} {fs : Nat}, AllReady conv (ofRom rom) fs js → ∀ j ∈ js, List.Forall₂ (EncodedOf conv) j.songs j.encoded := by
    intro js
    induction js with
    | nil => intro fs _ j hj; cases hj
    | cons i js ih =>
      intro fs h j hj
      rcases List.mem_cons.mp hj with rfl | hj
      · exact h.1.songs
      · exact ih h.2 j hj
  have hjs := hsongs hr j (by rw [hj]; simp)
  have hlen := hjs.length_eq
  have he := List.Forall₂.get hjs hk' (by omega)
  simp only [List.get_eq_getElem, hkd] at he
  obtain ⟨T, addr, hT, hS⟩ := C41_build_partial conv v js addrs rom r haddrs hfirst hr hs hd h pre j post hj hc a0 k _ (List.getElem?_eq_getElem (by omega))
  obtain ⟨part, n, evs, h1, h2, h3, h4⟩ := encodedOf_play he hl hP hT hS regs
  exact ⟨part, n, evs, T, h1, h2, h3, h4⟩

instance (s : Song) : Decidable (∀ tr ∈ s.tracks, Encodable 0xff tr) := inferInstance

/-- The demo song with subroutine calls is playable. -/
theorem callSong_playable : Playable callSong where
  enc := by decide
  calls := by
    intro tr htr c hc t k hck
    simp only [callSong, List.mem_cons, List.not_mem_nil, or_false] at htr
    rcases htr with rfl | rfl | rfl <;> simp only [List.mem_cons, List.not_mem_nil, or_false] at hc <;> (try rcases hc with rfl | rfl) <;>
      simp only [Command.callLoop.injEq, reduceCtorEq] at hck
    all_goals
      obtain ⟨rfl, rfl⟩ := hck
      exact ⟨rfl, by decide, ⟨_, rfl, by decide, by decide⟩, by decide⟩
  parts := by decide

/-- The demo job meets the hypotheses. -/
example : oneJob.Ready demoConv (ofRom (oneRom 100 30)) 0 ∧ oneJob.bank.Clean ∧
    (writeBank demoConv false oneJob.songs (oneRom 100 30) oneJob.base oneJob.first 0).toOption.isSome ∧
    (∃ d, oneJob.songs[0]? = some d ∧ loadSong demoConv d = .ok callSong ∧ Playable callSong) :=
  ⟨oneJob_ready, oneJob_clean, by decide +kernel, _, rfl, rfl, callSong_playable⟩

/-- What the engine plays from the demo ROM: two channels, in both the rest of the subroutine three times; then back to the start of the song. -/
example : ∃ r, writeBank demoConv false oneJob.songs (oneRom 100 30) oneJob.base oneJob.first 0 = .ok r ∧
    playSong (upload (ofRom r) oneJob.bank.chunks fun _ => none) 20 ⟨1, 2, 3⟩ 0 =
      some ([some [.cmd 250 [25], .cmd 229 [200], .cmd 237 [200], .note 0xa4 24 10 7, .rest 48, .rest 48, .rest 48],
        some [.cmd 237 [200], .note 0x80 12 15 7, .rest 48, .rest 48, .rest 48], none, none, none, none, none, none], 0xd006, .goto 0xff 0xd006) ∧
    playSong (upload (ofRom r) oneJob.bank.chunks fun _ => none) 20 ⟨1, 2, 3⟩ 1 = some (List.replicate 8 none, 0xd039, .stop) ∧
    playSong (upload (ofRom r) oneJob.bank.chunks fun _ => none) 20 ⟨1, 2, 3⟩ 2 =
      some (some [.cmd 250 [25], .cmd 229 [200], .cmd 237 [200], .note 0x80 24 13 7] :: List.replicate 7 none, 0xd04d, .stop) :=
  ⟨(writeBank demoConv false oneJob.songs (oneRom 100 30) oneJob.base oneJob.first 0).toOption.getD [],
    by decide +kernel, by decide +kernel, by decide +kernel, by decide +kernel⟩

/-- **C54 is false without `Fits.calls`:** in the ROM of `C41_switch_call_false` the second channel calls the song table at D000 instead of its subroutine, and drums are
heard instead of rests. -/
theorem C54_switch_call_false : Playable callSong ∧ loadSong demoConv (slot (some 0) false) = .ok callSong ∧
    writeBank demoConv false [slot (some 0) false] (oneRom 45 40) 0 0xd002 0 = .ok miscalledRom ∧
    ∃ fuel T evs, playSong (upload (ofRom miscalledRom) (bankAt 12 45 40).chunks fun _ => none) fuel ⟨1, 2, 3⟩ 0 = some (evs, T, .stop) ∧
      evs[1]? = some (some ([.cmd 237 [200], .note 0x80 12 15 7] ++ (List.replicate 3 [.perc 208 2 15 7, .perc 208 6 15 7]).flatten)) ∧
      timingOf evs ≠ timingOf (partSound callSong [0, 1]) :=
  ⟨callSong_playable, rfl, C41_switch_call_false.2.2.2.2.1, 40,
    0xd002, [some [.cmd 250 [25], .cmd 229 [200], .cmd 237 [200], .note 164 24 10 7, .rest 48, .rest 48, .rest 48],
      some [.cmd 237 [200], .note 128 12 15 7, .perc 208 2 15 7, .perc 208 6 15 7, .perc 208 2 15 7, .perc 208 6 15 7, .perc 208 2 15 7, .perc 208 6 15 7],
      none, none, none, none, none, none], by decide +kernel, by decide, by decide⟩

end M2S
