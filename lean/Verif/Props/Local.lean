import Verif.Proofs.Local
import Verif.Props.Rebuild
/-
Property C91: an edit of some songs changes only what belongs to them, or comes after them, in their bank.
-/
namespace M2S
open RomSpec

/-- **C91, partial** (missing: builds that do not fit, where one song can destroy another, `C43_last_block_false`; and edits that change the number of songs of a bank, which move the song table entries of
later banks). Two builds of the same banks into the same ROM, with some songs edited in between (other files, other tempo factors, other options). Every byte in which the two images differ is in
the song data of a bank with an edited song; there it is behind the table entries and the data of all songs before the first edited one; and if the songs have kept their sizes, it is inside
an edited song: not even the song table changes. -/
theorem C91_build_partial {P Q : Type} (conv : Converter P) (conv' : Converter Q) (v v' : Bool) (js : List (Job P)) (ks : List (Job Q)) (addrs : List Nat) (rom r r' : Rom)
    (haddrs : addrs = js.map Job.base) (hfirst : bankFirstSongAddrs = js.map Job.first) (hp : List.Forall₂ SamePlace js ks)
    (hr : AllReady conv (ofRom rom) 0 js) (hr' : AllReady conv' (ofRom rom) 0 ks) (hs : HeadersSafe js)
    (h : buildRom conv v (js.map Job.songs) addrs rom = .ok r) (h' : buildRom conv' v' (ks.map Job.songs) addrs rom = .ok r') :
    r.length = r'.length ∧ ∀ q : Nat, r[q]? ≠ r'[q]? → ∃ pre j post pre' k post', js = pre ++ j :: post ∧ ks = pre' ++ k :: post' ∧ pre.length = pre'.length ∧
      Affected conv conv' ((pre.map fun i => i.songs.length).sum) j k q := by
  have hz : (js.map Job.songs).zip (addrs.zip bankFirstSongAddrs) = js.map Job.args := by
    rw [haddrs, hfirst, List.zip_map', List.zip_map']; rfl
  have hmaps : js.map Job.base = ks.map Job.base ∧ js.map Job.first = ks.map Job.first := by
    clear haddrs hfirst hr hr' hs h h' hz
    induction hp with
    | nil => exact ⟨rfl, rfl⟩
    | cons e _ ih => simp only [List.map_cons, ih.1, ih.2, e.base, e.first, and_self]
  have hz' : (ks.map Job.songs).zip (addrs.zip bankFirstSongAddrs) = ks.map Job.args := by
    rw [haddrs, hfirst, hmaps.1, hmaps.2, List.zip_map', List.zip_map']; rfl
  have hs' : HeadersSafe ks := by
    refine headersSafe_same hs fun k hk => ?_
    obtain ⟨m, hm, hmk⟩ := List.getElem_of_mem hk
    have hm' : m < js.length := by rw [hp.length_eq]; exact hm
    have : SamePlace js[m] ks[m] := (List.forall₂_iff_get.mp hp).2 m hm' hm
    exact ⟨_, List.getElem_mem hm', by rw [← hmk, this.base], by rw [← hmk, this.bank]⟩
  unfold buildRom at h h'
  rw [hz] at h
  rw [hz'] at h'
  refine ⟨((writeBanks_built hr hs h).1).trans (writeBanks_built hr' hs' h').1.symm, fun q hq => ?_⟩
  rcases writeBanks_local hp rfl hr hr' hs h h' q hq with e | e
  · exact absurd rfl e
  · simpa only [Nat.zero_add] using e

/-- **C91 (runs), partial** (as before). The same for two runs of the tool, from states of the disk with the same ROM file and maybe different manifests and MIDI files, with maybe different options and subcommands. -/
theorem C91_runs_partial (x : Ext) (fs fs' : FS) (optimize optimize' verbose verbose' : Bool) (cmd cmd' : Cmd) (rom rom' : String) (addrs : List Nat) (js ks : List (Job String)) (file : Rom)
    (hacc : ∀ n, x.accept n = n) (hb : Builds x fs (js.map Job.songs) rom addrs cmd) (hb' : Builds x fs' (ks.map Job.songs) rom' addrs cmd')
    (hrom : fs rom = some file) (hrom' : fs' rom' = some file) (hok : (x.run fs optimize verbose cmd).1 = .ok ()) (hok' : (x.run fs' optimize' verbose' cmd').1 = .ok ())
    (haddrs : addrs = js.map Job.base) (hfirst : bankFirstSongAddrs = js.map Job.first) (hp : List.Forall₂ SamePlace js ks)
    (hr : AllReady (x.converter fs optimize) (ofRom file) 0 js) (hr' : AllReady (x.converter fs' optimize') (ofRom file) 0 ks) (hs : HeadersSafe js) :
    ∃ r r', (x.run fs optimize verbose cmd).2 rom = some r ∧ (x.run fs' optimize' verbose' cmd').2 rom' = some r' ∧ r.length = r'.length ∧
      ∀ q : Nat, r[q]? ≠ r'[q]? → ∃ pre j post pre' k post', js = pre ++ j :: post ∧ ks = pre' ++ k :: post' ∧ pre.length = pre'.length ∧
        Affected (x.converter fs optimize) (x.converter fs' optimize') ((pre.map fun i => i.songs.length).sum) j k q := by
  rw [C66_builds x fs optimize verbose cmd _ rom addrs hb] at hok ⊢
  rw [C66_builds x fs' optimize' verbose' cmd' _ rom' addrs hb'] at hok' ⊢
  obtain ⟨f1, r, g1, g2, g3⟩ := C42_success x fs _ _ rom addrs optimize verbose hacc (Prod.ext hok rfl)
  obtain ⟨f2, r', g1', g2', g3'⟩ := C42_success x fs' _ _ rom' addrs optimize' verbose' hacc (Prod.ext hok' rfl)
  rw [hrom, Option.some.injEq] at g1
  subst g1
  rw [hrom', Option.some.injEq] at g1'
  subst g1'
  exact ⟨r, r', g3, g3', C91_build_partial _ _ verbose verbose' js ks addrs file r r' haddrs hfirst hp hr hr' hs g2 g2'⟩

/-! ## Examples: the three banks of C43 -/

/-- The last song edited, now with two notes. -/
def editedJobs : List (Job Nat) :=
  [⟨[slot (some 0) true, slot none false], 0, 0xd036, bankAt 36 114 40, [callEncoded true, emptyEncoded false]⟩,
   ⟨[slot (some 1) false], 12, 0xd046, bankAt 207 114 40, [noteEncoded 1 false]⟩,
   ⟨[slot none true, slot (some 2) true], 24, 0xd046, bankAt 378 114 40, [emptyEncoded true, noteEncoded 2 true]⟩]

theorem noteEncoded_of_two (l : Bool) : EncodedOf demoConv (slot (some 2) l) (noteEncoded 2 l) :=
  ⟨noteSong 2, by rfl, rfl, by rfl, .cons (by decide) .nil⟩

theorem editedJobs_ready : AllReady demoConv (ofRom threeRom) 0 editedJobs := by
  obtain ⟨h1, h2, h3, -⟩ := threeJobs_ready
  exact ⟨⟨by decide, h1.bank, h1.songs, h1.fits⟩, ⟨by decide, h2.bank, h2.songs, h2.fits⟩,
    ⟨by decide, h3.bank, .cons (emptyEncoded_of _ _) (.cons (noteEncoded_of_two _) .nil), ⟨by decide, by decide, by decide, by decide, by decide⟩⟩, trivial⟩

/-- Another converter: the song of one note has another note. -/
def tunedConv : Converter Nat := fun p f => if p = 1 then .ok ⟨[[0]], [[⟨some 24, none, none, .note 0x85⟩]]⟩ else demoConv p f

def tunedEncoded (loops : Bool) : Encoded := ⟨loops, [0], [⟨[250, 25, 229, 200, 237, 200, 24, 125, 0x85, 0], []⟩]⟩

theorem tunedEncoded_of (l : Bool) : EncodedOf tunedConv (slot (some 1) l) (tunedEncoded l) :=
  ⟨⟨[[0]], [[⟨some 24, none, none, .note 0x85⟩]]⟩, by rfl, rfl, by rfl, .cons (by decide) .nil⟩

theorem callEncoded_tuned (l : Bool) : EncodedOf tunedConv (slot (some 0) l) (callEncoded l) := by
  obtain ⟨s, h1, h2⟩ := callEncoded_of l
  exact ⟨s, h1, h2⟩

/-- The same slots, converted with the other note. -/
def tunedJobs : List (Job Nat) :=
  [⟨[slot (some 0) true, slot none false], 0, 0xd036, bankAt 36 114 40, [callEncoded true, emptyEncoded false]⟩,
   ⟨[slot (some 1) false], 12, 0xd046, bankAt 207 114 40, [tunedEncoded false]⟩,
   ⟨[slot none true, slot (some 1) true], 24, 0xd046, bankAt 378 114 40, [emptyEncoded true, tunedEncoded true]⟩]

theorem tunedJobs_ready : AllReady tunedConv (ofRom threeRom) 0 tunedJobs := by
  obtain ⟨h1, h2, h3, -⟩ := threeJobs_ready
  exact ⟨⟨by decide, h1.bank, .cons (callEncoded_tuned _) (.cons (emptyEncoded_of _ _) .nil), h1.fits⟩,
    ⟨by decide, h2.bank, .cons (tunedEncoded_of _) .nil, ⟨by decide, by decide, by decide, by decide, by decide⟩⟩,
    ⟨by decide, h3.bank, .cons (emptyEncoded_of _ _) (.cons (tunedEncoded_of _) .nil), ⟨by decide, by decide, by decide, by decide, by decide⟩⟩, trivial⟩

/-- The positions at which two images differ. -/
def differAt (r r' : Res Rom) : List Nat :=
  match r, r' with
  | .ok r, .ok r' => (List.range r.length).filter fun q => r[q]? != r'[q]?
  | _, _ => []

/-- The examples meet the conditions, and the images differ: after the first edit in the overflow chunk of the third bank, after the second in one byte of each of two songs. -/
example : List.Forall₂ SamePlace threeJobs editedJobs ∧ List.Forall₂ SamePlace threeJobs tunedJobs ∧
    AllReady demoConv (ofRom threeRom) 0 threeJobs ∧ AllReady demoConv (ofRom threeRom) 0 editedJobs ∧ AllReady tunedConv (ofRom threeRom) 0 tunedJobs ∧ HeadersSafe threeJobs ∧
    differAt (buildRom demoConv false (threeJobs.map Job.songs) [0, 12, 24] threeRom) (buildRom demoConv false (editedJobs.map Job.songs) [0, 12, 24] threeRom) = [538, 539] ∧
    differAt (buildRom demoConv false (threeJobs.map Job.songs) [0, 12, 24] threeRom) (buildRom tunedConv false (tunedJobs.map Job.songs) [0, 12, 24] threeRom) = [314, 537] :=
  ⟨.cons ⟨rfl, rfl, rfl, rfl⟩ (.cons ⟨rfl, rfl, rfl, rfl⟩ (.cons ⟨rfl, rfl, rfl, rfl⟩ .nil)), .cons ⟨rfl, rfl, rfl, rfl⟩ (.cons ⟨rfl, rfl, rfl, rfl⟩ (.cons ⟨rfl, rfl, rfl, rfl⟩ .nil)),
    threeJobs_ready, editedJobs_ready, tunedJobs_ready, threeJobs_safe, by decide +kernel, by decide +kernel⟩

/-- The bounds in these examples: with the first edit, everything from position 481 on may change in the third bank (and no table entry but the last); with the second, what is in the songs at 286 and 515. -/
example : (bankAt 378 114 40).Beyond 70 3 [emptyEncoded true, noteEncoded 1 true] 1 538 ∧ ¬ (bankAt 378 114 40).Beyond 70 3 [emptyEncoded true, noteEncoded 1 true] 1 480 ∧
    (bankAt 207 114 40).Within 70 [noteEncoded 1 false] 0 314 ∧ (bankAt 378 114 40).Within 70 [emptyEncoded true, noteEncoded 1 true] 1 537 ∧
    ¬ (bankAt 378 114 40).Within 70 [emptyEncoded true, noteEncoded 1 true] 1 539 := by
  unfold Bank.Beyond Bank.Within
  decide +kernel

/-- **C91 is false of edits that change the number of songs.** An empty song is added to the first bank. The only song of the second bank is as before, but its entry in the song table is now the fourth
instead of the third: bytes of the second bank change. -/
theorem C91_count_false :
    (differAt (buildRom demoConv false [[slot (some 0) true, slot none false], [slot (some 1) false]] [0, 12, 24] threeRom)
      (buildRom demoConv false [[slot (some 0) true, slot none false, slot none false], [slot (some 1) false]] [0, 12, 24] threeRom)).filter (fun q => 207 ≤ q && q < 378) = [220, 221, 222, 223] := by
  decide +kernel

end M2S
