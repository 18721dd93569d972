import Verif.Proofs.CliMore
import Verif.Props.Cli
import Verif.Props.RomMore
import Verif.Props.Voices
import Verif.Props.JsonText
/-
Runs of the program: C57 (verbose), C59 (what a run depends on), C60 (the detour through JSON).
-/
namespace M2S

/-! ## C57, for runs -/

theorem writeRom_verbose (x : Ext) (fs : FS) (m : Manifest) (rom : String) (addrs : List Nat) (o : Bool) :
    x.writeRom fs m rom addrs o true = x.writeRom fs m rom addrs o false ∨ x.writeRom fs m rom addrs o true = (.error .panic, fs) := by
  unfold Ext.writeRom
  cases hf : fs rom with
  | none => exact .inl rfl
  | some file =>
    simp only [romWrite]
    rcases C57_build (x.converter fs o) m addrs file with h | h
    · rw [h]; exact .inl rfl
    · rw [h]
      right
      simp only [Prod.mk.injEq, true_and]
      rw [← hf, Function.update_eq_self]

/-- **C57 (runs).** Whatever the subcommand, a run with `verbose` has the same outcome and leaves the same files as one without, unless it panics; then it
leaves all files as they were. -/
theorem C57_run (x : Ext) (fs : FS) (optimize : Bool) (cmd : Cmd) :
    x.run fs optimize true cmd = x.run fs optimize false cmd ∨ x.run fs optimize true cmd = (.error .panic, fs) := by
  cases cmd with
  | buildRom manifest rom addrs =>
    simp only [Ext.run]
    cases readBankAddrs addrs with
    | error e => exact .inl rfl
    | ok as =>
      cases x.loadManifest fs manifest with
      | error e => exact .inl rfl
      | ok m => exact writeRom_verbose ..
  | allOverworld input rom addrs =>
    simp only [Ext.run]
    cases readBankAddrs addrs with
    | error e => exact .inl rfl
    | ok as => exact writeRom_verbose ..
  | fileSelect input rom addrs =>
    simp only [Ext.run]
    cases readBankAddrs addrs with
    | error e => exact .inl rfl
    | ok as => exact writeRom_verbose ..
  | dumpMidi input => exact .inl rfl
  | midi2json input output => exact .inl rfl
  | genFakeRom input output addrs => exact .inl rfl

/-! ## C59 -/

/-- **C59.** The order in which hash maps are enumerated changes neither the outcome of a run nor the files it leaves. -/
theorem C59_order (x : Ext) (ord' : EnumOrder) (h1 : ∀ l, (x.ord l).Perm l) (h2 : ∀ l, (ord' l).Perm l) (fs : FS) (optimize verbose : Bool) (cmd : Cmd) :
    ({ x with ord := ord' } : Ext).run fs optimize verbose cmd = x.run fs optimize verbose cmd := by
  have hread : readMidi ord' = readMidi x.ord := funext fun c => C25_order_independent ord' x.ord h2 h1 c
  have hsong : ({ x with ord := ord' } : Ext).songFromMidiFile = x.songFromMidiFile := by
    funext fs p t o
    unfold Ext.songFromMidiFile
    simp only [hread]
  have hconv : ({ x with ord := ord' } : Ext).converter = x.converter := by
    funext fs o p t
    unfold Ext.converter
    rw [hsong]
    rfl
  have hwrite : ({ x with ord := ord' } : Ext).writeRom = x.writeRom := by
    funext fs m r a o v
    unfold Ext.writeRom
    rw [hconv]
  cases cmd with
  | buildRom manifest rom addrs => simp only [Ext.run, hwrite]; rfl
  | allOverworld input rom addrs => simp only [Ext.run, hwrite]
  | fileSelect input rom addrs => simp only [Ext.run, hwrite]
  | dumpMidi input => simp only [Ext.run, hread]
  | midi2json input output => simp only [Ext.run, hsong]
  | genFakeRom input output addrs => rfl

/-- Reversing is another order. -/
example : (∀ l : List (UInt8 × Fin 8), (id l).Perm l) ∧ ∀ l : List (UInt8 × Fin 8), l.reverse.Perm l := ⟨fun _ => .refl _, fun _ => List.reverse_perm _⟩

/-- The files a subcommand depends on: those named by its arguments, and the songs of the manifest. -/
inductive Reads (x : Ext) (fs : FS) : Cmd → String → Prop
  | manifest {m r : String} {a : Option (List String)} : Reads x fs (.buildRom m r a) m
  | rom {m r : String} {a : Option (List String)} : Reads x fs (.buildRom m r a) r
  | song {m r p : String} {a : Option (List String)} {banks : Manifest} {bank : List (SongDef String)} {d : SongDef String} (hm : x.loadManifest fs m = .ok banks)
      (hb : bank ∈ banks) (hd : d ∈ bank) (hp : d.input = some p) : Reads x fs (.buildRom m r a) p
  | over {i r : String} {a : Option (List String)} : Reads x fs (.allOverworld i r a) i
  | overRom {i r : String} {a : Option (List String)} : Reads x fs (.allOverworld i r a) r
  | select {i r : String} {a : Option (List String)} : Reads x fs (.fileSelect i r a) i
  | selectRom {i r : String} {a : Option (List String)} : Reads x fs (.fileSelect i r a) r
  | dump {i : String} : Reads x fs (.dumpMidi i) i
  | json {i o : String} : Reads x fs (.midi2json i o) i
  | jsonOut {i o : String} : Reads x fs (.midi2json i o) o
  | fake {i o : String} {a : Option (List String)} : Reads x fs (.genFakeRom i o a) i
  | fakeOut {i o : String} {a : Option (List String)} : Reads x fs (.genFakeRom i o a) o

theorem songFromMidiFile_congr {x : Ext} {fs fs' : FS} {p : String} (h : fs p = fs' p) (t : F32) (o : Bool) :
    x.songFromMidiFile fs p t o = x.songFromMidiFile fs' p t o := by
  unfold Ext.songFromMidiFile
  rw [h]

theorem converter_congr {x : Ext} {fs fs' : FS} {o : Bool} {p : String} (h : fs p = fs' p) (t : F32) : x.converter fs o p t = x.converter fs' o p t := by
  unfold Ext.converter
  rw [songFromMidiFile_congr h]
  unfold Ext.songFromJsonFile
  rw [h]

theorem writeRom_congr {x : Ext} {fs fs' : FS} {m : Manifest} {rom : String} {addrs : List Nat} {o v : Bool} (hr : fs rom = fs' rom)
    (hs : ∀ bank ∈ m, ∀ d ∈ bank, ∀ p, d.input = some p → fs p = fs' p) :
    (x.writeRom fs m rom addrs o v).1 = (x.writeRom fs' m rom addrs o v).1 ∧ (x.writeRom fs m rom addrs o v).2 rom = (x.writeRom fs' m rom addrs o v).2 rom := by
  unfold Ext.writeRom
  rw [← hr]
  cases hf : fs rom with
  | none => simp only [← hr, hf, and_self]
  | some file =>
    have hb : buildRom (x.converter fs o) v m addrs file = buildRom (x.converter fs' o) v m addrs file := by
      refine buildRom_congr ?_ addrs file
      refine List.forall₂_same.mpr fun bank hbank => List.forall₂_same.mpr fun d hd => ⟨?_, rfl⟩
      unfold loadSong
      cases hi : d.input with
      | none => rfl
      | some p => exact converter_congr (hs bank hbank d hd p hi) _
    simp only [romWrite, hb]
    cases buildRom (x.converter fs' o) v m addrs file <;> simp

/-- **C59.** The outcome of a run and what it leaves in the file it writes depend only on the files named in the arguments and in the manifest. -/
theorem C59_files (x : Ext) (fs fs' : FS) (optimize verbose : Bool) (cmd : Cmd) (h : ∀ p, Reads x fs cmd p → fs p = fs' p) :
    (x.run fs optimize verbose cmd).1 = (x.run fs' optimize verbose cmd).1 ∧
    ∀ p, cmd.target = some p → (x.run fs optimize verbose cmd).2 p = (x.run fs' optimize verbose cmd).2 p := by
  cases cmd with
  | buildRom manifest rom addrs =>
    have hl : x.loadManifest fs manifest = x.loadManifest fs' manifest := by
      unfold Ext.loadManifest
      rw [h manifest .manifest]
    have hrom := h rom .rom
    simp only [Ext.run, Cmd.target, Option.some.injEq, forall_eq', ← hl]
    cases readBankAddrs addrs with
    | error e => exact ⟨rfl, hrom⟩
    | ok as =>
      cases hm : x.loadManifest fs manifest with
      | error e => exact ⟨rfl, hrom⟩
      | ok m => exact writeRom_congr hrom fun bank hb d hd p hp => h p (.song hm hb hd hp)
  | allOverworld input rom addrs =>
    have hrom := h rom .overRom
    simp only [Ext.run, Cmd.target, Option.some.injEq, forall_eq']
    cases readBankAddrs addrs with
    | error e => exact ⟨rfl, hrom⟩
    | ok as =>
      refine writeRom_congr hrom fun bank hb d hd p hp => ?_
      have : p = input := by
        simp only [manifestSingleSong, songDefDefault, List.mem_cons, List.not_mem_nil, or_false] at hb
        rcases hb with rfl | rfl | rfl <;> simp at hd <;> subst hd <;> exact (Option.some.inj hp).symm
      rw [this]
      exact h input .over
  | fileSelect input rom addrs =>
    have hrom := h rom .selectRom
    simp only [Ext.run, Cmd.target, Option.some.injEq, forall_eq']
    cases readBankAddrs addrs with
    | error e => exact ⟨rfl, hrom⟩
    | ok as =>
      refine writeRom_congr hrom fun bank hb d hd p hp => ?_
      have : p = input := by
        simp only [manifestFileSelect, songDefDefault, songDefEmpty, List.mem_cons, List.not_mem_nil, or_false] at hb
        rcases hb with rfl | rfl | rfl <;> simp at hd <;> rcases hd with rfl | rfl | rfl <;> simp at hp <;> exact hp.symm
      rw [this]
      exact h input .select
  | dumpMidi input =>
    simp only [Ext.run, Cmd.target, ← h input .dump]
    refine ⟨?_, by simp⟩
    cases (fs input).bind x.parseMidi with
    | none => rfl
    | some calls =>
      simp only
      cases readMidi x.ord calls with
      | ok m => rfl
      | error e => cases e <;> rfl
  | midi2json input output =>
    simp only [Ext.run, Cmd.target, Option.some.injEq, forall_eq', ← songFromMidiFile_congr (x := x) (h input .json)]
    cases x.songFromMidiFile fs input defaultTempoAdjust optimize with
    | error e => exact ⟨rfl, h output .jsonOut⟩
    | ok s => simp
  | genFakeRom input output addrs =>
    have ho := h output .fakeOut
    simp only [Ext.run, Cmd.target, Option.some.injEq, forall_eq', ← h input .fake, ← ho]
    cases readBankAddrs addrs with
    | error e => exact ⟨rfl, ho⟩
    | ok as =>
      simp only
      cases fs input with
      | none => exact ⟨rfl, ho⟩
      | some rom =>
        simp only
        cases genFakeRom rom as with
        | error e => exact ⟨rfl, ho⟩
        | ok r => simp

/-- Other files may come and go. -/
example (bytes : Option (List UInt8)) : ∀ p, Reads demoExt demoFS (.allOverworld "good.mid" "small.sfc" none) p → demoFS p = Function.update demoFS "other.mid" bytes p := by
  intro p h
  cases h <;> rw [Function.update_of_ne (by decide)]

/-! ## C60 -/

/-- The slot `d` with the file `input` replaced by `output`. -/
def SongDef.redirect (input output : String) (d : SongDef String) : SongDef String := if d.input = some input then { d with input := some output } else d

/-- **C60.** The detour through JSON: convert a MIDI file with `midi2json`, then build with the JSON file in its place: outcome and ROM are the same as when building
with the MIDI file itself, if the manifest gives the song the default tempo and does not use the new file elsewhere. (JSON text is assumed to be read back as
written; songs have fewer than 2^64 tracks.) -/
theorem C60_detour (x : Ext) (fs fs' : FS) (input output rom : String) (optimize v v' : Bool) (m : Manifest) (addrs : List Nat)
    (hjson : ∀ s : Song, s.Indexed → x.parseJson (x.printJson s.toJson) = some s.toJson)
    (hmid : x.extension input = some "mid") (hout : x.extension output ≠ some "mid") (hrom : rom ≠ output)
    (hsize : ∀ s, x.songFromMidiFile fs input defaultTempoAdjust optimize = .ok s → s.tracks.length ≤ 2 ^ 64)
    (hm : ∀ bank ∈ m, ∀ d ∈ bank, d.input ≠ some output ∧ (d.input = some input → d.tempoFactor = defaultTempoAdjust))
    (h : x.run fs optimize v (.midi2json input output) = (.ok (), fs')) :
    (x.writeRom fs' (m.map (List.map (SongDef.redirect input output))) rom addrs optimize v').1 = (x.writeRom fs m rom addrs optimize v').1 ∧
    (x.writeRom fs' (m.map (List.map (SongDef.redirect input output))) rom addrs optimize v').2 rom = (x.writeRom fs m rom addrs optimize v').2 rom := by
  obtain ⟨song, hs, hback⟩ := C48_file x fs fs' input output optimize v hjson h
  have hidx : song.Indexed := by
    have hs' := hs
    unfold Ext.songFromMidiFile at hs'
    split at hs'
    · cases hs'
    · split at hs'
      · cases hs'
      · rw [res_bind] at hs'
        obtain ⟨mh, -, hs'⟩ := hs'
        exact song_indexed hs' (hsize song hs)
  have hback' := hback hidx
  have hother : ∀ p, p ≠ output → fs' p = fs p := by
    intro p hp
    have := C42_other_files x fs optimize v (.midi2json input output) p (by simp [Cmd.target]; exact fun e => hp e.symm)
    rw [h] at this
    exact this
  have hconv : ∀ t, x.converter fs' optimize output t = .ok song := by
    intro t
    unfold Ext.converter
    rw [if_neg hout]
    exact hback'
  have hb : ∀ file, buildRom (x.converter fs' optimize) v' (m.map (List.map (SongDef.redirect input output))) addrs file = buildRom (x.converter fs optimize) v' m addrs file := by
    intro file
    refine buildRom_congr ?_ addrs file
    refine List.forall₂_map_left_iff.mpr (List.forall₂_same.mpr fun bank hbank => List.forall₂_map_left_iff.mpr (List.forall₂_same.mpr fun d hd => ?_))
    obtain ⟨h1, h2⟩ := hm bank hbank d hd
    unfold SongDef.redirect
    by_cases hi : d.input = some input
    · rw [if_pos hi]
      refine ⟨?_, rfl⟩
      unfold loadSong
      simp only [hi, hconv]
      unfold Ext.converter
      rw [if_pos hmid, h2 hi, hs]
    · rw [if_neg hi]
      refine ⟨?_, rfl⟩
      unfold loadSong
      cases hp : d.input with
      | none => rfl
      | some p => exact converter_congr (hother p fun e => h1 (by rw [hp, e])) _
  unfold Ext.writeRom
  rw [hother rom hrom]
  cases hf : fs rom with
  | none => simp only [hother rom hrom, hf, and_self]
  | some file =>
    simp only [romWrite, hb]
    cases buildRom (x.converter fs optimize) v' m addrs file <;> simp

/-- **C60 (runs).** `midi2json song.mid song.json` followed by `file_select song.json rom` leaves the same ROM as `file_select song.mid rom`. -/
theorem C60_file_select (x : Ext) (fs fs' : FS) (input output rom : String) (optimize v v' : Bool) (addrs : Option (List String))
    (hjson : ∀ s : Song, s.Indexed → x.parseJson (x.printJson s.toJson) = some s.toJson)
    (hmid : x.extension input = some "mid") (hout : x.extension output ≠ some "mid") (hrom : rom ≠ output)
    (hsize : ∀ s, x.songFromMidiFile fs input defaultTempoAdjust optimize = .ok s → s.tracks.length ≤ 2 ^ 64)
    (h : x.run fs optimize v (.midi2json input output) = (.ok (), fs')) :
    (x.run fs' optimize v' (.fileSelect output rom addrs)).1 = (x.run fs optimize v' (.fileSelect input rom addrs)).1 ∧
    (x.run fs' optimize v' (.fileSelect output rom addrs)).2 rom = (x.run fs optimize v' (.fileSelect input rom addrs)).2 rom := by
  have hne : input ≠ output := fun e => hout (e ▸ hmid)
  have hr : fs' rom = fs rom := by
    have := C42_other_files x fs optimize v (.midi2json input output) rom (by simp [Cmd.target]; exact fun e => hrom e.symm)
    rw [h] at this
    exact this
  simp only [Ext.run]
  cases readBankAddrs addrs with
  | error e => exact ⟨rfl, hr⟩
  | ok as =>
    have := C60_detour x fs fs' input output rom optimize v v' (manifestFileSelect input) as hjson hmid hout hrom hsize (by
      intro bank hb d hd
      simp only [manifestFileSelect, songDefDefault, songDefEmpty, List.mem_cons, List.not_mem_nil, or_false] at hb
      rcases hb with rfl | rfl | rfl <;> simp at hd <;> (rcases hd with rfl | rfl | rfl) <;> simp [hne]) h
    have e : (manifestFileSelect input).map (List.map (SongDef.redirect input output)) = manifestFileSelect output := by
      simp [manifestFileSelect, SongDef.redirect, songDefDefault, songDefEmpty]
    rw [e] at this
    exact this

/-- **C60 (runs).** The same for `all_overworld`. -/
theorem C60_all_overworld (x : Ext) (fs fs' : FS) (input output rom : String) (optimize v v' : Bool) (addrs : Option (List String))
    (hjson : ∀ s : Song, s.Indexed → x.parseJson (x.printJson s.toJson) = some s.toJson)
    (hmid : x.extension input = some "mid") (hout : x.extension output ≠ some "mid") (hrom : rom ≠ output)
    (hsize : ∀ s, x.songFromMidiFile fs input defaultTempoAdjust optimize = .ok s → s.tracks.length ≤ 2 ^ 64)
    (h : x.run fs optimize v (.midi2json input output) = (.ok (), fs')) :
    (x.run fs' optimize v' (.allOverworld output rom addrs)).1 = (x.run fs optimize v' (.allOverworld input rom addrs)).1 ∧
    (x.run fs' optimize v' (.allOverworld output rom addrs)).2 rom = (x.run fs optimize v' (.allOverworld input rom addrs)).2 rom := by
  have hne : input ≠ output := fun e => hout (e ▸ hmid)
  have hr : fs' rom = fs rom := by
    have := C42_other_files x fs optimize v (.midi2json input output) rom (by simp [Cmd.target]; exact fun e => hrom e.symm)
    rw [h] at this
    exact this
  simp only [Ext.run]
  cases readBankAddrs addrs with
  | error e => exact ⟨rfl, hr⟩
  | ok as =>
    have := C60_detour x fs fs' input output rom optimize v v' (manifestSingleSong input) as hjson hmid hout hrom hsize (by
      intro bank hb d hd
      simp only [manifestSingleSong, songDefDefault, List.mem_cons, List.not_mem_nil, or_false] at hb
      rcases hb with rfl | rfl | rfl <;> simp at hd <;> subst hd <;> simp [hne]) h
    have e : (manifestSingleSong input).map (List.map (SongDef.redirect input output)) = manifestSingleSong output := by
      simp [manifestSingleSong, SongDef.redirect, songDefDefault]
    rw [e] at this
    exact this

/-- The surroundings of `demoExt`, with the JSON text of C61. -/
def textExt : Ext := { demoExt with
  parseJson := Text.readJson
  printJson := Text.writeJson
  extension := fun p => if p = "good.mid" then some "mid" else some "json" }

/-- The slots of the example: one song and two silent ones. -/
def textManifest : Manifest := [[⟨some "good.mid", defaultTempoAdjust, true⟩], [⟨none, defaultTempoAdjust, true⟩], [⟨none, defaultTempoAdjust, false⟩]]

theorem text_size : ((textExt.songFromMidiFile demoFS "good.mid" defaultTempoAdjust false).toOption.all fun s => s.tracks.length ≤ 100) = true := by decide +kernel

/-- After `midi2json good.mid good.json` the ROM can be built from the JSON file, and is the one built from the MIDI file. -/
example : ∃ fs', textExt.run demoFS false false (.midi2json "good.mid" "good.json") = (.ok (), fs') ∧
    (textExt.writeRom fs' [[⟨some "good.json", defaultTempoAdjust, true⟩], [⟨none, defaultTempoAdjust, true⟩], [⟨none, defaultTempoAdjust, false⟩]]
      "small.sfc" [0, 12, 24] false false).1 = .ok () := by
  have h1 : (textExt.run demoFS false false (.midi2json "good.mid" "good.json")).1 = .ok () := by decide +kernel
  have h : textExt.run demoFS false false (.midi2json "good.mid" "good.json") = (.ok (), (textExt.run demoFS false false (.midi2json "good.mid" "good.json")).2) := by
    rw [← h1]
  refine ⟨_, h, ?_⟩
  have := (C60_detour textExt demoFS _ "good.mid" "good.json" "small.sfc" false false false textManifest [0, 12, 24] (fun s hs => C61_text s hs) (by decide) (by decide)
    (by decide) (fun s hs => by have := text_size; rw [hs] at this; simp [Except.toOption] at this; omega) (by
      intro bank hb d hd
      simp only [textManifest, List.mem_cons, List.not_mem_nil, or_false] at hb
      rcases hb with rfl | rfl | rfl <;> simp at hd <;> subst hd <;> simp) h).1
  refine Eq.trans this ?_
  decide +kernel

end M2S
