import Verif.Spec.Outcomes
import Verif.Proofs.RomFit
import Verif.Props.Optimise
import Verif.Props.Failures
import Verif.Props.RomFake
import Verif.Props.Rom
/-
Helper lemmas on how runs end.
-/
namespace M2S

variable {α β : Type} {l l' : List Err}

theorem ends_ok (a : α) : Ends l (.ok a : Res α) := .inl ⟨a, rfl⟩
theorem ends_pure (a : α) : Ends l (pure a : Res α) := .inl ⟨a, rfl⟩
theorem ends_panicked : Ends l (panicked : Res α) := .inr (.inl rfl)
theorem ends_failed {e : Err} (h : e ∈ l) : Ends l (failed e : Res α) := .inr (.inr ⟨e, h, rfl⟩)

theorem Ends.error {e : Fault} (h : Ends l (.error e : Res α)) : Ends l (.error e : Res β) := by
  rcases h with ⟨a, h⟩ | h | ⟨x, hx, h⟩
  · cases h
  · cases h; exact .inr (.inl rfl)
  · cases h; exact .inr (.inr ⟨x, hx, rfl⟩)

theorem Ends.bind {x : Res α} {f : α → Res β} (h1 : Ends l x) (h2 : ∀ a, x = .ok a → Ends l (f a)) : Ends l (x >>= f) := by
  cases x with
  | error e => exact h1.error
  | ok a => exact h2 a rfl

theorem Ends.mono {r : Res α} (h : Ends l r) (hl : l ⊆ l') : Ends l' r := by
  rcases h with h | h | ⟨e, he, h⟩
  · exact .inl h
  · exact .inr (.inl h)
  · exact .inr (.inr ⟨e, hl he, h⟩)

theorem PanicOnly.ends {r : Res α} (h : PanicOnly r) : Ends l r := by
  cases r with
  | ok a => exact ends_ok a
  | error e => rw [h e rfl]; exact ends_panicked

theorem Ends.panicOnly {r : Res α} (h : Ends [] r) : PanicOnly r := by
  rintro e rfl
  rcases h with ⟨a, h⟩ | h | ⟨x, hx, h⟩
  · cases h
  · cases h; rfl
  · cases hx

theorem ends_foldlM (f : β → α → Res β) (as : List α) (h : ∀ b a, Ends l (f b a)) : ∀ b, Ends l (as.foldlM f b) := by
  induction as with
  | nil => intro b; exact ends_pure b
  | cons a as ih => intro b; rw [List.foldlM_cons]; exact (h b a).bind fun b' _ => ih b'

theorem ends_mapM (f : α → Res β) (as : List α) (h : ∀ a, Ends l (f a)) : Ends l (as.mapM f) := by
  induction as with
  | nil => exact ends_pure _
  | cons a as ih =>
    rw [List.mapM_cons]
    exact (h a).bind fun b _ => ih.bind fun bs _ => ends_pure _

theorem ends_addU32 (a b : Nat) : Ends l (addU32 a b) := (panicOnly_addU32 a b).ends
theorem ends_mulU32 (a b : Nat) : Ends l (mulU32 a b) := by unfold mulU32; split_ifs; exacts [ends_ok _, ends_panicked]
theorem ends_subU (a b : Nat) : Ends l (subU a b) := (panicOnly_subU a b).ends
theorem ends_addU8 (a b : UInt8) : Ends l (addU8 a b) := (panicOnly_addU8 a b).ends
theorem ends_mulU8 (a b : UInt8) : Ends l (mulU8 a b) := by unfold mulU8; split_ifs; exacts [ends_ok _, ends_panicked]

/-! ### Conversion -/

theorem ends_getDuration (a b : Nat) (c : Bool) : Ends l (getDuration a b c) :=
  (ends_mulU32 _ _).bind fun _ _ => ends_pure _

theorem ends_insertRest (cs : List PCmd) (a b c : Nat) : Ends l (insertRest cs a b c) := by
  unfold insertRest
  split
  · exact (ends_getDuration _ _ _).bind fun _ _ => (ends_addU32 _ _).bind fun _ _ => ends_pure _
  · exact ends_pure _

theorem ends_usec (d : List UInt8) : Ends l (usecPerBeat d) := by
  unfold usecPerBeat; split
  · exact ends_ok _
  · exact ends_panicked

theorem ends_noteOff (tpb : Nat) (st : TrackState) (n : UInt8) (t : Nat) : Ends l (trackNoteOff tpb st n t) := by
  unfold trackNoteOff
  repeat' first
    | exact ends_pure _
    | exact ends_ok _
    | exact ends_addU32 _ _
    | exact ends_addU8 _ _
    | exact ends_subU _ _
    | exact ends_getDuration _ _ _
    | apply Ends.bind
    | intro _ _
    | dsimp only
    | split

theorem ends_noteOn (tpb : Nat) (st : TrackState) (n v : UInt8) (t : Nat) : Ends [.moreThanOneVoice] (trackNoteOn tpb st n v t) := by
  unfold trackNoteOn
  repeat' first
    | exact ends_pure _
    | exact ends_ok _
    | exact ends_failed (List.mem_singleton.2 rfl)
    | exact ends_insertRest _ _ _ _
    | exact ends_addU8 _ _
    | exact ends_getDuration _ _ _
    | apply Ends.bind
    | intro _ _
    | dsimp only
    | split

theorem ends_control (st : TrackState) (c d : UInt8) : Ends l (trackControl st c d) := by
  unfold trackControl
  repeat' first
    | exact ends_pure _
    | exact ends_ok _
    | exact ends_mulU8 _ _
    | apply Ends.bind
    | intro _ _
    | dsimp only
    | split

theorem ends_program (tpb : Nat) (st : TrackState) (ch : Fin 16) (p : UInt8) (t : Nat) : Ends l (trackProgram tpb st ch p t) := by
  unfold trackProgram
  repeat' first
    | exact ends_pure _
    | exact ends_ok _
    | exact ends_panicked
    | exact ends_insertRest _ _ _ _
    | apply Ends.bind
    | intro _ _
    | dsimp only
    | split

theorem ends_setSustain (a b : PCmd) : Ends l (a.setSustain b) := by
  unfold PCmd.setSustain
  repeat' first
    | exact ends_ok _
    | exact ends_panicked
    | dsimp only
    | split

theorem ends_sustainPass (n : Nat) : ∀ cs : List PCmd, cs.length ≤ n → Ends l (sustainPass cs) := by
  induction n with
  | zero =>
    intro cs hl
    cases cs with
    | nil => exact ends_ok _
    | cons a cs => simp at hl
  | succ n ih =>
    intro cs hl
    match cs, hl with
    | [], _ => exact ends_ok _
    | [c], _ => exact ends_ok _
    | c :: d :: rest, hl =>
      simp only [List.length_cons] at hl
      rw [sustainPass]
      refine (ends_setSustain c d).bind ?_
      rintro ⟨c', fused⟩ _
      dsimp only
      split
      · exact (ih _ (by omega)).bind fun _ _ => ends_pure _
      · exact (ih _ (by simp only [List.length_cons]; omega)).bind fun _ _ => ends_pure _

theorem ends_trackStep (tpb : Nat) (f : F32) (st : TrackState) (ev : Message × Nat) : Ends [.moreThanOneVoice] (trackStep tpb f st ev) := by
  unfold trackStep
  repeat' first
    | exact ends_ok _
    | exact ends_pure _
    | exact ends_usec _
    | exact ends_noteOff _ _ _ _
    | exact ends_noteOn _ _ _ _ _
    | exact ends_control _ _ _
    | exact ends_program _ _ _ _ _
    | apply Ends.bind
    | intro _ _
    | split

theorem ends_trackNew (evs : List (Message × Nat)) (tpb T : Nat) (f : F32) : Ends [.moreThanOneVoice] (trackNew evs tpb T f) := by
  unfold trackNew
  refine (ends_foldlM _ _ (ends_trackStep tpb f) _).bind fun st _ => ?_
  split
  · exact ends_pure _
  · split
    · exact (ends_insertRest _ _ _ _).bind fun _ _ => ends_sustainPass _ _ le_rfl
    · exact ends_sustainPass _ _ le_rfl

theorem ends_song (h : MidiHandler) (f : F32) (optimize : Bool) : Ends [.moreThanOneVoice] (songFromMidi h f optimize) := by
  unfold songFromMidi
  refine Ends.bind ?_ fun ts _ => ?_
  · unfold voiceTracks
    exact (ends_mapM _ _ fun v => ends_trackNew _ _ _ _).bind fun _ _ => ends_pure _
  · dsimp only
    split
    · refine Ends.bind ?_ fun _ _ => ends_pure _
      rcases (C34_terminates ts ts.length le_rfl).1 with h | h
      · exact .inl h
      · exact .inr (.inl h)
    · exact ends_pure _

/-- Songs of files that were read. -/
theorem ends_read_song (ord : EnumOrder) (calls : List Callback) (f : F32) (optimize : Bool) :
    Ends [.couldntFit] (do let h ← readMidi ord calls; songFromMidi h f optimize) := by
  refine Ends.bind ?_ fun h hr => ?_
  · rcases C90_outcomes ord calls with h | h | h
    · exact .inl h
    · exact .inr (.inl h)
    · exact .inr (.inr ⟨_, List.mem_singleton.2 rfl, h⟩)
  · rcases ends_song h f optimize with e | e | ⟨x, hx, e⟩
    · exact .inl e
    · exact .inr (.inl e)
    · rw [List.mem_singleton] at hx
      subst hx
      exact absurd e (C23_song_any ord calls h hr f optimize)

/-! ### The ROM -/

theorem ends_switch (w : Walk) (v : Bool) (so off need a b c : Nat) (hl : .doesNotFit ∈ l) : Ends l (switchChunk w v so off need a b c) := by
  unfold switchChunk
  repeat' first
    | exact ends_ok _
    | exact ends_panicked
    | exact ends_failed hl
    | split

theorem ends_anyPartFirst (parts : List (List Nat)) (i : Nat) : Ends l (anyPartFirst parts i) := by
  induction parts with
  | nil => exact ends_ok _
  | cons p ps ih =>
    cases p with
    | nil => exact ends_panicked
    | cons t p =>
      rw [anyPartFirst]
      split
      · exact ends_ok _
      · exact ih

theorem ends_writeTrack (s : Song) (i : Nat) : Ends l (s.writeTrack i) := by
  unfold Song.writeTrack
  repeat' first
    | exact ends_ok _
    | exact ends_pure _
    | exact ends_panicked
    | exact ends_anyPartFirst _ _
    | apply Ends.bind
    | intro _ _
    | dsimp only
    | split

theorem ends_writeSongTrack (w : Walk) (v : Bool) (so : Nat) (song : Song) (st : TrackLoop) (i : Nat) (hl : .doesNotFit ∈ l) :
    Ends l (writeSongTrack w v so song st i) := by
  unfold writeSongTrack
  refine (ends_writeTrack song i).bind fun o _ => (ends_switch _ _ _ _ _ _ _ _ hl).bind fun r _ => ?_
  obtain ⟨sw, off, ra, len, ar⟩ := r
  dsimp only
  split
  · exact (panicOnly_splice _ _ _).ends.bind fun _ _ => ends_pure _
  · exact ends_pure _

theorem ends_writeSong (w : Walk) (v : Bool) (st : BankState) (song : Song) (loops : Bool) (hl : .doesNotFit ∈ l) : Ends l (writeSong w v st song loops) := by
  unfold writeSong
  refine (ends_switch _ _ _ _ _ _ _ _ hl).bind fun r _ => ?_
  obtain ⟨sw, off, ra, len, ar⟩ := r
  dsimp only
  refine (panicOnly_pokes _ _).ends.bind fun _ _ => (panicOnly_pokes _ _).ends.bind fun _ _ => ?_
  refine (ends_foldlM _ _ (fun st i => ends_writeSongTrack _ _ _ _ _ _ hl) _).bind fun tl _ => (panicOnly_pokes _ _).ends.bind fun _ _ => ?_
  refine Ends.bind (by unfold Song.partTracks; split; exacts [ends_ok _, ends_panicked]) fun part _ => ?_
  refine (panicOnly_writePartTracks _ _ _ _).ends.bind fun _ _ => Ends.bind ?_ fun _ _ => ends_pure _
  exact ends_foldlM _ _ (fun _ _ => (panicOnly_pokeTrackAddr _ _ _ _).ends) _

theorem ends_loadSong {Path : Type} {conv : Converter Path} (hc : ∀ p f, Ends l (conv p f)) (d : SongDef Path) : Ends l (loadSong conv d) := by
  unfold loadSong
  split
  · exact hc _ _
  · have : (songEmpty.toOption.isSome) = true := by decide +kernel
    cases h : songEmpty with
    | ok s => exact ends_ok _
    | error e => rw [h] at this; cases this

/-- Where a song chunk is found there is an overflow chunk: what follows it, whatever it is. -/
theorem ends_walk (rom : Rom) (addr : Nat) (h1 : .noBaseChunk ∈ l) : Ends l (do
    let w ← walkLoop rom (rom.length + 1) { addr := addr }
    if w.baseAddr = 0 then failed .noBaseChunk
    else if w.overflowAddr = 0 then failed .noOverflowChunk
    else return w : Res Walk) := by
  refine PanicOnly.ends (fun e he => walkLoop_total rom.length _ (by dsimp only; omega) e he) |>.bind fun w hw => ?_
  split
  · exact ends_failed h1
  · split
    · rename_i hb ho
      rcases walkLoop_found _ _ _ (by simp) hw with ⟨cs, stop, -, -, -, -, rfl⟩ | ⟨pre, b, o, post, -, -, -, h, -⟩
      · exact absurd rfl hb
      · rw [ho] at h
        unfold RomSpec.ChunkInfo.data at h
        omega
    · exact ends_pure _

theorem ends_findChunks (rom : Rom) (a : Nat) (h1 : .noBaseChunk ∈ l) : Ends l (findChunks rom a) := by
  unfold findChunks bankStart
  have hpk : ∀ i, PanicOnly (peek rom i) := by
    intro i
    unfold peek
    split
    · exact panicOnly_ok _
    · exact panicOnly_panicked
  exact Ends.bind ((panicOnly_addU32 _ _).bind fun _ _ => (hpk _).bind fun _ _ => (panicOnly_addU32 _ _).bind fun _ _ =>
    (hpk _).bind fun _ _ => (hpk _).bind fun _ _ => panicOnly_pure _).ends fun r _ => ends_walk rom _ h1

theorem ends_writeBank {Path : Type} {conv : Converter Path} (hc : ∀ p f, Ends l (conv p f)) (v : Bool) (songs : List (SongDef Path)) (rom : Rom) (a f n : Nat)
    (h1 : .noBaseChunk ∈ l) (h3 : .doesNotFit ∈ l) : Ends l (writeBank conv v songs rom a f n) := by
  unfold writeBank
  refine (ends_findChunks rom a h1).bind fun w _ => (ends_subU _ _).bind fun so _ => Ends.bind ?_ fun _ _ => (panicOnly_pokes _ _).ends
  exact ends_foldlM _ _ (fun st d => (ends_loadSong hc d).bind fun s _ => ends_writeSong _ _ _ _ _ h3) _

theorem ends_writeBanks {Path : Type} {conv : Converter Path} (hc : ∀ p f, Ends l (conv p f)) (v : Bool) (h1 : .noBaseChunk ∈ l)
    (h3 : .doesNotFit ∈ l) : ∀ (js : List (List (SongDef Path) × Nat × Nat)) (rom : Rom) (n : Nat), Ends l (writeBanks conv v js rom n)
  | [], _, _ => ends_ok _
  | j :: js, rom, n => by
    rw [writeBanks]
    exact (ends_writeBank hc v j.1 rom j.2.1 j.2.2 n h1 h3).bind fun _ _ => ends_writeBanks hc v h1 h3 js _ _

/-! ### The command line -/

theorem ends_midiFile (x : Ext) (fs : FS) (path : String) (f : F32) (optimize : Bool) : Ends midiMessages (x.songFromMidiFile fs path f optimize) := by
  unfold Ext.songFromMidiFile
  split
  · exact ends_failed (by decide)
  · split
    · exact ends_failed (by decide)
    · exact (ends_read_song _ _ _ _).mono (by decide)

theorem ends_jsonFile (x : Ext) (fs : FS) (path : String) : Ends l (x.songFromJsonFile fs path) := by
  unfold Ext.songFromJsonFile
  split
  · exact ends_ok _
  · exact ends_panicked

theorem ends_converter (x : Ext) (fs : FS) (optimize : Bool) (p : String) (f : F32) : Ends midiMessages (x.converter fs optimize p f) := by
  unfold Ext.converter
  split
  · exact ends_midiFile _ _ _ _ _
  · exact ends_jsonFile _ _ _

theorem ends_bankAddrs (values : Option (List String)) (hl : .badNumber ∈ l) : Ends l (readBankAddrs values) := by
  unfold readBankAddrs
  repeat' first
    | exact ends_ok _
    | exact ends_panicked
    | exact ends_failed hl
    | split

theorem ends_bankNew (j : Json) (names : List String) (base : String) : Ends l (bankNew j names base) := by
  refine ends_mapM _ _ fun n => ?_
  unfold songDefNew
  split
  · exact ends_panicked
  · exact ends_ok _

theorem ends_manifest (x : Ext) (fs : FS) (path : String) (h1 : .io ∈ l) (h2 : .conversion ∈ l) : Ends l (x.loadManifest fs path) := by
  unfold Ext.loadManifest
  split
  · exact ends_failed h1
  · split
    · exact ends_failed h2
    · split
      · exact ends_panicked
      · exact (ends_bankNew _ _ _).bind fun _ _ => (ends_bankNew _ _ _).bind fun _ _ => (ends_bankNew _ _ _).bind fun _ _ => ends_pure _

/-- The messages of a build. -/
def buildMessages : List Err := [.badNumber, .io, .conversion, .couldntFit, .noBaseChunk, .doesNotFit]

theorem ends_writeRom (x : Ext) (fs : FS) (m : Manifest) (rom : String) (addrs : List Nat) (optimize verbose : Bool) :
    Ends buildMessages (x.writeRom fs m rom addrs optimize verbose).1 := by
  unfold Ext.writeRom
  split
  · exact ends_failed (by decide)
  · have hb : Ends buildMessages (buildRom (x.converter fs optimize) verbose m addrs ‹_›) :=
      ends_writeBanks (fun p f => (ends_converter x fs optimize p f).mono (by decide)) verbose (by decide) (by decide) _ _ _
    simp only [romWrite]
    split
    · rename_i e; rw [e] at hb; exact hb.error
    · exact ends_ok _

end M2S
