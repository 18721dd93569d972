import Verif.Proofs.Outcomes
import Verif.Props.Release
/-
How runs of the release build end, and its ROM builder.
-/
namespace M2S

variable {l : List Err}

theorem panicOnly_peek (rom : Rom) (i : Nat) : PanicOnly (peek rom i) := by
  unfold peek
  split
  · exact panicOnly_ok _
  · exact panicOnly_panicked

theorem panicOnly_bankStart_release (rom : Rom) (a : Nat) : PanicOnly (Release.bankStart rom a) :=
  (panicOnly_peek _ _).bind fun _ _ => (panicOnly_peek _ _).bind fun _ _ => (panicOnly_peek _ _).bind fun _ _ => panicOnly_pure _

theorem ends_findChunks_release (rom : Rom) (a : Nat) (h1 : .noBaseChunk ∈ l) : Ends l (Release.findChunks rom a) := by
  unfold Release.findChunks
  refine (panicOnly_bankStart_release rom a).ends.bind fun r _ => ?_
  exact ends_walk rom _ h1

theorem ends_writeBank_release {Path : Type} {conv : Converter Path} (hc : ∀ p f, Ends l (conv p f)) (songs : List (SongDef Path)) (rom : Rom) (a f n : Nat)
    (h1 : .noBaseChunk ∈ l) (h3 : .doesNotFit ∈ l) : Ends l (Release.writeBank conv songs rom a f n) := by
  unfold Release.writeBank
  refine (ends_findChunks_release rom a h1).bind fun w _ => Ends.bind ?_ fun _ _ => (panicOnly_pokes _ _).ends
  exact ends_foldlM _ _ (fun st d => (ends_loadSong hc d).bind fun s _ => ends_writeSong _ _ _ _ _ h3) _

theorem ends_writeBanks_release {Path : Type} {conv : Converter Path} (hc : ∀ p f, Ends l (conv p f)) (h1 : .noBaseChunk ∈ l)
    (h3 : .doesNotFit ∈ l) : ∀ (js : List (List (SongDef Path) × Nat × Nat)) (rom : Rom) (n : Nat), Ends l (Release.writeBanks conv js rom n)
  | [], _, _ => ends_ok _
  | j :: js, rom, n => by
    rw [Release.writeBanks]
    exact (ends_writeBank_release hc j.1 rom j.2.1 j.2.2 n h1 h3).bind fun _ _ => ends_writeBanks_release hc h1 h3 js _ _

theorem ends_midiFile_release (x : Ext) (fs : FS) (path : String) (f : F32) (optimize : Bool) : Ends midiMessages (Release.songFromMidiFile x fs path f optimize) := by
  unfold Release.songFromMidiFile
  split
  · exact ends_failed (by decide)
  · split
    · exact ends_failed (by decide)
    · refine Ends.bind ?_ fun h hr => ?_
      · rcases C103_read_outcomes x.ord ‹_› with h | h | h
        · exact .inl h
        · exact .inr (.inl h)
        · exact .inr (.inr ⟨_, by decide, h⟩)
      · obtain ⟨c1, c2⟩ := C103_conversion x.ord _ h hr f optimize
        by_cases ha : ∀ y ∈ MidiSpec.file ‹List Callback›, MidiSpec.accepted y.1 = true
        · exact .inl (c1.2 ha)
        · push Not at ha
          obtain ⟨y, hy, hn⟩ := ha
          exact .inr (.inl (c2.2 ⟨y, hy, by simpa using hn⟩))

theorem ends_converter_release (x : Ext) (fs : FS) (optimize : Bool) (p : String) (f : F32) : Ends midiMessages (Release.converter x fs optimize p f) := by
  unfold Release.converter
  split
  · exact ends_midiFile_release _ _ _ _ _
  · exact ends_jsonFile _ _ _

theorem ends_writeRom_release (x : Ext) (fs : FS) (m : Manifest) (rom : String) (addrs : List Nat) (optimize : Bool) :
    Ends buildMessages (Release.writeRom x fs m rom addrs optimize).1 := by
  unfold Release.writeRom
  split
  · exact ends_failed (by decide)
  · have hb : Ends buildMessages (Release.writeBanks (Release.converter x fs optimize) (m.zip (addrs.zip bankFirstSongAddrs)) ‹_› 0) :=
      ends_writeBanks_release (fun p f => (ends_converter_release x fs optimize p f).mono (by decide)) (by decide) (by decide) _ _ _
    simp only [Release.romWrite]
    split
    · rename_i e; rw [e] at hb; exact hb.error
    · exact ends_ok _

theorem panicOnly_fake_release (rom : Rom) (addrs : List Nat) : PanicOnly (Release.genFakeRom rom addrs) := by
  unfold Release.genFakeRom
  refine panicOnly_foldlM _ _ (fun o base => ?_) _
  unfold Release.fakeBank
  refine (panicOnly_bankStart_release rom base).bind fun r _ => ?_
  exact (panicOnly_pokes _ _).bind fun o _ => fakeLoop_total rom.length (by omega)

/-! ### The ROM builders agree on every converter -/

theorem addU32_unchecked {a b : Nat} (h : a + b < 2 ^ 32) : addU32 a b = .ok (Release.addU32 a b) := by
  unfold addU32 Release.addU32
  rw [if_pos h, Nat.mod_eq_of_lt h]

theorem bankStart_unchecked (rom : Rom) (a : Nat) (h : a + 8 < 2 ^ 32) : bankStart rom a = Release.bankStart rom a := by
  unfold bankStart Release.bankStart
  rw [addU32_unchecked h, addU32_unchecked (by omega : a + 4 < 2 ^ 32)]
  rfl

theorem findChunks_unchecked (rom : Rom) (a : Nat) (h : a + 8 < 2 ^ 32) : findChunks rom a = Release.findChunks rom a := by
  unfold findChunks Release.findChunks
  rw [bankStart_unchecked rom a h]

theorem writeBank_unchecked {Path : Type} (conv : Converter Path) (songs : List (SongDef Path)) (rom : Rom) (a f n : Nat) (h : a + 8 < 2 ^ 32) (hf : aramBase ≤ f) :
    writeBank conv false songs rom a f n = Release.writeBank conv songs rom a f n := by
  unfold writeBank Release.writeBank
  rw [findChunks_unchecked rom a h]
  unfold subU Release.subUsize
  rw [if_pos hf, if_pos hf]
  rfl

theorem writeBanks_unchecked {Path : Type} (conv : Converter Path) : ∀ (js : List (List (SongDef Path) × Nat × Nat)) (rom : Rom) (n : Nat),
    (∀ j ∈ js, j.2.1 + 8 < 2 ^ 32 ∧ aramBase ≤ j.2.2) → writeBanks conv false js rom n = Release.writeBanks conv js rom n
  | [], _, _, _ => rfl
  | (songs, a, f) :: js, rom, n, h => by
    obtain ⟨h1, h2⟩ := h _ List.mem_cons_self
    rw [writeBanks, Release.writeBanks, writeBank_unchecked conv songs rom a f n h1 h2]
    exact congrArg _ (funext fun r => writeBanks_unchecked conv js r _ fun j hj => h j (List.mem_cons_of_mem _ hj))

theorem romWrite_unchecked {Path : Type} (conv : Converter Path) (banks : List (List (SongDef Path))) (addrs : List Nat) (acc : Nat) (file : List UInt8)
    (h : ∀ a ∈ addrs, a + 8 < 2 ^ 32) : romWrite conv false banks addrs acc file = Release.romWrite conv banks addrs acc file := by
  unfold romWrite Release.romWrite buildRom
  rw [writeBanks_unchecked conv _ _ _ ?_]
  · rfl
  · rintro ⟨songs, a, f⟩ hj
    obtain ⟨-, hj⟩ := List.of_mem_zip hj
    obtain ⟨ha, hf⟩ := List.of_mem_zip hj
    have key : ∀ g ∈ bankFirstSongAddrs, aramBase ≤ g := by decide
    exact ⟨h a ha, key f hf⟩

theorem genFakeRom_unchecked (rom : Rom) (addrs : List Nat) (h : ∀ a ∈ addrs, a + 8 < 2 ^ 32) : genFakeRom rom addrs = Release.genFakeRom rom addrs := by
  unfold genFakeRom Release.genFakeRom
  generalize List.replicate rom.length (0 : UInt8) = out
  induction addrs generalizing out with
  | nil => rfl
  | cons a as ih =>
    rw [List.foldlM_cons, List.foldlM_cons]
    have h8 := h a List.mem_cons_self
    have e : fakeBank rom out a = Release.fakeBank rom out a := by
      unfold fakeBank Release.fakeBank
      rw [bankStart_unchecked rom a h8]
      unfold Release.addU32
      rw [Nat.mod_eq_of_lt h8, Nat.mod_eq_of_lt (by omega : a + 4 < 2 ^ 32)]
    rw [e]
    exact congrArg _ (funext fun o => ih (fun b hb => h b (List.mem_cons_of_mem _ hb)) o)

end M2S
