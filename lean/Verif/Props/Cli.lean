import Verif.Proofs.Cli
import Verif.Props.Json
import Verif.Props.RomBuild
/-
C42: failing runs change nothing; C51: bank addresses; C48 for files.
-/
namespace M2S
open CliSpec

/-! ## C42 -/

theorem writeRom_error {x : Ext} {fs : FS} {m : Manifest} {rom : String} {addrs : List Nat} {o v : Bool} {e : Fault}
    (h : (x.writeRom fs m rom addrs o v).1 = .error e) : (x.writeRom fs m rom addrs o v).2 = fs := by
  unfold Ext.writeRom at h ⊢
  cases hf : fs rom with
  | none => rfl
  | some file =>
    rw [hf] at h
    simp only [romWrite] at h ⊢
    cases hb : buildRom (x.converter fs o) v m addrs file with
    | error e' =>
      simp only
      rw [← hf, Function.update_eq_self]
    | ok r => rw [hb] at h; cases h

/-- **C42.** Whatever the subcommand and whatever goes wrong (a song that cannot be converted, one that does not fit, a missing file, a bad option, a panic in
any song), a run that fails leaves all files as they were. -/
theorem C42_failure_changes_nothing (x : Ext) (fs : FS) (optimize verbose : Bool) (cmd : Cmd) (e : Fault)
    (h : (x.run fs optimize verbose cmd).1 = .error e) : (x.run fs optimize verbose cmd).2 = fs := by
  cases cmd with
  | buildRom manifest rom addrs =>
    simp only [Ext.run] at h ⊢
    cases ha : readBankAddrs addrs with
    | error e => rfl
    | ok as =>
      rw [ha] at h
      simp only at h ⊢
      cases hm : x.loadManifest fs manifest with
      | error e => rfl
      | ok m => rw [hm] at h; exact writeRom_error h
  | allOverworld input rom addrs =>
    simp only [Ext.run] at h ⊢
    cases ha : readBankAddrs addrs with
    | error e => rfl
    | ok as => rw [ha] at h; exact writeRom_error h
  | fileSelect input rom addrs =>
    simp only [Ext.run] at h ⊢
    cases ha : readBankAddrs addrs with
    | error e => rfl
    | ok as => rw [ha] at h; exact writeRom_error h
  | dumpMidi input =>
    simp only [Ext.run]
    cases (fs input).bind x.parseMidi with
    | none => rfl
    | some calls =>
      simp only
      split <;> rfl
  | midi2json input output =>
    simp only [Ext.run] at h ⊢
    cases hs : x.songFromMidiFile fs input defaultTempoAdjust optimize with
    | error e => rfl
    | ok s => rw [hs] at h; cases h
  | genFakeRom input output addrs =>
    simp only [Ext.run] at h ⊢
    cases ha : readBankAddrs addrs with
    | error e => rfl
    | ok as =>
      rw [ha] at h
      simp only at h ⊢
      cases hf : fs input with
      | none => rfl
      | some rom =>
        rw [hf] at h
        simp only at h ⊢
        cases hg : genFakeRom rom as with
        | error e => rfl
        | ok r =>
          rw [hg] at h
          simp only [genFakeRomFile, hg] at h
          cases h

/-- The file a subcommand writes. -/
def Cmd.target : Cmd → Option String
  | .buildRom _ rom _ => some rom
  | .allOverworld _ rom _ => some rom
  | .fileSelect _ rom _ => some rom
  | .dumpMidi _ => none
  | .midi2json _ output => some output
  | .genFakeRom _ output _ => some output

theorem writeRom_other {x : Ext} {fs : FS} {m : Manifest} {rom p : String} {addrs : List Nat} {o v : Bool} (hp : p ≠ rom) :
    (x.writeRom fs m rom addrs o v).2 p = fs p := by
  unfold Ext.writeRom
  cases fs rom with
  | none => rfl
  | some file => exact Function.update_of_ne hp _ _

/-- **C42.** No run, failed or not, changes any file but its target. -/
theorem C42_other_files (x : Ext) (fs : FS) (optimize verbose : Bool) (cmd : Cmd) (p : String) (hp : cmd.target ≠ some p) :
    (x.run fs optimize verbose cmd).2 p = fs p := by
  cases cmd with
  | buildRom manifest rom addrs =>
    have hp' : p ≠ rom := fun e => hp (by rw [e]; rfl)
    simp only [Ext.run]
    cases readBankAddrs addrs with
    | error e => rfl
    | ok as =>
      simp only
      cases x.loadManifest fs manifest with
      | error e => rfl
      | ok m => exact writeRom_other hp'
  | allOverworld input rom addrs =>
    have hp' : p ≠ rom := fun e => hp (by rw [e]; rfl)
    simp only [Ext.run]
    cases readBankAddrs addrs with
    | error e => rfl
    | ok as => exact writeRom_other hp'
  | fileSelect input rom addrs =>
    have hp' : p ≠ rom := fun e => hp (by rw [e]; rfl)
    simp only [Ext.run]
    cases readBankAddrs addrs with
    | error e => rfl
    | ok as => exact writeRom_other hp'
  | dumpMidi input =>
    simp only [Ext.run]
    cases (fs input).bind x.parseMidi with
    | none => rfl
    | some calls =>
      simp only
      split <;> rfl
  | midi2json input output =>
    have hp' : p ≠ output := fun e => hp (by rw [e]; rfl)
    simp only [Ext.run]
    cases x.songFromMidiFile fs input defaultTempoAdjust optimize with
    | error e => rfl
    | ok s => exact Function.update_of_ne hp' _ _
  | genFakeRom input output addrs =>
    have hp' : p ≠ output := fun e => hp (by rw [e]; rfl)
    simp only [Ext.run]
    cases readBankAddrs addrs with
    | error e => rfl
    | ok as =>
      simp only
      cases fs input with
      | none => rfl
      | some rom =>
        simp only
        cases genFakeRom rom as with
        | error e => rfl
        | ok r => exact Function.update_of_ne hp' _ _

/-- **C42.** A build that succeeds leaves the built image in the ROM file, if the operating system stores all bytes of the one `write` call. -/
theorem C42_success (x : Ext) (fs fs' : FS) (m : Manifest) (rom : String) (addrs : List Nat) (optimize verbose : Bool)
    (hacc : ∀ n, x.accept n = n) (h : x.writeRom fs m rom addrs optimize verbose = (.ok (), fs')) :
    ∃ file r, fs rom = some file ∧ buildRom (x.converter fs optimize) verbose m addrs file = .ok r ∧ fs' rom = some r := by
  unfold Ext.writeRom at h
  cases hf : fs rom with
  | none => rw [hf] at h; cases h
  | some file =>
    rw [hf] at h
    simp only [romWrite] at h
    cases hb : buildRom (x.converter fs optimize) verbose m addrs file with
    | error e => rw [hb] at h; cases h
    | ok r =>
      rw [hb] at h
      simp only [Prod.mk.injEq, true_and] at h
      refine ⟨file, r, rfl, hb, ?_⟩
      rw [← h, Function.update_self, hacc]
      have := C39_size _ _ _ _ _ _ hb
      rw [← this, List.take_length, Nat.min_self, this, List.drop_length, List.append_nil]


/-- Surroundings for the examples: a MIDI file is a list of note numbers, each a note of 48 ticks on channel 1; 0 stands for an
end of a note that was never started. -/
def demoExt : Ext where
  parseMidi b := some ([.header 1 48, .trackChange] ++
    b.flatMap fun n => if n = 0 then [.midiEvent 0 (.noteOff 0 60 0)] else [.midiEvent 0 (.noteOn 0 n 100), .midiEvent 48 (.noteOff 0 n 0)])
  parseJson _ := none
  printJson _ := []
  extension _ := some "mid"
  parent _ := none
  ord := id
  accept n := n

/-- A ROM, a song that can be converted, and one that cannot. -/
def demoFS : FS := fun p => if p = "small.sfc" then some threeRom else if p = "good.mid" then some [60] else if p = "bad.mid" then some [60, 0] else none

/-- The same run fails because there is no room in the ROM, because of an event of the song, because there is no such file, or because of an option. -/
example : (demoExt.run demoFS false false (.fileSelect "good.mid" "small.sfc" (some ["0", "c", "18"]))).1 = .error (.err .doesNotFit) ∧
    (demoExt.run demoFS false false (.allOverworld "bad.mid" "small.sfc" (some ["0", "c", "18"]))).1 = .error .panic ∧
    (demoExt.run demoFS false false (.allOverworld "none.mid" "small.sfc" (some ["0", "c", "18"]))).1 = .error (.err .io) ∧
    (demoExt.run demoFS false false (.allOverworld "good.mid" "small.sfc" (some ["0", "c", "18h"]))).1 = .error (.err .badNumber) := by
  refine ⟨?_, ?_, ?_, ?_⟩ <;> decide +kernel

/-- A manifest of three songs can be built. -/
example : (demoExt.writeRom demoFS [[⟨some "good.mid", defaultTempoAdjust, true⟩], [⟨none, defaultTempoAdjust, true⟩], [⟨none, defaultTempoAdjust, false⟩]]
    "small.sfc" [0, 12, 24] false false).1 = .ok () := by decide +kernel

/-! ## C51 -/

/-- **C51.** Three addresses are accepted exactly if each is a hexadecimal number below 2^32, and then read as these numbers in order; anything else is an
error. (clap ensures that there are three values.) -/
theorem C51_three (a b c : String) :
    (∀ ns, readBankAddrs (some [a, b, c]) = .ok ns ↔ ∃ x y z, Address a x ∧ Address b y ∧ Address c z ∧ ns = [x, y, z]) ∧
    ((¬ ∃ x y z, Address a x ∧ Address b y ∧ Address c z) → readBankAddrs (some [a, b, c]) = .error (.err .badNumber)) := by
  have key : [a, b, c].mapM parseHexU32 = (parseHexU32 a).bind fun x => (parseHexU32 b).bind fun y => (parseHexU32 c).bind fun z => some [x, y, z] := by
    simp [bind, Option.bind, pure]
    cases parseHexU32 a <;> cases parseHexU32 b <;> cases parseHexU32 c <;> rfl
  simp only [← parseHex_iff]
  unfold readBankAddrs
  simp only
  rw [key]
  cases ha : parseHexU32 a <;> cases hb : parseHexU32 b <;> cases hc : parseHexU32 c <;> simp [failed, eq_comm]

/-- **C51.** Without the option the game's addresses are used. -/
theorem C51_default : readBankAddrs none = .ok [0x914, 0x926, 0x932] := rfl

/-- **C51.** A malformed address fails the run before any file is touched. -/
theorem C51_bad_address (x : Ext) (fs : FS) (optimize verbose : Bool) (a b c : String) (h : ¬ ∃ n m k, Address a n ∧ Address b m ∧ Address c k)
    (p q : String) (cmd : Cmd) (hcmd : cmd = .buildRom p q (some [a, b, c]) ∨ cmd = .allOverworld p q (some [a, b, c]) ∨ cmd = .fileSelect p q (some [a, b, c])) :
    x.run fs optimize verbose cmd = (.error (.err .badNumber), fs) := by
  have := (C51_three a b c).2 h
  rcases hcmd with rfl | rfl | rfl <;> simp only [Ext.run, this]

example : readBankAddrs (some ["914", "+0926", "FffFfffF"]) = .ok [0x914, 0x926, 0xffffffff] ∧
    readBankAddrs (some ["914", "926", "100000000"]) = .error (.err .badNumber) ∧ readBankAddrs (some ["914", "", "1"]) = .error (.err .badNumber) ∧
    readBankAddrs (some ["914", "0x1", "1"]) = .error (.err .badNumber) ∧ readBankAddrs (some ["-1", "1", "1"]) = .error (.err .badNumber) := by decide

/-! ## C48, for files -/

/-- **C48.** Converting a MIDI file to JSON and using the JSON file in its place: the song read from it is the one converted. The text syntax of JSON
(serde_json) is assumed to be read back as written; C61 proves this of a model of it. -/
theorem C48_file (x : Ext) (fs fs' : FS) (input output : String) (optimize verbose : Bool) (hjson : ∀ s : Song, s.Indexed → x.parseJson (x.printJson s.toJson) = some s.toJson)
    (h : x.run fs optimize verbose (.midi2json input output) = (.ok (), fs')) :
    ∃ song, x.songFromMidiFile fs input defaultTempoAdjust optimize = .ok song ∧ (song.Indexed → x.songFromJsonFile fs' output = .ok song) := by
  simp only [Ext.run] at h
  cases hs : x.songFromMidiFile fs input defaultTempoAdjust optimize with
  | error e => rw [hs] at h; cases h
  | ok s =>
    rw [hs] at h
    simp only [Prod.mk.injEq, true_and] at h
    refine ⟨s, rfl, fun hi => ?_⟩
    unfold Ext.songFromJsonFile
    rw [← h, Function.update_self]
    simp only [Option.bind_some, hjson s hi, C48_round_trip s hi]

end M2S
