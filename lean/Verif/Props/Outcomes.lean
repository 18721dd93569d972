import Verif.Proofs.ReleaseOutcomes
/-
Property C104: how runs of the tool end.
-/
namespace M2S
open MidiSpec

/-- **C104.** Whatever the files and options, every run of the tool comes to an end: with success, with a panic, or with one of the messages of its subcommand. -/
theorem C104_run (x : Ext) (fs : FS) (optimize verbose : Bool) (cmd : Cmd) : Ends cmd.messages (x.run fs optimize verbose cmd).1 := by
  cases cmd with
  | buildRom manifest rom addrs =>
    have h1 : Ends buildMessages (readBankAddrs addrs) := ends_bankAddrs _ (by decide)
    have h2 : Ends buildMessages (x.loadManifest fs manifest) := ends_manifest _ _ _ (by decide) (by decide)
    simp only [Ext.run]
    cases ha : readBankAddrs addrs with
    | error e => rw [ha] at h1; exact h1.error
    | ok as =>
      simp only
      cases hm : x.loadManifest fs manifest with
      | error e => rw [hm] at h2; exact h2.error
      | ok m => exact ends_writeRom _ _ _ _ _ _ _
  | allOverworld input rom addrs =>
    have h1 : Ends buildMessages (readBankAddrs addrs) := ends_bankAddrs _ (by decide)
    simp only [Ext.run]
    cases ha : readBankAddrs addrs with
    | error e => rw [ha] at h1; exact h1.error
    | ok as => exact ends_writeRom _ _ _ _ _ _ _
  | fileSelect input rom addrs =>
    have h1 : Ends buildMessages (readBankAddrs addrs) := ends_bankAddrs _ (by decide)
    simp only [Ext.run]
    cases ha : readBankAddrs addrs with
    | error e => rw [ha] at h1; exact h1.error
    | ok as => exact ends_writeRom _ _ _ _ _ _ _
  | dumpMidi input =>
    simp only [Ext.run]
    cases (fs input).bind x.parseMidi with
    | none => exact ends_ok _
    | some calls =>
      rcases C90_outcomes x.ord calls with ⟨h, e⟩ | e | e
      · simp only [e]; exact ends_ok _
      · simp only [e]; exact ends_panicked
      · simp only [e]; exact ends_ok _
  | midi2json input output =>
    have h1 := ends_midiFile x fs input defaultTempoAdjust optimize
    simp only [Ext.run]
    cases hs : x.songFromMidiFile fs input defaultTempoAdjust optimize with
    | error e => rw [hs] at h1; exact h1.error
    | ok s => exact ends_ok _
  | genFakeRom input output addrs =>
    have h1 : Ends [.badNumber, .io] (readBankAddrs addrs) := ends_bankAddrs _ (by decide)
    simp only [Ext.run]
    cases ha : readBankAddrs addrs with
    | error e => rw [ha] at h1; exact h1.error
    | ok as =>
      simp only
      cases fs input with
      | none => exact ends_failed (by simp [Cmd.messages])
      | some rom =>
        rcases C45_total rom as with ⟨o, e⟩ | e
        · simp only [e, genFakeRomFile]; exact ends_ok _
        · simp only [e]; exact ends_panicked

/-- **C104**, without overflow checks: the same. -/
theorem C104_release (x : Ext) (fs : FS) (optimize : Bool) (cmd : Cmd) : Ends cmd.messages (Release.run x fs optimize cmd).1 := by
  cases cmd with
  | buildRom manifest rom addrs =>
    have h1 : Ends buildMessages (readBankAddrs addrs) := ends_bankAddrs _ (by decide)
    have h2 : Ends buildMessages (x.loadManifest fs manifest) := ends_manifest _ _ _ (by decide) (by decide)
    simp only [Release.run]
    cases ha : readBankAddrs addrs with
    | error e => rw [ha] at h1; exact h1.error
    | ok as =>
      simp only
      cases hm : x.loadManifest fs manifest with
      | error e => rw [hm] at h2; exact h2.error
      | ok m => exact ends_writeRom_release _ _ _ _ _ _
  | allOverworld input rom addrs =>
    have h1 : Ends buildMessages (readBankAddrs addrs) := ends_bankAddrs _ (by decide)
    simp only [Release.run]
    cases ha : readBankAddrs addrs with
    | error e => rw [ha] at h1; exact h1.error
    | ok as => exact ends_writeRom_release _ _ _ _ _ _
  | fileSelect input rom addrs =>
    have h1 : Ends buildMessages (readBankAddrs addrs) := ends_bankAddrs _ (by decide)
    simp only [Release.run]
    cases ha : readBankAddrs addrs with
    | error e => rw [ha] at h1; exact h1.error
    | ok as => exact ends_writeRom_release _ _ _ _ _ _
  | dumpMidi input =>
    simp only [Release.run]
    cases (fs input).bind x.parseMidi with
    | none => exact ends_ok _
    | some calls =>
      rcases C103_read_outcomes x.ord calls with ⟨h, e⟩ | e | e
      · simp only [e]; exact ends_ok _
      · simp only [e]; exact ends_panicked
      · simp only [e]; exact ends_ok _
  | midi2json input output =>
    have h1 := ends_midiFile_release x fs input defaultTempoAdjust optimize
    simp only [Release.run]
    cases hs : Release.songFromMidiFile x fs input defaultTempoAdjust optimize with
    | error e => rw [hs] at h1; exact h1.error
    | ok s => exact ends_ok _
  | genFakeRom input output addrs =>
    have h1 : Ends [.badNumber, .io] (readBankAddrs addrs) := ends_bankAddrs _ (by decide)
    simp only [Release.run]
    cases ha : readBankAddrs addrs with
    | error e => rw [ha] at h1; exact h1.error
    | ok as =>
      simp only
      cases fs input with
      | none => exact ends_failed (by simp [Cmd.messages])
      | some rom =>
        simp only
        cases hg : Release.genFakeRom rom as with
        | ok o => exact ends_ok _
        | error e => rw [panicOnly_fake_release rom as e hg]; exact ends_panicked

/-- **C104.** The message about a missing overflow chunk is never given: if a song chunk is found, whatever follows it is taken for the overflow chunk. -/
theorem C104_overflow (rom : Rom) (base : Nat) : findChunks rom base ≠ .error (.err .noOverflowChunk) := by
  intro h
  rcases ends_findChunks (l := [.noBaseChunk]) rom base (by decide) with ⟨w, e⟩ | e | ⟨x, hx, e⟩
  · rw [h] at e; cases e
  · rw [h] at e; cases e
  · rw [h] at e; cases e; revert hx; decide

/-- **C104**, `midi2json` without overflow checks: which of the endings it is. The file is missing; it is no MIDI file; format or layout are not supported or a tempo or an
instrument is out of range (panic); the notes do not fit on eight voices; otherwise the song is written. -/
theorem C104_midi2json (x : Ext) (fs : FS) (optimize : Bool) (input output : String) :
    (fs input = none → Release.run x fs optimize (.midi2json input output) = (.error (.err .io), fs)) ∧
    (∀ bytes, fs input = some bytes → x.parseMidi bytes = none → Release.run x fs optimize (.midi2json input output) = (.error (.err .conversion), fs)) ∧
    ∀ bytes calls, fs input = some bytes → x.parseMidi bytes = some calls →
      (Release.readMidi x.ord calls = .error (.err .couldntFit) → Release.run x fs optimize (.midi2json input output) = (.error (.err .couldntFit), fs)) ∧
      (Release.readMidi x.ord calls ≠ .error (.err .couldntFit) →
        ((Release.run x fs optimize (.midi2json input output)).1 = .ok () ↔
          (∀ f tb, Callback.header f tb ∈ calls → f = 1) ∧ (split calls).1 = [] ∧ ∀ y ∈ file calls, accepted y.1 = true) ∧
        ((Release.run x fs optimize (.midi2json input output)).1 = .error .panic ↔
          (∃ f tb, Callback.header f tb ∈ calls ∧ f ≠ 1) ∨ (split calls).1 ≠ [] ∨ ∃ y ∈ file calls, accepted y.1 = false)) := by
  refine ⟨fun h => ?_, fun bytes h1 h2 => ?_, fun bytes calls h1 h2 => ⟨fun h3 => ?_, fun h3 => ?_⟩⟩
  · simp only [Release.run, Release.songFromMidiFile, h]; rfl
  · simp only [Release.run, Release.songFromMidiFile, h1, h2]; rfl
  · simp only [Release.run, Release.songFromMidiFile, h1, h2, h3]; rfl
  · have hread := C103_read_panics_iff x.ord calls
    cases hr : Release.readMidi x.ord calls with
    | error e =>
      have hp : e = .panic := by
        rcases C103_read_outcomes x.ord calls with ⟨h, e'⟩ | e' | e'
        · rw [hr] at e'; cases e'
        · rw [hr] at e'; cases e'; rfl
        · exact absurd e' h3
      subst hp
      have hbad := hread.1 hr
      have hrun : (Release.run x fs optimize (.midi2json input output)).1 = .error .panic := by
        simp only [Release.run, Release.songFromMidiFile, h1, h2, hr]; rfl
      rw [hrun]
      refine ⟨⟨fun h => (by cases h), fun ⟨g1, g2, _⟩ => ?_⟩, ⟨fun _ => ?_, fun _ => rfl⟩⟩
      · rcases hbad with ⟨f, tb, hm, hf⟩ | hbad
        · exact absurd (g1 f tb hm) hf
        · exact absurd g2 hbad
      · rcases hbad with h | h
        · exact .inl h
        · exact .inr (.inl h)
    | ok m =>
      have hgood : ¬ ((∃ f tb, Callback.header f tb ∈ calls ∧ f ≠ 1) ∨ (split calls).1 ≠ []) := fun h => by
        have := hread.2 h
        rw [hr] at this
        cases this
      push Not at hgood
      obtain ⟨c1, c2⟩ := C103_conversion x.ord calls m hr defaultTempoAdjust optimize
      have hrun : (Release.run x fs optimize (.midi2json input output)).1 =
          (match Release.songFromMidi m defaultTempoAdjust optimize with | .ok _ => .ok () | .error e => .error e) := by
        simp only [Release.run, Release.songFromMidiFile, h1, h2, hr, bind, Except.bind]
        cases Release.songFromMidi m defaultTempoAdjust optimize <;> rfl
      rw [hrun]
      by_cases ha : ∀ y ∈ file calls, accepted y.1 = true
      · obtain ⟨s, hs⟩ := c1.2 ha
        rw [hs]
        refine ⟨⟨fun _ => ⟨hgood.1, hgood.2, ha⟩, fun _ => rfl⟩, ⟨fun h => (by cases h), ?_⟩⟩
        rintro (⟨f, tb, hm, hf⟩ | h | ⟨y, hy, hn⟩)
        · exact absurd (hgood.1 f tb hm) hf
        · exact absurd hgood.2 h
        · rw [ha y hy] at hn; cases hn
      · have ha' : ∃ y ∈ file calls, accepted y.1 = false := by
          push Not at ha
          obtain ⟨y, hy, hn⟩ := ha
          exact ⟨y, hy, by simpa using hn⟩
        rw [c2.2 ha']
        exact ⟨⟨fun h => (by cases h), fun h => absurd h.2.2 ha⟩, ⟨fun _ => .inr (.inr ha'), fun _ => rfl⟩⟩

/-- Surroundings in which a file is a MIDI file unless it is empty, and has nine notes at once if it starts with 9. -/
def endExt : Ext := { demoExt with
  parseMidi := fun b => match b with
    | [] => none
    | 9 :: _ => some ([.header 1 48, .trackChange] ++ (List.range 9).map (fun i => .midiEvent 0 (.noteOn 0 (UInt8.ofNat (50 + i)) 100)) ++
        (List.range 9).map (fun i => .midiEvent 9 (.noteOff 0 (UInt8.ofNat (50 + i)) 0)))
    | b => demoExt.parseMidi b }

def endFS : FS := fun p => if p = "empty.mid" then some [] else if p = "nine.mid" then some [9] else if p = "flat.sfc" then some (List.replicate 64 0) else demoFS p

/-- All messages occur. -/
example : (endExt.run endFS false false (.midi2json "none.mid" "out")).1 = .error (.err .io) ∧ (endExt.run endFS false false (.midi2json "empty.mid" "out")).1 = .error (.err .conversion) ∧
    (endExt.run endFS false false (.midi2json "nine.mid" "out")).1 = .error (.err .couldntFit) ∧ (endExt.run endFS false false (.midi2json "bad.mid" "out")).1 = .error .panic ∧
    (Release.run endExt endFS false (.midi2json "bad.mid" "out")).1 = .ok () ∧ (endExt.run endFS false false (.midi2json "good.mid" "out")).1 = .ok () ∧
    (endExt.run endFS false false (.dumpMidi "nine.mid")).1 = .ok () ∧ (endExt.run endFS false false (.dumpMidi "none.mid")).1 = .ok () ∧
    (endExt.run endFS false false (.fileSelect "good.mid" "flat.sfc" (some ["0", "c", "18"]))).1 = .error (.err .noBaseChunk) ∧
    (endExt.run endFS false false (.fileSelect "good.mid" "small.sfc" (some ["0", "c", "18"]))).1 = .error (.err .doesNotFit) ∧
    (endExt.run endFS false false (.genFakeRom "flat.sfc" "out" (some ["0", "c", "x"]))).1 = .error (.err .badNumber) ∧
    (endExt.run endFS false false (.genFakeRom "none.sfc" "out" (some ["0", "c", "18"]))).1 = .error (.err .io) := by
  refine ⟨?_, ?_, ?_, ?_, ?_, ?_, ?_, ?_, ?_, ?_, ?_, ?_⟩ <;> decide +kernel

end M2S
