import Verif.Spec.GeneralMidi
import Verif.Proofs.GeneralMidi
/-
C110: the table of instruments.
-/
namespace M2S

open MidiSpec Timing

/-- **C110.** The instrument of a program (C65, C67, C68) that has a namesake in the game is this namesake … -/
theorem C110_namesakes (ch : Fin 16) (hch : ch ≠ 9) (x : String × UInt8 × String) (hx : x ∈ namesakes) : (x.2.2, instrumentFor ch x.2.1) ∈ gameSounds := by
  unfold instrumentFor
  rw [if_neg hch]
  revert x
  decide +kernel

/-- … all programs of these families have the same instrument … -/
theorem C110_families (ch : Fin 16) (hch : ch ≠ 9) (x : UInt8 × UInt8 × String) (hx : x ∈ families) (p : UInt8) (h1 : x.1 ≤ p) (h2 : p ≤ x.2.1) : (x.2.2, instrumentFor ch p) ∈ gameSounds := by
  unfold instrumentFor
  rw [if_neg hch]
  have key : ∀ x ∈ families, ∀ n : Fin 128, x.1.toNat ≤ n.val → n.val ≤ x.2.1.toNat → (x.2.2, Instr.instrumentMap.getD n.val 0) ∈ gameSounds := by decide +kernel
  have hle : ∀ x ∈ families, x.2.1.toNat < 128 := by decide +kernel
  have := UInt8.le_iff_toNat_le.1 h2
  exact key x hx ⟨p.toNat, by have := hle x hx; omega⟩ (UInt8.le_iff_toNat_le.1 h1) this

/-- … and every program has an instrument of the game. -/
theorem C110_all (ch : Fin 16) (hch : ch ≠ 9) (p : UInt8) (hp : p < 128) : ∃ name, (name, instrumentFor ch p) ∈ gameSounds := by
  unfold instrumentFor
  rw [if_neg hch]
  have key : ∀ n : Fin 128, (gameSounds.any fun s => s.2 = Instr.instrumentMap.getD n.val 0) = true := by decide +kernel
  have h := key ⟨p.toNat, by simpa [UInt8.lt_iff_toNat_lt] using hp⟩
  obtain ⟨s, hs, e⟩ := List.any_eq_true.1 h
  refine ⟨s.1, ?_⟩
  rw [← of_decide_eq_true e]
  exact hs

/-- **C110.** A program change adds, after a rest if there is room for one, the command that selects this instrument. -/
theorem C110_selects (tpb : Nat) (f : F32) (st st' : TrackState) (d : Nat) (ch : Fin 16) (hch : ch ≠ 9) (p : UInt8) (hp : p < 128) (t : Nat)
    (h : trackStep tpb f st (.midiEvent d (.programChange ch p), t) = .ok st') :
    ∃ rests name i, (∀ c ∈ rests, c.command = .rest) ∧ (name, i) ∈ gameSounds ∧ (∀ x ∈ namesakes, x.2.1 = p → x.2.2 = name) ∧
      (∀ x ∈ families, x.1 ≤ p → p ≤ x.2.1 → x.2.2 = name) ∧ st'.commands = st.commands ++ rests ++ [⟨none, none, none, .setInstrument i⟩] := by
  obtain ⟨rests, h1, h2⟩ := trackProgram_adds (by simpa only [trackStep] using h)
  obtain ⟨name, hn⟩ := C110_all ch hch p hp
  refine ⟨rests, name, _, h1, hn, fun x hx e => ?_, fun x hx e1 e2 => ?_, h2⟩
  · have := C110_namesakes ch hch x hx
    rw [e] at this
    have uniq : ∀ a ∈ gameSounds, ∀ b ∈ gameSounds, a.2 = b.2 → a.1 = b.1 := by decide +kernel
    exact uniq _ this _ hn rfl
  · have := C110_families ch hch x hx p e1 e2
    have uniq : ∀ a ∈ gameSounds, ∀ b ∈ gameSounds, a.2 = b.2 → a.1 = b.1 := by decide +kernel
    exact uniq _ this _ hn rfl

/-- A program change of a trombone. -/
example : (trackStep 48 (.ofRat (1 / 5)) {} (.midiEvent 0 (.programChange 3 57), 0)).map (fun st => st.commands) = .ok [⟨none, none, none, .setInstrument 11⟩] := by decide +kernel

end M2S
