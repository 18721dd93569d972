import Verif.Spec.Changes
import Verif.Proofs.Strike
/-
Helper for C110.
-/
namespace M2S

open Timing

/-- What a program change adds to a voice. -/
theorem trackProgram_adds {tpb : Nat} {st st' : TrackState} {ch : Fin 16} {p : UInt8} {t : Nat} (h : trackProgram tpb st ch p t = .ok st') :
    ∃ rests, (∀ c ∈ rests, c.command = .rest) ∧ st'.commands = st.commands ++ rests ++ [⟨none, none, none, .setInstrument (instrumentFor ch p)⟩] := by
  unfold trackProgram at h
  rw [res_bind] at h
  obtain ⟨⟨cs, e⟩, h1, h⟩ := h
  obtain ⟨rs, rfl, hr⟩ := insertRest_rests _ _ _ _ _ _ h1
  have hi : st'.commands = st.commands ++ rs ++ [plainCmd (.setInstrument (instrumentFor ch p))] := by
    unfold instrumentFor
    by_cases hc : ch = 9
    · simp only [hc, if_true, pure_bind, res_pure] at h ⊢
      rw [← h]
    · simp only [hc, if_false] at h ⊢
      rw [List.getD_eq_getElem?_getD]
      cases hi : Instr.instrumentMap[p.toNat]? with
      | none => rw [hi] at h; cases h
      | some x =>
        rw [hi] at h
        simp only [pure_bind, res_pure] at h
        rw [← h]
        rfl
  exact ⟨rs, hr, hi⟩

end M2S
