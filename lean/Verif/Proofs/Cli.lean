import Verif.Spec.Cli
import Verif.Proofs.Res
import Mathlib.Data.List.Induction
/-
Helper lemmas on option parsing.
-/
namespace M2S
open CliSpec

theorem hexDigit_table : ∀ k : Fin 128, (match hexDigit (Char.ofNat k) with | some d => decide ((Char.ofNat k, d) ∈ digits) | none => true) = true := by
  decide

theorem hexDigit_small {c : Char} {d : Nat} (h : hexDigit c = some d) : c.toNat < 128 := by
  have e1 : '9'.toNat = 57 := rfl
  have e2 : 'f'.toNat = 102 := rfl
  have e3 : 'F'.toNat = 70 := rfl
  have hle : ∀ a b : Char, a ≤ b → a.toNat ≤ b.toNat := fun a b h => by
    rw [Char.le_def, UInt32.le_iff_toNat_le] at h; exact h
  unfold hexDigit at h
  split_ifs at h with h1 h2 h3
  · have := hle _ _ h1.2; omega
  · have := hle _ _ h2.2; omega
  · have := hle _ _ h3.2; omega

theorem hexDigit_iff (c : Char) (d : Nat) : hexDigit c = some d ↔ (c, d) ∈ digits := by
  constructor
  · intro h
    have := hexDigit_table ⟨c.toNat, hexDigit_small h⟩
    simp only [Char.ofNat_toNat, h, decide_eq_true_eq] at this
    exact this
  · intro h
    have : ∀ p ∈ digits, hexDigit p.1 = some p.2 := by decide
    exact this _ h

theorem hexDigit_lt {c : Char} {d : Nat} (h : hexDigit c = some d) : d < 16 := by
  have : ∀ p ∈ digits, p.2 < 16 := by decide
  exact this _ ((hexDigit_iff c d).mp h)

/-- The value of a digit string after `acc`, without the size check. -/
def hexVal : List Char → Nat → Option Nat
  | [], acc => some acc
  | c :: cs, acc =>
    match hexDigit c with
    | none => none
    | some d => hexVal cs (acc * 16 + d)

theorem hexVal_ge : ∀ {cs : List Char} {acc n : Nat}, hexVal cs acc = some n → acc ≤ n := by
  intro cs
  induction cs with
  | nil => intro acc n h; cases h; exact le_refl _
  | cons c cs ih =>
    intro acc n h
    rw [hexVal] at h
    cases hd : hexDigit c with
    | none => rw [hd] at h; cases h
    | some d =>
      rw [hd] at h
      have := ih h
      omega

theorem hexLoop_eq : ∀ (cs : List Char) {acc : Nat} (n : Nat), acc < 2 ^ 32 → (hexLoop cs acc = some n ↔ hexVal cs acc = some n ∧ n < 2 ^ 32) := by
  intro cs
  induction cs with
  | nil =>
    intro acc n h
    simp only [hexLoop, hexVal, Option.some.injEq]
    constructor
    · rintro rfl; exact ⟨rfl, h⟩
    · rintro ⟨rfl, -⟩; rfl
  | cons c cs ih =>
    intro acc n h
    rw [hexLoop, hexVal]
    cases hd : hexDigit c with
    | none => simp
    | some d =>
      simp only
      split_ifs with hlt
      · exact ih n hlt
      · constructor
        · intro h'; cases h'
        · rintro ⟨h', hn⟩
          have := hexVal_ge h'
          omega

theorem hexVal_append : ∀ (cs ds : List Char) (acc : Nat), hexVal (cs ++ ds) acc = (hexVal cs acc).bind fun n => hexVal ds n := by
  intro cs
  induction cs with
  | nil => intro ds acc; rfl
  | cons c cs ih =>
    intro ds acc
    rw [List.cons_append, hexVal, hexVal]
    cases hexDigit c with
    | none => rfl
    | some d => exact ih ds _

theorem numeral_iff (cs : List Char) (n : Nat) : Numeral cs n ↔ cs ≠ [] ∧ hexVal cs 0 = some n := by
  constructor
  · intro h
    induction h with
    | one h =>
      refine ⟨by simp, ?_⟩
      rw [hexVal, (hexDigit_iff _ _).mpr h]
      simp [hexVal]
    | more _ h ih =>
      refine ⟨by simp, ?_⟩
      rw [hexVal_append, ih.2]
      simp only [Option.bind_some, hexVal, (hexDigit_iff _ _).mpr h]
      congr 1
      omega
  · rintro ⟨h0, h⟩
    induction cs using List.reverseRecOn generalizing n with
    | nil => exact absurd rfl h0
    | append_singleton cs c ih =>
      rw [hexVal_append] at h
      cases hv : hexVal cs 0 with
      | none => rw [hv] at h; cases h
      | some m =>
        rw [hv] at h
        simp only [Option.bind_some, hexVal] at h
        cases hd : hexDigit c with
        | none => rw [hd] at h; cases h
        | some d =>
          rw [hd] at h
          simp only [Option.some.injEq] at h
          subst h
          have hm := (hexDigit_iff c d).mp hd
          by_cases hc : cs = []
          · subst hc
            simp only [hexVal, Option.some.injEq] at hv
            subst hv
            simpa using Numeral.one hm
          · rw [Nat.mul_comm]
            exact .more (ih m hc hv) hm

theorem parseHex_iff (s : String) (n : Nat) : parseHexU32 s = some n ↔ Address s n := by
  have hplus : hexDigit '+' = none := by decide
  unfold parseHexU32 Address
  rw [numeral_iff]
  have hmain : ∀ cs : List Char, (if cs.isEmpty = true then none else hexLoop cs 0) = some n ↔ n < 2 ^ 32 ∧ cs ≠ [] ∧ hexVal cs 0 = some n := by
    intro cs
    split_ifs with h
    · simp only [List.isEmpty_iff] at h
      subst h
      simp
    · rw [hexLoop_eq cs n (by decide)]
      simp only [List.isEmpty_iff] at h
      tauto
  split
  · rename_i cs hcs
    rw [hmain cs, hcs]
    constructor
    · rintro ⟨h1, h2⟩
      exact ⟨h1, .inr ⟨cs, rfl, (numeral_iff _ _).mpr h2⟩⟩
    · rintro ⟨h1, ⟨-, h2⟩ | ⟨ds, h2, h3⟩⟩
      · rw [hexVal, hplus] at h2; cases h2
      · cases h2
        exact ⟨h1, (numeral_iff _ _).mp h3⟩
  · rename_i cs hcs
    rw [hmain]
    constructor
    · rintro ⟨h1, h2⟩
      exact ⟨h1, .inl h2⟩
    · rintro ⟨h1, h2 | ⟨ds, h2, -⟩⟩
      · exact ⟨h1, h2⟩
      · exact absurd h2 (hcs ds)

end M2S
