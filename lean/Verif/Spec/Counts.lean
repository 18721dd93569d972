import Verif.Spec.Loops
/-
How often a sequence of commands occurs.
-/
namespace M2S

/-- Positions (track, command) in order, at which a sequence of `len` commands does not overlap itself. -/
def Disjoint (len : Nat) (ps : List (Nat × Nat)) : Prop := ps.Pairwise fun a b => a.1 < b.1 ∨ (a.1 = b.1 ∧ a.2 + len ≤ b.2)

/-- No sequence of four or more loopable commands occurs more than `n` times without overlapping. -/
def Sparse (tracks : List (List PCmd)) (n : Nat) : Prop :=
  ∀ w : List PCmd, 4 ≤ w.length → (∀ c ∈ w, c.callLoopEligible = true) → ∀ ps : List (Nat × Nat), (∀ p ∈ ps, Occurs tracks w p.1 p.2) →
    Disjoint w.length ps → ps.length ≤ n

end M2S
