import Verif.Spec.Loops
import Mathlib.Data.List.Forall2
/-
What an optimised track can stand for.
-/
namespace M2S

/-- The first track is what the second one, a track of the optimised tracks `out`, can stand for: commands other than calls stand for themselves, calls with a count of one or two for
that many copies of the called track, and calls with a higher count for as many copies, except that the third copy can be any commands whatever. -/
inductive Played (out : List (List PCmd)) : List PCmd → List PCmd → Prop
  | done : Played out [] []
  | keep {a b : List PCmd} (c : PCmd) (hc : c.isCall = false) (h : Played out a b) : Played out (c :: a) (c :: b)
  | call {a b : List PCmd} (c : PCmd) (t : Nat) (n : UInt8) (hc : c.command = .callLoop t n) (hn : n.toNat ≤ 2) (h : Played out a b) :
      Played out (copies n.toNat (out.getD t []) ++ a) (c :: b)
  | third {a b : List PCmd} (c : PCmd) (t : Nat) (n : UInt8) (x : List PCmd) (hc : c.command = .callLoop t n) (hn : 3 ≤ n.toNat) (h : Played out a b) :
      Played out (copies 2 (out.getD t []) ++ x ++ copies (n.toNat - 3) (out.getD t []) ++ a) (c :: b)

/-- One round of loop extraction: in a track the sequence `s`, or what is taken for copies of it, is replaced by calls of the new subroutine `k`. What is taken for a third copy can be any
commands, as many as a copy has, or fewer at the end of the track. -/
inductive Extracted (s : List PCmd) (k : Nat) : List PCmd → List PCmd → Prop
  | done : Extracted s k [] []
  | keep {a b : List PCmd} (c : PCmd) (h : Extracted s k a b) : Extracted s k (c :: a) (c :: b)
  | call {a b : List PCmd} (n : UInt8) (hn : n = 1 ∨ n = 2) (h : Extracted s k a b) : Extracted s k (copies n.toNat s ++ a) (⟨some 0, some 0, some 0, .callLoop k n⟩ :: b)
  | third {a b : List PCmd} (x : List PCmd) (hx : x.length = s.length ∨ (x.length < s.length ∧ a = [])) (h : Extracted s k a b) :
      Extracted s k (copies 2 s ++ x ++ a) (⟨some 0, some 0, some 0, .callLoop k 3⟩ :: b)
  | fourth {a b : List PCmd} (x : List PCmd) (hx : x.length = s.length) (h : Extracted s k a b) :
      Extracted s k (copies 2 s ++ x ++ s ++ a) (⟨some 0, some 0, some 0, .callLoop k 4⟩ :: b)

/-- Any number of rounds on the first `top` tracks. Each takes a sequence of four or more commands without calls and appends it as a new subroutine. -/
inductive Rounds (top : Nat) : List (List PCmd) → List (List PCmd) → Prop
  | done (tracks : List (List PCmd)) : Rounds top tracks tracks
  | round {tracks out : List (List PCmd)} (s : List PCmd) (new : List (List PCmd)) (hs : 4 ≤ s.length) (hc : ∀ c ∈ s, c.isCall = false)
      (hn : List.Forall₂ (Extracted s tracks.length) (tracks.take top) new) (h : Rounds top (new ++ tracks.drop top ++ [s]) out) : Rounds top tracks out

end M2S
