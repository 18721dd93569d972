import Verif.Command
import Verif.SeqTree
/-
What CallLoops mean, independently of how the optimiser finds and writes them.
-/
namespace M2S

/-- `n` copies of a list of commands. -/
def copies (n : Nat) (body : List PCmd) : List PCmd := (List.replicate n body).flatten

/-- A command with the calls of subroutine `k` replaced by that many copies of `body`. -/
def unrollCmd (k : Nat) (body : List PCmd) (c : PCmd) : List PCmd :=
  match c.command with
  | .callLoop t n => if t = k then copies n.toNat body else [c]
  | _ => [c]

/-- A track with the calls of subroutine `k` replaced by copies of `body`. -/
def unroll (k : Nat) (body track : List PCmd) : List PCmd := track.flatMap (unrollCmd k body)

/-- A command with a call replaced by that many copies of the track it names. -/
def expandCmd (tracks : List (List PCmd)) (c : PCmd) : List PCmd :=
  match c.command with
  | .callLoop t n => copies n.toNat (tracks.getD t [])
  | _ => [c]

/-- A track with all its calls replaced by copies of the tracks they name. -/
def expand (tracks : List (List PCmd)) (track : List PCmd) : List PCmd := track.flatMap (expandCmd tracks)

/-- The command is a CallLoop. -/
def PCmd.isCall (c : PCmd) : Bool :=
  match c.command with
  | .callLoop _ _ => true
  | _ => false

/-- The sequence occurs in track `t` from command `i` on. -/
def Occurs (tracks : List (List PCmd)) (path : List PCmd) (t i : Nat) : Prop := ∃ tr, tracks[t]? = some tr ∧ path <+: tr.drop i

/-- The locations of a sequence of length `len` come in order and do not overlap. -/
def Apart (len : Nat) (ls : List Location) : Prop :=
  ls.Pairwise fun a b => a.trackIdx < b.trackIdx ∨ (a.trackIdx = b.trackIdx ∧ a.cmdIdx + len * a.repeatCount.toNat ≤ b.cmdIdx)

end M2S
