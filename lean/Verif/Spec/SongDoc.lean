import Verif.Json
/-
Which JSON values stand for which song.
-/
namespace M2S.JsonSpec

/-- The field occurs exactly once. -/
def Once (fs : List (String × Json)) (key : String) (v : Json) : Prop := ∃ a b, fs = a ++ (key, v) :: b ∧ ∀ f ∈ a ++ b, f.1 ≠ key

/-- A number of 64 bits. -/
def IndexDoc (j : Json) (n : Nat) : Prop := j = .int n ∧ n < 2 ^ 64

/-- A byte or nothing. -/
def ByteDoc (j : Json) (o : Option UInt8) : Prop := (j = .null ∧ o = none) ∨ ∃ b : UInt8, j = .int b.toNat ∧ o = some b

/-- A field with a byte or nothing; it may also be missing. -/
def ByteField (fs : List (String × Json)) (key : String) (o : Option UInt8) : Prop := (∃ v, Once fs key v ∧ ByteDoc v o) ∨ ((∀ f ∈ fs, f.1 ≠ key) ∧ o = none)

/-- A command: what `write_to_json` writes for it, or the name of a command without operands in the form `{"Name": null}`. -/
def CommandDoc (j : Json) (c : Command) : Prop :=
  (∀ t k, c = .callLoop t k → t < 2 ^ 64) ∧ (j = c.toJson ∨ ∃ name, c.toJson = .str name ∧ j = .obj [(name, .null)])

/-- A command with its parameters. -/
inductive PCmdDoc : Json → PCmd → Prop
  | obj {fs : List (String × Json)} {d v s : Option UInt8} {c : Command} {j : Json} (hd : ByteField fs "duration" d) (hv : ByteField fs "velocity" v) (hs : ByteField fs "sustain" s)
      (hj : Once fs "command" j) (hc : CommandDoc j c) : PCmdDoc (.obj fs) ⟨d, v, s, c⟩
  | arr {jd jv js j : Json} {d v s : Option UInt8} {c : Command} (hd : ByteDoc jd d) (hv : ByteDoc jv v) (hs : ByteDoc js s) (hc : CommandDoc j c) :
      PCmdDoc (.arr [jd, jv, js, j]) ⟨d, v, s, c⟩

/-- A structure with a list as its only field. -/
def ListDoc {α : Type} (key : String) (P : Json → α → Prop) (j : Json) (l : List α) : Prop :=
  ∃ js, List.Forall₂ P js l ∧ ((∃ fs, j = .obj fs ∧ Once fs key (.arr js)) ∨ j = .arr [.arr js])

/-- A song. -/
def SongDoc (j : Json) (s : Song) : Prop :=
  ∃ ps ts, List.Forall₂ (ListDoc "tracks" IndexDoc) ps s.parts ∧ List.Forall₂ (ListDoc "commands" PCmdDoc) ts s.tracks ∧
    ((∃ fs, j = .obj fs ∧ Once fs "parts" (.arr ps) ∧ Once fs "tracks" (.arr ts)) ∨ j = .arr [.arr ps, .arr ts])

end M2S.JsonSpec
