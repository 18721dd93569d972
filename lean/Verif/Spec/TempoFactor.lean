import Verif.Song
/-
What the tempo factor may change in a song.
-/
namespace M2S.Nspc

/-- The microseconds per beat of a set-tempo message. -/
def beatOf : Message → Option Nat
  | .metaEvent _ .setTempo (a :: b :: c :: _) => some (a.toNat * 65536 + b.toNat * 256 + c.toNat)
  | _ => none

/-- The beats a file sets: those of the set-tempo messages on its voices. -/
def beats (h : MidiHandler) : List Nat := (List.finRange 8).flatMap fun v => (h.voices v).filterMap fun m => beatOf m.1

/-- `c'` is `c` with the tempo factor `g` in place of `f`: the same command, or the tempo command for the same beat from `us`. -/
def Retimed (us : List Nat) (f g : F32) (c c' : PCmd) : Prop :=
  (c = c' ∧ ∀ p, c.command ≠ .tempo p) ∨
  ∃ u ∈ us, c = ⟨none, none, none, .tempo (tempoByte u f)⟩ ∧ c' = ⟨none, none, none, .tempo (tempoByte u g)⟩

/-- The commands with other tempos. -/
def retempo (ρ : UInt8 → UInt8) (c : PCmd) : PCmd :=
  match c.command with
  | .tempo p => { c with command := .tempo (ρ p) }
  | _ => c

/-- The song with other tempos. -/
def retempoSong (ρ : UInt8 → UInt8) (s : Song) : Song := ⟨s.parts, s.tracks.map (List.map (retempo ρ))⟩

end M2S.Nspc
