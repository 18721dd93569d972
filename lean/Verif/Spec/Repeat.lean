import Verif.Spec.Engine
import Verif.Spec.Lengths
import Verif.Spec.Clock
/-
The sound engine playing on: one part after the other, as the part list of a song says, written from the engine's documentation. Channels keep their registers from part to part.
-/
namespace M2S.Engine
open Nspc RomSpec

/-- As `run`, with the registers at the end. -/
def runOn (m : Mem) : Nat → Chan → Option (List Ev × Regs)
  | 0, _ => none
  | n + 1, c =>
    match step m c with
    | none => none
    | some (evs, none) => some (evs, c.regs)
    | some (evs, some c') => (runOn m n c').map fun x => (evs ++ x.1, x.2)

/-- Playing one channel of a part from the registers it has; a silent channel keeps them. -/
def channelOn (m : Mem) (fuel : Nat) : Option Nat × Regs → Option (Option (List Ev) × Regs)
  | (none, regs) => some (none, regs)
  | (some p, regs) => (runOn m fuel ⟨p, regs, none⟩).map fun x => (some x.1, x.2)

/-- Playing so many entries of a part list, beginning with the one at address `a`: what is heard in the eight channels in each part. `regs` are the registers of the channels. Jumps that are
taken a number of times only (counts below 80) are left out. -/
def playOn (m : Mem) (fuel : Nat) : Nat → Nat → List Regs → Option (List (List (Option (List Ev))))
  | 0, _, _ => some []
  | n + 1, a, regs =>
    match phraseAt m a with
    | none => none
    | some .stop => some []
    | some (.goto count dest) => if 0x80 ≤ count then playOn m fuel n dest regs else none
    | some (.part p) =>
      match channels m p with
      | none => none
      | some cs =>
        match (cs.zip regs).mapM (channelOn m fuel) with
        | none => none
        | some l => (playOn m fuel n (a + 2) (l.map Prod.snd)).map (l.map Prod.fst :: ·)

/-- What is heard in a channel in all parts. A part is over for all channels when it is over for one; the parts here are such that it is over for all at once. -/
def channelOver (parts : List (List (Option (List Ev)))) (i : Nat) : Option (List Ev) :=
  if parts.any (fun p => (p[i]?.join).isSome) then some (parts.flatMap fun p => (p[i]?.join).getD []) else none

/-- What is heard in the eight channels in all parts. -/
def playedOver (parts : List (List (Option (List Ev)))) : List (Option (List Ev)) := (List.range 8).map (channelOver parts)

end M2S.Engine

namespace M2S.MidiSpec
open Timing Nspc

/-- The same note, later. -/
def Tone.later (x : Tone) (d : Nat) : Tone := { x with sound := { x.sound with time := x.sound.time + d }, last := x.last + d, stop := x.stop + d }

/-- What is heard if each pass lasts `u` units. -/
def laterPasses (u : Nat) : Nat → List (List Tone) → List Tone
  | _, [] => []
  | k, h :: hs => h.map (·.later (k * u)) ++ laterPasses u (k + 1) hs

/-- Is the message an event of a channel? -/
def isEvent : Message → Bool
  | .midiEvent _ _ => true
  | _ => false

/-- The time of the last channel event of a file, in ticks. -/
def lastTime (l : List (Message × Nat)) : Nat := ((l.filter fun m => isEvent m.1).map (·.2)).foldr max 0

end M2S.MidiSpec
