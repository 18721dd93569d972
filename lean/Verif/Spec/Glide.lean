import Verif.Spec.Portamento
/-
Portamento: which notes of a voice are glided to, and when the pitch moves.
-/
namespace M2S.Timing
open Nspc

/-- A pitch slide (command F9) as the engine does it: it belongs to the item before, which lasts `piece` units; the pitch begins to move `delay` units after the beginning of that item and has arrived after `time` units
more. -/
structure Glide where
  piece : Nat
  delay : Nat
  time : Nat
deriving DecidableEq, Repr

/-- The notes heard in a channel: start, pitch, and for a note that is not struck but continues the last one, the slide to it. Arguments: the time, the length of the last item, and the slide directly before with its
target. -/
def slurs : Nat → Nat → Option (UInt8 × Glide) → List Ev → List (Nat × UInt8 × Option Glide)
  | _, _, _, [] => []
  | t, _, _, .note n d _ _ :: l => (t, n, none) :: slurs (t + d.toNat) d.toNat none l
  | t, _, _, .perc n d _ _ :: l => (t, n, none) :: slurs (t + d.toNat) d.toNat none l
  | t, _, some (p, g), .tie d :: l => (t, p, some g) :: slurs (t + d.toNat) d.toNat none l
  | t, _, none, .tie d :: l => slurs (t + d.toNat) d.toNat none l
  | t, _, _, .rest d :: l => slurs (t + d.toNat) d.toNat none l
  | t, last, _, .cmd op args :: l => slurs t last (match op, args with
    | 0xf9, [delay, time, p] => some (p, ⟨last, delay.toNat, time.toNat⟩)
    | _, _ => none) l

/-- What portamento needs to know about a note: when the note before ended, in ticks, and the portamento time. -/
structure Lead where
  off : Nat
  ticks : Nat
deriving DecidableEq, Repr

/-- Following a voice: is portamento on, its time (controllers 5 and 37), the end of the last note, and the open note with its start, velocity and lead. -/
structure Port where
  on : Bool := false
  ticks : Nat := 0
  last : Option Nat := none
  held : Option (Nat × UInt8 × Option Lead) := none
deriving DecidableEq, Repr

/-- A message that becomes a command (tempo, volume, program): it separates the notes before and after it, and if a note is open it will be struck. -/
def Port.cut (s : Port) : Port := { s with last := none, held := s.held.map fun o => (o.1, o.2.1, none) }

/-- The notes of a voice; for notes that begin with portamento on, with nothing but notes and controllers other than volume from the end of the last note to their own end, the lead. -/
def leads : Port → List (Message × Nat) → List (MidiNote × Option Lead)
  | _, [] => []
  | s, (m, t) :: evs =>
    match m with
    | .midiEvent _ (.noteOn _ _ v) =>
      match s.held with
      | some _ => leads s evs
      | none => leads { s with last := none, held := some (t, v, if s.on then s.last.map (⟨·, s.ticks⟩) else none) } evs
    | .midiEvent _ (.noteOff _ n _) =>
      match s.held with
      | some (on, v, l) => (⟨on, t, n, v⟩, l) :: leads { s with last := some t, held := none } evs
      | none => leads s evs
    | .midiEvent _ (.controlChange _ c d) =>
      if c = 5 then leads { s with ticks := d.toNat * 256 + s.ticks % 256 } evs
      else if c = 37 then leads { s with ticks := s.ticks / 256 * 256 + d.toNat } evs
      else if c = 65 then leads { s with on := 64 ≤ d } evs
      else if c = 7 then leads s.cut evs
      else leads s evs
    | .midiEvent _ (.programChange _ _) => leads s.cut evs
    | .metaEvent _ .setTempo _ => leads s.cut evs
    | _ => leads s evs

/-- No whole unit of silence between two notes, the first of which ends at `off` and the second of which starts at `on`. -/
def Legato (tpb off on : Nat) : Prop := 24 * on / tpb ≤ (24 * off + tpb - 1) / tpb

instance (tpb off on : Nat) : Decidable (Legato tpb off on) := inferInstanceAs (Decidable (_ ≤ _))

/-- The length of a slide in units: the portamento time, rounded up, of which only the remainder (1 to 127) is taken if it is more than 127. -/
def slideUnits (tpb ticks : Nat) : Nat :=
  let q := (24 * ticks + tpb - 1) / tpb
  if q ≤ 127 then q else (q - 1) % 127 + 1

/-- How a note is begun, against its lead: there is a slide exactly if it has a lead and follows the last note without a whole unit of silence; the slide takes the portamento time and ends with the item it belongs to, that is
when the note begins, or takes longer than the item and begins with it. -/
structure Led (tpb : Nat) (g : Option Glide) (n : MidiNote × Option Lead) : Prop where
  slurred : g.isSome = true ↔ ∃ l, n.2 = some l ∧ Legato tpb l.off n.1.on
  slide : ∀ x l, g = some x → n.2 = some l → x.time = slideUnits tpb l.ticks ∧ x.delay + min x.time x.piece = x.piece

end M2S.Timing
