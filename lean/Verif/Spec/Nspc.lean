import Verif.Command
/-
The N-SPC track format as the sound engine reads it, written from the engine's documentation and
independently of the writers in `Verif/Command.lean` and `Verif/Track.lean`.
-/
namespace M2S.Nspc

/-- One item of a track. `dur` is a duration byte with its optional velocity/sustain byte, `cmd` a command byte with its operands. -/
inductive Tok
  | dur (d : UInt8) (vs : Option UInt8)
  | note (n : UInt8)
  | tie
  | rest
  | perc (n : UInt8)
  | cmd (op : UInt8) (args : List UInt8)
deriving DecidableEq, Repr

/-- Operand counts of the commands E0..FA, in order. -/
def operandTable : List Nat :=
  [1, 1, 2, 3, 0, 1, 2, 1, 2, 1, 1, 3, 0, 1, 2, 3, 1, 3, 3, 0, 1, 3, 0, 3, 3, 3, 1]

/-- Number of operands of a command byte. -/
def operands (op : UInt8) : Option Nat := operandTable[op.toNat - 0xe0]?

/-- Read one item. `none`: the bytes are exhausted or not an item (00 is not an item but the end mark). -/
def nextTok : List UInt8 → Option (Tok × List UInt8)
  | [] => none
  | b :: rest =>
    if b = 0 then none
    else if b < 0x80 then
      match rest with
      | [] => none
      | v :: rest' => if v < 0x80 then some (.dur b (some v), rest') else some (.dur b none, rest)
    else if b < 0xc8 then some (.note b, rest)
    else if b = 0xc8 then some (.tie, rest)
    else if b = 0xc9 then some (.rest, rest)
    else if b < 0xe0 then some (.perc b, rest)
    else
      match operands b with
      | none => none
      | some n => if n ≤ rest.length then some (.cmd b (rest.take n), rest.drop n) else none

/-- Read items up to the end mark; the result is the items and the bytes after the mark. -/
def parseFuel : Nat → List UInt8 → Option (List Tok × List UInt8)
  | 0, _ => none
  | _ + 1, [] => none
  | fuel + 1, b :: bs =>
    if b = 0 then some ([], bs)
    else
      match nextTok (b :: bs) with
      | none => none
      | some (t, rest) =>
        match parseFuel fuel rest with
        | none => none
        | some (ts, r) => some (t :: ts, r)

/-- Read a track (every item takes at least one byte). -/
def parse (bs : List UInt8) : Option (List Tok × List UInt8) := parseFuel bs.length bs

/-- The command an item denotes; duration items denote none. `target lo hi` is the track an address refers to. -/
def Tok.command (target : UInt8 → UInt8 → Nat) : Tok → Option Command
  | .dur _ _ => none
  | .note n => some (.note n)
  | .tie => some .tie
  | .rest => some .rest
  | .perc _ => none
  | .cmd op args =>
    match op.toNat, args with
    | 0xe0, [a] => some (.setInstrument a)
    | 0xe1, [a] => some (.pan a)
    | 0xe2, [a, b] => some (.panFade a b)
    | 0xe3, [a, b, c] => some (.vibrato a b c)
    | 0xe4, [] => some .vibratoOff
    | 0xe5, [a] => some (.masterVolume a)
    | 0xe6, [a, b] => some (.masterVolumeFade a b)
    | 0xe7, [a] => some (.tempo a)
    | 0xe8, [a, b] => some (.tempoFade a b)
    | 0xe9, [a] => some (.globalTranspose a)
    | 0xea, [a] => some (.channelTranspose a)
    | 0xeb, [a, b, c] => some (.tremolo a b c)
    | 0xec, [] => some .tremoloOff
    | 0xed, [a] => some (.channelVolume a)
    | 0xef, [lo, hi, k] => some (.callLoop (target lo hi) k)
    | 0xf0, [a] => some (.vibratoFade a)
    | 0xf1, [a, b, c] => some (.pitchEnvelopeTo a b c)
    | 0xf2, [a, b, c] => some (.pitchEnvelopeFrom a b c)
    | 0xf3, [] => some .pitchEnvelopeOff
    | 0xf4, [a] => some (.tuning a)
    | 0xf5, [a, b, c] => some (.echoVolume a b c)
    | 0xf6, [] => some .echoOff
    | 0xf7, [a, b, c] => some (.echoParams a b c)
    | 0xf8, [a, b, c] => some (.echoVolumeFade a b c)
    | 0xf9, [a, b, c] => some (.pitchSlide a b c)
    | 0xfa, [a] => some (.percussionPatchBase a)
    | _, _ => none

/-- The commands of a track, in order. -/
def commands (target : UInt8 → UInt8 → Nat) (ts : List Tok) : List Command := ts.filterMap (Tok.command target)

/-- Registers of a channel of the engine. -/
structure Regs where
  dur : UInt8
  vel : UInt8
  sus : UInt8
deriving DecidableEq, Repr

/-- What is heard: notes with pitch, duration, velocity and sustain; ties and rests with their duration; everything else
as the command. -/
inductive Ev
  | note (n dur vel sus : UInt8)
  | tie (dur : UInt8)
  | rest (dur : UInt8)
  | perc (n dur vel sus : UInt8)
  | cmd (op : UInt8) (args : List UInt8)
deriving DecidableEq, Repr

/-- Effect of one item on the registers: duration items set them; a CallLoop (EF) may do anything to them, as described by
`call lo hi count`. -/
def Tok.regs (call : UInt8 → UInt8 → UInt8 → Regs → Regs) (t : Tok) (r : Regs) : Regs :=
  match t with
  | .dur d none => { r with dur := d }
  | .dur d (some vs) => { dur := d, vel := vs &&& 0x0f, sus := (vs >>> 4) &&& 0x07 }
  | .cmd op [lo, hi, k] => if op = 0xef then call lo hi k r else r
  | _ => r

/-- What one item makes audible. -/
def Tok.ev (t : Tok) (r : Regs) : List Ev :=
  match t with
  | .dur _ _ => []
  | .note n => [.note n r.dur r.vel r.sus]
  | .tie => [.tie r.dur]
  | .rest => [.rest r.dur]
  | .perc n => [.perc n r.dur r.vel r.sus]
  | .cmd op args => [.cmd op args]

/-- Playing a track from given registers. The events of called subroutines are not included. -/
def play (call : UInt8 → UInt8 → UInt8 → Regs → Regs) : List Tok → Regs → List Ev
  | [], _ => []
  | t :: ts, r => t.ev r ++ play call ts (t.regs call r)

/-- The registers after playing. -/
def finalRegs (call : UInt8 → UInt8 → UInt8 → Regs → Regs) : List Tok → Regs → Regs
  | [], r => r
  | t :: ts, r => finalRegs call ts (t.regs call r)

/-! What a command list asks for. -/

/-- A parameter is asked for if it is present and not zero. -/
def asked : Option UInt8 → Option UInt8
  | some v => if v = 0 then none else some v
  | none => none

/-- Opcode and operands of a command that is not a note, tie or rest. The address operand of a CallLoop is `addr target` (low
byte, high byte). -/
def encodeCmd (addr : Nat → UInt8 × UInt8) : Command → UInt8 × List UInt8
  | .setInstrument a => (0xe0, [a])
  | .pan a => (0xe1, [a])
  | .panFade a b => (0xe2, [a, b])
  | .vibrato a b c => (0xe3, [a, b, c])
  | .vibratoOff => (0xe4, [])
  | .masterVolume a => (0xe5, [a])
  | .masterVolumeFade a b => (0xe6, [a, b])
  | .tempo a => (0xe7, [a])
  | .tempoFade a b => (0xe8, [a, b])
  | .globalTranspose a => (0xe9, [a])
  | .channelTranspose a => (0xea, [a])
  | .tremolo a b c => (0xeb, [a, b, c])
  | .tremoloOff => (0xec, [])
  | .channelVolume a => (0xed, [a])
  | .channelVolumeFade a => (0xee, [a])
  | .callLoop t k => (0xef, [(addr t).1, (addr t).2, k])
  | .vibratoFade a => (0xf0, [a])
  | .pitchEnvelopeTo a b c => (0xf1, [a, b, c])
  | .pitchEnvelopeFrom a b c => (0xf2, [a, b, c])
  | .pitchEnvelopeOff => (0xf3, [])
  | .tuning a => (0xf4, [a])
  | .echoVolume a b c => (0xf5, [a, b, c])
  | .echoOff => (0xf6, [])
  | .echoParams a b c => (0xf7, [a, b, c])
  | .echoVolumeFade a b c => (0xf8, [a, b, c])
  | .pitchSlide a b c => (0xf9, [a, b, c])
  | .percussionPatchBase a => (0xfa, [a])
  | .note n => (n, [])
  | .tie => (0xc8, [])
  | .rest => (0xc9, [])

/-- What a command list is meant to sound like, given the duration, velocity and sustain asked for last. -/
def intended (addr : Nat → UInt8 × UInt8) : List PCmd → (dur vel sus : UInt8) → List Ev
  | [], _, _, _ => []
  | c :: cs, dur, vel, sus =>
    let dur := (asked c.duration).getD dur
    let vel := (asked c.velocity).getD vel
    let sus := (asked c.sustain).getD sus
    let ev := match c.command with
      | .note n => Ev.note n dur vel sus
      | .tie => .tie dur
      | .rest => .rest dur
      | cmd => .cmd (encodeCmd addr cmd).1 (encodeCmd addr cmd).2
    ev :: intended addr cs dur vel sus

/-- A command the engine understands: notes are 80..C7. The volume fade is excluded: the engine's EE takes two operands. -/
def GoodCommand : Command → Prop
  | .note n => 0x80 ≤ n ∧ n < 0xc8
  | .channelVolumeFade _ => False
  | _ => True

/-- Does a command take time? -/
def timed : Command → Bool
  | .note _ => true
  | .tie => true
  | .rest => true
  | _ => false

/-- A command list that can be encoded, given the duration last asked for (0 or FF: unknown): operands are legal, durations at most
7F, velocities at most 15, sustains at most 7; and whenever a command takes time or asks for a velocity or sustain, the
duration is known, from itself or from the commands before. A duration of 0 (as in the CallLoops inserted by the optimiser) makes the
duration unknown. -/
def Encodable : UInt8 → List PCmd → Prop
  | _, [] => True
  | dur, c :: cs =>
    GoodCommand c.command ∧
    (∀ d ∈ c.duration, d < 0x80) ∧
    (∀ v ∈ c.velocity, v < 0x10) ∧
    (∀ s ∈ c.sustain, s < 0x08) ∧
    ((timed c.command = true ∨ (asked c.velocity).isSome = true ∨ (asked c.sustain).isSome = true) →
      0 < (asked c.duration).getD dur ∧ (asked c.duration).getD dur < 0x80) ∧
    Encodable (c.duration.getD dur) cs

/-- The commands of the preamble of a track, by its place in the parts. -/
def preambleFor (parts : List (List Nat)) (i : Nat) : List Command :=
  if parts.any (fun p => p.head? = some i) then [.percussionPatchBase 0x19, .masterVolume 0xc8, .channelVolume 0xc8]
  else if parts.any (fun p => p.contains i) then [.channelVolume 0xc8]
  else []

/-- Hide velocity and sustain. -/
def Ev.timing : Ev → Ev
  | .note n d _ _ => .note n d 0 0
  | .perc n d _ _ => .perc n d 0 0
  | e => e

/-- Is this a CallLoop? -/
def isCall : Command → Bool
  | .callLoop _ _ => true
  | _ => false

/-- Patching one reference. -/
def patchOne (addr : Nat → UInt8 × UInt8) (bs : List UInt8) (r : CallLoopRef) : List UInt8 :=
  (bs.set r.refPos (addr r.targetTrack).1).set (r.refPos + 1) (addr r.targetTrack).2

/-- A command with its CallLoop target replaced. -/
def retarget (f : Nat → Nat) : Command → Command
  | .callLoop t k => .callLoop (f t) k
  | c => c

instance (c : Command) : Decidable (GoodCommand c) := by
  cases c <;> simp only [GoodCommand] <;> infer_instance

instance decEncodable : (d : UInt8) → (cs : List PCmd) → Decidable (Encodable d cs)
  | _, [] => isTrue trivial
  | dur, c :: cs =>
    have := decEncodable (c.duration.getD dur) cs
    inferInstanceAs (Decidable (_ ∧ _))

end M2S.Nspc
