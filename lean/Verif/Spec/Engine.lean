import Verif.Spec.Rom
/-
The sound engine playing from ARAM, written from the engine's documentation: the song table, the part list of a song, the eight channels of a part,
each reading items at its own address and calling subroutines. Independent of the converter and of the ROM builder.
-/
namespace M2S.Engine
open Nspc RomSpec

/-- `n` consecutive bytes. -/
def bytesAt (m : Mem) : Nat → Nat → Option (List UInt8)
  | _, 0 => some []
  | p, n + 1 =>
    match m p, bytesAt m (p + 1) n with
    | some b, some bs => some (b :: bs)
    | _, _ => none

/-- The item at an address and the address behind it. `none`: no item there (the end mark 00, or undefined memory). -/
def itemAt (m : Mem) (p : Nat) : Option (Tok × Nat) :=
  match m p with
  | none => none
  | some b =>
    if b = 0 then none
    else if b < 0x80 then
      match m (p + 1) with
      | none => none
      | some v => if v < 0x80 then some (.dur b (some v), p + 2) else some (.dur b none, p + 1)
    else if b < 0xc8 then some (.note b, p + 1)
    else if b = 0xc8 then some (.tie, p + 1)
    else if b = 0xc9 then some (.rest, p + 1)
    else if b < 0xe0 then some (.perc b, p + 1)
    else
      match operands b with
      | none => none
      | some n => (bytesAt m (p + 1) n).map fun args => (.cmd b args, p + 1 + n)

/-- A subroutine being played: where it starts, how often it is still to be played (this time included), where to go on afterwards. -/
structure Sub where
  start : Nat
  count : Nat
  back : Nat
deriving DecidableEq, Repr

/-- A channel: where it reads, its registers, the subroutine it is in. There is only one level of subroutines. -/
structure Chan where
  pc : Nat
  regs : Regs
  sub : Option Sub
deriving DecidableEq, Repr

/-- The subroutine call (EF) an item is: address and count. -/
def callOf : Tok → Option (Nat × Nat)
  | .cmd op [lo, hi, k] => if op = 0xef then some (lo.toNat + 256 * hi.toNat, k.toNat) else none
  | _ => none

/-- One step of a channel: what is heard, and the channel afterwards (`none`: the track has ended). The result is `none` if there is undefined memory or an
unknown command byte. At the end mark a subroutine is repeated or returns; a count of 0 is the engine's sign for "not in a subroutine". -/
def step (m : Mem) (c : Chan) : Option (List Ev × Option Chan) :=
  if m c.pc = some 0 then
    match c.sub with
    | none => some ([], none)
    | some s =>
      if s.count = 0 then some ([], none)
      else if s.count = 1 then some ([], some ⟨s.back, c.regs, none⟩)
      else some ([], some ⟨s.start, c.regs, some ⟨s.start, s.count - 1, s.back⟩⟩)
  else
    match itemAt m c.pc with
    | none => none
    | some (t, next) =>
      match callOf t with
      | some (a, k) => some ([], some ⟨a, c.regs, some ⟨a, k, next⟩⟩)
      | none => some (t.ev c.regs, some ⟨next, t.regs (fun _ _ _ r => r) c.regs, c.sub⟩)

/-- What is heard until the track ends, if it ends within so many steps. -/
def run (m : Mem) : Nat → Chan → Option (List Ev)
  | 0, _ => none
  | n + 1, c =>
    match step m c with
    | none => none
    | some (evs, none) => some evs
    | some (evs, some c') => (run m n c').map (evs ++ ·)

/-- An entry of the part list of a song: the end, a part, or the address at which to go on (for ever if the count is 80 or more). -/
inductive Phrase
  | stop
  | part (at_ : Nat)
  | goto (count at_ : Nat)
deriving DecidableEq, Repr

/-- The entry at an address: 0 is the end, a word below 100 is the count of a jump to the address that follows, others are addresses of parts. -/
def phraseAt (m : Mem) (a : Nat) : Option Phrase :=
  match word m a with
  | none => none
  | some w => if w = 0 then some .stop else if w < 0x100 then (word m (a + 2)).map (.goto w) else some (.part w)

/-- The start addresses of the eight channels of a part; below 100 the channel is silent. -/
def channels (m : Mem) (part : Nat) : Option (List (Option Nat)) :=
  (List.range 8).mapM fun k => (word m (part + 2 * k)).map fun w => if w < 0x100 then none else some w

/-- Playing one channel from its start. -/
def playChannel (m : Mem) (fuel : Nat) (regs : Regs) : Option Nat → Option (Option (List Ev))
  | none => some none
  | some p => (run m fuel ⟨p, regs, none⟩).map some

/-- Playing the song with the given number in the song table at D000, through its first part: what is heard in each of the eight channels (`none` for a silent one),
the address of the song, and what comes behind the part. `regs` are the registers of all channels at the start. -/
def playSong (m : Mem) (fuel : Nat) (regs : Regs) (number : Nat) : Option (List (Option (List Ev)) × Nat × Phrase) :=
  match word m (0xd000 + 2 * number) with
  | none => none
  | some T =>
    match phraseAt m T with
    | some (.part P) =>
      match channels m P with
      | none => none
      | some cs =>
        match cs.mapM (playChannel m fuel regs), phraseAt m (T + 2) with
        | some evs, some next => some (evs, T, next)
        | _, _ => none
    | _ => none

end M2S.Engine
