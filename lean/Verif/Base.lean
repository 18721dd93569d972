/-
Results of the modelled functions and the checked arithmetic they use.
-/
namespace M2S

/-- The `Err(..)` values the program can return (`src/midi/mod.rs:11-15`, `src/nspc/track.rs:182`,
`src/rom/mod.rs:165-174,213-217,287-291`, `src/lib.rs:134-140`, and errors of the song converter). -/
inductive Err
  | couldntFit        -- "Couldn't fit notes into available channels"
  | moreThanOneVoice  -- "More than one voice needed on voice {}"
  | noBaseChunk       -- "Couldn't find base chunk for {} bank"
  | noOverflowChunk   -- "Couldn't find overflow chunk for {} bank"
  | doesNotFit        -- "{} bank does not fit in available chunks"
  | badNumber         -- `ParseIntError`
  | conversion        -- any error of the song converter given to `rom::write`
  | io                -- an I/O error of the operating system
deriving DecidableEq, Repr

/-- Why a modelled function did not return normally: a Rust panic (overflow in a checked build, index or
slice out of range, `unwrap` of `None`, division by zero, `unimplemented!`) or an `Err`. `diverged` marks a loop of the model
that used up its fuel; the theorems show that this never happens. -/
inductive Fault
  | panic
  | diverged
  | err (e : Err)
deriving DecidableEq, Repr

/-- Outcome of a modelled function. -/
abbrev Res (α : Type) := Except Fault α

/-- A Rust panic. -/
def panicked {α : Type} : Res α := .error .panic

/-- `bail!`/`Err(..)`. -/
def failed {α : Type} (e : Err) : Res α := .error (.err e)

/-- `u32` addition in a build with overflow checks. -/
def addU32 (a b : Nat) : Res Nat := if a + b < 2 ^ 32 then .ok (a + b) else panicked

/-- `u32` multiplication in a build with overflow checks. -/
def mulU32 (a b : Nat) : Res Nat := if a * b < 2 ^ 32 then .ok (a * b) else panicked

/-- Unsigned subtraction (any width) in a build with overflow checks. -/
def subU (a b : Nat) : Res Nat := if b ≤ a then .ok (a - b) else panicked

/-- `u8` addition in a build with overflow checks. -/
def addU8 (a b : UInt8) : Res UInt8 := if a.toNat + b.toNat < 256 then .ok (a + b) else panicked

/-- `u8` multiplication in a build with overflow checks. -/
def mulU8 (a b : UInt8) : Res UInt8 := if a.toNat * b.toNat < 256 then .ok (a * b) else panicked

instance {ε α : Type} [DecidableEq ε] [DecidableEq α] : DecidableEq (Except ε α)
  | .ok a, .ok b => if h : a = b then isTrue (by rw [h]) else isFalse (by intro h'; cases h'; exact h rfl)
  | .error a, .error b => if h : a = b then isTrue (by rw [h]) else isFalse (by intro h'; cases h'; exact h rfl)
  | .ok _, .error _ => isFalse (by intro h; cases h)
  | .error _, .ok _ => isFalse (by intro h; cases h)

end M2S
