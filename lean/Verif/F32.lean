import Mathlib.Data.Int.Log
import Mathlib.Data.Rat.Floor
/-
IEEE-754 binary32 arithmetic, round to nearest even, as used by `src/nspc/track.rs:22-30,107-115`.
Values are rationals plus infinities and NaN; signed zeros and NaN payloads are not distinguished
(they cannot be observed through the conversions `as u32`/`as u8` the code ends with).
-/
namespace M2S

/-- A binary32 value. -/
inductive F32
  | fin (q : ℚ)
  | inf (neg : Bool)
  | nan

/-- Exponent of the unit in the last place of a binary32 near `q` (subnormals included). -/
def ulpExp (q : ℚ) : ℤ := max (Int.log 2 |q|) (-126) - 23

/-- Nearest integer, ties to even. -/
def roundEven (x : ℚ) : ℤ :=
  let f := ⌊x⌋
  if x - f < 1 / 2 then f
  else if 1 / 2 < x - f then f + 1
  else if f % 2 = 0 then f else f + 1

/-- Round a rational to 24 significant bits (fewer for subnormals), nearest, ties to even. -/
def rnd (q : ℚ) : ℚ := roundEven (q / 2 ^ ulpExp q) * 2 ^ ulpExp q

/-- The binary32 nearest to a rational, overflowing to infinity. -/
def F32.ofRat (q : ℚ) : F32 :=
  if 2 ^ 128 ≤ |rnd q| then .inf (q < 0) else .fin (rnd q)

/-- `n as f32` for an unsigned integer. -/
def F32.ofNat (n : Nat) : F32 := F32.ofRat n

/-- `f32` division. -/
def F32.div : F32 → F32 → F32
  | .fin a, .fin b =>
    if b = 0 then (if a = 0 then .nan else .inf (a < 0)) else F32.ofRat (a / b)
  | .fin _, .inf _ => .fin 0
  | .inf s, .fin b => .inf (xor s (b < 0))
  | _, _ => .nan

/-- `f32` multiplication. -/
def F32.mul : F32 → F32 → F32
  | .fin a, .fin b => F32.ofRat (a * b)
  | .inf s, .fin b => if b = 0 then .nan else .inf (xor s (b < 0))
  | .fin a, .inf s => if a = 0 then .nan else .inf (xor s (a < 0))
  | .inf s, .inf t => .inf (xor s t)
  | _, _ => .nan

/-- `f32::ceil` (the ceiling of a binary32 is a binary32, so no rounding). -/
def F32.ceil : F32 → F32
  | .fin q => .fin ⌈q⌉
  | x => x

/-- `f32::floor`. -/
def F32.floor : F32 → F32
  | .fin q => .fin ⌊q⌋
  | x => x

/-- `x as uN`: truncation toward zero, saturating at `0` and `max`; NaN gives 0. -/
def F32.toUnsigned (max : Nat) : F32 → Nat
  | .fin q => min ⌊q⌋₊ max
  | .inf neg => if neg then 0 else max
  | .nan => 0

end M2S
