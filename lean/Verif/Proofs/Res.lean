import Verif.Base
import Mathlib.Tactic.SplitIfs
/-
Inverting computations that succeeded.
-/
namespace M2S

theorem res_bind {α β : Type} {x : Res α} {f : α → Res β} {b : β} : (x >>= f) = .ok b ↔ ∃ a, x = .ok a ∧ f a = .ok b := by
  rcases x with e | a
  · simp [bind, Except.bind]
  · simp [bind, Except.bind]

theorem res_pure {α : Type} {a b : α} : (pure a : Res α) = .ok b ↔ a = b := by
  simp [pure, Except.pure]

theorem res_ok {α : Type} {a b : α} : (Except.ok a : Res α) = .ok b ↔ a = b := by simp

theorem res_panicked {α : Type} {b : α} : (panicked : Res α) = .ok b ↔ False := by simp [panicked]

theorem res_failed {α : Type} {e : Err} {b : α} : (failed e : Res α) = .ok b ↔ False := by simp [failed]

theorem addU32_ok {a b c : Nat} : addU32 a b = .ok c ↔ a + b < 2 ^ 32 ∧ c = a + b := by
  unfold addU32
  split_ifs with h
  · simp [h, eq_comm]
  · simp [h, panicked]

theorem mulU32_ok {a b c : Nat} : mulU32 a b = .ok c ↔ a * b < 2 ^ 32 ∧ c = a * b := by
  unfold mulU32
  split_ifs with h
  · simp [h, eq_comm]
  · simp [h, panicked]

theorem subU_ok {a b c : Nat} : subU a b = .ok c ↔ b ≤ a ∧ c = a - b := by
  unfold subU
  split_ifs with h
  · simp [h, eq_comm]
  · simp [h, panicked]

/-- A computation whose only possible failure is a panic. -/
def PanicOnly {α : Type} (x : Res α) : Prop := ∀ e, x = .error e → e = .panic

theorem panicOnly_ok {α : Type} (a : α) : PanicOnly (.ok a : Res α) := by intro e h; cases h
theorem panicOnly_pure {α : Type} (a : α) : PanicOnly (pure a : Res α) := panicOnly_ok a
theorem panicOnly_panicked {α : Type} : PanicOnly (panicked : Res α) := by intro e h; cases h; rfl

theorem PanicOnly.bind {α β : Type} {x : Res α} {f : α → Res β} (hx : PanicOnly x) (hf : ∀ a, x = .ok a → PanicOnly (f a)) : PanicOnly (x >>= f) := by
  intro e h
  cases x with
  | error e' => cases h; exact hx _ rfl
  | ok a => exact hf a rfl e h

theorem panicOnly_foldlM {α β : Type} (f : β → α → Res β) (l : List α) (h : ∀ b a, PanicOnly (f b a)) : ∀ b, PanicOnly (l.foldlM f b) := by
  induction l with
  | nil => intro b; exact panicOnly_pure b
  | cons a l ih => intro b; rw [List.foldlM_cons]; exact (h b a).bind fun b' _ => ih b'

theorem panicOnly_mapM {α β : Type} (f : α → Res β) (l : List α) (h : ∀ a, PanicOnly (f a)) : PanicOnly (l.mapM f) := by
  induction l with
  | nil => exact panicOnly_pure _
  | cons a l ih =>
    rw [List.mapM_cons]
    exact (h a).bind fun b _ => ih.bind fun bs _ => panicOnly_pure _

theorem panicOnly_addU8 (a b : UInt8) : PanicOnly (addU8 a b) := by
  unfold addU8; split_ifs
  · exact panicOnly_ok _
  · exact panicOnly_panicked

theorem panicOnly_subU (a b : Nat) : PanicOnly (subU a b) := by
  unfold subU; split_ifs
  · exact panicOnly_ok _
  · exact panicOnly_panicked

theorem panicOnly_addU32 (a b : Nat) : PanicOnly (addU32 a b) := by
  unfold addU32; split_ifs
  · exact panicOnly_ok _
  · exact panicOnly_panicked

end M2S
