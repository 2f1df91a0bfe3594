import Verif.Model.Basic

/-!
# Debug builds

The theorems are about debug builds, which check `usize` subtractions and have the `debug_assert!`s,
unless they mention another `Build`.
-/

namespace BSpline

/-- Debug builds: `a - b` panics below zero, `debug_assert!` is checked.
types.rs:45, curve/parameters/methods.rs:35. -/
instance Build.debug : Build where
  underflow _ _ := .error .underflow
  assertions := true

@[simp] theorem Build.underflow_debug (a b : ℕ) : Build.underflow a b = .error .underflow := rfl

@[simp] theorem Build.assertions_debug : Build.assertions = true := rfl

theorem usub_debug (a b : ℕ) : usub a b = if b ≤ a then .ok (a - b) else .error .underflow := rfl

end BSpline
