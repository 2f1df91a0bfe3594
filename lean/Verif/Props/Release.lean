import Verif.Refine.Builds
import Verif.Model.Machine
import Verif.Props.Session
import Verif.Props.Knots

/-!
# Release builds: C116

A client that calls the public functions, in any order and with arguments that may depend on earlier
results, sees the same results in every build, as long as the debug build does not panic because of a
subtraction below zero or a failed `debug_assert!`.
-/

set_option linter.unusedSectionVars false

namespace BSpline

variable {K : Type} [Add K] [Sub K] [Mul K] [Div K] [Neg K] [Zero K] [One K] [NatCast K]
  [IntCast K] [Cmp K] [Trunc K] [Sqrt K] {d : ℕ}

/-- a call of a public function; `other` is any computation that does not depend on the build, such as
`reverse` or an `unwrap` of the client -/
inductive ApiCall (K : Type) : Type → Type 1
  | knotsNew (p : ℕ) (U : List K) : ApiCall K (Knots K)
  | knotsDerive (kn : Knots K) : ApiCall K (Knots K)
  | knotsSegments (kn : Knots K) : ApiCall K ℕ
  | segmentsDerivative (kn : Knots K) (k : ℕ) : ApiCall K ℕ
  | internalCount (kn : Knots K) : ApiCall K ℕ
  | internal (kn : Knots K) : ApiCall K (List K)
  | internalKnot (kn : Knots K) (i : ℕ) : ApiCall K K
  | domainCount (kn : Knots K) : ApiCall K ℕ
  | domain (kn : Knots K) : ApiCall K (List K)
  | domainDerivative (kn : Knots K) (k : ℕ) : ApiCall K (List K)
  | domainKnot (kn : Knots K) (i : ℕ) : ApiCall K K
  | multiplicity (kn : Knots K) (u : K) : ApiCall K ℕ
  | findIndex (kn : Knots K) (u : K) (k : ℕ) : ApiCall K (Option ℕ)
  | findIdx (kn : Knots K) (u : K) (k : ℕ) (c : Comparator) : ApiCall K ℕ
  | knotsEvaluate (kn : Knots K) (k i p : ℕ) (u : K) : ApiCall K K
  | isValid (kn : Knots K) : ApiCall K Bool
  | isUniform (kn : Knots K) : ApiCall K (Except (CurveError K) Bool)
  | knotsGenerate (p n : ℕ) (params : Parameters K) (m : KnotMethod) : ApiCall K (Except (CurveError K) (Knots K))
  | paramsGenerate {d : ℕ} (pts : DataPoints K d) (m : ParamMethod) : ApiCall K (Parameters K)
  | dataSegments {d : ℕ} (pts : DataPoints K d) : ApiCall K ℕ
  | pointsSegments {d : ℕ} (cp : ControlPoints K d) : ApiCall K ℕ
  | pointsDerive {d : ℕ} (cp : ControlPoints K d) (kn : Knots K) : ApiCall K (ControlPoints K d)
  | curveNew {d : ℕ} (kn : Knots K) (cp : ControlPoints K d) : ApiCall K (Except (CurveError K) (Curve K d))
  | curveSegments {d : ℕ} (c : Curve K d) : ApiCall K ℕ
  | calculateDerivatives {d : ℕ} (c : Curve K d) : ApiCall K (Curve K d)
  | evaluate {d : ℕ} (c : Curve K d) (u : K) : ApiCall K (Except (CurveError K) (Pt K d))
  | evaluateDerivative {d : ℕ} (c : Curve K d) (u : K) (k : ℕ) : ApiCall K (Except (CurveError K) (Pt K d))
  | getDerivativeCurve {d : ℕ} (c : Curve K d) (k : ℕ) : ApiCall K (Curve K d)
  | insert {d : ℕ} (c : Curve K d) (u : K) : ApiCall K (Curve K d × Except (InsertError K) Unit)
  | insertTimes {d : ℕ} (c : Curve K d) (u : K) (x : ℕ) : ApiCall K (Curve K d × Except (InsertError K) Unit)
  | split {d : ℕ} (c : Curve K d) (u : K) : ApiCall K (Except (SplitError K) (Curve K d × Curve K d))
  | splitAndNormalize {d : ℕ} (c : Curve K d) (u : K) (norm : Bool × Bool) :
      ApiCall K (Except (SplitError K) (Curve K d × Curve K d))
  | generate {d : ℕ} (solver : Solver K d) (g : Generation K d) : ApiCall K (Except (CurveError K) (Curve K d))
  | fitLoose {d : ℕ} (solver : Solver K d) (kn : Knots K) (pts : DataPoints K d) (params : Parameters K)
      (pen : Option (Penalization K)) : ApiCall K (Except (FitError K) (List (Pt K d)))
  | fitFixed {d : ℕ} (solver : Solver K d) (kn : Knots K) (pts : DataPoints K d) (params : Parameters K)
      (pen : Option (Penalization K)) : ApiCall K (Except (FitError K) (List (Pt K d)))
  | interpolate {d : ℕ} (solver : Solver K d) (kn : Knots K) (pts : DataPoints K d) (params : Parameters K) :
      ApiCall K (List (Pt K d))
  | merge {d₁ d₂ : ℕ} (solver : Solver K d₁) (a : Curve K d₁) (b : Curve K d₂) :
      ApiCall K (Except (MergeError K) (Curve K d₁))
  | mergeFrom {d₁ d₂ : ℕ} (solver : Solver K d₁) (a : Curve K d₁) (b : Curve K d₂) :
      ApiCall K (Except (MergeError K) (Curve K d₁))
  | mergeTo {d₁ d₂ : ℕ} (solver : Solver K d₁) (a : Curve K d₁) (b : Curve K d₂) :
      ApiCall K (Except (MergeError K) (Curve K d₁))
  | mergeWithConstraints {d₁ d₂ : ℕ} (solver : Solver K d₁) (a : ConstrainedCurve K d₁)
      (b : ConstrainedCurve K d₂) : ApiCall K (Except (MergeError K) (Curve K d₁))
  | append {d : ℕ} (solver : Solver K d) (a b : Curve K d) : ApiCall K (Curve K d)
  | prepend {d : ℕ} (solver : Solver K d) (a b : Curve K d) : ApiCall K (Curve K d)
  | appendConstrained {d : ℕ} (solver : Solver K d) (a : Curve K d) (ca : Constraints K) (b : Curve K d)
      (cb : Constraints K) : ApiCall K (Curve K d)
  | prependConstrained {d : ℕ} (solver : Solver K d) (a : Curve K d) (ca : Constraints K) (b : Curve K d)
      (cb : Constraints K) : ApiCall K (Curve K d)
  | other {α : Type} (x : Exec α) : ApiCall K α

/-- what a call does in a build -/
def ApiCall.run [Build] {α : Type} : ApiCall K α → Exec α
  | knotsNew p U => Knots.new p U
  | knotsDerive kn => kn.derive
  | knotsSegments kn => kn.segments
  | segmentsDerivative kn k => kn.segmentsDerivative k
  | internalCount kn => kn.internalCount
  | internal kn => kn.internal
  | internalKnot kn i => kn.internalKnot i
  | domainCount kn => kn.domainCount
  | domain kn => kn.domain
  | domainDerivative kn k => kn.domainDerivative k
  | domainKnot kn i => kn.domainKnot i
  | multiplicity kn u => kn.multiplicity u
  | findIndex kn u k => kn.findIndex u k
  | findIdx kn u k c => kn.findIdx u k c
  | knotsEvaluate kn k i p u => kn.evaluate k i p u
  | isValid kn => kn.isValid
  | isUniform kn => BSpline.isUniform kn
  | knotsGenerate p n params m => generateKnots p n params m
  | paramsGenerate pts m => generateParams pts m
  | dataSegments pts => DataPoints.segments pts
  | pointsSegments cp => cp.segments
  | pointsDerive cp kn => cp.derive kn
  | curveNew kn cp => Curve.new kn cp
  | curveSegments c => c.segments
  | calculateDerivatives c => c.calculateDerivatives
  | evaluate c u => c.evaluate u
  | evaluateDerivative c u k => c.evaluateDerivative u k
  | getDerivativeCurve c k => c.getDerivativeCurve k
  | insert c u => c.insert u
  | insertTimes c u x => c.insertTimes u x
  | split c u => BSpline.split c u
  | splitAndNormalize c u norm => BSpline.splitAndNormalize c u norm
  | generate solver g => BSpline.generate solver g
  | fitLoose solver kn pts params pen => Loose.fit solver kn pts params pen
  | fitFixed solver kn pts params pen => Fixed.fit solver kn pts params pen
  | interpolate solver kn pts params => BSpline.interpolate solver kn pts params
  | merge solver a b => BSpline.merge solver a b
  | mergeFrom solver a b => BSpline.mergeFrom solver a b
  | mergeTo solver a b => BSpline.mergeTo solver a b
  | mergeWithConstraints solver a b => BSpline.mergeWithConstraints solver a b
  | append solver a b => a.append solver b
  | prepend solver a b => a.prepend solver b
  | appendConstrained solver a ca b cb => a.appendConstrained solver ca b cb
  | prependConstrained solver a ca b cb => a.prependConstrained solver ca b cb
  | other x => x

/-- a client program: it ends with a result, or makes a call and goes on with what the call returned -/
inductive Client (K : Type) (α : Type) : Type 1
  | ret (a : α) : Client K α
  | call {ρ : Type} (c : ApiCall K ρ) (next : ρ → Client K α) : Client K α

/-- what a client does in a build; a panic ends it -/
def Client.run [Build] {α : Type} : Client K α → Exec α
  | ret a => .ok a
  | call c next => do
    let r ← c.run
    (next r).run

instance apiCall_builds (β : Build) {α : Type} (c : ApiCall K α) : builds% β, c.run := by
  cases c <;> simp only [ApiCall.run] <;> first | infer_instance | exact SameRun.rfl'

theorem client_builds (β : Build) {α : Type} (c : Client K α) : builds% β, c.run := by
  induction c with
  | ret a => exact SameRun.rfl'
  | call c next ih => exact SameRun.bind inferInstance ih

/-- **C116** Every client program, in every build: a result that it has in a debug build it has in every
build, and a panic that is not due to a subtraction below zero or a `debug_assert!` it has in every build. -/
theorem C116_clients (β : Build) {α : Type} (c : Client K α) :
    (∀ r, (letI := Build.debug; c.run) = .ok r → (letI := β; c.run) = .ok r) ∧
    ∀ e, e ≠ .underflow → e ≠ .debugAssert → (letI := Build.debug; c.run) = .error e →
      (letI := β; c.run) = .error e := by
  have h := (client_builds β c).out
  constructor
  · intro r hr
    rw [hr] at h
    simpa using h
  · intro e h1 h2 he
    rw [he] at h
    simpa [h1, h2] using h

/-- **C116** Conversely, whatever a client does in a build, it does in a debug build, or it panics there
because of a subtraction below zero or a failed `debug_assert!`. -/
theorem C116_clients_back (β : Build) {α : Type} (c : Client K α) :
    (letI := Build.debug; c.run) = (letI := β; c.run) ∨
    (letI := Build.debug; c.run) = .error .underflow ∨ (letI := Build.debug; c.run) = .error .debugAssert := by
  rcases (client_builds β c).out with h | h | h
  · exact Or.inr (Or.inl h)
  · exact Or.inr (Or.inr h)
  · exact Or.inl h.symm

/-- **C116** For every curve that a caller can hold, evaluation of all derivatives and knot insertion are the
same in every build, at every parameter and for arithmetic without any law. -/
theorem C116_held {c : Curve K d} (h : Held c) (β : Build) :
    (∀ u k, (letI := β; c.evaluateDerivative u k) = letI := Build.debug; c.evaluateDerivative u k) ∧
    (∀ u, (letI := β; c.evaluate u) = letI := Build.debug; c.evaluate u) ∧
    (∀ u, (letI := β; c.insert u) = letI := Build.debug; c.insert u) ∧
    ∀ u x, (letI := β; c.insertTimes u x) = letI := Build.debug; c.insertTimes u x := by
  have key : ∀ {α : Type} {x y : Exec α}, SameRun x y → (∃ r, x = .ok r) → y = x := by
    rintro α x y ⟨h⟩ ⟨r, rfl⟩
    simpa using h
  obtain ⟨h1, h2, h3, -⟩ := C78_sessions_never_panic h
  have h0 : ∀ u k, ∃ r, (letI := Build.debug; c.evaluateDerivative u k) = .ok r := fun u k => by
    by_cases hu : Cmp.le 0 u = true ∧ Cmp.le u 1 = true
    · obtain ⟨v, hv⟩ := (h1 u k).1 hu
      exact ⟨_, hv⟩
    · exact ⟨_, (h1 u k).2 hu⟩
  refine ⟨fun u k => key inferInstance (h0 u k), fun u => key inferInstance (h0 u 0), fun u => key inferInstance ?_,
    fun u x => key inferInstance ?_⟩
  · obtain ⟨c', r, h⟩ := h2 u; exact ⟨_, h⟩
  · obtain ⟨c', r, h⟩ := h3 u x; exact ⟨_, h⟩

/-- **C48** In a release build `segments_derivative(k)` is the number of segments for every `k ≤ p`: for
`2 k > p + 2`, where a debug build panics, two subtractions wrap and cancel. -/
theorem C48_segments_derivative_release {p n k : ℕ} {U : List K} (hU : U.length = n + p + 2) (hp : p ≤ n)
    (hk : k ≤ p) (h64 : U.length < 2 ^ 64) {kn : Knots K} (hkn : Knots.new p U = .ok kn) :
    (letI := Build.release; kn.segmentsDerivative k) = .ok n := by
  rcases Nat.lt_or_ge (p + 2) (2 * k) with h2 | h2
  · rw [Knots.new_ok (by omega)] at hkn
    injection hkn with hkn
    subst hkn
    unfold Knots.segmentsDerivative
    rw [canonKnots_idx hk, ok_bind, show (canonKnots p U).p = p from rfl]
    simp only [usub]
    rw [if_neg (by omega), show Build.release.underflow (p + 2) (2 * k) = .ok (2 ^ 64 + (p + 2) - 2 * k) from rfl,
      ok_bind, if_neg (by simp; omega)]
    change Except.ok (2 ^ 64 + (List.take (U.length - 2 * k) (List.drop k U)).length -
      (2 ^ 64 + (p + 2) - 2 * k)) = Except.ok n
    rw [List.length_take, List.length_drop, Nat.min_eq_left (by omega)]
    congr 1; omega
  · have h := (knots_segmentsDerivative_builds Build.release kn k).out
    rw [C48_segments_derivative_partial hU hp hk h2 hkn] at h
    simpa using h

/-! ### Concrete cases -/

/-- the examples take no square roots -/
local instance : Sqrt ℚ := ⟨id⟩

/-- a client that builds a curve, inserts a knot and evaluates the result -/
def exampleClient : Client ℚ (Option ℚ) :=
  .call (.knotsNew 1 [0, 0, 1, 1]) fun kn =>
  .call (.curveNew (d := 1) kn (ControlPoints.new [![0], ![2]])) fun c =>
  match c with
  | .error _ => .ret none
  | .ok c => .call (.insert c (1 / 2)) fun c => .call (.evaluate c.1 (1 / 4)) fun v =>
    match v with
    | .error _ => .ret none
    | .ok v => .ret (some (v 0))

example : exampleClient.run = .ok (some (1 / 2)) := by decide +kernel

example (β : Build) : (letI := β; exampleClient.run) = .ok (some (1 / 2)) :=
  (C116_clients β exampleClient).1 _ (by decide +kernel)

/-- a client for which the exception matters -/
def wrappingClient : Client ℚ ℕ :=
  .call (.knotsNew 3 [0, 0, 0, 0, 1, 1, 1, 1]) fun kn => .call (.segmentsDerivative kn 3) .ret

example : wrappingClient.run = .error .underflow ∧
    (letI := Build.release; wrappingClient.run) = .ok 3 := by
  constructor <;> decide +kernel

end BSpline
