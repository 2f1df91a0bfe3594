import Verif.Props.Construct
import Verif.Props.Reverse

/-!
# Complements to C04, C14 and C21

`Knots::evaluate` in terms of the documented recursion (C04), the weights of an evaluation (C14), and
reversal of curve values whose cached derivatives need not belong together (C21).
-/

set_option linter.unusedSectionVars false

namespace BSpline

open Finset

variable {K : Type} [Field K] [LinearOrder K] [IsStrictOrderedRing K] {d : ℕ}

/-! ### C04 -/

/-- the recursion only looks at the knots `i, …, i + h + 1` and at the last knot of the domain -/
theorem docBasis_congr {U V : ℕ → K} {k n m : ℕ} {u : K} (hl : n + 1 - k ≤ m)
    (h : ∀ j, j ≤ m → U j = V j) : ∀ q i, i + q + 1 ≤ m → docBasis U k n u q i = docBasis V k n u q i
  | 0, i, hi => by simp only [docBasis]; rw [h i (by omega), h (i + 1) hi, h _ hl]
  | q + 1, i, hi => by
    simp only [docBasis, docMu]
    rw [docBasis_congr hl h q i (by omega), docBasis_congr hl h q (i + 1) (by omega), h i (by omega),
      h (i + 1) (by omega), h (i + q + 1) (by omega), h (i + 1 + q + 1) (by omega)]

/-- **C04** `Knots::evaluate(k, i, p, u)` is the documented recursion on the knots of the `k`-th
derivative, for all clamped knot vectors, all derivative orders, all indices and **all** parameters,
also outside the domain. -/
theorem C04_evaluate {a b : K} {p n k i : ℕ} {U V : List K} (hU : ClampedKnots a b p n U)
    {kn : Knots K} (hkn : Knots.new p U = .ok kn) (hk : k ≤ p) (hi : i ≤ n - k)
    (hV : kn.vectorDerivative k = .ok V) (u : K) :
    kn.evaluate k i p u = .ok (docBasis (fun j => V.getD j 0) k n u (p - k) i) := by
  have hl := hU.length
  have hle := hU.le
  rw [Knots.new_ok (by omega)] at hkn
  injection hkn with hkn; subst hkn
  rw [Knots.vectorDerivative, canonKnots_idx hk] at hV
  injection hV with hV
  have hVl : V.length = n + p + 2 - 2 * k := by rw [← hV]; simp; omega
  have hf : ∀ j, j < n + p + 2 - 2 * k → fn V j = fn U (k + j) := by
    intro j hj; rw [← hV, hl]; exact fn_drop_take hj (by omega)
  have hs : V.Pairwise (· ≤ ·) := by
    rw [← hV]; exact (hU.sorted.sublist (List.drop_sublist _ _)).sublist (List.take_sublist _ _)
  have hc := hU.clamp
  have hlast : fn V (n - k) < fn V (n + 1 - k) := by
    rw [hf _ (by omega), hf _ (by omega), show k + (n - k) = n by omega,
      show k + (n + 1 - k) = n + 1 by omega, hc.right (n + 1) le_rfl]
    by_cases hpn : p < n
    · exact (hc.inner n hpn le_rfl).2
    · rw [hc.left n (by omega)]; exact hc.lt
  simp only [Knots.evaluate, canonKnots_idx hk, ok_bind, canonKnots_segments hl]
  rw [usub_ok hk, ok_bind, hV, C04_documented_formula hs (by omega) (by omega) hlast u (by omega)]
  congr 1
  refine docBasis_congr (m := V.length - 1) (by omega) (fun j hj => ?_) _ _ (by omega)
  have hj' : j < V.length := by omega
  rw [fn_lt hj', List.getD_eq_getElem _ _ hj']

/-- non-vacuity: the first derivative of a quadratic vector with a repeated knot -/
example : ∃ kn V, Knots.new 2 ([0, 0, 0, 1 / 2, 1 / 2, 1, 1, 1] : List ℚ) = .ok kn ∧
    kn.vectorDerivative 1 = .ok V ∧ kn.evaluate 1 2 2 (3 / 4) = .ok (1 / 2) ∧
    docBasis (fun j => V.getD j 0) 1 4 (3 / 4) 1 2 = (1 / 2 : ℚ) := by
  exact ⟨_, _, rfl, rfl, by decide +kernel, by decide +kernel⟩

/-! ### C14 -/

/-- **C14 (partial)** On clamped knots the point `evaluate(u)` is a mean of the control points: the
weights do not depend on the control points, are not negative and sum to one. Missing: other knots
(`C14_weights_false`). -/
theorem C14_weights_partial {p n : ℕ} {U : List K} (hU : ClampedKnots 0 1 p n U) {u : K} (h0 : 0 ≤ u)
    (h1 : u ≤ 1) :
    ∃ w : ℕ → K, (∀ i, 0 ≤ w i) ∧ ∑ i ∈ range (n + 1), w i = 1 ∧
      ∀ (P : List (Pt K d)) (c : Curve K d), P.length = n + 1 → Built c p U P →
        c.evaluate u = .ok (.ok (∑ i ∈ range (n + 1), w i • P.getD i 0)) := by
  have hl := hU.length
  have hle := hU.le
  have hkn : Knots.new p U = .ok (canonKnots p U) := Knots.new_ok (by omega)
  obtain ⟨N, hN, hsum⟩ := C01_partition_of_unity hU hkn (Nat.zero_le p) h0 h1
  refine ⟨fun i => if i ≤ n then N i else 0, ?_, ?_, ?_⟩
  · intro i
    dsimp only
    split
    · rename_i hi
      obtain ⟨x, hx, hx0, -⟩ := C02_between_zero_and_one hU hkn (Nat.zero_le p) (i := i) (by omega) h0 h1
      rw [hN i (by omega)] at hx
      injection hx with hx; rw [hx]; exact hx0
    · exact le_rfl
  · rw [← hsum]
    refine sum_congr rfl fun i hi => ?_
    rw [mem_range] at hi
    dsimp only
    rw [if_pos (by omega)]
  · intro P c hP hc
    obtain ⟨N', Q, hN', hQ, -, he⟩ := C05_full_sum (k := 0) ⟨hc, hU, hP⟩ (Nat.zero_le p) h0 h1
    obtain rfl := hc.eq_canon hl hle hP
    have hQP : Q = P := by
      have h3 : (canon p U P).points.matrixDerivative 0 = .ok P := by
        simp only [canon_points, ControlPoints.matrixDerivative, if_pos (Nat.zero_le _), canonPts_idx_zero]
      rw [h3] at hQ
      injection hQ with hQ; exact hQ.symm
    subst hQP
    rw [Curve.evaluate, he]
    congr 2
    refine sum_congr rfl fun i hi => ?_
    rw [mem_range] at hi
    dsimp only
    rw [if_pos (by omega)]
    congr 1
    have e := hN' i (by omega)
    rw [show (canon p U Q).knots = canonKnots p U from rfl, hN i (by omega)] at e
    injection e with e; exact e.symm

/-- **C14** The counts match and `Curve::new` succeeds, but the knots are not sorted: all control points
agree, but the curve is elsewhere: the weights sum to two. -/
theorem C14_weights_false : ∃ c : Curve ℚ 1, Built c 1 [0, 0, 3 / 4, 1 / 4, 1, 1] [![1], ![1], ![1], ![1]] ∧
    c.evaluate (1 / 2) = .ok (.ok ![2]) := by
  refine ⟨canon 1 [0, 0, 3 / 4, 1 / 4, 1, 1] [![1], ![1], ![1], ![1]],
    mkCurve_ok (n := 3) rfl (by decide) (by decide), ?_⟩
  decide +kernel

/-! ### C21 -/

/-- **C21** `reverse()` applied twice restores **any** curve value, even one whose cached derivatives do
not belong to its knots and control points; the only condition is that the control points of all the
orders that the value claims are there. -/
theorem C21_any_curve {c : Curve K d} (h : c.points.Pk.length = c.points.kMax + 1) :
    ∃ c', c.reverse = .ok c' ∧ c'.reverse = .ok c := by
  refine ⟨_, by rw [Curve.reverse, controlPoints_reverse_ok h]; rfl, ?_⟩
  rw [Curve.reverse, controlPoints_reverse_ok (by simpa using h)]
  obtain ⟨⟨Uk, q⟩, ⟨Pk, m⟩⟩ := c
  simp only [ok_bind, pure_ok, Knots.reverse, List.map_map, List.mapIdx_mapIdx]
  congr 3
  · conv_rhs => rw [← List.map_id Uk]
    refine List.map_congr_left fun v _ => ?_
    simp only [Function.comp_apply, reverseKnots_eq, revU_revU, id]
  · refine List.ext_getElem? fun k => ?_
    rw [List.getElem?_mapIdx]
    cases Pk[k]? with
    | none => rfl
    | some v =>
      simp only [Option.map_some, Function.comp_apply, revPts]
      split
      · simp only [List.map_reverse, List.reverse_reverse, List.map_map]
        conv_rhs => rw [← List.map_id v]
        congr 1
        refine List.map_congr_left fun x _ => ?_
        funext r; simp
      · simp

end BSpline
