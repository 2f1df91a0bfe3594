import Verif.Props.Stable
import Verif.Props.IeeeGenerate
import Verif.Props.Generation

/-!
# The whole error of a curve over uniform knots in double precision: C94
-/

set_option linter.unusedSectionVars false

namespace BSpline

open Finset Ieee

variable {d : ℕ}

/-- uniform knots in exact arithmetic -/
theorem generate_uniform_exact {K : Type} [Field K] [LinearOrder K] [IsStrictOrderedRing K] [Trunc K] [Sqrt K]
    (solver : Solver K d) {p n : ℕ} {P : List (Pt K d)} (h1 : 1 ≤ p) (h2 : p ≤ n) (hP : P.length = n + 1) :
    ∃ c U, generate solver (.manual p (ControlPoints.new P) .uniform) = .ok (.ok c) ∧ ValidOn 0 1 c p n U P ∧
      (∀ j, j ≤ n - p + 1 → U[p + j]? = some ((j : K) / ((n - p + 1 : ℕ) : K))) := by
  obtain ⟨kn, U, a, b, hU, hv, -⟩ := C35_uniform (K := K) h1 h2
  rw [uniform_ok h1 h2] at a
  injection a with a; injection a with a
  rw [← a, canonKnots_vector] at b
  injection b with b
  subst b
  have hl := hU.length
  have hnew : Knots.new p (genU p n (uniK (K := K) p n)) = .ok _ := Knots.new_ok (by omega)
  have hc := validOn_canon hU hP
  refine ⟨_, _, ?_, hc, hv⟩
  have := hc.1
  rw [Built, mkCurve, hnew, ok_bind] at this
  rw [generate]
  simp only [segments_new hP, ok_bind, matrix_new, generateManualKnots]
  rw [if_neg (by omega), show uniform p n = _ from uniform_ok (K := K) h1 h2, ok_bind]
  exact this

/-- **C94** `f64`, from points to values, compared with exact arithmetic throughout: the generated curve and the
curve that the same call generates with exact rational arithmetic differ, at every parameter in `[0, 1]` and in
every coordinate, by at most `(6p + 2 + 6p (n - p + 1)) / 2^52 · M` and a term for underflow. -/
theorem C94_f64 [IntCast (Ieee binary64)] [Trunc (Ieee binary64)] [Sqrt (Ieee binary64)] [Sqrt ℚ]
    (solver : Solver (Ieee binary64) d) (solver' : Solver ℚ d) {p n : ℕ}
    (h1 : 1 ≤ p) (h2 : p ≤ n) (hp : p ≤ 600) (hn : n - p + 1 ≤ 2 ^ 50) {P : List (Pt (Ieee binary64) d)}
    {Q : List (Pt ℚ d)} (hP : List.Forall₂ PtIs P Q) (hQ : Q.length = n + 1) :
    ∃ (c : Curve (Ieee binary64) d) (e : Curve ℚ d),
      generate solver (.manual p (ControlPoints.new P) .uniform) = .ok (.ok c) ∧
      generate solver' (.manual p (ControlPoints.new Q) .uniform) = .ok (.ok e) ∧
      ∀ (u : Ieee binary64) (x : ℚ), Is u x → 0 ≤ x → x ≤ 1 →
      ∃ v w, c.evaluate u = .ok (.ok v) ∧ e.evaluate x = .ok (.ok w) ∧
        ∀ (r : Fin d) (M : ℚ), (∀ q ∈ Q, |q r| ≤ M) → M ≤ 2 ^ 1000 →
        ∃ y, Is (v r) y ∧ |y - w r| ≤ (6 * p + 2 + 6 * p * (n - p + 1 : ℕ)) / 2 ^ 52 * M +
          (p + 1) * 3 ^ (p + 3) * (M + 1) * (1 / 2) ^ 1075 := by
  obtain ⟨c, e, U, V, hgen, -, he, -, -, hV, hval⟩ := C90_f64 solver h1 h2 hp hn hP hQ
  obtain ⟨e', W, hgen', he', hW⟩ := generate_uniform_exact solver' h1 h2 hQ
  refine ⟨c, e', hgen, hgen', fun u x hu hx0 hx1 => ?_⟩
  obtain ⟨v, w, hv, hw, hb⟩ := hval u x hu hx0 hx1
  have hN : (0 : ℚ) < ((n - p + 1 : ℕ) : ℚ) := by exact_mod_cast Nat.succ_pos _
  have cV := he.2.1.clamp
  have cW := he'.2.1.clamp
  have lV := he.2.1.length
  have lW := he'.2.1.length
  have fW : ∀ i, p ≤ i → i ≤ n + 1 → fn W i = ((i - p : ℕ) : ℚ) / ((n - p + 1 : ℕ) : ℚ) := by
    intro i hi1 hi2
    have := hW (i - p) (by omega)
    rw [show p + (i - p) = i by omega] at this
    rw [fn_lt (by omega)]
    exact (List.getElem?_eq_some_iff.mp this).2
  have close : ∀ i, i < n + p + 2 → |fn V i - fn W i| ≤ 1 / 2 ^ 52 := by
    intro i hi
    rcases Nat.lt_or_ge i p with h3 | h3
    · rw [cV.left i h3.le, cW.left i h3.le]; norm_num
    rcases Nat.lt_or_ge (n + 1) i with h4 | h4
    · rw [cV.right i h4.le, cW.right i h4.le]; norm_num
    obtain ⟨x, hx, hxe⟩ := hV (i - p) (by omega)
    rw [show p + (i - p) = i by omega] at hx
    have : fn V i = x := by rw [fn_lt (by omega)]; exact (List.getElem?_eq_some_iff.mp hx).2
    rw [this, fW i h3 h4]
    exact hxe
  have hstep : ∀ j, p ≤ j → j ≤ n → fn W j < fn W (j + 1) := by
    intro j hj1 hj2
    rw [fW j hj1 (by omega), fW (j + 1) (by omega) (by omega)]
    apply div_lt_div_of_pos_right _ hN
    exact_mod_cast (show j - p < j + 1 - p by omega)
  have gV : ∀ {i : ℕ} {x : ℚ}, V[i]? = some x → i < n + p + 2 ∧ fn V i = x := by
    intro i x h
    obtain ⟨h3, h4⟩ := List.getElem?_eq_some_iff.mp h
    exact ⟨by omega, by rw [fn_lt h3, h4]⟩
  have gW : ∀ {i : ℕ} {x : ℚ}, W[i]? = some x → i < n + p + 2 ∧ fn W i = x := by
    intro i x h
    obtain ⟨h3, h4⟩ := List.getElem?_eq_some_iff.mp h
    exact ⟨by omega, by rw [fn_lt h3, h4]⟩
  obtain ⟨w', hw'⟩ : ∃ w', e'.evaluate x = .ok (.ok w') := by
    obtain ⟨j, hs⟩ := cW.exists_span hx0 hx1
    obtain rfl := he'.eq_canon
    exact ⟨_, evaluateDerivative_eq he'.2.1 hQ (Nat.zero_le p) hx0 hx1 hs⟩
  refine ⟨v, w', hv, hw', fun r M hM hM2 => ?_⟩
  obtain ⟨y, hy, hyb⟩ := hb r M hM hM2
  have hM0 : 0 ≤ M := by
    have : Q[0]'(by omega) ∈ Q := List.getElem_mem _
    exact (abs_nonneg _).trans (hM _ this)
  obtain ⟨w1, w2, e1, e2, e3⟩ := C93_stable he he'
    (fun x a b => (simple_of_strict he'.2.1 hstep x a b).trans h1)
    (by
      intro j x x' y y' a1 a2 a3 a4 hlt
      obtain ⟨b1, rfl⟩ := gV a1
      obtain ⟨b2, rfl⟩ := gV a2
      obtain ⟨-, rfl⟩ := gW a3
      obtain ⟨-, rfl⟩ := gW a4
      apply hstep
      · by_contra hcon
        rw [cV.left j (by omega), cV.left (j + 1) (by omega)] at hlt
        exact lt_irrefl _ hlt
      · by_contra hcon
        rw [cV.right j (by omega), cV.right (j + 1) (by omega)] at hlt
        exact lt_irrefl _ hlt)
    (ρ := r) (l := 2 * M * ((n - p + 1 : ℕ) : ℚ)) (ε := 1 / 2 ^ 52) (η := 0) (by positivity)
    (by
      intro i x y a1 a2
      obtain ⟨b1, rfl⟩ := gV a1
      obtain ⟨b2, rfl⟩ := gW a2
      exact close i b1)
    (by
      intro i a b a1 a2
      rw [a1] at a2
      cases a2
      rw [sub_self, abs_zero])
    (by
      intro i a b x y a1 a2 a3 a4
      obtain ⟨b3, rfl⟩ := gW a3
      obtain ⟨b4, rfl⟩ := gW a4
      have hi : i + 1 < n + 1 := by
        have := (List.getElem?_eq_some_iff.mp a2).1
        omega
      have c1 := hM _ (List.mem_of_getElem? a1)
      have c2 := hM _ (List.mem_of_getElem? a2)
      have c3 : |b r - a r| ≤ 2 * M := by
        rw [abs_le] at *
        constructor <;> linarith
      refine c3.trans ?_
      rw [mul_assoc]
      have c4 : 1 ≤ ((n - p + 1 : ℕ) : ℚ) * (fn W (i + p + 1) - fn W (i + 1)) := by
        obtain ⟨k, k1, k2, k3, k4⟩ : ∃ k, i + 1 ≤ k ∧ k + 1 ≤ i + p + 1 ∧ p ≤ k ∧ k ≤ n :=
          ⟨max (i + 1) p, by omega, by omega, by omega, by omega⟩
        have d1 : fn W (i + 1) ≤ fn W k := cW.mono k1
        have d2 : fn W (k + 1) ≤ fn W (i + p + 1) := cW.mono k2
        have d3 : ((n - p + 1 : ℕ) : ℚ) * (fn W (k + 1) - fn W k) = 1 := by
          rw [fW k k3 (by omega), fW (k + 1) (by omega) (by omega), show k + 1 - p = (k - p) + 1 by omega]
          push_cast
          field_simp
          ring
        rw [← d3]
        exact mul_le_mul_of_nonneg_left (by linarith) hN.le
      calc 2 * M = 2 * M * 1 := by ring
        _ ≤ _ := mul_le_mul_of_nonneg_left c4 (by linarith))
    hx0 hx1 hx0 hx1
  rw [hw] at e1
  rw [hw'] at e2
  injection e1 with e1; injection e1 with e1
  injection e2 with e2; injection e2 with e2
  subst e1 e2
  refine ⟨y, hy, ?_⟩
  generalize ((1 : ℚ) / 2) ^ 1075 = z at *
  calc |y - w' r| = |(y - w r) + (w r - w' r)| := by ring_nf
    _ ≤ _ := abs_add_le _ _
    _ ≤ _ := add_le_add hyb e3
    _ = _ := by rw [sub_self, abs_zero]; ring

/-- an instance: a cubic with 11 control points with coordinates up to 10 is computed to 12 decimal places -/
theorem C94_instance [IntCast (Ieee binary64)] [Trunc (Ieee binary64)] [Sqrt (Ieee binary64)] [Sqrt ℚ]
    (solver : Solver (Ieee binary64) d) (solver' : Solver ℚ d) {P : List (Pt (Ieee binary64) d)} {Q : List (Pt ℚ d)}
    (hP : List.Forall₂ PtIs P Q) (hQ : Q.length = 11) (hM : ∀ q ∈ Q, ∀ r, |q r| ≤ 10) :
    ∃ (c : Curve (Ieee binary64) d) (e : Curve ℚ d),
      generate solver (.manual 3 (ControlPoints.new P) .uniform) = .ok (.ok c) ∧
      generate solver' (.manual 3 (ControlPoints.new Q) .uniform) = .ok (.ok e) ∧
      ∀ (u : Ieee binary64) (x : ℚ), Is u x → 0 ≤ x → x ≤ 1 →
      ∃ v w, c.evaluate u = .ok (.ok v) ∧ e.evaluate x = .ok (.ok w) ∧
        ∀ r, ∃ y, Is (v r) y ∧ |y - w r| ≤ 1 / 10 ^ 12 := by
  obtain ⟨c, e, h1, h2, h3⟩ := C94_f64 solver solver' (p := 3) (n := 10) (by omega) (by omega) (by omega) (by norm_num)
    hP hQ
  refine ⟨c, e, h1, h2, fun u x hu h0 h1 => ?_⟩
  obtain ⟨v, w, hv, hw, hb⟩ := h3 u x hu h0 h1
  refine ⟨v, w, hv, hw, fun r => ?_⟩
  obtain ⟨y, hy, hyb⟩ := hb r 10 (fun q hq => hM q hq r) (by decide +kernel)
  refine ⟨y, hy, hyb.trans ?_⟩
  decide +kernel

end BSpline
