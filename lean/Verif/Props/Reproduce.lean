import Verif.Theory.Reproduce
import Verif.Props.Unique

/-!
# Polynomial reproduction and linear precision: C61

Over any clamped knot vector every polynomial curve of degree at most `p` is a spline curve. The
control points are the values of its polar form at `p` consecutive knots.
-/

set_option linter.unusedSectionVars false

namespace BSpline

open Finset

variable {K : Type} [Field K] [LinearOrder K] [IsStrictOrderedRing K] {d : ℕ}

/-- the values of `f` at the `n + 1` groups of `p` consecutive knots -/
def polarPoints (f : List K → Pt K d) (p n : ℕ) (U : List K) : List (Pt K d) :=
  (List.range (n + 1)).map (fun i => f ((U.drop (i + 1)).take p))

theorem polarPoints_length (f : List K → Pt K d) (p n : ℕ) (U : List K) :
    (polarPoints f p n U).length = n + 1 := by simp [polarPoints]

theorem drop_take_eq_knotsFrom {U : List K} {s p : ℕ} (h : s + p ≤ U.length) :
    (U.drop s).take p = knotsFrom (fn U) s p := by
  apply List.ext_getElem
  · simp [knotsFrom]; omega
  · intro i h1 h2
    have : i < p := by simpa [knotsFrom] using h2
    simp only [knotsFrom, List.getElem_map, List.getElem_range', one_mul, List.getElem_take,
      List.getElem_drop]
    rw [fn_lt (by omega)]

theorem fn_polarPoints {f : List K → Pt K d} {p n i : ℕ} {U : List K} (hU : U.length = n + p + 2)
    (hi : i ≤ n) : fn (polarPoints f p n U) i = f (knotsFrom (fn U) (i + 1) p) := by
  rw [polarPoints, fn_map_range _ (by omega), drop_take_eq_knotsFrom (by omega)]

theorem bl_polarPoints {f : List K → Pt K d} (hf : SymAffine f) {p n j : ℕ} {U : List K} {u : K}
    (hU : ClampedKnots 0 1 p n U) (hs : IsSpan (fn U) n u j) (ts : List K) (hts : ts.length = p) :
    bl (fn U) ts (fn (polarPoints f p n U)) (j - p) = f ts := by
  have hc := hU.clamp
  have hpj := hs.p_le hc
  have hjn := hs.le_n
  have hw := win_of_span hc.mono hpj (hs.lt hc)
  subst hts
  rw [← bl_reproduce ts hf hw]
  apply bl_congr_pts
  intro m hm
  rw [fn_polarPoints hU.length (by omega)]

/-- **C61** If the control points are the values of a symmetric multi-affine function `f` at `p`
consecutive knots, then `evaluate(u) = f(u, ..., u)`. -/
theorem C61_polar_forms {f : List K → Pt K d} (hf : SymAffine f) {c : Curve K d} {p n : ℕ}
    {U : List K} (hc : ValidOn 0 1 c p n U (polarPoints f p n U)) {u : K} (h0 : 0 ≤ u) (h1 : u ≤ 1) :
    c.evaluate u = .ok (.ok (f (List.replicate p u))) := by
  obtain rfl := hc.eq_canon
  obtain ⟨-, hU, hP⟩ := hc
  obtain ⟨j, hj⟩ := hU.clamp.exists_span h0 h1
  rw [Curve.evaluate, evaluateDerivative_eq hU hP (Nat.zero_le p) h0 h1 hj, cv, shiftN_zero,
    Nat.sub_zero]
  congr 2
  exact bl_polarPoints hf hU hj _ (by simp)

/-- the polar form of `Σ_k u^k q_k` for degree `p` -/
def polyPolar (p : ℕ) (q : ℕ → Pt K d) (ts : List K) : Pt K d :=
  ∑ k ∈ range (p + 1), esym k ts • ((1 / (p.choose k : K)) • q k)

theorem symAffine_polyPolar (p : ℕ) (q : ℕ → Pt K d) : SymAffine (polyPolar p q) :=
  SymAffine.sum _ (fun k _ => (symAffine_esym k).smul_const _)

theorem polyPolar_replicate (p : ℕ) (q : ℕ → Pt K d) (u : K) :
    polyPolar p q (List.replicate p u) = ∑ k ∈ range (p + 1), u ^ k • q k := by
  apply sum_congr rfl
  intro k hk
  have : (p.choose k : K) ≠ 0 := by
    exact_mod_cast (Nat.choose_pos (by simp at hk; omega)).ne'
  rw [esym_replicate, smul_smul]
  congr 1
  field_simp

/-- the difference quotient of the polar form is the polar form of the derivative -/
theorem polyPolar_deriv (p : ℕ) (q : ℕ → Pt K d) (ts : List K) :
    ((p + 1 : ℕ) : K) • (polyPolar (p + 1) q (1 :: ts) - polyPolar (p + 1) q (0 :: ts)) =
      polyPolar p (fun k => ((k + 1 : ℕ) : K) • q (k + 1)) ts := by
  rw [polyPolar, polyPolar, ← sum_sub_distrib, sum_range_succ']
  simp only [esym_zero, sub_self, add_zero]
  rw [smul_sum, polyPolar]
  apply sum_congr rfl
  intro k hk
  have hkp : k ≤ p := by simp at hk; omega
  have h1 : (p.choose k : K) ≠ 0 := by exact_mod_cast (Nat.choose_pos hkp).ne'
  have h2 : ((p + 1).choose (k + 1) : K) ≠ 0 := by exact_mod_cast (Nat.choose_pos (by omega)).ne'
  have h3 : ((p + 1 : ℕ) : K) * (p.choose k : K) = ((p + 1).choose (k + 1) : K) * ((k + 1 : ℕ) : K) := by
    exact_mod_cast Nat.add_one_mul_choose_eq p k
  simp only [esym, one_mul, zero_mul, add_zero, smul_smul, ← sub_smul]
  congr 1
  field_simp
  linear_combination (esym k ts) * h3

/-- the coefficients of the derivatives -/
def derivCoeff (q : ℕ → Pt K d) (m k : ℕ) : Pt K d := (((k + m).descFactorial m : ℕ) : K) • q (k + m)

theorem derivCoeff_succ (q : ℕ → Pt K d) (m : ℕ) :
    (fun k => ((k + 1 : ℕ) : K) • derivCoeff q m (k + 1)) = derivCoeff q (m + 1) := by
  funext k
  rw [derivCoeff, derivCoeff, smul_smul, show k + 1 + m = k + (m + 1) by omega]
  congr 1
  rw [Nat.descFactorial_succ, show k + (m + 1) - m = k + 1 by omega]
  push_cast; ring

theorem bl_poly_deriv {p n j : ℕ} {U : List K} {u : K} (q : ℕ → Pt K d) (hU : ClampedKnots 0 1 p n U)
    (hs : IsSpan (fn U) n u j) (m : ℕ) : m ≤ p → ∀ ts : List K, ts.length = p - m →
    bl (shiftN m (fn U)) ts (dpt (fn U) p (fn (polarPoints (polyPolar p q) p n U)) m) (j - p) =
      polyPolar (p - m) (derivCoeff q m) ts := by
  induction m with
  | zero =>
    intro _ ts hts
    rw [shiftN_zero]
    have := bl_polarPoints (symAffine_polyPolar p q) hU hs ts hts
    rw [Nat.sub_zero]
    have e : derivCoeff q 0 = q := by funext k; simp [derivCoeff]
    rw [e]; exact this
  | succ m ih =>
    intro hm ts hts
    have ih := ih (by omega)
    rw [dpt_succ _ (by omega), ← shift_shiftN, show p - m = ts.length + 1 by omega, bl_Dv,
      ih (1 :: ts) (by simp; omega), ih (0 :: ts) (by simp; omega),
      show p - m = ts.length + 1 by omega, polyPolar_deriv, derivCoeff_succ,
      show p - (m + 1) = ts.length by omega]

/-- **C61** Every polynomial curve of degree at most `p` has a representation over every clamped
knot vector of degree `p`, with any number of segments and any interior multiplicities; and not only
`evaluate` but all derivatives are those of the polynomial. -/
theorem C61_polynomials {p n : ℕ} {U : List K} (hU : ClampedKnots 0 1 p n U) (q : ℕ → Pt K d) :
    ∃ P c, ValidOn 0 1 c p n U P ∧ ∀ u, 0 ≤ u → u ≤ 1 → ∀ m, m ≤ p →
      c.evaluateDerivative u m =
        .ok (.ok (∑ k ∈ range (p + 1), ((k.descFactorial m : ℕ) * u ^ (k - m) : K) • q k)) := by
  refine ⟨_, _, validOn_canon hU (polarPoints_length (polyPolar p q) p n U), ?_⟩
  intro u h0 h1 m hm
  obtain ⟨j, hj⟩ := hU.clamp.exists_span h0 h1
  rw [evaluateDerivative_eq hU (polarPoints_length ..) hm h0 h1 hj, cv,
    bl_poly_deriv q hU hj m hm _ (by simp), polyPolar_replicate]
  congr 2
  rw [show range (p + 1) = range (m + (p - m + 1)) by congr 1; omega,
    sum_range_add _ m (p - m + 1)]
  rw [sum_eq_zero (s := range m), zero_add]
  · apply sum_congr rfl
    intro k _
    rw [derivCoeff, smul_smul, show m + k = k + m by omega, show k + m - m = k by omega, mul_comm]
  · intro k hk
    rw [Nat.descFactorial_eq_zero_iff_lt.mpr (by simpa using hk)]
    simp

theorem esym_one (ts : List K) : esym 1 ts = ts.sum := by
  induction ts with
  | nil => rfl
  | cons t ts ih => simp only [esym, esym_zero, ih, List.sum_cons]; ring

theorem symAffine_const (v : Pt K d) : SymAffine (fun _ : List K => v) where
  perm _ := rfl
  affine c e _ _ _ hc := by rw [← add_smul, hc, one_smul]

/-- **C61** Linear precision: when the control points lie on a straight line at the Greville abscissae
(the means of `p` consecutive knots), the curve runs along the line with constant speed. With
interior multiplicities at most `p + 1` this is the only such control polygon. -/
theorem C61_linear_precision {c : Curve K d} {p n : ℕ} {U : List K} {P : List (Pt K d)}
    (hc : ValidOn 0 1 c p n U P) (hp : 1 ≤ p) (A B : Pt K d) :
    (P = (List.range (n + 1)).map (fun i => A + (((U.drop (i + 1)).take p).sum / (p : K)) • B) →
      ∀ u, 0 ≤ u → u ≤ 1 → c.evaluate u = .ok (.ok (A + u • B))) ∧
    ((∀ x, 0 < x → x < 1 → U.count x ≤ p + 1) →
      (∀ u, 0 ≤ u → u ≤ 1 → c.evaluate u = .ok (.ok (A + u • B))) →
      P = (List.range (n + 1)).map (fun i => A + (((U.drop (i + 1)).take p).sum / (p : K)) • B)) := by
  have hp0 : (p : K) ≠ 0 := by exact_mod_cast (by omega : p ≠ 0)
  set f : List K → Pt K d := fun ts => A + esym 1 ts • ((1 / (p : K)) • B) with hf
  have hsa : SymAffine f := (symAffine_const A).add ((symAffine_esym 1).smul_const _)
  have hpts : (List.range (n + 1)).map (fun i => A + (((U.drop (i + 1)).take p).sum / (p : K)) • B) =
      polarPoints f p n U := by
    rw [polarPoints]
    apply List.map_congr_left
    intro i _
    rw [hf]; dsimp only
    rw [esym_one, smul_smul, mul_one_div]
  have hval : ∀ u, f (List.replicate p u) = A + u • B := by
    intro u
    rw [hf]; dsimp only
    rw [esym_one, smul_smul, List.sum_replicate, nsmul_eq_mul]
    congr 2
    field_simp
  have fwd : ∀ c, ValidOn 0 1 c p n U (polarPoints f p n U) → ∀ u, 0 ≤ u → u ≤ 1 →
      c.evaluate u = .ok (.ok (A + u • B)) := by
    intro c hc u h0 h1
    rw [C61_polar_forms hsa hc h0 h1, hval]
  rw [hpts]
  refine ⟨?_, ?_⟩
  · rintro rfl; exact fwd c hc
  · intro hm h
    have hc' := validOn_canon hc.2.1 (polarPoints_length f p n U)
    refine (C55_control_points_unique hc hc' hm ?_).1
    intro u h0 h1
    rw [h u h0 h1, fwd _ hc' u h0 h1]

/-- **C61** Marsden's identity: the control points `Π (y - u_j)` over `p` consecutive knots give
`(y - u)^p`. -/
theorem C61_marsden {c : Curve K d} {p n : ℕ} {U : List K} (y : K) (v : Pt K d)
    (hc : ValidOn 0 1 c p n U ((List.range (n + 1)).map
      (fun i => (((U.drop (i + 1)).take p).map (y - ·)).prod • v))) {u : K} (h0 : 0 ≤ u) (h1 : u ≤ 1) :
    c.evaluate u = .ok (.ok ((y - u) ^ p • v)) := by
  have := C61_polar_forms ((symAffine_prod y).smul_const v) hc h0 h1
  rw [this]
  simp

/-- non-vacuity: a quadratic over knots with a double interior knot, from its polar form -/
example : polarPoints (polyPolar 2 (fun k => if k = 0 then ![1] else if k = 2 then ![4] else ![0]))
    2 4 [(0 : ℚ), 0, 0, 1 / 2, 1 / 2, 1, 1, 1] =
    [![1], ![1], ![2], ![3], ![5]] := by
  decide +kernel

example : ∃ c, ValidOn 0 1 c 2 4 [(0 : ℚ), 0, 0, 1 / 2, 1 / 2, 1, 1, 1]
    [![1], ![1], ![2], ![3], ![5]] ∧ c.evaluate (1 / 4) = .ok (.ok ![1 + 4 * (1 / 4) ^ 2]) :=
  ⟨_, validOn_canon (by decide +kernel) rfl, by decide +kernel⟩

end BSpline
