import Verif.Spec.Inexact
import Verif.Props.Interpolate

/-!
# Interpolation and fits with a solver that leaves a residual: C98

The optimality theorems (C40, C42, C43) assume a solver that solves the linear systems exactly. The one of
the code does so only up to rounding. These theorems say what a residual costs.
-/

namespace BSpline

open Finset

variable {K : Type} [Field K] [LinearOrder K] [IsStrictOrderedRing K] {d : ℕ}

/-- Exact solvers are those without a residual. -/
theorem exact_iff_within {s : Solver K d} : s.Exact ↔ s.Within 0 := by
  refine forall₂_congr fun A b => imp_congr_right fun _ => ?_
  refine and_congr_right fun _ => and_congr_right fun _ => forall₂_congr fun g _ => forall_congr' fun r => ?_
  rw [abs_nonpos_iff, sub_eq_zero]

omit [IsStrictOrderedRing K] in
theorem solvesWithin_mat {rho : K} {r c : ℕ} {A : ℕ → ℕ → K} {x b : List (Pt K d)} (hx : x.length = c)
    (hb : b.length = r) (h : SolvesWithin rho (mat r c A) x b) (g : ℕ) (hg : g < r) (ρ : Fin d) :
    |∑ i ∈ range c, A g i * fn x i ρ - fn b g ρ| ≤ rho := by
  have := h.2.2 g (by rw [mat_length]; exact hg) ρ
  have e1 : (b.getD g 0) ρ = fn b g ρ := by rw [getD_eq_fn (by omega)]
  have e2 : ∀ i ∈ range c, ((mat r c A).getD g []).getD i 0 * (x.getD i 0) ρ = A g i * fn x i ρ := by
    intro i hi
    rw [mem_range] at hi
    rw [getD_eq_fn (l := x) (by omega)]
    simp [mat, List.getD_eq_getElem?_getD, hg, hi]
  rw [hx, e1, sum_congr rfl e2] at this
  exact this

/-- the normal equations can be solved -/
theorem normal_system {r c : ℕ} (A : ℕ → ℕ → K) (l : ℕ → ℕ) (pen : Option (Penalization K)) (hl : 0 ≤ penLam pen)
    (B : ℕ → Pt K d) {b : List (Pt K d)} (hb : b = (List.range c).map (rhsE r A B)) :
    ∃ x, Solves (mat c c (normE r A l pen)) x b := by
  choose x hx using fun ρ : Fin d => normal_solvable r (penRows l pen) c A (penD pen) hl
    (fun g => B g ρ)
  refine ⟨(List.range c).map (fun i ρ => x ρ i), ?_⟩
  rw [solves_mat (by simp) (by rw [hb]; simp)]
  intro i hi ρ
  rw [hb, fn_map_range _ hi, rhsE_eq, ← hx ρ i hi]
  apply sum_congr rfl
  intro j hj
  rw [fn_map_range _ (mem_range.mp hj), normE_eq]

/-- the normal equations with a residual -/
theorem within_normal {rho : K} {r c : ℕ} {A : ℕ → ℕ → K} {l : ℕ → ℕ} {pen : Option (Penalization K)}
    {B : ℕ → Pt K d} {b x : List (Pt K d)} (hb : b = (List.range c).map (rhsE r A B)) (hx : x.length = c)
    (hs : SolvesWithin rho (mat c c (normE r A l pen)) x b) (ρ : Fin d) :
    ∀ i, i < c → |∑ j ∈ range c, nm r (penRows l pen) A (penD pen) (penLam pen) i j *
        fn x j ρ - ∑ g ∈ range r, A g i * B g ρ| ≤ rho := by
  intro i hi
  have := solvesWithin_mat hx (by rw [hb]; simp) hs i hi ρ
  rw [hb, fn_map_range _ hi, rhsE_eq] at this
  simp only [normE_eq] at this
  exact this

/-- the functional at an approximate solution of the normal equations -/
theorem lsq_within {r l c : ℕ} {A D : ℕ → ℕ → K} {lam rho : K} (hl : 0 ≤ lam) {y x : ℕ → K}
    (hx : ∀ i, i < c → |∑ j ∈ range c, nm r l A D lam i j * x j - ∑ g ∈ range r, A g i * y g| ≤ rho)
    (z : ℕ → K) : lsq r l c A D lam y x + ∑ g ∈ range r, (mv c A x g - mv c A z g) ^ 2 ≤
      lsq r l c A D lam y z + 2 * rho * ∑ i ∈ range c, |x i - z i| := by
  have cross : ∑ g ∈ range r, (mv c A x g - y g) * mv c A (fun j => z j - x j) g +
      lam * ∑ h ∈ range l, mv c D x h * mv c D (fun j => z j - x j) h =
      ∑ i ∈ range c, (z i - x i) * (∑ j ∈ range c, nm r l A D lam i j * x j - ∑ g ∈ range r, A g i * y g) := by
    rw [sum_mul_mv, sum_mul_mv, mul_sum, ← sum_add_distrib]
    refine sum_congr rfl fun i hi => ?_
    rw [sum_nm]
    have h2 : ∑ g ∈ range r, A g i * (mv c A x g - y g) =
        ∑ g ∈ range r, A g i * mv c A x g - ∑ g ∈ range r, A g i * y g := by
      rw [← sum_sub_distrib]; apply sum_congr rfl; intro g _; ring
    rw [h2]
    ring
  have hc : -(rho * ∑ i ∈ range c, |x i - z i|) ≤
      ∑ i ∈ range c, (z i - x i) * (∑ j ∈ range c, nm r l A D lam i j * x j - ∑ g ∈ range r, A g i * y g) := by
    rw [mul_sum, ← sum_neg_distrib]
    refine sum_le_sum fun i hi => ?_
    have h1 := hx i (mem_range.mp hi)
    have h2 := neg_abs_le ((z i - x i) * (∑ j ∈ range c, nm r l A D lam i j * x j - ∑ g ∈ range r, A g i * y g))
    rw [abs_mul, abs_sub_comm (z i)] at h2
    have := mul_le_mul_of_nonneg_left h1 (abs_nonneg (x i - z i))
    rw [mul_comm rho]
    linarith
  have e1 : ∑ g ∈ range r, (mv c A z g - y g) ^ 2 = ∑ g ∈ range r, (mv c A x g - y g) ^ 2 +
      2 * ∑ g ∈ range r, (mv c A x g - y g) * mv c A (fun j => z j - x j) g +
      ∑ g ∈ range r, mv c A (fun j => z j - x j) g ^ 2 := by
    rw [mul_sum, ← sum_add_distrib, ← sum_add_distrib]
    apply sum_congr rfl; intro g _; rw [mv_sub]; ring
  have e2 : ∑ h ∈ range l, mv c D z h ^ 2 = ∑ h ∈ range l, mv c D x h ^ 2 +
      2 * ∑ h ∈ range l, mv c D x h * mv c D (fun j => z j - x j) h +
      ∑ h ∈ range l, mv c D (fun j => z j - x j) h ^ 2 := by
    rw [mul_sum, ← sum_add_distrib, ← sum_add_distrib]
    apply sum_congr rfl; intro g _; rw [mv_sub]; ring
  have h1 : ∑ g ∈ range r, (mv c A x g - mv c A z g) ^ 2 = ∑ g ∈ range r, mv c A (fun j => z j - x j) g ^ 2 :=
    sum_congr rfl fun g _ => by rw [mv_sub]; ring
  have h2 : 0 ≤ lam * ∑ h ∈ range l, mv c D (fun j => z j - x j) h ^ 2 :=
    mul_nonneg hl (sum_nonneg (fun _ _ => sq_nonneg _))
  rw [← cross] at hc
  rw [lsq, lsq, e1, e2, h1]
  linarith

/-- the sum of the distances of two polygons, coordinate by coordinate -/
def l1Dist (P P' : List (Pt K d)) : K := ∑ i ∈ range P.length, ∑ r, |(P.getD i 0) r - (P'.getD i 0) r|

omit [IsStrictOrderedRing K] in
theorem l1Dist_eq {n : ℕ} {P P' : List (Pt K d)} (hP : P.length = n) (hP' : P'.length = n) :
    l1Dist P P' = ∑ r, ∑ i ∈ range n, |fn P i r - fn P' i r| := by
  rw [l1Dist, sum_comm, hP]
  refine sum_congr rfl fun r _ => sum_congr rfl fun i hi => ?_
  rw [mem_range] at hi
  rw [getD_eq_fn (by omega), getD_eq_fn (by omega)]

/-- **C98** A fit with loose ends hands a solvable system to the solver. If the answer has a residual of at most
`rho`, then the cost of the fit exceeds the one of any other control polygon by at most `2 rho` times the
distance of the two polygons; and the squared distances `δ` of the two curves at the parameters fit into the
same bound. -/
theorem C98_loose {p n m : ℕ} {U : List K} {kn : Knots K} {pts P : DataPoints K d}
    {params : Parameters K} {solver : Solver K d} {pen : Option (Penalization K)}
    (hk : Knots.new p U = .ok kn) (hU : ClampedKnots 0 1 p n U) (h1 : 1 ≤ p)
    (hm : List.length pts = m + 1) (hv : params.vector.length = params.segments + 1)
    (hτ : ∀ x ∈ params.vector, 0 ≤ x ∧ x ≤ 1)
    (hfit : Loose.fit solver kn pts params pen = .ok (.ok P)) :
    ∃ (c : Curve K d) (e : K) (A : List (List K)) (b : List (Pt K d)), Built c p U P ∧ List.length P = n + 1 ∧
      SqError c params.vector pts (range (m + 1)) e ∧ P = solver.run A b ∧ (∃ x, Solves A x b) ∧
      ∀ rho, SolvesWithin rho A P b →
      ∀ (P' : List (Pt K d)) (c' : Curve K d) (e' : K), P'.length = n + 1 → Built c' p U P' →
        SqError c' params.vector pts (range (m + 1)) e' →
        ∀ (V : List (Pt K d)) (δ : K), V.length = m + 1 →
        (∀ g, g ≤ m → c'.evaluate (params.vector.getD g 0) = .ok (.ok (V.getD g 0))) →
        SqError c params.vector V (range (m + 1)) δ →
        e + penaltyCost pen P + δ ≤ e' + penaltyCost pen P' + 2 * rho * l1Dist P P' := by
  have hl := hU.length
  obtain ⟨-, rfl⟩ := knots_new_inv hk
  rw [loose_fit_ok hU.length h1 hm hv] at hfit
  injection hfit with hfit
  cases he : fitErrorOf n m params.segments p pen (unif p n U) with
  | some e => rw [he] at hfit; cases hfit
  | none =>
    rw [he] at hfit
    injection hfit with hfit
    obtain ⟨h2, h3, h4, h5⟩ := fitErrorOf_none he
    have hlen : List.length P = n + 1 := by rw [← hfit, solver.shape, ncols_mat _ (by omega)]
    have hI := loose_range hm hv h3
    have hb := mkCurve_ok hlen hU.le (show n + p + 1 ≤ U.length by omega)
    refine ⟨canon p U P, _, _, _, hb, hlen, (sqError_iff hU hlen hb hI hτ).mpr rfl, hfit.symm,
      normal_system _ _ _ h5 _ rfl, ?_⟩
    intro rho hrho P' c' e' hP' hc' he' V δ hVl hV hδ
    have key := within_normal rfl hlen hrho
    have hVr : ∀ g ∈ range (m + 1), ∀ ρ, fn V g ρ = ∑ i ∈ range (n + 1), nb p n U i (fn params.vector g) * fn P' i ρ := by
      intro g hg ρ
      rw [mem_range] at hg
      have h6 := hτ (fn params.vector g) (by rw [fn_lt (by omega)]; exact List.getElem_mem _)
      have h7 := hV g (by omega)
      obtain rfl := hc'.eq_canon hU.length hU.le hP'
      rw [getD_eq_fn (by omega), getD_eq_fn (by omega), evaluate_sum hU hP' h6.1 h6.2] at h7
      injection h7 with h7; injection h7 with h7
      rw [← h7, Finset.sum_apply]
      rfl
    rw [(sqError_iff hU hP' hc' hI hτ).mp he', (sqError_iff hU hlen hb (fun g hg => ⟨(hI g hg).1, by
      rw [mem_range] at hg; omega⟩) hτ).mp hδ, penaltyCost_eq hlen, penaltyCost_eq hP', sum_comm,
      sum_comm (s := range (m + 1)), sum_comm (s := range (m + 1)), ← sum_add_distrib, ← sum_add_distrib,
      ← sum_add_distrib, l1Dist_eq hlen hP', mul_sum, ← sum_add_distrib]
    apply sum_le_sum
    intro ρ _
    refine le_trans (le_of_eq ?_) (lsq_within h5 (key ρ) (fun j => fn P' j ρ))
    congr 1
    exact sum_congr rfl fun g hg => by rw [hVr g hg ρ]; rfl

/-- **C98** The same for a fit with fixed ends; only the inner control points are computed, the ends are met
exactly whatever the solver does. -/
theorem C98_fixed {p n m : ℕ} {U : List K} {kn : Knots K} {pts P : DataPoints K d}
    {params : Parameters K} {solver : Solver K d} {pen : Option (Penalization K)}
    (hk : Knots.new p U = .ok kn) (hU : ClampedKnots 0 1 p n U) (h1 : 1 ≤ p)
    (hm : List.length pts = m + 1) (hv : params.vector.length = params.segments + 1)
    (hτ : ∀ x ∈ params.vector, 0 ≤ x ∧ x ≤ 1)
    (hfit : Fixed.fit solver kn pts params pen = .ok (.ok P)) :
    ∃ (c : Curve K d) (e : K) (A : List (List K)) (b : List (Pt K d)), Built c p U P ∧ List.length P = n + 1 ∧
      c.evaluate 0 = .ok (.ok (pts.getD 0 0)) ∧ c.evaluate 1 = .ok (.ok (pts.getD m 0)) ∧
      SqError c params.vector pts (Ico 1 m) e ∧ P.tail.dropLast = solver.run A b ∧ (∃ x, Solves A x b) ∧
      ∀ rho, SolvesWithin rho A P.tail.dropLast b →
      ∀ (P' : List (Pt K d)) (c' : Curve K d) (e' : K), P'.length = n + 1 → Built c' p U P' →
        P'[0]? = pts[0]? → P'[n]? = pts[m]? → SqError c' params.vector pts (Ico 1 m) e' →
        e + penaltyCost pen P.tail.dropLast ≤ e' + penaltyCost pen P'.tail.dropLast + 2 * rho * l1Dist P P' := by
  have hl := hU.length
  obtain ⟨-, rfl⟩ := knots_new_inv hk
  have hcond : fitErrorOf n m params.segments p pen (unif p n U) = none →
      2 ≤ n ∧ ∀ q, pen = some q → q.kappa + 2 ≤ n := by
    intro he
    by_contra hcon
    obtain ⟨e, h⟩ := C44_fixed_panics hk hl h1 hm hv (fun h2 => isUniform_ok hl h1 h2) solver pen he (by
      obtain ⟨h2, h3, h4, h5⟩ := fitErrorOf_none he
      by_contra h6
      push Not at h6
      refine hcon ⟨by omega, fun q hq => ?_⟩
      rw [fitErrorOf_eq] at he
      cases h7 : checkErrorOf n m params.segments p pen with
      | some e => rw [h7] at he; simp at he
      | none =>
        have h8 := (checkErrorOf_none h7).2.2.2 q hq
        have h9 := h6.2 q (by simp [hq])
        omega)
    rw [hfit] at h
    cases h
  rw [fixed_fit_ok hl h1 hm hv solver pen hcond] at hfit
  injection hfit with hfit
  cases he : fitErrorOf n m params.segments p pen (unif p n U) with
  | some e => rw [he] at hfit; cases hfit
  | none =>
    rw [he] at hfit
    injection hfit with hfit
    obtain ⟨h2, h3, h4, h5⟩ := fitErrorOf_none he
    have hn := (hcond he).1
    generalize hA : mat (n - 1) (n - 1) (normE (m - 1)
      (fun g i => nb p n U (i + 1) (fn params.vector (g + 1))) (fun κ => n - 1 - κ) pen) = A at hfit
    generalize hB : (List.range (n - 1)).map (fun i => fixAcc p n m U pts params.vector (i + 1)) = B at hfit
    have hB' : B = (List.range (n - 1)).map (rhsE (m - 1) (fun g i => nb p n U (i + 1) (fn params.vector (g + 1)))
        (fun g => fixQ p n m U pts params.vector (g + 1))) := by
      rw [← hB]
      exact List.map_congr_left (fun i _ => fixAcc_eq i)
    have hrun : (solver.run A B).length = n - 1 := by rw [← hA, solver.shape, ncols_mat _ (by omega)]
    have hlen : List.length P = n + 1 := by rw [← hfit]; simp
    have hfn : ∀ i, i ≤ n → fn P i = fixP n m pts (solver.run A B) i := by
      intro i hi
      rw [← hfit, fn_map_range _ (by omega)]
    have hP0 : fn P 0 = fn pts 0 := by rw [hfn 0 (by omega), fixP, if_pos rfl]
    have hPn : fn P n = fn pts m := by rw [hfn n le_rfl, fixP, if_neg (by omega), if_pos rfl]
    have hinner : P.tail.dropLast = solver.run A B := by
      apply ext_fn ((length_inner hlen).trans hrun.symm)
      intro i hi
      rw [length_inner hlen] at hi
      rw [fn_inner (by omega), hfn (i + 1) (by omega), fixP, if_neg (by omega), if_neg (by omega),
        Nat.add_sub_cancel]
    have hI := fixed_range hm hv h3
    have hb := mkCurve_ok hlen hU.le (show n + p + 1 ≤ U.length by omega)
    have hP0' : P[0]? = pts[0]? := (getElem?_eq_iff_fn (by omega) (by omega)).mpr hP0
    have hPn' : P[n]? = pts[m]? := (getElem?_eq_iff_fn (by omega) (by omega)).mpr hPn
    obtain ⟨e0, e1⟩ := C07_endpoints (show ValidOn 0 1 (canon p U P) p n U P from ⟨hb, hU, hlen⟩)
      (first := pts.getD 0 0) (last := pts.getD m 0)
      (by rw [List.head?_eq_getElem?, hP0', List.getElem?_eq_getElem (by omega),
            List.getD_eq_getElem _ _ (by omega)])
      (by rw [List.getLast?_eq_getElem?, hlen, Nat.add_sub_cancel, hPn',
            List.getElem?_eq_getElem (by omega), List.getD_eq_getElem _ _ (by omega)])
    refine ⟨canon p U P, _, A, B, hb, hlen, e0, e1, (sqError_iff hU hlen hb hI hτ).mpr rfl, hinner, ?_, ?_⟩
    · rw [← hA]
      exact normal_system _ _ _ h5 _ hB'
    intro rho hrho P' c' e' hP' hc' hP'0 hP'n he'
    rw [← hA] at hrho
    have key := within_normal hB' (length_inner hlen) hrho
    rw [getElem?_eq_iff_fn (by omega) (by omega)] at hP'0 hP'n
    have hd : l1Dist P P' = ∑ r, ∑ i ∈ range (n - 1), |fn P.tail.dropLast i r - fn P'.tail.dropLast i r| := by
      rw [l1Dist_eq hlen hP']
      refine sum_congr rfl fun r _ => ?_
      rw [sum_inner (by omega), hP0, hPn, hP'0, hP'n, sub_self, sub_self, abs_zero, zero_add, zero_add]
      refine sum_congr rfl fun i hi => ?_
      rw [mem_range] at hi
      rw [fn_inner (by omega), fn_inner (by omega)]
    rw [(sqError_iff hU hP' hc' hI hτ).mp he', penaltyCost_eq (length_inner hlen),
      penaltyCost_eq (length_inner hP'), sum_comm,
      sum_comm (s := Ico 1 m), ← sum_add_distrib, ← sum_add_distrib, hd, mul_sum, ← sum_add_distrib]
    apply sum_le_sum
    intro ρ _
    rw [fixed_error hn hlen hP0 hPn, fixed_error hn hP' hP'0 hP'n]
    refine le_trans ?_ (lsq_within h5 (key ρ) (fun j => fn P'.tail.dropLast j ρ))
    exact le_add_of_nonneg_right (sum_nonneg fun _ _ => sq_nonneg _)

/-- **C98** The values of a fit whose solver leaves a residual, compared with those of the best fit: the squared
distances of the two curves at the parameters add up to at most `2 rho` times the distance of their polygons. -/
theorem C98_values {p n m : ℕ} {U : List K} {kn : Knots K} {pts P P₀ : DataPoints K d}
    {params : Parameters K} {solver s₀ : Solver K d} {rho : K} {pen : Option (Penalization K)}
    (hk : Knots.new p U = .ok kn) (hU : ClampedKnots 0 1 p n U) (h1 : 1 ≤ p)
    (hm : List.length pts = m + 1) (hv : params.vector.length = params.segments + 1)
    (hτ : ∀ x ∈ params.vector, 0 ≤ x ∧ x ≤ 1)
    (hfit : Loose.fit solver kn pts params pen = .ok (.ok P)) (hs : solver.Within rho)
    (hfit₀ : Loose.fit s₀ kn pts params pen = .ok (.ok P₀)) (hs₀ : s₀.Exact) {c c₀ : Curve K d}
    (hc : Built c p U P) (hc₀ : Built c₀ p U P₀) {V : List (Pt K d)} {δ : K} (hVl : V.length = m + 1)
    (hV : ∀ g, g ≤ m → c₀.evaluate (params.vector.getD g 0) = .ok (.ok (V.getD g 0)))
    (hδ : SqError c params.vector V (range (m + 1)) δ) : δ ≤ 2 * rho * l1Dist P P₀ := by
  obtain ⟨c', e, A, b, h2, h3, h4, h5, h6, h7⟩ := C98_loose hk hU h1 hm hv hτ hfit
  obtain ⟨c₁, e₁, g2, g3, g4, g5⟩ := C42_loose_optimal hs₀ hk hU h1 hm hv hτ hfit₀
  obtain rfl : c' = c := by
    rw [Built, hc] at h2; injection h2 with h2; injection h2 with h2; exact h2.symm
  obtain rfl : c₁ = c₀ := by
    rw [Built, hc₀] at g2; injection g2 with g2; injection g2 with g2; exact g2.symm
  have h8 := h7 rho (h5 ▸ hs A b h6) P₀ c₁ e₁ g3 hc₀ g4 V δ hVl hV hδ
  have h9 := g5 P c' e h3 hc h4
  linarith

section
variable [Trunc K] [Sqrt K]

/-- **C98** `generate`d interpolation: the solver gets a solvable system; if its answer has a residual of at most
`rho`, then the curve passes the data point `g` at the parameter `g / m` at a distance of at most `rho` in
every coordinate. -/
theorem C98_interpolation {p m : ℕ} {pts : DataPoints K d} (solver : Solver K d)
    (h1 : 1 ≤ p) (h2 : p ≤ m) (hm : List.length pts = m + 1) :
    ∃ (c : Curve K d) (U : List K) (P : List (Pt K d)) (A : List (List K)),
      generate solver (.interpolation p pts) = .ok (.ok c) ∧ ValidOn 0 1 c p m U P ∧ P = solver.run A pts ∧
      (∃ x, Solves A x pts) ∧ ∀ rho, SolvesWithin rho A P pts → ∀ (g : ℕ) q, pts[g]? = some q →
      ∃ v, c.evaluate ((g : K) / (m : K)) = .ok (.ok v) ∧ ∀ r, |v r - q r| ≤ rho := by
  obtain ⟨ps, h3, h3', h4, h5, -⟩ := C39_equally_spaced (K := K) (m := m) (by omega)
  have hm0 : (0 : K) < (m : K) := by exact_mod_cast (by omega : 0 < m)
  have hU := uniform_clamped (K := K) h1 h2
  have hfn : ∀ g, g ≤ m → fn ps.vector g = (g : K) / (m : K) := by
    intro g hg
    have := h5 g hg
    rw [List.getElem?_eq_getElem (by omega)] at this
    injection this with this
    rw [fn_lt (by omega), this]
  have hrun := interpolate_ok (genU_length p m (uniK (K := K) p m)) h2 hm h4 solver
  generalize hA : mat (m + 1) (m + 1) (fun g i => nb p m (genU p m (uniK (K := K) p m)) i (fn ps.vector g)) = A at hrun
  have hP : (solver.run A pts).length = m + 1 := by rw [← hA, solver.shape, ncols_mat _ (by omega)]
  have hmk := mkCurve_ok hP h2 (show m + p + 1 ≤ (genU p m (uniK (K := K) p m)).length by
    rw [genU_length]; omega)
  refine ⟨_, _, _, A, ?_, ⟨hmk, hU, hP⟩, rfl, ?_, ?_⟩
  · rw [generate]
    simp only [generateParams, DataPoints.segments, generateKnots]
    rw [usub_ok (by omega), ok_bind, hm, Nat.add_sub_cancel, h3, ok_bind, ok_bind, uniform_ok h1 h2,
      ok_bind]
    dsimp only
    rw [hrun, ok_bind, ← hmk, mkCurve, genKnots_new h2, ok_bind]
  · obtain ⟨s₀, hs₀⟩ := exists_exact_solver K d
    refine ⟨s₀.run A pts, ?_⟩
    rw [← hA, solves_mat (by rw [s₀.shape, ncols_mat _ (by omega)]) hm]
    refine exact_regular hs₀ (Nat.succ_pos m) (fun x hx => ?_) hm
    have := (uniform_schoenbergWhitney' h1 h2).kernel hU (c := x) (fun g hg => by
      rw [← hx g (by omega), hfn g hg])
    exact fun i hi => this i (by omega)
  · intro rho hrho g q hg
    have hgm : g ≤ m := by
      have := (List.getElem?_eq_some_iff.mp hg).1
      omega
    refine ⟨_, evaluate_sum hU hP (by positivity) (by
      rw [div_le_one hm0]; exact_mod_cast hgm), fun r => ?_⟩
    have hq : q = fn pts g := by
      rw [fn_lt (by omega)]
      exact (List.getElem?_eq_some_iff.mp hg).2.symm
    rw [← hA] at hrho
    have := solvesWithin_mat (by rw [hA]; exact hP) hm hrho g (by omega) r
    rw [hA, hfn g hgm] at this
    rw [hq, Finset.sum_apply]
    exact this

end

/-- non-vacuity: a solver that is wrong by `1/100` in one system, and right otherwise -/
example : ∃ s : Solver ℚ 1, s.Within (1 / 100) ∧ ¬ s.Exact := by
  obtain ⟨s, hs⟩ := exists_exact_solver ℚ 1
  have hx : Solves [[(1 : ℚ)]] [fun _ : Fin 1 => 0] [fun _ => 0] := by
    refine ⟨rfl, by decide +kernel, ?_⟩
    intro g hg r
    obtain rfl : g = 0 := by simpa using hg
    revert r
    decide +kernel
  have hbad : ¬ Solves [[(1 : ℚ)]] [fun _ : Fin 1 => (1 / 100 : ℚ)] [fun _ => 0] := by
    rintro ⟨-, -, h⟩
    have := h 0 (by decide) 0
    revert this
    decide +kernel
  have hgood : SolvesWithin (1 / 100) [[(1 : ℚ)]] [fun _ : Fin 1 => (1 / 100 : ℚ)] [fun _ => 0] := by
    refine ⟨rfl, by decide +kernel, ?_⟩
    intro g hg r
    obtain rfl : g = 0 := by simpa using hg
    revert r
    decide +kernel
  classical
  refine ⟨⟨fun A b => if A = [[1]] ∧ b = [fun _ => 0] then [fun _ => 1 / 100] else s.run A b, ?_⟩, ?_, ?_⟩
  · intro A b
    split
    · next h => rw [h.1]; rfl
    · exact s.shape A b
  · intro A b h
    dsimp only
    split
    · next e => rw [e.1, e.2]; exact hgood
    · obtain ⟨h1, h2, h3⟩ := hs A b h
      refine ⟨h1, h2, fun g hg r => ?_⟩
      rw [h3 g hg r, sub_self, abs_zero]
      norm_num
  · intro h
    have := h [[1]] [fun _ => 0] ⟨_, hx⟩
    simp only [and_self, if_true] at this
    exact hbad this

end BSpline
