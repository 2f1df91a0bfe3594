import Verif.Props.Equivariant
import Verif.Refine.Merge

/-!
# What the penalty of a fit does: C74

A larger `lambda` makes the control points smoother and the fit worse, and data of a curve whose
control points have no `kappa`-th differences are reproduced whatever `lambda` is.
-/

set_option linter.unusedSectionVars false

namespace BSpline

open Finset fwdDiff

variable {K : Type} [Field K] [LinearOrder K] [IsStrictOrderedRing K] {d : ℕ}

/-- the two optima against each other -/
theorem trade_off {l1 l2 e1 e2 r1 r2 : K} (h0 : 0 ≤ l1) (hl : l1 ≤ l2)
    (h1 : e1 + l1 * r1 < e2 + l1 * r2) (h2 : e2 + l2 * r2 < e1 + l2 * r1) :
    e1 ≤ e2 ∧ r2 ≤ r1 := by
  have h3 : r2 < r1 := by nlinarith
  exact ⟨by nlinarith, h3.le⟩

variable [Trunc K] [Sqrt K]

theorem fitErrorOf_pen {n m s p : ℕ} {pen : Option (Penalization K)} {b : Bool}
    (h : fitErrorOf n m s p pen b = none) : 0 ≤ penLam pen := (fitErrorOf_none h).2.2.2

/-- **C74** With loose ends and a larger `lambda` the error does not decrease and the roughness does
not increase. -/
theorem C74_loose_monotone {p n m κ : ℕ} {pts : DataPoints K d} {solver : Solver K d} {l1 l2 : K}
    {c1 c2 : Curve K d} (hs : solver.Exact) (h1 : 1 ≤ p) (h2 : p ≤ n)
    (hm : List.length pts = m + 1) (hl : l1 ≤ l2)
    (hg1 : generate solver (.leastSquaresFit p pts n .looseEnds (some ⟨l1, κ⟩)) = .ok (.ok c1))
    (hg2 : generate solver (.leastSquaresFit p pts n .looseEnds (some ⟨l2, κ⟩)) = .ok (.ok c2)) :
    ∃ (ps : Parameters K) (U : List K) (P1 P2 : List (Pt K d)) (e1 e2 : K),
      equallySpaced m = .ok ps ∧ ValidOn 0 1 c1 p n U P1 ∧ ValidOn 0 1 c2 p n U P2 ∧
      SqError c1 ps.vector pts (range (m + 1)) e1 ∧ SqError c2 ps.vector pts (range (m + 1)) e2 ∧
      e1 ≤ e2 ∧ roughness κ P2 ≤ roughness κ P1 := by
  have h0 : 0 ≤ l1 := by
    cases he : fitErrorOf n m m p (some ⟨l1, κ⟩) true with
    | none => exact fitErrorOf_pen he
    | some e =>
      rw [(C44_generate_loose h1 h2 hm solver _).1 e he] at hg1
      injection hg1 with hg1; cases hg1
  obtain ⟨ps, kn, U, P1, e1, a1, a2, a3, a4, a5, a6⟩ := C58_loose_unique hs h1 h2 hm hg1
  obtain ⟨ps', kn', U', P2, e2, b1, b2, b3, b4, b5, b6⟩ := C58_loose_unique hs h1 h2 hm hg2
  rw [a2] at b2
  injection b2 with b2; injection b2 with b2; subst b2
  rw [a3] at b3
  injection b3 with b3; subst b3
  rw [a1] at b1
  injection b1 with b1; subst b1
  by_cases hP : P2 = P1
  · subst hP
    have : c2 = c1 := by rw [b4.eq_canon, a4.eq_canon]
    subst this
    exact ⟨ps, U, P2, P2, e1, e1, a1, a4, a4, a5, a5, le_rfl, le_rfl⟩
  · have d1 := a6 P2 c2 e2 b4.2.2 b4.1 b5 hP
    have d2 := b6 P1 c1 e1 a4.2.2 a4.1 a5 (Ne.symm hP)
    have : e1 ≤ e2 ∧ roughness κ P2 ≤ roughness κ P1 := by
      simp only [penaltyCost] at d1 d2
      by_cases hκ : κ = 0
      · rw [if_pos hκ, if_pos hκ] at d1 d2
        linarith
      · rw [if_neg hκ, if_neg hκ] at d1 d2
        exact trade_off h0 hl d1 d2
    exact ⟨ps, U, P1, P2, e1, e2, a1, a4, b4, a5, b5, this.1, this.2⟩

/-- **C74** The same with fixed ends, for the error at the inner data and the roughness of the inner
control points. -/
theorem C74_fixed_monotone {p n m κ : ℕ} {pts : DataPoints K d} {solver : Solver K d} {l1 l2 : K}
    {c1 c2 : Curve K d} (hs : solver.Exact) (h1 : 1 ≤ p) (h2 : p ≤ n)
    (hm : List.length pts = m + 1) (hl : l1 ≤ l2)
    (hg1 : generate solver (.leastSquaresFit p pts n .fixedEnds (some ⟨l1, κ⟩)) = .ok (.ok c1))
    (hg2 : generate solver (.leastSquaresFit p pts n .fixedEnds (some ⟨l2, κ⟩)) = .ok (.ok c2)) :
    ∃ (ps : Parameters K) (U : List K) (P1 P2 : List (Pt K d)) (e1 e2 : K),
      equallySpaced m = .ok ps ∧ ValidOn 0 1 c1 p n U P1 ∧ ValidOn 0 1 c2 p n U P2 ∧
      SqError c1 ps.vector pts (Ico 1 m) e1 ∧ SqError c2 ps.vector pts (Ico 1 m) e2 ∧
      e1 ≤ e2 ∧ roughness κ P2.tail.dropLast ≤ roughness κ P1.tail.dropLast := by
  have h0 : 0 ≤ l1 := by
    cases he : fitErrorOf n m m p (some ⟨l1, κ⟩) true with
    | none => exact fitErrorOf_pen he
    | some e =>
      rw [(C44_generate_fixed_partial h1 h2 hm solver _).1 e he] at hg1
      injection hg1 with hg1; cases hg1
  obtain ⟨ps, kn, U, P1, e1, a1, a2, a3, a4, aF, aL, a5, a6⟩ := C58_fixed_unique hs h1 h2 hm hg1
  obtain ⟨ps', kn', U', P2, e2, b1, b2, b3, b4, bF, bL, b5, b6⟩ := C58_fixed_unique hs h1 h2 hm hg2
  rw [a2] at b2
  injection b2 with b2; injection b2 with b2; subst b2
  rw [a3] at b3
  injection b3 with b3; subst b3
  rw [a1] at b1
  injection b1 with b1; subst b1
  by_cases hP : P2 = P1
  · subst hP
    have : c2 = c1 := by rw [b4.eq_canon, a4.eq_canon]
    subst this
    exact ⟨ps, U, P2, P2, e1, e1, a1, a4, a4, a5, a5, le_rfl, le_rfl⟩
  · have d1 := a6 P2 c2 e2 b4.2.2 b4.1 bF bL b5 hP
    have d2 := b6 P1 c1 e1 a4.2.2 a4.1 aF aL a5 (Ne.symm hP)
    have : e1 ≤ e2 ∧ roughness κ P2.tail.dropLast ≤ roughness κ P1.tail.dropLast := by
      simp only [penaltyCost] at d1 d2
      by_cases hκ : κ = 0
      · rw [if_pos hκ, if_pos hκ] at d1 d2
        linarith
      · rw [if_neg hκ, if_neg hκ] at d1 d2
        exact trade_off h0 hl d1 d2
    exact ⟨ps, U, P1, P2, e1, e2, a1, a4, b4, a5, b5, this.1, this.2⟩

/-- **C74** A penalty never makes the error at the data smaller than without one. -/
theorem C74_loose_worse {p n m : ℕ} {pts : DataPoints K d} {solver : Solver K d}
    {pen : Option (Penalization K)} {c c' : Curve K d} (hs : solver.Exact) (h1 : 1 ≤ p) (h2 : p ≤ n)
    (hm : List.length pts = m + 1)
    (hg : generate solver (.leastSquaresFit p pts n .looseEnds none) = .ok (.ok c))
    (hg' : generate solver (.leastSquaresFit p pts n .looseEnds pen) = .ok (.ok c')) :
    ∃ (ps : Parameters K) (e e' : K), equallySpaced m = .ok ps ∧
      SqError c ps.vector pts (range (m + 1)) e ∧ SqError c' ps.vector pts (range (m + 1)) e' ∧
      e ≤ e' ∧ (e = e' → c = c') := by
  obtain ⟨ps, kn, U, P1, e1, a1, a2, a3, a4, a5, a6⟩ := C58_loose_unique hs h1 h2 hm hg
  obtain ⟨ps', kn', U', P2, e2, b1, b2, b3, b4, b5, b6⟩ := C58_loose_unique hs h1 h2 hm hg'
  rw [a2] at b2
  injection b2 with b2; injection b2 with b2; subst b2
  rw [a3] at b3
  injection b3 with b3; subst b3
  rw [a1] at b1
  injection b1 with b1; subst b1
  by_cases hP : P2 = P1
  · subst hP
    have : c' = c := by rw [b4.eq_canon, a4.eq_canon]
    subst this
    exact ⟨ps, e1, e1, a1, a5, a5, le_rfl, fun _ => rfl⟩
  · have d1 := a6 P2 c' e2 b4.2.2 b4.1 b5 hP
    simp only [penaltyCost, add_zero] at d1
    exact ⟨ps, e1, e2, a1, a5, b5, d1.le, fun h => absurd h d1.ne⟩

theorem fitErrorOf_uniform {p n m : ℕ} {q : Penalization K} (h2 : p ≤ n) (h3 : n ≤ m)
    (hq0 : 0 ≤ q.lambda) (hqn : q.kappa < n) : fitErrorOf n m m p (some q) true = none := by
  unfold fitErrorOf
  rw [if_neg (by omega), if_neg (by omega), if_neg (by omega)]
  dsimp only
  rw [if_neg (by omega), if_neg (by simpa [Cmp.lt] using hq0), if_neg (by simp)]

/-- **C74** A fit with loose ends reproduces curves without `kappa`-th differences, for every
`lambda`. -/
theorem C74_loose_reproduces {p n m : ℕ} {pts : DataPoints K d} {solver : Solver K d}
    {q : Penalization K} (hq0 : 0 ≤ q.lambda) (hqn : q.kappa < n)
    (hs : solver.Exact) (h1 : 1 ≤ p) (h2 : p ≤ n) (h3 : n ≤ m) (hm : List.length pts = m + 1)
    {kn : Knots K} {U : List K} (hk : uniform p n = .ok (.ok kn)) (hkU : kn.vector = .ok U)
    {P₀ : List (Pt K d)} {c₀ : Curve K d} (hP₀ : P₀.length = n + 1) (hc₀ : Built c₀ p U P₀)
    (hdiff : roughness q.kappa P₀ = 0)
    (hsample : ∀ (g : ℕ) x, pts[g]? = some x → c₀.evaluate ((g : K) / (m : K)) = .ok (.ok x)) :
    generate solver (.leastSquaresFit p pts n .looseEnds (some q)) = .ok (.ok c₀) := by
  have herr := fitErrorOf_uniform (q := q) h2 h3 hq0 hqn
  obtain ⟨c, -, -, -, -, -, hgen⟩ := (C44_generate_loose h1 h2 hm solver (some q)).2 herr
  have hno := C59_loose_reproduces hs h1 h2 h3 hm hk hkU hP₀ hc₀ hsample
  obtain ⟨ps, kn', U', P, e, a1, a2, a3, a4, a5, a6⟩ := C58_loose_unique hs h1 h2 hm hgen
  rw [hk] at a2
  injection a2 with a2; injection a2 with a2; subst a2
  rw [hkU] at a3
  injection a3 with a3; subst a3
  obtain ⟨ps', h14, -, h16, h15, -⟩ := C39_equally_spaced (K := K) (m := m) (by omega)
  rw [a1] at h14
  injection h14 with h14
  subst h14
  have h0 : SqError c₀ ps.vector pts (range (m + 1)) 0 := by
    apply sqError_zero
    intro g hg
    rw [mem_range] at hg
    rw [List.getD_eq_getElem?_getD, h15 g (by omega)]
    exact hsample g _ (by rw [List.getElem?_eq_getElem (by omega), List.getD_eq_getElem _ _ (by omega)])
  have hP : P₀ = P := by
    by_contra hne
    have h10 := a6 P₀ c₀ 0 hP₀ hc₀ h0 hne
    have e1 : penaltyCost (some q) P₀ = 0 := by simp [penaltyCost, hdiff]
    have e2 : 0 ≤ penaltyCost (some q) P := by
      simp only [penaltyCost]
      split
      · exact le_rfl
      · exact mul_nonneg hq0 (sum_nonneg (fun i _ => sum_nonneg (fun r _ => sq_nonneg _)))
    rw [e1] at h10
    have := sqError_nonneg a5
    linarith
  subst hP
  rw [hgen, a4.eq_canon, hc₀.eq_canon a4.2.1.length h2 hP₀]

/-- **C74** A fit with fixed ends reproduces curves whose inner control points have no `kappa`-th
differences. -/
theorem C74_fixed_reproduces {p n m : ℕ} {pts : DataPoints K d} {solver : Solver K d}
    {q : Penalization K} (hq0 : 0 ≤ q.lambda) (hqn : q.kappa + 2 ≤ n)
    (hs : solver.Exact) (h1 : 1 ≤ p) (h2 : p ≤ n) (h3 : n ≤ m) (hm : List.length pts = m + 1)
    {kn : Knots K} {U : List K} (hk : uniform p n = .ok (.ok kn)) (hkU : kn.vector = .ok U)
    {P₀ : List (Pt K d)} {c₀ : Curve K d} (hP₀ : P₀.length = n + 1) (hc₀ : Built c₀ p U P₀)
    (hdiff : roughness q.kappa P₀.tail.dropLast = 0)
    (hsample : ∀ (g : ℕ) x, pts[g]? = some x → c₀.evaluate ((g : K) / (m : K)) = .ok (.ok x)) :
    generate solver (.leastSquaresFit p pts n .fixedEnds (some q)) = .ok (.ok c₀) := by
  have herr := fitErrorOf_uniform (q := q) h2 h3 hq0 (by omega)
  obtain ⟨c, -, -, -, -, -, hgen⟩ := (C44_generate_fixed_partial h1 h2 hm solver (some q)).2 herr
    (by omega) (by intro q' hq'; injection hq' with hq'; subst hq'; exact hqn)
  have hno := C59_fixed_reproduces hs h1 h2 (by omega) h3 hm hk hkU hP₀ hc₀ hsample
  obtain ⟨ps, kn', U', P, e, a1, a2, a3, a4, aF, aL, a5, a6⟩ := C58_fixed_unique hs h1 h2 hm hgen
  obtain ⟨ps', kn'', U'', P', e', b1, b2, b3, b4, bF, bL, b5, b6⟩ := C58_fixed_unique hs h1 h2 hm hno
  rw [hk] at a2 b2
  injection a2 with a2; injection a2 with a2; subst a2
  injection b2 with b2; injection b2 with b2; subst b2
  rw [hkU] at a3 b3
  injection a3 with a3; subst a3
  injection b3 with b3; subst b3
  obtain ⟨ps', h14, -, h16, h15, -⟩ := C39_equally_spaced (K := K) (m := m) (by omega)
  rw [a1] at b1 h14
  injection b1 with b1; subst b1
  injection h14 with h14
  subst h14
  have hP' : P' = P₀ := by
    have e1 := b4.eq_canon
    rw [hc₀.eq_canon a4.2.1.length h2 hP₀] at e1
    have e2 : (canon p U P').points.matrix = .ok P₀ := by rw [← e1]; exact canon_matrix
    rw [canon_matrix] at e2
    injection e2
  subst hP'
  have h0 : SqError c₀ ps.vector pts (Ico 1 m) 0 := by
    apply sqError_zero
    intro g hg
    rw [mem_Ico] at hg
    rw [List.getD_eq_getElem?_getD, h15 g (by omega)]
    exact hsample g _ (by rw [List.getElem?_eq_getElem (by omega), List.getD_eq_getElem _ _ (by omega)])
  have hP : P' = P := by
    by_contra hne
    have h10 := a6 P' c₀ 0 hP₀ hc₀ bF bL h0 hne
    have e1 : penaltyCost (some q) P'.tail.dropLast = 0 := by simp [penaltyCost, hdiff]
    have e2 : 0 ≤ penaltyCost (some q) P.tail.dropLast := by
      simp only [penaltyCost]
      split
      · exact le_rfl
      · exact mul_nonneg hq0 (sum_nonneg (fun i _ => sum_nonneg (fun r _ => sq_nonneg _)))
    rw [e1] at h10
    have := sqError_nonneg a5
    linarith
  subst hP
  rw [hgen, a4.eq_canon, hc₀.eq_canon a4.2.1.length h2 hP₀]

/-! ### Instances -/

/-- two values of `lambda` for the same data -/
example [Sqrt ℚ] : ∃ (solver : Solver ℚ 2) (c1 c2 : Curve ℚ 2), solver.Exact ∧
    generate solver (.leastSquaresFit 2 exPts 3 .looseEnds (some ⟨1/10, 2⟩)) = .ok (.ok c1) ∧
    generate solver (.leastSquaresFit 2 exPts 3 .looseEnds (some ⟨5, 2⟩)) = .ok (.ok c2) := by
  obtain ⟨s, hs⟩ := exists_exact_solver ℚ 2
  obtain ⟨c1, -, -, -, -, -, g1⟩ := (C44_generate_loose (p := 2) (n := 3) (m := 4) (pts := exPts)
    (by omega) (by omega) rfl s (some ⟨1/10, 2⟩)).2 (by decide +kernel)
  obtain ⟨c2, -, -, -, -, -, g2⟩ := (C44_generate_loose (p := 2) (n := 3) (m := 4) (pts := exPts)
    (by omega) (by omega) rfl s (some ⟨5, 2⟩)).2 (by decide +kernel)
  exact ⟨s, c1, c2, hs, g1, g2⟩

/-- equally spaced control points have no second differences; the samples of their curve -/
example [Sqrt ℚ] : ∃ (solver : Solver ℚ 1), solver.Exact ∧
    generate solver (.leastSquaresFit 2 [![0], ![7/8], ![3/2], ![17/8], ![3]] 3 .looseEnds
      (some ⟨100, 2⟩)) = .ok (.ok (canon 2 [0, 0, 0, 1/2, 1, 1, 1] [![0], ![1], ![2], ![3]])) := by
  obtain ⟨s, hs⟩ := exists_exact_solver ℚ 1
  refine ⟨s, hs, C74_loose_reproduces (q := ⟨100, 2⟩) (m := 4) (by norm_num) (by decide) hs (by omega)
    (by omega) (by omega) rfl (uniform_ok (by omega) (by omega)) (canonKnots_vector _)
    (P₀ := [![0], ![1], ![2], ![3]]) rfl ?_ (by decide +kernel) ?_⟩
  · rw [show genU 2 3 (uniK (K := ℚ) 2 3) = [0, 0, 0, 1/2, 1, 1, 1] by decide +kernel]
    exact mkCurve_ok (n := 3) rfl (by omega) (by simp)
  · intro g x hx
    have hg : g < 5 := (List.getElem?_eq_some_iff.mp hx).1
    interval_cases g <;> (simp only [List.getElem?_cons_zero, List.getElem?_cons_succ,
      Option.some.injEq] at hx; subst hx; decide +kernel)

/-! ### The difference operator -/

/-- The entries of the penalty matrix are the binomial coefficients with alternating signs. -/
theorem C74_difference_operator {κ : ℕ} (hκ : 1 ≤ κ) (i j : ℕ) : differenceOperator κ i j =
    if i ≤ j then (-1) ^ (κ + (j - i)) * (κ.choose (j - i) : ℤ) else 0 := by
  induction κ, hκ using Nat.le_induction generalizing i with
  | base =>
    simp only [differenceOperator]
    by_cases h1 : i = j
    · subst h1; simp
    · by_cases h2 : i + 1 = j
      · subst h2; simp
      · rw [if_neg h1, if_neg h2]
        split
        · rw [Nat.choose_eq_zero_of_lt (by omega)]; simp
        · rfl
  | succ k hk ih =>
    obtain ⟨k, rfl⟩ : ∃ k', k = k' + 1 := ⟨k - 1, by omega⟩
    rw [show differenceOperator (k + 1 + 1) i j =
      differenceOperator (k + 1) (i + 1) j - differenceOperator (k + 1) i j from rfl, ih, ih]
    by_cases h : i + 1 ≤ j
    · obtain ⟨x, rfl⟩ : ∃ x, j = i + 1 + x := ⟨j - (i + 1), by omega⟩
      rw [if_pos h, if_pos (by omega), if_pos (by omega), show i + 1 + x - (i + 1) = x by omega,
        show i + 1 + x - i = x + 1 by omega, Nat.choose_succ_succ (k + 1) x]
      push_cast
      ring
    · rw [if_neg h]
      by_cases h' : i ≤ j
      · obtain rfl : j = i := by omega
        rw [if_pos le_rfl, if_pos le_rfl, Nat.sub_self]
        simp only [Nat.choose_zero_right]
        push_cast
        ring
      · rw [if_neg h', if_neg h', sub_zero]

/-- The entries fit into 64 bits for all `kappa ≤ 62`, and so do all intermediate results, which are
entries for smaller `kappa`. -/
theorem C74_difference_bound (κ i j : ℕ) : |differenceOperator κ i j| ≤ 2 ^ κ := by
  rcases Nat.eq_zero_or_pos κ with rfl | hκ
  · simp [differenceOperator_zero]
  · rw [C74_difference_operator hκ]
    split
    · rw [abs_mul, abs_pow, abs_neg, abs_one, one_pow, one_mul, Nat.abs_cast]
      exact_mod_cast Nat.choose_le_two_pow κ (j - i)
    · simp

end BSpline
