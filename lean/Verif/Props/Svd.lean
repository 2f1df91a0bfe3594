import Verif.Refine.Svd
import Verif.Props.Interpolate
import Mathlib.Tactic.NormNum
import Mathlib.Tactic.IntervalCases

/-!
# The truncating solver: C84

All systems are solved by a singular value decomposition whose singular values up to a threshold are
dropped. The theorems of the other files suppose a solver that solves every solvable system
(`Solver.Exact`); here the threshold is taken into account.
-/

set_option linter.unusedSectionVars false

namespace BSpline

open Finset

variable {K : Type} [Field K] [LinearOrder K] [IsStrictOrderedRing K] {d : ℕ}

theorem residual_eq_mv {A : List (List K)} {x b : List (Pt K d)} (hx : x.length = ncols A) :
    residual A x b = ∑ ρ, ∑ g ∈ range A.length,
      (mv (ncols A) (at2 A) (fun j => x.getD j 0 ρ) g - b.getD g 0 ρ) ^ 2 := by
  rw [residual, sum_comm, hx]
  rfl

theorem mv_congr {c : ℕ} {A : ℕ → ℕ → K} {x y : ℕ → K} (h : ∀ j, j < c → x j = y j) (g : ℕ) :
    mv c A x g = mv c A y g := by
  rw [mv, mv]
  exact sum_congr rfl (fun j hj => by rw [h j (mem_range.mp hj)])

/-- **C84**: whenever a system has a solution `x`, the solver misses the right-hand side by at most
`ε` times the size of `x`. -/
theorem C84_residual {A : List (List K)} {D : Svd K} {x b : List (Pt K d)} {eps : K} (hD : IsSvd A D)
    (he : 0 ≤ eps) (hA : A ≠ []) (hx : Solves A x b) :
    residual A (D.solve eps (ncols A) b) b ≤ eps ^ 2 * sqSize x := by
  have hr := rect_of_solves hx
  have hl := ncols_of_solves hx hA
  have hb := (solves_iff hr hl hx.1).mp hx
  rw [residual_eq_mv (solve_length _ _ _ _), sqSize_eq x hl, mul_sum]
  apply sum_le_sum
  intro ρ _
  refine le_trans (le_of_eq ?_) (hD.decomp.residual_le he (hb ρ))
  apply sum_congr rfl
  intro g _
  rw [mv_congr (fun j hj => solve_get hD eps hx.1 hj ρ)]

/-- **C84**: the computed solution is no larger than any exact solution. -/
theorem C84_smallest {A : List (List K)} {D : Svd K} {x b : List (Pt K d)} {eps : K} (hD : IsSvd A D)
    (he : 0 ≤ eps) (hA : A ≠ []) (hx : Solves A x b) :
    sqSize (D.solve eps (ncols A) b) ≤ sqSize x := by
  have hr := rect_of_solves hx
  have hl := ncols_of_solves hx hA
  have hb := (solves_iff hr hl hx.1).mp hx
  rw [sqSize_eq _ (solve_length _ _ _ _), sqSize_eq x hl]
  apply sum_le_sum
  intro ρ _
  refine le_trans (le_of_eq ?_) (hD.decomp.norm_le he (hb ρ))
  apply sum_congr rfl
  intro j hj
  rw [solve_get hD eps hx.1 (mem_range.mp hj) ρ]

/-- **C84**: a system is solved for every right-hand side that has a solution exactly when none of its
positive singular values is dropped. -/
theorem C84_solves_iff {A : List (List K)} {D : Svd K} {eps : K} (hD : IsSvd A D) (he : 0 ≤ eps)
    (hr : Rect A) (hA : A ≠ []) (hd : 0 < d) :
    (∀ b : List (Pt K d), (∃ x, Solves A x b) → Solves A (D.solve eps (ncols A) b) b) ↔
      ∀ σ ∈ D.s, σ ≤ eps → σ = 0 := by
  have hgap : (∀ σ ∈ D.s, σ ≤ eps → σ = 0) ↔
      ∀ i, i < D.s.length → D.s.getD i 0 ≤ eps → D.s.getD i 0 = 0 := by
    constructor
    · intro h i hi
      rw [List.getD_eq_getElem _ _ hi]
      exact h _ (List.getElem_mem hi)
    · intro h σ hσ
      obtain ⟨i, hi, rfl⟩ := List.mem_iff_getElem.mp hσ
      have := h i hi
      rwa [List.getD_eq_getElem _ _ hi] at this
  rw [hgap, ← hD.decomp.exact_iff he]
  constructor
  · intro h b x hx g hg
    let ρ : Fin d := ⟨0, hd⟩
    let b' : List (Pt K d) := (List.range A.length).map (fun g _ => b g)
    let x' : List (Pt K d) := (List.range (ncols A)).map (fun j _ => x j)
    have hb' : ∀ g, g < A.length → b'.getD g 0 = fun _ => b g := by
      intro g hg
      simp [b', List.getD_eq_getElem?_getD, hg]
    have hx' : ∀ g, g < ncols A → x'.getD g 0 = fun _ => x g := by
      intro g hg
      simp [x', List.getD_eq_getElem?_getD, hg]
    have hlb : A.length = b'.length := by simp [b']
    have hs : Solves A x' b' := by
      rw [solves_iff hr (by simp [x']) hlb]
      intro ρ g hg
      rw [hb' g hg, ← hx g hg]
      exact mv_congr (fun j hj => by rw [hx' j hj]) g
    have h1 := (solves_iff hr (solve_length _ _ _ _) hlb).mp (h b' ⟨x', hs⟩) ρ g hg
    rw [mv_congr (fun j hj => solve_get hD eps hlb hj ρ), hb' g hg,
      truncSol_congr (b' := b) (fun g hg => by rw [hb' g hg])] at h1
    exact h1
  · rintro h b ⟨x, hx⟩
    have hl := ncols_of_solves hx hA
    rw [solves_iff hr (solve_length _ _ _ _) hx.1]
    intro ρ g hg
    rw [mv_congr (fun j hj => solve_get hD eps hx.1 hj ρ)]
    exact h _ _ ((solves_iff hr hl hx.1).mp hx ρ) g hg

/-- **C84**: with the threshold zero the solver solves every system that has a solution, as supposed in
the other theorems. -/
theorem C84_exact {decompose : List (List K) → Svd K} (hd : Decomposes decompose) :
    (Solver.svd (d := d) decompose 0).Exact := by
  rintro A b ⟨x, hx⟩
  by_cases hA : A = []
  · subst hA
    exact ⟨hx.1, by simp, by simp⟩
  have hr := rect_of_solves hx
  rcases Nat.eq_zero_or_pos (ncols A) with hc | hc
  · have hl := ncols_of_solves hx hA
    rw [hc] at hl
    rw [svd_run_empty decompose 0 hc]
    rwa [List.eq_nil_of_length_eq_zero hl] at hx
  have hD := hd A hr hA hc
  have hl := ncols_of_solves hx hA
  show Solves A ((decompose A).solve 0 (ncols A) b) b
  rw [solves_iff hr (solve_length _ _ _ _) hx.1]
  intro ρ g hg
  rw [mv_congr (fun j hj => solve_get hD 0 hx.1 hj ρ)]
  exact hD.decomp.exact le_rfl (fun i hi h => le_antisymm h (hD.decomp.nonneg i hi))
    ((solves_iff hr hl hx.1).mp hx ρ) g hg

/-- **C84**: with a positive threshold it does not: the one-by-one system `ε x = ε` is answered by
`x = 0`. -/
theorem C84_not_exact {decompose : List (List K) → Svd K} (hd : Decomposes decompose) {eps : K}
    (he : 0 < eps) (h0 : 0 < d) : ¬ (Solver.svd (d := d) decompose eps).Exact := by
  intro h
  have hD := hd [[eps]] (by simp [Rect, ncols]) (by simp) (by simp [ncols])
  have h1 := (C84_solves_iff (d := d) hD he.le (by simp [Rect, ncols]) (by simp) h0).mp
    (fun b hb => h [[eps]] b hb)
  have hk : (decompose [[eps]]).s.length = 1 := by rw [hD.count]; simp [ncols]
  have h2 := hD.product 0 0 (by simp) (by simp [ncols])
  have h3 := hD.left 0 0 (by omega) (by omega)
  have h4 := hD.right 0 0 (by omega) (by omega)
  have h5 := hD.decomp.nonneg 0 (by omega)
  rw [hk] at h2
  simp only [List.length_cons, List.length_nil, ncols, range_one, sum_singleton, if_true,
    zero_add] at h2 h3 h4
  have h6 : at2 [[eps]] 0 0 = eps := rfl
  rw [h6] at h2
  have h7 : (decompose [[eps]]).s.getD 0 0 ∈ (decompose [[eps]]).s := by
    rw [List.getD_eq_getElem _ _ (by omega)]; exact List.getElem_mem _
  generalize (decompose [[eps]]).s.getD 0 0 = σ at h2 h5 h7
  generalize at2 (decompose [[eps]]).u 0 0 = a at h2 h3
  generalize at2 (decompose [[eps]]).vt 0 0 = w at h2 h4
  have h8 : σ ^ 2 = eps ^ 2 := by
    rw [h2]
    linear_combination -σ ^ 2 * (a * a) * h4 - σ ^ 2 * h3
  have h9 : σ = eps := (pow_left_inj₀ h5 he.le two_ne_zero).mp h8
  have h10 := h1 σ h7 h9.le
  rw [h9] at h10
  exact he.ne' h10

/-! ### Interpolation -/

variable [Trunc K] [Sqrt K]

/-- **C84**: the interpolating curve misses the data points, in the root of the sum of the squared
distances, by at most `ε` times the size of the control polygon that interpolates exactly; and its own
control polygon is no larger than that one. -/
theorem C84_interpolation {decompose : List (List K) → Svd K} (hd : Decomposes decompose) {eps : K}
    (he : 0 ≤ eps) {p m : ℕ} {pts : DataPoints K d} (h1 : 1 ≤ p) (h2 : p ≤ m)
    (hm : List.length pts = m + 1) :
    ∃ (c : Curve K d) (cs : Curve K d) (kn : Knots K) (U : List K) (P Ps : List (Pt K d)) (e : K)
      (τ : List K),
      generate (.svd decompose eps) (.interpolation p pts) = .ok (.ok c) ∧
      uniform p m = .ok (.ok kn) ∧ kn.vector = .ok U ∧ ValidOn 0 1 c p m U P ∧
      ValidOn 0 1 cs p m U Ps ∧
      (∀ (g : ℕ) q, pts[g]? = some q → cs.evaluate ((g : K) / (m : K)) = .ok (.ok q)) ∧
      τ = (List.range (m + 1)).map (fun g : ℕ => (g : K) / (m : K)) ∧
      SqError c τ pts (range (m + 1)) e ∧ e ≤ eps ^ 2 * sqSize Ps ∧ sqSize P ≤ sqSize Ps := by
  obtain ⟨ss, hss⟩ := exists_exact_solver K d
  obtain ⟨cs, kn, U, Ps, -, -, h4, h5, h6, h7⟩ := C40_interpolation hss h1 h2 hm
  rw [uniform_ok h1 h2] at h4
  injection h4 with h4; injection h4 with h4
  subst h4
  rw [canonKnots_vector] at h5
  injection h5 with h5
  subst h5
  obtain ⟨ps, h3, h3', h4, h5, -⟩ := C39_equally_spaced (K := K) (m := m) (by omega)
  have hm0 : (0 : K) < (m : K) := by exact_mod_cast (by omega : 0 < m)
  have hU := uniform_clamped (K := K) h1 h2
  have hfn : ∀ g, g ≤ m → fn ps.vector g = (g : K) / (m : K) := by
    intro g hg
    have := h5 g hg
    rw [List.getElem?_eq_getElem (by omega)] at this
    injection this with this
    rw [fn_lt (by omega), this]
  have hτ : ps.vector = (List.range (m + 1)).map (fun g : ℕ => (g : K) / (m : K)) := by
    apply ext_fn (by rw [h4]; simp)
    intro i hi
    rw [hfn i (by omega), fn_map_range _ (by omega)]
  have hrun := interpolate_ok (genU_length p m (uniK (K := K) p m)) h2 hm h4
    (Solver.svd decompose eps)
  obtain ⟨k, u, s, v, hD, hval⟩ := svd_run (d := d) hd eps (Nat.succ_pos m) (Nat.succ_pos m)
    (fun g i => nb p m (genU p m (uniK (K := K) p m)) i (fn ps.vector g))
  set P : List (Pt K d) := (Solver.svd decompose eps).run (mat (m + 1) (m + 1) (fun g i =>
    nb p m (genU p m (uniK (K := K) p m)) i (fn ps.vector g))) pts with hPdef
  have hP : P.length = m + 1 := by rw [hPdef, Solver.shape, ncols_mat _ (by omega)]
  have hmk := mkCurve_ok hP h2 (show m + p + 1 ≤ (genU p m (uniK (K := K) p m)).length by
    rw [genU_length]; omega)
  have hex : ∀ ρ g, g < m + 1 → mv (m + 1) (fun g i => nb p m (genU p m (uniK (K := K) p m)) i
      (fn ps.vector g)) (fun j => fn Ps j ρ) g = fn pts g ρ := by
    intro ρ g hg
    have e1 := h7 g (fn pts g) (by rw [fn_lt (by omega), List.getElem?_eq_getElem (by omega)])
    rw [h6.eq_canon, evaluate_sum hU h6.2.2 (by positivity) (by
      rw [div_le_one hm0]; exact_mod_cast (by omega : g ≤ m))] at e1
    injection e1 with e1; injection e1 with e1
    rw [← e1, Finset.sum_apply, mv, hfn g (by omega)]
    rfl
  have hsz : ∀ X : List (Pt K d), X.length = m + 1 →
      sqSize X = ∑ ρ, ∑ j ∈ range (m + 1), fn X j ρ ^ 2 := by
    intro X hX
    rw [sqSize_eq X hX]
    exact sum_congr rfl (fun ρ _ => sum_congr rfl (fun j hj => by
      rw [getD_eq_fn (by rw [hX]; exact mem_range.mp hj)]))
  refine ⟨canon p _ P, cs, _, _, P, Ps, _, _, ?_, uniform_ok h1 h2, canonKnots_vector _,
    ⟨hmk, hU, hP⟩, h6, h7, rfl, (sqError_iff hU hP hmk ?_ ?_).mpr rfl, ?_, ?_⟩
  · rw [generate]
    simp only [generateParams, DataPoints.segments, generateKnots]
    rw [usub_ok (by omega), ok_bind, hm, Nat.add_sub_cancel, h3, ok_bind, ok_bind, uniform_ok h1 h2,
      ok_bind]
    dsimp only
    rw [hrun, ok_bind, ← hmk, mkCurve, genKnots_new h2, ok_bind]
  · intro g hg
    have := mem_range.mp hg
    constructor
    · simpa using this
    · omega
  · intro x hx
    simp only [List.mem_map, List.mem_range] at hx
    obtain ⟨g, hg, rfl⟩ := hx
    exact ⟨by positivity, by rw [div_le_one hm0]; exact_mod_cast (by omega : g ≤ m)⟩
  · rw [sum_comm, hsz Ps h6.2.2, mul_sum]
    apply sum_le_sum
    intro ρ _
    refine le_trans (le_of_eq ?_) (hD.residual_le he (hex ρ))
    apply sum_congr rfl
    intro g _
    rw [← hτ, ← mv_congr (fun j hj => hval pts hm j hj ρ)]
    rfl
  · rw [hsz P hP, hsz Ps h6.2.2]
    apply sum_le_sum
    intro ρ _
    refine le_trans (le_of_eq ?_) (hD.norm_le he (hex ρ))
    exact sum_congr rfl (fun j hj => by rw [← hval pts hm j (mem_range.mp hj) ρ])


/-! ### Least squares -/

omit [Trunc K] [Sqrt K] in
theorem lsq_congr {r l c : ℕ} {A D : ℕ → ℕ → K} {lam : K} {y x z : ℕ → K} (h : ∀ j, j < c → x j = z j) :
    lsq r l c A D lam y x = lsq r l c A D lam y z := by
  rw [lsq, lsq]
  simp only [mv_congr h]

omit [Trunc K] [Sqrt K] in
/-- normal equations solved by the truncating solver -/
theorem svd_normal {decompose : List (List K) → Svd K} (hd : Decomposes decompose) {eps : K}
    (he : 0 ≤ eps) {r c : ℕ} (hc : 0 < c)
    (A : ℕ → ℕ → K) (l : ℕ → ℕ) (pen : Option (Penalization K)) (hl : 0 ≤ penLam pen)
    (B : ℕ → Pt K d) {b : List (Pt K d)} (hb : b = (List.range c).map (rhsE r A B)) (ρ : Fin d)
    {x : ℕ → K} (hx : ∀ i, i < c → ∑ j ∈ range c, nm r (penRows l pen) A (penD pen) (penLam pen) i j *
        x j = ∑ g ∈ range r, A g i * B g ρ) (z : ℕ → K) :
    lsq r (penRows l pen) c A (penD pen) (penLam pen) (fun g => B g ρ)
      (fun j => fn ((Solver.svd decompose eps).run (mat c c (normE r A l pen)) b) j ρ) ≤
    lsq r (penRows l pen) c A (penD pen) (penLam pen) (fun g => B g ρ) z +
      eps * ∑ j ∈ range c, x j ^ 2 := by
  obtain ⟨k, u, s, v, hD, hval⟩ := svd_run (d := d) hd eps hc hc (normE r A l pen)
  rw [lsq_congr (fun j hj => hval b (by rw [hb]; simp) j hj ρ)]
  refine (hD.congr (fun g j _ _ => normE_eq r A l pen g j)).lsq_le hl he hx ?_ z
  intro i hi
  rw [hb, fn_map_range _ hi, rhsE_eq]

omit [Trunc K] [Sqrt K] in
theorem sqSize_fn {c : ℕ} {X : List (Pt K d)} (hX : X.length = c) :
    sqSize X = ∑ ρ, ∑ j ∈ range c, fn X j ρ ^ 2 := by
  rw [sqSize_eq X hX]
  exact sum_congr rfl (fun ρ _ => sum_congr rfl (fun j hj => by
    rw [getD_eq_fn (by rw [hX]; exact mem_range.mp hj)]))

omit [Trunc K] [Sqrt K] in
/-- **C84**: the fit with loose ends exceeds the least possible value of the functional by at most `ε`
times the squared size of an optimal control polygon. -/
theorem C84_loose {decompose : List (List K) → Svd K} (hd : Decomposes decompose) {eps : K}
    (he : 0 ≤ eps) {p n m : ℕ} {U : List K} {kn : Knots K} {pts P : DataPoints K d}
    {params : Parameters K} {pen : Option (Penalization K)}
    (hk : Knots.new p U = .ok kn) (hU : ClampedKnots 0 1 p n U) (h1 : 1 ≤ p)
    (hm : List.length pts = m + 1) (hv : params.vector.length = params.segments + 1)
    (hτ : ∀ x ∈ params.vector, 0 ≤ x ∧ x ≤ 1)
    (hfit : Loose.fit (.svd decompose eps) kn pts params pen = .ok (.ok P)) :
    ∃ (c cs : Curve K d) (Ps : List (Pt K d)) (e es : K), Built c p U P ∧ List.length P = n + 1 ∧
      Built cs p U Ps ∧ Ps.length = n + 1 ∧ SqError c params.vector pts (range (m + 1)) e ∧
      SqError cs params.vector pts (range (m + 1)) es ∧
      (∀ (P' : List (Pt K d)) (c' : Curve K d) (e' : K), P'.length = n + 1 → Built c' p U P' →
        SqError c' params.vector pts (range (m + 1)) e' →
        es + penaltyCost pen Ps ≤ e' + penaltyCost pen P') ∧
      e + penaltyCost pen P ≤ es + penaltyCost pen Ps + eps * sqSize Ps := by
  obtain ⟨ss, hss⟩ := exists_exact_solver K d
  obtain ⟨-, rfl⟩ := knots_new_inv hk
  have hgo := loose_fit_ok hU.length h1 hm hv ss pen
  rw [loose_fit_ok hU.length h1 hm hv] at hfit
  injection hfit with hfit
  cases her : fitErrorOf n m params.segments p pen (unif p n U) with
  | some e => rw [her] at hfit; cases hfit
  | none =>
    rw [her] at hfit hgo
    injection hfit with hfit
    obtain ⟨Ps, hgo⟩ : ∃ Ps, Loose.fit ss (canonKnots p U) pts params pen = .ok (.ok Ps) := ⟨_, hgo⟩
    obtain ⟨h2, h3, h5, hPs, key⟩ := loose_normal hss hk hU h1 hm hv hgo
    obtain ⟨cs, es, h6, -, h7, h8⟩ := C42_loose_optimal hss hk hU h1 hm hv hτ hgo
    have hlen : List.length P = n + 1 := by rw [← hfit, Solver.shape, ncols_mat _ (by omega)]
    have hI := loose_range hm hv h3
    have hb := mkCurve_ok hlen hU.le (show n + p + 1 ≤ U.length by have := hU.length; omega)
    refine ⟨canon p U P, cs, Ps, _, es, hb, hlen, h6, hPs, (sqError_iff hU hlen hb hI hτ).mpr rfl, h7,
      h8, ?_⟩
    rw [(sqError_iff hU hPs h6 hI hτ).mp h7, penaltyCost_eq hlen, penaltyCost_eq hPs, sum_comm,
      sum_comm (s := range (m + 1)), ← sum_add_distrib, ← sum_add_distrib, sqSize_fn hPs, mul_sum,
      ← sum_add_distrib]
    apply sum_le_sum
    intro ρ _
    have := svd_normal hd he (r := m + 1) (c := n + 1) (by omega)
      (fun g i => nb p n U i (fn params.vector g)) (fun κ => n + 1 - κ) pen h5 (fn pts) rfl ρ (key ρ)
      (fun j => fn Ps j ρ)
    rw [hfit] at this
    exact this

omit [Trunc K] [Sqrt K] in
/-- **C84**: the fit with fixed ends meets the ends exactly and exceeds the least possible value of its
functional by at most `ε` times the squared size of the inner points of an optimal control polygon. -/
theorem C84_fixed {decompose : List (List K) → Svd K} (hd : Decomposes decompose) {eps : K}
    (he : 0 ≤ eps) {p n m : ℕ} {U : List K} {kn : Knots K} {pts P : DataPoints K d}
    {params : Parameters K} {pen : Option (Penalization K)}
    (hk : Knots.new p U = .ok kn) (hU : ClampedKnots 0 1 p n U) (h1 : 1 ≤ p)
    (hm : List.length pts = m + 1) (hv : params.vector.length = params.segments + 1)
    (hτ : ∀ x ∈ params.vector, 0 ≤ x ∧ x ≤ 1)
    (hfit : Fixed.fit (.svd decompose eps) kn pts params pen = .ok (.ok P)) :
    ∃ (c cs : Curve K d) (Ps : List (Pt K d)) (e es : K), Built c p U P ∧ List.length P = n + 1 ∧
      P[0]? = pts[0]? ∧ P[n]? = pts[m]? ∧
      Built cs p U Ps ∧ Ps.length = n + 1 ∧ SqError c params.vector pts (Ico 1 m) e ∧
      SqError cs params.vector pts (Ico 1 m) es ∧
      (∀ (P' : List (Pt K d)) (c' : Curve K d) (e' : K), P'.length = n + 1 → Built c' p U P' →
        P'[0]? = pts[0]? → P'[n]? = pts[m]? → SqError c' params.vector pts (Ico 1 m) e' →
        es + penaltyCost pen Ps.tail.dropLast ≤ e' + penaltyCost pen P'.tail.dropLast) ∧
      e + penaltyCost pen P.tail.dropLast ≤
        es + penaltyCost pen Ps.tail.dropLast + eps * sqSize Ps.tail.dropLast := by
  obtain ⟨ss, hss⟩ := exists_exact_solver K d
  have hl := hU.length
  obtain ⟨-, rfl⟩ := knots_new_inv hk
  have hcond : fitErrorOf n m params.segments p pen (unif p n U) = none →
      2 ≤ n ∧ ∀ q, pen = some q → q.kappa + 2 ≤ n := by
    intro her
    by_contra hcon
    obtain ⟨e, h⟩ := C44_fixed_panics hk hl h1 hm hv (fun h2 => isUniform_ok hl h1 h2)
      (.svd decompose eps) pen her (by
        obtain ⟨h2, h3, h4, h5⟩ := fitErrorOf_none her
        by_contra h6
        push Not at h6
        refine hcon ⟨by omega, fun q hq => ?_⟩
        rw [fitErrorOf_eq] at her
        cases h7 : checkErrorOf n m params.segments p pen with
        | some e => rw [h7] at her; simp at her
        | none =>
          have h8 := (checkErrorOf_none h7).2.2.2 q hq
          have h9 := h6.2 q (by simp [hq])
          omega)
    rw [hfit] at h
    cases h
  have hgo := fixed_fit_ok hl h1 hm hv ss pen hcond
  rw [fixed_fit_ok hl h1 hm hv _ pen hcond] at hfit
  injection hfit with hfit
  cases her : fitErrorOf n m params.segments p pen (unif p n U) with
  | some e => rw [her] at hfit; cases hfit
  | none =>
    rw [her] at hfit hgo
    injection hfit with hfit
    obtain ⟨Ps, hgo⟩ : ∃ Ps, Fixed.fit ss (canonKnots p U) pts params pen = .ok (.ok Ps) := ⟨_, hgo⟩
    obtain ⟨hn, h2, h3, h5, hPs, hPs0, hPsn, key⟩ := fixed_normal hss hk hU h1 hm hv hgo
    obtain ⟨cs, es, h6, -, -, -, -, -, h7, h8⟩ := C43_fixed_optimal hss hk hU h1 hm hv hτ hgo
    have hlen : List.length P = n + 1 := by rw [← hfit]; simp
    have hI := fixed_range hm hv h3
    have hb := mkCurve_ok hlen hU.le (show n + p + 1 ≤ U.length by omega)
    have hfn : ∀ i, i ≤ n → fn P i = fixP n m pts ((Solver.svd decompose eps).run
          (mat (n - 1) (n - 1) (normE (m - 1)
            (fun g i => nb p n U (i + 1) (fn params.vector (g + 1))) (fun κ => n - 1 - κ) pen))
          ((List.range (n - 1)).map (fun i => fixAcc p n m U pts params.vector (i + 1)))) i := by
      intro i hi
      rw [← hfit, fn_map_range _ (by omega)]
    have hP0 : fn P 0 = fn pts 0 := by rw [hfn 0 (by omega), fixP, if_pos rfl]
    have hPn : fn P n = fn pts m := by rw [hfn n le_rfl, fixP, if_neg (by omega), if_pos rfl]
    refine ⟨canon p U P, cs, Ps, _, es, hb, hlen, (getElem?_eq_iff_fn (by omega) (by omega)).mpr hP0,
      (getElem?_eq_iff_fn (by omega) (by omega)).mpr hPn, h6, hPs,
      (sqError_iff hU hlen hb hI hτ).mpr rfl, h7, h8, ?_⟩
    rw [(sqError_iff hU hPs h6 hI hτ).mp h7, penaltyCost_eq (length_inner hlen),
      penaltyCost_eq (length_inner hPs), sum_comm,
      sum_comm (s := Ico 1 m), ← sum_add_distrib, ← sum_add_distrib, sqSize_fn (length_inner hPs),
      mul_sum, ← sum_add_distrib]
    apply sum_le_sum
    intro ρ _
    rw [fixed_error hn hlen hP0 hPn, fixed_error hn hPs hPs0 hPsn]
    have := svd_normal hd he (r := m - 1) (c := n - 1) (by omega)
      (fun g i => nb p n U (i + 1) (fn params.vector (g + 1))) (fun κ => n - 1 - κ) pen h5
      (fun g => fixQ p n m U pts params.vector (g + 1))
      (b := (List.range (n - 1)).map (fun i => fixAcc p n m U pts params.vector (i + 1)))
      (List.map_congr_left (fun i _ => fixAcc_eq i)) ρ (key ρ) 
      (fun j => fn Ps.tail.dropLast j ρ)
    refine le_trans (le_of_eq ?_) this
    refine lsq_congr (fun j hj => ?_)
    rw [fn_inner (by omega), hfn (j + 1) (by omega), fixP, if_neg (by omega), if_neg (by omega),
      Nat.add_sub_cancel]

/-! ### One system per call -/

omit [IsStrictOrderedRing K] [Trunc K] [Sqrt K] in
theorem through_bind {α β : Type} (x : Exec α) {f : α → Solver K d → Exec β}
    (h : ∀ v, ∃ A, OnlyThrough (f v) A) : ∃ A, OnlyThrough (fun s => x >>= fun v => f v s) A := by
  cases x with
  | error e => exact ⟨[], fun _ _ _ => rfl⟩
  | ok v => exact h v

omit [IsStrictOrderedRing K] [Trunc K] [Sqrt K] in
theorem through_then {α β : Type} {F : Solver K d → Exec α} (g : α → Exec β)
    (h : ∃ A, OnlyThrough F A) : ∃ A, OnlyThrough (fun s => F s >>= g) A := by
  obtain ⟨A, hA⟩ := h
  exact ⟨A, fun s s' hs => by dsimp only; rw [hA s s' hs]⟩

omit [IsStrictOrderedRing K] [Trunc K] [Sqrt K] in
theorem through_const {α : Type} (x : α) : ∃ A, OnlyThrough (fun _ : Solver K d => x) A :=
  ⟨[], fun _ _ _ => rfl⟩

omit [IsStrictOrderedRing K] [Trunc K] [Sqrt K] in
theorem through_svdSolve (A : List (List K)) (b : List (Pt K d)) :
    ∃ A', OnlyThrough (fun s : Solver K d => svdSolve s A b) A' :=
  ⟨A, fun s s' hs => by simp only [svdSolve, hs b]⟩

/-- **C84**: every generation solves at most one system. -/
theorem C84_one_system (G : Generation K d) : ∃ A, OnlyThrough (fun s => generate s G) A := by
  cases G with
  | manual p pts kn => exact ⟨[], fun _ _ _ => rfl⟩
  | interpolation p pts =>
    simp only [generate]
    refine through_bind _ (fun params => through_bind _ (fun n => through_bind _ (fun knots => ?_)))
    cases knots with
    | error e => exact through_const _
    | ok kn =>
      refine through_then _ ?_
      simp only [interpolate]
      exact through_bind _ (fun m => through_bind _ (fun N => through_svdSolve N pts))
  | leastSquaresFit p pts n method pen =>
    simp only [generate]
    refine through_bind _ (fun params => through_bind _ (fun knots => ?_))
    cases knots with
    | error e => exact through_const _
    | ok kn =>
      cases method with
      | fixedEnds =>
        refine through_then (K := K) (d := d) _ ?_
        simp only [Fixed.fit]
        refine through_bind _ (fun r => ?_)
        cases r with
        | error e => exact through_const _
        | ok _ =>
          refine through_bind _ (fun Q => through_bind _ (fun Qmat => through_bind _ (fun N =>
            through_bind _ (fun n => through_bind _ (fun n1 => through_bind _ (fun r => ?_))))))
          cases r with
          | error e => exact through_const _
          | ok A => exact through_then _ (through_svdSolve A Qmat)
      | looseEnds =>
        refine through_then (K := K) (d := d) _ ?_
        simp only [Loose.fit]
        refine through_bind _ (fun r => ?_)
        cases r with
        | error e => exact through_const _
        | ok _ =>
          refine through_bind _ (fun N => through_bind _ (fun n => through_bind _ (fun r => ?_)))
          cases r with
          | error e => exact through_const _
          | ok A => exact through_then _ (through_svdSolve A _)

omit [IsStrictOrderedRing K] [Trunc K] [Sqrt K] in
/-- **C84**: every merge solves at most one system. -/
theorem C84_one_system_merge {d₂ : ℕ} (a : ConstrainedCurve K d) (b : ConstrainedCurve K d₂) :
    ∃ A, OnlyThrough (fun s => mergeWithConstraints s a b) A := by
  unfold mergeWithConstraints
  dsimp only
  split
  · exact through_const (K := K) (d := d) _
  split
  · refine through_bind (K := K) (d := d) _ (fun x => ?_)
    split
    · exact through_const (K := K) (d := d) _
    refine through_bind (K := K) (d := d) _ (fun x => ?_)
    split
    · exact through_const (K := K) (d := d) _
    split
    · exact through_const (K := K) (d := d) _
    simp only [mergeBody]
    refine through_then (K := K) (d := d) _ ?_
    simp only [solveLinearEquationSystem]
    exact through_bind _ (fun N => through_bind _ (fun c => through_svdSolve N c))
  · exact through_const (K := K) (d := d) _

omit [Trunc K] [Sqrt K] in
/-- **C84**: what is proved for exact solvers holds for the truncating solver whenever the one system
that is solved has no positive singular value up to the threshold. -/
theorem C84_transfer {decompose : List (List K) → Svd K} (hd : Decomposes decompose) {eps : K}
    (he : 0 ≤ eps) {α : Type} {F : Solver K d → α} {A : List (List K)} (hF : OnlyThrough F A)
    (hgap : ∀ σ ∈ (decompose A).s, σ ≤ eps → σ = 0) :
    ∃ s : Solver K d, s.Exact ∧ F (.svd decompose eps) = F s := by
  classical
  obtain ⟨ss, hss⟩ := exists_exact_solver K d
  refine ⟨⟨fun B b => if B = A then (Solver.svd decompose eps).run B b else ss.run B b, ?_⟩, ?_, ?_⟩
  · intro B b
    split
    · exact Solver.shape _ _ _
    · exact Solver.shape _ _ _
  · rintro B b ⟨x, hx⟩
    dsimp only
    split
    · rename_i hB
      subst hB
      by_cases hA : B = []
      · subst hA
        exact ⟨hx.1, by simp, by simp⟩
      have hr := rect_of_solves hx
      have hl := ncols_of_solves hx hA
      rcases Nat.eq_zero_or_pos (ncols B) with hc | hc
      · rw [hc] at hl
        rw [svd_run_empty decompose eps hc]
        rwa [List.eq_nil_of_length_eq_zero hl] at hx
      have hD := hd B hr hA hc
      rcases Nat.eq_zero_or_pos d with h0 | h0
      · subst h0
        exact ⟨hx.1, fun row hrow => by
          rw [Solver.shape]; exact hr row hrow, fun g hg r => r.elim0⟩
      · exact (C84_solves_iff hD he hr hA h0).mpr hgap b ⟨x, hx⟩
    · exact hss B b ⟨x, hx⟩
  · exact hF _ _ (fun b => by dsimp only; rw [if_pos rfl])

/-! ### Instances -/

/-- decompositions exist, so the hypotheses can be met: the interpolation of the five points
`0, 1, 4, 9, 16` by a real curve of degree two with the threshold `1/100` -/
example [Trunc ℝ] [Sqrt ℝ] : ∃ (decompose : List (List ℝ) → Svd ℝ) (c : Curve ℝ 1) (Ps : List (Pt ℝ 1))
    (e : ℝ), Decomposes decompose ∧
    generate (.svd decompose (1 / 100)) (.interpolation 2
      ((List.range 5).map (fun g _ => ((g : ℝ)) ^ 2))) = .ok (.ok c) ∧
    SqError c [0 / 4, 1 / 4, 2 / 4, 3 / 4, 4 / 4] ((List.range 5).map (fun g _ => ((g : ℝ)) ^ 2))
      (range 5) e ∧ e ≤ (1 / 100) ^ 2 * sqSize Ps := by
  obtain ⟨dec, hd⟩ := exists_decomposes
  obtain ⟨c, -, -, -, -, Ps, e, τ, h1, -, -, -, -, -, rfl, h2, h3, -⟩ := C84_interpolation hd
    (eps := 1 / 100) (by norm_num) (p := 2) (m := 4) (d := 1)
    (pts := (List.range 5).map (fun g _ => ((g : ℝ)) ^ 2)) (by norm_num) (by norm_num) (by simp)
  refine ⟨dec, c, Ps, e, hd, h1, ?_, h3⟩
  simpa [List.range_succ] using h2

example : IsSvd (K := ℚ) [[3, 0], [0, -2]] ⟨[[1, 0], [0, -1]], [3, 2], [[1, 0], [0, 1]]⟩ where
  count := rfl
  u_rows := rfl
  u_cols := by simp
  vt_rows := rfl
  vt_cols := by simp [ncols]
  left := by
    intro i i' hi hi'
    simp only [List.length_cons, List.length_nil] at hi hi'
    interval_cases i <;> interval_cases i' <;> decide +kernel
  right := by
    intro i i' hi hi'
    simp only [List.length_cons, List.length_nil] at hi hi'
    interval_cases i <;> interval_cases i' <;> decide +kernel
  nonneg := by simp
  product := by
    intro g j hg hj
    simp only [List.length_cons, List.length_nil, ncols] at hg hj
    interval_cases g <;> interval_cases j <;> decide +kernel

/-- a threshold between the two singular values: the second coordinate is dropped -/
example : (⟨[[1, 0], [0, -1]], [3, 2], [[1, 0], [0, 1]]⟩ : Svd ℚ).solve (5 / 2) 2
    [fun _ : Fin 1 => 6, fun _ => 4] = [fun _ => 2, fun _ => 0] := by decide +kernel

/-- and with a smaller threshold it is not -/
example : (⟨[[1, 0], [0, -1]], [3, 2], [[1, 0], [0, 1]]⟩ : Svd ℚ).solve (1 / 2) 2
    [fun _ : Fin 1 => 6, fun _ => 4] = [fun _ => 2, fun _ => -2] := by decide +kernel

end BSpline
