import Verif.Spec.FitNoise
import Verif.Props.Inexact
import Verif.Props.Reproduce
import Verif.Props.FitUnique

/-!
# What a fit keeps of its data: C146

Exact arithmetic and a solver that solves every solvable system. The residuals of a least-squares fit are orthogonal to
all curves over the same knots without penalty. So the fit has the moments of the data, and noise in the data never
becomes larger.
-/

set_option linter.unusedSectionVars false

namespace BSpline

open Finset

variable {K : Type} [Field K] [LinearOrder K] [IsStrictOrderedRing K] {d : ℕ}

section

/-- the normal equations, tested with any other vector -/
theorem lsq_cross {r l c : ℕ} {A D : ℕ → ℕ → K} {lam : K} {y x : ℕ → K}
    (hx : ∀ i, i < c → ∑ j ∈ range c, nm r l A D lam i j * x j = ∑ g ∈ range r, A g i * y g) (w : ℕ → K) :
    ∑ g ∈ range r, (mv c A x g - y g) * mv c A w g + lam * ∑ h ∈ range l, mv c D x h * mv c D w h = 0 := by
  rw [sum_mul_mv, sum_mul_mv, mul_sum, ← sum_add_distrib]
  apply sum_eq_zero
  intro i hi
  have h1 := hx i (mem_range.mp hi)
  rw [sum_nm] at h1
  have h2 : ∑ g ∈ range r, A g i * (mv c A x g - y g) =
      ∑ g ∈ range r, A g i * mv c A x g - ∑ g ∈ range r, A g i * y g := by
    rw [← sum_sub_distrib]; apply sum_congr rfl; intro g _; ring
  rw [h2, ← h1]
  ring

/-- the squares of the data are those of the values and of the residuals, and twice the penalty -/
theorem lsq_energy {r l c : ℕ} {A D : ℕ → ℕ → K} {lam : K} {y x : ℕ → K}
    (hx : ∀ i, i < c → ∑ j ∈ range c, nm r l A D lam i j * x j = ∑ g ∈ range r, A g i * y g) :
    ∑ g ∈ range r, y g ^ 2 = ∑ g ∈ range r, mv c A x g ^ 2 + ∑ g ∈ range r, (mv c A x g - y g) ^ 2 +
      2 * (lam * ∑ h ∈ range l, mv c D x h ^ 2) := by
  have h := lsq_cross hx x
  have e : ∑ g ∈ range r, y g ^ 2 = ∑ g ∈ range r, mv c A x g ^ 2 + ∑ g ∈ range r, (mv c A x g - y g) ^ 2 -
      2 * ∑ g ∈ range r, (mv c A x g - y g) * mv c A x g := by
    rw [mul_sum, ← sum_add_distrib, ← sum_sub_distrib]
    exact sum_congr rfl fun g _ => by ring
  have e2 : ∑ h ∈ range l, mv c D x h ^ 2 = ∑ h ∈ range l, mv c D x h * mv c D x h :=
    sum_congr rfl fun g _ => by ring
  rw [e, e2]
  linear_combination (-2) * h

/-- the normal equations of the differences -/
theorem lsq_sub {r l c : ℕ} {A D : ℕ → ℕ → K} {lam : K} {y x y' x' : ℕ → K}
    (hx : ∀ i, i < c → ∑ j ∈ range c, nm r l A D lam i j * x j = ∑ g ∈ range r, A g i * y g)
    (hx' : ∀ i, i < c → ∑ j ∈ range c, nm r l A D lam i j * x' j = ∑ g ∈ range r, A g i * y' g) :
    ∀ i, i < c → ∑ j ∈ range c, nm r l A D lam i j * (x j - x' j) = ∑ g ∈ range r, A g i * (y g - y' g) := by
  intro i hi
  simp only [mul_sub, sum_sub_distrib]
  rw [hx i hi, hx' i hi]

end

/-- how the values of two minimisers differ -/
theorem lsq_noise {r l c : ℕ} {A D : ℕ → ℕ → K} {lam : K} {y x y' x' : ℕ → K}
    (hx : ∀ i, i < c → ∑ j ∈ range c, nm r l A D lam i j * x j = ∑ g ∈ range r, A g i * y g)
    (hx' : ∀ i, i < c → ∑ j ∈ range c, nm r l A D lam i j * x' j = ∑ g ∈ range r, A g i * y' g) :
    ∑ g ∈ range r, (mv c A x g - mv c A x' g) ^ 2 + 2 * (lam * ∑ h ∈ range l, mv c D (fun j => x j - x' j) h ^ 2) ≤
      ∑ g ∈ range r, (y g - y' g) ^ 2 := by
  have h := lsq_energy (lsq_sub hx hx')
  have h2 : 0 ≤ ∑ g ∈ range r, (mv c A (fun j => x j - x' j) g - (y g - y' g)) ^ 2 :=
    sum_nonneg fun _ _ => sq_nonneg _
  have e : ∑ g ∈ range r, mv c A (fun j => x j - x' j) g ^ 2 = ∑ g ∈ range r, (mv c A x g - mv c A x' g) ^ 2 :=
    sum_congr rfl fun g _ => by rw [mv_sub]
  rw [e] at h
  linarith

/-- the values of a curve from its control points -/
theorem ValuesAt.eq {p n : ℕ} {U : List K} {P : List (Pt K d)} {c : Curve K d} {τ : List K} {I : Finset ℕ}
    {v : ℕ → Pt K d} (hv : ValuesAt c τ I v) (hU : ClampedKnots 0 1 p n U) (hP : P.length = n + 1) (hc : Built c p U P)
    (hI : ∀ g ∈ I, g < τ.length) (hτ : ∀ x ∈ τ, 0 ≤ x ∧ x ≤ 1) {g : ℕ} (hg : g ∈ I) (ρ : Fin d) :
    v g ρ = ∑ i ∈ range (n + 1), nb p n U i (fn τ g) * fn P i ρ := by
  obtain rfl := hc.eq_canon hU.length hU.le hP
  have h1 := hI g hg
  have h2 := hτ (fn τ g) (by rw [fn_lt h1]; exact List.getElem_mem _)
  have h3 := hv g hg
  rw [getD_eq_fn h1, evaluate_sum hU hP h2.1 h2.2] at h3
  injection h3 with h3; injection h3 with h3
  rw [← h3, Finset.sum_apply]
  rfl

theorem fn_pointDiff {P P' : List (Pt K d)} {j : ℕ} (h : j < P.length) (h' : j < P'.length) (ρ : Fin d) :
    fn (pointDiff P P') j ρ = fn P j ρ - fn P' j ρ := by
  rw [fn_lt (by simp [pointDiff, h, h']), fn_lt h, fn_lt h']
  unfold pointDiff
  rw [List.getElem_zipWith]

/-- a polygon without penalty has no penalised differences -/
theorem penalty_cross {c : ℕ} {P' : List (Pt K d)} {pen : Option (Penalization K)} (hP : P'.length = c)
    (h0 : 0 ≤ penLam pen) (h : penaltyCost pen P' = 0) (x : ℕ → K) (ρ : Fin d) :
    penLam pen * ∑ h ∈ range (penRows (fun κ => c - κ) pen),
      mv c (penD pen) x h * mv c (penD pen) (fun j => fn P' j ρ) h = 0 := by
  rw [penaltyCost_eq hP] at h
  have h1 := (sum_eq_zero_iff_of_nonneg fun ρ _ =>
    mul_nonneg h0 (sum_nonneg fun _ _ => sq_nonneg _)).mp h ρ (mem_univ ρ)
  rcases mul_eq_zero.mp h1 with h2 | h2
  · rw [h2, zero_mul]
  · rw [sum_eq_zero_iff_of_nonneg fun _ _ => sq_nonneg _] at h2
    rw [sum_eq_zero fun i hi => ?_, mul_zero]
    rw [pow_eq_zero_iff two_ne_zero |>.mp (h2 i hi), mul_zero]

section loose

variable {p n m : ℕ} {U : List K} {kn : Knots K} {pts P : DataPoints K d} {params : Parameters K} {solver : Solver K d}
  {pen : Option (Penalization K)} {c : Curve K d} {v : ℕ → Pt K d}

/-- **C146** The residuals of a fit with loose ends are orthogonal to the values of every curve over the same knots
that has no penalty. -/
theorem C146_orthogonal (hs : solver.Exact) (hk : Knots.new p U = .ok kn) (hU : ClampedKnots 0 1 p n U) (h1 : 1 ≤ p)
    (hm : List.length pts = m + 1) (hv : params.vector.length = params.segments + 1)
    (hτ : ∀ x ∈ params.vector, 0 ≤ x ∧ x ≤ 1) (hfit : Loose.fit solver kn pts params pen = .ok (.ok P))
    (hc : Built c p U P) (hval : ValuesAt c params.vector (range (m + 1)) v) {P' : List (Pt K d)} {c' : Curve K d}
    {w : ℕ → Pt K d} (hP' : P'.length = n + 1) (hc' : Built c' p U P') (h0 : penaltyCost pen P' = 0)
    (hw : ValuesAt c' params.vector (range (m + 1)) w) :
    ∑ g ∈ range (m + 1), dotp (fun r => v g r - pts.getD g 0 r) (w g) = 0 := by
  obtain ⟨h2, h3, h5, hlen, key⟩ := loose_normal hs hk hU h1 hm hv hfit
  have hI := loose_range hm hv h3
  simp only [dotp]
  rw [sum_comm]
  refine sum_eq_zero fun ρ _ => ?_
  have h6 := lsq_cross (key ρ) (fun j => fn P' j ρ)
  rw [penalty_cross hP' h5 h0, add_zero] at h6
  rw [← h6]
  refine sum_congr rfl fun g hg => ?_
  rw [hval.eq hU hlen hc (fun g hg => (hI g hg).1) hτ hg, hw.eq hU hP' hc' (fun g hg => (hI g hg).1) hτ hg,
    getD_eq_fn (hI g hg).2]
  rfl

/-- **C146** The sum of the squares of the data is the one of the values of the fit, plus the squared error, plus twice
the penalty. -/
theorem C146_energy (hs : solver.Exact) (hk : Knots.new p U = .ok kn) (hU : ClampedKnots 0 1 p n U) (h1 : 1 ≤ p)
    (hm : List.length pts = m + 1) (hv : params.vector.length = params.segments + 1)
    (hτ : ∀ x ∈ params.vector, 0 ≤ x ∧ x ≤ 1) (hfit : Loose.fit solver kn pts params pen = .ok (.ok P))
    (hc : Built c p U P) (hval : ValuesAt c params.vector (range (m + 1)) v) :
    ∑ g ∈ range (m + 1), dotp (pts.getD g 0) (pts.getD g 0) =
      ∑ g ∈ range (m + 1), dotp (v g) (v g) + ∑ g ∈ range (m + 1), sqDist (v g) (pts.getD g 0) +
        2 * penaltyCost pen P := by
  obtain ⟨h2, h3, h5, hlen, key⟩ := loose_normal hs hk hU h1 hm hv hfit
  have hI := loose_range hm hv h3
  rw [penaltyCost_eq hlen]
  simp only [dotp, sqDist]
  rw [sum_comm, sum_comm (s := range (m + 1)) (f := fun g r => v g r * v g r),
    sum_comm (s := range (m + 1)) (f := fun g r => (v g r - pts.getD g 0 r) ^ 2), mul_sum, ← sum_add_distrib,
    ← sum_add_distrib]
  refine sum_congr rfl fun ρ _ => ?_
  have e1 : ∑ g ∈ range (m + 1), pts.getD g 0 ρ * pts.getD g 0 ρ = ∑ g ∈ range (m + 1), fn pts g ρ ^ 2 :=
    sum_congr rfl fun g hg => by rw [getD_eq_fn (hI g hg).2, sq]
  rw [e1, lsq_energy (key ρ)]
  congr 2
  · refine sum_congr rfl fun g hg => ?_
    rw [hval.eq hU hlen hc (fun g hg => (hI g hg).1) hτ hg, ← sq]
    rfl
  · refine sum_congr rfl fun g hg => ?_
    rw [hval.eq hU hlen hc (fun g hg => (hI g hg).1) hτ hg, getD_eq_fn (hI g hg).2]
    rfl

/-- **C146** The values of the fit have the same sum as the data, with any penalty. -/
theorem C146_sum (hs : solver.Exact) (hk : Knots.new p U = .ok kn) (hU : ClampedKnots 0 1 p n U) (h1 : 1 ≤ p)
    (hm : List.length pts = m + 1) (hv : params.vector.length = params.segments + 1)
    (hτ : ∀ x ∈ params.vector, 0 ≤ x ∧ x ≤ 1) (hfit : Loose.fit solver kn pts params pen = .ok (.ok P))
    (hc : Built c p U P) (hval : ValuesAt c params.vector (range (m + 1)) v) (r : Fin d) :
    ∑ g ∈ range (m + 1), v g r = ∑ g ∈ range (m + 1), pts.getD g 0 r := by
  obtain ⟨h2, h3, h5, hlen, key⟩ := loose_normal hs hk hU h1 hm hv hfit
  have hI := loose_range hm hv h3
  set P' : List (Pt K d) := List.replicate (n + 1) (Pi.single r 1) with hP'
  have hl : P'.length = n + 1 := by simp [hP']
  have hfn : ∀ i ∈ range (n + 1), fn P' i = Pi.single r 1 := fun i hi => by
    rw [fn_lt (by rw [hl]; exact mem_range.mp hi)]
    simp [hP']
  have h0 : penaltyCost pen P' = 0 := by
    cases pen with
    | none => rfl
    | some q =>
      rw [penaltyCost]
      split_ifs with hq
      · rfl
      · rw [roughness, sum_eq_zero, mul_zero]
        intro i hi
        refine sum_eq_zero fun ρ _ => ?_
        rw [mem_range, hl] at hi
        rw [fwdDiff_congr (g := fun _ => (Pi.single r 1 : Pt K d) ρ) q.kappa i, pow_eq_zero_iff two_ne_zero]
        · obtain ⟨k, hk⟩ : ∃ k, q.kappa = k + 1 := ⟨q.kappa - 1, by omega⟩
          rw [hk, Function.iterate_succ_apply]
          have : (fwdDiff 1 fun _ : ℕ => (Pi.single r 1 : Pt K d) ρ) = fun _ => 0 := by
            funext i; simp [fwdDiff]
          rw [this]
          clear hk hi hq
          induction k with
          | zero => rfl
          | succ k ih =>
            rw [Function.iterate_succ_apply]
            have : (fwdDiff 1 fun _ : ℕ => (0 : K)) = fun _ => 0 := by
              funext i; simp [fwdDiff]
            rw [this]
            exact ih
        · intro j h6 h7
          rw [getD_eq_fn (by omega), hfn j (mem_range.mpr (by omega))]
  have hb := validOn_canon hU hl
  have key2 := C146_orthogonal hs hk hU h1 hm hv hτ hfit hc hval hl hb.1 h0 (w := fun _ => Pi.single r 1) (by
    intro g hg
    have h6 := hτ (fn params.vector g) (by rw [fn_lt (hI g hg).1]; exact List.getElem_mem _)
    rw [getD_eq_fn (hI g hg).1, evaluate_sum hU hl h6.1 h6.2,
      sum_congr rfl fun i hi => by rw [hfn i hi], ← sum_smul, sum_nb_unit hU h6.1 h6.2, one_smul])
  refine sub_eq_zero.mp (Eq.trans ?_ key2)
  rw [← sum_sub_distrib]
  refine sum_congr rfl fun g _ => ?_
  simp [dotp, Pi.single_apply]

/-- **C146** Without penalty the fit has the moments of the data up to the order of its degree: the values and the data,
weighted with the powers of the parameters, have the same sums. -/
theorem C146_moments (hs : solver.Exact) (hk : Knots.new p U = .ok kn) (hU : ClampedKnots 0 1 p n U) (h1 : 1 ≤ p)
    (hm : List.length pts = m + 1) (hv : params.vector.length = params.segments + 1)
    (hτ : ∀ x ∈ params.vector, 0 ≤ x ∧ x ≤ 1) (hfit : Loose.fit solver kn pts params none = .ok (.ok P))
    (hc : Built c p U P) (hval : ValuesAt c params.vector (range (m + 1)) v) (r : Fin d) {k : ℕ} (hkp : k ≤ p) :
    ∑ g ∈ range (m + 1), params.vector.getD g 0 ^ k * v g r =
      ∑ g ∈ range (m + 1), params.vector.getD g 0 ^ k * pts.getD g 0 r := by
  obtain ⟨h2, h3, h5, hlen, key⟩ := loose_normal hs hk hU h1 hm hv hfit
  have hI := loose_range hm hv h3
  obtain ⟨P', c', hc', hq⟩ := C61_polynomials (d := d) hU (fun i => if i = k then Pi.single r 1 else 0)
  have key2 := C146_orthogonal hs hk hU h1 hm hv hτ hfit hc hval hc'.2.2 hc'.1 rfl
    (w := fun g => params.vector.getD g 0 ^ k • Pi.single r 1) (by
    intro g hg
    have h6 := hτ (fn params.vector g) (by rw [fn_lt (hI g hg).1]; exact List.getElem_mem _)
    have := hq (fn params.vector g) h6.1 h6.2 0 (Nat.zero_le p)
    rw [getD_eq_fn (hI g hg).1]
    refine Eq.trans this ?_
    congr 2
    rw [sum_eq_single k (fun i _ hi => by simp [hi]) (fun hk => absurd (mem_range.mpr (by omega)) hk)]
    dsimp only
    rw [if_pos rfl, Nat.descFactorial_zero, Nat.sub_zero, Nat.cast_one, one_mul, getD_eq_fn (hI g hg).1])
  refine sub_eq_zero.mp (Eq.trans ?_ key2)
  rw [← sum_sub_distrib]
  refine sum_congr rfl fun g _ => ?_
  rw [dotp, sum_eq_single r (fun i _ hi => by simp [hi]) (fun h => absurd (mem_univ r) h)]
  simp only [Pi.smul_apply, Pi.single_eq_same, smul_eq_mul, mul_one]
  ring

/-- **C146** Noise in the data does not become larger: the squared distances of the values of two fits, plus twice the
penalty of the difference of their polygons, add up to at most the squared distances of the data. -/
theorem C146_noise {pts' P' : DataPoints K d} {s' : Solver K d} {c' : Curve K d} {v' : ℕ → Pt K d}
    (hs : solver.Exact) (hs' : s'.Exact) (hk : Knots.new p U = .ok kn) (hU : ClampedKnots 0 1 p n U) (h1 : 1 ≤ p)
    (hm : List.length pts = m + 1) (hm' : List.length pts' = m + 1) (hv : params.vector.length = params.segments + 1)
    (hτ : ∀ x ∈ params.vector, 0 ≤ x ∧ x ≤ 1) (hfit : Loose.fit solver kn pts params pen = .ok (.ok P))
    (hfit' : Loose.fit s' kn pts' params pen = .ok (.ok P')) (hc : Built c p U P) (hc' : Built c' p U P')
    (hval : ValuesAt c params.vector (range (m + 1)) v) (hval' : ValuesAt c' params.vector (range (m + 1)) v') :
    ∑ g ∈ range (m + 1), sqDist (v g) (v' g) + 2 * penaltyCost pen (pointDiff P P') ≤
      ∑ g ∈ range (m + 1), sqDist (pts.getD g 0) (pts'.getD g 0) := by
  obtain ⟨h2, h3, h5, hlen, key⟩ := loose_normal hs hk hU h1 hm hv hfit
  obtain ⟨-, -, -, hlen', key'⟩ := loose_normal hs' hk hU h1 hm' hv hfit'
  have hI := loose_range hm hv h3
  have hl : (pointDiff P P').length = n + 1 := by simp [pointDiff, hlen, hlen']
  rw [penaltyCost_eq hl]
  simp only [sqDist]
  rw [sum_comm, sum_comm (s := range (m + 1)), mul_sum, ← sum_add_distrib]
  refine sum_le_sum fun ρ _ => ?_
  refine le_trans (le_of_eq ?_) (le_trans (lsq_noise (key ρ) (key' ρ)) (le_of_eq ?_))
  · congr 1
    · refine sum_congr rfl fun g hg => ?_
      rw [hval.eq hU hlen hc (fun g hg => (hI g hg).1) hτ hg, hval'.eq hU hlen' hc' (fun g hg => (hI g hg).1) hτ hg]
      rfl
    · congr 2
      refine sum_congr rfl fun h _ => ?_
      congr 1
      refine sum_congr rfl fun j hj => ?_
      rw [mem_range] at hj
      congr 1
      exact fn_pointDiff (by omega) (by omega) ρ
  · refine sum_congr rfl fun g hg => ?_
    rw [getD_eq_fn (hI g hg).2, getD_eq_fn (by have := mem_range.mp hg; omega)]

end loose

section fixed

variable {p n m : ℕ} {U : List K} {kn : Knots K} {pts P : DataPoints K d} {params : Parameters K} {solver : Solver K d}
  {pen : Option (Penalization K)} {c : Curve K d} {v : ℕ → Pt K d}

/-- the values of a curve with given ends from its inner points -/
theorem value_inner {p n m : ℕ} {U : List K} {pts X : List (Pt K d)} {τ : List K} (hn : 2 ≤ n)
    (hX : X.length = n + 1) (hX0 : fn X 0 = fn pts 0) (hXn : fn X n = fn pts m) (ρ : Fin d) (g : ℕ) :
    ∑ i ∈ range (n + 1), nb p n U i (fn τ (g + 1)) * fn X i ρ =
      mv (n - 1) (fun g i => nb p n U (i + 1) (fn τ (g + 1))) (fun j => fn X.tail.dropLast j ρ) g +
        (fn pts (g + 1) ρ - fixQ p n m U pts τ (g + 1) ρ) := by
  linear_combination fixed_residual (p := p) (U := U) (τ := τ) hn hX hX0 hXn ρ g

/-- **C146** The residuals of a fit with fixed ends are orthogonal to the values of every curve over the same knots that
is zero at both ends and has no penalty. -/
theorem C146_fixed_orthogonal (hs : solver.Exact) (hk : Knots.new p U = .ok kn) (hU : ClampedKnots 0 1 p n U) (h1 : 1 ≤ p)
    (hm : List.length pts = m + 1) (hv : params.vector.length = params.segments + 1)
    (hτ : ∀ x ∈ params.vector, 0 ≤ x ∧ x ≤ 1) (hfit : Fixed.fit solver kn pts params pen = .ok (.ok P))
    (hc : Built c p U P) (hval : ValuesAt c params.vector (Ico 1 m) v) {P' : List (Pt K d)} {c' : Curve K d}
    {w : ℕ → Pt K d} (hP' : P'.length = n + 1) (hc' : Built c' p U P') (h0 : penaltyCost pen P'.tail.dropLast = 0)
    (he0 : P'[0]? = some 0) (he1 : P'[n]? = some 0) (hw : ValuesAt c' params.vector (Ico 1 m) w) :
    ∑ g ∈ Ico 1 m, dotp (fun r => v g r - pts.getD g 0 r) (w g) = 0 := by
  obtain ⟨hn, h2, h3, h5, hlen, hP0, hPn, key⟩ := fixed_normal hs hk hU h1 hm hv hfit
  have hI := fixed_range hm hv h3
  have hz0 : fn P' 0 = 0 := by rw [fn_lt (by omega)]; exact (List.getElem?_eq_some_iff.mp he0).2
  have hzn : fn P' n = 0 := by rw [fn_lt (by omega)]; exact (List.getElem?_eq_some_iff.mp he1).2
  simp only [dotp]
  rw [sum_comm]
  refine sum_eq_zero fun ρ _ => ?_
  have h6 := lsq_cross (key ρ) (fun j => fn P'.tail.dropLast j ρ)
  rw [penalty_cross (length_inner hP') h5 h0, add_zero] at h6
  rw [← h6, sum_Ico_eq_sum_range]
  refine sum_congr rfl fun g hg => ?_
  have hg' : g + 1 ∈ Ico 1 m := by
    rw [mem_range] at hg
    rw [mem_Ico]; omega
  rw [Nat.add_comm 1 g, hval.eq hU hlen hc (fun g hg => (hI g hg).1) hτ hg',
    hw.eq hU hP' hc' (fun g hg => (hI g hg).1) hτ hg', getD_eq_fn (hI _ hg').2, fixed_residual hn hlen hP0 hPn ρ g]
  congr 1
  rw [sum_inner (by omega), hz0, hzn, mv, Pi.zero_apply, mul_zero, mul_zero, zero_add, zero_add]
  refine sum_congr rfl fun j hj => ?_
  rw [mem_range] at hj
  rw [fn_inner (by omega)]

/-- **C146** Noise in the inner data of a fit with fixed ends does not become larger. -/
theorem C146_fixed_noise {pts' P' : DataPoints K d} {s' : Solver K d} {c' : Curve K d} {v' : ℕ → Pt K d}
    (hs : solver.Exact) (hs' : s'.Exact) (hk : Knots.new p U = .ok kn) (hU : ClampedKnots 0 1 p n U) (h1 : 1 ≤ p)
    (hm : List.length pts = m + 1) (hm' : List.length pts' = m + 1) (he0 : pts[0]? = pts'[0]?) (he1 : pts[m]? = pts'[m]?)
    (hv : params.vector.length = params.segments + 1) (hτ : ∀ x ∈ params.vector, 0 ≤ x ∧ x ≤ 1)
    (hfit : Fixed.fit solver kn pts params pen = .ok (.ok P)) (hfit' : Fixed.fit s' kn pts' params pen = .ok (.ok P'))
    (hc : Built c p U P) (hc' : Built c' p U P') (hval : ValuesAt c params.vector (Ico 1 m) v)
    (hval' : ValuesAt c' params.vector (Ico 1 m) v') :
    ∑ g ∈ Ico 1 m, sqDist (v g) (v' g) + 2 * penaltyCost pen (pointDiff P P').tail.dropLast ≤
      ∑ g ∈ Ico 1 m, sqDist (pts.getD g 0) (pts'.getD g 0) := by
  obtain ⟨hn, h2, h3, h5, hlen, hP0, hPn, key⟩ := fixed_normal hs hk hU h1 hm hv hfit
  obtain ⟨-, -, -, -, hlen', hP0', hPn', key'⟩ := fixed_normal hs' hk hU h1 hm' hv hfit'
  rw [getElem?_eq_iff_fn (by omega) (by omega)] at he0 he1
  have hI := fixed_range hm hv h3
  have hq : ∀ g (ρ : Fin d), fn pts g ρ - fixQ p n m U pts params.vector g ρ =
      fn pts' g ρ - fixQ p n m U pts' params.vector g ρ := by
    intro g ρ
    simp only [fixQ, Pi.sub_apply, he0, he1, scale]
    ring
  have hl : (pointDiff P P').length = n + 1 := by simp [pointDiff, hlen, hlen']
  rw [penaltyCost_eq (length_inner hl)]
  simp only [sqDist]
  rw [sum_comm, sum_comm (s := Ico 1 m), mul_sum, ← sum_add_distrib]
  refine sum_le_sum fun ρ _ => ?_
  refine le_trans (le_of_eq ?_) (le_trans (lsq_noise (key ρ) (key' ρ)) (le_of_eq ?_))
  · congr 1
    · rw [sum_Ico_eq_sum_range]
      refine sum_congr rfl fun g hg => ?_
      have hg' : g + 1 ∈ Ico 1 m := by
        rw [mem_range] at hg
        rw [mem_Ico]; omega
      rw [Nat.add_comm 1 g, hval.eq hU hlen hc (fun g hg => (hI g hg).1) hτ hg',
        hval'.eq hU hlen' hc' (fun g hg => (hI g hg).1) hτ hg', value_inner hn hlen hP0 hPn,
        value_inner hn hlen' hP0' hPn', hq]
      congr 1
      ring
    · congr 2
      refine sum_congr rfl fun h _ => ?_
      congr 1
      refine sum_congr rfl fun j hj => ?_
      rw [mem_range] at hj
      congr 1
      show fn (pointDiff P P').tail.dropLast j ρ = fn P.tail.dropLast j ρ - fn P'.tail.dropLast j ρ
      rw [fn_inner (by omega), fn_inner (by omega), fn_inner (by omega)]
      exact fn_pointDiff (by omega) (by omega) ρ
  · rw [sum_Ico_eq_sum_range]
    refine sum_congr rfl fun g hg => ?_
    have hg' : g + 1 ∈ Ico 1 m := by
      rw [mem_range] at hg
      rw [mem_Ico]; omega
    rw [Nat.add_comm 1 g, getD_eq_fn (hI _ hg').2, getD_eq_fn (by rw [mem_Ico] at hg'; omega)]
    have := hq (g + 1) ρ
    congr 1
    linear_combination -this

end fixed

section generated
variable [Trunc K] [Sqrt K]

/-- what a successful call has done -/
theorem generate_loose_inv {p n m : ℕ} {pts : DataPoints K d} {solver : Solver K d} {pen : Option (Penalization K)}
    {c : Curve K d} (hs : solver.Exact) (h1 : 1 ≤ p) (h2 : p ≤ n) (hm : List.length pts = m + 1)
    (hgen : generate solver (.leastSquaresFit p pts n .looseEnds pen) = .ok (.ok c)) :
    ∃ (ps : Parameters K) (P : DataPoints K d), equallySpaced m = .ok ps ∧ ps.segments = m ∧ ps.vector.length = m + 1 ∧
      (∀ x ∈ ps.vector, 0 ≤ x ∧ x ≤ 1) ∧ (∀ g, g ≤ m → ps.vector.getD g 0 = (g : K) / m) ∧
      Loose.fit solver (canonKnots p (genU p n (uniK p n))) pts ps pen = .ok (.ok P) ∧
      Built c p (genU p n (uniK p n)) P := by
  obtain ⟨ps, h3, h4, h5, h6⟩ := equallySpaced_shape (K := K) m
  rw [generate_fit h1 h2 hm _ _ _ h3] at hgen
  obtain ⟨r, h7, h8⟩ := bind_ok_inv hgen
  cases r with
  | error e => cases h8
  | ok P =>
    obtain ⟨h9, -⟩ := loose_normal hs (genKnots_new h2 _) (uniform_clamped h1 h2) h1 hm (by rw [h5, h4]) h7
    obtain ⟨ps', g1, -, g3, g4, -⟩ := C39_equally_spaced (K := K) (m := m) (by omega)
    rw [h3] at g1
    injection g1 with g1
    subst g1
    refine ⟨ps, P, h3, h4, h5, h6, fun g hg => ?_, h7, h8⟩
    rw [List.getD_eq_getElem?_getD, g4 g hg]
    rfl

/-- **C146** for generated curves: the values of a fit with loose ends at the parameters `g / m` have the same sum as the
data, and the squares of the values and of the errors together are at most those of the data. -/
theorem C146_generate {p n m : ℕ} {pts : DataPoints K d} {solver : Solver K d} {pen : Option (Penalization K)}
    {c : Curve K d} {v : ℕ → Pt K d} (hs : solver.Exact) (h1 : 1 ≤ p) (h2 : p ≤ n) (hm : List.length pts = m + 1)
    (hgen : generate solver (.leastSquaresFit p pts n .looseEnds pen) = .ok (.ok c))
    (hv : ∀ g, g ≤ m → c.evaluate ((g : K) / m) = .ok (.ok (v g))) :
    (∀ r, ∑ g ∈ range (m + 1), v g r = ∑ g ∈ range (m + 1), pts.getD g 0 r) ∧
      (pen = none → ∀ r k, k ≤ p → ∑ g ∈ range (m + 1), ((g : K) / m) ^ k * v g r =
        ∑ g ∈ range (m + 1), ((g : K) / m) ^ k * pts.getD g 0 r) ∧
      ∑ g ∈ range (m + 1), dotp (v g) (v g) + ∑ g ∈ range (m + 1), sqDist (v g) (pts.getD g 0) ≤
        ∑ g ∈ range (m + 1), dotp (pts.getD g 0) (pts.getD g 0) := by
  obtain ⟨ps, P, -, h4, h5, h6, h7, h8, h9⟩ := generate_loose_inv hs h1 h2 hm hgen
  have hU := uniform_clamped (K := K) h1 h2
  have hk := genKnots_new (K := K) h2 (uniK p n)
  have hl : ps.vector.length = ps.segments + 1 := by rw [h5, h4]
  have hval : ValuesAt c ps.vector (range (m + 1)) v := fun g hg => by
    have hg' : g ≤ m := Nat.lt_succ_iff.mp (mem_range.mp hg)
    rw [h7 g hg']
    exact hv g hg'
  refine ⟨fun r => C146_sum hs hk hU h1 hm hl h6 h8 h9 hval r, ?_, ?_⟩
  · rintro rfl r k hk'
    have := C146_moments hs hk hU h1 hm hl h6 h8 h9 hval r hk'
    have e : ∀ f : ℕ → K, ∑ g ∈ range (m + 1), ps.vector.getD g 0 ^ k * f g =
        ∑ g ∈ range (m + 1), ((g : K) / m) ^ k * f g := fun f =>
      sum_congr rfl fun g hg => by rw [h7 g (Nat.lt_succ_iff.mp (mem_range.mp hg))]
    rwa [e, e] at this
  · have := C146_energy hs hk hU h1 hm hl h6 h8 h9 hval
    obtain ⟨-, -, h10, h11, -⟩ := loose_normal hs hk hU h1 hm hl h8
    have h12 : 0 ≤ penaltyCost pen P := by
      rw [penaltyCost_eq h11]
      exact sum_nonneg fun ρ _ => mul_nonneg h10 (sum_nonneg fun _ _ => sq_nonneg _)
    linarith

/-- **C146** for generated curves: two fits with loose ends are at most as far apart at the parameters as their data. -/
theorem C146_generate_noise {p n m : ℕ} {pts pts' : DataPoints K d} {solver s' : Solver K d}
    {pen : Option (Penalization K)} {c c' : Curve K d} {v v' : ℕ → Pt K d} (hs : solver.Exact) (hs' : s'.Exact)
    (h1 : 1 ≤ p) (h2 : p ≤ n) (hm : List.length pts = m + 1) (hm' : List.length pts' = m + 1)
    (hgen : generate solver (.leastSquaresFit p pts n .looseEnds pen) = .ok (.ok c))
    (hgen' : generate s' (.leastSquaresFit p pts' n .looseEnds pen) = .ok (.ok c'))
    (hv : ∀ g, g ≤ m → c.evaluate ((g : K) / m) = .ok (.ok (v g)))
    (hv' : ∀ g, g ≤ m → c'.evaluate ((g : K) / m) = .ok (.ok (v' g))) :
    ∑ g ∈ range (m + 1), sqDist (v g) (v' g) ≤ ∑ g ∈ range (m + 1), sqDist (pts.getD g 0) (pts'.getD g 0) := by
  obtain ⟨ps, P, h3, h4, h5, h6, h7, h8, h9⟩ := generate_loose_inv hs h1 h2 hm hgen
  obtain ⟨ps', P', g3, -, -, -, -, g8, g9⟩ := generate_loose_inv hs' h1 h2 hm' hgen'
  rw [h3] at g3
  injection g3 with g3
  subst g3
  have hU := uniform_clamped (K := K) h1 h2
  have hk := genKnots_new (K := K) h2 (uniK p n)
  have hl : ps.vector.length = ps.segments + 1 := by rw [h5, h4]
  have hval : ∀ {c : Curve K d} {v : ℕ → Pt K d}, (∀ g, g ≤ m → c.evaluate ((g : K) / m) = .ok (.ok (v g))) →
      ValuesAt c ps.vector (range (m + 1)) v := fun hv g hg => by
    have hg' : g ≤ m := Nat.lt_succ_iff.mp (mem_range.mp hg)
    rw [h7 g hg']
    exact hv g hg'
  have key := C146_noise hs hs' hk hU h1 hm hm' hl h6 h8 g8 h9 g9 (hval hv) (hval hv')
  obtain ⟨-, -, h10, h11, -⟩ := loose_normal hs hk hU h1 hm hl h8
  obtain ⟨-, -, -, g11, -⟩ := loose_normal hs' hk hU h1 hm' hl g8
  have h12 : 0 ≤ penaltyCost pen (pointDiff P P') := by
    rw [penaltyCost_eq (c := n + 1) (by simp [pointDiff, h11, g11])]
    exact sum_nonneg fun ρ _ => mul_nonneg h10 (sum_nonneg fun _ _ => sq_nonneg _)
  linarith

end generated

/-- the hypotheses are met by two quadratic fits with a penalty, of five points each -/
example [Sqrt ℚ] : ∃ (s : Solver ℚ 2) (c c' : Curve ℚ 2) (v v' : ℕ → Pt ℚ 2), s.Exact ∧
    generate s (.leastSquaresFit 2 exPts 3 .looseEnds (some ⟨1/10, 2⟩)) = .ok (.ok c) ∧
    generate s (.leastSquaresFit 2 (exPts.set 2 ![3, 2]) 3 .looseEnds (some ⟨1/10, 2⟩)) = .ok (.ok c') ∧
    (∀ g : ℕ, g ≤ 4 → c.evaluate ((g : ℚ) / (4 : ℕ)) = .ok (.ok (v g))) ∧
    (∀ g : ℕ, g ≤ 4 → c'.evaluate ((g : ℚ) / (4 : ℕ)) = .ok (.ok (v' g))) ∧
    ∑ g ∈ range (4 + 1), sqDist (v g) (v' g) ≤ 1 := by
  obtain ⟨s, hs⟩ := exists_exact_solver ℚ 2
  have key : ∀ pts : DataPoints ℚ 2, List.length pts = 4 + 1 → ∃ (c : Curve ℚ 2) (v : ℕ → Pt ℚ 2),
      generate s (.leastSquaresFit 2 pts 3 .looseEnds (some ⟨1/10, 2⟩)) = .ok (.ok c) ∧
      ∀ g : ℕ, g ≤ 4 → c.evaluate ((g : ℚ) / (4 : ℕ)) = .ok (.ok (v g)) := by
    intro pts hm
    obtain ⟨c, U, P, hU, hP, hc, h⟩ := (C44_generate_loose (p := 2) (n := 3) (m := 4) (pts := pts)
      (by omega) (by omega) hm s (some ⟨1/10, 2⟩)).2 (by decide +kernel)
    obtain rfl := hc.eq_canon hU.length hU.le hP
    refine ⟨_, _, h, fun g hg => evaluate_sum hU hP (by positivity) ?_⟩
    rw [div_le_one (by norm_num)]
    exact_mod_cast hg
  obtain ⟨c, v, h1, h2⟩ := key exPts rfl
  obtain ⟨c', v', h3, h4⟩ := key (exPts.set 2 ![3, 2]) rfl
  refine ⟨s, c, c', v, v', hs, h1, h3, h2, h4, ?_⟩
  refine le_trans (C146_generate_noise (m := 4) hs hs (by omega) (by omega) rfl rfl h1 h3 h2 h4) ?_
  decide +kernel

end BSpline
