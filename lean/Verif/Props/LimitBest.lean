import Verif.Props.LimitPoly
import Verif.Props.LimitMean

/-!
# The limit of the penalised fits for growing penalties: C74
-/

set_option linter.unusedSectionVars false

namespace BSpline

open Finset fwdDiff

variable {K : Type} [Field K] [LinearOrder K] [IsStrictOrderedRing K] {d : ℕ}

/-- combinations of the first `κ` binomials -/
def binom (κ : ℕ) (a : ℕ → K) (i : ℕ) : K := ∑ k ∈ range κ, a k * (i.choose k : K)

/-- the differences of order `κ` of a combination of the first `κ` binomials are zero -/
theorem binom_diff (κ : ℕ) : ∀ (a : ℕ → K), (Δ_[1]^[κ] (binom κ a)) = fun _ => 0 := by
  induction κ with
  | zero => intro a; funext i; simp [binom]
  | succ κ ih =>
    intro a
    rw [Function.iterate_succ_apply, ← ih fun k => a (k + 1)]
    congr 1
    funext i
    rw [fwdDiff, binom, binom, sum_range_succ', sum_range_succ', binom]
    simp only [Nat.choose_zero_right, add_sub_add_right_eq_sub, ← sum_sub_distrib]
    refine sum_congr rfl fun k _ => ?_
    rw [Nat.choose_succ_succ]
    push_cast
    ring

/-- the values of such combinations under a matrix -/
def binomM (n : ℕ) (A : ℕ → ℕ → K) (g k : ℕ) : K := ∑ i ∈ range (n + 1), A g i * (i.choose k : K)

theorem mv_binom (n κ : ℕ) (A : ℕ → ℕ → K) (a : ℕ → K) (g : ℕ) :
    mv (n + 1) A (binom κ a) g = mv κ (binomM n A) a g := by
  simp only [mv, binom, binomM, mul_sum, sum_mul]
  rw [sum_comm]
  exact sum_congr rfl fun _ _ => sum_congr rfl fun _ _ => by ring

/-- a sequence is close to a combination of the first `κ` binomials if its differences are small in the mean square -/
theorem near_binom (κ n : ℕ) (x : ℕ → K) : ∃ (a : ℕ → K) (M : K), 0 ≤ M ∧
    M ^ 2 ≤ ∑ h ∈ range (n + 1 - κ), ((Δ_[1]^[κ] x) h) ^ 2 ∧ ∀ i, i ≤ n → |x i - binom κ a i| ≤ (n : K) ^ κ * M := by
  obtain ⟨M, hM, hM2, hMj⟩ : ∃ M : K, 0 ≤ M ∧ M ^ 2 ≤ ∑ h ∈ range (n + 1 - κ), ((Δ_[1]^[κ] x) h) ^ 2 ∧
      ∀ j, j < n + 1 - κ → |(Δ_[1]^[κ] x) j| ≤ M := by
    rcases (range (n + 1 - κ)).eq_empty_or_nonempty with h | h
    · refine ⟨0, le_rfl, by rw [h]; simp, fun j hj => ?_⟩
      have := mem_range.mpr hj
      rw [h] at this
      simp at this
    · obtain ⟨j, hj, hmax⟩ := exists_max_image _ (fun j => |(Δ_[1]^[κ] x) j|) h
      refine ⟨_, abs_nonneg _, ?_, fun k hk => hmax k (mem_range.mpr hk)⟩
      rw [sq_abs]
      exact single_le_sum (f := fun h => ((Δ_[1]^[κ] x) h) ^ 2) (fun _ _ => sq_nonneg _) hj
  obtain ⟨a, ha⟩ := near_binomials κ n x M hM (fun j hj => hMj j (by omega))
  exact ⟨a, M, hM, hM2, ha⟩

/-- a sequence without differences of order `κ` is such a combination -/
theorem binom_of_diff (κ n : ℕ) (x : ℕ → K) (h : ∑ h ∈ range (n + 1 - κ), ((Δ_[1]^[κ] x) h) ^ 2 = 0) :
    ∃ a, ∀ i, i ≤ n → x i = binom κ a i := by
  obtain ⟨a, M, h0, h1, h2⟩ := near_binom κ n x
  have hM : M = 0 := by
    rw [h] at h1
    exact pow_eq_zero_iff two_ne_zero |>.mp (le_antisymm h1 (sq_nonneg M))
  refine ⟨a, fun i hi => ?_⟩
  have := h2 i hi
  rw [hM, mul_zero] at this
  exact sub_eq_zero.mp (abs_eq_zero.mp (le_antisymm this (abs_nonneg _)))

/-- the values of the penalised solution are close to those of the best combination of binomials -/
theorem near_best {n r κ : ℕ} (hκ : 1 ≤ κ) {A : ℕ → ℕ → K} (hA0 : ∀ g, g < r → ∀ j, 0 ≤ A g j)
    (hA1 : ∀ g, g < r → ∑ j ∈ range (n + 1), A g j ≤ 1) {l : K} (hl : 0 ≤ l) {y x a₀ : ℕ → K}
    (hx : ∀ i, i < n + 1 → ∑ j ∈ range (n + 1), nm r (n + 1 - κ) A
      (fun i j => ((differenceOperator κ i j : ℤ) : K)) l i j * x j = ∑ g ∈ range r, A g i * y g)
    (ha : ∀ b, ∑ g ∈ range r, (mv κ (binomM n A) a₀ g - y g) * mv κ (binomM n A) b g = 0) :
    l * ∑ g ∈ range r, (mv (n + 1) A x g - mv κ (binomM n A) a₀ g) ^ 2 ≤
      r * (n : K) ^ (2 * κ) * ∑ g ∈ range r, (mv κ (binomM n A) a₀ g - y g) ^ 2 := by
  have hD : ∀ (w : ℕ → K) (h : ℕ), h ∈ range (n + 1 - κ) →
      mv (n + 1) (fun i j => ((differenceOperator κ i j : ℤ) : K)) w h = (Δ_[1]^[κ] w) h := fun w h hh => by
    rw [mem_range] at hh
    exact penalty_diff hκ w (by omega)
  have hcost := lsq_le hl hx (binom κ a₀)
  simp only [lsq] at hcost
  have c1 : ∑ h ∈ range (n + 1 - κ), mv (n + 1) (fun i j => ((differenceOperator κ i j : ℤ) : K)) x h ^ 2 =
      ∑ h ∈ range (n + 1 - κ), ((Δ_[1]^[κ] x) h) ^ 2 := sum_congr rfl fun h hh => by rw [hD x h hh]
  have c2 : ∑ h ∈ range (n + 1 - κ), mv (n + 1) (fun i j => ((differenceOperator κ i j : ℤ) : K)) (binom κ a₀) h ^ 2 = 0 :=
    sum_eq_zero fun h hh => by rw [hD _ h hh, binom_diff, zero_pow two_ne_zero]
  have c3 : ∑ g ∈ range r, (mv (n + 1) A (binom κ a₀) g - y g) ^ 2 = ∑ g ∈ range r, (mv κ (binomM n A) a₀ g - y g) ^ 2 :=
    sum_congr rfl fun g _ => by rw [mv_binom]
  rw [c1, c2, c3, mul_zero, add_zero] at hcost
  have hE : 0 ≤ ∑ g ∈ range r, (mv (n + 1) A x g - y g) ^ 2 := sum_nonneg fun _ _ => sq_nonneg _
  obtain ⟨a, M, hM, hM2, hnear⟩ := near_binom κ n x
  -- the solution and the best combination differ orthogonally to all combinations
  have ho : ∑ g ∈ range r, (mv (n + 1) A x g - mv κ (binomM n A) a₀ g) *
      (mv κ (binomM n A) a g - mv κ (binomM n A) a₀ g) = 0 := by
    have h1 := lsq_cross hx (binom κ fun k => a k - a₀ k)
    have h2 : ∑ h ∈ range (n + 1 - κ), mv (n + 1) (fun i j => ((differenceOperator κ i j : ℤ) : K)) x h *
        mv (n + 1) (fun i j => ((differenceOperator κ i j : ℤ) : K)) (binom κ fun k => a k - a₀ k) h = 0 :=
      sum_eq_zero fun h hh => by rw [hD _ h hh, hD _ h hh, binom_diff, mul_zero]
    rw [h2, mul_zero, add_zero] at h1
    have h3 := ha fun k => a k - a₀ k
    rw [← sub_eq_zero.mpr (h1.trans h3.symm), ← sum_sub_distrib]
    refine sum_congr rfl fun g _ => ?_
    rw [mv_binom, mv_sub]
    ring
  have hle : ∑ g ∈ range r, (mv (n + 1) A x g - mv κ (binomM n A) a₀ g) ^ 2 ≤
      ∑ g ∈ range r, (mv (n + 1) A x g - mv κ (binomM n A) a g) ^ 2 := by
    have h1 : ∑ g ∈ range r, (mv (n + 1) A x g - mv κ (binomM n A) a g) ^ 2 =
        ∑ g ∈ range r, (mv (n + 1) A x g - mv κ (binomM n A) a₀ g) ^ 2 -
        2 * ∑ g ∈ range r, (mv (n + 1) A x g - mv κ (binomM n A) a₀ g) *
          (mv κ (binomM n A) a g - mv κ (binomM n A) a₀ g) +
        ∑ g ∈ range r, (mv κ (binomM n A) a g - mv κ (binomM n A) a₀ g) ^ 2 := by
      rw [mul_sum, ← sum_sub_distrib, ← sum_add_distrib]
      exact sum_congr rfl fun g _ => by ring
    have h2 : 0 ≤ ∑ g ∈ range r, (mv κ (binomM n A) a g - mv κ (binomM n A) a₀ g) ^ 2 :=
      sum_nonneg fun _ _ => sq_nonneg _
    rw [h1, ho]
    linarith
  have hpt : ∀ g ∈ range r, (mv (n + 1) A x g - mv κ (binomM n A) a g) ^ 2 ≤ ((n : K) ^ κ * M) ^ 2 := by
    intro g hg
    rw [mem_range] at hg
    rw [← sq_abs, ← mv_binom, ← mv_sub]
    refine pow_le_pow_left₀ (abs_nonneg _) ?_ 2
    refine (abs_sum_le_sum_abs _ _).trans ?_
    have hnM : 0 ≤ (n : K) ^ κ * M := by positivity
    refine le_trans ?_ (mul_le_of_le_one_left hnM (hA1 g hg))
    rw [sum_mul]
    refine sum_le_sum fun j hj => ?_
    rw [mem_range] at hj
    rw [abs_mul, abs_of_nonneg (hA0 g hg j)]
    exact mul_le_mul_of_nonneg_left (hnear j (by omega)) (hA0 g hg j)
  calc l * ∑ g ∈ range r, (mv (n + 1) A x g - mv κ (binomM n A) a₀ g) ^ 2
      ≤ l * ∑ g ∈ range r, ((n : K) ^ κ * M) ^ 2 := mul_le_mul_of_nonneg_left (hle.trans (sum_le_sum hpt)) hl
    _ = r * (n : K) ^ (2 * κ) * (l * M ^ 2) := by
      rw [sum_const, card_range, nsmul_eq_mul]
      ring
    _ ≤ r * (n : K) ^ (2 * κ) * (l * ∑ h ∈ range (n + 1 - κ), ((Δ_[1]^[κ] x) h) ^ 2) :=
      mul_le_mul_of_nonneg_left (mul_le_mul_of_nonneg_left hM2 hl) (by positivity)
    _ ≤ _ := mul_le_mul_of_nonneg_left (by linarith) (by positivity)

/-- points without roughness are, in every coordinate, combinations of binomials -/
theorem roughness_zero_binom {n κ : ℕ} {P : List (Pt K d)} (hP : P.length = n + 1) (h : roughness κ P = 0) (ρ : Fin d) :
    ∃ a, ∀ i, i ≤ n → fn P i ρ = binom κ a i := by
  refine binom_of_diff κ n (fun i => fn P i ρ) ?_
  rw [roughness, hP, sum_comm] at h
  have h1 := (sum_eq_zero_iff_of_nonneg fun r _ => sum_nonneg fun _ _ => sq_nonneg _).mp h ρ (mem_univ ρ)
  refine Eq.trans (sum_congr rfl fun i hi => ?_) h1
  rw [mem_range] at hi
  congr 1
  refine fwdDiff_congr κ i fun j _ hj => ?_
  rw [getD_eq_fn (by omega)]

variable [Trunc K]

/-- **C74** With loose ends the fits tend, as `lambda` grows, to the best curve without roughness: there is one among
the curves over the knots whose control points have no differences of order `κ` that has the least squared error, and
`lambda` times the sum of the squared distances of the fit from it, at the parameters, is at most `(m+1) n^(2κ)` times
that error. -/
theorem C74_loose_best {p n m κ : ℕ} {U : List K} {kn : Knots K} {pts : DataPoints K d} {params : Parameters K}
    (hk : Knots.new p U = .ok kn) (hU : ClampedKnots 0 1 p n U) (h1 : 1 ≤ p) (hm : List.length pts = m + 1)
    (hv : params.vector.length = params.segments + 1) (hτ : ∀ x ∈ params.vector, 0 ≤ x ∧ x ≤ 1)
    (hseg : m = params.segments) (hκ : 1 ≤ κ) :
    ∃ (P₀ : List (Pt K d)) (c₀ : Curve K d) (v₀ : ℕ → Pt K d) (e₀ : K), P₀.length = n + 1 ∧ Built c₀ p U P₀ ∧
      roughness κ P₀ = 0 ∧ ValuesAt c₀ params.vector (range (m + 1)) v₀ ∧
      SqError c₀ params.vector pts (range (m + 1)) e₀ ∧
      (∀ (P' : List (Pt K d)) (c' : Curve K d) (e' : K), P'.length = n + 1 → Built c' p U P' → roughness κ P' = 0 →
        SqError c' params.vector pts (range (m + 1)) e' → e₀ ≤ e') ∧
      ∀ (solver : Solver K d) (l : K) (P : DataPoints K d) (c : Curve K d) (v : ℕ → Pt K d), solver.Exact →
        Loose.fit solver kn pts params (some ⟨l, κ⟩) = .ok (.ok P) → Built c p U P →
        ValuesAt c params.vector (range (m + 1)) v →
        l * ∑ g ∈ range (m + 1), sqDist (v g) (v₀ g) ≤ (m + 1) * (n : K) ^ (2 * κ) * e₀ := by
  have hI := loose_range hm hv hseg
  set A : ℕ → ℕ → K := fun g i => nb p n U i (fn params.vector g) with hA
  have hbd : ∀ g, g < m + 1 → 0 ≤ fn params.vector g ∧ fn params.vector g ≤ 1 := fun g hg => by
    rw [fn_lt (by omega)]
    exact hτ _ (List.getElem_mem _)
  choose a ha using fun ρ : Fin d => normal_solvable (m + 1) 0 κ (binomM n A) (fun _ _ => 0) (le_refl (0 : K))
    (fun g => fn pts g ρ)
  have horth : ∀ ρ b, ∑ g ∈ range (m + 1), (mv κ (binomM n A) (a ρ) g - fn pts g ρ) * mv κ (binomM n A) b g = 0 :=
    fun ρ b => by
      have := lsq_cross (ha ρ) b
      rwa [zero_mul, add_zero] at this
  set P₀ : List (Pt K d) := (List.range (n + 1)).map fun i ρ => binom κ (a ρ) i with hP₀
  have hlen : P₀.length = n + 1 := by simp [hP₀]
  have hfn : ∀ i, i ≤ n → ∀ ρ, fn P₀ i ρ = binom κ (a ρ) i := fun i hi ρ => by
    rw [fn_lt (by omega)]
    change ((List.range (n + 1)).map fun i ρ => binom κ (a ρ) i)[i] ρ = _
    rw [List.getElem_map, List.getElem_range]
  have hmv : ∀ g ρ, ∑ i ∈ range (n + 1), nb p n U i (fn params.vector g) * fn P₀ i ρ = mv κ (binomM n A) (a ρ) g :=
    fun g ρ => by
      rw [← mv_binom, mv]
      exact sum_congr rfl fun i hi => by rw [mem_range] at hi; rw [hfn i (by omega)]
  have hb := mkCurve_ok hlen hU.le (show n + p + 1 ≤ U.length by rw [hU.length]; omega)
  have he := (sqError_iff (e := _) hU hlen hb hI hτ).mpr rfl
  obtain ⟨v₀, hv₀', -⟩ := id he
  have hv₀ : ValuesAt _ params.vector (range (m + 1)) v₀ := hv₀'
  refine ⟨P₀, _, v₀, _, hlen, hb, ?_, hv₀, he, ?_, ?_⟩
  · rw [roughness, hlen]
    refine sum_eq_zero fun i hi => sum_eq_zero fun ρ _ => ?_
    rw [mem_range] at hi
    rw [fwdDiff_congr (g := binom κ (a ρ)) κ i fun j _ hj => by rw [getD_eq_fn (by omega), hfn j (by omega)],
      binom_diff, zero_pow two_ne_zero]
  · intro P' c' e' hP' hc' hr' he'
    rw [(sqError_iff hU hP' hc' hI hτ).mp he', sum_comm, sum_comm (s := range (m + 1))]
    refine sum_le_sum fun ρ _ => ?_
    obtain ⟨b, hbi⟩ := roughness_zero_binom hP' hr' ρ
    have h3 := lsq_le le_rfl (ha ρ) b
    simp only [lsq, zero_mul, add_zero] at h3
    refine le_trans (le_of_eq (sum_congr rfl fun g _ => by rw [hmv])) (h3.trans (le_of_eq (sum_congr rfl fun g _ => ?_)))
    rw [← mv_binom, mv]
    congr 2
    exact sum_congr rfl fun i hi => by rw [mem_range] at hi; rw [hbi i (by omega)]
  · intro solver l P c v hs hfit hc hval
    obtain ⟨-, -, h5, hlenP, key⟩ := loose_normal hs hk hU h1 hm hv hfit
    simp only [sqDist]
    rw [sum_comm, sum_comm (s := range (m + 1)), mul_sum, mul_sum]
    refine sum_le_sum fun ρ _ => ?_
    have h6 := near_best hκ (A := A) (fun g hg j => ((nb_unit hU (hbd g hg).1 (hbd g hg).2).1 j).1)
      (fun g hg => (sum_nb_unit hU (hbd g hg).1 (hbd g hg).2).le) h5 (key ρ) (horth ρ)
    push_cast at h6
    refine le_trans (le_of_eq ?_) (h6.trans (le_of_eq ?_))
    · refine congrArg _ (sum_congr rfl fun g hg => ?_)
      rw [hval.eq hU hlenP hc (fun g hg => (hI g hg).1) hτ hg, hv₀.eq hU hlen hb (fun g hg => (hI g hg).1) hτ hg, hmv]
      rfl
    · exact congrArg _ (sum_congr rfl fun g hg => by rw [hmv])

/-- **C74** With fixed ends the fits tend to the best of the curves that have these ends and no roughness of the inner
control points. -/
theorem C74_fixed_best {p n m κ : ℕ} {U : List K} {kn : Knots K} {pts : DataPoints K d} {params : Parameters K}
    (hk : Knots.new p U = .ok kn) (hU : ClampedKnots 0 1 p n U) (h1 : 1 ≤ p) (hn : 2 ≤ n) (hm : List.length pts = m + 1)
    (hv : params.vector.length = params.segments + 1) (hτ : ∀ x ∈ params.vector, 0 ≤ x ∧ x ≤ 1)
    (hseg : m = params.segments) (hκ : 1 ≤ κ) :
    ∃ (P₀ : List (Pt K d)) (c₀ : Curve K d) (v₀ : ℕ → Pt K d) (e₀ : K), P₀.length = n + 1 ∧ Built c₀ p U P₀ ∧
      P₀[0]? = pts[0]? ∧ P₀[n]? = pts[m]? ∧
      roughness κ P₀.tail.dropLast = 0 ∧ ValuesAt c₀ params.vector (Ico 1 m) v₀ ∧
      SqError c₀ params.vector pts (Ico 1 m) e₀ ∧
      (∀ (P' : List (Pt K d)) (c' : Curve K d) (e' : K), P'.length = n + 1 → Built c' p U P' →
        P'[0]? = pts[0]? → P'[n]? = pts[m]? → roughness κ P'.tail.dropLast = 0 →
        SqError c' params.vector pts (Ico 1 m) e' → e₀ ≤ e') ∧
      ∀ (solver : Solver K d) (l : K) (P : DataPoints K d) (c : Curve K d) (v : ℕ → Pt K d), solver.Exact →
        Fixed.fit solver kn pts params (some ⟨l, κ⟩) = .ok (.ok P) → Built c p U P →
        ValuesAt c params.vector (Ico 1 m) v →
        l * ∑ g ∈ Ico 1 m, sqDist (v g) (v₀ g) ≤ ((m - 1 : ℕ) : K) * ((n - 2 : ℕ) : K) ^ (2 * κ) * e₀ := by
  have hI := fixed_range hm hv hseg
  obtain ⟨N, rfl⟩ : ∃ N, n = N + 2 := ⟨n - 2, by omega⟩
  set A : ℕ → ℕ → K := fun g i => nb p (N + 2) U (i + 1) (fn params.vector (g + 1)) with hA
  set Y : ℕ → Pt K d := fun g => fixQ p (N + 2) m U pts params.vector (g + 1) with hY
  have hbd : ∀ g, g < m - 1 → 0 ≤ fn params.vector (g + 1) ∧ fn params.vector (g + 1) ≤ 1 := fun g hg => by
    rw [fn_lt (by omega)]
    exact hτ _ (List.getElem_mem _)
  have hA0 : ∀ g, g < m - 1 → ∀ j, 0 ≤ A g j := fun g hg j => ((nb_unit hU (hbd g hg).1 (hbd g hg).2).1 (j + 1)).1
  have hA1 : ∀ g, g < m - 1 → ∑ j ∈ range (N + 1), A g j ≤ 1 := fun g hg => by
    obtain ⟨h3, h4⟩ := nb_unit hU (hbd g hg).1 (hbd g hg).2
    rw [sum_inner (by omega)] at h4
    have h5 := (h3 0).1
    have h6 := (h3 (N + 2)).1
    have h7 : ∑ j ∈ range (N + 2 - 1), nb p (N + 2) U (j + 1) (fn params.vector (g + 1)) = ∑ j ∈ range (N + 1), A g j := rfl
    linarith
  choose a ha using fun ρ : Fin d => normal_solvable (m - 1) 0 κ (binomM N A) (fun _ _ => 0) (le_refl (0 : K))
    (fun g => Y g ρ)
  have horth : ∀ ρ b, ∑ g ∈ range (m - 1), (mv κ (binomM N A) (a ρ) g - Y g ρ) * mv κ (binomM N A) b g = 0 :=
    fun ρ b => by
      have := lsq_cross (ha ρ) b
      rwa [zero_mul, add_zero] at this
  set P₀ : List (Pt K d) := (List.range (N + 3)).map fun i =>
    if i = 0 then fn pts 0 else if i = N + 2 then fn pts m else fun ρ => binom κ (a ρ) (i - 1) with hP₀
  have hlen : P₀.length = N + 2 + 1 := by simp [hP₀]
  have hfn : ∀ i, i ≤ N + 2 → fn P₀ i =
      if i = 0 then fn pts 0 else if i = N + 2 then fn pts m else fun ρ => binom κ (a ρ) (i - 1) := fun i hi => by
    rw [fn_lt (by omega)]
    change ((List.range (N + 3)).map _)[i] = _
    rw [List.getElem_map, List.getElem_range]
  have hP0 : fn P₀ 0 = fn pts 0 := by rw [hfn 0 (by omega), if_pos rfl]
  have hPn : fn P₀ (N + 2) = fn pts m := by rw [hfn _ le_rfl, if_neg (by omega), if_pos rfl]
  have hin : ∀ j, j ≤ N → ∀ ρ, fn P₀.tail.dropLast j ρ = binom κ (a ρ) j := fun j hj ρ => by
    rw [fn_inner (by omega), hfn _ (by omega), if_neg (by omega), if_neg (by omega), Nat.add_sub_cancel]
  have hmv : ∀ {X : List (Pt K d)} {b : ℕ → K} {ρ : Fin d}, X.length = N + 2 + 1 → fn X 0 = fn pts 0 →
      fn X (N + 2) = fn pts m → (∀ j, j ≤ N → fn X.tail.dropLast j ρ = binom κ b j) → ∀ g,
      ∑ i ∈ range (N + 2 + 1), nb p (N + 2) U i (fn params.vector (g + 1)) * fn X i ρ - fn pts (g + 1) ρ =
        mv κ (binomM N A) b g - Y g ρ := fun hX h0 hn' hb g => by
    rw [fixed_residual hn hX h0 hn', ← mv_binom]
    congr 1
    exact sum_congr rfl fun j hj => by rw [mem_range] at hj; beta_reduce; rw [hb j (by omega)]
  have hb := mkCurve_ok hlen hU.le (show N + 2 + p + 1 ≤ U.length by rw [hU.length]; omega)
  have he := (sqError_iff (e := _) hU hlen hb hI hτ).mpr rfl
  obtain ⟨v₀, hv₀', -⟩ := id he
  have hv₀ : ValuesAt _ params.vector (Ico 1 m) v₀ := hv₀'
  have herr : ∀ {X : List (Pt K d)} {b : Fin d → ℕ → K}, X.length = N + 2 + 1 → fn X 0 = fn pts 0 →
      fn X (N + 2) = fn pts m → (∀ ρ j, j ≤ N → fn X.tail.dropLast j ρ = binom κ (b ρ) j) →
      ∑ g ∈ Ico 1 m, ∑ ρ, (∑ i ∈ range (N + 2 + 1), nb p (N + 2) U i (fn params.vector g) * fn X i ρ - fn pts g ρ) ^ 2 =
        ∑ ρ, ∑ g ∈ range (m - 1), (mv κ (binomM N A) (b ρ) g - Y g ρ) ^ 2 := fun hX h0 hn' hb => by
    rw [sum_comm]
    refine sum_congr rfl fun ρ _ => ?_
    rw [sum_Ico_eq_sum_range]
    exact sum_congr rfl fun g _ => by rw [Nat.add_comm 1 g, hmv hX h0 hn' (hb ρ)]
  refine ⟨P₀, _, v₀, _, hlen, hb, (getElem?_eq_iff_fn (by omega) (by omega)).mpr hP0,
    (getElem?_eq_iff_fn (by omega) (by omega)).mpr hPn, ?_, hv₀, he, ?_, ?_⟩
  · have hl := length_inner hlen
    rw [roughness]
    refine sum_eq_zero fun i hi => sum_eq_zero fun ρ _ => ?_
    rw [mem_range] at hi
    rw [fwdDiff_congr (g := binom κ (a ρ)) κ i fun j _ hj => by rw [getD_eq_fn (by omega), hin j (by omega)],
      binom_diff, zero_pow two_ne_zero]
  · intro P' c' e' hP' hc' h0 hn' hr' he'
    rw [getElem?_eq_iff_fn (by omega) (by omega)] at h0 hn'
    choose b hbi using roughness_zero_binom (n := N) (length_inner hP') hr'
    rw [(sqError_iff hU hP' hc' hI hτ).mp he', herr hlen hP0 hPn (fun ρ j hj => hin j hj ρ), herr hP' h0 hn' hbi]
    refine sum_le_sum fun ρ _ => ?_
    have h3 := lsq_le le_rfl (ha ρ) (b ρ)
    simpa only [lsq, zero_mul, add_zero] using h3
  · intro solver l P c v hs hfit hc hval
    obtain ⟨-, -, -, h5, hlenP, hP0', hPn', key⟩ := fixed_normal hs hk hU h1 hm hv hfit
    rw [herr hlen hP0 hPn (fun ρ j hj => hin j hj ρ)]
    simp only [sqDist]
    rw [sum_comm, mul_sum, mul_sum]
    refine sum_le_sum fun ρ _ => ?_
    have h6 := near_best hκ hA0 hA1 h5 (key ρ) (horth ρ)
    refine le_trans (le_of_eq ?_) h6
    refine congrArg _ ?_
    rw [sum_Ico_eq_sum_range]
    refine sum_congr rfl fun g hg => ?_
    have hg' : g + 1 ∈ Ico 1 m := by
      rw [mem_range] at hg
      rw [mem_Ico]; omega
    rw [Nat.add_comm 1 g, hval.eq hU hlenP hc (fun g hg => (hI g hg).1) hτ hg',
      hv₀.eq hU hlen hb (fun g hg => (hI g hg).1) hτ hg']
    have e1 := hmv hlen hP0 hPn (fun j hj => hin j hj ρ) g
    have e2 := fixed_residual (p := p) (U := U) (τ := params.vector) hn hlenP hP0' hPn' ρ g
    congr 1
    have e3 : mv (N + 2 - 1) (fun g i => nb p (N + 2) U (i + 1) (fn params.vector (g + 1)))
        (fun j => fn P.tail.dropLast j ρ) g = mv (N + 1) A (fun j => fn P.tail.dropLast j ρ) g := rfl
    rw [e3] at e2
    have e4 : Y g ρ = fixQ p (N + 2) m U pts params.vector (g + 1) ρ := rfl
    rw [e4] at e1
    linarith

/-- a concrete case: five data points, degree 1 over the uniform knots, a penalty on the second differences; there is a
curve with equal steps which all the fits approach as `lambda` grows -/
example : ∃ (solver : Solver ℚ 1) (kn : Knots ℚ) (P₀ : List (Pt ℚ 1)) (c₀ : Curve ℚ 1) (v₀ : ℕ → Pt ℚ 1)
    (e₀ : ℚ),
    solver.Exact ∧ Knots.new 1 [0, 0, 1 / 4, 1 / 2, 3 / 4, 1, 1] = .ok kn ∧
    Built c₀ 1 [0, 0, 1 / 4, 1 / 2, 3 / 4, 1, 1] P₀ ∧ roughness 2 P₀ = 0 ∧
    ValuesAt c₀ [0, 1 / 4, 1 / 2, 3 / 4, 1] (range 5) v₀ ∧
    SqError c₀ [0, 1 / 4, 1 / 2, 3 / 4, 1] [![0], ![1], ![3], ![2], ![5]] (range 5) e₀ ∧ ∀ l : ℚ, 0 < l → ∃ P c v,
      Loose.fit solver kn [![0], ![1], ![3], ![2], ![5]] ⟨[0, 1 / 4, 1 / 2, 3 / 4, 1], 4⟩ (some ⟨l, 2⟩) = .ok (.ok P) ∧
      Built c 1 [0, 0, 1 / 4, 1 / 2, 3 / 4, 1, 1] P ∧ ValuesAt c [0, 1 / 4, 1 / 2, 3 / 4, 1] (range 5) v ∧
      l * ∑ g ∈ range 5, sqDist (v g) (v₀ g) ≤ 1280 * e₀ := by
  obtain ⟨s, hs⟩ := exists_exact_solver ℚ 1
  have hU : ClampedKnots (0 : ℚ) 1 1 4 [0, 0, 1 / 4, 1 / 2, 3 / 4, 1, 1] := by decide +kernel
  have hk : Knots.new 1 [(0 : ℚ), 0, 1 / 4, 1 / 2, 3 / 4, 1, 1] = .ok _ := Knots.new_ok (by decide)
  have hb : 1 ≤ 4 → isUniform (canonKnots 1 [(0 : ℚ), 0, 1 / 4, 1 / 2, 3 / 4, 1, 1]) = .ok (.ok true) :=
    fun _ => by decide +kernel
  obtain ⟨P₀, c₀, v₀, e₀, g1, g2, g3, g4, g6, -, g5⟩ := C74_loose_best (d := 1) (m := 4) (κ := 2)
    (pts := [![0], ![1], ![3], ![2], ![5]]) (params := ⟨[0, 1 / 4, 1 / 2, 3 / 4, 1], 4⟩) hk hU le_rfl rfl rfl
    (by decide +kernel) rfl (by omega)
  refine ⟨s, _, P₀, c₀, v₀, e₀, hs, hk, g2, g3, g4, g6, fun l hl => ?_⟩
  have hnone : fitErrorOf 4 4 4 1 (some ⟨l, 2⟩) true = none := by
    simp only [fitErrorOf]
    have : Cmp.lt l 0 = false := decide_eq_false (not_lt.mpr hl.le)
    simp [this]
  obtain ⟨P, h1, -⟩ := (C44_loose (d := 1) (m := 4) (pts := [![0], ![1], ![3], ![2], ![5]])
    (params := ⟨[0, 1 / 4, 1 / 2, 3 / 4, 1], 4⟩) hk hU.length le_rfl rfl rfl hb s (some ⟨l, 2⟩)).2 hnone
  obtain ⟨c, e, h3, -, ⟨v, h4, -⟩, -⟩ := C42_loose_optimal hs hk hU le_rfl rfl rfl (by decide +kernel) h1
  refine ⟨P, c, v, h1, h3, h4, ?_⟩
  have h := g5 s l P c v hs h1 h3 h4
  norm_num at h ⊢
  exact h

/-- the same data with fixed ends and a penalty on the first differences of the inner control points -/
example : ∃ (solver : Solver ℚ 1) (kn : Knots ℚ) (P₀ : List (Pt ℚ 1)) (c₀ : Curve ℚ 1) (v₀ : ℕ → Pt ℚ 1) (e₀ : ℚ),
    solver.Exact ∧ Knots.new 1 [0, 0, 1 / 4, 1 / 2, 3 / 4, 1, 1] = .ok kn ∧
    Built c₀ 1 [0, 0, 1 / 4, 1 / 2, 3 / 4, 1, 1] P₀ ∧ roughness 1 P₀.tail.dropLast = 0 ∧
    ValuesAt c₀ [0, 1 / 4, 1 / 2, 3 / 4, 1] (Ico 1 4) v₀ ∧
    SqError c₀ [0, 1 / 4, 1 / 2, 3 / 4, 1] [![0], ![1], ![3], ![2], ![5]] (Ico 1 4) e₀ ∧ ∀ l : ℚ, 0 < l → ∃ P c v,
      Fixed.fit solver kn [![0], ![1], ![3], ![2], ![5]] ⟨[0, 1 / 4, 1 / 2, 3 / 4, 1], 4⟩ (some ⟨l, 1⟩) = .ok (.ok P) ∧
      Built c 1 [0, 0, 1 / 4, 1 / 2, 3 / 4, 1, 1] P ∧ ValuesAt c [0, 1 / 4, 1 / 2, 3 / 4, 1] (Ico 1 4) v ∧
      l * ∑ g ∈ Ico 1 4, sqDist (v g) (v₀ g) ≤ 12 * e₀ := by
  obtain ⟨s, hs⟩ := exists_exact_solver ℚ 1
  have hU : ClampedKnots (0 : ℚ) 1 1 4 [0, 0, 1 / 4, 1 / 2, 3 / 4, 1, 1] := by decide +kernel
  have hk : Knots.new 1 [(0 : ℚ), 0, 1 / 4, 1 / 2, 3 / 4, 1, 1] = .ok _ := Knots.new_ok (by decide)
  have hb : 1 ≤ 4 → isUniform (canonKnots 1 [(0 : ℚ), 0, 1 / 4, 1 / 2, 3 / 4, 1, 1]) = .ok (.ok true) :=
    fun _ => by decide +kernel
  obtain ⟨P₀, c₀, v₀, e₀, g1, g2, -, -, g3, g4, g6, -, g5⟩ := C74_fixed_best (d := 1) (m := 4) (κ := 1)
    (pts := [![0], ![1], ![3], ![2], ![5]]) (params := ⟨[0, 1 / 4, 1 / 2, 3 / 4, 1], 4⟩) hk hU le_rfl (by omega) rfl rfl
    (by decide +kernel) rfl le_rfl
  refine ⟨s, _, P₀, c₀, v₀, e₀, hs, hk, g2, g3, g4, g6, fun l hl => ?_⟩
  have hnone : fitErrorOf 4 4 4 1 (some ⟨l, 1⟩) true = none := by
    simp only [fitErrorOf]
    have : Cmp.lt l 0 = false := decide_eq_false (not_lt.mpr hl.le)
    simp [this]
  obtain ⟨P, h1, -⟩ := (C44_fixed_partial (d := 1) (m := 4) (pts := [![0], ![1], ![3], ![2], ![5]])
    (params := ⟨[0, 1 / 4, 1 / 2, 3 / 4, 1], 4⟩) hk hU.length le_rfl rfl rfl hb s (some ⟨l, 1⟩)).2 hnone (by omega)
    (by intro q hq; cases hq; simp)
  obtain ⟨c, e, h3, -, -, -, -, -, ⟨v, h4, -⟩, -⟩ := C43_fixed_optimal hs hk hU le_rfl rfl rfl (by decide +kernel) h1
  refine ⟨P, c, v, h1, h3, h4, ?_⟩
  have h := g5 s l P c v hs h1 h3 h4
  norm_num at h ⊢
  exact h

end BSpline
