import Verif.Theory.Bezier
import Verif.Props.Reproduce
import Verif.Props.Split
import Verif.Props.Interpolate
import Verif.Props.Generation
import Mathlib.LinearAlgebra.Lagrange
import Mathlib.Analysis.SpecialFunctions.Bernstein
import Mathlib.Topology.ContinuousMap.Compact

/-!
# Bézier curves and polylines: C114
-/

set_option linter.unusedSectionVars false

namespace BSpline

open Finset

variable {K : Type} [Field K] [LinearOrder K] [IsStrictOrderedRing K] {d : ℕ}

/-- the `i`-th Bernstein polynomial of degree `p` at `u` -/
def bern (p i : ℕ) (u : K) : K := (p.choose i : K) * u ^ i * (1 - u) ^ (p - i)

/-- knots without interior ones are determined by the degree -/
theorem bezier_knots {p : ℕ} {U : List K} (hU : ClampedKnots 0 1 p p U) :
    U = List.replicate (p + 1) 0 ++ List.replicate (p + 1) 1 := by
  have hc := hU.clamp
  have hl := hU.length
  apply List.ext_getElem
  · simp; omega
  · intro i h1 h2
    rw [← fn_lt h1, List.getElem_append]
    split
    · rename_i h3
      rw [List.getElem_replicate, hc.left i (by simp at h3; omega)]
    · rename_i h3
      rw [List.getElem_replicate, hc.right i (by simp at h3; omega)]

theorem bezier_clamped (p : ℕ) : ClampedKnots (0 : K) 1 p p (List.replicate (p + 1) 0 ++ List.replicate (p + 1) 1) where
  length := by simp; omega
  sorted := by
    rw [List.pairwise_append]
    refine ⟨List.pairwise_replicate_of_refl, List.pairwise_replicate_of_refl, fun a ha b hb => ?_⟩
    rw [List.eq_of_mem_replicate ha, List.eq_of_mem_replicate hb]
    exact zero_le_one
  left := fun x hx => List.eq_of_mem_replicate (n := p + 1) (by rwa [List.take_left' (by simp)] at hx)
  right := fun x hx => List.eq_of_mem_replicate (n := p + 1) (by rwa [List.drop_left' (by simp)] at hx)
  inner := by simp
  lt := zero_lt_one
  le := le_rfl

theorem getD_fn_bezier {P : List (Pt K d)} {i n : ℕ} (hP : P.length = n + 1) (hi : i ≤ n) : P.getD i 0 = fn P i := by
  rw [fn_lt (by omega), List.getD_eq_getElem _ _ (by omega)]

theorem fwdDiff_congr_pts {f g : ℕ → Pt K d} {n : ℕ} (k : ℕ) (h : ∀ i, i ≤ n → f i = g i) : ∀ i, i + k ≤ n →
    (fwdDiff 1)^[k] f i = (fwdDiff 1)^[k] g i := by
  induction k with
  | zero => exact fun i hi => h i hi
  | succ k ih =>
    intro i hi
    simp only [Function.iterate_succ_apply', fwdDiff]
    rw [ih (i + 1) (by omega), ih i (by omega)]

/-- **C114** (Bernstein form) A curve of degree `p` with `p + 1` control points has the values
`Σ_i C(p, i) u^i (1 - u)^(p - i) P_i`. -/
theorem C114_bernstein {c : Curve K d} {p : ℕ} {U : List K} {P : List (Pt K d)} (hc : ValidOn 0 1 c p p U P) {u : K}
    (h0 : 0 ≤ u) (h1 : u ≤ 1) :
    c.evaluate u = .ok (.ok (∑ i ∈ range (p + 1), bern p i u • P.getD i 0)) := by
  obtain rfl := hc.eq_canon
  obtain ⟨-, hU, hP⟩ := hc
  rw [Curve.evaluate, evaluateDerivative_eq hU hP (Nat.zero_le p) h0 h1 (span_bezier hU.clamp h0 h1),
    cv_bezier hU.clamp (Nat.zero_le p)]
  congr 2
  refine sum_congr rfl fun i hi => ?_
  have := mem_range.mp hi
  rw [getD_fn_bezier hP (by omega), bern]
  simp

/-- **C114** (derivatives) The `k`-th derivative is the curve of degree `p - k` over the `k`-th
forward differences of the control points, times `p (p - 1) ... (p - k + 1)`. -/
theorem C114_derivative {c : Curve K d} {p k : ℕ} {U : List K} {P : List (Pt K d)} (hc : ValidOn 0 1 c p p U P) (hk : k ≤ p)
    {u : K} (h0 : 0 ≤ u) (h1 : u ≤ 1) :
    c.evaluateDerivative u k = .ok (.ok ((p.descFactorial k : K) • ∑ i ∈ range (p - k + 1),
      bern (p - k) i u • (fwdDiff 1)^[k] (fun i => P.getD i 0) i)) := by
  obtain rfl := hc.eq_canon
  obtain ⟨-, hU, hP⟩ := hc
  rw [evaluateDerivative_eq hU hP hk h0 h1 (span_bezier hU.clamp h0 h1), cv_bezier hU.clamp hk, smul_sum]
  congr 2
  refine sum_congr rfl fun i hi => ?_
  have := mem_range.mp hi
  rw [smul_smul, bern, fwdDiff_congr_pts (n := p) k (fun i hi => getD_fn_bezier hP hi) i (by omega)]

/-- **C114** (as a polynomial) Every coordinate of the curve is one polynomial, and the derivatives
which the library evaluates are its derivatives, for all orders. -/
theorem C114_polynomial {c : Curve K d} {p : ℕ} {U : List K} {P : List (Pt K d)} (hc : ValidOn 0 1 c p p U P) (k : ℕ) {u : K}
    (h0 : 0 ≤ u) (h1 : u ≤ 1) :
    c.evaluateDerivative u k = .ok (.ok fun ρ => (Polynomial.derivative^[k]
      (∑ i ∈ range (p + 1), Polynomial.C (P.getD i 0 ρ) * bernsteinPolynomial K p i)).eval u) := by
  have hb : ∀ ρ, ∑ i ∈ range (p + 1), Polynomial.C (P.getD i 0 ρ) * bernsteinPolynomial K p i =
      bernsteinSum p (fun i => P.getD i 0 ρ) := fun ρ => rfl
  simp only [hb]
  rcases Nat.lt_or_ge p k with hk | hk
  · obtain rfl := hc.eq_canon
    rw [evaluateDerivative_high (canon_degree ..) hk h0 h1]
    congr 2
    funext ρ
    have hdeg := bernsteinSum_degree p (fun i => P.getD i 0 ρ)
    rw [Polynomial.iterate_derivative_eq_zero, Polynomial.eval_zero]
    · rfl
    · rcases eq_or_ne (bernsteinSum p (fun i => P.getD i 0 ρ)) 0 with h | h
      · rw [h, Polynomial.natDegree_zero]; omega
      · rw [Polynomial.natDegree_lt_iff_degree_lt h]
        exact hdeg.trans_le (by exact_mod_cast hk)
  · rw [C114_derivative hc hk h0 h1]
    congr 2
    funext ρ
    rw [bernsteinSum_iterate p _ k hk, Polynomial.eval_mul, Polynomial.eval_C, bernsteinSum_eval, Pi.smul_apply,
      Finset.sum_apply, smul_eq_mul]
    congr 1
    refine sum_congr rfl fun i _ => ?_
    rw [Pi.smul_apply, smul_eq_mul, bern]
    congr 1
    have : ∀ (k i : ℕ) (f : ℕ → Pt K d), (fwdDiff 1)^[k] f i ρ = (fwdDiff 1)^[k] (fun i => f i ρ) i := by
      intro k
      induction k with
      | zero => intros; rfl
      | succ k ih => intro i f; rw [Function.iterate_succ_apply, Function.iterate_succ_apply, ih]; rfl
    exact this k i _

/-! ### Generation -/

/-- **C114** `generate` from `n + 1` control points with degree `n` makes the Bézier curve over
these points: the knots are `n + 1` zeros and `n + 1` ones. -/
theorem C114_generate [Trunc K] [LawfulTrunc K] [Sqrt K] [LawfulSqrt K] (solver : Solver K d) {n : ℕ} {P : List (Pt K d)}
    (hn : 1 ≤ n) (hP : P.length = n + 1) :
    ∃ c, generate solver (.manual n (ControlPoints.new P) .uniform) = .ok (.ok c) ∧
      ValidOn 0 1 c n n (List.replicate (n + 1) 0 ++ List.replicate (n + 1) 1) P := by
  obtain ⟨c, U, h1, h2, -⟩ := C60_uniform solver hn le_rfl hP
  refine ⟨c, h1, ?_⟩
  rwa [← bezier_knots h2.2.1]

/-- **C114** The same holds for all methods for parameters and knots, for control points without
equal neighbours. -/
theorem C114_generate_method [Trunc K] [LawfulTrunc K] [Sqrt K] [LawfulSqrt K] (solver : Solver K d) {n : ℕ}
    {P : List (Pt K d)} (hn : 1 ≤ n) (hP : P.length = n + 1) (hne : ∀ i, i < n → P.getD i 0 ≠ P.getD (i + 1) 0)
    (pm : ParamMethod) (km : KnotMethod) (hc : pm = .centripetal →
      1 / 2 ^ 26 ≤ ∑ h ∈ range n, Sqrt.sqrt (dist2 (P.getD h 0) (P.getD (h + 1) 0))) :
    ∃ c, generate solver (.manual n (ControlPoints.new P) (.method pm km)) = .ok (.ok c) ∧
      ValidOn 0 1 c n n (List.replicate (n + 1) 0 ++ List.replicate (n + 1) 1) P := by
  obtain ⟨c, U, t, h1, h2, -⟩ := C60_method solver hn le_rfl hP hne pm km hc
  refine ⟨c, h1, ?_⟩
  rwa [← bezier_knots h2.2.1]

/-! ### Splitting -/

theorem knotsFrom_const {U : ℕ → K} {s r : ℕ} {x : K} (h : ∀ i, s ≤ i → i < s + r → U i = x) :
    knotsFrom U s r = List.replicate r x := by
  apply List.eq_replicate_iff.mpr
  refine ⟨knotsFrom_length .., fun b hb => ?_⟩
  simp only [knotsFrom, List.mem_map, List.mem_range'_1] at hb
  obtain ⟨i, hi, rfl⟩ := hb
  exact h i hi.1 hi.2

theorem knotsFrom_append (U : ℕ → K) (s r r' : ℕ) : knotsFrom U s (r + r') = knotsFrom U s r ++ knotsFrom U (s + r) r' := by
  simp [knotsFrom, ← List.map_append]

/-- **C114** (de Casteljau) A split at `0 < u < 1` always succeeds. Both parts are Bézier curves of
the same degree, and their control points are the points of de Casteljau's algorithm. -/
theorem C114_split {c : Curve K d} {p : ℕ} {U : List K} {P : List (Pt K d)} (hc : ValidOn 0 1 c p p U P) {u : K}
    (h0 : 0 < u) (h1 : u < 1) :
    ∃ l r, split c u = .ok (.ok (l, r)) ∧
      ValidOn 0 1 l p p U ((List.range (p + 1)).map fun i => ∑ j ∈ range (i + 1), bern i j u • P.getD j 0) ∧
      ValidOn 0 1 r p p U ((List.range (p + 1)).map fun i => ∑ j ∈ range (p - i + 1), bern (p - i) j u • P.getD (i + j) 0) := by
  obtain rfl := hc.eq_canon
  obtain ⟨-, hU, hP⟩ := hc
  have hcl := hU.clamp
  have hnot : ∀ x, 0 < x → x < 1 → x ∉ U := by
    intro x hx hx' hm
    rw [bezier_knots hU, List.mem_append] at hm
    rcases hm with hm | hm
    · exact hx.ne' (List.eq_of_mem_replicate hm)
    · exact hx'.ne (List.eq_of_mem_replicate hm)
  have hcount : ∀ x, 0 < x → x < 1 → U.count x = 0 := fun x hx hx' => List.count_eq_zero.mpr (hnot x hx hx')
  have hr : SimpleBelow U u := fun x hx hxu => by rw [hcount x hx (hxu.trans h1)]; omega
  have hcu := hcount u h0 h1
  obtain ⟨U', P', n', q, hcut, hP', hn', -, hsame, hsplit⟩ := split_valid hU hP h0 h1 (by omega) hr
  have a1 := hcut.lo_q
  have a2 := hcut.q_hi
  obtain rfl : q = p + 1 := by omega
  obtain rfl : n' = 2 * p := by omega
  have hc' := hcut.cl.clamp
  have hlen' := hcut.cl.length
  have z0 : ∀ i, i ≤ p → fn U' i = 0 := hc'.left
  have zu : ∀ i, p + 1 ≤ i → i < p + 1 + p → fn U' i = u := hcut.mid
  have z1 : ∀ i, 2 * p + 1 ≤ i → fn U' i = 1 := hc'.right
  -- the spans at 0 and at u
  have s0 : IsSpan (fn U') (2 * p) 0 p := by
    refine ⟨by omega, (z0 p le_rfl).le, Or.inl ?_⟩
    rcases Nat.eq_zero_or_pos p with h | h
    · rw [z1 (p + 1) (by omega)]; exact zero_lt_one
    · rw [zu (p + 1) le_rfl (by omega)]; exact h0
  have su : IsSpan (fn U') (2 * p) u (2 * p) := by
    refine ⟨le_rfl, ?_, Or.inl (by rw [z1 _ le_rfl]; exact h1)⟩
    rcases Nat.eq_zero_or_pos p with h | h
    · rw [z0 (2 * p) (by omega)]; exact h0.le
    · rw [zu (2 * p) (by omega) (by omega)]
  have b0 := hsame 0 p p le_rfl zero_le_one (span_bezier hcl le_rfl zero_le_one) s0
  have bu := hsame u p (2 * p) h0.le h1.le (span_bezier hcl h0.le h1.le) su
  have w0 := win_of_span hc'.mono (p := p) le_rfl (s0.lt hc')
  have wu := win_of_span hc'.mono (p := p) (j := 2 * p) (by omega) (su.lt hc')
  rw [Nat.sub_self] at b0 bu w0
  rw [show 2 * p - p = p by omega] at bu wu
  have hbl : ∀ ts : List K, ts.length = p → bl (fn U) ts (fn P) 0 = casteljaus ts (fn P) 0 := by
    rintro ts rfl
    exact bl_bezier ts (fun i _ hi => hcl.left i hi) (fun i hi _ => hcl.right i hi)
  have left : ∀ i, i ≤ p → fn P' i = ∑ j ∈ range (i + 1), bern i j u • P.getD j 0 := by
    intro i hi
    have e := bl_dual p (P := fn P') i hi w0
    rw [b0 _ (by simp), hbl _ (by simp), Nat.zero_add, show p = (p - i) + i by omega, knotsFrom_append,
      knotsFrom_const (x := (0 : K)) (fun m hm hm' => z0 m (by omega)),
      knotsFrom_const (x := u) (fun m hm hm' => zu m (by omega) (by omega)), casteljaus_append, casteljaus_zeros,
      casteljaus_replicate] at e
    rw [← e]
    refine sum_congr rfl fun j hj => ?_
    have := mem_range.mp hj
    rw [getD_fn_bezier hP (by omega), Nat.zero_add, bern]
  have right : ∀ i, i ≤ p → fn P' (p + i) = ∑ j ∈ range (p - i + 1), bern (p - i) j u • P.getD (i + j) 0 := by
    intro i hi
    have e := bl_dual p (P := fn P') i hi wu
    have ek : knotsFrom (fn U') (p + i + 1) p = List.replicate (p - i) u ++ List.replicate i 1 := by
      conv_lhs => rw [show knotsFrom (fn U') (p + i + 1) p = knotsFrom (fn U') (p + i + 1) ((p - i) + i) by
        rw [Nat.sub_add_cancel hi]]
      rw [knotsFrom_append, knotsFrom_const (x := u) (fun m hm hm' => zu m (by omega) (by omega)),
        knotsFrom_const (x := (1 : K)) (fun m hm hm' => z1 m (by omega))]
    rw [bu _ (by simp), hbl _ (by simp), ek, casteljaus_append, casteljaus_ones] at e
    simp only [casteljaus_replicate, Nat.zero_add] at e
    rw [← e]
    refine sum_congr rfl fun j hj => ?_
    have := mem_range.mp hj
    rw [getD_fn_bezier hP (by omega), bern]
  refine ⟨_, _, hsplit (true, true), ?_, ?_⟩
  · have hk := hcut.left_clamped.normalize
    rw [Nat.add_sub_cancel] at hk
    rw [normalizeIf, if_pos rfl]
    have eU := (bezier_knots hk).trans (bezier_knots hU).symm
    have eP : P'.take (p + 1) = (List.range (p + 1)).map fun i => ∑ j ∈ range (i + 1), bern i j u • P.getD j 0 := by
      apply ext_fn
      · simp; omega
      · intro i hi
        have hi : i < p + 1 := by simp at hi; omega
        rw [fn_map_range _ hi, ← left i (by omega), fn_lt (by simp; omega), fn_lt (by omega), List.getElem_take]
    rw [eU, eP]
    exact validOn_canon hU (by simp)
  · have hk := hcut.right_clamped.normalize
    rw [show 2 * p + 1 - (p + 1) = p by omega] at hk
    rw [normalizeIf, if_pos rfl]
    have eU := (bezier_knots hk).trans (bezier_knots hU).symm
    have eP : P'.drop (p + 1 - 1) = (List.range (p + 1)).map fun i => ∑ j ∈ range (p - i + 1), bern (p - i) j u • P.getD (i + j) 0 := by
      apply ext_fn
      · simp; omega
      · intro i hi
        have hi : i < p + 1 := by simp at hi; omega
        rw [fn_map_range _ hi, ← right i (by omega), fn_lt (by simp; omega), fn_lt (by omega), List.getElem_drop]
        simp
    rw [eU, eP]
    exact validOn_canon hU (by simp)

/-! ### Interpolation -/

/-- **C114** (Lagrange) Interpolation of `m + 1` data points with degree `m` gives the interpolation
polynomial for the parameters `g / m`, with all its derivatives. -/
theorem C114_interpolation [Trunc K] [LawfulTrunc K] [Sqrt K] [LawfulSqrt K] {m : ℕ} {pts : DataPoints K d}
    {solver : Solver K d} (hs : solver.Exact) (h1 : 1 ≤ m) (hm : List.length pts = m + 1) :
    ∃ c, generate solver (.interpolation m pts) = .ok (.ok c) ∧ ∀ k u, 0 ≤ u → u ≤ 1 →
      c.evaluateDerivative u k = .ok (.ok fun ρ => (Polynomial.derivative^[k] (Lagrange.interpolate (range (m + 1))
        (fun g : ℕ => (g : K) / (m : K)) (fun g => List.getD pts g 0 ρ))).eval u) := by
  obtain ⟨c, kn, U, P, h2, -, -, -, hc, h3⟩ := C40_interpolation hs h1 le_rfl hm
  refine ⟨c, h2, fun k u h0 h1' => ?_⟩
  rw [C114_polynomial hc k h0 h1']
  congr 2
  funext ρ
  congr 2
  have hm0 : (0 : K) < (m : K) := by exact_mod_cast h1
  apply Lagrange.eq_interpolate_of_eval_eq
  · intro a _ b _ hab
    simp only [div_left_inj' hm0.ne', Nat.cast_inj] at hab
    exact hab
  · rw [card_range]
    exact bernsteinSum_degree m (fun i => P.getD i 0 ρ)
  · intro g hg
    have hg := mem_range.mp hg
    have e1 : (0 : K) ≤ (g : K) / (m : K) := by positivity
    have e2 : (g : K) / (m : K) ≤ 1 := by
      rw [div_le_one hm0]; exact_mod_cast (by omega : g ≤ m)
    have e := h3 g _ (List.getElem?_eq_getElem (by omega))
    have e' := C114_polynomial hc 0 e1 e2
    rw [Curve.evaluate, e'] at e
    injection e with e; injection e with e
    rw [List.getD_eq_getElem _ _ (by omega), ← e]
    rfl

/-! ### Approximation -/

theorem bern_eq (p i : ℕ) (u : K) : bern p i u = (bernsteinPolynomial K p i).eval u := by
  simp [bern, bernsteinPolynomial]

theorem bern_nonneg {p i : ℕ} {u : K} (h0 : 0 ≤ u) (h1 : u ≤ 1) : 0 ≤ bern p i u := by
  have : 0 ≤ 1 - u := sub_nonneg.mpr h1
  rw [bern]; positivity

theorem sum_bern (p : ℕ) (u : K) : ∑ i ∈ range (p + 1), bern p i u = 1 := by
  have := congrArg (Polynomial.eval u) (bernsteinPolynomial.sum K p)
  rw [Polynomial.eval_finsetSum, Polynomial.eval_one] at this
  simpa only [bern_eq] using this

theorem sum_bern_mul {p : ℕ} (hp : p ≠ 0) (u : K) : ∑ i ∈ range (p + 1), bern p i u * ((i : K) / p) = u := by
  have := congrArg (Polynomial.eval u) (bernsteinPolynomial.sum_smul K p)
  simp only [Polynomial.eval_finsetSum, nsmul_eq_mul, Polynomial.eval_mul, Polynomial.eval_natCast, Polynomial.eval_X,
    ← bern_eq] at this
  have hp' : (p : K) ≠ 0 := by exact_mod_cast hp
  rw [← mul_right_inj' hp', ← this, mul_sum]
  exact sum_congr rfl fun i _ => by field_simp

theorem sum_bern_sq {p : ℕ} (hp : p ≠ 0) (u : K) :
    ∑ i ∈ range (p + 1), bern p i u * ((i : K) / p - u) ^ 2 = u * (1 - u) / p := by
  have := congrArg (Polynomial.eval u) (bernsteinPolynomial.variance K p)
  simp only [Polynomial.eval_finsetSum, Polynomial.eval_mul, Polynomial.eval_pow, Polynomial.eval_sub,
    Polynomial.eval_X, Polynomial.eval_one, Polynomial.eval_natCast, ← bern_eq, nsmul_eq_mul] at this
  have hp' : (p : K) ≠ 0 := by exact_mod_cast hp
  rw [eq_div_iff hp', ← mul_right_inj' hp', sum_mul, mul_sum]
  calc _ = ∑ i ∈ range (p + 1), (p * u - i) ^ 2 * bern p i u := sum_congr rfl fun i _ => by field_simp; ring
    _ = _ := by rw [this]; ring

/-- the points `f(0), f(1 / n), ..., f(1)` -/
def equidistant (n : ℕ) (f : K → Pt K d) : List (Pt K d) := (List.range (n + 1)).map fun i : ℕ => f ((i : K) / n)

theorem equidistant_value {c : Curve K d} {n : ℕ} {U : List K} {f : K → Pt K d} (hc : ValidOn 0 1 c n n U (equidistant n f))
    {u : K} (h0 : 0 ≤ u) (h1 : u ≤ 1) :
    c.evaluate u = .ok (.ok (∑ i ∈ range (n + 1), bern n i u • f ((i : K) / n))) := by
  rw [C114_bernstein hc h0 h1]
  congr 2
  refine sum_congr rfl fun i hi => ?_
  have hi := mem_range.mp hi
  rw [equidistant, List.getD_eq_getElem _ _ (by simpa using hi), List.getElem_map, List.getElem_range]

/-- **C114** (rate) A Bézier curve of degree `n` over the points `f(i / n)` has distance at most
`q u (1 - u) / n` to `f(u)` in every coordinate in which `f` is within `q (x - u)²` of its tangent at `u`. -/
theorem C114_rate {c : Curve K d} {n : ℕ} {U : List K} {f : K → Pt K d} (hc : ValidOn 0 1 c n n U (equidistant n f))
    (hn : 1 ≤ n) {ρ : Fin d} {q s u : K} (h0 : 0 ≤ u) (h1 : u ≤ 1)
    (hf : ∀ x, 0 ≤ x → x ≤ 1 → |f x ρ - f u ρ - s * (x - u)| ≤ q * (x - u) ^ 2) :
    ∃ v, c.evaluate u = .ok (.ok v) ∧ |v ρ - f u ρ| ≤ q * (u * (1 - u) / n) := by
  refine ⟨_, equidistant_value hc h0 h1, ?_⟩
  have hn' : n ≠ 0 := by omega
  have hn0 : (0 : K) < (n : K) := by exact_mod_cast hn
  rw [Finset.sum_apply]
  simp only [Pi.smul_apply, smul_eq_mul]
  have e : ∑ i ∈ range (n + 1), bern n i u * f ((i : K) / n) ρ - f u ρ =
      ∑ i ∈ range (n + 1), bern n i u * (f ((i : K) / n) ρ - f u ρ - s * ((i : K) / n - u)) := by
    have e1 : ∑ i ∈ range (n + 1), bern n i u * (f ((i : K) / n) ρ - f u ρ - s * ((i : K) / n - u)) =
        ∑ i ∈ range (n + 1), bern n i u * f ((i : K) / n) ρ - (∑ i ∈ range (n + 1), bern n i u) * (f u ρ - s * u) -
          s * ∑ i ∈ range (n + 1), bern n i u * ((i : K) / n) := by
      rw [sum_mul, mul_sum, ← sum_sub_distrib, ← sum_sub_distrib]
      exact sum_congr rfl fun i _ => by ring
    rw [e1, sum_bern, sum_bern_mul hn']; ring
  rw [e]
  refine (abs_sum_le_sum_abs _ _).trans ?_
  rw [← sum_bern_sq hn', mul_sum]
  refine sum_le_sum fun i hi => ?_
  have hi := mem_range.mp hi
  rw [abs_mul, abs_of_nonneg (bern_nonneg h0 h1)]
  have := hf ((i : K) / n) (by positivity) (by rw [div_le_one hn0]; exact_mod_cast (by omega : i ≤ n))
  calc _ ≤ bern n i u * (q * ((i : K) / n - u) ^ 2) := mul_le_mul_of_nonneg_left this (bern_nonneg h0 h1)
    _ = _ := by ring

/-- **C114** The bound of `C114_rate` is attained by `f(x) = x²`, for all degrees and parameters. -/
theorem C114_rate_sharp {c : Curve K 1} {n : ℕ} {U : List K} (hc : ValidOn 0 1 c n n U (equidistant n fun x => ![x ^ 2]))
    (hn : 1 ≤ n) {u : K} (h0 : 0 ≤ u) (h1 : u ≤ 1) :
    c.evaluate u = .ok (.ok ![u ^ 2 + u * (1 - u) / n]) := by
  rw [equidistant_value hc h0 h1]
  congr 2
  funext ρ
  have hn' : n ≠ 0 := by omega
  rw [Finset.sum_apply]
  simp only [Pi.smul_apply, smul_eq_mul, Matrix.cons_val_fin_one]
  have e : ∑ i ∈ range (n + 1), bern n i u * ((i : K) / n) ^ 2 = ∑ i ∈ range (n + 1), bern n i u * ((i : K) / n - u) ^ 2 +
      2 * u * ∑ i ∈ range (n + 1), bern n i u * ((i : K) / n) - u ^ 2 * ∑ i ∈ range (n + 1), bern n i u := by
    rw [mul_sum, mul_sum, ← sum_add_distrib, ← sum_sub_distrib]
    exact sum_congr rfl fun i _ => by ring
  rw [e, sum_bern_sq hn', sum_bern_mul hn', sum_bern]
  ring

/-- **C114** (Weierstrass) Over the reals: for a continuous path `f` and every `ε > 0` the curves
which `generate` makes from the points `f(i / n)` with degree `n` are within `ε` of `f`, for all
large `n`. -/
theorem C114_weierstrass [Trunc ℝ] [LawfulTrunc ℝ] [Sqrt ℝ] [LawfulSqrt ℝ] (solver : Solver ℝ d) {f : ℝ → Pt ℝ d}
    (hf : ContinuousOn f (Set.Icc 0 1)) {ε : ℝ} (hε : 0 < ε) :
    ∃ N, ∀ n, N ≤ n → ∃ c, generate solver (.manual n (ControlPoints.new (equidistant n f)) .uniform) = .ok (.ok c) ∧
      ∀ u, 0 ≤ u → u ≤ 1 → ∃ v, c.evaluate u = .ok (.ok v) ∧ ∀ ρ, |v ρ - f u ρ| < ε := by
  let F : C(unitInterval, Fin d → ℝ) := ⟨fun x => f x, hf.comp_continuous continuous_subtype_val (fun x => x.2)⟩
  obtain ⟨N, hN⟩ := Metric.tendsto_atTop.mp (bernsteinApproximation_uniform F) ε hε
  refine ⟨max N 1, fun n hn => ?_⟩
  obtain ⟨c, hc, hv⟩ := C114_generate solver (P := equidistant n f) (n := n) (le_trans (le_max_right _ _) hn) (by simp [equidistant])
  refine ⟨c, hc, fun u h0 h1 => ⟨_, equidistant_value hv h0 h1, fun ρ => ?_⟩⟩
  have h := (ContinuousMap.dist_lt_iff hε).mp (hN n (le_trans (le_max_left _ _) hn)) ⟨u, h0, h1⟩
  rw [bernsteinApproximation.apply, dist_pi_lt_iff hε] at h
  have h := h ρ
  rw [Real.dist_eq] at h
  convert h using 3
  · rw [Finset.sum_range (n := n + 1) (fun i => bern n i u • f ((i : ℝ) / n))]
    refine congrFun (sum_congr rfl fun i _ => ?_) ρ
    rw [bernstein_apply, bern]
    rfl
  · rfl

/-! ### Degree one -/

/-- **C114** (polylines) Between two neighbouring knots a curve of degree one runs with constant
speed from one control point to the next. -/
theorem C114_polyline {c : Curve K d} {n i : ℕ} {U : List K} {P : List (Pt K d)} (hc : ValidOn 0 1 c 1 n U P) (hi : i < n)
    {s t u : K} (hs : U[i + 1]? = some s) (ht : U[i + 2]? = some t) (h0 : s ≤ u) (h1 : u < t ∨ i + 1 = n ∧ u = t) :
    c.evaluate u = .ok (.ok (((t - u) / (t - s)) • P.getD i 0 + ((u - s) / (t - s)) • P.getD (i + 1) 0)) := by
  obtain rfl := hc.eq_canon
  obtain ⟨-, hU, hP⟩ := hc
  have hcl := hU.clamp
  have hlen := hU.length
  have es : fn U (i + 1) = s := by
    rw [fn_lt (by omega)]; rw [List.getElem?_eq_getElem (by omega)] at hs; exact Option.some.inj hs
  have et : fn U (i + 2) = t := by
    rw [fn_lt (by omega)]; rw [List.getElem?_eq_getElem (by omega)] at ht; exact Option.some.inj ht
  have hsp : IsSpan (fn U) n u (i + 1) := by
    refine ⟨by omega, es.le.trans h0, ?_⟩
    rcases h1 with h1 | ⟨h1, h2⟩
    · exact Or.inl (h1.trans_le et.ge)
    · exact Or.inr ⟨h1, by rw [← h1, et, h2]⟩
  have hs0 : 0 ≤ s := by rw [← es, ← hcl.left 0 (by omega)]; exact hcl.mono (by omega)
  have ht1 : t ≤ 1 := by rw [← et, ← hcl.right (n + 1) le_rfl]; exact hcl.mono (by omega)
  have hut : u ≤ t := by rcases h1 with h1 | h1; exacts [h1.le, h1.2.le]
  rw [Curve.evaluate, evaluateDerivative_eq hU hP (Nat.zero_le 1) (hs0.trans h0) (hut.trans ht1) hsp,
    getD_fn_bezier hP (by omega), getD_fn_bezier hP (by omega)]
  simp only [cv, shiftN_zero, Nat.sub_zero, List.replicate_one, bl_cons, List.length_nil, bl_nil, D, Nat.zero_add,
    Nat.add_sub_cancel, dpt]
  rw [show i + 1 + 1 = i + 2 from rfl, es, et]

/-- **C114** Interpolation with degree one returns the curve with the data points as control points.
No equation has to be solved for this; any exact solver gives it. -/
theorem C114_interpolation_linear [Trunc K] [LawfulTrunc K] [Sqrt K] [LawfulSqrt K] {m : ℕ} {pts : DataPoints K d}
    {solver : Solver K d} (hs : solver.Exact) (h1 : 1 ≤ m) (hm : List.length pts = m + 1) :
    ∃ c U, generate solver (.interpolation 1 pts) = .ok (.ok c) ∧ ValidOn 0 1 c 1 m U pts ∧
      ∀ j, j ≤ m → U[j + 1]? = some ((j : K) / m) := by
  obtain ⟨kn, U, a, b, hU, hv, -⟩ := C35_uniform (K := K) (p := 1) le_rfl h1
  rw [Nat.sub_add_cancel h1] at hv
  have hm0 : (0 : K) < (m : K) := by exact_mod_cast h1
  have hv' : ∀ j, j ≤ m → U[j + 1]? = some ((j : K) / m) := fun j hj => by rw [Nat.add_comm j 1]; exact hv j hj
  have hc := validOn_canon hU hm
  refine ⟨canon 1 U pts, U, ?_, hc, hv'⟩
  refine C59_interpolation_reproduces hs le_rfl h1 hm a b hm hc.1 ?_
  intro g q hq
  have hg : g < m + 1 := by
    have := (List.getElem?_eq_some_iff.mp hq).1
    omega
  have hq' : List.getD pts g 0 = q := by rw [List.getD_eq_getElem?_getD, hq]; rfl
  rcases Nat.lt_or_ge g m with h | h
  · rw [C114_polyline hc h (hv' g (by omega)) (hv' (g + 1) (by omega)) le_rfl (Or.inl ?_), sub_self, zero_div, zero_smul,
      add_zero, div_self, one_smul, hq']
    · rw [← sub_div]
      push_cast
      rw [add_sub_cancel_left]
      exact (div_pos one_pos hm0).ne'
    · exact (div_lt_div_iff_of_pos_right hm0).mpr (by exact_mod_cast Nat.lt_succ_self g)
  · obtain rfl : g = m := by omega
    obtain ⟨m, rfl⟩ : ∃ k, g = k + 1 := ⟨g - 1, by omega⟩
    rw [C114_polyline hc (Nat.lt_succ_self m) (hv' m (by omega)) (hv' (m + 1) le_rfl) ?_ (Or.inr ⟨rfl, rfl⟩), sub_self,
      zero_div, zero_smul, zero_add, div_self, one_smul, hq']
    · rw [← sub_div]
      push_cast
      rw [add_sub_cancel_left]
      exact (div_pos one_pos (by exact_mod_cast hm0)).ne'
    · exact (div_le_div_iff_of_pos_right hm0).mpr (by exact_mod_cast Nat.le_succ m)

/-! ### Examples -/

/-- the cubic with control points `(0, 0), (1, 2), (3, 2), (4, 0)` -/
theorem C114_example : ∃ c : Curve ℚ 2,
    ValidOn 0 1 c 3 3 [0, 0, 0, 0, 1, 1, 1, 1] [![0, 0], ![1, 2], ![3, 2], ![4, 0]] ∧
      c.evaluate (1 / 2) = .ok (.ok ![2, 3 / 2]) ∧
      ∃ l r, split c (1 / 2) = .ok (.ok (l, r)) ∧
        ValidOn 0 1 l 3 3 [0, 0, 0, 0, 1, 1, 1, 1] [![0, 0], ![1 / 2, 1], ![5 / 4, 3 / 2], ![2, 3 / 2]] ∧
        ValidOn 0 1 r 3 3 [0, 0, 0, 0, 1, 1, 1, 1] [![2, 3 / 2], ![11 / 4, 3 / 2], ![7 / 2, 1], ![4, 0]] := by
  have hc := validOn_canon (a := (0 : ℚ)) (b := 1) (d := 2) (p := 3) (n := 3) (U := [(0 : ℚ), 0, 0, 0, 1, 1, 1, 1])
    (P := [![0, 0], ![1, 2], ![3, 2], ![4, 0]]) (by decide +kernel) rfl
  refine ⟨_, hc, ?_, ?_⟩
  · rw [C114_bernstein hc (by norm_num) (by norm_num)]
    congr 2
    funext ρ
    fin_cases ρ <;> norm_num [sum_range_succ, bern, Nat.choose]
  · obtain ⟨l, r, h1, h2, h3⟩ := C114_split hc (u := 1 / 2) (by norm_num) (by norm_num)
    refine ⟨l, r, h1, ?_, ?_⟩
    · convert h2 using 1
      simp only [List.range_succ, List.range_zero, List.map_cons, List.map_nil, List.nil_append,
        List.cons_append, List.cons.injEq, and_true]
      refine ⟨?_, ?_, ?_, ?_⟩ <;> funext ρ <;> fin_cases ρ <;> norm_num [sum_range_succ, bern, Nat.choose]
    · convert h3 using 1
      simp only [List.range_succ, List.range_zero, List.map_cons, List.map_nil, List.nil_append,
        List.cons_append, List.cons.injEq, and_true]
      refine ⟨?_, ?_, ?_, ?_⟩ <;> funext ρ <;> fin_cases ρ <;> norm_num [sum_range_succ, bern, Nat.choose]

end BSpline
