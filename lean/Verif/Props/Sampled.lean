import Verif.Props.ConvergeFast
import Verif.Props.Fit

/-!
# Approximating functions: C112

A curve whose control points are the values of a function at the means of `p` consecutive knots is
close to the function. As least-squares fits are optimal, they are at least as close to samples of the
function.
-/

set_option linter.unusedSectionVars false

namespace BSpline

open Finset

variable {K : Type} [Field K] [LinearOrder K] [IsStrictOrderedRing K] {d : ℕ}

/-- `f` is near the line with slope `s` through `(u, f u)`: within `b` at all places in `[0, 1]` that are at most
`r` away from `u` -/
def NearLine (f : K → K) (u s r b : K) : Prop :=
  ∀ x, 0 ≤ x → x ≤ 1 → |x - u| ≤ r → |f x - f u - s * (x - u)| ≤ b

theorem sum_gauss (p : ℕ) : ∑ t ∈ range p, ((t : K) + 1) = p * (p + 1) / 2 := by
  induction p with
  | zero => simp
  | succ p ih => rw [sum_range_succ, ih]; push_cast; ring

theorem greville_sum {p i : ℕ} {U : List K} (h : i + p + 1 ≤ U.length) :
    greville p U i = (∑ t ∈ range p, fn U (i + 1 + t)) / p := by
  have e : (U.drop (i + 1)).take p = (List.range p).map (fun t => fn U (i + 1 + t)) := by
    apply List.ext_getElem (by simp; omega)
    intro k h1 h2
    simp only [List.length_map, List.length_range] at h2
    rw [List.getElem_take, List.getElem_drop, List.getElem_map, List.getElem_range, fn_lt (by omega)]
  rw [greville, e]
  rfl

/-- the means of the knots that matter at `u` are near `u` -/
theorem greville_near {p n : ℕ} {U : List K} (hU : ClampedKnots 0 1 p n U) (hp : 1 ≤ p) {h : K} (hg : GapsAtMost U h)
    {u : K} {i j : ℕ} (hs : IsSpan (fn U) n u j) (h1 : i ≤ j) (h2 : j ≤ i + p) :
    |greville p U i - u| ≤ (p + 1) / 2 * h := by
  have hlen := hU.length
  have hcl := hU.clamp
  have hp0 : (0 : K) < p := by exact_mod_cast hp
  have hpj := hs.p_le hcl
  have hjn := hs.le_n
  have hhi := hs.le_hi
  rw [greville_sum (by omega), abs_le]
  have e0 : ∑ t ∈ range p, u = p * u := by rw [sum_const, card_range, nsmul_eq_mul]
  constructor
  · rw [neg_le_iff_add_nonneg, ← sub_nonneg]
    have h3 : ∑ t ∈ range p, (u - ((p - 1 - t : ℕ) + 1) * h) ≤ ∑ t ∈ range p, fn U (i + 1 + t) := by
      refine sum_le_sum fun t ht => ?_
      rw [mem_range] at ht
      have g1 := gaps_sum hg (i := j + 1 - (p - t)) (p - t) (by omega)
      rw [show j + 1 - (p - t) + (p - t) = j + 1 by omega] at g1
      have g2 : fn U (j + 1 - (p - t)) ≤ fn U (i + 1 + t) := hcl.mono (by omega)
      have g3 : ((p - t : ℕ) : K) = (p - 1 - t : ℕ) + 1 := by exact_mod_cast (by omega : p - t = p - 1 - t + 1)
      rw [g3] at g1
      linarith
    rw [sum_sub_distrib, ← sum_mul, sum_range_reflect (fun t => ((t : K) + 1)) p, sum_gauss, e0] at h3
    have h4 : u - (p + 1) / 2 * h ≤ (∑ t ∈ range p, fn U (i + 1 + t)) / p := by
      rw [le_div_iff₀ hp0]
      linarith
    linarith
  · have h3 : ∑ t ∈ range p, fn U (i + 1 + t) ≤ ∑ t ∈ range p, (u + ((t : K) + 1) * h) := by
      refine sum_le_sum fun t ht => ?_
      rw [mem_range] at ht
      have g1 := gaps_sum hg (i := j) (t + 1) (by omega)
      have g2 : fn U (i + 1 + t) ≤ fn U (j + (t + 1)) := hcl.mono (by omega)
      have g3 := hs.lo
      push_cast at g1
      linarith
    rw [sum_add_distrib, ← sum_mul, sum_gauss, e0] at h3
    rw [sub_le_iff_le_add, div_le_iff₀ hp0]
    linarith

theorem greville_unit {p n : ℕ} {U : List K} (hU : ClampedKnots 0 1 p n U) (hp : 1 ≤ p) {i : ℕ} (hi : i ≤ n) :
    0 ≤ greville p U i ∧ greville p U i ≤ 1 := by
  obtain ⟨h1, h2⟩ := greville_bounds hU hp hi
  exact ⟨(hU.clamp.a_le _).trans h1, h2.trans (hU.clamp.le_b _)⟩

theorem sampled_near {p n : ℕ} {U : List K} (hU : ClampedKnots 0 1 p n U) (hp : 1 ≤ p) {h : K} (hg : GapsAtMost U h)
    {f : K → K} {u s b : K} (h0 : 0 ≤ u) (h1 : u ≤ 1) (hf : NearLine f u s ((p + 1) / 2 * h) b) :
    |∑ i ∈ range (n + 1), nb p n U i u * f (greville p U i) - f u| ≤ b := by
  obtain ⟨j, hs⟩ := hU.clamp.exists_span h0 h1
  have e : ∑ i ∈ range (n + 1), nb p n U i u * f (greville p U i) - f u =
      ∑ i ∈ range (n + 1), nb p n U i u * (f (greville p U i) - f u - s * (greville p U i - u)) := by
    have a1 := sum_nb_unit hU h0 h1
    have a2 := sum_nb_greville hU hp h0 h1
    have : ∑ i ∈ range (n + 1), nb p n U i u * (f (greville p U i) - f u - s * (greville p U i - u)) =
        ∑ i ∈ range (n + 1), nb p n U i u * f (greville p U i) - (∑ i ∈ range (n + 1), nb p n U i u) * f u -
          s * (∑ i ∈ range (n + 1), nb p n U i u * greville p U i - (∑ i ∈ range (n + 1), nb p n U i u) * u) := by
      rw [sum_mul, sum_mul, ← sum_sub_distrib, ← sum_sub_distrib, mul_sum, ← sum_sub_distrib]
      refine sum_congr rfl fun i _ => ?_
      ring
    rw [this, a1, a2]
    ring
  rw [e]
  calc _ ≤ ∑ i ∈ range (n + 1), nb p n U i u * b := by
        refine (abs_sum_le_sum_abs _ _).trans (sum_le_sum fun i hi => ?_)
        rw [mem_range] at hi
        rw [nb_eq_Bs hU hs]
        by_cases hz : i + p < j ∨ j < i
        · rw [Bs_support _ _ _ _ _ hz, zero_mul, zero_mul, abs_zero]
        · have hn := Bs_nonneg hU.clamp.mono hs.lo hs.le_hi p i
          obtain ⟨g0, g1⟩ := greville_unit hU hp (i := i) (by omega)
          rw [abs_mul, abs_of_nonneg hn]
          exact mul_le_mul_of_nonneg_left (hf _ g0 g1 (greville_near hU hp hg hs (by omega) (by omega))) hn
    _ = b := by rw [← sum_mul, sum_nb_unit hU h0 h1, one_mul]

/-- the values of a function at the means of `p` consecutive knots -/
def sampled (p n : ℕ) (U : List K) (f : K → Pt K d) : List (Pt K d) :=
  (List.range (n + 1)).map fun i => f (((U.drop (i + 1)).take p).sum / p)

/-- **C112** A curve with the control points `f(mean of U[i+1], …, U[i+p])` follows `f`: if neighbouring knots are at
most `h` apart and a coordinate of `f` is within `b` of a line through `(u, f(u))` at all places not further than
`(p + 1) / 2 h` from `u`, then the value at `u` is within `b` of `f(u)`. -/
theorem C112_sampled {c : Curve K d} {p n : ℕ} {U : List K} {f : K → Pt K d} (hc : ValidOn 0 1 c p n U (sampled p n U f))
    (hp : 1 ≤ p) {h : K} (hg : GapsAtMost U h) {ρ : Fin d} {u s b : K} (h0 : 0 ≤ u) (h1 : u ≤ 1)
    (hf : NearLine (fun x => f x ρ) u s ((p + 1) / 2 * h) b) :
    ∃ v, c.evaluate u = .ok (.ok v) ∧ |v ρ - f u ρ| ≤ b := by
  obtain rfl := hc.eq_canon
  obtain ⟨-, hU, hP⟩ := hc
  refine ⟨_, evaluate_sum hU hP h0 h1, ?_⟩
  refine le_of_eq_of_le ?_ (sampled_near hU hp hg h0 h1 hf)
  rw [Finset.sum_apply]
  congr 2
  refine sum_congr rfl fun i hi => ?_
  rw [sampled, fn_map_range _ (mem_range.mp hi), Pi.smul_apply, smul_eq_mul]
  rfl

theorem sampled_length (p n : ℕ) (U : List K) (f : K → Pt K d) : (sampled p n U f).length = n + 1 := by simp [sampled]

/-- **C112** (first order) For `|f(x) - f(y)| ≤ l |x - y|` the curve is within `(p + 1) / 2 l h` of `f`. -/
theorem C112_lipschitz {c : Curve K d} {p n : ℕ} {U : List K} {f : K → Pt K d}
    (hc : ValidOn 0 1 c p n U (sampled p n U f)) (hp : 1 ≤ p) {h : K} (hg : GapsAtMost U h) {ρ : Fin d} {l : K}
    (hl : 0 ≤ l) (hf : ∀ x y, 0 ≤ x → x ≤ 1 → 0 ≤ y → y ≤ 1 → |f x ρ - f y ρ| ≤ l * |x - y|) {u : K} (h0 : 0 ≤ u)
    (h1 : u ≤ 1) : ∃ v, c.evaluate u = .ok (.ok v) ∧ |v ρ - f u ρ| ≤ (p + 1) / 2 * l * h := by
  refine C112_sampled hc hp hg h0 h1 (s := 0) ?_
  intro x x0 x1 hx
  rw [zero_mul, sub_zero]
  calc _ ≤ l * |x - u| := hf x u x0 x1 h0 h1
    _ ≤ l * ((p + 1) / 2 * h) := mul_le_mul_of_nonneg_left hx hl
    _ = _ := by ring

/-- **C112** (second order) If `f` is within `q (x - u)²` of its tangent at `u`, the curve is within
`q ((p + 1) / 2 h)²` of `f(u)`. -/
theorem C112_smooth {c : Curve K d} {p n : ℕ} {U : List K} {f : K → Pt K d}
    (hc : ValidOn 0 1 c p n U (sampled p n U f)) (hp : 1 ≤ p) {h : K} (hg : GapsAtMost U h) {ρ : Fin d} {q : K}
    (hq : 0 ≤ q) {u s : K} (h0 : 0 ≤ u) (h1 : u ≤ 1)
    (hf : ∀ x, 0 ≤ x → x ≤ 1 → |f x ρ - f u ρ - s * (x - u)| ≤ q * (x - u) ^ 2) :
    ∃ v, c.evaluate u = .ok (.ok v) ∧ |v ρ - f u ρ| ≤ q * ((p + 1) / 2 * h) ^ 2 := by
  refine C112_sampled hc hp hg h0 h1 (s := s) ?_
  intro x x0 x1 hx
  refine (hf x x0 x1).trans (mul_le_mul_of_nonneg_left ?_ hq)
  rw [← sq_abs]
  exact pow_le_pow_left₀ (abs_nonneg _) hx 2

/-! ### Least-squares fits -/

theorem sampled_sqError {p n : ℕ} {U : List K} (hU : ClampedKnots 0 1 p n U) (hp : 1 ≤ p) {h b : K}
    (hg : GapsAtMost U h) {f : K → Pt K d} {τ : List K} (hτ : ∀ x ∈ τ, 0 ≤ x ∧ x ≤ 1)
    (hf : ∀ u ∈ τ, ∀ ρ, ∃ s, NearLine (fun x => f x ρ) u s ((p + 1) / 2 * h) b) {I : Finset ℕ} (hI : ∀ g ∈ I, g < τ.length) :
    ∃ e, SqError (canon p U (sampled p n U f)) τ (τ.map f) I e ∧ e ≤ I.card * (d * b ^ 2) := by
  have hl := sampled_length p n U f
  refine ⟨_, (sqError_iff hU hl (mkCurve_ok hl hU.le (by have := hU.length; omega))
    (fun g hg => ⟨hI g hg, by rw [List.length_map]; exact hI g hg⟩) hτ).mpr rfl, ?_⟩
  rw [← nsmul_eq_mul]
  refine sum_le_card_nsmul _ _ _ fun g hgI => ?_
  have hgl := hI g hgI
  have : (d : K) * b ^ 2 = ∑ _ρ : Fin d, b ^ 2 := by rw [sum_const, card_univ, Fintype.card_fin, nsmul_eq_mul]
  rw [this]
  refine sum_le_sum fun ρ _ => ?_
  have hu := hτ _ (List.getElem_mem hgl)
  obtain ⟨s, hs⟩ := hf _ (List.getElem_mem hgl) ρ
  have hn := sampled_near hU hp hg hu.1 hu.2 hs
  rw [← sq_abs]
  refine pow_le_pow_left₀ (abs_nonneg _) (le_of_eq_of_le ?_ hn) 2
  rw [fn_lt (l := τ.map f) (by rw [List.length_map]; exact hgl), List.getElem_map, fn_lt hgl]
  congr 2
  refine sum_congr rfl fun i hi => ?_
  rw [sampled, fn_map_range _ (mem_range.mp hi)]
  rfl

/-- **C112** An unpenalised fit with loose ends to samples of `f`: the mean of the squared errors is at most
`d b²`, if `f` is within `b` of lines over distances of `(p + 1) / 2 h`. -/
theorem C112_fit_loose {p n m : ℕ} {U : List K} {kn : Knots K} {P : DataPoints K d} {params : Parameters K}
    {solver : Solver K d} (hs : solver.Exact) (hk : Knots.new p U = .ok kn) (hU : ClampedKnots 0 1 p n U) (h1 : 1 ≤ p)
    (hm : params.vector.length = m + 1) (hv : params.vector.length = params.segments + 1)
    (hτ : ∀ x ∈ params.vector, 0 ≤ x ∧ x ≤ 1) {h b : K} (hg : GapsAtMost U h) {f : K → Pt K d}
    (hf : ∀ u ∈ params.vector, ∀ ρ, ∃ s, NearLine (fun x => f x ρ) u s ((p + 1) / 2 * h) b)
    (hfit : Loose.fit solver kn (params.vector.map f) params none = .ok (.ok P)) :
    ∃ (c : Curve K d) (e : K), Built c p U P ∧ SqError c params.vector (params.vector.map f) (range (m + 1)) e ∧
      e ≤ (m + 1) * (d * b ^ 2) := by
  obtain ⟨c, e, h2, -, h4, h5⟩ := C42_loose_optimal hs hk hU h1 (by rw [List.length_map, hm]) hv hτ hfit
  obtain ⟨e', h6, h7⟩ := sampled_sqError hU h1 hg hτ hf (I := range (m + 1)) (fun g hg => by rw [hm]; exact mem_range.mp hg)
  have hl := sampled_length p n U f
  have := h5 _ _ e' hl (mkCurve_ok hl hU.le (by have := hU.length; omega)) h6
  rw [penaltyCost, penaltyCost, add_zero, add_zero] at this
  rw [card_range] at h7
  push_cast at h7
  exact ⟨c, e, h2, h4, this.trans h7⟩

theorem greville_first {p n : ℕ} {U : List K} (hU : ClampedKnots 0 1 p n U) (hp : 1 ≤ p) : greville p U 0 = 0 := by
  obtain ⟨h1, h2⟩ := greville_bounds hU hp (Nat.zero_le n)
  rw [hU.clamp.left _ (by omega)] at h1 h2
  exact le_antisymm h2 h1

theorem greville_last {p n : ℕ} {U : List K} (hU : ClampedKnots 0 1 p n U) (hp : 1 ≤ p) : greville p U n = 1 := by
  obtain ⟨h1, h2⟩ := greville_bounds hU hp (le_refl n)
  rw [hU.clamp.right _ (by omega)] at h1 h2
  exact le_antisymm h2 h1

/-- **C112** The same with fixed ends, for parameters from 0 to 1. -/
theorem C112_fit_fixed {p n m : ℕ} {U : List K} {kn : Knots K} {P : DataPoints K d} {params : Parameters K}
    {solver : Solver K d} (hs : solver.Exact) (hk : Knots.new p U = .ok kn) (hU : ClampedKnots 0 1 p n U) (h1 : 1 ≤ p)
    (hm : params.vector.length = m + 1) (hv : params.vector.length = params.segments + 1)
    (hτ : ∀ x ∈ params.vector, 0 ≤ x ∧ x ≤ 1) (h0 : params.vector[0]? = some 0) (hm1 : params.vector[m]? = some 1)
    {h b : K} (hg : GapsAtMost U h) {f : K → Pt K d}
    (hf : ∀ u ∈ params.vector, ∀ ρ, ∃ s, NearLine (fun x => f x ρ) u s ((p + 1) / 2 * h) b)
    (hfit : Fixed.fit solver kn (params.vector.map f) params none = .ok (.ok P)) :
    ∃ (c : Curve K d) (e : K), Built c p U P ∧ c.evaluate 0 = .ok (.ok (f 0)) ∧ c.evaluate 1 = .ok (.ok (f 1)) ∧
      SqError c params.vector (params.vector.map f) (Ico 1 m) e ∧ e ≤ (m - 1 : ℕ) * (d * b ^ 2) := by
  obtain ⟨c, e, h2, -, -, -, a1, a2, h4, h5⟩ := C43_fixed_optimal hs hk hU h1 (by rw [List.length_map, hm]) hv hτ hfit
  obtain ⟨e', h6, h7⟩ := sampled_sqError hU h1 hg hτ hf (I := Ico 1 m) (fun g hg => by
    rw [hm]; exact (mem_Ico.mp hg).2.trans (Nat.lt_succ_self m))
  have hl := sampled_length p n U f
  have := h5 _ _ e' hl (mkCurve_ok hl hU.le (by have := hU.length; omega))
    (by
      rw [List.getElem?_map, h0, sampled, List.getElem?_map, List.getElem?_range (by omega)]
      exact congrArg (fun x => some (f x)) (greville_first hU h1))
    (by
      rw [List.getElem?_map, hm1, sampled, List.getElem?_map, List.getElem?_range (by omega)]
      exact congrArg (fun x => some (f x)) (greville_last hU h1)) h6
  rw [penaltyCost, penaltyCost, add_zero, add_zero] at this
  rw [Nat.card_Ico] at h7
  rw [List.getD_eq_getElem?_getD, List.getElem?_map, h0] at a1
  rw [List.getD_eq_getElem?_getD, List.getElem?_map, hm1] at a2
  exact ⟨c, e, h2, a1, a2, h4, this.trans h7⟩

/-- neighbouring uniform knots are at most `1 / (n - p + 1)` apart -/
theorem uniform_gaps {p n : ℕ} (h2 : p ≤ n) : GapsAtMost (genU p n (uniK (K := K) p n)) (1 / (n - p + 1 : ℕ)) := by
  have hN : (0 : K) < (n - p + 1 : ℕ) := by exact_mod_cast Nat.succ_pos _
  intro j x y hx hy
  obtain ⟨hj, rfl⟩ := List.getElem?_eq_some_iff.mp hx
  obtain ⟨hj', rfl⟩ := List.getElem?_eq_some_iff.mp hy
  have hl := genU_length p n (uniK (K := K) p n)
  rw [← fn_lt hj, ← fn_lt hj', fn_genU (by omega), fn_genU (by omega)]
  have hpos : (0 : K) ≤ 1 / (n - p + 1 : ℕ) := (one_div_pos.mpr hN).le
  by_cases e1 : j + 1 ≤ p
  · rw [if_pos e1, if_pos (by omega), sub_zero]; exact hpos
  rw [if_neg e1]
  by_cases e2 : j ≤ p
  · rw [if_pos e2]
    obtain rfl : j = p := by omega
    by_cases e3 : j + 1 ≤ n
    · rw [if_pos e3, uniK, show j + 1 - j = 1 by omega]; simp
    · rw [if_neg e3, show n - j = 0 by omega]; simp
  rw [if_neg e2]
  by_cases e3 : j + 1 ≤ n
  · rw [if_pos e3, if_pos (by omega), uniK, uniK, ← sub_div]
    rw [show j + 1 - p = j - p + 1 by omega]
    push_cast
    rw [add_sub_cancel_left]
  rw [if_neg e3]
  by_cases e4 : j ≤ n
  · obtain rfl : j = n := by omega
    rw [if_pos le_rfl, uniK, one_sub_div hN.ne']
    push_cast
    rw [add_sub_cancel_left]
  · rw [if_neg e4, sub_self]; exact hpos

/-- **C112** `generate` with a least-squares fit to samples of `f` at equally spaced parameters: the mean of the
squared errors is at most `d b²`, if `f` is within `b` of lines over distances of `(p + 1) / (2 (n - p + 1))`. -/
theorem C112_generate [Trunc K] [Sqrt K] {p n m : ℕ} {solver : Solver K d} {c : Curve K d} (hs : solver.Exact) (h1 : 1 ≤ p) (h2 : p ≤ n)
    {ps : Parameters K} (hps : equallySpaced m = .ok ps) {f : K → Pt K d} {b : K}
    (hf : ∀ u ρ, 0 ≤ u → u ≤ 1 → ∃ s, NearLine (fun x => f x ρ) u s ((p + 1) / 2 * (1 / (n - p + 1 : ℕ))) b) :
    (generate solver (.leastSquaresFit p (ps.vector.map f) n .looseEnds none) = .ok (.ok c) →
      ∃ e, SqError c ps.vector (ps.vector.map f) (range (m + 1)) e ∧ e ≤ (m + 1) * (d * b ^ 2)) ∧
    (0 < m → generate solver (.leastSquaresFit p (ps.vector.map f) n .fixedEnds none) = .ok (.ok c) →
      c.evaluate 0 = .ok (.ok (f 0)) ∧ c.evaluate 1 = .ok (.ok (f 1)) ∧
      ∃ e, SqError c ps.vector (ps.vector.map f) (Ico 1 m) e ∧ e ≤ (m - 1 : ℕ) * (d * b ^ 2)) := by
  obtain ⟨ps', h3, h4, h5, h6⟩ := equallySpaced_shape (K := K) m
  rw [hps] at h3
  injection h3 with h3
  subst h3
  have hlen : (ps.vector.map f).length = m + 1 := by rw [List.length_map, h5]
  have hf' : ∀ u ∈ ps.vector, ∀ ρ, ∃ s, NearLine (fun x => f x ρ) u s ((p + 1) / 2 * (1 / (n - p + 1 : ℕ))) b :=
    fun u hu ρ => hf u ρ (h6 u hu).1 (h6 u hu).2
  constructor
  · intro hgen
    rw [generate_fit h1 h2 hlen _ _ _ hps] at hgen
    obtain ⟨r, h7, h8⟩ := bind_ok_inv hgen
    cases r with
    | error e => cases h8
    | ok P =>
      obtain ⟨c', e, h9, h11, h12⟩ := C112_fit_loose hs (genKnots_new h2 _) (uniform_clamped h1 h2) h1 h5
        (by rw [h5, h4]) h6 (uniform_gaps h2) hf' h7
      dsimp only at h8
      rw [Built, h8] at h9
      injection h9 with h9; injection h9 with h9
      subst h9
      exact ⟨e, h11, h12⟩
  · intro hm hgen
    rw [generate_fit h1 h2 hlen _ _ _ hps] at hgen
    obtain ⟨r, h7, h8⟩ := bind_ok_inv hgen
    rw [equallySpaced_ok] at hps
    injection hps with hps
    cases r with
    | error e => cases h8
    | ok P =>
      obtain ⟨c', e, h9, a1, a2, h11, h12⟩ := C112_fit_fixed hs (genKnots_new h2 _) (uniform_clamped h1 h2) h1 h5
        (by rw [h5, h4]) h6 (by rw [← hps]; simp; omega) (by rw [← hps]; simp) (uniform_gaps h2) hf' h7
      dsimp only at h8
      rw [Built, h8] at h9
      injection h9 with h9; injection h9 with h9
      subst h9
      exact ⟨a1, a2, e, h11, h12⟩

theorem smooth_nearLine {f : K → K} {q : K} (hq : 0 ≤ q) {u s r : K}
    (hf : ∀ x, 0 ≤ x → x ≤ 1 → |f x - f u - s * (x - u)| ≤ q * (x - u) ^ 2) : NearLine f u s r (q * r ^ 2) := by
  intro x x0 x1 hx
  refine (hf x x0 x1).trans (mul_le_mul_of_nonneg_left ?_ hq)
  rw [← sq_abs]
  exact pow_le_pow_left₀ (abs_nonneg _) hx 2

/-- **C112** For a function that is within `q (x - u)²` of its tangents, `generate` with a least-squares fit of
`n + 1` control points to `m + 1 ≥ n + 1` samples succeeds, and the mean of the squared errors is at most
`d (q ((p + 1) / (2 (n - p + 1)))²)²`: the error decreases with the square of the number of spans. -/
theorem C112_fit_smooth [Trunc K] [Sqrt K] {p n m : ℕ} {solver : Solver K d} (hs : solver.Exact) (h1 : 1 ≤ p)
    (h2 : p ≤ n) (h3 : n ≤ m) {ps : Parameters K} (hps : equallySpaced m = .ok ps) {f : K → Pt K d} {q : K} (hq : 0 ≤ q)
    (hf : ∀ u ρ, 0 ≤ u → u ≤ 1 → ∃ s, ∀ x, 0 ≤ x → x ≤ 1 → |f x ρ - f u ρ - s * (x - u)| ≤ q * (x - u) ^ 2) :
    (∃ c e, generate solver (.leastSquaresFit p (ps.vector.map f) n .looseEnds none) = .ok (.ok c) ∧
      SqError c ps.vector (ps.vector.map f) (range (m + 1)) e ∧
      e ≤ (m + 1) * (d * (q * ((p + 1) / (2 * (n - p + 1 : ℕ))) ^ 2) ^ 2)) ∧
    (2 ≤ n → ∃ c e, generate solver (.leastSquaresFit p (ps.vector.map f) n .fixedEnds none) = .ok (.ok c) ∧
      c.evaluate 0 = .ok (.ok (f 0)) ∧ c.evaluate 1 = .ok (.ok (f 1)) ∧
      SqError c ps.vector (ps.vector.map f) (Ico 1 m) e ∧
      e ≤ (m - 1 : ℕ) * (d * (q * ((p + 1) / (2 * (n - p + 1 : ℕ))) ^ 2) ^ 2)) := by
  have hlen : (ps.vector.map f).length = m + 1 := by
    obtain ⟨ps', h3, h4, h5, h6⟩ := equallySpaced_shape (K := K) m
    rw [hps] at h3
    injection h3 with h3
    subst h3
    rw [List.length_map, h5]
  have hnone : fitErrorOf (K := K) n m m p none true = none := by
    rw [fitErrorOf, if_neg (by omega), if_neg (by simp), if_neg (by omega)]
  have hf' : ∀ u ρ, 0 ≤ u → u ≤ 1 → ∃ s, NearLine (fun x => f x ρ) u s ((p + 1) / 2 * (1 / (n - p + 1 : ℕ)))
      (q * ((p + 1) / (2 * (n - p + 1 : ℕ))) ^ 2) := by
    intro u ρ u0 u1
    obtain ⟨s, hs⟩ := hf u ρ u0 u1
    refine ⟨s, ?_⟩
    rw [show ((p : K) + 1) / 2 * (1 / (n - p + 1 : ℕ)) = (p + 1) / (2 * (n - p + 1 : ℕ)) by
      rw [div_mul_div_comm, mul_one]]
    exact smooth_nearLine hq hs
  constructor
  · obtain ⟨c, U, P, -, -, -, h⟩ := (C44_generate_loose h1 h2 hlen solver none).2 hnone
    obtain ⟨e, h4, h5⟩ := (C112_generate hs h1 h2 hps hf').1 h
    exact ⟨c, e, h, h4, h5⟩
  · intro hn
    obtain ⟨c, U, P, -, -, -, h⟩ := (C44_generate_fixed_partial h1 h2 hlen solver none).2 hnone hn (by simp)
    obtain ⟨a1, a2, e, h4, h5⟩ := (C112_generate hs h1 h2 hps hf').2 (by omega) h
    exact ⟨c, e, h, a1, a2, h4, h5⟩

/-- the hypothesis is met by a parabola, with `q = 1` -/
example (u : ℚ) : ∃ s, ∀ x, 0 ≤ x → x ≤ 1 → |x ^ 2 - u ^ 2 - s * (x - u)| ≤ 1 * (x - u) ^ 2 :=
  ⟨2 * u, fun x _ _ => by rw [show x ^ 2 - u ^ 2 - 2 * u * (x - u) = (x - u) ^ 2 by ring, abs_of_nonneg (sq_nonneg _), one_mul]⟩

/-- a polyline sampled from a parabola: off by `h² / 4` in the middle of the span, so the order cannot be improved -/
example : (canon 1 [(0 : ℚ), 0, 1, 1] (sampled 1 1 [0, 0, 1, 1] fun x => ![x ^ 2])).evaluate (1 / 2) = .ok (.ok ![1 / 2]) ∧
    (1 : ℚ) / 2 - (1 / 2) ^ 2 = 1 / 4 := by
  decide +kernel

end BSpline
