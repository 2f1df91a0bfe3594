import Verif.Props.Smooth
import Verif.Props.Insert
import Verif.Refine.Reverse

/-!
# Reversal: C21, C22, C23, C56
-/

set_option linter.unusedSectionVars false

namespace BSpline

open Finset Filter Topology

/-! ### C56 -/

/-- **C56** `DataPoints::reverse` puts the columns in reverse order, whatever their number. -/
theorem C56_data_points_reverse {K : Type} {d : ℕ} (m : DataPoints K d) :
    DataPoints.reverse m = List.reverse m := swapLoop_eq m

/-- **C56** `ControlPoints::reverse` reverses the columns of every stored derivative and negates
the odd ones; for any arithmetic and any number of columns. -/
theorem C56_control_points_reverse {K : Type} [Add K] [Sub K] [Mul K] [Div K] [Neg K] [Zero K]
    [One K] [NatCast K] [Cmp K] {d : ℕ} (cp : ControlPoints K d) (h : cp.Pk.length = cp.kMax + 1) :
    ∃ cp', cp.reverse = .ok cp' ∧ cp'.kMax = cp.kMax ∧ cp'.Pk.length = cp.Pk.length ∧
      ∀ (k : ℕ) (m : List (Pt K d)), cp.Pk[k]? = some m → cp'.Pk[k]? =
        some (if Even k then m.reverse else (m.map (fun v => fun r => v r * -1)).reverse) := by
  refine ⟨_, controlPoints_reverse_ok h, rfl, by simp, ?_⟩
  intro k m hm
  simp only [List.getElem?_mapIdx, hm, Option.map_some, revPts]
  rcases Nat.even_or_odd k with hk | hk
  · rw [if_pos hk, if_neg (by rw [Nat.even_iff] at hk; omega)]
  · rw [if_neg (Nat.not_even_iff_odd.mpr hk), if_pos (Nat.odd_iff.mp hk), List.map_reverse]

/-- non-vacuity, an odd and an even number of columns -/
example : DataPoints.reverse ([![1], ![2], ![3]] : DataPoints ℚ 1) = [![3], ![2], ![1]] ∧
    DataPoints.reverse ([![1], ![2], ![3], ![4]] : DataPoints ℚ 1) = [![4], ![3], ![2], ![1]] := by
  decide +kernel
example : (ControlPoints.new ([![1], ![2]] : List (Pt ℚ 1))).Pk.length =
  (ControlPoints.new ([![1], ![2]] : List (Pt ℚ 1))).kMax + 1 := rfl

variable {K : Type} [Field K] [LinearOrder K] [IsStrictOrderedRing K] {d : ℕ}

/-! ### C21, C23 -/

/-- **C23** The caches of the reversed curve are exactly those of a fresh curve over the reversed
knots `1 - U_i` and the reversed control points; no assumption on the knot values. -/
theorem C23_reverse_coherent {c : Curve K d} {p n : ℕ} {U : List K} {P : List (Pt K d)}
    (hc : Built c p U P) (hU : U.length = n + p + 2) (hP : P.length = n + 1) (hp : p ≤ n) :
    ∃ c', c.reverse = .ok c' ∧ Built c' p (U.reverse.map (fun x => 1 - x)) P.reverse := by
  obtain rfl := hc.eq_canon hU hp hP
  exact ⟨_, reverse_canon hU hP hp, mkCurve_ok (n := n) (by simpa using hP) hp
    (by simp; omega)⟩

/-- **C23** The reversed curve of a valid curve is valid; the domain `[a, b]` becomes
`[1 - b, 1 - a]`. -/
theorem C23_reverse_valid {a b : K} {c : Curve K d} {p n : ℕ} {U : List K} {P : List (Pt K d)}
    (hc : ValidOn a b c p n U P) :
    ∃ c', c.reverse = .ok c' ∧
      ValidOn (1 - b) (1 - a) c' p n (U.reverse.map (fun x => 1 - x)) P.reverse := by
  obtain ⟨c', h1, h2⟩ := C23_reverse_coherent hc.1 hc.2.1.length hc.2.2 hc.2.1.le
  exact ⟨c', h1, h2, revU_clamped hc.2.1, by simpa using hc.2.2⟩

/-- **C21** Reversing twice restores the curve: knots, control points and all caches. -/
theorem C21_reverse_involutive {c : Curve K d} {p n : ℕ} {U : List K} {P : List (Pt K d)}
    (hc : Built c p U P) (hU : U.length = n + p + 2) (hP : P.length = n + 1) (hp : p ≤ n) :
    ∃ c', c.reverse = .ok c' ∧ c'.reverse = .ok c := by
  obtain rfl := hc.eq_canon hU hp hP
  refine ⟨_, reverse_canon hU hP hp, ?_⟩
  rw [reverse_canon (n := n) (by simpa using hU) (by simpa using hP) hp, revU_revU,
    List.reverse_reverse]

/-- non-vacuity: the reversed example curve is a different curve -/
example : ∃ c', exC.reverse = .ok c' ∧ c' ≠ exC ∧
    c'.knots.vector = .ok [0, 0, 0, 1 / 4, 1 / 2, 1 / 2, 1, 1, 1] :=
  ⟨canon 2 (revU exU) exP.reverse, reverse_canon (n := 5) rfl rfl (by decide), by decide +kernel,
    by decide +kernel⟩

/-! ### C22 -/

/-- the pieces of the reversed curve -/
theorem cv_rev {U U' : ℕ → K} {P P' : ℕ → Pt K d} {p n : ℕ}
    (hU : ∀ i, i ≤ n + p + 1 → U' i = 1 - U (n + p + 1 - i)) (hP : ∀ i, i ≤ n → P' i = P (n - i))
    {k j : ℕ} (hk : k ≤ p) (hpj : p ≤ j) (hjn : j ≤ n) (v : K) :
    cv U' p P' k (n + p - j) (1 - v) = (-1 : K) ^ k • cv U p P k j v := by
  have h := bl_reflect (List.replicate (p - k) v) (U := shiftN k U) (U' := shiftN k U')
    (P := fun i => (-1 : K) ^ k • dpt U p P k i) (P' := dpt U' p P' k) (a := j - p) (b := n - j) 1
    (by
      intro m hm
      simp only [List.length_replicate, shiftN_apply] at hm ⊢
      rw [hU _ (by omega)]
      congr 2; omega)
    (by
      intro m hm
      simp only [List.length_replicate] at hm ⊢
      rw [dpt_rev hU hP k _ (by omega)]
      congr 2; omega)
  rw [bl_smul] at h
  rw [List.map_replicate] at h
  simp only [cv]
  rw [show n + p - j - p = n - j by omega]
  exact h

/-- what the reversed curve evaluates to: the piece to the *left* of `1 - u` -/
theorem evaluate_reverse {p n k : ℕ} {U : List K} {P : List (Pt K d)} (hU : ClampedKnots 0 1 p n U)
    (hP : P.length = n + 1) (hk : k ≤ p) {u : K} (h0 : 0 ≤ u) (h1 : u ≤ 1) {j : ℕ}
    (hj : IsLeftSpan (fn U) n (1 - u) j ∨ (u = 1 ∧ j = p)) :
    (canon p (revU U) P.reverse).evaluateDerivative u k =
      .ok (.ok ((-1 : K) ^ k • cv (fn U) p (fn P) k j (1 - u))) := by
  have hc := hU.clamp
  have hl := hU.length
  have hle := hU.le
  have hU' := revU_clamped hU
  simp only [sub_self, sub_zero] at hU'
  have e1 : ∀ i, i ≤ n + p + 1 → fn (revU U) i = 1 - fn U (n + p + 1 - i) := by
    intro i hi; rw [fn_revU (by omega), hl]; rfl
  have e2 : ∀ i, i ≤ n → fn P.reverse i = fn P (n - i) := by
    intro i hi; rw [fn_reverse (by omega), hP]; rfl
  have hpj : p ≤ j := by
    rcases hj with hj | ⟨_, rfl⟩
    · exact hj.p_le hc
    · exact le_rfl
  have hjn : j ≤ n := by
    rcases hj with hj | ⟨_, rfl⟩
    · exact hj.le_n
    · exact hle
  have hs : IsSpan (fn (revU U)) n u (n + p - j) := by
    rcases hj with hj | ⟨rfl, rfl⟩
    · refine ⟨by omega, ?_, Or.inl ?_⟩
      · rw [e1 _ (by omega), show n + p + 1 - (n + p - j) = j + 1 by omega]
        have := hj.hi; linarith
      · rw [e1 _ (by omega), show n + p + 1 - (n + p - j + 1) = j by omega]
        have := hj.lo; linarith
    · refine ⟨by omega, hU'.clamp.le_b _, Or.inr ⟨by omega, ?_⟩⟩
      rw [hU'.clamp.right _ le_rfl]
  rw [evaluateDerivative_eq hU' (by simpa using hP) hk h0 h1 hs]
  congr 2
  have := cv_rev e1 e2 hk hpj hjn (1 - u)
  rwa [sub_sub_cancel] at this

/-- C22 without the condition that the derivative is continuous. -/
def C22_everywhere : Prop := ∀ (p n d : ℕ) (U : List ℚ) (P : List (Pt ℚ d)) (c c' : Curve ℚ d) (u : ℚ)
  (k : ℕ) (v : Pt ℚ d), ValidOn 0 1 c p n U P → c.reverse = .ok c' → 0 ≤ u → u ≤ 1 →
    c.evaluateDerivative (1 - u) k = .ok (.ok v) →
      c'.evaluateDerivative u k = .ok (.ok ((-1 : ℚ) ^ k • v))

/-- **C22** `reverse()` traverses the curve backwards:
`evaluate_derivative(u, k) = (-1)^k * old evaluate_derivative(1 - u, k)`, for every `k` and every
`u` for which `1 - u` is not an interior knot of multiplicity more than `p - k` (so for every `u`
if `k = 0` and all multiplicities are at most `p`). At the other knots, where the `k`-th derivative
may jump, the reversed curve uses the other side (`C22_reverse_left_limit`); the claim holds there if
and only if it does not jump (`C22_reverse_iff_continuous`). -/
theorem C22_reverse_geometry {c c' : Curve K d} {p n k : ℕ} {U : List K} {P : List (Pt K d)}
    (hc : ValidOn 0 1 c p n U P) (hr : c.reverse = .ok c') {u : K} (h0 : 0 ≤ u) (h1 : u ≤ 1)
    (hm : 0 < u → u < 1 → k ≤ p → U.count (1 - u) ≤ p - k) :
    ∃ v, c.evaluateDerivative (1 - u) k = .ok (.ok v) ∧
      c'.evaluateDerivative u k = .ok (.ok ((-1 : K) ^ k • v)) := by
  obtain rfl := hc.eq_canon
  obtain ⟨-, hU, hP⟩ := hc
  rw [reverse_canon hU.length hP hU.le] at hr
  injection hr with hr
  subst hr
  have hc := hU.clamp
  by_cases hk : k ≤ p
  · obtain ⟨j, hj⟩ := hc.exists_span (u := 1 - u) (by linarith) (by linarith)
    refine ⟨_, evaluateDerivative_eq hU hP hk (by linarith) (by linarith) hj, ?_⟩
    rcases h1.lt_or_eq with h2 | rfl
    · obtain ⟨j', hj'⟩ := hc.exists_leftSpan (u := 1 - u) (by linarith) (by linarith)
      rw [evaluate_reverse hU hP hk h0 h1 (Or.inl hj')]
      rw [cv_glue_count hU hk hj hj']
      intro h3 h4
      exact hm (by linarith) h2 hk
    · have hjp : j = p := by
        have h3 := hj.p_le hc
        by_contra hne
        have := hc.a_lt (i := j) (by omega)
        have h4 := hj.lo
        rw [sub_self] at h4
        exact absurd (lt_of_lt_of_le this h4) (lt_irrefl _)
      exact evaluate_reverse hU hP hk h0 h1 (Or.inr ⟨rfl, hjp⟩)
  · refine ⟨fun _ => 0, ?_, ?_⟩
    · have : (Cmp.le 0 (1 - u) && Cmp.le (1 - u) 1) = true := by
        simp [Cmp.le, h0, h1]
      simp [Curve.evaluateDerivative, hk, this]
    · have : (Cmp.le 0 u && Cmp.le u 1) = true := by simp [Cmp.le, h0, h1]
      simp [Curve.evaluateDerivative, hk, this]
      funext r; simp

/-- C22 for the curve itself: no interior knot of multiplicity above `p`. -/
theorem C22_reverse_points {c c' : Curve K d} {p n : ℕ} {U : List K} {P : List (Pt K d)}
    (hc : ValidOn 0 1 c p n U P) (hr : c.reverse = .ok c')
    (hm : ∀ x, 0 < x → x < 1 → U.count x ≤ p) {u : K} (h0 : 0 ≤ u) (h1 : u ≤ 1) :
    c'.evaluate u = c.evaluate (1 - u) := by
  obtain ⟨v, h2, h3⟩ := C22_reverse_geometry (k := 0) hc hr h0 h1
    (fun h2 h3 _ => hm _ (by linarith) (by linarith))
  rw [Curve.evaluate, Curve.evaluate, h2, h3, pow_zero, one_smul]

/-- **C22, the rest.** Without any condition on multiplicities, the reversed curve computes
`(-1)^k` times the limit of the `k`-th derivative from the left, at every `u ∈ [0, 1)`. -/
theorem C22_reverse_left_limit {c c' : Curve ℝ d} {p n k : ℕ} {U : List ℝ} {P : List (Pt ℝ d)}
    (hc : ValidOn 0 1 c p n U P) (hr : c.reverse = .ok c') (hk : k ≤ p) {f g : ℝ → Pt ℝ d}
    (hf : Computes c k f) (hg : Computes c' k g) {u : ℝ} (h0 : 0 ≤ u) (h1 : u < 1) :
    Tendsto f (𝓝[<] (1 - u)) (𝓝 ((-1 : ℝ) ^ k • g u)) := by
  obtain rfl := hc.eq_canon
  obtain ⟨-, hU, hP⟩ := hc
  rw [reverse_canon hU.length hP hU.le] at hr
  injection hr with hr
  subst hr
  obtain ⟨j, hj⟩ := hU.clamp.exists_leftSpan (u := 1 - u) (by linarith) (by linarith)
  have h2 := hg u h0 h1.le
  rw [evaluate_reverse hU hP hk h0 h1.le (Or.inl hj)] at h2
  injection h2 with h2; injection h2 with h2
  rw [← h2, smul_smul, ← mul_pow]
  simp only [mul_neg, mul_one, neg_neg, one_pow, one_smul]
  have hcont := ((cv_continuous (U := fn U) (p := p) (k := k) (j := j) (fn P)).tendsto
    (1 - u)).mono_left (nhdsWithin_le_nhds (s := Set.Iio (1 - u)))
  refine hcont.congr' ?_
  have : Set.Ioo (fn U j) (1 - u) ∈ 𝓝[<] (1 - u) := Ioo_mem_nhdsLT hj.lo
  filter_upwards [this] with v hv
  have hv0 : 0 ≤ v := (hU.clamp.a_le j).trans hv.1.le
  have h3 := hf v hv0 (by linarith [hv.2])
  rw [evaluateDerivative_eq hU hP hk hv0 (by linarith [hv.2]) (hj.isSpan hv.1.le hv.2)] at h3
  injection h3 with h3; injection h3

/-- At a double knot of a quadratic curve the first derivative jumps, and the reversed curve takes
the other side. -/
theorem C22_everywhere_false : ¬ C22_everywhere := by
  intro h
  have := h 2 5 2 exU exP exC (canon 2 (revU exU) exP.reverse) (1 / 2) 1 ![8, 8]
    (validOn_canon (by decide +kernel) rfl) (reverse_canon (n := 5) rfl rfl (by decide)) (by norm_num)
    (by norm_num)
  revert this
  decide +kernel

/-- non-vacuity: at the double knot `1/2` of the quadratic `exC` the hypothesis holds for `k = 0` -/
example : exU.count (1 - 1 / 2) ≤ 2 - 0 := by decide +kernel
example : ∃ c', exC.reverse = .ok c' ∧ c'.evaluate (1 / 3) = exC.evaluate (2 / 3) ∧
    c'.evaluateDerivative (1 / 3) 1 = .ok (.ok ![-16 / 3, -40 / 3]) :=
  ⟨canon 2 (revU exU) exP.reverse, reverse_canon (n := 5) rfl rfl (by decide), by decide +kernel,
    by decide +kernel⟩

end BSpline
