import Verif.Props.Basis
import Mathlib.Analysis.Convex.Combination

/-!
# Evaluation of curves: C05 – C10
-/

set_option linter.unusedSectionVars false

namespace BSpline

open Finset

/-! ### C06: totality, for any arithmetic -/

section LawFree

variable {K : Type} [Add K] [Sub K] [Mul K] [Div K] [Neg K] [Zero K] [One K] [NatCast K] [Cmp K]
variable {d : ℕ}

/-- **C06** For a curve built from `n + p + 2` knots and `n + 1 > p` control points, evaluation
never panics; it reports `ParameterOutOfBounds` exactly when `0 <= u && u <= 1` is false. No law of
arithmetic or order is assumed: `K` may be IEEE floating point with NaN. -/
theorem C06_evaluation_total {c : Curve K d} {p n : ℕ} {U : List K} {P : List (Pt K d)}
    (hc : Built c p U P) (hU : U.length = n + p + 2) (hP : P.length = n + 1) (hp : p ≤ n)
    (u : K) (k : ℕ) :
    ((Cmp.le 0 u && Cmp.le u 1) = false →
      c.evaluateDerivative u k = .ok (.error (.parameterOutOfBounds u 0 1))) ∧
    ((Cmp.le 0 u && Cmp.le u 1) = true → ∃ v, c.evaluateDerivative u k = .ok (.ok v)) ∧
    ((Cmp.le 0 u && Cmp.le u 1) = true → p < k → c.evaluateDerivative u k = .ok (.ok fun _ => 0)) := by
  have hcc : c = canon p U P := by
    rw [Built, mkCurve_ok hP hp (by omega)] at hc
    injection hc with hc; injection hc with hc; exact hc.symm
  subst hcc
  refine ⟨?_, ?_, ?_⟩
  · intro h
    simp [Curve.evaluateDerivative, h]
  · intro h
    by_cases hk : k ≤ p
    · rw [Bool.and_eq_true] at h
      exact ⟨_, evaluateDerivative_ok hU hP hp hk h.1 h.2⟩
    · refine ⟨fun _ => 0, ?_⟩
      simp [Curve.evaluateDerivative, h, hk]
  · intro h hk
    simp [Curve.evaluateDerivative, h, Nat.not_le.mpr hk]

/-- **C06** A parameter that compares false with everything (NaN) is an error. -/
theorem C06_nan_rejected {c : Curve K d} {p n : ℕ} {U : List K} {P : List (Pt K d)}
    (hc : Built c p U P) (hU : U.length = n + p + 2) (hP : P.length = n + 1) (hp : p ≤ n)
    {u : K} (hnan : ∀ x, Cmp.le x u = false) (k : ℕ) :
    c.evaluateDerivative u k = .ok (.error (.parameterOutOfBounds u 0 1)) :=
  (C06_evaluation_total hc hU hP hp u k).1 (by simp [hnan])

end LawFree

variable {K : Type} [Field K] [LinearOrder K] [IsStrictOrderedRing K] {d : ℕ}

/-- a concrete valid curve in the plane with a double knot -/
def exP : List (Pt ℚ 2) := [![0, 0], ![1, 2], ![2, 0], ![3, 1], ![4, 5], ![6, 0]]
def exC : Curve ℚ 2 := canon 2 exU exP

example : ValidOn 0 1 exC 2 5 exU exP := validOn_canon (by decide +kernel) rfl
example : exC.evaluate (1 / 4) = .ok (.ok ![5 / 4 - 1 / 4, 1]) := by decide +kernel

/-- **C05** `evaluate_derivative` is the sum over *all* basis functions and (derivative) control
points. -/
theorem C05_full_sum {c : Curve K d} {p n k : ℕ} {U : List K} {P : List (Pt K d)}
    (hc : ValidOn 0 1 c p n U P) (hk : k ≤ p) {u : K} (h0 : 0 ≤ u) (h1 : u ≤ 1) :
    ∃ (N : ℕ → K) (Q : List (Pt K d)),
      (∀ i, i ≤ n - k → c.knots.evaluate k i p u = .ok (N i)) ∧
      c.points.matrixDerivative k = .ok Q ∧ Q.length = n - k + 1 ∧
      c.evaluateDerivative u k = .ok (.ok (∑ i ∈ range (n - k + 1), N i • Q.getD i 0)) := by
  obtain rfl := hc.eq_canon
  obtain ⟨-, hU, hP⟩ := hc
  have hle := hU.le
  obtain ⟨j, hs⟩ := hU.clamp.exists_span h0 h1
  refine ⟨fun i => Nf (fun i => fn U (i + k)) k n u (p - k) i,
    (List.range (P.length - k)).map (fun i => dpt (fn U) p (fn P) k i), ?_, ?_, ?_, ?_⟩
  · intro i hi; exact knots_evaluate_ok hU.length hU.le hk (by omega) u
  · exact canonPts_matrixDerivative hk U P
  · simp; omega
  · rw [evaluateDerivative_eq hU hP hk h0 h1 hs, ← fullSum_eq_cv hU.clamp hs hk]
    congr 2
    apply sum_congr rfl
    intro i hi
    rw [mem_range] at hi
    rw [List.getD_eq_getElem _ _ (by simp; omega)]
    simp

/-- **C07** A clamped curve starts in its first and ends in its last control point. -/
theorem C07_endpoints {c : Curve K d} {p n : ℕ} {U : List K} {P : List (Pt K d)}
    (hc : ValidOn 0 1 c p n U P) {first last : Pt K d} (hf : P.head? = some first)
    (hl : P.getLast? = some last) :
    c.evaluate 0 = .ok (.ok first) ∧ c.evaluate 1 = .ok (.ok last) := by
  obtain rfl := hc.eq_canon
  obtain ⟨-, hU, hP⟩ := hc
  have hle := hU.le
  have hcl := hU.clamp
  constructor
  · obtain ⟨j, hs⟩ := hcl.exists_span (u := 0) le_rfl zero_le_one
    have hpj := hs.p_le hcl
    have hjp : j = p := by
      by_contra hne
      have := hcl.a_lt (i := j) (by omega)
      exact absurd (lt_of_lt_of_le this hs.lo) (lt_irrefl _)
    rw [Curve.evaluate, evaluateDerivative_eq hU hP (Nat.zero_le p) le_rfl zero_le_one hs]
    have hw : Win (fn U) p 0 := by
      have := win_of_span hcl.mono hpj (hs.lt hcl)
      rwa [hjp, Nat.sub_self] at this
    have hd := bl_dual (P := fn P) p (i := 0) (Nat.zero_le p) hw
    have hk : knotsFrom (fn U) (0 + 0 + 1) p = List.replicate p 0 := by
      rw [knotsFrom]
      apply List.ext_getElem (by simp)
      intro i hi _
      simp only [List.length_map, List.length_range'] at hi
      simp only [List.getElem_map, List.getElem_range', List.getElem_replicate]
      exact hcl.left _ (by omega)
    rw [hk] at hd
    rw [cv, shiftN_zero, Nat.sub_zero, hjp, Nat.sub_self]
    rw [show dpt (fn U) p (fn P) 0 = fn P from rfl, hd]
    rw [Nat.add_zero, fn_lt (by omega)]
    rw [List.head?_eq_getElem?, List.getElem?_eq_getElem (by omega)] at hf
    injection hf with hf; rw [hf]
  · obtain ⟨j, hs⟩ := hcl.exists_span (u := 1) zero_le_one le_rfl
    have hpj := hs.p_le hcl
    have hjn : j = n := by
      rcases hs.hi with h | ⟨h, _⟩
      · exact absurd (lt_of_lt_of_le h (hcl.le_b _)) (lt_irrefl _)
      · exact h
    rw [Curve.evaluate, evaluateDerivative_eq hU hP (Nat.zero_le p) zero_le_one le_rfl hs]
    have hw : Win (fn U) p (n - p) := by
      have := win_of_span hcl.mono hpj (hs.lt hcl)
      rwa [hjn] at this
    have hd := bl_dual (P := fn P) p (i := p) le_rfl hw
    have hk : knotsFrom (fn U) (n - p + p + 1) p = List.replicate p 1 := by
      rw [knotsFrom]
      apply List.ext_getElem (by simp)
      intro i hi _
      simp only [List.length_map, List.length_range'] at hi
      simp only [List.getElem_map, List.getElem_range', List.getElem_replicate]
      exact hcl.right _ (by omega)
    rw [hk] at hd
    rw [cv, shiftN_zero, Nat.sub_zero, hjn]
    rw [show dpt (fn U) p (fn P) 0 = fn P from rfl, hd]
    rw [Nat.sub_add_cancel hle, fn_lt (by omega)]
    rw [List.getLast?_eq_getElem?, List.getElem?_eq_getElem (by omega)] at hl
    injection hl with hl
    rw [← hl]
    congr 3; omega

/-- **C08** The point `evaluate(u)` lies in the convex hull of the `p + 1` control points
`P_{j-p}, …, P_j` of the knot span `[U_j, U_{j+1}]` containing `u`. -/
theorem C08_convex_hull {c : Curve K d} {p n : ℕ} {U : List K} {P : List (Pt K d)}
    (hc : ValidOn 0 1 c p n U P) {u : K} (h0 : 0 ≤ u) (h1 : u ≤ 1) :
    ∃ (j : ℕ) (x y : K) (v : Pt K d), p ≤ j ∧ j ≤ n ∧ U[j]? = some x ∧ U[j + 1]? = some y ∧
      x ≤ u ∧ u ≤ y ∧ c.evaluate u = .ok (.ok v) ∧
      v ∈ convexHull K {q | ∃ i, j - p ≤ i ∧ i ≤ j ∧ P[i]? = some q} := by
  obtain rfl := hc.eq_canon
  obtain ⟨-, hU, hP⟩ := hc
  have hl := hU.length
  have hcl := hU.clamp
  obtain ⟨j, hs⟩ := hcl.exists_span h0 h1
  have hpj := hs.p_le hcl
  have hjn := hs.le_n
  refine ⟨j, fn U j, fn U (j + 1), _, hpj, hjn, ?_, ?_, hs.lo, hs.le_hi,
    evaluateDerivative_eq hU hP (Nat.zero_le p) h0 h1 hs, ?_⟩
  · rw [fn_lt (by omega), List.getElem?_eq_getElem (by omega)]
  · rw [fn_lt (by omega), List.getElem?_eq_getElem (by omega)]
  · rw [cv, shiftN_zero, Nat.sub_zero, ← sum_Bs_eq_bl]
    rw [show j - p + p = j by omega]
    apply (convex_convexHull K _).sum_mem
    · intro i _; exact Bs_nonneg hcl.mono hs.lo hs.le_hi p _
    · have := sum_span_eq (V := K) (U := fn U) (u := u) (lo := j - p) hpj le_rfl le_rfl
        (fun _ => (1 : K))
      rw [bl_const _ _ (by simpa using win_of_span hcl.mono hpj (hs.lt hcl))] at this
      simp only [smul_eq_mul, mul_one] at this
      rw [sum_Ico_eq_sum_range, show j + 1 - (j - p) = p + 1 by omega] at this
      exact this
    · intro i hi
      rw [mem_range] at hi
      apply subset_convexHull
      refine ⟨j - p + i, by omega, by omega, ?_⟩
      rw [show dpt (fn U) p (fn P) 0 = fn P from rfl, fn_lt (by omega),
        List.getElem?_eq_getElem (by omega)]

/-- **C08** Each coordinate of the evaluated point is bounded by the coordinates of the control
points. -/
theorem C08_bounding_box {c : Curve K d} {p n : ℕ} {U : List K} {P : List (Pt K d)}
    (hc : ValidOn 0 1 c p n U P) {u : K} (h0 : 0 ≤ u) (h1 : u ≤ 1) {r : Fin d} {lo hi : K}
    (hlo : ∀ q ∈ P, lo ≤ q r) (hhi : ∀ q ∈ P, q r ≤ hi) :
    ∃ v, c.evaluate u = .ok (.ok v) ∧ lo ≤ v r ∧ v r ≤ hi := by
  obtain ⟨j, x, y, v, -, -, -, -, -, -, hv, hmem⟩ := C08_convex_hull hc h0 h1
  refine ⟨v, hv, ?_⟩
  have hconv : Convex K {w : Pt K d | lo ≤ w r ∧ w r ≤ hi} := by
    intro a ha b hb s t hs ht hst
    simp only [Set.mem_ofPred_eq, Pi.add_apply, Pi.smul_apply, smul_eq_mul] at *
    constructor
    · calc lo = s * lo + t * lo := by rw [← add_mul, hst, one_mul]
        _ ≤ _ := add_le_add (mul_le_mul_of_nonneg_left ha.1 hs) (mul_le_mul_of_nonneg_left hb.1 ht)
    · calc s * a r + t * b r ≤ s * hi + t * hi :=
            add_le_add (mul_le_mul_of_nonneg_left ha.2 hs) (mul_le_mul_of_nonneg_left hb.2 ht)
        _ = hi := by rw [← add_mul, hst, one_mul]
  apply convexHull_min _ hconv hmem
  rintro q ⟨i, -, -, hq⟩
  have := List.mem_of_getElem? hq
  exact ⟨hlo q this, hhi q this⟩

/-! ### C09 -/

theorem dpt_linear {d' : ℕ} (f : Pt K d →ₗ[K] Pt K d') (U : ℕ → K) (p : ℕ) (P : ℕ → Pt K d) (k : ℕ) :
    dpt U p (fun i => f (P i)) k = fun i => f (dpt U p P k i) := by
  induction k with
  | zero => rfl
  | succ k ih =>
    funext i
    simp only [dpt, ih, scale_eq_smul]
    split
    · rw [show (fun _ => 0 : Pt K d) = 0 from rfl, map_zero]; rfl
    · rw [map_smul, map_sub]

theorem dpt_translate (U : ℕ → K) (p : ℕ) (P : ℕ → Pt K d) (t : Pt K d) (k : ℕ) :
    dpt U p (fun i => P i + t) (k + 1) = dpt U p P (k + 1) := by
  induction k with
  | zero => funext i; simp [dpt]
  | succ k ih =>
    funext i
    rw [dpt, ih]
    simp only [dpt]

theorem dpt_congr {U : ℕ → K} {p : ℕ} {P P' : ℕ → Pt K d} (k : ℕ) : ∀ i,
    (∀ m, m ≤ k → P (i + m) = P' (i + m)) → dpt U p P k i = dpt U p P' k i := by
  induction k with
  | zero => intro i h; exact h 0 le_rfl
  | succ k ih =>
    intro i h
    simp only [dpt]
    rw [ih i (fun m hm => h m (by omega)), ih (i + 1) (fun m hm => by
      have := h (m + 1) (by omega)
      rwa [show i + 1 + m = i + (m + 1) by omega])]

theorem cv_congr {U : ℕ → K} {p : ℕ} {P P' : ℕ → Pt K d} {k j : ℕ} {u : K} (hk : k ≤ p) (hp : p ≤ j)
    (h : ∀ i, j - p ≤ i → i ≤ j → P i = P' i) : cv U p P k j u = cv U p P' k j u := by
  apply bl_congr_pts
  intro m hm
  rw [List.length_replicate] at hm
  apply dpt_congr
  intro m' hm'
  exact h _ (by omega) (by omega)

/-- **C09** Affine invariance: mapping the control points by `x ↦ f x + t` maps the curve by the
same map, and its derivatives by the linear part. -/
theorem C09_affine_invariance {d' : ℕ} {c : Curve K d} {c' : Curve K d'} {p n : ℕ} {U : List K}
    {P : List (Pt K d)} (f : Pt K d →ₗ[K] Pt K d') (t : Pt K d') (hc : ValidOn 0 1 c p n U P)
    (hc' : Built c' p U (P.map (fun x => f x + t))) {u : K} (h0 : 0 ≤ u) (h1 : u ≤ 1) (k : ℕ) :
    ∃ v, c.evaluateDerivative u k = .ok (.ok v) ∧
      c'.evaluateDerivative u k = .ok (.ok (if k = 0 then f v + t else f v)) := by
  obtain rfl := hc.eq_canon
  obtain ⟨-, hU, hP⟩ := hc
  have hcl := hU.clamp
  obtain rfl := hc'.eq_canon (n := n) hU.length hU.le (by simpa using hP)
  obtain ⟨j, hs⟩ := hcl.exists_span h0 h1
  have hpj := hs.p_le hcl
  have hjn := hs.le_n
  by_cases hk : k ≤ p
  · refine ⟨_, evaluateDerivative_eq hU hP hk h0 h1 hs, ?_⟩
    rw [evaluateDerivative_eq hU (by simpa using hP) hk h0 h1 hs]
    have hcg : cv (fn U) p (fn (P.map (fun x => f x + t))) k j u =
        cv (fn U) p (fun i => f (fn P i) + t) k j u := by
      apply cv_congr hk hpj
      intro i h1 h2
      rw [fn_map _ (by omega)]
    rw [hcg]
    congr 2
    by_cases hk0 : k = 0
    · subst hk0
      rw [if_pos rfl]
      simp only [cv, shiftN_zero, Nat.sub_zero, dpt]
      rw [bl_add, bl_map f]
      beta_reduce
      rw [bl_const (List.replicate p u) t (by simpa using win_of_span hcl.mono hpj (hs.lt hcl))]
    · rw [if_neg hk0]
      obtain ⟨k, rfl⟩ := Nat.exists_eq_succ_of_ne_zero hk0
      simp only [cv]
      rw [Nat.succ_eq_add_one, dpt_translate, dpt_linear, bl_map f]
  · refine ⟨fun _ => 0, ?_, ?_⟩
    · exact (C06_evaluation_total (mkCurve_ok hP hU.le (by have := hU.length; omega)) hU.length hP
        hU.le u k).2.2 (by simp [Cmp.le, h0, h1]) (by omega)
    · rw [if_neg (by omega), show (fun _ => 0 : Pt K d) = 0 from rfl, map_zero]
      exact (C06_evaluation_total hc' hU.length (by simpa using hP)
        hU.le u k).2.2 (by simp [Cmp.le, h0, h1]) (by omega)

/-! ### C10 -/

/-- **C10** Local control: replacing control point `i` does not change the curve (nor its
derivatives) at parameters outside `[U_i, U_{i+p+1}]`. -/
theorem C10_local_control {c c' : Curve K d} {p n i : ℕ} {U : List K} {P : List (Pt K d)}
    (hc : ValidOn 0 1 c p n U P) {q : Pt K d} (hc' : Built c' p U (P.set i q)) {x y : K}
    (hx : U[i]? = some x) (hy : U[i + p + 1]? = some y) {u : K} (h0 : 0 ≤ u) (h1 : u ≤ 1)
    (hout : u < x ∨ y < u) (k : ℕ) :
    c'.evaluateDerivative u k = c.evaluateDerivative u k := by
  have hb := hc.1
  obtain rfl := hc.eq_canon
  obtain ⟨-, hU, hP⟩ := hc
  have hcl := hU.clamp
  have hl := hU.length
  obtain rfl := hc'.eq_canon (n := n) hU.length hU.le (by simpa using hP)
  obtain ⟨j, hs⟩ := hcl.exists_span h0 h1
  have hpj := hs.p_le hcl
  have hjn := hs.le_n
  have hi : i + p + 1 < U.length := (List.getElem?_eq_some_iff.mp hy).1
  rw [List.getElem?_eq_getElem (by omega), ← fn_lt (by omega)] at hx
  rw [List.getElem?_eq_getElem (by omega), ← fn_lt (by omega)] at hy
  injection hx with hx; injection hy with hy
  by_cases hk : k ≤ p
  · rw [evaluateDerivative_eq hU hP hk h0 h1 hs,
      evaluateDerivative_eq hU (by simpa using hP) hk h0 h1 hs]
    congr 2
    apply cv_congr hk hpj
    intro m h2 h3
    rw [fn_set (by omega), if_neg]
    rintro rfl
    rcases hout with h | h
    · have : fn U i ≤ fn U j := hcl.mono h3
      rw [hx] at this
      exact absurd (lt_of_lt_of_le h (this.trans hs.lo)) (lt_irrefl _)
    · have : fn U (j + 1) ≤ fn U (i + p + 1) := hcl.mono (by omega)
      rw [hy] at this
      exact absurd (lt_of_le_of_lt (hs.le_hi.trans this) h) (lt_irrefl _)
  · rw [(C06_evaluation_total hc' hU.length (by simpa using hP) hU.le u k).2.2
      (by simp [Cmp.le, h0, h1]) (by omega),
      (C06_evaluation_total hb hU.length hP hU.le u k).2.2
      (by simp [Cmp.le, h0, h1]) (by omega)]

end BSpline
