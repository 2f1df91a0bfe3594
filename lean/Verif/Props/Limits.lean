import Verif.Props.Smoothing
import Verif.Props.Inexact
import Verif.Props.FitUnique

/-!
# The limits of the penalty: C74

The roughness of a penalised fit is at most a constant of the data divided by `lambda`, and for small
`lambda` the fit is close to the one without a penalty.
-/

set_option linter.unusedSectionVars false

namespace BSpline

open Finset fwdDiff

variable {K : Type} [Field K] [LinearOrder K] [IsStrictOrderedRing K] {d : ℕ}

theorem roughness_nonneg (κ : ℕ) (P : List (Pt K d)) : 0 ≤ roughness κ P :=
  sum_nonneg (fun _ _ => sum_nonneg (fun _ _ => sq_nonneg _))

theorem penaltyCost_le {κ : ℕ} {l : K} (hl : 0 ≤ l) (P : List (Pt K d)) :
    0 ≤ penaltyCost (some ⟨l, κ⟩) P ∧ penaltyCost (some ⟨l, κ⟩) P ≤ l * roughness κ P := by
  have := mul_nonneg hl (roughness_nonneg κ P)
  simp only [penaltyCost]
  split
  · exact ⟨le_rfl, this⟩
  · exact ⟨this, le_rfl⟩

theorem fwdDiff_const_zero (a : K) (κ i : ℕ) (hκ : κ ≠ 0) : (Δ_[1]^[κ] (fun _ : ℕ => a)) i = 0 := by
  obtain ⟨k, rfl⟩ := Nat.exists_eq_succ_of_ne_zero hκ
  rw [Function.iterate_succ_apply, fwdDiff_const]
  clear hκ
  induction k with
  | zero => rfl
  | succ k ih => rw [Function.iterate_succ_apply, fwdDiff_const, ih]

theorem roughness_replicate (κ n : ℕ) (hκ : κ ≠ 0) (q : Pt K d) : roughness κ (List.replicate n q) = 0 := by
  refine sum_eq_zero fun i hi => sum_eq_zero fun r _ => ?_
  rw [mem_range, List.length_replicate] at hi
  rw [fwdDiff_congr (g := fun _ => q r) κ i (fun j _ h => by
    simp only [List.getD_eq_getElem?_getD]
    rw [List.getElem?_replicate, if_pos (by omega)]; rfl),
    fwdDiff_const_zero _ _ _ hκ, zero_pow two_ne_zero]

variable [Trunc K] [Sqrt K]

/-- **C74** With loose ends `lambda` times the roughness of the control points is at most the sum of the squared
distances of the data from any point `q`: large `lambda` give smooth control points. -/
theorem C74_loose_smooth {p n m κ : ℕ} {pts : DataPoints K d} {solver : Solver K d} {l : K}
    {c : Curve K d} (hs : solver.Exact) (h1 : 1 ≤ p) (h2 : p ≤ n)
    (hm : List.length pts = m + 1) (hκ : 1 ≤ κ) (q : Pt K d)
    (hg : generate solver (.leastSquaresFit p pts n .looseEnds (some ⟨l, κ⟩)) = .ok (.ok c)) :
    ∃ (U : List K) (P : List (Pt K d)), ValidOn 0 1 c p n U P ∧
      l * roughness κ P ≤ ∑ g ∈ range (m + 1), sqDist q (pts.getD g 0) := by
  obtain ⟨ps, kn, U, P, e, a1, a2, a3, a4, a5, a6⟩ := C58_loose_unique hs h1 h2 hm hg
  refine ⟨U, P, a4, ?_⟩
  have hU := a4.2.1
  have hlen : (List.replicate (n + 1) q).length = n + 1 := by simp
  have hb := mkCurve_ok hlen hU.le (show n + p + 1 ≤ U.length by rw [hU.length]; omega)
  have hz := roughness_replicate κ (n + 1) (by omega) q
  have hc : SqError (canon p U (List.replicate (n + 1) q)) ps.vector pts (range (m + 1))
      (∑ g ∈ range (m + 1), sqDist q (pts.getD g 0)) := by
    refine ⟨fun _ => q, fun g hg => ?_, rfl⟩
    obtain ⟨ps', h3, h4, h5, h6⟩ := equallySpaced_shape (K := K) m
    rw [a1] at h3
    injection h3 with h3
    subst h3
    rw [mem_range] at hg
    have hx := h6 (ps.vector.getD g 0) (by
      rw [List.getD_eq_getElem _ _ (by omega)]; exact List.getElem_mem _)
    rw [evaluate_sum hU hlen hx.1 hx.2]
    congr 2
    rw [sum_congr rfl (g := fun i => nb p n U i (ps.vector.getD g 0) • q) (fun i hi => by
      rw [mem_range] at hi
      rw [fn_lt (by simpa using hi), List.getElem_replicate]), ← sum_smul, sum_nb_unit hU hx.1 hx.2, one_smul]
  by_cases hP : List.replicate (n + 1) q = P
  · subst hP
    rw [hz, mul_zero]
    exact sum_nonneg (fun _ _ => sum_nonneg (fun _ _ => sq_nonneg _))
  · have := a6 _ _ _ hlen hb hc hP
    simp only [penaltyCost, if_neg (show ¬ κ = 0 by omega), hz, mul_zero, add_zero] at this
    have := sqError_nonneg a5
    linarith

/-- **C74** With fixed ends there is a constant of the data, independent of `lambda`, which bounds `lambda` times
the roughness of the inner control points. -/
theorem C74_fixed_smooth {p n m κ : ℕ} {pts : DataPoints K d} {solver : Solver K d}
    (hs : solver.Exact) (h1 : 1 ≤ p) (h2 : p ≤ n) (hm : List.length pts = m + 1) (hκ : 1 ≤ κ) :
    ∃ C : K, ∀ (l : K) (c : Curve K d),
      generate solver (.leastSquaresFit p pts n .fixedEnds (some ⟨l, κ⟩)) = .ok (.ok c) →
      ∃ (U : List K) (P : List (Pt K d)), ValidOn 0 1 c p n U P ∧ l * roughness κ P.tail.dropLast ≤ C := by
  have hU := uniform_clamped (K := K) h1 h2
  obtain ⟨ps, h3, h4, h5, h6⟩ := equallySpaced_shape (K := K) m
  generalize hP' : pts.getD 0 0 :: (List.replicate (n - 1) (0 : Pt K d) ++ [pts.getD m 0]) = P'
  have hlen : P'.length = n + 1 := by rw [← hP']; simp; omega
  have hz : roughness κ P'.tail.dropLast = 0 := by
    rw [← hP', List.tail_cons, List.dropLast_concat]
    exact roughness_replicate κ _ (by omega) _
  have hF : P'[0]? = pts[0]? := by
    rw [← hP', List.getElem?_cons_zero, List.getD_eq_getElem _ _ (by omega), List.getElem?_eq_getElem (by omega)]
  have hL : P'[n]? = pts[m]? := by
    obtain ⟨n, rfl⟩ : ∃ k, n = k + 1 := ⟨n - 1, by omega⟩
    rw [← hP', List.getElem?_cons_succ, List.getElem?_append_right (by simp),
      List.getD_eq_getElem _ _ (by omega), List.getElem?_eq_getElem (l := pts) (by omega)]
    simp
  have hb := mkCurve_ok hlen hU.le (show n + p + 1 ≤ (genU p n (uniK (K := K) p n)).length by rw [hU.length]; omega)
  have he := (sqError_iff (Q := pts) (I := Ico 1 m) hU hlen hb (fun g hg => by
    rw [mem_Ico] at hg; omega) h6).mpr rfl
  generalize (∑ g ∈ Ico 1 m, ∑ ρ, (∑ i ∈ range (n + 1), nb p n (genU p n (uniK p n)) i (fn ps.vector g) * fn P' i ρ -
    fn pts g ρ) ^ 2) = C at he
  refine ⟨C, fun l c hg => ?_⟩
  · obtain ⟨ps', kn, U, P, e, a1, a2, a3, a4, aF, aL, a5, a6⟩ := C58_fixed_unique hs h1 h2 hm hg
    rw [h3] at a1
    injection a1 with a1; subst a1
    rw [uniform_ok h1 h2] at a2
    injection a2 with a2; injection a2 with a2; subst a2
    rw [canonKnots_vector] at a3
    injection a3 with a3; subst a3
    refine ⟨_, P, a4, ?_⟩
    by_cases hP : P' = P
    · rw [← hP, hz, mul_zero]
      exact sqError_nonneg he
    · have := a6 _ _ _ hlen hb hF hL he hP
      simp only [penaltyCost, if_neg (show ¬ κ = 0 by omega), hz, mul_zero, add_zero] at this
      have := sqError_nonneg a5
      linarith

/-- **C74** For small `lambda` the fit with loose ends is close to the fit without a penalty: its error exceeds
the one without a penalty by at most `lambda` times the roughness of the control points without a penalty, and so
do the squared distances of the two curves at the parameters. -/
theorem C74_loose_vanishing {p n m κ : ℕ} {pts : DataPoints K d} {solver : Solver K d} {l : K}
    {c c₀ : Curve K d} (hs : solver.Exact) (h1 : 1 ≤ p) (h2 : p ≤ n)
    (hm : List.length pts = m + 1)
    (hg : generate solver (.leastSquaresFit p pts n .looseEnds (some ⟨l, κ⟩)) = .ok (.ok c))
    (hg₀ : generate solver (.leastSquaresFit p pts n .looseEnds none) = .ok (.ok c₀)) :
    ∃ (ps : Parameters K) (U : List K) (P P₀ : List (Pt K d)) (e e₀ : K),
      equallySpaced m = .ok ps ∧ ValidOn 0 1 c p n U P ∧ ValidOn 0 1 c₀ p n U P₀ ∧
      SqError c ps.vector pts (range (m + 1)) e ∧ SqError c₀ ps.vector pts (range (m + 1)) e₀ ∧
      e ≤ e₀ + l * roughness κ P₀ ∧
      ∀ (V : List (Pt K d)) (δ : K), V.length = m + 1 →
        (∀ g, g ≤ m → c₀.evaluate (ps.vector.getD g 0) = .ok (.ok (V.getD g 0))) →
        SqError c ps.vector V (range (m + 1)) δ → δ ≤ l * roughness κ P₀ := by
  have h0 : 0 ≤ l := by
    cases he : fitErrorOf n m m p (some ⟨l, κ⟩) true with
    | none => exact fitErrorOf_pen he
    | some e =>
      rw [(C44_generate_loose h1 h2 hm solver _).1 e he] at hg
      injection hg with hg; cases hg
  obtain ⟨ps, h3, h4, h5, h6⟩ := equallySpaced_shape (K := K) m
  have hU := uniform_clamped (K := K) h1 h2
  rw [generate_fit h1 h2 hm _ _ _ h3] at hg hg₀
  obtain ⟨r, h7, h8⟩ := bind_ok_inv hg
  obtain ⟨r₀, g7, g8⟩ := bind_ok_inv hg₀
  cases r with
  | error e => cases h8
  | ok P =>
    cases r₀ with
    | error e => cases g8
    | ok P₀ =>
      obtain ⟨c', e, A, b, k1, k2, k3, k4, k5, k6⟩ := C98_loose (genKnots_new h2 _) hU h1 hm (by rw [h5, h4]) h6 h7
      obtain ⟨c'', e₀, j1, j2, j3, j4⟩ := C42_loose_optimal hs (genKnots_new h2 _) hU h1 hm (by rw [h5, h4]) h6 g7
      dsimp only at h8 g8
      have k1' := k1
      have j1' := j1
      rw [Built, h8] at k1'
      injection k1' with k1'; injection k1' with k1'
      subst k1'
      rw [Built, g8] at j1'
      injection j1' with j1'; injection j1' with j1'
      subst j1'
      have hP := penaltyCost_le (κ := κ) h0 P
      have hP₀ := penaltyCost_le (κ := κ) h0 P₀
      have hlow := j4 P c e k2 k1 k3
      simp only [penaltyCost, add_zero] at hlow
      obtain ⟨d1, e₁, d3, d4, d5, d6⟩ := C42_loose_optimal hs (genKnots_new h2 _) hU h1 hm (by rw [h5, h4]) h6 h7
      have h10 := k6 0 (k4 ▸ exact_iff_within.mp hs A b k5) P₀ c₀ e₀ j2 j1 j3
      refine ⟨ps, _, P, P₀, e, e₀, h3, ⟨k1, hU, k2⟩, ⟨j1, hU, j2⟩, k3, j3, ?_, ?_⟩
      · obtain rfl : d1 = c := by
          rw [Built, k1] at d3; injection d3 with d3; injection d3 with d3; exact d3.symm
        have := d6 P₀ c₀ e₀ j2 j1 j3
        have hee : e₁ = e := by
          have hI := d5
          obtain ⟨v, hv, rfl⟩ := d5
          obtain ⟨w, hw, rfl⟩ := k3
          refine sum_congr rfl fun g hg => ?_
          have := hv g hg
          rw [hw g hg] at this
          injection this with this; injection this with this
          rw [this]
        rw [hee] at this
        linarith [hP.1, hP₀.2]
      · intro V δ hVl hV hδ
        have := h10 V δ hVl hV hδ
        linarith [hP.1, hP₀.2]

/-! ### Instances -/

/-- the same data with a penalty and without -/
example [Sqrt ℚ] : ∃ (solver : Solver ℚ 2) (c c₀ : Curve ℚ 2), solver.Exact ∧
    generate solver (.leastSquaresFit 2 exPts 3 .looseEnds (some ⟨1/10, 2⟩)) = .ok (.ok c) ∧
    generate solver (.leastSquaresFit 2 exPts 3 .looseEnds none) = .ok (.ok c₀) := by
  obtain ⟨s, hs⟩ := exists_exact_solver ℚ 2
  obtain ⟨c, -, -, -, -, -, g1⟩ := (C44_generate_loose (p := 2) (n := 3) (m := 4) (pts := exPts)
    (by omega) (by omega) rfl s (some ⟨1/10, 2⟩)).2 (by decide +kernel)
  obtain ⟨c₀, -, -, -, -, -, g2⟩ := (C44_generate_loose (p := 2) (n := 3) (m := 4) (pts := exPts)
    (by omega) (by omega) rfl s none).2 (by decide +kernel)
  exact ⟨s, c, c₀, hs, g1, g2⟩

/-- fixed ends with every `lambda ≥ 0` -/
example [Sqrt ℚ] (l : ℚ) (hl : 0 ≤ l) : ∃ (solver : Solver ℚ 2) (c : Curve ℚ 2), solver.Exact ∧
    generate solver (.leastSquaresFit 2 exPts 3 .fixedEnds (some ⟨l, 1⟩)) = .ok (.ok c) := by
  obtain ⟨s, hs⟩ := exists_exact_solver ℚ 2
  obtain ⟨c, -, -, -, -, -, g⟩ := (C44_generate_fixed_partial (p := 2) (n := 3) (m := 4) (pts := exPts)
    (by omega) (by omega) rfl s (some ⟨l, 1⟩)).2
    (fitErrorOf_uniform (q := ⟨l, 1⟩) (by omega) (by omega) hl (Nat.lt_of_sub_eq_succ rfl)) (by omega)
    (by intro q' hq'; injection hq' with hq'; subst hq'; exact le_rfl)
  exact ⟨s, c, hs, g⟩

end BSpline
