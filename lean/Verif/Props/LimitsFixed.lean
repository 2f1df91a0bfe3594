import Verif.Props.Limits

/-!
# Fits with fixed ends with a penalty and without one: C74

The comparison of a penalised fit with the fit without a penalty, which `C74_loose_worse` and
`C74_loose_vanishing` make for loose ends, for fixed ends.
-/

set_option linter.unusedSectionVars false

namespace BSpline

open Finset

variable {K : Type} [Field K] [LinearOrder K] [IsStrictOrderedRing K] [Trunc K] [Sqrt K] {d : ℕ}

/-- **C74** With fixed ends a penalty never makes the error at the inner data smaller than without one, and leaves
it equal only if the curve is the same. -/
theorem C74_fixed_worse {p n m : ℕ} {pts : DataPoints K d} {solver : Solver K d}
    {pen : Option (Penalization K)} {c c' : Curve K d} (hs : solver.Exact) (h1 : 1 ≤ p) (h2 : p ≤ n)
    (hm : List.length pts = m + 1)
    (hg : generate solver (.leastSquaresFit p pts n .fixedEnds none) = .ok (.ok c))
    (hg' : generate solver (.leastSquaresFit p pts n .fixedEnds pen) = .ok (.ok c')) :
    ∃ (ps : Parameters K) (e e' : K), equallySpaced m = .ok ps ∧
      SqError c ps.vector pts (Ico 1 m) e ∧ SqError c' ps.vector pts (Ico 1 m) e' ∧
      e ≤ e' ∧ (e = e' → c = c') := by
  obtain ⟨ps, kn, U, P1, e1, a1, a2, a3, a4, aF, aL, a5, a6⟩ := C58_fixed_unique hs h1 h2 hm hg
  obtain ⟨ps', kn', U', P2, e2, b1, b2, b3, b4, bF, bL, b5, b6⟩ := C58_fixed_unique hs h1 h2 hm hg'
  rw [a2] at b2
  injection b2 with b2; injection b2 with b2; subst b2
  rw [a3] at b3
  injection b3 with b3; subst b3
  rw [a1] at b1
  injection b1 with b1; subst b1
  by_cases hP : P2 = P1
  · subst hP
    have : c' = c := by rw [b4.eq_canon, a4.eq_canon]
    subst this
    exact ⟨ps, e1, e1, a1, a5, a5, le_rfl, fun _ => rfl⟩
  · have d1 := a6 P2 c' e2 b4.2.2 b4.1 bF bL b5 hP
    simp only [penaltyCost, add_zero] at d1
    exact ⟨ps, e1, e2, a1, a5, b5, d1.le, fun h => absurd h d1.ne⟩

/-- a quadratic which is smallest at `0` grows at least by its leading term up to `1` -/
theorem growth_of_min {e₀ e δ : K} (h : ∀ s, 0 < s → s < 1 → e₀ ≤ (1 - s) * e₀ + s * e - s * (1 - s) * δ) :
    δ ≤ e - e₀ := by
  by_contra hcon
  push Not at hcon
  have key : ∀ s, 0 < s → s < 1 → (1 - s) * δ ≤ e - e₀ := by
    intro s h0 h1
    have := h s h0 h1
    by_contra hc
    push Not at hc
    nlinarith [mul_lt_mul_of_pos_left hc h0]
  have h2 := key (1 / 2) (by norm_num) (by norm_num)
  have hδ : 0 < δ := by linarith
  have h3 := key ((δ - (e - e₀)) / (2 * δ)) (div_pos (by linarith) (by linarith))
    (by rw [div_lt_one (by linarith)]; linarith)
  have h4 : (1 - (δ - (e - e₀)) / (2 * δ)) * δ = (δ + (e - e₀)) / 2 := by field_simp; ring
  linarith

/-- **C74** For small `lambda` the fit with fixed ends is close to the fit without a penalty: its error exceeds the
one without a penalty by at most `lambda` times the roughness of the inner control points without a penalty, and so
do the squared distances of the two curves at all parameters. -/
theorem C74_fixed_vanishing {p n m κ : ℕ} {pts : DataPoints K d} {solver : Solver K d} {l : K}
    {c c₀ : Curve K d} (hs : solver.Exact) (h1 : 1 ≤ p) (h2 : p ≤ n)
    (hm : List.length pts = m + 1)
    (hg : generate solver (.leastSquaresFit p pts n .fixedEnds (some ⟨l, κ⟩)) = .ok (.ok c))
    (hg₀ : generate solver (.leastSquaresFit p pts n .fixedEnds none) = .ok (.ok c₀)) :
    ∃ (ps : Parameters K) (U : List K) (P P₀ : List (Pt K d)) (e e₀ : K),
      equallySpaced m = .ok ps ∧ ValidOn 0 1 c p n U P ∧ ValidOn 0 1 c₀ p n U P₀ ∧
      SqError c ps.vector pts (Ico 1 m) e ∧ SqError c₀ ps.vector pts (Ico 1 m) e₀ ∧
      e ≤ e₀ + l * roughness κ P₀.tail.dropLast ∧
      ∀ (V : List (Pt K d)) (δ : K), V.length = m + 1 →
        (∀ g, g ≤ m → c₀.evaluate (ps.vector.getD g 0) = .ok (.ok (V.getD g 0))) →
        SqError c ps.vector V (range (m + 1)) δ → δ ≤ l * roughness κ P₀.tail.dropLast := by
  have h0 : 0 ≤ l := by
    cases he : fitErrorOf n m m p (some ⟨l, κ⟩) true with
    | none => exact fitErrorOf_pen he
    | some e =>
      rw [(C44_generate_fixed_partial h1 h2 hm solver _).1 e he] at hg
      injection hg with hg; cases hg
  have hmn : n ≤ m := by
    cases he : fitErrorOf n m m p (some ⟨l, κ⟩) true with
    | none => exact (fitErrorOf_none he).1
    | some e =>
      rw [(C44_generate_fixed_partial h1 h2 hm solver _).1 e he] at hg
      injection hg with hg; cases hg
  obtain ⟨ps, kn, U, P, e, a1, a2, a3, a4, aF, aL, a5, a6⟩ := C58_fixed_unique hs h1 h2 hm hg
  obtain ⟨ps', kn', U', P₀, e₀, b1, b2, b3, b4, bF, bL, b5, b6⟩ := C58_fixed_unique hs h1 h2 hm hg₀
  rw [a2] at b2
  injection b2 with b2; injection b2 with b2; subst b2
  rw [a3] at b3
  injection b3 with b3; subst b3
  rw [a1] at b1
  injection b1 with b1; subst b1
  obtain ⟨ps', h3, h4, h5, h6⟩ := equallySpaced_shape (K := K) m
  rw [h3] at a1
  injection a1 with a1; subst a1
  have hU := a4.2.1
  have hP := a4.2.2
  have hP₀ := b4.2.2
  have hle := penaltyCost_le (κ := κ) h0 P.tail.dropLast
  have hle₀ := penaltyCost_le (κ := κ) h0 P₀.tail.dropLast
  have herr : e ≤ e₀ + l * roughness κ P₀.tail.dropLast := by
    by_cases hPP : P₀ = P
    · subst hPP
      have : c = c₀ := by rw [b4.eq_canon, a4.eq_canon]
      subst this
      have hI : ∀ g ∈ Ico 1 m, g < ps'.vector.length ∧ g < List.length pts := by
        intro g hg; rw [mem_Ico] at hg; omega
      rw [(sqError_iff hU hP a4.1 hI h6).mp a5, (sqError_iff hU hP a4.1 hI h6).mp b5]
      linarith [hle.1, hle.2]
    · have := a6 P₀ c₀ e₀ hP₀ b4.1 bF bL b5 hPP
      linarith [hle.1, hle₀.2]
  refine ⟨ps', U, P, P₀, e, e₀, h3, a4, b4, a5, b5, herr, fun V δ hVl hV hδ => ?_⟩
  have hI : ∀ g ∈ Ico 1 m, g < ps'.vector.length ∧ g < List.length pts := by
    intro g hg; rw [mem_Ico] at hg; omega
  have hIV : ∀ g ∈ range (m + 1), g < ps'.vector.length ∧ g < V.length := by
    intro g hg; rw [mem_range] at hg; omega
  suffices h : δ ≤ e - e₀ by linarith
  obtain ⟨q1, -, -, -, -, -, f0, f1, -⟩ := C43_generate hs h1 h2 hm hg
  obtain ⟨q2, -, -, -, -, -, g0, g1, -⟩ := C43_generate hs h1 h2 hm hg₀
  obtain ⟨ps'', j3, j3', -, j5, -⟩ := C39_equally_spaced (K := K) (m := m) (by omega)
  rw [h3] at j3
  injection j3 with j3; subst j3
  have hm0 : (m : K) ≠ 0 := by exact_mod_cast (by omega : m ≠ 0)
  have e0 : ps'.vector.getD 0 0 = 0 := by
    rw [List.getD_eq_getElem?_getD, j5 0 (by omega)]; simp
  have em : ps'.vector.getD m 0 = 1 := by
    rw [List.getD_eq_getElem?_getD, j5 m le_rfl]; simp [hm0]
  -- the values of the curve without a penalty
  have hval : ∀ g, g ≤ m → ∀ ρ, fn V g ρ = ∑ i ∈ range (n + 1), nb p n U i (fn ps'.vector g) * fn P₀ i ρ := by
    intro g hg ρ
    have hgl : g < ps'.vector.length := by omega
    have h7 := hV g hg
    have h8 := h6 (fn ps'.vector g) (by rw [fn_lt hgl]; exact List.getElem_mem hgl)
    rw [b4.eq_canon, getD_eq_fn hgl, evaluate_sum hU hP₀ h8.1 h8.2, getD_eq_fn (show g < V.length by omega)] at h7
    injection h7 with h7; injection h7 with h7
    rw [← h7, Finset.sum_apply]; rfl
  -- nothing differs at the ends
  have hends : ∀ g, g = 0 ∨ g = m → ∀ ρ,
      ∑ i ∈ range (n + 1), nb p n U i (fn ps'.vector g) * fn P i ρ = fn V g ρ := by
    intro g hg ρ
    have hgm : g ≤ m := by omega
    have hgl : g < ps'.vector.length := by omega
    have h8 := h6 (fn ps'.vector g) (by rw [fn_lt hgl]; exact List.getElem_mem hgl)
    have h9 : c.evaluate (ps'.vector.getD g 0) = .ok (.ok (V.getD g 0)) := by
      rw [← hV g hgm]
      rcases hg with rfl | rfl
      · rw [e0, f0, g0]
      · rw [em, f1, g1]
    rw [a4.eq_canon, getD_eq_fn hgl, evaluate_sum hU hP h8.1 h8.2, getD_eq_fn (show g < V.length by omega)] at h9
    injection h9 with h9; injection h9 with h9
    rw [← h9, Finset.sum_apply]; rfl
  rw [sqError_iff hU hP a4.1 hIV h6] at hδ
  have hδ' : δ = ∑ g ∈ Ico 1 m, ∑ ρ, (∑ i ∈ range (n + 1), nb p n U i (fn ps'.vector g) * fn P i ρ -
      ∑ i ∈ range (n + 1), nb p n U i (fn ps'.vector g) * fn P₀ i ρ) ^ 2 := by
    rw [hδ]
    symm
    have : ∀ g ∈ Ico 1 m, (∑ ρ, (∑ i ∈ range (n + 1), nb p n U i (fn ps'.vector g) * fn P i ρ -
        ∑ i ∈ range (n + 1), nb p n U i (fn ps'.vector g) * fn P₀ i ρ) ^ 2) =
        ∑ ρ, (∑ i ∈ range (n + 1), nb p n U i (fn ps'.vector g) * fn P i ρ - fn V g ρ) ^ 2 := by
      intro g hg
      rw [mem_Ico] at hg
      exact sum_congr rfl fun ρ _ => by rw [hval g (by omega) ρ]
    rw [sum_congr rfl this]
    refine sum_subset (fun g hg => by rw [mem_Ico] at hg; rw [mem_range]; omega) fun g hg hn => ?_
    rw [mem_range] at hg
    rw [mem_Ico] at hn
    refine sum_eq_zero fun ρ _ => ?_
    rw [hends g (by omega) ρ, sub_self]
    ring
  have he := (sqError_iff hU hP a4.1 hI h6).mp a5
  have he₀ := (sqError_iff hU hP₀ b4.1 hI h6).mp b5
  refine growth_of_min fun s hs0 hs1 => ?_
  -- the curve between the two
  generalize hQ : (List.range (n + 1)).map (fun i => (1 - s) • fn P₀ i + s • fn P i) = Q
  have hQl : Q.length = n + 1 := by rw [← hQ]; simp
  have hQi : ∀ i, i < n + 1 → fn Q i = (1 - s) • fn P₀ i + s • fn P i := by
    intro i hi; rw [← hQ, fn_map_range _ hi]
  have hb := mkCurve_ok hQl hU.le (show n + p + 1 ≤ U.length by rw [hU.length]; omega)
  have hQe := (sqError_iff (Q := pts) (I := Ico 1 m) hU hQl hb hI h6).mpr rfl
  have hF : Q[0]? = pts[0]? := by
    rw [getElem?_eq_iff_fn (by omega) (by omega)] at aF bF ⊢
    rw [hQi 0 (by omega), aF, bF, ← add_smul]; simp
  have hL : Q[n]? = pts[m]? := by
    rw [getElem?_eq_iff_fn (by omega) (by omega)] at aL bL ⊢
    rw [hQi n (by omega), aL, bL, ← add_smul]; simp
  have hmin : e₀ ≤ ∑ g ∈ Ico 1 m, ∑ ρ, (∑ i ∈ range (n + 1), nb p n U i (fn ps'.vector g) * fn Q i ρ -
      fn pts g ρ) ^ 2 := by
    by_cases hQP : Q = P₀
    · rw [he₀, ← hQP]
    · have := b6 Q _ _ hQl hb hF hL hQe hQP
      simp only [penaltyCost, add_zero] at this
      exact this.le
  refine hmin.trans_eq ?_
  rw [he, he₀, hδ']
  rw [mul_sum (Ico 1 m), mul_sum (Ico 1 m), mul_sum (Ico 1 m), ← sum_add_distrib, ← sum_sub_distrib]
  refine sum_congr rfl fun g _ => ?_
  rw [mul_sum, mul_sum, mul_sum, ← sum_add_distrib, ← sum_sub_distrib]
  refine sum_congr rfl fun ρ _ => ?_
  have hlin : ∑ i ∈ range (n + 1), nb p n U i (fn ps'.vector g) * fn Q i ρ =
      (1 - s) * (∑ i ∈ range (n + 1), nb p n U i (fn ps'.vector g) * fn P₀ i ρ) +
      s * ∑ i ∈ range (n + 1), nb p n U i (fn ps'.vector g) * fn P i ρ := by
    rw [mul_sum, mul_sum, ← sum_add_distrib]
    refine sum_congr rfl fun i hi => ?_
    rw [mem_range] at hi
    rw [hQi i hi]
    simp only [Pi.add_apply, Pi.smul_apply, smul_eq_mul]
    ring
  rw [hlin]
  ring

/-! ### Instances -/

/-- the same data with fixed ends, with a penalty and without -/
example [Sqrt ℚ] : ∃ (solver : Solver ℚ 2) (c c₀ : Curve ℚ 2), solver.Exact ∧
    generate solver (.leastSquaresFit 2 exPts 3 .fixedEnds (some ⟨1/10, 1⟩)) = .ok (.ok c) ∧
    generate solver (.leastSquaresFit 2 exPts 3 .fixedEnds none) = .ok (.ok c₀) := by
  obtain ⟨s, hs⟩ := exists_exact_solver ℚ 2
  obtain ⟨c, -, -, -, -, -, g1⟩ := (C44_generate_fixed_partial (p := 2) (n := 3) (m := 4) (pts := exPts)
    (by omega) (by omega) rfl s (some ⟨1/10, 1⟩)).2 (by decide +kernel) (by omega)
    (by intro q' hq'; injection hq' with hq'; subst hq'; exact le_rfl)
  obtain ⟨c₀, -, -, -, -, -, g2⟩ := (C44_generate_fixed_partial (p := 2) (n := 3) (m := 4) (pts := exPts)
    (by omega) (by omega) rfl s none).2 (by decide +kernel) (by omega) (by intro q' hq'; cases hq')
  exact ⟨s, c, c₀, hs, g1, g2⟩

end BSpline
