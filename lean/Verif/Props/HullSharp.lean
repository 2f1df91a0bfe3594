import Verif.Props.InsertSharp

/-!
# Exactly when insertion cuts corners: C20

Above a repeated interior knot a new control point lies outside the segment of its two neighbours.
-/

set_option linter.unusedSectionVars false

namespace BSpline

variable {K : Type} [Field K] [LinearOrder K] [IsStrictOrderedRing K] {d : ℕ}

/-- where the search stops if an interior knot below `u` is repeated -/
theorem repeated_stop {p n : ℕ} {U : List K} {u : K} (hU : ClampedKnots 0 1 p n U) (h1 : u < 1)
    (hmult : ∀ x, 0 < x → x < u → U.count x ≤ p) (hr : ¬ SimpleBelow U u) :
    2 ≤ p ∧ p < lleq (fn U) u (n - p) p ∧ lleq (fn U) u (n - p) p ≤ n ∧
      fn U (lleq (fn U) u (n - p) p + 1) = fn U (lleq (fn U) u (n - p) p) ∧
      fn U (lleq (fn U) u (n - p) p) < u ∧
      fn U (lleq (fn U) u (n - p) p - 1) < fn U (lleq (fn U) u (n - p) p) := by
  have hlen := hU.length
  have hle := hU.le
  have hcl := hU.clamp
  simp only [SimpleBelow, not_forall, not_le] at hr
  obtain ⟨x, hx0, hxu, hcon⟩ := hr
  have hp2 : 2 ≤ p := le_trans hcon (hmult x hx0 hxu)
  have i1 : ∀ {i}, i < U.length → (fn U i < x ↔ i < nlt U x) := fun hi => fn_lt_iff hU.sorted x hi
  have i2 : ∀ {i}, i < U.length → (fn U i ≤ x ↔ i < nlt U x + U.count x) :=
    fun hi => fn_le_iff hU.sorted x hi
  have a1 := (i1 (i := p) (by omega)).mp (by rw [hcl.left p le_rfl]; exact hx0)
  have a2 := (not_congr (i2 (i := n + 1) (by omega))).mp
    (by rw [hcl.right (n + 1) le_rfl]; exact not_le.mpr (hxu.trans h1))
  have eqx : ∀ i, nlt U x ≤ i → i < nlt U x + U.count x → fn U i = x := fun i h1 h2 =>
    le_antisymm ((i2 (by omega)).mpr h2) (not_lt.mp ((not_congr (i1 (by omega))).mpr (by omega)))
  have hrep : ∃ m, p < m ∧ m ≤ n ∧ fn U (m + 1) = fn U m ∧ fn U m < u := ⟨nlt U x, by omega, by omega,
    by rw [eqx _ (by omega) (by omega), eqx _ le_rfl (by omega)],
    by rw [eqx _ le_rfl (by omega)]; exact hxu⟩
  have hst := lleq_stops (u := u) hcl.mono (n - p) p (n := n) (by omega) hrep
  have hst' := lleq_stops_first (u := u) hcl.mono (n - p) p (n := n) (by omega)
    (by rw [hcl.left p le_rfl]; exact hcl.a_lt (by omega)) hrep
  exact ⟨hp2, hst'.1, hst.1, hst.2.1, hst.2.2, hst'.2⟩

/-- **C20** If an interior knot below `u` is repeated, then for control points that all vanish except
for one, `w`, insertion of `u` creates the control point `a • w` with a fixed `a > 1`: it lies outside
the hull of the old control points. -/
theorem C20_outside_hull {p n : ℕ} {U : List K} {u : K} (hU : ClampedKnots 0 1 p n U) (h0 : 0 < u) (h1 : u < 1)
    (hm : U.count u ≤ p) (hmult : ∀ x, 0 < x → x < u → U.count x ≤ p) (hr : ¬ SimpleBelow U u) :
    ∃ (s : ℕ) (a : K), s ≤ n ∧ 1 < a ∧ ∀ (w : Pt K d) (c : Curve K d), Built c p U (onePoint n s w) →
      ∃ c' P', c.insert u = .ok (c', .ok ()) ∧ c'.points.matrix = .ok P' ∧ P'.length = n + 2 ∧
        P'.getD s 0 = a • w := by
  have hlen := hU.length
  have hle := hU.le
  have hcl := hU.clamp
  obtain ⟨hp2, hpl, hln, hl1, hlu, hl2⟩ := repeated_stop hU h1 hmult hr
  generalize hl : lleq (fn U) u (n - p) p = l at hpl hln hl1 hlu hl2
  have hlt : fn U (l - p + 1) < fn U l := (hcl.mono (show l - p + 1 ≤ l - 1 by omega)).trans_lt hl2
  refine ⟨l - p + 1, (u - fn U (l - p + 1)) / (fn U l - fn U (l - p + 1)), by omega, ?_, ?_⟩
  · rw [one_lt_div (sub_pos.mpr hlt)]
    linarith
  intro w c hc
  have hP : (onePoint n (l - p + 1) w).length = n + 1 := by simp [onePoint]
  rw [hc.eq_canon hlen hle hP]
  refine ⟨canon p (insU U u l)
    ((List.range (n + 2)).map (insP (fn U) p (fn (onePoint n (l - p + 1) w)) u l)), _, ?_,
    canonPts_matrix _ _, by simp, ?_⟩
  · rw [Curve.insert_eq, insert_ok hlen hP hle, multF_eq_count hU h0 h1,
      if_neg (by simp [Cmp.le, h0, h1]), if_neg (by omega), hl]
  · rw [getD_eq_fn (by simp; omega), fn_map_range _ (by omega), insP_mid (by omega) (by omega),
      fn_onePoint (by omega), fn_onePoint (by omega), if_pos rfl, if_neg (by omega), smul_zero,
      show l - p + 1 + p = l + 1 by omega, hl1]
    simp

-- a case in which the hypotheses hold: `exU` at `9/10`, see the end of `InsertSharp.lean`
example : ∃ (s : ℕ) (a : ℚ), s ≤ 5 ∧ 1 < a ∧ ∀ (w : Pt ℚ 1) (c : Curve ℚ 1), Built c 2 exU (onePoint 5 s w) →
    ∃ c' P', c.insert (9 / 10) = .ok (c', .ok ()) ∧ c'.points.matrix = .ok P' ∧ P'.length = 7 ∧
      P'.getD s 0 = a • w := by
  refine C20_outside_hull (by decide +kernel) (by norm_num) (by norm_num) (by decide +kernel) ?_
    (fun h => absurd (h (1 / 2) (by norm_num) (by norm_num)) (by decide +kernel))
  intro x h0 h1
  have : ∀ x ∈ exU, 0 < x → x < 9 / 10 → exU.count x ≤ 2 := by decide +kernel
  by_cases hx : x ∈ exU
  · exact this x hx h0 h1
  · rw [List.count_eq_zero_of_not_mem hx]; omega

/-- **C20** Insertion of `u` makes all new control points convex combinations of neighbouring old
ones, for all curves over the knots `U`, if and only if no interior knot below `u` is repeated. -/
theorem C20_iff {p n : ℕ} {U : List K} {u : K} (hU : ClampedKnots 0 1 p n U) (h0 : 0 < u) (h1 : u < 1)
    (hm : U.count u ≤ p) (hmult : ∀ x, 0 < x → x < u → U.count x ≤ p) (hd : 0 < d) :
    (∀ (P : List (Pt K d)) (c c' : Curve K d), ValidOn 0 1 c p n U P → c.insert u = .ok (c', .ok ()) →
      ∃ (P' : List (Pt K d)) (α : ℕ → K), c'.points.matrix = .ok P' ∧ P'.length = n + 2 ∧
        (∀ i, 0 ≤ α i ∧ α i ≤ 1) ∧
        ∀ i, i ≤ n + 1 → P'.getD i 0 = (1 - α i) • P.getD (i - 1) 0 + α i • P.getD i 0) ↔
      SimpleBelow U u := by
  constructor
  · intro h
    by_contra hr
    obtain ⟨s, a, hs, ha, hc⟩ := C20_outside_hull (d := d) hU h0 h1 hm hmult hr
    have hlen : (onePoint n s (fun _ => 1 : Pt K d)).length = n + 1 := by simp [onePoint]
    have hv := validOn_canon (d := d) hU hlen
    obtain ⟨c', P', hi, e1, e2, e3⟩ := hc (fun _ => 1) _ hv.1
    obtain ⟨P'', α, f1, -, f3, f4⟩ := h _ _ _ hv hi
    rw [e1] at f1
    injection f1 with f1
    subst f1
    have f5 := f4 s (by omega)
    rw [e3, getD_eq_fn (by omega), getD_eq_fn (by omega), fn_onePoint (by omega), fn_onePoint hs,
      if_pos rfl] at f5
    have f6 := congrFun f5 ⟨0, hd⟩
    obtain ⟨f7, f8⟩ := f3 s
    have hpt : (if s - 1 = s then (fun _ => 1 : Pt K d) else 0) ⟨0, hd⟩ ≤ 1 := by
      split
      · exact le_rfl
      · exact zero_le_one
    simp only [Pi.add_apply, Pi.smul_apply, smul_eq_mul, mul_one] at f6
    nlinarith
  · intro hr P c c' hc hi
    obtain ⟨P', α, a1, a2, a3, -, -, a6⟩ := C20_convex_combination_partial hc hr hi
    exact ⟨P', α, a1, a2, a3, a6⟩

end BSpline
