import Verif.Props.Extract
import Verif.Props.Unique

/-!
# The order of insertions: C19

Two sequences of insertions of the same knots, each insertion without a repeated knot below it, lead to the same curve.
-/

set_option linter.unusedSectionVars false

namespace BSpline

variable {K : Type} [Field K] [LinearOrder K] [IsStrictOrderedRing K] {d : ℕ}

theorem Refinable.count_le {p : ℕ} {xs : List K} : ∀ {V : List K}, Refinable p V xs → ∀ x ∈ xs,
    xs.count x + V.count x ≤ p + 1 := by
  induction xs with
  | nil => intro V _ x hx; cases hx
  | cons y ys ih =>
    rintro V ⟨-, -, -, hm, hr⟩ x hx
    by_cases hxy : x ∈ ys
    · have := ih hr x hxy
      by_cases h : y = x
      · subst h; rw [List.count_cons_self] at this ⊢; omega
      · rw [List.count_cons_of_ne h] at this ⊢; omega
    · obtain rfl : x = y := by
        rcases List.mem_cons.mp hx with h | h
        · exact h
        · exact absurd h hxy
      rw [List.count_cons_self, List.count_eq_zero.mpr hxy]; omega

/-- **C19** The order of any number of insertions does not matter, as long as in both orders each knot is accepted
and has no repeated interior knot below it: knots, control points and cached derivatives agree. -/
theorem C19_order {c : Curve K d} {p n : ℕ} {U : List K} {P : List (Pt K d)} (hc : ValidOn 0 1 c p n U P)
    (hmult : ∀ x, 0 < x → x < 1 → U.count x ≤ p + 1) {xs ys : List K} (hxy : xs.Perm ys)
    (hx : Refinable p U xs) (hy : Refinable p U ys) :
    ∃ c', insertAll c xs = .ok (c', .ok ()) ∧ insertAll c ys = .ok (c', .ok ()) := by
  obtain ⟨c1, U1, P1, a1, a2, a3, a4⟩ := insertAll_refinable xs hc hx
  obtain ⟨c2, U2, P2, b1, b2, b3, b4⟩ := insertAll_refinable ys hc hy
  have hUU : U1 = U2 := (a3.trans ((hxy.append_right U).trans b3.symm)).eq_of_pairwise
    (fun x y _ _ => le_antisymm) a2.2.1.sorted b2.2.1.sorted
  subst hUU
  rw [← hxy.length_eq] at b2
  have := (C55_control_points_unique a2 b2 (fun x h0 h1 => by
    rw [a3.count_eq, List.count_append]
    by_cases h : x ∈ xs
    · exact hx.count_le x h
    · rw [List.count_eq_zero.mpr h]; have := hmult x h0 h1; omega)
    (fun u _ _ => (a4 u 0).trans (b4 u 0).symm)).2
  subst this
  exact ⟨c1, a1, b1⟩

/-- **C19** In particular two insertions `u < v` commute if `u` is not a knot yet, whatever knots there are above `v`,
and however often (at most `p` times) `v` is a knot. -/
theorem C19_two {c : Curve K d} {p n : ℕ} {U : List K} {P : List (Pt K d)} (hc : ValidOn 0 1 c p n U P)
    (hmult : ∀ x, 0 < x → x < 1 → U.count x ≤ p + 1) {u v : K} (h0 : 0 < u) (huv : u < v) (h1 : v < 1)
    (hs : SimpleBelow U v) (hu : u ∉ U) (hv : U.count v ≤ p) :
    ∃ c1 c2 c12, c.insert u = .ok (c1, .ok ()) ∧ c1.insert v = .ok (c12, .ok ()) ∧
      c.insert v = .ok (c2, .ok ()) ∧ c2.insert u = .ok (c12, .ok ()) := by
  have hu0 : U.count u = 0 := List.count_eq_zero.mpr hu
  have r1 : Refinable p U [u, v] := by
    refine ⟨h0, huv.trans h1, fun x a b => hs x a (b.trans huv), by omega, h0.trans huv, h1, fun x a b => ?_, ?_, trivial⟩
    · by_cases hxu : u = x
      · subst hxu; rw [List.count_cons_self]; omega
      · rw [List.count_cons_of_ne hxu]; exact hs x a b
    · rw [List.count_cons_of_ne huv.ne]; exact hv
  have r2 : Refinable p U [v, u] := by
    refine ⟨h0.trans huv, h1, hs, hv, h0, huv.trans h1, fun x a b => ?_, ?_, trivial⟩
    · rw [List.count_cons_of_ne (b.trans huv).ne']; exact hs x a (b.trans huv)
    · rw [List.count_cons_of_ne huv.ne']; omega
  obtain ⟨c', e1, e2⟩ := C19_order hc hmult (List.Perm.swap v u []) r1 r2
  obtain ⟨c1, i1⟩ := (C17_insert_errors_exact hc u).2.2 h0 (huv.trans h1) r1.2.2.2.1
  obtain ⟨c2, i2⟩ := (C17_insert_errors_exact hc v).2.2 (h0.trans huv) h1 hv
  obtain ⟨U1, P1, hc1, hp1⟩ := C16_insert_adds_knot_partial hc r1.2.2.1 i1
  obtain ⟨U2, P2, hc2, hp2⟩ := C16_insert_adds_knot_partial hc hs i2
  obtain ⟨d1, j1⟩ := (C17_insert_errors_exact hc1 v).2.2 (h0.trans huv) h1 (by
    rw [hp1.count_eq, List.count_cons_of_ne huv.ne]; exact hv)
  obtain ⟨d2, j2⟩ := (C17_insert_errors_exact hc2 u).2.2 h0 (huv.trans h1) (by
    rw [hp2.count_eq, List.count_cons_of_ne huv.ne']; omega)
  have e1' : insertAll c [u, v] = .ok (d1, .ok ()) := by
    rw [insertAll, i1]; show insertAll c1 [v] = _; rw [insertAll, j1]; rfl
  have e2' : insertAll c [v, u] = .ok (d2, .ok ()) := by
    rw [insertAll, i2]; show insertAll c2 [u] = _; rw [insertAll, j2]; rfl
  have f1 : d1 = c' := by rw [e1'] at e1; injection e1 with e1; exact congrArg Prod.fst e1
  have f2 : d2 = c' := by rw [e2'] at e2; injection e2 with e2; exact congrArg Prod.fst e2
  subst f1 f2
  exact ⟨c1, c2, d2, i1, j1, i2, j2⟩

/-! ### Instances -/

/-- a quadratic curve with a double knot at `3/4` -/
def exOrder : Curve ℚ 1 :=
  canon 2 [0, 0, 0, 1 / 4, 1 / 2, 3 / 4, 3 / 4, 1, 1, 1] [![0], ![4], ![1], ![7], ![3], ![2], ![5]]

/-- the hypotheses of `C19_two` for the new knot `1/3` and the double knot `3/4` -/
example : ValidOn 0 1 exOrder 2 6 [0, 0, 0, 1 / 4, 1 / 2, 3 / 4, 3 / 4, 1, 1, 1] [![0], ![4], ![1], ![7], ![3], ![2], ![5]] ∧
    SimpleBelow [(0 : ℚ), 0, 0, 1 / 4, 1 / 2, 3 / 4, 3 / 4, 1, 1, 1] (3 / 4) ∧
    (1 / 3 : ℚ) ∉ [(0 : ℚ), 0, 0, 1 / 4, 1 / 2, 3 / 4, 3 / 4, 1, 1, 1] ∧
    [(0 : ℚ), 0, 0, 1 / 4, 1 / 2, 3 / 4, 3 / 4, 1, 1, 1].count (3 / 4) ≤ 2 := by
  refine ⟨validOn_canon (by decide +kernel) rfl, ?_, by decide +kernel, by decide +kernel⟩
  intro x h0 h1
  by_cases hx : x ∈ [(0 : ℚ), 0, 0, 1 / 4, 1 / 2, 3 / 4, 3 / 4, 1, 1, 1]
  · exact (by decide +kernel : ∀ x ∈ [(0 : ℚ), 0, 0, 1 / 4, 1 / 2, 3 / 4, 3 / 4, 1, 1, 1], 0 < x → x < 3 / 4 →
      [(0 : ℚ), 0, 0, 1 / 4, 1 / 2, 3 / 4, 3 / 4, 1, 1, 1].count x ≤ 1) x hx h0 h1
  · rw [List.count_eq_zero_of_not_mem hx]; omega

/-- the new lower knot is needed: `1/4` is a knot, and the two orders differ -/
example : ((insertAll exOrder [1 / 4, 1 / 2]).bind fun r => r.1.points.matrix) =
      .ok [![0], ![4], ![1], ![1], ![1], ![7], ![3], ![2], ![5]] ∧
    ((insertAll exOrder [1 / 2, 1 / 4]).bind fun r => r.1.points.matrix) =
      .ok [![0], ![4], ![5 / 2], ![1], ![4], ![7], ![3], ![2], ![5]] := by
  constructor <;> decide +kernel

end BSpline
