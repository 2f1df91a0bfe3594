import Verif.Theory.Unique
import Verif.Props.Insert

/-!
# Uniqueness of control points: C55
-/

set_option linter.unusedSectionVars false

namespace BSpline

variable {K : Type} [Field K] [LinearOrder K] [IsStrictOrderedRing K] {d : ℕ}

/-- splines that evaluate equally have the same polar forms -/
theorem same_of_evaluate {p n : ℕ} {U : List K} {P Q : List (Pt K d)} (hU : ClampedKnots 0 1 p n U)
    (hP : P.length = n + 1) (hQ : Q.length = n + 1)
    (h : ∀ u, 0 ≤ u → u ≤ 1 → (canon p U P).evaluate u = (canon p U Q).evaluate u) :
    Same p 0 1 n (fn U) (fn P) n (fn U) (fn Q) := by
  have hc := hU.clamp
  intro v j j' h1 h2 hj hj' ts hts
  obtain rfl := hj.unique hc hj'
  have hlt := hj.lt hc
  have hw := win_of_span hc.mono (hj.p_le hc) hlt
  symm
  apply bl_eq_of_diag hw (S := Set.Ico (fn U j) (fn U (j + 1))) (Set.Ico_infinite hlt) _ ts hts
  intro w hw
  have h0 : 0 ≤ w := (hc.a_le j).trans hw.1
  have h1 : w ≤ 1 := hw.2.le.trans (hc.le_b _)
  have hs : IsSpan (fn U) n w j := ⟨hj.le_n, hw.1, Or.inl hw.2⟩
  have := h w h0 h1
  rw [Curve.evaluate, Curve.evaluate, evaluateDerivative_eq hU hP (Nat.zero_le p) h0 h1 hs,
    evaluateDerivative_eq hU hQ (Nat.zero_le p) h0 h1 hs] at this
  injection this with this
  injection this

/-- **C55** Two curves over the same clamped knots (interior multiplicities at most `p + 1`) that
evaluate equally on `[0, 1]` have the same control points, hence are equal. -/
theorem C55_control_points_unique {c c' : Curve K d} {p n : ℕ} {U : List K} {P Q : List (Pt K d)}
    (hc : ValidOn 0 1 c p n U P) (hc' : ValidOn 0 1 c' p n U Q)
    (hm : ∀ x, 0 < x → x < 1 → U.count x ≤ p + 1)
    (h : ∀ u, 0 ≤ u → u ≤ 1 → c.evaluate u = c'.evaluate u) : P = Q ∧ c = c' := by
  have e := hc.eq_canon
  have e' := hc'.eq_canon
  subst e e'
  have hU := hc.2.1
  have hs := same_of_evaluate hU hc.2.2 hc'.2.2 h
  have hPQ : P = Q := by
    apply ext_fn (by rw [hc.2.2, hc'.2.2])
    intro i hi
    exact hs.unique hU.clamp (support_pos hU hm (by rw [hc.2.2] at hi; omega))
  exact ⟨hPQ, by rw [hPQ]⟩

/-- the multiplicity bound is needed: with `p + 2` equal knots a control point has no influence -/
example : ∀ x : ℚ, ∃ c c', ValidOn 0 1 c 0 2 [0, 1 / 2, 1 / 2, 1] [![1], ![x], ![2]] ∧
    ValidOn 0 1 c' 0 2 [0, 1 / 2, 1 / 2, 1] [![1], ![0], ![2]] ∧
    ∀ u, 0 ≤ u → u ≤ 1 → c.evaluate u = c'.evaluate u := by
  intro x
  have hU : ClampedKnots (0 : ℚ) 1 0 2 [0, 1 / 2, 1 / 2, 1] := by decide +kernel
  refine ⟨_, _, validOn_canon hU rfl, validOn_canon hU rfl, ?_⟩
  intro u h0 h1
  obtain ⟨j, hj⟩ := hU.clamp.exists_span h0 h1
  have hjl := hj.lt hU.clamp
  have hjn := hj.le_n
  rw [Curve.evaluate, Curve.evaluate, evaluateDerivative_eq hU rfl le_rfl h0 h1 hj,
    evaluateDerivative_eq hU rfl le_rfl h0 h1 hj]
  have : j = 0 ∨ j = 2 := by
    have h3 : j ≠ 1 := by rintro rfl; revert hjl; decide +kernel
    omega
  rcases this with rfl | rfl <;> rfl

example : ∀ x, 0 < x → x < 1 → exU.count x ≤ 2 + 1 := by
  intro x _ _
  have : ∀ x ∈ exU, exU.count x ≤ 3 := by decide +kernel
  by_cases hx : x ∈ exU
  · exact this x hx
  · rw [List.count_eq_zero_of_not_mem hx]; omega

end BSpline
