import Verif.Theory.Span

/-!
# Curves with equal polynomial pieces

`Same` says that two splines (over possibly different knots) have the same polar form on every
span; it is preserved by taking derivatives and determines the control points.
-/

set_option linter.unusedSectionVars false

namespace BSpline

open Finset

section
variable {K : Type*} [Field K] {V : Type*} [AddCommGroup V] [Module K V]

/-- the derivative in terms of the polar form -/
theorem bl_Dv (U : ℕ → K) (ts : List K) (P : ℕ → V) (a : ℕ) :
    bl (shift U) ts (Dv U (ts.length + 1) P) a =
      ((ts.length + 1 : ℕ) : K) • (bl U (1 :: ts) P a - bl U (0 :: ts) P a) := by
  have h : Dv U (ts.length + 1) P = fun i => ((ts.length + 1 : ℕ) : K) •
      (D U (ts.length + 1) 1 P i - D U (ts.length + 1) 0 P i) := by
    funext i
    simp only [Dv, D]
    generalize U (i + 1 + (ts.length + 1)) = x
    generalize U (i + 1) = y
    generalize ((ts.length + 1 : ℕ) : K) = q
    by_cases hxy : x - y = 0
    · rw [hxy]; simp
    · match_scalars <;> field_simp <;> ring
  rw [h, bl_smul, bl_sub]
  rfl

/-- equal polar forms have equal derivatives -/
theorem bl_Dv_congr {U U' : ℕ → K} {P P' : ℕ → V} {a b p : ℕ} (hp : 1 ≤ p)
    (h : ∀ ts : List K, ts.length = p → bl U' ts P' b = bl U ts P a) (ts : List K)
    (hts : ts.length = p - 1) :
    bl (shift U') ts (Dv U' p P') b = bl (shift U) ts (Dv U p P) a := by
  have := bl_Dv U' ts P' b
  have h2 := bl_Dv U ts P a
  rw [show ts.length + 1 = p by omega] at this h2
  rw [this, h2, h _ (by simp; omega), h _ (by simp; omega)]

end

variable {K : Type*} [Field K] [LinearOrder K] [IsStrictOrderedRing K]
variable {V : Type*} [AddCommGroup V] [Module K V]

/-- the two splines of degree `p` have the same polar form on all spans in `[a, b]` -/
def Same (p : ℕ) (a b : K) (n : ℕ) (U : ℕ → K) (P : ℕ → V) (n' : ℕ) (U' : ℕ → K) (P' : ℕ → V) :
    Prop :=
  ∀ v j j', a ≤ v → v ≤ b → IsSpan U n v j → IsSpan U' n' v j' →
    ∀ ts : List K, ts.length = p → bl U' ts P' (j' - p) = bl U ts P (j - p)

theorem Same.symm {p : ℕ} {a b : K} {n n' : ℕ} {U U' : ℕ → K} {P P' : ℕ → V}
    (h : Same p a b n U P n' U' P') : Same p a b n' U' P' n U P :=
  fun v j j' h1 h2 hs hs' ts hl => (h v j' j h1 h2 hs' hs ts hl).symm

theorem Same.trans {p : ℕ} {a b : K} {n n' n'' : ℕ} {U U' U'' : ℕ → K} {P P' P'' : ℕ → V}
    (h : Same p a b n U P n' U' P') (hc : Clamp U' p n' a b) (h' : Same p a b n' U' P' n'' U'' P'') :
    Same p a b n U P n'' U'' P'' := by
  intro v j j'' h1 h2 hs hs'' ts hl
  obtain ⟨j', hs'⟩ := hc.exists_span h1 h2
  rw [h' v j' j'' h1 h2 hs' hs'' ts hl, h v j j' h1 h2 hs hs' ts hl]

/-- a span in the support of the `i`-th basis function -/
theorem exists_support_span {U : ℕ → K} {p i : ℕ} (h : U i < U (i + p + 1)) :
    ∃ j, i ≤ j ∧ j ≤ i + p ∧ U j < U (j + 1) := by
  by_contra hc
  push Not at hc
  have : ∀ m, m ≤ p + 1 → U (i + m) ≤ U i := by
    intro m
    induction m with
    | zero => intro _; exact le_rfl
    | succ m ih => intro hm; exact (hc (i + m) (by omega) (by omega)).trans (ih (by omega))
  exact absurd (lt_of_lt_of_le h (this (p + 1) le_rfl)) (lt_irrefl _)

/-- a non-empty knot interval inside the domain is the span of its left end -/
theorem isSpan_left {U : ℕ → K} {p n : ℕ} {a b : K} (h : Clamp U p n a b) {j : ℕ}
    (hlt : U j < U (j + 1)) : p ≤ j ∧ IsSpan U n (U j) j := by
  have hjn : j ≤ n := by
    by_contra hc
    rw [h.right j (by omega), h.right (j + 1) (by omega)] at hlt
    exact lt_irrefl _ hlt
  have hs : IsSpan U n (U j) j := ⟨hjn, le_rfl, Or.inl hlt⟩
  exact ⟨hs.p_le h, hs⟩

/-- the control points are determined by the polar forms -/
theorem Same.unique {p n : ℕ} {a b : K} {U : ℕ → K} {P Q : ℕ → V} (hc : Clamp U p n a b)
    (h : Same p a b n U P n U Q) {i : ℕ} (hi : U i < U (i + p + 1)) : P i = Q i := by
  obtain ⟨j, h1, h2, hlt⟩ := exists_support_span hi
  obtain ⟨hpj, hs⟩ := isSpan_left hc hlt
  have hw := win_of_span hc.mono hpj hlt
  have h3 := bl_dual (P := P) p (i := i - (j - p)) (by omega) hw
  have h4 := bl_dual (P := Q) p (i := i - (j - p)) (by omega) hw
  have := h (U j) j j (hc.a_le j) (hc.le_b j) hs hs (knotsFrom U (j - p + (i - (j - p)) + 1) p)
    (by simp)
  rw [h3, h4, show j - p + (i - (j - p)) = i by omega] at this
  exact this.symm

end BSpline
