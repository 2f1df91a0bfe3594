import Verif.Props.Sampling
import Verif.Props.Ieee

/-!
# Sampling a curve in double precision: C153
-/

set_option linter.unusedSectionVars false

namespace BSpline

open Ieee

variable {d : ℕ}

/-- **C153** Connecting two points that were computed in double precision: the straight line is within the bound of
`C153_second`, plus the rounding error of one evaluation, of the exact curve. -/
theorem C153_f64 {c : Curve (Ieee binary64) d} {e : Curve ℚ d} {p n : ℕ} {U : List (Ieee binary64)} {V : List ℚ}
    {P : List (Pt (Ieee binary64) d)} {Q D : List (Pt ℚ d)} (hp2 : 2 ≤ p) (hp : p ≤ 600) (hc : Built c p U P)
    (he : ValidOn 0 1 e p n V Q) (hU : List.Forall₂ Is U V) (hP : List.Forall₂ PtIs P Q)
    (hgap : ∀ s ∈ V, ∀ t ∈ V, s < t → (1 / 2) ^ 1000 ≤ t - s) (hm : ∀ x, 0 < x → x < 1 → V.count x + 1 ≤ p)
    (hD : e.points.matrixDerivative 2 = .ok D) {ρ : Fin d} {B M : ℚ} (hB : ∀ q ∈ D, |q ρ| ≤ B)
    (hM : ∀ q ∈ Q, |q ρ| ≤ M) (hM1 : M ≤ 2 ^ 1000) {a b : Ieee binary64} {x y s : ℚ} (ha : Is a x) (hb : Is b y)
    (hx0 : 0 ≤ x) (hx1 : x ≤ 1) (hy0 : 0 ≤ y) (hy1 : y ≤ 1) (hs0 : 0 ≤ s) (hs1 : s ≤ 1) :
    ∃ (va vb : Pt (Ieee binary64) d) (ya yb : ℚ) (w : Pt ℚ d), c.evaluate a = .ok (.ok va) ∧
      c.evaluate b = .ok (.ok vb) ∧ Is (va ρ) ya ∧ Is (vb ρ) yb ∧ e.evaluate ((1 - s) * x + s * y) = .ok (.ok w) ∧
      |w ρ - ((1 - s) * ya + s * yb)| ≤ B * (s * (1 - s) * (y - x) ^ 2 / 2) +
        ((6 * p + 2) / 2 ^ 52 * M + (p + 1) * 3 ^ (p + 3) * (M + 1) * (1 / 2) ^ 1075) := by
  obtain ⟨wa, wb, w, e1, e2, e3, h1, h2⟩ := C153_second he hp2 hm hD (lo := -B) (hi := B) (ρ := ρ)
    (fun q hq => abs_le.mp (hB q hq)) hx0 hx1 hy0 hy1 hs0 hs1
  obtain ⟨va, wa', f1, f2, f3⟩ := C85_f64 hp hc he hU hP ha hx0 hx1 hgap
  obtain ⟨vb, wb', g1, g2, g3⟩ := C85_f64 hp hc he hU hP hb hy0 hy1 hgap
  rw [e1] at f2
  rw [e2] at g2
  injection f2 with f2; injection f2 with f2
  injection g2 with g2; injection g2 with g2
  subst f2 g2
  obtain ⟨ya, i1, i2⟩ := f3 ρ M hM hM1
  obtain ⟨yb, j1, j2⟩ := g3 ρ M hM hM1
  refine ⟨va, vb, ya, yb, w, f1, g1, i1, j1, e3, ?_⟩
  generalize (6 * p + 2) / 2 ^ 52 * M + (p + 1) * 3 ^ (p + 3) * (M + 1) * (1 / 2 : ℚ) ^ 1075 = δ at i2 j2 ⊢
  have h1s : 0 ≤ 1 - s := sub_nonneg.mpr hs1
  rw [abs_le] at i2 j2 ⊢
  have k1 := mul_le_mul_of_nonneg_left i2.1 h1s
  have k2 := mul_le_mul_of_nonneg_left i2.2 h1s
  have k3 := mul_le_mul_of_nonneg_left j2.1 hs0
  have k4 := mul_le_mul_of_nonneg_left j2.2 hs0
  constructor <;> nlinarith

/-! ### A concrete case -/

example : Built (canon 2 [0, 0, 0, 1, 1, 1] ([![0], ![0], ![1]] : List (Pt (Ieee binary64) 1))) 2 [0, 0, 0, 1, 1, 1]
    [![0], ![0], ![1]] ∧
    List.Forall₂ Is ([0, 0, 0, 1, 1, 1] : List (Ieee binary64)) [0, 0, 0, 1, 1, 1] ∧
    List.Forall₂ PtIs ([![0], ![0], ![1]] : List (Pt (Ieee binary64) 1)) paraP ∧
    (∀ q ∈ ([![2]] : List (Pt ℚ 1)), |q 0| ≤ 2) := by
  have z : Is (0 : Ieee binary64) 0 := is_zero
  have o : Is (1 : Ieee binary64) 1 := is_one
  refine ⟨mkCurve_ok (n := 2) rfl (by decide) (by decide), ?_, ?_, by simp⟩
  · exact .cons z (.cons z (.cons z (.cons o (.cons o (.cons o .nil)))))
  · refine .cons ?_ (.cons ?_ (.cons ?_ .nil)) <;> intro r <;> obtain rfl : r = 0 := Subsingleton.elim _ _
    · exact z
    · exact z
    · exact o

end BSpline
