import Verif.Refine.IeeeEval
import Verif.Props.Float
import Mathlib.Data.Fin.VecNotation

/-!
# Evaluation in the arithmetic of `f64`: C85

Scalars are floating-point numbers of IEEE 754 with infinities, NaN, signed zeros, subnormal numbers and
rounding to nearest, ties to even. `V`, `Q`, `x` are the exact values of the knots `U`, the control points
`P` and the parameter `u`. The *exact* curve is the one the model computes over the field.
-/

set_option linter.unusedSectionVars false

namespace BSpline

open Finset Ieee

variable {K : Type} [Field K] [LinearOrder K] [IsStrictOrderedRing K] {F : Format K} {d : ℕ}

/-- `f64` has room for all curves of a degree up to 600. -/
theorem room_binary64 {p : ℕ} (hp : p ≤ 600) : Room binary64 p := by
  have heps : binary64.eps = (1 / 2) ^ 53 := rfl
  have hmax : (2 : ℚ) ^ 1023 ≤ binary64.max := by
    decide +kernel
  refine Room.mono (p := 600) ⟨?_, ?_, ?_, ?_⟩ hp
  · rw [Format.phi, heps, inv_pow, inv_le_comm₀ (by positivity) (by norm_num)]
    have := one_add_mul_le_pow (a := -(1 / 2 : ℚ) ^ 53) (by norm_num) (6 * 600 + 8)
    rw [← sub_eq_add_neg] at this
    refine le_trans ?_ this
    norm_num
  · change ((600 : ℕ) + 1 : ℚ) * 3 ^ (600 + 2) * (1 / 2 * 2 ^ ((-1022 : ℤ) - 52)) ≤ 1 / 4
    decide +kernel
  · exact le_trans (by decide +kernel) hmax
  · intro m hm
    change roundIeee 52 (-1022) (m : ℚ) = m
    have := roundIeee_rep (K := ℚ) (m := 52) (emin := -1022) m 0 (by
      rw [abs_of_nonneg (by positivity)]
      have : (m : ℤ) ≤ 600 := by exact_mod_cast hm
      exact this.trans (by norm_num)) (by norm_num)
    simpa using this

theorem Built.ieee_eq {c : Curve (Ieee F) d} {p n : ℕ} {U : List (Ieee F)} {P : List (Pt (Ieee F) d)}
    (hc : Built c p U P) (hU : U.length = n + p + 2) (hle : p ≤ n) (hP : P.length = n + 1) :
    c = canon p U P := by
  rw [Built, mkCurve_ok hP hle (by omega)] at hc
  injection hc with hc; injection hc with hc; exact hc.symm

/-- **C85** Derivatives in the arithmetic of a floating-point format: if the knots and control points are
finite numbers and different knots are at least `h` apart, then the computed derivative of order `k` is
finite, and differs from the exact one by at most `(phi^(6p-k+2) - 1) (2p/h)^k M` (rounding) plus
`(p+1) 3^(p+3) (4p/h)^k (M+1) eta` (underflow) in every coordinate in which the control points are at most
`M`, provided that this is not too large. -/
theorem C85_derivative {c : Curve (Ieee F) d} {e : Curve K d} {p n k : ℕ} {U : List (Ieee F)} {V : List K}
    {P : List (Pt (Ieee F) d)} {Q : List (Pt K d)} (hroom : Room F p) (hc : Built c p U P)
    (he : ValidOn 0 1 e p n V Q) (hU : List.Forall₂ Is U V) (hP : List.Forall₂ PtIs P Q) (hk : k ≤ p)
    {u : Ieee F} {x : K} (hu : Is u x) (h0 : 0 ≤ x) (h1 : x ≤ 1) {h : K} (hh : 0 < h)
    (hgap : ∀ s ∈ V, ∀ t ∈ V, s < t → h ≤ t - s) (hhm : 2 / h ≤ F.max) :
    ∃ (v : Pt (Ieee F) d) (w : Pt K d), c.evaluateDerivative u k = .ok (.ok v) ∧
      e.evaluateDerivative x k = .ok (.ok w) ∧
      ∀ (r : Fin d) (M : K), (∀ q ∈ Q, |q r| ≤ M) → 4 * ((4 * (p / h)) ^ k * (M + 1)) ≤ F.max →
      ∃ y, Is (v r) y ∧ |y - w r| ≤ (F.phi ^ (6 * p - k + 2) - 1) * ((2 * (p / h)) ^ k * M) +
          (p + 1) * 3 ^ (p + 3) * ((4 * (p / h)) ^ k * (M + 1)) * F.eta := by
  obtain rfl := he.eq_canon
  obtain ⟨-, hV, hQ⟩ := he
  have hlV := hV.length
  have hle := hV.le
  have hlU : U.length = n + p + 2 := hU.length_eq.trans hlV
  have hlP : P.length = n + 1 := hP.length_eq.trans hQ
  obtain rfl := hc.ieee_eq hlU hle hlP
  have hcl := hV.clamp
  have hV0 : V ≠ [] := by rintro rfl; simp at hlV
  have hQ0 : Q ≠ [] := by rintro rfl; simp at hQ
  obtain ⟨j, hs⟩ := hcl.exists_span h0 h1
  have hpj := hs.p_le hcl
  have hjn := hs.le_n
  have hs' := hs.shiftN (k := k) (by omega)
  have hlo := lleq_le_span hs' (n - p) (p - k) (by omega) (by omega)
  have hgap' : ∀ i j, fn V i < fn V j → h ≤ fn V j - fn V i :=
    fun i j hij => hgap _ (fn_mem hV0 i) _ (fn_mem hV0 j) hij
  have hh1 : h ≤ 1 := by
    have := hgap' 0 (n + 1) (by
      rw [hcl.left 0 (Nat.zero_le _), hcl.right (n + 1) le_rfl]; exact zero_lt_one)
    rwa [hcl.left 0 (Nat.zero_le _), hcl.right (n + 1) le_rfl, sub_zero] at this
  refine ⟨_, _, evaluateDerivative_ok hlU hlP hle hk ?_ ?_, evaluateDerivative_eq hV hQ hk h0 h1 hs, ?_⟩
  · rw [is_zero.cmp_le hu]; simpa using h0
  · rw [hu.cmp_le is_one]; simpa using h1
  intro r M hM hmax
  rw [← fullSum_eq_cv hcl hs hk, Finset.sum_apply]
  refine evalFold_ieee (fn_is hU) hcl hu h0 h1 hs hk hh hh1 hgap' hroom hhm (fn_ptIs hP)
    (fun i => hM _ (fn_mem hQ0 i)) hmax ?_
  rw [lleq_is (fun i => fn_is hU (i + k)) hu]
  change lleq (shiftN k (fn V)) x (n - p) (p - k) - (p - k) ≤ j - p
  omega

/-- **C85** Points in the arithmetic of a floating-point format. The bound does not depend on the knots. -/
theorem C85_evaluate {c : Curve (Ieee F) d} {e : Curve K d} {p n : ℕ} {U : List (Ieee F)} {V : List K}
    {P : List (Pt (Ieee F) d)} {Q : List (Pt K d)} (hroom : Room F p) (hc : Built c p U P)
    (he : ValidOn 0 1 e p n V Q) (hU : List.Forall₂ Is U V) (hP : List.Forall₂ PtIs P Q)
    {u : Ieee F} {x : K} (hu : Is u x) (h0 : 0 ≤ x) (h1 : x ≤ 1) {h : K} (hh : 0 < h)
    (hgap : ∀ s ∈ V, ∀ t ∈ V, s < t → h ≤ t - s) (hhm : 2 / h ≤ F.max) :
    ∃ (v : Pt (Ieee F) d) (w : Pt K d), c.evaluate u = .ok (.ok v) ∧ e.evaluate x = .ok (.ok w) ∧
      ∀ (r : Fin d) (M : K), (∀ q ∈ Q, |q r| ≤ M) → 4 * (M + 1) ≤ F.max →
      ∃ y, Is (v r) y ∧ |y - w r| ≤ (F.phi ^ (6 * p + 2) - 1) * M +
          (p + 1) * 3 ^ (p + 3) * (M + 1) * F.eta := by
  obtain ⟨v, w, hv, hw, hb⟩ := C85_derivative hroom hc he hU hP (Nat.zero_le p) hu h0 h1 hh hgap hhm
  refine ⟨v, w, hv, hw, fun r M hM hmax => ?_⟩
  have := hb r M hM (by simpa using hmax)
  simpa using this

/-- **C85** For `f64`: if the knots of a curve of a degree `p ≤ 600` are finite numbers, different ones at
least `2^-1000` apart, then at every parameter in the domain every coordinate is a finite number if the
control points are at most `M ≤ 2^1000` in it, and its error is at most
`(6p+2) 2^-52 M + (p+1) 3^(p+3) (M+1) 2^-1075`. -/
theorem C85_f64 {c : Curve (Ieee binary64) d} {e : Curve ℚ d} {p n : ℕ} {U : List (Ieee binary64)} {V : List ℚ}
    {P : List (Pt (Ieee binary64) d)} {Q : List (Pt ℚ d)} (hp : p ≤ 600) (hc : Built c p U P)
    (he : ValidOn 0 1 e p n V Q) (hU : List.Forall₂ Is U V) (hP : List.Forall₂ PtIs P Q)
    {u : Ieee binary64} {x : ℚ} (hu : Is u x) (h0 : 0 ≤ x) (h1 : x ≤ 1)
    (hgap : ∀ s ∈ V, ∀ t ∈ V, s < t → (1 / 2) ^ 1000 ≤ t - s) :
    ∃ (v : Pt (Ieee binary64) d) (w : Pt ℚ d), c.evaluate u = .ok (.ok v) ∧ e.evaluate x = .ok (.ok w) ∧
      ∀ (r : Fin d) (M : ℚ), (∀ q ∈ Q, |q r| ≤ M) → M ≤ 2 ^ 1000 →
      ∃ y, Is (v r) y ∧ |y - w r| ≤ (6 * p + 2) / 2 ^ 52 * M +
          (p + 1) * 3 ^ (p + 3) * (M + 1) * (1 / 2) ^ 1075 := by
  have hmax : (2 : ℚ) ^ 1023 ≤ binary64.max := by
    decide +kernel
  have hroom := room_binary64 hp
  obtain ⟨v, w, hv, hw, hb⟩ := C85_evaluate hroom hc he hU hP hu h0 h1 (by positivity) hgap (by
    refine le_trans ?_ hmax
    decide +kernel)
  refine ⟨v, w, hv, hw, fun r M hM hM' => ?_⟩
  obtain ⟨y, hy, hyb⟩ := hb r M hM (by
    refine le_trans (show _ ≤ 4 * ((2 : ℚ) ^ 1000 + 1) from
      mul_le_mul_of_nonneg_left (add_le_add hM' le_rfl) (by norm_num)) (le_trans ?_ hmax)
    decide +kernel)
  refine ⟨y, hy, hyb.trans (add_le_add ?_ (le_of_eq ?_))⟩
  · have hQ : Q ≠ [] := by
      rintro rfl
      have := he.2.2
      simp at this
    obtain ⟨q, hq⟩ := List.exists_mem_of_ne_nil Q hQ
    refine mul_le_mul_of_nonneg_right ?_ ((abs_nonneg _).trans (hM q hq))
    have heps : binary64.eps = (1 / 2) ^ 53 := rfl
    have hpq : (p : ℚ) ≤ 600 := by exact_mod_cast hp
    have hp0 : (0 : ℚ) ≤ p := Nat.cast_nonneg _
    -- Bernoulli
    have hbern := one_add_mul_le_pow (a := -(1 / 2 : ℚ) ^ 53) (by norm_num) (6 * p + 2)
    rw [← sub_eq_add_neg] at hbern
    push_cast at hbern
    have ht : 0 < 1 + (6 * (p : ℚ) + 2) * -(1 / 2) ^ 53 := by norm_num; linarith
    rw [Format.phi, heps, inv_pow, sub_le_iff_le_add]
    refine (inv_anti₀ ht hbern).trans ?_
    rw [inv_le_iff_one_le_mul₀ ht]
    norm_num
    nlinarith
  · have heta : binary64.eta = (1 / 2) ^ 1075 := by
      change (1 / 2 * 2 ^ ((-1022 : ℤ) - 52) : ℚ) = _
      decide +kernel
    rw [heta]

/-! ### A concrete case -/

def eq64 (x : ℚ) : Ieee binary64 := mk binary64 false x

def ieU : List (Ieee binary64) := [0, 0, 0, eq64 (1 / 3), eq64 (2 / 3), 1, 1, 1]
def ieP : List (Pt (Ieee binary64) 1) := [![0], ![eq64 (1 / 10)], ![eq64 (7 / 10)], ![eq64 (-1 / 5)], ![1]]

/-- the exact value of a finite number -/
def exactOf : Ieee binary64 → ℚ
  | .fin _ v => v.val
  | _ => 0

theorem is_exactOf {x : Ieee binary64} (h : ∃ s v, x = .fin s v) : Is x (exactOf x) := by
  obtain ⟨s, v, rfl⟩ := h
  exact ⟨s, v.2, rfl⟩

def ieV : List ℚ := ieU.map exactOf
def ieQ : List (Pt ℚ 1) := ieP.map fun q r => exactOf (q r)

example : List.Forall₂ Is ieU ieV := by
  have h : ∀ x ∈ ieU, ∃ s v, x = Ieee.fin s v := by
    have : ∀ x ∈ ieU, (match x with | .fin _ _ => true | _ => false) = true := by decide +kernel
    intro x hx
    have := this x hx
    cases x with
    | fin s v => exact ⟨s, v, rfl⟩
    | nan => simp at this
    | inf s => simp at this
  rw [ieV, List.forall₂_map_right_iff, List.forall₂_same]
  exact fun x hx => is_exactOf (h x hx)
example : Built (canon 2 ieU ieP) 2 ieU ieP := mkCurve_ok (n := 4) rfl (by decide) (by decide)
example : ValidOn 0 1 (canon 2 ieV ieQ) 2 4 ieV ieQ := validOn_canon (by decide +kernel) rfl
example : ∀ s ∈ ieV, ∀ t ∈ ieV, s < t → (1 / 2) ^ 1000 ≤ t - s := by decide +kernel

-- 0.1 + 0.2 = 0.30000000000000004
example : eq64 (1 / 10) + eq64 (2 / 10) ≠ eq64 (3 / 10) := by decide +kernel

-- the largest number, overflow, underflow, signed zeros, undefined results
example : exactOf (eq64 (2 ^ 1024 - 2 ^ 971)) = 2 ^ 1024 - 2 ^ 971 ∧ eq64 (2 ^ 1024 - 2 ^ 970) = Ieee.inf false ∧
    eq64 ((1 / 2) ^ 1074) * eq64 (1 / 2) = 0 ∧ (0 : Ieee binary64) / 0 = Ieee.nan ∧
    (1 : Ieee binary64) / -0 = Ieee.inf true ∧ Ieee.inf false - Ieee.inf false = (Ieee.nan : Ieee binary64) := by
  decide +kernel

/-! ### The condition on the distances of the knots is needed -/

/-- **C85** Without the condition on the distances of knots the claim is false: a valid curve with four
finite control points and an interior knot `2^-1040` is NaN in the middle of its domain. -/
theorem C85_nan : ∃ (c : Curve (Ieee binary64) 1) (U : List (Ieee binary64)) (P : List (Pt (Ieee binary64) 1))
    (V : List ℚ), Built c 2 U P ∧ List.Forall₂ Is U V ∧ ClampedKnots 0 1 2 3 V ∧
      P = [![0], ![1], ![eq64 2], ![eq64 3]] ∧ c.evaluate (eq64 (1 / 2)) = .ok (.ok ![Ieee.nan]) := by
  refine ⟨canon 2 [0, 0, 0, eq64 ((1 / 2) ^ 1040), 1, 1, 1] [![0], ![1], ![eq64 2], ![eq64 3]],
    _, _, [0, 0, 0, (1 / 2) ^ 1040, 1, 1, 1], mkCurve_ok (n := 3) rfl (by decide) (by decide), ?_, by decide +kernel,
    rfl, by decide +kernel⟩
  have h : Is (eq64 ((1 / 2) ^ 1040)) ((1 / 2) ^ 1040) := by
    have := is_exactOf (x := eq64 ((1 / 2) ^ 1040)) ⟨false, ⟨(1 / 2) ^ 1040, by
      refine ⟨by decide +kernel, by decide +kernel⟩⟩, by decide +kernel⟩
    have e : exactOf (eq64 ((1 / 2) ^ 1040)) = (1 / 2) ^ 1040 := by decide +kernel
    rwa [e] at this
  exact .cons is_zero (.cons is_zero (.cons is_zero (.cons h (.cons is_one (.cons is_one (.cons is_one .nil))))))

end BSpline
