import Verif.Props.Ieee
import Verif.Props.Generation
import Mathlib.Data.List.NodupEquivFin

/-!
# Generating curves with uniform knots in the arithmetic of `f64`: C90
-/

set_option linter.unusedSectionVars false

namespace BSpline

open Ieee

variable {K : Type} [Field K] [LinearOrder K] [IsStrictOrderedRing K] {F : Format K} {d : ℕ}

/-- the values of uniform knots -/
def uniR (F : Format K) (p n j : ℕ) : K := F.rnd ((j : K) / ((n - p + 1 : ℕ) : K))

section

variable {p n : ℕ} (hnat : ∀ m : ℕ, m ≤ n - p + 1 → F.rnd m = m) (hN : ((n - p + 1 : ℕ) : K) ≤ F.max)
include hnat hN

theorem uniK_is {j : ℕ} (hj : j ≤ n - p + 1) : Is (uniK (K := Ieee F) p n j) (uniR F p n j) := by
  have hN0 : (0 : K) < ((n - p + 1 : ℕ) : K) := by exact_mod_cast Nat.succ_pos _
  have hjN : (j : K) ≤ ((n - p + 1 : ℕ) : K) := by exact_mod_cast hj
  have e1 := is_natCast (F := F) (n := j) (hjN.trans hN)
  have e2 := is_natCast (F := F) (n := n - p + 1) hN
  rw [hnat j hj] at e1
  rw [hnat _ le_rfl] at e2
  have h0 : 0 ≤ (j : K) / ((n - p + 1 : ℕ) : K) := div_nonneg (Nat.cast_nonneg _) hN0.le
  exact e1.div e2 hN0.ne' (by
    rw [abs_of_nonneg h0]
    exact ((div_le_one hN0).mpr hjN).trans F.one_le_max)

theorem uniR_err {j : ℕ} (hj : j ≤ n - p + 1) :
    |uniR F p n j - (j : K) / ((n - p + 1 : ℕ) : K)| ≤ F.eps + F.eta := by
  have hN0 : (0 : K) < ((n - p + 1 : ℕ) : K) := by exact_mod_cast Nat.succ_pos _
  have hjN : (j : K) ≤ ((n - p + 1 : ℕ) : K) := by exact_mod_cast hj
  have h0 : 0 ≤ (j : K) / ((n - p + 1 : ℕ) : K) := div_nonneg (Nat.cast_nonneg _) hN0.le
  have h := F.err ((j : K) / ((n - p + 1 : ℕ) : K))
  rw [abs_of_nonneg h0] at h
  refine h.trans (add_le_add ?_ le_rfl)
  exact mul_le_of_le_one_right F.eps_nonneg ((div_le_one hN0).mpr hjN)

/-- neighbours stay apart -/
theorem uniR_gap (hs : 4 * (((n - p + 1 : ℕ) : K) * (F.eps + F.eta)) ≤ 1) {i j : ℕ} (hij : i < j)
    (hj : j ≤ n - p + 1) : 1 / (2 * ((n - p + 1 : ℕ) : K)) ≤ uniR F p n j - uniR F p n i := by
  have hN0 : (0 : K) < ((n - p + 1 : ℕ) : K) := by exact_mod_cast Nat.succ_pos _
  have a1 := abs_le.mp (uniR_err hnat hN (show i ≤ n - p + 1 by omega))
  have a2 := abs_le.mp (uniR_err hnat hN hj)
  have h1 : (i : K) / ((n - p + 1 : ℕ) : K) + 1 / ((n - p + 1 : ℕ) : K) ≤ (j : K) / ((n - p + 1 : ℕ) : K) := by
    rw [← add_div]
    exact div_le_div_of_nonneg_right (by exact_mod_cast hij) hN0.le
  have h2 : 2 * (F.eps + F.eta) ≤ 1 / (2 * ((n - p + 1 : ℕ) : K)) := by
    rw [le_div_iff₀ (by linarith)]
    linarith
  have h3 : 1 / (2 * ((n - p + 1 : ℕ) : K)) + 1 / (2 * ((n - p + 1 : ℕ) : K)) = 1 / ((n - p + 1 : ℕ) : K) := by
    field_simp
    norm_num
  linarith [a1.2, a2.1]

theorem uniR_lt (hs : 4 * (((n - p + 1 : ℕ) : K) * (F.eps + F.eta)) ≤ 1) {i j : ℕ} (hij : i < j)
    (hj : j ≤ n - p + 1) : uniR F p n i < uniR F p n j := by
  have hN0 : (0 : K) < ((n - p + 1 : ℕ) : K) := by exact_mod_cast Nat.succ_pos _
  have := uniR_gap hnat hN hs hij hj
  have : 0 < 1 / (2 * ((n - p + 1 : ℕ) : K)) := by positivity
  linarith

end

theorem uniR_zero (F : Format K) (p n : ℕ) : uniR F p n 0 = 0 := by
  rw [uniR, Nat.cast_zero, zero_div, F.rnd_zero]

theorem uniR_last (F : Format K) (p n : ℕ) : uniR F p n (n - p + 1) = 1 := by
  have hN0 : (0 : K) < ((n - p + 1 : ℕ) : K) := by exact_mod_cast Nat.succ_pos _
  rw [uniR, div_self hN0.ne', F.one]

theorem fn_uni {p n i : ℕ} (h2 : p ≤ n) (hi : i < n + p + 2) :
    fn (genU p n (uniR F p n)) i = uniR F p n (min (i - p) (n - p + 1)) := by
  rw [fn_genU hi]
  split
  · rw [show i - p = 0 by omega, Nat.zero_min, uniR_zero]
  split
  · rw [Nat.min_eq_left (by omega)]
  · rw [Nat.min_eq_right (by omega), uniR_last]

/-- **C90** `uniform(p, n)` in floating-point arithmetic with infinities, NaN and underflow, if the numbers up
to the number `N = n - p + 1` of domain intervals are exact and `4 N (eps + eta) ≤ 1`: the knots are finite
numbers, clamped on exactly `[0, 1]`, the `j`-th one is `j / N` up to one rounding, different ones are at least
`1 / (2N)` apart, and all interior ones are simple. -/
theorem C90_uniform {p n : ℕ} (h1 : 1 ≤ p) (h2 : p ≤ n) (hnat : ∀ m : ℕ, m ≤ n - p + 1 → F.rnd m = m)
    (hN : ((n - p + 1 : ℕ) : K) ≤ F.max) (hs : 4 * (((n - p + 1 : ℕ) : K) * (F.eps + F.eta)) ≤ 1) :
    ∃ (kn : Knots (Ieee F)) (U : List (Ieee F)) (V : List K), uniform p n = .ok (.ok kn) ∧ kn.vector = .ok U ∧
      Knots.new p U = .ok kn ∧ List.Forall₂ Is U V ∧ ClampedKnots 0 1 p n V ∧
      (∀ j, j ≤ n - p + 1 → ∃ x, V[p + j]? = some x ∧ |x - (j : K) / ((n - p + 1 : ℕ) : K)| ≤ F.eps + F.eta) ∧
      (∀ s ∈ V, ∀ t ∈ V, s < t → 1 / (2 * ((n - p + 1 : ℕ) : K)) ≤ t - s) ∧ SimpleBelow V 1 := by
  have hl := genU_length p n (uniR F p n)
  have hlU := genU_length p n (uniK (K := Ieee F) p n)
  have hpos : ∀ j, 1 ≤ j → j ≤ n - p → 0 < uniR F p n j ∧ uniR F p n j < 1 := by
    intro j hj1 hj2
    have a1 := uniR_lt hnat hN hs (show 0 < j by omega) (by omega)
    have a2 := uniR_lt hnat hN hs (show j < n - p + 1 by omega) le_rfl
    rw [uniR_zero] at a1
    rw [uniR_last] at a2
    exact ⟨a1, a2⟩
  have hV : ClampedKnots 0 1 p n (genU p n (uniR F p n)) :=
    genU_clamped h2 hpos fun j hj1 hj2 => (uniR_lt hnat hN hs (Nat.lt_succ_self j) (by omega)).le
  refine ⟨_, _, _, uniform_ok h1 h2, canonKnots_vector _, Knots.new_ok (by omega), ?_, hV, ?_, ?_, ?_⟩
  · rw [genU, genU, List.forall₂_map_left_iff, List.forall₂_map_right_iff, List.forall₂_same]
    intro i hi
    rw [List.mem_range] at hi
    split
    · exact is_zero
    split
    · exact uniK_is hnat hN (by omega)
    · exact is_one
  · intro j hj
    refine ⟨_, List.getElem?_eq_getElem (by omega), ?_⟩
    rw [← fn_lt (by omega), fn_uni h2 (by omega), show min (p + j - p) (n - p + 1) = j by omega]
    exact uniR_err hnat hN hj
  · intro s hs' t ht hst
    obtain ⟨i, hi, rfl⟩ := List.mem_iff_getElem.mp hs'
    obtain ⟨j, hj, rfl⟩ := List.mem_iff_getElem.mp ht
    rw [← fn_lt hi, ← fn_lt hj] at hst ⊢
    rw [fn_uni h2 (by omega), fn_uni h2 (by omega)] at hst ⊢
    have hij : min (i - p) (n - p + 1) < min (j - p) (n - p + 1) := by
      by_contra hc
      rcases Nat.eq_or_lt_of_le (Nat.le_of_not_lt hc) with h | h
      · rw [h] at hst; exact lt_irrefl _ hst
      · exact lt_asymm hst (uniR_lt hnat hN hs h (by omega))
    exact uniR_gap hnat hN hs hij (by omega)
  · intro x hx0 hx1
    by_contra hc
    have hd : List.Duplicate x (genU p n (uniR F p n)) := List.duplicate_iff_two_le_count.mpr (by omega)
    obtain ⟨i, j, hij, e1, e2⟩ := List.duplicate_iff_exists_distinct_get.mp hd
    have hi := i.2
    have hj := j.2
    replace hi := hi.trans_eq hl
    replace hj := hj.trans_eq hl
    rw [Fin.lt_def] at hij
    simp only [List.get_eq_getElem] at e1 e2
    rw [← fn_lt i.2, fn_uni h2 hi] at e1
    rw [← fn_lt j.2, fn_uni h2 hj] at e2
    have b1 : 0 < (i : ℕ) - p := by
      rcases Nat.eq_zero_or_pos ((i : ℕ) - p) with h | h
      · rw [h, Nat.zero_min, uniR_zero] at e1; exact absurd e1 hx0.ne'
      · exact h
    have b2 : (j : ℕ) - p < n - p + 1 := by
      by_contra hc
      rw [Nat.min_eq_right (by omega), uniR_last] at e2
      exact absurd e2 hx1.ne
    have := uniR_lt hnat hN hs (show min ((i : ℕ) - p) (n - p + 1) < min ((j : ℕ) - p) (n - p + 1) by omega) (by omega)
    rw [← e1, ← e2] at this
    exact lt_irrefl _ this

/-- **C90** `f64`: the whole way from points to values. From `n + 1` control points with finite coordinates up
to `M ≤ 2^1000`, degree `1 ≤ p ≤ 600` and uniform knots with at most `2^50` domain intervals, `generate`
returns a curve which is finite at every parameter in `[0, 1]`, with an error of at most
`(6p+2) 2^-52 M + (p+1) 3^(p+3) (M+1) 2^-1075` against the exact curve with the same knots, which differ from
uniform ones by one rounding. -/
theorem C90_f64 [IntCast (Ieee binary64)] [Trunc (Ieee binary64)] [Sqrt (Ieee binary64)] (solver : Solver (Ieee binary64) d) {p n : ℕ}
    (h1 : 1 ≤ p) (h2 : p ≤ n) (hp : p ≤ 600) (hn : n - p + 1 ≤ 2 ^ 50) {P : List (Pt (Ieee binary64) d)}
    {Q : List (Pt ℚ d)} (hP : List.Forall₂ PtIs P Q) (hQ : Q.length = n + 1) :
    ∃ (c : Curve (Ieee binary64) d) (e : Curve ℚ d) (U : List (Ieee binary64)) (V : List ℚ),
      generate solver (.manual p (ControlPoints.new P) .uniform) = .ok (.ok c) ∧ Built c p U P ∧
      ValidOn 0 1 e p n V Q ∧ List.Forall₂ Is U V ∧ SimpleBelow V 1 ∧
      (∀ j, j ≤ n - p + 1 → ∃ x, V[p + j]? = some x ∧
        |x - (j : ℚ) / ((n - p + 1 : ℕ) : ℚ)| ≤ 1 / 2 ^ 52) ∧
      ∀ (u : Ieee binary64) (x : ℚ), Is u x → 0 ≤ x → x ≤ 1 →
      ∃ v w, c.evaluate u = .ok (.ok v) ∧ e.evaluate x = .ok (.ok w) ∧
        ∀ (r : Fin d) (M : ℚ), (∀ q ∈ Q, |q r| ≤ M) → M ≤ 2 ^ 1000 →
        ∃ y, Is (v r) y ∧ |y - w r| ≤ (6 * p + 2) / 2 ^ 52 * M +
          (p + 1) * 3 ^ (p + 3) * (M + 1) * (1 / 2) ^ 1075 := by
  have hN : ((n - p + 1 : ℕ) : ℚ) ≤ 2 ^ 50 := by exact_mod_cast hn
  have heps : binary64.eps = (1 / 2) ^ 53 := rfl
  have heta : binary64.eta ≤ (1 / 2) ^ 53 := by
    change (1 / 2 * 2 ^ ((-1022 : ℤ) - 52) : ℚ) ≤ _
    decide +kernel
  have hmax : (2 : ℚ) ^ 50 ≤ binary64.max := by decide +kernel
  have hsum : binary64.eps + binary64.eta ≤ 1 / 2 ^ 52 := by
    rw [heps]; refine (add_le_add le_rfl heta).trans ?_; norm_num
  obtain ⟨kn, U, V, hk, hkv, hnew, hU, hV, hj, hgap, hsimple⟩ := C90_uniform (F := binary64) h1 h2 (by
    intro m hm
    change roundIeee 52 (-1022) (m : ℚ) = m
    have := roundIeee_rep (K := ℚ) (m := 52) (emin := -1022) m 0 (by
      rw [abs_of_nonneg (by positivity)]
      have : (m : ℤ) ≤ 2 ^ 50 := by exact_mod_cast hm.trans hn
      exact this.trans (by norm_num)) (by norm_num)
    simpa using this) (hN.trans hmax) (by
    have h0 : (0 : ℚ) ≤ ((n - p + 1 : ℕ) : ℚ) := Nat.cast_nonneg _
    have := mul_le_mul_of_nonneg_left hsum h0
    have h3 := mul_le_mul_of_nonneg_right hN (show (0 : ℚ) ≤ 1 / 2 ^ 52 by norm_num)
    norm_num at h3 this ⊢
    linarith)
  have hlP : P.length = n + 1 := hP.length_eq.trans hQ
  have hlU : U.length = n + p + 2 := hU.length_eq.trans hV.length
  have hc : Built (canon p U P) p U P := mkCurve_ok (n := n) hlP h2 (by omega)
  have he : ValidOn 0 1 (canon p V Q) p n V Q := validOn_canon hV hQ
  refine ⟨canon p U P, canon p V Q, U, V, ?_, hc, he, hU, hsimple, fun j hj' => ?_, fun u x hu hx0 hx1 => ?_⟩
  · have := hc
    rw [Built, mkCurve, hnew, ok_bind] at this
    rw [generate]
    simp only [segments_new hlP, ok_bind, matrix_new, generateManualKnots, hk]
    rw [if_neg (by omega)]
    exact this
  · obtain ⟨x, hx, hb⟩ := hj j hj'
    exact ⟨x, hx, hb.trans hsum⟩
  · refine C85_f64 hp hc he hU hP hu hx0 hx1 fun s hs' t ht hst => le_trans ?_ (hgap s hs' t ht hst)
    have h0 : (0 : ℚ) < 2 * ((n - p + 1 : ℕ) : ℚ) := by
      have : (0 : ℚ) < ((n - p + 1 : ℕ) : ℚ) := by exact_mod_cast Nat.succ_pos _
      linarith
    rw [le_div_iff₀ h0]
    have h3 : (1 / 2 : ℚ) ^ 1000 ≤ 1 / 2 ^ 51 := by decide +kernel
    refine (mul_le_mul h3 (show 2 * ((n - p + 1 : ℕ) : ℚ) ≤ 2 * 2 ^ 50 by linarith) h0.le (by norm_num)).trans ?_
    norm_num

/-- non-vacuity: 11 points on a line, degree 3 -/
example : ∃ (P : List (Pt (Ieee binary64) 1)) (Q : List (Pt ℚ 1)), List.Forall₂ PtIs P Q ∧ Q.length = 10 + 1 ∧
    (∀ q ∈ Q, ∀ r, |q r| ≤ 10) ∧ (10 : ℚ) ≤ 2 ^ 1000 := by
  refine ⟨(List.range 11).map fun (i : ℕ) _ => (i : Ieee binary64), (List.range 11).map fun (i : ℕ) _ => (i : ℚ), ?_, by simp,
    by decide +kernel, by decide +kernel⟩
  rw [List.forall₂_map_left_iff, List.forall₂_map_right_iff, List.forall₂_same]
  intro i hi r
  have h : ∀ i ∈ List.range 11, ((i : ℕ) : ℚ) ≤ binary64.max ∧ binary64.rnd (i : ℕ) = (i : ℕ) := by decide +kernel
  have e := is_natCast (F := binary64) (h i hi).1
  rwa [(h i hi).2] at e

end BSpline
