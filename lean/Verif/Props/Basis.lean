import Verif.Refine.Value
import Mathlib.Data.Rat.Floor
import Mathlib.Algebra.Order.Ring.Rat

/-!
# Basis functions: C01 – C04
-/

set_option linter.unusedSectionVars false

namespace BSpline

open Finset

variable {K : Type} [Field K] [LinearOrder K] [IsStrictOrderedRing K]

/-- A knot vector with a double interior knot, used to show that hypotheses can be met. -/
def exU : List ℚ := [0, 0, 0, 1 / 2, 1 / 2, 3 / 4, 1, 1, 1]

example : ClampedKnots 0 1 2 5 exU := by decide +kernel
example : ∃ kn, Knots.new 2 exU = .ok kn ∧ kn.evaluate 0 2 2 (1 / 2) = .ok 1 := by
  refine ⟨canonKnots 2 exU, Knots.new_ok (by decide), by decide +kernel⟩

/-- **C01** The basis functions of every derivative order sum to one on the whole closed
domain. -/
theorem C01_partition_of_unity {a b : K} {p n k : ℕ} {U : List K} (hU : ClampedKnots a b p n U)
    {kn : Knots K} (hkn : Knots.new p U = .ok kn) (hk : k ≤ p) {u : K} (h0 : a ≤ u) (h1 : u ≤ b) :
    ∃ N : ℕ → K, (∀ i, i ≤ n - k → kn.evaluate k i p u = .ok (N i)) ∧
      ∑ i ∈ range (n - k + 1), N i = 1 := by
  have hl := hU.length
  have hle := hU.le
  rw [Knots.new_ok (by omega)] at hkn
  injection hkn with hkn; subst hkn
  refine ⟨fun i => Nf (fun i => fn U (i + k)) k n u (p - k) i, ?_, ?_⟩
  · intro i hi; exact knots_evaluate_ok hU.length hU.le hk (by omega) u
  · obtain ⟨j, hs⟩ := hU.clamp.exists_span h0 h1
    have hp := hs.p_le hU.clamp
    have hjn := hs.le_n
    have hc := hU.clamp.shiftN hk
    have hs' := hs.shiftN (k := k) (by omega)
    have : ∀ i, Nf (fun i => fn U (i + k)) k n u (p - k) i =
        Bs (shiftN k (fn U)) u (delta (j - k)) (p - k) i := by
      intro i
      rw [Nf_eq_Bs _ (by omega), ← base_eq_delta hc hs']; rfl
    simp only [this]
    exact sum_Bs_one hc.mono (by omega) (by omega) (hs'.lt hc)

/-- **C02** Every basis function value lies in `[0, 1]`. -/
theorem C02_between_zero_and_one {a b : K} {p n k i : ℕ} {U : List K}
    (hU : ClampedKnots a b p n U) {kn : Knots K} (hkn : Knots.new p U = .ok kn) (hk : k ≤ p)
    (hi : i ≤ n - k) {u : K} (h0 : a ≤ u) (h1 : u ≤ b) :
    ∃ x, kn.evaluate k i p u = .ok x ∧ 0 ≤ x ∧ x ≤ 1 := by
  have hl := hU.length
  have hle := hU.le
  rw [Knots.new_ok (by omega)] at hkn
  injection hkn with hkn; subst hkn
  obtain ⟨j, hs⟩ := hU.clamp.exists_span h0 h1
  have hp := hs.p_le hU.clamp
  have hjn := hs.le_n
  have hc := hU.clamp.shiftN hk
  have hs' := hs.shiftN (k := k) (by omega)
  have hN : ∀ i, Nf (fun i => fn U (i + k)) k n u (p - k) i =
      Bs (shiftN k (fn U)) u (delta (j - k)) (p - k) i := by
    intro i
    rw [Nf_eq_Bs _ (by omega), ← base_eq_delta hc hs']; rfl
  have hnn := Bs_nonneg hc.mono hs'.lo hs'.le_hi (p - k)
  refine ⟨_, knots_evaluate_ok hU.length hU.le hk (by omega) u, ?_, ?_⟩
  · rw [hN]; exact hnn i
  · rw [hN, ← sum_Bs_one (u := u) (p := p - k) (n := n - k) hc.mono (by omega) (by omega) (hs'.lt hc)]
    exact single_le_sum (f := fun i => Bs (shiftN k (fn U)) u (delta (j - k)) (p - k) i)
      (fun i _ => hnn i) (by simp; omega)

/-- The domain of the basis function `i` of order `k`, read off the `k`-th knot vector that the
API exposes. -/
theorem vectorDerivative_eq {a b : K} {p n k i : ℕ} {U : List K} (hU : ClampedKnots a b p n U)
    (hk : k ≤ p) {Uk : List K} (h : (canonKnots p U).vectorDerivative k = .ok Uk)
    (hi : i < n + p + 2 - 2 * k) : Uk[i]? = some (fn U (i + k)) := by
  have hl := hU.length
  rw [Knots.vectorDerivative, canonKnots_idx hk] at h
  injection h with h; subst h
  rw [List.getElem?_take, if_pos (by omega), List.getElem?_drop, fn_lt (by omega),
    List.getElem?_eq_getElem (by omega)]
  congr 2; omega

/-- **C03** Local support: a basis function vanishes outside the interval between its first and
last knot. -/
theorem C03_local_support {a b : K} {p n k i : ℕ} {U : List K} (hU : ClampedKnots a b p n U)
    {kn : Knots K} (hkn : Knots.new p U = .ok kn) (hk : k ≤ p) (hi : i ≤ n - k) {u : K}
    (h0 : a ≤ u) (h1 : u ≤ b) {Uk : List K} (hUk : kn.vectorDerivative k = .ok Uk) {x y : K}
    (hx : Uk[i]? = some x) (hy : Uk[i + (p - k) + 1]? = some y) (hout : u < x ∨ y < u) :
    kn.evaluate k i p u = .ok 0 := by
  have hl := hU.length
  have hle := hU.le
  rw [Knots.new_ok (by omega)] at hkn
  injection hkn with hkn; subst hkn
  rw [vectorDerivative_eq hU hk hUk (by omega)] at hx hy
  injection hx with hx; injection hy with hy
  obtain ⟨j, hs⟩ := hU.clamp.exists_span h0 h1
  have hp := hs.p_le hU.clamp
  have hjn := hs.le_n
  have hc := hU.clamp.shiftN hk
  have hs' := hs.shiftN (k := k) (by omega)
  rw [knots_evaluate_ok hU.length hU.le hk (by omega) u, Nf_eq_Bs _ (by omega)]
  have := base_eq_delta hc hs'
  rw [show (fun i => fn U (i + k)) = shiftN k (fn U) from rfl, this, Bs_support]
  rcases hout with h | h
  · right
    by_contra hcon
    have : fn U (i + k) ≤ fn U j := hU.clamp.mono (by omega)
    rw [hx] at this
    exact absurd (lt_of_lt_of_le h (this.trans hs.lo)) (lt_irrefl _)
  · left
    by_contra hcon
    have : fn U (j + 1) ≤ fn U (i + (p - k) + 1 + k) := hU.clamp.mono (by omega)
    rw [hy] at this
    exact absurd (lt_of_le_of_lt (hs.le_hi.trans this) h) (lt_irrefl _)

/-- **C03** On the span `[U_j, U_{j+1})` only the functions `j - (p-k), …, j` can be non-zero. -/
theorem C03_active_functions {a b : K} {p n k i j : ℕ} {U : List K} (hU : ClampedKnots a b p n U)
    {kn : Knots K} (hkn : Knots.new p U = .ok kn) (hk : k ≤ p) (hi : i ≤ n - k) {u : K}
    {Uk : List K} (hUk : kn.vectorDerivative k = .ok Uk) {x y : K}
    (hx : Uk[j]? = some x) (hy : Uk[j + 1]? = some y) (hxu : x ≤ u) (huy : u < y)
    (hout : i + (p - k) < j ∨ j < i) : kn.evaluate k i p u = .ok 0 := by
  have hl := hU.length
  have hle := hU.le
  rw [Knots.new_ok (by omega)] at hkn
  injection hkn with hkn; subst hkn
  have hjl : j + 1 < n + p + 2 - 2 * k := by
    rw [Knots.vectorDerivative, canonKnots_idx hk] at hUk
    injection hUk with hUk; subst hUk
    obtain ⟨hlt, _⟩ := List.getElem?_eq_some_iff.mp hy
    simp only [List.length_take, List.length_drop] at hlt
    omega
  rw [vectorDerivative_eq hU hk hUk (by omega)] at hx hy
  injection hx with hx; injection hy with hy
  have hs' : IsSpan (shiftN k (fn U)) (n - k) u j := by
    refine ⟨?_, by simp only [shiftN_apply, hx]; exact hxu,
      Or.inl (by simp only [shiftN_apply, hy]; exact huy)⟩
    by_contra hcon
    rw [hU.clamp.right (j + k) (by omega)] at hx
    rw [hU.clamp.right (j + 1 + k) (by omega)] at hy
    rw [← hx] at hxu; rw [← hy] at huy
    exact absurd (lt_of_le_of_lt hxu huy) (lt_irrefl _)
  have hc := hU.clamp.shiftN hk
  rw [knots_evaluate_ok hU.length hU.le hk (by omega) u, Nf_eq_Bs _ (by omega)]
  have := base_eq_delta hc hs'
  rw [show (fun i => fn U (i + k)) = shiftN k (fn U) from rfl, this, Bs_support]
  exact hout

/-! ### C04: the documented formula -/

/-- The factor of the module documentation: zero on a support of length zero. -/
def docMu (U : ℕ → K) (u : K) (i h : ℕ) : K :=
  if U (i + h + 1) = U i then 0 else (u - U i) / (U (i + h + 1) - U i)

/-- The Cox–de Boor–Mansfield recursion of the module documentation (curve/basis/mod.rs:6-17). -/
def docBasis (U : ℕ → K) (k n : ℕ) (u : K) : ℕ → ℕ → K
  | 0, i => if (U i ≤ u ∧ u < U (i + 1)) ∨ (i = n - k ∧ u = U (n + 1 - k)) then 1 else 0
  | h + 1, i => docMu U u i h * docBasis U k n u h i +
      (1 - docMu U u (i + 1) h) * docBasis U k n u h (i + 1)

theorem docBasis_zero_support {U : ℕ → K} (hm : Monotone U) {k n : ℕ} (hk : k ≤ n)
    (hlast : U (n - k) < U (n + 1 - k)) (u : K) (h : ℕ) : ∀ i, U (i + h + 1) = U i →
    docBasis U k n u h i = 0 := by
  induction h with
  | zero =>
    intro i hi
    simp only [docBasis]
    rw [if_neg]
    rintro (⟨h1, h2⟩ | ⟨rfl, _⟩)
    · simp only [add_zero] at hi
      rw [hi] at h2
      exact absurd (lt_of_le_of_lt h1 h2) (lt_irrefl _)
    · rw [show n - k + 0 + 1 = n + 1 - k by omega] at hi
      exact hlast.ne' hi
  | succ h ih =>
    intro i hi
    have h1 : U i ≤ U (i + h + 1) := hm (by omega)
    have h2 : U (i + h + 1) ≤ U (i + (h + 1) + 1) := hm (by omega)
    have h3 : U i ≤ U (i + 1) := hm (by omega)
    have h4 : U (i + 1) ≤ U (i + 1 + h + 1) := hm (by omega)
    have h5 : U (i + 1 + h + 1) = U (i + (h + 1) + 1) := by congr 1; omega
    simp only [docBasis]
    rw [ih i (le_antisymm (h2.trans_eq hi) h1), ih (i + 1) (le_antisymm
      ((h5.trans hi).le.trans h3) h4)]
    simp

/-- **C04** On every non-decreasing knot vector whose last domain span is not empty the
implementation computes the documented formula, for every degree, index and parameter. -/
theorem C04_documented_formula {U : List K} (hsorted : U.Pairwise (· ≤ ·)) {k n : ℕ} (hk : k ≤ n)
    (hn : n + 1 - k < U.length) (hlast : fn U (n - k) < fn U (n + 1 - k)) (u : K) {p i : ℕ}
    (hi : i + p + 1 < U.length) : basis U k n u p i = .ok (docBasis (fn U) k n u p i) := by
  rw [basis_ok hk hn p i hi]
  congr 1
  have hm := fn_monotone hsorted
  clear hi
  revert i
  induction p with
  | zero =>
    intro i
    simp only [Nf, docBasis, Cmp.le, Cmp.lt, Cmp.eq, Bool.or_eq_true, Bool.and_eq_true,
      decide_eq_true_eq]
  | succ p ih =>
    intro i
    simp only [Nf, docBasis, docMu, Cmp.eq, decide_eq_true_eq, ih]
    rw [show i + (p + 1) = i + p + 1 by omega, show i + 1 + (p + 1) = i + 1 + p + 1 by omega]
    congr 1
    · split <;> simp
    · split
      · rename_i h
        rw [docBasis_zero_support hm hk hlast u p (i + 1) h]; simp
      · rename_i h
        have : fn U (i + 1 + p + 1) - fn U (i + 1) ≠ 0 := sub_ne_zero.mpr h
        congr 1
        field_simp
        ring

/-- the hypotheses of C04 hold for an unclamped knot vector too -/
example : basis ([0, 1, 1, 2, 4, 5, 7] : List ℚ) 0 3 (3 / 2) 2 1 =
    .ok (docBasis (fn [0, 1, 1, 2, 4, 5, 7]) 0 3 (3 / 2) 2 1) :=
  C04_documented_formula (by decide +kernel) (by decide) (by decide) (by decide +kernel) _ (by decide)

end BSpline
