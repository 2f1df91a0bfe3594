import Verif.Refine.Insert
import Verif.Refine.Normalize
import Verif.Props.Predicates
import Mathlib.Tactic.Linarith

/-!
# Knot searches, accessors and affine changes: C46, C47, C48, C49
-/

set_option linter.unusedSectionVars false

namespace BSpline

/-! ### The search loops -/

section LawFree
variable {K : Type} [Zero K] [Cmp K]

theorem loopLeft_spec {V : List K} {u : K} (r : ℕ) : ∀ i, i + 1 + r < V.length →
    ∃ j, Knots.loopLeft V u r i = .ok j ∧ i ≤ j ∧ j ≤ i + r ∧
      (∀ m, i < m → m ≤ j → Cmp.lt (fn V m) u = true) ∧
      (j = i + r ∨ Cmp.lt (fn V (j + 1)) u = false) := by
  induction r with
  | zero =>
    intro i hi
    rw [Knots.loopLeft, idx_ok (by omega), ok_bind]
    refine ⟨i, ?_, le_rfl, le_rfl, fun m h1 h2 => by omega, Or.inl rfl⟩
    simp only [pure_ok]; split <;> rfl
  | succ r ih =>
    intro i hi
    rw [Knots.loopLeft, idx_ok (by omega), ok_bind]
    by_cases h : Cmp.lt (fn V (i + 1)) u = true
    · rw [if_pos h]
      obtain ⟨j, h1, h2, h3, h4, h5⟩ := ih (i + 1) (by omega)
      refine ⟨j, h1, by omega, by omega, ?_, by rwa [show i + (r + 1) = i + 1 + r by omega]⟩
      intro m h6 h7
      rcases Nat.lt_or_ge (i + 1) m with h8 | h8
      · exact h4 m h8 h7
      · rw [show m = i + 1 by omega]; exact h
    · rw [if_neg h]
      exact ⟨i, rfl, le_rfl, by omega, fun m h1 h2 => by omega, Or.inr (by simpa using h)⟩

theorem loopLeftOrEqual_spec {V : List K} {u : K} (r : ℕ) : ∀ i, i + 1 + r < V.length →
    ∃ j, Knots.loopLeftOrEqual V u r i = .ok j ∧ i ≤ j ∧ j ≤ i + r ∧
      (∀ m, i < m → m ≤ j → Cmp.le (fn V m) u = true) ∧
      (j = i + r ∨ Cmp.le (fn V (j + 1)) u = false ∨
        (i < j ∧ Cmp.eq (fn V (j + 1)) (fn V j) = true)) := by
  induction r with
  | zero =>
    intro i hi
    rw [Knots.loopLeftOrEqual, idx_ok (by omega), ok_bind]
    refine ⟨i, ?_, le_rfl, le_rfl, fun m h1 h2 => by omega, Or.inl rfl⟩
    simp only [pure_ok]; split <;> rfl
  | succ r ih =>
    intro i hi
    rw [Knots.loopLeftOrEqual, idx_ok (by omega), ok_bind]
    by_cases h : Cmp.le (fn V (i + 1)) u = true
    · rw [if_pos h]
      rw [idx_ok (by omega), ok_bind, ok_bind]
      by_cases he : Cmp.eq (fn V (i + 1 + 1)) (fn V (i + 1)) = true
      · rw [if_pos he]
        refine ⟨i + 1, rfl, by omega, by omega, ?_, Or.inr (Or.inr ⟨by omega, he⟩)⟩
        intro m h1 h2
        rw [show m = i + 1 by omega]; exact h
      · rw [if_neg he]
        obtain ⟨j, h1, h2, h3, h4, h5⟩ := ih (i + 1) (by omega)
        refine ⟨j, h1, by omega, by omega, ?_, ?_⟩
        · intro m h6 h7
          rcases Nat.lt_or_ge (i + 1) m with h8 | h8
          · exact h4 m h8 h7
          · rw [show m = i + 1 by omega]; exact h
        · rcases h5 with h5 | h5 | h5
          · left; omega
          · exact Or.inr (Or.inl h5)
          · exact Or.inr (Or.inr ⟨by omega, h5.2⟩)
    · rw [if_neg h]
      exact ⟨i, rfl, le_rfl, by omega, fun m h1 h2 => by omega, Or.inr (Or.inl (by simpa using h))⟩

theorem loopRight_spec {V : List K} {u : K} (r : ℕ) : ∀ i, r < i → i ≤ V.length →
    ∃ j, Knots.loopRight V u r i = .ok j ∧ i - r ≤ j ∧ j ≤ i ∧
      (∀ m, j ≤ m → m < i → Cmp.lt u (fn V m) = true) ∧
      (j = i - r ∨ Cmp.lt u (fn V (j - 1)) = false) := by
  induction r with
  | zero =>
    intro i hi hl
    rw [Knots.loopRight, usub_ok (by omega), ok_bind, idx_ok (by omega), ok_bind]
    refine ⟨i, ?_, le_rfl, le_rfl, fun m h1 h2 => by omega, Or.inl rfl⟩
    simp only [pure_ok]; split <;> rfl
  | succ r ih =>
    intro i hi hl
    rw [Knots.loopRight, usub_ok (by omega), ok_bind, idx_ok (by omega), ok_bind]
    by_cases h : Cmp.lt u (fn V (i - 1)) = true
    · rw [if_pos h]
      rw [ok_bind]
      obtain ⟨j, h1, h2, h3, h4, h5⟩ := ih (i - 1) (by omega) (by omega)
      refine ⟨j, h1, by omega, by omega, ?_, by rwa [show i - (r + 1) = i - 1 - r by omega]⟩
      intro m h6 h7
      rcases Nat.lt_or_ge m (i - 1) with h8 | h8
      · exact h4 m h6 h8
      · rw [show m = i - 1 by omega]; exact h
    · rw [if_neg h]
      exact ⟨i, rfl, by omega, le_rfl, fun m h1 h2 => by omega, Or.inr (by simpa using h)⟩

theorem loopRightOrEqual_spec {V : List K} {u : K} (r : ℕ) : ∀ i, r ≤ i → 1 ≤ i → i ≤ V.length →
    (r < i ∨ Cmp.le u (fn V 0) = false) →
    ∃ j, Knots.loopRightOrEqual V u r i = .ok j ∧ i - r ≤ j ∧ j ≤ i ∧
      (∀ m, j ≤ m → m < i → Cmp.le u (fn V m) = true) ∧
      (j = i - r ∨ Cmp.le u (fn V (j - 1)) = false ∨
        (j < i ∧ Cmp.eq (fn V (j - 1)) (fn V j) = true)) := by
  induction r with
  | zero =>
    intro i _ hi hl _
    rw [Knots.loopRightOrEqual, usub_ok (by omega), ok_bind, idx_ok (by omega), ok_bind]
    refine ⟨i, ?_, le_rfl, le_rfl, fun m h1 h2 => by omega, Or.inl rfl⟩
    simp only [pure_ok]; split <;> rfl
  | succ r ih =>
    intro i hri hi hl h0
    rw [Knots.loopRightOrEqual, usub_ok (by omega), ok_bind, idx_ok (by omega), ok_bind]
    by_cases h : Cmp.le u (fn V (i - 1)) = true
    · rw [if_pos h]
      have hi2 : 2 ≤ i := by
        by_contra hc
        rcases h0 with h0 | h0
        · omega
        · rw [show i - 1 = 0 by omega, h0] at h; simp at h
      rw [ok_bind, usub_ok (by omega), ok_bind, idx_ok (by omega), ok_bind, idx_ok (by omega), ok_bind]
      by_cases he : Cmp.eq (fn V (i - 1 - 1)) (fn V (i - 1)) = true
      · rw [if_pos he]
        refine ⟨i - 1, rfl, by omega, by omega, ?_, Or.inr (Or.inr ⟨by omega, he⟩)⟩
        intro m h1 h2
        rw [show m = i - 1 by omega]; exact h
      · rw [if_neg he]
        obtain ⟨j, h1, h2, h3, h4, h5⟩ := ih (i - 1) (by omega) (by omega) (by omega)
          (h0.imp (fun h => by omega) id)
        refine ⟨j, h1, by omega, by omega, ?_, ?_⟩
        · intro m h6 h7
          rcases Nat.lt_or_ge m (i - 1) with h8 | h8
          · exact h4 m h6 h8
          · rw [show m = i - 1 by omega]; exact h
        · rcases h5 with h5 | h5 | h5
          · left; omega
          · exact Or.inr (Or.inl h5)
          · exact Or.inr (Or.inr ⟨by omega, h5.2⟩)
    · rw [if_neg h]
      exact ⟨i, rfl, by omega, le_rfl, fun m h1 h2 => by omega, Or.inr (Or.inl (by simpa using h))⟩

/-- the derived knot vector -/
def dvec (U : List K) (k : ℕ) : List K := (U.drop k).take (U.length - 2 * k)

theorem dvec_length (U : List K) (k : ℕ) : (dvec U k).length = U.length - 2 * k := by
  simp [dvec]; omega

theorem fn_dvec {U : List K} {k i : ℕ} (h : i + 2 * k < U.length) : fn (dvec U k) i = fn U (i + k) := by
  rw [dvec, fn_drop_take (by omega) (by omega)]; congr 1; omega

theorem canon_vectorDerivative {p k : ℕ} (hk : k ≤ p) (U : List K) :
    (canonKnots p U).vectorDerivative k = .ok (dvec U k) := canonKnots_idx hk U

theorem canon_findIdx {p n k : ℕ} {U : List K} (hU : U.length = n + p + 2) (hp : p ≤ n) (hk : k ≤ p)
    (u : K) (c : Comparator) : (canonKnots p U).findIdx u k c = match c with
      | .left => Knots.loopLeft (dvec U k) u (n - p) (p - k)
      | .leftOrEqual => Knots.loopLeftOrEqual (dvec U k) u (n - p) (p - k)
      | .rightOrEqual => Knots.loopRightOrEqual (dvec U k) u (n - p + 1) (n + 1 - k)
      | .right => Knots.loopRight (dvec U k) u (n - p) (n + 1 - k) := by
  have hd : usub (canonKnots p U).degree k = .ok (p - k) := usub_ok hk
  have hl := dvec_length U k
  rw [Knots.findIdx, canon_vectorDerivative hk, ok_bind, hd, ok_bind]
  cases c
  · simp only [canonKnots_segments hU, ok_bind]
    rw [usub_ok (by omega), ok_bind, show n + 1 - k - (p - k + 1) = n - p by omega]
  · simp only [canonKnots_segments hU, ok_bind]
    rw [usub_ok (by omega), ok_bind, show n + 1 - k - (p - k + 1) = n - p by omega]
  · dsimp only
    rw [usub_ok (by omega), ok_bind, usub_ok (by omega), ok_bind,
      show (dvec U k).length - 1 - (p - k) = n + 1 - k by omega,
      show n + 1 - k - (p - k) = n - p + 1 by omega]
  · dsimp only
    rw [usub_ok (by omega), ok_bind, usub_ok (by omega), ok_bind,
      show (dvec U k).length - 1 - (p - k) = n + 1 - k by omega,
      show n + 1 - k - 1 - (p - k) = n - p by omega]

/-- **C46 (partial: absence of panics)** For any knots (not even sorted) and any `u`, also NaN,
`find_idx` returns a domain index; with `RightOrEqual` the order `k = p` is excluded
(`C46_right_or_equal_panics`). -/
theorem C46_never_panics_partial {p n k : ℕ} {U : List K} (hU : U.length = n + p + 2) (hp : p ≤ n)
    (hk : k ≤ p) {kn : Knots K} (hkn : Knots.new p U = .ok kn) (u : K) (c : Comparator)
    (hc : c = .rightOrEqual → k < p) :
    ∃ i, kn.findIdx u k c = .ok i ∧ p - k ≤ i ∧ i ≤ n + 1 - k := by
  rw [Knots.new_ok (by omega)] at hkn
  injection hkn with hkn
  subst hkn
  have hl := dvec_length U k
  rw [canon_findIdx hU hp hk]
  cases c
  · obtain ⟨j, h1, h2, h3, -⟩ := loopLeft_spec (V := dvec U k) (u := u) (n - p) (p - k) (by omega)
    exact ⟨j, h1, h2, by omega⟩
  · obtain ⟨j, h1, h2, h3, -⟩ := loopLeftOrEqual_spec (V := dvec U k) (u := u) (n - p) (p - k) (by omega)
    exact ⟨j, h1, h2, by omega⟩
  · have := hc rfl
    obtain ⟨j, h1, h2, h3, -⟩ := loopRightOrEqual_spec (V := dvec U k) (u := u) (n - p + 1) (n + 1 - k)
      (by omega) (by omega) (by omega) (Or.inl (by omega))
    exact ⟨j, h1, by omega, h3⟩
  · obtain ⟨j, h1, h2, h3, -⟩ := loopRight_spec (V := dvec U k) (u := u) (n - p) (n + 1 - k)
      (by omega) (by omega)
    exact ⟨j, h1, by omega, h3⟩

/-! ### C48: accessors -/

section Accessors
variable [Add K] [Sub K] [Mul K] [Div K] [One K] [NatCast K]

/-- The full claim C48 about `segments_derivative`. -/
def C48_segments_derivative_full : Prop := ∀ (p n k : ℕ) (U : List ℚ) (kn : Knots ℚ), p ≤ n → k ≤ p →
  U.length = n + p + 2 → Knots.new p U = .ok kn → kn.segmentsDerivative k = .ok n

/-- **C48** The accessors on every knot vector with `n ≥ p`, sorted or not, and every derivative
order `k ≤ p`. -/
theorem C48_accessors {p n : ℕ} {U : List K} (hU : U.length = n + p + 2) (hp : p ≤ n)
    {kn : Knots K} (hkn : Knots.new p U = .ok kn) :
    kn.degree = p ∧ kn.maxDerivative = p ∧ kn.vector = .ok U ∧ kn.segments = .ok n ∧
    kn.internalCount = .ok (n - p) ∧ kn.internal = .ok ((U.drop (p + 1)).take (n - p)) ∧
    kn.domainCount = .ok (n - p + 2) ∧ kn.domain = .ok ((U.drop p).take (n - p + 2)) ∧
    (∀ i (hi : i < n - p), kn.internalKnot i = .ok (U[p + 1 + i]'(by omega))) ∧
    (∀ i (hi : i < n - p + 2), kn.domainKnot i = .ok (U[p + i]'(by omega))) ∧
    (∀ k, k ≤ p → kn.len k = .ok (n + p + 2 - 2 * k) ∧
      kn.vectorDerivative k = .ok ((U.drop k).take (n + p + 2 - 2 * k)) ∧
      kn.domainDerivative k = .ok ((U.drop p).take (n - p + 2))) ∧
    (∀ u, kn.multiplicity u = .ok
      (((U.drop p).take (n - p + 2)).countP (fun x => Cmp.eq x u))) := by
  rw [Knots.new_ok (by omega)] at hkn
  injection hkn with hkn
  subst hkn
  have hint : (canonKnots p U).internalCount = .ok (n - p) := by
    rw [Knots.internalCount, canonKnots_segments hU, ok_bind]; exact usub_ok hp
  have hinternal : (canonKnots p U).internal = .ok ((U.drop (p + 1)).take (n - p)) := by
    rw [Knots.internal, canonKnots_idx (Nat.zero_le p), ok_bind, hint, ok_bind]
    simp only [List.drop_zero, Nat.mul_zero, Nat.sub_zero, List.take_length, canonKnots_p]
    exact segment_ok (by omega)
  have hdom := canonKnots_domain hU hp
  have hdc : (canonKnots p U).domainCount = .ok (n - p + 2) := by
    rw [Knots.domainCount, canonKnots_segments hU, ok_bind]
    rw [show (canonKnots p U).p = p from rfl, usub_ok hp]; rfl
  refine ⟨rfl, rfl, canonKnots_vector U, canonKnots_segments hU, hint, hinternal, hdc, hdom,
    ?_, ?_, ?_, ?_⟩
  · intro i hi
    rw [Knots.internalKnot, hinternal, ok_bind, idx_ok' (by simp; omega)]
    simp
  · intro i hi
    rw [Knots.domainKnot, hdom, ok_bind, idx_ok' (by simp; omega)]
    simp
  · intro k hk
    refine ⟨?_, ?_, ?_⟩
    · rw [Knots.len, canonKnots_idx hk, ok_bind]
      simp only [pure_ok, List.length_take, List.length_drop]
      congr 1; omega
    · rw [canon_vectorDerivative hk, dvec, hU]
    · rw [Knots.domainDerivative, canonKnots_idx hk, ok_bind, show (canonKnots p U).p = p from rfl,
        usub_ok hk, ok_bind, hdc, ok_bind, segment_ok (by simp; omega)]
      congr 1
      rw [List.drop_take, List.drop_drop, List.take_take]
      congr 1
      · omega
      · congr 1; omega
  · intro u
    rw [canonKnots_multiplicity hU hp, multF, List.countP_eq_length_filter]

/-- **C48 (partial)** `segments_derivative(k)` is `n` for `2 k ≤ p + 2`. Missing: larger `k`, where
the subtraction underflows (`C48_segments_derivative_panics`). -/
theorem C48_segments_derivative_partial {p n k : ℕ} {U : List K} (hU : U.length = n + p + 2)
    (hp : p ≤ n) (hk : k ≤ p) (h2 : 2 * k ≤ p + 2) {kn : Knots K} (hkn : Knots.new p U = .ok kn) :
    kn.segmentsDerivative k = .ok n := by
  rw [Knots.new_ok (by omega)] at hkn
  injection hkn with hkn
  subst hkn
  rw [Knots.segmentsDerivative, canonKnots_idx hk, ok_bind, show (canonKnots p U).p = p from rfl,
    usub_ok h2, ok_bind, usub_ok (by simp; omega)]
  simp only [List.length_take, List.length_drop]
  congr 1; omega

/-- **C48** ... and panics for all larger `k`. -/
theorem C48_segments_derivative_panics {p n k : ℕ} {U : List K} (hU : U.length = n + p + 2)
    (hp : p ≤ n) (hk : k ≤ p) (h2 : p + 2 < 2 * k) {kn : Knots K} (hkn : Knots.new p U = .ok kn) :
    kn.segmentsDerivative k = .error .underflow := by
  rw [Knots.new_ok (by omega)] at hkn
  injection hkn with hkn
  subst hkn
  rw [Knots.segmentsDerivative, canonKnots_idx hk, ok_bind, show (canonKnots p U).p = p from rfl,
    usub_error h2, error_bind]

theorem C48_segments_derivative_full_false : ¬ C48_segments_derivative_full := by
  intro h
  have := h 3 3 3 [0, 0, 0, 0, 1, 1, 1, 1] (canonKnots 3 [0, 0, 0, 0, 1, 1, 1, 1]) (by omega) (by omega)
    rfl (Knots.new_ok (by decide))
  rw [C48_segments_derivative_panics (n := 3) rfl (by omega) (by omega) (by omega)
    (Knots.new_ok (by decide))] at this
  simp at this

/-- non-vacuity -/
example : (canonKnots 2 ([0, 0, 0, 1 / 2, 1 / 2, 1, 1, 1] : List ℚ)).multiplicity (1 / 2) = .ok 2 ∧
    (canonKnots 2 ([0, 0, 0, 1 / 2, 1 / 2, 1, 1, 1] : List ℚ)).multiplicity 0 = .ok 1 ∧
    (canonKnots 2 ([0, 0, 0, 1 / 2, 1 / 2, 1, 1, 1] : List ℚ)).domain = .ok [0, 1 / 2, 1 / 2, 1] ∧
    (canonKnots 2 ([0, 0, 0, 1 / 2, 1 / 2, 1, 1, 1] : List ℚ)).segmentsDerivative 2 = .ok 4 := by
  decide +kernel

end Accessors

/-- The bisection never leaves the index range. -/
theorem bisect_total {V : List K} {u : K} (fuel : ℕ) : ∀ low high, high < V.length → low ≤ high →
    ∃ r, Knots.bisect V u fuel low high = .ok r ∧ low ≤ r ∧ r ≤ high := by
  induction fuel with
  | zero => intro low high hh hl; exact ⟨high, rfl, hl, le_rfl⟩
  | succ fuel ih =>
    intro low high hh hl
    rw [Knots.bisect]
    by_cases hlt : low < high
    · rw [if_pos hlt]
      dsimp only
      rw [idx_ok (by omega), ok_bind]
      split
      · rw [usub_ok (by omega), ok_bind]
        obtain ⟨r, h1, h2, h3⟩ := ih low (high - (high - low) / 2 - 1) (by omega) (by omega)
        exact ⟨r, h1, h2, by omega⟩
      · obtain ⟨r, h1, h2, h3⟩ := ih (high - (high - low) / 2) high hh (by omega)
        exact ⟨r, h1, by omega, h3⟩
    · rw [if_neg hlt]; exact ⟨high, rfl, hl, le_rfl⟩

/-- **C47** `find_index` never panics, for any knots and any `u`. -/
theorem C47_never_panics {p n k : ℕ} {U : List K} (hU : U.length = n + p + 2) (hp : p ≤ n)
    (hk : k ≤ p) {kn : Knots K} (hkn : Knots.new p U = .ok kn) (u : K) :
    ∃ r, kn.findIndex u k = .ok r := by
  rw [Knots.new_ok (by omega)] at hkn
  injection hkn with hkn
  subst hkn
  have hl := dvec_length U k
  have hd : usub (canonKnots p U).degree k = .ok (p - k) := usub_ok hk
  rw [Knots.findIndex, canon_vectorDerivative hk, ok_bind, hd, ok_bind]
  dsimp only
  rw [idx_ok (by omega), ok_bind]
  split
  · exact ⟨_, rfl⟩
  · rw [usub_ok (by omega), ok_bind, usub_ok (by omega), ok_bind]
    obtain ⟨r, h, -⟩ := bisect_total (V := dvec U k) (u := u)
      ((dvec U k).length - (p - k) - 1 - (p - k)) (p - k) ((dvec U k).length - (p - k) - 1)
      (by omega) (by omega)
    rw [h]; exact ⟨_, rfl⟩

end LawFree

variable {K : Type} [Field K] [LinearOrder K] [IsStrictOrderedRing K] {d : ℕ}

/-! ### C46 -/

/-- `i` is an index between `lo` and `hi` of a knot nearest to `u` among those that are
lower (or equal), higher (or equal) than `u`. -/
def IsNearest (V : List K) (lo hi : ℕ) (u : K) (c : Comparator) (i : ℕ) : Prop :=
  lo ≤ i ∧ i ≤ hi ∧ match c with
  | .left => V.getD i 0 < u ∧ ∀ m, lo ≤ m → m ≤ hi → V.getD m 0 < u → V.getD m 0 ≤ V.getD i 0
  | .leftOrEqual => V.getD i 0 ≤ u ∧ ∀ m, lo ≤ m → m ≤ hi → V.getD m 0 ≤ u → V.getD m 0 ≤ V.getD i 0
  | .rightOrEqual => u ≤ V.getD i 0 ∧ ∀ m, lo ≤ m → m ≤ hi → u ≤ V.getD m 0 → V.getD i 0 ≤ V.getD m 0
  | .right => u < V.getD i 0 ∧ ∀ m, lo ≤ m → m ≤ hi → u < V.getD m 0 → V.getD i 0 ≤ V.getD m 0

/-- The full claim C46. (For `Left` at the left end and `Right` at the right end no such knot
exists; for `LeftOrEqual` the right end is excluded by the documented half-open domain.) -/
def C46_full : Prop := ∀ (p n k : ℕ) (U : List ℚ) (kn : Knots ℚ) (u : ℚ) (c : Comparator),
  ClampedKnots 0 1 p n U → Knots.new p U = .ok kn → k ≤ p → 0 ≤ u → u ≤ 1 →
  (c = .left → 0 < u) → (c = .right ∨ c = .leftOrEqual → u < 1) →
    ∃ V i, kn.vectorDerivative k = .ok V ∧ kn.findIdx u k c = .ok i ∧
      IsNearest V (p - k) (n + 1 - k) u c i

section
variable {a b : K} {p n k : ℕ} {U : List K}

theorem getD_dvec (h : ClampedKnots a b p n U) (hk : k ≤ p) {i : ℕ} (hi : i ≤ n + 1 - k) :
    (dvec U k).getD i 0 = fn U (i + k) := by
  have := dvec_length U k
  have := h.length
  have := h.le
  rw [List.getD_eq_getElem _ _ (by omega), ← fn_lt, fn_dvec (by omega)]

theorem fn_dvec' (h : ClampedKnots a b p n U) (hk : k ≤ p) {i : ℕ} (hi : i ≤ n + 1 - k) :
    fn (dvec U k) i = fn U (i + k) := by
  have := h.length
  have := h.le
  rw [fn_dvec (by omega)]

/-- **C46** `Left`: the last index of the nearest lower domain knot, for every knot vector. -/
theorem C46_left (h : ClampedKnots a b p n U) {kn : Knots K} (hkn : Knots.new p U = .ok kn)
    (hk : k ≤ p) {u : K} (hu0 : a < u) (hu1 : u ≤ b) :
    ∃ V i, kn.vectorDerivative k = .ok V ∧ kn.findIdx u k .left = .ok i ∧
      IsNearest V (p - k) (n + 1 - k) u .left i ∧ u ≤ V.getD (i + 1) 0 := by
  have hle := h.le
  have hl := h.length
  have hlv := dvec_length U k
  rw [Knots.new_ok (by omega)] at hkn
  injection hkn with hkn
  subst hkn
  obtain ⟨j, h1, h2, h3, h4, h5⟩ := loopLeft_spec (V := dvec U k) (u := u) (n - p) (p - k) (by omega)
  have hj1 : (dvec U k).getD j 0 < u := by
    rw [getD_dvec h hk (by omega)]
    rcases h2.lt_or_eq with h6 | h6
    · have := h4 j h6 le_rfl
      rw [fn_dvec' h hk (by omega)] at this
      simpa [Cmp.lt] using this
    · rw [h.clamp.left _ (by omega)]; exact hu0
  have hj2 : u ≤ fn U (j + 1 + k) := by
    rcases h5 with h5 | h5
    · rw [h.clamp.right _ (by omega)]; exact hu1
    · rw [fn_dvec' h hk (by omega)] at h5
      simpa [Cmp.lt] using h5
  refine ⟨_, j, canon_vectorDerivative hk U, by rw [canon_findIdx hl hle hk]; exact h1,
    ⟨h2, by omega, hj1, ?_⟩, by rw [getD_dvec h hk (by omega)]; exact hj2⟩
  intro m hm1 hm2 hm
  rw [getD_dvec h hk (by omega)] at hm ⊢
  rw [getD_dvec h hk (by omega)]
  apply h.clamp.mono
  by_contra hc
  exact absurd (lt_of_lt_of_le hm (hj2.trans (h.clamp.mono (by omega)))) (lt_irrefl _)

/-- **C46** `Right`: the first index of the nearest higher domain knot, for every knot vector. -/
theorem C46_right (h : ClampedKnots a b p n U) {kn : Knots K} (hkn : Knots.new p U = .ok kn)
    (hk : k ≤ p) {u : K} (hu0 : a ≤ u) (hu1 : u < b) :
    ∃ V i, kn.vectorDerivative k = .ok V ∧ kn.findIdx u k .right = .ok i ∧
      IsNearest V (p - k) (n + 1 - k) u .right i ∧ V.getD (i - 1) 0 ≤ u := by
  have hle := h.le
  have hl := h.length
  have hlv := dvec_length U k
  rw [Knots.new_ok (by omega)] at hkn
  injection hkn with hkn
  subst hkn
  obtain ⟨j, h1, h2, h3, h4, h5⟩ := loopRight_spec (V := dvec U k) (u := u) (n - p) (n + 1 - k)
    (by omega) (by omega)
  have hj1 : u < (dvec U k).getD j 0 := by
    rw [getD_dvec h hk (by omega)]
    rcases h3.lt_or_eq with h6 | h6
    · have := h4 j le_rfl h6
      rw [fn_dvec' h hk (by omega)] at this
      simpa [Cmp.lt] using this
    · rw [h.clamp.right _ (by omega)]; exact hu1
  have hj2 : fn U (j - 1 + k) ≤ u := by
    rcases h5 with h5 | h5
    · rw [h.clamp.left _ (by omega)]; exact hu0
    · rw [fn_dvec' h hk (by omega)] at h5
      simpa [Cmp.lt] using h5
  refine ⟨_, j, canon_vectorDerivative hk U, by rw [canon_findIdx hl hle hk]; exact h1,
    ⟨by omega, by omega, hj1, ?_⟩, by rw [getD_dvec h hk (by omega)]; exact hj2⟩
  intro m hm1 hm2 hm
  rw [getD_dvec h hk (by omega)] at hm ⊢
  rw [getD_dvec h hk (by omega)]
  apply h.clamp.mono
  by_contra hc
  exact absurd (lt_of_lt_of_le hm ((h.clamp.mono (by omega : m + k ≤ j - 1 + k)).trans hj2))
    (lt_irrefl _)

/-- **C46 (partial)** `LeftOrEqual`, if no interior knot below `u` is repeated. Missing: repeated
knots below `u`, where the loop breaks too early (`C46_left_or_equal_wrong`). At the right end
`u = b` the last knot below `b` is returned. -/
theorem C46_left_or_equal_partial (h : ClampedKnots a b p n U) {kn : Knots K}
    (hkn : Knots.new p U = .ok kn) (hk : k ≤ p) {u : K} (hu0 : a ≤ u)
    (hs : ∀ x, a < x → x < u → U.count x ≤ 1) :
    ∃ V i, kn.vectorDerivative k = .ok V ∧ kn.findIdx u k .leftOrEqual = .ok i ∧
      IsNearest V (p - k) (if u < b then n + 1 - k else n - k) u .leftOrEqual i := by
  have hle := h.le
  have hl := h.length
  have hlv := dvec_length U k
  rw [Knots.new_ok (by omega)] at hkn
  injection hkn with hkn
  subst hkn
  obtain ⟨j, h1, h2, h3, h4, h5⟩ := loopLeftOrEqual_spec (V := dvec U k) (u := u) (n - p) (p - k)
    (by omega)
  have hj1 : fn U (j + k) ≤ u := by
    rcases h2.lt_or_eq with h6 | h6
    · have := h4 j h6 le_rfl
      rw [fn_dvec' h hk (by omega)] at this
      simpa [Cmp.le] using this
    · rw [h.clamp.left _ (by omega)]; exact hu0
  have hhi : (if u < b then n + 1 - k else n - k) ≤ n + 1 - k := by split <;> omega
  have hhi' : n - k ≤ (if u < b then n + 1 - k else n - k) := by split <;> omega
  refine ⟨_, j, canon_vectorDerivative hk U, by rw [canon_findIdx hl hle hk]; exact h1,
    h2, by omega, by rw [getD_dvec h hk (by omega)]; exact hj1, ?_⟩
  intro m hm1 hm2 hm
  rw [getD_dvec h hk (by omega)] at hm ⊢
  rw [getD_dvec h hk (by omega)]
  rcases h5 with h5 | h5 | ⟨h5, h6⟩
  · have : m ≤ n - k := by
      by_contra hc
      by_cases hub : u < b
      · rw [h.clamp.right _ (by omega)] at hm
        exact absurd (lt_of_lt_of_le hub hm) (lt_irrefl _)
      · rw [if_neg hub] at hm2; omega
    exact h.clamp.mono (by omega)
  · rw [fn_dvec' h hk (by omega)] at h5
    have h5' : u < fn U (j + 1 + k) := by simpa [Cmp.le] using h5
    apply h.clamp.mono
    by_contra hc
    exact absurd (lt_of_lt_of_le h5' ((h.clamp.mono (by omega)).trans hm)) (lt_irrefl _)
  · rw [fn_dvec' h hk (by omega), fn_dvec' h hk (by omega)] at h6
    have h6' : fn U (j + 1 + k) = fn U (j + k) := by simpa [Cmp.eq] using h6
    rcases hj1.lt_or_eq with h7 | h7
    · have h8 := run_le_count (U := U) (x := fn U (j + k)) (lo := j + k) (s := 2) (by omega) (by
        intro i hi1 hi2
        rcases Nat.lt_or_ge (j + k) i with hi | hi
        · rw [show i = j + 1 + k by omega, h6']
        · rw [show i = j + k by omega])
      have := hs _ (h.clamp.a_lt (by omega)) h7
      omega
    · rw [h7]; exact hm

/-- **C46 (partial)** `RightOrEqual`, if no interior knot above `u` is repeated and, for `k = p`,
`u` is not the left end. Missing: repeated knots above `u` (`C46_right_or_equal_wrong`) and the
panic `C46_right_or_equal_panics`. -/
theorem C46_right_or_equal_partial (h : ClampedKnots a b p n U) {kn : Knots K}
    (hkn : Knots.new p U = .ok kn) (hk : k ≤ p) {u : K} (hu1 : u ≤ b)
    (hka : k < p ∨ a < u) (hs : ∀ x, u < x → x < b → U.count x ≤ 1) :
    ∃ V i, kn.vectorDerivative k = .ok V ∧ kn.findIdx u k .rightOrEqual = .ok i ∧
      IsNearest V (p - k) (n + 1 - k) u .rightOrEqual i := by
  have hle := h.le
  have hl := h.length
  have hlv := dvec_length U k
  rw [Knots.new_ok (by omega)] at hkn
  injection hkn with hkn
  subst hkn
  obtain ⟨j, h1, h2, h3, h4, h5⟩ := loopRightOrEqual_spec (V := dvec U k) (u := u) (n - p + 1)
    (n + 1 - k) (by omega) (by omega) (by omega) (by
      rcases hka with h6 | h6
      · left; omega
      · right
        rw [fn_dvec' h hk (by omega), h.clamp.left _ (by omega)]
        simpa [Cmp.le] using h6)
  have hj1 : u ≤ fn U (j + k) := by
    rcases h3.lt_or_eq with h6 | h6
    · have := h4 j le_rfl h6
      rw [fn_dvec' h hk (by omega)] at this
      simpa [Cmp.le] using this
    · rw [h.clamp.right _ (by omega)]; exact hu1
  refine ⟨_, j, canon_vectorDerivative hk U, by rw [canon_findIdx hl hle hk]; exact h1,
    by omega, by omega, by rw [getD_dvec h hk (by omega)]; exact hj1, ?_⟩
  intro m hm1 hm2 hm
  rw [getD_dvec h hk (by omega)] at hm ⊢
  rw [getD_dvec h hk (by omega)]
  rcases h5 with h5 | h5 | ⟨h5, h6⟩
  · exact h.clamp.mono (by omega)
  · rw [fn_dvec' h hk (by omega)] at h5
    have h5' : fn U (j - 1 + k) < u := by simpa [Cmp.le] using h5
    apply h.clamp.mono
    by_contra hc
    exact absurd (lt_of_lt_of_le h5' (hm.trans (h.clamp.mono (by omega : m + k ≤ j - 1 + k)))) (lt_irrefl _)
  · rw [fn_dvec' h hk (by omega), fn_dvec' h hk (by omega)] at h6
    have h6' : fn U (j - 1 + k) = fn U (j + k) := by simpa [Cmp.eq] using h6
    by_cases hjp : j + k ≤ p
    · rw [h.clamp.left _ hjp]; exact h.clamp.a_le _
    rcases hj1.lt_or_eq with h7 | h7
    · have h8 := run_le_count (U := U) (x := fn U (j + k)) (lo := j + k - 1) (s := 2) (by omega) (by
        intro i hi1 hi2
        rcases Nat.lt_or_ge i (j + k) with hi | hi
        · rw [← h6']; congr 1; omega
        · congr 1; omega)
      have := hs _ h7 (h.clamp.lt_b (by omega))
      omega
    · rw [← h7]; exact hm

/-- The loop runs off the left end of the knots. -/
theorem loopRightOrEqual_underflow {V : List K} {u : K} (r : ℕ) : ∀ i, r = i → 1 ≤ i → i ≤ V.length →
    (∀ m, m < i → u ≤ fn V m) → (∀ m, m + 1 < i → fn V m ≠ fn V (m + 1)) →
    Knots.loopRightOrEqual V u r i = .error .underflow := by
  induction r with
  | zero => intro i hi h1; omega
  | succ r ih =>
    intro i hri hi hl hle hne
    rw [Knots.loopRightOrEqual, usub_ok (by omega), ok_bind, idx_ok (by omega), ok_bind,
      if_pos (by simpa [Cmp.le] using hle (i - 1) (by omega))]
    rw [ok_bind]
    by_cases h2 : 2 ≤ i
    · rw [usub_ok (by omega), ok_bind, idx_ok (by omega), ok_bind, idx_ok (by omega), ok_bind, if_neg]
      · exact ih (i - 1) (by omega) (by omega) (by omega) (fun m hm => hle m (by omega))
          (fun m hm => hne m (by omega))
      · have := hne (i - 1 - 1) (by omega)
        rw [show i - 1 - 1 + 1 = i - 1 by omega] at this
        simpa [Cmp.eq] using this
    · rw [usub_error (by omega), error_bind]

/-- **C46** The panic of `RightOrEqual`: for `k = p`, at the left end of the domain, whenever the
interior knots are simple (for instance all uniform knot vectors). -/
theorem C46_right_or_equal_panics (h : ClampedKnots a b p n U) {kn : Knots K}
    (hkn : Knots.new p U = .ok kn) (hs : ∀ x, a < x → x < b → U.count x ≤ 1) :
    kn.findIdx a p .rightOrEqual = .error .underflow := by
  have hle := h.le
  have hl := h.length
  have hlv := dvec_length U p
  rw [Knots.new_ok (by omega)] at hkn
  injection hkn with hkn
  subst hkn
  rw [canon_findIdx hl hle le_rfl]
  apply loopRightOrEqual_underflow
  · omega
  · omega
  · omega
  · intro m hm
    rw [fn_dvec' h le_rfl (by omega)]; exact h.clamp.a_le _
  · intro m hm he
    rw [fn_dvec' h le_rfl (by omega), fn_dvec' h le_rfl (by omega)] at he
    have h8 := run_le_count (U := U) (x := fn U (m + p)) (lo := m + p) (s := 2) (by omega) (by
        intro i hi1 hi2
        rcases Nat.lt_or_ge (m + p) i with hi | hi
        · rw [he]; congr 1; omega
        · rw [show i = m + p by omega])
    by_cases hm0 : m = 0
    · subst hm0
      rw [h.clamp.left _ (by omega)] at he
      exact absurd he (h.clamp.a_lt (by omega)).ne
    · have := hs (fn U (m + p)) (h.clamp.a_lt (by omega)) (h.clamp.lt_b (by omega))
      omega

end

/-- `LeftOrEqual` stops at the repeated knot `1/4` although `3/4` is nearer. -/
theorem C46_left_or_equal_wrong :
    ClampedKnots (0 : ℚ) 1 1 4 [0, 0, 1 / 4, 1 / 4, 3 / 4, 1, 1] ∧
    (canonKnots 1 ([0, 0, 1 / 4, 1 / 4, 3 / 4, 1, 1] : List ℚ)).findIdx (7 / 8) 0 .leftOrEqual = .ok 2 := by
  decide +kernel

/-- `RightOrEqual` stops at the repeated knot `3/4` although `1/4` is nearer. -/
theorem C46_right_or_equal_wrong :
    ClampedKnots (0 : ℚ) 1 1 4 [0, 0, 1 / 4, 3 / 4, 3 / 4, 1, 1] ∧
    (canonKnots 1 ([0, 0, 1 / 4, 3 / 4, 3 / 4, 1, 1] : List ℚ)).findIdx (1 / 8) 0 .rightOrEqual = .ok 4 := by
  decide +kernel

theorem C46_full_false : ¬ C46_full := by
  intro h
  obtain ⟨V, i, h1, h2, h3⟩ := h 1 4 0 [0, 0, 1 / 4, 1 / 4, 3 / 4, 1, 1] _ (7 / 8) .leftOrEqual
    C46_left_or_equal_wrong.1 (Knots.new_ok (by decide)) (by omega) (by norm_num) (by norm_num)
    (by simp) (by intro _; norm_num)
  rw [C46_left_or_equal_wrong.2] at h2
  injection h2 with h2
  subst h2
  have hV : (canonKnots 1 ([0, 0, 1 / 4, 1 / 4, 3 / 4, 1, 1] : List ℚ)).vectorDerivative 0 =
    .ok [0, 0, 1 / 4, 1 / 4, 3 / 4, 1, 1] := by decide +kernel
  rw [hV] at h1
  injection h1 with h1
  subst h1
  have h4 := h3.2.2.2 4 (by omega) (by omega)
  norm_num at h4

/-- non-vacuity -/
example : ClampedKnots (0 : ℚ) 1 2 4 [0, 0, 0, 1 / 2, 3 / 4, 1, 1, 1] ∧
    (canonKnots 2 ([0, 0, 0, 1 / 2, 3 / 4, 1, 1, 1] : List ℚ)).findIdx (3 / 4) 0 .left = .ok 3 ∧
    (canonKnots 2 ([0, 0, 0, 1 / 2, 3 / 4, 1, 1, 1] : List ℚ)).findIdx (3 / 4) 0 .leftOrEqual = .ok 4 ∧
    (canonKnots 2 ([0, 0, 0, 1 / 2, 3 / 4, 1, 1, 1] : List ℚ)).findIdx (3 / 4) 0 .rightOrEqual = .ok 4 ∧
    (canonKnots 2 ([0, 0, 0, 1 / 2, 3 / 4, 1, 1, 1] : List ℚ)).findIdx (3 / 4) 1 .right = .ok 4 := by
  decide +kernel

/-! ### C47 -/

theorem bisect_spec {V : List K} {u : K} {last : ℕ} (hlast : last < V.length)
    (hm : Monotone (fn V)) (fuel : ℕ) : ∀ low high, high ≤ last → low ≤ high →
    high - low ≤ fuel → fn V low ≤ u → (∀ m, high < m → m ≤ last → u < fn V m) →
    ∃ r, Knots.bisect V u fuel low high = .ok r ∧ low ≤ r ∧ r ≤ high ∧ fn V r ≤ u ∧
      ∀ m, r < m → m ≤ last → u < fn V m := by
  induction fuel with
  | zero =>
    intro low high h1 h2 h3 h4 h5
    obtain rfl : low = high := by omega
    exact ⟨low, rfl, le_rfl, le_rfl, h4, h5⟩
  | succ fuel ih =>
    intro low high h1 h2 h3 h4 h5
    rw [Knots.bisect]
    by_cases hlt : low < high
    · rw [if_pos hlt]
      dsimp only
      rw [idx_ok (by omega), ok_bind]
      by_cases hc : u < fn V (high - (high - low) / 2)
      · rw [if_pos (by simpa [Cmp.lt] using hc), usub_ok (by omega), ok_bind]
        obtain ⟨r, g1, g2, g3, g4, g5⟩ := ih low (high - (high - low) / 2 - 1) (by omega) (by omega)
          (by omega) h4 (fun m hm1 hm2 => lt_of_lt_of_le hc (hm (by omega)))
        exact ⟨r, g1, g2, by omega, g4, g5⟩
      · rw [if_neg (by simpa [Cmp.lt] using hc)]
        obtain ⟨r, g1, g2, g3, g4, g5⟩ := ih (high - (high - low) / 2) high h1 (by omega)
          (by omega) (not_lt.mp hc) h5
        exact ⟨r, g1, by omega, g3, g4, g5⟩
    · rw [if_neg hlt]
      obtain rfl : low = high := by omega
      exact ⟨low, rfl, le_rfl, le_rfl, h4, h5⟩

/-- **C47** `find_index(u, k)` on sorted knots (clamped or not): `None` exactly below the domain,
else the largest domain index whose knot is not above `u`. -/
theorem C47_find_index {p n k : ℕ} {U : List K} (hU : U.length = n + p + 2) (hp : p ≤ n)
    (hs : U.Pairwise (· ≤ ·)) (hk : k ≤ p) {kn : Knots K} (hkn : Knots.new p U = .ok kn) (u : K) :
    ∃ V r, kn.vectorDerivative k = .ok V ∧ kn.findIndex u k = .ok r ∧
      (r = none ↔ u < V.getD (p - k) 0) ∧
      (∀ i, r = some i → p - k ≤ i ∧ i ≤ n + 1 - k ∧ V.getD i 0 ≤ u ∧
        ∀ m, i < m → m ≤ n + 1 - k → u < V.getD m 0) := by
  rw [Knots.new_ok (by omega)] at hkn
  injection hkn with hkn
  subst hkn
  have hl := dvec_length U k
  have hd : usub (canonKnots p U).degree k = .ok (p - k) := usub_ok hk
  have hmono : Monotone (fn (dvec U k)) := fn_monotone
    ((hs.sublist (List.drop_sublist _ _)).sublist (List.take_sublist _ _))
  have hget : ∀ i, i ≤ n + 1 - k → (dvec U k).getD i 0 = fn (dvec U k) i := by
    intro i hi
    rw [List.getD_eq_getElem _ _ (by omega), ← fn_lt]
  refine ⟨dvec U k, ?_⟩
  rw [Knots.findIndex, canon_vectorDerivative hk, ok_bind, hd, ok_bind]
  dsimp only
  rw [idx_ok (by omega), ok_bind]
  by_cases hc : u < fn (dvec U k) (p - k)
  · rw [if_pos (by simpa [Cmp.lt] using hc)]
    refine ⟨none, rfl, rfl, ?_, by simp⟩
    rw [hget _ (by omega)]; simpa using hc
  · rw [if_neg (by simpa [Cmp.lt] using hc), usub_ok (by omega), ok_bind, usub_ok (by omega), ok_bind,
      show (dvec U k).length - (p - k) - 1 = n + 1 - k by omega]
    obtain ⟨r, g1, g2, g3, g4, g5⟩ := bisect_spec (V := dvec U k) (u := u) (last := n + 1 - k)
      (by omega) hmono (n + 1 - k - (p - k)) (p - k) (n + 1 - k) le_rfl (by omega) le_rfl
      (not_lt.mp hc) (fun m h1 h2 => by omega)
    rw [g1]
    refine ⟨some r, rfl, rfl, ?_, ?_⟩
    · rw [hget _ (by omega)]; simpa using hc
    · intro i hi
      injection hi with hi
      subst hi
      refine ⟨g2, g3, by rw [hget _ (by omega)]; exact g4, ?_⟩
      intro m h1 h2
      rw [hget _ h2]; exact g5 m h1 h2

/-- non-vacuity, with a repeated knot -/
example : (canonKnots 1 ([0, 0, 1 / 4, 1 / 4, 3 / 4, 1, 1] : List ℚ)).findIndex (1 / 2) 0 = .ok (some 3) ∧
    (canonKnots 1 ([0, 0, 1 / 4, 1 / 4, 3 / 4, 1, 1] : List ℚ)).findIndex (-1) 0 = .ok none ∧
    (canonKnots 1 ([0, 0, 1 / 4, 1 / 4, 3 / 4, 1, 1] : List ℚ)).findIndex 1 0 = .ok (some 5) := by
  decide +kernel

/-! ### C49 -/

/-- **C49** `normalize` of a vector that is not constant: it has the same length, is the affine map
that sends the minimum to `0` and the maximum to `1`, and keeps the order of the knots. -/
theorem C49_normalize_vector {U : List K} {x y : K} (hx : x ∈ U) (hy : y ∈ U) (hxy : x ≠ y) :
    ∃ mn mx, mn ∈ U ∧ mx ∈ U ∧ mn < mx ∧ (∀ z ∈ U, mn ≤ z ∧ z ≤ mx) ∧
      (normalizeKnots U).length = U.length ∧
      (∀ i (hi : i < U.length), (normalizeKnots U)[i]? = some ((U[i] - mn) / (mx - mn))) ∧
      (0 : K) ∈ normalizeKnots U ∧ (1 : K) ∈ normalizeKnots U ∧
      (∀ z ∈ normalizeKnots U, 0 ≤ z ∧ z ≤ 1) ∧
      (∀ i j (hi : i < U.length) (hj : j < U.length),
        ((normalizeKnots U).getD i 0 ≤ (normalizeKnots U).getD j 0 ↔ U[i] ≤ U[j])) := by
  have hne : U ≠ [] := List.ne_nil_of_mem hx
  have hlt : vmin U < vmax U := by
    rcases lt_or_gt_of_ne hxy with h | h
    · exact lt_of_le_of_lt (vmin_le hx) (lt_of_lt_of_le h (le_vmax hy))
    · exact lt_of_le_of_lt (vmin_le hy) (lt_of_lt_of_le h (le_vmax hx))
  have hpos : 0 < vmax U - vmin U := sub_pos.mpr hlt
  have heq : normalizeKnots U = U.map (fun z => (z - vmin U) / (vmax U - vmin U)) := by
    rw [normalizeKnots, rescaleKnots]
    apply List.map_congr_left
    intro z _
    simp
  have hget : ∀ i (hi : i < U.length), (normalizeKnots U).getD i 0 =
      (U[i] - vmin U) / (vmax U - vmin U) := by
    intro i hi
    rw [heq, List.getD_eq_getElem _ _ (by simpa using hi), List.getElem_map]
  refine ⟨vmin U, vmax U, vmin_mem hne, vmax_mem hne, hlt, fun z hz => ⟨vmin_le hz, le_vmax hz⟩,
    by rw [heq]; simp, ?_, ?_, ?_, ?_, ?_⟩
  · intro i hi
    rw [heq, List.getElem?_map, List.getElem?_eq_getElem hi]; rfl
  · rw [heq, List.mem_map]; exact ⟨_, vmin_mem hne, by simp⟩
  · rw [heq, List.mem_map]; exact ⟨_, vmax_mem hne, div_self hpos.ne'⟩
  · intro z hz
    rw [heq, List.mem_map] at hz
    obtain ⟨w, hw, rfl⟩ := hz
    have h1 := vmin_le hw
    have h2 := le_vmax hw
    exact ⟨div_nonneg (by linarith) hpos.le, (div_le_one hpos).mpr (by linarith)⟩
  · intro i j hi hj
    rw [hget i hi, hget j hj, div_le_div_iff_of_pos_right hpos]
    exact sub_le_sub_iff_right _

/-- **C49** `rescale` sends the old limits to the new ones, affinely. -/
theorem C49_rescale_vector (U : List K) {o : K × K} (ho : o.1 ≠ o.2) (w : K × K) :
    (rescaleKnots U o w).length = U.length ∧
    ∃ s e, s * (o.2 - o.1) = w.2 - w.1 ∧ s * o.1 + e = w.1 ∧ s * o.2 + e = w.2 ∧
      ∀ i (hi : i < U.length), (rescaleKnots U o w)[i]? = some (s * U[i] + e) := by
  have h : o.2 - o.1 ≠ 0 := sub_ne_zero.mpr ho.symm
  refine ⟨by simp [rescaleKnots], (w.2 - w.1) / (o.2 - o.1), w.1 - (w.2 - w.1) / (o.2 - o.1) * o.1,
    by field_simp, by ring, by field_simp; ring, ?_⟩
  intro i hi
  rw [rescaleKnots, List.getElem?_map, List.getElem?_eq_getElem hi]
  simp only [Option.map_some, Option.some.injEq]
  field_simp
  ring

/-- **C49** Rescaling the knots of all derivative orders is the same as rescaling the knot vector
and deriving again. -/
theorem C49_rescale_commutes {p : ℕ} {U : List K} (hl : 2 * p ≤ U.length) {kn : Knots K}
    (hkn : Knots.new p U = .ok kn) (o w : K × K) :
    Knots.new p (rescaleKnots U o w) = .ok (kn.rescale o w) := by
  rw [Knots.new_ok hl] at hkn
  injection hkn with hkn
  subst hkn
  rw [Knots.new_ok (by simpa [rescaleKnots] using hl)]
  congr 1
  simp only [Knots.rescale, canonKnots, List.map_map]
  congr 1
  apply List.map_congr_left
  intro k _
  simp [rescaleKnots, List.map_drop, List.map_take]

/-- The full claim C49 about `normalize` and derivation. -/
def C49_normalize_commutes_full : Prop := ∀ (p n : ℕ) (U : List ℚ) (kn : Knots ℚ),
  U.length = n + p + 2 → p ≤ n → U.Pairwise (· ≤ ·) → Knots.new p U = .ok kn → (∃ x ∈ U, ∃ y ∈ U, x ≠ y) →
    Knots.new p (normalizeKnots U) = .ok kn.normalize

theorem dvec_clamped {a b : K} {p n k : ℕ} {U : List K} (h : ClampedKnots a b p n U) (hk : k ≤ p) :
    ClampedKnots a b (p - k) (n - k) (dvec U k) := by
  have hl := h.length
  have hle := h.le
  have hc := h.clamp.shiftN hk
  have hf : ∀ i, fn (dvec U k) i = fn U (i + k) := by
    intro i
    by_cases hi : i + 2 * k < U.length
    · exact fn_dvec hi
    · have := dvec_length U k
      rw [fn_ge (by omega), fn_last (by omega), fn_dvec (by omega), h.clamp.right _ (by omega),
        h.clamp.right _ (by omega)]
  apply ClampedKnots.of_clamp (by rw [dvec_length]; omega)
  rw [show fn (dvec U k) = shiftN k (fn U) from funext hf]
  exact hc

/-- **C49 (partial)** For clamped knots normalising commutes with derivation, and the result is
clamped on `[0, 1]`. Missing: knots that are not clamped, where each derivative order is normalised
with its own limits (`C49_normalize_commutes_full_false`). -/
theorem C49_normalize_commutes_partial {a b : K} {p n : ℕ} {U : List K} (h : ClampedKnots a b p n U)
    {kn : Knots K} (hkn : Knots.new p U = .ok kn) :
    Knots.new p (normalizeKnots U) = .ok kn.normalize ∧ kn.normalize = kn.rescale (a, b) (0, 1) ∧
      ClampedKnots 0 1 p n (normalizeKnots U) := by
  have hl := h.length
  have hle := h.le
  have hkn' := hkn
  rw [Knots.new_ok (by omega)] at hkn
  injection hkn with hkn
  subst hkn
  have key : (canonKnots p U).normalize = (canonKnots p U).rescale (a, b) (0, 1) := by
    simp only [Knots.normalize, Knots.rescale, canonKnots, List.map_map]
    congr 1
    apply List.map_congr_left
    intro k hk
    rw [List.mem_range] at hk
    have := dvec_clamped h (k := k) (by omega)
    simp only [Function.comp, normalizeKnots]
    rw [show List.take (U.length - 2 * k) (List.drop k U) = dvec U k from rfl, this.vmin_eq,
      this.vmax_eq]
  refine ⟨?_, key, h.normalize⟩
  rw [key, ← C49_rescale_commutes (by omega) hkn', normalizeKnots, h.vmin_eq, h.vmax_eq]

theorem C49_normalize_commutes_full_false : ¬ C49_normalize_commutes_full := by
  intro h
  have h1 := h 1 3 [0, 1, 2, 3, 4, 5] _ rfl (by omega) (by decide +kernel) (Knots.new_ok (by decide))
    ⟨0, by simp, 1, by simp, by norm_num⟩
  revert h1
  decide +kernel

/-- **C49** The geometry: a curve with rescaled knots runs through the same points; its `k`-th
derivatives are divided by the `k`-th power of the scale. -/
theorem C49_geometry {a b : K} {p n k : ℕ} {U : List K} {P : List (Pt K d)} {c c' : Curve K d}
    (hc : ValidOn a b c p n U P) {o w : K × K} (ho : o.1 < o.2) (hw : w.1 < w.2)
    (hc' : Built c' p (rescaleKnots U o w) P) (hk : k ≤ p) {u u' : K} (hua : a ≤ u) (hub : u ≤ b)
    (hu0 : 0 ≤ u) (hu1 : u ≤ 1) (hu' : u' = (u - o.1) / (o.2 - o.1) * (w.2 - w.1) + w.1)
    (hu'0 : 0 ≤ u') (hu'1 : u' ≤ 1) :
    ∃ x, c.evaluateDerivative u k = .ok (.ok x) ∧
      c'.evaluateDerivative u' k = .ok (.ok (((o.2 - o.1) / (w.2 - w.1)) ^ k • x)) := by
  obtain rfl := hc.eq_canon
  obtain ⟨-, hU, hP⟩ := hc
  have hl := hU.length
  have hle := hU.le
  have ho' : 0 < o.2 - o.1 := sub_pos.mpr ho
  have hw' : 0 < w.2 - w.1 := sub_pos.mpr hw
  set s := (w.2 - w.1) / (o.2 - o.1) with hs
  set e := w.1 - s * o.1 with he
  have hspos : 0 < s := div_pos hw' ho'
  have haff : rescaleKnots U o w = U.map (fun x => s * x + e) := by
    rw [rescaleKnots]
    apply List.map_congr_left
    intro x _
    rw [he, hs]; field_simp; ring
  have hu2 : u' = s * u + e := by rw [hu', he, hs]; field_simp; ring
  rw [haff] at hc'
  have hU' := hU.affine hspos e
  obtain rfl := Built.eq_canon hc' hU'.length hle hP
  obtain ⟨j, hj⟩ := hU.clamp.exists_span hua hub
  have hf : ∀ i, fn (U.map (fun x => s * x + e)) i = s * fn U i + e :=
    fun i => fn_map_of_ne_nil _ hU.ne_nil i
  refine ⟨_, evaluateDerivative_eq hU hP hk hu0 hu1 hj, ?_⟩
  rw [evaluateDerivative_eq hU' hP hk hu'0 hu'1 (j := j) (by
    rw [hu2]; exact (isSpan_affine hspos hf).mpr hj)]
  rw [hu2, cv_affine hspos.ne' hf, hs, inv_div]

/-- non-vacuity: knots on `[0, 1/2]` rescaled to `[0, 1]` -/
example : ClampedKnots (0 : ℚ) (1 / 2) 1 2 [0, 0, 1 / 4, 1 / 2, 1 / 2] ∧
    rescaleKnots ([0, 0, 1 / 4, 1 / 2, 1 / 2] : List ℚ) (0, 1 / 2) (0, 1) = [0, 0, 1 / 2, 1, 1] ∧
    normalizeKnots ([2, 3, 4, 6] : List ℚ) = [0, 1 / 4, 1 / 2, 1] := by
  decide +kernel

end BSpline
