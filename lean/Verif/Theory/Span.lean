import Verif.Theory.CoxDeBoor
import Mathlib.Data.Nat.Find
import Mathlib.Order.Monotone.Basic

/-!
# Clamped knot sequences and their spans
-/

set_option linter.unusedSectionVars false

namespace BSpline

open Finset

/-- drop the first `k` knots -/
def shiftN {α : Type*} (k : ℕ) (U : ℕ → α) : ℕ → α := fun i => U (i + k)

@[simp] theorem shiftN_apply {α : Type*} (k : ℕ) (U : ℕ → α) (i : ℕ) : shiftN k U i = U (i + k) := rfl
@[simp] theorem shiftN_zero {α : Type*} (U : ℕ → α) : shiftN 0 U = U := rfl
theorem shift_shiftN {α : Type*} (k : ℕ) (U : ℕ → α) : shift (shiftN k U) = shiftN (k + 1) U := by
  funext i; simp only [shift, shiftN]; congr 1; omega

variable {K : Type*} [Field K] [LinearOrder K] [IsStrictOrderedRing K]
variable {V : Type*} [AddCommGroup V] [Module K V]

/-- A clamped, sorted knot sequence on `[a, b]` (extended beyond its end by `b`). -/
structure Clamp (U : ℕ → K) (p n : ℕ) (a b : K) : Prop where
  mono : Monotone U
  left : ∀ i, i ≤ p → U i = a
  right : ∀ i, n + 1 ≤ i → U i = b
  inner : ∀ i, p < i → i ≤ n → a < U i ∧ U i < b
  lt : a < b
  le : p ≤ n

namespace Clamp

variable {U : ℕ → K} {p n : ℕ} {a b : K}

theorem shiftN (h : Clamp U p n a b) {k : ℕ} (hk : k ≤ p) :
    Clamp (shiftN k U) (p - k) (n - k) a b where
  mono := fun i j hij => h.mono (by omega)
  left := fun i hi => h.left _ (by omega)
  right := fun i hi => h.right _ (by have := h.le; omega)
  inner := fun i h1 h2 => h.inner _ (by omega) (by omega)
  lt := h.lt
  le := by have := h.le; omega

theorem lt_b (h : Clamp U p n a b) {i : ℕ} (hi : i ≤ n) : U i < b := by
  by_cases hp : i ≤ p
  · rw [h.left i hp]; exact h.lt
  · exact (h.inner i (by omega) hi).2

theorem a_lt (h : Clamp U p n a b) {i : ℕ} (hi : p < i) : a < U i := by
  by_cases hp : i ≤ n
  · exact (h.inner i hi hp).1
  · rw [h.right i (by omega)]; exact h.lt

theorem a_le (h : Clamp U p n a b) (i : ℕ) : a ≤ U i := by
  by_cases hp : i ≤ p
  · rw [h.left i hp]
  · exact (h.a_lt (by omega)).le

theorem le_b (h : Clamp U p n a b) (i : ℕ) : U i ≤ b := by
  by_cases hp : i ≤ n
  · exact (h.lt_b hp).le
  · rw [h.right i (by omega)]

theorem eq_a_iff (h : Clamp U p n a b) (i : ℕ) : U i = a ↔ i ≤ p := by
  constructor
  · intro e; by_contra hc; have := h.a_lt (i := i) (by omega); rw [e] at this
    exact lt_irrefl _ this
  · exact h.left i

theorem eq_b_iff (h : Clamp U p n a b) (i : ℕ) : U i = b ↔ n + 1 ≤ i := by
  constructor
  · intro e; by_contra hc; have := h.lt_b (i := i) (by omega); rw [e] at this
    exact lt_irrefl _ this
  · exact h.right i

end Clamp

/-- `j` is the knot span of `u` in the half-open convention, the last span being closed. -/
structure IsSpan (U : ℕ → K) (n : ℕ) (u : K) (j : ℕ) : Prop where
  le_n : j ≤ n
  lo : U j ≤ u
  hi : u < U (j + 1) ∨ (j = n ∧ u = U (n + 1))

theorem Clamp.exists_span {U : ℕ → K} {p n : ℕ} {a b : K} (h : Clamp U p n a b) {u : K}
    (hu : a ≤ u) (hu' : u ≤ b) : ∃ j, IsSpan U n u j := by
  rcases hu'.lt_or_eq with hlt | rfl
  · refine ⟨Nat.findGreatest (fun j => U j ≤ u) n, Nat.findGreatest_le n, ?_, ?_⟩
    · exact Nat.findGreatest_spec (P := fun j => U j ≤ u) (m := 0) (Nat.zero_le n)
        (by rw [h.left 0 (by omega)]; exact hu)
    · left
      by_contra hc
      rw [not_lt] at hc
      by_cases hn : Nat.findGreatest (fun j => U j ≤ u) n + 1 ≤ n
      · have := Nat.le_findGreatest (P := fun j => U j ≤ u) hn hc
        omega
      · rw [h.right _ (by omega)] at hc
        exact absurd hlt (not_lt.mpr hc)
  · exact ⟨n, le_rfl, h.le_b n, Or.inr ⟨rfl, (h.right _ le_rfl).symm⟩⟩

namespace IsSpan

variable {U : ℕ → K} {p n : ℕ} {a b u : K} {j : ℕ}

theorem lt (h : Clamp U p n a b) (hs : IsSpan U n u j) : U j < U (j + 1) := by
  rcases hs.hi with h1 | ⟨rfl, _⟩
  · exact lt_of_le_of_lt hs.lo h1
  · rw [h.right (j + 1) le_rfl]; exact h.lt_b le_rfl

theorem le_hi (hs : IsSpan U n u j) : u ≤ U (j + 1) := by
  rcases hs.hi with h1 | ⟨rfl, h1⟩
  · exact h1.le
  · exact h1.le

theorem p_le (h : Clamp U p n a b) (hs : IsSpan U n u j) : p ≤ j := by
  by_contra hc
  have := hs.lt h
  rw [h.left j (by omega), h.left (j + 1) (by omega)] at this
  exact lt_irrefl _ this

theorem shiftN {k : ℕ} (hk : k ≤ j) (hs : IsSpan U n u j) :
    IsSpan (BSpline.shiftN k U) (n - k) u (j - k) where
  le_n := by have := hs.le_n; omega
  lo := by simp only [shiftN_apply, Nat.sub_add_cancel hk]; exact hs.lo
  hi := by
    simp only [shiftN_apply]
    have := hs.le_n
    rw [show j - k + 1 + k = j + 1 by omega, show n - k + 1 + k = n + 1 by omega]
    rcases hs.hi with h1 | ⟨rfl, h1⟩
    · exact Or.inl h1
    · exact Or.inr ⟨rfl, h1⟩

theorem unique (h : Clamp U p n a b) (hs : IsSpan U n u j) {j' : ℕ} (hs' : IsSpan U n u j') :
    j = j' := by
  have key : ∀ {i i' : ℕ}, IsSpan U n u i → IsSpan U n u i' → ¬ i < i' := by
    intro i i' h1 h2 hlt
    have h3 : U (i + 1) ≤ U i' := h.mono hlt
    rcases h1.hi with h4 | ⟨rfl, _⟩
    · exact absurd (lt_of_lt_of_le h4 (h3.trans h2.lo)) (lt_irrefl _)
    · have := h2.le_n; omega
  have h1 := key hs hs'
  have h2 := key hs' hs
  omega

end IsSpan

/-- window condition on a non-degenerate span -/
theorem win_of_span {U : ℕ → K} (hm : Monotone U) {p j : ℕ} (hp : p ≤ j) (hlt : U j < U (j + 1)) :
    Win U p (j - p) := by
  intro i hi k hk
  have h1 : U (j - p + 1 + i) ≤ U j := hm (by omega)
  have h2 : U (j + 1) ≤ U (j - p + 1 + p + k) := hm (by omega)
  exact (lt_of_le_of_lt h1 (lt_of_lt_of_le hlt h2)).ne

/-- degree-zero functions of the code: half-open, the last one closed -/
def base (U : ℕ → K) (n : ℕ) (u : K) : ℕ → K := fun i =>
  if (U i ≤ u ∧ u < U (i + 1)) ∨ (i = n ∧ u = U (n + 1)) then 1 else 0

theorem base_eq_delta {U : ℕ → K} {p n : ℕ} {a b : K} (h : Clamp U p n a b) {u : K} {j : ℕ}
    (hs : IsSpan U n u j) : base U n u = delta j := by
  funext i
  simp only [base, delta]
  rcases lt_trichotomy i j with hij | rfl | hij
  · rw [if_neg, if_neg (by omega)]
    rintro (⟨_, h2⟩ | ⟨rfl, _⟩)
    · exact absurd (lt_of_lt_of_le h2 ((h.mono hij).trans hs.lo)) (lt_irrefl _)
    · have := hs.le_n; omega
  · rw [if_pos, if_pos rfl]
    rcases hs.hi with h1 | ⟨rfl, h1⟩
    · exact Or.inl ⟨hs.lo, h1⟩
    · exact Or.inr ⟨rfl, h1⟩
  · rw [if_neg, if_neg (by omega)]
    rintro (⟨h1, h2⟩ | ⟨rfl, h2⟩)
    · have h3 : U (j + 1) ≤ U i := h.mono hij
      rcases hs.hi with h4 | ⟨rfl, h4⟩
      · exact absurd (lt_of_lt_of_le h4 (h3.trans h1)) (lt_irrefl _)
      · rw [h4, h.right (i + 1) (by omega), h.right (j + 1) le_rfl] at h2
        exact lt_irrefl _ h2
    · rcases hs.hi with h4 | ⟨rfl, _⟩
      · have h3 : U (j + 1) ≤ U (i + 1) := h.mono (by omega)
        rw [h2] at h4
        exact absurd (lt_of_lt_of_le h4 h3) (lt_irrefl _)
      · omega

/-- the basis functions are non-negative on a (closed) span -/
theorem Bs_nonneg {U : ℕ → K} (hm : Monotone U) {u : K} {j : ℕ} (hlo : U j ≤ u)
    (hhi : u ≤ U (j + 1)) (q : ℕ) : ∀ i, 0 ≤ Bs U u (delta j) q i := by
  induction q with
  | zero => intro i; simp only [Bs, delta]; split <;> norm_num
  | succ q ih =>
    intro i
    simp only [Bs]
    apply add_nonneg
    · by_cases hs : i + q < j ∨ j < i
      · rw [Bs_support _ _ _ _ _ hs, mul_zero]
      · apply mul_nonneg _ (ih i)
        apply div_nonneg
        · have : U i ≤ U j := hm (by omega)
          linarith
        · have : U i ≤ U (i + q + 1) := hm (by omega)
          linarith
    · by_cases hs : i + 1 + q < j ∨ j < i + 1
      · rw [Bs_support _ _ _ _ _ hs, mul_zero]
      · apply mul_nonneg _ (ih (i + 1))
        apply div_nonneg
        · have : U (j + 1) ≤ U (i + q + 2) := hm (by omega)
          linarith
        · have : U (i + 1) ≤ U (i + q + 2) := hm (by omega)
          linarith

/-- extend a span sum to the full sum -/
theorem sum_span_eq {U : ℕ → K} {u : K} {p n j lo : ℕ} (hp : p ≤ j) (hj : j ≤ n) (hlo : lo ≤ j - p)
    (P : ℕ → V) :
    ∑ i ∈ Ico lo (n + 1), Bs U u (delta j) p i • P i = bl U (List.replicate p u) P (j - p) := by
  rw [← sum_Bs_eq_bl]
  have h1 : ∑ m ∈ range (p + 1), Bs U u (delta (j - p + p)) p (j - p + m) • P (j - p + m) =
      ∑ i ∈ Ico (j - p) (j - p + (p + 1)), Bs U u (delta j) p i • P i := by
    rw [sum_Ico_eq_sum_range, Nat.add_sub_cancel_left, Nat.sub_add_cancel hp]
  rw [h1]
  symm
  apply sum_subset
  · intro x hx; simp only [mem_Ico] at hx ⊢; omega
  · intro x _ hx
    simp only [mem_Ico] at hx
    rw [Bs_support, zero_smul]
    omega

theorem sum_Bs_one {U : ℕ → K} (hm : Monotone U) {u : K} {p n j : ℕ} (hp : p ≤ j) (hj : j ≤ n)
    (hlt : U j < U (j + 1)) : ∑ i ∈ range (n + 1), Bs U u (delta j) p i = 1 := by
  have h := sum_span_eq (V := K) (U := U) (u := u) (lo := 0) hp hj (by omega) (fun _ => (1 : K))
  rw [bl_const _ _ (by simpa using win_of_span hm hp hlt)] at h
  simp only [smul_eq_mul, mul_one] at h
  rw [range_eq_Ico]; exact h

end BSpline
