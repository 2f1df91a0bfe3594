import Verif.Spec.Basic
import Verif.Refine.Eval
import Verif.Theory.Span
import Mathlib.Algebra.Module.Pi
import Mathlib.Algebra.BigOperators.Pi

/-!
# Values of the model over an ordered field

Connects the law-free descriptions (`Nf`, `dpt`, `evalFold`) with the mathematics (`Bs`, `Dv`,
`bl`).
-/

set_option linter.unusedSectionVars false

namespace BSpline

open Finset

variable {K : Type} [Field K] [LinearOrder K] [IsStrictOrderedRing K] {d : ℕ}

omit [IsStrictOrderedRing K] in
theorem scale_eq_smul (s : K) (v : Pt K d) : scale s v = s • v := rfl

omit [IsStrictOrderedRing K] in
theorem Nf_eq_Bs (U : ℕ → K) {k n : ℕ} (hk : k ≤ n) (u : K) (q : ℕ) : ∀ i,
    Nf U k n u q i = Bs U u (base U (n - k) u) q i := by
  induction q with
  | zero =>
    intro i
    simp only [Nf, Bs, base, Cmp.le, Cmp.lt, Cmp.eq, Bool.or_eq_true, Bool.and_eq_true,
      decide_eq_true_eq]
    rw [show n + 1 - k = n - k + 1 by omega]
  | succ q ih =>
    intro i
    simp only [Nf, Bs, Cmp.eq, decide_eq_true_eq, ih]
    rw [show i + (q + 1) = i + q + 1 by omega, show i + 1 + (q + 1) = i + q + 2 by omega,
      show i + 1 + q + 1 = i + q + 2 by omega]
    congr 1
    · split
      · rename_i h; rw [h, sub_self, div_zero, zero_mul]
      · rfl
    · split
      · rename_i h; rw [h, sub_self, div_zero, zero_mul]
      · rfl

omit [IsStrictOrderedRing K] in
theorem dpt_succ (U : ℕ → K) {p k : ℕ} (hk : k < p) (P : ℕ → Pt K d) :
    dpt U p P (k + 1) = Dv (shiftN k U) (p - k) (dpt U p P k) := by
  funext i
  simp only [dpt, Dv, shiftN_apply, Cmp.eq, decide_eq_true_eq, scale_eq_smul]
  rw [show i + 1 + (p - k) + k = i + p + 1 by omega, show i + 1 + k = i + (k + 1) by omega,
    show p - (k + 1) + 1 = p - k by omega]
  split
  · rename_i h; rw [h, sub_self, div_zero, zero_smul]; rfl
  · rfl

theorem foldl_add_eq_sum {V : Type} [AddCommMonoid V] (f : ℕ → V) (lo : ℕ) : ∀ (m : ℕ) (v : V),
    (List.range' lo m).foldl (fun v i => v + f i) v = v + ∑ i ∈ Ico lo (lo + m), f i := by
  intro m
  induction m with
  | zero => intro v; simp
  | succ m ih =>
    intro v
    rw [List.range'_1_concat, List.foldl_append, ih]
    simp only [List.foldl_cons, List.foldl_nil]
    rw [← add_assoc lo, sum_Ico_succ_top (by omega), add_assoc]

omit [IsStrictOrderedRing K] in
theorem evalFold_eq_sum (U : ℕ → K) {p n k : ℕ} (hk : k ≤ n) (P : ℕ → Pt K d) (u : K) {lo : ℕ}
    (hlo : lo ≤ n - k) :
    evalFold U p n P k u lo = ∑ i ∈ Ico lo (n - k + 1),
      Bs (shiftN k U) u (base (shiftN k U) (n - k) u) (p - k) i • dpt U p P k i := by
  have := foldl_add_eq_sum (fun i => scale (Nf (fun j => U (j + k)) k n u (p - k) i) (dpt U p P k i))
    lo (n - k + 1 - lo) (fun _ => 0)
  rw [evalFold, this, show lo + (n - k + 1 - lo) = n - k + 1 by omega]
  rw [show (fun _ => 0 : Pt K d) = 0 from rfl, zero_add]
  apply sum_congr rfl
  intro i _
  rw [Nf_eq_Bs _ hk]
  rfl

/-- the value of the `k`-th derivative on span `j`, as a polar form -/
def cv (U : ℕ → K) (p : ℕ) (P : ℕ → Pt K d) (k j : ℕ) (u : K) : Pt K d :=
  bl (shiftN k U) (List.replicate (p - k) u) (dpt U p P k) (j - p)

theorem lleq_le_span {U : ℕ → K} {n : ℕ} {u : K} {j : ℕ}
    (hs : IsSpan U n u j) (r : ℕ) : ∀ i, i ≤ j → i + r ≤ n → lleq U u r i ≤ j := by
  induction r with
  | zero => intro i hi _; exact hi
  | succ r ih =>
    intro i hi hr
    simp only [lleq, Cmp.le, Cmp.eq, decide_eq_true_eq]
    split
    · rename_i hle
      have hij : i + 1 ≤ j := by
        by_contra hc
        obtain rfl : i = j := by omega
        rcases hs.hi with h1 | ⟨h1, _⟩
        · exact absurd (lt_of_le_of_lt hle h1) (lt_irrefl _)
        · omega
      split
      · exact hij
      · exact ih (i + 1) hij (by omega)
    · exact hi

theorem evalFold_eq_cv {U : ℕ → K} {p n : ℕ} {a b : K} (h : Clamp U p n a b) {u : K} {j k : ℕ}
    (hs : IsSpan U n u j) (hk : k ≤ p) (P : ℕ → Pt K d) :
    evalFold U p n P k u (lleq (fun i => U (i + k)) u (n - p) (p - k) - (p - k)) =
      cv U p P k j u := by
  have hp := hs.p_le h
  have hjn := hs.le_n
  have hc := h.shiftN hk
  have hs' := hs.shiftN (k := k) (by omega)
  have hl := lleq_le_span hs' (n - p) (p - k) (by omega) (by omega)
  rw [evalFold_eq_sum U (by omega) P u (by
    have := lleq_bounds (fun i => U (i + k)) u (n - p) (p - k); omega),
    base_eq_delta hc hs', sum_span_eq (by omega) (by omega)]
  · rw [cv, show j - k - (p - k) = j - p by omega]
  · exact Nat.sub_le_sub_right hl _

/-- the full sum over all basis functions has the same value -/
theorem fullSum_eq_cv {U : ℕ → K} {p n : ℕ} {a b : K} (h : Clamp U p n a b) {u : K} {j k : ℕ}
    (hs : IsSpan U n u j) (hk : k ≤ p) (P : ℕ → Pt K d) :
    ∑ i ∈ range (n - k + 1), Nf (fun i => U (i + k)) k n u (p - k) i • dpt U p P k i =
      cv U p P k j u := by
  have hp := hs.p_le h
  have hjn := hs.le_n
  have hc := h.shiftN hk
  have hs' := hs.shiftN (k := k) (by omega)
  have : ∀ i, Nf (fun i => U (i + k)) k n u (p - k) i = Bs (shiftN k U) u (delta (j - k)) (p - k) i := by
    intro i
    rw [Nf_eq_Bs _ (by omega), ← base_eq_delta hc hs']; rfl
  simp only [this]
  rw [range_eq_Ico, sum_span_eq (by omega) (by omega) (by omega)]
  rw [cv, show j - k - (p - k) = j - p by omega]

/-! ### Lists -/

theorem fn_monotone {U : List K} (h : U.Pairwise (· ≤ ·)) : Monotone (fn U) := by
  intro i j hij
  by_cases hj : j < U.length
  · rw [fn_lt hj, fn_lt (by omega)]
    rcases hij.lt_or_eq with h1 | rfl
    · exact List.pairwise_iff_getElem.mp h i j (by omega) hj h1
    · exact le_rfl
  · by_cases hi : i < U.length
    · rw [fn_ge (i := j) (by omega), fn_last (by omega), fn_lt hi, fn_lt (by omega)]
      rcases Nat.lt_or_ge i (U.length - 1) with h1 | h1
      · exact List.pairwise_iff_getElem.mp h i _ hi (by omega) h1
      · simp only [show U.length - 1 = i by omega, le_refl]
    · rw [fn_ge (i := j) (by omega), fn_ge (by omega)]

/-- equal consecutive knots are bounded by the multiplicity -/
theorem run_le_count {U : List K} {x : K} {lo s : ℕ} (hs : lo + s ≤ U.length)
    (h : ∀ i, lo ≤ i → i < lo + s → fn U i = x) : s ≤ U.count x := by
  have hsub : ((U.drop lo).take s).Sublist U :=
    (List.take_sublist _ _).trans (List.drop_sublist _ _)
  have hrep : (U.drop lo).take s = List.replicate s x := by
    apply List.ext_getElem (by simp; omega)
    intro i h1 h2
    simp only [List.length_replicate] at h2
    rw [List.getElem_take, List.getElem_drop, List.getElem_replicate, ← fn_lt]
    exact h _ (by omega) (by omega)
  have := hsub.count_le x
  rw [hrep, List.count_replicate_self] at this
  exact this

theorem ClampedKnots.clamp {a b : K} {p n : ℕ} {U : List K} (h : ClampedKnots a b p n U) :
    Clamp (fn U) p n a b where
  mono := fn_monotone h.sorted
  left := by
    intro i hi
    have hl := h.length
    rw [fn_lt (by omega)]
    apply h.left
    rw [List.mem_take_iff_getElem]
    exact ⟨i, by omega, rfl⟩
  right := by
    intro i hi
    have hl := h.length
    have key : ∀ j (hj : j < U.length), n + 1 ≤ j → U[j] = b := by
      intro j hj hn
      apply h.right
      rw [List.mem_drop_iff_getElem]
      exact ⟨j - (n + 1), by omega, by congr 1; omega⟩
    by_cases hi' : i < U.length
    · rw [fn_lt hi']; exact key i hi' hi
    · rw [fn_ge (by omega), fn_last (by omega), fn_lt (by omega)]
      exact key _ (by omega) (by omega)
  inner := by
    intro i h1 h2
    have hl := h.length
    rw [fn_lt (by omega)]
    apply h.inner
    rw [List.mem_take_iff_getElem]
    refine ⟨i - (p + 1), by simp; omega, ?_⟩
    rw [List.getElem_drop]
    congr 1; omega
  lt := h.lt
  le := h.le

/-- conversely, a clamped function gives a clamped knot vector -/
theorem ClampedKnots.of_clamp {a b : K} {p n : ℕ} {U : List K} (hl : U.length = n + p + 2)
    (h : Clamp (fn U) p n a b) : ClampedKnots a b p n U where
  length := hl
  sorted := by
    rw [List.pairwise_iff_getElem]
    intro i j hi hj hij
    have := h.mono hij.le
    rwa [fn_lt hi, fn_lt hj] at this
  left := by
    intro x hx
    rw [List.mem_take_iff_getElem] at hx
    obtain ⟨i, hi, rfl⟩ := hx
    rw [← fn_lt]; exact h.left i (by omega)
  right := by
    intro x hx
    rw [List.mem_drop_iff_getElem] at hx
    obtain ⟨i, hi, rfl⟩ := hx
    rw [← fn_lt]; exact h.right _ (by omega)
  inner := by
    intro x hx
    rw [List.mem_take_iff_getElem] at hx
    obtain ⟨i, hi, rfl⟩ := hx
    simp only [List.length_drop] at hi
    rw [List.getElem_drop, ← fn_lt]
    exact h.inner _ (by omega) (by omega)
  lt := h.lt
  le := h.le

theorem Built.eq_canon {c : Curve K d} {p n : ℕ} {U : List K} {P : List (Pt K d)}
    (h : Built c p U P) (hU : U.length = n + p + 2) (hp : p ≤ n) (hP : P.length = n + 1) :
    c = canon p U P := by
  rw [Built, mkCurve_ok hP hp (by omega)] at h
  injection h with h; injection h with h; exact h.symm

theorem ValidOn.eq_canon {a b : K} {c : Curve K d} {p n : ℕ} {U : List K} {P : List (Pt K d)}
    (h : ValidOn a b c p n U P) : c = canon p U P :=
  h.1.eq_canon h.2.1.length h.2.1.le h.2.2

theorem validOn_canon {a b : K} {p n : ℕ} {U : List K} {P : List (Pt K d)}
    (h : ClampedKnots a b p n U) (hP : P.length = n + 1) : ValidOn a b (canon p U P) p n U P :=
  ⟨mkCurve_ok hP h.le (by have := h.length; omega), h, hP⟩

/-- the value of evaluation on a valid curve -/
theorem evaluateDerivative_eq {a b : K} {p n k : ℕ} {U : List K} {P : List (Pt K d)}
    (h : ClampedKnots a b p n U) (hP : P.length = n + 1) (hk : k ≤ p) {u : K} (h0 : 0 ≤ u)
    (h1 : u ≤ 1) {j : ℕ} (hs : IsSpan (fn U) n u j) :
    (canon p U P).evaluateDerivative u k = .ok (.ok (cv (fn U) p (fn P) k j u)) := by
  rw [evaluateDerivative_ok h.length hP h.le hk (by simpa [Cmp.le] using h0)
    (by simpa [Cmp.le] using h1), evalFold_eq_cv h.clamp hs hk]

end BSpline
