import Verif.Refine.Generate
import Verif.Refine.Eval
import Verif.Refine.Normalize

/-!
# Knot predicates: C50
-/

set_option linter.unusedSectionVars false

namespace BSpline

variable {K : Type} [Field K] [LinearOrder K] [IsStrictOrderedRing K]

theorem sortedScan_iff : ∀ (l : List K) (x : K),
    Knots.sortedScan x l = true ↔ (x :: l).Pairwise (· ≤ ·) := by
  intro l
  induction l with
  | nil => intro x; simp [Knots.sortedScan]
  | cons y l ih =>
    intro x
    rw [Knots.sortedScan, Bool.and_eq_true, ih y, ← List.isChain_iff_pairwise,
      ← List.isChain_iff_pairwise, List.isChain_cons_cons]
    simp [Cmp.le]

/-- **C50** `is_sorted` is true exactly for non-decreasing knots. -/
theorem C50_is_sorted {kn : Knots K} {U : List K} (h : kn.vector = .ok U) :
    ∃ b, kn.isSorted = .ok b ∧
      (b = true ↔ ∀ i j (hj : j < U.length) (hij : i ≤ j), U[i] ≤ U[j]) := by
  have hp : (∀ i j (hj : j < U.length) (hij : i ≤ j), U[i] ≤ U[j]) ↔ U.Pairwise (· ≤ ·) := by
    rw [List.pairwise_iff_getElem]
    constructor
    · intro h i j hi hj hij; exact h i j hj hij.le
    · intro h i j hj hij
      rcases hij.lt_or_eq with h1 | rfl
      · exact h i j (by omega) hj h1
      · exact le_rfl
  rw [hp]
  rw [Knots.vector] at h
  rw [Knots.isSorted, h, ok_bind]
  cases U with
  | nil => exact ⟨true, rfl, by simp⟩
  | cons x l => exact ⟨_, rfl, sortedScan_iff l x⟩

/-- **C50** `is_clamped` is true exactly if the first `p + 1` knots are `0` and the last `p + 1`
knots are `1` (as far as they exist: a vector with fewer than `p + 1` knots passes if all of them
are both, that is, only the empty one). -/
theorem C50_is_clamped {kn : Knots K} {U : List K} (h : kn.vector = .ok U) :
    ∃ b, kn.isClamped = .ok b ∧
      (b = true ↔ ∀ i (hi : i < U.length), i ≤ kn.degree → U[i] = 0 ∧ U[U.length - 1 - i] = 1) := by
  rw [Knots.isClamped, h, ok_bind]
  refine ⟨_, rfl, ?_⟩
  simp only [Bool.and_eq_true, List.all_eq_true, Cmp.eq, decide_eq_true_eq, List.mem_take_iff_getElem]
  constructor
  · rintro ⟨h1, h2⟩ i hi hip
    have hip' : i < kn.p + 1 := by simpa [Knots.degree, Nat.lt_succ_iff] using hip
    constructor
    · exact h1 _ ⟨i, by omega, rfl⟩
    · apply h2
      refine ⟨i, by simp; omega, ?_⟩
      rw [List.getElem_reverse]
  · intro h1
    constructor
    · rintro x ⟨i, hi, rfl⟩
      exact (h1 i (by omega) (by simp only [Knots.degree]; omega)).1
    · rintro x ⟨i, hi, rfl⟩
      simp only [List.length_reverse] at hi
      rw [List.getElem_reverse]
      exact (h1 i (by omega) (by simp only [Knots.degree]; omega)).2

theorem partialCmpUnwrap_ok (a b : K) :
    Knots.partialCmpUnwrap a b = .ok (if a < b then .lt else if a = b then .eq else .gt) := by
  rw [Knots.partialCmpUnwrap]
  simp only [Cmp.lt, Cmp.eq, decide_eq_true_eq]
  by_cases h1 : a < b
  · simp [h1]
  · by_cases h2 : a = b
    · simp [h2]
    · have : b < a := lt_of_le_of_ne (not_lt.mp h1) (Ne.symm h2)
      simp [h1, h2, this]

theorem minFold_ok : ∀ (l : List K) (x : K), ∃ m, l.foldlM (fun a b => do
      let o ← Knots.partialCmpUnwrap a b
      pure (if o = .gt then b else a)) x = (.ok m : Exec K) ∧ m ∈ x :: l ∧ ∀ y ∈ x :: l, m ≤ y := by
  intro l
  induction l with
  | nil => intro x; exact ⟨x, rfl, by simp, by simp⟩
  | cons y l ih =>
    intro x
    rw [List.foldlM_cons, partialCmpUnwrap_ok, ok_bind, pure_ok, ok_bind]
    by_cases h : y < x
    · rw [if_neg (not_lt.mpr h.le), if_neg h.ne', if_pos rfl]
      obtain ⟨m, h1, h2, h3⟩ := ih y
      refine ⟨m, h1, by simp only [List.mem_cons] at h2 ⊢; tauto, ?_⟩
      intro z hz
      rcases List.mem_cons.mp hz with rfl | hz
      · exact (h3 y (by simp)).trans h.le
      · exact h3 z hz
    · rw [if_neg (by by_cases h1 : x < y <;> by_cases h2 : x = y <;> simp [h1, h2];
                     exact absurd (lt_of_le_of_ne (not_lt.mp h) h2) h1)]
      obtain ⟨m, h1, h2, h3⟩ := ih x
      refine ⟨m, h1, by simp only [List.mem_cons] at h2 ⊢; tauto, ?_⟩
      intro z hz
      simp only [List.mem_cons] at hz
      rcases hz with rfl | rfl | hz
      · exact h3 _ (by simp)
      · exact (h3 x (by simp)).trans (not_lt.mp h)
      · exact h3 z (by simp [hz])

theorem maxFold_ok : ∀ (l : List K) (x : K), ∃ m, l.foldlM (fun a b => do
      let o ← Knots.partialCmpUnwrap a b
      pure (if o = .gt then a else b)) x = (.ok m : Exec K) ∧ m ∈ x :: l ∧ ∀ y ∈ x :: l, y ≤ m := by
  intro l
  induction l with
  | nil => intro x; exact ⟨x, rfl, by simp, by simp⟩
  | cons y l ih =>
    intro x
    rw [List.foldlM_cons, partialCmpUnwrap_ok, ok_bind, pure_ok, ok_bind]
    by_cases h : y < x
    · rw [if_neg (not_lt.mpr h.le), if_neg h.ne', if_pos rfl]
      obtain ⟨m, h1, h2, h3⟩ := ih x
      refine ⟨m, h1, by simp only [List.mem_cons] at h2 ⊢; tauto, ?_⟩
      intro z hz
      simp only [List.mem_cons] at hz
      rcases hz with rfl | rfl | hz
      · exact h3 _ (by simp)
      · exact h.le.trans (h3 x (by simp))
      · exact h3 z (by simp [hz])
    · rw [if_neg (by by_cases h1 : x < y <;> by_cases h2 : x = y <;> simp [h1, h2];
                     exact absurd (lt_of_le_of_ne (not_lt.mp h) h2) h1)]
      obtain ⟨m, h1, h2, h3⟩ := ih y
      refine ⟨m, h1, by simp only [List.mem_cons] at h2 ⊢; tauto, ?_⟩
      intro z hz
      rcases List.mem_cons.mp hz with rfl | hz
      · exact (not_lt.mp h).trans (h3 y (by simp))
      · exact h3 z hz

/-- **C50** `is_normed` is true exactly if the smallest knot is `0` and the largest is `1`. -/
theorem C50_is_normed {kn : Knots K} {U : List K} (h : kn.vector = .ok U) :
    ∃ b, kn.isNormed = .ok b ∧
      (b = true ↔ (0 : K) ∈ U ∧ (1 : K) ∈ U ∧ ∀ x ∈ U, 0 ≤ x ∧ x ≤ 1) := by
  rw [Knots.isNormed, h, ok_bind]
  cases U with
  | nil => exact ⟨false, rfl, by simp⟩
  | cons x l =>
    obtain ⟨m, h1, h2, h3⟩ := minFold_ok l x
    obtain ⟨M, h4, h5, h6⟩ := maxFold_ok l x
    simp only [Knots.minBy, Knots.maxBy]
    rw [h1, h4]
    refine ⟨_, rfl, ?_⟩
    simp only [Knots.optEq, Cmp.eq, Bool.and_eq_true, decide_eq_true_eq]
    constructor
    · rintro ⟨rfl, rfl⟩
      exact ⟨h2, h5, fun y hy => ⟨h3 y hy, h6 y hy⟩⟩
    · rintro ⟨h7, h8, h9⟩
      exact ⟨le_antisymm (h3 0 h7) (h9 m h2).1, le_antisymm (h9 M h5).2 (h6 1 h8)⟩

theorem vecEq_iff (a b : List K) : vecEq a b = true ↔ a = b := by
  rw [vecEq, Bool.and_eq_true, beq_iff_eq]
  constructor
  · rintro ⟨h1, h2⟩
    apply List.ext_getElem h1
    intro i hi hi'
    rw [List.all_eq_true] at h2
    have := h2 (Cmp.eq a[i] b[i]) (by
      rw [List.mem_iff_getElem]
      exact ⟨i, by simp; omega, by simp⟩)
    simpa [Cmp.eq] using this
  · rintro rfl
    refine ⟨rfl, ?_⟩
    rw [List.all_eq_true]
    intro x hx
    rw [List.mem_iff_getElem] at hx
    obtain ⟨i, hi, rfl⟩ := hx
    simp [Cmp.eq]

/-- **C50** `is_uniform` on a knot vector of degree `p ≥ 1` with `n + p + 2` knots, `p ≤ n`, is true
exactly if the knots are `p + 1` zeros, `j / (n - p + 1)` for `j = 1, ..., n - p`, and `p + 1`
ones. -/
theorem C50_is_uniform {kn : Knots K} {p n : ℕ} {U : List K} (h : kn.vector = .ok U)
    (hd : kn.degree = p) (hl : U.length = n + p + 2) (h1 : 1 ≤ p) (h2 : p ≤ n) :
    ∃ b, isUniform kn = .ok (.ok b) ∧
      (b = true ↔ ∀ i (hi : i < U.length), (i ≤ p → U[i] = 0) ∧ (n < i → U[i] = 1) ∧
        (p < i → i ≤ n → U[i] = ((i - p : ℕ) : K) / ((n - p + 1 : ℕ) : K))) := by
  have hseg : kn.segments = .ok n := by
    have h' := h
    rw [Knots.vector] at h'
    rw [Knots.segments, Knots.segmentsDerivative, h', ok_bind, show kn.p = p from hd]
    rw [usub_ok (by omega), ok_bind, usub_ok (by omega), hl]
    congr 1; omega
  rw [isUniform, h, ok_bind, hseg, ok_bind, hd, uniform_ok h1 h2, ok_bind]
  dsimp only
  rw [canonKnots_vector, ok_bind]
  refine ⟨_, rfl, ?_⟩
  rw [vecEq_iff]
  have key : ∀ i (hi : i < U.length), (genU p n (uniK (K := K) p n))[i]'(by
      rw [genU_length]; omega) = if i ≤ p then 0 else if i ≤ n then uniK p n (i - p) else 1 := by
    intro i hi
    rw [← fn_lt, fn_genU (by omega)]
  constructor
  · intro e i hi
    have : U[i] = (genU p n (uniK (K := K) p n))[i]'(by rw [genU_length]; omega) := by simp only [← e]
    rw [this, key i hi]
    refine ⟨fun h => by rw [if_pos h], fun h => by rw [if_neg (by omega), if_neg (by omega)],
      fun h h' => by rw [if_neg (by omega), if_pos h']; rfl⟩
  · intro e
    apply List.ext_getElem (by rw [genU_length]; omega)
    intro i hi hi'
    rw [key i hi]
    obtain ⟨a, b, c⟩ := e i hi
    split
    · exact a ‹_›
    · split
      · exact c (by omega) ‹_›
      · exact b (by omega)

/-- **C50** `is_uniform` reports `DegreeTooLow` for degree `0`. -/
theorem C50_is_uniform_degree_zero {kn : Knots K} {n : ℕ} {U : List K} (h : kn.vector = .ok U)
    (hd : kn.degree = 0) (hl : U.length = n + 2) : isUniform kn = .ok (.error (.degreeTooLow 0 0)) := by
  have hseg : kn.segments = .ok n := by
    have h' := h
    rw [Knots.vector] at h'
    rw [Knots.segments, Knots.segmentsDerivative, h', ok_bind, show kn.p = 0 from hd]
    rw [usub_ok (by omega), ok_bind, usub_ok (by omega), hl]
    congr 1
  rw [isUniform, h, ok_bind, hseg, ok_bind, hd]
  rfl

/-- **C50** On a valid curve `is_sorted`, `is_clamped` and `is_normed` are all true. -/
theorem C50_valid {p n : ℕ} {U : List K} {kn : Knots K} (h : kn.vector = .ok U) (hd : kn.degree = p)
    (hU : ClampedKnots 0 1 p n U) :
    kn.isSorted = .ok true ∧ kn.isClamped = .ok true ∧ kn.isNormed = .ok true := by
  have hl := hU.length
  have hc := hU.clamp
  have hle := hU.le
  refine ⟨?_, ?_, ?_⟩
  · obtain ⟨b, h1, h2⟩ := C50_is_sorted h
    rw [h1]; congr 1
    rw [h2]
    intro i j hj hij
    have := hc.mono hij
    rwa [fn_lt (by omega), fn_lt hj] at this
  · obtain ⟨b, h1, h2⟩ := C50_is_clamped h
    rw [h1]; congr 1
    rw [h2, hd]
    intro i hi hip
    rw [← fn_lt hi, ← fn_lt (l := U) (by omega)]
    exact ⟨hc.left i hip, hc.right _ (by omega)⟩
  · obtain ⟨b, h1, h2⟩ := C50_is_normed h
    rw [h1]; congr 1
    rw [h2]
    exact ⟨hU.a_mem, hU.b_mem, fun x hx => hU.mem_bounds hx⟩

/-- non-vacuity: all four answers occur -/
example : (canonKnots 1 ([0, 0, 1 / 2, 1, 1] : List ℚ)).isClamped = .ok true ∧
    (canonKnots 1 ([0, 0, 1 / 2, 1, 2] : List ℚ)).isClamped = .ok false ∧
    (canonKnots 1 ([0, 0, 1 / 2, 1 / 3, 1] : List ℚ)).isSorted = .ok false ∧
    (canonKnots 1 ([0, 0, 1 / 2, 1 / 3, 1] : List ℚ)).isNormed = .ok true := by decide +kernel

end BSpline
