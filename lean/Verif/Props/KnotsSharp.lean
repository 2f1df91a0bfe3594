import Verif.Props.Knots
import Verif.Refine.Split

/-!
# When `find_idx` returns the documented knot: the exact conditions of C46
-/

set_option linter.unusedSectionVars false

namespace BSpline

section LawFree
variable {K : Type} [Zero K] [Cmp K]

/-- the search to the right does not pass a repeated knot -/
theorem loopLeftOrEqual_passed {V : List K} {u : K} (r : ℕ) : ∀ i j, i + 1 + r < V.length →
    Knots.loopLeftOrEqual V u r i = .ok j → ∀ m, i < m → m < j → Cmp.eq (fn V (m + 1)) (fn V m) = false := by
  induction r with
  | zero =>
    intro i j hi hj m h1 h2
    rw [Knots.loopLeftOrEqual, idx_ok (by omega), ok_bind] at hj
    simp only [pure_ok] at hj
    split at hj <;> (injection hj with hj; omega)
  | succ r ih =>
    intro i j hi hj m h1 h2
    rw [Knots.loopLeftOrEqual, idx_ok (by omega), ok_bind] at hj
    by_cases h : Cmp.le (fn V (i + 1)) u = true
    · rw [if_pos h, idx_ok (by omega), ok_bind, ok_bind] at hj
      by_cases he : Cmp.eq (fn V (i + 1 + 1)) (fn V (i + 1)) = true
      · rw [if_pos he] at hj
        injection hj with hj; omega
      · rw [if_neg he] at hj
        rcases Nat.lt_or_ge (i + 1) m with h3 | h3
        · exact ih (i + 1) j (by omega) hj m h3 h2
        · rw [show m = i + 1 by omega]; simpa using he
    · rw [if_neg h] at hj
      injection hj with hj; omega

/-- the search to the left does not pass a repeated knot -/
theorem loopRightOrEqual_passed {V : List K} {u : K} (r : ℕ) : ∀ i j, i ≤ V.length →
    Knots.loopRightOrEqual V u r i = .ok j → ∀ m, j < m → m < i → Cmp.eq (fn V (m - 1)) (fn V m) = false := by
  induction r with
  | zero =>
    intro i j hl hj m h1 h2
    rw [Knots.loopRightOrEqual, usub_ok (by omega), ok_bind, idx_ok (by omega), ok_bind] at hj
    simp only [pure_ok] at hj
    split at hj <;> (injection hj with hj; omega)
  | succ r ih =>
    intro i j hl hj m h1 h2
    rw [Knots.loopRightOrEqual, usub_ok (by omega), ok_bind, idx_ok (by omega), ok_bind] at hj
    by_cases h : Cmp.le u (fn V (i - 1)) = true
    · rw [if_pos h, ok_bind] at hj
      rcases Nat.lt_or_ge 1 i with hi2 | hi2
      · rw [usub_ok (by omega), ok_bind, idx_ok (by omega), ok_bind, idx_ok (by omega), ok_bind] at hj
        by_cases he : Cmp.eq (fn V (i - 1 - 1)) (fn V (i - 1)) = true
        · rw [if_pos he] at hj
          injection hj with hj; omega
        · rw [if_neg he] at hj
          rcases Nat.lt_or_ge m (i - 1) with h3 | h3
          · exact ih (i - 1) j (by omega) hj m h1 h3
          · rw [show m = i - 1 by omega]; simpa using he
      · omega
    · rw [if_neg h] at hj
      injection hj with hj; omega

end LawFree

variable {K : Type} [Field K] [LinearOrder K] [IsStrictOrderedRing K]
variable {a b : K} {p n k : ℕ} {U : List K}

theorem nlt_add_count_le (U : List K) (x : K) : nlt U x + U.count x ≤ U.length := by
  induction U with
  | nil => simp [nlt]
  | cons y U ih =>
    rw [nlt] at ih ⊢
    rw [List.countP_cons, List.count_cons, List.length_cons]
    rcases lt_trichotomy y x with h | h | h
    · have : (y == x) = false := by simpa using h.ne
      rw [if_pos (by simpa using h), this]; simp; omega
    · have : (y == x) = true := by simpa using h
      rw [if_neg (by simp [h]), this]; simp; omega
    · have : (y == x) = false := by simpa using h.ne'
      rw [if_neg (by simpa using h.le), this]; simp; omega

/-- a knot that occurs twice occurs at two neighbouring positions -/
theorem exists_repeated (h : ClampedKnots a b p n U) {x : K} (h0 : a < x) (h1 : x < b) (hx : 2 ≤ U.count x) :
    ∃ s, p < s ∧ s + 1 ≤ n ∧ fn U s = x ∧ fn U (s + 1) = x := by
  have i1 : ∀ {i}, i < U.length → (fn U i < x ↔ i < nlt U x) := fun hi => fn_lt_iff h.sorted x hi
  have i2 : ∀ {i}, i < U.length → (fn U i ≤ x ↔ i < nlt U x + U.count x) := fun hi => fn_le_iff h.sorted x hi
  have hlen := nlt_add_count_le U x
  have hf : ∀ s, nlt U x ≤ s → s < nlt U x + U.count x → fn U s = x := by
    intro s h2 h3
    refine le_antisymm ((i2 (by omega)).mpr h3) (not_lt.mp fun hc => ?_)
    have := (i1 (by omega)).mp hc
    omega
  refine ⟨nlt U x, ?_, ?_, hf _ le_rfl (by omega), hf _ (by omega) (by omega)⟩
  · by_contra hc
    have := hf (nlt U x) le_rfl (by omega)
    rw [h.clamp.left _ (by omega)] at this
    exact absurd h0 (by rw [this]; exact lt_irrefl _)
  · by_contra hc
    have := hf (nlt U x + 1) (by omega) (by omega)
    rw [h.clamp.right _ (by omega)] at this
    exact absurd h1 (by rw [this]; exact lt_irrefl _)

/-- **C46** `LeftOrEqual` returns a nearest lower or equal knot if and only if every interior knot below `u`
except the nearest one is simple. -/
theorem C46_left_or_equal_iff (h : ClampedKnots a b p n U) {kn : Knots K} (hkn : Knots.new p U = .ok kn)
    (hk : k ≤ p) {u : K} (hu0 : a ≤ u) (hub : u < b) :
    (∃ V i, kn.vectorDerivative k = .ok V ∧ kn.findIdx u k .leftOrEqual = .ok i ∧
      IsNearest V (p - k) (n + 1 - k) u .leftOrEqual i) ↔
    ∀ x y, a < x → x < y → y ≤ u → y ∈ U → U.count x ≤ 1 := by
  have hle := h.le
  have hl := h.length
  have hlv := dvec_length U k
  rw [Knots.new_ok (by omega)] at hkn
  injection hkn with hkn
  subst hkn
  constructor
  · rintro ⟨V, j, hV, hj, hn1, hn2, hn3, hn4⟩ x y hx hxy hy hyU
    rw [canon_vectorDerivative hk] at hV
    injection hV with hV
    subst hV
    rw [canon_findIdx hl hle hk] at hj
    by_contra hc
    obtain ⟨s, hs1, hs2, hs3, hs4⟩ := exists_repeated h hx (lt_trans (lt_of_lt_of_le hxy hy) hub) (by omega)
    have hjs : j + k ≤ s := by
      by_contra hjs
      have := loopLeftOrEqual_passed (n - p) (p - k) j (by omega) hj (s - k) (by omega) (by omega)
      rw [fn_dvec' h hk (by omega), fn_dvec' h hk (by omega), show s - k + 1 + k = s + 1 by omega,
        show s - k + k = s by omega, hs3, hs4] at this
      simp [Cmp.eq] at this
    obtain ⟨i, hi, he⟩ := List.mem_iff_getElem.mp hyU
    have hfi : fn U i = y := by rw [fn_lt hi, he]
    have hip : p < i := by
      by_contra hc
      rw [h.clamp.left _ (by omega)] at hfi
      exact absurd (lt_trans hx hxy) (by rw [hfi]; exact lt_irrefl _)
    have hin : i ≤ n := by
      by_contra hc
      rw [h.clamp.right _ (by omega)] at hfi
      exact absurd (lt_of_le_of_lt hy hub) (by rw [hfi]; exact lt_irrefl _)
    have := hn4 (i - k) (by omega) (by omega)
    rw [getD_dvec h hk (by omega), getD_dvec h hk (by omega), show i - k + k = i by omega, hfi] at this
    have h2 : fn U (j + k) ≤ fn U s := h.clamp.mono hjs
    rw [hs3] at h2
    exact absurd (lt_of_le_of_lt ((this hy).trans h2) hxy) (lt_irrefl _)
  · intro hs
    obtain ⟨j, h1, h2, h3, h4, h5⟩ := loopLeftOrEqual_spec (V := dvec U k) (u := u) (n - p) (p - k)
      (by omega)
    have hj1 : fn U (j + k) ≤ u := by
      rcases h2.lt_or_eq with h6 | h6
      · have := h4 j h6 le_rfl
        rw [fn_dvec' h hk (by omega)] at this
        simpa [Cmp.le] using this
      · rw [h.clamp.left _ (by omega)]; exact hu0
    refine ⟨_, j, canon_vectorDerivative hk U, by rw [canon_findIdx hl hle hk]; exact h1,
      h2, by omega, by rw [getD_dvec h hk (by omega)]; exact hj1, ?_⟩
    intro m hm1 hm2 hm
    rw [getD_dvec h hk (by omega)] at hm ⊢
    rw [getD_dvec h hk (by omega)]
    rcases h5 with h5 | h5 | ⟨h5, h6⟩
    · have : m ≤ n - k := by
        by_contra hc
        rw [h.clamp.right _ (by omega)] at hm
        exact absurd (lt_of_lt_of_le hub hm) (lt_irrefl _)
      exact h.clamp.mono (by omega)
    · rw [fn_dvec' h hk (by omega)] at h5
      have h5' : u < fn U (j + 1 + k) := by simpa [Cmp.le] using h5
      apply h.clamp.mono
      by_contra hc
      exact absurd (lt_of_lt_of_le h5' ((h.clamp.mono (by omega)).trans hm)) (lt_irrefl _)
    · rw [fn_dvec' h hk (by omega), fn_dvec' h hk (by omega)] at h6
      have h6' : fn U (j + 1 + k) = fn U (j + k) := by simpa [Cmp.eq] using h6
      by_contra hc
      rw [not_le] at hc
      have h8 := run_le_count (U := U) (x := fn U (j + k)) (lo := j + k) (s := 2) (by omega) (by
        intro i hi1 hi2
        rcases Nat.lt_or_ge (j + k) i with hi | hi
        · rw [show i = j + 1 + k by omega, h6']
        · rw [show i = j + k by omega])
      have := hs _ (fn U (m + k)) (h.clamp.a_lt (by omega)) hc hm (by
        rw [fn_lt (by omega)]; exact List.getElem_mem _)
      omega

theorem loopRightOrEqual_pos {V : List K} {u : K} (r : ℕ) : ∀ i j, r = i → 1 ≤ i → i ≤ V.length →
    (∀ m, m < i → u ≤ fn V m) → Knots.loopRightOrEqual V u r i = .ok j → 1 ≤ j := by
  induction r with
  | zero => intro i j hi h1; omega
  | succ r ih =>
    intro i j hri hi hl hle hj
    rw [Knots.loopRightOrEqual, usub_ok (by omega), ok_bind, idx_ok (by omega), ok_bind,
      if_pos (by simpa [Cmp.le] using hle (i - 1) (by omega)), ok_bind] at hj
    by_cases h2 : 2 ≤ i
    · rw [usub_ok (by omega), ok_bind, idx_ok (by omega), ok_bind, idx_ok (by omega), ok_bind] at hj
      split at hj
      · injection hj with hj; omega
      · exact ih (i - 1) j (by omega) (by omega) (by omega) (fun m hm => hle m (by omega)) hj
    · rw [usub_error (by omega), error_bind] at hj
      cases hj

/-- **C46** `RightOrEqual` returns a nearest higher or equal knot if and only if every interior knot above
`u` except the nearest one is simple and the call is not that for the left end with `k = p`. -/
theorem C46_right_or_equal_iff (h : ClampedKnots a b p n U) {kn : Knots K} (hkn : Knots.new p U = .ok kn)
    (hk : k ≤ p) {u : K} (hu0 : a ≤ u) (hub : u ≤ b) :
    (∃ V i, kn.vectorDerivative k = .ok V ∧ kn.findIdx u k .rightOrEqual = .ok i ∧
      IsNearest V (p - k) (n + 1 - k) u .rightOrEqual i) ↔
    (k < p ∨ a < u) ∧ ∀ x y, u ≤ y → y < x → x < b → y ∈ U → U.count x ≤ 1 := by
  have hle := h.le
  have hl := h.length
  have hlv := dvec_length U k
  rw [Knots.new_ok (by omega)] at hkn
  injection hkn with hkn
  subst hkn
  constructor
  · rintro ⟨V, j, hV, hj, hn1, hn2, hn3, hn4⟩
    rw [canon_vectorDerivative hk] at hV
    injection hV with hV
    subst hV
    rw [canon_findIdx hl hle hk] at hj
    dsimp only at hj
    constructor
    · by_contra hc
      push Not at hc
      obtain ⟨hc1, hc2⟩ := hc
      have hkp : k = p := by omega
      subst hkp
      have hua : u = a := le_antisymm hc2 hu0
      subst hua
      have hj1 := loopRightOrEqual_pos (n - k + 1) (n + 1 - k) j (by omega) (by omega) (by omega) (by
        intro m hm
        rw [fn_dvec' h hk (by omega)]
        exact h.clamp.a_le _) hj
      have h1 := hn4 0 (by omega) (by omega)
      rw [getD_dvec h hk (by omega), getD_dvec h hk (by omega), h.clamp.left _ (by omega)] at h1
      exact absurd (lt_of_lt_of_le (h.clamp.a_lt (by omega)) (h1 le_rfl)) (lt_irrefl _)
    · intro x y hy hxy hx hyU
      by_contra hc
      obtain ⟨s, hs1, hs2, hs3, hs4⟩ := exists_repeated h (lt_of_le_of_lt (hu0.trans hy) hxy) hx (by omega)
      have hjs : s + 1 ≤ j + k := by
        by_contra hjs
        have := loopRightOrEqual_passed (n - p + 1) (n + 1 - k) j (by omega) hj (s + 1 - k) (by omega) (by omega)
        rw [fn_dvec' h hk (by omega), fn_dvec' h hk (by omega), show s + 1 - k - 1 + k = s by omega,
          show s + 1 - k + k = s + 1 by omega, hs3, hs4] at this
        simp [Cmp.eq] at this
      have hi : ∃ i, p ≤ i ∧ i ≤ n ∧ fn U i = y := by
        obtain ⟨i, hi, he⟩ := List.mem_iff_getElem.mp hyU
        have hfi : fn U i = y := by rw [fn_lt hi, he]
        have hin : i ≤ n := by
          by_contra hc
          rw [h.clamp.right _ (by omega)] at hfi
          exact absurd (lt_trans hxy hx) (by rw [hfi]; exact lt_irrefl _)
        rcases Nat.lt_or_ge i p with hip | hip
        · refine ⟨p, le_rfl, hle, ?_⟩
          rw [h.clamp.left _ le_rfl, ← hfi, h.clamp.left _ (by omega)]
        · exact ⟨i, hip, hin, hfi⟩
      obtain ⟨i, hi1, hi2, hfi⟩ := hi
      have := hn4 (i - k) (by omega) (by omega)
      rw [getD_dvec h hk (by omega), getD_dvec h hk (by omega), show i - k + k = i by omega, hfi] at this
      have h2 : fn U (s + 1) ≤ fn U (j + k) := h.clamp.mono hjs
      rw [hs4] at h2
      exact absurd (lt_of_lt_of_le hxy (h2.trans (this hy))) (lt_irrefl _)
  · rintro ⟨hka, hs⟩
    obtain ⟨j, h1, h2, h3, h4, h5⟩ := loopRightOrEqual_spec (V := dvec U k) (u := u) (n - p + 1)
      (n + 1 - k) (by omega) (by omega) (by omega) (by
        rcases hka with h6 | h6
        · left; omega
        · right
          rw [fn_dvec' h hk (by omega), h.clamp.left _ (by omega)]
          simpa [Cmp.le] using h6)
    have hj1 : u ≤ fn U (j + k) := by
      rcases h3.lt_or_eq with h6 | h6
      · have := h4 j le_rfl h6
        rw [fn_dvec' h hk (by omega)] at this
        simpa [Cmp.le] using this
      · rw [h.clamp.right _ (by omega)]; exact hub
    refine ⟨_, j, canon_vectorDerivative hk U, by rw [canon_findIdx hl hle hk]; exact h1,
      by omega, by omega, by rw [getD_dvec h hk (by omega)]; exact hj1, ?_⟩
    intro m hm1 hm2 hm
    rw [getD_dvec h hk (by omega)] at hm ⊢
    rw [getD_dvec h hk (by omega)]
    rcases h5 with h5 | h5 | ⟨h5, h6⟩
    · exact h.clamp.mono (by omega)
    · rw [fn_dvec' h hk (by omega)] at h5
      have h5' : fn U (j - 1 + k) < u := by simpa [Cmp.le] using h5
      apply h.clamp.mono
      by_contra hc
      exact absurd (lt_of_lt_of_le h5' (hm.trans (h.clamp.mono (by omega : m + k ≤ j - 1 + k)))) (lt_irrefl _)
    · rw [fn_dvec' h hk (by omega), fn_dvec' h hk (by omega)] at h6
      have h6' : fn U (j - 1 + k) = fn U (j + k) := by simpa [Cmp.eq] using h6
      by_cases hjp : j + k ≤ p
      · rw [h.clamp.left _ hjp]; exact h.clamp.a_le _
      by_contra hc
      rw [not_le] at hc
      have h8 := run_le_count (U := U) (x := fn U (j + k)) (lo := j + k - 1) (s := 2) (by omega) (by
        intro i hi1 hi2
        rcases Nat.lt_or_ge i (j + k) with hi | hi
        · rw [← h6']; congr 1; omega
        · congr 1; omega)
      have := hs _ (fn U (m + k)) hm hc (h.clamp.lt_b (by omega)) (by
        rw [fn_lt (by omega)]; exact List.getElem_mem _)
      omega

section LawFree
variable {K : Type} [Zero K] [Cmp K]

theorem loopRightOrEqual_error_iff {V : List K} {u : K} (r : ℕ) : ∀ i, r = i → 1 ≤ i → i ≤ V.length →
    (Knots.loopRightOrEqual V u r i = .error .underflow ∨ ∃ j, Knots.loopRightOrEqual V u r i = .ok j) ∧
    (Knots.loopRightOrEqual V u r i = .error .underflow ↔
      (∀ m, m < i → Cmp.le u (fn V m) = true) ∧ ∀ m, m + 1 < i → Cmp.eq (fn V m) (fn V (m + 1)) = false) := by
  induction r with
  | zero => intro i hi h1; omega
  | succ r ih =>
    intro i hri hi hl
    rw [Knots.loopRightOrEqual, usub_ok (by omega), ok_bind, idx_ok (by omega), ok_bind]
    by_cases h1 : Cmp.le u (fn V (i - 1)) = true
    · rw [if_pos h1, ok_bind]
      by_cases h2 : 2 ≤ i
      · rw [usub_ok (by omega), ok_bind, idx_ok (by omega), ok_bind, idx_ok (by omega), ok_bind]
        by_cases h3 : Cmp.eq (fn V (i - 1 - 1)) (fn V (i - 1)) = true
        · rw [if_pos h3]
          refine ⟨Or.inr ⟨_, rfl⟩, ⟨fun h => (by cases h), fun h => ?_⟩⟩
          have := h.2 (i - 1 - 1) (by omega)
          rw [show i - 1 - 1 + 1 = i - 1 by omega, h3] at this
          cases this
        · rw [if_neg h3]
          obtain ⟨g1, g2⟩ := ih (i - 1) (by omega) (by omega) (by omega)
          refine ⟨g1, g2.trans ⟨fun h => ⟨fun m hm => ?_, fun m hm => ?_⟩,
            fun h => ⟨fun m hm => h.1 m (by omega), fun m hm => h.2 m (by omega)⟩⟩⟩
          · rcases Nat.lt_or_ge m (i - 1) with h4 | h4
            · exact h.1 m h4
            · rw [show m = i - 1 by omega]; exact h1
          · rcases Nat.lt_or_ge (m + 1) (i - 1) with h4 | h4
            · exact h.2 m h4
            · rw [show m + 1 = i - 1 by omega, show m = i - 1 - 1 by omega]
              exact Bool.not_eq_true _ ▸ h3
      · rw [usub_error (by omega), error_bind]
        refine ⟨Or.inl rfl, ⟨fun _ => ⟨fun m hm => ?_, fun m hm => by omega⟩, fun _ => rfl⟩⟩
        rw [show m = i - 1 by omega]; exact h1
    · rw [if_neg h1]
      exact ⟨Or.inr ⟨_, rfl⟩, ⟨fun h => (by cases h), fun h => absurd (h.1 (i - 1) (by omega)) h1⟩⟩

/-- **C46** The exact condition for a panic, in any arithmetic and for any knots with enough elements:
`RightOrEqual` with the highest derivative order, no domain knot but the last is below `u`, and no two
neighbours among them are equal. -/
theorem C46_panics_iff {p n k : ℕ} {U : List K} (hU : U.length = n + p + 2) (hp : p ≤ n)
    (hk : k ≤ p) {kn : Knots K} (hkn : Knots.new p U = .ok kn) (u : K) (c : Comparator) :
    (∃ e, kn.findIdx u k c = .error e) ↔ c = .rightOrEqual ∧ k = p ∧
      (∀ (m : ℕ) x, p ≤ m → m ≤ n → U[m]? = some x → Cmp.le u x = true) ∧
      ∀ (m : ℕ) x y, p ≤ m → m < n → U[m]? = some x → U[m + 1]? = some y → Cmp.eq x y = false := by
  constructor
  · rintro ⟨e, he⟩
    by_cases hc : c = .rightOrEqual → k < p
    · obtain ⟨i, hi, -⟩ := C46_never_panics_partial hU hp hk hkn u c hc
      rw [hi] at he
      cases he
    · push Not at hc
      obtain ⟨rfl, hkp⟩ := hc
      obtain rfl : k = p := by omega
      rw [Knots.new_ok (by omega)] at hkn
      injection hkn with hkn
      subst hkn
      rw [canon_findIdx hU hp le_rfl] at he
      obtain ⟨g1, g2⟩ := loopRightOrEqual_error_iff (V := dvec U k) (u := u) (n - k + 1) (n + 1 - k) (by omega)
        (by omega) (by rw [dvec_length]; omega)
      obtain ⟨g3, g4⟩ := g2.mp (by
        rcases g1 with g | ⟨j, g⟩
        · exact g
        · rw [g] at he; cases he)
      refine ⟨rfl, rfl, ?_, ?_⟩
      · intro m x h1 h2 hx
        have := g3 (m - k) (by omega)
        rw [fn_dvec (by omega), show m - k + k = m by omega] at this
        obtain ⟨h3, rfl⟩ := List.getElem?_eq_some_iff.mp hx
        rwa [fn_lt h3] at this
      · intro m x y h1 h2 hx hy
        have := g4 (m - k) (by omega)
        rw [fn_dvec (by omega), fn_dvec (by omega), show m - k + k = m by omega,
          show m - k + 1 + k = m + 1 by omega] at this
        obtain ⟨h3, rfl⟩ := List.getElem?_eq_some_iff.mp hx
        obtain ⟨h4, rfl⟩ := List.getElem?_eq_some_iff.mp hy
        rwa [fn_lt h3, fn_lt h4] at this
  · rintro ⟨rfl, rfl, h1, h2⟩
    refine ⟨.underflow, ?_⟩
    rw [Knots.new_ok (by omega)] at hkn
    injection hkn with hkn
    subst hkn
    rw [canon_findIdx hU hp le_rfl]
    refine (loopRightOrEqual_error_iff (V := dvec U k) (u := u) (n - k + 1) (n + 1 - k) (by omega)
        (by omega) (by rw [dvec_length]; omega)).2.mpr ⟨fun m hm => ?_, fun m hm => ?_⟩
    · rw [fn_dvec (by omega), fn_lt (by omega)]
      exact h1 (m + k) _ (by omega) (by omega) (List.getElem?_eq_getElem _)
    · rw [fn_dvec (by omega), fn_dvec (by omega), fn_lt (by omega), fn_lt (by omega)]
      refine h2 (m + k) _ _ (by omega) (by omega) (List.getElem?_eq_getElem _) ?_
      rw [← List.getElem?_eq_getElem]
      congr 1; omega

end LawFree

/-- non-vacuity: a repeated knot that is the nearest one does no harm, a repeated one farther away does -/
example : ClampedKnots (0 : ℚ) 1 1 4 [0, 0, 1 / 4, 1 / 4, 3 / 4, 1, 1] ∧
    (∀ x ∈ ([0, 0, 1 / 4, 1 / 4, 3 / 4, 1, 1] : List ℚ), ∀ y ∈ ([0, 0, 1 / 4, 1 / 4, 3 / 4, 1, 1] : List ℚ),
      0 < x → x < y → y ≤ 1 / 2 → ([0, 0, 1 / 4, 1 / 4, 3 / 4, 1, 1] : List ℚ).count x ≤ 1) ∧
    (canonKnots 1 ([0, 0, 1 / 4, 1 / 4, 3 / 4, 1, 1] : List ℚ)).findIdx (1 / 2) 0 .leftOrEqual = .ok 2 := by
  decide +kernel

end BSpline
