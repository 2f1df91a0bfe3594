import Verif.Props.Regular

/-!
# The exact supports of the basis functions: C107
-/

set_option linter.unusedSectionVars false

namespace BSpline

open Finset

variable {K : Type} [Field K] [LinearOrder K] [IsStrictOrderedRing K] {d : ℕ}

/-- at the right end of the domain only the last function is not zero -/
theorem Bs_at_end {U : ℕ → K} {p n : ℕ} {a b : K} (hc : Clamp U p n a b) (q : ℕ) : ∀ i, i ≤ n →
    Bs U b (delta n) q i = if i = n then 1 else 0 := by
  induction q with
  | zero => intro i _; simp only [Bs, delta]
  | succ q ih =>
    intro i hi
    simp only [Bs]
    rw [ih i hi]
    rcases Nat.eq_or_lt_of_le hi with h | h
    · subst h
      have hb : U (i + q + 1) = b := hc.right _ (by omega)
      have hlt := hc.lt_b (le_refl i)
      rw [if_pos rfl, Bs_support _ _ _ _ _ (Or.inr (by omega)), mul_zero, add_zero, mul_one, hb]
      exact div_self (sub_pos.mpr hlt).ne'
    · rw [if_neg (by omega), mul_zero, zero_add, ih (i + 1) (by omega)]
      rcases Nat.eq_or_lt_of_le (show i + 1 ≤ n from h) with h2 | h2
      · have hb : U (i + q + 2) = b := hc.right _ (by omega)
        rw [hb, sub_self, zero_div, zero_mul]
      · rw [if_neg (by omega), mul_zero]

theorem Bs_pos_iff {U : ℕ → K} {p n j : ℕ} {a b u : K} (hc : Clamp U p n a b) (hs : IsSpan U n u j) {i : ℕ}
    (hi : i ≤ n) : 0 < Bs U u (delta j) p i ↔
      (U i < u ∧ u < U (i + p + 1)) ∨ (u = U i ∧ U (i + p) = U i ∧ U i < U (i + p + 1)) ∨ (i = n ∧ u = b) := by
  rcases hs.hi with hhi | ⟨hjn, hub⟩
  · have hub : u < b := hhi.trans_le (hc.le_b _)
    constructor
    · intro h
      have h3 : i ≤ j ∧ j ≤ i + p := by
        by_contra hcon
        exact h.ne' (Bs_support _ _ _ _ _ (by omega))
      have h5 : u < U (i + p + 1) := hhi.trans_le (hc.mono (by omega))
      rcases lt_or_ge (U i) u with h4 | h4
      · exact Or.inl ⟨h4, h5⟩
      · have e : u = U i := le_antisymm h4 ((hc.mono h3.1).trans hs.lo)
        have hj : j = i + p := by
          by_contra hne
          exact h.ne' (Bs_zero_at_knot hc.mono hs.lo p i h4 (by omega))
        refine Or.inr (Or.inl ⟨e, ?_, e ▸ h5⟩)
        exact le_antisymm (e ▸ hj ▸ hs.lo) (hc.mono (by omega))
    · rintro (⟨h1, h2⟩ | ⟨h1, h2, h3⟩ | ⟨-, h2⟩)
      · refine Bs_pos hc.mono hs.lo hhi p i ?_ ?_ h1
        · by_contra hcon
          exact absurd (hhi.trans_le (hc.mono (show j + 1 ≤ i by omega))) (not_lt.mpr h1.le)
        · by_contra hcon
          exact absurd (h2.trans_le (hc.mono (show i + p + 1 ≤ j by omega))) (not_lt.mpr hs.lo)
      · refine Bs_first_pos hc.mono hs.lo hhi p i ?_
        apply le_antisymm
        · by_contra hcon
          have := hhi.trans_le (hc.mono (show j + 1 ≤ i + p by omega))
          rw [h2, ← h1] at this
          exact lt_irrefl _ this
        · by_contra hcon
          have := (hc.mono (show i + p + 1 ≤ j by omega)).trans hs.lo
          rw [h1] at this
          exact absurd h3 (not_lt.mpr this)
      · exact absurd h2 hub.ne
  · subst hjn
    have hub : u = b := by rw [hub]; exact hc.right _ le_rfl
    subst hub
    rw [Bs_at_end hc p i hi]
    constructor
    · intro h
      split at h
      · exact Or.inr (Or.inr ⟨by assumption, rfl⟩)
      · exact absurd h (lt_irrefl _)
    · rintro (⟨h1, h2⟩ | ⟨h1, h2, h3⟩ | ⟨h1, -⟩)
      · exact absurd h2 (not_lt.mpr (hc.le_b _))
      · exact absurd h3 (not_lt.mpr (h1 ▸ hc.le_b _))
      · rw [if_pos h1]; exact one_pos

/-- **C107** Where a basis function is positive: strictly between its first and its last knot, at its first knot
exactly if this is also the last but one, and, for the last function, at the end of the domain. Everywhere else
it is zero. -/
theorem C107_positive_iff {a b : K} {p n k i : ℕ} {U : List K} (hU : ClampedKnots a b p n U)
    {kn : Knots K} (hkn : Knots.new p U = .ok kn) (hk : k ≤ p) (hi : i ≤ n - k) {u : K}
    (h0 : a ≤ u) (h1 : u ≤ b) {Uk : List K} (hUk : kn.vectorDerivative k = .ok Uk) {x y z : K}
    (hx : Uk[i]? = some x) (hz : Uk[i + (p - k)]? = some z) (hy : Uk[i + (p - k) + 1]? = some y) :
    ∃ v, kn.evaluate k i p u = .ok v ∧ 0 ≤ v ∧
      (0 < v ↔ (x < u ∧ u < y) ∨ (u = x ∧ z = x ∧ x < y) ∨ (i = n - k ∧ u = b)) := by
  have hl := hU.length
  have hle := hU.le
  have hkn' := hkn
  rw [Knots.new_ok (by omega)] at hkn
  injection hkn with hkn; subst hkn
  rw [vectorDerivative_eq hU hk hUk (by omega)] at hx hy hz
  injection hx with hx; injection hy with hy; injection hz with hz
  obtain ⟨v, e, v0, -⟩ := C02_between_zero_and_one hU hkn' hk hi h0 h1
  refine ⟨v, e, v0, ?_⟩
  obtain ⟨j, hs⟩ := hU.clamp.exists_span h0 h1
  have hp := hs.p_le hU.clamp
  have hc := hU.clamp.shiftN hk
  have hs' := hs.shiftN (k := k) (by omega)
  rw [knots_evaluate_ok hU.length hU.le hk (by omega) u, Nf_eq_Bs _ (by omega)] at e
  rw [show (fun i => fn U (i + k)) = shiftN k (fn U) from rfl, base_eq_delta hc hs'] at e
  injection e with e
  rw [← e, Bs_pos_iff hc hs' hi]
  simp only [shiftN_apply, hx, hy, hz]

/-- **C107** Moving a control point changes the curve at `u` exactly if its basis function is positive there. -/
theorem C107_moved_iff {c c' : Curve K d} {p n i : ℕ} {U : List K} {P : List (Pt K d)}
    (hc : ValidOn 0 1 c p n U P) {q r : Pt K d} (hr : P[i]? = some r) (hq : q ≠ r)
    (hc' : Built c' p U (P.set i q)) {x y z : K} (hx : U[i]? = some x) (hz : U[i + p]? = some z)
    (hy : U[i + p + 1]? = some y) {u : K} (h0 : 0 ≤ u) (h1 : u ≤ 1) :
    c'.evaluate u ≠ c.evaluate u ↔ (x < u ∧ u < y) ∨ (u = x ∧ z = x ∧ x < y) ∨ (i = n ∧ u = 1) := by
  obtain rfl := hc.eq_canon
  obtain ⟨-, hU, hP⟩ := hc
  have hl := hU.length
  obtain ⟨hi, rfl⟩ := List.getElem?_eq_some_iff.mp hr
  have hP' : (P.set i q).length = n + 1 := by simpa using hP
  obtain rfl := hc'.eq_canon (n := n) hU.length hU.le hP'
  obtain ⟨_, rfl⟩ := List.getElem?_eq_some_iff.mp hx
  obtain ⟨_, rfl⟩ := List.getElem?_eq_some_iff.mp hy
  obtain ⟨_, rfl⟩ := List.getElem?_eq_some_iff.mp hz
  obtain ⟨j, hs⟩ := hU.clamp.exists_span h0 h1
  rw [← fn_lt, ← fn_lt, ← fn_lt, ← Bs_pos_iff hU.clamp hs (by omega), evaluate_sum hU hP h0 h1,
    evaluate_sum hU hP' h0 h1]
  have hnn : 0 ≤ Bs (fn U) u (delta j) p i := Bs_nonneg hU.clamp.mono hs.lo hs.le_hi p i
  have hfn : ∀ m, m < n + 1 → fn (P.set i q) m - fn P m = if m = i then q - P[i] else 0 := by
    intro m hm
    rw [fn_lt (by omega), fn_lt (by omega), List.getElem_set]
    by_cases h : i = m
    · subst h; simp
    · rw [if_neg h, if_neg (Ne.symm h), sub_self]
  have hd : ∑ m ∈ range (n + 1), nb p n U m u • fn (P.set i q) m - ∑ m ∈ range (n + 1), nb p n U m u • fn P m =
      Bs (fn U) u (delta j) p i • (q - P[i]) := by
    rw [← sum_sub_distrib, ← nb_eq_Bs hU hs, sum_eq_single i]
    · rw [← smul_sub, hfn i (by omega), if_pos rfl]
    · intro m hm hmi
      rw [← smul_sub, hfn m (mem_range.mp hm), if_neg hmi, smul_zero]
    · intro h; exact absurd (mem_range.mpr (by omega)) h
  have hiff : ((.ok (.ok (∑ m ∈ range (n + 1), nb p n U m u • fn (P.set i q) m)) :
      Exec (Except (CurveError K) (Pt K d))) ≠ .ok (.ok (∑ m ∈ range (n + 1), nb p n U m u • fn P m))) ↔
      Bs (fn U) u (delta j) p i • (q - P[i]) ≠ 0 := by
    rw [← hd, Ne, Ne, Except.ok.injEq, Except.ok.injEq, sub_eq_zero]
  rw [hiff, smul_ne_zero_iff]
  constructor
  · rintro ⟨h, -⟩
    exact lt_of_le_of_ne hnn h.symm
  · intro h
    exact ⟨h.ne', sub_ne_zero.mpr hq⟩

/-- **C107** Strictly inside a span exactly `p - k + 1` basis functions are positive: those with the indices
`j - (p - k), …, j`. -/
theorem C107_active_iff {a b : K} {p n k i j : ℕ} {U : List K} (hU : ClampedKnots a b p n U)
    {kn : Knots K} (hkn : Knots.new p U = .ok kn) (hk : k ≤ p) (hi : i ≤ n - k) {u : K}
    {Uk : List K} (hUk : kn.vectorDerivative k = .ok Uk) {x y : K}
    (hx : Uk[j]? = some x) (hy : Uk[j + 1]? = some y) (hxu : x < u) (huy : u < y) :
    ∃ v, kn.evaluate k i p u = .ok v ∧ 0 ≤ v ∧ (0 < v ↔ i ≤ j ∧ j ≤ i + (p - k)) := by
  have hl := hU.length
  have hle := hU.le
  have hkn' := hkn
  rw [Knots.new_ok (by omega)] at hkn
  injection hkn with hkn
  have hUk' := hUk
  have hjl : j + 1 < n + p + 2 - 2 * k := by
    rw [← hkn, Knots.vectorDerivative, canonKnots_idx hk] at hUk
    injection hUk with hUk; subst hUk
    obtain ⟨hlt, _⟩ := List.getElem?_eq_some_iff.mp hy
    simp only [List.length_take, List.length_drop] at hlt
    omega
  rw [← hkn] at hUk
  have hg := fun {i} => vectorDerivative_eq (i := i) hU hk hUk
  rw [hg (by omega)] at hx hy
  injection hx with hx; injection hy with hy
  have hcl := hU.clamp
  have h0 : a ≤ u := (hcl.a_le _).trans (hx.le.trans hxu.le)
  have h1 : u < b := huy.trans_le (hy ▸ hcl.le_b _)
  obtain ⟨v, e, v0, hv⟩ := C107_positive_iff hU hkn' hk hi h0 h1.le hUk' (hg (i := i) (by omega))
    (hg (i := i + (p - k)) (by omega)) (hg (i := i + (p - k) + 1) (by omega))
  refine ⟨v, e, v0, hv.trans ⟨?_, ?_⟩⟩
  · rintro (⟨e1, e2⟩ | ⟨e1, e2, e3⟩ | ⟨-, e2⟩)
    · constructor
      · by_contra hcon
        have := hcl.mono (show j + 1 + k ≤ i + k by omega)
        rw [hy] at this
        exact absurd (huy.trans_le this) (not_lt.mpr e1.le)
      · by_contra hcon
        have := hcl.mono (show i + (p - k) + 1 + k ≤ j + k by omega)
        rw [hx] at this
        exact absurd (e2.trans_le this) (not_lt.mpr hxu.le)
    · exfalso
      rw [e1] at hxu huy
      rw [← hx] at hxu
      rw [← hy] at huy
      have l1 : j < i := by
        by_contra hcon
        exact absurd (hcl.mono (show i + k ≤ j + k by omega)) (not_le.mpr hxu)
      exact absurd (hcl.mono (show j + 1 + k ≤ i + k by omega)) (not_le.mpr huy)
    · exact absurd e2 h1.ne
  · rintro ⟨e1, e2⟩
    exact Or.inl ⟨(hcl.mono (by omega)).trans_lt (hx ▸ hxu), huy.trans_le (hy ▸ hcl.mono (by omega))⟩

/-- all three cases occur: a knot of multiplicity `p`, where a function starts with the value one -/
example : ∃ kn, Knots.new 1 [(0 : ℚ), 0, 1 / 2, 1 / 2, 1, 1] = .ok kn ∧
    kn.evaluate 0 2 1 (1 / 2) = .ok 1 ∧ kn.evaluate 0 1 1 (1 / 2) = .ok 0 ∧ kn.evaluate 0 1 1 (1 / 4) = .ok (1 / 2) ∧
    kn.evaluate 0 3 1 1 = .ok 1 :=
  ⟨canonKnots 1 [0, 0, 1 / 2, 1 / 2, 1, 1], Knots.new_ok (by decide), by decide +kernel⟩

example : ClampedKnots (0 : ℚ) 1 1 3 [0, 0, 1 / 2, 1 / 2, 1, 1] := by decide +kernel

end BSpline
