import Verif.Props.Knots

/-!
# When normalising commutes with derivation: the exact condition of C49
-/

set_option linter.unusedSectionVars false

namespace BSpline

variable {K : Type} [Field K] [LinearOrder K] [IsStrictOrderedRing K]

theorem fn_le_of_sorted {U : List K} (h : U.Pairwise (· ≤ ·)) {i j : ℕ} (hij : i ≤ j) (hj : j < U.length) :
    fn U i ≤ fn U j := by
  rw [fn_lt (by omega), fn_lt hj]
  rcases hij.lt_or_eq with h1 | rfl
  · exact List.pairwise_iff_getElem.mp h i j (by omega) hj h1
  · exact le_rfl

/-- the smallest and the largest element of a part of a sorted list -/
theorem vmin_dvec {U : List K} (h : U.Pairwise (· ≤ ·)) {k : ℕ} (hk : 2 * k < U.length) :
    vmin (dvec U k) = fn U k ∧ vmax (dvec U k) = fn U (U.length - 1 - k) := by
  have hl := dvec_length U k
  have hne : dvec U k ≠ [] := by rw [← List.length_pos_iff]; omega
  have hmem : ∀ x ∈ dvec U k, fn U k ≤ x ∧ x ≤ fn U (U.length - 1 - k) := by
    intro x hx
    obtain ⟨i, hi, rfl⟩ := List.mem_iff_getElem.mp hx
    rw [← fn_lt hi, fn_dvec (by omega)]
    exact ⟨fn_le_of_sorted h (by omega) (by omega), fn_le_of_sorted h (by omega) (by omega)⟩
  have hat : ∀ i, i + 2 * k < U.length → fn U (i + k) ∈ dvec U k := by
    intro i hi
    rw [← fn_dvec hi, fn_lt (by omega)]
    exact List.getElem_mem _
  constructor
  · apply le_antisymm
    · have := hat 0 (by omega)
      rw [Nat.zero_add] at this
      exact vmin_le this
    · exact (hmem _ (vmin_mem hne)).1
  · apply le_antisymm
    · exact (hmem _ (vmax_mem hne)).2
    · have := hat (U.length - 1 - 2 * k) (by omega)
      rw [show U.length - 1 - 2 * k + k = U.length - 1 - k by omega] at this
      exact le_vmax this

/-- **C49** For sorted knots with a domain of positive length: normalising commutes with derivation if
and only if the knots are clamped, that is, the first `p + 1` knots are equal and the last `p + 1` knots
are equal. -/
theorem C49_normalize_commutes_iff {p n : ℕ} {U : List K} (hl : U.length = n + p + 2) (hp : p ≤ n)
    (hs : U.Pairwise (· ≤ ·)) (hd : U.getD p 0 < U.getD (n + 1) 0) {kn : Knots K}
    (hkn : Knots.new p U = .ok kn) :
    Knots.new p (normalizeKnots U) = .ok kn.normalize ↔
      U.getD 0 0 = U.getD p 0 ∧ U.getD (n + 1) 0 = U.getD (n + p + 1) 0 := by
  have hc := C49_rescale_commutes (by omega) hkn (vmin U, vmax U) (0, 1)
  rw [normalizeKnots, hc]
  rw [Knots.new_ok (by omega)] at hkn
  injection hkn with hkn
  subst hkn
  have hg : ∀ i, i < U.length → U.getD i 0 = fn U i := fun i hi => by
    rw [List.getD_eq_getElem _ _ hi, fn_lt hi]
  rw [hg _ (by omega), hg _ (by omega)] at hd
  rw [hg _ (by omega), hg _ (by omega), hg _ (by omega), hg _ (by omega)]
  have hlim : vmin U = fn U 0 ∧ vmax U = fn U (n + p + 1) := by
    have := vmin_dvec hs (k := 0) (by omega)
    rw [show dvec U 0 = U by simp [dvec], show U.length - 1 - 0 = n + p + 1 by omega] at this
    exact this
  have key : (Except.ok ((canonKnots p U).rescale (vmin U, vmax U) (0, 1)) : Exec (Knots K)) =
      .ok (canonKnots p U).normalize ↔
      ∀ k, k ≤ p → rescaleKnots (dvec U k) (vmin U, vmax U) (0, 1) =
        rescaleKnots (dvec U k) (vmin (dvec U k), vmax (dvec U k)) (0, 1) := by
    simp only [Knots.normalize, Knots.rescale, canonKnots, List.map_map, Except.ok.injEq, Knots.mk.injEq,
      and_true, List.map_inj_left, List.mem_range, Function.comp, normalizeKnots]
    constructor
    · intro h k hk; exact h k (by omega)
    · intro h k hk; exact h k (by omega)
  rw [key, hlim.1, hlim.2]
  constructor
  · intro h
    have h := h p le_rfl
    obtain ⟨e1, e2⟩ := vmin_dvec hs (k := p) (by omega)
    rw [show U.length - 1 - p = n + 1 by omega] at e2
    rw [e1, e2] at h
    have hpos : 0 < fn U (n + p + 1) - fn U 0 := by
      have h1 := fn_le_of_sorted hs (show 0 ≤ p by omega) (by omega)
      have h2 := fn_le_of_sorted hs (show n + 1 ≤ n + p + 1 by omega) (by omega)
      linarith
    have hpos' : 0 < fn U (n + 1) - fn U p := by linarith
    have hlv := dvec_length U p
    have at_i : ∀ i, i + 2 * p < U.length → (fn U (i + p) - fn U 0) / (fn U (n + p + 1) - fn U 0) =
        (fn U (i + p) - fn U p) / (fn U (n + 1) - fn U p) := by
      intro i hi
      have := congrArg (fun v => fn v i) h
      rw [rescaleKnots, rescaleKnots, fn_map _ (by omega), fn_map _ (by omega), fn_dvec hi] at this
      simpa using this
    have h0 := at_i 0 (by omega)
    rw [Nat.zero_add, sub_self, zero_div, div_eq_zero_iff] at h0
    have h0 : fn U 0 = fn U p := (sub_eq_zero.mp (h0.resolve_right hpos.ne')).symm
    have h1 := at_i (n + 1 - p) (by omega)
    rw [show n + 1 - p + p = n + 1 by omega, div_self hpos'.ne', div_eq_one_iff_eq hpos.ne'] at h1
    exact ⟨h0, by linarith⟩
  · rintro ⟨h1, h2⟩ k hk
    obtain ⟨e1, e2⟩ := vmin_dvec hs (k := k) (by omega)
    rw [e1, e2]
    have a1 := fn_le_of_sorted hs (show 0 ≤ k by omega) (by omega)
    have a2 := fn_le_of_sorted hs hk (by omega)
    have a3 := fn_le_of_sorted hs (show n + 1 ≤ U.length - 1 - k by omega) (by omega)
    have a4 := fn_le_of_sorted hs (show U.length - 1 - k ≤ n + p + 1 by omega) (by omega)
    rw [show fn U k = fn U 0 by linarith [le_antisymm (a2.trans h1.ge) a1],
      show fn U (U.length - 1 - k) = fn U (n + p + 1) from le_antisymm a4 (h2 ▸ a3)]

/-- C49: clamped knots with an interior knot of multiplicity `p + 2`, and knots that are not clamped -/
example : Knots.new 1 (normalizeKnots ([0, 0, 1, 1, 1, 2, 2] : List ℚ)) =
      .ok (canonKnots 1 [0, 0, 1, 1, 1, 2, 2]).normalize ∧
    Knots.new 1 (normalizeKnots ([0, 1, 2, 3, 3] : List ℚ)) ≠ .ok (canonKnots 1 [0, 1, 2, 3, 3]).normalize := by
  constructor
  · rw [C49_normalize_commutes_iff (n := 4) rfl (by omega) (by decide +kernel) (by decide +kernel)
      (Knots.new_ok (by decide))]
    decide +kernel
  · rw [Ne, C49_normalize_commutes_iff (n := 2) rfl (by omega) (by decide +kernel) (by decide +kernel)
      (Knots.new_ok (by decide))]
    decide +kernel

end BSpline
