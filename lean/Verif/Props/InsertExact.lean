import Verif.Props.Insert
import Verif.Refine.Split

/-!
# C16: exactly when insertion works

The restriction `SimpleBelow` of C15–C20 and C24–C27 is not an artefact of the proofs: above a
repeated interior knot *every* successful insertion produces an unsorted knot vector.
-/

set_option linter.unusedSectionVars false

namespace BSpline

variable {K : Type} [Field K] [LinearOrder K] [IsStrictOrderedRing K] {d : ℕ}

/-- the search stops at the first repeated knot -/
theorem lleq_stops {U : ℕ → K} {n : ℕ} {u : K} (hmono : Monotone U) (r : ℕ) : ∀ i, i + r = n →
    (∃ m, i < m ∧ m ≤ n ∧ U (m + 1) = U m ∧ U m < u) →
    lleq U u r i ≤ n ∧ U (lleq U u r i + 1) = U (lleq U u r i) ∧ U (lleq U u r i) < u := by
  induction r with
  | zero => rintro i hi ⟨m, h1, h2, -⟩; omega
  | succ r ih =>
    rintro i hi ⟨m, h1, h2, h3, h4⟩
    have h5 : U (i + 1) < u := (hmono (by omega)).trans_lt h4
    simp only [lleq, Cmp.le, Cmp.eq, decide_eq_true_eq]
    rw [if_pos h5.le]
    split
    · rename_i h6; exact ⟨by omega, h6, h5⟩
    · rename_i h6
      refine ih (i + 1) (by omega) ⟨m, ?_, h2, h3, h4⟩
      rcases Nat.lt_or_ge (i + 1) m with h7 | h7
      · exact h7
      · obtain rfl : m = i + 1 := by omega
        exact absurd h3 h6

/-- **C16, exact.** After a successful `insert(u)` the knot vector is sorted if and only if no
interior knot below `u` is repeated. -/
theorem C16_sorted_iff {c c' : Curve K d} {p n : ℕ} {U U' : List K} {P : List (Pt K d)}
    (hc : ValidOn 0 1 c p n U P) {u : K} (hi : c.insert u = .ok (c', .ok ()))
    (hU' : c'.knots.vector = .ok U') : U'.Pairwise (· ≤ ·) ↔ SimpleBelow U u := by
  constructor
  · intro hsorted
    have hex := C17_insert_errors_exact hc u
    obtain rfl := hc.eq_canon
    obtain ⟨-, hU, hP⟩ := hc
    by_cases hu : u ≤ 0 ∨ 1 ≤ u
    · rw [hex.1 hu] at hi; injection hi with hi; simp at hi
    push Not at hu
    by_cases hm : p < U.count u
    · rw [hex.2.1 hu.1 hu.2 hm] at hi; injection hi with hi; simp at hi
    rw [Curve.insert_eq, insert_ok hU.length hP hU.le, multF_eq_count hU hu.1 hu.2,
      if_neg (by simp [Cmp.le, hu.1, hu.2]), if_neg hm] at hi
    injection hi with hi; injection hi with hi _
    rw [← hi, canon_knots, canonKnots_vector] at hU'
    injection hU' with hU'
    intro x hx0 hxu
    by_contra hcon
    have hlen := hU.length
    have hle := hU.le
    have hcl := hU.clamp
    have i1 : ∀ {i}, i < U.length → (fn U i < x ↔ i < nlt U x) := fun hi => fn_lt_iff hU.sorted x hi
    have i2 : ∀ {i}, i < U.length → (fn U i ≤ x ↔ i < nlt U x + U.count x) :=
      fun hi => fn_le_iff hU.sorted x hi
    have a1 := (i1 (i := p) (by omega)).mp (by rw [hcl.left p le_rfl]; exact hx0)
    have a2 := (not_congr (i2 (i := n + 1) (by omega))).mp
      (by rw [hcl.right (n + 1) le_rfl]; exact not_le.mpr (hxu.trans hu.2))
    have eqx : ∀ i, nlt U x ≤ i → i < nlt U x + U.count x → fn U i = x := fun i h1 h2 =>
      le_antisymm ((i2 (by omega)).mpr h2) (not_lt.mp ((not_congr (i1 (by omega))).mpr (by omega)))
    have hst := lleq_stops (u := u) hcl.mono (n - p) p (n := n) (by omega) ⟨nlt U x, by omega, by omega,
      by rw [eqx _ (by omega) (by omega), eqx _ le_rfl (by omega)],
      by rw [eqx _ le_rfl (by omega)]; exact hxu⟩
    generalize lleq (fn U) u (n - p) p = l at hst hU'
    have hmono := fn_monotone hsorted
    have := hmono (show l + 1 ≤ l + 2 by omega)
    rw [← hU', fn_insU_eq (by omega), fn_insU_gt (i := l + 1) (by omega) le_rfl, hst.2.1] at this
    exact absurd (this.trans_lt hst.2.2) (lt_irrefl _)
  · intro hr
    obtain ⟨V, Q, hv, -⟩ := C16_insert_adds_knot_partial hc hr hi
    rw [hv.eq_canon, canon_knots, canonKnots_vector] at hU'
    injection hU' with hU'
    exact hU' ▸ hv.2.1.sorted

/-- both sides occur: see `exBad` (unsorted) and `exU_simpleBelow` -/
example : exC.insert (9 / 10) = .ok (exBad, .ok ()) ∧
    exBad.knots.vector = .ok [0, 0, 0, 1 / 2, 9 / 10, 1 / 2, 3 / 4, 1, 1, 1] :=
  ⟨exBad_eq, by decide +kernel⟩

end BSpline
