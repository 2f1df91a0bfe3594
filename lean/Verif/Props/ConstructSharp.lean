import Verif.Props.Construct

/-!
# Exactly which numbers of knots make a usable curve: C14

`Curve::new` does not compare the number of knots with the number of control points. For `n + 1`
control points and degree `p ≥ 1` there are exactly three cases: with fewer than `n + p + 1` knots
the construction panics, with `n + p + 1` knots every evaluation panics, and with `n + p + 2` or more
knots nothing panics. Knots beyond `n + p + 2` act like control points at the origin.
-/

set_option linter.unusedSectionVars false

namespace BSpline

section LawFree

variable {K : Type} [Add K] [Sub K] [Mul K] [Div K] [Neg K] [Zero K] [One K] [NatCast K] [Cmp K]
variable {d : ℕ}

theorem mapM_error {α β : Type} {f : α → Exec β} : ∀ (l : List α) (x : α), x ∈ l →
    (∃ e, f x = .error e) → ∃ e, l.mapM f = .error e := by
  intro l
  induction l with
  | nil => intro x hx; simp at hx
  | cons a l ih =>
    intro x hx h
    rw [List.mapM_cons]
    cases hf : f a with
    | error e => exact ⟨e, rfl⟩
    | ok y =>
      rw [ok_bind]
      rcases List.mem_cons.mp hx with rfl | hx
      · obtain ⟨e, he⟩ := h; rw [he] at hf; cases hf
      · obtain ⟨e, he⟩ := ih x hx h
        rw [he]; exact ⟨e, rfl⟩

/-- **C14** `Knots::new` succeeds exactly when there are at least `2 p` knots. -/
theorem C14_knots_iff (p : ℕ) (U : List K) : (∃ kn, Knots.new p U = .ok kn) ↔ 2 * p ≤ U.length := by
  refine ⟨?_, fun h => ⟨_, Knots.new_ok h⟩⟩
  intro h
  by_contra hl
  obtain ⟨kn, hkn⟩ := h
  obtain ⟨m, hm⟩ : ∃ m, m = U.length / 2 := ⟨_, rfl⟩
  have hlast : Knots.new m U = .ok (canonKnots m U) := Knots.new_ok (by omega)
  simp only [Knots.new, Knots.derive, forRangeIncl, List.take_one, List.head?_cons,
    Option.toList_some] at hlast hkn
  rw [show p + 1 - 1 = m + (1 + (p - m - 1)) by omega, ← List.range'_append_1, List.foldlM_append]
    at hkn
  rw [Nat.add_sub_cancel] at hlast
  generalize hF : List.foldlM (m := Exec) _ _ (List.range' 1 m) = r at hlast hkn
  cases r with
  | error e => cases hlast
  | ok Uk =>
    have hUk : Uk = (canonKnots m U).Uk := by
      injection hlast with hlast
      rw [← hlast]
    rw [ok_bind, hUk, ← List.range'_append_1, List.foldlM_append] at hkn
    have h1 : idx (canonKnots m U).Uk (1 + m - 1) = .ok ((U.drop m).take (U.length - 2 * m)) := by
      rw [show 1 + m - 1 = m by omega]; exact canonKnots_idx le_rfl U
    rw [List.range'_one, List.foldlM_cons] at hkn
    simp only [h1, ok_bind] at hkn
    rw [usub_error (by simp; omega)] at hkn
    cases hkn

/-- **C14** With fewer than `n + p + 1` knots the construction panics. -/
theorem C14_too_few_knots {p n : ℕ} {U : List K} {P : List (Pt K d)} (h1 : 1 ≤ p)
    (hU : U.length ≤ n + p) (hP : P.length = n + 1) (hp : p ≤ n) :
    ∃ e, mkCurve p U P = .error e := by
  rw [mkCurve]
  cases hkn : Knots.new p U with
  | error e => exact ⟨e, rfl⟩
  | ok kn =>
    have h2 := (C14_knots_iff p U).mp ⟨kn, hkn⟩
    rw [Knots.new_ok h2] at hkn
    injection hkn with hkn
    subst hkn
    have hseg : (ControlPoints.new P).segments = .ok n := by
      simp only [ControlPoints.segments, ControlPoints.count, ControlPoints.countDerivative,
        ControlPoints.new, idx, List.getElem?_cons_zero, ok_bind, pure_ok]
      rw [usub_ok (by omega)]; congr 1; omega
    rw [ok_bind, Curve.new, hseg]
    simp only [ok_bind]
    rw [if_neg (by simp [canonKnots, Knots.degree]; omega)]
    rw [Curve.calculateDerivatives, Knots.derive_ok (canonKnots_take _ _) h2, ok_bind,
      ControlPoints.derive]
    simp only [hseg, ok_bind, forRangeIncl, canonKnots_degree]
    obtain ⟨e, he⟩ := foldlM_error (f := fun (Pk : List (List (Pt K d))) k => do
        let nk ← usub n k
        let Pnew ← (List.range (nk + 1)).mapM (fun i => ControlPoints.deriveSinglePoint
          { Pk := Pk, kMax := (ControlPoints.new P).kMax } (canonKnots (canonKnots p U).p U) k i)
        pure (Pk ++ [Pnew])) (List.range' 1 (p + 1 - 1)) ((ControlPoints.new P).Pk.take 1) 1
        (by rw [List.mem_range'_1]; omega) (by
      intro s
      rw [usub_ok (by omega), ok_bind]
      obtain ⟨e, he⟩ := mapM_error (f := fun i => ControlPoints.deriveSinglePoint
          { Pk := s, kMax := (ControlPoints.new P).kMax } (canonKnots (canonKnots p U).p U) 1 i)
          (List.range (n - 1 + 1)) (n - 1)
          (by rw [List.mem_range]; omega) (by
        simp only [ControlPoints.deriveSinglePoint, canonKnots_vector, ok_bind]
        rw [idx_error (by rw [canonKnots_degree]; simp only [canonKnots]; omega)]
        exact ⟨_, rfl⟩)
      exact ⟨e, by rw [he]; rfl⟩)
    exact ⟨e, by
      simp only [canonKnots_p] at he ⊢
      rw [he]; rfl⟩

/-- The value of a curve with `m + p + 2 ≥ n + p + 2` knots and `n + 1` control points. -/
theorem evaluateDerivative_extra {p n m k : ℕ} {U : List K} {P : List (Pt K d)}
    (hU : U.length = m + p + 2) (hP : P.length = n + 1) (hp : p ≤ n) (hnm : n ≤ m) (hk : k ≤ p) {u : K}
    (h0 : Cmp.le 0 u = true) (h1 : Cmp.le u 1 = true) :
    (canon p U P).evaluateDerivative u k = .ok (.ok
      ((List.range' (lleq (fun i => fn U (i + k)) u (m - p) (p - k) - (p - k))
        (n - k + 1 - (lleq (fun i => fn U (i + k)) u (m - p) (p - k) - (p - k)))).foldl
      (fun v i => v + scale (Nf (fun j => fn U (j + k)) k m u (p - k) i) (dpt (fn U) p (fn P) k i))
      (fun _ => 0))) := by
  have hb := lleq_bounds (fun i => fn U (i + k)) u (m - p) (p - k)
  simp only [Curve.evaluateDerivative, h0, h1, Bool.and_self, Bool.not_true, Bool.false_eq_true,
    if_false, canon_degree, canon_points, canon_knots, Curve.segments, if_pos hk,
    canonPts_segments U P hP, ok_bind, findIdx_leftOrEqual_ok hU (hp.trans hnm) hk]
  rw [usub_ok hk, ok_bind, usub_ok hb.1, ok_bind, usub_ok (by omega), ok_bind]
  rw [forRangeIncl, foldlM_ok (g := fun v i => v +
    scale (Nf (fun j => fn U (j + k)) k m u (p - k) i) (dpt (fn U) p (fn P) k i))]
  · rfl
  · intro s x hx
    rw [List.mem_range'_1] at hx
    rw [knots_evaluate_ok hU (hp.trans hnm) hk (by omega), ok_bind, canonPts_matrixDerivative hk, ok_bind]
    rw [column_ok (by simp; omega), ok_bind, fn_map_range _ (by omega)]
    rfl

/-- **C14** With `n + p + 2` knots or more the curve is built, and every evaluation of every
derivative returns, for any knots whatsoever. -/
theorem C14_enough_knots {p n : ℕ} {U : List K} {P : List (Pt K d)}
    (hU : n + p + 2 ≤ U.length) (hP : P.length = n + 1) (hp : p ≤ n) :
    ∃ c, Built c p U P ∧ ∀ u k, (Cmp.le 0 u && Cmp.le u 1) = true →
      ∃ v, c.evaluateDerivative u k = .ok (.ok v) := by
  refine ⟨canon p U P, mkCurve_ok hP hp (by omega), ?_⟩
  intro u k hu
  by_cases hk : k ≤ p
  · have hu' := hu
    rw [Bool.and_eq_true] at hu'
    exact ⟨_, evaluateDerivative_extra (m := U.length - p - 2) (by omega) hP hp (by omega) hk hu'.1
      hu'.2⟩
  · exact ⟨fun _ => 0, by simp [Curve.evaluateDerivative, hu, hk]⟩

/-- **C14** For every degree `p ≥ 1` and `n + 1 > p` control points, and any parameter in range: the
curve is built and can be evaluated there **exactly** when there are at least `n + p + 2` knots. -/
theorem C14_usable_iff {p n : ℕ} {U : List K} {P : List (Pt K d)} (h1 : 1 ≤ p)
    (hP : P.length = n + 1) (hp : p ≤ n) {u : K} (hu : (Cmp.le 0 u && Cmp.le u 1) = true) :
    (∃ c v, Built c p U P ∧ c.evaluate u = .ok (.ok v)) ↔ n + p + 2 ≤ U.length := by
  constructor
  · rintro ⟨c, v, hc, hv⟩
    by_contra hl
    by_cases hlt : U.length ≤ n + p
    · obtain ⟨e, he⟩ := C14_too_few_knots h1 hlt hP hp
      rw [Built, he] at hc; cases hc
    · obtain ⟨c', hc', hbad⟩ := C14_one_knot_short h1 (show U.length = n + p + 1 by omega) hP hp
      rw [Built] at hc hc'
      rw [hc] at hc'
      injection hc' with hc'; injection hc' with hc'
      subst hc'
      obtain ⟨e, he⟩ := hbad u hu
      rw [hv] at he; cases he
  · intro h
    obtain ⟨c, hc, hv⟩ := C14_enough_knots h hP hp
    obtain ⟨v, hv⟩ := hv u 0 hu
    exact ⟨c, v, hc, hv⟩

end LawFree

variable {K : Type} [Field K] [LinearOrder K] [IsStrictOrderedRing K] {d : ℕ}

theorem foldl_zeros {f : ℕ → K} {Q : ℕ → Pt K d} : ∀ (l : List ℕ) (v : Pt K d),
    (∀ i ∈ l, Q i = fun _ => 0) → l.foldl (fun v i => v + scale (f i) (Q i)) v = v := by
  intro l
  induction l with
  | nil => intro v _; rfl
  | cons a l ih =>
    intro v h
    rw [List.foldl_cons, h a (by simp), ih _ fun i hi => h i (by simp [hi])]
    funext r
    simp [scale]

/-- **C14** Extra knots: a curve with `n + 1` control points and `m + p + 2` knots, `m > n`, has the
values of the curve with the same knots and `m - n` more control points at the **origin**. -/
theorem C14_extra_knots {p n m : ℕ} {U : List K} {P : List (Pt K d)} {c : Curve K d}
    (hc : Built c p U P) (hU : U.length = m + p + 2) (hP : P.length = n + 1) (hp : p ≤ n)
    (hnm : n ≤ m) :
    ∃ c', Built c' p U (P ++ List.replicate (m - n) fun _ => 0) ∧
      ∀ u, c.evaluate u = c'.evaluate u := by
  have hlen : (P ++ List.replicate (m - n) fun _ => (0 : K)).length = m + 1 := by simp; omega
  have hcc : c = canon p U P := by
    rw [Built, mkCurve_ok hP hp (by omega)] at hc
    injection hc with hc; injection hc with hc; exact hc.symm
  subst hcc
  refine ⟨_, mkCurve_ok hlen (hp.trans hnm) (by omega), ?_⟩
  intro u
  by_cases hu : (Cmp.le 0 u && Cmp.le u 1) = true
  · have hu' := hu
    rw [Bool.and_eq_true] at hu'
    rw [Curve.evaluate, Curve.evaluate,
      evaluateDerivative_extra hU hP hp hnm (Nat.zero_le p) hu'.1 hu'.2,
      evaluateDerivative_extra hU hlen (hp.trans hnm) le_rfl (Nat.zero_le p) hu'.1 hu'.2]
    congr 2
    simp only [dpt, Nat.sub_zero]
    generalize lleq _ u (m - p) p - p = lo
    have hA : ∀ i, i < n + 1 → fn (P ++ List.replicate (m - n) fun _ => (0 : K)) i = fn P i := by
      intro i hi
      exact fn_append_left (by omega)
    have hB : ∀ i, n + 1 ≤ i → i < m + 1 →
        fn (P ++ List.replicate (m - n) fun _ => (0 : K)) i = fun _ => 0 := by
      intro i hi hi'
      rw [fn_lt (by omega), List.getElem_append_right (by omega), List.getElem_replicate]
    by_cases hlo : lo ≤ n + 1
    · rw [show m + 1 - lo = (n + 1 - lo) + (m - n) by omega, ← List.range'_append_1, List.foldl_append]
      rw [foldl_zeros (List.range' (lo + (n + 1 - lo)) (m - n))]
      · apply List.foldl_ext
        intro v i hi
        rw [List.mem_range'_1] at hi
        rw [hA i (by omega)]
      · intro i hi
        rw [List.mem_range'_1] at hi
        exact hB i (by omega) (by omega)
    · rw [show n + 1 - lo = 0 by omega, foldl_zeros (List.range' lo (m + 1 - lo))]
      · rfl
      · intro i hi
        rw [List.mem_range'_1] at hi
        exact hB i (by omega) (by omega)
  · rw [Curve.evaluate, Curve.evaluate, Curve.evaluateDerivative, Curve.evaluateDerivative]
    simp [hu]

/-- two knots short, one knot short, exact, one knot too many -/
example : mkCurve 1 ([0, 0] : List ℚ) [![1], ![2]] = .error .index := by decide +kernel
example : (match mkCurve 1 ([0, 0, 1 / 2, 1, 1] : List ℚ) [![1], ![2]] with
    | .ok (.ok c) => some (c.evaluate (3 / 4))
    | _ => none) = some (.ok (.ok ![1])) := by decide +kernel
example : (match mkCurve 1 ([0, 0, 1 / 2, 1, 1] : List ℚ) [![1], ![2], ![0]] with
    | .ok (.ok c) => some (c.evaluate (3 / 4))
    | _ => none) = some (.ok (.ok ![1])) := by decide +kernel

/-! ### Derivative curves -/

section Derivative

variable {K : Type} [Add K] [Sub K] [Mul K] [Div K] [Neg K] [Zero K] [One K] [NatCast K] [Cmp K]
variable {d : ℕ}

/-- **C13** The derivative curve is a usable curve exactly for the highest derivative, where it is a step function. -/
theorem C13_full_iff {c : Curve K d} {p n k : ℕ} {U : List K} {P : List (Pt K d)}
    (hc : Built c p U P) (hU : U.length = n + p + 2) (hP : P.length = n + 1) (hp : p ≤ n) :
    C13_full c p k ↔ k = p := by
  constructor
  · intro h
    rcases Nat.lt_trichotomy k p with hk | hk | hk
    · exact absurd h (C13_full_false hc hU hP hp hk)
    · exact hk
    · obtain ⟨e, he, -⟩ := h
      rw [C13_order_too_high hc hU hP hp hk] at he
      cases he
  · rintro rfl
    obtain ⟨e, h1, h2, h3⟩ := C13_derivative_curve_partial hc hU hP hp (le_refl k)
    have hc' : c = canon k U P := by
      rw [Built, mkCurve_ok hP hp (by omega)] at hc
      injection hc with hc; injection hc with hc; exact hc.symm
    refine ⟨e, h1, h2, h3, ?_, ?_⟩
    · rw [hc', getDerivativeCurve_ok hU hp (le_refl k)] at h1
      injection h1 with h1
      rw [← h1]
      simp [Curve.maxDerivative, Knots.maxDerivative, ControlPoints.maxDerivative, canonKnots, ControlPoints.new]
    · intro u j
      by_cases h : (Cmp.le 0 u && Cmp.le u 1) = true
      · rcases Nat.eq_zero_or_pos j with rfl | hj
        · rw [Bool.and_eq_true] at h
          have := h3 u
          rw [hc', evaluateDerivative_ok hU hP hp le_rfl h.1 h.2] at this
          exact ⟨_, this⟩
        · refine ⟨.ok fun _ => 0, ?_⟩
          rw [Nat.sub_self] at h2
          simp [Curve.evaluateDerivative, h, h2, show ¬ j ≤ 0 by omega]
      · exact ⟨.error (.parameterOutOfBounds u 0 1), by simp [Curve.evaluateDerivative, h]⟩

end Derivative

end BSpline
