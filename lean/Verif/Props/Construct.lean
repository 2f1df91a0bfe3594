import Verif.Props.Eval

/-!
# Construction and derivative curves: C13, C14
-/

set_option linter.unusedSectionVars false

namespace BSpline

section LawFree

variable {K : Type} [Add K] [Sub K] [Mul K] [Div K] [Neg K] [Zero K] [One K] [NatCast K] [Cmp K]
variable {d : ℕ}

theorem Nf_order {U : ℕ → K} {k n : ℕ} (hk : k ≤ n) (u : K) (q : ℕ) : ∀ i,
    Nf U k n u q i = Nf U 0 (n - k) u q i := by
  induction q with
  | zero => intro i; simp only [Nf]; rw [show n + 1 - k = n - k + 1 - 0 by omega, Nat.sub_zero (n - k)]
  | succ q ih => intro i; simp only [Nf, ih]

/-- the value does not depend on cached derivatives of the control points -/
theorem evaluate_new_points {q m : ℕ} {V : List K} {Q : List (Pt K d)} (hQ : Q.length = m + 1)
    (u : K) : ({ knots := canonKnots q V, points := ControlPoints.new Q } : Curve K d).evaluate u =
      (canon q V Q).evaluate u := by
  have h1 : (ControlPoints.new Q).segments = .ok m := by
    simp only [ControlPoints.segments, ControlPoints.count, ControlPoints.countDerivative,
      ControlPoints.new, idx, List.getElem?_cons_zero, ok_bind, pure_ok]
    rw [usub_ok (by omega)]; congr 1; omega
  have h2 : (ControlPoints.new Q).matrixDerivative 0 = .ok Q := by
    simp [ControlPoints.matrixDerivative, ControlPoints.new, idx]
  have h3 : (canonPts q V Q).matrixDerivative 0 = .ok Q := by
    simp only [ControlPoints.matrixDerivative, if_pos (Nat.zero_le _), canonPts_idx_zero]
  simp only [Curve.evaluate, Curve.evaluateDerivative, Curve.degree, Curve.segments, canon_points,
    canon_knots, h1, h2, h3, canonPts_segments V Q hQ]

theorem getDerivativeCurve_ok {p n k : ℕ} {U : List K} {P : List (Pt K d)}
    (hU : U.length = n + p + 2) (hp : p ≤ n) (hk : k ≤ p) :
    (canon p U P).getDerivativeCurve k = .ok
      { knots := canonKnots (p - k) ((U.drop k).take (U.length - 2 * k)),
        points := ControlPoints.new
          ((List.range (P.length - k)).map (fun i => dpt (fn U) p (fn P) k i)) } := by
  simp only [Curve.getDerivativeCurve, canon_degree, canon_knots, canon_points,
    Knots.vectorDerivative, canonKnots_idx hk]
  rw [usub_ok hk, ok_bind, ok_bind, Knots.new_ok (by simp; omega), ok_bind,
    canonPts_matrixDerivative hk]
  rfl

/-- the error of a fold that fails somewhere -/
theorem foldlM_error {σ : Type} {f : σ → ℕ → Exec σ} : ∀ (l : List ℕ) (s : σ) (x : ℕ), x ∈ l →
    (∀ s, ∃ e, f s x = .error e) → ∃ e, l.foldlM f s = .error e := by
  intro l
  induction l with
  | nil => intro s x hx; simp at hx
  | cons a l ih =>
    intro s x hx h
    rw [List.foldlM_cons]
    cases hf : f s a with
    | error e => exact ⟨e, rfl⟩
    | ok s' =>
      rw [ok_bind]
      rcases List.mem_cons.mp hx with rfl | hx
      · obtain ⟨e, he⟩ := h s; rw [he] at hf; cases hf
      · exact ih s' x hx h

/-- The full claim C13: the derivative curve evaluates to the derivative *and* is usable like any
other curve. -/
def C13_full (c : Curve K d) (p k : ℕ) : Prop :=
  ∃ e, c.getDerivativeCurve k = .ok e ∧ e.degree = p - k ∧
    (∀ u, e.evaluate u = c.evaluateDerivative u k) ∧
    (∃ m, e.maxDerivative = .ok m) ∧
    ∀ u j, ∃ r, e.evaluateDerivative u j = .ok r

/-- **C13 (partial)** `get_derivative_curve(k)` has degree `p - k`, and evaluating it is evaluating
the `k`-th derivative, for every parameter and any arithmetic. Missing: the rest of `C13_full`,
which is false for `k < p` (`C13_derivative_curve_unusable`). -/
theorem C13_derivative_curve_partial {c : Curve K d} {p n k : ℕ} {U : List K} {P : List (Pt K d)}
    (hc : Built c p U P) (hU : U.length = n + p + 2) (hP : P.length = n + 1) (hp : p ≤ n)
    (hk : k ≤ p) :
    ∃ e, c.getDerivativeCurve k = .ok e ∧ e.degree = p - k ∧
      ∀ u, e.evaluate u = c.evaluateDerivative u k := by
  obtain rfl : c = canon p U P := by
    rw [Built, mkCurve_ok hP hp (by omega)] at hc
    injection hc with hc; injection hc with hc; exact hc.symm
  refine ⟨_, getDerivativeCurve_ok hU hp hk, rfl, ?_⟩
  intro u
  have hQ : ((List.range (P.length - k)).map (fun i => dpt (fn U) p (fn P) k i)).length
      = (n - k) + 1 := by simp; omega
  rw [evaluate_new_points hQ]
  by_cases h : (Cmp.le 0 u && Cmp.le u 1) = true
  · rw [Bool.and_eq_true] at h
    have hV : ((U.drop k).take (U.length - 2 * k)).length = (n - k) + (p - k) + 2 := by
      simp; omega
    rw [Curve.evaluate, evaluateDerivative_ok hV hQ (by omega) (Nat.zero_le _) h.1 h.2,
      evaluateDerivative_ok hU hP hp hk h.1 h.2]
    have hfn : ∀ i, i < n + p + 2 - 2 * k →
        fn ((U.drop k).take (U.length - 2 * k)) i = fn U (i + k) := by
      intro i hi
      rw [fn_drop_take (by omega) (by omega)]; congr 1; omega
    have hl : lleq (fun i => fn ((U.drop k).take (U.length - 2 * k)) (i + 0)) u (n - k - (p - k))
        (p - k - 0) = lleq (fun i => fn U (i + k)) u (n - p) (p - k) := by
      rw [show n - k - (p - k) = n - p by omega, Nat.sub_zero]
      apply lleq_congr
      intro m h1 h2
      exact hfn _ (by omega)
    rw [hl]
    congr 2
    simp only [evalFold, Nat.sub_zero]
    have hlo := lleq_bounds (fun i => fn U (i + k)) u (n - p) (p - k)
    apply List.foldl_ext
    intro v i hi
    rw [List.mem_range'_1] at hi
    congr 2
    · rw [Nf_order (by omega : k ≤ n)]
      apply Nf_congr
      · exact hfn _ (by omega)
      · intro m hm; exact hfn _ (by omega)
    · simp only [dpt]
      rw [fn_map_range _ (by omega)]
  · simp [Curve.evaluate, Curve.evaluateDerivative, h]

/-- … but for `k < p` the returned curve is not a usable curve: its own derivatives cannot be
evaluated and `max_derivative` cannot be called, both panic for **every** curve. -/
theorem C13_derivative_curve_unusable {c : Curve K d} {p n k : ℕ} {U : List K} {P : List (Pt K d)}
    (hc : Built c p U P) (hU : U.length = n + p + 2) (hP : P.length = n + 1) (hp : p ≤ n)
    (hk : k < p) :
    ∃ e, c.getDerivativeCurve k = .ok e ∧ e.maxDerivative = .error .assertion ∧
      ∀ u j, (Cmp.le 0 u && Cmp.le u 1) = true → 1 ≤ j → j ≤ p - k →
        e.evaluateDerivative u j = .error .assertion := by
  obtain rfl : c = canon p U P := by
    rw [Built, mkCurve_ok hP hp (by omega)] at hc
    injection hc with hc; injection hc with hc; exact hc.symm
  refine ⟨_, getDerivativeCurve_ok hU hp hk.le, ?_, ?_⟩
  · simp [Curve.maxDerivative, Knots.maxDerivative, ControlPoints.maxDerivative, canonKnots,
      ControlPoints.new]; omega
  · intro u j hu h1 h2
    have hV : ((U.drop k).take (U.length - 2 * k)).length = (n - k) + (p - k) + 2 := by
      simp; omega
    have hQ : ((List.range (P.length - k)).map (fun i => dpt (fn U) p (fn P) k i)).length
        = (n - k) + 1 := by simp; omega
    generalize (U.drop k).take (U.length - 2 * k) = V at hV
    generalize (List.range (P.length - k)).map (fun i => dpt (fn U) p (fn P) k i) = Q at hQ
    have h1' : (ControlPoints.new Q).segments = .ok (n - k) := by
      simp only [ControlPoints.segments, ControlPoints.count, ControlPoints.countDerivative,
        ControlPoints.new, idx, List.getElem?_cons_zero, ok_bind, pure_ok]
      rw [usub_ok (by omega)]; congr 1; omega
    have h2' : (ControlPoints.new Q).matrixDerivative j = .error .assertion := by
      rw [ControlPoints.matrixDerivative,
        if_neg (show ¬ j ≤ (ControlPoints.new Q).kMax by simp [ControlPoints.new]; omega)]
    have hb := lleq_bounds (fun i => fn V (i + j)) u (n - k - (p - k)) (p - k - j)
    simp only [Curve.evaluateDerivative, hu, Bool.not_true, Bool.false_eq_true, if_false,
      Curve.degree, canonKnots_degree, if_pos h2, Curve.segments, h1', ok_bind,
      findIdx_leftOrEqual_ok hV (by omega) h2]
    rw [usub_ok h2, ok_bind, usub_ok hb.1, ok_bind, usub_ok (by omega), ok_bind, forRangeIncl,
      show n - k - j + 1 - (lleq (fun i => fn V (i + j)) u (n - k - (p - k)) (p - k - j)
        - (p - k - j)) = (n - k - j - (lleq (fun i => fn V (i + j)) u (n - k - (p - k)) (p - k - j)
        - (p - k - j))) + 1 by omega, List.range'_succ, List.foldlM_cons]
    rw [knots_evaluate_ok hV (by omega) h2 (by omega), ok_bind, h2']
    rfl

/-- Hence the full claim fails for every curve and every `k < p`, as soon as one parameter is
in range. -/
theorem C13_full_false {c : Curve K d} {p n k : ℕ} {U : List K} {P : List (Pt K d)}
    (hc : Built c p U P) (hU : U.length = n + p + 2) (hP : P.length = n + 1) (hp : p ≤ n)
    (hk : k < p) : ¬ C13_full c p k := by
  rintro ⟨e, he, -, -, ⟨m, hm⟩, -⟩
  obtain ⟨e', he', hmax, -⟩ := C13_derivative_curve_unusable hc hU hP hp hk
  rw [he] at he'
  injection he' with h
  rw [← h, hm] at hmax
  cases hmax

/-- `get_derivative_curve(k)` panics for `k > p`. -/
theorem C13_order_too_high {c : Curve K d} {p n k : ℕ} {U : List K} {P : List (Pt K d)}
    (hc : Built c p U P) (hU : U.length = n + p + 2) (hP : P.length = n + 1) (hp : p ≤ n)
    (hk : p < k) : c.getDerivativeCurve k = .error .underflow := by
  obtain rfl : c = canon p U P := by
    rw [Built, mkCurve_ok hP hp (by omega)] at hc
    injection hc with hc; injection hc with hc; exact hc.symm
  simp [Curve.getDerivativeCurve, usub_error hk]

/-! ### C14 -/

/-- The full claim C14 for one input of the constructors. -/
def C14_full (p : ℕ) (U : List K) (P : List (Pt K d)) : Prop :=
  ∀ c, Built c p U P → ∀ u, (Cmp.le 0 u && Cmp.le u 1) = true →
    ∃ v, c.evaluate u = .ok (.ok v)

/-- **C14** `Curve::new` reports an error exactly when there are fewer than `p + 1` control
points, whatever the knots. -/
theorem C14_new_error_iff {p n : ℕ} {U : List K} {P : List (Pt K d)} (hU : 2 * p ≤ U.length)
    (hP : P.length = n + 1) :
    (n < p → mkCurve p U P = .ok (.error (.degreeAndSegmentsMismatch p n))) ∧
    (p ≤ n → ∀ e, mkCurve p U P ≠ .ok (.error e)) := by
  have h1 : (ControlPoints.new P).segments = .ok n := by
    simp only [ControlPoints.segments, ControlPoints.count, ControlPoints.countDerivative,
      ControlPoints.new, idx, List.getElem?_cons_zero, ok_bind, pure_ok]
    rw [usub_ok (by omega)]; congr 1; omega
  constructor
  · intro h
    simp only [mkCurve, Knots.new_ok hU, ok_bind, Curve.new, h1]
    rw [if_pos (show n < (canonKnots p U).degree from h)]; rfl
  · intro h e
    simp only [mkCurve, Knots.new_ok hU, ok_bind, Curve.new, h1]
    rw [if_neg (show ¬ n < (canonKnots p U).degree by rw [canonKnots_degree]; omega)]
    intro hc
    cases hd : Curve.calculateDerivatives
      { knots := canonKnots p U, points := ControlPoints.new P : Curve K d } with
    | error e' => rw [hd] at hc; cases hc
    | ok c => rw [hd] at hc; injection hc with hc; cases hc

/-- **C14 (partial)** If the counts match (`n + p + 2` knots for `n + 1` control points), the
constructed curve can be evaluated. Missing: the crate does not check that the counts match, so
`C14_full` fails for other inputs (`C14_one_knot_short`). -/
theorem C14_constructed_partial {p n : ℕ} {U : List K} {P : List (Pt K d)}
    (hU : U.length = n + p + 2) (hP : P.length = n + 1) (hp : p ≤ n) : C14_full p U P := by
  intro c hc u hu
  exact (C06_evaluation_total hc hU hP hp u 0).2.1 hu

theorem basis_short {U : List K} {k n : ℕ} {u : K} {p i : ℕ} (hp : 1 ≤ p)
    (h : U.length ≤ i + p + 1) : ∃ e, basis U k n u p i = .error e := by
  obtain ⟨h', rfl⟩ : ∃ h, p = h + 1 := ⟨p - 1, by omega⟩
  simp only [basis]
  have hlast : idx U (i + 1 + (h' + 1)) = .error .index := idx_error (by omega)
  cases idx U (i + (h' + 1)) with
  | error e => exact ⟨e, rfl⟩
  | ok a =>
    cases idx U i with
    | error e => exact ⟨e, rfl⟩
    | ok b =>
      simp only [ok_bind, hlast]
      split
      · exact ⟨_, rfl⟩
      · cases basis U k n u h' i with
        | error e => exact ⟨e, rfl⟩
        | ok N => exact ⟨_, rfl⟩

theorem loopLeftOrEqual_le {U : List K} {u : K} (r : ℕ) : ∀ i l,
    Knots.loopLeftOrEqual U u r i = .ok l → l ≤ i + r := by
  induction r with
  | zero =>
    intro i l h
    rw [Knots.loopLeftOrEqual] at h
    cases hx : idx U (i + 1) with
    | error e => rw [hx] at h; cases h
    | ok x =>
      rw [hx, ok_bind] at h
      split at h <;> · injection h with h; omega
  | succ r ih =>
    intro i l h
    rw [Knots.loopLeftOrEqual] at h
    cases hx : idx U (i + 1) with
    | error e => rw [hx] at h; cases h
    | ok x =>
      rw [hx, ok_bind] at h
      split at h
      · cases hy : idx U (i + 1 + 1) with
        | error e => rw [hy] at h; cases h
        | ok y =>
          rw [hy, ok_bind, ok_bind] at h
          split at h
          · injection h with h; omega
          · have := ih _ _ h; omega
      · injection h with h; omega

/-- A curve with one knot too few is accepted by `Curve::new`, and then **every** evaluation with a
parameter in range panics. -/
theorem C14_one_knot_short {p n : ℕ} {U : List K} {P : List (Pt K d)} (h1 : 1 ≤ p)
    (hU : U.length = n + p + 1) (hP : P.length = n + 1) (hp : p ≤ n) :
    ∃ c, Built c p U P ∧ ∀ u, (Cmp.le 0 u && Cmp.le u 1) = true → ∃ e, c.evaluate u = .error e := by
  refine ⟨canon p U P, mkCurve_ok hP hp (by omega), ?_⟩
  intro u hu
  have hseg : (canonKnots p U).segments = .ok (n - 1) := canonKnots_segments (by omega)
  simp only [Curve.evaluate, Curve.evaluateDerivative, hu, Bool.not_true, Bool.false_eq_true,
    if_false, canon_degree, canon_points, canon_knots, Curve.segments, if_pos (Nat.zero_le p),
    canonPts_segments U P hP, ok_bind]
  cases hl : (canonKnots p U).findIdx u 0 .leftOrEqual with
  | error e => exact ⟨e, rfl⟩
  | ok l =>
    have hln : l ≤ n + p := by
      simp only [Knots.findIdx, Knots.vectorDerivative, canonKnots_idx (Nat.zero_le p), ok_bind,
        canonKnots_degree, hseg] at hl
      rw [usub_ok (Nat.zero_le p), ok_bind, usub_ok (Nat.zero_le _), ok_bind] at hl
      have := loopLeftOrEqual_le _ _ _ hl
      omega
    rw [ok_bind, usub_ok (Nat.zero_le p), ok_bind]
    cases hlo : usub l (p - 0) with
    | error e => exact ⟨e, rfl⟩
    | ok lo =>
      rw [ok_bind, usub_ok (Nat.zero_le n), ok_bind, Nat.sub_zero, forRangeIncl]
      have hlo' : lo ≤ n := by
        by_cases hle : p - 0 ≤ l
        · rw [usub_ok hle] at hlo; injection hlo with hlo; omega
        · rw [usub_error (by omega)] at hlo; cases hlo
      obtain ⟨e, he⟩ := foldlM_error (f := fun (value : Pt K d) i => do
          let N ← (canonKnots p U).evaluate 0 i p u
          let m ← (canonPts p U P).matrixDerivative 0
          let col ← column m i
          pure (value + scale N col)) (List.range' lo (n + 1 - lo)) (fun _ => 0) n
          (by rw [List.mem_range'_1]; omega) (by
        intro s
        obtain ⟨e, he⟩ := basis_short (U := U) (k := 0) (n := n - 1) (u := u) (p := p) (i := n) h1
          (by omega)
        refine ⟨e, ?_⟩
        simp only [Knots.evaluate, canonKnots_idx (Nat.zero_le p), ok_bind, hseg]
        rw [usub_ok (Nat.zero_le p), ok_bind]
        simp only [List.drop_zero, Nat.mul_zero, Nat.sub_zero, List.take_length]
        rw [he]; rfl)
      exact ⟨e, by rw [he]; rfl⟩

/-- Hence the full claim fails for all such inputs. -/
theorem C14_full_false {p n : ℕ} {U : List K} {P : List (Pt K d)} (h1 : 1 ≤ p)
    (hU : U.length = n + p + 1) (hP : P.length = n + 1) (hp : p ≤ n) {u : K}
    (hu : (Cmp.le 0 u && Cmp.le u 1) = true) : ¬ C14_full p U P := by
  intro h
  obtain ⟨c, hc, hbad⟩ := C14_one_knot_short h1 hU hP hp
  obtain ⟨v, hv⟩ := h c hc u hu
  obtain ⟨e, he⟩ := hbad u hu
  rw [hv] at he
  cases he

/-- `Knots::new` itself panics when there are fewer than `2 p` knots. -/
example : mkCurve 3 ([0, 0, 1, 1] : List ℚ) [![0], ![1], ![2], ![3]] = .error .underflow := by
  decide +kernel
/-- One knot too few: accepted, but evaluation panics. -/
example : (match mkCurve 1 ([0, 0, 1] : List ℚ) [![0], ![1]] with
    | .ok (.ok c) => some (c.evaluate (1 / 2))
    | _ => none) = some (.error .index) := by decide +kernel
/-- One knot too many: accepted, and the weights no longer sum to one. A curve with all control
points equal to `1` evaluates to `0` at `u = 1`. -/
example : (match mkCurve 1 ([0, 0, 1 / 2, 1, 1] : List ℚ) [![1], ![1]] with
    | .ok (.ok c) => some (c.evaluate (1 / 2), c.evaluate 1)
    | _ => none) = some (.ok (.ok ![1]), .ok (.ok ![0])) := by decide +kernel
/-- non-vacuity of `C13_derivative_curve_partial` and `C13_derivative_curve_unusable` -/
example : Built exC 2 exU exP ∧ exU.length = 5 + 2 + 2 ∧ exP.length = 5 + 1 := by
  exact ⟨(validOn_canon (K := ℚ) (a := 0) (b := 1) (by decide +kernel) rfl).1, rfl, rfl⟩

end LawFree

end BSpline
