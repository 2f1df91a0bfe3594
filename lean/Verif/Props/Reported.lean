import Verif.Props.NaN
import Verif.Props.Session
import Verif.Props.Generation
import Verif.Model.Merge
import Verif.Model.Debug
import Verif.Spec.Scalars
import Mathlib.Data.List.TakeWhile

/-!
# C99: errors tell the truth

Nothing is assumed here about the curve, its knots, its caches, the arithmetic or the comparisons.
Whatever the receiver is, an `Err` that a function returns carries the arguments of the call, and
the condition it complains about is really violated by them.
-/

set_option linter.unusedSectionVars false

namespace BSpline

variable {K : Type} [Add K] [Sub K] [Mul K] [Div K] [Neg K] [Zero K] [One K] [NatCast K] [Cmp K]
variable {d : ℕ}

/-- **C99** `Curve::new`: the only error names the degree of the knots and the number of segments
of the points, and the degree is the larger of the two. -/
theorem C99_new {kn : Knots K} {pts : ControlPoints K d} {e : CurveError K}
    (h : Curve.new kn pts = .ok (.error e)) :
    ∃ n, pts.segments = .ok n ∧ n < kn.degree ∧ e = .degreeAndSegmentsMismatch kn.degree n := by
  rw [Curve.new] at h
  obtain ⟨n, hn, h⟩ := bind_ok_inv h
  refine ⟨n, hn, ?_⟩
  split at h
  · rename_i hlt
    injection h with h; injection h with h
    exact ⟨hlt, h.symm⟩
  · obtain ⟨c, -, h⟩ := bind_ok_inv h
    injection h with h; cases h

/-- **C99** Evaluation: the only error names the parameter, and the parameter is not between zero
and one (in whatever sense the comparison of the scalars has; NaN is not between). -/
theorem C99_evaluate {c : Curve K d} {u : K} {k : ℕ} {e : CurveError K}
    (h : c.evaluateDerivative u k = .ok (.error e)) :
    e = .parameterOutOfBounds u 0 1 ∧ ¬ (Cmp.le 0 u = true ∧ Cmp.le u 1 = true) := by
  rw [Curve.evaluateDerivative] at h
  split at h
  · rename_i hb
    injection h with h; injection h with h
    refine ⟨h.symm, ?_⟩
    rintro ⟨h1, h2⟩
    simp [h1, h2] at hb
  · dsimp only at h
    split at h
    · obtain ⟨n, -, h⟩ := bind_ok_inv h
      obtain ⟨l, -, h⟩ := bind_ok_inv h
      obtain ⟨pk, -, h⟩ := bind_ok_inv h
      obtain ⟨lo, -, h⟩ := bind_ok_inv h
      obtain ⟨hi, -, h⟩ := bind_ok_inv h
      obtain ⟨v, -, h⟩ := bind_ok_inv h
      injection h with h; cases h
    · injection h with h; cases h

/-- the complaint of an insertion error about the curve `c` and the knot `u` -/
def InsertComplaint (c : Curve K d) (u : K) (e : InsertError K) : Prop :=
  (e = .outOfBounds u 0 1 ∧ (Cmp.le u 0 = true ∨ Cmp.le 1 u = true)) ∨
  ∃ m, c.knots.multiplicity u = .ok m ∧ c.degree < m ∧ e = .multiplicityError u m c.degree

theorem insert_reported {c c' : Curve K d} {u : K} {e : InsertError K}
    (h : insert c u = .ok (c', .error e)) : c' = c ∧ InsertComplaint c u e := by
  rw [insert] at h
  split at h
  · rename_i hb
    injection h with h; injection h with h1 h2; injection h2 with h2
    exact ⟨h1.symm, .inl ⟨h2.symm, by simpa using hb⟩⟩
  · obtain ⟨m, hm, h⟩ := bind_ok_inv h
    split at h
    · rename_i hlt
      injection h with h; injection h with h1 h2; injection h2 with h2
      exact ⟨h1.symm, .inr ⟨m, hm, hlt, h2.symm⟩⟩
    · repeat (obtain ⟨_, -, h⟩ := bind_ok_inv h)
      injection h with h; injection h with h1 h2; cases h2

/-- **C99** `insert`: on an error the curve is as before, and the error is about this knot: it is
out of bounds, or it is already there more often than the degree, that often. -/
theorem C99_insert {c c' : Curve K d} {u : K} {e : InsertError K}
    (h : c.insert u = .ok (c', .error e)) : c' = c ∧ InsertComplaint c u e := by
  rw [Curve.insert, Curve.insertTimes] at h
  obtain ⟨⟨c1, r⟩, h1, h⟩ := bind_ok_inv h
  cases r with
  | error e' =>
    injection h with h; injection h with h2 h3; injection h3 with h3
    subst h2; subst h3
    exact insert_reported h1
  | ok x =>
    injection h with h; injection h with h2 h3; cases h3

/-- **C99** `insert_times`: on an error the curve is what a number of complete insertions, fewer
than asked for, have made of it, and the error is the truth about that curve. -/
theorem C99_insert_times {c c' : Curve K d} {u : K} {x : ℕ} {e : InsertError K}
    (h : c.insertTimes u x = .ok (c', .error e)) :
    ∃ j < x, c.insertTimes u j = .ok (c', .ok ()) ∧ InsertComplaint c' u e := by
  induction x generalizing c with
  | zero => rw [Curve.insertTimes] at h; injection h with h; injection h with h1 h2; cases h2
  | succ x ih =>
    rw [Curve.insertTimes] at h
    obtain ⟨⟨c1, r⟩, h1, h⟩ := bind_ok_inv h
    cases r with
    | error e' =>
      injection h with h; injection h with h2 h3; injection h3 with h3
      subst h2; subst h3
      obtain ⟨rfl, hc⟩ := insert_reported h1
      exact ⟨0, by omega, rfl, hc⟩
    | ok y =>
      obtain ⟨j, hj, h2, h3⟩ := ih h
      refine ⟨j + 1, by omega, ?_, h3⟩
      rw [Curve.insertTimes, h1]
      exact h2

theorem mkCurve_reported {p : ℕ} {U : List K} {P : List (Pt K d)} {e : CurveError K}
    (h : mkCurve p U P = .ok (.error e)) :
    P.length - 1 < p ∧ P ≠ [] ∧ e = .degreeAndSegmentsMismatch p (P.length - 1) := by
  rw [mkCurve] at h
  obtain ⟨kn, hkn, h⟩ := bind_ok_inv h
  obtain ⟨n, hn, hlt, he⟩ := C99_new h
  have hp : kn.degree = p := by
    rw [Knots.new, Knots.derive] at hkn
    obtain ⟨Uk, -, hk⟩ := bind_ok_inv hkn
    injection hk with hk
    rw [← hk]
    rfl
  rw [hp] at hlt he
  have : P.length - 1 = n ∧ 1 ≤ P.length := by
    change usub P.length 1 = .ok n at hn
    obtain ⟨h1, h2⟩ := usub_inv hn
    exact ⟨h2.symm, h1⟩
  rw [this.1]
  refine ⟨hlt, ?_, he⟩
  rintro rfl
  simp at this

theorem splitLeft_reported {p : ℕ} {U : List K} {P : List (Pt K d)} {u : K} {len : ℕ} {b norm : Bool}
    {e : CurveError K} (h : splitLeft p U P u len b norm = .ok (.error e)) :
    ∃ n < p, e = .degreeAndSegmentsMismatch p n := by
  rw [splitLeft] at h
  repeat (obtain ⟨_, -, h⟩ := bind_ok_inv h)
  dsimp only at h
  split at h
  all_goals
    repeat (first
      | (obtain ⟨h1, -, h2⟩ := mkCurve_reported h; exact ⟨_, h1, h2⟩)
      | obtain ⟨_, -, h⟩ := bind_ok_inv h)

theorem splitRight_reported {p : ℕ} {U : List K} {P : List (Pt K d)} {u : K} {len : ℕ} {b norm : Bool}
    {e : CurveError K} (h : splitRight p U P u len b norm = .ok (.error e)) :
    ∃ n < p, e = .degreeAndSegmentsMismatch p n := by
  rw [splitRight] at h
  repeat (obtain ⟨_, -, h⟩ := bind_ok_inv h)
  dsimp only at h
  split at h
  all_goals
    repeat (first
      | (obtain ⟨h1, -, h2⟩ := mkCurve_reported h; exact ⟨_, h1, h2⟩)
      | obtain ⟨_, -, h⟩ := bind_ok_inv h)

/-- **C99** `split_and_normalize`: an error is about the parameter (out of bounds), or reports a run
of more knots equal to the parameter than the degree, as long as it says, or says that a part has
too few control points for the degree, which is the degree of the curve. -/
theorem C99_split {c : Curve K d} {u : K} {norm : Bool × Bool} {e : SplitError K}
    (h : splitAndNormalize c u norm = .ok (.error e)) :
    (e = .outOfBounds u 0 1 ∧ (Cmp.le u 0 = true ∨ Cmp.le 1 u = true)) ∨
    (∃ U l m, c.knots.vector = .ok U ∧ c.degree < m ∧ l + m ≤ U.length ∧
      (∀ x ∈ (U.drop l).take m, Cmp.eq x u = true) ∧ e = .multiplicityTooHigh u c.degree m) ∨
    ∃ n < c.degree, e = .curveError (.degreeAndSegmentsMismatch c.degree n) := by
  rw [splitAndNormalize] at h
  split at h
  · rename_i hb
    injection h with h; injection h with h
    exact .inl ⟨h.symm, by simpa using hb⟩
  · right
    obtain ⟨l, -, h⟩ := bind_ok_inv h
    obtain ⟨U, hU, h⟩ := bind_ok_inv h
    dsimp only at h
    split at h
    · rename_i hlt
      injection h with h; injection h with h
      have hlen : ((U.drop l).takeWhile (fun x => Cmp.eq x u)).length ≤ (U.drop l).length :=
        (List.takeWhile_prefix _).length_le
      refine .inl ⟨U, l, _, hU, hlt, ?_, ?_, h.symm⟩
      · rw [List.length_drop] at hlen
        omega
      · intro x hx
        rw [← List.prefix_iff_eq_take.mp (List.takeWhile_prefix _)] at hx
        exact List.mem_takeWhile_imp (p := fun x => Cmp.eq x u) hx
    · right
      obtain ⟨_, -, h⟩ := bind_ok_inv h
      obtain ⟨b, -, h⟩ := bind_ok_inv h
      obtain ⟨U', -, h⟩ := bind_ok_inv h
      obtain ⟨P', -, h⟩ := bind_ok_inv h
      obtain ⟨rl, hl, h⟩ := bind_ok_inv h
      cases rl with
      | error el =>
        injection h with h; injection h with h
        obtain ⟨n, hn, he⟩ := splitLeft_reported hl
        exact ⟨n, hn, by rw [← h, he]⟩
      | ok cl =>
        obtain ⟨rr, hr, h⟩ := bind_ok_inv h
        cases rr with
        | error er =>
          injection h with h; injection h with h
          obtain ⟨n, hn, he⟩ := splitRight_reported hr
          exact ⟨n, hn, by rw [← h, he]⟩
        | ok cr => injection h with h; cases h

/-- **C99** The merging functions: every error states the two degrees or dimensions, which differ;
or one of the curves is not clamped, not normed; or there are as many constraints as the degree or
more; or the merged curve has too few control points. A complaint is made only if none of the
preceding ones applies. -/
theorem C99_merge {d' : ℕ} {solver : Solver K d} {a : ConstrainedCurve K d} {b : ConstrainedCurve K d'}
    {e : MergeError K} (h : mergeWithConstraints solver a b = .ok (.error e)) :
    (e = .degreeMismatch a.curve.degree b.curve.degree ∧ a.curve.degree ≠ b.curve.degree) ∨
    (a.curve.degree = b.curve.degree ∧
      ((e = .dimensionMismatch d d' ∧ d ≠ d') ∨
      (d = d' ∧
        ((e = .unclampedCurve ∧
          (a.curve.knots.isClamped = .ok false ∨ b.curve.knots.isClamped = .ok false)) ∨
        (a.curve.knots.isClamped = .ok true ∧ b.curve.knots.isClamped = .ok true ∧
          ((e = .unnormedCurve ∧
            (a.curve.knots.isNormed = .ok false ∨ b.curve.knots.isNormed = .ok false)) ∨
          (a.curve.knots.isNormed = .ok true ∧ b.curve.knots.isNormed = .ok true ∧
            ((e = .tooManyConstraints (a.constraints.params.length + b.constraints.params.length)
                a.curve.degree ∧
              a.curve.degree ≤ a.constraints.params.length + b.constraints.params.length) ∨
            (a.constraints.params.length + b.constraints.params.length < a.curve.degree ∧
              ∃ n < a.curve.degree, e = .curveGenerationFailure
                (.degreeAndSegmentsMismatch a.curve.degree n)))))))))) := by
  have key : ∀ {x y : Exec Bool} {r : Bool}, eitherNot x y = .ok r →
      (r = true → x = .ok false ∨ y = .ok false) ∧ (r = false → x = .ok true ∧ y = .ok true) := by
    intro x y r hr
    rw [eitherNot] at hr
    obtain ⟨bx, hx, hr⟩ := bind_ok_inv hr
    cases bx with
    | false =>
      injection hr with hr
      subst hr
      exact ⟨fun _ => .inl hx, fun h => by cases h⟩
    | true =>
      obtain ⟨yb, hy, hr⟩ := bind_ok_inv hr
      injection hr with hr
      subst hr
      cases yb with
      | false => exact ⟨fun _ => .inr hy, fun h => by cases h⟩
      | true => exact ⟨fun h => (by cases h), fun _ => ⟨hx, hy⟩⟩
  rw [mergeWithConstraints] at h
  dsimp only at h
  split at h
  · rename_i hne
    injection h with h; injection h with h
    exact .inl ⟨h.symm, hne⟩
  · rename_i heq
    refine .inr ⟨by simpa using heq, ?_⟩
    split at h
    · rename_i hd
      subst hd
      refine .inr ⟨rfl, ?_⟩
      obtain ⟨uncl, h1, h⟩ := bind_ok_inv h
      have k1 := key h1
      split at h
      · rename_i ht
        injection h with h; injection h with h
        exact .inl ⟨h.symm, k1.1 ht⟩
      · rename_i ht
        obtain ⟨c1, c2⟩ := k1.2 (by simpa using ht)
        refine .inr ⟨c1, c2, ?_⟩
        obtain ⟨unn, h2, h⟩ := bind_ok_inv h
        have k2 := key h2
        split at h
        · rename_i ht2
          injection h with h; injection h with h
          exact .inl ⟨h.symm, k2.1 ht2⟩
        · rename_i ht2
          obtain ⟨c3, c4⟩ := k2.2 (by simpa using ht2)
          refine .inr ⟨c3, c4, ?_⟩
          split at h
          · rename_i hle
            injection h with h; injection h with h
            exact .inl ⟨h.symm, hle⟩
          · rename_i hle
            refine .inr ⟨not_le.mp hle, ?_⟩
            rw [mergeBody] at h
            obtain ⟨_, -, h⟩ := bind_ok_inv h
            obtain ⟨_, -, h⟩ := bind_ok_inv h
            obtain ⟨_, -, h⟩ := bind_ok_inv h
            obtain ⟨_, -, h⟩ := bind_ok_inv h
            obtain ⟨_, -, h⟩ := bind_ok_inv h
            obtain ⟨_, -, h⟩ := bind_ok_inv h
            obtain ⟨r, hr, h⟩ := bind_ok_inv h
            cases r with
            | ok c => injection h with h; cases h
            | error err =>
              injection h with h; injection h with h
              obtain ⟨h3, -, h4⟩ := mkCurve_reported hr
              exact ⟨_, h3, by rw [← h, h4]⟩
    · rename_i hd
      injection h with h; injection h with h
      exact .inl ⟨h.symm, hd⟩

/-! ### Generation -/

theorem inputCheck_reported {p n : ℕ} {e : CurveError K} (h : inputCheck (K := K) p n = .error e) :
    (p = 0 ∧ e = .degreeTooLow 0 0) ∨ (p ≠ 0 ∧ n < p ∧ e = .degreeAndSegmentsMismatch p n) := by
  rw [inputCheck] at h
  split at h
  · rename_i h0
    injection h with h
    subst h0
    exact .inl ⟨rfl, h.symm⟩
  · rename_i h0
    split at h
    · rename_i h1
      injection h with h
      exact .inr ⟨h0, h1, h.symm⟩
    · cases h

variable [Trunc K]

/-- **C99** Knot generation, all methods: an error says that the degree is zero, and it is, or that
the degree exceeds the number of segments, and it does. -/
theorem C99_knots {p n : ℕ} {params : Parameters K} {km : KnotMethod} {e : CurveError K}
    (h : generateKnots p n params km = .ok (.error e)) :
    (p = 0 ∧ e = .degreeTooLow 0 0) ∨ (p ≠ 0 ∧ n < p ∧ e = .degreeAndSegmentsMismatch p n) := by
  cases km
  all_goals
    simp only [generateKnots] at h
  · rw [uniform] at h
    cases hc : inputCheck (K := K) p n with
    | error e' =>
      simp only [hc] at h
      injection h with h; injection h with h
      exact h ▸ inputCheck_reported hc
    | ok x =>
      simp only [hc] at h
      repeat (obtain ⟨_, -, h⟩ := bind_ok_inv h)
      injection h with h; cases h
  · rw [deBoor] at h
    cases hc : inputCheck (K := K) p n with
    | error e' =>
      simp only [hc] at h
      injection h with h; injection h with h
      exact h ▸ inputCheck_reported hc
    | ok x =>
      simp only [hc] at h
      repeat (obtain ⟨_, -, h⟩ := bind_ok_inv h)
      injection h with h; cases h
  · rw [averaging] at h
    cases hc : inputCheck (K := K) p n with
    | error e' =>
      simp only [hc] at h
      injection h with h; injection h with h
      exact h ▸ inputCheck_reported hc
    | ok x =>
      simp only [hc] at h
      repeat (obtain ⟨_, -, h⟩ := bind_ok_inv h)
      injection h with h; cases h

variable [IntCast K]

/-- the complaint of a fit about its arguments -/
def FitComplaint (kn : Knots K) (m mp : ℕ) (pen : Option (Penalization K)) (e : FitError K) : Prop :=
  ∃ n, kn.segments = .ok n ∧
    ((e = .requestedPolynomialSegmentAndDataSegementMismatch n m ∧ m < n) ∨
    (e = .dataSegmentsAndParameterSegmentsMismatch m mp ∧ m ≠ mp) ∨
    (e = .requestedPolynomialSegmentAndSplineDegreeMismatch n kn.degree ∧ n < kn.degree) ∨
    ∃ q, pen = some q ∧
      ((e = .requestedPolynomialSegmentAndPenalizationKappaMismatch n q.kappa ∧ n ≤ q.kappa) ∨
      (e = .negativeLambda q.lambda ∧ Cmp.lt q.lambda 0 = true) ∨
      (e = .nonUniformKnots ∧ Cmp.lt 0 q.lambda = true ∧ isUniform kn = .ok (.ok false))))

theorem inputChecks_reported {kn : Knots K} {pts : DataPoints K d} {params : Parameters K}
    {pen : Option (Penalization K)} {e : FitError K} (h : inputChecks kn pts params pen = .ok (.error e)) :
    FitComplaint kn (List.length pts - 1) params.segments pen e := by
  rw [inputChecks] at h
  obtain ⟨n, hn, h⟩ := bind_ok_inv h
  obtain ⟨m, hm, h⟩ := bind_ok_inv h
  obtain ⟨-, hm⟩ := usub_inv hm
  rw [← hm]
  refine ⟨n, hn, ?_⟩
  dsimp only at h
  split at h
  · rename_i h1
    injection h with h; injection h with h
    exact .inl ⟨h.symm, h1⟩
  · split at h
    · rename_i h1
      injection h with h; injection h with h
      exact .inr (.inl ⟨h.symm, h1⟩)
    · split at h
      · rename_i h1
        injection h with h; injection h with h
        exact .inr (.inr (.inl ⟨h.symm, h1⟩))
      · cases pen with
        | none => injection h with h; cases h
        | some q =>
          obtain ⟨n1, hn1, h⟩ := bind_ok_inv h
          obtain ⟨h2, h3⟩ := usub_inv hn1
          split at h
          · rename_i h1
            injection h with h; injection h with h
            exact .inr (.inr (.inr ⟨q, rfl, .inl ⟨h.symm, by omega⟩⟩))
          · injection h with h; cases h

theorem computeSvdMatrix_reported {kn : Knots K} {N : List (List K)} {c : ℕ}
    {pen : Option (Penalization K)} {fd : ℕ → Knots K → Exec (List (List K))} {e : FitError K}
    (h : computeSvdMatrix kn N c pen fd = .ok (.error e)) :
    ∃ q, pen = some q ∧ ((e = .negativeLambda q.lambda ∧ Cmp.lt q.lambda 0 = true) ∨
      (e = .nonUniformKnots ∧ Cmp.lt 0 q.lambda = true ∧ isUniform kn = .ok (.ok false))) := by
  unfold computeSvdMatrix at h
  cases pen with
  | none => injection h with h; cases h
  | some q =>
    refine ⟨q, rfl, ?_⟩
    dsimp only at h
    split at h
    · rename_i h1
      injection h with h; injection h with h
      exact .inl ⟨h.symm, h1⟩
    · right
      split at h
      · rename_i h2
        obtain ⟨r, hr, h⟩ := bind_ok_inv h
        obtain ⟨b, hb, h⟩ := bind_ok_inv h
        obtain ⟨nu, hnu, h⟩ := bind_ok_inv h
        injection hnu with hnu
        subst hnu
        split at h
        · rename_i h3
          injection h with h; injection h with h
          refine ⟨h.symm, h2, ?_⟩
          rw [hr, unwrap_inv hb]
          simpa using h3
        · obtain ⟨_, -, h⟩ := bind_ok_inv h
          injection h with h; cases h
      · obtain ⟨nu, hnu, h⟩ := bind_ok_inv h
        injection hnu with hnu
        subst hnu
        rw [if_neg (by simp)] at h
        obtain ⟨_, -, h⟩ := bind_ok_inv h
        injection h with h; cases h

/-- **C99** Least-squares fits, both methods: an error names the numbers of segments of the knots,
of the data and of the parameters, the degree, `kappa` and `lambda` as they are, and what it
complains about is the case. -/
theorem C99_fit {method : FitMethod} {solver : Solver K d} {kn : Knots K} {pts : DataPoints K d}
    {params : Parameters K} {pen : Option (Penalization K)} {e : FitError K}
    (h : (match method with
      | .fixedEnds => Fixed.fit solver kn pts params pen
      | .looseEnds => Loose.fit solver kn pts params pen) = .ok (.error e)) :
    FitComplaint kn (List.length pts - 1) params.segments pen e := by
  have lift : ∀ {n : ℕ}, kn.segments = .ok n → (∃ q, pen = some q ∧
      ((e = .negativeLambda q.lambda ∧ Cmp.lt q.lambda 0 = true) ∨
      (e = .nonUniformKnots ∧ Cmp.lt 0 q.lambda = true ∧ isUniform kn = .ok (.ok false)))) →
      FitComplaint kn (List.length pts - 1) params.segments pen e := by
    rintro n hn ⟨q, hq, h⟩
    exact ⟨n, hn, .inr (.inr (.inr ⟨q, hq, .inr h⟩))⟩
  cases method with
  | fixedEnds =>
    dsimp only at h
    rw [Fixed.fit] at h
    obtain ⟨r, hr, h⟩ := bind_ok_inv h
    cases r with
    | error e' =>
      injection h with h; injection h with h
      exact h ▸ inputChecks_reported hr
    | ok x =>
      obtain ⟨_, -, h⟩ := bind_ok_inv h
      obtain ⟨_, -, h⟩ := bind_ok_inv h
      obtain ⟨_, -, h⟩ := bind_ok_inv h
      obtain ⟨n, hn, h⟩ := bind_ok_inv h
      obtain ⟨_, -, h⟩ := bind_ok_inv h
      obtain ⟨r, hr, h⟩ := bind_ok_inv h
      cases r with
      | error e' =>
        injection h with h; injection h with h
        exact lift hn (h ▸ computeSvdMatrix_reported hr)
      | ok A =>
        repeat (obtain ⟨_, -, h⟩ := bind_ok_inv h)
        injection h with h; cases h
  | looseEnds =>
    dsimp only at h
    rw [Loose.fit] at h
    obtain ⟨r, hr, h⟩ := bind_ok_inv h
    cases r with
    | error e' =>
      injection h with h; injection h with h
      exact h ▸ inputChecks_reported hr
    | ok x =>
      obtain ⟨_, -, h⟩ := bind_ok_inv h
      obtain ⟨n, hn, h⟩ := bind_ok_inv h
      obtain ⟨r, hr, h⟩ := bind_ok_inv h
      cases r with
      | error e' =>
        injection h with h; injection h with h
        exact lift hn (h ▸ computeSvdMatrix_reported hr)
      | ok A =>
        repeat (obtain ⟨_, -, h⟩ := bind_ok_inv h)
        injection h with h; cases h

theorem generateKnots_degree {p n : ℕ} {params : Parameters K} {km : KnotMethod} {kn : Knots K}
    (h : generateKnots p n params km = .ok (.ok kn)) : kn.degree = p ∧ p ≤ n := by
  have key : ∀ {U : List K} {k : Knots K}, Knots.new p U = .ok k → k.degree = p := by
    intro U k hk
    rw [Knots.new, Knots.derive] at hk
    obtain ⟨Uk, -, hk⟩ := bind_ok_inv hk
    injection hk with hk
    rw [← hk]
    rfl
  cases hc : inputCheck (K := K) p n with
  | error e' =>
    cases km <;> simp only [generateKnots, uniform, deBoor, averaging, hc] at h <;>
      (injection h with h; cases h)
  | ok x =>
    have hle : p ≤ n := by
      rw [inputCheck] at hc
      split at hc
      · cases hc
      · split at hc
        · cases hc
        · omega
    refine ⟨?_, hle⟩
    cases km <;> simp only [generateKnots, uniform, deBoor, averaging, hc] at h
    · obtain ⟨_, -, h⟩ := bind_ok_inv h
      obtain ⟨_, -, h⟩ := bind_ok_inv h
      obtain ⟨_, -, h⟩ := bind_ok_inv h
      obtain ⟨k, hk, h⟩ := bind_ok_inv h
      injection h with h; injection h with h
      exact h ▸ key hk
    · obtain ⟨_, -, h⟩ := bind_ok_inv h
      obtain ⟨_, -, h⟩ := bind_ok_inv h
      obtain ⟨_, -, h⟩ := bind_ok_inv h
      obtain ⟨k, hk, h⟩ := bind_ok_inv h
      injection h with h; injection h with h
      exact h ▸ key hk
    · obtain ⟨_, -, h⟩ := bind_ok_inv h
      obtain ⟨_, -, h⟩ := bind_ok_inv h
      obtain ⟨_, -, h⟩ := bind_ok_inv h
      obtain ⟨k, hk, h⟩ := bind_ok_inv h
      injection h with h; injection h with h
      exact h ▸ key hk

variable [Sqrt K]

/-- **C99** `generate` with control points: an error names the requested degree, or that of the
given knots, and the number of segments of the points, which is smaller; or it says that the degree
is zero, and it is, and knots were to be generated. -/
theorem C99_generate_manual {solver : Solver K d} {p : ℕ} {points : ControlPoints K d}
    {g : KnotGeneration K} {e : CurveError K}
    (h : generate solver (.manual p points g) = .ok (.error e)) :
    ∃ n, points.segments = .ok n ∧
      ((n < p ∧ e = .degreeAndSegmentsMismatch p n) ∨
      (p = 0 ∧ e = .degreeTooLow 0 0 ∧ ∀ kn, g ≠ .manual kn) ∨
      ∃ kn, g = .manual kn ∧ p ≤ n ∧ n < kn.degree ∧ e = .degreeAndSegmentsMismatch kn.degree n) := by
  rw [generate] at h
  obtain ⟨n, hn, h⟩ := bind_ok_inv h
  refine ⟨n, hn, ?_⟩
  dsimp only at h
  split at h
  · rename_i h1
    injection h with h; injection h with h
    exact .inl ⟨h1, h.symm⟩
  · rename_i h1
    right
    obtain ⟨data, -, h⟩ := bind_ok_inv h
    obtain ⟨r, hr, h⟩ := bind_ok_inv h
    have hgen : ∀ {ps : Parameters K} {km : KnotMethod}, generateKnots p n ps km = .ok r →
        (∀ kn, g ≠ .manual kn) → p = 0 ∧ e = .degreeTooLow 0 0 ∧ ∀ kn, g ≠ .manual kn := by
      intro ps km hk hg
      cases r with
      | error e' =>
        injection h with h; injection h with h
        rcases C99_knots hk with ⟨h2, h3⟩ | ⟨-, h3, -⟩
        · exact ⟨h2, h ▸ h3, hg⟩
        · omega
      | ok kn =>
        obtain ⟨h2, h3⟩ := generateKnots_degree hk
        obtain ⟨n', hn', hlt, -⟩ := C99_new h
        rw [hn] at hn'
        injection hn' with hn'
        omega
    cases g with
    | uniform =>
      exact .inl (hgen (ps := ⟨[], 0⟩) (km := .uniform) hr (fun _ => by simp))
    | manual kn =>
      right
      injection hr with hr
      subst hr
      obtain ⟨n', hn', hlt, he⟩ := C99_new h
      rw [hn] at hn'
      injection hn' with hn'
      subst hn'
      exact ⟨kn, rfl, by omega, hlt, he⟩
    | method pm km =>
      obtain ⟨ps, -, hr⟩ := bind_ok_inv hr
      exact .inl (hgen hr (fun _ => by simp))

/-- **C99** Interpolation: an error says that the degree is zero, and it is, or names the degree and
the number of segments of the data, which is smaller. -/
theorem C99_generate_interpolation {solver : Solver K d} {p : ℕ} {points : DataPoints K d}
    {e : CurveError K} (h : generate solver (.interpolation p points) = .ok (.error e)) :
    (p = 0 ∧ e = .degreeTooLow 0 0) ∨
    (p ≠ 0 ∧ List.length points - 1 < p ∧ e = .degreeAndSegmentsMismatch p (List.length points - 1)) := by
  rw [generate] at h
  obtain ⟨ps, hps, h⟩ := bind_ok_inv h
  obtain ⟨n, hn, h⟩ := bind_ok_inv h
  rw [generateParams, hn, ok_bind] at hps
  obtain ⟨hl, hn⟩ := usub_inv hn
  obtain ⟨r, hr, h⟩ := bind_ok_inv h
  cases r with
  | error e' =>
    injection h with h; injection h with h
    rw [← hn]
    exact h ▸ C99_knots hr
  | ok kn =>
    exfalso
    obtain ⟨hd, hle⟩ := generateKnots_degree hr
    have hp : 1 ≤ p := by
      by_contra h0
      rw [generateKnots, (C38_uniform p n).1 (by omega)] at hr
      injection hr with hr; cases hr
    rw [generateKnots, uniform_ok hp hle] at hr
    injection hr with hr; injection hr with hr
    subst hr
    rw [equallySpaced_ok] at hps
    injection hps with hps
    subst hps
    dsimp only at h
    rw [interpolate_ok (genU_length ..) hle (by omega) (by simp), ok_bind] at h
    obtain ⟨n', hn', hlt, -⟩ := C99_new h
    change usub (List.length (solver.run _ _)) 1 = .ok n' at hn'
    rw [solver.shape, ncols_mat _ (by omega)] at hn'
    obtain ⟨-, hn'⟩ := usub_inv hn'
    rw [canonKnots_degree] at hlt
    omega

/-- **C99** Least-squares generation: an error says that the degree is zero, and it is; or names the
degree and the requested number of segments, which is smaller; or is one of three complaints of the
fit: more segments requested than data segments, `kappa` at least the number of segments, a
negative `lambda`. In an arithmetic in which some number differs from itself the fit may also find
the uniform knots not uniform. -/
theorem C99_generate_fit {solver : Solver K d} {p n : ℕ} {points : DataPoints K d}
    {method : FitMethod} {pen : Option (Penalization K)} {e : CurveError K}
    (h : generate solver (.leastSquaresFit p points n method pen) = .ok (.error e)) :
    (p = 0 ∧ e = .degreeTooLow 0 0) ∨
    (p ≠ 0 ∧ n < p ∧ e = .degreeAndSegmentsMismatch p n) ∨
    (1 ≤ p ∧ p ≤ n ∧ ∃ fe, e = .fitError fe ∧
      ((List.length points - 1 < n ∧
        fe = .requestedPolynomialSegmentAndDataSegementMismatch n (List.length points - 1)) ∨
      ∃ q, pen = some q ∧
        ((n ≤ q.kappa ∧ fe = .requestedPolynomialSegmentAndPenalizationKappaMismatch n q.kappa) ∨
        (Cmp.lt q.lambda 0 = true ∧ fe = .negativeLambda q.lambda) ∨
        (Cmp.lt 0 q.lambda = true ∧ fe = .nonUniformKnots ∧ ∃ x : K, Cmp.eq x x = false)))) := by
  rw [generate] at h
  obtain ⟨ps, hps, h⟩ := bind_ok_inv h
  rw [generateParams] at hps
  obtain ⟨m, hm, hps⟩ := bind_ok_inv hps
  obtain ⟨hl, hm⟩ := usub_inv hm
  obtain ⟨r, hr, h⟩ := bind_ok_inv h
  cases r with
  | error e' =>
    injection h with h; injection h with h
    rcases C99_knots hr with h1 | h1
    · exact .inl (h ▸ h1)
    · exact .inr (.inl (h ▸ h1))
  | ok kn =>
    right; right
    obtain ⟨hd, hle⟩ := generateKnots_degree hr
    have hp : 1 ≤ p := by
      by_contra h0
      rw [generateKnots, (C38_uniform p n).1 (by omega)] at hr
      injection hr with hr; cases hr
    refine ⟨hp, hle, ?_⟩
    rw [generateKnots, uniform_ok hp hle] at hr
    injection hr with hr; injection hr with hr
    subst hr
    rw [equallySpaced_ok] at hps
    injection hps with hps
    obtain ⟨V, hVl, rfl⟩ : ∃ V : List K, V.length = m + 1 ∧ ps = ⟨V, m⟩ := ⟨_, by simp, hps.symm⟩
    clear hps
    have hU := genU_length p n (uniK (K := K) p n)
    have h : ∃ r, (match method with
        | .fixedEnds => Fixed.fit solver (canonKnots p (genU p n (uniK (K := K) p n))) points
            ⟨V, m⟩ pen
        | .looseEnds => Loose.fit solver (canonKnots p (genU p n (uniK (K := K) p n))) points
            ⟨V, m⟩ pen) = .ok r ∧ (match r with
        | .error err => Except.ok (Except.error (CurveError.fitError err))
        | .ok P => Curve.new (canonKnots p (genU p n (uniK (K := K) p n))) (ControlPoints.new P)) =
          .ok (.error e) := by
      cases method <;> exact bind_ok_inv h
    obtain ⟨r, hr, h⟩ := h
    cases r with
    | error fe =>
      injection h with h; injection h with h
      refine ⟨fe, h.symm, ?_⟩
      have hc : FitComplaint (canonKnots p (genU p n (uniK (K := K) p n))) (List.length points - 1) m
          pen fe :=
        C99_fit (K := K) (method := method) (solver := solver) (params := ⟨V, m⟩) hr
      obtain ⟨n', hn', hc⟩ := hc
      rw [canonKnots_segments hU] at hn'
      injection hn' with hn'
      subst hn'
      rcases hc with ⟨h1, h2⟩ | ⟨-, h2⟩ | ⟨-, h2⟩ | ⟨q, hq, h1⟩
      · exact .inl ⟨h2, h1⟩
      · omega
      · rw [canonKnots_degree] at h2; omega
      · refine .inr ⟨q, hq, ?_⟩
        rcases h1 with ⟨h1, h2⟩ | ⟨h1, h2⟩ | ⟨h1, h2, h3⟩
        · exact .inl ⟨h2, h1⟩
        · exact .inr (.inl ⟨h2, h1⟩)
        · refine .inr (.inr ⟨h2, h1, ?_⟩)
          by_contra hcon
          push Not at hcon
          rw [isUniform, canonKnots_vector, ok_bind, canonKnots_segments hU, ok_bind,
            canonKnots_degree, uniform_ok hp hle, ok_bind] at h3
          dsimp only at h3
          rw [canonKnots_vector, ok_bind] at h3
          injection h3 with h3; injection h3 with h3
          rw [vecEq] at h3
          simp only [beq_self_eq_true, Bool.true_and] at h3
          rw [List.all_eq_false] at h3
          obtain ⟨b, hb, h4⟩ := h3
          rw [List.zipWith_self, List.mem_map] at hb
          obtain ⟨x, -, rfl⟩ := hb
          exact h4 (by simpa using hcon x)
    | ok P =>
      exfalso
      obtain ⟨n', hn', hlt, -⟩ := C99_new h
      change usub P.length 1 = .ok n' at hn'
      obtain ⟨-, hn'⟩ := usub_inv hn'
      have hPl : P.length = n + 1 := by
        have hb : p ≤ n → isUniform (canonKnots p (genU p n (uniK (K := K) p n))) =
            .ok (.ok (unif p n (genU p n (uniK p n)))) := fun h2 => isUniform_ok hU hp h2
        have hpl : List.length points = m + 1 := by omega
        cases method with
        | looseEnds =>
          obtain ⟨h1, h2⟩ := C44_loose (pts := points) (genKnots_new hle _) hU hp hpl
            (params := ⟨V, m⟩) hVl hb solver pen
          dsimp only at hr
          cases he : fitErrorOf n m m p pen (unif p n (genU p n (uniK (K := K) p n))) with
          | some e2 => rw [h1 _ he] at hr; injection hr with hr; cases hr
          | none =>
            obtain ⟨P', h3, h4⟩ := h2 he
            rw [h3] at hr
            injection hr with hr; injection hr with hr
            rw [← hr, h4]
        | fixedEnds =>
          obtain ⟨h1, h2⟩ := C44_fixed_partial (pts := points) (genKnots_new hle _) hU hp hpl
            (params := ⟨V, m⟩) hVl hb solver pen
          dsimp only at hr
          cases he : fitErrorOf n m m p pen (unif p n (genU p n (uniK (K := K) p n))) with
          | some e2 => rw [h1 _ he] at hr; injection hr with hr; cases hr
          | none =>
            have hgood : 2 ≤ n ∧ ∀ q ∈ pen, q.kappa + 2 ≤ n := by
              by_contra hbad
              have h6 : ∀ q, pen = some q → q.kappa ≤ n - 1 := by
                rw [fitErrorOf_eq] at he
                cases h2 : checkErrorOf n m m p pen with
                | some e => rw [h2] at he; simp at he
                | none => exact (checkErrorOf_none h2).2.2.2
              obtain ⟨x, hx⟩ := C44_fixed_panics (pts := points) (genKnots_new hle _) hU hp hpl
                (params := ⟨V, m⟩) hVl hb solver pen he (by
                  by_contra h7
                  push Not at h7
                  apply hbad
                  refine ⟨by omega, ?_⟩
                  intro q hq
                  have := h7.2 q hq
                  have := h6 q hq
                  omega)
              rw [hx] at hr
              cases hr
            obtain ⟨P', h3, h4⟩ := h2 he hgood.1 hgood.2
            rw [h3] at hr
            injection hr with hr; injection hr with hr
            rw [← hr, h4]
      rw [canonKnots_degree] at hlt
      omega

section Example

/-- All kinds of error do occur: on a curve of degree one with a threefold knot. -/
def exRep : Curve ℚ 1 := canon 1 [0, 0, 1 / 2, 1 / 2, 1 / 2, 1, 1] [![0], ![1], ![2], ![3], ![4]]

example : Curve.new (canonKnots 2 [0, 0, 0, 1, 1, 1]) (ControlPoints.new [(![0] : Pt ℚ 1), ![1]]) =
    .ok (.error (.degreeAndSegmentsMismatch 2 1)) := by decide +kernel
example : exRep.evaluateDerivative 2 1 = .ok (.error (.parameterOutOfBounds 2 0 1)) := by
  decide +kernel
example : exRep.insert 1 = .ok (exRep, .error (.outOfBounds 1 0 1)) := by decide +kernel
example : exRep.insert (1 / 2) = .ok (exRep, .error (.multiplicityError (1 / 2) 3 1)) := by
  decide +kernel
example : splitAndNormalize (canon 1 [0, 0, 1 / 2, 1 / 2, 1, 1] [(![0] : Pt ℚ 1), ![1], ![2], ![3]])
    (1 / 2) (true, true) = .ok (.error (.multiplicityTooHigh (1 / 2) 1 2)) := by decide +kernel
example : ((canon 1 [0, 0, 1, 1] [(![0] : Pt ℚ 1), ![1]]).insertTimes (1 / 2) 3).map Prod.snd =
    .ok (.error (.multiplicityError (1 / 2) 2 1)) := by decide +kernel

example : merge (zeroSolver 1) exRep (canon 2 [0, 0, 0, 1, 1, 1] [(![0, 1] : Pt ℚ 2), ![1, 1], ![2, 0]]) =
    .ok (.error (.degreeMismatch 1 2)) := by decide +kernel
example : mergeTo (zeroSolver 1) exRep exRep = .ok (.error (.tooManyConstraints 1 1)) := by
  decide +kernel
example : generateKnots (K := ℚ) 3 2 ⟨[0, 1], 1⟩ .averaging =
    .ok (.error (.degreeAndSegmentsMismatch 3 2)) := by decide +kernel
example : Loose.fit (zeroSolver 1) (canonKnots 1 [0, 0, 1 / 3, 1, 1]) [![0], ![1], ![2]]
    ⟨[0, 1 / 2, 1], 2⟩ (some ⟨1, 1⟩) = .ok (.error .nonUniformKnots) := by decide +kernel
example : Fixed.fit (zeroSolver 1) (canonKnots 1 [0, 0, 1 / 2, 1, 1]) [![0], ![1], ![2]]
    ⟨[0, 1 / 2, 1], 2⟩ (some ⟨1, 2⟩) =
      .ok (.error (.requestedPolynomialSegmentAndPenalizationKappaMismatch 2 2)) := by decide +kernel

end Example

end BSpline
