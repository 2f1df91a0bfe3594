import Verif.Refine.Merge
import Verif.Spec.Merge
import Verif.Props.Predicates
import Verif.Tests.Unit

/-!
# Merging: errors, panics and argument order (C28, C29, C34)
-/

set_option linter.unusedSectionVars false

namespace BSpline

/-! ### Law-free -/

section LawFree
variable {K : Type} [Add K] [Sub K] [Mul K] [Div K] [Neg K] [Zero K] [One K] [NatCast K] [Cmp K]
variable {d d₁ d₂ : ℕ}

/-- **C28** Different degrees are reported first, for all curves whatsoever. -/
theorem C28_degree (solver : Solver K d₁) (a : ConstrainedCurve K d₁) (b : ConstrainedCurve K d₂)
    (h : a.curve.degree ≠ b.curve.degree) : mergeWithConstraints solver a b =
      .ok (.error (.degreeMismatch a.curve.degree b.curve.degree)) := by
  rw [mergeWithConstraints]; simp only [h, ne_eq, not_false_eq_true, if_true]; rfl

/-- **C28** Different dimensions are reported next. -/
theorem C28_dimension (solver : Solver K d₁) (a : ConstrainedCurve K d₁) (b : ConstrainedCurve K d₂)
    (h : a.curve.degree = b.curve.degree) (hd : d₁ ≠ d₂) :
    mergeWithConstraints solver a b = .ok (.error (.dimensionMismatch d₁ d₂)) := by
  rw [mergeWithConstraints]; simp only [h, ne_eq, not_true_eq_false, if_false, hd, dif_neg, not_false_eq_true]
  rfl

theorem eitherNot_ok (x y : Bool) : eitherNot (.ok x) (.ok y) = .ok (!(x && y)) := by
  cases x <;> cases y <;> rfl

theorem merge_same (solver : Solver K d) (a b : ConstrainedCurve K d)
    (h : a.curve.degree = b.curve.degree) {ca cb na nb : Bool}
    (hca : a.curve.knots.isClamped = .ok ca) (hcb : b.curve.knots.isClamped = .ok cb)
    (hna : a.curve.knots.isNormed = .ok na) (hnb : b.curve.knots.isNormed = .ok nb) :
    mergeWithConstraints solver a b =
      if (ca && cb) = false then .ok (.error .unclampedCurve)
      else if (na && nb) = false then .ok (.error .unnormedCurve)
      else if a.curve.degree ≤ a.constraints.count + b.constraints.count then
        .ok (.error (.tooManyConstraints (a.constraints.count + b.constraints.count) a.curve.degree))
      else mergeBody solver a b := by
  rw [mergeWithConstraints]
  simp only [h, ne_eq, not_true_eq_false, if_false, dif_pos]
  rw [hca, hcb, eitherNot_ok, ok_bind, hna, hnb, eitherNot_ok]
  cases ca <;> cases cb <;> cases na <;> cases nb <;> simp

theorem mergeBody_error {solver : Solver K d} {a b : ConstrainedCurve K d} {e : MergeError K}
    (h : mergeBody solver a b = .ok (.error e)) : ∃ err, e = .curveGenerationFailure err := by
  rw [mergeBody] at h
  obtain ⟨x1, -, h⟩ := bind_ok_inv h
  obtain ⟨x2, -, h⟩ := bind_ok_inv h
  obtain ⟨x3, -, h⟩ := bind_ok_inv h
  obtain ⟨x4, -, h⟩ := bind_ok_inv h
  obtain ⟨x5, -, h⟩ := bind_ok_inv h
  obtain ⟨x6, -, h⟩ := bind_ok_inv h
  obtain ⟨x7, -, h⟩ := bind_ok_inv h
  cases x7 with
  | ok c => simp at h
  | error err =>
    simp only [pure_ok, Except.ok.injEq, Except.error.injEq] at h
    exact ⟨err, h.symm⟩

/-- **C29** For curves of equal degree `p` with `m + 1` and `o + 1` control points that pass the
checks, merging succeeds exactly if `m ≤ o < m + p`; otherwise it panics. The claim, which has no such
restriction, is therefore false. No law of arithmetic is used. -/
theorem C29_outcome_partial {p m o : ℕ} {V W ua ub : List K} {S T : List (Pt K d)} {a b : Curve K d}
    (ha : Built a p V S) (hb : Built b p W T)
    (hV : V.length = m + p + 2) (hS : S.length = m + 1) (hpm : p ≤ m)
    (hW : W.length = o + p + 2) (hT : T.length = o + 1) (hpo : p ≤ o)
    (hca : a.knots.isClamped = .ok true) (hcb : b.knots.isClamped = .ok true)
    (hna : a.knots.isNormed = .ok true) (hnb : b.knots.isNormed = .ok true)
    (hc : ua.length + ub.length < p) (solver : Solver K d) :
    if m ≤ o ∧ o < m + p then ∃ c, mergeWithConstraints solver ⟨a, ⟨ua⟩⟩ ⟨b, ⟨ub⟩⟩ = .ok (.ok c)
    else ∃ e, mergeWithConstraints solver ⟨a, ⟨ua⟩⟩ ⟨b, ⟨ub⟩⟩ = .error e := by
  rw [Built, mkCurve_ok hS hpm (by omega)] at ha
  rw [Built, mkCurve_ok hT hpo (by omega)] at hb
  injection ha with ha; injection ha with ha
  injection hb with hb; injection hb with hb
  subst ha hb
  rw [merge_same solver ⟨canon p V S, ⟨ua⟩⟩ ⟨canon p W T, ⟨ub⟩⟩ rfl hca hcb hna hnb]
  simp only [Bool.and_self, Bool.true_eq_false, if_false]
  have hn : ¬ (canon p V S).degree ≤ (⟨ua⟩ : Constraints K).count + (⟨ub⟩ : Constraints K).count :=
    show ¬ p ≤ ua.length + ub.length by omega
  rw [if_neg hn]
  split
  · rename_i h
    exact ⟨_, mergeBody_ok hV hS hpm hW hT hpo (by omega) h.1 h.2 solver⟩
  · rename_i h
    by_cases h' : m ≤ o
    · exact ⟨_, mergeBody_panics_lt hV hS hpm hW hT hpo (by omega) (by omega) solver⟩
    · exact mergeBody_panics_gt hV hS hpm hW hT hpo (by omega) (by omega) solver

/-- **C34** `a.append(b)` and `b.prepend(a)` give the same result, whatever it is. -/
theorem C34_append_prepend (solver : Solver K d) (a b : Curve K d) :
    a.append solver b = b.prepend solver a := rfl

/-- **C34** What `prepend_constrained` really does: `b.prepend_constrained(cb, a, ca)` is
`a.append_constrained(cb, b, ca)`, the constraint lists change curves. -/
theorem C34_constrained_partial (solver : Solver K d) (a b : Curve K d) (ca cb : Constraints K) :
    b.prependConstrained solver cb a ca = a.appendConstrained solver cb b ca := rfl

/-- **C34** The two agree as claimed if both curves have the same constraints. -/
theorem C34_equal_constraints_partial (solver : Solver K d) (a b : Curve K d) (c : Constraints K) :
    b.prependConstrained solver c a c = a.appendConstrained solver c b c := rfl

/-- **C34** `append` and `prepend` without constraints are the constrained versions with empty
constraint lists. -/
theorem C34_unconstrained (solver : Solver K d) (a b : Curve K d) :
    a.append solver b = a.appendConstrained solver ⟨[]⟩ b ⟨[]⟩ ∧
      b.prepend solver a = b.prependConstrained solver ⟨[]⟩ a ⟨[]⟩ := ⟨rfl, rfl⟩

end LawFree

/-! ### Over an ordered field -/

variable {K : Type} [Field K] [LinearOrder K] [IsStrictOrderedRing K] {d d₁ d₂ : ℕ}

/-- **C28** The documented errors, in the documented order, for all pairs of curves and all
constraint lists; the only other possible error is a failure of the construction of the merged
curve. -/
theorem C28_errors (solver : Solver K d₁) (a : ConstrainedCurve K d₁) (b : ConstrainedCurve K d₂)
    {V W : List K} (hV : a.curve.knots.vector = .ok V) (hW : b.curve.knots.vector = .ok W) :
    (∀ e, mergeErrorOf a.curve.degree b.curve.degree d₁ d₂ V W a.constraints.params.length
        b.constraints.params.length = some e → mergeWithConstraints solver a b = .ok (.error e)) ∧
    (∀ e, mergeWithConstraints solver a b = .ok (.error e) →
      mergeErrorOf a.curve.degree b.curve.degree d₁ d₂ V W a.constraints.params.length
        b.constraints.params.length = some e ∨ ∃ err, e = .curveGenerationFailure err) := by
  by_cases h : a.curve.degree = b.curve.degree
  · by_cases hd : d₁ = d₂
    · subst hd
      obtain ⟨ca, hca, hca'⟩ := C50_is_clamped hV
      obtain ⟨cb, hcb, hcb'⟩ := C50_is_clamped hW
      obtain ⟨na, hna, hna'⟩ := C50_is_normed hV
      obtain ⟨nb, hnb, hnb'⟩ := C50_is_normed hW
      have ea : ca = true ↔ EndsClamped a.curve.degree V := hca'
      have eb : cb = true ↔ EndsClamped b.curve.degree W := hcb'
      have ena : na = true ↔ Normed V := hna'
      have enb : nb = true ↔ Normed W := hnb'
      rw [merge_same solver a b h hca hcb hna hnb, mergeErrorOf]
      have e1 : (ca && cb) = false ↔ ¬ (EndsClamped a.curve.degree V ∧ EndsClamped b.curve.degree W) := by
        rw [← ea, ← eb]; cases ca <;> cases cb <;> simp
      have e2 : (na && nb) = false ↔ ¬ (Normed V ∧ Normed W) := by
        rw [← ena, ← enb]; cases na <;> cases nb <;> simp
      simp only [h, ne_eq, not_true_eq_false, if_false]
      rw [← h]
      by_cases q1 : EndsClamped a.curve.degree V ∧ EndsClamped b.curve.degree W
      · by_cases q2 : Normed V ∧ Normed W
        · rw [if_neg (fun x => e1.1 x q1), if_neg (fun x => e2.1 x q2), if_neg (fun x => x (h ▸ q1)),
            if_neg (fun x => x q2)]
          by_cases q3 : a.curve.degree ≤ a.constraints.params.length + b.constraints.params.length
          · rw [if_pos q3, if_pos (show a.curve.degree ≤ a.constraints.count + b.constraints.count from q3)]
            exact ⟨fun e he => by simpa [Constraints.count] using he,
              fun e he => Or.inl (by simpa [Constraints.count] using he)⟩
          · rw [if_neg q3, if_neg (show ¬ a.curve.degree ≤ a.constraints.count + b.constraints.count from q3)]
            exact ⟨fun e he => by simp at he, fun e he => Or.inr (mergeBody_error he)⟩
        · rw [if_neg (fun x => e1.1 x q1), if_pos (e2.2 q2), if_neg (fun x => x (h ▸ q1)), if_pos q2]
          exact ⟨fun e he => by simpa using he, fun e he => Or.inl (by simpa using he)⟩
      · rw [if_pos (e1.2 q1), if_pos (fun x => q1 (h ▸ x))]
        exact ⟨fun e he => by simpa using he, fun e he => Or.inl (by simpa using he)⟩
    · rw [C28_dimension solver a b h hd, mergeErrorOf]
      simp only [h, ne_eq, not_true_eq_false, if_false, hd, not_false_eq_true, if_true]
      exact ⟨fun e he => by simpa using he, fun e he => Or.inl (by simpa using he)⟩
  · rw [C28_degree solver a b h, mergeErrorOf]
    simp only [h, ne_eq, not_false_eq_true, if_true]
    exact ⟨fun e he => by simpa using he, fun e he => Or.inl (by simpa using he)⟩

/-! ### C29 for valid curves -/

/-- **C29** as claimed -/
def C29_full : Prop := ∀ (p m o : ℕ) (V W ua ub : List ℚ) (S T : List (Pt ℚ 1)) (a b : Curve ℚ 1)
    (solver : Solver ℚ 1), Built a p V S → Built b p W T → ClampedKnots 0 1 p m V →
    ClampedKnots 0 1 p o W → S.length = m + 1 → T.length = o + 1 → ua.length + ub.length < p →
    ∃ c, mergeWithConstraints solver ⟨a, ⟨ua⟩⟩ ⟨b, ⟨ub⟩⟩ = .ok (.ok c)

/-- **C29** What holds: valid curves of equal degree `p` with `m + 1` and `o + 1` control points and
fewer than `p` constraints are merged if and only if `m ≤ o < m + p`; for all other sizes merging
panics (`C29_panics`). The full claim is `C29_full`, refuted by `C29_full_false`. -/
theorem C29_valid_partial {p m o : ℕ} {V W ua ub : List K} {S T : List (Pt K d)} {a b : Curve K d}
    (ha : Built a p V S) (hb : Built b p W T) (hV : ClampedKnots 0 1 p m V)
    (hW : ClampedKnots 0 1 p o W) (hS : S.length = m + 1) (hT : T.length = o + 1)
    (hc : ua.length + ub.length < p) (solver : Solver K d) :
    (∃ c, mergeWithConstraints solver ⟨a, ⟨ua⟩⟩ ⟨b, ⟨ub⟩⟩ = .ok (.ok c)) ↔ m ≤ o ∧ o < m + p := by
  have ha' := ha.eq_canon hV.length hV.le hS
  have hb' := hb.eq_canon hW.length hW.le hT
  obtain ⟨-, h1, h2⟩ := C50_valid (kn := a.knots) (by rw [ha']; exact canonKnots_vector V)
    (by rw [ha']; rfl) hV
  obtain ⟨-, h3, h4⟩ := C50_valid (kn := b.knots) (by rw [hb']; exact canonKnots_vector W)
    (by rw [hb']; rfl) hW
  have := C29_outcome_partial ha hb hV.length hS hV.le hW.length hT hW.le h1 h3 h2 h4 hc solver
  constructor
  · rintro ⟨c, h⟩
    by_contra hn
    rw [if_neg hn] at this
    obtain ⟨e, he⟩ := this
    rw [he] at h; cases h
  · intro h
    rwa [if_pos h] at this

/-- **C29** All other sizes panic. -/
theorem C29_panics {p m o : ℕ} {V W ua ub : List K} {S T : List (Pt K d)} {a b : Curve K d}
    (ha : Built a p V S) (hb : Built b p W T) (hV : ClampedKnots 0 1 p m V)
    (hW : ClampedKnots 0 1 p o W) (hS : S.length = m + 1) (hT : T.length = o + 1)
    (hc : ua.length + ub.length < p) (solver : Solver K d) (h : o < m ∨ m + p ≤ o) :
    ∃ e, mergeWithConstraints solver ⟨a, ⟨ua⟩⟩ ⟨b, ⟨ub⟩⟩ = .error e := by
  have ha' := ha.eq_canon hV.length hV.le hS
  have hb' := hb.eq_canon hW.length hW.le hT
  obtain ⟨-, h1, h2⟩ := C50_valid (kn := a.knots) (by rw [ha']; exact canonKnots_vector V)
    (by rw [ha']; rfl) hV
  obtain ⟨-, h3, h4⟩ := C50_valid (kn := b.knots) (by rw [hb']; exact canonKnots_vector W)
    (by rw [hb']; rfl) hW
  have := C29_outcome_partial ha hb hV.length hS hV.le hW.length hT hW.le h1 h3 h2 h4 hc solver
  rwa [if_neg (by omega)] at this

/-- Lines with three and two control points cannot be merged. -/
theorem C29_full_false : ¬ C29_full := by
  intro h
  have hV : ClampedKnots (0 : ℚ) 1 1 2 [0, 0, 1/2, 1, 1] := by decide +kernel
  have hW : ClampedKnots (0 : ℚ) 1 1 1 [0, 0, 1, 1] := by decide +kernel
  have ha : Built (canon 1 [0, 0, 1/2, 1, 1] (Tests.c1 [-2, -1, 0])) 1 [0, 0, 1/2, 1, 1]
    (Tests.c1 [-2, -1, 0]) := mkCurve_ok (n := 2) rfl (by decide) (by decide)
  have hb : Built (canon 1 [0, 0, 1, 1] (Tests.c1 [0, 1])) 1 [0, 0, 1, 1]
    (Tests.c1 [0, 1]) := mkCurve_ok (n := 1) rfl (by decide) (by decide)
  have := (C29_valid_partial ha hb hV hW rfl rfl (ua := []) (ub := []) (by decide)
    (Tests.exactSolver 1)).1 (h _ _ _ _ _ _ _ _ _ _ _ (Tests.exactSolver 1) ha hb hV hW rfl rfl (by decide))
  omega

/-- non-vacuity of the C29 theorems: two quadratic curves and one constraint, with `m = 2 < o = 3` -/
example : ∃ c, mergeWithConstraints (Tests.exactSolver 1)
    ⟨canon 2 [0, 0, 0, 1, 1, 1] (Tests.c1 [-2, -1, 0]), ⟨[1]⟩⟩
    ⟨canon 2 [0, 0, 0, 1/3, 1, 1, 1] (Tests.c1 [1, 2, 0, 5]), ⟨[]⟩⟩ = .ok (.ok c) := by
  refine (C29_valid_partial (p := 2) (m := 2) (o := 3) (mkCurve_ok (n := 2) rfl (by decide) (by decide))
    (mkCurve_ok (n := 3) rfl (by decide) (by decide)) (by decide +kernel) (by decide +kernel) rfl rfl
    (by decide) _).2 (by decide)

/-- all errors of `C28_errors` occur -/
example : mergeErrorOf (K := ℚ) 1 2 1 1 [0, 0, 1, 1] [0, 0, 0, 1, 1, 1] 0 0 = some (.degreeMismatch 1 2) := by
  simp [mergeErrorOf]

/-! ### C34 -/

/-- **C34** as claimed for the constrained versions -/
def C34_full : Prop := ∀ (solver : Solver ℚ 1) (a b : Curve ℚ 1) (ca cb : Constraints ℚ),
  b.prependConstrained solver cb a ca = a.appendConstrained solver ca b cb

/-- Two parabolas, the end of the first one fixed: `append_constrained` keeps it, `prepend_constrained`
fixes another point instead. -/
theorem C34_full_false : ¬ C34_full := by
  intro h
  have := congrArg (fun x => (do let c ← x; c.points.matrix : Exec (List (Pt ℚ 1))))
    (h (Tests.exactSolver 1) (canon 2 [0, 0, 0, 1, 1, 1] (Tests.c1 [-2, -1, -1/2]))
      (canon 2 [0, 0, 0, 1, 1, 1] (Tests.c1 [1/2, 1, 2])) ⟨[1]⟩ ⟨[]⟩)
  revert this
  decide +kernel

end BSpline
