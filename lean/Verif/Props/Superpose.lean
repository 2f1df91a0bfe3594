import Verif.Spec.Superpose
import Verif.Refine.PointRelMerge
import Verif.Props.Eval
import Mathlib.Algebra.Module.LinearMap.Defs
import Mathlib.LinearAlgebra.Pi

/-!
# Superposition: C145

Exact arithmetic. The two curves are put into one curve of twice the dimension, of which both curves and their
combination are linear images. Every operation respects linear maps of the points.
-/

set_option linter.unusedSectionVars false

namespace BSpline

variable {K : Type} [Field K] [LinearOrder K] [IsStrictOrderedRing K] {d e : ℕ}

/-- the graph of a linear map is compatible with all that the code does with points -/
theorem linear_compatible (f : Pt K d →ₗ[K] Pt K e) : Pw.Compatible (fun v w => f v = w) where
  zero := f.map_zero
  add v v' w w' h h' := by rw [f.map_add, h, h']
  sub v v' w w' h h' := by rw [f.map_sub, h, h']
  scale s v w h := by
    rw [show scale s v = s • v from rfl, f.map_smul, h]; rfl
  mulr s v w h := by
    rw [show (fun r => v r * s) = s • v from funext fun r => mul_comm _ _, f.map_smul, h]
    exact funext fun r => mul_comm _ _
  divr s v w h := by
    rw [show (fun r => v r / s) = s⁻¹ • v from funext fun r => div_eq_inv_mul _ _, f.map_smul, h]
    exact funext fun r => (div_eq_inv_mul _ _).symm

/-- the first and the second half of the coordinates -/
def firstHalf : Pt K (d + d) →ₗ[K] Pt K d := LinearMap.funLeft K K (Fin.castAdd d)
def secondHalf : Pt K (d + d) →ₗ[K] Pt K d := LinearMap.funLeft K K (Fin.natAdd d)

/-- the graphs of the two halves and of the combination -/
def IsFirst (z : Pt K (d + d)) (v : Pt K d) : Prop := firstHalf z = v
def IsSecond (z : Pt K (d + d)) (v : Pt K d) : Prop := secondHalf z = v
def IsComb (x y : K) (z : Pt K (d + d)) (v : Pt K d) : Prop :=
  (x • firstHalf + y • secondHalf : Pt K (d + d) →ₗ[K] Pt K d) z = v

theorem isFirst_compatible : Pw.Compatible (IsFirst : Pt K (d + d) → Pt K d → Prop) := linear_compatible firstHalf
theorem isSecond_compatible : Pw.Compatible (IsSecond : Pt K (d + d) → Pt K d → Prop) := linear_compatible secondHalf
theorem isComb_compatible (x y : K) : Pw.Compatible (IsComb x y : Pt K (d + d) → Pt K d → Prop) :=
  linear_compatible (x • firstHalf + y • secondHalf)

theorem firstHalf_append (v w : Pt K d) : firstHalf (Fin.append v w) = v := by
  funext i
  show Fin.append v w (Fin.castAdd d i) = v i
  exact Fin.append_left _ _ _

theorem secondHalf_append (v w : Pt K d) : secondHalf (Fin.append v w) = w := by
  funext i
  show Fin.append v w (Fin.natAdd d i) = w i
  exact Fin.append_right _ _ _

variable {x y : K}

/-- combined points come from one list of points of twice the dimension -/
theorem CombinedPoints.lift : ∀ {P Q R : List (Pt K d)}, CombinedPoints x y P Q R →
    ∃ Z : List (Pt K (d + d)), List.Forall₂ IsFirst Z P ∧ List.Forall₂ IsSecond Z Q ∧ List.Forall₂ (IsComb x y) Z R
  | [], [], _, ⟨_, h⟩ => ⟨[], .nil, .nil, by rw [h]; exact .nil⟩
  | v :: P, w :: Q, _, ⟨hl, h⟩ => by
    obtain ⟨Z, h1, h2, h3⟩ := CombinedPoints.lift (P := P) (Q := Q) ⟨by simpa using hl, rfl⟩
    refine ⟨Fin.append v w :: Z, .cons (firstHalf_append v w) h1, .cons (secondHalf_append v w) h2, ?_⟩
    rw [h]
    refine .cons ?_ h3
    show x • firstHalf (Fin.append v w) + y • secondHalf (Fin.append v w) = _
    rw [firstHalf_append, secondHalf_append]
  | [], _ :: _, _, ⟨hl, _⟩ => by simp at hl
  | _ :: _, [], _, ⟨hl, _⟩ => by simp at hl

theorem combinedPoints_of : ∀ {Z : List (Pt K (d + d))} {P Q R : List (Pt K d)}, List.Forall₂ IsFirst Z P →
    List.Forall₂ IsSecond Z Q → List.Forall₂ (IsComb x y) Z R → CombinedPoints x y P Q R := by
  intro Z
  induction Z with
  | nil =>
    intro P Q R h1 h2 h3
    cases h1; cases h2; cases h3
    exact ⟨rfl, rfl⟩
  | cons z Z ih =>
    intro P Q R h1 h2 h3
    cases h1 with | cons a1 b1 =>
    cases h2 with | cons a2 b2 =>
    cases h3 with | cons a3 b3 =>
    obtain ⟨hl, hr⟩ := ih b1 b2 b3
    refine ⟨by simp [hl], ?_⟩
    rw [List.zipWith_cons_cons, ← hr]
    congr 1
    rw [← a1, ← a2, ← a3]
    rfl

theorem levels_lift : ∀ {A B C : List (List (Pt K d))}, A.length = B.length → A.length = C.length →
    (∀ (k : ℕ) P Q R, A[k]? = some P → B[k]? = some Q → C[k]? = some R → CombinedPoints x y P Q R) →
    ∃ Z : List (List (Pt K (d + d))), List.Forall₂ (List.Forall₂ IsFirst) Z A ∧
      List.Forall₂ (List.Forall₂ IsSecond) Z B ∧ List.Forall₂ (List.Forall₂ (IsComb x y)) Z C
  | [], [], [], _, _, _ => ⟨[], .nil, .nil, .nil⟩
  | P :: A, Q :: B, R :: C, h1, h2, h => by
    obtain ⟨Z, a, b, c⟩ := levels_lift (A := A) (B := B) (C := C) (by simpa using h1) (by simpa using h2)
      (fun k P Q R hP hQ hR => h (k + 1) P Q R hP hQ hR)
    obtain ⟨z, a', b', c'⟩ := (h 0 P Q R rfl rfl rfl).lift
    exact ⟨z :: Z, .cons a' a, .cons b' b, .cons c' c⟩
  | [], _ :: _, _, h, _, _ => by simp at h
  | _ :: _, [], _, h, _, _ => by simp at h
  | [], [], _ :: _, _, h, _ => by simp at h
  | _ :: _, _ :: _, [], _, h, _ => by simp at h

theorem forall₂_get {α β : Type} {R : α → β → Prop} {A : List α} {B : List β} (h : List.Forall₂ R A B) {k : ℕ} {b : β}
    (hb : B[k]? = some b) : ∃ a, A[k]? = some a ∧ R a b := by
  obtain ⟨hk, rfl⟩ := List.getElem?_eq_some_iff.mp hb
  have hk' : k < A.length := h.length_eq ▸ hk
  exact ⟨A[k], List.getElem?_eq_getElem hk', by simpa using h.get hk' hk⟩

theorem Superposed.lift {a b c : Curve K d} (h : Superposed x y a b c) :
    ∃ z : Curve K (d + d), Pw.CurveRel IsFirst z a ∧ Pw.CurveRel IsSecond z b ∧ Pw.CurveRel (IsComb x y) z c := by
  obtain ⟨Z, h1, h2, h3⟩ := levels_lift h.levels.1 h.levels.2 h.points
  exact ⟨⟨a.knots, ⟨Z, a.points.kMax⟩⟩, ⟨rfl, rfl, h1⟩, ⟨h.knots.1, h.order.1, h2⟩, ⟨h.knots.2, h.order.2, h3⟩⟩

theorem superposed_of {z : Curve K (d + d)} {a b c : Curve K d} (h1 : Pw.CurveRel IsFirst z a)
    (h2 : Pw.CurveRel IsSecond z b) (h3 : Pw.CurveRel (IsComb x y) z c) : Superposed x y a b c where
  knots := ⟨h1.1.symm.trans h2.1, h1.1.symm.trans h3.1⟩
  order := ⟨h1.2.1.symm.trans h2.2.1, h1.2.1.symm.trans h3.2.1⟩
  levels := ⟨h1.2.2.length_eq.symm.trans h2.2.2.length_eq, h1.2.2.length_eq.symm.trans h3.2.2.length_eq⟩
  points k P Q R hP hQ hR := by
    obtain ⟨Z, e1, r1⟩ := forall₂_get h1.2.2 hP
    obtain ⟨Z', e2, r2⟩ := forall₂_get h2.2.2 hQ
    obtain ⟨Z'', e3, r3⟩ := forall₂_get h3.2.2 hR
    rw [e1] at e2 e3
    cases e2; cases e3
    exact combinedPoints_of r1 r2 r3

theorem out3_of {ε α β γ ζ : Type} {R1 : ζ → α → Prop} {R2 : ζ → β → Prop} {R3 : ζ → γ → Prop}
    {R : α → β → γ → Prop} {Z : Except ε ζ} {A : Except ε α}
    {B : Except ε β} {C : Except ε γ} (h1 : Pw.XRel R1 Z A) (h2 : Pw.XRel R2 Z B) (h3 : Pw.XRel R3 Z C)
    (hR : ∀ z a b c, R1 z a → R2 z b → R3 z c → R a b c) : Out3 R A B C := by
  rcases Z with z | z <;> rcases A with a | a <;> try exact h1.elim
  · rcases B with b | b <;> try exact h2.elim
    rcases C with c | c <;> try exact h3.elim
    obtain rfl : z = a := h1
    obtain rfl : z = b := h2
    obtain rfl : z = c := h3
    exact ⟨rfl, rfl⟩
  · rcases B with b | b <;> try exact h2.elim
    rcases C with c | c <;> try exact h3.elim
    exact hR _ _ _ _ h1 h2 h3

/-! ### The operations -/

section
variable [Build] {a b c : Curve K d}

/-- **C145** curves over the same knots with combined control points -/
theorem C145_new (p : ℕ) (U : List K) {P Q R : List (Pt K d)} (h : CombinedPoints x y P Q R) :
    Out3 (Out3 (Superposed x y)) (mkCurve p U P) (mkCurve p U Q) (mkCurve p U R) := by
  obtain ⟨Z, h1, h2, h3⟩ := h.lift
  exact out3_of (Pw.mkCurve_rel isFirst_compatible p U h1)
    (Pw.mkCurve_rel isSecond_compatible p U h2) (Pw.mkCurve_rel (isComb_compatible x y) p U h3)
      (fun _ _ _ _ e1 e2 e3 => out3_of e1 e2 e3 fun _ _ _ _ => superposed_of)

/-- **C145** have combined values and derivatives -/
theorem C145_evaluate (h : Superposed x y a b c) (u : K) (k : ℕ) :
    Out3 (Out3 (Combined x y)) (a.evaluateDerivative u k) (b.evaluateDerivative u k) (c.evaluateDerivative u k) := by
  obtain ⟨z, h1, h2, h3⟩ := h.lift
  refine out3_of (Pw.evaluateDerivative_rel isFirst_compatible h1 u k)
    (Pw.evaluateDerivative_rel isSecond_compatible h2 u k) (Pw.evaluateDerivative_rel (isComb_compatible x y) h3 u k)
    (fun _ _ _ _ e1 e2 e3 => out3_of e1 e2 e3 ?_)
  rintro z v w t rfl rfl rfl
  rfl

/-- **C145** and the results of all operations are combined in the same way -/
theorem C145_operations (h : Superposed x y a b c) :
    Out3 (Superposed x y) a.reverse b.reverse c.reverse ∧
    (∀ k, Out3 (Superposed x y) (a.getDerivativeCurve k) (b.getDerivativeCurve k) (c.getDerivativeCurve k)) ∧
    (∀ u n, Out3 (fun r s t => Superposed x y r.1 s.1 t.1 ∧ r.2 = s.2 ∧ r.2 = t.2) (a.insertTimes u n)
      (b.insertTimes u n) (c.insertTimes u n)) ∧
    (∀ u flags, Out3 (Out3 fun r s t => Superposed x y r.1 s.1 t.1 ∧ Superposed x y r.2 s.2 t.2)
      (splitAndNormalize a u flags) (splitAndNormalize b u flags) (splitAndNormalize c u flags)) := by
  obtain ⟨z, h1, h2, h3⟩ := h.lift
  refine ⟨?_, fun k => ?_, fun u n => ?_, fun u flags => ?_⟩
  · exact out3_of (Pw.reverse_rel isFirst_compatible h1)
      (Pw.reverse_rel isSecond_compatible h2) (Pw.reverse_rel (isComb_compatible x y) h3)
      (fun _ _ _ _ => superposed_of)
  · exact out3_of (Pw.getDerivativeCurve_rel h1 k) (Pw.getDerivativeCurve_rel h2 k)
      (Pw.getDerivativeCurve_rel h3 k)
      (fun _ _ _ _ => superposed_of)
  · exact out3_of
      (Pw.insertTimes_rel isFirst_compatible u n h1) (Pw.insertTimes_rel isSecond_compatible u n h2)
      (Pw.insertTimes_rel (isComb_compatible x y) u n h3)
      (fun _ _ _ _ e1 e2 e3 => ⟨superposed_of e1.1 e2.1 e3.1, e1.2.symm.trans e2.2, e1.2.symm.trans e3.2⟩)
  · exact out3_of
      (Pw.splitAndNormalize_rel isFirst_compatible h1 u flags) (Pw.splitAndNormalize_rel isSecond_compatible h2 u flags)
      (Pw.splitAndNormalize_rel (isComb_compatible x y) h3 u flags)
      (fun _ _ _ _ e1 e2 e3 => out3_of e1 e2 e3 fun _ _ _ _ f1 f2 f3 =>
        ⟨superposed_of f1.1 f2.1 f3.1, superposed_of f1.2 f2.2 f3.2⟩)

/-- **C145** merging, with any constraints and any decomposition in the linear solver -/
theorem C145_merge (decompose : List (List K) → Svd K) (eps : K) {a' b' c' : Curve K d} (h : Superposed x y a b c)
    (h' : Superposed x y a' b' c') (ua ub : Constraints K) :
    Out3 (Out3 (Superposed x y)) (mergeWithConstraints (Solver.svd decompose eps) ⟨a, ua⟩ ⟨a', ub⟩)
      (mergeWithConstraints (Solver.svd decompose eps) ⟨b, ua⟩ ⟨b', ub⟩)
      (mergeWithConstraints (Solver.svd decompose eps) ⟨c, ua⟩ ⟨c', ub⟩) := by
  obtain ⟨z, h1, h2, h3⟩ := h.lift
  obtain ⟨z', h1', h2', h3'⟩ := h'.lift
  exact out3_of
    (Pw.mergeWithConstraints_rel isFirst_compatible (Pw.Solver.svd_rel isFirst_compatible _ _) h1 h1' ua ub)
    (Pw.mergeWithConstraints_rel isSecond_compatible (Pw.Solver.svd_rel isSecond_compatible _ _) h2 h2' ua ub)
    (Pw.mergeWithConstraints_rel (isComb_compatible x y) (Pw.Solver.svd_rel (isComb_compatible x y) _ _) h3 h3' ua ub)
      (fun _ _ _ _ e1 e2 e3 => out3_of e1 e2 e3 fun _ _ _ _ => superposed_of)

variable [Trunc K] [Sqrt K]

/-- **C145** interpolation and fits for given knots and parameters, with any penalisation -/
theorem C145_fits (decompose : List (List K) → Svd K) (eps : K) {P Q R : DataPoints K d}
    (h : CombinedPoints x y P Q R) (kn : Knots K) (params : Parameters K) (pen : Option (Penalization K)) :
    Out3 (CombinedPoints x y) (interpolate (Solver.svd decompose eps) kn P params)
      (interpolate (Solver.svd decompose eps) kn Q params) (interpolate (Solver.svd decompose eps) kn R params) ∧
    Out3 (Out3 (CombinedPoints x y)) (Loose.fit (Solver.svd decompose eps) kn P params pen)
      (Loose.fit (Solver.svd decompose eps) kn Q params pen) (Loose.fit (Solver.svd decompose eps) kn R params pen) ∧
    Out3 (Out3 (CombinedPoints x y)) (Fixed.fit (Solver.svd decompose eps) kn P params pen)
      (Fixed.fit (Solver.svd decompose eps) kn Q params pen)
      (Fixed.fit (Solver.svd decompose eps) kn R params pen) := by
  obtain ⟨Z, h1, h2, h3⟩ := h.lift
  have s1 := Pw.Solver.svd_rel (isFirst_compatible (K := K) (d := d)) decompose eps
  have s2 := Pw.Solver.svd_rel (isSecond_compatible (K := K) (d := d)) decompose eps
  have s3 := Pw.Solver.svd_rel (isComb_compatible (K := K) (d := d) x y) decompose eps
  refine ⟨?_, ?_, ?_⟩
  · exact out3_of (Pw.interpolate_rel s1 h1 kn params)
      (Pw.interpolate_rel s2 h2 kn params) (Pw.interpolate_rel s3 h3 kn params)
      (fun _ _ _ _ => combinedPoints_of)
  · exact out3_of
      (Pw.fit_loose_rel isFirst_compatible s1 h1 kn params pen) (Pw.fit_loose_rel isSecond_compatible s2 h2 kn params pen)
      (Pw.fit_loose_rel (isComb_compatible x y) s3 h3 kn params pen)
      (fun _ _ _ _ e1 e2 e3 => out3_of e1 e2 e3 fun _ _ _ _ => combinedPoints_of)
  · exact out3_of
      (Pw.fit_fixed_rel isFirst_compatible s1 h1 kn params pen) (Pw.fit_fixed_rel isSecond_compatible s2 h2 kn params pen)
      (Pw.fit_fixed_rel (isComb_compatible x y) s3 h3 kn params pen)
      (fun _ _ _ _ e1 e2 e3 => out3_of e1 e2 e3 fun _ _ _ _ => combinedPoints_of)

theorem equal_params_rel {R : Pt K d → Pt K e → Prop} {Q : DataPoints K d} {Q' : DataPoints K e}
    (hQ : List.Forall₂ R Q Q') : generateParams Q .equallySpaced = generateParams Q' .equallySpaced := by
  simp only [generateParams, Pw.data_segments_rel hQ]

theorem interpolation_rel {R : Pt K d → Pt K e → Prop} (hR : Pw.Compatible R) {s : Solver K d} {s' : Solver K e}
    (hs : Pw.SolverRel R s s') {Q : DataPoints K d} {Q' : DataPoints K e} (hQ : List.Forall₂ R Q Q') (p : ℕ) :
    Pw.XRel (Pw.XRel (Pw.CurveRel R)) (generate s (.interpolation p Q)) (generate s' (.interpolation p Q')) := by
  simp only [generate, Pw.data_segments_rel hQ, equal_params_rel hQ]
  refine Pw.XRel.same _ fun params => Pw.XRel.same _ fun n => Pw.XRel.same _ fun kn => ?_
  cases kn with
  | error _ => rfl
  | ok kn => exact (Pw.interpolate_rel hs hQ kn params).bind fun P P' hP =>
      Pw.new_rel hR kn ⟨rfl, List.Forall₂.cons hP List.Forall₂.nil⟩

theorem fit_rel {R : Pt K d → Pt K e → Prop} (hR : Pw.Compatible R) {s : Solver K d} {s' : Solver K e}
    (hs : Pw.SolverRel R s s') {Q : DataPoints K d} {Q' : DataPoints K e} (hQ : List.Forall₂ R Q Q') (p n : ℕ)
    (m : FitMethod) (pen : Option (Penalization K)) :
    Pw.XRel (Pw.XRel (Pw.CurveRel R)) (generate s (.leastSquaresFit p Q n m pen))
      (generate s' (.leastSquaresFit p Q' n m pen)) := by
  simp only [generate, equal_params_rel hQ]
  refine Pw.XRel.same _ fun params => Pw.XRel.same _ fun kn => ?_
  cases kn with
  | error _ => rfl
  | ok kn =>
    have hk : ∀ r : Except (FitError K) (List (Pt K d)), ∀ r', Pw.XRel (List.Forall₂ R) r r' →
        Pw.XRel (Pw.XRel (Pw.CurveRel R)) (match r with
          | .error err => pure (.error (.fitError err))
          | .ok P => Curve.new kn (ControlPoints.new P)) (match r' with
          | .error err => pure (.error (.fitError err))
          | .ok P => Curve.new kn (ControlPoints.new P)) := by
      rintro (r | r) (r' | r') hr
      · obtain rfl : r = r' := hr
        rfl
      · exact hr.elim
      · exact hr.elim
      · exact Pw.new_rel hR kn ⟨rfl, List.Forall₂.cons hr List.Forall₂.nil⟩
    cases m
    · exact (Pw.fit_fixed_rel hR hs hQ kn params pen).bind hk
    · exact (Pw.fit_loose_rel hR hs hQ kn params pen).bind hk

/-- **C145** generating an interpolation or a fit of combined data gives the combined curve -/
theorem C145_generate (decompose : List (List K) → Svd K) (eps : K) {P Q R : DataPoints K d}
    (h : CombinedPoints x y P Q R) (p : ℕ) :
    Out3 (Out3 (Superposed x y)) (generate (Solver.svd decompose eps) (.interpolation p P))
      (generate (Solver.svd decompose eps) (.interpolation p Q))
      (generate (Solver.svd decompose eps) (.interpolation p R)) ∧
    ∀ (n : ℕ) (m : FitMethod) (pen : Option (Penalization K)),
      Out3 (Out3 (Superposed x y)) (generate (Solver.svd decompose eps) (.leastSquaresFit p P n m pen))
        (generate (Solver.svd decompose eps) (.leastSquaresFit p Q n m pen))
        (generate (Solver.svd decompose eps) (.leastSquaresFit p R n m pen)) := by
  obtain ⟨Z, h1, h2, h3⟩ := h.lift
  have s1 := Pw.Solver.svd_rel (isFirst_compatible (K := K) (d := d)) decompose eps
  have s2 := Pw.Solver.svd_rel (isSecond_compatible (K := K) (d := d)) decompose eps
  have s3 := Pw.Solver.svd_rel (isComb_compatible (K := K) (d := d) x y) decompose eps
  refine ⟨?_, fun n m pen => ?_⟩
  · exact out3_of (interpolation_rel isFirst_compatible s1 h1 p)
      (interpolation_rel isSecond_compatible s2 h2 p) (interpolation_rel (isComb_compatible x y) s3 h3 p)
      (fun _ _ _ _ e1 e2 e3 => out3_of e1 e2 e3 fun _ _ _ _ => superposed_of)
  · exact out3_of
      (fit_rel isFirst_compatible s1 h1 p n m pen) (fit_rel isSecond_compatible s2 h2 p n m pen)
      (fit_rel (isComb_compatible x y) s3 h3 p n m pen)
      (fun _ _ _ _ e1 e2 e3 => out3_of e1 e2 e3 fun _ _ _ _ => superposed_of)

end

/-- **C145** For valid curves all calls of `evaluate_derivative` succeed, so the values and derivatives of all orders
are the combinations. -/
theorem C145_values {a b c : Curve K d} {p n : ℕ} {U : List K} {P Q R : List (Pt K d)} (ha : ValidOn 0 1 a p n U P)
    (hb : Built b p U Q) (hc : Built c p U R) (h : CombinedPoints x y P Q R) {u : K} (h0 : 0 ≤ u) (h1 : u ≤ 1) (k : ℕ) :
    ∃ v w, a.evaluateDerivative u k = .ok (.ok v) ∧ b.evaluateDerivative u k = .ok (.ok w) ∧
      c.evaluateDerivative u k = .ok (.ok (x • v + y • w)) := by
  have hS := C145_new p U h
  have e1 : mkCurve p U P = .ok (.ok a) := ha.1
  have e2 : mkCurve p U Q = .ok (.ok b) := hb
  have e3 : mkCurve p U R = .ok (.ok c) := hc
  rw [e1, e2, e3] at hS
  obtain ⟨v, hv⟩ := (C06_evaluation_total ha.1 ha.2.1.length ha.2.2 ha.2.1.le u k).2.1 (by simp [Cmp.le, h0, h1])
  have hE := C145_evaluate hS u k
  rw [hv] at hE
  revert hE
  rcases b.evaluateDerivative u k with e | (e | w) <;> rcases c.evaluateDerivative u k with e' | (e' | z) <;> intro hE <;>
    try exact hE.elim
  obtain rfl : z = x • v + y • w := hE
  exact ⟨v, w, hv, rfl, rfl⟩

/-- non-vacuity: `2 a - b` for two polylines over the same knots, and the inserted, split and reversed curves exist -/
example : ∃ a b c : Curve ℚ 1, mkCurve 1 [0, 0, 1 / 2, 1, 1] [![0], ![1], ![5]] = .ok (.ok a) ∧
    mkCurve 1 [0, 0, 1 / 2, 1, 1] [![3], ![1], ![-1]] = .ok (.ok b) ∧
    mkCurve 1 [0, 0, 1 / 2, 1, 1] [![-3], ![1], ![11]] = .ok (.ok c) ∧ Superposed 2 (-1) a b c ∧
    c.evaluate (1 / 4) = .ok (.ok ![-1]) ∧ a.evaluate (1 / 4) = .ok (.ok ![1 / 2]) ∧
    b.evaluate (1 / 4) = .ok (.ok ![2]) := by
  have h := C145_new (x := (2 : ℚ)) (y := -1) 1 [0, 0, 1 / 2, 1, 1] (P := [![0], ![1], ![5]])
    (Q := [![3], ![1], ![-1]]) (R := [![-3], ![1], ![11]]) ⟨rfl, by decide +kernel⟩
  have e1 : mkCurve (K := ℚ) (d := 1) 1 [0, 0, 1 / 2, 1, 1] [![0], ![1], ![5]] =
      .ok (.ok (canon 1 [0, 0, 1 / 2, 1, 1] [![0], ![1], ![5]])) := mkCurve_ok (n := 2) rfl (by omega) (by decide)
  have e2 : mkCurve (K := ℚ) (d := 1) 1 [0, 0, 1 / 2, 1, 1] [![3], ![1], ![-1]] =
      .ok (.ok (canon 1 [0, 0, 1 / 2, 1, 1] [![3], ![1], ![-1]])) := mkCurve_ok (n := 2) rfl (by omega) (by decide)
  have e3 : mkCurve (K := ℚ) (d := 1) 1 [0, 0, 1 / 2, 1, 1] [![-3], ![1], ![11]] =
      .ok (.ok (canon 1 [0, 0, 1 / 2, 1, 1] [![-3], ![1], ![11]])) := mkCurve_ok (n := 2) rfl (by omega) (by decide)
  rw [e1, e2, e3] at h
  exact ⟨_, _, _, e1, e2, e3, h, by decide +kernel, by decide +kernel, by decide +kernel⟩

end BSpline
