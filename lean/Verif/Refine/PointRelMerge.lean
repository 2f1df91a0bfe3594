import Verif.Refine.PointRel
import Verif.Model.Svd

/-!
# Relations between points: merging, interpolation and fits

The solver has to preserve the relation; `SVD::solve` does, whatever decomposition it uses.
-/

set_option linter.unusedSectionVars false

namespace BSpline.Pw

section Merging

variable {K : Type} [Add K] [Sub K] [Mul K] [Div K] [Neg K] [Zero K] [One K] [NatCast K] [Cmp K] {d e : ℕ} [Build]
  {R : Pt K d → Pt K e → Prop} (hR : Compatible R)

/-- the solvers map related right-hand sides to related solutions -/
def SolverRel (R : Pt K d → Pt K e → Prop) (s : Solver K d) (s' : Solver K e) : Prop :=
  ∀ A b b', List.Forall₂ R b b' → List.Forall₂ R (s.run A b) (s'.run A b')

variable {s : Solver K d} {s' : Solver K e} (hs : SolverRel R s s')

include hs in
theorem svdSolve_rel (A : List (List K)) {b : List (Pt K d)} {b' : List (Pt K e)} (h : List.Forall₂ R b b') :
    XRel (List.Forall₂ R) (svdSolve s A b) (svdSolve s' A b') := by
  rw [svdSolve, svdSolve, h.length_eq]
  split_ifs
  · rfl
  · rfl
  · exact hs A b b' h

section Blocks

variable {a b : Curve K d} {a' b' : Curve K e} (ha : CurveRel R a a') (hb : CurveRel R b b')

theorem bind_length_rel {α : Type} {x : Exec (List (Pt K d))} {y : Exec (List (Pt K e))}
    (h : XRel (List.Forall₂ R) x y) (f : ℕ → Exec α) : (x >>= fun P => f P.length) = y >>= fun P => f P.length := by
  rcases x with x | x <;> rcases y with y | y
  · exact congrArg Except.error h
  · exact h.elim
  · exact h.elim
  · exact congrArg f (List.Forall₂.length_eq h)

include ha in
theorem segments_rel : a.segments = a'.segments := ha.2.segments

include ha in
theorem degree_rel : a.degree = a'.degree := congrArg Knots.degree ha.1

include ha in
theorem sumLeft_rel (k i : ℕ) : sumLeft a k i = sumLeft a' k i := by
  simp only [sumLeft, segments_rel ha, degree_rel ha, ha.1]
  congr 1; funext m
  exact bind_length_rel ha.2.matrix fun L => do
    let V0 ← idx a'.knots.Uk 0
    let lo ← usub m a'.degree
    let hi ← usub m k
    forRangeIncl lo hi 0 fun sum a => do
      let f ← prefactor a'.degree i L V0 k a
      let Vk ← idx a'.knots.Uk k
      let pk ← usub a'.degree k
      let mk ← usub m k
      let e ← idx V0 (m + 1)
      let b ← basis Vk 0 mk e pk a
      pure (sum + f * b)

include ha in
theorem sumRight_rel (k i : ℕ) : sumRight a k i = sumRight a' k i := by
  simp only [sumRight, segments_rel ha, degree_rel ha, ha.1]
  congr 1; funext m
  exact bind_length_rel ha.2.matrix fun L => do
    let W0 ← idx a'.knots.Uk 0
    let hi ← usub a'.degree k
    forRangeIncl 0 hi 0 fun sum b => do
      let f ← prefactor a'.degree i L W0 k b
      let Wk ← idx a'.knots.Uk k
      let pk ← usub a'.degree k
      let ok ← usub m k
      let e ← idx W0 a'.degree
      let N ← basis Wk 0 ok e pk b
      pure (sum + f * N)

include ha hb in
theorem constructNmat_rel (ua ub : Constraints K) :
    constructNmat ⟨a, ua⟩ ⟨b, ub⟩ = constructNmat ⟨a', ua⟩ ⟨b', ub⟩ := by
  have e1 : calculateKV a = calculateKV a' := by
    simp only [calculateKV, segments_rel ha, sumLeft_rel ha, degree_rel ha]
  have e2 : calculateKW b = calculateKW b' := by simp only [calculateKW, sumRight_rel hb, degree_rel hb]
  have e3 : calculateIV a = calculateIV a' := by
    simp only [calculateIV, segments_rel ha, sumLeft_rel ha, degree_rel ha]
  have e4 : calculateJW b = calculateJW b' := by simp only [calculateJW, sumRight_rel hb, degree_rel hb]
  have e5 : calculateGV ⟨a, ua⟩ = calculateGV ⟨a', ua⟩ := by
    simp only [calculateGV, segments_rel ha, degree_rel ha, ha.1]
  have e6 : calculateIpV ⟨a, ua⟩ = calculateIpV ⟨a', ua⟩ := by
    simp only [calculateIpV, segments_rel ha, degree_rel ha, ha.1]
  have e7 : calculateHW ⟨b, ub⟩ = calculateHW ⟨b', ub⟩ := by
    simp only [calculateHW, segments_rel hb, degree_rel hb, hb.1]
  have e8 : calculateJppW ⟨b, ub⟩ = calculateJppW ⟨b', ub⟩ := by
    simp only [calculateJppW, segments_rel hb, degree_rel hb, hb.1]
  simp only [constructNmat, e1, e2, e3, e4, e5, e6, e7, e8, degree_rel ha]

include hR ha hb

theorem calculateKconst_rel : XRel (List.Forall₂ R) (calculateKconst a b) (calculateKconst a' b') := by
  simp only [calculateKconst, segments_rel ha, segments_rel hb, degree_rel ha, ha.1, hb.1]
  refine XRel.same _ fun m => XRel.same _ fun o => ha.2.matrix.bind fun S S' hS => hb.2.matrix.bind fun T T' hT => ?_
  refine XRel.same _ fun hi => tabulateIncl_rel fun k => ?_
  refine XRel.same _ fun V0 => XRel.same _ fun W0 => XRel.same _ fun mp => ?_
  rw [hS.length_eq, hT.length_eq]
  refine (forRangeIncl_rel (R := R) hR.zero fun v w i hv => ?_).bind fun v w hv => ?_
  · refine XRel.same _ fun mk => forRangeIncl_rel hv fun v w x hv => ?_
    refine XRel.same _ fun f => XRel.same _ fun Vk => XRel.same _ fun pk => XRel.same _ fun e => XRel.same _ fun N => ?_
    exact (column_rel hS i).bind fun _ _ hc => hR.add _ _ _ _ hv (hR.scale _ _ _ hc)
  · refine (forRangeIncl_rel (R := R) hv fun v w i hv => ?_).bind fun v w hv =>
      hR.sub _ _ _ _ hR.zero hv
    refine XRel.same _ fun pk => forRangeIncl_rel hv fun v w x hv => ?_
    refine XRel.same _ fun f => XRel.same _ fun Vk => XRel.same _ fun pk => XRel.same _ fun e => XRel.same _ fun N => ?_
    exact (column_rel hT i).bind fun _ _ hc => hR.sub _ _ _ _ hv (hR.scale _ _ _ hc)

theorem constructConstMat_rel (t : ℕ) : XRel (List.Forall₂ R) (constructConstMat a b t) (constructConstMat a' b' t) := by
  simp only [constructConstMat, degree_rel ha]
  exact (calculateKconst_rel hR ha hb).bind fun _ _ h => setSegment_rel (replicate_rel hR.zero _) h _

omit ha hb

theorem addSegment_rel {m src : List (Pt K d)} {m' src' : List (Pt K e)} (hm : List.Forall₂ R m m') (i : ℕ)
    (h : List.Forall₂ R src src') : XRel (List.Forall₂ R) (addSegment m i src) (addSegment m' i src') := by
  rw [addSegment, addSegment, h.length_eq]
  refine (segment_rel hm _ _).bind fun old old' ho => setSegment_rel hm ?_ i
  clear hm
  induction ho generalizing src src' with
  | nil => exact List.Forall₂.nil
  | cons h1 _ ih =>
    cases h with
    | nil => exact List.Forall₂.nil
    | cons h2 h3 => exact List.Forall₂.cons (hR.add _ _ _ _ h1 h2) (ih h3)

include ha hb

theorem generateShifted_rel {sh : List (Pt K d)} {sh' : List (Pt K e)} (h : List.Forall₂ R sh sh') :
    XRel (fun x y => List.Forall₂ R x.1 y.1 ∧ List.Forall₂ R x.2 y.2) (generateShifted a b sh)
      (generateShifted a' b' sh') := by
  simp only [generateShifted, degree_rel ha]
  refine ha.2.matrix.bind fun S S' hS => hb.2.matrix.bind fun T T' hT => ?_
  rw [hS.length_eq]
  refine XRel.same _ fun x => (segment_rel h _ _).bind fun y y' hy => ?_
  refine (addSegment_rel hR hS _ hy).bind fun S S' hS => (segment_rel h _ _).bind fun z z' hz => ?_
  exact (addSegment_rel hR hT _ hz).bind fun T T' hT => ⟨hS, hT⟩

omit hR

theorem adjustKnotsOfBoth_rel : adjustKnotsOfBoth a b = adjustKnotsOfBoth a' b' := by
  simp only [adjustKnotsOfBoth, segments_rel ha, segments_rel hb, degree_rel ha, ha.1, hb.1]

theorem createMergedKnotVector_rel (V W : List K) :
    createMergedKnotVector a b V W = createMergedKnotVector a' b' V W := by
  simp only [createMergedKnotVector, segments_rel ha, segments_rel hb]

omit ha hb
include hR

theorem generateDerivativeControlPoint_rel (i k : ℕ) {P : List (Pt K d)} {P' : List (Pt K e)} (hP : List.Forall₂ R P P')
    (U : List K) (p n : ℕ) :
    XRel R (generateDerivativeControlPoint i k P U p n) (generateDerivativeControlPoint i k P' U p n) := by
  rw [generateDerivativeControlPoint, generateDerivativeControlPoint, hP.length_eq]
  refine XRel.same _ fun nk => ?_
  split_ifs
  · refine forRangeIncl_rel hR.zero fun v w z hv => XRel.same _ fun f => (column_rel hP z).bind fun _ _ hc => ?_
    exact hR.add _ _ _ _ hv (hR.scale _ _ _ hc)
  · rfl

theorem adjustRow_rel (U : List K) (p n i : ℕ) {prev row : List (Pt K d)} {prev' row' : List (Pt K e)}
    (hp : List.Forall₂ R prev prev') (hr : List.Forall₂ R row row') :
    XRel (List.Forall₂ R) (adjustRow U p n i prev row) (adjustRow U p n i prev' row') := by
  refine XRel.same _ fun ni => foldlM_rel (fun row row' k hr => ?_) _ _ _ hr
  refine XRel.same _ fun x => XRel.same _ fun y => XRel.same _ fun pk => ?_
  refine (idx_rel hp _).bind fun v w h1 => (idx_rel hp _).bind fun v' w' h2 => ?_
  exact setIdx_rel hr (hR.add _ _ _ _ (hR.scale _ _ _ h1) h2) k

theorem adjustShifted_rel {P : List (Pt K d)} {P' : List (Pt K e)} (hP : List.Forall₂ R P P') (U W : List K) (p n : ℕ) :
    XRel (List.Forall₂ R) (adjustShifted P U W p n) (adjustShifted P' U W p n) := by
  rw [adjustShifted, adjustShifted]
  refine (mapM_rel (R := List.Forall₂ R) (f := fun i => column P i >>= fun c => pure [c])
    (g := fun i => column P' i >>= fun c => pure [c]) (fun i => (column_rel hP i).bind fun _ _ hc =>
    List.Forall₂.cons hc List.Forall₂.nil) _).bind fun q q' hq => XRel.same _ fun hi => ?_
  refine (forRangeIncl_rel (R := List.Forall₂ (List.Forall₂ R)) hq fun q q' k hq => ?_).bind fun q q' hq => ?_
  · refine XRel.same _ fun j => (generateDerivativeControlPoint_rel hR _ _ hP _ _ _).bind fun x x' hx => ?_
    exact (idx_rel hq _).bind fun r r' hr => setIdx_rel hq (forall₂_append hr (List.Forall₂.cons hx List.Forall₂.nil)) _
  refine XRel.same _ fun j => ?_
  refine (forRangeIncl_rel (R := List.Forall₂ (List.Forall₂ R)) hq fun q q' i hq => ?_).bind fun q q' hq => ?_
  · refine (idx_rel hq _).bind fun r r' hr => XRel.same _ fun ni => (idx_rel hq _).bind fun v v' hv => ?_
    refine (adjustRow_rel hR _ _ _ _ hv ?_).bind fun r r' hr => setIdx_rel hq hr i
    rw [vecResize, vecResize, hr.length_eq]
    exact forall₂_append (List.forall₂_take _ hr) (replicate_rel hR.zero _)
  · exact mapM_rel (fun i => (idx_rel hq i).bind fun r r' hr => idx_rel hr _) _

include ha in
theorem adjustShiftedOfBoth_rel {S T : List (Pt K d)} {S' T' : List (Pt K e)} (hS : List.Forall₂ R S S')
    (hT : List.Forall₂ R T T') (V W W' : List K) :
    XRel (fun x y => List.Forall₂ R x.1 y.1 ∧ List.Forall₂ R x.2 y.2) (adjustShiftedOfBoth a S T V W W')
      (adjustShiftedOfBoth a' S' T' V W W') := by
  simp only [adjustShiftedOfBoth, segments_rel ha, degree_rel ha, ha.1]
  refine XRel.same _ fun n => XRel.same _ fun V0 => (adjustShifted_rel hR hS _ _ _ _).bind fun x x' hx => ?_
  exact (adjustShifted_rel hR (reverseCols_rel hT) _ _ _ _).bind fun y y' hy => ⟨hx, reverseCols_rel hy⟩

include ha hb in
theorem generateMergedPoints_rel {S T : List (Pt K d)} {S' T' : List (Pt K e)} (hS : List.Forall₂ R S S')
    (hT : List.Forall₂ R T T') :
    XRel (List.Forall₂ R) (generateMergedPoints a b S T) (generateMergedPoints a' b' S' T') := by
  simp only [generateMergedPoints, degree_rel ha, ha.2.count, hb.2.count, hS.length_eq, hT.length_eq]
  refine XRel.same _ fun n1 => XRel.same _ fun n2 => XRel.same _ fun len => ?_
  split_ifs
  · refine (setSegment_rel (replicate_rel hR.zero _) hS _).bind fun P P' hP => XRel.same _ fun rc => ?_
    rw [hP.length_eq]
    refine XRel.same _ fun s => XRel.same _ fun t => (segment_rel hT _ _).bind fun x x' hx => setSegment_rel hP hx _
  · rfl

end Blocks

include hR hs

theorem mergeBody_rel {a b : Curve K d} {a' b' : Curve K e} (ha : CurveRel R a a') (hb : CurveRel R b b')
    (ua ub : Constraints K) : XRel (XRel (CurveRel R)) (mergeBody s ⟨a, ua⟩ ⟨b, ub⟩) (mergeBody s' ⟨a', ua⟩ ⟨b', ub⟩) := by
  simp only [mergeBody, solveLinearEquationSystem, bind_assoc, constructNmat_rel ha hb ua ub,
    adjustKnotsOfBoth_rel ha hb, createMergedKnotVector_rel ha hb, degree_rel ha]
  refine XRel.same _ fun N => (constructConstMat_rel hR ha hb _).bind fun c c' hc => ?_
  refine (svdSolve_rel hs N hc).bind fun sh sh' hsh => (generateShifted_rel hR ha hb hsh).bind fun x x' hx => ?_
  refine XRel.same _ fun VW => XRel.same _ fun U => ?_
  refine (adjustShiftedOfBoth_rel hR ha hx.1 hx.2 _ _ _).bind fun y y' hy => ?_
  refine (generateMergedPoints_rel hR ha hb hy.1 hy.2).bind fun P P' hP => ?_
  refine (mkCurve_rel hR _ U hP).bind fun r r' hr => ?_
  rcases r with r | r <;> rcases r' with r' | r'
  · obtain rfl : r = r' := hr
    rfl
  · exact hr.elim
  · exact hr.elim
  · exact hr

theorem mergeWithConstraints_rel {a b : Curve K d} {a' b' : Curve K e} (ha : CurveRel R a a') (hb : CurveRel R b b')
    (ua ub : Constraints K) : XRel (XRel (CurveRel R)) (mergeWithConstraints s ⟨a, ua⟩ ⟨b, ub⟩)
      (mergeWithConstraints s' ⟨a', ua⟩ ⟨b', ub⟩) := by
  unfold mergeWithConstraints
  by_cases hd : a'.degree = b'.degree
  · rw [if_neg (show ¬ a.degree ≠ b.degree from fun hn => hn ((degree_rel ha).trans (hd.trans (degree_rel hb).symm))),
      if_neg (fun hn => hn hd), dif_pos rfl, dif_pos rfl]
    simp only [degree_rel ha, ha.1, hb.1]
    refine XRel.same _ fun x => ?_
    by_cases hx : x = true
    · rw [if_pos hx, if_pos hx]; rfl
    rw [if_neg hx, if_neg hx]
    refine XRel.same _ fun x => ?_
    split_ifs
    · rfl
    · rfl
    · exact mergeBody_rel hR hs ha hb ua ub
  · rw [if_pos (show a.degree ≠ b.degree from fun hn => hd ((degree_rel ha).symm.trans (hn.trans (degree_rel hb)))),
      if_pos hd]
    simp only [degree_rel ha, degree_rel hb]
    rfl

end Merging

section Solving

variable {K : Type} [Add K] [Sub K] [Mul K] [Div K] [Neg K] [Zero K] [One K] [NatCast K] [IntCast K] [Cmp K] {d e : ℕ}
  {R : Pt K d → Pt K e → Prop} (hR : Compatible R)

include hR in
theorem mulT_rel (A : List (List K)) (c : ℕ) {b : List (Pt K d)} {b' : List (Pt K e)} (h : List.Forall₂ R b b') :
    List.Forall₂ R (mulT A c b) (mulT A c b') := by
  rw [mulT, mulT, List.forall₂_map_left_iff, List.forall₂_map_right_iff, List.forall₂_same]
  intro i _
  have : ∀ (A : List (List K)) (b : List (Pt K d)) (b' : List (Pt K e)) (v : Pt K d) (w : Pt K e), R v w →
      List.Forall₂ R b b' → R ((List.zip A b).foldl (fun s (row, b) => s + scale (entry row i) b) v)
        ((List.zip A b').foldl (fun s (row, b) => s + scale (entry row i) b) w) := by
    intro A
    induction A with
    | nil => intro b b' v w hv _; exact hv
    | cons x A ih =>
      intro b b' v w hv h
      cases h with
      | nil => exact hv
      | cons h1 h2 => exact ih _ _ _ _ (hR.add _ _ _ _ hv (hR.scale _ _ _ h1)) h2
  exact this A b b' _ _ hR.zero h

include hR in
/-- `SVD::solve` preserves the relation, whatever decomposition is used -/
theorem Solver.svd_rel (decompose : List (List K) → Svd K) (eps : K) :
    SolverRel R (Solver.svd decompose eps : Solver K d) (Solver.svd decompose eps : Solver K e) := by
  intro A b b' h
  refine mulT_rel hR _ _ ?_
  have := mulT_rel hR (decompose A).u (decompose A).s.length h
  generalize mulT (decompose A).u (decompose A).s.length b = x at this ⊢
  generalize mulT (decompose A).u (decompose A).s.length b' = y at this ⊢
  generalize (decompose A).s = t at this ⊢
  induction t generalizing x y with
  | nil => exact List.Forall₂.nil
  | cons σ t ih =>
    cases this with
    | nil => exact List.Forall₂.nil
    | cons h1 h2 =>
      refine List.Forall₂.cons ?_ (ih _ _ h2)
      by_cases hc : Cmp.lt eps σ = true
      · have e1 : ∀ {m : ℕ} (y : Pt K m), Svd.cut eps σ y = fun r => y r / σ := fun y => by
          funext r; rw [Svd.cut, if_pos hc]
        rw [e1, e1]
        exact hR.divr _ _ _ h1
      · have e1 : ∀ {m : ℕ} (y : Pt K m), Svd.cut eps σ y = fun _ => 0 := fun y => by
          funext r; rw [Svd.cut, if_neg hc]
        rw [e1, e1]
        exact hR.zero

end Solving

section Fits

variable {K : Type} [Add K] [Sub K] [Mul K] [Div K] [Neg K] [Zero K] [One K] [NatCast K] [IntCast K] [Cmp K] [Trunc K]
  [Sqrt K] {d e : ℕ} [Build] {R : Pt K d → Pt K e → Prop} (hR : Compatible R) {s : Solver K d} {s' : Solver K e}

variable (hs : SolverRel R s s') {Q : DataPoints K d} {Q' : DataPoints K e} (hQ : List.Forall₂ R Q Q')

include hQ in
theorem data_segments_rel : Q.segments = Q'.segments := by
  simp only [DataPoints.segments, hQ.length_eq]

include hQ hs in
theorem interpolate_rel (kn : Knots K) (params : Parameters K) :
    XRel (List.Forall₂ R) (interpolate s kn Q params) (interpolate s' kn Q' params) := by
  simp only [interpolate, data_segments_rel hQ]
  exact XRel.same _ fun m => XRel.same _ fun N => svdSolve_rel hs N hQ

include hQ in
theorem inputChecks_rel (kn : Knots K) (params : Parameters K) (pen : Option (Penalization K)) :
    inputChecks kn Q params pen = inputChecks kn Q' params pen := by
  simp only [inputChecks, data_segments_rel hQ]

include hR hQ hs

theorem fit_loose_rel (kn : Knots K) (params : Parameters K) (pen : Option (Penalization K)) :
    XRel (XRel (List.Forall₂ R)) (Loose.fit s kn Q params pen) (Loose.fit s' kn Q' params pen) := by
  simp only [Loose.fit, inputChecks_rel hQ, Loose.coefficientMatrix, data_segments_rel hQ]
  refine XRel.same _ fun r => ?_
  cases r with
  | error x => rfl
  | ok _ =>
    refine XRel.same _ fun N => XRel.same _ fun n => XRel.same _ fun r => ?_
    cases r with
    | error x => rfl
    | ok A => exact (svdSolve_rel hs A (mulT_rel hR N _ hQ)).bind fun _ _ h => h

omit hs in
theorem qvectors_rel (kn : Knots K) (params : Parameters K) :
    XRel (List.Forall₂ R) (Fixed.qvectors kn Q params) (Fixed.qvectors kn Q' params) := by
  simp only [Fixed.qvectors, data_segments_rel hQ]
  refine XRel.same _ fun n => XRel.same _ fun m => XRel.same _ fun m1 => ?_
  refine forRangeIncl_rel (replicate_rel hR.zero _) fun x y g hx => (column_rel hQ g).bind fun q q' hq => ?_
  refine XRel.same _ fun u => XRel.same _ fun N0 => (column_rel hQ 0).bind fun q0 q0' h0 => XRel.same _ fun Nn => ?_
  exact (column_rel hQ m).bind fun qm qm' hm => setIdx_rel hx (hR.sub _ _ _ _ (hR.sub _ _ _ _ hq (hR.scale _ _ _ h0))
    (hR.scale _ _ _ hm)) g

omit hs in
theorem constantTerms_rel (kn : Knots K) (params : Parameters K) {q : List (Pt K d)} {q' : List (Pt K e)}
    (hq : List.Forall₂ R q q') :
    XRel (List.Forall₂ R) (Fixed.constantTerms kn Q params q) (Fixed.constantTerms kn Q' params q') := by
  simp only [Fixed.constantTerms, data_segments_rel hQ]
  refine XRel.same _ fun n => XRel.same _ fun m => XRel.same _ fun n1 => ?_
  refine (forRangeIncl_rel (R := fun (x : Pt K d × List (Pt K d)) (y : Pt K e × List (Pt K e)) =>
    R x.1 y.1 ∧ List.Forall₂ R x.2 y.2) ⟨hR.zero, List.Forall₂.nil⟩
    fun x y i hx => ?_).bind fun x y hx =>
      show List.Forall₂ R x.2 y.2 from hx.2
  refine XRel.same _ fun m1 => (forRangeIncl_rel (R := R) (hR.mulr _ _ _ hx.1) fun v w g hv => ?_).bind fun v w hv =>
    ⟨hv, forall₂_append hx.2 (List.Forall₂.cons hv List.Forall₂.nil)⟩
  exact XRel.same _ fun u => XRel.same _ fun N => (column_rel hq g).bind fun _ _ h =>
    hR.add _ _ _ _ hv (hR.scale _ _ _ h)

theorem fit_fixed_rel (kn : Knots K) (params : Parameters K) (pen : Option (Penalization K)) :
    XRel (XRel (List.Forall₂ R)) (Fixed.fit s kn Q params pen) (Fixed.fit s' kn Q' params pen) := by
  simp only [Fixed.fit, inputChecks_rel hQ, Fixed.coefficientMatrix, data_segments_rel hQ]
  refine XRel.same _ fun r => ?_
  cases r with
  | error x => rfl
  | ok _ =>
    refine (qvectors_rel hR hQ kn params).bind fun q q' hq => (constantTerms_rel hR hQ kn params hq).bind fun c c' hc => ?_
    refine XRel.same _ fun N => XRel.same _ fun n => XRel.same _ fun n1 => XRel.same _ fun r => ?_
    cases r with
    | error x => rfl
    | ok A =>
      refine (svdSolve_rel hs A hc).bind fun X X' hX => XRel.same _ fun m => (column_rel hQ 0).bind fun _ _ h0 => ?_
      refine (setIdx_rel (replicate_rel hR.zero _) h0 _).bind fun P P' hP => (column_rel hQ m).bind fun _ _ hm => ?_
      refine (setIdx_rel hP hm _).bind fun P P' hP => ?_
      refine (forRangeIncl_rel (R := List.Forall₂ R) hP fun P P' i hP => ?_).bind fun _ _ h => h
      exact (column_rel hX _).bind fun _ _ hx => setIdx_rel hP hx i

/-! ### Generation -/

/-- two requests that differ in the points only -/
def GenRel (R : Pt K d → Pt K e → Prop) : Generation K d → Generation K e → Prop
  | .manual p P g, .manual p' P' g' => p = p' ∧ CpRel R P P' ∧ g = g'
  | .interpolation p Q, .interpolation p' Q' => p = p' ∧ List.Forall₂ R Q Q'
  | .leastSquaresFit p Q n m pen, .leastSquaresFit p' Q' n' m' pen' =>
    p = p' ∧ List.Forall₂ R Q Q' ∧ n = n' ∧ m = m' ∧ pen = pen'
  | _, _ => False

variable (hn : ∀ v w, R v w → norm v = norm w)

omit hs

include hn

theorem chord_rel {α : Type} (f : K → K) (g : ℕ) (k : K → Exec α) :
    (chord Q g >>= fun v => k (f (norm v))) = chord Q' g >>= fun v => k (f (norm v)) := by
  have h : XRel R (chord Q g) (chord Q' g) := (column_rel hQ g).bind fun _ _ h1 => (column_rel hQ (g - 1)).bind
    fun _ _ h2 => hR.sub _ _ _ _ h1 h2
  revert h
  cases chord Q g <;> cases chord Q' g <;> intro h
  · exact congrArg Except.error h
  · exact h.elim
  · exact h.elim
  · exact congrArg (fun x => k (f x)) (hn _ _ h)

theorem chordSum_rel (f : K → K) (m : ℕ) :
    chordSum (fun v => f (norm v)) Q m = chordSum (fun v => f (norm v)) Q' m := by
  rw [chordSum, chordSum]
  congr 1
  funext sum g
  exact chord_rel hR hQ hn f g fun x => pure (sum + x)

theorem cumulate_rel (f : K → K) (m : ℕ) (sum : K) :
    cumulate (fun v => f (norm v)) Q m sum = cumulate (fun v => f (norm v)) Q' m sum := by
  rw [cumulate, cumulate]
  congr 2
  funext u g
  exact chord_rel hR hQ hn f g fun x => idx u (g - 1) >>= fun prev => setIdx u g (prev + x / sum)

theorem generateParams_rel (pm : ParamMethod) : generateParams Q pm = generateParams Q' pm := by
  cases pm with
  | equallySpaced => simp only [generateParams, data_segments_rel hQ]
  | chordLength =>
    simp only [generateParams, chordLength, data_segments_rel hQ]
    congr 1; funext m
    rw [show chordSum norm Q m = chordSum norm Q' m from chordSum_rel hR hQ hn id m]
    congr 1; funext sum
    rw [show cumulate norm Q m sum = cumulate norm Q' m sum from cumulate_rel hR hQ hn id m sum]
  | centripetal =>
    simp only [generateParams, centripetal, data_segments_rel hQ]
    congr 1; funext m
    rw [chordSum_rel hR hQ hn Sqrt.sqrt m]
    congr 1; funext sum
    rw [cumulate_rel hR hQ hn Sqrt.sqrt m sum]

theorem generateManualKnots_rel (p n : ℕ) (g : KnotGeneration K) :
    generateManualKnots p n Q g = generateManualKnots p n Q' g := by
  cases g with
  | uniform => rfl
  | manual _ => rfl
  | method pm km => rw [generateManualKnots, generateManualKnots, generateParams_rel hR hQ hn]

omit hQ
include hs

theorem generate_rel {g : Generation K d} {g' : Generation K e} (h : GenRel R g g') :
    XRel (XRel (CurveRel R)) (generate s g) (generate s' g') := by
  cases g <;> cases g' <;> try exact h.elim
  · rename_i p P g p' P' g'
    obtain ⟨rfl, hP, rfl⟩ : p = p' ∧ CpRel R P P' ∧ g = g' := h
    simp only [generate, hP.segments]
    refine XRel.same _ fun n => ?_
    split_ifs
    · rfl
    refine hP.matrix.bind fun Q Q' hQ => ?_
    rw [generateManualKnots_rel hR hQ hn]
    refine XRel.same _ fun kn => ?_
    cases kn with
    | error _ => rfl
    | ok kn => exact new_rel hR kn hP
  · rename_i p Q p' Q'
    obtain ⟨rfl, hQ⟩ : p = p' ∧ List.Forall₂ R Q Q' := h
    simp only [generate, data_segments_rel hQ, generateParams_rel hR hQ hn]
    refine XRel.same _ fun params => XRel.same _ fun n => XRel.same _ fun kn => ?_
    cases kn with
    | error _ => rfl
    | ok kn => exact (interpolate_rel hs hQ kn params).bind fun P P' hP =>
        new_rel hR kn ⟨rfl, List.Forall₂.cons hP List.Forall₂.nil⟩
  · rename_i p Q n m pen p' Q' n' m' pen'
    obtain ⟨rfl, hQ, rfl, rfl, rfl⟩ : p = p' ∧ List.Forall₂ R Q Q' ∧ n = n' ∧ m = m' ∧ pen = pen' := h
    simp only [generate, generateParams_rel hR hQ hn]
    refine XRel.same _ fun params => XRel.same _ fun kn => ?_
    cases kn with
    | error _ => rfl
    | ok kn =>
      have hk : ∀ r : Except (FitError K) (List (Pt K d)), ∀ r', XRel (List.Forall₂ R) r r' →
          XRel (XRel (CurveRel R)) (match r with
            | .error err => pure (.error (.fitError err))
            | .ok P => Curve.new kn (ControlPoints.new P)) (match r' with
            | .error err => pure (.error (.fitError err))
            | .ok P => Curve.new kn (ControlPoints.new P)) := by
        rintro (r | r) (r' | r') hr
        · obtain rfl : r = r' := hr
          rfl
        · exact hr.elim
        · exact hr.elim
        · exact new_rel hR kn ⟨rfl, List.Forall₂.cons hr List.Forall₂.nil⟩
      cases m
      · exact (fit_fixed_rel hR hs hQ kn params pen).bind hk
      · exact (fit_loose_rel hR hs hQ kn params pen).bind hk

end Fits

end BSpline.Pw
