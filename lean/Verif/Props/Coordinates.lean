import Verif.Model.Access
import Verif.Model.Generate
import Verif.Refine.Reverse

/-!
# Coordinates do not influence each other (C132)

Selecting, permuting or repeating coordinates of all points commutes with every operation on curves, in any
arithmetic, for curves in any state, and including the panics. Nothing is assumed about the scalars.
-/

set_option linter.unusedSectionVars false

namespace BSpline

variable {K : Type} [Add K] [Sub K] [Mul K] [Div K] [Neg K] [Zero K] [One K] [NatCast K] [Cmp K] {d e : ℕ} [Build]

/-- the point with the coordinates `σ 0, σ 1, …` of `v` -/
def sel (σ : Fin e → Fin d) (v : Pt K d) : Pt K e := fun r => v (σ r)

/-- the same coordinates of all control points, those of the cached derivatives included -/
def ControlPoints.sel (σ : Fin e → Fin d) (cp : ControlPoints K d) : ControlPoints K e :=
  { Pk := cp.Pk.map (List.map (BSpline.sel σ)), kMax := cp.kMax }

/-- the curve with the coordinates `σ 0, σ 1, …` -/
def Curve.sel (σ : Fin e → Fin d) (c : Curve K d) : Curve K e := { knots := c.knots, points := c.points.sel σ }

section Lists

variable {α β : Type} (f : α → β)

theorem column_map (m : List α) (i : ℕ) : column (m.map f) i = f <$> column m i := by
  rw [column, column, List.getElem?_map]
  cases m[i]? <;> rfl

theorem idx_map (m : List α) (i : ℕ) : idx (m.map f) i = f <$> idx m i := by
  rw [idx, idx, List.getElem?_map]
  cases m[i]? <;> rfl

theorem segment_map (m : List α) (i n : ℕ) : segment (m.map f) i n = List.map f <$> segment m i n := by
  rw [segment, segment, List.length_map, ← List.map_drop, ← List.map_take]
  split <;> rfl

theorem setSegment_map (m : List α) (i : ℕ) (s : List α) :
    setSegment (m.map f) i (s.map f) = List.map f <$> setSegment m i s := by
  rw [setSegment, setSegment, List.length_map, List.length_map, ← List.map_drop, ← List.map_take, ← List.map_append,
    ← List.map_append]
  split <;> rfl

theorem setIdx_map (m : List α) (i : ℕ) (x : α) : setIdx (m.map f) i (f x) = List.map f <$> setIdx m i x := by
  rw [setIdx, setIdx, List.length_map, ← List.map_set]
  split <;> rfl

theorem foldlM_map {ι : Type} {g : α → ι → Exec α} {g' : β → ι → Exec β} : ∀ (l : List ι) (s : α),
    (∀ s, ∀ i ∈ l, g' (f s) i = f <$> g s i) → l.foldlM g' (f s) = f <$> l.foldlM g s
  | [], s, _ => rfl
  | i :: l, s, h => by
    rw [List.foldlM_cons, List.foldlM_cons, h s i (by simp), bind_map_left, map_bind]
    congr 1
    funext t
    exact foldlM_map l t fun s j hj => h s j (by simp [hj])

theorem forRangeIncl_map {g : α → ℕ → Exec α} {g' : β → ℕ → Exec β} {lo hi : ℕ} {s : α}
    (h : ∀ s i, g' (f s) i = f <$> g s i) : forRangeIncl lo hi (f s) g' = f <$> forRangeIncl lo hi s g :=
  foldlM_map f _ _ fun s i _ => h s i

theorem mapM_map {ι : Type} {g : ι → Exec α} {g' : ι → Exec β} (h : ∀ i, g' i = f <$> g i) : ∀ l : List ι,
    l.mapM g' = List.map f <$> l.mapM g
  | [] => rfl
  | i :: l => by
    rw [List.mapM_cons, List.mapM_cons, h i, bind_map_left, map_bind, mapM_map h l]
    congr 1
    funext t
    rw [bind_map_left, map_bind]
    rfl

theorem tabulateIncl_map {g : ℕ → Exec α} {g' : ℕ → Exec β} {lo hi : ℕ} (h : ∀ i, g' i = f <$> g i) :
    tabulateIncl lo hi g' = List.map f <$> tabulateIncl lo hi g := mapM_map f h _

end Lists


theorem reverseCols_map {α β : Type} (f : α → β) (m : List α) : reverseCols (m.map f) = (reverseCols m).map f := by
  rw [reverseCols, reverseCols, swapLoop_eq, swapLoop_eq, List.map_reverse]

variable (σ : Fin e → Fin d)

theorem zeroCols_sel (n : ℕ) : (zeroCols e n : List (Pt K e)) = (zeroCols d n).map (sel σ) := by
  rw [zeroCols, zeroCols, List.map_replicate]
  rfl

namespace ControlPoints

variable (cp : ControlPoints K d) (kn : Knots K)

theorem sel_new (m : List (Pt K d)) : ControlPoints.new (m.map (BSpline.sel σ)) = (ControlPoints.new m).sel σ := rfl

theorem sel_matrix : (cp.sel σ).matrix = List.map (BSpline.sel σ) <$> cp.matrix := idx_map _ _ _

theorem sel_countDerivative (k : ℕ) : (cp.sel σ).countDerivative k = cp.countDerivative k := by
  simp only [countDerivative, sel, idx_map, bind_map_left, List.length_map]

theorem sel_count : (cp.sel σ).count = cp.count := sel_countDerivative σ cp 0

theorem sel_segments : (cp.sel σ).segments = cp.segments := by
  simp only [segments, sel_count]

theorem sel_matrixDerivative (k : ℕ) :
    (cp.sel σ).matrixDerivative k = List.map (BSpline.sel σ) <$> cp.matrixDerivative k := by
  simp only [matrixDerivative, sel, idx_map]
  split <;> rfl

theorem sel_deriveSinglePoint (k : ℕ) : ∀ i,
    (cp.sel σ).deriveSinglePoint kn k i = BSpline.sel σ <$> cp.deriveSinglePoint kn k i := by
  induction k with
  | zero =>
    intro i
    simp only [deriveSinglePoint, sel, idx_map, bind_map_left, column_map, map_bind]
  | succ k ih =>
    intro i
    simp only [deriveSinglePoint, ih, bind_map_left, map_bind]
    congr 1; funext U0
    congr 1; funext a
    congr 1; funext b
    split
    · rfl
    · simp only [map_bind]
      rfl

theorem sel_derive : (cp.sel σ).derive kn = ControlPoints.sel σ <$> cp.derive kn := by
  simp only [derive, sel_segments, map_bind]
  congr 1; funext n
  have e : (cp.sel σ).Pk.take 1 = (cp.Pk.take 1).map (List.map (BSpline.sel σ)) := List.map_take.symm
  rw [e, forRangeIncl_map (List.map (List.map (BSpline.sel σ))) (g := fun Pk k => do
    let nk ← usub n k
    let Pnew ← (List.range (nk + 1)).mapM (fun i => deriveSinglePoint { Pk := Pk, kMax := cp.kMax } kn k i)
    pure (Pk ++ [Pnew])), bind_map_left]
  · rfl
  · intro Pk k
    simp only [map_bind]
    congr 1; funext nk
    have e : (List.range (nk + 1)).mapM (fun i => deriveSinglePoint
        { Pk := Pk.map (List.map (BSpline.sel σ)), kMax := (cp.sel σ).kMax } kn k i) = List.map (BSpline.sel σ) <$>
        (List.range (nk + 1)).mapM (fun i => deriveSinglePoint { Pk := Pk, kMax := cp.kMax } kn k i) :=
      mapM_map _ (fun i => sel_deriveSinglePoint σ { Pk := Pk, kMax := cp.kMax } kn k i) _
    rw [e, bind_map_left]
    congr 1; funext Pnew
    simp

theorem sel_reverse : (cp.sel σ).reverse = ControlPoints.sel σ <$> cp.reverse := by
  simp only [reverse]
  refine forRangeIncl_map (ControlPoints.sel σ) fun cp k => ?_
  simp only [sel_matrixDerivative, bind_map_left, map_bind]
  congr 1; funext m
  have e : (if k % 2 = 1 then (reverseCols (m.map (BSpline.sel σ))).map (fun v => fun r => v r * -1)
      else reverseCols (m.map (BSpline.sel σ))) =
      (if k % 2 = 1 then (reverseCols m).map (fun v => fun r => v r * -1) else reverseCols m).map (BSpline.sel σ) := by
    rw [reverseCols_map]
    split
    · rw [List.map_map, List.map_map]; rfl
    · rfl
  rw [e]
  change (setIdx (cp.Pk.map (List.map (BSpline.sel σ))) k _ >>= _) = _
  rw [setIdx_map (List.map (BSpline.sel σ)), bind_map_left]
  rfl

end ControlPoints

namespace Curve

variable (c : Curve K d) (u : K)

theorem sel_degree : (c.sel σ).degree = c.degree := rfl

theorem sel_segments : (c.sel σ).segments = c.segments := ControlPoints.sel_segments σ c.points

theorem sel_calculateDerivatives : (c.sel σ).calculateDerivatives = Curve.sel σ <$> c.calculateDerivatives := by
  simp only [calculateDerivatives, map_bind]
  congr 1; funext kn
  change ((c.points.sel σ).derive kn >>= _) = _
  rw [ControlPoints.sel_derive, bind_map_left]
  rfl

theorem sel_new (kn : Knots K) (pts : ControlPoints K d) :
    Curve.new kn (pts.sel σ) = Except.map (Curve.sel σ) <$> Curve.new kn pts := by
  simp only [Curve.new, ControlPoints.sel_segments, map_bind]
  congr 1; funext n
  split
  · rfl
  · change ((Curve.sel σ ⟨kn, pts⟩).calculateDerivatives >>= _) = _
    rw [sel_calculateDerivatives, bind_map_left, map_bind]
    rfl

end Curve

/-- **C132** The coordinates of a value or derivative depend on nothing but the same coordinates of the control
points. -/
theorem C132_evaluate (c : Curve K d) (u : K) (k : ℕ) :
    (c.sel σ).evaluateDerivative u k = Except.map (sel σ) <$> c.evaluateDerivative u k := by
  simp only [Curve.evaluateDerivative, Curve.sel_degree, Curve.sel_segments]
  split
  · rfl
  split
  · simp only [map_bind]
    congr 1; funext n
    change (c.knots.findIdx u k .leftOrEqual >>= _) = _
    congr 1; funext l
    congr 1; funext pk
    congr 1; funext lo
    congr 1; funext hi
    change (forRangeIncl lo hi (sel σ fun _ => 0) _ >>= _) = _
    rw [forRangeIncl_map (sel σ) (g := fun value i => do
      let N ← c.knots.evaluate k i c.degree u
      let m ← c.points.matrixDerivative k
      let col ← column m i
      pure (value + scale N col)), bind_map_left]
    · rfl
    · intro s i
      simp only [map_bind]
      change (c.knots.evaluate k i c.degree u >>= _) = _
      congr 1; funext N
      change ((c.points.sel σ).matrixDerivative k >>= _) = _
      rw [ControlPoints.sel_matrixDerivative, bind_map_left]
      congr 1; funext m
      rw [column_map, bind_map_left]
      rfl
  · rfl

/-- **C132** reversing -/
theorem C132_reverse (c : Curve K d) : (c.sel σ).reverse = Curve.sel σ <$> c.reverse := by
  simp only [Curve.reverse, map_bind]
  change ((c.points.sel σ).reverse >>= _) = _
  rw [ControlPoints.sel_reverse, bind_map_left]
  rfl

/-- **C132** the curve of a derivative -/
theorem C132_derivative_curve (c : Curve K d) (k : ℕ) :
    (c.sel σ).getDerivativeCurve k = Curve.sel σ <$> c.getDerivativeCurve k := by
  simp only [Curve.getDerivativeCurve, Curve.sel_degree, map_bind]
  congr 1; funext q
  change (c.knots.vectorDerivative k >>= _) = _
  congr 1; funext U
  congr 1; funext kn
  change ((c.points.sel σ).matrixDerivative k >>= _) = _
  rw [ControlPoints.sel_matrixDerivative, bind_map_left]
  rfl

theorem insertLoop_sel (u : K) (U : List K) (P : List (Pt K d)) (p lo hi : ℕ) (Q : List (Pt K d)) :
    insertLoop u U (P.map (sel σ)) p lo hi (Q.map (sel σ)) = List.map (sel σ) <$> insertLoop u U P p lo hi Q := by
  rw [insertLoop, insertLoop]
  refine forRangeIncl_map (List.map (sel σ)) fun Q i => ?_
  simp only [column_map, addCol, bind_map_left, map_bind, map_pure, List.map_set]
  rfl

/-- the state and the result of a call -/
def selFst {α : Type} (σ : Fin e → Fin d) (x : Curve K d × α) : Curve K e × α := (x.1.sel σ, x.2)

theorem C132_insert (c : Curve K d) (u : K) : BSpline.insert (c.sel σ) u = selFst σ <$> BSpline.insert c u := by
  simp only [BSpline.insert]
  split
  · rfl
  simp only [map_bind]
  change (c.knots.multiplicity u >>= _) = _
  congr 1; funext m
  by_cases hm : c.degree < m
  · rw [if_pos (show (c.sel σ).degree < m from hm), if_pos hm]; rfl
  rw [if_neg (show ¬ (c.sel σ).degree < m from hm), if_neg hm]
  simp only [map_bind]
  change (c.knots.vector >>= _) = _
  congr 1; funext U
  change ((c.points.sel σ).matrix >>= _) = _
  rw [ControlPoints.sel_matrix, bind_map_left]
  congr 1; funext P
  change (c.knots.findIdx u 0 .leftOrEqual >>= _) = _
  congr 1; funext l
  congr 1; funext Unew
  change ((c.points.sel σ).count >>= _) = _
  rw [ControlPoints.sel_count]
  congr 1; funext count
  congr 1; funext lp
  rw [segment_map, bind_map_left]
  congr 1; funext top
  rw [zeroCols_sel σ, setSegment_map, bind_map_left]
  congr 1; funext P1
  congr 1; funext bc
  rw [List.length_map]
  congr 1; funext s1
  rw [List.length_map]
  congr 1; funext s0
  rw [segment_map, bind_map_left]
  congr 1; funext bot
  rw [setSegment_map, bind_map_left]
  congr 1; funext P2
  rw [insertLoop_sel, bind_map_left]
  congr 1; funext P3
  change (setIdx c.knots.Uk 0 Unew >>= _) = _
  congr 1; funext Uk
  change (setIdx (c.points.Pk.map (List.map (sel σ))) 0 _ >>= _) = _
  rw [setIdx_map (List.map (sel σ)), bind_map_left]
  congr 1; funext Pk
  change ((Curve.sel σ ⟨{ c.knots with Uk := Uk }, { c.points with Pk := Pk }⟩).calculateDerivatives >>= _) = _
  rw [Curve.sel_calculateDerivatives, bind_map_left]
  rfl

/-- **C132** inserting a knot any number of times -/
theorem C132_insert_times (u : K) (x : ℕ) : ∀ c : Curve K d,
    (c.sel σ).insertTimes u x = selFst σ <$> c.insertTimes u x := by
  induction x with
  | zero => intro c; rfl
  | succ x ih =>
    intro c
    simp only [Curve.insertTimes, C132_insert, bind_map_left, map_bind]
    congr 1; funext y
    rcases y with ⟨c', r⟩
    cases r with
    | error e => rfl
    | ok _ => exact ih c'

theorem insertUnwrapTimes_sel (u : K) (x : ℕ) : ∀ c : Curve K d,
    insertUnwrapTimes (c.sel σ) u x = Curve.sel σ <$> insertUnwrapTimes c u x := by
  induction x with
  | zero => intro c; rfl
  | succ x ih =>
    intro c
    simp only [insertUnwrapTimes, C132_insert, bind_map_left, map_bind]
    congr 1; funext y
    rcases y with ⟨c', r⟩
    cases r with
    | error e => rfl
    | ok _ => exact ih c'

/-- **C132** building a curve -/
theorem C132_new (p : ℕ) (U : List K) (P : List (Pt K d)) :
    mkCurve p U (P.map (sel σ)) = Except.map (Curve.sel σ) <$> mkCurve p U P := by
  simp only [mkCurve, ControlPoints.sel_new, Curve.sel_new, map_bind]

theorem splitLeft_sel (p : ℕ) (U : List K) (P : List (Pt K d)) (u : K) (len : ℕ) (b norm : Bool) :
    splitLeft p U (P.map (sel σ)) u len b norm = Except.map (Curve.sel σ) <$> splitLeft p U P u len b norm := by
  simp only [splitLeft, segment_map, bind_map_left, C132_new, map_bind]
  congr 1; funext src
  congr 1; funext U1
  congr 1; funext U2
  cases b <;> simp only [Bool.false_eq_true, if_false, if_true, pure_bind, map_bind]

theorem splitRight_sel (p : ℕ) (U : List K) (P : List (Pt K d)) (u : K) (len : ℕ) (b norm : Bool) :
    splitRight p U (P.map (sel σ)) u len b norm = Except.map (Curve.sel σ) <$> splitRight p U P u len b norm := by
  cases b <;> simp only [splitRight, segment_map, bind_map_left, C132_new, map_bind, List.length_map,
    Bool.false_eq_true, if_false, if_true, pure_bind]

/-- **C132** splitting, with any flags -/
theorem C132_split (c : Curve K d) (u : K) (norm : Bool × Bool) :
    splitAndNormalize (c.sel σ) u norm =
      Except.map (Prod.map (Curve.sel σ) (Curve.sel σ)) <$> splitAndNormalize c u norm := by
  simp only [splitAndNormalize]
  split
  · rfl
  simp only [map_bind]
  change (c.knots.findIdx u 0 .leftOrEqual >>= _) = _
  congr 1; funext l
  change (c.knots.vector >>= _) = _
  congr 1; funext U0
  by_cases hm : c.degree < ((U0.drop l).takeWhile (fun x => Cmp.eq x u)).length
  · rw [if_pos (show (c.sel σ).degree < _ from hm), if_pos hm]; rfl
  rw [if_neg (show ¬ (c.sel σ).degree < _ from hm), if_neg hm]
  simp only [map_bind, insertUnwrapTimes_sel, bind_map_left]
  congr 1; funext times
  congr 1; funext b
  change (b.knots.vector >>= _) = _
  congr 1; funext U
  change ((b.points.sel σ).matrix >>= _) = _
  rw [ControlPoints.sel_matrix, bind_map_left]
  congr 1; funext P
  simp only [splitLeft_sel, splitRight_sel, bind_map_left]
  congr 1; funext left
  cases left with
  | error e => rfl
  | ok left =>
    simp only [Except.map, map_bind]
    congr 1; funext right
    cases right <;> rfl

/-! ### Merging -/

/-- the solvers treat the selected coordinates alike; nalgebra solves for each column of the right-hand side -/
def Coordinatewise (σ : Fin e → Fin d) (s : Solver K d) (s' : Solver K e) : Prop :=
  ∀ A b, s'.run A (b.map (sel σ)) = (s.run A b).map (sel σ)

variable {s : Solver K d} {s' : Solver K e}

theorem svdSolve_sel (hs : Coordinatewise σ s s') (A : List (List K)) (b : List (Pt K d)) :
    svdSolve s' A (b.map (sel σ)) = List.map (sel σ) <$> svdSolve s A b := by
  rw [svdSolve, svdSolve, List.length_map, hs]
  split
  · rfl
  split <;> rfl

/-- the same coordinates of a curve with constraints -/
def ConstrainedCurve.sel (σ : Fin e → Fin d) (a : ConstrainedCurve K d) : ConstrainedCurve K e :=
  ⟨a.curve.sel σ, a.constraints⟩

section Blocks

variable (a b : ConstrainedCurve K d) (c ca cb : Curve K d)

theorem sumLeft_sel (k i : ℕ) : sumLeft (c.sel σ) k i = sumLeft c k i := by
  simp only [sumLeft, Curve.sel_segments]
  change (c.segments >>= fun m => ((c.points.sel σ).matrix >>= _)) = _
  simp only [ControlPoints.sel_matrix, bind_map_left, List.length_map]
  rfl

theorem sumRight_sel (k i : ℕ) : sumRight (c.sel σ) k i = sumRight c k i := by
  simp only [sumRight, Curve.sel_segments]
  change (c.segments >>= fun m => ((c.points.sel σ).matrix >>= _)) = _
  simp only [ControlPoints.sel_matrix, bind_map_left, List.length_map]
  rfl

theorem constructNmat_sel : constructNmat (a.sel σ) (b.sel σ) = constructNmat a b := by
  have e1 : calculateKV (a.curve.sel σ) = calculateKV a.curve := by
    simp only [calculateKV, Curve.sel_segments, sumLeft_sel]; rfl
  have e2 : calculateKW (b.curve.sel σ) = calculateKW b.curve := by
    simp only [calculateKW, sumRight_sel]; rfl
  have e3 : calculateIV (a.curve.sel σ) = calculateIV a.curve := by
    simp only [calculateIV, Curve.sel_segments, sumLeft_sel]; rfl
  have e4 : calculateJW (b.curve.sel σ) = calculateJW b.curve := by
    simp only [calculateJW, sumRight_sel]; rfl
  have e5 : calculateGV (a.sel σ) = calculateGV a := by
    simp only [calculateGV, ConstrainedCurve.sel, Curve.sel_segments]; rfl
  have e6 : calculateIpV (a.sel σ) = calculateIpV a := by
    simp only [calculateIpV, ConstrainedCurve.sel, Curve.sel_segments]; rfl
  have e7 : calculateHW (b.sel σ) = calculateHW b := by
    simp only [calculateHW, ConstrainedCurve.sel, Curve.sel_segments]; rfl
  have e8 : calculateJppW (b.sel σ) = calculateJppW b := by
    simp only [calculateJppW, ConstrainedCurve.sel, Curve.sel_segments]; rfl
  simp only [constructNmat, e5, e6, e7, e8]
  change (calculateKV (a.curve.sel σ) >>= fun KV => calculateKW (b.curve.sel σ) >>= fun KW =>
    calculateIV (a.curve.sel σ) >>= fun IV => calculateJW (b.curve.sel σ) >>= _) = _
  simp only [e1, e2, e3, e4]
  rfl

theorem calculateKconst_sel : calculateKconst (ca.sel σ) (cb.sel σ) = List.map (sel σ) <$> calculateKconst ca cb := by
  simp only [calculateKconst, Curve.sel_segments, map_bind]
  congr 1; funext m
  congr 1; funext o
  change ((ca.points.sel σ).matrix >>= fun S => (cb.points.sel σ).matrix >>= _) = _
  simp only [ControlPoints.sel_matrix, bind_map_left, List.length_map]
  congr 1; funext S
  congr 1; funext T
  change (usub ca.degree 1 >>= _) = _
  congr 1; funext hi
  refine tabulateIncl_map (sel σ) fun k => ?_
  simp only [map_bind]
  change (idx ca.knots.Uk 0 >>= _) = _
  congr 1; funext V0
  change (idx cb.knots.Uk 0 >>= _) = _
  congr 1; funext W0
  change (usub m ca.degree >>= _) = _
  congr 1; funext mp
  change (forRangeIncl mp m (sel σ fun _ => 0) _ >>= _) = _
  rw [forRangeIncl_map (sel σ) (g := fun sum i => do
      let mk ← usub m k
      forRangeIncl mp mk sum (fun sum a => do
        let f ← prefactor ca.degree i S.length V0 k a
        let Vk ← idx ca.knots.Uk k
        let pk ← usub ca.degree k
        let e ← idx V0 (m + 1)
        let N ← basis Vk 0 mk e pk a
        let col ← column S i
        pure (sum + scale (f * N) col))), bind_map_left]
  · congr 1; funext sum
    change (forRangeIncl 0 ca.degree (sel σ sum) _ >>= _) = _
    rw [forRangeIncl_map (sel σ) (g := fun sum j => do
      let pk ← usub ca.degree k
      forRangeIncl 0 pk sum (fun sum b => do
        let f ← prefactor ca.degree j T.length W0 k b
        let Wk ← idx cb.knots.Uk k
        let ok ← usub o k
        let e ← idx W0 ca.degree
        let N ← basis Wk 0 ok e pk b
        let col ← column T j
        pure (sum - scale (f * N) col))), bind_map_left]
    · rfl
    · intro sum j
      simp only [map_bind]
      change (usub ca.degree k >>= _) = _
      congr 1; funext pk
      refine forRangeIncl_map (sel σ) fun sum b => ?_
      simp only [column_map, bind_map_left, map_bind]
      rfl
  · intro sum i
    simp only [map_bind]
    congr 1; funext mk
    refine forRangeIncl_map (sel σ) fun sum b => ?_
    simp only [column_map, bind_map_left, map_bind]
    rfl

theorem constructConstMat_sel (t : ℕ) :
    constructConstMat (ca.sel σ) (cb.sel σ) t = List.map (sel σ) <$> constructConstMat ca cb t := by
  simp only [constructConstMat, calculateKconst_sel, bind_map_left, map_bind]
  congr 1; funext Kc
  rw [zeroCols_sel σ, setSegment_map]
  rfl

theorem addSegment_sel (m : List (Pt K d)) (i : ℕ) (src : List (Pt K d)) :
    addSegment (m.map (sel σ)) i (src.map (sel σ)) = List.map (sel σ) <$> addSegment m i src := by
  simp only [addSegment, List.length_map, segment_map, bind_map_left, map_bind]
  congr 1; funext old
  rw [← setSegment_map, List.zipWith_map, List.map_zipWith]
  rfl

theorem generateShifted_sel (sh : List (Pt K d)) : generateShifted (ca.sel σ) (cb.sel σ) (sh.map (sel σ)) =
    Prod.map (List.map (sel σ)) (List.map (sel σ)) <$> generateShifted ca cb sh := by
  simp only [generateShifted, map_bind]
  change ((ca.points.sel σ).matrix >>= fun S => (cb.points.sel σ).matrix >>= _) = _
  simp only [ControlPoints.sel_matrix, bind_map_left, List.length_map, segment_map, addSegment_sel]
  rfl

theorem adjustKnotsOfBoth_sel : adjustKnotsOfBoth (ca.sel σ) (cb.sel σ) = adjustKnotsOfBoth ca cb := by
  simp only [adjustKnotsOfBoth, Curve.sel_segments]
  rfl

theorem createMergedKnotVector_sel (V W : List K) :
    createMergedKnotVector (ca.sel σ) (cb.sel σ) V W = createMergedKnotVector ca cb V W := by
  simp only [createMergedKnotVector, Curve.sel_segments]

theorem generateDerivativeControlPoint_sel (i k : ℕ) (P : List (Pt K d)) (U : List K) (p n : ℕ) :
    generateDerivativeControlPoint i k (P.map (sel σ)) U p n = sel σ <$> generateDerivativeControlPoint i k P U p n := by
  simp only [generateDerivativeControlPoint, map_bind, List.length_map]
  congr 1; funext nk
  split
  · change forRangeIncl 0 n (sel σ fun _ => 0) _ = _
    refine forRangeIncl_map (sel σ) fun acc z => ?_
    simp only [column_map, bind_map_left, map_bind]
    rfl
  · rfl

theorem adjustRow_sel (U : List K) (p n i : ℕ) (prev row : List (Pt K d)) :
    adjustRow U p n i (prev.map (sel σ)) (row.map (sel σ)) = List.map (sel σ) <$> adjustRow U p n i prev row := by
  simp only [adjustRow, map_bind]
  congr 1; funext ni
  refine foldlM_map (List.map (sel σ)) _ _ fun row k _ => ?_
  simp only [idx_map, bind_map_left, map_bind, ← setIdx_map]
  rfl

theorem vecResize_sel (v : List (Pt K d)) (n : ℕ) (x : Pt K d) :
    vecResize (v.map (sel σ)) n (sel σ x) = (vecResize v n x).map (sel σ) := by
  rw [vecResize, vecResize, List.map_append, List.map_take, List.map_replicate, List.length_map]

theorem adjustShifted_sel (P : List (Pt K d)) (U W : List K) (p n : ℕ) :
    adjustShifted (P.map (sel σ)) U W p n = List.map (sel σ) <$> adjustShifted P U W p n := by
  simp only [adjustShifted]
  rw [mapM_map (List.map (sel σ)) (g := fun i => do
    let c ← column P i
    pure [c]) (fun i => by simp only [column_map, bind_map_left, map_bind]; rfl), bind_map_left, map_bind]
  congr 1; funext q
  simp only [map_bind]
  congr 1; funext hi
  rw [forRangeIncl_map (List.map (List.map (sel σ))) (g := fun qki k => do
    let j ← usub n p
    let dp ← generateDerivativeControlPoint (j + 1) k P U p n
    let row ← idx qki (j + 1)
    setIdx qki (j + 1) (row ++ [dp])), bind_map_left]
  · congr 1; funext q
    congr 1; funext j
    rw [forRangeIncl_map (List.map (List.map (sel σ))) (g := fun qki i => do
      let row ← idx qki i
      let ni ← usub n i
      let row := vecResize row (ni + 1) (fun _ => 0)
      let prev ← idx qki (i - 1)
      let row ← adjustRow W p n i prev row
      setIdx qki i row), bind_map_left]
    · congr 1; funext q
      refine mapM_map (sel σ) (fun i => ?_) _
      simp only [idx_map, bind_map_left, map_bind]
    · intro q i
      simp only [idx_map, bind_map_left, map_bind]
      congr 1; funext row
      congr 1; funext ni
      congr 1; funext prev
      change (adjustRow W p n i _ (vecResize _ _ (sel σ fun _ => 0)) >>= _) = _
      rw [vecResize_sel, adjustRow_sel, bind_map_left]
      congr 1; funext row
      exact setIdx_map (List.map (sel σ)) _ _ _
  · intro q k
    simp only [idx_map, bind_map_left, map_bind, generateDerivativeControlPoint_sel]
    congr 1; funext j
    congr 1; funext dp
    congr 1; funext row
    rw [← setIdx_map (List.map (sel σ)), List.map_append]
    rfl

theorem adjustShiftedOfBoth_sel (S T : List (Pt K d)) (V W W' : List K) :
    adjustShiftedOfBoth (ca.sel σ) (S.map (sel σ)) (T.map (sel σ)) V W W' =
      Prod.map (List.map (sel σ)) (List.map (sel σ)) <$> adjustShiftedOfBoth ca S T V W W' := by
  simp only [adjustShiftedOfBoth, Curve.sel_segments, adjustShifted_sel, reverseCols_map, bind_map_left, map_bind]
  rfl

theorem generateMergedPoints_sel (S T : List (Pt K d)) :
    generateMergedPoints (ca.sel σ) (cb.sel σ) (S.map (sel σ)) (T.map (sel σ)) =
      List.map (sel σ) <$> generateMergedPoints ca cb S T := by
  simp only [generateMergedPoints, map_bind, List.length_map]
  change ((ca.points.sel σ).count >>= fun n1 => (cb.points.sel σ).count >>= _) = _
  simp only [ControlPoints.sel_count]
  congr 1; funext n1
  congr 1; funext n2
  congr 1; funext len
  split
  · rw [zeroCols_sel σ, setSegment_map, bind_map_left, map_bind]
    congr 1; funext P
    simp only [map_bind, List.length_map, segment_map, bind_map_left, setSegment_map]
    rfl
  · rfl

end Blocks

theorem mergeBody_sel (hs : Coordinatewise σ s s') (a b : ConstrainedCurve K d) :
    mergeBody s' (a.sel σ) (b.sel σ) = Except.map (Curve.sel σ) <$> mergeBody s a b := by
  simp only [mergeBody, solveLinearEquationSystem, constructNmat_sel, bind_assoc, map_bind]
  congr 1; funext N
  change (constructConstMat (a.curve.sel σ) (b.curve.sel σ) (a.constraints.count + b.constraints.count) >>= _) = _
  rw [constructConstMat_sel, bind_map_left]
  congr 1; funext c
  rw [svdSolve_sel σ hs, bind_map_left]
  congr 1; funext sh
  change (generateShifted (a.curve.sel σ) (b.curve.sel σ) _ >>= fun ST =>
    adjustKnotsOfBoth (a.curve.sel σ) (b.curve.sel σ) >>= fun VW =>
    createMergedKnotVector (a.curve.sel σ) (b.curve.sel σ) _ _ >>= fun U =>
    adjustShiftedOfBoth (a.curve.sel σ) _ _ _ _ _ >>= fun ST' =>
    generateMergedPoints (a.curve.sel σ) (b.curve.sel σ) _ _ >>= _) = _
  simp only [generateShifted_sel, adjustKnotsOfBoth_sel, createMergedKnotVector_sel, bind_map_left, Prod.map,
    adjustShiftedOfBoth_sel, generateMergedPoints_sel]
  congr 1; funext ST
  congr 1; funext VW
  congr 1; funext U
  congr 1; funext ST'
  congr 1; funext P
  change (mkCurve a.curve.degree U (P.map (sel σ)) >>= _) = _
  rw [C132_new, bind_map_left]
  congr 1; funext r
  cases r <;> rfl

/-- **C132** merging, with any constraints, if the solver treats the coordinates alike -/
theorem C132_merge (hs : Coordinatewise σ s s') (a b : Curve K d) (ua ub : Constraints K) :
    mergeWithConstraints s' ⟨a.sel σ, ua⟩ ⟨b.sel σ, ub⟩ =
      Except.map (Curve.sel σ) <$> mergeWithConstraints s ⟨a, ua⟩ ⟨b, ub⟩ := by
  unfold mergeWithConstraints
  by_cases h : a.degree = b.degree
  · rw [if_neg (show ¬ (a.sel σ).degree ≠ (b.sel σ).degree from fun hn => hn h), if_neg (fun hn => hn h), dif_pos rfl,
      dif_pos rfl]
    simp only [map_bind]
    change (eitherNot a.knots.isClamped b.knots.isClamped >>= _) = _
    congr 1; funext x
    cases x
    · simp only [Bool.false_eq_true, if_false, map_bind]
      change (eitherNot a.knots.isNormed b.knots.isNormed >>= _) = _
      congr 1; funext x
      cases x
      · simp only [Bool.false_eq_true, if_false]
        by_cases hc : a.degree ≤ ua.count + ub.count
        · rw [if_pos (show (a.sel σ).degree ≤ ua.count + ub.count from hc), if_pos hc]; rfl
        · rw [if_neg (show ¬ (a.sel σ).degree ≤ ua.count + ub.count from hc), if_neg hc]
          exact mergeBody_sel σ hs ⟨a, ua⟩ ⟨b, ub⟩
      · rfl
    · rfl
  · rw [if_pos (show (a.sel σ).degree ≠ (b.sel σ).degree from h), if_pos h]
    rfl

end BSpline
