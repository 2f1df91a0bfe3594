import Verif.Model.Access
import Verif.Model.Svd
import Verif.Refine.Reverse

/-!
# Relations between points that every operation preserves

The code only adds, subtracts and scales points. A relation between points that is compatible with these operations is
therefore inherited by all curves, values and derivatives. Nothing is assumed about the scalars.
-/

set_option linter.unusedSectionVars false

namespace BSpline.Pw

/-- both fail alike, or both succeed with related results -/
def XRel {ε α β : Type} (R : α → β → Prop) : Except ε α → Except ε β → Prop
  | .ok a, .ok b => R a b
  | .error x, .error y => x = y
  | _, _ => False

section Monad

variable {α β γ δ : Type} {R : α → β → Prop} {S : γ → δ → Prop}

theorem XRel.bind {x : Exec α} {y : Exec β} {f : α → Exec γ} {g : β → Exec δ} (h : XRel R x y)
    (hf : ∀ a b, R a b → XRel S (f a) (g b)) : XRel S (x >>= f) (y >>= g) := by
  rcases x with x | x <;> rcases y with y | y
  · exact h
  · exact h.elim
  · exact h.elim
  · exact hf x y h

theorem XRel.same (x : Exec α) {f : α → Exec γ} {g : α → Exec δ} (hf : ∀ a, XRel S (f a) (g a)) :
    XRel S (x >>= f) (x >>= g) := by
  rcases x with x | x
  · rfl
  · exact hf x

theorem XRel.mono {ε : Type} {R' : α → β → Prop} {x : Except ε α} {y : Except ε β} (h : XRel R x y)
    (hR : ∀ a b, R a b → R' a b) : XRel R' x y := by
  rcases x with x | x <;> rcases y with y | y
  · exact h
  · exact h.elim
  · exact h.elim
  · exact hR _ _ h

theorem foldlM_rel {ι : Type} {f : α → ι → Exec α} {g : β → ι → Exec β} (h : ∀ a b i, R a b → XRel R (f a i) (g b i)) :
    ∀ (l : List ι) (a : α) (b : β), R a b → XRel R (l.foldlM f a) (l.foldlM g b)
  | [], _, _, hab => hab
  | i :: l, a, b, hab => by
    rw [List.foldlM_cons, List.foldlM_cons]
    exact (h a b i hab).bind fun a b hab => foldlM_rel h l a b hab

theorem forRangeIncl_rel {f : α → ℕ → Exec α} {g : β → ℕ → Exec β} {lo hi : ℕ} {a : α} {b : β} (hab : R a b)
    (h : ∀ a b i, R a b → XRel R (f a i) (g b i)) : XRel R (forRangeIncl lo hi a f) (forRangeIncl lo hi b g) :=
  foldlM_rel h _ _ _ hab

theorem mapM_rel {ι : Type} {f : ι → Exec α} {g : ι → Exec β} (h : ∀ i, XRel R (f i) (g i)) : ∀ l : List ι,
    XRel (List.Forall₂ R) (l.mapM f) (l.mapM g)
  | [] => List.Forall₂.nil
  | i :: l => by
    rw [List.mapM_cons, List.mapM_cons]
    exact (h i).bind fun a b hab => (mapM_rel h l).bind fun _ _ hl => List.Forall₂.cons hab hl

theorem tabulateIncl_rel {f : ℕ → Exec α} {g : ℕ → Exec β} {lo hi : ℕ} (h : ∀ i, XRel R (f i) (g i)) :
    XRel (List.Forall₂ R) (tabulateIncl lo hi f) (tabulateIncl lo hi g) := mapM_rel h _

end Monad

section Lists

variable {α β : Type} {R : α → β → Prop} {l : List α} {m : List β}

theorem idx_rel (h : List.Forall₂ R l m) : ∀ i, XRel R (idx l i) (idx m i) := by
  induction h with
  | nil => intro i; rfl
  | cons hab _ ih =>
    intro i
    cases i with
    | zero => exact hab
    | succ i => exact ih i

theorem column_rel (h : List.Forall₂ R l m) : ∀ i, XRel R (column l i) (column m i) := by
  induction h with
  | nil => intro i; rfl
  | cons hab _ ih =>
    intro i
    cases i with
    | zero => exact hab
    | succ i => exact ih i

theorem forall₂_append {l' : List α} {m' : List β} (h : List.Forall₂ R l m) (h' : List.Forall₂ R l' m') :
    List.Forall₂ R (l ++ l') (m ++ m') := by
  induction h with
  | nil => exact h'
  | cons hab _ ih => exact List.Forall₂.cons hab ih

theorem segment_rel (h : List.Forall₂ R l m) (i n : ℕ) : XRel (List.Forall₂ R) (segment l i n) (segment m i n) := by
  rw [segment, segment, h.length_eq]
  split
  · exact List.forall₂_take _ (List.forall₂_drop _ h)
  · rfl

theorem setSegment_rel {l' : List α} {m' : List β} (h : List.Forall₂ R l m) (h' : List.Forall₂ R l' m') (i : ℕ) :
    XRel (List.Forall₂ R) (setSegment l i l') (setSegment m i m') := by
  rw [setSegment, setSegment, h.length_eq, h'.length_eq]
  split
  · exact forall₂_append (forall₂_append (List.forall₂_take _ h) h') (List.forall₂_drop _ h)
  · rfl

theorem set_rel (h : List.Forall₂ R l m) {a : α} {b : β} (hab : R a b) : ∀ i, List.Forall₂ R (l.set i a) (m.set i b) := by
  induction h with
  | nil => intro i; exact List.Forall₂.nil
  | cons h1 h2 ih =>
    intro i
    cases i with
    | zero => exact List.Forall₂.cons hab h2
    | succ i => exact List.Forall₂.cons h1 (ih i)

theorem setIdx_rel (h : List.Forall₂ R l m) {a : α} {b : β} (hab : R a b) (i : ℕ) :
    XRel (List.Forall₂ R) (setIdx l i a) (setIdx m i b) := by
  rw [setIdx, setIdx, h.length_eq]
  split
  · exact set_rel h hab i
  · rfl

theorem reverseCols_rel (h : List.Forall₂ R l m) : List.Forall₂ R (reverseCols l) (reverseCols m) := by
  rw [reverseCols, reverseCols, swapLoop_eq, swapLoop_eq]
  exact List.forall₂_reverse_iff.mpr h

theorem replicate_rel {a : α} {b : β} (hab : R a b) : ∀ n, List.Forall₂ R (List.replicate n a) (List.replicate n b)
  | 0 => List.Forall₂.nil
  | n + 1 => List.Forall₂.cons hab (replicate_rel hab n)

end Lists

variable {K : Type} [Add K] [Sub K] [Mul K] [Div K] [Neg K] [Zero K] [One K] [NatCast K] [Cmp K] {d e : ℕ} [Build]

/-- compatible with all that the code does with points -/
structure Compatible (R : Pt K d → Pt K e → Prop) : Prop where
  zero : R (fun _ => 0) (fun _ => 0)
  add : ∀ v v' w w', R v w → R v' w' → R (v + v') (w + w')
  sub : ∀ v v' w w', R v w → R v' w' → R (v - v') (w - w')
  scale : ∀ s v w, R v w → R (scale s v) (scale s w)
  mulr : ∀ s v w, R v w → R (fun r => v r * s) (fun r => w r * s)
  divr : ∀ s v w, R v w → R (fun r => v r / s) (fun r => w r / s)

variable {R : Pt K d → Pt K e → Prop} (hR : Compatible R)

/-- control points, those of the cached derivatives included -/
def CpRel (R : Pt K d → Pt K e → Prop) (a : ControlPoints K d) (b : ControlPoints K e) : Prop :=
  a.kMax = b.kMax ∧ List.Forall₂ (List.Forall₂ R) a.Pk b.Pk

/-- curves with the same knots -/
def CurveRel (R : Pt K d → Pt K e → Prop) (a : Curve K d) (b : Curve K e) : Prop :=
  a.knots = b.knots ∧ CpRel R a.points b.points

/-- the state and the result of a call -/
def StateRel {α : Type} (R : Pt K d → Pt K e → Prop) (a : Curve K d × α) (b : Curve K e × α) : Prop :=
  CurveRel R a.1 b.1 ∧ a.2 = b.2

section Points

variable {a : ControlPoints K d} {b : ControlPoints K e} (h : CpRel R a b)
include h

theorem CpRel.matrix : XRel (List.Forall₂ R) a.matrix b.matrix := idx_rel h.2 0

theorem CpRel.count : a.count = b.count := by
  have := idx_rel h.2 0
  rw [ControlPoints.count, ControlPoints.countDerivative, ControlPoints.count, ControlPoints.countDerivative]
  revert this
  cases idx a.Pk 0 <;> cases idx b.Pk 0 <;> intro this
  · exact congrArg _ this
  · exact this.elim
  · exact this.elim
  · exact congrArg _ (List.Forall₂.length_eq this)

theorem CpRel.segments : a.segments = b.segments := by
  rw [ControlPoints.segments, ControlPoints.segments, h.count]

theorem CpRel.matrixDerivative (k : ℕ) : XRel (List.Forall₂ R) (a.matrixDerivative k) (b.matrixDerivative k) := by
  rw [ControlPoints.matrixDerivative, ControlPoints.matrixDerivative, h.1]
  split
  · exact idx_rel h.2 k
  · rfl

include hR

theorem CpRel.deriveSinglePoint (kn : Knots K) (k : ℕ) :
    ∀ i, XRel R (a.deriveSinglePoint kn k i) (b.deriveSinglePoint kn k i) := by
  induction k with
  | zero => intro i; exact (idx_rel h.2 0).bind fun _ _ hP => column_rel hP i
  | succ k ih =>
    intro i
    refine XRel.same _ fun U0 => XRel.same _ fun x => XRel.same _ fun y => ?_
    split_ifs
    · exact hR.zero
    · refine XRel.same _ fun c => XRel.same _ fun a' => XRel.same _ fun b' => ?_
      exact (ih (i + 1)).bind fun _ _ h1 => (ih i).bind fun _ _ h2 => hR.scale _ _ _ (hR.sub _ _ _ _ h1 h2)

theorem CpRel.derive (kn : Knots K) : XRel (CpRel R) (a.derive kn) (b.derive kn) := by
  rw [ControlPoints.derive, ControlPoints.derive, h.segments]
  refine XRel.same _ fun n => ?_
  refine (forRangeIncl_rel (R := List.Forall₂ (List.Forall₂ R)) (List.forall₂_take _ h.2) fun Pk Pk' k hP => ?_).bind
    fun Pk Pk' hP => ⟨rfl, hP⟩
  refine XRel.same _ fun nk => ?_
  refine (mapM_rel (fun i => CpRel.deriveSinglePoint hR (a := ⟨Pk, a.kMax⟩) (b := ⟨Pk', b.kMax⟩) ⟨h.1, hP⟩ kn k i)
    _).bind fun _ _ hn => forall₂_append hP (List.Forall₂.cons hn List.Forall₂.nil)

theorem CpRel.reverse : XRel (CpRel R) a.reverse b.reverse := by
  rw [ControlPoints.reverse, ControlPoints.reverse, h.1]
  refine forRangeIncl_rel h fun a b k h => ?_
  refine (h.matrixDerivative k).bind fun m m' hm => ?_
  refine (setIdx_rel h.2 ?_ k).bind fun _ _ hP => ⟨h.1, hP⟩
  have := reverseCols_rel hm
  show List.Forall₂ R (if k % 2 = 1 then _ else _) (if k % 2 = 1 then _ else _)
  split_ifs
  · rw [List.forall₂_map_left_iff, List.forall₂_map_right_iff]
    exact this.imp fun _ _ h => hR.mulr _ _ _ h
  · exact this

end Points

section Curves

variable {a : Curve K d} {b : Curve K e} (h : CurveRel R a b)
include hR

theorem calculateDerivatives_rel {a : Curve K d} {b : Curve K e} (h : CurveRel R a b) :
    XRel (CurveRel R) a.calculateDerivatives b.calculateDerivatives := by
  rw [Curve.calculateDerivatives, Curve.calculateDerivatives, h.1]
  exact XRel.same _ fun kn => (h.2.derive hR kn).bind fun _ _ hP => ⟨rfl, hP⟩

theorem new_rel (kn : Knots K) {a : ControlPoints K d} {b : ControlPoints K e} (h : CpRel R a b) :
    XRel (XRel (CurveRel R)) (Curve.new kn a) (Curve.new kn b) := by
  rw [Curve.new, Curve.new, h.segments]
  refine XRel.same _ fun n => ?_
  split_ifs
  · rfl
  · exact (calculateDerivatives_rel hR ⟨rfl, h⟩).bind fun _ _ hc => hc

include h

theorem evaluateDerivative_rel (u : K) (k : ℕ) : XRel (XRel R) (a.evaluateDerivative u k) (b.evaluateDerivative u k) := by
  rcases a with ⟨kn, a⟩
  rcases b with ⟨kn', b⟩
  obtain ⟨rfl, h⟩ : kn = kn' ∧ CpRel R a b := h
  rw [Curve.evaluateDerivative, Curve.evaluateDerivative]
  split_ifs
  · rfl
  dsimp only
  by_cases hk : k ≤ kn.degree
  · rw [if_pos (show k ≤ Curve.degree ⟨kn, a⟩ from hk), if_pos (show k ≤ Curve.degree ⟨kn, b⟩ from hk)]
    change XRel _ (a.segments >>= _) (b.segments >>= _)
    rw [h.segments]
    refine XRel.same _ fun n => XRel.same _ fun l => XRel.same _ fun pk => XRel.same _ fun lo => XRel.same _ fun hi => ?_
    refine (forRangeIncl_rel (R := R) hR.zero fun v w i hv => ?_).bind fun v w hv => hv
    refine XRel.same _ fun N => (h.matrixDerivative k).bind fun _ _ hm => (column_rel hm i).bind fun _ _ hc => ?_
    exact hR.add _ _ _ _ hv (hR.scale _ _ _ hc)
  · rw [if_neg (show ¬ k ≤ Curve.degree ⟨kn, a⟩ from hk), if_neg (show ¬ k ≤ Curve.degree ⟨kn, b⟩ from hk)]
    exact hR.zero

theorem reverse_rel : XRel (CurveRel R) a.reverse b.reverse := by
  rw [Curve.reverse, Curve.reverse, h.1]
  exact (h.2.reverse hR).bind fun _ _ hP => ⟨rfl, hP⟩

omit hR in
theorem getDerivativeCurve_rel (k : ℕ) : XRel (CurveRel R) (a.getDerivativeCurve k) (b.getDerivativeCurve k) := by
  rcases a with ⟨kn, a⟩
  rcases b with ⟨kn', b⟩
  obtain ⟨rfl, h⟩ : kn = kn' ∧ CpRel R a b := h
  rw [Curve.getDerivativeCurve, Curve.getDerivativeCurve]
  refine XRel.same _ fun q => XRel.same _ fun U => XRel.same _ fun kn => ?_
  exact (h.matrixDerivative k).bind fun _ _ hm => ⟨rfl, rfl, List.Forall₂.cons hm List.Forall₂.nil⟩

omit h in
theorem insertLoop_rel (u : K) (U : List K) {P Q : List (Pt K d)} {P' Q' : List (Pt K e)} (p lo hi : ℕ)
    (hP : List.Forall₂ R P P') (hQ : List.Forall₂ R Q Q') :
    XRel (List.Forall₂ R) (insertLoop u U P p lo hi Q) (insertLoop u U P' p lo hi Q') := by
  refine forRangeIncl_rel hQ fun Q Q' i hQ => ?_
  refine XRel.same _ fun x => XRel.same _ fun y => XRel.same _ fun z => XRel.same _ fun i1 => ?_
  refine (column_rel hP i1).bind fun _ _ h0 => (column_rel hP i).bind fun _ _ h1 => (column_rel hQ i).bind fun _ _ h2 => ?_
  exact set_rel hQ (hR.add _ _ _ _ h2 (hR.add _ _ _ _ (hR.scale _ _ _ h0) (hR.scale _ _ _ h1))) i

theorem insert_rel (u : K) : XRel (StateRel R) (BSpline.insert a u) (BSpline.insert b u) := by
  have h0 := h
  rcases a with ⟨kn, a⟩
  rcases b with ⟨kn', b⟩
  obtain ⟨rfl, h⟩ : kn = kn' ∧ CpRel R a b := h
  rw [BSpline.insert, BSpline.insert]
  split_ifs
  · exact ⟨h0, rfl⟩
  refine XRel.same _ fun m => ?_
  by_cases hm : kn.degree < m
  · rw [if_pos (show (Curve.degree ⟨kn, a⟩) < m from hm), if_pos (show (Curve.degree ⟨kn, b⟩) < m from hm)]
    exact ⟨h0, rfl⟩
  rw [if_neg (show ¬ (Curve.degree ⟨kn, a⟩) < m from hm), if_neg (show ¬ (Curve.degree ⟨kn, b⟩) < m from hm)]
  refine XRel.same _ fun U => h.matrix.bind fun P P' hP => XRel.same _ fun l => XRel.same _ fun Unew => ?_
  change XRel _ (a.count >>= _) (b.count >>= _)
  rw [h.count]
  refine XRel.same _ fun count => XRel.same _ fun lp => ?_
  refine (segment_rel hP _ _).bind fun top top' ht => ?_
  refine (setSegment_rel (replicate_rel hR.zero _) ht 0).bind fun Q Q' hQ => XRel.same _ fun bc => ?_
  rw [hQ.length_eq]
  refine XRel.same _ fun s1 => ?_
  rw [hP.length_eq]
  refine XRel.same _ fun s0 => (segment_rel hP _ _).bind fun bot bot' hb => ?_
  refine (setSegment_rel hQ hb _).bind fun Q Q' hQ => (insertLoop_rel hR u U _ _ _ hP hQ).bind fun Q Q' hQ => ?_
  refine XRel.same _ fun Uk => (setIdx_rel h.2 hQ 0).bind fun Pk Pk' hPk => ?_
  exact (calculateDerivatives_rel hR ⟨rfl, h.1, hPk⟩).bind fun _ _ hc => ⟨hc, rfl⟩

end Curves

include hR

theorem insertTimes_rel (u : K) (x : ℕ) : ∀ {a : Curve K d} {b : Curve K e}, CurveRel R a b →
    XRel (StateRel R) (a.insertTimes u x) (b.insertTimes u x) := by
  induction x with
  | zero => intro a b h; exact ⟨h, rfl⟩
  | succ x ih =>
    intro a b h
    refine (insert_rel hR h u).bind fun y y' hy => ?_
    rcases y with ⟨c, r⟩
    rcases y' with ⟨c', r'⟩
    obtain ⟨hc, rfl⟩ : CurveRel R c c' ∧ r = r' := hy
    cases r with
    | error _ => exact ⟨hc, rfl⟩
    | ok _ => exact ih hc

theorem insertUnwrapTimes_rel (u : K) (x : ℕ) : ∀ {a : Curve K d} {b : Curve K e}, CurveRel R a b →
    XRel (CurveRel R) (insertUnwrapTimes a u x) (insertUnwrapTimes b u x) := by
  induction x with
  | zero => intro a b h; exact h
  | succ x ih =>
    intro a b h
    refine (insert_rel hR h u).bind fun y y' hy => ?_
    rcases y with ⟨c, r⟩
    rcases y' with ⟨c', r'⟩
    obtain ⟨hc, rfl⟩ : CurveRel R c c' ∧ r = r' := hy
    exact XRel.same _ fun _ => ih hc

theorem mkCurve_rel (p : ℕ) (U : List K) {P : List (Pt K d)} {P' : List (Pt K e)} (hP : List.Forall₂ R P P') :
    XRel (XRel (CurveRel R)) (mkCurve p U P) (mkCurve p U P') :=
  XRel.same _ fun kn => new_rel hR kn ⟨rfl, List.Forall₂.cons hP List.Forall₂.nil⟩

theorem splitLeft_rel (p : ℕ) (U : List K) {P : List (Pt K d)} {P' : List (Pt K e)} (hP : List.Forall₂ R P P') (u : K)
    (len : ℕ) (b norm : Bool) :
    XRel (XRel (CurveRel R)) (splitLeft p U P u len b norm) (splitLeft p U P' u len b norm) := by
  refine XRel.same _ fun src => XRel.same _ fun U1 => XRel.same _ fun U2 => ?_
  cases b
  · exact XRel.same _ fun cols => (segment_rel hP _ _).bind fun _ _ h => mkCurve_rel hR p _ h
  · exact XRel.same _ fun cols => (segment_rel hP _ _).bind fun _ _ h => mkCurve_rel hR p _ h

theorem splitRight_rel (p : ℕ) (U : List K) {P : List (Pt K d)} {P' : List (Pt K e)} (hP : List.Forall₂ R P P') (u : K)
    (len : ℕ) (b norm : Bool) :
    XRel (XRel (CurveRel R)) (splitRight p U P u len b norm) (splitRight p U P' u len b norm) := by
  refine XRel.same _ fun len => XRel.same _ fun U1 => XRel.same _ fun t => XRel.same _ fun src => XRel.same _ fun U2 => ?_
  rw [hP.length_eq]
  cases b
  · exact XRel.same _ fun cols => XRel.same _ fun s => (segment_rel hP _ _).bind fun _ _ h => mkCurve_rel hR p _ h
  · exact XRel.same _ fun x => XRel.same _ fun cols => XRel.same _ fun s =>
      (segment_rel hP _ _).bind fun _ _ h => mkCurve_rel hR p _ h

theorem splitAndNormalize_rel {a : Curve K d} {b : Curve K e} (h : CurveRel R a b) (u : K) (norm : Bool × Bool) :
    XRel (XRel fun x y => CurveRel R x.1 y.1 ∧ CurveRel R x.2 y.2) (splitAndNormalize a u norm)
      (splitAndNormalize b u norm) := by
  have h0 := h
  rcases a with ⟨kn, a⟩
  rcases b with ⟨kn', b⟩
  obtain ⟨rfl, h⟩ : kn = kn' ∧ CpRel R a b := h
  rw [splitAndNormalize, splitAndNormalize]
  split_ifs
  · rfl
  refine XRel.same _ fun l => XRel.same _ fun U0 => ?_
  by_cases hm : kn.degree < ((U0.drop l).takeWhile (fun x => Cmp.eq x u)).length
  · rw [if_pos (show (Curve.degree ⟨kn, a⟩) < _ from hm), if_pos (show (Curve.degree ⟨kn, b⟩) < _ from hm)]
    rfl
  rw [if_neg (show ¬ (Curve.degree ⟨kn, a⟩) < _ from hm), if_neg (show ¬ (Curve.degree ⟨kn, b⟩) < _ from hm)]
  refine XRel.same _ fun times => (insertUnwrapTimes_rel hR u times h0).bind fun c c' hc => ?_
  rw [hc.1]
  refine XRel.same _ fun U => hc.2.matrix.bind fun P P' hP => ?_
  refine (splitLeft_rel hR _ U hP u _ _ _).bind fun x x' hx => ?_
  rcases x with x | x <;> rcases x' with x' | x'
  · obtain rfl : x = x' := hx
    rfl
  · exact hx.elim
  · exact hx.elim
  refine (splitRight_rel hR _ U hP u _ _ _).bind fun y y' hy => ?_
  rcases y with y | y <;> rcases y' with y' | y'
  · obtain rfl : y = y' := hy
    rfl
  · exact hy.elim
  · exact hy.elim
  exact ⟨hx, hy⟩

end BSpline.Pw
