import Verif.Spec.NaN
import Verif.Spec.Basic
import Mathlib.Data.List.Forall2

/-!
# Running the model over two kinds of numbers at once

If two kinds of numbers are related by `r` in such a way that all operations and comparisons respect
`r`, except that divisions are only known to respect it for a non-zero divisor, then the functions of
the model take related arguments to related results, provided that they only divide by non-zero
numbers.
-/

namespace BSpline

open List

set_option linter.unusedSectionVars false

/-- both panic alike, or both return related values -/
inductive ERel {ε α β : Type} (R : α → β → Prop) : Except ε α → Except ε β → Prop
  | error (e : ε) : ERel R (.error e) (.error e)
  | ok {a : α} {b : β} (h : R a b) : ERel R (.ok a) (.ok b)

namespace ERel

variable {ε α β α' β' : Type} {R : α → β → Prop} {S : α' → β' → Prop}

theorem bind {x : Except ε α} {y : Except ε β} {f : α → Except ε α'} {g : β → Except ε β'}
    (h : ERel R x y) (hf : ∀ a b, R a b → ERel S (f a) (g b)) : ERel S (x >>= f) (y >>= g) := by
  cases h with
  | error e => exact .error e
  | ok h => exact hf _ _ h

/-- the second run also tells which value was bound -/
theorem bind' {x : Except ε α} {y : Except ε β} {f : α → Except ε α'} {g : β → Except ε β'}
    (h : ERel R x y) (hf : ∀ a b, y = .ok b → R a b → ERel S (f a) (g b)) :
    ERel S (x >>= f) (y >>= g) := by
  cases h with
  | error e => exact .error e
  | ok h => exact hf _ _ rfl h

theorem same {x : Except ε α} {f : α → Except ε α'} {g : α → Except ε β'}
    (hf : ∀ a, ERel S (f a) (g a)) : ERel S (x >>= f) (x >>= g) := by
  cases x with
  | error e => exact .error e
  | ok a => exact hf a

theorem same' {x : Except ε α} {f : α → Except ε α'} {g : α → Except ε β'}
    (hf : ∀ a, x = .ok a → ERel S (f a) (g a)) : ERel S (x >>= f) (x >>= g) := by
  cases x with
  | error e => exact .error e
  | ok a => exact hf a rfl

theorem pure {a : α} {b : β} (h : R a b) : ERel (ε := ε) R (pure a) (pure b) := .ok h

theorem mono {T : α → β → Prop} (hRT : ∀ a b, R a b → T a b) {x : Except ε α} {y : Except ε β}
    (h : ERel R x y) : ERel T x y := by
  cases h with
  | error e => exact .error e
  | ok h => exact .ok (hRT _ _ h)

theorem eq_of {x y : Except ε α} (h : ERel (· = ·) x y) : x = y := by
  cases h with
  | error e => rfl
  | ok h => rw [h]

theorem refl (x : Except ε α) : ERel (· = ·) x x := by
  cases x with
  | error e => exact .error e
  | ok a => exact .ok rfl

theorem eq_map {f : β → α} {x : Except ε α} {y : Except ε β} (h : ERel (fun a b => a = f b) x y) :
    x = y.map f := by
  cases h with
  | error e => rfl
  | ok h => rw [h]; rfl

theorem bind_eq {x y : Except ε α} {f : α → Except ε α'} {g : α → Except ε β'}
    (h : ERel (· = ·) x y) (hf : ∀ a, y = .ok a → ERel S (f a) (g a)) : ERel S (x >>= f) (y >>= g) := by
  rw [h.eq_of]; exact same' hf

theorem ite {x x' : Except ε α} {y y' : Except ε β} {p q : Prop} [Decidable p] [Decidable q] (hpq : p ↔ q)
    (h : q → ERel R x y) (h' : ¬ q → ERel R x' y') :
    ERel R (if p then x else x') (if q then y else y') := by
  by_cases hq : q
  · rw [if_pos hq, if_pos (hpq.mpr hq)]; exact h hq
  · rw [if_neg hq, if_neg (fun hp => hq (hpq.mp hp))]; exact h' hq

end ERel

/-! ### Lists -/

section Lists

variable {α β : Type} {R : α → β → Prop} {v : List α} {w : List β}

theorem forall₂_getElem? (h : Forall₂ R v w) (i : ℕ) :
    (v[i]? = none ∧ w[i]? = none) ∨ ∃ a b, v[i]? = some a ∧ w[i]? = some b ∧ R a b := by
  induction h generalizing i with
  | nil => simp
  | cons hab _ ih =>
    cases i with
    | zero => right; exact ⟨_, _, rfl, rfl, hab⟩
    | succ i => simpa using ih i

theorem idx_rel (h : Forall₂ R v w) (i : ℕ) : ERel R (idx v i) (idx w i) := by
  rcases forall₂_getElem? h i with ⟨h1, h2⟩ | ⟨a, b, h1, h2, hab⟩
  · rw [idx, idx, h1, h2]; exact .error _
  · rw [idx, idx, h1, h2]; exact .ok hab

theorem column_rel (h : Forall₂ R v w) (i : ℕ) : ERel R (column v i) (column w i) := by
  rcases forall₂_getElem? h i with ⟨h1, h2⟩ | ⟨a, b, h1, h2, hab⟩
  · rw [column, column, h1, h2]; exact .error _
  · rw [column, column, h1, h2]; exact .ok hab

theorem forall₂_append' {v' : List α} {w' : List β} (h : Forall₂ R v w) (h' : Forall₂ R v' w') :
    Forall₂ R (v ++ v') (w ++ w') := by
  induction h with
  | nil => exact h'
  | cons hab _ ih => exact .cons hab ih

theorem forall₂_reverse' (h : Forall₂ R v w) : Forall₂ R v.reverse w.reverse := by
  induction h with
  | nil => exact .nil
  | cons hab _ ih =>
    rw [reverse_cons, reverse_cons]; exact forall₂_append' ih (.cons hab .nil)

theorem forall₂_set (h : Forall₂ R v w) (i : ℕ) {a : α} {b : β} (hab : R a b) :
    Forall₂ R (v.set i a) (w.set i b) := by
  induction h generalizing i with
  | nil => exact .nil
  | cons h1 h2 ih =>
    cases i with
    | zero => exact .cons hab h2
    | succ i => exact .cons h1 (ih i)

theorem forall₂_replicate (n : ℕ) {a : α} {b : β} (hab : R a b) :
    Forall₂ R (replicate n a) (replicate n b) := by
  induction n with
  | zero => exact .nil
  | succ n ih => exact .cons hab ih

theorem segment_rel (h : Forall₂ R v w) (s n : ℕ) :
    ERel (Forall₂ R) (segment v s n) (segment w s n) := by
  rw [segment, segment, h.length_eq]
  refine .ite Iff.rfl (fun _ => .ok ?_) (fun _ => .error _)
  exact forall₂_take _ (forall₂_drop _ h)

theorem head_rel (h : Forall₂ R v w) (n : ℕ) : ERel (Forall₂ R) (head v n) (head w n) :=
  segment_rel h 0 n

theorem tail_rel (h : Forall₂ R v w) (n : ℕ) : ERel (Forall₂ R) (tail v n) (tail w n) := by
  rw [tail, tail, h.length_eq]
  exact .same fun s => segment_rel h s n

theorem setIdx_rel (h : Forall₂ R v w) (i : ℕ) {a : α} {b : β} (hab : R a b) :
    ERel (Forall₂ R) (setIdx v i a) (setIdx w i b) := by
  rw [setIdx, setIdx, h.length_eq]
  exact .ite Iff.rfl (fun _ => .ok (forall₂_set h i hab)) (fun _ => .error _)

theorem setSegment_rel (h : Forall₂ R v w) (s : ℕ) {v' : List α} {w' : List β} (h' : Forall₂ R v' w') :
    ERel (Forall₂ R) (setSegment v s v') (setSegment w s w') := by
  rw [setSegment, setSegment, h.length_eq, h'.length_eq]
  refine .ite Iff.rfl (fun _ => .ok ?_) (fun _ => .error _)
  exact forall₂_append' (forall₂_append' (forall₂_take _ h) h') (forall₂_drop _ h)

theorem setTail_rel (h : Forall₂ R v w) {v' : List α} {w' : List β} (h' : Forall₂ R v' w') :
    ERel (Forall₂ R) (setTail v v') (setTail w w') := by
  rw [setTail, setTail, h.length_eq, h'.length_eq]
  exact .same fun s => setSegment_rel h s h'

theorem insertRow_rel (h : Forall₂ R v w) (i : ℕ) {a : α} {b : β} (hab : R a b) :
    ERel (Forall₂ R) (insertRow v i a) (insertRow w i b) := by
  rw [insertRow, insertRow, h.length_eq]
  refine .ite Iff.rfl (fun _ => .ok ?_) (fun _ => .error _)
  exact forall₂_append' (forall₂_take _ h) (.cons hab (forall₂_drop _ h))

theorem foldlM_rel {γ : Type} {f : α → γ → Exec α} {g : β → γ → Exec β} : ∀ (l : List γ) {a : α} {b : β},
    R a b → (∀ a b, R a b → ∀ x ∈ l, ERel R (f a x) (g b x)) → ERel R (l.foldlM f a) (l.foldlM g b)
  | [], _, _, hab, _ => .ok hab
  | x :: l, a, b, hab, h => by
    rw [foldlM_cons, foldlM_cons]
    exact (h a b hab x (by simp)).bind fun a' b' h' =>
      foldlM_rel l h' fun a b hab y hy => h a b hab y (by simp [hy])

theorem forRangeIncl_rel {f : α → ℕ → Exec α} {g : β → ℕ → Exec β} {lo hi : ℕ} {a : α} {b : β}
    (hab : R a b) (h : ∀ a b, R a b → ∀ i, lo ≤ i → i ≤ hi → ERel R (f a i) (g b i)) :
    ERel R (forRangeIncl lo hi a f) (forRangeIncl lo hi b g) := by
  refine foldlM_rel _ hab fun a b hab i hi' => h a b hab i ?_ ?_
  · simp only [mem_range'_1] at hi'; omega
  · simp only [mem_range'_1] at hi'; omega

theorem forRange_rel {f : α → ℕ → Exec α} {g : β → ℕ → Exec β} {lo hi : ℕ} {a : α} {b : β}
    (hab : R a b) (h : ∀ a b, R a b → ∀ i, lo ≤ i → i < hi → ERel R (f a i) (g b i)) :
    ERel R (forRange lo hi a f) (forRange lo hi b g) := by
  refine foldlM_rel _ hab fun a b hab i hi' => h a b hab i ?_ ?_
  · simp only [mem_range'_1] at hi'; omega
  · simp only [mem_range'_1] at hi'; omega

theorem mapM_rel {γ : Type} {f : γ → Exec α} {g : γ → Exec β} : ∀ (l : List γ),
    (∀ x ∈ l, ERel R (f x) (g x)) → ERel (Forall₂ R) (l.mapM f) (l.mapM g)
  | [], _ => .ok .nil
  | x :: l, h => by
    rw [mapM_cons, mapM_cons]
    exact (h x (by simp)).bind fun a b hab => (mapM_rel l fun y hy => h y (by simp [hy])).bind
      fun _ _ hl => .ok (.cons hab hl)

theorem forall₂_swapLoop (h : Forall₂ R v w) : Forall₂ R (swapLoop v) (swapLoop w) := by
  rw [swapLoop, swapLoop, h.length_eq]
  generalize hl : range (w.length / 2) = l
  clear hl
  have : ∀ (n : ℕ) {a : List α} {b : List β}, Forall₂ R a b →
      Forall₂ R (l.foldl (fun w i =>
        let j := n - 1 - i
        match w[i]?, w[j]? with
        | some a, some b => (w.set i b).set j a
        | _, _ => w) a) (l.foldl (fun w i =>
        let j := n - 1 - i
        match w[i]?, w[j]? with
        | some a, some b => (w.set i b).set j a
        | _, _ => w) b) := by
    intro n
    induction l with
    | nil => intro a b h; exact h
    | cons i l ih =>
      intro a b h
      rw [foldl_cons, foldl_cons]
      apply ih
      dsimp only
      rcases forall₂_getElem? h i with ⟨h1, h2⟩ | ⟨x, y, h1, h2, hxy⟩
      · rw [h1, h2]; exact h
      · rcases forall₂_getElem? h (n - 1 - i) with ⟨h3, h4⟩ | ⟨x', y', h3, h4, hxy'⟩
        · rw [h1, h2, h3, h4]; exact h
        · rw [h1, h2, h3, h4]; exact forall₂_set (forall₂_set h _ hxy') _ hxy
  exact this _ h

theorem forall₂_map' {α' β' : Type} {S : α' → β' → Prop} {f : α → α'} {g : β → β'} (h : Forall₂ R v w)
    (hf : ∀ a b, R a b → S (f a) (g b)) : Forall₂ S (v.map f) (w.map g) := by
  induction h with
  | nil => exact .nil
  | cons hab _ ih => exact .cons (hf _ _ hab) ih

theorem forall₂_eq_map {f : β → α} (h : Forall₂ (fun a b => a = f b) v w) : v = w.map f := by
  induction h with
  | nil => rfl
  | cons hab _ ih => rw [hab, ih]; rfl

theorem forall₂_map_self {f : β → α} (w : List β) : Forall₂ (fun a b => a = f b) (w.map f) w := by
  induction w with
  | nil => exact .nil
  | cons b w ih => exact .cons rfl ih

theorem all_rel {f : α → Bool} {g : β → Bool} (h : Forall₂ R v w) (hf : ∀ a b, R a b → f a = g b) :
    v.all f = w.all g := by
  induction h with
  | nil => rfl
  | cons hab _ ih => rw [all_cons, all_cons, hf _ _ hab, ih]

theorem filter_length_rel {f : α → Bool} {g : β → Bool} (h : Forall₂ R v w)
    (hf : ∀ a b, R a b → f a = g b) : (v.filter f).length = (w.filter g).length := by
  induction h with
  | nil => rfl
  | cons hab _ ih =>
    rw [filter_cons, filter_cons, hf _ _ hab]
    split
    · rw [length_cons, length_cons, ih]
    · exact ih

theorem takeWhile_length_rel {f : α → Bool} {g : β → Bool} (h : Forall₂ R v w)
    (hf : ∀ a b, R a b → f a = g b) : (v.takeWhile f).length = (w.takeWhile g).length := by
  induction h with
  | nil => rfl
  | cons hab _ ih =>
    rw [takeWhile_cons, takeWhile_cons, hf _ _ hab]
    split
    · rw [length_cons, length_cons, ih]
    · rfl

end Lists

/-! ### Numbers -/

variable {K L : Type} [Field K] [LinearOrder K]
variable [Add L] [Sub L] [Mul L] [Div L] [Neg L] [Zero L] [One L] [NatCast L] [Cmp L]

/-- the numbers `L` follow the numbers `K`, as long as there is no division by zero -/
structure Follows (r : L → K → Prop) : Prop where
  zero : r 0 0
  one : r 1 1
  cast : ∀ n : ℕ, r n n
  add : ∀ {a b c d}, r a b → r c d → r (a + c) (b + d)
  sub : ∀ {a b c d}, r a b → r c d → r (a - c) (b - d)
  mul : ∀ {a b c d}, r a b → r c d → r (a * c) (b * d)
  neg : ∀ {a b}, r a b → r (-a) (-b)
  div : ∀ {a b c d}, r a b → r c d → d ≠ 0 → r (a / c) (b / d)
  le : ∀ {a b c d}, r a b → r c d → Cmp.le a c = decide (b ≤ d)
  lt : ∀ {a b c d}, r a b → r c d → Cmp.lt a c = decide (b < d)
  eq : ∀ {a b c d}, r a b → r c d → Cmp.eq a c = decide (b = d)

theorem follows_num : Follows (fun (x : NF K) (y : K) => x = .num y) where
  zero := rfl
  one := rfl
  cast _ := rfl
  add := by rintro _ _ _ _ rfl rfl; rfl
  sub := by rintro _ _ _ _ rfl rfl; rfl
  mul := by rintro _ _ _ _ rfl rfl; rfl
  neg := by rintro _ _ rfl; rfl
  div := by
    rintro _ b _ d rfl rfl h
    show (if d = 0 then NF.nan else NF.num (b / d)) = _
    rw [if_neg h]
  le := by rintro _ _ _ _ rfl rfl; rfl
  lt := by rintro _ _ _ _ rfl rfl; rfl
  eq := by rintro _ _ _ _ rfl rfl; rfl

/-- related points -/
def PRel {d : ℕ} (r : L → K → Prop) (v : Pt L d) (w : Pt K d) : Prop := ∀ i, r (v i) (w i)

structure KnotsRel (r : L → K → Prop) (a : Knots L) (b : Knots K) : Prop where
  Uk : Forall₂ (Forall₂ r) a.Uk b.Uk
  p : a.p = b.p
  kMax : a.kMax = b.kMax

structure PointsRel {d : ℕ} (r : L → K → Prop) (a : ControlPoints L d) (b : ControlPoints K d) : Prop where
  Pk : Forall₂ (Forall₂ (PRel r)) a.Pk b.Pk
  kMax : a.kMax = b.kMax

structure CurveRel {d : ℕ} (r : L → K → Prop) (a : Curve L d) (b : Curve K d) : Prop where
  knots : KnotsRel r a.knots b.knots
  points : PointsRel r a.points b.points

/-- related `Result`s -/
inductive ResultRel {ε ε' α β : Type} (E : ε → ε' → Prop) (R : α → β → Prop) :
    Except ε α → Except ε' β → Prop
  | error {e e'} (h : E e e') : ResultRel E R (.error e) (.error e')
  | ok {a b} (h : R a b) : ResultRel E R (.ok a) (.ok b)

inductive FitErrorRel (r : L → K → Prop) : FitError L → FitError K → Prop
  | negativeLambda {a b} (h : r a b) : FitErrorRel r (.negativeLambda a) (.negativeLambda b)
  | m1 n m : FitErrorRel r (.requestedPolynomialSegmentAndDataSegementMismatch n m)
      (.requestedPolynomialSegmentAndDataSegementMismatch n m)
  | m2 n p : FitErrorRel r (.requestedPolynomialSegmentAndSplineDegreeMismatch n p)
      (.requestedPolynomialSegmentAndSplineDegreeMismatch n p)
  | m3 n k : FitErrorRel r (.requestedPolynomialSegmentAndPenalizationKappaMismatch n k)
      (.requestedPolynomialSegmentAndPenalizationKappaMismatch n k)
  | m4 n k : FitErrorRel r (.dataSegmentsAndParameterSegmentsMismatch n k)
      (.dataSegmentsAndParameterSegmentsMismatch n k)
  | nonUniformKnots : FitErrorRel r .nonUniformKnots .nonUniformKnots

inductive CurveErrorRel (r : L → K → Prop) : CurveError L → CurveError K → Prop
  | bounds {u u' a a' b b'} (hu : r u u') (ha : r a a') (hb : r b b') :
      CurveErrorRel r (.parameterOutOfBounds u a b) (.parameterOutOfBounds u' a' b')
  | mismatch p n : CurveErrorRel r (.degreeAndSegmentsMismatch p n) (.degreeAndSegmentsMismatch p n)
  | tooLow p l : CurveErrorRel r (.degreeTooLow p l) (.degreeTooLow p l)
  | fit {e e'} (h : FitErrorRel r e e') : CurveErrorRel r (.fitError e) (.fitError e')

inductive InsertErrorRel (r : L → K → Prop) : InsertError L → InsertError K → Prop
  | bounds {u u' a a' b b'} (hu : r u u') (ha : r a a') (hb : r b b') :
      InsertErrorRel r (.outOfBounds u a b) (.outOfBounds u' a' b')
  | multiplicity {u u'} (hu : r u u') (m p) :
      InsertErrorRel r (.multiplicityError u m p) (.multiplicityError u' m p)

inductive SplitErrorRel (r : L → K → Prop) : SplitError L → SplitError K → Prop
  | bounds {u u' a a' b b'} (hu : r u u') (ha : r a a') (hb : r b b') :
      SplitErrorRel r (.outOfBounds u a b) (.outOfBounds u' a' b')
  | multiplicity {u u'} (hu : r u u') (p m) :
      SplitErrorRel r (.multiplicityTooHigh u p m) (.multiplicityTooHigh u' p m)
  | curve {e e'} (h : CurveErrorRel r e e') : SplitErrorRel r (.curveError e) (.curveError e')

namespace Follows

variable {r : L → K → Prop} (hr : Follows r)

include hr

theorem scale {d : ℕ} {s : L} {s' : K} {v : Pt L d} {v' : Pt K d} (hs : r s s') (hv : PRel r v v') :
    PRel r (BSpline.scale s v) (BSpline.scale s' v') := fun i => hr.mul hs (hv i)

theorem addP {d : ℕ} {v w : Pt L d} {v' w' : Pt K d} (hv : PRel r v v') (hw : PRel r w w') :
    PRel r (v + w) (v' + w') := fun i => hr.add (hv i) (hw i)

theorem subP {d : ℕ} {v w : Pt L d} {v' w' : Pt K d} (hv : PRel r v v') (hw : PRel r w w') :
    PRel r (v - w) (v' - w') := fun i => hr.sub (hv i) (hw i)

theorem zeroP {d : ℕ} : PRel (d := d) r (fun _ => 0) (fun _ => 0) := fun _ => hr.zero

theorem zeroCols (d n : ℕ) : Forall₂ (PRel r) (BSpline.zeroCols d n) (BSpline.zeroCols d n) :=
  forall₂_replicate n hr.zeroP

theorem zeros (n : ℕ) : Forall₂ r (BSpline.zeros n) (BSpline.zeros n) := forall₂_replicate n hr.zero

theorem eq_iff {a b c d} (h : r a b) (h' : r c d) : Cmp.eq a c = true ↔ Cmp.eq b d = true := by
  rw [hr.eq h h']; rfl

theorem le_iff {a b c d} (h : r a b) (h' : r c d) : Cmp.le a c = true ↔ Cmp.le b d = true := by
  rw [hr.le h h']; rfl

theorem lt_iff {a b c d} (h : r a b) (h' : r c d) : Cmp.lt a c = true ↔ Cmp.lt b d = true := by
  rw [hr.lt h h']; rfl

/-- basis functions only divide by differences that were compared to zero before -/
theorem basis {U : List L} {U' : List K} (hU : Forall₂ r U U') (k n : ℕ) {u : L} {u' : K} (hu : r u u')
    (p : ℕ) : ∀ i, ERel r (BSpline.basis U k n u p i) (BSpline.basis U' k n u' p i) := by
  induction p with
  | zero =>
    intro i
    rw [BSpline.basis, BSpline.basis]
    refine (idx_rel hU i).bind fun a a' ha => ?_
    have rest : ∀ inside : Bool, ERel r
        (if inside = true then pure 1 else do
          let nk ← usub n k
          if i = nk then do
            let m ← usub (n + 1) k
            let e ← idx U m
            if Cmp.eq u e then pure 1 else pure 0
          else pure 0)
        (if inside = true then pure 1 else do
          let nk ← usub n k
          if i = nk then do
            let m ← usub (n + 1) k
            let e ← idx U' m
            if Cmp.eq u' e then pure 1 else pure 0
          else pure 0) := by
      intro inside
      refine .ite Iff.rfl (fun _ => .pure hr.one) (fun _ => .same fun nk => ?_)
      refine .ite Iff.rfl (fun _ => .same fun m => ?_) (fun _ => .pure hr.zero)
      exact (idx_rel hU m).bind fun e e' he =>
        .ite (hr.eq_iff hu he) (fun _ => .pure hr.one) (fun _ => .pure hr.zero)
    refine .ite (hr.le_iff ha hu) (fun _ => ?_) (fun _ => rest false)
    refine (idx_rel hU _).bind fun b b' hb => ?_
    rw [hr.lt hu hb]
    exact rest _
  | succ p ih =>
    intro i
    rw [BSpline.basis, BSpline.basis]
    refine (idx_rel hU _).bind' fun a a' ea ha => (idx_rel hU _).bind' fun b b' eb hb => ?_
    have rest : ∀ s s', r s s' → ERel r (do
          let a ← idx U (i + 1 + (p + 1))
          let b ← idx U (i + 1)
          if Cmp.eq a b then pure (s + 0) else do
            let ugp ← idx U (i + 1 + (p + 1))
            let ugh ← idx U (i + 1 + p + 1)
            let ug ← idx U (i + 1)
            let N ← BSpline.basis U k n u p (i + 1)
            pure (s + (ugp - u) / (ugh - ug) * N)) (do
          let a ← idx U' (i + 1 + (p + 1))
          let b ← idx U' (i + 1)
          if Cmp.eq a b then pure (s' + 0) else do
            let ugp ← idx U' (i + 1 + (p + 1))
            let ugh ← idx U' (i + 1 + p + 1)
            let ug ← idx U' (i + 1)
            let N ← BSpline.basis U' k n u' p (i + 1)
            pure (s' + (ugp - u') / (ugh - ug) * N)) := by
      intro s s' hs
      refine (idx_rel hU _).bind' fun a a' ea ha => (idx_rel hU _).bind' fun b b' eb hb => ?_
      refine .ite (hr.eq_iff ha hb) (fun _ => .pure (hr.add hs hr.zero)) fun hne => ?_
      refine (idx_rel hU _).bind' fun c c' ec hc => (idx_rel hU _).bind' fun e e' ee he =>
        (idx_rel hU _).bind' fun f f' ef hf => (ih _).bind fun N N' hN => .pure ?_
      refine hr.add hs (hr.mul (hr.div (hr.sub hc hu) (hr.sub he hf) ?_) hN)
      rw [show i + 1 + p + 1 = i + 1 + (p + 1) from rfl, ea] at ee
      rw [eb] at ef
      injection ee with ee; injection ef with ef
      rw [← ee, ← ef]
      simpa [Cmp.eq, sub_eq_zero] using hne
    refine .ite (hr.eq_iff ha hb) (fun _ => rest _ _ hr.zero) fun hne => ?_
    refine (idx_rel hU _).bind' fun c c' ec hc => (idx_rel hU _).bind' fun e e' ee he =>
      (idx_rel hU _).bind' fun f f' ef hf => (ih i).bind fun N N' hN => rest _ _ ?_
    refine hr.mul (hr.div (hr.sub hu hc) (hr.sub he hf) ?_) hN
    rw [show i + p + 1 = i + (p + 1) from rfl, ea] at ee
    rw [eb] at ef
    injection ee with ee; injection ef with ef
    rw [← ee, ← ef]
    simpa [Cmp.eq, sub_eq_zero] using hne

theorem loopLeftOrEqual {U : List L} {U' : List K} (hU : Forall₂ r U U') {u : L} {u' : K} (hu : r u u')
    (s : ℕ) : ∀ i, ERel (· = ·) (Knots.loopLeftOrEqual U u s i) (Knots.loopLeftOrEqual U' u' s i) := by
  induction s with
  | zero =>
    intro i
    rw [Knots.loopLeftOrEqual, Knots.loopLeftOrEqual]
    exact (idx_rel hU _).bind fun x x' hx => .ite (hr.le_iff hx hu) (fun _ => .pure rfl) (fun _ => .pure rfl)
  | succ s ih =>
    intro i
    rw [Knots.loopLeftOrEqual, Knots.loopLeftOrEqual]
    refine (idx_rel hU _).bind fun x x' hx => .ite (hr.le_iff hx hu) (fun _ => ?_) (fun _ => .pure rfl)
    exact (idx_rel hU _).bind fun a a' ha => (idx_rel hU _).bind fun b b' hb =>
      .ite (hr.eq_iff ha hb) (fun _ => .pure rfl) (fun _ => ih _)

end Follows

namespace KnotsRel

variable {r : L → K → Prop} {a : Knots L} {b : Knots K} (h : KnotsRel r a b)

include h

theorem vectorDerivative (k : ℕ) : ERel (Forall₂ r) (a.vectorDerivative k) (b.vectorDerivative k) :=
  idx_rel h.Uk k

theorem vector : ERel (Forall₂ r) a.vector b.vector := idx_rel h.Uk 0

theorem degree : a.degree = b.degree := h.p

theorem segments : ERel (· = ·) a.segments b.segments := by
  rw [Knots.segments, Knots.segments, Knots.segmentsDerivative, Knots.segmentsDerivative, h.p]
  exact (idx_rel h.Uk 0).bind fun U U' hU => by rw [hU.length_eq]; exact .refl _

theorem derive : ERel (KnotsRel r) a.derive b.derive := by
  rw [Knots.derive, Knots.derive, h.p]
  refine ERel.bind (R := Forall₂ (Forall₂ r)) ?_ fun U U' hU => .pure ⟨hU, rfl, rfl⟩
  refine forRangeIncl_rel (forall₂_take _ h.Uk) fun U U' hU k _ _ => ?_
  refine (idx_rel hU _).bind fun x x' hx => ?_
  rw [hx.length_eq]
  exact .same fun l => (segment_rel hx 1 l).bind fun s s' hs => .pure (forall₂_append' hU (.cons hs .nil))

theorem domain : ERel (Forall₂ r) a.domain b.domain := by
  rw [Knots.domain, Knots.domain, Knots.domainDerivative, Knots.domainDerivative, Knots.domainCount,
    Knots.domainCount, h.p]
  exact (idx_rel h.Uk 0).bind fun U U' hU => .same fun s =>
    ERel.bind_eq (.bind_eq h.segments fun n _ => .refl _) fun c _ => segment_rel hU s c

theorem multiplicity (hr : Follows r) {u : L} {u' : K} (hu : r u u') :
    ERel (· = ·) (a.multiplicity u) (b.multiplicity u') := by
  rw [Knots.multiplicity, Knots.multiplicity]
  exact h.domain.bind fun U U' hU => .pure (filter_length_rel hU fun x y hxy => by rw [hr.eq hxy hu]; rfl)

theorem findIdx (hr : Follows r) {u : L} {u' : K} (hu : r u u') (k : ℕ) :
    ERel (· = ·) (a.findIdx u k .leftOrEqual) (b.findIdx u' k .leftOrEqual) := by
  rw [Knots.findIdx, Knots.findIdx, h.degree]
  refine (h.vectorDerivative k).bind fun U U' hU => .same fun pk => ?_
  exact .bind_eq h.segments fun n _ => .same fun lim => hr.loopLeftOrEqual hU hu _ _

theorem evaluate (hr : Follows r) {u : L} {u' : K} (hu : r u u') (k i p : ℕ) :
    ERel r (a.evaluate k i p u) (b.evaluate k i p u') := by
  rw [Knots.evaluate, Knots.evaluate]
  exact (idx_rel h.Uk k).bind fun U U' hU => .bind_eq h.segments fun n _ => .same fun pk =>
    hr.basis hU k n hu pk i

end KnotsRel

theorem Knots.new_rel {r : L → K → Prop} {U : List L} {U' : List K} (hU : Forall₂ r U U') (p : ℕ) :
    ERel (KnotsRel r) (Knots.new p U) (Knots.new p U') :=
  KnotsRel.derive ⟨.cons hU .nil, rfl, rfl⟩

namespace PointsRel

variable {r : L → K → Prop} {d : ℕ} {a : ControlPoints L d} {b : ControlPoints K d} (h : PointsRel r a b)

include h

theorem matrix : ERel (Forall₂ (PRel r)) a.matrix b.matrix := idx_rel h.Pk 0

theorem count : ERel (· = ·) a.count b.count :=
  (idx_rel h.Pk 0).bind fun _ _ hm => .pure hm.length_eq

theorem segments : ERel (· = ·) a.segments b.segments :=
  .bind_eq h.count fun _ _ => .refl _

theorem matrixDerivative (k : ℕ) :
    ERel (Forall₂ (PRel r)) (a.matrixDerivative k) (b.matrixDerivative k) := by
  rw [ControlPoints.matrixDerivative, ControlPoints.matrixDerivative, h.kMax]
  exact .ite Iff.rfl (fun _ => idx_rel h.Pk k) (fun _ => .error _)

theorem deriveSinglePoint (hr : Follows r) {kn : Knots L} {kn' : Knots K} (hk : KnotsRel r kn kn') (k : ℕ) :
    ∀ i, ERel (PRel r) (a.deriveSinglePoint kn k i) (b.deriveSinglePoint kn' k i) := by
  induction k with
  | zero =>
    intro i
    rw [ControlPoints.deriveSinglePoint, ControlPoints.deriveSinglePoint]
    exact (idx_rel h.Pk 0).bind fun _ _ hm => column_rel hm i
  | succ k ih =>
    intro i
    rw [ControlPoints.deriveSinglePoint, ControlPoints.deriveSinglePoint]
    simp only [hk.degree]
    refine hk.vector.bind fun U U' hU => (idx_rel hU _).bind' fun x x' ex hx =>
      (idx_rel hU _).bind' fun y y' ey hy => .ite (hr.eq_iff hx hy) (fun _ => .pure hr.zeroP) fun hne => ?_
    refine .same fun c => (idx_rel hU _).bind' fun x1 x1' ex1 hx1 =>
      (idx_rel hU _).bind' fun y1 y1' ey1 hy1 => (ih _).bind fun v v' hv => (ih _).bind fun w w' hw => .pure ?_
    refine hr.scale (hr.div (hr.cast _) (hr.sub hx1 hy1) ?_) (hr.subP hv hw)
    rw [ex] at ex1; rw [ey] at ey1
    injection ex1 with ex1; injection ey1 with ey1
    rw [← ex1, ← ey1]
    simpa [Cmp.eq, sub_eq_zero] using hne

theorem derive (hr : Follows r) {kn : Knots L} {kn' : Knots K} (hk : KnotsRel r kn kn') :
    ERel (PointsRel r) (a.derive kn) (b.derive kn') := by
  rw [ControlPoints.derive, ControlPoints.derive, hk.degree]
  refine .bind_eq h.segments fun n _ => ?_
  refine ERel.bind (R := Forall₂ (Forall₂ (PRel r))) ?_ fun P P' hP => .pure ⟨hP, rfl⟩
  refine forRangeIncl_rel (forall₂_take _ h.Pk) fun P P' hP k _ _ => .same fun nk => ?_
  refine (mapM_rel (R := PRel r) _ fun i _ => ?_).bind fun Q Q' hQ =>
    .pure (forall₂_append' hP (.cons hQ .nil))
  exact deriveSinglePoint (a := ⟨P, a.kMax⟩) (b := ⟨P', b.kMax⟩) ⟨hP, h.kMax⟩ hr hk k i

end PointsRel

variable {r : L → K → Prop} {d : ℕ}

theorem ControlPoints.new_rel {P : List (Pt L d)} {P' : List (Pt K d)} (hP : Forall₂ (PRel r) P P') :
    PointsRel r (ControlPoints.new P) (ControlPoints.new P') := ⟨.cons hP .nil, rfl⟩

namespace CurveRel

variable {a : Curve L d} {b : Curve K d}

theorem degree (h : CurveRel r a b) : a.degree = b.degree := h.knots.p

theorem calculateDerivatives (hr : Follows r) (h : CurveRel r a b) :
    ERel (CurveRel r) a.calculateDerivatives b.calculateDerivatives := by
  rw [Curve.calculateDerivatives, Curve.calculateDerivatives]
  exact h.knots.derive.bind fun kn kn' hkn => (h.points.derive hr hkn).bind fun P P' hP => .pure ⟨hkn, hP⟩

theorem new (hr : Follows r) {kn : Knots L} {kn' : Knots K} (hk : KnotsRel r kn kn')
    {P : ControlPoints L d} {P' : ControlPoints K d} (hP : PointsRel r P P') :
    ERel (ResultRel (CurveErrorRel r) (CurveRel r)) (Curve.new kn P) (Curve.new kn' P') := by
  rw [Curve.new, Curve.new, hk.degree]
  refine .bind_eq hP.segments fun n _ => .ite Iff.rfl (fun _ => .pure (.error (.mismatch _ _))) fun _ => ?_
  exact (calculateDerivatives hr ⟨hk, hP⟩).bind fun c c' hc => .pure (.ok hc)

theorem mkCurve (hr : Follows r) {U : List L} {U' : List K} (hU : Forall₂ r U U') (p : ℕ)
    {P : List (Pt L d)} {P' : List (Pt K d)} (hP : Forall₂ (PRel r) P P') :
    ERel (ResultRel (CurveErrorRel r) (CurveRel r)) (mkCurve p U P) (mkCurve p U' P') := by
  rw [BSpline.mkCurve, BSpline.mkCurve]
  exact (Knots.new_rel hU p).bind fun kn kn' hkn => new hr hkn (ControlPoints.new_rel hP)

theorem evaluateDerivative (hr : Follows r) (h : CurveRel r a b) {u : L} {u' : K} (hu : r u u') (k : ℕ) :
    ERel (ResultRel (CurveErrorRel r) (PRel r)) (a.evaluateDerivative u k) (b.evaluateDerivative u' k) := by
  rw [Curve.evaluateDerivative, Curve.evaluateDerivative, h.degree]
  refine .ite ?_ (fun _ => .pure (.error (.bounds hu hr.zero hr.one))) fun _ => ?_
  · rw [hr.le hr.zero hu, hr.le hu hr.one]; rfl
  refine .ite Iff.rfl (fun _ => ?_) fun _ => .pure (.ok hr.zeroP)
  refine .bind_eq h.points.segments fun n _ => .bind_eq (h.knots.findIdx hr hu k) fun l _ => .same fun pk =>
    .same fun lo => .same fun hi => ?_
  refine ERel.bind (R := PRel r) (forRangeIncl_rel hr.zeroP fun v v' hv i _ _ => ?_) fun v v' hv => .pure (.ok hv)
  exact (h.knots.evaluate hr hu k i _).bind fun N N' hN => (h.points.matrixDerivative k).bind fun m m' hm =>
    (column_rel hm i).bind fun c c' hc => .pure (hr.addP hv (hr.scale hN hc))

theorem insertLoop (hr : Follows r) {u : L} {u' : K} (hu : r u u') {U : List L} {U' : List K}
    (hU : Forall₂ r U U') {P : List (Pt L d)} {P' : List (Pt K d)} (hP : Forall₂ (PRel r) P P')
    (p lo hi : ℕ) {Q : List (Pt L d)} {Q' : List (Pt K d)} (hQ : Forall₂ (PRel r) Q Q')
    (hd : ∀ i x y, lo ≤ i → i ≤ hi → idx U' i = .ok x → idx U' (i + p) = .ok y → y ≠ x) :
    ERel (Forall₂ (PRel r)) (insertLoop u U P p lo hi Q) (insertLoop u' U' P' p lo hi Q') := by
  rw [BSpline.insertLoop, BSpline.insertLoop]
  refine forRangeIncl_rel hQ fun Q Q' hQ i h1 h2 => ?_
  refine (idx_rel hU _).bind' fun x x' ex hx => (idx_rel hU _).bind' fun y y' ey hy =>
    (idx_rel hU _).bind' fun z z' ez hz => .same fun i1 => (column_rel hP _).bind fun v v' hv =>
    (column_rel hP _).bind fun w w' hw => ?_
  have hne : y' - z' ≠ 0 := by
    rw [ex] at ez
    injection ez with ez
    rw [← ez]
    exact sub_ne_zero.mpr (hd i x' y' h1 h2 ex ey)
  have ha := hr.div (hr.sub hu hx) (hr.sub hy hz) hne
  rw [addCol, addCol]
  exact (column_rel hQ i).bind fun c c' hc => .pure (forall₂_set hQ i (hr.addP hc
    (hr.addP (hr.scale (hr.sub hr.one ha) hv) (hr.scale ha hw))))

/-- no divisor of an insertion of `u` is zero -/
def Safe (c : Curve K d) (u : K) : Prop :=
  ∀ U l i x y, c.knots.vector = .ok U → c.knots.findIdx u 0 .leftOrEqual = .ok l →
    l - c.degree < i → i ≤ l → idx U i = .ok x → idx U (i + c.degree) = .ok y → y ≠ x

theorem insert (hr : Follows r) (h : CurveRel r a b) {u : L} {u' : K} (hu : r u u')
    (hs : ¬ (u' ≤ 0 ∨ 1 ≤ u') → (∀ m, b.knots.multiplicity u' = .ok m → m ≤ b.degree) → Safe b u') :
    ERel (fun x y => CurveRel r x.1 y.1 ∧ ResultRel (InsertErrorRel r) (fun _ _ => True) x.2 y.2)
      (insert a u) (insert b u') := by
  rw [BSpline.insert, BSpline.insert]
  refine .ite ?_ (fun _ => .pure ⟨h, .error (.bounds hu hr.zero hr.one)⟩) fun hb => ?_
  · rw [hr.le hu hr.zero, hr.le hr.one hu]; rfl
  refine .bind_eq (h.knots.multiplicity hr hu) fun m hm => ?_
  rw [h.degree]
  refine .ite Iff.rfl (fun _ => .pure ⟨h, .error (.multiplicity hu _ _)⟩) fun hmp => ?_
  have hsafe := hs (by simpa [Cmp.le] using hb) (fun m' hm' => by
    rw [hm] at hm'; injection hm' with hm'; omega)
  refine h.knots.vector.bind' fun U U' eU hU => h.points.matrix.bind fun P P' hP =>
    .bind_eq (h.knots.findIdx hr hu 0) fun l hl => (insertRow_rel hU _ hu).bind fun V V' hV =>
    .bind_eq h.points.count fun n _ => ?_
  dsimp only
  refine .same' fun lp hlp => ?_
  refine (segment_rel hP _ _).bind fun T T' hT => (setSegment_rel (hr.zeroCols d _) _ hT).bind
    fun Q Q' hQ => .same fun bot => ?_
  rw [hQ.length_eq, hP.length_eq]
  refine .same fun s1 => .same fun s0 => (segment_rel hP _ _).bind fun B B' hB =>
    (setSegment_rel hQ _ hB).bind fun Q Q' hQ => ?_
  refine (insertLoop hr hu hU hP _ _ _ hQ ?_).bind fun Q Q' hQ => ?_
  · intro i x y h1 h2 hx hy
    rw [usub] at hlp
    split at hlp
    · injection hlp with hlp
      exact hsafe U' l i x y eU hl (by omega) h2 hx hy
    · cases hlp
  · refine (setIdx_rel h.knots.Uk 0 hV).bind fun W W' hW => (setIdx_rel h.points.Pk 0 hQ).bind
      fun R R' hR => ?_
    exact (calculateDerivatives (a := ⟨{ a.knots with Uk := W }, { a.points with Pk := R }⟩)
      (b := ⟨{ b.knots with Uk := W' }, { b.points with Pk := R' }⟩) hr
      ⟨⟨hW, h.knots.p, h.knots.kMax⟩, ⟨hR, h.points.kMax⟩⟩).bind
      fun c c' hc => .pure ⟨hc, .ok trivial⟩

end CurveRel

/-! ### Splitting -/

namespace Follows

variable (hr : Follows r)

include hr

theorem vmin {v : List L} {w : List K} (h : Forall₂ r v w) : r (BSpline.vmin v) (BSpline.vmin w) := by
  cases h with
  | nil => exact hr.zero
  | cons hab h =>
    rw [BSpline.vmin, BSpline.vmin]
    rename_i a b v w
    induction h generalizing a b with
    | nil => exact hab
    | cons hcd _ ih =>
      rw [foldl_cons, foldl_cons]
      apply ih
      rw [hr.le hab hcd]
      simp only [Cmp.le]
      split
      · exact hab
      · exact hcd

theorem vmax {v : List L} {w : List K} (h : Forall₂ r v w) : r (BSpline.vmax v) (BSpline.vmax w) := by
  cases h with
  | nil => exact hr.zero
  | cons hab h =>
    rw [BSpline.vmax, BSpline.vmax]
    rename_i a b v w
    induction h generalizing a b with
    | nil => exact hab
    | cons hcd _ ih =>
      rw [foldl_cons, foldl_cons]
      apply ih
      rw [hr.le hcd hab]
      simp only [Cmp.le]
      split
      · exact hab
      · exact hcd

theorem rescaleKnots {v : List L} {w : List K} (h : Forall₂ r v w) {o n : L × L} {o' n' : K × K}
    (ho1 : r o.1 o'.1) (ho2 : r o.2 o'.2) (hn1 : r n.1 n'.1) (hn2 : r n.2 n'.2) (hd : o'.2 ≠ o'.1) :
    Forall₂ r (BSpline.rescaleKnots v o n) (BSpline.rescaleKnots w o' n') :=
  forall₂_map' h fun _ _ hab => hr.add (hr.mul (hr.div (hr.sub hab ho1) (hr.sub ho2 ho1)
    (sub_ne_zero.mpr hd)) (hr.sub hn2 hn1)) hn1

theorem normalizeKnots {v : List L} {w : List K} (h : Forall₂ r v w)
    (hd : BSpline.vmax w ≠ BSpline.vmin w) :
    Forall₂ r (BSpline.normalizeKnots v) (BSpline.normalizeKnots w) :=
  hr.rescaleKnots h (hr.vmin h) (hr.vmax h) hr.zero hr.one hd

theorem normalizeIf {v : List L} {w : List K} (h : Forall₂ r v w) (f : Bool)
    (hd : f = true → BSpline.vmax w ≠ BSpline.vmin w) :
    Forall₂ r (BSpline.normalizeIf f v) (BSpline.normalizeIf f w) := by
  cases f
  · exact h
  · exact hr.normalizeKnots h (hd rfl)

theorem reverseKnots {v : List L} {w : List K} (h : Forall₂ r v w) :
    Forall₂ r (BSpline.reverseKnots v) (BSpline.reverseKnots w) :=
  forall₂_map' (forall₂_swapLoop h) fun _ _ hab => hr.mul (hr.add hab (hr.neg hr.one)) (hr.neg hr.one)

end Follows

namespace CurveRel

variable {a : Curve L d} {b : Curve K d}

theorem reverse (hr : Follows r) (h : CurveRel r a b) : ERel (CurveRel r) a.reverse b.reverse := by
  rw [Curve.reverse, Curve.reverse]
  have hk : KnotsRel r a.knots.reverse b.knots.reverse :=
    ⟨forall₂_map' h.knots.Uk fun _ _ hU => hr.reverseKnots hU, h.knots.p, h.knots.kMax⟩
  refine ERel.bind (R := PointsRel r) ?_ fun P P' hP => .pure ⟨hk, hP⟩
  rw [ControlPoints.reverse, ControlPoints.reverse, h.points.kMax]
  refine forRangeIncl_rel h.points fun P P' hP k _ _ => (hP.matrixDerivative k).bind fun m m' hm => ?_
  refine ERel.bind (R := Forall₂ (Forall₂ (PRel r))) ?_ fun Q Q' hQ => .pure ⟨hQ, hP.kMax⟩
  refine setIdx_rel hP.Pk k ?_
  split
  · exact forall₂_map' (forall₂_swapLoop hm) fun _ _ hab i => hr.mul (hab i) (hr.neg hr.one)
  · exact forall₂_swapLoop hm

theorem insertTimes (hr : Follows r) {u : L} {u' : K} (hu : r u u') (x : ℕ) : ∀ {a : Curve L d} {b : Curve K d},
    CurveRel r a b →
    (∀ j c, j < x → b.insertTimes u' j = .ok (c, .ok ()) → ¬ (u' ≤ 0 ∨ 1 ≤ u') →
      (∀ m, c.knots.multiplicity u' = .ok m → m ≤ c.degree) → Safe c u') →
    ERel (fun x y => CurveRel r x.1 y.1 ∧ ResultRel (InsertErrorRel r) (fun _ _ => True) x.2 y.2)
      (a.insertTimes u x) (b.insertTimes u' x) := by
  induction x with
  | zero => intro a b h _; exact .pure ⟨h, .ok trivial⟩
  | succ x ih =>
    intro a b h hs
    rw [Curve.insertTimes, Curve.insertTimes]
    refine (insert hr h hu (hs 0 b (by omega) rfl)).bind' ?_
    rintro ⟨c, e⟩ ⟨c', e'⟩ hi ⟨hc, he⟩
    cases he with
    | error he => exact .pure ⟨hc, .error he⟩
    | ok _ =>
      refine ih hc fun j c'' hj hj' => hs (j + 1) c'' (by omega) ?_
      rw [Curve.insertTimes, hi]; exact hj'

theorem insertUnwrapTimes (hr : Follows r) {u : L} {u' : K} (hu : r u u') (x : ℕ) :
    ∀ {a : Curve L d} {b : Curve K d}, CurveRel r a b →
    (∀ j c, j < x → b.insertTimes u' j = .ok (c, .ok ()) → ¬ (u' ≤ 0 ∨ 1 ≤ u') →
      (∀ m, c.knots.multiplicity u' = .ok m → m ≤ c.degree) → Safe c u') →
    ERel (CurveRel r) (insertUnwrapTimes a u x) (insertUnwrapTimes b u' x) := by
  induction x with
  | zero => intro a b h _; exact .pure h
  | succ x ih =>
    intro a b h hs
    rw [BSpline.insertUnwrapTimes, BSpline.insertUnwrapTimes]
    refine (insert hr h hu (hs 0 b (by omega) rfl)).bind' ?_
    rintro ⟨c, e⟩ ⟨c', e'⟩ hi ⟨hc, he⟩
    cases he with
    | error he => exact .error _
    | ok _ =>
      refine ih hc fun j c'' hj hj' => hs (j + 1) c'' (by omega) ?_
      rw [Curve.insertTimes, hi]; exact hj'

theorem splitLeft (hr : Follows r) (p : ℕ) {U : List L} {U' : List K} (hU : Forall₂ r U U')
    {P : List (Pt L d)} {P' : List (Pt K d)} (hP : Forall₂ (PRel r) P P') {u : L} {u' : K} (hu : r u u')
    (len : ℕ) (mp norm : Bool) (hd : norm = true → vmax (U'.take len ++ [u']) ≠ vmin (U'.take len ++ [u'])) :
    ERel (ResultRel (CurveErrorRel r) (CurveRel r)) (splitLeft p U P u len mp norm)
      (splitLeft p U' P' u' len mp norm) := by
  rw [BSpline.splitLeft, BSpline.splitLeft]
  dsimp only
  refine (head_rel hU len).bind' fun s s' es hs => (setSegment_rel (hr.zeros _) 0 hs).bind' fun V V' eV hV =>
    (setIdx_rel hV _ hu).bind' fun W W' eW hW => ?_
  have hW' : W' = U'.take len ++ [u'] := by
    rw [head, segment] at es
    split at es
    · rename_i hl
      injection es with es
      rw [drop_zero] at es
      have hsl : s'.length = len := by rw [← es, length_take]; omega
      rw [setSegment, if_pos (by simp [BSpline.zeros, hsl])] at eV
      injection eV with eV
      rw [setIdx] at eW
      split at eW
      · injection eW with eW
        rw [← eW, ← eV, es, hsl, take_zero, nil_append]
        rw [show BSpline.zeros (K := K) (len + 1) = replicate len 0 ++ [0] from replicate_succ',
          Nat.zero_add, drop_left' (by simp), ← hsl, set_append_right _ _ le_rfl, Nat.sub_self]
        rfl
      · cases eW
    · cases es
  have hN := hr.normalizeIf hW norm (by rw [hW']; exact hd)
  rw [hN.length_eq]
  have rest : ∀ cols, ERel (ResultRel (CurveErrorRel r) (CurveRel r))
      (do let Pl ← segment P 0 cols
          BSpline.mkCurve p (normalizeIf norm W) Pl)
      (do let Pl ← segment P' 0 cols
          BSpline.mkCurve p (normalizeIf norm W') Pl) := fun cols =>
    (segment_rel hP 0 cols).bind fun Q Q' hQ => mkCurve hr hN p hQ
  split
  · exact .same fun x => rest _
  · exact .same fun x => rest _

theorem splitRight (hr : Follows r) (p : ℕ) {U : List L} {U' : List K} (hU : Forall₂ r U U')
    {P : List (Pt L d)} {P' : List (Pt K d)} (hP : Forall₂ (PRel r) P P') {u : L} {u' : K} (hu : r u u')
    (frm : ℕ) (mp norm : Bool) (hd : norm = true → vmax (u' :: U'.drop frm) ≠ vmin (u' :: U'.drop frm)) :
    ERel (ResultRel (CurveErrorRel r) (CurveRel r)) (splitRight p U P u frm mp norm)
      (splitRight p U' P' u' frm mp norm) := by
  rw [BSpline.splitRight, BSpline.splitRight, hU.length_eq, hP.length_eq]
  refine .same' fun len el => (setIdx_rel (hr.zeros len) 0 hu).bind' fun V V' eV hV => .same' fun t et =>
    (tail_rel hU t).bind' fun s s' es hs => (setTail_rel hV hs).bind' fun W W' eW hW => ?_
  dsimp only
  have hW' : W' = u' :: U'.drop frm := by
    rw [usub] at el et
    split at et
    · rename_i hfrm
      injection et with et
      rw [if_pos (by omega)] at el
      injection el with el
      rw [tail, usub, if_pos (by omega)] at es
      change segment U' (U'.length - t) t = _ at es
      rw [segment, if_pos (by omega)] at es
      injection es with es
      have es' : s' = U'.drop frm := by
        rw [← es, show U'.length - t = frm by omega, take_of_length_le (by simp; omega)]
      rw [setIdx] at eV
      split at eV
      · injection eV with eV
        have hVl : V'.length = len := by rw [← eV]; simp [BSpline.zeros]
        have hsl : s'.length = t := by rw [es', length_drop]; omega
        rw [setTail, usub, if_pos (by omega)] at eW
        change setSegment V' (V'.length - s'.length) s' = _ at eW
        rw [setSegment, if_pos (by omega)] at eW
        injection eW with eW
        have h1 : V'.length - s'.length = 1 := by omega
        rw [← eW, h1, drop_eq_nil_of_le (by omega), append_nil, es', ← eV]
        obtain ⟨len', rfl⟩ : ∃ k, len = k + 1 := ⟨len - 1, by omega⟩
        rfl
      · cases eV
    · cases et
  have hN := hr.normalizeIf hW norm (by rw [hW']; exact hd)
  rw [hN.length_eq]
  have rest : ∀ cols, ERel (ResultRel (CurveErrorRel r) (CurveRel r))
      (do let s ← usub P'.length cols
          let Pr ← segment P s cols
          BSpline.mkCurve p (normalizeIf norm W) Pr)
      (do let s ← usub P'.length cols
          let Pr ← segment P' s cols
          BSpline.mkCurve p (normalizeIf norm W') Pr) := fun cols =>
    .same fun s => (segment_rel hP s cols).bind fun Q Q' hQ => mkCurve hr hN p hQ
  split
  · exact .same fun x => rest _
  · exact .same fun x => rest _

/-- no divisor of a split at `u` is zero -/
structure SplitSafe (b : Curve K d) (u : K) (norm : Bool × Bool) : Prop where
  ins : ∀ j c, b.insertTimes u j = .ok (c, .ok ()) →
    (∀ m, c.knots.multiplicity u = .ok m → m ≤ c.degree) → Safe c u
  left : ∀ c U x l len, BSpline.insertUnwrapTimes b u x = .ok c → c.knots.vector = .ok U → norm.1 = true →
    b.knots.findIdx u 0 .leftOrEqual = .ok l → 0 < len →
    vmax (U.take len ++ [u]) ≠ vmin (U.take len ++ [u])
  right : ∀ c U x l frm, BSpline.insertUnwrapTimes b u x = .ok c → c.knots.vector = .ok U → norm.2 = true →
    b.knots.findIdx u 0 .leftOrEqual = .ok l → frm ≤ l + 1 →
    vmax (u :: U.drop frm) ≠ vmin (u :: U.drop frm)

theorem splitAndNormalize (hr : Follows r) (h : CurveRel r a b) {u : L} {u' : K} (hu : r u u')
    (norm : Bool × Bool) (hs : ¬ (u' ≤ 0 ∨ 1 ≤ u') → SplitSafe b u' norm) :
    ERel (ResultRel (SplitErrorRel r) (fun x y => CurveRel r x.1 y.1 ∧ CurveRel r x.2 y.2))
      (splitAndNormalize a u norm) (splitAndNormalize b u' norm) := by
  rw [BSpline.splitAndNormalize, BSpline.splitAndNormalize]
  refine .ite ?_ (fun _ => .pure (.error (.bounds hu hr.zero hr.one))) fun hb => ?_
  · rw [hr.le hu hr.zero, hr.le hr.one hu]; rfl
  have hs := hs (by simpa [Cmp.le] using hb)
  rw [h.degree]
  refine .bind_eq (h.knots.findIdx hr hu 0) fun l hl => h.knots.vector.bind fun U U' hU => ?_
  dsimp only
  rw [takeWhile_length_rel (g := fun x => Cmp.eq x u') (forall₂_drop l hU)
    fun x y hxy => by rw [hr.eq hxy hu]; rfl]
  generalize hm : ((drop l U').takeWhile (fun x => Cmp.eq x u')).length = m
  refine .ite Iff.rfl (fun _ => .pure (.error (.multiplicity hu _ _))) fun hmp => .same fun t => ?_
  refine (insertUnwrapTimes hr hu t h fun j c _ hj _ hc => hs.ins j c hj hc).bind' fun c c' ec hc => ?_
  refine hc.knots.vector.bind' fun V V' eV hV => hc.points.matrix.bind fun P P' hP => ?_
  refine (splitLeft hr _ hV hP hu _ _ _ fun hn => hs.left c' V' t l _ ec eV hn hl ?_).bind fun x x' hx => ?_
  · split
    · rename_i h1
      simp only [decide_eq_true_eq] at h1
      omega
    · omega
  · cases hx with
    | error he => exact .pure (.error (.curve he))
    | ok hx =>
      refine (splitRight hr _ hV hP hu _ _ _ fun hn => hs.right c' V' t l _ ec eV hn hl ?_).bind
        fun y y' hy => ?_
      · split <;> omega
      · cases hy with
        | error he => exact .pure (.error (.curve he))
        | ok hy => exact .pure (.ok ⟨hx, hy⟩)

end CurveRel

end BSpline
