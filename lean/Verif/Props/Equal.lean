import Verif.Model.Equal
import Verif.Props.Mirror
import Verif.Props.Reported
import Verif.Refine.Reverse

/-!
# Comparing points and results with `==`: C154
-/

set_option linter.unusedSectionVars false

namespace BSpline

open Ieee

section Exact

variable {K : Type} [Field K] [LinearOrder K] [IsStrictOrderedRing K] {d : ℕ}

theorem listEq_iff {α : Type} {eq : α → α → Bool} : ∀ {l m : List α},
    listEq eq l m = true ↔ List.Forall₂ (fun a b => eq a b = true) l m
  | [], [] => by simp [listEq]
  | [], _ :: _ => by simp [listEq]
  | _ :: _, [] => by simp [listEq]
  | a :: l, b :: m => by simp [listEq, listEq_iff]

theorem ptEq_iff {L : Type} [Cmp L] {v w : Pt L d} : ptEq v w = true ↔ ∀ r, Cmp.eq (v r) (w r) = true := by
  simp [ptEq]

theorem controlPoints_eq_iff {L : Type} [Cmp L] {a b : ControlPoints L d} : a.eq b = true ↔ a.kMax = b.kMax ∧
    List.Forall₂ (List.Forall₂ fun v w => ∀ r, Cmp.eq (v r) (w r) = true) a.Pk b.Pk := by
  rw [ControlPoints.eq, Bool.and_eq_true, listEq_iff, beq_iff_eq, and_comm]
  simp only [listEq_iff, ptEq_iff]

/-- **C154** In exact arithmetic `==` is equality, of control points with all their stored derivatives. -/
theorem C154_exact (a b : ControlPoints K d) : a.eq b = true ↔ a = b := by
  rw [controlPoints_eq_iff]
  have h : (fun v w : Pt K d => ∀ r, Cmp.eq (v r) (w r) = true) = Eq := by
    funext v w
    simp [Cmp.eq, funext_iff]
  rw [h, List.forall₂_eq_eq_eq, List.forall₂_eq_eq_eq]
  constructor
  · rintro ⟨h1, h2⟩
    cases a; cases b
    simp_all
  · rintro rfl
    exact ⟨rfl, rfl⟩

end Exact

variable {K : Type} [Field K] [LinearOrder K] [IsStrictOrderedRing K] {F : Format K} {d : ℕ}

theorem Ieee.eq_refl_iff {x : Ieee F} : Cmp.eq x x = true ↔ x ≠ nan := by
  change Ieee.eq x x = true ↔ _
  rcases x with _ | s | ⟨s, v⟩ <;> simp [Ieee.eq]

theorem Ieee.eq_symm {x y : Ieee F} (h : Cmp.eq x y = true) : Cmp.eq y x = true := by
  change Ieee.eq x y = true at h
  change Ieee.eq y x = true
  rcases x with _ | s | ⟨s, v⟩ <;> rcases y with _ | t | ⟨t, w⟩ <;> simp_all [Ieee.eq]

theorem Ieee.eq_trans {x y z : Ieee F} (h : Cmp.eq x y = true) (h' : Cmp.eq y z = true) : Cmp.eq x z = true := by
  change Ieee.eq x y = true at h
  change Ieee.eq y z = true at h'
  change Ieee.eq x z = true
  rcases x with _ | s | ⟨s, v⟩ <;> rcases y with _ | t | ⟨t, w⟩ <;> rcases z with _ | a | ⟨a, x⟩ <;>
    simp_all [Ieee.eq]

/-- **C154** Control points equal themselves exactly if no coordinate of a control point, or of a stored control point of
a derivative, is NaN. -/
theorem C154_refl (a : ControlPoints (Ieee F) d) :
    a.eq a = true ↔ ∀ m ∈ a.Pk, ∀ v ∈ m, ∀ r, v r ≠ nan := by
  rw [controlPoints_eq_iff]
  simp only [List.forall₂_same, Ieee.eq_refl_iff, true_and]

/-- **C154** `==` is symmetric and transitive. -/
theorem C154_symm {a b : ControlPoints (Ieee F) d} (h : a.eq b = true) : b.eq a = true := by
  rw [controlPoints_eq_iff] at h ⊢
  refine ⟨h.1.symm, List.Forall₂.flip ?_⟩
  refine h.2.imp fun m m' h => List.Forall₂.flip (h.imp fun v w h r => Ieee.eq_symm (h r))

theorem forall₂_comp {α : Type} {R : α → α → Prop} (hR : ∀ a b c, R a b → R b c → R a c) :
    ∀ {l m n : List α}, List.Forall₂ R l m → List.Forall₂ R m n → List.Forall₂ R l n
  | [], _, _, .nil, .nil => .nil
  | _ :: _, _, _, .cons h t, .cons h' t' => .cons (hR _ _ _ h h') (forall₂_comp hR t t')

theorem C154_trans {a b c : ControlPoints (Ieee F) d} (h : a.eq b = true) (h' : b.eq c = true) : a.eq c = true := by
  rw [controlPoints_eq_iff] at h h' ⊢
  exact ⟨h.1.trans h'.1,
    forall₂_comp (fun _ _ _ => forall₂_comp fun _ _ _ g g' r => Ieee.eq_trans (g r) (g' r)) h.2 h'.2⟩

/-- **C154** The control points in a curve never equal the control points that it was made from, unless the degree is
zero: those in the curve carry the derivatives. -/
theorem C154_constructed {c : Curve (Ieee F) d} {p : ℕ} {U : List (Ieee F)} {P : List (Pt (Ieee F) d)}
    (hc : Built c p U P) (hp : 1 ≤ p) (hl : U.length = P.length + p + 1) :
    c.points.eq (ControlPoints.new P) = false := by
  obtain ⟨n, -, rfl⟩ := mkCurve_shaped hc hl
  rw [Bool.eq_false_iff]
  intro h
  rw [controlPoints_eq_iff] at h
  have : p = 0 := h.1
  omega

theorem mirrored_of_eq {v w : Pt (Ieee F) d} (h : ∀ r, Cmp.eq (v r) (w r) = true) : Mirrored (fun _ => false) v w :=
  fun r => Or.inl (h r)

/-- **C154** Equal control points are interchangeable: curves with the same knots return the same errors and panics, and
values and derivatives whose coordinates are equal or both NaN. In particular, the results are equal if one of them has
no NaN. -/
theorem C154_evaluate [Build] {c c' : Curve (Ieee F) d} (hk : c.knots = c'.knots) (h : c.points.eq c'.points = true)
    (u : Ieee F) (k : ℕ) :
    Pw.XRel (Pw.XRel fun v w => ∀ r, v r = nan ∧ w r = nan ∨ Cmp.eq (v r) (w r) = true)
      (c.evaluateDerivative u k) (c'.evaluateDerivative u k) := by
  rw [controlPoints_eq_iff] at h
  have h1 : Pw.CurveRel (Mirrored fun _ => false) c c' :=
    ⟨hk, h.1, h.2.imp fun _ _ g => g.imp fun _ _ g => mirrored_of_eq g⟩
  have h2 := C133_evaluate _ h1 u k
  revert h2
  rcases c.evaluateDerivative u k with e | (e | v) <;> rcases c'.evaluateDerivative u k with e' | (e' | w) <;>
    simp only [Pw.XRel] <;> try exact id
  intro g r
  exact (g r).elim Or.inr Or.inl

/-- **C154** Two curves made from equal points over the same knots have equal control points exactly if no coordinate of a
control point or stored derivative is NaN; an infinite coordinate may suffice for that. -/
theorem C154_built {c c' : Curve (Ieee F) d} {p : ℕ} {U : List (Ieee F)} {P Q : List (Pt (Ieee F) d)}
    (hc : Built c p U P) (hc' : Built c' p U Q) (h : DataPoints.eq P Q = true) :
    c.points.eq c'.points = true ↔ ∀ m ∈ c.points.Pk, ∀ v ∈ m, ∀ r, v r ≠ nan := by
  have h0 : List.Forall₂ (Mirrored fun _ => false) P Q := by
    rw [DataPoints.eq, listEq_iff] at h
    exact h.imp fun v w g => mirrored_of_eq (ptEq_iff.mp g)
  have h1 := Pw.mkCurve_rel (mirrored_compatible (F := F) (d := d) fun _ => false) p U h0
  rw [hc, hc'] at h1
  obtain ⟨-, h2, h3⟩ : Pw.CurveRel (Mirrored fun _ => false) c c' := h1
  constructor
  · intro g
    exact (C154_refl _).mp (C154_trans g (C154_symm g))
  · intro g
    rw [controlPoints_eq_iff]
    refine ⟨h2, ?_⟩
    have aux : ∀ {l l' : List (List (Pt (Ieee F) d))}, List.Forall₂ (List.Forall₂ (Mirrored fun _ => false)) l l' →
        (∀ m ∈ l, ∀ v ∈ m, ∀ r, v r ≠ nan) →
        List.Forall₂ (List.Forall₂ fun v w => ∀ r, Cmp.eq (v r) (w r) = true) l l' := by
      intro l l' hl
      have one : ∀ {m m' : List (Pt (Ieee F) d)}, List.Forall₂ (Mirrored fun _ => false) m m' →
          (∀ v ∈ m, ∀ r, v r ≠ nan) → List.Forall₂ (fun v w => ∀ r, Cmp.eq (v r) (w r) = true) m m' := by
        intro m m' hm
        induction hm with
        | nil => exact fun _ => .nil
        | cons h t ih =>
          intro g
          refine .cons (fun r => ?_) (ih fun v hv => g v (List.mem_cons_of_mem _ hv))
          exact (h r).elim id fun e => absurd e.1 (g _ List.mem_cons_self r)
      induction hl with
      | nil => exact fun _ => .nil
      | cons h t ih =>
        intro g
        exact .cons (one h (g _ List.mem_cons_self)) (ih fun m hm => g m (List.mem_cons_of_mem _ hm))
    exact aux h3 g

theorem Ieee.Is.ne_nan {a : Ieee F} {x : K} (h : Is a x) : a ≠ nan := by
  obtain ⟨s, q, rfl⟩ := h
  exact fun e => by injection e

theorem mul_neg_one_twice (x : Ieee F) (hx : x ≠ nan) : Cmp.eq (x * -1 * -1) x = true := by
  have h1 : Is (-1 : Ieee F) (-1) := (is_one (F := F)).neg
  rcases x with _ | s | ⟨s, v⟩
  · exact absurd rfl hx
  · obtain ⟨t, q, e⟩ := h1
    rw [e]
    change Ieee.eq (Ieee.mul (Ieee.mul (inf s) _) _) (inf s) = true
    have : sgn t (-1 : K) = true := by simp [sgn]
    simp [Ieee.mul, Ieee.eq, this]
  · have h0 : Is (fin s v) v.val := ⟨s, v.2, rfl⟩
    have e1 : F.rnd (v.val * -1) = -v.val := by rw [mul_neg_one, F.neg, v.2.1]
    have e3 : F.rnd (-v.val * -1) = v.val := by rw [mul_neg_one, neg_neg, v.2.1]
    have h2 := h0.mul h1 (by rw [mul_neg_one, abs_neg]; exact v.2.2)
    rw [e1] at h2
    have h3 := h2.mul h1 (by rw [mul_neg_one, neg_neg]; exact v.2.2)
    rw [e3] at h3
    obtain ⟨t, q, e⟩ := h3
    rw [e]
    change Ieee.eq _ _ = true
    simp [Ieee.eq]

/-- **C154** Reversing data points or control points twice gives equal ones exactly if there is no NaN. -/
theorem C154_reverse (P : DataPoints (Ieee F) d) (a : ControlPoints (Ieee F) d) (ha : a.Pk.length = a.kMax + 1) :
    (P.reverse.reverse.eq P = true ↔ ∀ v ∈ P, ∀ r, v r ≠ nan) ∧
    ∃ b e, a.reverse = .ok b ∧ b.reverse = .ok e ∧ (e.eq a = true ↔ ∀ m ∈ a.Pk, ∀ v ∈ m, ∀ r, v r ≠ nan) := by
  constructor
  · have : P.reverse.reverse = P := by
      change swapLoop (swapLoop _) = _
      rw [swapLoop_eq, swapLoop_eq, List.reverse_reverse]
    rw [this, DataPoints.eq, listEq_iff]
    simp only [ptEq_iff, List.forall₂_same, Ieee.eq_refl_iff]
  · refine ⟨_, _, controlPoints_reverse_ok ha, controlPoints_reverse_ok (by simpa using ha), ?_⟩
    rw [controlPoints_eq_iff]
    simp only [true_and]
    rw [List.forall₂_iff_get]
    simp only [List.length_mapIdx, true_and, List.get_eq_getElem, List.getElem_mapIdx]
    have key : ∀ (k : ℕ) (m : List (Pt (Ieee F) d)), List.Forall₂ (fun v w => ∀ r, Cmp.eq (v r) (w r) = true)
        (revPts k (revPts k m)) m ↔ ∀ v ∈ m, ∀ r, v r ≠ nan := by
      intro k m
      by_cases hk : k % 2 = 1
      · have : revPts k (revPts k m) = m.map fun v r => v r * -1 * -1 := by
          simp only [revPts, if_pos hk, ← List.map_reverse, List.reverse_reverse, List.map_map]
          rfl
        rw [this, List.forall₂_map_left_iff, List.forall₂_same]
        refine forall₂_congr fun v hv => forall_congr' fun r => ⟨?_, mul_neg_one_twice _⟩
        intro h e
        rw [e] at h
        exact absurd h (by simp [Cmp.eq, Ieee.eq])
      · have : revPts k (revPts k m) = m := by simp only [revPts, if_neg hk, List.reverse_reverse]
        rw [this, List.forall₂_same]
        simp only [Ieee.eq_refl_iff]
    constructor
    · intro h m hm
      obtain ⟨i, hi, rfl⟩ := List.getElem_of_mem hm
      exact (key i _).mp (h i hi hi)
    · intro h i h1 h2
      exact (key i _).mpr (h _ (List.getElem_mem _))

/-- **C154** The result of an evaluation equals itself exactly if it is a point without NaN or the error for a parameter
that is not NaN: `evaluate(NaN) == evaluate(NaN)` is false. -/
theorem C154_result [Build] {c : Curve (Ieee F) d} {u : Ieee F} {k : ℕ} {x} (h : c.evaluateDerivative u k = .ok x) :
    resultEq x x = true ↔ u ≠ nan ∧ ∀ v, x = .ok v → ∀ r, v r ≠ nan := by
  rcases x with e | v
  · have he : e = .parameterOutOfBounds u 0 1 := by
      rw [Curve.evaluateDerivative] at h
      split at h
      · injection h with h; injection h with h; exact h.symm
      · exfalso
        revert h
        simp only [bind, Except.bind, pure, Except.pure]
        repeat' split
        all_goals intro h
        all_goals first
          | (injection h with h; injection h)
          | injection h
    subst he
    have z : Cmp.eq (0 : Ieee F) 0 = true := by
      rw [Ieee.eq_refl_iff]; exact (is_zero (F := F)).ne_nan
    have o : Cmp.eq (1 : Ieee F) 1 = true := by
      rw [Ieee.eq_refl_iff]; exact (is_one (F := F)).ne_nan
    simp [resultEq, CurveError.eq, z, o, Ieee.eq_refl_iff]
  · have hu : u ≠ nan := by
      rintro rfl
      rw [Curve.evaluateDerivative, if_pos (by simp [Cmp.le, Ieee.le])] at h
      injection h with h; injection h
    simp [resultEq, ptEq_iff, Ieee.eq_refl_iff, hu]

theorem Ieee.ne_nan_of_le {x y : Ieee F} (h : Cmp.le x y = true) : x ≠ nan ∧ y ≠ nan := by
  change Ieee.le x y = true at h
  rcases x with _ | s | ⟨s, v⟩ <;> rcases y with _ | t | ⟨t, w⟩ <;> simp_all [Ieee.le]

theorem Ieee.ne_nan_of_eq {x y : Ieee F} (h : Cmp.eq x y = true) : x ≠ nan ∧ y ≠ nan :=
  ⟨Ieee.eq_refl_iff.mp (Ieee.eq_trans h (Ieee.eq_symm h)), Ieee.eq_refl_iff.mp (Ieee.eq_trans (Ieee.eq_symm h) h)⟩

theorem InsertComplaint.eq_self {c : Curve (Ieee F) d} {u : Ieee F} {e : InsertError (Ieee F)}
    (h : InsertComplaint c u e) : e.eq e = true := by
  have z : Cmp.eq (0 : Ieee F) 0 = true := Ieee.eq_refl_iff.mpr (is_zero (F := F)).ne_nan
  have o : Cmp.eq (1 : Ieee F) 1 = true := Ieee.eq_refl_iff.mpr (is_one (F := F)).ne_nan
  rcases h with ⟨rfl, h1⟩ | ⟨m, h1, h2, rfl⟩
  · have : u ≠ nan := h1.elim (fun g => (Ieee.ne_nan_of_le g).1) fun g => (Ieee.ne_nan_of_le g).2
    simp [InsertError.eq, z, o, Ieee.eq_refl_iff, this]
  · have : u ≠ nan := by
      rintro rfl
      rw [Knots.multiplicity] at h1
      obtain ⟨D, -, h1⟩ := bind_ok_inv h1
      injection h1 with h1
      rw [List.filter_eq_nil_iff.mpr (fun (x : Ieee F) _ h => (Ieee.ne_nan_of_eq h).2 rfl), List.length_nil] at h1
      omega
    simp [InsertError.eq, Ieee.eq_refl_iff, this]

/-- **C154** Every error of `insert`, `insert_times`, `split` and the merging functions equals itself: none is returned
for NaN. -/
theorem C154_errors {c c' : Curve (Ieee F) d} {u : Ieee F} :
    (∀ e, c.insert u = .ok (c', .error e) → e.eq e = true) ∧
    (∀ x e, c.insertTimes u x = .ok (c', .error e) → e.eq e = true) ∧
    (∀ flags e, splitAndNormalize c u flags = .ok (.error e) → e.eq e = true) ∧
    ∀ (s : Solver (Ieee F) d) (d' : ℕ) (a : ConstrainedCurve (Ieee F) d) (b : ConstrainedCurve (Ieee F) d') e,
      mergeWithConstraints s a b = .ok (.error e) → e.eq e = true := by
  have z : Cmp.eq (0 : Ieee F) 0 = true := Ieee.eq_refl_iff.mpr (is_zero (F := F)).ne_nan
  have o : Cmp.eq (1 : Ieee F) 1 = true := Ieee.eq_refl_iff.mpr (is_one (F := F)).ne_nan
  refine ⟨fun e h => (C99_insert h).2.eq_self, fun x e h => ?_, fun flags e h => ?_, fun s d' a b e h => ?_⟩
  · obtain ⟨j, -, -, hj⟩ := C99_insert_times h
    exact hj.eq_self
  · rcases C99_split h with ⟨rfl, h1⟩ | ⟨U, l, m, -, h1, h2, h3, rfl⟩ | ⟨n, -, rfl⟩
    · have : u ≠ nan := h1.elim (fun g => (Ieee.ne_nan_of_le g).1) fun g => (Ieee.ne_nan_of_le g).2
      simp [SplitError.eq, z, o, Ieee.eq_refl_iff, this]
    · obtain ⟨x, hx⟩ : ∃ x, x ∈ (U.drop l).take m := by
        refine List.exists_mem_of_length_pos ?_
        rw [List.length_take, List.length_drop]
        omega
      simp [SplitError.eq, Ieee.eq_refl_iff, (Ieee.ne_nan_of_eq (h3 x hx)).2]
    · simp [SplitError.eq, CurveError.eq]
  · rcases C99_merge h with ⟨rfl, -⟩ | ⟨-, ⟨rfl, -⟩ | ⟨-, ⟨rfl, -⟩ | ⟨-, -, ⟨rfl, -⟩ | ⟨-, -, ⟨rfl, -⟩ | ⟨-, n, -, rfl⟩⟩⟩⟩⟩ <;>
      simp [MergeError.eq, CurveError.eq]

/-! ### Concrete cases -/

/-- a zero of either sign -/
example : DataPoints.eq ([![0], ![1]] : List (Pt (Ieee binary64) 1)) [![-0], ![1]] = true ∧
    ([![0], ![1]] : List (Pt (Ieee binary64) 1)) ≠ [![-0], ![1]] := by decide +kernel

/-- Two infinite coordinates have a difference that is NaN, so these control points do not equal themselves, although the
data points do. -/
example : DataPoints.eq ([![inf false], ![inf false]] : List (Pt (Ieee binary64) 1)) [![inf false], ![inf false]] = true ∧
    (canon 1 [0, 0, 1, 1] ([![inf false], ![inf false]] : List (Pt (Ieee binary64) 1))).points.eq
      (canon 1 [0, 0, 1, 1] [![inf false], ![inf false]]).points = false := by decide +kernel

example : (canon 1 [0, 0, 1, 1] ([![0], ![1]] : List (Pt (Ieee binary64) 1))).evaluate nan =
    .ok (.error (.parameterOutOfBounds nan 0 1)) ∧
    resultEq (d := 1) (.error (.parameterOutOfBounds (nan : Ieee binary64) 0 1))
      (.error (.parameterOutOfBounds nan 0 1)) = false := by decide +kernel

/-- equal control points over the same knots -/
example : (canon 1 [0, 0, 1, 1] ([![0], ![1]] : List (Pt (Ieee binary64) 1))).points.eq
    (canon 1 [0, 0, 1, 1] [![-0], ![1]]).points = true := by decide +kernel

end BSpline
