import Verif.Refine.PointRelMerge
import Verif.Props.IeeeTouch

/-!
# Mirroring is exact in double precision (C133)

Mirroring the points at coordinate planes mirrors everything that is computed from them. Rounding makes no difference,
and neither do overflow, NaN or the sign of a zero.
-/

set_option linter.unusedSectionVars false

namespace BSpline

open Ieee

variable {K : Type} [Field K] [LinearOrder K] [IsStrictOrderedRing K] {F : Format K} {d : ℕ}

/-- `x == y`, or both are NaN -/
def Ieee.Agrees (x y : Ieee F) : Prop := Ieee.eq x y = true ∨ x = nan ∧ y = nan

/-- `w` is `v`, mirrored in the coordinates `r` with `M r` -/
def Mirrored (M : Fin d → Bool) (v w : Pt (Ieee F) d) : Prop :=
  ∀ r, Ieee.Agrees (if M r then -(v r) else v r) (w r)

namespace Ieee

/-- `y` is `x` or `-x` -/
def Tw (b : Bool) : Ieee F → Ieee F → Prop
  | nan, nan => True
  | inf s, inf t => t = (b ^^ s)
  | fin _ v, fin _ w => w.val = if b then -v.val else v.val
  | _, _ => False

theorem rnd0 : F.rnd 0 = 0 := by
  have := F.neg 0
  rw [neg_zero] at this
  linarith

theorem tw_iff (b : Bool) (x y : Ieee F) : Agrees (if b then -x else x) y ↔ Tw b x y := by
  have hneg : ∀ x : Ieee F, -x = neg x := fun _ => rfl
  cases b
  · rcases x with _ | s | ⟨s, v⟩ <;> rcases y with _ | t | ⟨t, w⟩ <;> simp [Agrees, Tw, Ieee.eq] <;>
      exact eq_comm
  · rw [if_pos rfl, hneg]
    rcases x with _ | s | ⟨s, v⟩
    · rcases y with _ | t | ⟨t, w⟩ <;> simp [Agrees, Tw, Ieee.eq, neg]
    · rcases y with _ | t | ⟨t, w⟩ <;> simp [Agrees, Tw, Ieee.eq, neg]
      cases s <;> cases t <;> simp
    · have h1 : F.rnd (-v.val) = -v.val := by rw [F.neg, v.2.1]
      have h2 : |F.rnd (-v.val)| ≤ F.max := by rw [h1, abs_neg]; exact v.2.2
      rcases y with _ | t | ⟨t, w⟩ <;> simp [Agrees, Tw, Ieee.eq, neg, mk, h2]
      rw [h1, eq_comm]

theorem tw_mk (b s t : Bool) {x y : K} (h : y = if b then -x else x) : Tw b (mk F s x) (mk F t y) := by
  have h1 : F.rnd y = if b then -F.rnd x else F.rnd x := by
    cases b
    · simp at h; simp [h]
    · simp at h; simp [h, F.neg]
  have h2 : |F.rnd y| = |F.rnd x| := by
    rw [h1]; cases b <;> simp
  by_cases hx : |F.rnd x| ≤ F.max
  · rw [mk, mk, dif_pos hx, dif_pos (h2 ▸ hx)]
    exact h1
  · rw [mk, mk, dif_neg hx, dif_neg (h2 ▸ hx)]
    have hx0 : x ≠ 0 := by
      rintro rfl
      exact hx (by rw [rnd0, abs_zero]; exact zero_le_one.trans F.one_le_max)
    cases b
    · simp at h; simp [Tw, h]
    · simp at h
      rcases lt_or_gt_of_ne hx0 with h0 | h0
      · simp [Tw, h, h0, h0.le]
      · simp [Tw, h, h0, h0.le]

theorem sgn_tw {b : Bool} (s t : Bool) {x y : K} (h : y = if b then -x else x) (hx : x ≠ 0) :
    sgn t y = (b ^^ sgn s x) := by
  cases b
  · simp at h; simp [sgn, h, hx]
  · simp at h
    rcases lt_or_gt_of_ne hx with h0 | h0
    · simp [sgn, h, hx, h0, h0.le]
    · simp [sgn, h, hx, h0, h0.le]

theorem zero_tw {b : Bool} {x y : K} (h : y = if b then -x else x) : y = 0 ↔ x = 0 := by
  cases b <;> simp at h <;> simp [h]

variable {b : Bool} {x y x' y' : Ieee F}

theorem Tw.add (h : Tw b x y) (h' : Tw b x' y') : Tw b (x + x') (y + y') := by
  show Tw b (Ieee.add x x') (Ieee.add y y')
  rcases x with _ | s | ⟨s, v⟩ <;> rcases y with _ | t | ⟨t, w⟩ <;> try exact h.elim
  · trivial
  · rcases x' with _ | s' | ⟨s', v'⟩ <;> rcases y' with _ | t' | ⟨t', w'⟩ <;> try exact h'.elim
    · trivial
    · obtain rfl : t = (b ^^ s) := h
      obtain rfl : t' = (b ^^ s') := h'
      cases b <;> cases s <;> cases s' <;> simp [Ieee.add, Tw]
    · exact h
  · rcases x' with _ | s' | ⟨s', v'⟩ <;> rcases y' with _ | t' | ⟨t', w'⟩ <;> try exact h'.elim
    · trivial
    · exact h'
    · refine tw_mk b _ _ ?_
      have h : w.val = if b then -v.val else v.val := h
      have h' : w'.val = if b then -v'.val else v'.val := h'
      rw [h, h']
      cases b
      · rfl
      · simp [add_comm]

theorem Tw.neg (h : Tw b x y) : Tw b (-x) (-y) := by
  show Tw b (Ieee.neg x) (Ieee.neg y)
  rcases x with _ | s | ⟨s, v⟩ <;> rcases y with _ | t | ⟨t, w⟩ <;> try exact h.elim
  · trivial
  · obtain rfl : t = (b ^^ s) := h
    cases b <;> cases s <;> simp [Ieee.neg, Tw]
  · refine tw_mk b _ _ ?_
    have h : w.val = if b then -v.val else v.val := h
    rw [h]
    cases b <;> simp

theorem Tw.sub (h : Tw b x y) (h' : Tw b x' y') : Tw b (x - x') (y - y') := h.add h'.neg

theorem Tw.mul_left (c : Ieee F) (h : Tw b x y) : Tw b (c * x) (c * y) := by
  show Tw b (Ieee.mul c x) (Ieee.mul c y)
  rcases x with _ | s | ⟨s, v⟩ <;> rcases y with _ | t | ⟨t, w⟩ <;> try exact h.elim
  · rcases c with _ | c | ⟨c, z⟩ <;> trivial
  · obtain rfl : t = (b ^^ s) := h
    rcases c with _ | c | ⟨c, z⟩
    · trivial
    · cases b <;> cases s <;> cases c <;> simp [Ieee.mul, Tw]
    · by_cases hz : z.val = 0
      · simp [Ieee.mul, Tw, hz]
      · cases b <;> cases s <;> simp [Ieee.mul, Tw, hz]
  · have h : w.val = if b then -v.val else v.val := h
    rcases c with _ | c | ⟨c, z⟩
    · trivial
    · by_cases hv : v.val = 0
      · simp [Ieee.mul, Tw, hv, (zero_tw h).mpr hv]
      · have hw : ¬ w.val = 0 := fun hw => hv ((zero_tw h).mp hw)
        simp only [Ieee.mul, if_neg hv, if_neg hw, Tw, sgn_tw s t h hv]
        cases b <;> cases c <;> simp
    · refine tw_mk b _ _ ?_
      rw [h]
      cases b <;> simp

theorem mul_comm_ieee (a c : Ieee F) : Ieee.mul a c = Ieee.mul c a := by
  rcases a with _ | s | ⟨s, v⟩ <;> rcases c with _ | t | ⟨t, w⟩ <;> simp [Ieee.mul, Bool.xor_comm, mul_comm]

theorem Tw.mul_right (c : Ieee F) (h : Tw b x y) : Tw b (x * c) (y * c) := by
  show Tw b (Ieee.mul x c) (Ieee.mul y c)
  rw [mul_comm_ieee, mul_comm_ieee y]
  exact h.mul_left c

theorem Tw.div (c : Ieee F) (h : Tw b x y) : Tw b (x / c) (y / c) := by
  show Tw b (Ieee.div x c) (Ieee.div y c)
  rcases x with _ | s | ⟨s, v⟩ <;> rcases y with _ | t | ⟨t, w⟩ <;> try exact h.elim
  · trivial
  · obtain rfl : t = (b ^^ s) := h
    rcases c with _ | c | ⟨c, z⟩
    · trivial
    · trivial
    · cases b <;> cases s <;> simp [Ieee.div, Tw]
  · have h : w.val = if b then -v.val else v.val := h
    rcases c with _ | c | ⟨c, z⟩
    · trivial
    · exact tw_mk b _ _ (by cases b <;> simp)
    · by_cases hz : z.val = 0
      · by_cases hv : v.val = 0
        · simp [Ieee.div, Tw, hz, hv, (zero_tw h).mpr hv]
        · have hw : ¬ w.val = 0 := fun hw => hv ((zero_tw h).mp hw)
          simp only [Ieee.div, if_pos hz, if_neg hv, if_neg hw, Tw, sgn_tw s t h hv]
          cases b <;> simp
      · simp only [Ieee.div, if_neg hz]
        refine tw_mk b _ _ ?_
        rw [h]
        cases b <;> simp [neg_div]

end Ieee

variable (M : Fin d → Bool)

theorem mirrored_compatible : Pw.Compatible (Mirrored M : Pt (Ieee F) d → Pt (Ieee F) d → Prop) where
  zero r := (tw_iff _ _ _).mpr (tw_mk _ _ _ (by simp))
  add _ _ _ _ h h' r := (tw_iff _ _ _).mpr (((tw_iff _ _ _).mp (h r)).add ((tw_iff _ _ _).mp (h' r)))
  sub _ _ _ _ h h' r := (tw_iff _ _ _).mpr (((tw_iff _ _ _).mp (h r)).sub ((tw_iff _ _ _).mp (h' r)))
  scale c _ _ h r := (tw_iff _ _ _).mpr (((tw_iff _ _ _).mp (h r)).mul_left c)
  mulr c _ _ h r := (tw_iff _ _ _).mpr (((tw_iff _ _ _).mp (h r)).mul_right c)
  divr c _ _ h r := (tw_iff _ _ _).mpr (((tw_iff _ _ _).mp (h r)).div c)

/-- change the sign of the coordinates `r` with `M r` -/
def mirror (v : Pt (Ieee F) d) : Pt (Ieee F) d := fun r => if M r then -(v r) else v r

theorem mirrored_mirror (v : Pt (Ieee F) d) : Mirrored M v (mirror M v) := by
  intro r
  rw [mirror]
  generalize (if M r then -(v r) else v r) = x
  rcases x with _ | s | ⟨s, x⟩
  · exact Or.inr ⟨rfl, rfl⟩
  · exact Or.inl (by simp [Ieee.eq])
  · exact Or.inl (by simp [Ieee.eq])

theorem norm_mirrored [Sqrt (Ieee F)] (v w : Pt (Ieee F) d) (h : Mirrored M v w) : norm v = norm w := by
  have h1 : ∀ r, v r * v r = w r * w r := by
    intro r
    have h := (tw_iff _ _ _).mp (h r)
    show Ieee.mul (v r) (v r) = Ieee.mul (w r) (w r)
    generalize v r = x at h
    generalize w r = y at h
    rcases x with _ | s | ⟨s, x⟩ <;> rcases y with _ | t | ⟨t, y⟩ <;> try exact h.elim
    · rfl
    · simp [Ieee.mul]
    · have h : y.val = if M r then -x.val else x.val := h
      have h2 : y.val * y.val = x.val * x.val := by rw [h]; split_ifs <;> ring
      simp [Ieee.mul, h2]
  simp only [norm, h1]

section Claims

variable [Build] {c c' : Curve (Ieee F) d}

/-- **C133** a curve with mirrored control points -/
theorem C133_new (p : ℕ) (U : List (Ieee F)) (P : List (Pt (Ieee F) d)) :
    Pw.XRel (Pw.XRel (Pw.CurveRel (Mirrored M))) (mkCurve p U P) (mkCurve p U (P.map (mirror M))) := by
  refine Pw.mkCurve_rel (mirrored_compatible M) p U ?_
  rw [List.forall₂_map_right_iff, List.forall₂_same]
  exact fun v _ => mirrored_mirror M v

/-- **C133** has mirrored values and derivatives -/
theorem C133_evaluate (h : Pw.CurveRel (Mirrored M) c c') (u : Ieee F) (k : ℕ) :
    Pw.XRel (Pw.XRel (Mirrored M)) (c.evaluateDerivative u k) (c'.evaluateDerivative u k) :=
  Pw.evaluateDerivative_rel (mirrored_compatible M) h u k

/-- **C133** and remains the mirrored curve after every operation -/
theorem C133_operations (h : Pw.CurveRel (Mirrored M) c c') :
    Pw.XRel (Pw.CurveRel (Mirrored M)) c.reverse c'.reverse ∧
    (∀ k, Pw.XRel (Pw.CurveRel (Mirrored M)) (c.getDerivativeCurve k) (c'.getDerivativeCurve k)) ∧
    (∀ u, Pw.XRel (Pw.StateRel (Mirrored M)) (BSpline.insert c u) (BSpline.insert c' u)) ∧
    (∀ u x, Pw.XRel (Pw.StateRel (Mirrored M)) (c.insertTimes u x) (c'.insertTimes u x)) ∧
    (∀ u flags, Pw.XRel (Pw.XRel fun x y => Pw.CurveRel (Mirrored M) x.1 y.1 ∧ Pw.CurveRel (Mirrored M) x.2 y.2)
      (splitAndNormalize c u flags) (splitAndNormalize c' u flags)) :=
  ⟨Pw.reverse_rel (mirrored_compatible M) h, Pw.getDerivativeCurve_rel h, Pw.insert_rel (mirrored_compatible M) h,
    fun u x => Pw.insertTimes_rel (mirrored_compatible M) u x h, Pw.splitAndNormalize_rel (mirrored_compatible M) h⟩

/-- **C133** merging, with any constraints and any solver that respects mirroring -/
theorem C133_merge {s : Solver (Ieee F) d} (hs : Pw.SolverRel (Mirrored M) s s) {b b' : Curve (Ieee F) d}
    (h : Pw.CurveRel (Mirrored M) c c') (hb : Pw.CurveRel (Mirrored M) b b') (uc ub : Constraints (Ieee F)) :
    Pw.XRel (Pw.XRel (Pw.CurveRel (Mirrored M))) (mergeWithConstraints s ⟨c, uc⟩ ⟨b, ub⟩)
      (mergeWithConstraints s ⟨c', uc⟩ ⟨b', ub⟩) :=
  Pw.mergeWithConstraints_rel (mirrored_compatible M) hs h hb uc ub

variable [IntCast (Ieee F)] [Trunc (Ieee F)] [Sqrt (Ieee F)]

/-- **C133** `SVD::solve` respects mirroring, whatever decomposition it is given -/
theorem C133_svd (decompose : List (List (Ieee F)) → Svd (Ieee F)) (eps : Ieee F) :
    Pw.SolverRel (Mirrored M) (Solver.svd decompose eps) (Solver.svd decompose eps) :=
  Pw.Solver.svd_rel (mirrored_compatible M) decompose eps

/-- **C133** generated curves: manual, interpolating and fitted ones. The knots are the same with every method. -/
theorem C133_generate {s : Solver (Ieee F) d} (hs : Pw.SolverRel (Mirrored M) s s) {g g' : Generation (Ieee F) d}
    (h : Pw.GenRel (Mirrored M) g g') : Pw.XRel (Pw.XRel (Pw.CurveRel (Mirrored M))) (generate s g) (generate s g') :=
  Pw.generate_rel (mirrored_compatible M) hs (norm_mirrored M) h

end Claims

/-! ### A concrete case -/

/-- the hypotheses are met by a curve and its mirror image, and the values are those that the claim predicts; the sign
of the zero is the same for both -/
example : ∃ c c' : Curve (Ieee binary64) 2, Built c 1 [0, 0, 1, 1] [![eq64 (1 / 10), 0], ![eq64 (3 / 10), 0]] ∧
    Built c' 1 [0, 0, 1, 1] [![-eq64 (1 / 10), -0], ![-eq64 (3 / 10), -0]] ∧ Pw.CurveRel (Mirrored fun _ => true) c c' ∧
    c.evaluate (eq64 (1 / 2)) = .ok (.ok ![eq64 (1 / 5), 0]) ∧
    c'.evaluate (eq64 (1 / 2)) = .ok (.ok ![-eq64 (1 / 5), 0]) := by
  have h := C133_new (F := binary64) (fun _ : Fin 2 => true) 1 [0, 0, 1, 1] [![eq64 (1 / 10), 0], ![eq64 (3 / 10), 0]]
  have e1 := mkCurve_ok (n := 1) (p := 1) (U := [0, 0, 1, 1]) (P := [![eq64 (1 / 10), 0], ![eq64 (3 / 10), 0]]) rfl
    (by decide) (by decide)
  have e2 := mkCurve_ok (n := 1) (p := 1) (U := [0, 0, 1, 1])
    (P := [![eq64 (1 / 10), 0], ![eq64 (3 / 10), 0]].map (mirror fun _ => true)) rfl (by decide) (by decide)
  have e3 : [![eq64 (1 / 10), 0], ![eq64 (3 / 10), 0]].map (mirror fun _ => true) =
    [![-eq64 (1 / 10), -0], ![-eq64 (3 / 10), -0]] := by decide +kernel
  rw [e1, e2] at h
  rw [e3] at e2 h
  exact ⟨_, _, e1, e2, h, by decide +kernel, by decide +kernel⟩

end BSpline
