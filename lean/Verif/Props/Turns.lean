import Verif.Spec.Turns
import Verif.Props.PolygonEdit
import Verif.Props.ConvergeFast

/-!
# The curve turns around no more often than its control polygon: C155

In every direction, the points of the curve at increasing parameters turn from going forward to going
backward at most as often as the control points do, and they move back and forth no farther in total.
The same holds for the derivatives and their control points, and the velocity changes its direction at most
as often as the control polygon turns around. Insertions and splits do not add turns to the control polygon.
-/

set_option linter.unusedSectionVars false

namespace BSpline

open Finset

variable {K : Type} [Field K] [LinearOrder K] [IsStrictOrderedRing K] {d : ℕ}

/-! ### Turns under corner cutting -/

/-- a step divided into two of the same direction brings no sign change -/
theorem signChangesFrom_divide (l : List K) {e α : K} (h0 : 0 ≤ α) (h1 : α ≤ 1) (s : K) :
    signChangesFrom s (α * e :: (1 - α) * e :: l) ≤ signChangesFrom s (e :: l) := by
  have h1' : 0 ≤ 1 - α := by linarith
  by_cases he : e = 0
  · subst he; simp [signChangesFrom]
  rcases h0.lt_or_eq with h0 | rfl
  · have hp : 0 < α * e * e := by
      rw [mul_assoc]; exact mul_pos h0 (mul_self_pos.mpr he)
    have hn : α * e ≠ 0 := mul_ne_zero h0.ne' he
    have hs : s * (α * e) < 0 ↔ s * e < 0 := by
      rw [show s * (α * e) = α * (s * e) by ring]; exact mul_lt_zero_iff_of_pos h0
    have e1 : signChangesFrom (α * e) ((1 - α) * e :: l) = signChangesFrom e l := by
      rcases h1'.lt_or_eq with h1' | h1'
      · have hq : 0 < (1 - α) * e * e := by
          rw [mul_assoc]; exact mul_pos h1' (mul_self_pos.mpr he)
        have hq' : ¬ α * e * ((1 - α) * e) < 0 := by
          rw [show α * e * ((1 - α) * e) = α * ((1 - α) * e * e) by ring]
          exact not_lt.mpr (mul_pos h0 hq).le
        rw [signChangesFrom, if_neg (mul_ne_zero h1'.ne' he), if_neg hq', Nat.zero_add]
        exact signChangesFrom_congr l hq
      · rw [signChangesFrom, ← h1', if_pos (zero_mul e)]
        exact signChangesFrom_congr l hp
    rw [signChangesFrom, if_neg hn, e1, signChangesFrom, if_neg he]
    simp only [hs]; exact le_rfl
  · simp [signChangesFrom]

/-- two steps taken at once bring no sign change -/
theorem signChangesFrom_join (l : List K) (a b s : K) :
    signChangesFrom s ((a + b) :: l) ≤ signChangesFrom s (a :: b :: l) := by
  have h := signChangesFrom_edge (x := a) (y := b) l (α := 1 / 2) (by norm_num) (by norm_num) s
  refine le_trans ?_ h
  have hm : (1 - 1 / 2 : K) * a + 1 / 2 * b = 1 / 2 * (a + b) := by ring
  rw [hm]
  have h2 : signChangesFrom s ((1 / 2 * (a + b)) :: l) = signChangesFrom s ((a + b) :: l) := by
    by_cases h0 : a + b = 0
    · simp [signChangesFrom, h0]
    · have hp : 0 < 1 / 2 * (a + b) * (a + b) := by
        rw [mul_assoc]; exact mul_pos (by norm_num) (mul_self_pos.mpr h0)
      have hs : s * (1 / 2 * (a + b)) < 0 ↔ s * (a + b) < 0 := by
        rw [show s * (1 / 2 * (a + b)) = 1 / 2 * (s * (a + b)) by ring]
        exact mul_lt_zero_iff_of_pos (by norm_num)
      rw [signChangesFrom, signChangesFrom, if_neg h0, if_neg (mul_ne_zero (by norm_num) h0),
        signChangesFrom_congr l hp]
      simp only [hs]
  rw [← h2]
  refine signChangesFrom_sublist ?_ s
  exact ((List.sublist_cons_self b l).cons_cons _).cons a

/-- leaving out points brings no turn -/
theorem stepList_sublist {l l' : List K} (h : l.Sublist l') :
    (∀ s, signChangesFrom s (stepList l) ≤ signChangesFrom s (stepList l')) ∧
      ∀ x s, signChangesFrom s (stepList (x :: l)) ≤ signChangesFrom s (stepList (x :: l')) := by
  induction h with
  | slnil => exact ⟨fun _ => le_rfl, fun _ _ => le_rfl⟩
  | @cons l₁ l₂ y _ ih =>
    refine ⟨?_, ?_⟩
    · intro s
      refine (ih.1 s).trans (signChangesFrom_sublist ?_ s)
      cases l₂ with
      | nil => exact List.nil_sublist _
      | cons z l => exact List.sublist_cons_self _ _
    · intro x s
      have h1 : signChangesFrom s (stepList (x :: l₁)) ≤ signChangesFrom s (stepList (x :: y :: l₁)) := by
        cases l₁ with
        | nil => simp [stepList, signChangesFrom]
        | cons z l =>
          have := signChangesFrom_join (stepList (z :: l)) (y - x) (z - y) s
          rwa [show y - x + (z - y) = z - x by ring] at this
      refine h1.trans ?_
      exact signChangesFrom_append_le (ih.2 y) [y - x] s
  | @cons_cons l₁ l₂ y _ ih =>
    refine ⟨ih.2 y, ?_⟩
    intro x s
    exact signChangesFrom_append_le (ih.2 y) [y - x] s

theorem stepList_append (A : List K) (x : K) (B : List K) :
    stepList (A ++ x :: B) = stepList (A ++ [x]) ++ stepList (x :: B) := by
  induction A with
  | nil => rfl
  | cons a A ih =>
    cases A with
    | nil => rfl
    | cons b A =>
      simp only [List.cons_append, stepList] at ih ⊢
      rw [ih]

/-- corner cutting does not increase the number of turns -/
theorem CornerCut.turnCount_le {P Q : List K} (h : CornerCut (K := K) P Q) :
    turnCount Q ≤ turnCount P := by
  induction h with
  | refl => exact le_rfl
  | @edge A B x y α _ h0 h1 ih =>
    refine le_trans ?_ ih
    unfold turnCount signChanges
    rw [stepList_append A x, stepList_append A x (y :: B)]
    refine signChangesFrom_append_le (fun s => ?_) _ 0
    have := signChangesFrom_divide (stepList (y :: B)) (e := y - x) h0 h1 s
    simp only [stepList, smul_eq_mul]
    rwa [show (1 - α) * x + α * y - x = α * (y - x) by ring,
      show y - ((1 - α) * x + α * y) = (1 - α) * (y - x) by ring]
  | drop _ hs ih => exact ((stepList_sublist hs).1 0).trans ih

/-! ### The curve -/

theorem cornerCut_values {c : Curve K d} {p n : ℕ} {U : List K} {P : List (Pt K d)}
    (hc : ValidOn 0 1 c p n U P) (hp : 1 ≤ p) {us : List K} (hs : us.Pairwise (· < ·))
    (hu : ∀ u ∈ us, 0 ≤ u ∧ u ≤ 1) (w : Pt K d) {vs : List (Pt K d)}
    (hv : List.Forall₂ (fun u v => c.evaluate u = .ok (.ok v)) us vs) :
    CornerCut (K := K) (P.map (fun v => ∑ r, w r * v r)) (vs.map (fun v => ∑ r, w r * v r)) := by
  obtain ⟨vs', hv', hcut⟩ := C62_corner_cutting hc hp hs hu
  obtain rfl : vs = vs' := by
    clear hs hu hcut
    induction hv generalizing vs' with
    | nil => cases hv'; rfl
    | cons h _ ih =>
      cases hv' with
      | cons h' ht =>
        rw [h] at h'
        rw [ih _ ht]
        injection h' with h'; injection h' with h'; rw [h']
  refine hcut.map _ ?_
  intro s x y
  simp only [Pi.add_apply, Pi.smul_apply, smul_eq_mul, mul_add, sum_add_distrib]
  have e : ∀ (t : K) (z : Pt K d), ∑ r, w r * (t * z r) = t * ∑ r, w r * z r := by
    intro t z; rw [mul_sum]; exact sum_congr rfl (fun r _ => by ring)
  rw [e, e]

/-- **C155** In every direction `w`, the points of the curve at increasing parameters turn around at
most as often as the control points. -/
theorem C155_turns {c : Curve K d} {p n : ℕ} {U : List K} {P : List (Pt K d)}
    (hc : ValidOn 0 1 c p n U P) (hp : 1 ≤ p) {us : List K} (hs : us.Pairwise (· < ·))
    (hu : ∀ u ∈ us, 0 ≤ u ∧ u ≤ 1) (w : Pt K d) {vs : List (Pt K d)}
    (hv : List.Forall₂ (fun u v => c.evaluate u = .ok (.ok v)) us vs) :
    turnCount (vs.map (fun v => ∑ r, w r * v r)) ≤ turnCount (P.map (fun v => ∑ r, w r * v r)) :=
  (cornerCut_values hc hp hs hu w hv).turnCount_le

/-- **C155** In every direction `w`, the way back and forth along the points of the curve is at most
that along the control points. -/
theorem C155_variation {c : Curve K d} {p n : ℕ} {U : List K} {P : List (Pt K d)}
    (hc : ValidOn 0 1 c p n U P) (hp : 1 ≤ p) {us : List K} (hs : us.Pairwise (· < ·))
    (hu : ∀ u ∈ us, 0 ≤ u ∧ u ≤ 1) (w : Pt K d) {vs : List (Pt K d)}
    (hv : List.Forall₂ (fun u v => c.evaluate u = .ok (.ok v)) us vs) :
    ((stepList (vs.map (fun v => ∑ r, w r * v r))).map (|·|)).sum ≤
      ((stepList (P.map (fun v => ∑ r, w r * v r))).map (|·|)).sum := by
  have key : ∀ l : List K, ((stepList l).map (|·|)).sum = polyLength (fun x y => |y - x|) l := by
    intro l
    induction l with
    | nil => rfl
    | cons x l ih =>
      cases l with
      | nil => rfl
      | cons y l => simp only [stepList, polyLength, List.map_cons, List.sum_cons, ih]
  rw [key, key]
  refine (cornerCut_values hc hp hs hu w hv).length_le (fun _ _ => abs_nonneg _) ?_ ?_
  · intro x y z
    rw [show z - x = (y - x) + (z - y) by ring]; exact abs_add_le _ _
  · intro s x y h0 h1
    simp only [smul_eq_mul]
    rw [show (1 - s) * x + s * y - x = s * (y - x) by ring,
      show y - ((1 - s) * x + s * y) = (1 - s) * (y - x) by ring, abs_mul, abs_mul, abs_of_nonneg h0,
      abs_of_nonneg (by linarith : (0 : K) ≤ 1 - s)]
    exact le_of_eq (by ring)

/-- non-vacuity, and the bound is attained: a parabola that rises and falls, seen at three points,
turns once, as its control points do -/
example : ∃ c vs, ValidOn 0 1 c 2 2 [(0 : ℚ), 0, 0, 1, 1, 1] [![0, 0], ![1, 2], ![2, 0]] ∧
    List.Forall₂ (fun u v => c.evaluate u = .ok (.ok v)) [0, 1 / 2, 1] vs ∧
    turnCount (vs.map (fun v => ∑ r, (![0, 1] : Pt ℚ 2) r * v r)) = 1 ∧
    turnCount (([![0, 0], ![1, 2], ![2, 0]] : List (Pt ℚ 2)).map
      (fun v => ∑ r, (![0, 1] : Pt ℚ 2) r * v r)) = 1 :=
  ⟨_, [![0, 0], ![1, 1], ![2, 0]], validOn_canon (by decide +kernel) rfl,
    .cons (by decide +kernel) (.cons (by decide +kernel) (.cons (by decide +kernel) .nil)),
    by decide +kernel, by decide +kernel⟩

/-! ### Derivatives -/

/-- the curve of a derivative, with the stored control points -/
theorem derivative_validOn {c : Curve K d} {p n k : ℕ} {U : List K} {P D : List (Pt K d)}
    (hc : ValidOn 0 1 c p n U P) (hk : k ≤ p) (hD : c.points.matrixDerivative k = .ok D) :
    D = (List.range (n + 1 - k)).map (fun i => dpt (fn U) p (fn P) k i) ∧
    ∃ e, ValidOn 0 1 e (p - k) (n - k) (dvec U k) D ∧ ∀ u, e.evaluate u = c.evaluateDerivative u k := by
  obtain rfl := hc.eq_canon
  obtain ⟨-, hU, hP⟩ := hc
  have hn := hU.le
  rw [canon_points, canonPts_matrixDerivative hk, hP] at hD
  injection hD with hD
  subst hD
  exact ⟨rfl, _, validOn_canon (dvec_clamped hU hk) (by simp; omega), evaluate_derivative_canon hU hP hk⟩

/-- **C155** In every direction, a derivative changes its sign, turns around, and moves back and forth no
more than its stored control points do. -/
theorem C155_derivatives {c : Curve K d} {p n k : ℕ} {U : List K} {P D : List (Pt K d)}
    (hc : ValidOn 0 1 c p n U P) (hk : k < p) (hD : c.points.matrixDerivative k = .ok D) {us : List K}
    (hs : us.Pairwise (· < ·)) (hu : ∀ u ∈ us, 0 ≤ u ∧ u ≤ 1) (w : Pt K d) {vs : List (Pt K d)}
    (hv : List.Forall₂ (fun u v => c.evaluateDerivative u k = .ok (.ok v)) us vs) :
    signChanges (vs.map (fun v => ∑ r, w r * v r)) ≤ signChanges (D.map (fun v => ∑ r, w r * v r)) ∧
    turnCount (vs.map (fun v => ∑ r, w r * v r)) ≤ turnCount (D.map (fun v => ∑ r, w r * v r)) ∧
    ((stepList (vs.map (fun v => ∑ r, w r * v r))).map (|·|)).sum ≤
      ((stepList (D.map (fun v => ∑ r, w r * v r))).map (|·|)).sum := by
  obtain ⟨-, e, he, hev⟩ := derivative_validOn hc hk.le hD
  simp only [← hev] at hv
  exact ⟨(cornerCut_values he (by omega) hs hu w hv).signChanges_le, C155_turns he (by omega) hs hu w hv,
    C155_variation he (by omega) hs hu w hv⟩

/-- numbers scaled by numbers that are not negative change their sign no more often -/
theorem signChangesFrom_scaled (a b : ℕ → K) (l : List ℕ) (h : ∀ i ∈ l, ∃ t, 0 ≤ t ∧ a i = t * b i) :
    ∀ s, signChangesFrom s (l.map a) ≤ signChangesFrom s (l.map b) := by
  induction l with
  | nil => intro s; exact le_rfl
  | cons i l ih =>
    intro s
    obtain ⟨t, ht, hab⟩ := h i (by simp)
    have ih := ih (fun j hj => h j (by simp [hj]))
    by_cases ha : a i = 0
    · rw [List.map_cons, List.map_cons, signChangesFrom, if_pos ha]
      exact (ih s).trans (signChangesFrom_sublist (List.sublist_cons_self _ _) s)
    · have hb : b i ≠ 0 := by rintro hb; apply ha; rw [hab, hb, mul_zero]
      have ht : 0 < t := by
        rcases ht.lt_or_eq with ht | rfl
        · exact ht
        · exact absurd (by rw [hab, zero_mul]) ha
      have hp : 0 < a i * b i := by
        rw [hab, mul_assoc]; exact mul_pos ht (mul_self_pos.mpr hb)
      have hs : s * a i < 0 ↔ s * b i < 0 := by
        rw [hab, show s * (t * b i) = t * (s * b i) by ring]; exact mul_lt_zero_iff_of_pos ht
      rw [List.map_cons, List.map_cons, signChangesFrom, signChangesFrom, if_neg ha, if_neg hb,
        ← signChangesFrom_congr (l.map b) hp]
      simp only [hs]
      exact Nat.add_le_add_left (ih (a i)) _

theorem stepList_range (f : ℕ → K) : ∀ (n m : ℕ), stepList ((List.range' m (n + 1)).map f) =
    (List.range' m n).map (fun i => f (i + 1) - f i) := by
  intro n
  induction n with
  | zero => intro m; rfl
  | succ n ih =>
    intro m
    have := ih (m + 1)
    simp only [List.range'_succ, List.map_cons, stepList] at this ⊢
    rw [this]

/-- **C155** In every direction, the velocity changes its sign at most as often as the control polygon turns
around. -/
theorem C155_velocity {c : Curve K d} {p n : ℕ} {U : List K} {P : List (Pt K d)}
    (hc : ValidOn 0 1 c p n U P) (hp : 2 ≤ p) {us : List K} (hs : us.Pairwise (· < ·))
    (hu : ∀ u ∈ us, 0 ≤ u ∧ u ≤ 1) (w : Pt K d) {vs : List (Pt K d)}
    (hv : List.Forall₂ (fun u v => c.evaluateDerivative u 1 = .ok (.ok v)) us vs) :
    signChanges (vs.map (fun v => ∑ r, w r * v r)) ≤ turnCount (P.map (fun v => ∑ r, w r * v r)) := by
  have hU := hc.2.1
  have hP := hc.2.2
  have hcl := hU.clamp
  have hn := hU.le
  have hD : c.points.matrixDerivative 1 = .ok ((List.range (n + 1 - 1)).map (fun i => dpt (fn U) p (fn P) 1 i)) := by
    rw [hc.eq_canon, canon_points, canonPts_matrixDerivative (by omega), hP]
  refine (C155_derivatives hc (by omega) hD hs hu w hv).1.trans ?_
  have hPl : P = (List.range (n + 1)).map (fn P) := by
    apply List.ext_getElem (by simp [hP])
    intro i h1 h2
    rw [List.getElem_map, List.getElem_range, fn_lt h1]
  have hPm : P.map (fun v => ∑ r, w r * v r) = (List.range' 0 (n + 1)).map (fun i => ∑ r, w r * fn P i r) := by
    conv_lhs => rw [hPl]
    rw [List.map_map, List.range_eq_range']; rfl
  unfold turnCount
  rw [hPm, stepList_range, List.map_map, Nat.add_sub_cancel, List.range_eq_range']
  refine signChangesFrom_scaled _ _ _ (fun i hi => ?_) 0
  simp only [Function.comp, dpt]
  split
  · exact ⟨0, le_rfl, by simp⟩
  · rename_i hne
    have hle : fn U (i + (0 + 1)) ≤ fn U (i + p + 1) := hcl.mono (by omega)
    refine ⟨((p - (0 + 1) + 1 : ℕ) : K) / (fn U (i + p + 1) - fn U (i + (0 + 1))),
      div_nonneg (Nat.cast_nonneg _) (by linarith), ?_⟩
    rw [← sum_sub_distrib, mul_sum]
    refine sum_congr rfl (fun r _ => ?_)
    simp only [scale, Pi.sub_apply]
    ring

/-- non-vacuity: the velocity of that parabola changes its sign once -/
example : ∃ c vs, ValidOn 0 1 c 2 2 [(0 : ℚ), 0, 0, 1, 1, 1] [![0, 0], ![1, 2], ![2, 0]] ∧
    List.Forall₂ (fun u v => c.evaluateDerivative u 1 = .ok (.ok v)) [0, 1 / 2, 1] vs ∧
    signChanges (vs.map (fun v => ∑ r, (![0, 1] : Pt ℚ 2) r * v r)) = 1 :=
  ⟨_, [![2, 4], ![2, 0], ![2, -4]], validOn_canon (by decide +kernel) rfl,
    .cons (by decide +kernel) (.cons (by decide +kernel) (.cons (by decide +kernel) .nil)),
    by decide +kernel⟩

/-! ### Insertions and splits -/

theorem linear_segment (w : Pt K d) (s : K) (x y : Pt K d) :
    ∑ r, w r * ((1 - s) • x + s • y) r = (1 - s) • ∑ r, w r * x r + s • ∑ r, w r * y r := by
  have := affine_segment w 0 s x y
  simpa only [add_zero] using this

/-- **C155** Inserting a knot `x` times adds no turn to the control polygon in any direction, if no interior knot
below `u` is repeated. -/
theorem C155_insert_times {c c' : Curve K d} {p n : ℕ} {U : List K} {P : List (Pt K d)}
    (hc : ValidOn 0 1 c p n U P) (hn : 1 ≤ n) {u : K} (h0 : 0 < u) (h1 : u < 1) (hr : SimpleBelow U u)
    {x : ℕ} (hx : U.count u + x ≤ p + 1) (hi : c.insertTimes u x = .ok (c', .ok ())) :
    ∃ P', c'.points.matrix = .ok P' ∧ ∀ w : Pt K d,
      turnCount (P'.map (fun v => ∑ r, w r * v r)) ≤ turnCount (P.map (fun v => ∑ r, w r * v r)) := by
  obtain ⟨P', h2, h3⟩ := C72_insert_times hc hn h0 h1 hr hx hi
  exact ⟨P', h2, fun w => (h3.map _ (linear_segment w)).turnCount_le⟩

/-- **C155** Nor does a split, for the two control polygons joined. -/
theorem C155_split {c l r : Curve K d} {p n : ℕ} {U : List K} {P : List (Pt K d)}
    (hc : ValidOn 0 1 c p n U P) (hn : 1 ≤ n) {u : K} (hr : SimpleBelow U u)
    (hs : split c u = .ok (.ok (l, r))) :
    ∃ P1 P2 x, l.points.matrix = .ok (P1 ++ [x]) ∧ r.points.matrix = .ok (x :: P2) ∧ ∀ w : Pt K d,
      turnCount ((P1 ++ x :: P2).map (fun v => ∑ r, w r * v r)) ≤ turnCount (P.map (fun v => ∑ r, w r * v r)) := by
  obtain ⟨P1, P2, x, h1, h2, h3⟩ := C72_split hc hn hr hs
  exact ⟨P1, P2, x, h1, h2, fun w => (h3.map _ (linear_segment w)).turnCount_le⟩

/-- **C155** Above a repeated knot it is false: control points that only move forward in the first coordinate turn
twice after the insertion. -/
theorem C155_repeated_knot : ∃ (c c' : Curve ℚ 2) (P P' : List (Pt ℚ 2)),
    ValidOn 0 1 c 2 5 exU P ∧ c.insert (9 / 10) = .ok (c', .ok ()) ∧ c'.points.matrix = .ok P' ∧
      turnCount (P.map (fun v => v 0)) = 0 ∧ turnCount (P'.map (fun v => v 0)) = 2 :=
  ⟨exC, exBad, exP, [![0, 0], ![1, 2], ![14 / 5, -8 / 5], ![18 / 5, 8 / 5], ![3, 1], ![4, 5], ![6, 0]],
    validOn_canon (by decide +kernel) rfl, exBad_eq, by decide +kernel, by decide +kernel, by decide +kernel⟩

end BSpline
