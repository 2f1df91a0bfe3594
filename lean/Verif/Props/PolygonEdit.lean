import Verif.Props.Polygon
import Verif.Props.Split
import Verif.Refine.Merge

/-!
# Refining a curve cuts corners of its control polygon: C72

`insert`, `insert_times` and `split` replace the control polygon by one that arises from it by corner
cutting. So no plane is crossed more often afterwards, and the polygon does not become longer.
-/

set_option linter.unusedSectionVars false

namespace BSpline

open Finset

variable {K : Type} [Field K] [LinearOrder K] [IsStrictOrderedRing K] {d : ℕ}

/-- **C72** The control polygon after `insert(u)` arises from the one before by corner cutting, if no
interior knot below `u` is repeated. -/
theorem C72_insert {c c' : Curve K d} {p n : ℕ} {U : List K} {P : List (Pt K d)}
    (hc : ValidOn 0 1 c p n U P) (hn : 1 ≤ n) {u : K} (hr : SimpleBelow U u)
    (hi : c.insert u = .ok (c', .ok ())) :
    ∃ P', c'.points.matrix = .ok P' ∧ P'.length = n + 2 ∧ CornerCut (K := K) P P' := by
  obtain ⟨P', α, h1, h2, h3, h4, h5, h6⟩ := C20_convex_combination_partial hc hr hi
  have hP := hc.2.2
  refine ⟨P', h1, h2, CornerCut.step (n := n) h3 hn hP h2 ?_ ?_ ?_⟩
  · have := h6 0 (by omega)
    rw [List.getD_eq_getElem _ _ (by omega), List.getD_eq_getElem _ _ (by omega), h4] at this
    simpa using this
  · have := h6 (n + 1) le_rfl
    rw [List.getD_eq_getElem _ _ (by omega), h5] at this
    simp only [Nat.add_sub_cancel] at this
    rw [List.getD_eq_getElem _ _ (by omega)] at this
    simpa using this
  · intro i hi
    have := h6 (i + 1) (by omega)
    simp only [Nat.add_sub_cancel] at this
    rwa [List.getD_eq_getElem _ _ (by omega), List.getD_eq_getElem _ _ (by omega),
      List.getD_eq_getElem _ _ (by omega)] at this

theorem insertTimes_cut {p : ℕ} {u : K} (h0 : 0 < u) (h1 : u < 1) {c' : Curve K d} (x : ℕ) :
    ∀ {n : ℕ} {U : List K} {P : List (Pt K d)}, ClampedKnots 0 1 p n U → P.length = n + 1 → 1 ≤ n →
      SimpleBelow U u → U.count u + x ≤ p + 1 →
      (canon p U P).insertTimes u x = .ok (c', .ok ()) →
    ∃ P', c'.points.matrix = .ok P' ∧ CornerCut (K := K) P P' := by
  induction x with
  | zero =>
    intro n U P hU hP hn hr hm hi
    rw [Curve.insertTimes] at hi
    injection hi with hi; injection hi with hi _
    exact ⟨P, by rw [← hi]; exact canon_matrix, .refl⟩
  | succ x ih =>
    intro n U P hU hP hn hr hm hi
    obtain ⟨l, hl1, hl2, -, -, hins, hU', hs⟩ := insert_valid hU hP h0 h1 (by omega) hr
    have hperm := insU_perm U u l
    rw [Curve.insertTimes, ← Curve.insert_eq, hins] at hi
    obtain ⟨P', e1, e2⟩ := ih hU' (by simp) (by omega) (by
        intro y hy0 hyu
        rw [hperm.count_eq, List.count_cons_of_ne hyu.ne']
        exact hr y hy0 hyu) (by
        rw [hperm.count_eq, List.count_cons_self]; omega) hi
    obtain ⟨Q, q1, -, q3⟩ := C72_insert (validOn_canon hU hP) hn hr hins
    rw [canon_matrix] at q1
    injection q1 with q1
    rw [← q1] at q3
    exact ⟨P', e1, q3.trans e2⟩

/-- **C72** The same for `insert_times(u, x)`. -/
theorem C72_insert_times {c c' : Curve K d} {p n : ℕ} {U : List K} {P : List (Pt K d)}
    (hc : ValidOn 0 1 c p n U P) (hn : 1 ≤ n) {u : K} (h0 : 0 < u) (h1 : u < 1) (hr : SimpleBelow U u)
    {x : ℕ} (hx : U.count u + x ≤ p + 1) (hi : c.insertTimes u x = .ok (c', .ok ())) :
    ∃ P', c'.points.matrix = .ok P' ∧ CornerCut (K := K) P P' := by
  obtain rfl := hc.eq_canon
  obtain ⟨-, hU, hP⟩ := hc
  exact insertTimes_cut h0 h1 x hU hP hn hr hx hi

/-- **C72** The control polygons of the two parts of a split meet, and together they arise from the
control polygon of the curve by corner cutting. -/
theorem C72_split {c l r : Curve K d} {p n : ℕ} {U : List K} {P : List (Pt K d)}
    (hc : ValidOn 0 1 c p n U P) (hn : 1 ≤ n) {u : K} (hr : SimpleBelow U u)
    (hs : split c u = .ok (.ok (l, r))) :
    ∃ P1 P2 x, l.points.matrix = .ok (P1 ++ [x]) ∧ r.points.matrix = .ok (x :: P2) ∧
      CornerCut (K := K) P (P1 ++ x :: P2) := by
  obtain ⟨hu0, hu1, hcount⟩ := split_ok_iff hc hr hs
  obtain rfl := hc.eq_canon
  obtain ⟨-, hU, hP⟩ := hc
  obtain ⟨U', P', n', q, hins, hcut, hP', hn', -, -, hsplit⟩ :=
    split_valid_inserted hU hP hu0 hu1 hcount hr
  obtain ⟨Q, q1, q2⟩ := insertTimes_cut hu0 hu1 _ hU hP hn hr (by omega) hins
  rw [canon_matrix] at q1
  injection q1 with q1
  rw [← q1] at q2
  rw [split, hsplit] at hs
  injection hs with hs; injection hs with hs; injection hs with hl hr'
  have a1 := hcut.lo_q
  have a2 := hcut.q_hi
  have hq : q - 1 < P'.length := by omega
  refine ⟨P'.take (q - 1), P'.drop q, P'[q - 1], ?_, ?_, ?_⟩
  · have := List.take_concat_get' P' _ hq
    rw [show q - 1 + 1 = q by omega] at this
    rw [← hl, canon_matrix, this]
  · rw [← hr', canon_matrix, List.drop_eq_getElem_cons hq, show q - 1 + 1 = q by omega]
  · have : P'.take (q - 1) ++ P'[q - 1] :: P'.drop q = P' := by
      have := List.drop_eq_getElem_cons hq
      rw [show q - 1 + 1 = q by omega] at this
      rw [← this, List.take_append_drop]
    rw [this]; exact q2

theorem affine_segment (w : Pt K d) (b s : K) (x y : Pt K d) :
    ∑ r, w r * ((1 - s) • x + s • y) r + b =
      (1 - s) • (∑ r, w r * x r + b) + s • (∑ r, w r * y r + b) := by
  simp only [Pi.add_apply, Pi.smul_apply, smul_eq_mul, mul_add, sum_add_distrib]
  have e : ∀ (t : K) (z : Pt K d), ∑ r, w r * (t * z r) = t * ∑ r, w r * z r := by
    intro t z; rw [mul_sum]; exact sum_congr rfl (fun r _ => by ring)
  rw [e, e]; ring

/-- **C72** After an insertion no plane is crossed more often by the control polygon than before. -/
theorem C72_variation {c c' : Curve K d} {p n : ℕ} {U : List K} {P : List (Pt K d)}
    (hc : ValidOn 0 1 c p n U P) (hn : 1 ≤ n) {u : K} (hr : SimpleBelow U u)
    (hi : c.insert u = .ok (c', .ok ())) (w : Pt K d) (b : K) :
    ∃ P', c'.points.matrix = .ok P' ∧ signChanges (P'.map (fun v => ∑ r, w r * v r + b)) ≤
      signChanges (P.map (fun v => ∑ r, w r * v r + b)) := by
  obtain ⟨P', h1, -, h2⟩ := C72_insert hc hn hr hi
  exact ⟨P', h1, (h2.map _ (affine_segment w b)).signChanges_le⟩

section
variable [Sqrt K] [LawfulSqrt K]

/-- corner cutting does not make a polygon longer -/
theorem CornerCut.dist2_le {P Q : List (Pt K d)} (h : CornerCut (K := K) P Q) :
    polyLength dist2 Q ≤ polyLength dist2 P := by
  refine h.length_le dist2_nonneg dist2_triangle ?_
  intro s x y h0 h1
  rw [dist2_scale x y x ((1 - s) • x + s • y) h0 (by module),
    dist2_scale x y ((1 - s) • x + s • y) y (s := 1 - s) (by linarith) (by module)]
  linarith

/-- **C72** An insertion does not make the control polygon longer. -/
theorem C72_length {c c' : Curve K d} {p n : ℕ} {U : List K} {P : List (Pt K d)}
    (hc : ValidOn 0 1 c p n U P) (hn : 1 ≤ n) {u : K} (hr : SimpleBelow U u)
    (hi : c.insert u = .ok (c', .ok ())) :
    ∃ P', c'.points.matrix = .ok P' ∧ polyLength dist2 P' ≤ polyLength dist2 P := by
  obtain ⟨P', h1, -, h2⟩ := C72_insert hc hn hr hi
  exact ⟨P', h1, h2.dist2_le⟩

/-- **C72** Both consequences for `insert_times`. -/
theorem C72_insert_times_polygon {c c' : Curve K d} {p n : ℕ} {U : List K} {P : List (Pt K d)}
    (hc : ValidOn 0 1 c p n U P) (hn : 1 ≤ n) {u : K} (h0 : 0 < u) (h1 : u < 1) (hr : SimpleBelow U u)
    {x : ℕ} (hx : U.count u + x ≤ p + 1) (hi : c.insertTimes u x = .ok (c', .ok ())) :
    ∃ P', c'.points.matrix = .ok P' ∧ polyLength dist2 P' ≤ polyLength dist2 P ∧
      ∀ (w : Pt K d) (b : K), signChanges (P'.map (fun v => ∑ r, w r * v r + b)) ≤
        signChanges (P.map (fun v => ∑ r, w r * v r + b)) := by
  obtain ⟨P', h2, h3⟩ := C72_insert_times hc hn h0 h1 hr hx hi
  exact ⟨P', h2, h3.dist2_le, fun w b => (h3.map _ (affine_segment w b)).signChanges_le⟩

/-- **C72** Both consequences for the joined parts of a split. -/
theorem C72_split_polygon {c l r : Curve K d} {p n : ℕ} {U : List K} {P : List (Pt K d)}
    (hc : ValidOn 0 1 c p n U P) (hn : 1 ≤ n) {u : K} (hr : SimpleBelow U u)
    (hs : split c u = .ok (.ok (l, r))) :
    ∃ P1 P2 x, l.points.matrix = .ok (P1 ++ [x]) ∧ r.points.matrix = .ok (x :: P2) ∧
      polyLength dist2 (P1 ++ x :: P2) ≤ polyLength dist2 P ∧
      ∀ (w : Pt K d) (b : K), signChanges ((P1 ++ x :: P2).map (fun v => ∑ r, w r * v r + b)) ≤
        signChanges (P.map (fun v => ∑ r, w r * v r + b)) := by
  obtain ⟨P1, P2, x, h1, h2, h3⟩ := C72_split hc hn hr hs
  exact ⟨P1, P2, x, h1, h2, h3.dist2_le, fun w b => (h3.map _ (affine_segment w b)).signChanges_le⟩

end

/-- non-vacuity: an insertion that makes the polygon shorter, below the double knot `1/2` -/
example : ∃ c', exC.insert (1 / 4) = .ok (c', .ok ()) ∧ SimpleBelow exU (1 / 4) ∧
    c'.points.matrix = .ok [![0, 0], ![1 / 2, 1], ![3 / 2, 1], ![2, 0], ![3, 1], ![4, 5], ![6, 0]] := by
  refine ⟨match exC.insert (1 / 4) with
      | .ok (c', _) => c'
      | _ => exC, ?_, fun x h0 h1 => exU_simpleBelow x h0 (h1.trans (by norm_num)), ?_⟩ <;> decide +kernel

/-- Above a repeated knot it is false: the control polygon crosses a line that it did not cross before
the insertion. -/
theorem C72_repeated_knot : ∃ (c c' : Curve ℚ 2) (P P' : List (Pt ℚ 2)),
    ValidOn 0 1 c 2 5 exU P ∧ c.insert (9 / 10) = .ok (c', .ok ()) ∧ c'.points.matrix = .ok P' ∧
      signChanges (P.map (fun v => v 1)) = 0 ∧ signChanges (P'.map (fun v => v 1)) = 2 :=
  ⟨exC, exBad, exP, [![0, 0], ![1, 2], ![14 / 5, -8 / 5], ![18 / 5, 8 / 5], ![3, 1], ![4, 5], ![6, 0]],
    validOn_canon (by decide +kernel) rfl, exBad_eq, by decide +kernel, by decide +kernel, by decide +kernel⟩

end BSpline
