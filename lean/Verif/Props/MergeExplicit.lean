import Verif.Props.MergeValue

/-!
# What merging returns for polylines and quadratic curves (C104)
-/

set_option linter.unusedSectionVars false

namespace BSpline

open Finset

variable {K : Type} [Field K] [LinearOrder K] [IsStrictOrderedRing K] {d : ℕ}
variable {m : ℕ} {V W ua ub : List K} {S T S' T' : List (Pt K d)} {a b : Curve K d}

theorem evaluate_last {p : ℕ} {c : Curve K d} (hc : Built c p V S) (hV : ClampedKnots 0 1 p m V)
    (hS : S.length = m + 1) : c.evaluate 1 = .ok (.ok (fn S m)) := by
  refine (C07_endpoints (first := fn S 0) (last := fn S m) ⟨hc, hV, hS⟩ ?_ ?_).2
  · rw [List.head?_eq_getElem?, List.getElem?_eq_getElem (by omega), fn_lt (by omega)]
  · rw [List.getLast?_eq_getElem?, List.getElem?_eq_getElem (by omega), fn_lt (by omega)]
    congr 2; omega

theorem evaluate_first {p : ℕ} {c : Curve K d} (hc : Built c p V S) (hV : ClampedKnots 0 1 p m V)
    (hS : S.length = m + 1) : c.evaluate 0 = .ok (.ok (fn S 0)) := by
  refine (C07_endpoints (first := fn S 0) (last := fn S m) ⟨hc, hV, hS⟩ ?_ ?_).1
  · rw [List.head?_eq_getElem?, List.getElem?_eq_getElem (by omega), fn_lt (by omega)]
  · rw [List.getLast?_eq_getElem?, List.getElem?_eq_getElem (by omega), fn_lt (by omega)]
    congr 2; omega

/-- The merged control points in terms of the nearest joining pair. -/
theorem merged_points {p : ℕ} {Q : List (Pt K d)} (hpm : p ≤ m) (hQl : Q.length = m + m + 2 - p)
    (hSl : S'.length = m + 1) (hTl : T'.length = m + 1)
    (hl : ∀ i, i + p ≤ m + 1 → i < m → Q[i]? = S'[i]?)
    (hr : ∀ i, i ≤ m + 1 - p → Q.reverse[i]? = T'.reverse[i]?) :
    (∀ i, i + p ≤ m + 1 → i < m → fn Q i = fn S' i) ∧
      ∀ j, p ≤ j + 1 → j ≤ m → fn Q (m + 1 - p + j) = fn T' j := by
  refine ⟨fun i h1 h2 => ?_, fun j h1 h2 => ?_⟩
  · have h := hl i h1 h2
    rw [List.getElem?_eq_getElem (by omega), List.getElem?_eq_getElem (by omega)] at h
    rw [fn_lt (by omega), fn_lt (by omega)]
    exact Option.some.inj h
  · have h := hr (m - j) (by omega)
    rw [List.getElem?_reverse (by omega), List.getElem?_reverse (by omega),
      show Q.length - 1 - (m - j) = m + 1 - p + j by omega, show T'.length - 1 - (m - j) = j by omega,
      List.getElem?_eq_getElem (by omega), List.getElem?_eq_getElem (by omega)] at h
    rw [fn_lt (by omega), fn_lt (by omega)]
    exact Option.some.inj h

/-! ### Polylines -/

/-- **C104** Polylines with the same number of points: the merged polyline has the points of both, only that
the last point of the first and the first point of the second are replaced by their midpoint. -/
theorem C104_polylines {solver : Solver K d} (hs : solver.Exact) (ha : Built a 1 V S) (hb : Built b 1 W T)
    (hV : ClampedKnots 0 1 1 m V) (hW : ClampedKnots 0 1 1 m W) (hS : S.length = m + 1)
    (hT : T.length = m + 1) :
    ∃ c, merge solver a b = .ok (.ok c) ∧ c.knots.vector = .ok (concatKnots 1 m V W) ∧
      c.points.matrix = .ok (S.take m ++ ((1 / 2 : K) • (S.getD m 0 + T.getD 0 0)) :: T.drop 1) := by
  have hm := hV.le
  obtain ⟨c, Q, S', T', hc, hQ, hQl, hn, hl, hr⟩ := C31_points_partial (ua := []) (ub := []) hs ha hb hV hW hS
    hT (by simp) le_rfl (by omega) (joins_exists_right hV hW hS hT [])
  obtain ⟨c', hc', -, hk, -⟩ := C30_knots (ua := []) (ub := []) ha hb hV hW hS hT (by simp) le_rfl (by omega) solver
  rw [hc] at hc'; cases hc'
  refine ⟨c, hc, hk, ?_⟩
  set mid : Pt K d := (1 / 2 : K) • (S.getD m 0 + T.getD 0 0) with hmid
  -- the candidate
  set A : List (Pt K d) := (List.range (m + 1)).map (fun i => if i < m then fn S i else mid) with hA
  set B : List (Pt K d) := (List.range (m + 1)).map (fun i => if i = 0 then mid else fn T i) with hB
  have fA : ∀ i, i ≤ m → fn A i = if i < m then fn S i else mid := fun i hi => fn_map_range _ (by omega)
  have fB : ∀ i, i ≤ m → fn B i = if i = 0 then mid else fn T i := fun i hi => fn_map_range _ (by omega)
  have hAl : A.length = m + 1 := by simp [hA]
  have hBl : B.length = m + 1 := by simp [hB]
  have keepA : ∀ i, i + 1 ≤ m → fn A i = fn S i := fun i hi => by rw [fA _ (by omega), if_pos (by omega)]
  have keepB : ∀ j, 1 ≤ j → j ≤ m → fn B j = fn T j := fun j h1 h2 => by rw [fB _ h2, if_neg (by omega)]
  have hj : Joins 1 m m V W S T [] [] A B := by
    refine (joins_iff hV hW hS hT hAl hBl).mpr ⟨keepA, keepB, ?_, by simp, by simp⟩
    intro k hk
    obtain rfl : k = 0 := by omega
    rw [dpt, dpt, Nat.sub_zero, fA _ le_rfl, fB _ (by omega), if_neg (by omega), if_pos rfl]
  obtain ⟨k1, k2, k3, -, -⟩ := (joins_iff hV hW hS hT hn.1.lenS hn.1.lenT).mp hn.1
  have k3 := k3 0 (by omega)
  rw [dpt, dpt, Nat.sub_zero] at k3
  have hle : moved S A + moved T B ≤ moved S S' + moved T T' := by
    rw [moved_eq hm hm hS hT hAl hBl keepA keepB, moved_eq hm hm hS hT hn.1.lenS hn.1.lenT k1 k2]
    refine sum_le_sum (fun ρ _ => ?_)
    simp only [sum_range_succ, sum_range_zero, zero_add, zOf, zero_lt_one, if_true, lt_irrefl, if_false,
      show m - 1 + 1 = m by omega, Nat.add_zero, Nat.sub_self, Pi.sub_apply, k3, fA _ le_rfl, fB 0 (Nat.zero_le _)]
    have e : mid ρ = (fn S m ρ + fn T 0 ρ) / 2 := by
      rw [hmid, getD_zero_eq_fn (by omega), getD_zero_eq_fn (by omega), Pi.smul_apply, Pi.add_apply, smul_eq_mul]
      ring
    rw [e]
    nlinarith [sq_nonneg (2 * fn T' 0 ρ - (fn S m ρ + fn T 0 ρ))]
  obtain ⟨rfl, rfl⟩ := (hn.2 A B hj).2 hle
  rw [hQ]
  obtain ⟨q1, q2⟩ := merged_points hm hQl hAl hBl hl hr
  congr 1
  apply ext_fn
  · simp; omega
  · intro i hi
    rcases lt_or_ge i m with h | h
    · rw [q1 i (by omega) h, fA _ h.le, if_pos h]
      rw [fn_append_left (by simp; omega), fn_take h (by omega)]
    · obtain ⟨j, rfl⟩ := Nat.exists_eq_add_of_le h
      rw [show m + j = m + 1 - 1 + j by omega, q2 j (by omega) (by omega), fB _ (by omega)]
      rw [show m + 1 - 1 + j = m + j by omega, fn_append_right (by simp) (by simp; omega),
        show m + j - (S.take m).length = j by simp; omega]
      rcases j with _ | j
      · rfl
      · rw [if_neg (by omega), fn_lt (by omega), fn_lt (by simp; omega)]
        simp

/-! ### Quadratic curves -/

/-- the share of the left neighbour in the junction: the lengths of the last span of the left curve and
of the first span of the right curve decide -/
def shareL (m : ℕ) (V W : List K) : K := W.getD 3 0 / (1 - V.getD m 0 + W.getD 3 0)
/-- the share of the right neighbour in the junction -/
def shareR (m : ℕ) (V W : List K) : K := (1 - V.getD m 0) / (1 - V.getD m 0 + W.getD 3 0)

theorem spans_pos (hV : ClampedKnots 0 1 2 m V) (hW : ClampedKnots 0 1 2 m W) :
    0 < 1 - fn V m ∧ 0 < fn W 3 := by
  have hm := hV.le
  constructor
  · have := hV.clamp.lt_b (i := m) (by omega)
    linarith
  · exact hW.clamp.a_lt (i := 3) (by omega)

theorem shares (hV : ClampedKnots 0 1 2 m V) (hW : ClampedKnots 0 1 2 m W) :
    0 < shareL m V W ∧ 0 < shareR m V W ∧ shareL m V W + shareR m V W = 1 := by
  obtain ⟨h1, h2⟩ := spans_pos hV hW
  have hm := hV.le
  have e1 : V.getD m 0 = fn V m := getD_eq_fn (by rw [hV.length]; omega)
  have e2 : W.getD 3 0 = fn W 3 := getD_eq_fn (by rw [hW.length]; omega)
  rw [shareL, shareR, e1, e2]
  refine ⟨by positivity, by positivity, ?_⟩
  field_simp
  ring

/-- what joining means for quadratic curves -/
theorem joins_two_iff (hV : ClampedKnots 0 1 2 m V) (hW : ClampedKnots 0 1 2 m W) (hS : S.length = m + 1)
    (hT : T.length = m + 1) (hS' : S'.length = m + 1) (hT' : T'.length = m + 1) :
    Joins 2 m m V W S T [] [] S' T' ↔
      (∀ i, i + 2 ≤ m → fn S' i = fn S i) ∧ (∀ j, 2 ≤ j → j ≤ m → fn T' j = fn T j) ∧
      fn S' m = shareL m V W • fn S' (m - 1) + shareR m V W • fn T' 1 ∧ fn T' 0 = fn S' m := by
  obtain ⟨p1, p2⟩ := spans_pos hV hW
  have hm := hV.le
  have e1 : V.getD m 0 = fn V m := getD_eq_fn (by rw [hV.length]; omega)
  have e2 : W.getD 3 0 = fn W 3 := getD_eq_fn (by rw [hW.length]; omega)
  have r1 : fn V (m + 2) = 1 := hV.clamp.right _ (by omega)
  have r2 : fn W 1 = 0 := hW.clamp.left _ (by omega)
  have d1 : dpt (fn V) 2 (fn S') 1 (m - 1) = (2 / (1 - fn V m)) • (fn S' m - fn S' (m - 1)) := by
    rw [dpt, show m - 1 + 2 + 1 = m + 2 by omega, show m - 1 + (0 + 1) = m by omega, r1, if_neg (by
      intro h; have h : (1 : K) = fn V m := of_decide_eq_true h; linarith)]
    rw [dpt, dpt]
    funext ρ
    simp [scale]
  have d2 : dpt (fn W) 2 (fn T') 1 0 = (2 / fn W 3) • (fn T' 1 - fn T' 0) := by
    rw [dpt, if_neg (by
      intro h; have h : fn W 3 = fn W (0 + (0 + 1)) := of_decide_eq_true h; rw [h] at p2; simp [r2] at p2)]
    rw [dpt, dpt, zero_add, zero_add, r2, sub_zero]
    funext ρ
    simp [scale]
  have key : ∀ x l r : Pt K d, (2 / (1 - fn V m)) • (x - l) = (2 / fn W 3) • (r - x) ↔
      x = shareL m V W • l + shareR m V W • r := by
    intro x l r
    rw [shareL, shareR, e1, e2]
    have p3 : (0 : K) < 1 - fn V m + fn W 3 := by linarith
    constructor
    · intro h
      funext ρ
      have h := congrFun h ρ
      simp only [Pi.smul_apply, Pi.sub_apply, Pi.add_apply, smul_eq_mul] at h ⊢
      field_simp at h ⊢
      linarith
    · intro h
      funext ρ
      rw [h]
      simp only [Pi.smul_apply, Pi.sub_apply, Pi.add_apply, smul_eq_mul]
      field_simp
      ring
  rw [joins_iff hV hW hS hT hS' hT']
  refine and_congr Iff.rfl (and_congr Iff.rfl ?_)
  constructor
  · rintro ⟨h, -, -⟩
    have h0 := h 0 (by omega)
    have h1 := h 1 (by omega)
    rw [dpt, dpt, Nat.sub_zero] at h0
    rw [d1, d2, ← h0, key] at h1
    exact ⟨h1, h0.symm⟩
  · rintro ⟨h1, h0⟩
    refine ⟨?_, by simp, by simp⟩
    intro k hk
    rcases k with _ | k
    · rw [dpt, dpt, Nat.sub_zero, h0]
    · obtain rfl : k = 0 := by omega
      rw [d1, d2, h0, key]
      exact h1

/-- The nearest joining pair of quadratic curves, if the junction is pulled by `e`. -/
theorem nearest_two (hV : ClampedKnots 0 1 2 m V) (hW : ClampedKnots 0 1 2 m W) (hS : S.length = m + 1)
    (hT : T.length = m + 1) (hn : Nearest 2 m m V W S T ua ub S' T') (e : Pt K d)
    (hfix : ∀ A B, A.length = m + 1 → B.length = m + 1 → Joins 2 m m V W S T [] [] A B →
      fn A m = shareL m V W • fn S (m - 1) + shareR m V W • fn T 1 +
        (shareL m V W ^ 2 + shareR m V W ^ 2) • e → Joins 2 m m V W S T ua ub A B)
    (hst : ∀ ρ, (fn S' m - (shareL m V W • fn S (m - 1) + shareR m V W • fn T 1 +
        (shareL m V W ^ 2 + shareR m V W ^ 2) • e)) ρ *
      (e - (fn S m + fn T 0 - (2 : K) • (shareL m V W • fn S (m - 1) + shareR m V W • fn T 1 +
        (shareL m V W ^ 2 + shareR m V W ^ 2) • e))) ρ = 0) :
    fn S' (m - 1) = fn S (m - 1) + shareL m V W • e ∧ fn T' 1 = fn T 1 + shareR m V W • e := by
  have hm := hV.le
  set α := shareL m V W
  set β := shareR m V W
  set x : Pt K d := α • fn S (m - 1) + β • fn T 1 + (α ^ 2 + β ^ 2) • e with hx
  have hj0 : Joins 2 m m V W S T [] [] S' T' :=
    ⟨hn.1.lenS, hn.1.lenT, hn.1.keepS, hn.1.keepT, hn.1.agree, by simp, by simp⟩
  obtain ⟨k1, k2, k3, k4⟩ := (joins_two_iff hV hW hS hT hn.1.lenS hn.1.lenT).mp hj0
  set A : List (Pt K d) := (List.range (m + 1)).map
    (fun i => if i + 2 ≤ m then fn S i else if i = m then x else fn S (m - 1) + α • e) with hA
  set B : List (Pt K d) := (List.range (m + 1)).map
    (fun i => if 2 ≤ i then fn T i else if i = 0 then x else fn T 1 + β • e) with hB
  have fA : ∀ i, i ≤ m → fn A i = if i + 2 ≤ m then fn S i else if i = m then x else fn S (m - 1) + α • e :=
    fun i hi => fn_map_range _ (by omega)
  have fB : ∀ i, i ≤ m → fn B i = if 2 ≤ i then fn T i else if i = 0 then x else fn T 1 + β • e :=
    fun i hi => fn_map_range _ (by omega)
  have hAl : A.length = m + 1 := by simp [hA]
  have hBl : B.length = m + 1 := by simp [hB]
  have keepA : ∀ i, i + 2 ≤ m → fn A i = fn S i := fun i hi => by rw [fA _ (by omega), if_pos hi]
  have keepB : ∀ j, 2 ≤ j → j ≤ m → fn B j = fn T j := fun j h1 h2 => by rw [fB _ h2, if_pos h1]
  have a1 : fn A (m - 1) = fn S (m - 1) + α • e := by
    rw [fA _ (by omega), if_neg (by omega), if_neg (by omega)]
  have a2 : fn A m = x := by rw [fA _ le_rfl, if_neg (by omega), if_pos rfl]
  have b1 : fn B 1 = fn T 1 + β • e := by rw [fB _ (by omega), if_neg (by omega), if_neg (by omega)]
  have b0 : fn B 0 = x := by rw [fB _ (by omega), if_neg (by omega), if_pos rfl]
  have hj : Joins 2 m m V W S T ua ub A B := by
    refine hfix A B hAl hBl ((joins_two_iff hV hW hS hT hAl hBl).mpr ⟨keepA, keepB, ?_, by rw [a2, b0]⟩) a2
    rw [a1, a2, b1, hx]
    funext ρ
    simp only [Pi.smul_apply, Pi.add_apply, smul_eq_mul]
    ring
  have hle : moved S A + moved T B ≤ moved S S' + moved T T' := by
    rw [moved_eq hm hm hS hT hAl hBl keepA keepB, moved_eq hm hm hS hT hn.1.lenS hn.1.lenT k1 k2]
    refine sum_le_sum (fun ρ _ => ?_)
    have hst := hst ρ
    simp only [sum_range_succ, sum_range_zero, zero_add, zOf, show m - 2 + 1 = m - 1 by omega, Nat.add_zero,
      show m - 1 + 1 = m by omega, show (0 : ℕ) < 2 by omega, show (1 : ℕ) < 2 by omega,
      show ¬ (2 : ℕ) < 2 by omega, show ¬ (2 + 1 : ℕ) < 2 by omega, if_true, if_false,
      show (2 : ℕ) - 2 = 0 by omega, show (2 + 1 : ℕ) - 2 = 1 by omega, a1, a2, b0, b1, k4]
    have h3 := congrFun k3 ρ
    have hxρ := congrFun hx ρ
    simp only [Pi.smul_apply, Pi.add_apply, Pi.sub_apply, smul_eq_mul] at hst h3 hxρ ⊢
    generalize fn S' m ρ = y at *
    generalize fn S' (m - 1) ρ = l at *
    generalize fn T' 1 ρ = r at *
    generalize x ρ = z at *
    generalize e ρ = ε at *
    generalize fn S (m - 1) ρ = s at *
    generalize fn T 1 ρ = t at *
    generalize fn S m ρ = g1 at *
    generalize fn T 0 ρ = g2 at *
    have h4 : y - z = α * (l - (s + α * ε)) + β * (r - (t + β * ε)) := by rw [h3, hxρ]; ring
    have h5 : (l - s) ^ 2 + (y - g1) ^ 2 + (y - g2) ^ 2 + (r - t) ^ 2 -
        ((s + α * ε - s) ^ 2 + (z - g1) ^ 2 + (z - g2) ^ 2 + (t + β * ε - t) ^ 2) =
        (l - (s + α * ε)) ^ 2 + (r - (t + β * ε)) ^ 2 + 2 * (y - z) ^ 2 := by
      linear_combination 2 * hst - 2 * ε * h4
    nlinarith [sq_nonneg (l - (s + α * ε)), sq_nonneg (r - (t + β * ε)), sq_nonneg (y - z)]
  obtain ⟨rfl, rfl⟩ := (hn.2 A B hj).2 hle
  exact ⟨a1, b1⟩

/-- the control points of the merged quadratic curve, if the junction is pulled by `e` -/
def pulled (m : ℕ) (V W : List K) (S T : List (Pt K d)) (e : Pt K d) : List (Pt K d) :=
  S.take (m - 1) ++ (S.getD (m - 1) 0 + shareL m V W • e) :: (T.getD 1 0 + shareR m V W • e) :: T.drop 2

theorem pulled_eq {Q : List (Pt K d)} {e : Pt K d} (hm : 2 ≤ m) (hS : S.length = m + 1) (hT : T.length = m + 1)
    (hQl : Q.length = m + m + 2 - 2) (hSl : S'.length = m + 1) (hTl : T'.length = m + 1)
    (k1 : ∀ i, i + 2 ≤ m → fn S' i = fn S i) (k2 : ∀ j, 2 ≤ j → j ≤ m → fn T' j = fn T j)
    (l1 : fn S' (m - 1) = fn S (m - 1) + shareL m V W • e) (r1 : fn T' 1 = fn T 1 + shareR m V W • e)
    (hl : ∀ i, i + 2 ≤ m + 1 → i < m → Q[i]? = S'[i]?)
    (hr : ∀ i, i ≤ m + 1 - 2 → Q.reverse[i]? = T'.reverse[i]?) : Q = pulled m V W S T e := by
  obtain ⟨q1, q2⟩ := merged_points hm hQl hSl hTl hl hr
  rw [pulled, getD_zero_eq_fn (by omega), getD_zero_eq_fn (by omega)]
  apply ext_fn
  · simp; omega
  · intro i hi
    rcases lt_or_ge i (m - 1) with h | h
    · rw [q1 i (by omega) (by omega), k1 _ (by omega), fn_append_left (by simp; omega), fn_take h (by omega)]
    · obtain ⟨j, rfl⟩ := Nat.exists_eq_add_of_le h
      rw [fn_append_right (by simp) (by simp; omega),
        show m - 1 + j - (S.take (m - 1)).length = j by simp; omega]
      rcases j with _ | _ | j
      · rw [q1 _ (by omega) (by omega), Nat.add_zero, l1]; rfl
      · rw [show m - 1 + (0 + 1) = m + 1 - 2 + 1 by omega, q2 1 (by omega) (by omega), r1]; rfl
      · rw [show m - 1 + (j + 1 + 1) = m + 1 - 2 + (j + 2) by omega, q2 _ (by omega) (by omega),
          k2 _ (by omega) (by omega), fn_lt (by omega), fn_lt (by simp; omega)]
        simp only [List.getElem_cons_succ, List.getElem_drop]
        congr 1; omega

/-- **C104** Quadratic curves with the same number of points: the two points next to the junction are
pulled by their shares of one vector `e`, all other points but the two ends are kept and the two ends are
dropped. -/
theorem C104_quadratic {solver : Solver K d} (hs : solver.Exact) (ha : Built a 2 V S) (hb : Built b 2 W T)
    (hV : ClampedKnots 0 1 2 m V) (hW : ClampedKnots 0 1 2 m W) (hS : S.length = m + 1)
    (hT : T.length = m + 1) :
    ∃ c, merge solver a b = .ok (.ok c) ∧ c.knots.vector = .ok (concatKnots 2 m V W) ∧
      c.points.matrix = .ok (pulled m V W S T
        ((1 / (1 + 2 * (shareL m V W ^ 2 + shareR m V W ^ 2))) • (S.getD m 0 + T.getD 0 0 -
          (2 : K) • (shareL m V W • S.getD (m - 1) 0 + shareR m V W • T.getD 1 0)))) := by
  have hm := hV.le
  obtain ⟨p1, p2, -⟩ := shares hV hW
  obtain ⟨c, Q, S', T', hc, hQ, hQl, hn, hl, hr⟩ := C31_points_partial (ua := []) (ub := []) hs ha hb hV hW hS
    hT (by simp) le_rfl (by omega) (joins_exists_right hV hW hS hT [])
  obtain ⟨c', hc', -, hk, -⟩ := C30_knots (ua := []) (ub := []) ha hb hV hW hS hT (by simp) le_rfl (by omega) solver
  rw [hc] at hc'; cases hc'
  refine ⟨c, hc, hk, ?_⟩
  rw [hQ]
  obtain ⟨k1, k2, -⟩ := (joins_iff hV hW hS hT hn.1.lenS hn.1.lenT).mp hn.1
  obtain ⟨l1, r1⟩ := nearest_two hV hW hS hT hn
    ((1 / (1 + 2 * (shareL m V W ^ 2 + shareR m V W ^ 2))) • (fn S m + fn T 0 -
          (2 : K) • (shareL m V W • fn S (m - 1) + shareR m V W • fn T 1)))
    (fun A B _ _ h _ => h) (fun ρ => by
      apply mul_eq_zero_of_right
      simp only [Pi.smul_apply, Pi.add_apply, Pi.sub_apply, smul_eq_mul]
      field_simp
      ring)
  rw [getD_zero_eq_fn (l := S) (by omega), getD_zero_eq_fn (l := S) (by omega),
    getD_zero_eq_fn (l := T) (by omega), getD_zero_eq_fn (l := T) (by omega)]
  exact congrArg _ (pulled_eq hm hS hT hQl hn.1.lenS hn.1.lenT k1 k2 l1 r1 hl hr)

/-- **C104** `merge_from`: the junction stays at the end of the first curve. -/
theorem C104_quadratic_from {solver : Solver K d} (hs : solver.Exact) (ha : Built a 2 V S) (hb : Built b 2 W T)
    (hV : ClampedKnots 0 1 2 m V) (hW : ClampedKnots 0 1 2 m W) (hS : S.length = m + 1)
    (hT : T.length = m + 1) :
    ∃ c, mergeFrom solver a b = .ok (.ok c) ∧ c.knots.vector = .ok (concatKnots 2 m V W) ∧
      c.points.matrix = .ok (pulled m V W S T
        ((1 / (shareL m V W ^ 2 + shareR m V W ^ 2)) • (S.getD m 0 -
          (shareL m V W • S.getD (m - 1) 0 + shareR m V W • T.getD 1 0)))) := by
  have hm := hV.le
  obtain ⟨p1, p2, -⟩ := shares hV hW
  obtain ⟨c, Q, S', T', hc, hQ, hQl, hn, hl, hr⟩ := C31_points_partial (ua := [1]) (ub := []) hs ha hb hV hW hS
    hT (by simp) le_rfl (by omega) (joins_exists_right hV hW hS hT [1])
  obtain ⟨c', hc', -, hk, -⟩ := C30_knots (ua := [1]) (ub := []) ha hb hV hW hS hT (by simp) le_rfl (by omega) solver
  rw [hc] at hc'; cases hc'
  refine ⟨c, hc, hk, ?_⟩
  rw [hQ]
  obtain ⟨k1, k2, -⟩ := (joins_iff hV hW hS hT hn.1.lenS hn.1.lenT).mp hn.1
  have hx : shareL m V W • fn S (m - 1) + shareR m V W • fn T 1 + (shareL m V W ^ 2 + shareR m V W ^ 2) •
      ((1 / (shareL m V W ^ 2 + shareR m V W ^ 2)) • (fn S m -
        (shareL m V W • fn S (m - 1) + shareR m V W • fn T 1))) = fn S m := by
    rw [smul_smul, mul_one_div_cancel (by positivity), one_smul, add_sub_cancel]
  have hend : fn S' m = fn S m := by
    have h := hn.1.fixA (canon 2 V S) (canon 2 V S') (built_canon hV hS) (built_canon hV hn.1.lenS) 1 (by simp)
    rw [evaluate_last (built_canon hV hS) hV hS, evaluate_last (built_canon hV hn.1.lenS) hV hn.1.lenS] at h
    exact Except.ok.inj (Except.ok.inj h)
  obtain ⟨l1, r1⟩ := nearest_two hV hW hS hT hn
    ((1 / (shareL m V W ^ 2 + shareR m V W ^ 2)) • (fn S m -
          (shareL m V W • fn S (m - 1) + shareR m V W • fn T 1)))
    (fun A B hA hB h e => ⟨h.lenS, h.lenT, h.keepS, h.keepT, h.agree, fun a a' h1 h2 u hu => by
      rw [List.mem_singleton] at hu
      rw [hu, evaluate_last h1 hV hS, evaluate_last h2 hV hA, e, hx], by simp⟩)
    (fun ρ => by
      apply mul_eq_zero_of_left
      rw [hx, hend, sub_self]; rfl)
  rw [getD_zero_eq_fn (l := S) (by omega), getD_zero_eq_fn (l := S) (by omega),
    getD_zero_eq_fn (l := T) (by omega)]
  exact congrArg _ (pulled_eq hm hS hT hQl hn.1.lenS hn.1.lenT k1 k2 l1 r1 hl hr)

/-- **C104** `merge_to`: the junction stays at the start of the second curve. -/
theorem C104_quadratic_to {solver : Solver K d} (hs : solver.Exact) (ha : Built a 2 V S) (hb : Built b 2 W T)
    (hV : ClampedKnots 0 1 2 m V) (hW : ClampedKnots 0 1 2 m W) (hS : S.length = m + 1)
    (hT : T.length = m + 1) :
    ∃ c, mergeTo solver a b = .ok (.ok c) ∧ c.knots.vector = .ok (concatKnots 2 m V W) ∧
      c.points.matrix = .ok (pulled m V W S T
        ((1 / (shareL m V W ^ 2 + shareR m V W ^ 2)) • (T.getD 0 0 -
          (shareL m V W • S.getD (m - 1) 0 + shareR m V W • T.getD 1 0)))) := by
  have hm := hV.le
  obtain ⟨p1, p2, -⟩ := shares hV hW
  obtain ⟨c, Q, S', T', hc, hQ, hQl, hn, hl, hr⟩ := C31_points_partial (ua := []) (ub := [0]) hs ha hb hV hW hS
    hT (by simp) le_rfl (by omega) (joins_exists_left hV hW hS hT [0])
  obtain ⟨c', hc', -, hk, -⟩ := C30_knots (ua := []) (ub := [0]) ha hb hV hW hS hT (by simp) le_rfl (by omega) solver
  rw [hc] at hc'; cases hc'
  refine ⟨c, hc, hk, ?_⟩
  rw [hQ]
  obtain ⟨k1, k2, -⟩ := (joins_iff hV hW hS hT hn.1.lenS hn.1.lenT).mp hn.1
  have hx : shareL m V W • fn S (m - 1) + shareR m V W • fn T 1 + (shareL m V W ^ 2 + shareR m V W ^ 2) •
      ((1 / (shareL m V W ^ 2 + shareR m V W ^ 2)) • (fn T 0 -
        (shareL m V W • fn S (m - 1) + shareR m V W • fn T 1))) = fn T 0 := by
    rw [smul_smul, mul_one_div_cancel (by positivity), one_smul, add_sub_cancel]
  have hend : fn T' 0 = fn T 0 := by
    have h := hn.1.fixB (canon 2 W T) (canon 2 W T') (built_canon hW hT) (built_canon hW hn.1.lenT) 0 (by simp)
    rw [evaluate_first (built_canon hW hT) hW hT, evaluate_first (built_canon hW hn.1.lenT) hW hn.1.lenT] at h
    exact Except.ok.inj (Except.ok.inj h)
  have hj0 : Joins 2 m m V W S T [] [] S' T' :=
    ⟨hn.1.lenS, hn.1.lenT, hn.1.keepS, hn.1.keepT, hn.1.agree, by simp, by simp⟩
  obtain ⟨-, -, -, k4⟩ := (joins_two_iff hV hW hS hT hn.1.lenS hn.1.lenT).mp hj0
  obtain ⟨l1, r1⟩ := nearest_two hV hW hS hT hn
    ((1 / (shareL m V W ^ 2 + shareR m V W ^ 2)) • (fn T 0 -
          (shareL m V W • fn S (m - 1) + shareR m V W • fn T 1)))
    (fun A B hA hB h e => ⟨h.lenS, h.lenT, h.keepS, h.keepT, h.agree, by simp, fun b b' h1 h2 u hu => by
      rw [List.mem_singleton] at hu
      rw [hu, evaluate_first h1 hW hT, evaluate_first h2 hW hB,
        ((joins_two_iff hV hW hS hT hA hB).mp h).2.2.2, e, hx]⟩)
    (fun ρ => by
      apply mul_eq_zero_of_left
      rw [hx, ← k4, hend, sub_self]; rfl)
  rw [getD_zero_eq_fn (l := S) (by omega),
    getD_zero_eq_fn (l := T) (by omega), getD_zero_eq_fn (l := T) (by omega)]
  exact congrArg _ (pulled_eq hm hS hT hQl hn.1.lenS hn.1.lenT k1 k2 l1 r1 hl hr)

/-! ### Examples -/

/-- Polylines from `0` over `1` to `2` and from `4` over `5` to `7`: the ends `2` and `4` become `3`. -/
example (solver : Solver ℚ 1) (hs : solver.Exact) (a b : Curve ℚ 1)
    (ha : Built a 1 [0, 0, 1/2, 1, 1] [fun _ => 0, fun _ => 1, fun _ => 2])
    (hb : Built b 1 [0, 0, 1/2, 1, 1] [fun _ => 4, fun _ => 5, fun _ => 7]) :
    ∃ c, merge solver a b = .ok (.ok c) ∧ c.knots.vector = .ok [0, 0, 1/4, 1/2, 3/4, 1, 1] ∧
      c.points.matrix = .ok [fun _ => 0, fun _ => 1, fun _ => 3, fun _ => 5, fun _ => 7] := by
  have hU : ClampedKnots (0 : ℚ) 1 1 2 [0, 0, 1/2, 1, 1] := by
    decide +kernel
  obtain ⟨c, h1, h2, h3⟩ := C104_polylines hs ha hb hU hU rfl rfl
  refine ⟨c, h1, h2.trans (congrArg _ (by decide +kernel)), h3.trans (congrArg _ ?_)⟩
  simp only [List.take, List.drop, List.getD, List.getElem?_cons_succ, List.getElem?_cons_zero, Option.getD_some,
    List.cons_append, List.nil_append]
  congr 3
  funext i
  simp; norm_num

/-- Parabolas ending at `2` and starting at `4` with neighbours `0` and `2`: both neighbours take half of
`e = 2`; the junction is at `2`. With `merge_from` it is at `2` also, with `merge_to` at `4`. -/
example (solver : Solver ℚ 1) (hs : solver.Exact) (a b : Curve ℚ 1)
    (ha : Built a 2 [0, 0, 0, 1, 1, 1] [fun _ => 0, fun _ => 0, fun _ => 2])
    (hb : Built b 2 [0, 0, 0, 1, 1, 1] [fun _ => 4, fun _ => 2, fun _ => 0]) :
    (∃ c, merge solver a b = .ok (.ok c) ∧
      c.points.matrix = .ok [fun _ => 0, fun _ => 1, fun _ => 3, fun _ => 0]) ∧
    (∃ c, mergeFrom solver a b = .ok (.ok c) ∧
      c.points.matrix = .ok [fun _ => 0, fun _ => 1, fun _ => 3, fun _ => 0]) ∧
    ∃ c, mergeTo solver a b = .ok (.ok c) ∧
      c.points.matrix = .ok [fun _ => 0, fun _ => 3, fun _ => 5, fun _ => 0] := by
  have hU : ClampedKnots (0 : ℚ) 1 2 2 [0, 0, 0, 1, 1, 1] := by
    decide +kernel
  obtain ⟨c, h1, -, h3⟩ := C104_quadratic hs ha hb hU hU rfl rfl
  obtain ⟨c', h1', -, h3'⟩ := C104_quadratic_from hs ha hb hU hU rfl rfl
  obtain ⟨c'', h1'', -, h3''⟩ := C104_quadratic_to hs ha hb hU hU rfl rfl
  refine ⟨⟨c, h1, h3.trans ?_⟩, ⟨c', h1', h3'.trans ?_⟩, ⟨c'', h1'', h3''.trans ?_⟩⟩ <;>
  · simp only [pulled, shareL, shareR, List.take, List.drop, List.getD, List.getElem?_cons_succ,
      List.getElem?_cons_zero, Option.getD_some, List.cons_append, List.nil_append]
    congr 4 <;> funext i <;> simp <;> norm_num

end BSpline
