import Verif.Props.Split
import Verif.Props.Reverse
import Verif.Props.Unique

/-!
# Laws between the operations: C65

Insertion commutes with reversal, reversal exchanges the halves of a split, and splitting is
associative. The equations hold for the whole curves: knots, control points and caches.
-/

set_option linter.unusedSectionVars false

namespace BSpline

variable {K : Type} [Field K] [LinearOrder K] [IsStrictOrderedRing K] {d : ℕ}

/-! ### The knots of the halves -/

/-- the knots of the left half: those below `u`, stretched to `[0, 1]`, and `p + 1` ones -/
def leftKnots (p : ℕ) (u : K) (U : List K) : List K :=
  (U.filter (fun x => x < u)).map (fun x => x / u) ++ List.replicate (p + 1) 1

/-- the knots of the right half -/
def rightKnots (p : ℕ) (u : K) (U : List K) : List K :=
  List.replicate (p + 1) 0 ++ (U.filter (fun x => u < x)).map (fun x => (x - u) / (1 - u))

theorem sorted_unique {l l' : List K} (h : l.Perm l') (hs : l.Pairwise (· ≤ ·))
    (hs' : l'.Pairwise (· ≤ ·)) : l = l' :=
  h.eq_of_pairwise (fun _ _ _ _ h1 h2 => le_antisymm h1 h2) hs hs'

theorem Cut.filter_lt {U : List K} {u : K} {p n q : ℕ} (h : Cut U u p n q) :
    U.filter (fun x => x < u) = U.take q := by
  have hl := h.cl.length
  have a1 := h.lo_q
  have a2 := h.q_hi
  conv_lhs => rw [← List.take_append_drop q U]
  rw [List.filter_append]
  have e1 : (U.take q).filter (fun x => x < u) = U.take q := by
    rw [List.filter_eq_self]
    intro x hx
    obtain ⟨i, hi, rfl⟩ := List.getElem_of_mem hx
    rw [List.length_take] at hi
    rw [List.getElem_take, ← fn_lt]
    simpa using h.low i (by omega)
  have e2 : (U.drop q).filter (fun x => x < u) = [] := by
    rw [List.filter_eq_nil_iff]
    intro x hx
    obtain ⟨i, hi, rfl⟩ := List.getElem_of_mem hx
    rw [List.length_drop] at hi
    rw [List.getElem_drop, ← fn_lt]
    rcases Nat.lt_or_ge (q + i) (q + p) with h1 | h1
    · rw [h.mid _ (by omega) h1]; simp
    · simpa using (h.high _ h1).le
  rw [e1, e2, List.append_nil]

theorem Cut.filter_gt {U : List K} {u : K} {p n q : ℕ} (h : Cut U u p n q) :
    U.filter (fun x => u < x) = U.drop (q + p) := by
  have hl := h.cl.length
  have a1 := h.lo_q
  have a2 := h.q_hi
  conv_lhs => rw [← List.take_append_drop (q + p) U]
  rw [List.filter_append]
  have e1 : (U.take (q + p)).filter (fun x => u < x) = [] := by
    rw [List.filter_eq_nil_iff]
    intro x hx
    obtain ⟨i, hi, rfl⟩ := List.getElem_of_mem hx
    rw [List.length_take] at hi
    rw [List.getElem_take, ← fn_lt]
    rcases Nat.lt_or_ge i q with h1 | h1
    · simpa using (h.low i h1).le
    · rw [h.mid _ h1 (by omega)]; simp
  have e2 : (U.drop (q + p)).filter (fun x => u < x) = U.drop (q + p) := by
    rw [List.filter_eq_self]
    intro x hx
    obtain ⟨i, hi, rfl⟩ := List.getElem_of_mem hx
    rw [List.length_drop] at hi
    rw [List.getElem_drop, ← fn_lt]
    simpa using h.high _ (by omega)
  rw [e1, e2, List.nil_append]

theorem Cut.mid_eq {U : List K} {u : K} {p n q : ℕ} (h : Cut U u p n q) :
    (U.drop q).take p = List.replicate p u := by
  have hl := h.cl.length
  have a2 := h.q_hi
  rw [List.eq_replicate_iff]
  refine ⟨by simp; omega, ?_⟩
  intro x hx
  obtain ⟨i, hi, rfl⟩ := List.getElem_of_mem hx
  rw [List.length_take, List.length_drop] at hi
  rw [List.getElem_take, List.getElem_drop, ← fn_lt]
  exact h.mid _ (by omega) (by omega)

/-- **C25 (partial)** The knots of the two halves: those of the curve on the respective side of `u`,
stretched to `[0, 1]`, and `p + 1` copies of the new end. -/
theorem C25_split_knots_partial {c l r : Curve K d} {p n : ℕ} {U : List K} {P : List (Pt K d)}
    (hc : ValidOn 0 1 c p n U P) {u : K} (hr : SimpleBelow U u)
    (hs : split c u = .ok (.ok (l, r))) :
    ∃ n1 n2 P1 P2, ValidOn 0 1 l p n1 (leftKnots p u U) P1 ∧
      ValidOn 0 1 r p n2 (rightKnots p u U) P2 := by
  obtain ⟨hu0, hu1, hcount⟩ := split_ok_iff hc hr hs
  obtain rfl := hc.eq_canon
  obtain ⟨-, hU, hP⟩ := hc
  obtain ⟨U', P', n', q, hcut, hP', hn', hperm, -, hsplit⟩ := split_valid hU hP hu0 hu1 hcount hr
  rw [split, hsplit] at hs
  injection hs with hs; injection hs with hs; injection hs with hl hr'
  have a1 := hcut.lo_q
  have a2 := hcut.q_hi
  have hu0' : u ≠ 0 := hu0.ne'
  have hu1' : 1 - u ≠ 0 := sub_ne_zero.mpr hu1.ne'
  have hlt : U'.filter (fun x => x < u) = U.filter (fun x => x < u) := by
    refine sorted_unique ?_ (hcut.cl.sorted.filter _) (hU.sorted.filter _)
    refine (hperm.filter _).trans ?_
    rw [List.filter_append, List.filter_eq_nil_iff.mpr, List.nil_append]
    intro x hx
    rw [List.eq_of_mem_replicate hx]; simp
  have hgt : U'.filter (fun x => u < x) = U.filter (fun x => u < x) := by
    refine sorted_unique ?_ (hcut.cl.sorted.filter _) (hU.sorted.filter _)
    refine (hperm.filter _).trans ?_
    rw [List.filter_append, List.filter_eq_nil_iff.mpr, List.nil_append]
    intro x hx
    rw [List.eq_of_mem_replicate hx]; simp
  have eL : normalizeKnots (U'.take (q + p) ++ [u]) = leftKnots p u U := by
    rw [hcut.left_clamped.normalize_eq, leftKnots, ← hlt, hcut.filter_lt, List.take_add, hcut.mid_eq,
      List.append_assoc, List.map_append]
    congr 1
    · apply List.map_congr_left; intro x _; field_simp; ring
    · rw [show List.replicate p u ++ [u] = List.replicate (p + 1) u by
        rw [List.replicate_succ'], List.map_replicate]
      congr 1; field_simp; ring
  have eR : normalizeKnots (u :: U'.drop q) = rightKnots p u U := by
    rw [hcut.right_clamped.normalize_eq, rightKnots, ← hgt, hcut.filter_gt,
      ← List.take_append_drop p (U'.drop q), hcut.mid_eq, List.drop_drop, ← List.cons_append,
      ← List.replicate_succ, List.map_append]
    congr 1
    · rw [List.map_replicate]; congr 1; field_simp; ring
    · apply List.map_congr_left; intro x _; field_simp; ring
  refine ⟨q - 1, n' + 1 - q, P'.take q, P'.drop (q - 1), ?_, ?_⟩
  · rw [← hl, normalizeIf, if_pos rfl, ← eL]
    exact validOn_canon hcut.left_clamped.normalize (by simp; omega)
  · rw [← hr', normalizeIf, if_pos rfl, ← eR]
    exact validOn_canon hcut.right_clamped.normalize (by simp; omega)


/-- non-vacuity: the halves of a quadratic curve at the knot `1/2` -/
example : leftKnots 2 (1 / 2) [(0 : ℚ), 0, 0, 1 / 4, 1 / 2, 3 / 4, 1, 1, 1] = [0, 0, 0, 1 / 2, 1, 1, 1] ∧
    rightKnots 2 (1 / 2) [(0 : ℚ), 0, 0, 1 / 4, 1 / 2, 3 / 4, 1, 1, 1] = [0, 0, 0, 1 / 2, 1, 1, 1] := by
  decide +kernel

/-! ### Counts -/

theorem count_revU (U : List K) (x : K) : (revU U).count x = U.count (1 - x) := by
  have hinj : Function.Injective (fun y : K => 1 - y) := fun a b h => by simpa using h
  rw [revU, show x = (fun y : K => 1 - y) (1 - x) by simp, List.count_map_of_injective _ _ hinj,
    List.count_reverse]
  simp

theorem count_leftKnots {p : ℕ} {u : K} (hu : 0 < u) (U : List K) {x : K} (h1 : x < 1) :
    (leftKnots p u U).count x = U.count (u * x) := by
  have hinj : Function.Injective (fun y : K => y / u) := fun a b h => by
    have h' : a / u = b / u := h
    rwa [div_left_inj' hu.ne'] at h'
  rw [leftKnots, List.count_append, List.count_replicate, if_neg (by simpa using h1.ne'), Nat.add_zero]
  conv_lhs => rw [show x = (fun y : K => y / u) (u * x) by field_simp]
  rw [List.count_map_of_injective _ _ hinj, List.count_filter]
  simpa using mul_lt_of_lt_one_right hu h1

theorem count_rightKnots {p : ℕ} {u : K} (hu : u < 1) (U : List K) {x : K} (h0 : 0 < x) :
    (rightKnots p u U).count x = U.count (u + (1 - u) * x) := by
  have hu' : 0 < 1 - u := sub_pos.mpr hu
  have hinj : Function.Injective (fun y : K => (y - u) / (1 - u)) := fun a b h => by
    have h' : (a - u) / (1 - u) = (b - u) / (1 - u) := h
    rw [div_left_inj' hu'.ne'] at h'
    simpa using h'
  rw [rightKnots, List.count_append, List.count_replicate, if_neg (by simpa using h0.ne), Nat.zero_add]
  conv_lhs => rw [show x = (fun y : K => (y - u) / (1 - u)) (u + (1 - u) * x) by field_simp; ring]
  rw [List.count_map_of_injective _ _ hinj, List.count_filter]
  simpa using mul_pos hu' h0

/-- two valid curves over the same knots with the same points are the same curve -/
theorem eq_of_evaluate {c c' : Curve K d} {p n n' : ℕ} {U : List K} {P P' : List (Pt K d)}
    (hc : ValidOn 0 1 c p n U P) (hc' : ValidOn 0 1 c' p n' U P')
    (hm : ∀ x, 0 < x → x < 1 → U.count x ≤ p + 1)
    (h : ∀ u, 0 ≤ u → u ≤ 1 → c.evaluate u = c'.evaluate u) : c = c' := by
  obtain rfl : n = n' := by
    have h1 := hc.2.1.length
    have h2 := hc'.2.1.length
    omega
  exact (C55_control_points_unique hc hc' hm h).2

/-! ### Insertion and reversal -/

theorem ValidOn.reverse {c : Curve K d} {p n : ℕ} {U : List K} {P : List (Pt K d)}
    (hc : ValidOn 0 1 c p n U P) :
    ∃ c', c.reverse = .ok c' ∧ ValidOn 0 1 c' p n (revU U) P.reverse := by
  obtain ⟨c', h1, h2⟩ := C23_reverse_valid hc
  rw [sub_self, sub_zero] at h2
  exact ⟨c', h1, h2⟩

/-- **C65** Inserting `u` and reversing is the same as reversing and inserting `1 - u`: the results
are equal, with all caches. Hypotheses: the other interior knots are simple, so that no repeated knot
lies on either side of `u` (see C15), and `u` keeps a multiplicity of at most `p` (see C22). -/
theorem C65_insert_reverse {c : Curve K d} {p n : ℕ} {U : List K} {P : List (Pt K d)}
    (hc : ValidOn 0 1 c p n U P) {u : K} (h0 : 0 < u) (h1 : u < 1) (hu : U.count u < p)
    (hs : ∀ x, 0 < x → x < 1 → x ≠ u → U.count x ≤ 1) :
    ∃ c1 r r1, c.insert u = .ok (c1, .ok ()) ∧ c1.reverse = .ok r1 ∧
      c.reverse = .ok r ∧ r.insert (1 - u) = .ok (r1, .ok ()) := by
  have hsb : SimpleBelow U u := fun x a b => hs x a (b.trans h1) b.ne
  have hsb' : SimpleBelow (revU U) (1 - u) := fun x a b => by
    rw [count_revU]; exact hs _ (by linarith) (by linarith) (by intro h; linarith)
  have hmult : ∀ x, 0 < x → x < 1 → U.count x ≤ p := by
    intro x a b
    by_cases hx : x = u
    · rw [hx]; exact hu.le
    · exact (hs x a b hx).trans (by omega)
  obtain ⟨r, hr, hrv⟩ := hc.reverse
  obtain ⟨c1, e1⟩ : ∃ c1, c.insert u = .ok (c1, .ok ()) := by
    obtain rfl := hc.eq_canon
    obtain ⟨l, -, -, -, -, e, -⟩ := insert_valid hc.2.1 hc.2.2 h0 h1 hu.le hsb
    exact ⟨_, e⟩
  obtain ⟨r2, e2⟩ : ∃ c1, r.insert (1 - u) = .ok (c1, .ok ()) := by
    obtain rfl := hrv.eq_canon
    obtain ⟨l, -, -, -, -, e, -⟩ := insert_valid hrv.2.1 hrv.2.2 (u := 1 - u) (by linarith)
      (by linarith) (by rw [count_revU, sub_sub_cancel]; exact hu.le) hsb'
    exact ⟨_, e⟩
  obtain ⟨U1, P1, v1, perm1⟩ := C16_insert_adds_knot_partial hc hsb e1
  obtain ⟨U2, P2, v2, perm2⟩ := C16_insert_adds_knot_partial hrv hsb' e2
  obtain ⟨r1, e3, v3⟩ := v1.reverse
  have hmult1 : ∀ x, 0 < x → x < 1 → U1.count x ≤ p := by
    intro x a b
    rw [perm1.count_eq, List.count_cons]
    by_cases hx : x = u
    · subst hx; simp; omega
    · have := hmult x a b
      rw [if_neg (by simpa using fun h => hx h.symm)]; simpa using this
  have hUU : U2 = revU U1 := by
    refine sorted_unique (perm2.trans ?_) v2.2.1.sorted v3.2.1.sorted
    rw [revU, revU]
    refine List.Perm.trans ?_ ((List.reverse_perm U1).symm.map _)
    refine List.Perm.trans ?_ (perm1.symm.map _)
    rw [List.map_cons]
    exact ((List.reverse_perm U).map _).cons _
  subst hUU
  refine ⟨c1, r, r1, e1, e3, hr, ?_⟩
  rw [e2]
  suffices r2 = r1 by rw [this]
  refine eq_of_evaluate v2 v3 ?_ ?_
  · intro x a b
    rw [count_revU]
    exact (hmult1 _ (by linarith) (by linarith)).trans (by omega)
  · intro t a b
    rw [C22_reverse_points v1 e3 hmult1 a b]
    have i1 := C15_insert_preserves_partial hc hsb e1 (1 - t) 0
    have i2 := C15_insert_preserves_partial hrv hsb' e2 t 0
    rw [Curve.evaluate, i2, Curve.evaluate, i1]
    exact C22_reverse_points hc hr hmult a b

/-! ### Splitting and reversal -/

theorem revU_leftKnots (p : ℕ) {u : K} (hu : 0 < u) (U : List K) :
    revU (leftKnots p u U) = rightKnots p (1 - u) (revU U) := by
  rw [revU, leftKnots, rightKnots, revU, List.reverse_append, List.map_append, List.reverse_replicate,
    List.map_replicate, sub_self, List.filter_map, List.filter_reverse, List.map_map,
    ← List.map_reverse, List.map_map]
  congr 1
  have e : (fun x : K => decide (1 - u < x)) ∘ (fun x => 1 - x) = fun x => decide (x < u) := by
    funext x; simp
  rw [e]
  apply List.map_congr_left
  intro x _
  simp only [Function.comp]
  rw [show 1 - x - (1 - u) = u - x by ring, sub_sub_cancel]
  field_simp

theorem revU_rightKnots (p : ℕ) {u : K} (hu : u < 1) (U : List K) :
    revU (rightKnots p u U) = leftKnots p (1 - u) (revU U) := by
  rw [← revU_revU (leftKnots p (1 - u) (revU U)), revU_leftKnots p (by linarith), revU_revU,
    sub_sub_cancel]

theorem split_exists {c : Curve K d} {p n : ℕ} {U : List K} {P : List (Pt K d)}
    (hc : ValidOn 0 1 c p n U P) {u : K} (h0 : 0 < u) (h1 : u < 1) (hu : U.count u ≤ p)
    (hr : SimpleBelow U u) : ∃ l r, split c u = .ok (.ok (l, r)) :=
  (C26_split_errors_partial hc hr (true, true)).2.2 h0 h1 hu

/-- **C65** Splitting the reversed curve at `1 - u` gives the reversed halves, exchanged. Hypotheses
as for insertion. -/
theorem C65_split_reverse {c : Curve K d} {p n : ℕ} {U : List K} {P : List (Pt K d)}
    (hc : ValidOn 0 1 c p n U P) {u : K} (h0 : 0 < u) (h1 : u < 1)
    (hm : ∀ x, 0 < x → x < 1 → U.count x ≤ p)
    (hs : ∀ x, 0 < x → x < 1 → x ≠ u → U.count x ≤ 1) :
    ∃ l r l' r' c', split c u = .ok (.ok (l, r)) ∧ l.reverse = .ok r' ∧ r.reverse = .ok l' ∧
      c.reverse = .ok c' ∧ split c' (1 - u) = .ok (.ok (l', r')) := by
  have hsb : SimpleBelow U u := fun x a b => hs x a (b.trans h1) b.ne
  have hsb' : SimpleBelow (revU U) (1 - u) := fun x a b => by
    rw [count_revU]; exact hs _ (by linarith) (by linarith) (by intro h; linarith)
  obtain ⟨c', hr, hrv⟩ := hc.reverse
  obtain ⟨l, r, e1⟩ := split_exists hc h0 h1 (hm u h0 h1) hsb
  obtain ⟨l2, r2, e2⟩ := split_exists hrv (u := 1 - u) (by linarith) (by linarith)
    (by rw [count_revU, sub_sub_cancel]; exact hm u h0 h1) hsb'
  obtain ⟨n1, n2, P1, P2, v1, v2⟩ := C25_split_knots_partial hc hsb e1
  obtain ⟨n3, n4, P3, P4, v3, v4⟩ := C25_split_knots_partial hrv hsb' e2
  obtain ⟨r', f1, w1⟩ := v1.reverse
  obtain ⟨l', f2, w2⟩ := v2.reverse
  have m1 : ∀ x, 0 < x → x < 1 → (leftKnots p u U).count x ≤ p := by
    intro x a b
    rw [count_leftKnots h0 U b]
    exact hm _ (mul_pos h0 a) ((mul_lt_of_lt_one_right h0 b).trans h1)
  have m2 : ∀ x, 0 < x → x < 1 → (rightKnots p u U).count x ≤ p := by
    intro x a b
    rw [count_rightKnots h1 U a]
    have := mul_pos (sub_pos.mpr h1) a
    have := mul_lt_of_lt_one_right (sub_pos.mpr h1) b
    exact hm _ (by linarith) (by linarith)
  rw [revU_leftKnots p h0] at w1
  rw [revU_rightKnots p h1] at w2
  refine ⟨l, r, l', r', c', e1, f1, f2, hr, ?_⟩
  rw [e2]
  have hl : l2 = l' := by
    refine eq_of_evaluate v3 w2 ?_ ?_
    · intro x a b
      rw [← revU_rightKnots p h1, count_revU]
      exact (m2 _ (by linarith) (by linarith)).trans (by omega)
    · intro t a b
      rw [(C24_split_points_partial hrv hsb' e2 a b).1, C22_reverse_points v2 f2 m2 a b,
        (C24_split_points_partial hc hsb e1 (t := 1 - t) (by linarith) (by linarith)).2]
      have hu : 0 < 1 - u := sub_pos.mpr h1
      have hle := mul_le_of_le_one_right hu.le b
      rw [C22_reverse_points hc hr hm (mul_nonneg hu.le a) (by linarith)]
      congr 1; ring
  have hr' : r2 = r' := by
    refine eq_of_evaluate v4 w1 ?_ ?_
    · intro x a b
      rw [← revU_leftKnots p h0, count_revU]
      exact (m1 _ (by linarith) (by linarith)).trans (by omega)
    · intro t a b
      rw [(C24_split_points_partial hrv hsb' e2 a b).2, C22_reverse_points v1 f1 m1 a b,
        (C24_split_points_partial hc hsb e1 (t := 1 - t) (by linarith) (by linarith)).1]
      have hle := mul_le_of_le_one_right h0.le b
      have hnn := mul_nonneg h0.le a
      rw [C22_reverse_points hc hr hm (u := 1 - u + (1 - (1 - u)) * t) (by linarith)
        (by linarith)]
      congr 1; ring
  rw [hl, hr']

/-! ### Splitting twice -/

theorem leftKnots_leftKnots (p : ℕ) {u v : K} (hu : 0 < u) (huv : u < v) (U : List K) :
    leftKnots p (u / v) (leftKnots p v U) = leftKnots p u U := by
  have hv := hu.trans huv
  rw [leftKnots, leftKnots, leftKnots, List.filter_append, List.map_append, List.filter_map,
    List.filter_filter, List.map_map]
  have e0 : (List.replicate (p + 1) (1 : K)).filter (fun x => x < u / v) = [] := by
    rw [List.filter_eq_nil_iff]
    intro x hx
    rw [List.eq_of_mem_replicate hx]
    simpa using ((div_lt_one hv).mpr huv).le
  rw [e0, List.map_nil, List.append_nil]
  congr 1
  have e : (fun a : K => ((fun x => decide (x < u / v)) ∘ (fun x => x / v)) a && decide (a < v)) =
      fun x => decide (x < u) := by
    funext x
    simp only [Function.comp, div_lt_div_iff_of_pos_right hv]
    by_cases h : x < u
    · simp [h, h.trans huv]
    · simp [h]
  rw [e]
  apply List.map_congr_left
  intro x _
  simp only [Function.comp]
  field_simp

theorem rightKnots_rightKnots (p : ℕ) {u v : K} (huv : u < v) (hv : v < 1) (U : List K) :
    rightKnots p ((v - u) / (1 - u)) (rightKnots p u U) = rightKnots p v U := by
  have hu : u < 1 := huv.trans hv
  have h := leftKnots_leftKnots p (u := 1 - v) (v := 1 - u) (by linarith) (by linarith) (revU U)
  rw [← revU_rightKnots p hu, ← revU_rightKnots p hv] at h
  have hpos : 0 < 1 - u := by linarith
  have e : (1 - v) / (1 - u) = 1 - (v - u) / (1 - u) := by field_simp; ring
  rw [e, ← revU_rightKnots p (by rw [div_lt_one hpos]; linarith)] at h
  have := congrArg revU h
  rwa [revU_revU, revU_revU] at this

theorem middleKnots (p : ℕ) {u v : K} (hu : 0 < u) (huv : u < v) (hv : v < 1) {U : List K} :
    rightKnots p (u / v) (leftKnots p v U) =
      leftKnots p ((v - u) / (1 - u)) (rightKnots p u U) := by
  have hv0 := hu.trans huv
  have hu1 : 0 < 1 - u := by linarith
  have hvu : 0 < v - u := by linarith
  rw [rightKnots, leftKnots, leftKnots, rightKnots, List.filter_append, List.map_append,
    List.filter_append, List.map_append, List.filter_map, List.filter_map, List.filter_filter,
    List.filter_filter, List.map_map, List.map_map]
  have hw : u / v < 1 := (div_lt_one hv0).mpr huv
  have e0 : (List.replicate (p + 1) (1 : K)).filter (fun x => u / v < x) = List.replicate (p + 1) 1 := by
    rw [List.filter_eq_self]
    intro x hx
    rw [List.eq_of_mem_replicate hx]
    simpa using hw
  have e1 : (List.replicate (p + 1) (0 : K)).filter (fun x => x < (v - u) / (1 - u)) =
      List.replicate (p + 1) 0 := by
    rw [List.filter_eq_self]
    intro x hx
    rw [List.eq_of_mem_replicate hx]
    simpa using div_pos hvu hu1
  rw [e0, e1, List.map_replicate, List.map_replicate, zero_div, div_self (by linarith : 1 - u / v ≠ 0),
    List.append_assoc]
  congr 2
  have e : (fun a : K => ((fun x => decide (u / v < x)) ∘ (fun x => x / v)) a && decide (a < v)) =
      (fun a : K => ((fun x => decide (x < (v - u) / (1 - u))) ∘ (fun x => (x - u) / (1 - u))) a &&
        decide (u < a)) := by
    funext x
    simp only [Function.comp, div_lt_div_iff_of_pos_right hv0, div_lt_div_iff_of_pos_right hu1,
      sub_lt_sub_iff_right]
    rw [Bool.and_comm]
  rw [e]
  apply List.map_congr_left
  intro x _
  simp only [Function.comp]
  have : v - u ≠ 0 := hvu.ne'
  have : 1 - u ≠ 0 := hu1.ne'
  have h3 : 1 - u / v = (v - u) / v := by field_simp
  rw [h3]
  field_simp

/-- **C65** Splitting is associative: cutting at `v` and then the left half at `u`, or cutting at `u`
and then the right half at `v` (in the parameters of the halves), gives the same three curves.
Hypotheses: the interior knots below `v` are simple, `v` has a multiplicity of at most `p` and the
others one of at most `p + 1`. -/
theorem C65_split_split {c : Curve K d} {p n : ℕ} {U : List K} {P : List (Pt K d)}
    (hc : ValidOn 0 1 c p n U P) (hp : 1 ≤ p) {u v : K} (h0 : 0 < u) (huv : u < v) (h1 : v < 1)
    (hs : SimpleBelow U v) (hv : U.count v ≤ p)
    (hm : ∀ x, 0 < x → x < 1 → U.count x ≤ p + 1) :
    ∃ l r s x y z, split c v = .ok (.ok (l, z)) ∧ split l (u / v) = .ok (.ok (x, y)) ∧
      split c u = .ok (.ok (x, s)) ∧ split s ((v - u) / (1 - u)) = .ok (.ok (y, r)) ∧ r = z := by
  have hv0 := h0.trans huv
  have hu1 := huv.trans h1
  have hu1' : 0 < 1 - u := by linarith
  have hw0 : 0 < u / v := div_pos h0 hv0
  have hw1 : u / v < 1 := (div_lt_one hv0).mpr huv
  have hz0 : 0 < (v - u) / (1 - u) := div_pos (by linarith) hu1'
  have hz1 : (v - u) / (1 - u) < 1 := (div_lt_one hu1').mpr (by linarith)
  have euv : v * (u / v) = u := by field_simp
  have ezv : u + (1 - u) * ((v - u) / (1 - u)) = v := by field_simp; ring
  have hsu : SimpleBelow U u := fun x a b => hs x a (b.trans huv)
  obtain ⟨l, z, e1⟩ := split_exists hc hv0 h1 hv hs
  obtain ⟨x', s, e3⟩ := split_exists hc h0 hu1 ((hs u h0 huv).trans hp) hsu
  obtain ⟨_, _, _, _, v1, v2⟩ := C25_split_knots_partial hc hs e1
  obtain ⟨_, _, _, _, v3, v4⟩ := C25_split_knots_partial hc hsu e3
  have hsl : SimpleBelow (leftKnots p v U) (u / v) := by
    intro x a b
    rw [count_leftKnots hv0 U (b.trans hw1)]
    exact hs _ (mul_pos hv0 a) (mul_lt_of_lt_one_right hv0 (b.trans hw1))
  have hsr : SimpleBelow (rightKnots p u U) ((v - u) / (1 - u)) := by
    intro x a b
    rw [count_rightKnots hu1 U a]
    have := mul_pos hu1' a
    have := mul_lt_mul_of_pos_left b hu1'
    exact hs _ (by linarith) (by linarith)
  obtain ⟨x, y, e2⟩ := split_exists v1 hw0 hw1 (by
    rw [count_leftKnots hv0 U hw1, euv]; exact (hs u h0 huv).trans hp) hsl
  obtain ⟨y', r, e4⟩ := split_exists v4 hz0 hz1 (by
    rw [count_rightKnots hu1 U hz0, ezv]; exact hv) hsr
  obtain ⟨_, _, _, _, w1, w2⟩ := C25_split_knots_partial v1 hsl e2
  obtain ⟨_, _, _, _, w3, w4⟩ := C25_split_knots_partial v4 hsr e4
  rw [leftKnots_leftKnots p h0 huv] at w1
  rw [middleKnots p h0 huv h1] at w2
  rw [rightKnots_rightKnots p huv h1] at w4
  have hx : x = x' := by
    refine eq_of_evaluate w1 v3 ?_ ?_
    · intro t a b
      rw [count_leftKnots h0 U b]
      exact hm _ (mul_pos h0 a) ((mul_lt_of_lt_one_right h0 b).trans hu1)
    · intro t a b
      rw [(C24_split_points_partial v1 hsl e2 a b).1, (C24_split_points_partial hc hsu e3 a b).1,
        (C24_split_points_partial hc hs e1 (mul_nonneg hw0.le a)
          ((mul_le_of_le_one_right hw0.le b).trans hw1.le)).1, ← mul_assoc, euv]
  have hr : r = z := by
    refine eq_of_evaluate w4 v2 ?_ ?_
    · intro t a b
      rw [count_rightKnots h1 U a]
      have h1' : 0 < 1 - v := by linarith
      have := mul_pos h1' a
      have := mul_lt_of_lt_one_right h1' b
      exact hm _ (by linarith) (by linarith)
    · intro t a b
      have hz' : 0 < 1 - (v - u) / (1 - u) := by linarith
      have h5 := mul_nonneg hz'.le a
      have h6 := mul_le_of_le_one_right hz'.le b
      rw [(C24_split_points_partial v4 hsr e4 a b).2, (C24_split_points_partial hc hs e1 a b).2,
        (C24_split_points_partial hc hsu e3 (t := (v - u) / (1 - u) + (1 - (v - u) / (1 - u)) * t)
          (by linarith) (by linarith)).2]
      congr 1
      field_simp
      ring
  have hy : y' = y := by
    refine eq_of_evaluate w3 w2 ?_ ?_
    · intro t a b
      rw [count_leftKnots hz0 _ b, count_rightKnots hu1 U (mul_pos hz0 a)]
      have h5 := mul_lt_of_lt_one_right hz0 b
      have h6 := mul_pos hu1' (mul_pos hz0 a)
      have h7 := mul_lt_mul_of_pos_left (h5.trans hz1) hu1'
      exact hm _ (by linarith) (by linarith)
    · intro t a b
      have hw' : 0 < 1 - u / v := by linarith
      have h5 := mul_nonneg hw'.le a
      have h6 := mul_le_of_le_one_right hw'.le b
      rw [(C24_split_points_partial v4 hsr e4 a b).1, (C24_split_points_partial v1 hsl e2 a b).2,
        (C24_split_points_partial hc hsu e3 (mul_nonneg hz0.le a)
          ((mul_le_of_le_one_right hz0.le b).trans hz1.le)).2,
        (C24_split_points_partial hc hs e1 (t := u / v + (1 - u / v) * t) (by linarith)
          (by linarith)).1]
      congr 1
      field_simp
  exact ⟨l, r, s, x, y, z, e1, e2, hx ▸ e3, hy ▸ e4, hr⟩

/-- non-vacuity: a quadratic curve with two simple interior knots, and an inserted knot at one of them -/
example : ∃ c, ValidOn 0 1 c 2 4 [(0 : ℚ), 0, 0, 1 / 4, 1 / 2, 1, 1, 1]
      [![0], ![1], ![3], ![2], ![5]] ∧
    (∀ x, 0 < x → x < 1 → ([(0 : ℚ), 0, 0, 1 / 4, 1 / 2, 1, 1, 1]).count x ≤ 1) ∧
    ([(0 : ℚ), 0, 0, 1 / 4, 1 / 2, 1, 1, 1]).count (1 / 4) < 2 := by
  refine ⟨_, validOn_canon (by decide +kernel) rfl, ?_, by decide +kernel⟩
  intro x h0 h1
  simp only [List.count_cons, List.count_nil, beq_iff_eq]
  rw [if_neg h0.ne, if_neg h1.ne']
  split <;> split <;> first | omega | skip
  rename_i a b
  rw [← a] at b; norm_num at b

end BSpline
