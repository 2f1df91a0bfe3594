import Verif.Props.Extract
import Verif.Props.Laws
import Verif.Props.SplitSharp

/-!
# Cutting a curve into several pieces: C140
-/

set_option linter.unusedSectionVars false

namespace BSpline

open Finset

variable {K : Type} [Field K] [LinearOrder K] [IsStrictOrderedRing K] {d : ℕ}

/-! ### Specification -/

/-- Cutting a curve that is the part above `a` of some other curve at the parameters `xs` of the other one, in the given
order: `split` at the first one, then the second part at the remaining ones. -/
def cutAll (c : Curve K d) (a : K) : List K → Exec (Except (SplitError K) (List (Curve K d)))
  | [] => .ok (.ok [c])
  | x :: xs => do
    match ← split c ((x - a) / (1 - a)) with
    | .error e => pure (.error e)
    | .ok (l, r) =>
      match ← cutAll r x xs with
      | .error e => pure (.error e)
      | .ok cs => pure (.ok (l :: cs))

/-- The cuts are increasing, between two neighbouring ones (the first one and `a`) there is no repeated knot, and they are
not knots of multiplicity above `p`. -/
def Cuttable (p : ℕ) (U : List K) (a : K) : List K → Prop
  | [] => True
  | x :: xs => a < x ∧ x < 1 ∧ (∀ z, a < z → z < x → U.count z ≤ 1) ∧ U.count x ≤ p ∧ Cuttable p U x xs

/-- the knots between `x` and `y`, stretched to `[0, 1]`, and `p + 1` copies of both ends -/
def pieceKnots (p : ℕ) (U : List K) (x y : K) : List K :=
  List.replicate (p + 1) 0 ++ (U.filter fun z => decide (x < z ∧ z < y)).map (fun z => (z - x) / (y - x)) ++
    List.replicate (p + 1) 1

/-- the piece of `c` between the parameters `x` and `y` -/
def IsPiece (c : Curve K d) (p : ℕ) (U : List K) (x y : K) (c' : Curve K d) : Prop :=
  (∃ P', ValidOn 0 1 c' p (p + U.countP fun z => decide (x < z ∧ z < y)) (pieceKnots p U x y) P') ∧
  (∀ t, 0 ≤ t → t ≤ 1 → c'.evaluate t = c.evaluate (x + t * (y - x))) ∧
  ∀ t k, 0 ≤ t → t ≤ 1 → (t = 1 → y < 1 → k ≤ p → U.count y ≤ p - k) →
    ∃ w, c.evaluateDerivative (x + t * (y - x)) k = .ok (.ok w) ∧
      c'.evaluateDerivative t k = .ok (.ok ((y - x) ^ k • w))

/-! ### Knots -/

theorem leftKnots_rightKnots (p : ℕ) {a x : K} (hax : a < x) (hx : x < 1) (U : List K) :
    leftKnots p ((x - a) / (1 - a)) (rightKnots p a U) = pieceKnots p U a x := by
  have ha : 0 < 1 - a := by linarith
  have hxa : 0 < x - a := by linarith
  have hu : 0 < (x - a) / (1 - a) := div_pos hxa ha
  rw [leftKnots, rightKnots, List.filter_append, List.map_append, List.filter_map, List.filter_filter, List.map_map,
    pieceKnots]
  have e1 : (List.replicate (p + 1) (0 : K)).filter (fun z => z < (x - a) / (1 - a)) = List.replicate (p + 1) 0 := by
    rw [List.filter_eq_self]
    intro z hz
    rw [List.eq_of_mem_replicate hz]
    simpa using hu
  have e2 : (fun z : K => ((fun w => decide (w < (x - a) / (1 - a))) ∘ fun w => (w - a) / (1 - a)) z && decide (a < z)) =
      fun z => decide (a < z ∧ z < x) := by
    funext z
    simp only [Function.comp, div_lt_div_iff_of_pos_right ha, sub_lt_sub_iff_right, Bool.decide_and]
    exact Bool.and_comm _ _
  rw [e1, e2, List.map_replicate, zero_div]
  congr 2
  apply List.map_congr_left
  intro z _
  simp only [Function.comp]
  field_simp

theorem rightKnots_pieceKnots {p n : ℕ} {U : List K} (hU : ClampedKnots 0 1 p n U) {a : K} (ha : a < 1) :
    rightKnots p a U = pieceKnots p U a 1 := by
  rw [rightKnots, pieceKnots, List.append_assoc]
  congr 1
  have h1 : (1 - a) / (1 - a) = 1 := div_self (by linarith)
  have e : List.replicate (p + 1) (1 : K) = (List.replicate (p + 1) 1).map fun z => (z - a) / (1 - a) := by
    rw [List.map_replicate, h1]
  rw [e, ← List.map_append]
  congr 1
  refine sorted_unique ?_ (hU.sorted.sublist List.filter_sublist) ?_
  · rw [List.perm_iff_count]
    intro z
    rw [List.count_append, List.count_replicate]
    by_cases hz : z = 1
    · subst hz
      rw [List.count_filter (by simpa using ha), clamped_count_one hU, List.count_eq_zero.mpr, if_pos (by simp),
        Nat.zero_add]
      intro h
      have := (List.mem_filter.mp h).2
      simp at this
    · rw [if_neg (by simpa using Ne.symm hz), Nat.add_zero]
      by_cases hm : z ∈ U
      · have hz1 : z < 1 := lt_of_le_of_ne (clamped_mem hU hm).2 hz
        by_cases haz : a < z
        · rw [List.count_filter (by simpa using haz), List.count_filter (by simp [haz, hz1])]
        · rw [List.count_eq_zero.mpr, List.count_eq_zero.mpr] <;> intro h <;> have := (List.mem_filter.mp h).2 <;>
            simp [haz] at this
      · rw [List.count_eq_zero.mpr, List.count_eq_zero.mpr] <;> intro h <;> exact hm (List.mem_filter.mp h).1
  · rw [List.pairwise_append]
    refine ⟨hU.sorted.sublist List.filter_sublist, List.pairwise_replicate.mpr (.inr le_rfl), ?_⟩
    intro z hz w hw
    rw [List.eq_of_mem_replicate hw]
    have := (List.mem_filter.mp hz).2
    simp only [decide_eq_true_eq] at this
    exact this.2.le

theorem rightKnots_zero {p n : ℕ} {U : List K} (hU : ClampedKnots 0 1 p n U) : rightKnots p 0 U = U := by
  rw [rightKnots]
  have e : (fun x : K => (x - 0) / (1 - 0)) = id := by funext x; simp
  rw [e, List.map_id]
  refine sorted_unique ?_ ?_ hU.sorted
  · rw [List.perm_iff_count]
    intro z
    rw [List.count_append, List.count_replicate]
    by_cases hz : z = 0
    · subst hz
      rw [clamped_count_zero hU, if_pos (by simp), List.count_eq_zero.mpr, Nat.add_zero]
      intro h
      have := (List.mem_filter.mp h).2
      simp at this
    · rw [if_neg (by simpa using Ne.symm hz), Nat.zero_add]
      by_cases hm : z ∈ U
      · rw [List.count_filter]
        simpa using lt_of_le_of_ne (clamped_mem hU hm).1 (Ne.symm hz)
      · rw [List.count_eq_zero.mpr hm, List.count_eq_zero.mpr fun h => hm (List.mem_filter.mp h).1]
  · rw [List.pairwise_append]
    refine ⟨List.pairwise_replicate.mpr (.inr le_rfl), hU.sorted.sublist List.filter_sublist, ?_⟩
    intro z hz w hw
    rw [List.eq_of_mem_replicate hz]
    have := (List.mem_filter.mp hw).2
    simp only [decide_eq_true_eq] at this
    exact this.le

theorem valid_pieceKnots {c : Curve K d} {p m : ℕ} {U : List K} {x y : K} {P : List (Pt K d)}
    (h : ValidOn 0 1 c p m (pieceKnots p U x y) P) : m = p + U.countP fun z => decide (x < z ∧ z < y) := by
  have := h.2.1.length
  rw [pieceKnots, List.length_append, List.length_append, List.length_replicate, List.length_replicate, List.length_map,
    ← List.countP_eq_length_filter] at this
  omega

/-! ### Cutting -/

theorem cutAll_pieces {c₀ : Curve K d} {p n : ℕ} {U : List K} (hU : ClampedKnots 0 1 p n U) (xs : List K) :
    ∀ {c : Curve K d} {m : ℕ} {a : K} {P : List (Pt K d)}, 0 ≤ a → a < 1 → ValidOn 0 1 c p m (rightKnots p a U) P →
    (∀ t k, 0 ≤ t → t ≤ 1 → ∃ w, c₀.evaluateDerivative (a + (1 - a) * t) k = .ok (.ok w) ∧
      c.evaluateDerivative t k = .ok (.ok ((1 - a) ^ k • w))) → Cuttable p U a xs →
    ∃ cs, cutAll c a xs = .ok (.ok cs) ∧ cs.length = xs.length + 1 ∧
      ∀ j x y c', (a :: (xs ++ [1]))[j]? = some x → (a :: (xs ++ [1]))[j + 1]? = some y → cs[j]? = some c' →
        IsPiece c₀ p U x y c' := by
  induction xs with
  | nil =>
    intro c m a P _ ha hc hv _
    refine ⟨[c], rfl, rfl, ?_⟩
    rintro (_ | j) x y c' hx hy hc'
    · simp only [List.nil_append, List.getElem?_cons_zero, Option.some.injEq, List.getElem?_cons_succ] at hx hy hc'
      subst hx hy hc'
      rw [rightKnots_pieceKnots hU ha] at hc
      have key : ∀ t k, 0 ≤ t → t ≤ 1 → ∃ w, c₀.evaluateDerivative (a + t * (1 - a)) k = .ok (.ok w) ∧
          c.evaluateDerivative t k = .ok (.ok ((1 - a) ^ k • w)) := fun t k h0 h1 => by
        rw [mul_comm t]; exact hv t k h0 h1
      refine ⟨⟨P, valid_pieceKnots hc ▸ hc⟩, fun t h0 h1 => ?_, fun t k h0 h1 _ => key t k h0 h1⟩
      obtain ⟨w, e1, e2⟩ := key t 0 h0 h1
      rw [Curve.evaluate, Curve.evaluate, e1, e2, pow_zero, one_smul]
    · simp at hc'
  | cons b xs ih =>
    rintro c m a P h0a ha hc hv ⟨hab, hb, hs, hm, hr⟩
    have ha' : 0 < 1 - a := by linarith
    set u := (b - a) / (1 - a) with hu
    have hu0 : 0 < u := div_pos (by linarith) ha'
    have hu1 : u < 1 := by rw [hu, div_lt_one ha']; linarith
    have hau : a + (1 - a) * u = b := by rw [hu]; field_simp; ring
    have hsb : SimpleBelow (rightKnots p a U) u := by
      intro z hz0 hz1
      rw [count_rightKnots ha U hz0]
      refine hs _ (by nlinarith) ?_
      rw [← hau]
      have := mul_lt_mul_of_pos_left hz1 ha'
      linarith
    have hcu : (rightKnots p a U).count u = U.count b := by rw [count_rightKnots ha U hu0, hau]
    obtain ⟨l, r, hsp⟩ := (C26_split_errors_partial hc hsb (true, true)).2.2 hu0 hu1 (by rw [hcu]; exact hm)
    change split c u = .ok (.ok (l, r)) at hsp
    obtain ⟨n1, n2, P1, P2, hl, hrr⟩ := C25_split_knots_partial hc hsb hsp
    rw [hu, leftKnots_rightKnots p hab hb] at hl
    rw [hu, rightKnots_rightKnots p hab hb] at hrr
    have h1u : (1 - a) * (1 - u) = 1 - b := by rw [← hau]; ring
    obtain ⟨cs, a1, a2, a3⟩ := ih (h0a.trans hab.le) hb hrr (by
      intro t k h0 h1
      obtain ⟨w, e1, e2⟩ := C24_split_right_partial hc hsb hsp h0 h1 k
      have hin0 : 0 ≤ u + (1 - u) * t := by nlinarith
      have hin1 : u + (1 - u) * t ≤ 1 := by nlinarith
      obtain ⟨w', f1, f2⟩ := hv (u + (1 - u) * t) k hin0 hin1
      rw [f2] at e1
      injection e1 with e1; injection e1 with e1
      refine ⟨w', ?_, ?_⟩
      · rw [← f1]; congr 1
        rw [← h1u, ← hau]; ring
      · rw [e2, ← e1, smul_smul, ← mul_pow, mul_comm (1 - u), h1u]) hr
    refine ⟨l :: cs, ?_, by simp [a2], ?_⟩
    · rw [cutAll, ← hu, hsp, ok_bind]
      change (cutAll r b xs >>= _) = _
      rw [a1]; rfl
    rintro (_ | j) x y c' hx hy hc'
    · simp only [List.cons_append, List.getElem?_cons_zero, Option.some.injEq, List.getElem?_cons_succ] at hx hy hc'
      subst hx hy hc'
      have hmul : (1 - a) * u = b - a := by linarith
      have key : ∀ t k, 0 ≤ t → t ≤ 1 → (t = 1 → k ≤ p → U.count b ≤ p - k) →
          ∃ w, c₀.evaluateDerivative (a + t * (b - a)) k = .ok (.ok w) ∧
            l.evaluateDerivative t k = .ok (.ok ((b - a) ^ k • w)) := by
        intro t k h0 h1 hk
        obtain ⟨w, e1, e2⟩ := C24_split_left_partial hc hsb hsp h0 h1 k (by rw [hcu]; exact hk)
        obtain ⟨w', f1, f2⟩ := hv (u * t) k (mul_nonneg hu0.le h0) (mul_le_one₀ hu1.le h0 h1)
        rw [f2] at e1
        injection e1 with e1; injection e1 with e1
        refine ⟨w', ?_, ?_⟩
        · rw [← f1]; congr 1
          rw [← hmul]; ring
        · rw [e2, ← e1, smul_smul, ← mul_pow, mul_comm u, hmul]
      refine ⟨⟨P1, valid_pieceKnots hl ▸ hl⟩, fun t h0 h1 => ?_, fun t k h0 h1 hk => key t k h0 h1 fun ht => hk ht hb⟩
      obtain ⟨w, e1, e2⟩ := key t 0 h0 h1 fun _ _ => hm
      rw [Curve.evaluate, Curve.evaluate, e1, e2, pow_zero, one_smul]
    · exact a3 j x y c' hx hy hc'

/-- **C140** A curve can be cut at any number of parameters by splitting it at the first one, the second part at the next
one, and so on, if between neighbouring cuts there is no repeated knot and no cut is a knot of multiplicity above `p`. The
result has one piece more than there are cuts, and each piece is the curve between its two parameters, over the knots that
lie between them. *Below* a cut there may be repeated knots, as long as the curve has been cut there before. -/
theorem C140_pieces {c : Curve K d} {p n : ℕ} {U : List K} {P : List (Pt K d)} (hc : ValidOn 0 1 c p n U P) {xs : List K}
    (h : Cuttable p U 0 xs) : ∃ cs, cutAll c 0 xs = .ok (.ok cs) ∧ cs.length = xs.length + 1 ∧
      ∀ j x y c', (0 :: (xs ++ [1]))[j]? = some x → (0 :: (xs ++ [1]))[j + 1]? = some y → cs[j]? = some c' →
        IsPiece c p U x y c' := by
  refine cutAll_pieces hc.2.1 xs le_rfl zero_lt_one (rightKnots_zero hc.2.1 ▸ hc) (fun t k h0 h1 => ?_) h
  obtain ⟨w, hw⟩ := (C06_evaluation_total hc.1 hc.2.1.length hc.2.2 hc.2.1.le t k).2.1 (by simp [Cmp.le, h0, h1])
  rw [sub_zero, zero_add, one_mul]
  exact ⟨w, hw, by rw [hw, one_pow, one_smul]⟩

theorem cuttable_distinct {p : ℕ} {U : List K} (hm : ∀ z, 0 < z → z < 1 → U.count z ≤ p) (xs : List K) : ∀ {a : K}, 0 ≤ a →
    (a :: xs).Pairwise (· < ·) → (∀ z, z ∈ xs ↔ z ∈ U ∧ a < z ∧ z < 1) → Cuttable p U a xs := by
  induction xs with
  | nil => intros; trivial
  | cons x xs ih =>
    intro a ha hs hx
    obtain ⟨h1, h2⟩ := List.pairwise_cons.mp hs
    obtain ⟨-, hax, hx1⟩ := (hx x).mp List.mem_cons_self
    obtain ⟨h3, h4⟩ := List.pairwise_cons.mp h2
    refine ⟨hax, hx1, fun z hz0 hz1 => ?_, hm x (ha.trans_lt hax) hx1, ih (ha.trans hax.le) h2 fun z => ?_⟩
    · rw [List.count_eq_zero.mpr]
      · omega
      · intro hz
        rcases List.mem_cons.mp ((hx z).mpr ⟨hz, hz0, hz1.trans hx1⟩) with rfl | h
        · exact lt_irrefl _ hz1
        · exact absurd (h3 z h) (not_lt.mpr hz1.le)
    · constructor
      · intro hz
        obtain ⟨b1, -, b3⟩ := (hx z).mp (List.mem_cons_of_mem _ hz)
        exact ⟨b1, h3 z hz, b3⟩
      · rintro ⟨b1, b2, b3⟩
        exact (List.mem_cons.mp ((hx z).mpr ⟨b1, hax.trans b2, b3⟩)).resolve_left b2.ne'

theorem cuts_adjacent {U : List K} (xs : List K) : ∀ {a : K}, (a :: xs).Pairwise (· < ·) →
    (∀ z, z ∈ U → a < z → z < 1 → z ∈ xs) → (∀ z ∈ xs, z < 1) → ∀ j x y, (a :: (xs ++ [1]))[j]? = some x →
      (a :: (xs ++ [1]))[j + 1]? = some y → a ≤ x ∧ y ≤ 1 ∧ ∀ z ∈ U, ¬ (x < z ∧ z < y) := by
  induction xs with
  | nil =>
    rintro a - hU - (_ | j) x y hx hy
    · simp only [List.nil_append, List.getElem?_cons_zero, Option.some.injEq, List.getElem?_cons_succ] at hx hy
      subst hx hy
      exact ⟨le_rfl, le_rfl, fun z hz h => absurd (hU z hz h.1 h.2) (by simp)⟩
    · simp at hy
  | cons b xs ih =>
    rintro a hs hU h1 (_ | j) x y hx hy
    all_goals obtain ⟨s1, s2⟩ := List.pairwise_cons.mp hs
    · simp only [List.cons_append, List.getElem?_cons_zero, Option.some.injEq, List.getElem?_cons_succ] at hx hy
      subst hx hy
      refine ⟨le_rfl, (h1 b List.mem_cons_self).le, fun z hz h => ?_⟩
      rcases List.mem_cons.mp (hU z hz h.1 (h.2.trans (h1 b List.mem_cons_self))) with rfl | h'
      · exact lt_irrefl _ h.2
      · exact absurd ((List.pairwise_cons.mp s2).1 z h') (not_lt.mpr h.2.le)
    · have hab := s1 b List.mem_cons_self
      obtain ⟨c1, c2, c3⟩ := ih s2 (fun z hz hbz hz1 => (List.mem_cons.mp (hU z hz (hab.trans hbz) hz1)).resolve_left hbz.ne')
        (fun z hz => h1 z (List.mem_cons_of_mem _ hz)) j x y hx hy
      exact ⟨hab.le.trans c1, c2, c3⟩

/-- **C140** Cutting any curve whose interior knots have at most multiplicity `p` at all its interior knots, each one once and
in increasing order, always succeeds and gives Bézier curves: each piece has `p + 1` control points, and they are the Bézier
points of the curve between two neighbouring knots. -/
theorem C140_bezier {c : Curve K d} {p n : ℕ} {U : List K} {P : List (Pt K d)} (hc : ValidOn 0 1 c p n U P)
    (hm : ∀ z, 0 < z → z < 1 → U.count z ≤ p) {xs : List K} (hs : xs.Pairwise (· < ·))
    (hx : ∀ z, z ∈ xs ↔ z ∈ U ∧ 0 < z ∧ z < 1) :
    ∃ cs, cutAll c 0 xs = .ok (.ok cs) ∧ cs.length = xs.length + 1 ∧
      ∀ j x y c', (0 :: (xs ++ [1]))[j]? = some x → (0 :: (xs ++ [1]))[j + 1]? = some y → cs[j]? = some c' →
        ∃ P', ValidOn 0 1 c' p p (List.replicate (p + 1) 0 ++ List.replicate (p + 1) 1) P' ∧
          ∀ t, 0 ≤ t → t ≤ 1 → c.evaluate (x + t * (y - x)) =
            .ok (.ok (∑ j ∈ range (p + 1), bern p j t • P'.getD j 0)) := by
  have hs' : ((0 : K) :: xs).Pairwise (· < ·) := List.pairwise_cons.mpr ⟨fun z hz => ((hx z).mp hz).2.1, hs⟩
  obtain ⟨cs, a1, a2, a3⟩ := C140_pieces hc (cuttable_distinct hm xs le_rfl hs' hx)
  refine ⟨cs, a1, a2, fun j x y c' h1 h2 h3 => ?_⟩
  obtain ⟨⟨P', hP'⟩, hv, -⟩ := a3 j x y c' h1 h2 h3
  obtain ⟨-, -, hno⟩ := cuts_adjacent xs hs' (fun z hz h0 h1 => (hx z).mpr ⟨hz, h0, h1⟩) (fun z hz => ((hx z).mp hz).2.2)
    j x y h1 h2
  have e1 : (U.countP fun z => decide (x < z ∧ z < y)) = 0 := List.countP_eq_zero.mpr fun z hz => by simpa using hno z hz
  have e2 : pieceKnots p U x y = List.replicate (p + 1) 0 ++ List.replicate (p + 1) 1 := by
    rw [pieceKnots, List.filter_eq_nil_iff.mpr fun z hz => by simpa using hno z hz]
    simp
  rw [e1, e2, Nat.add_zero] at hP'
  refine ⟨P', hP', fun t h0 h1 => ?_⟩
  have g0 : ∀ m, m ≤ p → (List.replicate (p + 1) (0 : K) ++ List.replicate (p + 1) 1)[m]? = some 0 := fun m hm => by
    rw [List.getElem?_append_left (by simp; omega), List.getElem?_replicate, if_pos (by omega)]
  have g1 : ∀ m, p < m → m ≤ 2 * p + 1 → (List.replicate (p + 1) (0 : K) ++ List.replicate (p + 1) 1)[m]? = some 1 :=
    fun m hm hm' => by
    rw [List.getElem?_append_right (by simp; omega), List.getElem?_replicate, if_pos (by simp; omega)]
  have := C139_piece (i := 0) hP' (x := 0) (y := 1) zero_lt_one (fun m _ h => g0 m (by omega))
    (fun m h h' => g1 m (by omega) (by omega)) (by
      rcases Nat.eq_zero_or_pos p with h | h
      · exact .inr ⟨g0 0 (by omega), g1 1 (by omega) (by omega)⟩
      · exact .inl h) h0 (by rcases h1.lt_or_eq with h | h; exacts [.inl h, .inr ⟨h, rfl⟩])
  rw [← hv t h0 h1]
  rw [show (0 : K) + t * (1 - 0) = t by ring] at this
  rw [this]
  simp only [Nat.zero_add]

/-! ### Examples -/

/-- a quadratic curve with the double knot `1/4` below the knot `1/2` -/
def exPieces : Curve ℚ 1 := canon 2 [0, 0, 0, 1 / 4, 1 / 4, 1 / 2, 1, 1, 1] [![0], ![4], ![1], ![3], ![2], ![5]]

example : ValidOn 0 1 exPieces 2 5 [0, 0, 0, 1 / 4, 1 / 4, 1 / 2, 1, 1, 1] [![0], ![4], ![1], ![3], ![2], ![5]] :=
  validOn_canon (by decide +kernel) rfl

/-- the hypotheses of `C140_bezier` for the cuts `1/4`, `1/2` -/
example : (∀ z : ℚ, 0 < z → z < 1 → [(0 : ℚ), 0, 0, 1 / 4, 1 / 4, 1 / 2, 1, 1, 1].count z ≤ 2) ∧
    [(1 / 4 : ℚ), 1 / 2].Pairwise (· < ·) ∧
    ∀ z : ℚ, z ∈ [(1 / 4 : ℚ), 1 / 2] ↔ z ∈ [(0 : ℚ), 0, 0, 1 / 4, 1 / 4, 1 / 2, 1, 1, 1] ∧ 0 < z ∧ z < 1 := by
  refine ⟨fun z h0 h1 => ?_, by decide +kernel, fun z => ⟨fun h => ?_, fun ⟨h, h0, h1⟩ => ?_⟩⟩
  · have : ∀ z ∈ [(0 : ℚ), 0, 0, 1 / 4, 1 / 4, 1 / 2, 1, 1, 1], 0 < z → z < 1 →
      [(0 : ℚ), 0, 0, 1 / 4, 1 / 4, 1 / 2, 1, 1, 1].count z ≤ 2 := by decide +kernel
    by_cases hz : z ∈ [(0 : ℚ), 0, 0, 1 / 4, 1 / 4, 1 / 2, 1, 1, 1]
    · exact this z hz h0 h1
    · rw [List.count_eq_zero_of_not_mem hz]; omega
  · have : ∀ z ∈ [(1 / 4 : ℚ), 1 / 2], z ∈ [(0 : ℚ), 0, 0, 1 / 4, 1 / 4, 1 / 2, 1, 1, 1] ∧ 0 < z ∧ z < 1 := by
      decide +kernel
    exact this z h
  · have : ∀ z ∈ [(0 : ℚ), 0, 0, 1 / 4, 1 / 4, 1 / 2, 1, 1, 1], 0 < z → z < 1 → z ∈ [(1 / 4 : ℚ), 1 / 2] := by
      decide +kernel
    exact this z h h0 h1

/-- the value of a piece in the middle -/
def midValue (j : ℕ) (r : Exec (Except (SplitError ℚ) (List (Curve ℚ 1)))) : Option ℚ :=
  match r with
  | .ok (.ok cs) => match cs[j]? with
    | some c => match c.evaluate (1 / 2) with
      | .ok (.ok v) => some (v 0)
      | _ => none
    | none => none
  | _ => none

/-- A single split at `1/2` is wrong: the middle of its right part should be the point of the curve at `3/4`, but is not.
After a split at `1/4` the parts of the second split are right. -/
example : exPieces.evaluate (3 / 8) = .ok (.ok ![29 / 12]) ∧ exPieces.evaluate (3 / 4) = .ok (.ok ![35 / 12]) ∧
    midValue 1 (cutAll exPieces 0 [1 / 4, 1 / 2]) = some (29 / 12) ∧
    midValue 2 (cutAll exPieces 0 [1 / 4, 1 / 2]) = some (35 / 12) ∧
    midValue 1 (cutAll exPieces 0 [1 / 2]) = some (41 / 16) := by
  refine ⟨?_, ?_, ?_, ?_, ?_⟩ <;> decide +kernel

end BSpline
