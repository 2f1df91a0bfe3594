import Verif.Props.IeeeSession
import Verif.Props.IeeeTouch
import Verif.Props.Bezier
import Verif.Props.InsertSharp

/-!
# Which knots can be reached by inserting, and the Bézier form of a curve: C139
-/

set_option linter.unusedSectionVars false

namespace BSpline

open Finset

variable {K : Type} [Field K] [LinearOrder K] [IsStrictOrderedRing K] {d : ℕ}

/-- inserting admissible knots one after another succeeds and keeps all values and derivatives -/
theorem insertAll_refinable {p : ℕ} (xs : List K) : ∀ {n : ℕ} {c : Curve K d} {U : List K} {P : List (Pt K d)},
    ValidOn 0 1 c p n U P → Refinable p U xs →
    ∃ c' U' P', insertAll c xs = .ok (c', .ok ()) ∧ ValidOn 0 1 c' p (n + xs.length) U' P' ∧ U'.Perm (xs ++ U) ∧
      ∀ v k, c'.evaluateDerivative v k = c.evaluateDerivative v k := by
  induction xs with
  | nil => exact fun hc _ => ⟨_, _, _, rfl, hc, .refl _, fun _ _ => rfl⟩
  | cons x xs ih =>
    rintro n c U P hc ⟨h0, h1, hs, hm, hr⟩
    obtain ⟨c1, hi⟩ := (C17_insert_errors_exact hc x).2.2 h0 h1 hm
    obtain ⟨U1, P1, hc1, hp1⟩ := C16_insert_adds_knot_partial hc hs hi
    obtain ⟨c', U', P', a1, a2, a3, a4⟩ := ih hc1 (hr.perm hp1.symm)
    refine ⟨c', U', P', ?_, ?_, ?_, fun v k => by rw [a4, C15_insert_preserves_partial hc hs hi v k]⟩
    · rw [insertAll, hi]; exact a1
    · rwa [List.length_cons, show n + (xs.length + 1) = n + 1 + xs.length by omega]
    · refine a3.trans ?_
      rw [List.cons_append]
      exact (hp1.append_left xs).trans List.perm_middle

theorem refinable_of_descending {p : ℕ} {xs : List K} : ∀ {V : List K}, xs.Pairwise (· ≥ ·) → (∀ x ∈ xs, 0 < x ∧ x < 1) →
    (∀ x ∈ xs, SimpleBelow V x) → (∀ x ∈ xs, V.count x + xs.count x ≤ p + 1) → Refinable p V xs := by
  induction xs with
  | nil => intros; trivial
  | cons x xs ih =>
    intro V hs hi hb hc
    obtain ⟨h0, h1⟩ := hi x List.mem_cons_self
    obtain ⟨ha, hs⟩ := List.pairwise_cons.mp hs
    have hx := hc x List.mem_cons_self
    rw [List.count_cons_self] at hx
    refine ⟨h0, h1, hb x List.mem_cons_self, by omega, ih hs (fun y hy => hi y (List.mem_cons_of_mem _ hy)) ?_ ?_⟩
    · intro y hy z hz0 hz1
      rw [List.count_cons_of_ne (by rintro rfl; exact absurd (ha y hy) (not_le.mpr hz1))]
      exact hb y (List.mem_cons_of_mem _ hy) z hz0 hz1
    · intro y hy
      have := hc y (List.mem_cons_of_mem _ hy)
      rw [List.count_cons] at this ⊢
      omega

theorem Refinable.facts {p : ℕ} {xs : List K} : ∀ {V : List K}, Refinable p V xs →
    ∀ x ∈ xs, 0 < x ∧ x < 1 ∧ SimpleBelow V x ∧ V.count x + xs.count x ≤ p + 1 := by
  induction xs with
  | nil => intro V _ x hx; simp at hx
  | cons x xs ih =>
    rintro V ⟨h0, h1, h2, h3, h4⟩ y hy
    have hle : ∀ z, V.count z ≤ (x :: V).count z := fun z => by rw [List.count_cons]; omega
    by_cases hyx : y ∈ xs
    · obtain ⟨a0, a1, a2, a3⟩ := ih h4 y hyx
      refine ⟨a0, a1, fun z hz0 hz1 => (hle z).trans (a2 z hz0 hz1), ?_⟩
      rw [List.count_cons] at a3 ⊢
      omega
    · obtain rfl : y = x := (List.mem_cons.mp hy).resolve_right hyx
      refine ⟨h0, h1, h2, ?_⟩
      rw [List.count_cons_self, List.count_eq_zero.mpr hyx]; omega

theorem clamped_countP_zero {p n : ℕ} {U : List K} (hU : ClampedKnots 0 1 p n U) :
    U.countP (fun y => decide (y ≤ 0)) = p + 1 := by
  have hc := hU.clamp
  have hl := hU.length
  have hle := sorted_countP (q := fun y => decide (y ≤ (0 : K))) (fun a b hab hb => by
    simp only [decide_eq_true_eq] at hb ⊢; exact hab.trans hb) hU.sorted
  simp only [decide_eq_true_eq] at hle
  have h1 := (hle p (fn U p) (by rw [List.getElem?_eq_getElem (by omega), fn_lt (by omega)])).mp (hc.left p le_rfl).le
  have h2 := (hle (p + 1) (fn U (p + 1)) (by rw [List.getElem?_eq_getElem (by have := hU.le; omega),
    fn_lt (by have := hU.le; omega)]))
  have h3 : ¬ fn U (p + 1) ≤ 0 := not_le.mpr (hc.a_lt (i := p + 1) (by omega))
  have h4 : ¬ p + 1 < _ := fun h => h3 (h2.mpr h)
  omega

theorem clamped_count_zero {p n : ℕ} {U : List K} (hU : ClampedKnots 0 1 p n U) : U.count 0 = p + 1 := by
  have h := countP_le_split (0 : K) U
  rw [clamped_countP_zero hU, List.countP_eq_zero.mpr] at h
  · omega
  · intro x hx
    have hc := hU.clamp
    obtain ⟨i, hi, rfl⟩ := List.mem_iff_getElem.mp hx
    have := hc.mono (Nat.zero_le i)
    rw [hc.left 0 (Nat.zero_le p), fn_lt hi] at this
    simpa using this

theorem clamped_count_one {p n : ℕ} {U : List K} (hU : ClampedKnots 0 1 p n U) : U.count 1 = p + 1 := by
  have hU' := revU_clamped hU
  simp only [sub_self, sub_zero] at hU'
  have := clamped_count_zero hU'
  rwa [revU_count, sub_zero] at this

theorem clamped_mem {p n : ℕ} {U : List K} (hU : ClampedKnots 0 1 p n U) {x : K} (hx : x ∈ U) : 0 ≤ x ∧ x ≤ 1 := by
  have hc := hU.clamp
  obtain ⟨i, hi, rfl⟩ := List.mem_iff_getElem.mp hx
  rw [← fn_lt hi]
  exact ⟨hc.a_le i, hc.le_b i⟩

/-- the interior knots of `V` that `U` lacks, in descending order -/
def missingDesc (U V : List K) : List K := (V.diff U).reverse

/-- **C139** The knots `V` can be reached from the knots `U` by insertions each of which is accepted and has no repeated
interior knot below it (`Refinable`; by C81 these are the insertions that keep all curves, as long as multiplicities below
the inserted knot are at most `p`) if and only if every interior knot of `U` is in `V` as often or more often, added knots get a
multiplicity of at most `p + 1`, and no interior knot of `U` below an added knot is repeated. -/
theorem C139_reachable_iff {p n m : ℕ} {U V : List K} (hU : ClampedKnots 0 1 p n U) (hV : ClampedKnots 0 1 p m V) :
    (∃ xs, Refinable p U xs ∧ V.Perm (xs ++ U)) ↔ ∀ x, 0 < x → x < 1 → U.count x ≤ V.count x ∧
      (U.count x < V.count x → V.count x ≤ p + 1 ∧ SimpleBelow U x) := by
  constructor
  · rintro ⟨xs, hr, hp⟩ x h0 h1
    rw [hp.count_eq, List.count_append]
    refine ⟨by omega, fun hlt => ?_⟩
    obtain ⟨-, -, h2, h3⟩ := hr.facts x (List.count_pos_iff.mp (by omega))
    exact ⟨by omega, h2⟩
  · intro h
    have hcount : ∀ x, (V.diff U).count x + U.count x = V.count x := by
      intro x
      rw [List.count_diff]
      have : U.count x ≤ V.count x := by
        by_cases hx : x ∈ U
        · obtain ⟨hx0, hx1⟩ := clamped_mem hU hx
          rcases hx0.lt_or_eq with hx0 | rfl
          · rcases hx1.lt_or_eq with hx1 | rfl
            · exact (h x hx0 hx1).1
            · rw [clamped_count_one hU, clamped_count_one hV]
          · rw [clamped_count_zero hU, clamped_count_zero hV]
        · rw [List.count_eq_zero.mpr hx]; omega
      omega
    refine ⟨missingDesc U V, ?_, ?_⟩
    · have hin : ∀ x ∈ missingDesc U V, 0 < x ∧ x < 1 ∧ U.count x < V.count x := by
        intro x hx
        have hx := List.mem_reverse.mp hx
        have hlt : U.count x < V.count x := by
          have := hcount x
          have := List.count_pos_iff.mpr hx
          omega
        obtain ⟨hx0, hx1⟩ := clamped_mem hV (List.count_pos_iff.mp (by omega : 0 < V.count x))
        refine ⟨lt_of_le_of_ne hx0 ?_, lt_of_le_of_ne hx1 ?_, hlt⟩
        · rintro rfl; rw [clamped_count_zero hU, clamped_count_zero hV] at hlt; omega
        · rintro rfl; rw [clamped_count_one hU, clamped_count_one hV] at hlt; omega
      refine refinable_of_descending ?_ (fun x hx => ⟨(hin x hx).1, (hin x hx).2.1⟩) ?_ ?_
      · rw [missingDesc, List.pairwise_reverse]
        exact hV.sorted.sublist (List.diff_sublist _ _)
      · intro x hx
        obtain ⟨a, b, c⟩ := hin x hx
        exact ((h x a b).2 c).2
      · intro x hx
        obtain ⟨a, b, c⟩ := hin x hx
        rw [missingDesc, List.count_reverse]
        have := hcount x
        have := ((h x a b).2 c).1
        omega
    · rw [List.perm_iff_count]
      intro x
      rw [List.count_append, missingDesc, List.count_reverse, hcount]

/-- **C139** In this case inserting the added knots in descending order succeeds, results in a curve over `V`, and keeps
all values and derivatives. -/
theorem C139_descending {c : Curve K d} {p n m : ℕ} {U V : List K} {P : List (Pt K d)} (hc : ValidOn 0 1 c p n U P)
    (hV : ClampedKnots 0 1 p m V) (h : ∀ x, 0 < x → x < 1 → U.count x ≤ V.count x ∧
      (U.count x < V.count x → V.count x ≤ p + 1 ∧ SimpleBelow U x)) :
    ∃ xs c' P', xs.Pairwise (· ≥ ·) ∧ insertAll c xs = .ok (c', .ok ()) ∧ ValidOn 0 1 c' p m V P' ∧
      ∀ v k, c'.evaluateDerivative v k = c.evaluateDerivative v k := by
  obtain ⟨xs, hr, hp⟩ := (C139_reachable_iff hc.2.1 hV).mpr h
  have hs : (missingDesc U V).Pairwise (· ≥ ·) := by
    rw [missingDesc, List.pairwise_reverse]
    exact hV.sorted.sublist (List.diff_sublist _ _)
  have hperm : xs.Perm (missingDesc U V) := by
    rw [List.perm_iff_count]
    intro x
    rw [missingDesc, List.count_reverse, List.count_diff, hp.count_eq, List.count_append]
    omega
  have hr' : Refinable p U (missingDesc U V) := refinable_of_descending hs
    (fun x hx => ⟨(hr.facts x (hperm.mem_iff.mpr hx)).1, (hr.facts x (hperm.mem_iff.mpr hx)).2.1⟩)
    (fun x hx => (hr.facts x (hperm.mem_iff.mpr hx)).2.2.1)
    (fun x hx => by rw [← hperm.count_eq]; exact (hr.facts x (hperm.mem_iff.mpr hx)).2.2.2)
  obtain ⟨c', U', P', a1, a2, a3, a4⟩ := insertAll_refinable _ hc hr'
  have hUV : U' = V := (a3.trans ((hperm.symm.append_right U).trans hp.symm)).eq_of_pairwise (fun _ _ _ _ => le_antisymm)
    a2.2.1.sorted hV.sorted
  subst hUV
  have hm : n + (missingDesc U U').length = m := by
    have h1 := a2.2.1.length
    have h2 := hV.length
    omega
  rw [hm] at a2
  exact ⟨_, c', P', hs, a1, a2, a4⟩

/-! ### Bézier form -/

/-- **C139** Between two neighbouring knots of multiplicity `p` or more a curve is the Bézier curve of the `p + 1` control
points that belong to this interval. -/
theorem C139_piece {c : Curve K d} {p n i : ℕ} {U : List K} {P : List (Pt K d)} (hc : ValidOn 0 1 c p n U P) {x y : K}
    (hxy : x < y) (hx : ∀ m, i < m → m ≤ i + p → U[m]? = some x) (hy : ∀ m, i + p < m → m ≤ i + 2 * p → U[m]? = some y)
    (hx' : 0 < p ∨ U[i]? = some x ∧ U[i + 1]? = some y) {t : K} (h0 : 0 ≤ t) (h1 : t < 1 ∨ t = 1 ∧ y = 1) :
    c.evaluate (x + t * (y - x)) = .ok (.ok (∑ j ∈ range (p + 1), bern p j t • P.getD (i + j) 0)) := by
  obtain rfl := hc.eq_canon
  obtain ⟨-, hU, hP⟩ := hc
  have hcl := hU.clamp
  have hl := hU.length
  have get : ∀ {m z}, U[m]? = some z → fn U m = z ∧ m < U.length := fun {m z} h => by
    obtain ⟨hm, rfl⟩ := List.getElem?_eq_some_iff.mp h
    exact ⟨fn_lt hm, hm⟩
  have hxj : fn U (i + p) = x := by
    rcases hx' with hp | ⟨h, -⟩
    · exact (get (hx (i + p) (by omega) le_rfl)).1
    · by_cases hp : 0 < p
      · exact (get (hx (i + p) (by omega) le_rfl)).1
      · obtain rfl : p = 0 := by omega
        exact (get h).1
  have hyj : fn U (i + p + 1) = y := by
    rcases hx' with hp | ⟨-, h⟩
    · exact (get (hy (i + p + 1) (by omega) (by omega))).1
    · by_cases hp : 0 < p
      · exact (get (hy (i + p + 1) (by omega) (by omega))).1
      · obtain rfl : p = 0 := by omega
        exact (get h).1
  have hst : fn U (i + p) < fn U (i + p + 1) := by rw [hxj, hyj]; exact hxy
  obtain ⟨-, hsp⟩ := isSpan_left hcl hst
  have hn := hsp.le_n
  have hd : 0 < y - x := sub_pos.mpr hxy
  set u := x + t * (y - x) with hu
  have hux : x ≤ u := by have := mul_nonneg h0 hd.le; linarith
  have hspan : IsSpan (fn U) n u (i + p) := by
    refine ⟨hn, by rw [hxj]; exact hux, ?_⟩
    rcases h1 with h1 | ⟨h1, hy1⟩
    · left
      rw [hyj]
      have : t * (y - x) < 1 * (y - x) := mul_lt_mul_of_pos_right h1 hd
      linarith
    · right
      have hin : i + p = n := by
        by_contra hne
        have := hcl.lt_b (show i + p + 1 ≤ n by omega)
        rw [hyj, hy1] at this
        exact lt_irrefl _ this
      refine ⟨hin, ?_⟩
      rw [← hin, hyj, hu, h1]; ring
  have hu0 : 0 ≤ u := by rw [← hxj] at hux; exact (hcl.a_le _).trans hux
  have hu1 : u ≤ 1 := by
    have hle : u ≤ y := by
      have : t * (y - x) ≤ 1 * (y - x) := mul_le_mul_of_nonneg_right (by rcases h1 with h1 | ⟨h1, -⟩; exacts [h1.le, h1.le]) hd.le
      linarith
    rw [← hyj] at hle
    exact hle.trans (hcl.le_b _)
  rw [Curve.evaluate, evaluateDerivative_eq hU hP (Nat.zero_le p) hu0 hu1 hspan]
  congr 2
  rw [cv, shiftN_zero, Nat.sub_zero, Nat.add_sub_cancel, show dpt (fn U) p (fn P) 0 = fn P from rfl]
  have e1 : bl (fn U) (List.replicate p u) (fn P) i =
      bl (fun m => (y - x) * ((fn U (i + m) - x) / (y - x)) + x) ((List.replicate p t).map fun s => (y - x) * s + x)
        (fun m => fn P (i + m)) 0 := by
    rw [List.map_replicate, show (y - x) * t + x = u by rw [hu]; ring]
    refine bl_congr _ (fun m _ => ?_) (fun m _ => by rw [Nat.zero_add])
    rw [mul_div_cancel₀ _ hd.ne', sub_add_cancel]
    congr 1; omega
  rw [e1, bl_reparam _ _ hd.ne', bl_bezier, casteljaus_replicate]
  · refine sum_congr rfl fun j hj => ?_
    have := mem_range.mp hj
    rw [getD_fn_bezier hP (by omega), bern, Nat.zero_add]
  · intro m hm hm'
    rw [List.length_replicate] at hm'
    rw [(get (hx (i + m) (by omega) (by omega))).1, sub_self, zero_div]
  · intro m hm hm'
    rw [List.length_replicate] at hm hm'
    rw [(get (hy (i + m) (by omega) (by omega))).1, div_self hd.ne']

/-- the interior knots in descending order, each one `p - 1` times -/
def bezierKnots (p : ℕ) (U : List K) : List K :=
  (U.filter fun z => decide (0 < z ∧ z < 1)).reverse.flatMap fun z => List.replicate (p - 1) z

theorem countP_stretch (q : K → Bool) (m : ℕ) (l : List K) :
    (l.flatMap fun z => List.replicate m z).countP q = m * l.countP q := by
  induction l with
  | nil => simp
  | cons z l ih =>
    rw [List.flatMap_cons, List.countP_append, ih, List.countP_replicate, List.countP_cons]
    split <;> ring

theorem bezierKnots_countP (q : K → Bool) (p : ℕ) (U : List K) :
    (bezierKnots p U).countP q = (p - 1) * U.countP fun z => q z && decide (0 < z ∧ z < 1) := by
  rw [bezierKnots, countP_stretch, List.countP_reverse, List.countP_filter]

theorem mem_bezierKnots {p : ℕ} {U : List K} {x : K} (h : x ∈ bezierKnots p U) : x ∈ U ∧ 0 < x ∧ x < 1 := by
  obtain ⟨z, hz, hx⟩ := List.mem_flatMap.mp h
  obtain rfl := List.eq_of_mem_replicate hx
  have := List.mem_filter.mp (List.mem_reverse.mp hz)
  exact ⟨this.1, of_decide_eq_true this.2⟩

theorem bezierKnots_count {p : ℕ} {U : List K} {x : K} (h0 : 0 < x) (h1 : x < 1) :
    (bezierKnots p U).count x = (p - 1) * U.count x := by
  rw [List.count_eq_countP, List.count_eq_countP, bezierKnots_countP]
  congr 1
  refine List.countP_congr fun z _ => ?_
  simp only [Bool.and_eq_true, beq_iff_eq, decide_eq_true_eq]
  exact ⟨fun h => h.1, fun h => ⟨h, h ▸ ⟨h0, h1⟩⟩⟩

theorem bezierKnots_desc {p : ℕ} {U : List K} (hs : U.Pairwise (· ≤ ·)) : (bezierKnots p U).Pairwise (· ≥ ·) := by
  rw [bezierKnots, List.pairwise_flatMap]
  refine ⟨fun z _ => List.pairwise_replicate.mpr (.inr le_rfl), ?_⟩
  refine (List.pairwise_reverse.mpr (hs.sublist List.filter_sublist)).imp ?_
  intro a b hab u hu v hv
  obtain rfl := List.eq_of_mem_replicate hu
  obtain rfl := List.eq_of_mem_replicate hv
  exact hab

/-- **C139** A curve whose interior knots are simple is brought into Bézier form by inserting every interior knot `p - 1`
times, in descending order: all insertions succeed, and the control points `s p, …, s p + p` of the result, where `s` is the
number of interior knots up to `x`, are the Bézier points of the *original* curve between the neighbouring knots `x < y`. -/
theorem C139_bezier {c : Curve K d} {p n : ℕ} {U : List K} {P : List (Pt K d)} (hc : ValidOn 0 1 c p n U P) (hp : 0 < p)
    (hs : ∀ x, 0 < x → x < 1 → U.count x ≤ 1) :
    ∃ c' U' P', insertAll c (bezierKnots p U) = .ok (c', .ok ()) ∧ ValidOn 0 1 c' p (n + (bezierKnots p U).length) U' P' ∧
      ∀ x y, x ∈ U → y ∈ U → x < y → (∀ z ∈ U, z ≤ x ∨ y ≤ z) → ∀ t, 0 ≤ t → (t < 1 ∨ t = 1 ∧ y = 1) →
        c.evaluate (x + t * (y - x)) = .ok (.ok (∑ j ∈ range (p + 1),
          bern p j t • P'.getD ((U.countP fun z => decide (0 < z ∧ z ≤ x)) * p + j) 0)) := by
  have hU := hc.2.1
  have hr : Refinable p U (bezierKnots p U) := by
    refine refinable_of_descending (bezierKnots_desc hU.sorted) (fun x hx => (mem_bezierKnots hx).2) ?_ ?_
    · intro x hx z hz0 hz1
      exact hs z hz0 (hz1.trans (mem_bezierKnots hx).2.2)
    · intro x hx
      obtain ⟨-, h0, h1⟩ := mem_bezierKnots hx
      rw [bezierKnots_count h0 h1]
      have h := hs x h0 h1
      have : (p - 1) * U.count x ≤ (p - 1) * 1 := Nat.mul_le_mul_left _ h
      omega
  obtain ⟨c', U', P', a1, a2, a3, a4⟩ := insertAll_refinable _ hc hr
  refine ⟨c', U', P', a1, a2, fun x y hx hy hxy hnb t h0 h1 => ?_⟩
  have hU' := a2.2.1
  have hmem : ∀ z, z ∈ U' → z ∈ U := fun z hz => by
    rcases List.mem_append.mp (a3.mem_iff.mp hz) with h | h
    exacts [(mem_bezierKnots h).1, h]
  obtain ⟨hx0, -⟩ := clamped_mem hU hx
  obtain ⟨-, hy1⟩ := clamped_mem hU hy
  have hcnt : ∀ z, z ∈ U → p ≤ U'.count z := by
    intro z hz
    obtain ⟨hz0, hz1⟩ := clamped_mem hU hz
    rcases hz0.lt_or_eq with hz0 | rfl
    · rcases hz1.lt_or_eq with hz1 | rfl
      · rw [a3.count_eq, List.count_append, bezierKnots_count hz0 hz1]
        have h : U.count z = 1 := le_antisymm (hs z hz0 hz1) (List.count_pos_iff.mpr hz)
        rw [h]; omega
      · rw [clamped_count_one hU']; omega
    · rw [clamped_count_zero hU']; omega
  set s := U.countP fun z => decide (0 < z ∧ z ≤ x) with hsdef
  -- the number of knots up to `x`
  have hx1 : x < 1 := hxy.trans_le hy1
  have hnum : U'.countP (fun z => decide (z ≤ x)) = s * p + p + 1 := by
    rw [a3.countP_eq, List.countP_append, bezierKnots_countP]
    have e1 : (U.countP fun z => decide (z ≤ x) && decide (0 < z ∧ z < 1)) = s := by
      refine List.countP_congr fun z _ => ?_
      simp only [Bool.and_eq_true, decide_eq_true_eq]
      exact ⟨fun h => ⟨h.2.1, h.1⟩, fun h => ⟨h.2, h.1, h.2.trans_lt hx1⟩⟩
    have e2 : U.countP (fun z => decide (z ≤ x)) = U.countP (fun z => decide (z ≤ 0)) + s := by
      rw [hsdef]
      clear * - hx0
      induction U with
      | nil => rfl
      | cons z l ih =>
        simp only [List.countP_cons, ih, decide_eq_true_eq]
        by_cases h1 : z ≤ 0
        · rw [if_pos h1, if_pos (h1.trans hx0), if_neg fun h => absurd h.1 (not_lt.mpr h1)]; omega
        · by_cases h2 : z ≤ x
          · rw [if_neg h1, if_pos h2, if_pos ⟨not_le.mp h1, h2⟩]; omega
          · rw [if_neg h1, if_neg h2, if_neg fun h => h2 h.2]; omega
    rw [e1, e2, clamped_countP_zero hU]
    obtain ⟨q, rfl⟩ : ∃ q, p = q + 1 := ⟨p - 1, by omega⟩
    rw [Nat.add_sub_cancel]; ring
  have cnt : ∀ z m (hm : m < U'.length), U'[m] ≤ z ↔ m < U'.countP (fun w => decide (w ≤ z)) := by
    intro z m hm
    have := sorted_countP (q := fun w => decide (w ≤ z)) (fun a b hab hb => by
      simp only [decide_eq_true_eq] at hb ⊢; exact hab.trans hb) hU'.sorted m _ (List.getElem?_eq_getElem hm)
    simpa using this
  have cntlt : ∀ z m (hm : m < U'.length), U'[m] < z ↔ m < U'.countP (fun w => decide (w < z)) := by
    intro z m hm
    have := sorted_countP (q := fun w => decide (w < z)) (fun a b hab hb => by
      simp only [decide_eq_true_eq] at hb ⊢; exact hab.trans_lt hb) hU'.sorted m _ (List.getElem?_eq_getElem hm)
    simpa using this
  have hsx := countP_le_split x U'
  have hsy := countP_le_split y U'
  have hylt : U'.countP (fun w => decide (w < y)) = s * p + p + 1 := by
    rw [← hnum]
    refine List.countP_congr fun z hz => ?_
    simp only [decide_eq_true_eq]
    rcases hnb z (hmem z hz) with h | h
    · exact ⟨fun _ => h, fun _ => h.trans_lt hxy⟩
    · exact ⟨fun h' => absurd h' (not_lt.mpr h), fun h' => absurd (h.trans h') (not_le.mpr hxy)⟩
  have hcx := hcnt x hx
  have hcy := hcnt y hy
  have hlen : U'.countP (fun w => decide (w ≤ y)) ≤ U'.length := List.countP_le_length
  rw [Curve.evaluate, ← a4, ← Curve.evaluate]
  refine C139_piece a2 hxy ?_ ?_ (.inl hp) h0 h1
  · intro m hm hm'
    have hml : m < U'.length := by omega
    rw [List.getElem?_eq_getElem hml, Option.some.injEq]
    refine le_antisymm ((cnt x m hml).mpr (by omega)) (not_lt.mp fun h => ?_)
    have := (cntlt x m hml).mp h
    omega
  · intro m hm hm'
    have hml : m < U'.length := by omega
    rw [List.getElem?_eq_getElem hml, Option.some.injEq]
    refine le_antisymm ((cnt y m hml).mpr (by omega)) (not_lt.mp fun h => ?_)
    have := (cntlt y m hml).mp h
    omega

/-! ### Examples -/

/-- a quadratic curve with the simple interior knots `1/4` and `1/2` -/
def exExtract : Curve ℚ 1 := canon 2 [0, 0, 0, 1 / 4, 1 / 2, 1, 1, 1] [![0], ![4], ![1], ![3], ![2]]

example : ValidOn 0 1 exExtract 2 4 [0, 0, 0, 1 / 4, 1 / 2, 1, 1, 1] [![0], ![4], ![1], ![3], ![2]] :=
  validOn_canon (by decide +kernel) rfl

example : bezierKnots 2 [(0 : ℚ), 0, 0, 1 / 4, 1 / 2, 1, 1, 1] = [1 / 2, 1 / 4] := by decide +kernel

/-- the hypothesis of `C139_bezier` -/
example : ∀ x : ℚ, 0 < x → x < 1 → [(0 : ℚ), 0, 0, 1 / 4, 1 / 2, 1, 1, 1].count x ≤ 1 := by
  intro x h0 h1
  have : ∀ x ∈ [(0 : ℚ), 0, 0, 1 / 4, 1 / 2, 1, 1, 1], 0 < x → x < 1 →
    [(0 : ℚ), 0, 0, 1 / 4, 1 / 2, 1, 1, 1].count x ≤ 1 := by decide +kernel
  by_cases hx : x ∈ [(0 : ℚ), 0, 0, 1 / 4, 1 / 2, 1, 1, 1]
  · exact this x hx h0 h1
  · rw [List.count_eq_zero_of_not_mem hx]; omega

/-- adding `1/4` and `3/4` in descending order keeps the value at `3/8`; in ascending order it changes -/
example : ((insertAll exExtract [3 / 4, 1 / 4]).bind fun r => r.1.evaluate (3 / 8)) = exExtract.evaluate (3 / 8) ∧
    ((insertAll exExtract [3 / 4, 1 / 4]).map fun r => r.2) = .ok (.ok ()) ∧
    ((insertAll exExtract [1 / 4, 3 / 4]).bind fun r => r.1.evaluate (3 / 8)) ≠ exExtract.evaluate (3 / 8) ∧
    ((insertAll exExtract [1 / 4, 3 / 4]).map fun r => r.2) = .ok (.ok ()) := by
  refine ⟨?_, ?_, ?_, ?_⟩ <;> decide +kernel

/-- `Refinable` is not necessary for a whole sequence: `[1/4, 1/2]` is not of this kind, since the second insertion has a
double knot below it and by C81 changes some curve over the knots it meets, but it keeps this value of `exExtract`, whose
first insertion does not lead to such a curve -/
example : ((insertAll exExtract [1 / 4, 1 / 2]).bind fun r => r.1.evaluate (3 / 8)) = exExtract.evaluate (3 / 8) ∧
    ¬ Refinable 2 [(0 : ℚ), 0, 0, 1 / 4, 1 / 2, 1, 1, 1] [1 / 4, 1 / 2] := by
  refine ⟨by decide +kernel, fun h => ?_⟩
  exact absurd (h.2.2.2.2.2.2.1 (1 / 4) (by norm_num) (by norm_num)) (by decide +kernel)

/-- a knot vector that cannot be reached in this way: `1/2` is repeated already and `3/4` is missing -/
example : ¬ ∃ xs, Refinable 2 [(0 : ℚ), 0, 0, 1 / 2, 1 / 2, 1, 1, 1] xs ∧
    [(0 : ℚ), 0, 0, 1 / 2, 1 / 2, 3 / 4, 1, 1, 1].Perm (xs ++ [0, 0, 0, 1 / 2, 1 / 2, 1, 1, 1]) := by
  rw [C139_reachable_iff (n := 4) (m := 5) (by decide +kernel) (by decide +kernel)]
  intro h
  exact absurd (((h (3 / 4) (by norm_num) (by norm_num)).2 (by decide +kernel)).2 (1 / 2) (by norm_num) (by norm_num))
    (by decide +kernel)

end BSpline
