import Verif.Theory.CornerCut
import Verif.Props.Params
import Verif.Props.Unique
import Mathlib.Algebra.Order.BigOperators.Ring.Finset

/-!
# The curve and its control polygon: C62, C63, C64

Every polygon inscribed in the curve arises from the control polygon by corner cutting. Hence the
curve crosses no plane more often than the control polygon does, it is monotone in every direction
in which the control polygon is, and it is not longer.
-/

set_option linter.unusedSectionVars false

namespace BSpline

open Finset

variable {K : Type} [Field K] [LinearOrder K] [IsStrictOrderedRing K] {d : ℕ}

/-! ### Refinement -/

theorem IsSpan.lt_hi {U : ℕ → K} {p n j : ℕ} {b u : K} {a : K} (h : Clamp U p n a b)
    (hs : IsSpan U n u j) (hu : u < b) : u < U (j + 1) := by
  rcases hs.hi with h1 | ⟨h1, h2⟩
  · exact h1
  · rw [h2, h.right _ le_rfl] at hu; exact absurd hu (lt_irrefl _)

/-- Böhm's step at the right place is corner cutting -/
theorem cornerCut_insP {p n j : ℕ} {U : List K} {P : List (Pt K d)} {u : K}
    (hU : ClampedKnots 0 1 p n U) (hP : P.length = n + 1) (hp : 1 ≤ p)
    (hu : u < 1) (hs : IsSpan (fn U) n u j) :
    CornerCut (K := K) P ((List.range (n + 2)).map (insP (fn U) p (fn P) u j)) := by
  have hc := hU.clamp
  have hpj := hs.p_le hc
  have hjn := hs.le_n
  have hn := hU.le
  have hhi := hs.lt_hi hc hu
  have hα : ∀ i, j - p < i → i ≤ j → 0 ≤ (u - fn U i) / (fn U (i + p) - fn U i) ∧
      (u - fn U i) / (fn U (i + p) - fn U i) ≤ 1 := by
    intro i h1 h2
    have e1 : fn U i ≤ u := (hc.mono h2).trans hs.lo
    have e2 : u < fn U (i + p) := hhi.trans_le (hc.mono (by omega))
    constructor
    · exact div_nonneg (by linarith) (by linarith)
    · rw [div_le_one (by linarith)]; linarith
  refine CornerCut.step (n := n) (α := fun i => if i ≤ j - p then 1 else if i ≤ j then
      (u - fn U i) / (fn U (i + p) - fn U i) else 0) ?_ (by omega) hP (by simp) ?_ ?_ ?_
  · intro i
    split
    · exact ⟨zero_le_one, le_rfl⟩
    · split
      · exact hα i (by omega) (by omega)
      · exact ⟨le_rfl, zero_le_one⟩
  · rw [List.getElem_map, List.getElem_range, insP_low (by omega), fn_lt (by omega)]
  · rw [List.getElem_map, List.getElem_range, insP_high (by omega), fn_lt (by omega)]
    simp
  · intro i hi
    rw [List.getElem_map, List.getElem_range, ← fn_lt, ← fn_lt]
    rcases Nat.lt_or_ge (j - p) (i + 1) with h1 | h1
    · rw [if_neg (by omega)]
      rcases Nat.lt_or_ge j (i + 1) with h2 | h2
      · rw [if_neg (by omega), insP_high h2]; simp
      · rw [if_pos h2, insP_mid h1 h2]; rfl
    · rw [if_pos h1, insP_low h1]; simp

/-- any knots in `(0, 1)` can be added without changing the curve, by corner cutting -/
theorem exists_refine {p : ℕ} (hp : 1 ≤ p) (L : List K) (hL : ∀ x ∈ L, 0 < x ∧ x < 1) :
    ∀ {n : ℕ} {U : List K} {P : List (Pt K d)}, ClampedKnots 0 1 p n U → P.length = n + 1 →
    ∃ n' V Q, ClampedKnots 0 1 p n' V ∧ Q.length = n' + 1 ∧
      Same p 0 1 n (fn U) (fn P) n' (fn V) (fn Q) ∧ CornerCut (K := K) P Q ∧ V.Perm (L ++ U) := by
  induction L with
  | nil =>
    intro n U P hU hP
    refine ⟨n, U, P, hU, hP, ?_, .refl, List.Perm.refl _⟩
    intro v j j' _ _ hj hj' ts _
    rw [hj.unique hU.clamp hj']
  | cons u L ih =>
    intro n U P hU hP
    obtain ⟨h0, h1⟩ := hL u (by simp)
    obtain ⟨j, hj⟩ := hU.clamp.exists_span h0.le h1.le
    have hc := hU.clamp
    have hlen := hU.length
    have hpj := hj.p_le hc
    have hjn := hj.le_n
    have hU' := insU_clamped hU h0 h1 hpj hjn hj.lo hj.le_hi
    obtain ⟨n', V, Q, hV, hQ, hS, hcut, hperm⟩ := ih (fun x hx => hL x (by simp [hx])) hU'
      (P := (List.range (n + 2)).map (insP (fn U) p (fn P) u j)) (by simp)
    refine ⟨n', V, Q, hV, hQ, ?_, (cornerCut_insP hU hP hp h1 hj).trans hcut, ?_⟩
    · have hs1 := same_insert hc hU'.clamp (insU_seq (by omega)) hpj hjn hj.lo hj.le_hi (fn P)
      refine Same.trans ?_ hU'.clamp hS
      intro v i i' a b hi hi' ts hts
      rw [← hs1 v i i' a b hi hi' ts hts]
      apply bl_congr_pts
      intro m hm
      have := hi'.le_n
      have := hi'.p_le hU'.clamp
      rw [fn_map_range _ (by omega)]
    · refine hperm.trans ?_
      exact ((insU_perm U u j).append_left L).trans List.perm_middle

/-- at a knot of multiplicity at least `p` the polar form is a control point -/
theorem bl_at_knot {p n j : ℕ} {V : List K} {Q : ℕ → Pt K d} {u : K} (hV : ClampedKnots 0 1 p n V)
    (hcount : p ≤ V.count u) (hu : u < 1) (hs : IsSpan (fn V) n u j) :
    bl (fn V) (List.replicate p u) Q (j - p) = Q (j - p) := by
  have hc := hV.clamp
  have hlen := hV.length
  have hpj := hs.p_le hc
  have hjn := hs.le_n
  have hhi := hs.lt_hi hc hu
  have hw := win_of_span hc.mono hpj (hs.lt hc)
  have hdual := bl_dual p (P := Q) 0 (Nat.zero_le p) hw
  simp only [Nat.add_zero] at hdual
  rw [← hdual]
  congr 1
  symm
  rw [List.eq_replicate_iff]
  refine ⟨knotsFrom_length _ _ _, ?_⟩
  intro x hx
  rw [knotsFrom, List.mem_map] at hx
  obtain ⟨i, hi, rfl⟩ := hx
  rw [List.mem_range'_1] at hi
  apply le_antisymm ((hc.mono (by omega)).trans hs.lo)
  -- otherwise fewer than `p` knots equal `u`
  by_contra hlt
  rw [not_le] at hlt
  have hsplit : V = V.take (i + 1) ++ ((V.drop (i + 1)).take (j - i) ++ (V.drop (i + 1)).drop (j - i)) := by
    rw [List.take_append_drop, List.take_append_drop]
  have z1 : (V.take (i + 1)).count u = 0 := by
    apply List.count_eq_zero_of_not_mem
    intro hm
    obtain ⟨k, hk, he⟩ := List.getElem_of_mem hm
    rw [List.length_take] at hk
    rw [List.getElem_take, ← fn_lt] at he
    have := hc.mono (show k ≤ i by omega)
    rw [he] at this
    exact absurd hlt (not_lt.mpr this)
  have z2 : ((V.drop (i + 1)).drop (j - i)).count u = 0 := by
    apply List.count_eq_zero_of_not_mem
    intro hm
    obtain ⟨k, hk, he⟩ := List.getElem_of_mem hm
    rw [List.length_drop, List.length_drop] at hk
    rw [List.getElem_drop, List.getElem_drop, ← fn_lt] at he
    have := hc.mono (show j + 1 ≤ i + 1 + (j - i + k) by omega)
    rw [he] at this
    exact absurd hhi (not_lt.mpr this)
  have z3 : ((V.drop (i + 1)).take (j - i)).count u ≤ j - i :=
    List.count_le_length.trans (by simp)
  have hcnt : V.count u ≤ j - i := by
    rw [hsplit, List.count_append, List.count_append, z1, z2]; omega
  omega

/-- the index of the control point which is the value at `u` -/
theorem exists_position {p n : ℕ} {V : List K} {Q : List (Pt K d)} (hp : 1 ≤ p)
    (hV : ClampedKnots 0 1 p n V) (hQ : Q.length = n + 1) {u : K} (h0 : 0 ≤ u) (h1 : u ≤ 1)
    (hcount : 0 < u → u < 1 → p ≤ V.count u) :
    ∃ i, i ≤ n ∧ (u < 1 → i + p ≤ n ∧ fn V (i + p) ≤ u ∧ (0 < u → fn V (i + p) = u)) ∧
      (u = 1 → i = n) ∧ (canon p V Q).evaluate u = .ok (.ok (fn Q i)) := by
  have hc := hV.clamp
  have hlen := hV.length
  obtain ⟨j, hj⟩ := hc.exists_span h0 h1
  have hpj := hj.p_le hc
  have hjn := hj.le_n
  have hev := evaluateDerivative_eq hV hQ (Nat.zero_le p) h0 h1 hj
  rw [cv, shiftN_zero, Nat.sub_zero] at hev
  rcases h1.lt_or_eq with hlt | rfl
  · have hcnt : p ≤ V.count u := by
      rcases h0.lt_or_eq with h | rfl
      · exact hcount h hlt
      · have := run_le_count (U := V) (x := 0) (lo := 0) (s := p + 1) (by omega)
          (fun i _ hi => hc.left i (by omega))
        omega
    refine ⟨j - p, by omega, fun _ => ⟨by omega, ?_, ?_⟩, fun h => absurd h hlt.ne, ?_⟩
    · rw [Nat.sub_add_cancel hpj]; exact hj.lo
    · intro hpos
      rw [Nat.sub_add_cancel hpj]
      -- one of the copies of `u` has index at most `j`
      apply le_antisymm hj.lo
      obtain ⟨k, hk, he⟩ := List.getElem_of_mem (List.count_pos_iff.mp (show 0 < V.count u by omega))
      rw [← fn_lt] at he
      by_contra hlt'
      rw [not_le] at hlt'
      have hkj : j < k := by
        by_contra hc'
        have := hc.mono (show k ≤ j by omega)
        rw [he] at this
        exact absurd hlt' (not_lt.mpr this)
      have := hc.mono (show j + 1 ≤ k by omega)
      rw [he] at this
      exact absurd (hj.lt_hi hc hlt) (not_lt.mpr this)
    · rw [Curve.evaluate, hev]
      congr 2
      exact bl_at_knot hV hcnt hlt hj
  · have hjn' : j = n := by
      rcases hj.hi with h | ⟨h, -⟩
      · exact absurd h (not_lt.mpr (hc.le_b _))
      · exact h
    subst hjn'
    refine ⟨j, le_rfl, fun h => absurd h (lt_irrefl _), fun _ => rfl, ?_⟩
    rw [Curve.evaluate, hev]
    congr 2
    have hw := win_of_span hc.mono hpj (hj.lt hc)
    have hdual := bl_dual p (P := fn Q) p le_rfl hw
    rw [Nat.sub_add_cancel hpj] at hdual
    rw [← hdual]
    change bl (fn V) _ (fn Q) (j - p) = _
    congr 1
    symm
    rw [List.eq_replicate_iff]
    refine ⟨knotsFrom_length _ _ _, ?_⟩
    intro x hx
    rw [knotsFrom, List.mem_map] at hx
    obtain ⟨i, hi, rfl⟩ := hx
    rw [List.mem_range'_1] at hi
    exact hc.right i (by omega)

/-- **C62** Every polygon inscribed in the curve, with corners at increasing parameters, arises from
the control polygon by corner cutting. -/
theorem C62_corner_cutting {c : Curve K d} {p n : ℕ} {U : List K} {P : List (Pt K d)}
    (hc : ValidOn 0 1 c p n U P) (hp : 1 ≤ p) {us : List K} (hs : us.Pairwise (· < ·))
    (hu : ∀ u ∈ us, 0 ≤ u ∧ u ≤ 1) :
    ∃ vs, List.Forall₂ (fun u v => c.evaluate u = .ok (.ok v)) us vs ∧ CornerCut (K := K) P vs := by
  obtain rfl := hc.eq_canon
  obtain ⟨-, hU, hP⟩ := hc
  set L := (us.filter (fun u => 0 < u ∧ u < 1)).flatMap (fun u => List.replicate p u) with hL
  have hL01 : ∀ x ∈ L, 0 < x ∧ x < 1 := by
    intro x hx
    rw [hL, List.mem_flatMap] at hx
    obtain ⟨a, ha, hx⟩ := hx
    rw [List.mem_filter] at ha
    rw [List.eq_of_mem_replicate hx]
    simpa using ha.2
  obtain ⟨n', V, Q, hV, hQ, hS, hcut, hperm⟩ := exists_refine hp L hL01 hU hP
  have hcount : ∀ u ∈ us, 0 < u → u < 1 → p ≤ V.count u := by
    intro u hu h0 h1
    rw [hperm.count_eq, List.count_append]
    have : (List.replicate p u).Sublist L := by
      have hm : u ∈ us.filter (fun u => 0 < u ∧ u < 1) := by
        rw [List.mem_filter]; exact ⟨hu, by simp [h0, h1]⟩
      obtain ⟨A, B, hAB⟩ := List.append_of_mem hm
      rw [hL, hAB, List.flatMap_append, List.flatMap_cons]
      exact (List.sublist_append_left _ _).trans (List.sublist_append_right _ _)
    have := this.count_le u
    rw [List.count_replicate_self] at this
    omega
  have heq : ∀ u, (canon p V Q).evaluate u = (canon p U P).evaluate u :=
    fun u => evaluateDerivative_same hU hV hP hQ hS u 0
  choose! pos hpos using fun (u : K) (hm : u ∈ us) =>
    exists_position hp hV hQ (hu u hm).1 (hu u hm).2 (hcount u hm)
  refine ⟨us.map (fun u => fn Q (pos u)), ?_, hcut.drop ?_⟩
  · rw [List.forall₂_map_right_iff, List.forall₂_same]
    intro u hm
    rw [← heq]; exact (hpos u hm).2.2.2
  · -- the positions increase strictly
    have hmono : (us.map pos).Pairwise (· < ·) := by
      rw [List.pairwise_map]
      refine hs.imp_of_mem ?_
      intro u v hmu hmv huv
      obtain ⟨hu1, hu2, -, -⟩ := hpos u hmu
      obtain ⟨hv1, hv2, hv3, -⟩ := hpos v hmv
      have hu1' : u < 1 := huv.trans_le (hu v hmv).2
      have hv0 : 0 < v := lt_of_le_of_lt (hu u hmu).1 huv
      rcases (hu v hmv).2.lt_or_eq with h | h
      · obtain ⟨-, -, h3⟩ := hv2 h
        obtain ⟨-, h4, -⟩ := hu2 hu1'
        by_contra hle
        have := hV.clamp.mono (show pos v + p ≤ pos u + p by omega)
        rw [h3 hv0] at this
        exact absurd (huv.trans_le this) (not_lt.mpr h4)
      · have := hv3 h
        have := (hu2 hu1').1
        omega
    have hb : ∀ i ∈ us.map pos, i < Q.length := by
      intro i hi
      obtain ⟨u, hm, rfl⟩ := List.mem_map.mp hi
      have := (hpos u hm).1
      omega
    have hsub := List.map_getElem_sublist (l := Q)
      (is := (us.map pos).pmap (fun i h => (⟨i, h⟩ : Fin Q.length)) hb) (by
        rw [List.pairwise_pmap]
        exact hmono.imp (fun h _ _ => h))
    have e : us.map (fun u => fn Q (pos u)) =
        ((us.map pos).pmap (fun i h => (⟨i, h⟩ : Fin Q.length)) hb).map (fun i => Q[i]) := by
      apply List.ext_getElem (by simp)
      intro i h1 h2
      simp only [List.getElem_map, List.getElem_pmap]
      rw [fn_lt (hb _ (List.mem_map_of_mem (List.getElem_mem _)))]
      rfl
    rw [e]; exact hsub

/-! ### Variation diminishing -/

/-- **C62** Variation diminishing: along the curve, an affine function changes its sign at most as
often as along the control points. So no plane is crossed by the curve more often than by the control
polygon. -/
theorem C62_variation_diminishing {c : Curve K d} {p n : ℕ} {U : List K} {P : List (Pt K d)}
    (hc : ValidOn 0 1 c p n U P) (hp : 1 ≤ p) {us : List K} (hs : us.Pairwise (· < ·))
    (hu : ∀ u ∈ us, 0 ≤ u ∧ u ≤ 1) (w : Pt K d) (b : K) {vs : List (Pt K d)}
    (hv : List.Forall₂ (fun u v => c.evaluate u = .ok (.ok v)) us vs) :
    signChanges (vs.map (fun v => ∑ r, w r * v r + b)) ≤
      signChanges (P.map (fun v => ∑ r, w r * v r + b)) := by
  obtain ⟨vs', hv', hcut⟩ := C62_corner_cutting hc hp hs hu
  obtain rfl : vs = vs' := by
    clear hs hu hcut
    induction hv generalizing vs' with
    | nil => cases hv'; rfl
    | cons h _ ih =>
      cases hv' with
      | cons h' ht =>
        rw [h] at h'
        rw [ih _ ht]
        injection h' with h'; injection h' with h'; rw [h']
  refine (hcut.map _ ?_).signChanges_le
  intro s x y
  simp only [Pi.add_apply, Pi.smul_apply, smul_eq_mul, mul_add, sum_add_distrib]
  have e : ∀ (t : K) (z : Pt K d), ∑ r, w r * (t * z r) = t * ∑ r, w r * z r := by
    intro t z; rw [mul_sum]; exact sum_congr rfl (fun r _ => by ring)
  rw [e, e]; ring

/-- non-vacuity: one crossing of the control polygon with the line `y = 1`, seen at three points -/
example : ∃ c vs, ValidOn 0 1 c 2 2 [(0 : ℚ), 0, 0, 1, 1, 1] [![0, 0], ![1, 2], ![2, 3]] ∧
    List.Forall₂ (fun u v => c.evaluate u = .ok (.ok v)) [0, 1 / 4, 3 / 4] vs ∧
    signChanges (vs.map (fun v => v 1 - 1)) = 1 ∧
    signChanges (([![0, 0], ![1, 2], ![2, 3]] : List (Pt ℚ 2)).map (fun v => v 1 - 1)) = 1 :=
  ⟨_, [![0, 0], ![1 / 2, 15 / 16], ![3 / 2, 39 / 16]], validOn_canon (by decide +kernel) rfl,
    .cons (by decide +kernel) (.cons (by decide +kernel) (.cons (by decide +kernel) .nil)),
    by decide +kernel, by decide +kernel⟩

/-! ### Monotonicity -/

/-- **C63** If the control points do not move backwards in the direction `w`, neither does the
curve. -/
theorem C63_monotone {c : Curve K d} {p n : ℕ} {U : List K} {P : List (Pt K d)}
    (hc : ValidOn 0 1 c p n U P) (hp : 1 ≤ p) (w : Pt K d)
    (hm : (P.map (fun v => ∑ r, w r * v r)).Pairwise (· ≤ ·)) {u v : K} {a b : Pt K d} (h0 : 0 ≤ u)
    (huv : u ≤ v) (h1 : v ≤ 1) (ha : c.evaluate u = .ok (.ok a)) (hb : c.evaluate v = .ok (.ok b)) :
    ∑ r, w r * a r ≤ ∑ r, w r * b r := by
  rcases huv.lt_or_eq with hlt | rfl
  · obtain ⟨vs, hv, hcut⟩ := C62_corner_cutting hc hp (us := [u, v]) (by simpa using hlt) (by
      intro x hx
      simp only [List.mem_cons, List.not_mem_nil, or_false] at hx
      rcases hx with rfl | rfl
      · exact ⟨h0, huv.trans h1⟩
      · exact ⟨h0.trans huv, h1⟩)
    have h2 := (hcut.map (fun v => ∑ r, w r * v r) (by
      intro s x y
      simp only [Pi.add_apply, Pi.smul_apply, smul_eq_mul, mul_add, sum_add_distrib]
      have e : ∀ (t : K) (z : Pt K d), ∑ r, w r * (t * z r) = t * ∑ r, w r * z r := by
        intro t z; rw [mul_sum]; exact sum_congr rfl (fun r _ => by ring)
      rw [e, e])).sorted hm
    cases hv with
    | cons h3 h4 =>
      cases h4 with
      | cons h5 h6 =>
        cases h6
        rw [h3] at ha
        rw [h5] at hb
        cases ha; cases hb
        simpa using h2
  · rw [ha] at hb; cases hb; exact le_rfl

/-- **C63** The same for one coordinate: control points with a non-decreasing coordinate give a
curve on which this coordinate does not decrease. -/
theorem C63_monotone_coordinate {c : Curve K d} {p n : ℕ} {U : List K} {P : List (Pt K d)}
    (hc : ValidOn 0 1 c p n U P) (hp : 1 ≤ p) (r : Fin d) (hm : (P.map (fun v => v r)).Pairwise (· ≤ ·))
    {u v : K} {a b : Pt K d} (h0 : 0 ≤ u) (huv : u ≤ v) (h1 : v ≤ 1)
    (ha : c.evaluate u = .ok (.ok a)) (hb : c.evaluate v = .ok (.ok b)) : a r ≤ b r := by
  have e : ∀ x : Pt K d, ∑ s, (Pi.single r (1 : K) : Pt K d) s * x s = x r := by
    intro x
    rw [sum_eq_single r]
    · simp
    · intro s _ hs; simp [Pi.single_apply, hs]
    · simp
  have := C63_monotone hc hp (Pi.single r (1 : K)) (by simpa only [e] using hm) h0 huv h1 ha hb
  simpa only [e] using this

/-- non-vacuity -/
example : (([![0, 0], ![1, 2], ![1, 1], ![2, 3]] : List (Pt ℚ 2)).map (fun v => v 0)).Pairwise (· ≤ ·) := by
  decide +kernel

/-! ### Length -/

section
variable [Sqrt K] [LawfulSqrt K]

theorem eq_sqrt {x y : K} (hx : 0 ≤ x) (hy : 0 ≤ y) (h : x * x = y) : Sqrt.sqrt y = x := by
  have h1 := LawfulSqrt.nonneg y hy
  have h2 := LawfulSqrt.mul_self y hy
  rw [← h] at h2
  exact (mul_self_inj h1 hx).mp (h ▸ h2)

theorem dist2_nonneg (a b : Pt K d) : 0 ≤ dist2 a b := LawfulSqrt.nonneg _ (sqsum_nonneg (b - a))

theorem dist2_triangle (a b c : Pt K d) : dist2 a c ≤ dist2 a b + dist2 b c := by
  have hA := sqsum_nonneg (b - a)
  have hB := sqsum_nonneg (c - b)
  have hC := sqsum_nonneg (c - a)
  have cs := sum_mul_sq_le_sq_mul_sq univ (b - a) (c - b)
  have hsum : ∑ r, (c - a) r ^ 2 =
      ∑ r, (b - a) r ^ 2 + 2 * ∑ r, (b - a) r * (c - b) r + ∑ r, (c - b) r ^ 2 := by
    rw [mul_sum, ← sum_add_distrib, ← sum_add_distrib]
    exact sum_congr rfl (fun r _ => by simp only [Pi.sub_apply]; ring)
  have eA := LawfulSqrt.mul_self _ hA
  have eB := LawfulSqrt.mul_self _ hB
  have eC := LawfulSqrt.mul_self _ hC
  have nA := LawfulSqrt.nonneg _ hA
  have nB := LawfulSqrt.nonneg _ hB
  have nC := LawfulSqrt.nonneg _ hC
  change Sqrt.sqrt (∑ r, (c - a) r ^ 2) ≤ Sqrt.sqrt (∑ r, (b - a) r ^ 2) + Sqrt.sqrt (∑ r, (c - b) r ^ 2)
  generalize Sqrt.sqrt (∑ r, (c - a) r ^ 2) = z at *
  generalize Sqrt.sqrt (∑ r, (b - a) r ^ 2) = x at *
  generalize Sqrt.sqrt (∑ r, (c - b) r ^ 2) = y at *
  rw [← eA, ← eB] at cs hsum
  rw [← eC] at hsum
  have : (∑ r, (b - a) r * (c - b) r) ^ 2 ≤ (x * y) ^ 2 := by
    calc _ ≤ x * x * (y * y) := cs
      _ = (x * y) ^ 2 := by ring
  have := (le_abs_self _).trans (abs_le_of_sq_le_sq this (mul_nonneg nA nB))
  apply abs_le_of_sq_le_sq' _ (add_nonneg nA nB) |>.2
  nlinarith

theorem dist2_scale (a b a' b' : Pt K d) {s : K} (hs : 0 ≤ s) (h : b' - a' = s • (b - a)) :
    dist2 a' b' = s * dist2 a b := by
  apply eq_sqrt (mul_nonneg hs (dist2_nonneg a b)) (sqsum_nonneg (b' - a'))
  have e : ∑ r, (b' r - a' r) ^ 2 = s * s * ∑ r, (b r - a r) ^ 2 := by
    rw [mul_sum]
    apply sum_congr rfl
    intro r _
    have := congrFun h r
    simp only [Pi.sub_apply, Pi.smul_apply, smul_eq_mul] at this
    rw [this]; ring
  have e2 := LawfulSqrt.mul_self _ (sqsum_nonneg (b - a))
  change dist2 a b * dist2 a b = ∑ r, (b r - a r) ^ 2 at e2
  change _ = ∑ r, (b' r - a' r) ^ 2
  rw [e, ← e2]
  ring

/-- **C64** No polygon inscribed in the curve is longer than the control polygon; so the length of
the curve is at most that of the control polygon. -/
theorem C64_length {c : Curve K d} {p n : ℕ} {U : List K} {P : List (Pt K d)}
    (hc : ValidOn 0 1 c p n U P) (hp : 1 ≤ p) {us : List K} (hs : us.Pairwise (· < ·))
    (hu : ∀ u ∈ us, 0 ≤ u ∧ u ≤ 1) :
    ∃ vs, List.Forall₂ (fun u v => c.evaluate u = .ok (.ok v)) us vs ∧
      polyLength dist2 vs ≤ polyLength dist2 P := by
  obtain ⟨vs, hv, hcut⟩ := C62_corner_cutting hc hp hs hu
  refine ⟨vs, hv, hcut.length_le dist2_nonneg dist2_triangle ?_⟩
  intro s x y h0 h1
  rw [dist2_scale x y x ((1 - s) • x + s • y) h0 (by module),
    dist2_scale x y ((1 - s) • x + s • y) y (s := 1 - s) (by linarith) (by module)]
  linarith

end

end BSpline
