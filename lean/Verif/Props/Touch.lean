import Verif.Props.Support
import Verif.Props.ConvergeFast

/-!
# Where the control polygon meets the curve: C108
-/

set_option linter.unusedSectionVars false

namespace BSpline

open Finset

variable {K : Type} [Field K] [LinearOrder K] [IsStrictOrderedRing K] {d : ℕ}

/-- at a knot of multiplicity `p` the curve passes a control point -/
theorem touch_zero {p n i : ℕ} {U : List K} {P : List (Pt K d)} (hU : ClampedKnots 0 1 p n U) (hP : P.length = n + 1)
    {u : K} (hi : i ≤ n) (hx : fn U i ≤ u) (hm : ∀ m, i < m → m ≤ i + p → fn U m = u) (hy : u < fn U (i + p + 1)) :
    (canon p U P).evaluate u = .ok (.ok (fn P i)) := by
  have hcl := hU.clamp
  have h0 : 0 ≤ u := (hcl.a_le i).trans hx
  have h1 : u < 1 := hy.trans_le (hcl.le_b _)
  have hin : i + p ≤ n := by
    by_contra hcon
    rcases Nat.eq_zero_or_pos p with h | h
    · omega
    · exact absurd ((hm (i + p) (by omega) le_rfl).symm.trans (hcl.right _ (by omega))) h1.ne
  have hlo : fn U (i + p) ≤ u := by
    rcases Nat.eq_zero_or_pos p with h | h
    · subst h; exact hx
    · exact (hm (i + p) (by omega) le_rfl).le
  have hs : IsSpan (fn U) n u (i + p) := ⟨hin, hlo, Or.inl hy⟩
  have hz : ∀ r, r ≤ n → r ≠ i → nb p n U r u = 0 := by
    intro r hr hri
    rw [nb_eq_Bs hU hs]
    by_cases hz : r + p < i + p ∨ i + p < r
    · exact Bs_support _ _ _ _ _ hz
    · exact Bs_zero_at_knot hcl.mono hs.lo p r (hm r (by omega) (by omega)).ge (by omega)
  have hone : nb p n U i u = 1 := by
    rw [← sum_nb_unit hU h0 h1.le]
    symm
    refine sum_eq_single i ?_ ?_
    · intro r hr hri
      exact hz r (by rw [mem_range] at hr; omega) hri
    · intro h; exact absurd (mem_range.mpr (by omega)) h
  rw [evaluate_sum hU hP h0 h1.le, sum_eq_single i, hone, one_smul]
  · intro r hr hri
    rw [hz r (by rw [mem_range] at hr; omega) hri, zero_smul]
  · intro h; exact absurd (mem_range.mpr (by omega)) h

/-- **C108** At a knot of multiplicity at least `p - k` the `k`-th derivative is one of its control points: the one
whose inner knots all lie there. -/
theorem C108_touch {c : Curve K d} {p n k i : ℕ} {U : List K} {P D : List (Pt K d)} (hc : ValidOn 0 1 c p n U P)
    (hk : k ≤ p) (hD : c.points.matrixDerivative k = .ok D) {q : Pt K d} (hq : D[i]? = some q) {u x y : K}
    (hx : U[i + k]? = some x) (hxu : x ≤ u) (hm : ∀ m, i + k < m → m ≤ i + p → U[m]? = some u)
    (hy : U[i + p + 1]? = some y) (huy : u < y) :
    c.evaluateDerivative u k = .ok (.ok q) := by
  obtain rfl := hc.eq_canon
  obtain ⟨-, hU, hP⟩ := hc
  have hlen := hU.length
  have hle := hU.le
  rw [canon_points, canonPts_matrixDerivative hk, hP] at hD
  injection hD with hD
  subst hD
  obtain ⟨hi, rfl⟩ := List.getElem?_eq_some_iff.mp hq
  obtain ⟨_, rfl⟩ := List.getElem?_eq_some_iff.mp hx
  obtain ⟨_, rfl⟩ := List.getElem?_eq_some_iff.mp hy
  rw [← fn_lt] at hxu huy
  have hi' : i < n + 1 - k := by simpa using hi
  have hdl : ((List.range (n + 1 - k)).map fun i => dpt (fn U) p (fn P) k i).length = n - k + 1 := by simp; omega
  rw [← evaluate_derivative_canon hU hP hk, touch_zero (dvec_clamped hU hk) hdl (i := i) (by omega), fn_lt]
  · rw [fn_dvec (by omega)]; exact hxu
  · intro m h1 h2
    rw [fn_dvec (by omega)]
    obtain ⟨h3, h4⟩ := List.getElem?_eq_some_iff.mp (hm (m + k) (by omega) (by omega))
    rw [fn_lt h3, h4]
  · rw [fn_dvec (by omega), show i + (p - k) + 1 + k = i + p + 1 by omega]; exact huy

/-- **C108** At a knot of multiplicity `p` the curve passes the control point with these knots, and leaves it in the
direction of the next control point: the derivative is `p / (y - u)` times the edge, `y` being the next knot. -/
theorem C108_tangent {c : Curve K d} {p n i : ℕ} {U : List K} {P : List (Pt K d)} (hc : ValidOn 0 1 c p n U P)
    (hp : 1 ≤ p) {q r : Pt K d} (hq : P[i]? = some q) (hr : P[i + 1]? = some r) {u y : K}
    (hm : ∀ m, i < m → m ≤ i + p → U[m]? = some u) (hy : U[i + p + 1]? = some y) (huy : u < y) :
    c.evaluate u = .ok (.ok q) ∧ c.evaluateDerivative u 1 = .ok (.ok ((p / (y - u)) • (r - q))) := by
  obtain rfl := hc.eq_canon
  have hc' := hc
  obtain ⟨-, hU, hP⟩ := hc
  have hlen := hU.length
  obtain ⟨hi, rfl⟩ := List.getElem?_eq_some_iff.mp hq
  obtain ⟨hi', rfl⟩ := List.getElem?_eq_some_iff.mp hr
  have hu1 := hm (i + 1) (by omega) (by omega)
  have hx : U[i]? = some (fn U i) := by rw [fn_lt (by omega)]; exact List.getElem?_eq_getElem _
  have hx1 : fn U (i + 1) = u := by
    obtain ⟨h3, h4⟩ := List.getElem?_eq_some_iff.mp hu1
    rw [fn_lt h3, h4]
  have hy1 : fn U (i + p + 1) = y := by
    obtain ⟨h3, h4⟩ := List.getElem?_eq_some_iff.mp hy
    rw [fn_lt h3, h4]
  constructor
  · refine C108_touch hc' (Nat.zero_le p) (i := i) (by rw [canon_points, canonPts_matrixDerivative (Nat.zero_le p)]) ?_ hx
      (hx1 ▸ hU.clamp.mono (Nat.le_succ i)) hm hy huy
    rw [List.getElem?_map, List.getElem?_range (by omega)]
    simp only [Option.map_some, dpt]
    rw [fn_lt hi]
  · refine C108_touch hc' hp (i := i) (by rw [canon_points, canonPts_matrixDerivative hp]) ?_ hu1 le_rfl
      (fun m h1 h2 => hm m (by omega) h2) hy huy
    rw [List.getElem?_map, List.getElem?_range (by omega)]
    simp only [Option.map_some, Option.some.injEq, dpt]
    rw [hx1, hy1]
    have hcmp : ¬ Cmp.eq y u = true := fun h => huy.ne' (of_decide_eq_true h)
    rw [if_neg hcmp, show p - (0 + 1) + 1 = p by omega, fn_lt hi, fn_lt hi']
    rfl

/-- **C108** At both ends the curve is tangent to the control polygon. -/
theorem C108_end_tangents {c : Curve K d} {p n : ℕ} {U : List K} {P : List (Pt K d)} (hc : ValidOn 0 1 c p n U P)
    (hp : 1 ≤ p) {q0 q1 r0 r1 : Pt K d} {x y : K} (hq0 : P[0]? = some q0) (hq1 : P[1]? = some q1)
    (hr0 : P[n]? = some r0) (hr1 : P[n - 1]? = some r1) (hx : U[p + 1]? = some x) (hy : U[n]? = some y) :
    c.evaluateDerivative 0 1 = .ok (.ok ((p / x) • (q1 - q0))) ∧
    c.evaluateDerivative 1 1 = .ok (.ok ((p / (1 - y)) • (r0 - r1))) := by
  obtain rfl := hc.eq_canon
  have hc' := hc
  obtain ⟨-, hU, hP⟩ := hc
  have hlen := hU.length
  have hle := hU.le
  have hcl := hU.clamp
  have hget : ∀ {m z}, U[m]? = some z → fn U m = z := by
    intro m z h
    obtain ⟨h3, h4⟩ := List.getElem?_eq_some_iff.mp h
    rw [fn_lt h3, h4]
  have hx' := hget hx
  have hy' := hget hy
  constructor
  · have := (C108_tangent hc' hp (i := 0) (u := 0) hq0 hq1 (by
      intro m h1 h2
      rw [List.getElem?_eq_getElem (by omega), ← fn_lt, hcl.left m (by omega)]) (by rw [Nat.zero_add]; exact hx)
      (hx' ▸ hcl.a_lt (by omega))).2
    rwa [sub_zero] at this
  · obtain ⟨hi0, rfl⟩ := List.getElem?_eq_some_iff.mp hr0
    obtain ⟨hi1, rfl⟩ := List.getElem?_eq_some_iff.mp hr1
    have hdl : ((List.range (n + 1 - 1)).map fun i => dpt (fn U) p (fn P) 1 i).length = n - 1 + 1 := by simp; omega
    rw [← evaluate_derivative_canon hU hP hp]
    refine (C07_endpoints (validOn_canon (dvec_clamped hU hp) hdl) (first := dpt (fn U) p (fn P) 1 0) ?_ ?_).2
    · rw [List.head?_map, List.head?_range, if_neg (by omega)]; rfl
    · rw [List.getLast?_eq_getElem?, hdl, Nat.add_sub_cancel, List.getElem?_map, List.getElem?_range (by omega)]
      simp only [Option.map_some, Option.some.injEq, dpt]
      have hlt := hcl.lt_b (le_refl n)
      rw [show n - 1 + (0 + 1) = n by omega, show n - 1 + 1 = n by omega, hcl.right (n - 1 + p + 1) (by omega), hy']
      rw [hy'] at hlt
      have hcmp : ¬ Cmp.eq 1 y = true := fun h => hlt.ne' (of_decide_eq_true h)
      rw [if_neg hcmp, show p - (0 + 1) + 1 = p by omega, fn_lt hi0, fn_lt hi1]
      rfl

theorem sorted_split {U : List K} (h : U.Pairwise (· ≤ ·)) (u : K) :
    U = U.filter (· < u) ++ (List.replicate (U.count u) u ++ U.filter (u < ·)) := by
  induction U with
  | nil => simp
  | cons a U ih =>
    rw [List.pairwise_cons] at h
    have := ih h.2
    rcases lt_trichotomy a u with h1 | h1 | h1
    · rw [List.filter_cons_of_pos (by simpa using h1), List.count_cons_of_ne h1.ne,
        List.filter_cons_of_neg (by simpa using h1.le), List.cons_append, ← this]
    · subst h1
      have he : U.filter (· < a) = [] := by
        rw [List.filter_eq_nil_iff]
        intro x hx
        simpa using h.1 x hx
      rw [he, List.nil_append] at this
      rw [List.filter_cons_of_neg (by simp), List.count_cons_self, he, List.nil_append,
        List.filter_cons_of_neg (by simp), List.replicate_succ, List.cons_append, ← this]
    · have he : U.filter (· < u) = [] := by
        rw [List.filter_eq_nil_iff]
        intro x hx
        simpa using h1.le.trans (h.1 x hx)
      have hc : U.count u = 0 := List.count_eq_zero_of_not_mem fun hx => absurd (h.1 u hx) (not_le.mpr h1)
      rw [he, hc, List.replicate_zero, List.nil_append, List.nil_append] at this
      rw [List.filter_cons_of_neg (by simpa using h1.le), he, List.count_cons_of_ne h1.ne', hc,
        List.filter_cons_of_pos (by simpa using h1), List.replicate_zero, List.nil_append, List.nil_append, ← this]

/-- **C108** Inserting a knot up to the multiplicity `p` evaluates the curve: the new control point number
`#{knots below u} - 1` is `evaluate(u)`. -/
theorem C108_insert_times {c : Curve K d} {p n : ℕ} {U : List K} {P : List (Pt K d)}
    (hc : ValidOn 0 1 c p n U P) {u : K} (h0 : 0 < u) (h1 : u < 1) (hr : SimpleBelow U u) (hu : U.count u ≤ p) :
    ∃ c' P' v, c.insertTimes u (p - U.count u) = .ok (c', .ok ()) ∧ c'.points.matrix = .ok P' ∧
      c.evaluate u = .ok (.ok v) ∧ P'[(U.filter (· < u)).length - 1]? = some v := by
  obtain rfl := hc.eq_canon
  obtain ⟨-, hU, hP⟩ := hc
  obtain ⟨U', Q, a1, a2, a3, a4, a5⟩ := insertTimes_valid h0 h1 (p - U.count u) hU hP hr (by omega)
  refine ⟨canon p U' Q, Q, ?_⟩
  suffices h : ∃ v, (canon p U P).evaluate u = .ok (.ok v) ∧ Q[(U.filter (· < u)).length - 1]? = some v by
    obtain ⟨v, h⟩ := h
    exact ⟨v, a1, by rw [canon_points, canonPts_matrix], h⟩
  have hcl := a2.clamp
  have hlen := a2.length
  have hsp := sorted_split a2.sorted u
  have hcnt : U'.count u = p := by
    rw [a4.count_eq, List.count_append, List.count_replicate_self]; omega
  have hfl : (U'.filter (· < u)).length = (U.filter (· < u)).length := by
    rw [(a4.filter _).length_eq, List.filter_append, List.filter_eq_nil_iff.mpr, List.nil_append]
    intro x hx
    rw [List.eq_of_mem_replicate hx]
    simp
  set b := (U.filter (· < u)).length with hb
  rw [hcnt] at hsp
  -- the knots
  have hat : ∀ m, b ≤ m → m < b + p → fn U' m = u := by
    intro m m1 m2
    have : m < U'.length := by rw [hsp]; simp; omega
    rw [fn_lt this, List.getElem_of_eq hsp, List.getElem_append_right (by omega),
      List.getElem_append_left (by simp; omega), List.getElem_replicate]
  have hbelow : ∀ m, m < b → fn U' m < u := by
    intro m m1
    have : m < U'.length := by rw [hsp]; simp; omega
    have hmem : fn U' m ∈ U'.filter (· < u) := by
      rw [fn_lt this, List.getElem_of_eq hsp, List.getElem_append_left (by omega)]
      exact List.getElem_mem _
    simpa using (List.mem_filter.mp hmem).2
  have habove : ∀ m, b + p ≤ m → u < fn U' m := by
    intro m m1
    by_cases hm : m < U'.length
    · have hmem : fn U' m ∈ U'.filter (u < ·) := by
        rw [fn_lt hm, List.getElem_of_eq hsp, List.getElem_append_right (by omega),
          List.getElem_append_right (by simp; omega)]
        exact List.getElem_mem _
      simpa using (List.mem_filter.mp hmem).2
    · rw [hcl.right m (by omega)]; exact h1
  have hbp : p < b := by
    by_contra hcon
    have := habove (b + p) le_rfl
    have h2 := hcl.left b (by omega)
    rcases Nat.eq_zero_or_pos p with h | h
    · rw [h, Nat.add_zero, h2] at this; exact absurd this (not_lt.mpr h0.le)
    · rw [hat b le_rfl (by omega)] at h2; exact absurd h2 h0.ne'
  have hbn : b - 1 ≤ n + (p - U.count u) := by
    by_contra hcon
    have := hbelow (b - 1) (by omega)
    rw [hcl.right _ (by omega)] at this
    exact absurd this (not_lt.mpr h1.le)
  refine ⟨fn Q (b - 1), ?_, ?_⟩
  · rw [Curve.evaluate, ← evaluateDerivative_same hU a2 hP a3 a5]
    refine touch_zero a2 a3 hbn (hbelow _ (by omega)).le ?_ ?_
    · intro m m1 m2
      exact hat m (by omega) (by omega)
    · exact habove _ (by omega)
  · rw [fn_lt (by omega)]
    exact List.getElem?_eq_getElem _

/-- a quadratic with a double knot: the curve passes the third control point and leaves it towards the fourth with
`p / (y - u) = 4` times the edge -/
example : ValidOn (0 : ℚ) 1 (canon 2 [(0 : ℚ), 0, 0, 1 / 2, 1 / 2, 1, 1, 1] [![0], ![1], ![3], ![7], ![7]]) 2 4
      [0, 0, 0, 1 / 2, 1 / 2, 1, 1, 1] [![0], ![1], ![3], ![7], ![7]] ∧
    (canon 2 [(0 : ℚ), 0, 0, 1 / 2, 1 / 2, 1, 1, 1] [![0], ![1], ![3], ![7], ![7]]).evaluate (1 / 2) = .ok (.ok ![3]) ∧
    (canon 2 [(0 : ℚ), 0, 0, 1 / 2, 1 / 2, 1, 1, 1] [![0], ![1], ![3], ![7], ![7]]).evaluateDerivative (1 / 2) 1 =
      .ok (.ok ![16]) :=
  ⟨validOn_canon (by decide +kernel) rfl, by decide +kernel, by decide +kernel⟩

/-- The multiplicity is needed: at a simple knot of a quadratic the curve passes no control point. -/
example : (canon 2 [(0 : ℚ), 0, 0, 1 / 2, 1, 1, 1] [![0], ![1], ![3], ![7]]).evaluate (1 / 2) = .ok (.ok ![2]) := by
  decide +kernel

end BSpline
