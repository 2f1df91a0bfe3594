import Verif.Props.Coincide
import Verif.Props.FitUnique

/-!
# Which methods lead to solvable systems: C102

`interpolate` and the two fits take any knots and any parameters. The documentation of `de_boor`
promises that its knots keep the systems of equations regular. Here this is proved for `de_boor` and
for `averaging`, with any number of data points at least the number of control points.
-/

set_option linter.unusedSectionVars false

namespace BSpline

open Finset

section
variable {K : Type} [Field K] [LinearOrder K] [IsStrictOrderedRing K] {d : ℕ}

/-- strictly increasing parameters from 0 to 1 for `m + 1` data points -/
structure GoodParams (m : ℕ) (ps : Parameters K) : Prop where
  segments : ps.segments = m
  length : ps.vector.length = m + 1
  strict : ps.vector.Pairwise (· < ·)
  first : ps.vector[0]? = some 0
  last : ps.vector[m]? = some 1

namespace GoodParams
variable {m : ℕ} {ps : Parameters K}

theorem lt (h : GoodParams m ps) {i j : ℕ} (hij : i < j) (hj : j ≤ m) :
    ps.vector.getD i 0 < ps.vector.getD j 0 := by
  have hl := h.length
  rw [List.getD_eq_getElem _ _ (by omega), List.getD_eq_getElem _ _ (by omega)]
  exact List.pairwise_iff_getElem.mp h.strict i j (by omega) (by omega) hij

theorem le (h : GoodParams m ps) {i j : ℕ} (hij : i ≤ j) (hj : j ≤ m) :
    ps.vector.getD i 0 ≤ ps.vector.getD j 0 := by
  rcases hij.lt_or_eq with h' | rfl
  · exact (h.lt h' hj).le
  · exact le_rfl

theorem zero (h : GoodParams m ps) : ps.vector.getD 0 0 = 0 := by
  rw [List.getD_eq_getElem?_getD, h.first]; rfl

theorem one (h : GoodParams m ps) : ps.vector.getD m 0 = 1 := by
  rw [List.getD_eq_getElem?_getD, h.last]; rfl

theorem mem (h : GoodParams m ps) : ∀ x ∈ ps.vector, 0 ≤ x ∧ x ≤ 1 := by
  intro x hx
  obtain ⟨i, hi, rfl⟩ := List.getElem_of_mem hx
  have hl := h.length
  have a := h.le (Nat.zero_le i) (by omega)
  have b := h.le (show i ≤ m by omega) le_rfl
  rw [h.zero, List.getD_eq_getElem _ _ hi] at a
  rw [h.one, List.getD_eq_getElem _ _ hi] at b
  exact ⟨a, b⟩

/-- where the `j`-th interior knot lies -/
theorem interior (h : GoodParams m ps) {p n : ℕ} (h1 : 1 ≤ p) (h2 : p ≤ n) (h3 : n ≤ m)
    {km : KnotMethod} (hkm : km ≠ .uniform) {j : ℕ} (hj1 : 1 ≤ j) (hj2 : j ≤ n - p) :
    ps.vector.getD (j - 1) 0 < interiorKnot km p n ps.vector j ∧
      interiorKnot km p n ps.vector j < ps.vector.getD (j + p) 0 := by
  generalize ht : ps.vector = t at *
  cases km with
  | uniform => exact absurd rfl hkm
  | averaging =>
    have hp : (0 : K) < p := by exact_mod_cast h1
    have hs : ∀ x : K, (∑ _i ∈ range p, x) = x * p := by intro x; simp [mul_comm]
    rw [interiorKnot, lt_div_iff₀ hp, div_lt_iff₀ hp, ← hs, ← hs]
    have hne : (range p).Nonempty := ⟨0, mem_range.mpr h1⟩
    constructor
    · apply sum_lt_sum_of_nonempty hne
      intro i hi
      rw [mem_range] at hi
      rw [← ht]; exact h.lt (by omega) (by omega)
    · apply sum_lt_sum_of_nonempty hne
      intro i hi
      rw [mem_range] at hi
      rw [← ht]; exact h.lt (by omega) (by omega)
  | deBoor =>
    obtain ⟨ha, hb⟩ := WeakParams.deBoor_idx (n := n) h1 h2 hj1 hj2
    have hdm := Nat.div_add_mod (j * (n + 1)) (n - p + 1)
    have hup : j * (n + 1) / (n - p + 1) ≤ j + p := by
      have : j * (n + 1) / (n - p + 1) < j + p + 1 := by
        rw [Nat.div_lt_iff_lt_mul (by omega)]
        obtain ⟨q, rfl⟩ := Nat.exists_eq_add_of_le h2
        rw [show p + q - p = q by omega] at *
        nlinarith
      omega
    have hlo : j ≤ j * (n + 1) / (n - p + 1) := by
      rw [Nat.le_div_iff_mul_le (by omega)]
      exact Nat.mul_le_mul_left _ (by omega)
    have hst : j * (n + 1) / (n - p + 1) = j → 0 < j * (n + 1) % (n - p + 1) := by
      intro e
      rw [e] at hdm
      obtain ⟨q, rfl⟩ := Nat.exists_eq_add_of_le h2
      rw [show p + q - p = q by omega] at *
      have : 0 < j * p := Nat.mul_pos hj1 h1
      have e2 : j * (p + q + 1) = (q + 1) * j + j * p := by ring
      omega
    rw [interiorKnot]
    have hN : 0 < n - p + 1 := by omega
    have hr := Nat.mod_lt (j * (n + 1)) hN
    clear hdm
    generalize j * (n + 1) / (n - p + 1) = i at *
    generalize j * (n + 1) % (n - p + 1) = r at *
    generalize n - p + 1 = N at *
    have hN' : (0 : K) < N := by exact_mod_cast hN
    have hr' : (r : K) < N := by exact_mod_cast hr
    have hr0 : (0 : K) ≤ r := Nat.cast_nonneg _
    have hxy : t.getD (i - 1) 0 < t.getD i 0 := by rw [← ht]; exact h.lt (by omega) (by omega)
    have hlo' : t.getD (j - 1) 0 ≤ t.getD (i - 1) 0 := by rw [← ht]; exact h.le (by omega) (by omega)
    have hup' : t.getD i 0 ≤ t.getD (j + p) 0 := by rw [← ht]; exact h.le (by omega) (by omega)
    rw [lt_div_iff₀ hN', div_lt_iff₀ hN', Nat.cast_sub hr.le]
    constructor
    · rcases hlo.lt_or_eq with e | e
      · have : t.getD (j - 1) 0 < t.getD (i - 1) 0 := by rw [← ht]; exact h.lt (by omega) (by omega)
        nlinarith
      · have hrp : (0 : K) < r := by exact_mod_cast hst e.symm
        nlinarith
    · nlinarith

theorem interior_strict (h : GoodParams m ps) {p n : ℕ} (h1 : 1 ≤ p) (h2 : p ≤ n) (h3 : n ≤ m)
    {km : KnotMethod} (hkm : km ≠ .uniform) {j : ℕ} (hj1 : 1 ≤ j) (hj2 : j + 1 ≤ n - p) :
    interiorKnot km p n ps.vector j ≤ interiorKnot km p n ps.vector (j + 1) := by
  cases km with
  | uniform => exact absurd rfl hkm
  | averaging =>
    apply div_le_div_of_nonneg_right _ (Nat.cast_nonneg _)
    apply sum_le_sum
    intro i hi
    rw [mem_range] at hi
    exact h.le (by omega) (by omega)
  | deBoor =>
    have between : ∀ j, 1 ≤ j → j ≤ n - p →
        ps.vector.getD (j * (n + 1) / (n - p + 1) - 1) 0 ≤ interiorKnot .deBoor p n ps.vector j ∧
        interiorKnot .deBoor p n ps.vector j ≤ ps.vector.getD (j * (n + 1) / (n - p + 1)) 0 := by
      intro j hj1 hj2
      obtain ⟨ha, hb⟩ := WeakParams.deBoor_idx (n := n) h1 h2 hj1 hj2
      have hle := h.le (Nat.sub_le (j * (n + 1) / (n - p + 1)) 1) (by omega)
      rw [interiorKnot]
      have hN : 0 < n - p + 1 := by omega
      generalize n - p + 1 = N at *
      have hr := Nat.mod_lt (j * (n + 1)) hN
      generalize j * (n + 1) % N = r at *
      have hN' : (0 : K) < N := by exact_mod_cast hN
      have hr' : (r : K) ≤ N := by exact_mod_cast hr.le
      have hr0 : (0 : K) ≤ r := Nat.cast_nonneg _
      rw [le_div_iff₀ hN', div_le_iff₀ hN', Nat.cast_sub hr.le]
      constructor <;> nlinarith
    obtain ⟨ha, hb⟩ := WeakParams.deBoor_idx (n := n) (j := j + 1) h1 h2 (by omega) hj2
    refine (between j hj1 (by omega)).2.trans (le_trans (h.le ?_ (by omega)) (between (j + 1) (by omega) hj2).1)
    have : j * (n + 1) / (n - p + 1) + 1 ≤ (j + 1) * (n + 1) / (n - p + 1) := by
      rw [← Nat.add_div_right _ (by omega : 0 < n - p + 1)]
      apply Nat.div_le_div_right
      rw [Nat.add_mul]; omega
    omega

/-- the knots are valid -/
theorem clamped (h : GoodParams m ps) {p n : ℕ} (h1 : 1 ≤ p) (h2 : p ≤ n) (h3 : n ≤ m)
    {km : KnotMethod} (hkm : km ≠ .uniform) :
    ClampedKnots 0 1 p n (genU p n (interiorKnot km p n ps.vector)) := by
  apply genU_clamped h2
  · intro j hj1 hj2
    obtain ⟨a, b⟩ := h.interior h1 h2 h3 hkm hj1 hj2
    have hl := h.length
    refine ⟨lt_of_le_of_lt ?_ a, lt_of_lt_of_le b ?_⟩
    · exact h.zero.ge.trans (h.le (Nat.zero_le _) (by omega))
    · rw [← h.one]; exact h.le (by omega) le_rfl
  · exact fun j hj1 hj2 => h.interior_strict h1 h2 h3 hkm hj1 hj2

/-- the `i`-th basis function does not vanish at the `i`-th parameter -/
theorem diagonal (h : GoodParams m ps) {p n : ℕ} (h1 : 1 ≤ p) (h2 : p ≤ n) (h3 : n ≤ m)
    {km : KnotMethod} (hkm : km ≠ .uniform) {i : ℕ} (hi : i ≤ n) :
    nb p n (genU p n (interiorKnot km p n ps.vector)) i (ps.vector.getD i 0) ≠ 0 := by
  have hU := h.clamped h1 h2 h3 hkm
  rcases Nat.eq_zero_or_pos i with rfl | hpos
  · rw [h.zero, nb_start hU (by omega), if_pos rfl]; exact one_ne_zero
  by_cases him : i = m
  · have : i = n := by omega
    rw [him, h.one, nb_one hU (by omega), if_pos (by omega)]; exact one_ne_zero
  have hlt1 : ps.vector.getD i 0 < 1 := by rw [← h.one]; exact h.lt (by omega) le_rfl
  have hgt0 : 0 < ps.vector.getD i 0 := h.zero.ge.trans_lt (h.lt hpos (by omega))
  apply nb_ne_zero_of_inside hU
  · rw [fn_genU (by omega)]
    split
    · exact hgt0
    · have := (h.interior h1 h2 h3 hkm (j := i - p) (by omega) (by omega)).2
      rwa [show i - p + p = i by omega] at this
  · rw [fn_genU (by omega), if_neg (by omega)]
    split
    · have := (h.interior h1 h2 h3 hkm (j := i + 1) (by omega) (by omega)).1
      rwa [show i + 1 - 1 = i by omega, show i + 1 = i + p + 1 - p by omega] at this
    · exact hlt1

end GoodParams

variable [Trunc K] [LawfulTrunc K]

/-- **C102** Interpolation with knots made from the parameters by `averaging` or `de_boor`: for any strictly
increasing parameters from `0` to `1` the knots are valid, the system of equations is regular, and
`interpolate` returns the control points of a curve through all the data, whatever they are. -/
theorem C102_interpolation [NeZero d] {p n : ℕ} (h1 : 1 ≤ p) (h2 : p ≤ n) {params : Parameters K}
    (hg : GoodParams n params) {km : KnotMethod} (hkm : km ≠ .uniform) {solver : Solver K d}
    (hs : solver.Exact) :
    ∃ kn U, generateKnots p n params km = .ok (.ok kn) ∧ kn.vector = .ok U ∧ ClampedKnots 0 1 p n U ∧
      (∀ A : Matrix (Fin (n + 1)) (Fin (n + 1)) K,
        (∀ g i : Fin (n + 1), kn.evaluate 0 i p (params.vector.getD g 0) = .ok (A g i)) → A.det ≠ 0) ∧
      ∀ pts : DataPoints K d, List.length pts = n + 1 → ∃ P c, interpolate solver kn pts params = .ok P ∧
        ValidOn 0 1 c p n U P ∧ ∀ (g : ℕ) t q, params.vector[g]? = some t → pts[g]? = some q →
          c.evaluate t = .ok (.ok q) := by
  have hU := hg.clamped h1 h2 le_rfl hkm
  have hl := hU.length
  have hlen := hg.length
  refine ⟨_, _, generateKnots_genU h1 h2 hg.length.ge km, canonKnots_vector _, hU, ?_, ?_⟩
  · intro A hA
    refine (C91_regular_iff hU (genKnots_new h2 _) (τ := fun i => params.vector.getD i 0)
      (fun i j hij hj => hg.lt hij hj) (fun i hi => ?_) A hA).mpr ?_
    · rw [List.getD_eq_getElem _ _ (by omega)]; exact hg.mem _ (List.getElem_mem _)
    · intro i
      have e := hA i i
      rw [nb_ok hl h2 (by omega)] at e
      injection e with e
      rw [← e]
      exact hg.diagonal h1 h2 le_rfl hkm (by omega)
  · refine (C91_interpolate_iff hs hU (genKnots_new h2 _) hg.length hg.strict hg.mem).mpr ?_
    intro i t hi
    obtain ⟨hi', rfl⟩ := List.getElem?_eq_some_iff.mp hi
    rw [nb_ok hl h2 (by omega)]
    intro e
    injection e with e
    have := hg.diagonal h1 h2 le_rfl hkm (i := i) (by omega)
    rw [List.getD_eq_getElem _ _ hi'] at this
    exact this e

/-- **C102** The fit with loose ends, with knots made by `averaging` or `de_boor` from the parameters of
`m + 1 ≥ n + 1` data points: it succeeds, and its result is the only control polygon with the smallest
error. -/
theorem C102_loose [NeZero d] {p n m : ℕ} (h1 : 1 ≤ p) (h2 : p ≤ n) (h3 : n ≤ m) {params : Parameters K}
    (hg : GoodParams m params) {km : KnotMethod} (hkm : km ≠ .uniform) {solver : Solver K d}
    (hs : solver.Exact) {pts : DataPoints K d} (hm : List.length pts = m + 1) :
    ∃ kn U P c e, generateKnots p n params km = .ok (.ok kn) ∧ kn.vector = .ok U ∧
      Loose.fit solver kn pts params none = .ok (.ok P) ∧ ValidOn 0 1 c p n U P ∧
      SqError c params.vector pts (range (m + 1)) e ∧
      ∀ (P' : List (Pt K d)) (c' : Curve K d) (e' : K), P'.length = n + 1 → Built c' p U P' →
        SqError c' params.vector pts (range (m + 1)) e' → P' ≠ P → e < e' := by
  have hU := hg.clamped h1 h2 h3 hkm
  have hl := hU.length
  have hlen := hg.length
  have hseg := hg.segments
  have hv : params.vector.length = params.segments + 1 := by omega
  have hk := genKnots_new (K := K) h2 (interiorKnot km p n params.vector)
  obtain ⟨P, hfit, hP⟩ := (C44_loose hk hl h1 hm hv (fun h => isUniform_ok hl h1 h) solver none).2 (by
    unfold fitErrorOf
    rw [if_neg (by omega), if_neg (by omega), if_neg (by omega)])
  have hc := mkCurve_ok (p := p) (U := genU p n (interiorKnot km p n params.vector)) hP h2 (by omega)
  have hI : ∀ g ∈ range (m + 1), g < params.vector.length ∧ g < List.length pts := by
    intro g hg; rw [mem_range] at hg; omega
  have he := (sqError_iff (Q := pts) hU hP hc hI hg.mem).mpr rfl
  refine ⟨_, _, P, _, _, generateKnots_genU h1 h2 (by omega) km, canonKnots_vector _, hfit, ⟨hc, hU, hP⟩, he, ?_⟩
  refine (C92_loose_unique_iff hs hk hU h1 hm hv hg.strict hg.mem hfit hc he).mpr
    ⟨id, fun i j hij _ => hij, fun i hi => ?_⟩
  refine ⟨_, _, List.getElem?_eq_getElem (by simp only [id]; omega), nb_ok hl h2 hi _, ?_⟩
  have := hg.diagonal h1 h2 h3 hkm hi
  rwa [List.getD_eq_getElem _ _ (by omega)] at this

/-- **C102** The same for the fit with fixed ends, which needs at least two segments: its result is the only
control polygon between the first and the last data point with the smallest error at the others. -/
theorem C102_fixed [NeZero d] {p n m : ℕ} (h1 : 1 ≤ p) (h2 : p ≤ n) (hn : 2 ≤ n) (h3 : n ≤ m)
    {params : Parameters K} (hg : GoodParams m params) {km : KnotMethod} (hkm : km ≠ .uniform)
    {solver : Solver K d} (hs : solver.Exact) {pts : DataPoints K d} (hm : List.length pts = m + 1) :
    ∃ kn U P c e, generateKnots p n params km = .ok (.ok kn) ∧ kn.vector = .ok U ∧
      Fixed.fit solver kn pts params none = .ok (.ok P) ∧ ValidOn 0 1 c p n U P ∧
      P[0]? = pts[0]? ∧ P[n]? = pts[m]? ∧ SqError c params.vector pts (Ico 1 m) e ∧
      ∀ (P' : List (Pt K d)) (c' : Curve K d) (e' : K), P'.length = n + 1 → Built c' p U P' →
        P'[0]? = pts[0]? → P'[n]? = pts[m]? →
        SqError c' params.vector pts (Ico 1 m) e' → P' ≠ P → e < e' := by
  have hU := hg.clamped h1 h2 h3 hkm
  have hl := hU.length
  have hlen := hg.length
  have hseg := hg.segments
  have hv : params.vector.length = params.segments + 1 := by omega
  have hk := genKnots_new (K := K) h2 (interiorKnot km p n params.vector)
  obtain ⟨P, hfit, hP⟩ := (C44_fixed_partial hk hl h1 hm hv (fun h => isUniform_ok hl h1 h) solver none).2 (by
    unfold fitErrorOf
    rw [if_neg (by omega), if_neg (by omega), if_neg (by omega)]) hn (by simp)
  have hc := mkCurve_ok (p := p) (U := genU p n (interiorKnot km p n params.vector)) hP h2 (by omega)
  have hI : ∀ g ∈ Ico 1 m, g < params.vector.length ∧ g < List.length pts := by
    intro g hg; rw [mem_Ico] at hg; omega
  have he := (sqError_iff (Q := pts) hU hP hc hI hg.mem).mpr rfl
  obtain ⟨-, -, -, -, -, hP0, hPn, -⟩ := fixed_normal hs hk hU h1 hm hv hfit
  refine ⟨_, _, P, _, _, generateKnots_genU h1 h2 (by omega) km, canonKnots_vector _, hfit, ⟨hc, hU, hP⟩,
    ?_, ?_, he, ?_⟩
  · rw [getElem?_eq_iff_fn (by omega) (by omega)]; exact hP0
  · rw [getElem?_eq_iff_fn (by omega) (by omega)]; exact hPn
  refine (C92_fixed_unique_iff hs hk hU h1 hm hv hg.strict hg.mem hfit hc he).mpr
    ⟨id, fun i j _ hij _ => hij, fun i hi1 hi2 => ⟨hi1, by simp only [id]; omega, ?_⟩⟩
  refine ⟨_, _, List.getElem?_eq_getElem (by simp only [id]; omega), nb_ok hl h2 (by omega) _, ?_⟩
  have := hg.diagonal h1 h2 h3 hkm (i := i) (by omega)
  rwa [List.getD_eq_getElem _ _ (by omega)] at this

/-- **C102** What both methods do not do: they look at the first `n` parameters only (Piegl and Tiller divide
by the number of data points instead). With more data than control points the remaining parameters have no
influence on the knots, and all of them lie in the last knot span. -/
theorem C102_late_parameters {p n : ℕ} (h1 : 1 ≤ p) (h2 : p ≤ n) {params params' : Parameters K}
    {km : KnotMethod} (hl : n + 1 ≤ params.vector.length) (hl' : n + 1 ≤ params'.vector.length)
    (heq : ∀ i, i < n → params.vector[i]? = params'.vector[i]?) :
    generateKnots p n params km = generateKnots p n params' km := by
  have hget : ∀ i, i < n → params.vector.getD i 0 = params'.vector.getD i 0 := by
    intro i hi
    rw [List.getD_eq_getElem?_getD, heq i hi, ← List.getD_eq_getElem?_getD]
  rw [generateKnots_genU h1 h2 hl, generateKnots_genU h1 h2 hl']
  congr 3
  apply genU_congr
  intro j hj1 hj2
  cases km with
  | uniform => rfl
  | averaging =>
    rw [interiorKnot, interiorKnot]
    congr 1
    apply sum_congr rfl
    intro i hi
    rw [mem_range] at hi
    rw [hget _ (by omega)]
  | deBoor =>
    obtain ⟨ha, hb⟩ := WeakParams.deBoor_idx (n := n) h1 h2 hj1 hj2
    rw [interiorKnot, interiorKnot, hget _ (by omega), hget _ (by omega)]

/-- **C102** All interior knots lie below the parameter with the number `n`. -/
theorem C102_last_span {p n m : ℕ} (h1 : 1 ≤ p) (h2 : p ≤ n) (h3 : n ≤ m) {params : Parameters K}
    (hg : GoodParams m params) {km : KnotMethod} (hkm : km ≠ .uniform) :
    ∃ kn U, generateKnots p n params km = .ok (.ok kn) ∧ kn.vector = .ok U ∧
      ∀ g, n ≤ g → g ≤ m → ∀ i, i ≤ n → U.getD i 0 < params.vector.getD g 0 := by
  have hU := hg.clamped h1 h2 h3 hkm
  have hl := hU.length
  refine ⟨_, _, generateKnots_genU h1 h2 (by have := hg.length; omega) km, canonKnots_vector _, ?_⟩
  intro g h4 h5 i hi
  rw [List.getD_eq_getElem _ _ (by omega), ← fn_lt, fn_genU (by omega)]
  split
  · exact hg.zero.ge.trans_lt (hg.lt (by omega) h5)
  · refine (hg.interior h1 h2 h3 hkm (j := i - p) (by omega) (by omega)).2.trans_le (hg.le (by omega) h5)

/-- **C102** Where such parameters come from: every method assigns them to data of which no two consecutive
points are equal (for the centripetal method, if the polygon is not tiny). -/
theorem C102_parameters [Sqrt K] [LawfulSqrt K] {pts : DataPoints K d} {m : ℕ} (hm1 : 1 ≤ m)
    (hm : List.length pts = m + 1) (hne : ∀ i, i < m → pts.getD i 0 ≠ pts.getD (i + 1) 0)
    (pm : ParamMethod) (hc : pm = .centripetal →
      1 / 2 ^ 26 ≤ ∑ h ∈ range m, Sqrt.sqrt (dist2 (pts.getD h 0) (pts.getD (h + 1) 0))) :
    ∃ ps : Parameters K, generateParams pts pm = .ok ps ∧ GoodParams m ps := by
  obtain ⟨ps, a, b, c, e, f⟩ := generateParams_spec hm1 hm hne pm hc
  refine ⟨ps, a, ?_, b.1, c, e, f⟩
  cases pm with
  | equallySpaced =>
    obtain ⟨ps', a', s, -⟩ := C39_equally_spaced (K := K) hm1
    rw [generateParams, DataPoints.segments, usub_ok (by omega), ok_bind,
      show List.length pts - 1 = m by omega, a'] at a
    cases a; exact s
  | chordLength =>
    have hpos : 0 < ∑ h ∈ range m, dist2 (pts.getD h 0) (pts.getD (h + 1) 0) := by
      refine sum_pos (fun i hi => ?_) ⟨0, mem_range.mpr hm1⟩
      rw [dist2_eq]
      exact norm_pos (sub_ne_zero.mpr (hne i (mem_range.mp hi)).symm)
    obtain ⟨ps', a', s, -⟩ := C39_chord_length hm hpos
    rw [generateParams, a'] at a
    cases a; exact s
  | centripetal =>
    obtain ⟨ps', a', s, -⟩ := C39_centripetal_partial hm (hc rfl)
    rw [generateParams, a'] at a
    cases a; exact s

end

/-- **C102** Uniform knots are only safe with equally spaced parameters: for the parameters `0, 1/10, 1/5, 1`,
which the chord length method assigns to the points `0, 1, 2, 10` on the line, and degree one, no basis
function of the last two interior points sees its parameter, and `interpolate` misses some data whatever
the solver does. -/
theorem C102_uniform_singular {solver : Solver ℚ 1} (hs : solver.Exact) :
    ∃ kn, generateKnots 1 3 (⟨[0, 1 / 10, 1 / 5, 1], 3⟩ : Parameters ℚ) .uniform = .ok (.ok kn) ∧
      ¬ ∀ pts : DataPoints ℚ 1, List.length pts = 4 → ∃ P c,
        interpolate solver kn pts ⟨[0, 1 / 10, 1 / 5, 1], 3⟩ = .ok P ∧
        ValidOn 0 1 c 1 3 [0, 0, 1 / 3, 2 / 3, 1, 1] P ∧
        ∀ (g : ℕ) t q, [(0 : ℚ), 1 / 10, 1 / 5, 1][g]? = some t → pts[g]? = some q →
          c.evaluate t = .ok (.ok q) := by
  have hk : Knots.new 1 [(0 : ℚ), 0, 1 / 3, 2 / 3, 1, 1] = .ok (canonKnots 1 [0, 0, 1 / 3, 2 / 3, 1, 1]) :=
    Knots.new_ok (by decide)
  refine ⟨canonKnots 1 [0, 0, 1 / 3, 2 / 3, 1, 1], by decide +kernel, fun h => ?_⟩
  have h' := (C91_interpolate_iff (params := ⟨[0, 1 / 10, 1 / 5, 1], 3⟩) hs (by decide +kernel) hk rfl
    (by decide +kernel) (by decide +kernel)).mp h 2 (1 / 5) (by decide +kernel)
  exact h' (by decide +kernel)

/-- non-vacuity: such parameters exist, and exact solvers do -/
example : GoodParams 4 (⟨[0, 1 / 10, 1 / 5, 1 / 2, 1], 4⟩ : Parameters ℚ) ∧
    ∃ solver : Solver ℚ 2, solver.Exact :=
  ⟨⟨rfl, rfl, by decide +kernel, rfl, rfl⟩, exists_exact_solver ℚ 2⟩

/-- non-vacuity: three segments for five parameters; the last interior knot lies below the parameter
`1/5` -/
example : ∃ kn, generateKnots 1 3 (⟨[0, 1 / 10, 1 / 5, 1 / 2, 1], 4⟩ : Parameters ℚ) .averaging = .ok (.ok kn) ∧
    kn.vector = .ok [0, 0, 1 / 10, 1 / 5, 1, 1] := by
  exact ⟨canonKnots 1 [0, 0, 1 / 10, 1 / 5, 1, 1], by decide +kernel, by decide +kernel⟩

end BSpline
