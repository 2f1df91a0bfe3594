import Verif.Props.MergeValue

/-!
# Merging mapped curves: C76

Merging should not depend on the coordinate system. It does commute with linear maps. It commutes with
translations for degrees one and two, but not for degree three, because the code mixes points and
derivatives up in the recursion for the control points at the junction.
-/

set_option linter.unusedSectionVars false

namespace BSpline

open Finset

variable {K : Type} [Field K] [LinearOrder K] [IsStrictOrderedRing K] {d d' : ℕ}
variable {p m o : ℕ} {V W ua ub : List K} {S T S' T' : List (Pt K d)} {a b : Curve K d}

/-- the solution of least norm is unique -/
theorem minNorm_unique {r N : ℕ} {A : ℕ → ℕ → K} {c δ δ' w w' : ℕ → K}
    (hw : ∀ i, i < N → δ i = ∑ g ∈ range r, A g i * w g)
    (hw' : ∀ i, i < N → δ' i = ∑ g ∈ range r, A g i * w' g)
    (hδ : ∀ g, g < r → ∑ i ∈ range N, A g i * δ i = c g)
    (hδ' : ∀ g, g < r → ∑ i ∈ range N, A g i * δ' i = c g) : ∀ i, i < N → δ' i = δ i := by
  have e1 := minNorm_eq hw hδ hδ'
  have e2 := minNorm_eq hw' hδ' hδ
  have n2 : 0 ≤ ∑ i ∈ range N, (δ i - δ' i) ^ 2 := sum_nonneg (fun i _ => sq_nonneg _)
  have n1 : ∑ i ∈ range N, (δ' i - δ i) ^ 2 = 0 := by
    have : 0 ≤ ∑ i ∈ range N, (δ' i - δ i) ^ 2 := sum_nonneg (fun i _ => sq_nonneg _)
    linarith
  intro i hi
  have := (sum_eq_zero_iff_of_nonneg (fun i _ => sq_nonneg (δ' i - δ i))).mp n1 i (mem_range.mpr hi)
  exact sub_eq_zero.mp (pow_eq_zero_iff (two_ne_zero) |>.mp this)

theorem lin_coord (f : Pt K d →ₗ[K] Pt K d') (x : Pt K d) (ρ : Fin d') :
    f x ρ = ∑ s, f (fun r => if s = r then 1 else 0) ρ * x s := by
  rw [LinearMap.pi_apply_eq_sum_univ f x, Finset.sum_apply]
  exact sum_congr rfl (fun s _ => by rw [Pi.smul_apply, smul_eq_mul, mul_comm])

theorem fn_map_aff (f : Pt K d →ₗ[K] Pt K d') (t : Pt K d') {P : List (Pt K d)} {j : ℕ}
    (hj : j < P.length) : fn (P.map (fun x => f x + t)) j = f (fn P j) + t := by
  rw [fn_lt (by simpa using hj), List.getElem_map, fn_lt hj]

/-- derivative control points of mapped control points -/
theorem dpt_map_affine (f : Pt K d →ₗ[K] Pt K d') (t : Pt K d') {U : ℕ → K} {P : ℕ → Pt K d}
    {Q : ℕ → Pt K d'} {N : ℕ} (h : ∀ j, j ≤ N → Q j = f (P j) + t) :
    ∀ k i, i + k ≤ N → dpt U p Q k i = f (dpt U p P k i) + (if k = 0 then t else 0) := by
  intro k
  induction k with
  | zero => intro i hi; simp only [dpt, if_true]; exact h i (by omega)
  | succ k ih =>
    intro i hi
    simp only [dpt, Nat.succ_ne_zero, if_false, add_zero]
    split
    · exact (map_zero f).symm
    · rw [ih (i + 1) (by omega), ih i (by omega), show ∀ x : Pt K d, scale
        (((p - (k + 1) + 1 : ℕ) : K) / (U (i + p + 1) - U (i + (k + 1)))) x =
        (((p - (k + 1) + 1 : ℕ) : K) / (U (i + p + 1) - U (i + (k + 1)))) • x from fun x => rfl,
        map_smul, map_sub]
      rw [show ∀ x : Pt K d', scale
        (((p - (k + 1) + 1 : ℕ) : K) / (U (i + p + 1) - U (i + (k + 1)))) x =
        (((p - (k + 1) + 1 : ℕ) : K) / (U (i + p + 1) - U (i + (k + 1)))) • x from fun x => rfl]
      congr 1
      abel

theorem conC_affine (f : Pt K d →ₗ[K] Pt K d') (t : Pt K d') (hpm : p ≤ m) (hpo : p ≤ o)
    (hS : S.length = m + 1) (hT : T.length = o + 1) (g : ℕ) :
    conC p m V W (S.map (fun x => f x + t)) (T.map (fun x => f x + t)) g = f (conC p m V W S T g) := by
  rw [conC, conC]
  split
  · rw [dpt_map_affine f t (P := fn T) (N := o) (fun j hj => fn_map_aff f t (by omega)) g 0 (by omega),
      dpt_map_affine f t (P := fn S) (N := m) (fun j hj => fn_map_aff f t (by omega)) g (m - g) (by omega),
      map_sub]
    abel
  · exact (map_zero f).symm

/-- the shifts of mapped curves are the mapped shifts -/
theorem shifts_affine (f : Pt K d →ₗ[K] Pt K d') (t : Pt K d') {solver : Solver K d}
    {solver' : Solver K d'} (hs : solver.Exact) (hs' : solver'.Exact) (h1 : 1 ≤ p)
    (hV : ClampedKnots 0 1 p m V) (hW : ClampedKnots 0 1 p o W) (hS : S.length = m + 1)
    (hT : T.length = o + 1) (hf : ∃ S' T', Joins p m o V W S T ua ub S' T') {i : ℕ} (hi : i < p + p) :
    fn (shiftsOf solver' p m o V W ua ub (S.map (fun x => f x + t)) (T.map (fun x => f x + t))) i =
      f (fn (shiftsOf solver p m o V W ua ub S T) i) := by
  obtain ⟨S₀, T₀, h0⟩ := hf
  obtain ⟨a1, a2⟩ := shifts_min hs h1 hV hW (joins_rows hV hW hS hT h0)
  set x := shiftsOf solver p m o V W ua ub S T with hx
  choose w hw using a2
  have hcand : ∀ g, g < p + ua.length + ub.length → ∀ ρ, ∑ i ∈ range (p + p),
      conA p m o V W ua ub g i * f (fn x i) ρ =
      conC p m V W (S.map (fun x => f x + t)) (T.map (fun x => f x + t)) g ρ := by
    intro g hg ρ
    rw [conC_affine f t hV.le hW.le hS hT, lin_coord]
    simp only [lin_coord f (fn x _), ← a1 g hg, mul_sum]
    rw [sum_comm]
    exact sum_congr rfl (fun s _ => sum_congr rfl (fun i _ => by ring))
  obtain ⟨b1, b2⟩ := shifts_min hs' h1 hV hW (z := fun i => f (fn x i)) hcand
  funext ρ
  obtain ⟨w', hw'⟩ := b2 ρ
  refine minNorm_unique (A := conA p m o V W ua ub) (N := p + p) (r := p + ua.length + ub.length)
    (c := fun g => conC p m V W (S.map (fun x => f x + t)) (T.map (fun x => f x + t)) g ρ)
    (δ := fun i => f (fn x i) ρ)
    (w := fun g => ∑ s, f (fun r => if s = r then 1 else 0) ρ * w s g)
    (w' := w') ?_ hw' (fun g hg => hcand g hg ρ) (fun g hg => b1 g hg ρ) i hi
  intro i hi
  rw [lin_coord]
  simp only [hw _ i hi, mul_sum]
  rw [sum_comm]
  exact sum_congr rfl (fun s _ => sum_congr rfl (fun i _ => by ring))

theorem shiftL_affine (f : Pt K d →ₗ[K] Pt K d') (t : Pt K d') {x : List (Pt K d)} {x' : List (Pt K d')}
    (hpm : p ≤ m) (hS : S.length = m + 1) (hx : ∀ i, i < p + p → fn x' i = f (fn x i)) :
    shiftL p m (S.map (fun x => f x + t)) x' = (shiftL p m S x).map (fun x => f x + t) := by
  apply ext_fn (by simp)
  intro i hi
  rw [shiftL_length] at hi
  rw [fn_map_aff f t (by simpa using hi), fn_shiftL (by omega), fn_shiftL (by omega),
    fn_map_aff f t (by omega)]
  split
  · rfl
  · rw [hx _ (by omega), map_add]; abel

theorem shiftR_affine (f : Pt K d →ₗ[K] Pt K d') (t : Pt K d') {x : List (Pt K d)} {x' : List (Pt K d')}
    (hT : T.length = o + 1) (hx : ∀ i, i < p + p → fn x' i = f (fn x i)) :
    shiftR p o (T.map (fun x => f x + t)) x' = (shiftR p o T x).map (fun x => f x + t) := by
  apply ext_fn (by simp)
  intro i hi
  rw [shiftR_length] at hi
  rw [fn_map_aff f t (by simpa using hi), fn_shiftR (by omega), fn_shiftR (by omega),
    fn_map_aff f t (by omega)]
  split
  · rw [hx _ (by omega), map_add]; abel
  · rfl

/-! ### Linear maps -/

theorem dcp_linear (f : Pt K d →ₗ[K] Pt K d') {U : ℕ → K} {N n i k : ℕ} {P : ℕ → Pt K d}
    {Q : ℕ → Pt K d'} (h : ∀ j, j ≤ n → Q j = f (P j)) : dcp U p N n i k Q = f (dcp U p N n i k P) := by
  rw [dcp, dcp, foldl_add_eq_sum, foldl_add_eq_sum, map_add, map_sum]
  congr 1
  · exact (map_zero f).symm
  · refine sum_congr rfl (fun z hz => ?_)
    rw [mem_Ico] at hz
    rw [h z (by omega)]
    exact (map_smul f _ _).symm

theorem adjq_linear (f : Pt K d →ₗ[K] Pt K d') {U : ℕ → K} {j : ℕ} {B : ℕ → Pt K d} {B' : ℕ → Pt K d'}
    (h : ∀ k, B' k = f (B k)) : ∀ s k, adjq U p j B' s k = f (adjq U p j B s k) := by
  intro s
  induction s with
  | zero => intro k; exact h k
  | succ s ih =>
    intro k
    simp only [adjq]
    rw [ih, ih, map_add]
    congr 1
    exact (map_smul f _ _).symm

theorem adjP_linear (f : Pt K d →ₗ[K] Pt K d') {U U' : ℕ → K} {N n i : ℕ} {P : ℕ → Pt K d}
    {Q : ℕ → Pt K d'} (h1 : 1 ≤ p) (hpn : p ≤ n) (h : ∀ j, j ≤ n → Q j = f (P j)) :
    adjP U U' p N n Q i = f (adjP U U' p N n P i) := by
  rw [adjP, adjP]
  split
  · exact h i (by omega)
  · refine adjq_linear f (fun k => ?_) _ _
    rw [baseRow, baseRow]
    split
    · exact h _ (by omega)
    · exact dcp_linear f h

theorem mergedPts_linear (f : Pt K d →ₗ[K] Pt K d') (h1 : 1 ≤ p) (hpm : p ≤ m) (hmo : m ≤ o)
    (hom : o < m + p) (hS : S.length = m + 1) (hT : T.length = o + 1) :
    mergedPts p m o V W (S.map f) (T.map f) = (mergedPts p m o V W S T).map f := by
  have hf : ∀ {P : List (Pt K d)} {j : ℕ}, j < P.length → fn (P.map f) j = f (fn P j) := by
    intro P j hj
    rw [fn_lt (by simpa using hj), List.getElem_map, fn_lt hj]
  apply ext_fn (by simp)
  intro i hi
  rw [mergedPts_length] at hi
  rw [hf (by simpa using hi), mergedPts, mergedPts, fn_map_range _ hi, fn_map_range _ hi, mergedP, mergedP]
  split
  · rw [sadj, sadj, fn_map_range _ (by omega), fn_map_range _ (by omega)]
    exact adjP_linear f h1 hpm (fun j hj => hf (by omega))
  · rw [tadj, tadj, fn_reverse (by simp; omega), fn_reverse (by simp; omega)]
    simp only [List.length_map, List.length_range]
    rw [fn_map_range _ (by omega), fn_map_range _ (by omega)]
    refine adjP_linear f h1 hpm (fun j hj => ?_)
    rw [← List.map_reverse]
    exact hf (by simp; omega)

/-- **C76 (partial)** Merging linearly mapped curves gives the linearly mapped result, for all degrees,
accepted sizes and constraints that can be met. -/
theorem C76_linear_partial (f : Pt K d →ₗ[K] Pt K d') {solver : Solver K d} {solver' : Solver K d'}
    (hs : solver.Exact) (hs' : solver'.Exact) {a' b' : Curve K d'} (ha : Built a p V S)
    (hb : Built b p W T) (ha' : Built a' p V (S.map f)) (hb' : Built b' p W (T.map f))
    (hV : ClampedKnots 0 1 p m V) (hW : ClampedKnots 0 1 p o W) (hS : S.length = m + 1)
    (hT : T.length = o + 1) (hc : ua.length + ub.length < p) (hmo : m ≤ o) (hom : o < m + p)
    (hf : ∃ S' T', Joins p m o V W S T ua ub S' T') :
    ∃ (c : Curve K d) (c' : Curve K d') (U : List K) (P : List (Pt K d)),
      mergeWithConstraints solver ⟨a, ⟨ua⟩⟩ ⟨b, ⟨ub⟩⟩ = .ok (.ok c) ∧ Built c p U P ∧
      mergeWithConstraints solver' ⟨a', ⟨ua⟩⟩ ⟨b', ⟨ub⟩⟩ = .ok (.ok c') ∧ Built c' p U (P.map f) := by
  have h1 : 1 ≤ p := by omega
  have e0 : (fun x => f x + 0) = (f : Pt K d → Pt K d') := by funext x; rw [add_zero]
  have hx := fun i hi => shifts_affine f 0 (i := i) hs hs' h1 hV hW hS hT hf hi
  have eL := shiftL_affine f 0 hV.le hS hx
  have eR := shiftR_affine f 0 (o := o) hT hx
  rw [e0] at eL eR
  have hU := mergedU_clamped hV hW
  have hm' := merge_valid ha' hb' hV hW (by simpa using hS) (by simpa using hT) hc hmo hom solver'
  rw [eL, eR, mergedPts_linear f h1 hV.le hmo hom (by simp) (by simp)] at hm'
  have hpm := hV.le
  exact ⟨_, _, _, _, merge_valid ha hb hV hW hS hT hc hmo hom solver,
    built_canon hU (by simp; omega), hm', built_canon hU (by simp; omega)⟩

/-! ### Translations -/

theorem mergedPts_affine (f : Pt K d →ₗ[K] Pt K d') (t : Pt K d') (h1 : 1 ≤ p) (hp2 : p ≤ 2)
    (hpm : p ≤ m) (hS : S.length = m + 1) (hT : T.length = m + 1) :
    mergedPts p m m V W (S.map (fun x => f x + t)) (T.map (fun x => f x + t)) =
      (mergedPts p m m V W S T).map (fun x => f x + t) := by
  apply ext_fn (by simp)
  intro i hi
  rw [mergedPts_length] at hi
  rw [fn_map_aff f t (by simpa using hi)]
  by_cases him : i < m
  · rw [fn_mergedPts_left hpm hpm (by omega) him, fn_mergedPts_left hpm hpm (by omega) him,
      fn_map_aff f t (by omega)]
  · rw [fn_mergedPts_right hpm le_rfl (by omega) (by simpa using hT) (by omega) (by omega),
      fn_mergedPts_right hpm le_rfl (by omega) hT (by omega) (by omega), fn_map_aff f t (by omega)]

/-- **C76** as claimed: merging commutes with affine maps -/
def C76_full : Prop := ∀ (p m o : ℕ) (V W ua ub : List ℚ) (S T : List (Pt ℚ 1))
    (f : Pt ℚ 1 →ₗ[ℚ] Pt ℚ 1) (t : Pt ℚ 1) (a b a' b' c c' : Curve ℚ 1) (solver : Solver ℚ 1),
    solver.Exact → Built a p V S → Built b p W T → Built a' p V (S.map (fun x => f x + t)) →
    Built b' p W (T.map (fun x => f x + t)) → ClampedKnots 0 1 p m V → ClampedKnots 0 1 p o W →
    S.length = m + 1 → T.length = o + 1 → (∃ S' T', Joins p m o V W S T ua ub S' T') →
    mergeWithConstraints solver ⟨a, ⟨ua⟩⟩ ⟨b, ⟨ub⟩⟩ = .ok (.ok c) →
    mergeWithConstraints solver ⟨a', ⟨ua⟩⟩ ⟨b', ⟨ub⟩⟩ = .ok (.ok c') →
    ∀ P, c.points.matrix = .ok P → c'.points.matrix = .ok (P.map (fun x => f x + t))

/-- **C76 (partial)** Merging curves mapped by an affine map gives the mapped result, for degrees `1`
and `2` and curves with the same number of control points. Missing: other degrees and sizes, for which
it is false (`C76_full_false`) unless the map is linear (`C76_linear_partial`). -/
theorem C76_affine_partial (f : Pt K d →ₗ[K] Pt K d') (t : Pt K d') {solver : Solver K d}
    {solver' : Solver K d'} (hs : solver.Exact) (hs' : solver'.Exact) {a' b' : Curve K d'}
    (ha : Built a p V S) (hb : Built b p W T) (ha' : Built a' p V (S.map (fun x => f x + t)))
    (hb' : Built b' p W (T.map (fun x => f x + t))) (hV : ClampedKnots 0 1 p m V)
    (hW : ClampedKnots 0 1 p m W) (hS : S.length = m + 1) (hT : T.length = m + 1)
    (hc : ua.length + ub.length < p) (hp2 : p ≤ 2) :
    ∃ (c : Curve K d) (c' : Curve K d') (U : List K) (P : List (Pt K d)),
      mergeWithConstraints solver ⟨a, ⟨ua⟩⟩ ⟨b, ⟨ub⟩⟩ = .ok (.ok c) ∧ Built c p U P ∧
      mergeWithConstraints solver' ⟨a', ⟨ua⟩⟩ ⟨b', ⟨ub⟩⟩ = .ok (.ok c') ∧
      Built c' p U (P.map (fun x => f x + t)) := by
  have h1 : 1 ≤ p := by omega
  have hf : ∃ S' T', Joins p m m V W S T ua ub S' T' := by
    cases ub with
    | nil => exact joins_exists_right hV hW hS hT ua
    | cons y ub =>
      cases ua with
      | nil => exact joins_exists_left hV hW hS hT _
      | cons x ua => simp only [List.length_cons] at hc; omega
  have hx := fun i hi => shifts_affine f t (i := i) hs hs' h1 hV hW hS hT hf hi
  have eL := shiftL_affine f t hV.le hS hx
  have eR := shiftR_affine f t (o := m) hT hx
  have hU := mergedU_clamped hV hW
  have hm' := merge_valid ha' hb' hV hW (by simpa using hS) (by simpa using hT) hc le_rfl (by omega)
    solver'
  rw [eL, eR, mergedPts_affine f t h1 hp2 hV.le (by simp) (by simp)] at hm'
  have hpm := hV.le
  exact ⟨_, _, _, _, merge_valid ha hb hV hW hS hT hc le_rfl (by omega) solver,
    built_canon hU (by simp; omega), hm', built_canon hU (by simp; omega)⟩

/-- knots and control points for the instances -/
def mapV : List ℚ := [0, 0, 0, 1/2, 1, 1, 1]
def mapW : List ℚ := [0, 0, 0, 1/3, 1, 1, 1]
def mapS : List (Pt ℚ 2) := [![0, 0], ![1, 2], ![3, 1], ![4, 4]]
def mapT : List (Pt ℚ 2) := [![5, 3], ![6, 6], ![7, 1], ![9, 0]]

/-- the first coordinates, doubled and moved by five, of two parabolas that do not meet -/
example : ∃ (solver : Solver ℚ 2) (solver' : Solver ℚ 1) (c : Curve ℚ 2) (c' : Curve ℚ 1)
    (U : List ℚ) (P : List (Pt ℚ 2)), solver.Exact ∧ solver'.Exact ∧
    mergeWithConstraints solver ⟨canon 2 mapV mapS, ⟨[1]⟩⟩ ⟨canon 2 mapW mapT, ⟨[]⟩⟩ = .ok (.ok c) ∧
    Built c 2 U P ∧ mergeWithConstraints solver'
      ⟨canon 2 mapV (mapS.map (fun x => ![2 * x 0 + 5])), ⟨[1]⟩⟩
      ⟨canon 2 mapW (mapT.map (fun x => ![2 * x 0 + 5])), ⟨[]⟩⟩ = .ok (.ok c') ∧
    Built c' 2 U (P.map (fun x => ![2 * x 0 + 5])) := by
  obtain ⟨s, hs⟩ := exists_exact_solver ℚ 2
  obtain ⟨s', hs'⟩ := exists_exact_solver ℚ 1
  have hV : ClampedKnots (0 : ℚ) 1 2 3 mapV := by decide +kernel
  have hW : ClampedKnots (0 : ℚ) 1 2 3 mapW := by decide +kernel
  let f : Pt ℚ 2 →ₗ[ℚ] Pt ℚ 1 := 2 • LinearMap.pi (fun _ => LinearMap.proj 0)
  have e : (fun x => f x + ![5]) = fun x : Pt ℚ 2 => ![2 * x 0 + 5] := by
    funext x r
    obtain rfl : r = 0 := Subsingleton.elim _ _
    simp [f]
  obtain ⟨c, c', U, P, h1, h2, h3, h4⟩ := C76_affine_partial (ua := [1]) (ub := []) f ![5] hs hs'
    (built_canon (P := mapS) hV rfl) (built_canon (P := mapT) hW rfl) (built_canon hV rfl)
    (built_canon hW rfl) hV hW rfl rfl (by decide) le_rfl
  rw [e] at h3 h4
  exact ⟨s, s', c, c', U, P, hs, hs', h1, h2, h3, h4⟩

/-- The two lines of degree three, and the same lines moved by one: the results of merging them are not
moved by one. -/
theorem C76_full_false : ¬ C76_full := by
  intro h
  obtain ⟨solver, hs⟩ := exists_exact_solver ℚ 1
  have hj := joins_self lineA_built lineB_built lines_clamped lines_clamped rfl rfl [] [] lines_join
  let A' : Curve ℚ 1 := canon 3 [0, 0, 0, 0, 1, 1, 1, 1] (Tests.c1 [-2, -1, 0, 1])
  let B' : Curve ℚ 1 := canon 3 [0, 0, 0, 0, 1, 1, 1, 1] (Tests.c1 [1, 2, 3, 4])
  have hA : Built A' 3 [0, 0, 0, 0, 1, 1, 1, 1] (Tests.c1 [-2, -1, 0, 1]) :=
    mkCurve_ok (n := 3) rfl (by decide) (by decide)
  have hB : Built B' 3 [0, 0, 0, 0, 1, 1, 1, 1] (Tests.c1 [1, 2, 3, 4]) :=
    mkCurve_ok (n := 3) rfl (by decide) (by decide)
  have hj' := joins_self hA hB lines_clamped lines_clamped rfl rfl [] [] (by decide +kernel)
  have hm' := merge_joined hs hA hB lines_clamped lines_clamped rfl rfl (by decide) le_rfl (by decide) hj'
  have e1 : (Tests.c1 [-3, -2, -1, 0]).map (fun x => (LinearMap.id : Pt ℚ 1 →ₗ[ℚ] Pt ℚ 1) x +
      (fun _ => 1)) = Tests.c1 [-2, -1, 0, 1] := by decide +kernel
  have e2 : (Tests.c1 [0, 1, 2, 3]).map (fun x => (LinearMap.id : Pt ℚ 1 →ₗ[ℚ] Pt ℚ 1) x +
      (fun _ => 1)) = Tests.c1 [1, 2, 3, 4] := by decide +kernel
  have := h 3 3 3 _ _ [] [] _ _ LinearMap.id (fun _ => 1) _ _ A' B' _ _ solver hs
    lineA_built lineB_built (e1 ▸ hA) (e2 ▸ hB)
    lines_clamped lines_clamped rfl rfl ⟨_, _, hj⟩
    (lines_merged solver hs (ua := []) (ub := []) (by decide)) hm' _ canon_matrix
  rw [canon_matrix] at this
  revert this
  decide +kernel

end BSpline
