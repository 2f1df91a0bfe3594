import Verif.Spec.Plane
import Verif.Props.Unique
import Verif.Props.Condition
import Mathlib.LinearAlgebra.Basis.VectorSpace
import Mathlib.Analysis.Convex.Hull

/-!
# Curves and planes: C149
-/

set_option linter.unusedSectionVars false

namespace BSpline

open Polynomial

variable {K : Type} [Field K] [LinearOrder K] [IsStrictOrderedRing K] {d : ℕ}

/-- the diagonal of a polar form is a polynomial of at most its degree -/
theorem exists_poly_degree {U : ℕ → K} {R : ℕ → K} {a : ℕ} (m : ℕ) : ∀ (us : List K), Win U (m + us.length) a →
    ∃ q : K[X], q.natDegree ≤ m ∧ ∀ v, bl U (List.replicate m v ++ us) R a = q.eval v := by
  induction m with
  | zero => intro us _; exact ⟨C (bl U us R a), by simp, by simp⟩
  | succ m ih =>
    intro us hw
    obtain ⟨q0, d0, h0⟩ := ih (0 :: us) (by simpa [add_assoc, add_comm, add_left_comm] using hw)
    obtain ⟨q1, d1, h1⟩ := ih (1 :: us) (by simpa [add_assoc, add_comm, add_left_comm] using hw)
    refine ⟨(1 - X) * q0 + X * q1, ?_, ?_⟩
    · have e1 : (1 - X : K[X]).natDegree ≤ 1 := (natDegree_sub_le _ _).trans (by simp)
      refine (natDegree_add_le _ _).trans (max_le ?_ ?_)
      · exact natDegree_mul_le.trans (by omega)
      · exact natDegree_mul_le.trans (by rw [natDegree_X]; omega)
    · intro v
      have haff : ∀ ts : List K, ts.length + 1 = m + 1 + us.length →
          bl U (v :: ts) R a = (1 - v) * bl U (0 :: ts) R a + v * bl U (1 :: ts) R a := by
        intro ts hts
        have := bl_affine ts (U := U) (P := R) (a := a) (1 - v) v 0 1 (by ring) (by rw [hts]; exact hw)
        simpa using this
      rw [List.replicate_succ, List.cons_append, haff _ (by simp; omega),
        ← bl_insert_arg 0 v hw, ← bl_insert_arg 1 v hw, h0, h1]
      simp

/-- more than `p` zeros on the diagonal: all coefficients vanish -/
theorem diag_zero {U : ℕ → K} {R : ℕ → K} {a p : ℕ} (hw : Win U p a) (S : Finset K) (hS : p < S.card)
    (h : ∀ v ∈ S, bl U (List.replicate p v) R a = 0) {i : ℕ} (hi : i ≤ p) : R (a + i) = 0 := by
  obtain ⟨q, h1, h2⟩ := exists_poly_degree (R := R) p [] (by simpa using hw)
  simp only [List.append_nil] at h2
  have hq : q = 0 := by
    by_contra hq
    have hsub : S ⊆ q.roots.toFinset := by
      intro v hv
      rw [Multiset.mem_toFinset, mem_roots hq]
      show q.eval v = 0
      rw [← h2, h v hv]
    have := (Finset.card_le_card hsub).trans ((Multiset.toFinset_card_le _).trans (card_roots' q))
    omega
  have := bl_eq_zero (U := U) (R := R) (a := a) p [] (by simpa using hw) Set.univ Set.infinite_univ
    (by intro v _; rw [List.append_nil, h2, hq]; simp) (knotsFrom U (a + i + 1) p) (by simp)
  rwa [List.append_nil, bl_dual p i hi hw] at this

/-- a linear function of the values is the spline with the values of the linear function -/
theorem bl_linear (f : Pt K d →ₗ[K] K) {b : K} {U : ℕ → K} {P : ℕ → Pt K d} {a : ℕ} (ts : List K) (hw : Win U ts.length a) :
    bl U ts (fun i => f (P i) - b) a = f (bl U ts P a) - b := by
  rw [bl_sub ts U (fun i => f (P i)) (fun _ => b)]
  dsimp only
  rw [bl_const ts b hw]
  congr 1
  exact congrFun (bl_map f ts U P) a

/-- **C149** If the curve meets a plane at more than `p` parameters of a knot span, then the plane contains the
`p + 1` control points that act on this span. -/
theorem C149_piece {c : Curve K d} {p n j : ℕ} {U : List K} {P : List (Pt K d)} (hc : ValidOn 0 1 c p n U P)
    (f : Pt K d →ₗ[K] K) (b : K) {x y : K} (hj : p ≤ j) (hjn : j ≤ n) (hx : U[j]? = some x) (hy : U[j + 1]? = some y)
    (hxy : x < y) (S : Finset K) (hS : p < S.card) (hSx : ∀ u ∈ S, x ≤ u ∧ (u < y ∨ j = n ∧ u = 1))
    (h : ∀ u ∈ S, ∀ v, c.evaluate u = .ok (.ok v) → f v = b) : ∀ i q, j - p ≤ i → i ≤ j → P[i]? = some q → f q = b := by
  obtain rfl := hc.eq_canon
  obtain ⟨-, hU, hP⟩ := hc
  have hcl := hU.clamp
  obtain ⟨h1, rfl⟩ := List.getElem?_eq_some_iff.mp hx
  obtain ⟨h2, rfl⟩ := List.getElem?_eq_some_iff.mp hy
  rw [← fn_lt h1, ← fn_lt h2] at hxy
  rw [← fn_lt h1, ← fn_lt h2] at hSx
  intro i q hi1 hi2 hq
  obtain ⟨hi3, rfl⟩ := List.getElem?_eq_some_iff.mp hq
  rw [← fn_lt hi3]
  have hw := win_of_span hcl.mono hj hxy
  have hz := diag_zero (R := fun i => f (fn P i) - b) hw S hS (fun u hu => by
    rw [bl_linear f _ (by simpa using hw), sub_eq_zero]
    have h3 := hSx u hu
    have hs : IsSpan (fn U) n u j := by
      refine ⟨hjn, h3.1, ?_⟩
      rcases h3.2 with h4 | ⟨h4, h5⟩
      · exact Or.inl h4
      · exact Or.inr ⟨h4, by rw [hcl.right _ (by omega)]; exact h5⟩
    refine h u hu _ ?_
    have h0 : 0 ≤ u := (hcl.a_le j).trans h3.1
    have h1' : u ≤ 1 := by
      rcases h3.2 with h4 | h4
      · exact h4.le.trans (hcl.le_b _)
      · exact h4.2.le
    exact evaluateDerivative_eq hU hP (Nat.zero_le p) h0 h1' hs) (i := i - (j - p)) (by omega)
  rw [show j - p + (i - (j - p)) = i by omega] at hz
  exact sub_eq_zero.mp hz

/-- **C149** A plane contains the whole curve if and only if it contains all control points (interior knots of
multiplicity at most `p + 1`). -/
theorem C149_plane_iff {c : Curve K d} {p n : ℕ} {U : List K} {P : List (Pt K d)} (hc : ValidOn 0 1 c p n U P)
    (hm : ∀ x, 0 < x → x < 1 → U.count x ≤ p + 1) (f : Pt K d →ₗ[K] K) (b : K) :
    (∀ v ∈ Trace c (Set.Icc 0 1), f v = b) ↔ ∀ q ∈ P, f q = b := by
  constructor
  · intro h q hq
    obtain ⟨i, hi, rfl⟩ := List.mem_iff_getElem.mp hq
    have hU := hc.2.1
    have hcl := hU.clamp
    have hl := hU.length
    rw [hc.2.2] at hi
    have hsup := support_pos hU hm (i := i) (by omega)
    obtain ⟨j, j1, j2, j3⟩ := exists_long_span (fn U) i p
    have hlt : fn U j < fn U (j + 1) := by
      by_contra hcon
      have : ((p : K) + 1) * (fn U (j + 1) - fn U j) ≤ 0 :=
        mul_nonpos_of_nonneg_of_nonpos (by positivity) (sub_nonpos.mpr (not_lt.mp hcon))
      linarith
    have hpj : p ≤ j := by
      by_contra hcon
      rw [hcl.left j (by omega), hcl.left (j + 1) (by omega)] at hlt
      exact lt_irrefl _ hlt
    have hjn : j ≤ n := by
      by_contra hcon
      rw [hcl.right j (by omega), hcl.right (j + 1) (by omega)] at hlt
      exact lt_irrefl _ hlt
    obtain ⟨S, hS, hcard⟩ := (Set.Ico_infinite hlt).exists_subset_card_eq (p + 1)
    refine C149_piece hc f b hpj hjn (x := fn U j) (y := fn U (j + 1)) ?_ ?_ hlt S (by omega) ?_ ?_ i _ (by omega) j1
      (List.getElem?_eq_getElem (by rw [hc.2.2]; omega))
    · rw [fn_lt (by omega), List.getElem?_eq_getElem]
    · rw [fn_lt (by omega), List.getElem?_eq_getElem]
    · intro u hu
      exact ⟨(hS hu).1, Or.inl (hS hu).2⟩
    · intro u hu v hv
      exact h v ⟨u, ⟨(hcl.a_le j).trans (hS hu).1, (hS hu).2.le.trans (hcl.le_b _)⟩, hv⟩
  · rintro h v ⟨u, ⟨h0, h1⟩, hv⟩
    obtain ⟨j, x, y, w, -, -, -, -, -, -, hw, hmem⟩ := C08_convex_hull hc h0 h1
    rw [hv] at hw
    injection hw with hw; injection hw with hw; subst hw
    have hconv : Convex K {w : Pt K d | f w = b} := by
      intro a ha e he s t hs ht hst
      simp only [Set.mem_ofPred_eq, map_add, map_smul, smul_eq_mul] at *
      rw [ha, he, ← add_mul, hst, one_mul]
    refine convexHull_min (t := {w : Pt K d | f w = b}) ?_ hconv hmem
    rintro q ⟨i, _, _, hq⟩
    exact h q (List.mem_of_getElem? hq)

/-- sets that lie in the same planes -/
theorem affineSpan_le_of_planes {V : Type*} [AddCommGroup V] [Module K V] {s t : Set V} (hs : s.Nonempty)
    (h : ∀ (f : V →ₗ[K] K) b, (∀ v ∈ s, f v = b) → ∀ q ∈ t, f q = b) : affineSpan K t ≤ affineSpan K s := by
  rw [affineSpan_le]
  intro q hq
  obtain ⟨v0, hv0⟩ := hs
  by_contra hcon
  have hd : q - v0 ∉ (affineSpan K s).direction := by
    intro hd
    apply hcon
    have := AffineSubspace.vadd_mem_of_mem_direction hd (mem_affineSpan K hv0)
    simpa using this
  obtain ⟨f, hf, hker⟩ := Submodule.exists_le_ker_of_notMem hd
  apply hf
  have := h f (f v0) (fun v hv => by
    have hm := hker (AffineSubspace.vsub_mem_direction (mem_affineSpan K hv) (mem_affineSpan K hv0))
    rw [LinearMap.mem_ker, vsub_eq_sub, map_sub, sub_eq_zero] at hm
    exact hm) q hq
  rw [map_sub, this, sub_self]

/-- **C149** The curve and its control points span the same affine subspace: the curve is a point, lies on a line or in
a plane if and only if its control points do. -/
theorem C149_affine_span {c : Curve K d} {p n : ℕ} {U : List K} {P : List (Pt K d)} (hc : ValidOn 0 1 c p n U P)
    (hm : ∀ x, 0 < x → x < 1 → U.count x ≤ p + 1) :
    affineSpan K (Trace c (Set.Icc 0 1)) = affineSpan K {q | q ∈ P} := by
  obtain ⟨j, x, y, w, -, -, -, -, -, -, hw, -⟩ := C08_convex_hull hc (u := 0) le_rfl zero_le_one
  have hP := hc.2.2
  apply le_antisymm
  · refine affineSpan_le_of_planes ⟨P[0], List.getElem_mem (by omega)⟩ (fun f b h => ?_)
    exact (C149_plane_iff hc hm f b).mpr h
  · refine affineSpan_le_of_planes ⟨w, 0, ⟨le_rfl, zero_le_one⟩, hw⟩ (fun f b h => ?_)
    exact (C149_plane_iff hc hm f b).mp h

/-- **C149** The stretch of the curve over a single knot span spans the same affine subspace as the `p + 1` control
points that act on it. -/
theorem C149_affine_span_piece {c : Curve K d} {p n j : ℕ} {U : List K} {P : List (Pt K d)} (hc : ValidOn 0 1 c p n U P)
    {x y : K} (hj : p ≤ j) (hjn : j ≤ n) (hx : U[j]? = some x) (hy : U[j + 1]? = some y) (hxy : x < y) :
    affineSpan K (Trace c (Set.Ico x y)) = affineSpan K (PolygonOn P (Set.Icc (j - p) j)) := by
  have hU := hc.2.1
  have hcl := hU.clamp
  have hl := hU.length
  have hP := hc.2.2
  have ex : x = fn U j := by rw [fn_lt (by omega)]; rw [List.getElem?_eq_getElem (by omega)] at hx; exact (Option.some.inj hx).symm
  have ey : y = fn U (j + 1) := by
    rw [fn_lt (by omega)]; rw [List.getElem?_eq_getElem (by omega)] at hy; exact (Option.some.inj hy).symm
  have hval : ∀ u, x ≤ u → u < y → c.evaluate u = .ok (.ok (bl (fn U) (List.replicate p u) (fn P) (j - p))) := by
    intro u h1 h2
    obtain rfl := hc.eq_canon
    subst ex ey
    exact evaluateDerivative_eq hU hP (Nat.zero_le p) ((hcl.a_le j).trans h1) (h2.le.trans (hcl.le_b _)) ⟨hjn, h1, Or.inl h2⟩
  have hw : Win (fn U) p (j - p) := win_of_span hcl.mono hj (by rwa [← ex, ← ey])
  apply le_antisymm
  · refine affineSpan_le_of_planes ⟨P[j], j, ⟨by omega, le_rfl⟩, List.getElem?_eq_getElem (by omega)⟩ (fun f b h => ?_)
    rintro v ⟨u, ⟨h1, h2⟩, hv⟩
    rw [hval u h1 h2] at hv
    injection hv with hv; injection hv with hv; subst hv
    have e := bl_linear f (b := b) (U := fn U) (P := fn P) (a := j - p) (List.replicate p u) (by simpa using hw)
    rw [bl_congr_pts (P' := fun _ => (0 : K)) (List.replicate p u) (fun i h3 => ?_), bl_const _ _ (by simpa using hw)] at e
    · exact (sub_eq_zero.mp e.symm)
    · rw [List.length_replicate] at h3
      rw [sub_eq_zero]
      refine h _ ⟨j - p + i, ⟨by omega, by omega⟩, ?_⟩
      rw [fn_lt (by omega), List.getElem?_eq_getElem]
  · refine affineSpan_le_of_planes ⟨_, x, ⟨le_rfl, hxy⟩, hval x le_rfl hxy⟩ (fun f b h => ?_)
    rintro q ⟨i, ⟨i1, i2⟩, hq⟩
    obtain ⟨S, hS, hcard⟩ := (Set.Ico_infinite hxy).exists_subset_card_eq (p + 1)
    exact C149_piece hc f b hj hjn hx hy hxy S (by omega) (fun u hu => ⟨(hS hu).1, Or.inl (hS hu).2⟩)
      (fun u hu v hv => h v ⟨u, hS hu, hv⟩) i q i1 i2 hq

/-- **C149** The curve is a single point if and only if all control points coincide. -/
theorem C149_constant {c : Curve K d} {p n : ℕ} {U : List K} {P : List (Pt K d)} (hc : ValidOn 0 1 c p n U P)
    (hm : ∀ x, 0 < x → x < 1 → U.count x ≤ p + 1) (a : Pt K d) :
    (∀ u, 0 ≤ u → u ≤ 1 → c.evaluate u = .ok (.ok a)) ↔ ∀ q ∈ P, q = a := by
  constructor
  · intro h q hq
    funext r
    refine (C149_plane_iff hc hm (LinearMap.proj r) (a r)).mp ?_ q hq
    rintro v ⟨u, ⟨h0, h1⟩, hv⟩
    rw [h u h0 h1] at hv
    injection hv with hv; injection hv with hv; subst hv
    rfl
  · intro h u h0 h1
    obtain ⟨j, x, y, w, -, -, -, -, -, -, hw, -⟩ := C08_convex_hull hc h0 h1
    rw [hw]
    congr 2
    funext r
    exact (C149_plane_iff hc hm (LinearMap.proj r) (a r)).mpr (fun q hq => by rw [h q hq]; rfl) w ⟨u, ⟨h0, h1⟩, hw⟩

/-- **C149** A plane that contains no stretch of the curve meets it at no more than `p` parameters per knot span. -/
theorem C149_count {c : Curve K d} {p n : ℕ} {U : List K} {P : List (Pt K d)} (hc : ValidOn 0 1 c p n U P)
    (f : Pt K d →ₗ[K] K) (b : K)
    (hout : ∀ j x y, p ≤ j → j ≤ n → U[j]? = some x → U[j + 1]? = some y → x < y →
      ∃ q ∈ PolygonOn P (Set.Icc (j - p) j), f q ≠ b)
    (S : Finset K) (hS : ∀ u ∈ S, 0 ≤ u ∧ u ≤ 1 ∧ ∃ v, c.evaluate u = .ok (.ok v) ∧ f v = b) :
    S.card ≤ p * ((Finset.Icc p n).filter fun j => U.getD j 0 < U.getD (j + 1) 0).card := by
  classical
  have hU := hc.2.1
  have hcl := hU.clamp
  have hl := hU.length
  set J := (Finset.Icc p n).filter fun j => U.getD j 0 < U.getD (j + 1) 0 with hJ
  have hget : ∀ j, j ≤ n → U.getD j 0 = fn U j ∧ U.getD (j + 1) 0 = fn U (j + 1) := by
    intro j hj
    rw [fn_lt (by omega), fn_lt (by omega), List.getD_eq_getElem _ _ (by omega), List.getD_eq_getElem _ _ (by omega)]
    exact ⟨rfl, rfl⟩
  have hcover : S ⊆ J.biUnion fun j => S.filter fun u => IsSpan (fn U) n u j := by
    intro u hu
    obtain ⟨h0, h1, -⟩ := hS u hu
    obtain ⟨j, hj⟩ := hcl.exists_span h0 h1
    rw [Finset.mem_biUnion]
    refine ⟨j, ?_, Finset.mem_filter.mpr ⟨hu, hj⟩⟩
    rw [hJ, Finset.mem_filter, Finset.mem_Icc, (hget j hj.le_n).1, (hget j hj.le_n).2]
    exact ⟨⟨hj.p_le hcl, hj.le_n⟩, hj.lt hcl⟩
  refine (Finset.card_le_card hcover).trans (Finset.card_biUnion_le.trans ?_)
  rw [mul_comm, ← smul_eq_mul]
  refine Finset.sum_le_card_nsmul _ _ _ (fun j hj => ?_)
  rw [hJ, Finset.mem_filter, Finset.mem_Icc] at hj
  obtain ⟨⟨j1, j2⟩, j3⟩ := hj
  rw [(hget j j2).1, (hget j j2).2] at j3
  by_contra hcon
  have hx : U[j]? = some (fn U j) := by rw [fn_lt (by omega), List.getElem?_eq_getElem]
  have hy : U[j + 1]? = some (fn U (j + 1)) := by rw [fn_lt (by omega), List.getElem?_eq_getElem]
  obtain ⟨q, ⟨i, ⟨i1, i2⟩, hq⟩, hne⟩ := hout j _ _ j1 j2 hx hy j3
  refine hne (C149_piece hc f b j1 j2 hx hy j3 _ (not_le.mp hcon) ?_ ?_ i q i1 i2 hq)
  · intro u hu
    have hs := (Finset.mem_filter.mp hu).2
    refine ⟨hs.lo, ?_⟩
    rcases hs.hi with h | ⟨h, h'⟩
    · exact Or.inl h
    · exact Or.inr ⟨h, by rw [h', hcl.right _ (by omega)]⟩
  · intro u hu v hv
    obtain ⟨-, -, w, hw, hb⟩ := hS u (Finset.mem_filter.mp hu).1
    rw [hw] at hv
    injection hv with hv; injection hv with hv; subst hv
    exact hb

/-- non-vacuity: a curve of degree 2 with 4 control points satisfies the condition on the multiplicities; its
control points span the whole plane, and so does the curve -/
example : ∀ c, ValidOn 0 1 c 2 3 [0, 0, 0, 1 / 2, 1, 1, 1] ([![0, 0], ![1, 1], ![2, 0], ![3, 1]] : List (Pt ℚ 2)) →
    affineSpan ℚ (Trace c (Set.Icc 0 1)) =
      affineSpan ℚ {q | q ∈ ([![0, 0], ![1, 1], ![2, 0], ![3, 1]] : List (Pt ℚ 2))} := fun c hc => by
  refine C149_affine_span hc ?_
  intro x _ _
  have h : ∀ x ∈ ([0, 0, 0, 1 / 2, 1, 1, 1] : List ℚ), ([0, 0, 0, 1 / 2, 1, 1, 1] : List ℚ).count x ≤ 3 := by decide +kernel
  by_cases hx : x ∈ ([0, 0, 0, 1 / 2, 1, 1, 1] : List ℚ)
  · exact h x hx
  · rw [List.count_eq_zero_of_not_mem hx]; omega

/-- the condition on the multiplicities is needed: the second control point of this curve of degree 0 acts nowhere, so the
curve is a single point although the control points differ -/
example : ∃ c, ValidOn 0 1 c 0 2 [0, 1 / 2, 1 / 2, 1] ([![1], ![5], ![1]] : List (Pt ℚ 1)) ∧
    ∀ u, 0 ≤ u → u ≤ 1 → c.evaluate u = .ok (.ok ![1]) := by
  have hU : ClampedKnots (0 : ℚ) 1 0 2 [0, 1 / 2, 1 / 2, 1] := by decide +kernel
  refine ⟨_, validOn_canon hU rfl, ?_⟩
  intro u h0 h1
  obtain ⟨j, hj⟩ := hU.clamp.exists_span h0 h1
  have hjl := hj.lt hU.clamp
  have hjn := hj.le_n
  rw [Curve.evaluate, evaluateDerivative_eq hU rfl le_rfl h0 h1 hj]
  have : j = 0 ∨ j = 2 := by
    have h3 : j ≠ 1 := by rintro rfl; revert hjl; decide +kernel
    omega
  rcases this with rfl | rfl <;> rfl

/-- the bound of C149_count is attained: the parabola over a single span meets the line of height 3/8 twice -/
example : ∃ c, ValidOn 0 1 c 2 2 [0, 0, 0, 1, 1, 1] ([![0, 0], ![1, 1], ![2, 0]] : List (Pt ℚ 2)) ∧
    c.evaluate (1 / 4) = .ok (.ok ![1 / 2, 3 / 8]) ∧ c.evaluate (3 / 4) = .ok (.ok ![3 / 2, 3 / 8]) :=
  ⟨canon 2 [0, 0, 0, 1, 1, 1] [![0, 0], ![1, 1], ![2, 0]], validOn_canon (by decide +kernel) rfl, by decide +kernel, by decide +kernel⟩

end BSpline
