import Verif.Refine.MergeValue

/-!
# The computed shifts are the smallest that join the curves
-/

set_option linter.unusedSectionVars false

namespace BSpline

open Finset

variable {K : Type} [Field K] [LinearOrder K] [IsStrictOrderedRing K] {d : ℕ}

theorem getElem?_eq_fn_iff {α : Type} [Zero α] {l l' : List α} {i : ℕ} (h : i < l.length)
    (h' : i < l'.length) : l[i]? = l'[i]? ↔ fn l i = fn l' i := by
  rw [List.getElem?_eq_getElem h, List.getElem?_eq_getElem h', fn_lt h, fn_lt h', Option.some.injEq]

theorem getD_zero_eq_fn {l : List (Pt K d)} {i : ℕ} (h : i < l.length) : l.getD i 0 = fn l i := by
  rw [fn_lt h, List.getD_eq_getElem?_getD, List.getElem?_eq_getElem h]; rfl

/-- basis functions vanish outside of the domain -/
theorem nb_outside {p n : ℕ} {U : List K} (h : ClampedKnots 0 1 p n U) {u : K} (hu : u < 0 ∨ 1 < u)
    (i : ℕ) : nb p n U i u = 0 := by
  have hc := h.clamp
  have hb : base (fn U) n u = fun _ => 0 := by
    funext i
    rw [base, if_neg]
    rintro (⟨h1, h2⟩ | ⟨-, h1⟩)
    · have := hc.a_le i
      have := hc.le_b (i + 1)
      rcases hu with hu | hu <;> linarith
    · rw [hc.right (n + 1) le_rfl] at h1
      subst h1
      rcases hu with hu | hu
      · exact absurd (hu.trans zero_lt_one) (lt_irrefl _)
      · exact lt_irrefl _ hu
  rw [nb, Nf_eq_Bs _ (Nat.zero_le n), Nat.sub_zero, hb]
  have : ∀ q i, Bs (fn U) u (fun _ => 0) q i = 0 := by
    intro q
    induction q with
    | zero => intro i; rfl
    | succ q ih => intro i; simp only [Bs, ih, mul_zero, add_zero]
  exact this p i

theorem evaluate_out {c : Curve K d} {u : K} (hu : u < 0 ∨ 1 < u) :
    c.evaluate u = .ok (.error (.parameterOutOfBounds u 0 1)) := by
  rw [Curve.evaluate, Curve.evaluateDerivative, if_pos]
  · rfl
  · simp only [Cmp.le, Bool.not_eq_true', Bool.and_eq_false_iff, decide_eq_false_iff_not, not_le]
    exact hu

/-- two curves have the same point at `u` -/
theorem evaluate_eq_iff {p n : ℕ} {U : List K} {P P' : List (Pt K d)} (h : ClampedKnots 0 1 p n U)
    (hP : P.length = n + 1) (hP' : P'.length = n + 1) (u : K) :
    (canon p U P').evaluate u = (canon p U P).evaluate u ↔
      ∑ i ∈ range (n + 1), nb p n U i u • fn P' i = ∑ i ∈ range (n + 1), nb p n U i u • fn P i := by
  by_cases h0 : 0 ≤ u
  · by_cases h1 : u ≤ 1
    · rw [evaluate_sum h hP h0 h1, evaluate_sum h hP' h0 h1]
      constructor
      · intro e; injection e with e; injection e
      · intro e; rw [e]
    · have hu : u < 0 ∨ 1 < u := Or.inr (not_le.mp h1)
      simp only [evaluate_out hu, nb_outside h hu, zero_smul]
  · have hu : u < 0 ∨ 1 < u := Or.inl (not_le.mp h0)
    simp only [evaluate_out hu, nb_outside h hu, zero_smul]

theorem evalDeriv_end {p n k : ℕ} {U : List K} {P : List (Pt K d)} (h : ClampedKnots 0 1 p n U)
    (hP : P.length = n + 1) (hk : k ≤ p) :
    (canon p U P).evaluateDerivative 1 k = .ok (.ok (dpt (fn U) p (fn P) k (n - k))) := by
  rw [evaluateDerivative_eq h hP hk zero_le_one le_rfl (isSpan_end h.clamp), cv_end h.clamp hk]

theorem evalDeriv_start {p n k : ℕ} {U : List K} {P : List (Pt K d)} (h : ClampedKnots 0 1 p n U)
    (hP : P.length = n + 1) (hk : k ≤ p) :
    (canon p U P).evaluateDerivative 0 k = .ok (.ok (dpt (fn U) p (fn P) k 0)) := by
  rw [evaluateDerivative_eq h hP hk le_rfl zero_le_one (isSpan_start h.clamp), cv_start h.clamp hk]

section
variable {p m o : ℕ} {V W ua ub : List K} {S T S' T' : List (Pt K d)}

theorem built_canon {p n : ℕ} {U : List K} {P : List (Pt K d)} (h : ClampedKnots 0 1 p n U)
    (hP : P.length = n + 1) : Built (canon p U P) p U P :=
  mkCurve_ok hP h.le (by have := h.length; omega)

/-- `Joins` as linear conditions on the control points -/
theorem joins_iff (hV : ClampedKnots 0 1 p m V) (hW : ClampedKnots 0 1 p o W) (hS : S.length = m + 1)
    (hT : T.length = o + 1) (hS' : S'.length = m + 1) (hT' : T'.length = o + 1) :
    Joins p m o V W S T ua ub S' T' ↔
      (∀ i, i + p ≤ m → fn S' i = fn S i) ∧ (∀ j, p ≤ j → j ≤ o → fn T' j = fn T j) ∧
      (∀ k, k < p → dpt (fn V) p (fn S') k (m - k) = dpt (fn W) p (fn T') k 0) ∧
      (∀ g, g < ua.length → ∑ i ∈ range (m + 1), nb p m V i (fn ua g) • fn S' i =
        ∑ i ∈ range (m + 1), nb p m V i (fn ua g) • fn S i) ∧
      (∀ g, g < ub.length → ∑ i ∈ range (o + 1), nb p o W i (fn ub g) • fn T' i =
        ∑ i ∈ range (o + 1), nb p o W i (fn ub g) • fn T i) := by
  constructor
  · intro h
    refine ⟨fun i hi => ?_, fun j h1 h2 => ?_, fun k hk => ?_, fun g hg => ?_, fun g hg => ?_⟩
    · exact (getElem?_eq_fn_iff (by omega) (by omega)).mp (h.keepS i hi)
    · exact (getElem?_eq_fn_iff (by omega) (by omega)).mp (h.keepT j h1)
    · have := h.agree _ _ (built_canon hV hS') (built_canon hW hT') k hk
      rw [evalDeriv_end hV hS' hk.le, evalDeriv_start hW hT' hk.le] at this
      injection this with this; injection this
    · rw [fn_lt hg, ← evaluate_eq_iff hV hS hS']
      exact h.fixA _ _ (built_canon hV hS) (built_canon hV hS') _ (List.getElem_mem hg)
    · rw [fn_lt hg, ← evaluate_eq_iff hW hT hT']
      exact h.fixB _ _ (built_canon hW hT) (built_canon hW hT') _ (List.getElem_mem hg)
  · rintro ⟨h1, h2, h3, h4, h5⟩
    refine ⟨hS', hT', fun i hi => ?_, fun j hj => ?_, ?_, ?_, ?_⟩
    · exact (getElem?_eq_fn_iff (by omega) (by omega)).mpr (h1 i hi)
    · by_cases hjo : j ≤ o
      · exact (getElem?_eq_fn_iff (by omega) (by omega)).mpr (h2 j hj hjo)
      · rw [List.getElem?_eq_none (by omega), List.getElem?_eq_none (by omega)]
    · intro a' b' ha hb k hk
      rw [ha.eq_canon hV.length hV.le hS', hb.eq_canon hW.length hW.le hT', evalDeriv_end hV hS' hk.le,
        evalDeriv_start hW hT' hk.le, h3 k hk]
    · intro a a' ha ha' u hu
      rw [ha.eq_canon hV.length hV.le hS, ha'.eq_canon hV.length hV.le hS', evaluate_eq_iff hV hS hS']
      obtain ⟨g, hg, rfl⟩ := List.mem_iff_getElem.mp hu
      rw [← fn_lt hg]; exact h4 g hg
    · intro a a' ha ha' u hu
      rw [ha.eq_canon hW.length hW.le hT, ha'.eq_canon hW.length hW.le hT', evaluate_eq_iff hW hT hT']
      obtain ⟨g, hg, rfl⟩ := List.mem_iff_getElem.mp hu
      rw [← fn_lt hg]; exact h5 g hg

theorem joins_rows (hV : ClampedKnots 0 1 p m V) (hW : ClampedKnots 0 1 p o W) (hS : S.length = m + 1)
    (hT : T.length = o + 1) (h : Joins p m o V W S T ua ub S' T') :
    ∀ g, g < p + ua.length + ub.length → ∀ ρ, ∑ i ∈ range (p + p), conA p m o V W ua ub g i *
      zOf p m (fn S) (fn T) (fn S') (fn T') i ρ = conC p m V W S T g ρ := by
  obtain ⟨h1, h2, h3⟩ := (joins_iff hV hW hS hT h.lenS h.lenT).mp h
  exact (rows_iff hV hW h1 h2 rfl rfl).mpr h3

theorem fn_shiftL {x : List (Pt K d)} {i : ℕ} (hi : i ≤ m) : fn (shiftL p m S x) i =
    if i + p ≤ m then fn S i else fn S i + fn x (i - (m + 1 - p)) := fn_map_range _ (by omega)

theorem fn_shiftR {x : List (Pt K d)} {j : ℕ} (hj : j ≤ o) : fn (shiftR p o T x) j =
    if j < p then fn T j + fn x (p + j) else fn T j := fn_map_range _ (by omega)

theorem zOf_shift {x : List (Pt K d)} (hpm : p ≤ m) (hpo : p ≤ o) {i : ℕ} (hi : i < p + p) :
    zOf p m (fn S) (fn T) (fn (shiftL p m S x)) (fn (shiftR p o T x)) i = fn x i := by
  by_cases h : i < p
  · rw [zOf_left h, fn_shiftL (by omega), if_neg (by omega), add_sub_cancel_left]
    congr 1; omega
  · obtain ⟨j, rfl⟩ := Nat.exists_eq_add_of_le (not_lt.mp h)
    rw [zOf_right, fn_shiftR (by omega), if_pos (by omega), add_sub_cancel_left]

theorem shift_joins (hV : ClampedKnots 0 1 p m V) (hW : ClampedKnots 0 1 p o W) (hS : S.length = m + 1)
    (hT : T.length = o + 1) {x : List (Pt K d)}
    (h : ∀ g, g < p + ua.length + ub.length → ∀ ρ, ∑ i ∈ range (p + p), conA p m o V W ua ub g i *
      fn x i ρ = conC p m V W S T g ρ) :
    Joins p m o V W S T ua ub (shiftL p m S x) (shiftR p o T x) := by
  rw [joins_iff hV hW hS hT (by simp) (by simp)]
  have k1 : ∀ i, i + p ≤ m → fn (shiftL p m S x) i = fn S i := by
    intro i hi; rw [fn_shiftL (by omega), if_pos hi]
  have k2 : ∀ j, p ≤ j → j ≤ o → fn (shiftR p o T x) j = fn T j := by
    intro j h1 h2; rw [fn_shiftR h2, if_neg (by omega)]
  refine ⟨k1, k2, (rows_iff (ua := ua) (ub := ub) hV hW k1 k2 rfl rfl).mp ?_⟩
  intro g hg ρ
  rw [← h g hg ρ]
  apply sum_congr rfl
  intro i hi
  rw [zOf_shift hV.le hW.le (mem_range.mp hi)]

/-- total squared distance in terms of the moved points only -/
theorem moved_eq (hpm : p ≤ m) (hpo : p ≤ o) {A B A' B' : List (Pt K d)} (hA : A.length = m + 1)
    (hB : B.length = o + 1) (hA' : A'.length = m + 1) (hB' : B'.length = o + 1)
    (h1 : ∀ i, i + p ≤ m → fn A' i = fn A i) (h2 : ∀ j, p ≤ j → j ≤ o → fn B' j = fn B j) :
    moved A A' + moved B B' =
      ∑ ρ, ∑ i ∈ range (p + p), zOf p m (fn A) (fn B) (fn A') (fn B') i ρ ^ 2 := by
  have e1 : moved A A' = ∑ i ∈ range p, ∑ ρ, zOf p m (fn A) (fn B) (fn A') (fn B') i ρ ^ 2 := by
    rw [moved, hA, show m + 1 = m - p + 1 + p by omega, sum_range_add]
    have : ∑ i ∈ range (m - p + 1), sqDist (A'.getD i 0) (A.getD i 0) = 0 := by
      apply sum_eq_zero
      intro i hi
      rw [mem_range] at hi
      rw [getD_zero_eq_fn (by omega), getD_zero_eq_fn (by omega), h1 i (by omega)]
      simp [sqDist]
    rw [this, zero_add]
    apply sum_congr rfl
    intro i hi
    rw [mem_range] at hi
    rw [getD_zero_eq_fn (by omega), getD_zero_eq_fn (by omega), zOf_left hi]
    rfl
  have e2 : moved B B' = ∑ i ∈ range p, ∑ ρ, zOf p m (fn A) (fn B) (fn A') (fn B') (p + i) ρ ^ 2 := by
    rw [moved, hB]
    symm
    rw [← sum_subset (s₁ := range p) (s₂ := range (o + 1))]
    · apply sum_congr rfl
      intro i hi
      rw [mem_range] at hi
      rw [getD_zero_eq_fn (by omega), getD_zero_eq_fn (by omega), zOf_right]
      rfl
    · intro x hx; simp only [mem_range] at hx ⊢; omega
    · intro i hi hi'
      rw [mem_range] at hi hi'
      rw [getD_zero_eq_fn (by omega), getD_zero_eq_fn (by omega), h2 i (by omega) (by omega)]
      simp [sqDist]
  rw [e1, e2, sum_comm (s := univ), ← sum_range_add]

theorem sqDist_nonneg (x y : Pt K d) : 0 ≤ sqDist x y := sum_nonneg (fun _ _ => sq_nonneg _)

theorem moved_nonneg (P P' : List (Pt K d)) : 0 ≤ moved P P' :=
  sum_nonneg (fun _ _ => sum_nonneg (fun _ _ => sq_nonneg _))

theorem moved_eq_zero {P P' : List (Pt K d)} (hl : P'.length = P.length) (h : moved P P' = 0) :
    P' = P := by
  rw [moved, sum_eq_zero_iff_of_nonneg (fun _ _ => sqDist_nonneg _ _)] at h
  apply ext_fn hl
  intro i hi
  have := h i (mem_range.mpr (by omega))
  rw [sqDist, sum_eq_zero_iff_of_nonneg (fun _ _ => sq_nonneg _)] at this
  funext r
  have := this r (mem_univ r)
  rw [sq_eq_zero_iff, sub_eq_zero, getD_zero_eq_fn hi, getD_zero_eq_fn (by omega)] at this
  exact this

theorem moved_self (P : List (Pt K d)) : moved P P = 0 := by
  rw [moved]; apply sum_eq_zero; intro i _; simp [sqDist]

/-- with an exact solver the shifted control points join the curves whenever this is possible, and
every other way to join them moves the control points further -/
theorem shifts_join {solver : Solver K d} (hs : solver.Exact) (h1 : 1 ≤ p)
    (hV : ClampedKnots 0 1 p m V) (hW : ClampedKnots 0 1 p o W) (hS : S.length = m + 1)
    (hT : T.length = o + 1) (hf : ∃ S' T', Joins p m o V W S T ua ub S' T') :
    Joins p m o V W S T ua ub (shiftL p m S (shiftsOf solver p m o V W ua ub S T))
      (shiftR p o T (shiftsOf solver p m o V W ua ub S T)) ∧
    ∀ S'' T'', Joins p m o V W S T ua ub S'' T'' →
      moved S S'' + moved T T'' =
        moved S (shiftL p m S (shiftsOf solver p m o V W ua ub S T)) +
          moved T (shiftR p o T (shiftsOf solver p m o V W ua ub S T)) +
        (moved (shiftL p m S (shiftsOf solver p m o V W ua ub S T)) S'' +
          moved (shiftR p o T (shiftsOf solver p m o V W ua ub S T)) T'') := by
  obtain ⟨S₀, T₀, h0⟩ := hf
  obtain ⟨a1, a2⟩ := shifts_min hs h1 hV hW (joins_rows hV hW hS hT h0)
  set x := shiftsOf solver p m o V W ua ub S T with hx
  have hj := shift_joins hV hW hS hT a1
  refine ⟨hj, ?_⟩
  intro S'' T'' h''
  obtain ⟨b1, b2, -⟩ := (joins_iff hV hW hS hT hj.lenS hj.lenT).mp hj
  obtain ⟨c1, c2, -⟩ := (joins_iff hV hW hS hT h''.lenS h''.lenT).mp h''
  rw [moved_eq hV.le hW.le hS hT h''.lenS h''.lenT c1 c2, moved_eq hV.le hW.le hS hT hj.lenS hj.lenT b1 b2,
    moved_eq hV.le hW.le hj.lenS hj.lenT h''.lenS h''.lenT (fun i hi => by rw [c1 i hi, b1 i hi])
      (fun j k1 k2 => by rw [c2 j k1 k2, b2 j k1 k2]), ← sum_add_distrib]
  apply sum_congr rfl
  intro ρ _
  obtain ⟨w, hw⟩ := a2 ρ
  have := minNorm_eq (r := p + ua.length + ub.length) (N := p + p) (A := conA p m o V W ua ub)
    (c := fun g => conC p m V W S T g ρ) (δ := fun i => fn x i ρ) (w := w)
    (z := fun i => zOf p m (fn S) (fn T) (fn S'') (fn T'') i ρ) hw (fun g hg => a1 g hg ρ)
    (fun g hg => joins_rows hV hW hS hT h'' g hg ρ)
  rw [this]
  congr 1
  · apply sum_congr rfl
    intro i hi
    rw [zOf_shift hV.le hW.le (mem_range.mp hi)]
  · apply sum_congr rfl
    intro i hi
    rw [mem_range] at hi
    congr 1
    rw [← zOf_shift (S := S) (T := T) (x := x) hV.le hW.le hi]
    simp only [zOf]
    split
    · simp only [Pi.sub_apply]; ring
    · simp only [Pi.sub_apply]; ring

/-! ### Existence -/

/-- triangular systems are solvable -/
theorem triangular {N p : ℕ} (hp : p ≤ N) {C : ℕ → ℕ → K} (h1 : ∀ k, k < p → C k k ≠ 0)
    (h0 : ∀ k z, k < p → k < z → C k z = 0) (c : ℕ → Pt K d) (X : ℕ → Pt K d) :
    ∃ X' : ℕ → Pt K d, (∀ z, p ≤ z → X' z = X z) ∧
      ∀ k, k < p → ∑ z ∈ range N, C k z • X' z = c k := by
  have : ∀ r, r ≤ p → ∃ X' : ℕ → Pt K d, (∀ z, p ≤ z → X' z = X z) ∧
      ∀ k, k < r → ∑ z ∈ range N, C k z • X' z = c k := by
    intro r
    induction r with
    | zero => intro _; exact ⟨X, fun _ _ => rfl, fun k hk => absurd hk (by omega)⟩
    | succ r ih =>
      intro hr
      obtain ⟨Y, hY, hYk⟩ := ih (by omega)
      let v : Pt K d := Y r + (C r r)⁻¹ • (c r - ∑ z ∈ range N, C r z • Y z)
      refine ⟨Function.update Y r v, fun z hz => ?_, fun k hk => ?_⟩
      · rw [Function.update_of_ne (by omega), hY z hz]
      · have hr' : r ∈ range N := mem_range.mpr (by omega)
        have e : ∑ z ∈ range N, C k z • Function.update Y r v z =
            ∑ z ∈ range N, C k z • Y z + C k r • (v - Y r) := by
          rw [← add_sum_erase _ (fun z => C k z • Function.update Y r v z) hr',
            ← add_sum_erase _ (fun z => C k z • Y z) hr',
            Function.update_self]
          have : ∑ z ∈ (range N).erase r, C k z • Function.update Y r v z =
              ∑ z ∈ (range N).erase r, C k z • Y z := by
            apply sum_congr rfl
            intro z hz
            rw [Function.update_of_ne (ne_of_mem_erase hz)]
          rw [this]
          module
        rw [e]
        rcases Nat.lt_succ_iff_lt_or_eq.mp hk with h | rfl
        · rw [h0 k r (by omega) h, zero_smul, add_zero, hYk k h]
        · simp only [v, add_sub_cancel_left]
          rw [smul_smul, mul_inv_cancel₀ (h1 k (by omega)), one_smul]
          abel
  exact this p le_rfl

theorem pf_start_ne {W : ℕ → K} {p o : ℕ} (h : Clamp W p o 0 1) (k : ℕ) :
    ∀ i, i + k ≤ p → pf W p o (i + k) k i ≠ 0 := by
  have hp := h.le
  induction k with
  | zero =>
    intro i hi
    simp only [pf, Nat.add_zero]
    rw [if_pos (by omega)]; simp
  | succ k ih =>
    intro i hi
    have h1 : W (i + (k + 1)) = 0 := h.left _ hi
    have h2 : 0 < W (i + p + 1) := h.a_lt (by omega)
    simp only [pf]
    rw [if_pos (by omega), pf_support W p o (i + (k + 1)) k i (by omega), sub_zero,
      show i + (k + 1) = i + 1 + k by omega]
    rw [show i + (k + 1) = i + 1 + k by omega] at h1
    have h3 : Cmp.eq (W (i + p + 1)) (W (i + 1 + k)) = false := by
      simp only [Cmp.eq, decide_eq_false_iff_not]; rw [h1]; exact h2.ne'
    rw [h3]
    simp only [Bool.false_eq_true, if_false]
    refine mul_ne_zero (div_ne_zero ?_ ?_) (ih (i + 1) (by omega))
    · exact Nat.cast_ne_zero.mpr (by omega)
    · rw [h1, sub_zero]; exact h2.ne'

theorem pf_end_ne {V : ℕ → K} {p m : ℕ} (h : Clamp V p m 0 1) (i : ℕ) (hi : m ≤ i + p) (k : ℕ) :
    i + k ≤ m → k ≤ p → pf V p m i k i ≠ 0 := by
  have hp := h.le
  induction k with
  | zero =>
    intro hi _
    simp only [pf]
    rw [if_pos (by omega)]; simp
  | succ k ih =>
    intro hk hkp
    have h1 : V (i + (k + 1)) < 1 := h.lt_b hk
    have h2 : V (i + p + 1) = 1 := h.right _ (by omega)
    simp only [pf]
    rw [if_pos (by omega), pf_support V p m i k (i + 1) (by omega), zero_sub]
    have h3 : Cmp.eq (V (i + p + 1)) (V (i + (k + 1))) = false := by
      simp only [Cmp.eq, decide_eq_false_iff_not]; rw [h2]; exact h1.ne'
    rw [h3]
    simp only [Bool.false_eq_true, if_false]
    refine mul_ne_zero (div_ne_zero ?_ ?_) (neg_ne_zero.mpr (ih (by omega) (by omega)))
    · exact Nat.cast_ne_zero.mpr (by omega)
    · rw [h2]; exact (sub_pos.mpr h1).ne'

theorem exists_list (n : ℕ) (X : ℕ → Pt K d) :
    ∃ P : List (Pt K d), P.length = n + 1 ∧ ∀ i, i ≤ n → fn P i = X i :=
  ⟨(List.range (n + 1)).map X, by simp, fun i hi => fn_map_range _ (by omega)⟩

/-- if the right curve has no constraints it can be moved to fit the left one -/
theorem joins_exists_right (hV : ClampedKnots 0 1 p m V) (hW : ClampedKnots 0 1 p o W)
    (hS : S.length = m + 1) (hT : T.length = o + 1) (ua : List K) :
    ∃ S' T', Joins p m o V W S T ua [] S' T' := by
  have hpo := hW.le
  obtain ⟨X, hX, hXk⟩ := triangular (N := o + 1) (p := p) (by omega)
    (C := fun k z => pf (fn W) p o z k 0)
    (fun k hk => by simpa using pf_start_ne hW.clamp k 0 (by omega))
    (fun k z hk hz => pf_support _ _ _ _ _ _ (by omega))
    (fun k => dpt (fn V) p (fn S) k (m - k)) (fn T)
  obtain ⟨T', hT', hfn⟩ := exists_list o X
  refine ⟨S, T', (joins_iff hV hW hS hT hS hT').mpr ⟨fun _ _ => rfl, fun j h1 h2 => ?_, fun k hk => ?_,
    fun _ _ => rfl, fun g hg => absurd hg (by simp)⟩⟩
  · rw [hfn j h2, hX j h1]
  · rw [dpt_eq_sum (n := o) (fn W) (fn T') k 0 hk.le (by omega), ← hXk k hk]
    apply sum_congr rfl
    intro z hz
    rw [mem_range] at hz
    rw [hfn z (by omega)]

/-- if the left curve has no constraints it can be moved to fit the right one -/
theorem joins_exists_left (hV : ClampedKnots 0 1 p m V) (hW : ClampedKnots 0 1 p o W)
    (hS : S.length = m + 1) (hT : T.length = o + 1) (ub : List K) :
    ∃ S' T', Joins p m o V W S T [] ub S' T' := by
  have hpm := hV.le
  obtain ⟨X, hX, hXk⟩ := triangular (N := m + 1) (p := p) (by omega)
    (C := fun k z => pf (fn V) p m (m - z) k (m - k))
    (fun k hk => by
      simpa using pf_end_ne hV.clamp (m - k) (by omega) k (by omega) hk.le)
    (fun k z hk hz => pf_support _ _ _ _ _ _ (by omega))
    (fun k => dpt (fn W) p (fn T) k 0) (fun z => fn S (m - z))
  obtain ⟨S', hS', hfn⟩ := exists_list m (fun i => X (m - i))
  refine ⟨S', T, (joins_iff hV hW hS hT hS' hT).mpr ⟨fun i hi => ?_, fun _ _ _ => rfl, fun k hk => ?_,
    fun g hg => absurd hg (by simp), fun _ _ => rfl⟩⟩
  · rw [hfn i (by omega), hX _ (by omega)]
    congr 1; omega
  · rw [dpt_eq_sum (n := m) (fn V) (fn S') k (m - k) hk.le (by omega), ← hXk k hk]
    rw [← sum_range_reflect]
    apply sum_congr rfl
    intro z hz
    rw [mem_range] at hz
    rw [show m + 1 - 1 - z = m - z by omega, hfn (m - z) (by omega), show m - (m - z) = z by omega]

end

end BSpline
