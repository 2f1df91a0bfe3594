import Verif.Props.Interpolate
import Mathlib.LinearAlgebra.Matrix.Determinant.Basic

/-!
# Exactly when interpolation is possible: C91
-/

set_option linter.unusedSectionVars false

namespace BSpline

open Finset

variable {K : Type} [Field K] [LinearOrder K] [IsStrictOrderedRing K] {d : ℕ}

/-! ### Where a basis function is not zero -/

section Support

variable {p n : ℕ} {U : List K} (hU : ClampedKnots 0 1 p n U)

include hU

/-- at the end of the domain only the last basis function is not zero -/
theorem nb_one {i : ℕ} (hi : i ≤ n) : nb p n U i 1 = if i = n then 1 else 0 := by
  have hc := hU.clamp
  have hs : IsSpan (fn U) n 1 n := ⟨le_rfl, (hc.lt_b le_rfl).le, Or.inr ⟨rfl, (hc.right _ le_rfl).symm⟩⟩
  have hP : ((List.range (n + 1)).map fun (m : ℕ) (_ : Fin 1) => if i = m then (1 : K) else 0).length = n + 1 := by
    simp
  have h1 := (C07_endpoints (validOn_canon hU hP)
    (first := fun _ => if i = 0 then 1 else 0) (last := fun _ => if i = n then 1 else 0)
    (by simp [List.range_succ_eq_map]) (by
    rw [List.getLast?_eq_getElem?, hP, Nat.add_sub_cancel, List.getElem?_map, List.getElem?_range (by omega)]
    rfl)).2
  rw [evaluate_sum hU hP zero_le_one le_rfl] at h1
  injection h1 with h1; injection h1 with h1
  have h2 := congrFun h1 0
  rw [Finset.sum_apply, Finset.sum_eq_single i] at h2
  · rw [Pi.smul_apply, smul_eq_mul, fn_map_range _ (by omega), if_pos rfl, mul_one] at h2
    exact h2
  · intro m hm hmi
    rw [Pi.smul_apply, smul_eq_mul, fn_map_range _ (mem_range.mp hm), if_neg (Ne.symm hmi), mul_zero]
  · intro h; exact absurd (mem_range.mpr (by omega)) h

/-- a basis function that is not zero at a parameter below the end has the span in its support, and either the
parameter is above its first knot or the function starts with a jump there -/
theorem nb_ne_zero {i j : ℕ} {x : K} (h1 : x < 1) (hs : IsSpan (fn U) n x j) (h : nb p n U i x ≠ 0) :
    i ≤ j ∧ j ≤ i + p ∧ x < fn U (j + 1) ∧ (fn U i < x ∨ (j = i + p ∧ fn U i = x)) := by
  have hc := hU.clamp
  rw [nb_eq_Bs hU hs] at h
  have hhi : x < fn U (j + 1) := by
    rcases hs.hi with h2 | ⟨-, h2⟩
    · exact h2
    · rw [hc.right _ le_rfl] at h2; exact absurd h2 h1.ne
  have h3 : i ≤ j ∧ j ≤ i + p := by
    by_contra hcon
    exact h (Bs_support _ _ _ _ _ (by omega))
  refine ⟨h3.1, h3.2, hhi, ?_⟩
  rcases lt_or_ge (fn U i) x with h4 | h4
  · exact Or.inl h4
  · refine Or.inr ⟨?_, le_antisymm ((hc.mono h3.1).trans hs.lo) h4⟩
    by_contra hne
    exact h (Bs_zero_at_knot hc.mono hs.lo p i h4 (by omega))

theorem nb_ne_zero_of_inside {i : ℕ} {x : K} (hl : fn U i < x) (hr : x < fn U (i + p + 1)) :
    nb p n U i x ≠ 0 := by
  have hc := hU.clamp
  have h1 : x < 1 := hr.trans_le (hc.le_b _)
  obtain ⟨j, hs⟩ := hc.exists_span ((hc.a_le i).trans hl.le) h1.le
  rw [nb_eq_Bs hU hs]
  have hhi : x < fn U (j + 1) := by
    rcases hs.hi with h2 | ⟨-, h2⟩
    · exact h2
    · rw [hc.right _ le_rfl] at h2; exact absurd h2 h1.ne
  refine (Bs_pos hc.mono hs.lo hhi p i ?_ ?_ hl).ne'
  · by_contra hcon
    exact absurd (hhi.trans_le (hc.mono (show j + 1 ≤ i by omega))) (not_lt.mpr hl.le)
  · by_contra hcon
    exact absurd (hr.trans_le (hc.mono (show i + p + 1 ≤ j by omega))) (not_lt.mpr hs.lo)

/-- the kernel of a collocation matrix without zeros on the diagonal -/
theorem kernel_of_diagonal {τ : ℕ → K} (hτ : ∀ i j, i < j → j ≤ n → τ i < τ j)
    (hb : ∀ i, i ≤ n → 0 ≤ τ i ∧ τ i ≤ 1) (hd : ∀ i, i ≤ n → nb p n U i (τ i) ≠ 0) {c : ℕ → K}
    (h0 : ∀ g, g ≤ n → ∑ i ∈ range (n + 1), nb p n U i (τ g) * c i = 0) : ∀ i, i ≤ n → c i = 0 := by
  have hc := hU.clamp
  have hv : ∀ i, i ≤ n → Vanishes (fn U) p n c (τ i) := fun i hi => vanishes_of_sum hU (h0 i hi)
  have key : ∀ i, i ≤ n → c i ≠ 0 → Act (fn U) p i (τ i) ∧ NoFull (fn U) p (τ i) := by
    intro i hi hci
    rcases (hb i hi).2.lt_or_eq with h1 | h1
    · obtain ⟨j, hs⟩ := hc.exists_span (hb i hi).1 h1.le
      obtain ⟨h2, h3, h4, h5⟩ := nb_ne_zero hU h1 hs (hd i hi)
      rcases h5 with h5 | ⟨h5, h6⟩
      · refine ⟨⟨h5, h4.trans_le (hc.mono (by omega))⟩, ?_⟩
        rintro q ⟨e1, e2⟩
        have h6 : i < q := by
          by_contra hcon
          have := hc.mono (show q ≤ i by omega)
          rw [e1] at this
          exact absurd h5 (not_lt.mpr this)
        have h7 : q + p ≤ j := by
          by_contra hcon
          have := hc.mono (show j + 1 ≤ q + p by omega)
          rw [e2] at this
          exact absurd h4 (not_lt.mpr this)
        omega
      · exfalso
        apply hci
        have h7 := hv i hi j hs
        have hw := win_of_span hc.mono (hs.p_le hc) (hs.lt hc)
        have h8 := bl_dual (P := c) p (i := 0) (by omega) hw
        have e : knotsFrom (fn U) (j - p + 0 + 1) p = List.replicate p (τ i) := by
          rw [List.eq_replicate_iff]
          refine ⟨by simp, ?_⟩
          intro z hz
          simp only [knotsFrom, List.mem_map, List.mem_range'_1] at hz
          obtain ⟨m, hm, rfl⟩ := hz
          exact le_antisymm ((hc.mono (show m ≤ j by omega)).trans hs.lo)
            (h6.symm.le.trans (hc.mono (show i ≤ m by omega)))
        rw [e, h7, show j - p + 0 = i by omega] at h8
        exact h8.symm
    · exfalso
      have h2 := hd i hi
      rw [h1, nb_one hU hi] at h2
      split at h2
      · rename_i h3
        subst h3
        exact hci (coef_zero_right hc (h1 ▸ hv i hi))
      · exact h2 rfl
  exact schoenberg_whitney_core hc τ hτ (fun i h1 h2 => (key i h1 h2).1) (fun i h1 h2 => (key i h1 h2).2) hv

end Support

/-- a block of zeros that reaches over the diagonal makes a determinant zero -/
theorem det_zero_of_block {n : ℕ} (A : Matrix (Fin (n + 1)) (Fin (n + 1)) K) (R C : Finset (Fin (n + 1)))
    (h : ∀ g ∈ R, ∀ k ∈ C, A g k = 0) (hcard : n + 1 < R.card + C.card) : A.det = 0 := by
  rw [Matrix.det_apply]
  apply Finset.sum_eq_zero
  intro σ _
  have : ∃ k ∈ C, σ k ∈ R := by
    by_contra hcon
    push Not at hcon
    have hdis : Disjoint (C.image σ) R := by
      rw [Finset.disjoint_left]
      intro x hx
      obtain ⟨k, hk, rfl⟩ := Finset.mem_image.mp hx
      exact hcon k hk
    have h1 := Finset.card_le_univ (C.image σ ∪ R)
    rw [Finset.card_union_of_disjoint hdis, Finset.card_image_of_injective _ σ.injective, Fintype.card_fin] at h1
    omega
  obtain ⟨k, hk, hR⟩ := this
  have h0 : ∏ i, A (σ i) i = 0 := Finset.prod_eq_zero (Finset.mem_univ k) (h _ hR k hk)
  rw [h0, smul_zero]

/-- a zero on the diagonal of the collocation matrix makes it singular -/
theorem singular_of_diagonal {p n : ℕ} {U : List K} (hU : ClampedKnots 0 1 p n U) {τ : ℕ → K}
    (hτ : ∀ i j, i < j → j ≤ n → τ i < τ j) (hb : ∀ i, i ≤ n → 0 ≤ τ i ∧ τ i ≤ 1)
    (A : Matrix (Fin (n + 1)) (Fin (n + 1)) K) (hA : ∀ g i : Fin (n + 1), A g i = nb p n U i (τ g))
    {i : Fin (n + 1)} (hi : A i i = 0) : A.det = 0 := by
  have hc := hU.clamp
  have hin : (i : ℕ) ≤ n := by omega
  have hmono : ∀ g k : Fin (n + 1), g ≤ k → τ g ≤ τ k := by
    intro g k hgk
    rcases Nat.lt_or_ge g k with h | h
    · exact (hτ g k h (by omega)).le
    · rw [show g = k from Fin.ext (le_antisymm hgk h)]
  have hi' : nb p n U i (τ i) = 0 := by rw [← hA]; exact hi
  -- a basis function without support
  rcases Nat.lt_or_ge i n with hlt | hge
  swap
  · -- the last function: every parameter lies at or before its first knot
    have hin' : (i : ℕ) = n := by omega
    have h1 : τ i < 1 := by
      rcases (hb i hin).2.lt_or_eq with h | h
      · exact h
      · rw [h, nb_one hU hin, if_pos hin'] at hi'
        exact absurd hi' one_ne_zero
    have h2 : τ i ≤ fn U i := by
      by_contra hcon
      refine nb_ne_zero_of_inside hU (not_le.mp hcon) ?_ hi'
      rw [hc.right _ (by omega)]; exact h1
    refine det_zero_of_block A univ {i} (fun g _ k hk => ?_) (by simp)
    rw [Finset.mem_singleton] at hk
    subst hk
    rw [hA]
    by_contra hne
    have h3 : τ g ≤ τ k := hmono g k (by rw [Fin.le_def]; omega)
    obtain ⟨j, hs⟩ := hc.exists_span (hb g (by omega)).1 (hb g (by omega)).2
    obtain ⟨a1, a2, a3, a4⟩ := nb_ne_zero hU (h3.trans_lt h1) hs hne
    rcases a4 with a4 | ⟨a4, a5⟩
    · exact absurd (h3.trans h2) (not_le.mpr a4)
    · have e : τ g = τ k := le_antisymm h3 (h2.trans a5.le)
      rw [e] at hne
      exact hne hi'
  by_cases hdeg : fn U i = fn U (i + p + 1)
  · refine det_zero_of_block A univ {i} (fun g _ k hk => ?_) (by simp)
    rw [Finset.mem_singleton] at hk
    subst hk
    rw [hA]
    by_contra hne
    have h1 : τ g < 1 := by
      rcases (hb g (by omega)).2.lt_or_eq with h | h
      · exact h
      · rw [h, nb_one hU hin, if_neg (by omega)] at hne
        exact absurd rfl hne
    obtain ⟨j, hs⟩ := hc.exists_span (hb g (by omega)).1 h1.le
    obtain ⟨a1, a2, a3, a4⟩ := nb_ne_zero hU h1 hs hne
    have a5 : fn U (j + 1) ≤ fn U (k + p + 1) := hc.mono (by omega)
    have a6 : fn U k ≤ τ g := by rcases a4 with h | h; exacts [h.le, h.2.le]
    rw [hdeg] at a6
    exact absurd (a3.trans_le a5) (not_lt.mpr a6)
  have hnd : fn U i < fn U (i + p + 1) := lt_of_le_of_ne (hc.mono (by omega)) hdeg
  have hcase : τ i ≤ fn U i ∨ fn U (i + p + 1) ≤ τ i := by
    by_contra hcon
    push Not at hcon
    exact nb_ne_zero_of_inside hU hcon.1 hcon.2 hi'
  rcases hcase with h1 | h1
  · -- the rows up to `i` and the columns from `i`
    refine det_zero_of_block A (Finset.Iic i) (Finset.Ici i) (fun g hg k hk => ?_) ?_
    · rw [Finset.mem_Iic] at hg
      rw [Finset.mem_Ici] at hk
      rw [hA]
      by_contra hne
      have h2 : τ g ≤ τ i := hmono g i hg
      have h3 : fn U i ≤ fn U k := hc.mono hk
      have h4 : τ g < 1 := (h2.trans h1).trans_lt (hnd.trans_le (hc.le_b _))
      obtain ⟨j, hs⟩ := hc.exists_span (hb g (by omega)).1 h4.le
      obtain ⟨a1, a2, a3, a4⟩ := nb_ne_zero hU h4 hs hne
      rcases a4 with a4 | ⟨a4, a5⟩
      · exact absurd ((h2.trans h1).trans h3) (not_le.mpr a4)
      · rcases Nat.lt_or_ge i k with h5 | h5
        · -- more than `p + 1` equal knots from `i` on
          have a6 : fn U (i + p + 1) ≤ fn U j := hc.mono (by omega)
          have a7 := a6.trans (hs.lo.trans (h2.trans h1))
          exact absurd hnd (not_lt.mpr a7)
        · have e : k = i := Fin.ext (le_antisymm h5 hk)
          rw [e] at a5 hne
          rw [le_antisymm h2 (h1.trans a5.le)] at hne
          exact hne hi'
    · rw [Fin.card_Iic, Fin.card_Ici]
      omega
  · -- the rows from `i` and the columns up to `i`
    refine det_zero_of_block A (Finset.Ici i) (Finset.Iic i) (fun g hg k hk => ?_) ?_
    · rw [Finset.mem_Ici] at hg
      rw [Finset.mem_Iic] at hk
      rw [hA]
      by_contra hne
      have h2 : τ i ≤ τ g := hmono i g hg
      have h3 : fn U (k + p + 1) ≤ fn U (i + p + 1) := hc.mono (by have : (k : ℕ) ≤ i := hk; omega)
      rcases (hb g (by omega)).2.lt_or_eq with h4 | h4
      · obtain ⟨j, hs⟩ := hc.exists_span (hb g (by omega)).1 h4.le
        obtain ⟨a1, a2, a3, a4⟩ := nb_ne_zero hU h4 hs hne
        have a5 : fn U (j + 1) ≤ fn U (k + p + 1) := hc.mono (by omega)
        exact absurd (a3.trans_le (a5.trans (h3.trans (h1.trans h2)))) (lt_irrefl _)
      · have hk' : (k : ℕ) ≤ i := hk
        rw [h4, nb_one hU (by omega), if_neg (by omega)] at hne
        exact hne rfl
    · rw [Fin.card_Iic, Fin.card_Ici]
      omega

/-- **C91** For all clamped knots, of any multiplicities, and increasing parameters in `[0, 1]`: the matrix of
the values of the basis functions is regular if and only if it has no zero on its diagonal, that is, if and
only if the `i`-th basis function does not vanish at the `i`-th parameter. -/
theorem C91_regular_iff {p n : ℕ} {U : List K} {kn : Knots K} (hU : ClampedKnots 0 1 p n U)
    (hk : Knots.new p U = .ok kn) {τ : ℕ → K} (hτ : ∀ i j, i < j → j ≤ n → τ i < τ j)
    (hb : ∀ i, i ≤ n → 0 ≤ τ i ∧ τ i ≤ 1) (A : Matrix (Fin (n + 1)) (Fin (n + 1)) K)
    (hA : ∀ g i : Fin (n + 1), kn.evaluate 0 i p (τ g) = .ok (A g i)) :
    A.det ≠ 0 ↔ ∀ i, A i i ≠ 0 := by
  obtain ⟨-, rfl⟩ := knots_new_inv hk
  have hA' : ∀ g i : Fin (n + 1), A g i = nb p n U i (τ g) := by
    intro g i
    have := hA g i
    rw [nb_ok hU.length hU.le (by omega)] at this
    injection this with this
    exact this.symm
  constructor
  · intro hdet i hi
    exact hdet (singular_of_diagonal hU hτ hb A hA' hi)
  · intro hd hdet
    obtain ⟨v, hv, h0⟩ := Matrix.exists_mulVec_eq_zero_iff.mpr hdet
    apply hv
    have key := kernel_of_diagonal hU hτ hb (fun i hi => by
        have := hd ⟨i, by omega⟩
        rwa [hA'] at this)
      (c := fun i => if hi : i < n + 1 then v ⟨i, hi⟩ else 0) (by
      intro g hg
      have h1 := congrFun h0 ⟨g, by omega⟩
      rw [Matrix.mulVec, dotProduct, Pi.zero_apply] at h1
      rw [← Fin.sum_univ_eq_sum_range (fun i => nb p n U i (τ g) *
        (if hi : i < n + 1 then v ⟨i, hi⟩ else 0)) (n + 1), ← h1]
      apply sum_congr rfl
      intro i _
      rw [dif_pos i.2, hA'])
    funext i
    have := key i (by omega)
    rwa [dif_pos i.2] at this

/-- **C91** A curve over given knots is determined by its values at increasing parameters if and only if no basis
function vanishes at its parameter. -/
theorem C91_determined_iff [NeZero d] {p n : ℕ} {U : List K} {kn : Knots K} (hU : ClampedKnots 0 1 p n U)
    (hk : Knots.new p U = .ok kn) {τ : ℕ → K} (hτ : ∀ i j, i < j → j ≤ n → τ i < τ j)
    (hb : ∀ i, i ≤ n → 0 ≤ τ i ∧ τ i ≤ 1) :
    (∀ (c c' : Curve K d) (P P' : List (Pt K d)), ValidOn 0 1 c p n U P → ValidOn 0 1 c' p n U P' →
      (∀ g, g ≤ n → c.evaluate (τ g) = c'.evaluate (τ g)) → P = P') ↔
    ∀ i, i ≤ n → kn.evaluate 0 i p (τ i) ≠ .ok 0 := by
  obtain ⟨-, rfl⟩ := knots_new_inv hk
  have hev : ∀ i, i ≤ n → ∀ x, (canonKnots p U).evaluate 0 i p x = .ok (nb p n U i x) :=
    fun i hi x => nb_ok hU.length hU.le hi x
  constructor
  · intro h i hi h0
    rw [hev i hi] at h0
    injection h0 with h0
    let A : Matrix (Fin (n + 1)) (Fin (n + 1)) K := fun g k => nb p n U k (τ g)
    have hdet : A.det = 0 := singular_of_diagonal hU hτ hb A (fun _ _ => rfl) (i := ⟨i, by omega⟩) h0
    obtain ⟨v, hv, h1⟩ := Matrix.exists_mulVec_eq_zero_iff.mpr hdet
    apply hv
    let P : List (Pt K d) := (List.range (n + 1)).map fun i _ => if hi : i < n + 1 then v ⟨i, hi⟩ else 0
    let P' : List (Pt K d) := (List.range (n + 1)).map fun _ _ => 0
    have hP : P.length = n + 1 := by simp [P]
    have hP' : P'.length = n + 1 := by simp [P']
    have e := h _ _ P P' (validOn_canon hU hP) (validOn_canon hU hP') (by
      intro g hg
      rw [evaluate_sum hU hP (hb g hg).1 (hb g hg).2, evaluate_sum hU hP' (hb g hg).1 (hb g hg).2]
      congr 2
      funext ρ
      rw [Finset.sum_apply, Finset.sum_apply]
      have h2 := congrFun h1 ⟨g, by omega⟩
      rw [Matrix.mulVec, dotProduct, Pi.zero_apply] at h2
      rw [← Fin.sum_univ_eq_sum_range (fun i => (nb p n U i (τ g) • fn P i) ρ) (n + 1)]
      rw [Finset.sum_eq_zero (s := range (n + 1)), ← h2]
      · apply sum_congr rfl
        intro k _
        rw [Pi.smul_apply, smul_eq_mul, fn_map_range _ k.2, dif_pos k.2]
      · intro k hk
        rw [Pi.smul_apply, smul_eq_mul, fn_map_range _ (mem_range.mp hk), mul_zero])
    funext k
    have e2 := congrFun (congrArg (fun l => fn l k) e) 0
    simp only [P, P'] at e2
    rw [fn_map_range _ k.2, fn_map_range _ k.2, dif_pos k.2] at e2
    exact e2
  · intro h c c' P P' hc hc' heq
    obtain rfl := hc.eq_canon
    obtain rfl := hc'.eq_canon
    obtain ⟨-, -, hP⟩ := hc
    obtain ⟨-, -, hP'⟩ := hc'
    apply ext_fn (hP.trans hP'.symm)
    intro i hi
    funext ρ
    rw [← sub_eq_zero]
    refine kernel_of_diagonal hU hτ hb (fun i hi h0 => h i hi ?_) (c := fun i => fn P i ρ - fn P' i ρ) ?_ i (by omega)
    · rw [hev i hi, h0]
    intro g hg
    have h1 := heq g hg
    rw [evaluate_sum hU hP (hb g hg).1 (hb g hg).2, evaluate_sum hU hP' (hb g hg).1 (hb g hg).2] at h1
    injection h1 with h1; injection h1 with h1
    have h2 := congrFun h1 ρ
    rw [Finset.sum_apply, Finset.sum_apply] at h2
    simp only [mul_sub, sum_sub_distrib]
    rw [sub_eq_zero]
    exact h2

/-- **C91** `interpolate` with given knots and increasing parameters and an exact solver returns, for all data
points, control points of a curve through the data if and only if no basis function vanishes at its parameter. -/
theorem C91_interpolate_iff [NeZero d] {p n : ℕ} {U : List K} {kn : Knots K} {params : Parameters K}
    {solver : Solver K d} (hs : solver.Exact) (hU : ClampedKnots 0 1 p n U) (hk : Knots.new p U = .ok kn)
    (hl : params.vector.length = n + 1) (hτ : params.vector.Pairwise (· < ·))
    (hb : ∀ t ∈ params.vector, 0 ≤ t ∧ t ≤ 1) :
    (∀ pts : DataPoints K d, List.length pts = n + 1 → ∃ P c, interpolate solver kn pts params = .ok P ∧
      ValidOn 0 1 c p n U P ∧ ∀ (g : ℕ) t q, params.vector[g]? = some t → pts[g]? = some q →
        c.evaluate t = .ok (.ok q)) ↔
    ∀ (i : ℕ) t, params.vector[i]? = some t → kn.evaluate 0 i p t ≠ .ok 0 := by
  obtain ⟨-, rfl⟩ := knots_new_inv hk
  have hev : ∀ i, i ≤ n → ∀ x, (canonKnots p U).evaluate 0 i p x = .ok (nb p n U i x) :=
    fun i hi x => nb_ok hU.length hU.le hi x
  have hτ' : ∀ i j, i < j → j ≤ n → fn params.vector i < fn params.vector j := by
    intro i j hij hj
    rw [fn_lt (by omega), fn_lt (by omega)]
    exact List.pairwise_iff_getElem.mp hτ i j (by omega) (by omega) hij
  have hb' : ∀ i, i ≤ n → 0 ≤ fn params.vector i ∧ fn params.vector i ≤ 1 := by
    intro i hi
    rw [fn_lt (by omega)]
    exact hb _ (List.getElem_mem _)
  have hget : ∀ (i : ℕ) t, params.vector[i]? = some t ↔ i ≤ n ∧ fn params.vector i = t := by
    intro i t
    rw [List.getElem?_eq_some_iff]
    constructor
    · rintro ⟨h1, h2⟩; exact ⟨by omega, by rw [fn_lt h1, h2]⟩
    · rintro ⟨h1, h2⟩; exact ⟨by omega, by rw [← fn_lt, h2]⟩
  constructor
  · intro h i t ht h0
    obtain ⟨hi, rfl⟩ := (hget i t).mp ht
    rw [hev i hi] at h0
    injection h0 with h0
    let A : Matrix (Fin (n + 1)) (Fin (n + 1)) K := fun g k => nb p n U k (fn params.vector g)
    have hdet : A.det = 0 := singular_of_diagonal hU hτ' hb' A (fun _ _ => rfl) (i := ⟨i, by omega⟩) h0
    have hsurj : Function.Surjective A.mulVec := by
      intro b
      obtain ⟨P, c, -, hc, hv⟩ := h ((List.range (n + 1)).map fun i _ => if hi : i < n + 1 then b ⟨i, hi⟩ else 0)
        (by simp)
      obtain rfl := hc.eq_canon
      obtain ⟨-, -, hP⟩ := hc
      refine ⟨fun k => fn P k 0, ?_⟩
      funext g
      have h1 := hv g (fn params.vector g) (fun _ => b g) ((hget _ _).mpr ⟨by omega, rfl⟩) (by
        rw [List.getElem?_map, List.getElem?_range g.2, Option.map_some]
        simp only [dif_pos g.2])
      rw [evaluate_sum hU hP (hb' g (by omega)).1 (hb' g (by omega)).2] at h1
      injection h1 with h1; injection h1 with h1
      have h2 := congrFun h1 0
      rw [Finset.sum_apply] at h2
      rw [Matrix.mulVec, dotProduct, ← h2,
        ← Fin.sum_univ_eq_sum_range (fun i => (nb p n U i (fn params.vector g) • fn P i) 0) (n + 1)]
      rfl
    have hunit := Matrix.mulVec_surjective_iff_isUnit.mp hsurj
    rw [Matrix.isUnit_iff_isUnit_det, hdet] at hunit
    exact not_isUnit_zero hunit
  · intro h pts hpts
    have hrun := interpolate_ok hU.length hU.le hpts hl solver
    have hP : (solver.run (mat (n + 1) (n + 1) (fun g i => nb p n U i (fn params.vector g))) pts).length = n + 1 := by
      rw [solver.shape, ncols_mat _ (by omega)]
    refine ⟨_, _, hrun, validOn_canon hU hP, fun g t q ht hq => ?_⟩
    obtain ⟨hg, rfl⟩ := (hget g t).mp ht
    rw [evaluate_sum hU hP (hb' g hg).1 (hb' g hg).2]
    congr 2
    have hq' : q = fn pts g := by
      rw [fn_lt (by omega)]
      exact (List.getElem?_eq_some_iff.mp hq).2.symm
    rw [hq']
    funext ρ
    rw [Finset.sum_apply, ← exact_regular hs (Nat.succ_pos n) (b := pts)
      (A := fun g i => nb p n U i (fn params.vector g)) ?_ hpts g (by omega) ρ]
    · rfl
    · intro x hx i hi
      refine kernel_of_diagonal hU hτ' hb' (fun i hi h0 => ?_) (c := x) (fun g hg => hx g (by omega)) i (by omega)
      exact h i _ ((hget i _).mpr ⟨hi, rfl⟩) (by rw [hev i hi, h0])

/-- non-vacuity: three parameters for a linear curve with three control points and the knot `1/2`; the middle
parameter must not be at an end -/
example : ∃ U : List ℚ, ClampedKnots 0 1 1 2 U ∧ ∃ kn, Knots.new 1 U = .ok kn ∧
    (∀ i t, [(0 : ℚ), 1 / 4, 1][i]? = some t → kn.evaluate 0 i 1 t ≠ .ok 0) ∧
    ¬ ∀ i t, [(0 : ℚ), 1 / 8, 1 / 4][i]? = some t → kn.evaluate 0 i 1 t ≠ .ok 0 := by
  refine ⟨[0, 0, 1 / 2, 1, 1], by decide +kernel, _, Knots.new_ok (by decide), ?_, ?_⟩
  · intro i t ht
    have hi : i < 3 := (List.getElem?_eq_some_iff.mp ht).1
    interval_cases i <;> (obtain rfl := Option.some.inj ht; decide +kernel)
  · intro h
    exact h 2 (1 / 4) rfl (by decide +kernel)

end BSpline
