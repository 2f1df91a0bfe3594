import Verif.Props.Regular
import Mathlib.LinearAlgebra.Dimension.Constructions
import Mathlib.LinearAlgebra.FiniteDimensional.Lemmas
import Mathlib.LinearAlgebra.Basis.VectorSpace
import Mathlib.LinearAlgebra.LinearIndependent.Lemmas
import Mathlib.Data.Finset.Sort

/-!
# Exactly when a least-squares fit is unique: C92
-/

set_option linter.unusedSectionVars false

namespace BSpline

open Finset

variable {K : Type} [Field K] [LinearOrder K] [IsStrictOrderedRing K] {d : ℕ}

/-- a matrix of full column rank has as many rows as columns, in their order, that suffice for its rank -/
theorem exists_rows {r c : ℕ} (B : ℕ → ℕ → K)
    (hker : ∀ x : ℕ → K, (∀ g, g < r → ∑ i ∈ range c, B g i * x i = 0) → ∀ i, i < c → x i = 0) :
    ∃ s : ℕ → ℕ, (∀ i j, i < j → j < c → s i < s j) ∧ (∀ i, i < c → s i < r) ∧
      (∀ k, k < c → ∃ i, i < c ∧ B (s k) i ≠ 0) ∧
      ∀ x : ℕ → K, (∀ k, k < c → ∑ i ∈ range c, B (s k) i * x i = 0) → ∀ i, i < c → x i = 0 := by
  let v : Fin r → Fin c → K := fun g i => B g i
  have hspan : Submodule.span K (Set.range v) = ⊤ := by
    by_contra hne
    obtain ⟨f, hf, hle⟩ := Submodule.exists_le_ker_of_lt_top _ (lt_top_iff_ne_top.mpr hne)
    apply hf
    have hx := hker (fun i => if h : i < c then f (fun j => if (⟨i, h⟩ : Fin c) = j then (1 : K) else 0) else 0) (by
      intro g hg
      have h1 : f (v ⟨g, hg⟩) = 0 := hle (Submodule.subset_span ⟨_, rfl⟩)
      rw [LinearMap.pi_apply_eq_sum_univ] at h1
      refine Eq.trans ?_ h1
      rw [← Fin.sum_univ_eq_sum_range (fun i => B g i *
        (if h : i < c then f (fun j => if (⟨i, h⟩ : Fin c) = j then (1 : K) else 0) else 0)) c]
      apply sum_congr rfl
      intro i _
      rw [dif_pos i.2, smul_eq_mul])
    ext w
    rw [LinearMap.zero_comp, LinearMap.zero_apply]
    have h2 := hx w w.2
    rw [dif_pos w.2] at h2
    rw [LinearMap.comp_apply, LinearMap.single_apply]
    refine Eq.trans ?_ h2
    congr 1
    funext j
    rw [Pi.single_apply]
    exact if_congr eq_comm rfl rfl
  obtain ⟨κ, a, hinj, hsp, hli⟩ := exists_linearIndependent' K v
  have : Fintype κ := Fintype.ofInjective a hinj
  have hcard : Fintype.card κ = c := by
    rw [← finrank_span_eq_card hli, hsp, hspan, finrank_top, Module.finrank_fin_fun]
  have hT : (univ.image a).card = c := by
    rw [card_image_of_injective _ hinj, card_univ, hcard]
  let e := (univ.image a).orderEmbOfFin hT
  refine ⟨fun i => if h : i < c then (e ⟨i, h⟩ : ℕ) else 0, ?_, ?_, ?_, ?_⟩
  · intro i j hij hj
    dsimp only
    rw [dif_pos hj, dif_pos (hij.trans hj)]
    exact (e.strictMono (show (⟨i, hij.trans hj⟩ : Fin c) < ⟨j, hj⟩ from hij))
  · intro i hi
    dsimp only
    rw [dif_pos hi]
    exact (e ⟨i, hi⟩).2
  · intro k hk
    dsimp only
    rw [dif_pos hk]
    have h1 : e ⟨k, hk⟩ ∈ univ.image a := orderEmbOfFin_mem _ _ _
    obtain ⟨q, -, h2⟩ := mem_image.mp h1
    by_contra hcon
    push Not at hcon
    apply hli.ne_zero q
    funext i
    rw [Function.comp_apply, h2]
    exact hcon i i.2
  · intro x hx
    let f : (Fin c → K) →ₗ[K] K :=
      { toFun := fun w => ∑ i : Fin c, w i * x i
        map_add' := fun w w' => by simp only [Pi.add_apply, add_mul, sum_add_distrib]
        map_smul' := fun t w => by simp only [Pi.smul_apply, smul_eq_mul, mul_assoc, mul_sum, RingHom.id_apply] }
    have hf : ∀ w, f w = 0 := by
      have h1 : Submodule.span K (Set.range (v ∘ a)) ≤ LinearMap.ker f := by
        rw [Submodule.span_le]
        rintro _ ⟨k, rfl⟩
        have h2 : a k ∈ Set.range e := by
          rw [range_orderEmbOfFin]
          simp
        obtain ⟨k', h3⟩ := h2
        have h4 := hx k' k'.2
        dsimp only at h4
        rw [dif_pos k'.2, ← Fin.sum_univ_eq_sum_range (fun i => B (e k') i * x i) c] at h4
        change ∑ i : Fin c, v (a k) i * x i = 0
        rw [← h3, ← h4]
      intro w
      have : w ∈ Submodule.span K (Set.range (v ∘ a)) := by rw [hsp, hspan]; trivial
      exact h1 this
    intro i hi
    have h1 := hf (Pi.single ⟨i, hi⟩ 1)
    change ∑ k : Fin c, (Pi.single ⟨i, hi⟩ 1 : Fin c → K) k * x k = 0 at h1
    rw [sum_eq_single (⟨i, hi⟩ : Fin c)] at h1
    · simpa using h1
    · intro k _ hk
      rw [Pi.single_eq_of_ne hk, zero_mul]
    · intro h; exact absurd (mem_univ _) h

/-- at the start of the domain only the first basis function is not zero -/
theorem nb_start {p n : ℕ} {U : List K} (hU : ClampedKnots 0 1 p n U) {i : ℕ} (hi : i ≤ n) :
    nb p n U i 0 = if i = 0 then 1 else 0 := by
  have hP : ((List.range (n + 1)).map fun (m : ℕ) (_ : Fin 1) => if i = m then (1 : K) else 0).length = n + 1 := by
    simp
  have h1 := (C07_endpoints (validOn_canon hU hP)
    (first := fun _ => if i = 0 then 1 else 0) (last := fun _ => if i = n then 1 else 0)
    (by simp [List.range_succ_eq_map]) (by
    rw [List.getLast?_eq_getElem?, hP, Nat.add_sub_cancel, List.getElem?_map, List.getElem?_range (by omega)]
    rfl)).1
  rw [evaluate_sum hU hP le_rfl zero_le_one] at h1
  injection h1 with h1; injection h1 with h1
  have h2 := congrFun h1 0
  rw [Finset.sum_apply, Finset.sum_eq_single i] at h2
  · rw [Pi.smul_apply, smul_eq_mul, fn_map_range _ (by omega), if_pos rfl, mul_one] at h2
    exact h2
  · intro m hm hmi
    rw [Pi.smul_apply, smul_eq_mul, fn_map_range _ (mem_range.mp hm), if_neg (Ne.symm hmi), mul_zero]
  · intro h; exact absurd (mem_range.mpr (by omega)) h

section Rank

variable {p n : ℕ} {U : List K} (hU : ClampedKnots 0 1 p n U)

include hU

/-- the diagonal of a regular collocation matrix -/
theorem diagonal_of_kernel {τ : ℕ → K} (hτ : ∀ i j, i < j → j ≤ n → τ i < τ j)
    (hb : ∀ i, i ≤ n → 0 ≤ τ i ∧ τ i ≤ 1)
    (hker : ∀ x : ℕ → K, (∀ g, g ≤ n → ∑ i ∈ range (n + 1), nb p n U i (τ g) * x i = 0) →
      ∀ i, i ≤ n → x i = 0) : ∀ i, i ≤ n → nb p n U i (τ i) ≠ 0 := by
  intro i hi h0
  let A : Matrix (Fin (n + 1)) (Fin (n + 1)) K := fun g k => nb p n U k (τ g)
  have hdet : A.det = 0 := singular_of_diagonal hU hτ hb A (fun _ _ => rfl) (i := ⟨i, by omega⟩) h0
  obtain ⟨v, hv, h1⟩ := Matrix.exists_mulVec_eq_zero_iff.mpr hdet
  apply hv
  have key := hker (fun i => if h : i < n + 1 then v ⟨i, h⟩ else 0) (by
    intro g hg
    have h2 := congrFun h1 ⟨g, by omega⟩
    rw [Matrix.mulVec, dotProduct, Pi.zero_apply] at h2
    rw [← Fin.sum_univ_eq_sum_range (fun i => nb p n U i (τ g) *
        (if h : i < n + 1 then v ⟨i, h⟩ else 0)) (n + 1), ← h2]
    apply sum_congr rfl
    intro k _
    rw [dif_pos k.2])
  funext k
  have := key k (by omega)
  rwa [dif_pos k.2] at this

/-- full rank of the rectangular collocation matrix -/
theorem rank_iff {m : ℕ} {τ : ℕ → K} (hτ : ∀ i j, i < j → j ≤ m → τ i < τ j)
    (hb : ∀ i, i ≤ m → 0 ≤ τ i ∧ τ i ≤ 1) :
    (∀ x : ℕ → K, (∀ g, g ≤ m → ∑ i ∈ range (n + 1), nb p n U i (τ g) * x i = 0) →
      ∀ i, i ≤ n → x i = 0) ↔
    ∃ s : ℕ → ℕ, (∀ i j, i < j → j ≤ n → s i < s j) ∧
      ∀ i, i ≤ n → s i ≤ m ∧ nb p n U i (τ (s i)) ≠ 0 := by
  constructor
  · intro h
    obtain ⟨s, h1, h2, -, h3⟩ := exists_rows (r := m + 1) (c := n + 1) (fun g i => nb p n U i (τ g))
      (fun x hx i hi => h x (fun g hg => hx g (by omega)) i (by omega))
    have h1' : ∀ i j, i < j → j ≤ n → s i < s j := fun i j hij hj => h1 i j hij (by omega)
    have h2' : ∀ i, i ≤ n → s i ≤ m := fun i hi => by have := h2 i (by omega); omega
    refine ⟨s, h1', fun i hi => ⟨h2' i hi, ?_⟩⟩
    exact diagonal_of_kernel hU (τ := fun i => τ (s i))
      (fun i j hij hj => hτ _ _ (h1' i j hij hj) (h2' j hj)) (fun i hi => hb _ (h2' i hi))
      (fun x hx i hi => h3 x (fun k hk => hx k (by omega)) i (by omega)) i hi
  · rintro ⟨s, h1, h2⟩ x hx
    exact kernel_of_diagonal hU (τ := fun i => τ (s i))
      (fun i j hij hj => hτ _ _ (h1 i j hij hj) (h2 j hj).1) (fun i hi => hb _ (h2 i hi).1)
      (fun i hi => (h2 i hi).2) (fun g hg => hx _ (h2 g hg).1)

/-- full rank of the collocation matrix without the first and the last function, at the inner parameters -/
theorem inner_rank_iff {m : ℕ} {τ : ℕ → K} (hn : 2 ≤ n) (hτ : ∀ i j, i < j → j ≤ m → τ i < τ j)
    (hb : ∀ i, i ≤ m → 0 ≤ τ i ∧ τ i ≤ 1) :
    (∀ x : ℕ → K, x 0 = 0 → x n = 0 →
      (∀ g, 1 ≤ g → g < m → ∑ i ∈ range (n + 1), nb p n U i (τ g) * x i = 0) → ∀ i, i ≤ n → x i = 0) ↔
    ∃ s : ℕ → ℕ, (∀ i j, 1 ≤ i → i < j → j < n → s i < s j) ∧
      ∀ i, 1 ≤ i → i < n → 1 ≤ s i ∧ s i < m ∧ nb p n U i (τ (s i)) ≠ 0 := by
  have hsum : ∀ (x : ℕ → K) (t : K), x 0 = 0 → x n = 0 → ∑ i ∈ range (n + 1), nb p n U i t * x i =
      ∑ i ∈ range (n - 1), nb p n U (i + 1) t * x (i + 1) := by
    intro x t h0 h1
    obtain ⟨k, rfl⟩ : ∃ k, n = k + 1 := ⟨n - 1, by omega⟩
    rw [sum_range_succ, sum_range_succ', h0, h1, Nat.add_sub_cancel]
    ring
  -- the parameters with the ends of the domain added
  have ext : ∀ s : ℕ → ℕ, (∀ i j, 1 ≤ i → i < j → j < n → s i < s j) → (∀ i, 1 ≤ i → i < n → 1 ≤ s i ∧ s i < m) →
      (∀ i, 1 ≤ i → i < n → 0 < τ (s i) ∧ τ (s i) < 1) → ∀ σ : ℕ → K,
      (∀ i, σ i = if i = 0 then 0 else if i = n then 1 else τ (s i)) →
      (∀ i j, i < j → j ≤ n → σ i < σ j) ∧ ∀ i, i ≤ n → 0 ≤ σ i ∧ σ i ≤ 1 := by
    intro s h1 h2 h3 σ hσ
    constructor
    · intro i j hij hj
      rw [hσ, hσ, if_neg (show j ≠ 0 by omega), if_neg (show i ≠ n by omega)]
      by_cases hi : i = 0
      · rw [if_pos hi]
        split_ifs with h4
        · exact one_pos
        · exact (h3 j (by omega) (by omega)).1
      · rw [if_neg hi]
        split_ifs with h4
        · exact (h3 i (by omega) (by omega)).2
        · exact hτ _ _ (h1 i j (by omega) hij (by omega)) (h2 j (by omega) (by omega)).2.le
    · intro i hi
      rw [hσ]
      split_ifs with h4 h5
      · exact ⟨le_rfl, zero_le_one⟩
      · exact ⟨zero_le_one, le_rfl⟩
      · have := h3 i (by omega) (by omega)
        exact ⟨this.1.le, this.2.le⟩
  constructor
  · intro h
    obtain ⟨s', h1, h2, h0, h3⟩ := exists_rows (r := m - 1) (c := n - 1) (fun g i => nb p n U (i + 1) (τ (g + 1))) (by
      intro x hx i hi
      have := h (fun k => if k = 0 ∨ k = n then 0 else x (k - 1)) (by simp) (by simp) (by
        intro g hg1 hg2
        rw [hsum _ _ (by simp) (by simp), ← hx (g - 1) (by omega)]
        apply sum_congr rfl
        intro k hk
        rw [mem_range] at hk
        rw [if_neg (by omega), Nat.sub_add_cancel hg1, Nat.add_sub_cancel]) (i + 1) (by omega)
      rwa [if_neg (by omega), Nat.add_sub_cancel] at this)
    let s : ℕ → ℕ := fun i => s' (i - 1) + 1
    have h1' : ∀ i j, 1 ≤ i → i < j → j < n → s i < s j := by
      intro i j hi hij hj
      have := h1 (i - 1) (j - 1) (by omega) (by omega)
      simp only [s]; omega
    have h2' : ∀ i, 1 ≤ i → i < n → 1 ≤ s i ∧ s i < m := by
      intro i hi hj
      have := h2 (i - 1) (by omega)
      simp only [s]; omega
    have h3' : ∀ x : ℕ → K, x 0 = 0 → x n = 0 → (∀ g, 1 ≤ g → g < n →
        ∑ i ∈ range (n + 1), nb p n U i (τ (s g)) * x i = 0) → ∀ i, i ≤ n → x i = 0 := by
      intro x hx0 hxn hx i hi
      by_cases hi0 : i = 0
      · rw [hi0]; exact hx0
      by_cases hin : i = n
      · rw [hin]; exact hxn
      have := h3 (fun i => x (i + 1)) (by
        intro k hk
        have h4 := hx (k + 1) (by omega) (by omega)
        rw [hsum _ _ hx0 hxn] at h4
        exact h4) (i - 1) (by omega)
      rwa [Nat.sub_add_cancel (by omega)] at this
    -- no selected parameter is at an end: its row would be zero
    have h4 : ∀ i, 1 ≤ i → i < n → 0 < τ (s i) ∧ τ (s i) < 1 := by
      intro i hi hj
      obtain ⟨k, hk, hne⟩ := h0 (i - 1) (by omega)
      change nb p n U (k + 1) (τ (s i)) ≠ 0 at hne
      have a4 := hb _ (h2' i hi hj).2.le
      refine ⟨lt_of_le_of_ne a4.1 (fun e => hne ?_), lt_of_le_of_ne a4.2 (fun e => hne ?_)⟩
      · rw [← e, nb_start hU (by omega), if_neg (by omega)]
      · rw [e, nb_one hU (by omega), if_neg (by omega)]
    obtain ⟨h5, h6⟩ := ext s h1' h2' h4 (fun i => if i = 0 then 0 else if i = n then 1 else τ (s i)) (fun _ => rfl)
    refine ⟨s, h1', fun i hi hj => ⟨(h2' i hi hj).1, (h2' i hi hj).2, ?_⟩⟩
    have := diagonal_of_kernel hU h5 h6 (by
      intro x hx
      have e0 : x 0 = 0 := by
        have h7 := hx 0 (by omega)
        rw [if_pos rfl, sum_range_succ', sum_eq_zero, nb_start hU (Nat.zero_le _), if_pos rfl] at h7
        · simpa using h7
        · intro k hk
          rw [mem_range] at hk
          rw [nb_start hU (by omega), if_neg (by omega), zero_mul]
      have en : x n = 0 := by
        have h7 := hx n le_rfl
        rw [if_neg (by omega), if_pos rfl, sum_range_succ, sum_eq_zero, nb_one hU le_rfl, if_pos rfl] at h7
        · simpa using h7
        · intro k hk
          rw [mem_range] at hk
          rw [nb_one hU (by omega), if_neg (by omega), zero_mul]
      refine h3' x e0 en (fun g hg1 hg2 => ?_)
      have h7 := hx g (by omega)
      rwa [if_neg (by omega), if_neg (by omega)] at h7) i (by omega)
    rwa [if_neg (by omega), if_neg (by omega)] at this
  · rintro ⟨s, h1, h2⟩ x hx0 hxn hx
    have h4 : ∀ i, 1 ≤ i → i < n → 0 < τ (s i) ∧ τ (s i) < 1 := by
      intro i hi hj
      obtain ⟨a1, a2, a3⟩ := h2 i hi hj
      have a4 := hb _ a2.le
      refine ⟨lt_of_le_of_ne a4.1 (fun e => a3 ?_), lt_of_le_of_ne a4.2 (fun e => a3 ?_)⟩
      · rw [← e, nb_start hU (by omega), if_neg (by omega)]
      · rw [e, nb_one hU (by omega), if_neg (by omega)]
    obtain ⟨h5, h6⟩ := ext s h1 (fun i hi hj => ⟨(h2 i hi hj).1, (h2 i hi hj).2.1⟩) h4
      (fun i => if i = 0 then 0 else if i = n then 1 else τ (s i)) (fun _ => rfl)
    refine kernel_of_diagonal hU h5 h6 ?_ ?_
    · intro i hi
      split_ifs with h7 h8
      · rw [h7, nb_start hU (Nat.zero_le _), if_pos rfl]; exact one_ne_zero
      · rw [h8, nb_one hU le_rfl, if_pos rfl]; exact one_ne_zero
      · exact (h2 i (by omega) (by omega)).2.2
    · intro g hg
      split_ifs with h7 h8
      · rw [sum_range_succ', sum_eq_zero, hx0]
        · simp
        · intro k hk
          rw [mem_range] at hk
          rw [nb_start hU (by omega), if_neg (by omega), zero_mul]
      · rw [sum_range_succ, sum_eq_zero, hxn]
        · simp
        · intro k hk
          rw [mem_range] at hk
          rw [nb_one hU (by omega), if_neg (by omega), zero_mul]
      · have := h2 g (by omega) (by omega)
        exact hx _ this.1 this.2.1

end Rank

/-- **C92** For the fit with loose ends without penalty, for all clamped knots and increasing parameters in
`[0, 1]`: no other control polygon has an error as small if and only if, for each basis function, there is a
parameter at which it does not vanish, in such a way that the parameters increase with the functions. -/
theorem C92_loose_unique_iff [NeZero d] {p n m : ℕ} {U : List K} {kn : Knots K} {pts P : DataPoints K d}
    {params : Parameters K} {solver : Solver K d} {c : Curve K d} {e : K} (hs : solver.Exact)
    (hk : Knots.new p U = .ok kn) (hU : ClampedKnots 0 1 p n U) (h1 : 1 ≤ p) (hm : List.length pts = m + 1)
    (hv : params.vector.length = params.segments + 1) (hinc : params.vector.Pairwise (· < ·))
    (hτ : ∀ x ∈ params.vector, 0 ≤ x ∧ x ≤ 1) (hfit : Loose.fit solver kn pts params none = .ok (.ok P))
    (hc : Built c p U P) (he : SqError c params.vector pts (range (m + 1)) e) :
    (∀ (P' : List (Pt K d)) (c' : Curve K d) (e' : K), P'.length = n + 1 → Built c' p U P' →
      SqError c' params.vector pts (range (m + 1)) e' → P' ≠ P → e < e') ↔
    ∃ s : ℕ → ℕ, (∀ i j, i < j → j ≤ n → s i < s j) ∧
      ∀ i, i ≤ n → ∃ t v, params.vector[s i]? = some t ∧ kn.evaluate 0 i p t = .ok v ∧ v ≠ 0 := by
  obtain ⟨-, h3, -, hlen, -⟩ := loose_normal hs hk hU h1 hm hv hfit
  have hI := loose_range hm hv h3
  have hL : params.vector.length = m + 1 := by omega
  have hrank := rank_iff hU (m := m) (τ := fn params.vector)
    (fun i j hij hj => by
      rw [fn_lt (by omega), fn_lt (by omega)]
      exact List.pairwise_iff_getElem.mp hinc i j (by omega) (by omega) hij)
    (fun i hi => by rw [fn_lt (by omega)]; exact hτ _ (List.getElem_mem _))
  have hev : (∃ s : ℕ → ℕ, (∀ i j, i < j → j ≤ n → s i < s j) ∧
      ∀ i, i ≤ n → ∃ t v, params.vector[s i]? = some t ∧ kn.evaluate 0 i p t = .ok v ∧ v ≠ 0) ↔
      ∃ s : ℕ → ℕ, (∀ i j, i < j → j ≤ n → s i < s j) ∧
        ∀ i, i ≤ n → s i ≤ m ∧ nb p n U i (fn params.vector (s i)) ≠ 0 := by
    obtain ⟨-, rfl⟩ := knots_new_inv hk
    refine exists_congr fun s => and_congr_right fun _ => forall_congr' fun i => forall_congr' fun hi => ?_
    constructor
    · rintro ⟨t, v, a1, a2, a3⟩
      obtain ⟨a4, rfl⟩ := List.getElem?_eq_some_iff.mp a1
      rw [nb_ok hU.length hU.le hi] at a2
      injection a2 with a2
      rw [fn_lt a4, a2]
      exact ⟨by omega, a3⟩
    · rintro ⟨a1, a2⟩
      refine ⟨_, _, List.getElem?_eq_getElem (by omega), nb_ok hU.length hU.le hi _, ?_⟩
      rwa [fn_lt (by omega)] at a2
  rw [hev, ← hrank]
  constructor
  · intro h x hx i hi
    by_contra hne
    let P' : List (Pt K d) := (List.range (n + 1)).map fun (i : ℕ) ρ => fn P i ρ + x i
    have hP' : P'.length = n + 1 := by simp [P']
    have hfP' : ∀ k, k < n + 1 → fn P' k = fun ρ => fn P k ρ + x k := fun k hk => fn_map_range _ hk
    have hc' := mkCurve_ok hP' hU.le (show n + p + 1 ≤ U.length by have := hU.length; omega)
    refine lt_irrefl e (h P' _ e hP' hc' ?_ ?_)
    · rw [sqError_iff hU hP' hc' hI hτ, (sqError_iff hU hlen hc hI hτ).mp he]
      apply sum_congr rfl
      intro g hg
      apply sum_congr rfl
      intro ρ _
      congr 2
      rw [← add_zero (∑ i ∈ range (n + 1), nb p n U i (fn params.vector g) * fn P i ρ),
        ← hx g (by rw [mem_range] at hg; omega), ← sum_add_distrib]
      apply sum_congr rfl
      intro k hk
      rw [hfP' k (mem_range.mp hk)]
      ring
    · intro e1
      have e2 := congrFun (hfP' i (by omega)) 0
      rw [e1] at e2
      exact hne (left_eq_add.mp e2)
  · intro h P' c' e' hP' hc' he' hne
    by_contra hcon
    have h4 := loose_unique hs hk hU h1 hm hv hτ hfit hc hP' hc' he he'
      (by simpa [penaltyCost] using hcon)
    apply hne
    apply ext_fn (by omega)
    intro i hi
    funext ρ
    refine sub_eq_zero.mp (h (fun i => fn P' i ρ - fn P i ρ) (fun g hg => ?_) i (by omega))
    rw [← sub_eq_zero.mpr (h4 g hg ρ), ← sum_sub_distrib]
    apply sum_congr rfl
    intro k _
    ring

/-- **C92** The same for the fit with fixed ends, among the control polygons with the given ends, with the inner
basis functions and the inner parameters. -/
theorem C92_fixed_unique_iff [NeZero d] {p n m : ℕ} {U : List K} {kn : Knots K} {pts P : DataPoints K d}
    {params : Parameters K} {solver : Solver K d} {c : Curve K d} {e : K} (hs : solver.Exact)
    (hk : Knots.new p U = .ok kn) (hU : ClampedKnots 0 1 p n U) (h1 : 1 ≤ p) (hm : List.length pts = m + 1)
    (hv : params.vector.length = params.segments + 1) (hinc : params.vector.Pairwise (· < ·))
    (hτ : ∀ x ∈ params.vector, 0 ≤ x ∧ x ≤ 1) (hfit : Fixed.fit solver kn pts params none = .ok (.ok P))
    (hc : Built c p U P) (he : SqError c params.vector pts (Ico 1 m) e) :
    (∀ (P' : List (Pt K d)) (c' : Curve K d) (e' : K), P'.length = n + 1 → Built c' p U P' →
      P'[0]? = pts[0]? → P'[n]? = pts[m]? →
      SqError c' params.vector pts (Ico 1 m) e' → P' ≠ P → e < e') ↔
    ∃ s : ℕ → ℕ, (∀ i j, 1 ≤ i → i < j → j < n → s i < s j) ∧
      ∀ i, 1 ≤ i → i < n → 1 ≤ s i ∧ s i < m ∧
        ∃ t v, params.vector[s i]? = some t ∧ kn.evaluate 0 i p t = .ok v ∧ v ≠ 0 := by
  obtain ⟨hn, -, h3, -, hlen, hP0, hPn, -⟩ := fixed_normal hs hk hU h1 hm hv hfit
  have hI := fixed_range hm hv h3
  have hL : params.vector.length = m + 1 := by omega
  have hrank := inner_rank_iff hU (m := m) (τ := fn params.vector) hn
    (fun i j hij hj => by
      rw [fn_lt (by omega), fn_lt (by omega)]
      exact List.pairwise_iff_getElem.mp hinc i j (by omega) (by omega) hij)
    (fun i hi => by rw [fn_lt (by omega)]; exact hτ _ (List.getElem_mem _))
  have hev : (∃ s : ℕ → ℕ, (∀ i j, 1 ≤ i → i < j → j < n → s i < s j) ∧
      ∀ i, 1 ≤ i → i < n → 1 ≤ s i ∧ s i < m ∧
        ∃ t v, params.vector[s i]? = some t ∧ kn.evaluate 0 i p t = .ok v ∧ v ≠ 0) ↔
      ∃ s : ℕ → ℕ, (∀ i j, 1 ≤ i → i < j → j < n → s i < s j) ∧
        ∀ i, 1 ≤ i → i < n → 1 ≤ s i ∧ s i < m ∧ nb p n U i (fn params.vector (s i)) ≠ 0 := by
    obtain ⟨-, rfl⟩ := knots_new_inv hk
    refine exists_congr fun s => and_congr_right fun _ => forall_congr' fun i => forall_congr' fun _ =>
      forall_congr' fun hi => and_congr_right fun _ => and_congr_right fun hsm => ?_
    constructor
    · rintro ⟨t, v, a1, a2, a3⟩
      obtain ⟨a4, rfl⟩ := List.getElem?_eq_some_iff.mp a1
      rw [nb_ok hU.length hU.le hi.le] at a2
      injection a2 with a2
      rw [fn_lt a4, a2]
      exact a3
    · intro a2
      refine ⟨_, _, List.getElem?_eq_getElem (by omega), nb_ok hU.length hU.le hi.le _, ?_⟩
      rwa [fn_lt (by omega)] at a2
  rw [hev, ← hrank]
  constructor
  · intro h x hx0 hxn hx i hi
    by_contra hne
    let P' : List (Pt K d) := (List.range (n + 1)).map fun (i : ℕ) ρ => fn P i ρ + x i
    have hP' : P'.length = n + 1 := by simp [P']
    have hfP' : ∀ k, k < n + 1 → fn P' k = fun ρ => fn P k ρ + x k := fun k hk => fn_map_range _ hk
    have hc' := mkCurve_ok hP' hU.le (show n + p + 1 ≤ U.length by have := hU.length; omega)
    refine lt_irrefl e (h P' _ e hP' hc' ?_ ?_ ?_ ?_)
    · rw [getElem?_eq_iff_fn (by omega) (by omega), hfP' 0 (by omega), ← hP0]
      funext ρ
      rw [hx0, add_zero]
    · rw [getElem?_eq_iff_fn (by omega) (by omega), hfP' n (by omega), ← hPn]
      funext ρ
      rw [hxn, add_zero]
    · rw [sqError_iff hU hP' hc' hI hτ, (sqError_iff hU hlen hc hI hτ).mp he]
      apply sum_congr rfl
      intro g hg
      rw [mem_Ico] at hg
      apply sum_congr rfl
      intro ρ _
      congr 2
      rw [← add_zero (∑ i ∈ range (n + 1), nb p n U i (fn params.vector g) * fn P i ρ),
        ← hx g hg.1 hg.2, ← sum_add_distrib]
      apply sum_congr rfl
      intro k hk
      rw [hfP' k (mem_range.mp hk)]
      ring
    · intro e1
      have e2 := congrFun (hfP' i (by omega)) 0
      rw [e1] at e2
      exact hne (left_eq_add.mp e2)
  · intro h P' c' e' hP' hc' hP'0 hP'n he' hne
    by_contra hcon
    have h4 := fixed_unique hs hk hU h1 hm hv hτ hfit hc hP' hc' hP'0 hP'n he he'
      (by simpa [penaltyCost] using hcon)
    rw [getElem?_eq_iff_fn (by omega) (by omega)] at hP'0 hP'n
    apply hne
    apply ext_fn (by omega)
    intro i hi
    funext ρ
    refine sub_eq_zero.mp (h (fun i => fn P' i ρ - fn P i ρ) ?_ ?_ (fun g hg1 hg2 => ?_) i (by omega))
    · rw [hP'0, hP0, sub_self]
    · rw [hP'n, hPn, sub_self]
    · rw [← sub_eq_zero.mpr (h4 g hg1 hg2 ρ), ← sum_sub_distrib]
      apply sum_congr rfl
      intro k _
      ring

/-- the basis functions sum up to one -/
theorem sum_nb_unit {p n : ℕ} {U : List K} (hU : ClampedKnots 0 1 p n U) {u : K} (h0 : 0 ≤ u)
    (h1 : u ≤ 1) : ∑ i ∈ range (n + 1), nb p n U i u = 1 := by
  obtain ⟨j, hs⟩ := hU.clamp.exists_span h0 h1
  rw [sum_congr rfl (fun i _ => nb_eq_Bs hU hs i)]
  exact sum_Bs_one hU.clamp.mono (hs.p_le hU.clamp) hs.le_n (hs.lt hU.clamp)

/-- with a positive weight, two minimisers have the same penalised differences -/
theorem lsq_unique_pen {r l c : ℕ} {A D : ℕ → ℕ → K} {lam : K} (hl : 0 < lam) {y x z : ℕ → K}
    (hx : ∀ i, i < c → ∑ j ∈ range c, nm r l A D lam i j * x j = ∑ g ∈ range r, A g i * y g)
    (h : lsq r l c A D lam y z ≤ lsq r l c A D lam y x) (g : ℕ) (hg : g < l) :
    mv c D (fun j => z j - x j) g = 0 := by
  rw [lsq_eq hx z] at h
  have h1 : 0 ≤ ∑ g ∈ range r, mv c A (fun j => z j - x j) g ^ 2 := sum_nonneg (fun _ _ => sq_nonneg _)
  have h3 : 0 ≤ ∑ h ∈ range l, mv c D (fun j => z j - x j) h ^ 2 := sum_nonneg (fun _ _ => sq_nonneg _)
  have h2 : ∑ h ∈ range l, mv c D (fun j => z j - x j) h ^ 2 = 0 := by
    refine le_antisymm ?_ h3
    by_contra hcon
    have := mul_pos hl (not_le.mp hcon)
    linarith
  rw [sum_eq_zero_iff_of_nonneg (fun _ _ => sq_nonneg _)] at h2
  exact pow_eq_zero_iff (two_ne_zero) |>.mp (h2 g (mem_range.mpr hg))

/-- **C92** With a positive penalty on the first differences of the control points, the fit with loose ends is
always the only minimiser, whatever the parameters are. -/
theorem C92_penalised_unique {p n m : ℕ} {U : List K} {kn : Knots K} {pts P : DataPoints K d}
    {params : Parameters K} {solver : Solver K d} {lam : K} {c : Curve K d} {e : K} (hs : solver.Exact)
    (hk : Knots.new p U = .ok kn) (hU : ClampedKnots 0 1 p n U) (h1 : 1 ≤ p) (hm : List.length pts = m + 1)
    (hv : params.vector.length = params.segments + 1) (hτ : ∀ x ∈ params.vector, 0 ≤ x ∧ x ≤ 1)
    (hlam : 0 < lam) (hfit : Loose.fit solver kn pts params (some ⟨lam, 1⟩) = .ok (.ok P))
    (hc : Built c p U P) (he : SqError c params.vector pts (range (m + 1)) e) :
    ∀ (P' : List (Pt K d)) (c' : Curve K d) (e' : K), P'.length = n + 1 → Built c' p U P' →
      SqError c' params.vector pts (range (m + 1)) e' → P' ≠ P →
      e + penaltyCost (some ⟨lam, 1⟩) P < e' + penaltyCost (some ⟨lam, 1⟩) P' := by
  intro P' c' e' hP' hc' he' hne
  obtain ⟨h2, h3, h5, hlen, key⟩ := loose_normal hs hk hU h1 hm hv hfit
  have hI := loose_range hm hv h3
  by_contra hle
  rw [not_lt] at hle
  have h4 := loose_unique hs hk hU h1 hm hv hτ hfit hc hP' hc' he he' hle
  rw [(sqError_iff hU hP' hc' hI hτ).mp he', (sqError_iff hU hlen hc hI hτ).mp he,
    penaltyCost_eq hlen, penaltyCost_eq hP', sum_comm,
    sum_comm (s := range (m + 1)), ← sum_add_distrib, ← sum_add_distrib] at hle
  have h6 : ∀ ρ ∈ (univ : Finset (Fin d)), _ := fun ρ _ => lsq_le h5 (key ρ) (fun j => fn P' j ρ)
  have h7 := (sum_eq_sum_iff_of_le h6).mp (le_antisymm (sum_le_sum h6) hle)
  have h8 : ∀ ρ k, k < n → fn P' (k + 1) ρ - fn P (k + 1) ρ = fn P' k ρ - fn P k ρ := by
    intro ρ k hk
    have := lsq_unique_pen hlam (key ρ) (h7 ρ (mem_univ ρ)).ge k (by simp only [penRows]; omega)
    rw [mv] at this
    simp only [penD] at this
    have e : ∀ j ∈ range (n + 1), ((differenceOperator 1 k j : ℤ) : K) * (fn P' j ρ - fn P j ρ) =
        differenceOperator 1 k j • (fun j => fn P' j ρ - fn P j ρ) j := by
      intro j _; simp
    rw [sum_congr rfl e, sum_differenceOperator (fun j => fn P' j ρ - fn P j ρ) (by omega) k (by omega)] at this
    simpa [fwdDiff, sub_eq_zero] using this
  have h9 : ∀ ρ k, k ≤ n → fn P' k ρ - fn P k ρ = fn P' 0 ρ - fn P 0 ρ := by
    intro ρ k
    induction k with
    | zero => intro _; rfl
    | succ k ih => intro hk; rw [h8 ρ k (by omega), ih (by omega)]
  apply hne
  apply ext_fn (by omega)
  intro i hi
  funext ρ
  rw [← sub_eq_zero, h9 ρ i (by omega)]
  have hb := hτ (fn params.vector 0) (by rw [fn_lt (by omega)]; exact List.getElem_mem _)
  rw [← one_mul (fn P' 0 ρ - fn P 0 ρ), ← sum_nb_unit hU hb.1 hb.2, sum_mul,
    ← sub_eq_zero.mpr (h4 0 (Nat.zero_le _) ρ), ← sum_sub_distrib]
  apply sum_congr rfl
  intro k hk
  rw [← h9 ρ k (by rw [mem_range] at hk; omega)]
  ring

/-- the hypotheses of C92 are met: a linear fit of four points with the inner knot `1/2`. It is unique for
parameters in both halves and not unique when all parameters lie in the first half, where the last basis
function vanishes. -/
example : ∃ (solver : Solver ℚ 1) (kn : Knots ℚ) (P Q : List (Pt ℚ 1)) (c : Curve ℚ 1) (e : ℚ) (U : List ℚ),
    solver.Exact ∧ Knots.new 1 U = .ok kn ∧ ClampedKnots 0 1 1 2 U ∧
    Loose.fit solver kn [![0], ![1], ![3], ![2]] ⟨[0, 1 / 4, 1 / 2, 1], 3⟩ none = .ok (.ok P) ∧
    Loose.fit solver kn [![0], ![1], ![3], ![2]] ⟨[0, 1 / 8, 1 / 4, 3 / 8], 3⟩ none = .ok (.ok Q) ∧
    Built c 1 U P ∧ SqError c [0, 1 / 4, 1 / 2, 1] [![0], ![1], ![3], ![2]] (range 4) e ∧
    (∃ s : ℕ → ℕ, (∀ i j, i < j → j ≤ 2 → s i < s j) ∧ ∀ i, i ≤ 2 → ∃ t v,
      [(0 : ℚ), 1 / 4, 1 / 2, 1][s i]? = some t ∧ kn.evaluate 0 i 1 t = .ok v ∧ v ≠ 0) ∧
    ¬ ∃ s : ℕ → ℕ, (∀ i j, i < j → j ≤ 2 → s i < s j) ∧ ∀ i, i ≤ 2 → ∃ t v,
      [(0 : ℚ), 1 / 8, 1 / 4, 3 / 8][s i]? = some t ∧ kn.evaluate 0 i 1 t = .ok v ∧ v ≠ 0 := by
  obtain ⟨s, hs⟩ := exists_exact_solver ℚ 1
  have hU : ClampedKnots (0 : ℚ) 1 1 2 [0, 0, 1 / 2, 1, 1] := by decide +kernel
  have hk : Knots.new 1 [(0 : ℚ), 0, 1 / 2, 1, 1] = .ok _ := Knots.new_ok (by decide)
  have hb : 1 ≤ 2 → isUniform (canonKnots 1 [(0 : ℚ), 0, 1 / 2, 1, 1]) = .ok (.ok true) := fun _ => by decide +kernel
  obtain ⟨P, h1, -⟩ := (C44_loose (d := 1) (m := 3) (pts := [![0], ![1], ![3], ![2]])
    (params := ⟨[0, 1 / 4, 1 / 2, 1], 3⟩) hk hU.length le_rfl rfl rfl hb s none).2 (by decide +kernel)
  obtain ⟨Q, h2, -⟩ := (C44_loose (d := 1) (m := 3) (pts := [![0], ![1], ![3], ![2]])
    (params := ⟨[0, 1 / 8, 1 / 4, 3 / 8], 3⟩) hk hU.length le_rfl rfl rfl hb s none).2 (by decide +kernel)
  obtain ⟨c, e, h3, -, h4, -⟩ := C42_loose_optimal hs hk hU le_rfl rfl rfl (by decide +kernel) h1
  refine ⟨s, _, _, _, c, e, _, hs, hk, hU, h1, h2, h3, h4, ?_, ?_⟩
  · refine ⟨fun i => i + 1, fun i j hij _ => Nat.succ_lt_succ hij, fun i hi => ?_⟩
    interval_cases i
    · exact ⟨1 / 4, 1 / 2, rfl, by decide +kernel, by decide +kernel⟩
    · exact ⟨1 / 2, 1, rfl, by decide +kernel, by decide +kernel⟩
    · exact ⟨1, 1, rfl, by decide +kernel, by decide +kernel⟩
  · rintro ⟨σ, -, h5⟩
    obtain ⟨t, v, h6, h7, h8⟩ := h5 2 le_rfl
    have hi : σ 2 < 4 := (List.getElem?_eq_some_iff.mp h6).1
    have h9 : ∀ t ∈ [(0 : ℚ), 1 / 8, 1 / 4, 3 / 8], (canonKnots 1 [(0 : ℚ), 0, 1 / 2, 1, 1]).evaluate 0 2 1 t = .ok 0 := by
      decide +kernel
    rw [h9 t (List.mem_of_getElem? h6)] at h7
    injection h7 with h7
    exact h8 h7.symm

end BSpline
