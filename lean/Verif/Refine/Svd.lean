import Verif.Spec.Svd
import Verif.Theory.SvdExists
import Verif.Props.Fit

/-!
# The solver as a truncated decomposition
-/

set_option linter.unusedSectionVars false

namespace BSpline

open Finset

variable {K : Type} [Field K] [LinearOrder K] [IsStrictOrderedRing K] {d : ℕ}

theorem mulT_fold (i : ℕ) (ρ : Fin d) : ∀ (A : List (List K)) (B : List (Pt K d)) (s : Pt K d),
    A.length = B.length →
    (List.zip A B).foldl (fun s (x : List K × Pt K d) => s + scale (entry x.1 i) x.2) s ρ =
      s ρ + ∑ g ∈ range A.length, at2 A g i * B.getD g 0 ρ
  | [], _, s, _ => by simp
  | a :: A, [], s, h => by simp at h
  | a :: A, b :: B, s, h => by
    rw [List.zip_cons_cons, List.foldl_cons, mulT_fold i ρ A B _ (by simpa using h), List.length_cons,
      sum_range_succ']
    simp only [at2, List.getD_cons_succ, List.getD_cons_zero, Pi.add_apply, scale, entry]
    ring

theorem mulT_get {A : List (List K)} {B : List (Pt K d)} (h : A.length = B.length) {c i : ℕ}
    (hi : i < c) (ρ : Fin d) : (mulT A c B).getD i 0 ρ =
      ∑ g ∈ range A.length, at2 A g i * B.getD g 0 ρ := by
  have e : (mulT A c B).getD i 0 = (List.zip A B).foldl
      (fun s (x : List K × Pt K d) => s + scale (entry x.1 i) x.2) (fun _ => 0) := by
    simp [mulT, List.getD_eq_getElem?_getD, hi]
  rw [e, mulT_fold i ρ A B _ h, zero_add]

theorem mulT_length (A : List (List K)) (c : ℕ) (B : List (Pt K d)) : (mulT A c B).length = c := by
  simp [mulT]

theorem solve_length (D : Svd K) (eps : K) (c : ℕ) (b : List (Pt K d)) :
    (D.solve eps c b).length = c := mulT_length _ _ _

theorem IsSvd.decomp {A : List (List K)} {D : Svd K} (h : IsSvd A D) :
    Decomp A.length (ncols A) D.s.length (at2 A) (at2 D.u) (fun i => D.s.getD i 0) (at2 D.vt) where
  left := h.left
  right := h.right
  nonneg i hi := by
    rw [List.getD_eq_getElem?_getD, List.getElem?_eq_getElem hi]
    exact h.nonneg _ (List.getElem_mem hi)
  eq := h.product

theorem solve_get {A : List (List K)} {D : Svd K} (h : IsSvd A D) (eps : K) {b : List (Pt K d)}
    (hb : A.length = b.length) {j : ℕ} (hj : j < ncols A) (ρ : Fin d) :
    (D.solve eps (ncols A) b).getD j 0 ρ = truncSol A.length D.s.length (at2 D.u)
      (fun i => D.s.getD i 0) (at2 D.vt) eps (fun g => b.getD g 0 ρ) j := by
  have hu := mulT_length D.u D.s.length b
  rw [Svd.solve, mulT_get (by rw [List.length_zipWith, hu, h.vt_rows, min_self]) hj, truncSol, comb,
    h.vt_rows]
  apply sum_congr rfl
  intro i hi
  have hi := mem_range.mp hi
  congr 1
  have e : (List.zipWith (Svd.cut eps) D.s (mulT D.u D.s.length b)).getD i 0 =
      Svd.cut eps (D.s.getD i 0) ((mulT D.u D.s.length b).getD i 0) := by
    simp [List.getD_eq_getElem?_getD, hi, hu]
  rw [e, Svd.cut, mulT_get (h.u_rows.trans hb) hi, h.u_rows, truncCoeff]
  by_cases h2 : eps < D.s.getD i 0
  · rw [if_pos h2, if_pos (by simpa [Cmp.lt] using h2)]
  · rw [if_neg h2, if_neg (by simpa [Cmp.lt] using h2)]

theorem solves_iff {A : List (List K)} {x b : List (Pt K d)} (hr : Rect A) (hx : x.length = ncols A)
    (hb : A.length = b.length) : Solves A x b ↔
      ∀ ρ g, g < A.length → mv (ncols A) (at2 A) (fun j => x.getD j 0 ρ) g = b.getD g 0 ρ := by
  constructor
  · rintro ⟨-, -, h⟩ ρ g hg
    rw [← h g hg ρ, hx]; rfl
  · intro h
    refine ⟨hb, fun row hrow => (hr row hrow).trans hx.symm, fun g hg ρ => ?_⟩
    rw [← h ρ g hg, hx]; rfl

theorem rect_of_solves {A : List (List K)} {x b : List (Pt K d)} (h : Solves A x b) : Rect A := by
  intro row hrow
  cases A with
  | nil => cases hrow
  | cons a A => rw [h.2.1 row hrow]; exact (h.2.1 a (by simp)).symm

theorem ncols_of_solves {A : List (List K)} {x b : List (Pt K d)} (h : Solves A x b) (hA : A ≠ []) :
    x.length = ncols A := by
  cases A with
  | nil => exact absurd rfl hA
  | cons a A => exact (h.2.1 a (by simp)).symm

/-- every matrix is the matrix of its entries -/
theorem mat_at2 {A : List (List K)} (h : Rect A) : mat A.length (ncols A) (at2 A) = A := by
  apply List.ext_getElem (by simp)
  intro g hg hg'
  have hlen := h _ (List.getElem_mem hg')
  apply List.ext_getElem (by simp [mat, hlen])
  intro j hj hj'
  simp [mat, at2, List.getD_eq_getElem?_getD, hg', hj']

theorem rect_mat (r c : ℕ) (f : ℕ → ℕ → K) : Rect (mat r c f) := by
  intro row hrow
  rcases Nat.eq_zero_or_pos r with rfl | hr
  · simp [mat] at hrow
  · rw [ncols_mat f hr]
    simp only [mat, List.mem_map] at hrow
    obtain ⟨g, _, rfl⟩ := hrow
    simp

theorem at2_mat {r c g j : ℕ} (f : ℕ → ℕ → K) (hg : g < r) (hj : j < c) :
    at2 (mat r c f) g j = f g j := by
  simp [mat, at2, List.getD_eq_getElem?_getD, hg, hj]

theorem sqSize_eq (x : List (Pt K d)) {c : ℕ} (h : x.length = c) :
    sqSize x = ∑ ρ, ∑ j ∈ range c, (x.getD j 0 ρ) ^ 2 := by
  rw [sqSize, sum_comm, h]

theorem svd_run_empty (decompose : List (List K) → Svd K) (eps : K) {A : List (List K)} (h : ncols A = 0)
    (b : List (Pt K d)) : (Solver.svd decompose eps).run A b = [] :=
  List.eq_nil_of_length_eq_zero (by rw [Solver.shape, h])


theorem Decomp.congr {r c k : ℕ} {A A' u : ℕ → ℕ → K} {s : ℕ → K} {v : ℕ → ℕ → K}
    (h : Decomp r c k A u s v) (e : ∀ g j, g < r → j < c → A g j = A' g j) :
    Decomp r c k A' u s v :=
  ⟨h.left, h.right, h.nonneg, fun g j hg hj => by rw [← e g j hg hj, h.eq g j hg hj]⟩

theorem truncSol_congr {r k : ℕ} {u : ℕ → ℕ → K} {s : ℕ → K} {v : ℕ → ℕ → K} {eps : K} {b b' : ℕ → K}
    (h : ∀ g, g < r → b g = b' g) : truncSol r k u s v eps b = truncSol r k u s v eps b' := by
  have : truncCoeff r u s eps b = truncCoeff r u s eps b' := by
    funext i
    rw [truncCoeff, truncCoeff, sum_congr rfl (fun g hg => by rw [h g (mem_range.mp hg)])]
  rw [truncSol, truncSol, this]

/-- what the solver computes for a system given by its entries -/
theorem svd_run {decompose : List (List K) → Svd K} (hd : Decomposes decompose) (eps : K) {r c : ℕ}
    (hr : 0 < r) (hc : 0 < c) (f : ℕ → ℕ → K) :
    ∃ (k : ℕ) (u : ℕ → ℕ → K) (s : ℕ → K) (v : ℕ → ℕ → K), Decomp r c k f u s v ∧
      ∀ b : List (Pt K d), b.length = r → ∀ j, j < c → ∀ ρ,
        fn ((Solver.svd decompose eps).run (mat r c f) b) j ρ =
          truncSol r k u s v eps (fun g => fn b g ρ) j := by
  have hne : mat r c f ≠ [] := by
    intro h
    have := congrArg List.length h
    rw [mat_length] at this
    simp only [List.length_nil] at this
    omega
  have hS := hd (mat r c f) (rect_mat r c f) hne (by rw [ncols_mat f hr]; exact hc)
  have hD := hS.decomp
  rw [mat_length, ncols_mat f hr] at hD
  refine ⟨_, _, _, _, hD.congr (fun g j hg hj => at2_mat f hg hj), ?_⟩
  intro b hb j hj ρ
  have h1 := solve_get hS eps (b := b) (by rw [mat_length, hb]) (by rw [ncols_mat f hr]; exact hj) ρ
  rw [getD_eq_fn (by rw [solve_length, ncols_mat f hr]; exact hj), mat_length] at h1
  refine Eq.trans h1 ?_
  rw [truncSol_congr (b' := fun g => fn b g ρ)]
  intro g hg
  rw [getD_eq_fn (by omega)]

/-- every real matrix has a decomposition -/
theorem exists_svd (A : List (List ℝ)) : ∃ D : Svd ℝ, IsSvd A D := by
  obtain ⟨u, s, v, h⟩ := exists_decomp A.length (ncols A) (at2 A)
  let k := min A.length (ncols A)
  have hl : ((List.range k).map s).length = k := by simp
  have hs : ∀ i, i < k → ((List.range k).map s).getD i 0 = s i := by
    intro i hi
    simp [List.getD_eq_getElem?_getD, hi]
  refine ⟨⟨mat A.length k u, (List.range k).map s, mat k (ncols A) v⟩, ?_⟩
  constructor
  · exact hl
  · exact mat_length _ _ _
  · intro row hrow
    simp only [mat, List.mem_map] at hrow
    obtain ⟨g, _, rfl⟩ := hrow
    simp
  · rw [hl]; exact mat_length _ _ _
  · intro row hrow
    simp only [mat, List.mem_map] at hrow
    obtain ⟨g, _, rfl⟩ := hrow
    simp
  · intro i i' hi hi'
    rw [hl] at hi hi'
    rw [← h.left i i' hi hi']
    exact sum_congr rfl (fun g hg => by
      rw [at2_mat u (mem_range.mp hg) hi, at2_mat u (mem_range.mp hg) hi'])
  · intro i i' hi hi'
    rw [hl] at hi hi'
    rw [← h.right i i' hi hi']
    exact sum_congr rfl (fun g hg => by
      rw [at2_mat v hi (mem_range.mp hg), at2_mat v hi' (mem_range.mp hg)])
  · intro σ hσ
    simp only [List.mem_map, List.mem_range] at hσ
    obtain ⟨i, hi, rfl⟩ := hσ
    exact h.nonneg i hi
  · intro g j hg hj
    rw [h.eq g j hg hj]
    dsimp only
    rw [hl]
    exact sum_congr rfl (fun i hi => by
      rw [at2_mat u hg (mem_range.mp hi), at2_mat v (mem_range.mp hi) hj, hs i (mem_range.mp hi)])

/-- a decomposition of all real matrices exists -/
theorem exists_decomposes : ∃ decompose : List (List ℝ) → Svd ℝ, Decomposes decompose := by
  choose f hf using exists_svd
  exact ⟨f, fun A _ _ _ => hf A⟩

end BSpline
