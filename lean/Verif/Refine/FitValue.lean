import Verif.Refine.Fit
import Verif.Theory.LeastSquares
import Verif.Theory.SchoenbergWhitney

/-!
# Values of the fitting functions over an ordered field
-/

set_option linter.unusedSectionVars false

namespace BSpline

open Finset fwdDiff

/-! ### Differences -/

/-- the difference operator applied to a sequence is its `κ`-th forward difference -/
theorem sum_differenceOperator {G : Type} [AddCommGroup G] (P : ℕ → G) {c κ : ℕ} (hκ : 1 ≤ κ) :
    ∀ i, i + κ < c → ∑ j ∈ range c, differenceOperator κ i j • P j = (Δ_[1]^[κ] P) i := by
  induction κ, hκ using Nat.le_induction with
  | base =>
    intro i hi
    have e : ∀ j ∈ range c, differenceOperator 1 i j • P j =
        (if j = i then -P i else 0) + (if j = i + 1 then P (i + 1) else 0) := by
      intro j _
      simp only [differenceOperator]
      by_cases h1 : j = i
      · subst h1
        rw [if_pos rfl, if_pos rfl, if_neg (by omega)]; simp
      · rw [if_neg (Ne.symm h1), if_neg h1, zero_add]
        by_cases h2 : j = i + 1
        · rw [if_pos h2.symm, if_pos h2, h2, one_smul]
        · rw [if_neg (Ne.symm h2), if_neg h2, zero_smul]
    rw [sum_congr rfl e, sum_add_distrib, sum_ite_eq' (range c) i, sum_ite_eq' (range c) (i + 1),
      if_pos (mem_range.mpr (by omega)), if_pos (mem_range.mpr (by omega))]
    simp only [Function.iterate_one, fwdDiff]
    abel
  | succ κ hκ ih =>
    intro i hi
    obtain ⟨k, rfl⟩ : ∃ k, κ = k + 1 := ⟨κ - 1, by omega⟩
    have e : ∀ j ∈ range c, differenceOperator (k + 1 + 1) i j • P j =
        differenceOperator (k + 1) (i + 1) j • P j - differenceOperator (k + 1) i j • P j := by
      intro j _
      rw [show differenceOperator (k + 1 + 1) i j =
        differenceOperator (k + 1) (i + 1) j - differenceOperator (k + 1) i j from rfl, sub_smul]
    rw [sum_congr rfl e, sum_sub_distrib, ih (i + 1) (by omega), ih i (by omega),
      Function.iterate_succ_apply' _ (k + 1)]
    rfl

theorem differenceOperator_zero (i j : ℕ) : differenceOperator 0 i j = 0 := rfl

variable {K : Type} [Field K] [LinearOrder K] [IsStrictOrderedRing K] {d : ℕ}

theorem foldl_range_eq_sum {V : Type} [AddCommMonoid V] (f : ℕ → V) (m : ℕ) (v : V) :
    (List.range m).foldl (fun v i => v + f i) v = v + ∑ i ∈ range m, f i := by
  rw [List.range_eq_range', foldl_add_eq_sum, zero_add, range_eq_Ico]

theorem gramE_eq (r : ℕ) (f : ℕ → ℕ → K) (i j : ℕ) :
    gramE r f i j = ∑ g ∈ range r, f g i * f g j := by
  rw [gramE, foldl_range_eq_sum (fun g => f g i * f g j), zero_add]

theorem rhsE_eq (r : ℕ) (A : ℕ → ℕ → K) (B : ℕ → Pt K d) (i : ℕ) (ρ : Fin d) :
    rhsE r A B i ρ = ∑ g ∈ range r, A g i * B g ρ := by
  rw [rhsE, foldl_range_eq_sum (fun g => scale (A g i) (B g)), show (fun _ => 0 : Pt K d) = 0 from rfl,
    zero_add, Finset.sum_apply]
  rfl

/-- weight, number of rows and entries of the penalty -/
def penLam (pen : Option (Penalization K)) : K := match pen with | none => 0 | some q => q.lambda
def penRows (l : ℕ → ℕ) (pen : Option (Penalization K)) : ℕ :=
  match pen with | none => 0 | some q => l q.kappa
def penD (pen : Option (Penalization K)) (i j : ℕ) : K :=
  match pen with | none => 0 | some q => ((differenceOperator q.kappa i j : ℤ) : K)

theorem normE_eq (r : ℕ) (A : ℕ → ℕ → K) (l : ℕ → ℕ) (pen : Option (Penalization K)) (i j : ℕ) :
    normE r A l pen i j = nm r (penRows l pen) A (penD pen) (penLam pen) i j := by
  rw [nm]
  cases pen with
  | none => simp [normE, gramE_eq, penLam]
  | some q => simp only [normE, gramE_eq, penLam, penRows, penD]

/-! ### Linear systems -/

theorem solves_mat {r c : ℕ} {A : ℕ → ℕ → K} {x b : List (Pt K d)} (hx : x.length = c)
    (hb : b.length = r) : Solves (mat r c A) x b ↔
      ∀ g, g < r → ∀ ρ, ∑ i ∈ range c, A g i * fn x i ρ = fn b g ρ := by
  have e : ∀ g, g < r → ∀ ρ, (∑ i ∈ range x.length, ((mat r c A).getD g []).getD i 0 * (x.getD i 0) ρ =
      (b.getD g 0) ρ ↔ ∑ i ∈ range c, A g i * fn x i ρ = fn b g ρ) := by
    intro g hg ρ
    rw [hx]
    have e1 : (b.getD g 0) ρ = fn b g ρ := by
      rw [fn_lt (by omega), List.getD_eq_getElem?_getD, List.getElem?_eq_getElem (by omega)]; rfl
    have e2 : ∀ i ∈ range c, ((mat r c A).getD g []).getD i 0 * (x.getD i 0) ρ = A g i * fn x i ρ := by
      intro i hi
      rw [mem_range] at hi
      have e3 : x.getD i 0 = fn x i := by
        rw [fn_lt (by omega), List.getD_eq_getElem?_getD, List.getElem?_eq_getElem (by omega)]; rfl
      rw [e3]
      simp [mat, List.getD_eq_getElem?_getD, hg, hi]
    rw [e1, sum_congr rfl e2]
  constructor
  · rintro ⟨-, -, h⟩ g hg ρ
    exact (e g hg ρ).mp (h g (by rw [mat_length]; exact hg) ρ)
  · intro h
    refine ⟨by rw [mat_length, hb], ?_, ?_⟩
    · intro row hrow
      simp only [mat, List.mem_map] at hrow
      obtain ⟨g, _, rfl⟩ := hrow
      simp [hx]
    · intro g hg ρ
      rw [mat_length] at hg
      exact (e g hg ρ).mpr (h g hg ρ)

/-- an exact solver solves the normal equations -/
theorem exact_normal {solver : Solver K d} (hs : solver.Exact) {r c : ℕ} (hc : 0 < c)
    (A : ℕ → ℕ → K) (l : ℕ → ℕ) (pen : Option (Penalization K)) (hl : 0 ≤ penLam pen)
    (B : ℕ → Pt K d) {b : List (Pt K d)} (hb : b = (List.range c).map (rhsE r A B)) (ρ : Fin d) :
    ∀ i, i < c → ∑ j ∈ range c, nm r (penRows l pen) A (penD pen) (penLam pen) i j *
        fn (solver.run (mat c c (normE r A l pen)) b) j ρ = ∑ g ∈ range r, A g i * B g ρ := by
  have hlen : (solver.run (mat c c (normE r A l pen)) b).length = c := by
    rw [solver.shape, ncols_mat _ hc]
  choose x hx using fun ρ : Fin d => normal_solvable r (penRows l pen) c A (penD pen) hl
    (fun g => B g ρ)
  have hfb : ∀ i, i < c → ∀ ρ, fn b i ρ = ∑ g ∈ range r, A g i * B g ρ := by
    intro i hi ρ
    rw [hb, fn_map_range _ hi, rhsE_eq]
  have key := hs (mat c c (normE r A l pen)) b ⟨(List.range c).map (fun i ρ => x ρ i), by
    rw [solves_mat (by simp) (by rw [hb]; simp)]
    intro i hi ρ
    rw [hfb i hi ρ, ← hx ρ i hi]
    apply sum_congr rfl
    intro j hj
    rw [fn_map_range _ (mem_range.mp hj), normE_eq]⟩
  rw [solves_mat hlen (by rw [hb]; simp)] at key
  intro i hi
  rw [← hfb i hi, ← key i hi ρ]
  apply sum_congr rfl
  intro j _
  rw [normE_eq]

/-! ### Evaluation as a linear form in the control points -/

theorem evaluate_sum {p n : ℕ} {U : List K} {P : List (Pt K d)} (h : ClampedKnots 0 1 p n U)
    (hP : P.length = n + 1) {u : K} (h0 : 0 ≤ u) (h1 : u ≤ 1) :
    (canon p U P).evaluate u = .ok (.ok (∑ i ∈ range (n + 1), nb p n U i u • fn P i)) := by
  obtain ⟨j, hs⟩ := h.clamp.exists_span h0 h1
  rw [Curve.evaluate, evaluateDerivative_eq h hP (Nat.zero_le p) h0 h1 hs,
    ← fullSum_eq_cv h.clamp hs (Nat.zero_le p)]
  rfl

theorem nb_eq_Bs {a b : K} {p n : ℕ} {U : List K} (h : ClampedKnots a b p n U) {u : K} {j : ℕ}
    (hs : IsSpan (fn U) n u j) (i : ℕ) : nb p n U i u = Bs (fn U) u (delta j) p i := by
  rw [nb, Nf_eq_Bs _ (Nat.zero_le n), Nat.sub_zero, base_eq_delta h.clamp hs]

end BSpline
