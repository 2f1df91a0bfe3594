import Verif.Refine.IeeeFit

/-!
# Least-squares fits in the arithmetic of `f64`: C122

The normal equations of a fit are computed with rounding errors and solved by nalgebra. Whatever its solution
is, if it satisfies the system it was given up to a residual, then it satisfies the exact normal equations up
to this residual and a bound for the rounding errors, so its exact cost is close to optimal (C98).
-/

set_option linter.unusedSectionVars false

namespace BSpline

open Finset Ieee

variable {K : Type} [Field K] [LinearOrder K] [IsStrictOrderedRing K] {F : Format K} {d : ℕ}

/-- the rounding error of the normal equations with `r` rows and `c` unknowns: data up to `W`, unknowns up
to `M`, penalty up to `S` -/
def fitRound (F : Format K) (p r c : ℕ) (W M S : K) : K :=
  (F.phi ^ (10 * p + 4 + r) - 1) * (r * (W + M) + S * M) + r * (10 * 3 ^ (p + 2)) * (c * M + W + 1) * F.eta

theorem fitErrorOf_none_ieee [IntCast (Ieee F)] {n m mp p : ℕ} {pen : Option (Penalization (Ieee F))}
    {pen' : Option (Penalization K)} (hpen : PenIs pen pen') {b : Bool} (h : fitErrorOf n m mp p pen b = none) :
    n ≤ m ∧ m = mp ∧ p ≤ n ∧ 0 ≤ penLam pen' := by
  rw [fitErrorOf_eq] at h
  cases h2 : checkErrorOf n m mp p pen with
  | some e => rw [h2] at h; simp at h
  | none =>
    rw [h2] at h
    dsimp only at h
    obtain ⟨h3, h4, h5, h6⟩ := checkErrorOf_none h2
    refine ⟨h3, h4, h5, ?_⟩
    match pen, pen', hpen with
    | none, none, _ => exact le_rfl
    | some q, some q', ⟨h8, _, _⟩ =>
      unfold penErrorOf at h
      dsimp only at h
      split at h
      · simp at h
      · rename_i h7
        show 0 ≤ q'.lambda
        rw [h8.cmp_lt is_zero] at h7
        simpa using h7

theorem fitRound_le {p r c : ℕ} {W M S A B : K} (hW : 0 ≤ W) (hM : 0 ≤ M) (hA : A ≤ r * (10 * under F p + 4 * F.eta))
    (hB : B ≤ 2 * (r * (5 * under F p * W + 7 * F.eta))) :
    (F.phi ^ (10 * p + 4 + r) - 1) * (r * (W + M) + S * M) + (c * (A * M) + B) ≤ fitRound F p r c W M S := by
  rw [fitRound]
  refine add_le_add le_rfl ?_
  have hu := under_le (F := F) p
  have he := F.eta_nonneg
  have h3 : (3 : K) ≤ 3 ^ (p + 1) := by
    calc (3 : K) = 3 ^ 1 := by norm_num
      _ ≤ 3 ^ (p + 1) := pow_le_pow_right₀ (by norm_num) (by omega)
  have e : (3 : K) ^ (p + 2) = 3 * 3 ^ (p + 1) := by ring
  rw [e]
  generalize (3 : K) ^ (p + 1) = t at *
  have hr : (0 : K) ≤ r := Nat.cast_nonneg _
  have hc : (0 : K) ≤ c := Nat.cast_nonneg _
  have ht := mul_le_mul_of_nonneg_right h3 he
  have hA' : A ≤ r * (30 * (t * F.eta)) := hA.trans (mul_le_mul_of_nonneg_left (by linarith) hr)
  have h1 : c * (A * M) ≤ c * (r * (30 * (t * F.eta)) * M) :=
    mul_le_mul_of_nonneg_left (mul_le_mul_of_nonneg_right hA' hM) hc
  have h2 := mul_le_mul_of_nonneg_right hu hW
  have h4 : B ≤ 2 * (r * (15 * (t * F.eta) * (W + 1))) := by
    refine hB.trans (mul_le_mul_of_nonneg_left (mul_le_mul_of_nonneg_left ?_ hr) (by norm_num))
    have : 0 ≤ t * F.eta * W := mul_nonneg (mul_nonneg (by linarith) he) hW
    linarith
  calc c * (A * M) + B ≤ c * (r * (30 * (t * F.eta)) * M) + 2 * (r * (15 * (t * F.eta) * (W + 1))) := add_le_add h1 h4
    _ = _ := by ring

/-- the matrix of computed entries and its exact values -/
theorem forall₂_mat {r c : ℕ} {f : ℕ → ℕ → Ieee F} {f' : ℕ → ℕ → K} (h : ∀ i j, i < r → j < c → Is (f i j) (f' i j)) :
    List.Forall₂ (List.Forall₂ Is) (mat r c f) (mat r c f') := by
  rw [mat, mat, List.forall₂_map_left_iff, List.forall₂_map_right_iff, List.forall₂_same]
  intro i hi
  rw [List.forall₂_map_left_iff, List.forall₂_map_right_iff, List.forall₂_same]
  intro j hj
  exact h i j (List.mem_range.mp hi) (List.mem_range.mp hj)

/-- a square system with `k` unknowns -/
def Square {R : Type} (k : ℕ) (A : List (List R)) (b : List (Pt R d)) : Prop :=
  A.length = k ∧ b.length = k ∧ ∀ row ∈ A, row.length = k

theorem square_mat {R : Type} {k : ℕ} (f : ℕ → ℕ → R) {b : List (Pt R d)} (hb : b.length = k) :
    Square k ((List.range k).map fun g => (List.range k).map (f g)) b := by
  refine ⟨by simp, hb, fun row hrow => ?_⟩
  obtain ⟨g, -, rfl⟩ := List.mem_map.mp hrow
  simp

theorem Square.run_length {R : Type} {k : ℕ} (hk : 1 ≤ k) {A : List (List R)} {b : List (Pt R d)} (h : Square k A b)
    (solver : Solver R d) : (solver.run A b).length = k := by
  obtain ⟨h1, -, h3⟩ := h
  rw [solver.shape]
  cases A with
  | nil => simp at h1; omega
  | cons row A => exact h3 row (by simp)

/-- every answer of the right size has a residual -/
theorem Square.residual {k : ℕ} {A : List (List (Ieee F))} {b : List (Pt (Ieee F) d)} (h : Square k A b)
    {A' : List (List K)} {b' X : List (Pt K d)} (hA : List.Forall₂ (List.Forall₂ Is) A A') (hb : List.Forall₂ PtIs b b')
    (hX : X.length = k) : ∃ rho, SolvesWithin rho A' X b' := by
  obtain ⟨h1, h2, h3⟩ := h
  have h4 : ∀ row ∈ A', row.length = k := by
    clear h1
    induction hA with
    | nil => simp
    | cons hab _ ih =>
      intro row hrow
      rcases List.mem_cons.mp hrow with rfl | hrow
      · rw [← hab.length_eq]; exact h3 _ (by simp)
      · exact ih (fun row hrow => h3 row (by simp [hrow])) row hrow
  refine ⟨∑ g ∈ range A'.length, ∑ r, |∑ i ∈ range X.length, (A'.getD g []).getD i 0 * (X.getD i 0) r - (b'.getD g 0) r|,
    by rw [← hA.length_eq, ← hb.length_eq, h1, h2], fun row hrow => by rw [h4 row hrow, hX], fun g hg r => ?_⟩
  refine le_trans ?_ (single_le_sum (f := fun g => ∑ r, |∑ i ∈ range X.length, (A'.getD g []).getD i 0 *
    (X.getD i 0) r - (b'.getD g 0) r|) (fun _ _ => sum_nonneg fun _ _ => abs_nonneg _) (mem_range.mpr hg))
  exact single_le_sum (f := fun r => |∑ i ∈ range X.length, (A'.getD g []).getD i 0 *
    (X.getD i 0) r - (b'.getD g 0) r|) (fun _ _ => abs_nonneg _) (mem_univ r)

/-- the second product of a penalised fit -/
theorem penalty_products [IntCast (Ieee F)] {mm : Products (Ieee F) d} (h : mm.AnyOrder) (c : ℕ) (l : ℕ → ℕ)
    (pen : Option (Penalization (Ieee F))) :
    ∃ E : ℕ → ℕ → Ieee F,
      (∀ q, pen = some q → mm.gram (mat (l q.kappa) c
        (fun i j => ((differenceOperator q.kappa i j : ℤ) : Ieee F))) c = mat c c E) ∧
      ∀ i j, i < c → j < c → ∀ q, pen = some q → AnySum (fun h => ((differenceOperator q.kappa h i : ℤ) : Ieee F))
        (fun h => ((differenceOperator q.kappa h j : ℤ) : Ieee F)) (List.range (l q.kappa)) (E i j) := by
  cases pen with
  | none => exact ⟨fun _ _ => 0, fun q hq => by simp at hq, fun _ _ _ _ q hq => by simp at hq⟩
  | some q =>
    obtain ⟨E, h1, h2⟩ := h.gram_mat (l q.kappa) c (fun i j => ((differenceOperator q.kappa i j : ℤ) : Ieee F))
    refine ⟨E, fun q' hq => ?_, fun i j hi hj q' hq => ?_⟩
    · obtain rfl := Option.some.inj hq
      exact h1
    · obtain rfl := Option.some.inj hq
      exact h2 i j hi hj

theorem normEntry_normG [IntCast (Ieee F)] {r i j : ℕ} {f : ℕ → ℕ → Ieee F} {l : ℕ → ℕ} {pen : Option (Penalization (Ieee F))}
    {G E : ℕ → ℕ → Ieee F} (hG : AnySum (fun g => f g i) (fun g => f g j) (List.range r) (G i j))
    (hE : ∀ q, pen = some q → AnySum (fun h => ((differenceOperator q.kappa h i : ℤ) : Ieee F))
        (fun h => ((differenceOperator q.kappa h j : ℤ) : Ieee F)) (List.range (l q.kappa)) (E i j)) :
    NormEntry r f l pen i j (normG G E pen i j) := by
  cases pen with
  | none => exact ⟨_, hG, rfl⟩
  | some q => exact ⟨_, hG, _, hE q rfl, rfl⟩

theorem choose_mat {r c : ℕ} {Q : ℕ → ℕ → K → Prop} (h : ∀ i j, i < r → j < c → ∃ z, Q i j z) :
    ∃ f : ℕ → ℕ → K, ∀ i j, i < r → j < c → Q i j (f i j) := by
  have : ∀ i j, ∃ z, i < r → j < c → Q i j z := fun i j => by
    by_cases h1 : i < r ∧ j < c
    · obtain ⟨z, hz⟩ := h i j h1.1 h1.2
      exact ⟨z, fun _ _ => hz⟩
    · exact ⟨0, fun h2 h3 => (h1 ⟨h2, h3⟩).elim⟩
  choose f hf using this
  exact ⟨f, hf⟩

theorem choose_rhs {r : ℕ} {Q : ℕ → Fin d → K → Prop} (h : ∀ i, i < r → ∀ ρ, ∃ z, Q i ρ z) :
    ∃ f : ℕ → Pt K d, ∀ i, i < r → ∀ ρ, Q i ρ (f i ρ) := by
  have : ∀ i, ∃ z : Pt K d, i < r → ∀ ρ, Q i ρ (z ρ) := fun i => by
    by_cases h1 : i < r
    · choose z hz using h i h1
      exact ⟨z, fun _ => hz⟩
    · exact ⟨fun _ => 0, fun h2 => (h1 h2).elim⟩
  choose f hf using this
  exact ⟨f, hf⟩

/-- **C122** A fit with loose ends in floating-point arithmetic; the matrix products may add in any order. The solver gets a matrix and a right-hand side
with finite entries, whose exact values are `A'` and `b'`. If the exact values `X` of its answer are at most `M`
and satisfy this system up to `rho`, then the exact cost of the exact curve with these control points exceeds
the cost of any other control polygon, and the squared distance to its curve at the parameters, by at most
`2 (rho + fitRound)` times the distance of the two polygons. -/
theorem C122_loose [IntCast (Ieee F)] {p n m : ℕ} {U : List (Ieee F)} {V : List K} {kn : Knots (Ieee F)}
    {pts P : DataPoints (Ieee F) d} {D : List (Pt K d)} {params : Parameters (Ieee F)} {T : List K}
    {mm : Products (Ieee F) d} {solver : Solver (Ieee F) d} {pen : Option (Penalization (Ieee F))}
    {pen' : Option (Penalization K)} (hmm : mm.AnyOrder) (hroom : Room F p) (hk : Knots.new p U = .ok kn) (hU : List.Forall₂ Is U V) (hV : ClampedKnots 0 1 p n V)
    (h1 : 1 ≤ p) (hD : List.Forall₂ PtIs pts D) (hDl : D.length = m + 1)
    (hτ : List.Forall₂ Is params.vector T) (hv : params.vector.length = params.segments + 1)
    (hT : ∀ x ∈ T, 0 ≤ x ∧ x ≤ 1) (hpen : PenIs pen pen') {h : K} (hh : 0 < h)
    (hgap : ∀ s ∈ V, ∀ t ∈ V, s < t → h ≤ t - s) (hhm : 2 / h ≤ F.max) {W : K} (hW : ∀ q ∈ D, ∀ r, |q r| ≤ W)
    (hW0 : 0 ≤ W) (hphi : F.phi ^ (10 * p + 5 + m) ≤ 2) (hmax : 4 * ((m + 1) * (W + 1)) + 2 * penSize pen' ≤ F.max)
    (hfit : Loose.fitWith mm solver kn pts params pen = .ok (.ok P)) :
    ∃ (A : List (List (Ieee F))) (b : List (Pt (Ieee F) d)) (A' : List (List K)) (b' : List (Pt K d)),
      P = solver.run A b ∧ Square (n + 1) A b ∧ List.Forall₂ (List.Forall₂ Is) A A' ∧ List.Forall₂ PtIs b b' ∧
      ∀ X, List.Forall₂ PtIs P X → ∀ M, 0 ≤ M → (∀ q ∈ X, ∀ r, |q r| ≤ M) → ∀ rho, SolvesWithin rho A' X b' →
      ∃ (c : Curve K d) (e : K), Built c p V X ∧ X.length = n + 1 ∧ SqError c T D (range (m + 1)) e ∧
      ∀ (P' : List (Pt K d)) (c' : Curve K d) (e' : K), P'.length = n + 1 → Built c' p V P' →
        SqError c' T D (range (m + 1)) e' →
        ∀ (Y : List (Pt K d)) (δ : K), Y.length = m + 1 →
        (∀ g, g ≤ m → c'.evaluate (T.getD g 0) = .ok (.ok (Y.getD g 0))) →
        SqError c T Y (range (m + 1)) δ →
        e + penaltyCost pen' X + δ ≤ e' + penaltyCost pen' P' +
          2 * (rho + fitRound F p (m + 1) (n + 1) W M (penSize pen')) * l1Dist X P' := by
  have hl : U.length = n + p + 2 := hU.length_eq.trans hV.length
  have hm : List.length pts = m + 1 := hD.length_eq.trans hDl
  obtain ⟨-, rfl⟩ := knots_new_inv hk
  obtain ⟨G, hG, hG'⟩ := hmm.gram_mat (m + 1) (n + 1) (fun g i => nb p n U i (fn params.vector g))
  obtain ⟨E, hE, hE'⟩ := penalty_products hmm (n + 1) (fun κ => n + 1 - κ) pen
  obtain ⟨bb, hbb, hbb'⟩ := hmm.mulT_mat (m + 1) (n + 1) (fun g i => nb p n U i (fn params.vector g)) hm
  rw [loose_fitWith_ok mm hl h1 hm hv solver pen hG hE (by rw [hbb]; simp), hbb] at hfit
  have hfit := Except.ok.inj hfit
  cases he : fitErrorOf n m params.segments p pen (unif p n U) with
  | some e => rw [he] at hfit; cases hfit
  | none =>
    rw [he] at hfit
    have hfit := Except.ok.inj hfit
    obtain ⟨h2, h3, h4, h5⟩ := fitErrorOf_none_ieee hpen he
    have hTl : T.length = m + 1 := by rw [← hτ.length_eq, hv, ← h3]
    have hT0 : T ≠ [] := by rintro rfl; simp at hTl
    have hD0 : D ≠ [] := by rintro rfl; simp at hDl
    have hu0 := under_nonneg (F := F) p
    have hu1 := hroom.under_small (q := p) le_rfl
    have he0 := F.eta_nonneg
    have he1 := hroom.eta_small
    have hS0 := penSize_nonneg h5
    have hm0 : (0 : K) ≤ m := Nat.cast_nonneg _
    have hmW : 0 ≤ (m : K) * W := mul_nonneg hm0 hW0
    have hx := fun g => hT _ (fn_mem hT0 g)
    have hbas := fun g i => basis_uerr hroom hV hU (fn_is hτ g) (hx g).1 (hx g).2 hh hgap hhm i
    have hunit := fun g => nb_unit hV (hx g).1 (hx g).2
    have hmat := fun i j (hi : i < n + 1) (hj : j < n + 1) => norm_any (r := m + 1) (i := i) (j := j) hroom
      (f := fun g i => nb p n U i (fn params.vector g)) (N := fun g i => nb p n V i (fn T g))
      (fun g _ => hbas g i) (fun g _ => hbas g j) (fun g _ => ((hunit g).1 i).2) (fun g _ => ((hunit g).1 j).2)
      (normEntry_normG (hG' i j hi hj) (hE' i j hi hj)) hpen h5 ((F.phi_mono (by omega)).trans hphi) (by omega)
      (by push_cast; linarith)
    have hrhs := fun (i : ℕ) (hi : i < n + 1) (ρ : Fin d) => rhs_any (r := m + 1) (i := i) hroom (W := W)
      (B := 2 * under F p * W + F.eta)
      (f := fun g i => nb p n U i (fn params.vector g)) (N := fun g i => nb p n V i (fn T g))
      (q := fun g => fn pts g ρ) (Y := fun g => fn D g ρ) (hbb' i hi ρ)
      (fun g _ => hbas g i) (fun g _ => ((hunit g).1 i).2) (fun g _ => ⟨fn_ptIs hD g ρ, hW _ (fn_mem hD0 g) ρ⟩) hW0
      (by linarith) (by rw [show 10 * p + 4 + (m + 1) = 10 * p + 5 + m by omega]; exact hphi)
      (by
        have q1 := mul_le_mul_of_nonneg_right hu1 hW0
        have q2 : (m + 1 : K) * (W + (2 * under F p * W + F.eta)) ≤ (m + 1) * (2 * (W + 1)) :=
          mul_le_mul_of_nonneg_left (by linarith) (by linarith)
        push_cast
        linarith)
    obtain ⟨Ae, hA⟩ := choose_mat hmat
    obtain ⟨be, hbe⟩ := choose_rhs hrhs
    refine ⟨_, _, mat (n + 1) (n + 1) Ae, (List.range (n + 1)).map be, hfit.symm, square_mat _ (by simp),
      forall₂_mat fun i j hi hj => (hA i j hi hj).1, ?_, ?_⟩
    · rw [List.forall₂_map_left_iff, List.forall₂_map_right_iff, List.forall₂_same]
      intro i hi ρ
      exact (hbe i (List.mem_range.mp hi) ρ).1
    intro X hX M hM0 hM rho hrho
    have hPl : List.length P = n + 1 := by rw [← hfit, solver.shape, ncols_mat _ (by omega)]
    have hXl : X.length = n + 1 := hX.length_eq.symm.trans hPl
    have hX0 : X ≠ [] := by rintro rfl; simp at hXl
    have hI : ∀ g ∈ range (m + 1), g < T.length ∧ g < D.length := fun g hg => by rw [mem_range] at hg; omega
    have hb := mkCurve_ok hXl hV.le (show n + p + 1 ≤ V.length by rw [hV.length]; omega)
    refine ⟨canon p V X, _, hb, hXl, (sqError_iff hV hXl hb hI hT).mpr rfl, ?_⟩
    have key : ∀ ρ i, i < n + 1 → |∑ j ∈ range (n + 1), nm (m + 1) (penRows (fun κ => n + 1 - κ) pen')
        (fun g i => nb p n V i (fn T g)) (penD pen') (penLam pen') i j * fn X j ρ -
          ∑ g ∈ range (m + 1), nb p n V i (fn T g) * fn D g ρ| ≤
          rho + fitRound F p (m + 1) (n + 1) W M (penSize pen') := by
      intro ρ i hi
      have h6 := solvesWithin_mat hXl (by simp) hrho i hi ρ
      rw [fn_map_range _ hi] at h6
      refine (normal_ieee (F := F) (k := 10 * p + 4 + (m + 1)) (fun g _ j _ => ((hunit g).1 j).1)
        (fun g _ => (hunit g).1 i) (fun g _ => (hunit g).2.le) h5 le_rfl
        (fun j hj => (hA i j hi hj).2.mono (by omega) le_rfl le_rfl) (hbe i hi ρ).2 hW0 hM0
        (fun j _ => hM _ (fn_mem hX0 j) ρ) h6).trans (add_le_add le_rfl ?_)
      refine fitRound_le hW0 hM0 le_rfl ?_
      have q1 : 2 * under F p * W + F.eta ≤ 5 * under F p * W + 7 * F.eta := by
        have := mul_nonneg hu0 hW0
        linarith
      exact mul_le_mul_of_nonneg_left (mul_le_mul_of_nonneg_left q1 (Nat.cast_nonneg _)) (by norm_num)
    intro P' c' e' hP' hc' he' Y δ hYl hY hδ
    have hYr : ∀ g ∈ range (m + 1), ∀ ρ, fn Y g ρ = ∑ i ∈ range (n + 1), nb p n V i (fn T g) * fn P' i ρ := by
      intro g hg ρ
      rw [mem_range] at hg
      have h7 := hY g (by omega)
      obtain rfl := hc'.eq_canon hV.length hV.le hP'
      rw [getD_eq_fn (by omega), getD_eq_fn (by omega), evaluate_sum hV hP' (hx g).1 (hx g).2] at h7
      injection h7 with h7; injection h7 with h7
      rw [← h7, Finset.sum_apply]
      rfl
    rw [(sqError_iff hV hP' hc' hI hT).mp he', (sqError_iff hV hXl hb (fun g hg => ⟨(hI g hg).1, by
      rw [mem_range] at hg; omega⟩) hT).mp hδ, penaltyCost_eq hXl, penaltyCost_eq hP', sum_comm,
      sum_comm (s := range (m + 1)), sum_comm (s := range (m + 1)), ← sum_add_distrib, ← sum_add_distrib,
      ← sum_add_distrib, l1Dist_eq hXl hP', mul_sum, ← sum_add_distrib]
    apply sum_le_sum
    intro ρ _
    refine le_trans (le_of_eq ?_) (lsq_within h5 (key ρ) (fun j => fn P' j ρ))
    congr 1
    exact sum_congr rfl fun g hg => by rw [hYr g hg ρ]; rfl

theorem fn_tail_dropLast {α : Type} [Zero α] {l : List α} {j : ℕ} (hj : j + 2 < l.length) :
    fn l.tail.dropLast j = fn l (j + 1) := by
  rw [fn_lt (by simp; omega), fn_lt (by omega)]
  simp

/-- the right-hand sides of a fit with fixed ends -/
theorem fixAcc_ieee {p n m : ℕ} {U : List (Ieee F)} {V : List K} {pts : List (Pt (Ieee F) d)} {D : List (Pt K d)}
    {τ : List (Ieee F)} {T : List K} (hroom : Room F p) (hD : List.Forall₂ PtIs pts D) {W : K}
    (hW : ∀ g r, |fn D g r| ≤ W) (hphi : F.phi ^ (10 * p + 5 + m) ≤ 2) (hmax : 12 * ((m + 1) * (W + 1)) ≤ F.max)
    (hbas : ∀ g i, ∃ y, Is (nb p n U i (fn τ g)) y ∧
      UErr F (5 * p) (under F p) y (nb p n V i (fn T g)) (nb p n V i (fn T g)))
    (hone : ∀ g i, nb p n V i (fn T g) ≤ 1) (ρ : Fin d) (i : ℕ) :
    ∃ z, Is (fixAcc p n m U pts τ (i + 1) ρ) z ∧
      UErr F (10 * p + 4 + (m - 1)) (2 * ((m - 1 : ℕ) * (14 * under F p * W + 7 * F.eta))) z
        (∑ g ∈ range (m - 1), nb p n V (i + 1) (fn T (g + 1)) * fixQ p n m V D T (g + 1) ρ)
        (∑ g ∈ range (m - 1), nb p n V (i + 1) (fn T (g + 1)) * (3 * W)) := by
  have hu0 := under_nonneg (F := F) p
  have hu1 := hroom.under_small (q := p) le_rfl
  have he0 := F.eta_nonneg
  have he1 := hroom.eta_small
  have hm0 : (0 : K) ≤ m := Nat.cast_nonneg _
  have hW0 : 0 ≤ W := (abs_nonneg _).trans (hW 0 ρ)
  have hmW : 0 ≤ (m : K) * W := mul_nonneg hm0 hW0
  have huW := mul_nonneg hu0 hW0
  have huW' := mul_le_mul_of_nonneg_right hu1 hW0
  have hQ : ∀ g, g < m - 1 → ∃ w, Is (fixQ p n m U pts τ (g + 1) ρ) w ∧
      UErr F (5 * p + 3) (4 * under F p * W + 3 * F.eta) w (fixQ p n m V D T (g + 1) ρ) (3 * W) := by
    intro g _
    obtain ⟨a, ha, ea⟩ := hbas (g + 1) 0
    obtain ⟨b, hb, eb⟩ := hbas (g + 1) n
    exact fixQ_ieee hroom ha hb ea eb (hone _ _) (hone _ _) (fn_ptIs hD (g + 1) ρ) (fn_ptIs hD 0 ρ)
      (fn_ptIs hD m ρ) (hW _ _) (hW _ _) (hW _ _) (by linarith)
  have step : ∀ i, (∃ z, Is (fixAcc p n m U pts τ i ρ) z) → ∃ z, Is (fixAcc p n m U pts τ (i + 1) ρ) z ∧
      UErr F (10 * p + 4 + (m - 1)) (2 * ((m - 1 : ℕ) * (14 * under F p * W + 7 * F.eta))) z
        (∑ g ∈ range (m - 1), nb p n V (i + 1) (fn T (g + 1)) * fixQ p n m V D T (g + 1) ρ)
        (∑ g ∈ range (m - 1), nb p n V (i + 1) (fn T (g + 1)) * (3 * W)) := by
    rintro i ⟨z, hz⟩
    have hv := hz.mul (is_zero (F := F)) (by rw [mul_zero, abs_zero]; exact F.max_nonneg)
    rw [mul_zero, F.rnd_zero] at hv
    have hle : ((m - 1 : ℕ) : K) ≤ m := by exact_mod_cast Nat.sub_le m 1
    have := rhs_ieee (r := m - 1) (i := i) hroom hv
      (f := fun g i => nb p n U (i + 1) (fn τ (g + 1))) (N := fun g i => nb p n V (i + 1) (fn T (g + 1)))
      (q := fun g => fixQ p n m U pts τ (g + 1) ρ) (Y := fun g => fixQ p n m V D T (g + 1) ρ)
      (B := 14 * under F p * W + 7 * F.eta) (fun g _ => hbas (g + 1) (i + 1)) (fun g _ => hone _ _) hQ
      (by linarith) (by linarith) (by linarith) ((F.phi_mono (by omega)).trans hphi)
      (by
        have q2 : ((m - 1 : ℕ) : K) * (3 * W + (14 * under F p * W + 7 * F.eta)) ≤ m * (6 * (W + 1)) :=
          mul_le_mul hle (by linarith) (by linarith) hm0
        linarith)
      (by linarith)
    rw [fixAcc, foldl_pt, List.range'_eq_map_range, List.foldl_map]
    have e : (fun (s : Ieee F) (g : ℕ) => s + scale (nb p n U (i + 1) (fn τ (1 + g))) (fixQ p n m U pts τ (1 + g)) ρ) =
        fun s g => s + nb p n U (i + 1) (fn τ (g + 1)) * fixQ p n m U pts τ (g + 1) ρ := by
      funext s g
      rw [Nat.add_comm 1 g]
      rfl
    rw [e]
    exact this
  refine step i ?_
  induction i with
  | zero => exact ⟨0, is_zero⟩
  | succ i ih =>
    obtain ⟨z, hz, -⟩ := step i ih
    exact ⟨z, hz⟩

/-- **C122** The same for a fit with fixed ends. Its ends are the first and the last data point whatever the
solver does; its inner control points nearly minimise the exact cost among those of all polygons with these
ends. -/
theorem C122_fixed [IntCast (Ieee F)] {p n m : ℕ} {U : List (Ieee F)} {V : List K} {kn : Knots (Ieee F)}
    {pts P : DataPoints (Ieee F) d} {D : List (Pt K d)} {params : Parameters (Ieee F)} {T : List K}
    {mm : Products (Ieee F) d} {solver : Solver (Ieee F) d} {pen : Option (Penalization (Ieee F))}
    {pen' : Option (Penalization K)} (hmm : mm.AnyOrder) (hroom : Room F p) (hk : Knots.new p U = .ok kn) (hU : List.Forall₂ Is U V) (hV : ClampedKnots 0 1 p n V)
    (h1 : 1 ≤ p) (hD : List.Forall₂ PtIs pts D) (hDl : D.length = m + 1)
    (hτ : List.Forall₂ Is params.vector T) (hv : params.vector.length = params.segments + 1)
    (hT : ∀ x ∈ T, 0 ≤ x ∧ x ≤ 1) (hpen : PenIs pen pen') {h : K} (hh : 0 < h)
    (hgap : ∀ s ∈ V, ∀ t ∈ V, s < t → h ≤ t - s) (hhm : 2 / h ≤ F.max) {W : K} (hW : ∀ q ∈ D, ∀ r, |q r| ≤ W)
    (hW0 : 0 ≤ W) (hphi : F.phi ^ (10 * p + 5 + m) ≤ 2) (hmax : 12 * ((m + 1) * (W + 1)) + 2 * penSize pen' ≤ F.max)
    (hn : 2 ≤ n)
    (hκ : ∀ q, pen = some q → q.kappa + 2 ≤ n) (hfit : Fixed.fitWith mm solver kn pts params pen = .ok (.ok P)) :
    ∃ (A : List (List (Ieee F))) (b : List (Pt (Ieee F) d)) (A' : List (List K)) (b' : List (Pt K d)),
      P.tail.dropLast = solver.run A b ∧ Square (n - 1) A b ∧ List.Forall₂ (List.Forall₂ Is) A A' ∧
      List.Forall₂ PtIs b b' ∧
      ∀ X, List.Forall₂ PtIs P X → ∀ M, 0 ≤ M → (∀ q ∈ X, ∀ r, |q r| ≤ M) → ∀ rho,
      SolvesWithin rho A' X.tail.dropLast b' →
      ∃ (c : Curve K d) (e : K), Built c p V X ∧ X.length = n + 1 ∧ X[0]? = D[0]? ∧ X[n]? = D[m]? ∧
      SqError c T D (Ico 1 m) e ∧
      ∀ (P' : List (Pt K d)) (c' : Curve K d) (e' : K), P'.length = n + 1 → Built c' p V P' →
        P'[0]? = D[0]? → P'[n]? = D[m]? → SqError c' T D (Ico 1 m) e' →
        e + penaltyCost pen' X.tail.dropLast ≤ e' + penaltyCost pen' P'.tail.dropLast +
          2 * (rho + fitRound F p (m - 1) (n - 1) (3 * W) M (penSize pen')) * l1Dist X P' := by
  have hl : U.length = n + p + 2 := hU.length_eq.trans hV.length
  have hm : List.length pts = m + 1 := hD.length_eq.trans hDl
  obtain ⟨-, rfl⟩ := knots_new_inv hk
  obtain ⟨G, hG, hG'⟩ := hmm.gram_mat (m - 1) (n - 1) (fun g i => nb p n U (i + 1) (fn params.vector (g + 1)))
  obtain ⟨E, hE, hE'⟩ := penalty_products hmm (n - 1) (fun κ => n - 1 - κ) pen
  rw [fixed_fitWith_ok mm hl h1 hm hv solver pen (fun _ => ⟨hn, hκ⟩) hG hE] at hfit
  have hfit := Except.ok.inj hfit
  cases he : fitErrorOf n m params.segments p pen (unif p n U) with
  | some e => rw [he] at hfit; cases hfit
  | none =>
    rw [he] at hfit
    have hfit := Except.ok.inj hfit
    obtain ⟨h2, h3, h4, h5⟩ := fitErrorOf_none_ieee hpen he
    have hTl : T.length = m + 1 := by rw [← hτ.length_eq, hv, ← h3]
    have hT0 : T ≠ [] := by rintro rfl; simp at hTl
    have hD0 : D ≠ [] := by rintro rfl; simp at hDl
    have hu0 := under_nonneg (F := F) p
    have hu1 := hroom.under_small (q := p) le_rfl
    have he0 := F.eta_nonneg
    have hS0 := penSize_nonneg h5
    have hm0 : (0 : K) ≤ m := Nat.cast_nonneg _
    have hmW : 0 ≤ (m : K) * W := mul_nonneg hm0 hW0
    have hx := fun g => hT _ (fn_mem hT0 g)
    have hbas := fun g i => basis_uerr hroom hV hU (fn_is hτ g) (hx g).1 (hx g).2 hh hgap hhm i
    have hunit := fun g => nb_unit hV (hx g).1 (hx g).2
    have hle : ((m - 1 : ℕ) : K) ≤ m := by exact_mod_cast Nat.sub_le m 1
    have hmat := fun i j (hi : i < n - 1) (hj : j < n - 1) => norm_any (r := m - 1) (i := i) (j := j) hroom
      (f := fun g i => nb p n U (i + 1) (fn params.vector (g + 1)))
      (N := fun g i => nb p n V (i + 1) (fn T (g + 1)))
      (fun g _ => hbas (g + 1) (i + 1)) (fun g _ => hbas (g + 1) (j + 1)) (fun g _ => ((hunit (g + 1)).1 (i + 1)).2)
      (fun g _ => ((hunit (g + 1)).1 (j + 1)).2)
      (normEntry_normG (hG' i j hi hj) (hE' i j hi hj)) hpen h5 ((F.phi_mono (by omega)).trans hphi) (by omega) (by linarith)
    have hrhs := fun (i : ℕ) (ρ : Fin d) => fixAcc_ieee (p := p) (n := n) (U := U) (V := V) hroom hD
      (fun g r => hW _ (fn_mem hD0 g) r) hphi (by linarith) hbas (fun g i => ((hunit g).1 i).2) ρ i
    obtain ⟨Ae, hAe⟩ := choose_mat hmat
    choose be hb1 hb2 using hrhs
    generalize hA : mat (n - 1) (n - 1) (normG G E pen) = A at hfit
    generalize hB : (List.range (n - 1)).map (fun i => fixAcc p n m U pts params.vector (i + 1)) = B at hfit
    have hrun : (solver.run A B).length = n - 1 := by rw [← hA, solver.shape, ncols_mat _ (by omega)]
    have hPl : List.length P = n + 1 := by rw [← hfit]; simp
    have hfn : ∀ i, i ≤ n → fn P i = fixP n m pts (solver.run A B) i := by
      intro i hi
      rw [← hfit, fn_map_range _ (by omega)]
    have hP0 : fn P 0 = fn pts 0 := by rw [hfn 0 (by omega), fixP, if_pos rfl]
    have hPn : fn P n = fn pts m := by rw [hfn n le_rfl, fixP, if_neg (by omega), if_pos rfl]
    have hinner : P.tail.dropLast = solver.run A B := by
      apply ext_fn (by rw [hrun]; simp [hPl])
      intro i hi
      simp [hPl] at hi
      rw [fn_tail_dropLast (by omega), hfn (i + 1) (by omega), fixP, if_neg (by omega), if_neg (by omega),
        Nat.add_sub_cancel]
    refine ⟨A, B, mat (n - 1) (n - 1) Ae, (List.range (n - 1)).map be, hinner,
      by rw [← hA]; exact square_mat _ (by rw [← hB]; simp), ?_, ?_, ?_⟩
    · rw [← hA]
      exact forall₂_mat fun i j hi hj => (hAe i j hi hj).1
    · rw [← hB, List.forall₂_map_left_iff, List.forall₂_map_right_iff, List.forall₂_same]
      intro i _ ρ
      exact hb1 i ρ
    intro X hX M hM0 hM rho hrho
    have hXl : X.length = n + 1 := hX.length_eq.symm.trans hPl
    have hX0 : X ≠ [] := by rintro rfl; simp at hXl
    have hI : ∀ g ∈ Ico 1 m, g < T.length ∧ g < D.length := fun g hg => by rw [mem_Ico] at hg; omega
    have hb := mkCurve_ok hXl hV.le (show n + p + 1 ≤ V.length by rw [hV.length]; omega)
    have hXD0 : fn X 0 = fn D 0 := by
      funext ρ
      have := fn_ptIs hX 0 ρ
      rw [hP0] at this
      exact this.unique (fn_ptIs hD 0 ρ)
    have hXDn : fn X n = fn D m := by
      funext ρ
      have := fn_ptIs hX n ρ
      rw [hPn] at this
      exact this.unique (fn_ptIs hD m ρ)
    refine ⟨canon p V X, _, hb, hXl, (getElem?_eq_iff_fn (by omega) (by omega)).mpr hXD0,
      (getElem?_eq_iff_fn (by omega) (by omega)).mpr hXDn, (sqError_iff hV hXl hb hI hT).mpr rfl, ?_⟩
    have key : ∀ ρ i, i < n - 1 → |∑ j ∈ range (n - 1), nm (m - 1) (penRows (fun κ => n - 1 - κ) pen')
        (fun g i => nb p n V (i + 1) (fn T (g + 1))) (penD pen') (penLam pen') i j * fn X.tail.dropLast j ρ -
          ∑ g ∈ range (m - 1), nb p n V (i + 1) (fn T (g + 1)) * fixQ p n m V D T (g + 1) ρ| ≤
          rho + fitRound F p (m - 1) (n - 1) (3 * W) M (penSize pen') := by
      intro ρ i hi
      have h6 := solvesWithin_mat (length_inner hXl) (by simp) hrho i hi ρ
      rw [fn_map_range _ hi] at h6
      refine (normal_ieee (F := F) (k := 10 * p + 4 + (m - 1)) (W := 3 * W)
        (fun g _ j _ => ((hunit (g + 1)).1 (j + 1)).1)
        (fun g _ => (hunit (g + 1)).1 (i + 1)) (fun g _ => ?_) h5 le_rfl
        (fun j hj => (hAe i j hi hj).2.mono (by omega) le_rfl le_rfl) (hb2 i ρ) (by linarith) hM0
        (fun j hj => by rw [fn_inner (by omega)]; exact hM _ (fn_mem hX0 _) ρ) h6).trans (add_le_add le_rfl ?_)
      · have := (hunit (g + 1)).2
        rw [sum_inner (by omega)] at this
        have q1 := ((hunit (g + 1)).1 0).1
        have q2 := ((hunit (g + 1)).1 n).1
        linarith
      refine fitRound_le (by linarith) hM0 le_rfl ?_
      have q1 : 14 * under F p * W + 7 * F.eta ≤ 5 * under F p * (3 * W) + 7 * F.eta := by
        have := mul_nonneg hu0 hW0
        linarith
      exact mul_le_mul_of_nonneg_left (mul_le_mul_of_nonneg_left q1 (Nat.cast_nonneg _)) (by norm_num)
    intro P' c' e' hP' hc' hP'0 hP'n he'
    rw [getElem?_eq_iff_fn (by omega) (by omega)] at hP'0 hP'n
    have hd : l1Dist X P' = ∑ r, ∑ i ∈ range (n - 1), |fn X.tail.dropLast i r - fn P'.tail.dropLast i r| := by
      rw [l1Dist_eq hXl hP']
      refine sum_congr rfl fun r _ => ?_
      rw [sum_inner (by omega), hXD0, hXDn, hP'0, hP'n, sub_self, sub_self, abs_zero, zero_add, zero_add]
      refine sum_congr rfl fun i hi => ?_
      rw [mem_range] at hi
      rw [fn_inner (by omega), fn_inner (by omega)]
    rw [(sqError_iff hV hP' hc' hI hT).mp he', penaltyCost_eq (length_inner hXl),
      penaltyCost_eq (length_inner hP'), sum_comm,
      sum_comm (s := Ico 1 m), ← sum_add_distrib, ← sum_add_distrib, hd, mul_sum, ← sum_add_distrib]
    apply sum_le_sum
    intro ρ _
    rw [fixed_error hn hXl hXD0 hXDn, fixed_error hn hP' hP'0 hP'n]
    refine le_trans ?_ (lsq_within h5 (key ρ) (fun j => fn P'.tail.dropLast j ρ))
    exact le_add_of_nonneg_right (sum_nonneg fun _ _ => sq_nonneg _)

/-! ### Double precision -/

/-- `as f64` for signed integers -/
instance : IntCast (Ieee F) := ⟨fun z => Ieee.mk F (decide (z < 0)) (z : K)⟩

theorem is_intCast {z : ℤ} (h : |(z : K)| ≤ F.max) : Is ((z : ℤ) : Ieee F) (F.rnd z) := is_mk _ h

theorem phi64_pow {k : ℕ} (hk : k ≤ 2 ^ 51) : binary64.phi ^ k - 1 ≤ k / 2 ^ 52 ∧ binary64.phi ^ k ≤ 2 := by
  have heps : binary64.eps = (1 / 2) ^ 53 := rfl
  have hkq : (k : ℚ) ≤ 2251799813685248 := by exact_mod_cast hk.trans (by norm_num)
  have hk0 : (0 : ℚ) ≤ k := Nat.cast_nonneg _
  have hbern := one_add_mul_le_pow (a := -(1 / 2 : ℚ) ^ 53) (by norm_num) k
  rw [← sub_eq_add_neg] at hbern
  have ht : 0 < 1 + (k : ℚ) * -(1 / 2) ^ 53 := by norm_num; linarith
  have h1 : binary64.phi ^ k - 1 ≤ k / 2 ^ 52 := by
    rw [Format.phi, heps, inv_pow, sub_le_iff_le_add]
    refine (inv_anti₀ ht hbern).trans ?_
    rw [inv_le_iff_one_le_mul₀ ht]
    norm_num
    nlinarith
  refine ⟨h1, ?_⟩
  have : (k : ℚ) / 2 ^ 52 ≤ 1 := by rw [div_le_one (by norm_num)]; norm_num; linarith
  linarith

theorem int64_rep {z : ℤ} (hz : |z| ≤ 2 ^ 52) : Is ((z : ℤ) : Ieee binary64) (z : ℚ) := by
  have h1 : binary64.rnd (z : ℚ) = z := by
    change roundIeee 52 (-1022) (z : ℚ) = z
    have := roundIeee_rep (K := ℚ) (m := 52) (emin := -1022) z 0 (hz.trans (by norm_num)) (by norm_num)
    simpa using this
  have h2 : |(z : ℚ)| ≤ binary64.max := by
    have : |(z : ℚ)| ≤ 2 ^ 52 := by exact_mod_cast hz
    exact this.trans (by decide +kernel)
  have := is_intCast h2
  rwa [h1] at this

/-- a penalisation of order at most 26 in double precision -/
theorem penIs_f64 {lam : Ieee binary64} {lam' : ℚ} (h : Is lam lam') {κ : ℕ} (hκ : κ ≤ 26) :
    PenIs (some ⟨lam, κ⟩) (some ⟨lam', κ⟩) := by
  refine ⟨h, rfl, fun z hz => int64_rep (hz.trans ?_)⟩
  calc (4 : ℤ) ^ κ ≤ 4 ^ 26 := pow_le_pow_right₀ (by norm_num) hκ
    _ = 2 ^ 52 := by norm_num

/-- knots of the uniform method are recognised as uniform -/
theorem unif_genU {p n : ℕ} {V : List K} (hU : List.Forall₂ Is (genU p n (uniK (K := Ieee F) p n)) V) :
    unif p n (genU p n (uniK (K := Ieee F) p n)) = true := by
  rw [unif, vecEq, List.zipWith_self]
  simp only [BEq.rfl, Bool.true_and, List.all_map, List.all_eq_true]
  generalize genU p n (uniK (K := Ieee F) p n) = U at hU
  intro x hx
  induction hU with
  | nil => simp at hx
  | cons h _ ih =>
    rcases List.mem_cons.mp hx with rfl | hx
    · simp [h.cmp_eq h]
    · exact ih hx

/-- the penalisation of a fit with `n` segments is admissible: `lambda` is not negative and `kappa` at most `k` -/
def PenOk (k : ℕ) (pen : Option (Penalization K)) : Prop := ∀ q, pen = some q → 0 ≤ q.lambda ∧ q.kappa ≤ k

theorem fitErrorOf_ok [IntCast (Ieee F)] {n m p k : ℕ} {pen : Option (Penalization (Ieee F))} {pen' : Option (Penalization K)}
    (hpen : PenIs pen pen') (hok : PenOk k pen') (hk : k ≤ n - 1) (h1 : p ≤ n) (h2 : n ≤ m) :
    fitErrorOf n m m p pen true = none := by
  unfold fitErrorOf
  rw [if_neg (by omega), if_neg (by simp), if_neg (by omega)]
  match pen, pen', hpen with
  | none, _, _ => rfl
  | some q, some q', ⟨h3, h4, _⟩ =>
    obtain ⟨h5, h6⟩ := hok q' rfl
    dsimp only
    rw [if_neg (by omega), h3.cmp_lt is_zero, if_neg (by simpa using h5), if_neg (by simp)]

/-- the bound of the rounding errors in double precision -/
theorem fitRound_f64 {p r c : ℕ} {W M S : ℚ} (hk : 10 * p + 4 + r ≤ 2 ^ 51) (hW : 0 ≤ W) (hM : 0 ≤ M) (hS : 0 ≤ S) :
    fitRound binary64 p r c W M S ≤ (10 * p + 4 + r) / 2 ^ 52 * (r * (W + M) + S * M) +
      r * (5 * 3 ^ (p + 2)) * (c * M + W + 1) * (1 / 2) ^ 1074 := by
  have h1 := (phi64_pow hk).1
  push_cast at h1
  have heta : binary64.eta = 1 / 2 * (1 / 2) ^ 1074 := by
    change (1 / 2 * 2 ^ ((-1022 : ℤ) - 52) : ℚ) = _
    decide +kernel
  rw [fitRound, heta]
  generalize ((1 : ℚ) / 2) ^ 1074 = t
  refine add_le_add (mul_le_mul_of_nonneg_right h1 (by positivity)) (le_of_eq (by ring))

/-- the parameters of a fit of `m + 1` data points, as computed -/
def ratios (F : Format K) (m : ℕ) : List (Ieee F) := (List.range (m + 1)).map fun g : ℕ => (g : Ieee F) / (m : Ieee F)

theorem ratios_spec {m : ℕ} (hnat : ∀ i : ℕ, i ≤ m → F.rnd i = i) (hN : (m : K) ≤ F.max) (hm : 1 ≤ m) :
    equallySpaced m = .ok ⟨ratios F m, m⟩ ∧ (ratios F m).length = m + 1 ∧
    ∃ T, List.Forall₂ Is (ratios F m) T ∧ T.length = m + 1 ∧ (∀ x ∈ T, 0 ≤ x ∧ x ≤ 1) ∧
      ∀ g, g ≤ m → ∃ x, T[g]? = some x ∧ |x - (g : K) / (m : K)| ≤ F.eps + F.eta := by
  have hm0 : (0 : K) < m := by exact_mod_cast hm
  have hl : (ratios F m).length = m + 1 := by simp [ratios]
  have hT : List.Forall₂ Is (ratios F m) ((List.range (m + 1)).map (eqR F m)) := by
    rw [ratios, List.forall₂_map_left_iff, List.forall₂_map_right_iff, List.forall₂_same]
    intro g hg
    rw [List.mem_range] at hg
    exact eqR_is hnat hN hm (by omega)
  refine ⟨?_, hl, _, hT, by simp, ?_, ?_⟩
  · rw [equallySpaced_ok]
    congr 2
    refine List.map_congr_left fun g hg => ?_
    rw [List.mem_range] at hg
    exact eqU_eq hnat hN hm (by omega)
  · intro x hx
    obtain ⟨g, hg, rfl⟩ := List.mem_map.mp hx
    rw [List.mem_range] at hg
    exact eqR_mem hm (by omega)
  · intro g hg
    refine ⟨eqR F m g, by simp [Nat.lt_succ_of_le hg], ?_⟩
    have hg' : (g : K) ≤ m := by exact_mod_cast hg
    have h0 : 0 ≤ (g : K) / (m : K) := div_nonneg (Nat.cast_nonneg _) hm0.le
    have h := F.err ((g : K) / (m : K))
    rw [abs_of_nonneg h0] at h
    exact h.trans (add_le_add (mul_le_of_le_one_right F.eps_nonneg ((div_le_one hm0).mpr hg')) le_rfl)

theorem nat64_rep {i : ℕ} (hi : i ≤ 2 ^ 50) : binary64.rnd (i : ℚ) = i := by
  change roundIeee 52 (-1022) (i : ℚ) = i
  have := roundIeee_rep (K := ℚ) (m := 52) (emin := -1022) i 0 (by
    rw [abs_of_nonneg (by positivity)]
    have : (i : ℤ) ≤ 2 ^ 50 := by exact_mod_cast hi
    exact this.trans (by norm_num)) (by norm_num)
  simpa using this

/-- what `generate` works with when it fits `m + 1` points by a curve of degree `p` with `n` segments -/
theorem fit_setup {p n m : ℕ} (h1 : 1 ≤ p) (h2 : p ≤ n) (h3 : n ≤ m) (hm : m ≤ 2 ^ 50) :
    ∃ (kn : Knots (Ieee binary64)) (U : List (Ieee binary64)) (V T : List ℚ) (h : ℚ),
      uniform p n = .ok (.ok kn) ∧ kn.vector = .ok U ∧ Knots.new p U = .ok kn ∧ List.Forall₂ Is U V ∧ ClampedKnots 0 1 p n V ∧
      unif p n U = true ∧ 0 < h ∧ (∀ s ∈ V, ∀ t ∈ V, s < t → h ≤ t - s) ∧ 2 / h ≤ binary64.max ∧
      equallySpaced m = .ok ⟨ratios binary64 m, m⟩ ∧ (ratios binary64 m).length = m + 1 ∧
      List.Forall₂ Is (ratios binary64 m) T ∧ (∀ x ∈ T, 0 ≤ x ∧ x ≤ 1) := by
  have hmq : (m : ℚ) ≤ 2 ^ 50 := by exact_mod_cast hm
  have hmax' : (4 : ℚ) * 2 ^ 50 ≤ binary64.max := by decide +kernel
  have hsum : binary64.eps + binary64.eta ≤ 1 / 2 ^ 52 := by
    change ((1 / 2) ^ 53 + 1 / 2 * 2 ^ ((-1022 : ℤ) - 52) : ℚ) ≤ _
    decide +kernel
  have hle : ((n - p + 1 : ℕ) : ℚ) ≤ m := by exact_mod_cast (by omega : n - p + 1 ≤ m)
  have hpos : (0 : ℚ) < ((n - p + 1 : ℕ) : ℚ) := by exact_mod_cast Nat.succ_pos _
  have hNm : (m : ℚ) ≤ binary64.max := by linarith
  obtain ⟨kn, U, V, hk, hkv, hnew, hU, hV, -, hgap, -⟩ := C90_uniform (F := binary64) h1 h2
    (fun i hi => nat64_rep (by omega)) (hle.trans hNm) (by
      have q1 := mul_le_mul (hle.trans hmq) hsum (add_nonneg binary64.eps_nonneg binary64.eta_nonneg) (by norm_num)
      norm_num at q1 ⊢
      linarith)
  obtain ⟨he, hrl, T, hT, -, hT1, -⟩ := ratios_spec (F := binary64) (m := m) (fun i hi => nat64_rep (by omega)) hNm (by omega)
  refine ⟨kn, U, V, T, _, hk, hkv, hnew, hU, hV, ?_, ?_, hgap, ?_, he, hrl, hT, hT1⟩
  · have e : U = genU p n (uniK (K := Ieee binary64) p n) := by
      rw [uniform_ok h1 h2] at hk
      have := Except.ok.inj (Except.ok.inj hk)
      rw [← this, canonKnots_vector] at hkv
      exact (Except.ok.inj hkv).symm
    rw [e] at hU ⊢
    exact unif_genU hU
  · positivity
  · rw [div_div_eq_mul_div, div_one]
    linarith

/-- `pen` is absent, or a penalisation with a weight `0 ≤ lambda ≤ 2^900` and an order `kappa ≤ 26` that is at
most `k`; `pen'` are the exact values -/
def PenF64 (k : ℕ) (pen : Option (Penalization (Ieee binary64))) (pen' : Option (Penalization ℚ)) : Prop :=
  match pen, pen' with
  | none, none => True
  | some q, some q' => Is q.lambda q'.lambda ∧ 0 ≤ q'.lambda ∧ q'.lambda ≤ 2 ^ 900 ∧ q.kappa = q'.kappa ∧
      q'.kappa ≤ 26 ∧ q'.kappa ≤ k
  | _, _ => False

theorem PenF64.spec {k : ℕ} {pen : Option (Penalization (Ieee binary64))} {pen' : Option (Penalization ℚ)}
    (h : PenF64 k pen pen') : PenIs pen pen' ∧ PenOk k pen' ∧ penSize pen' ≤ 2 ^ 952 ∧ 0 ≤ penSize pen' := by
  match pen, pen', h with
  | none, none, _ => exact ⟨trivial, fun q hq => (Option.some_ne_none q hq.symm).elim, by simp [penSize], le_rfl⟩
  | some ⟨lam, κ⟩, some ⟨lam', κ'⟩, ⟨h1, h2, h3, h4, h5, h6⟩ =>
    dsimp only at h1 h2 h3 h4 h5 h6
    subst h4
    refine ⟨penIs_f64 h1 h5, ?_, ?_, mul_nonneg h2 (by positivity)⟩
    · rintro q hq
      obtain rfl := Option.some.inj hq
      exact ⟨h2, h6⟩
    · show lam' * 4 ^ κ ≤ 2 ^ 952
      have q1 : (4 : ℚ) ^ κ ≤ 4 ^ 26 := pow_le_pow_right₀ (by norm_num) h5
      refine (mul_le_mul h3 q1 (by positivity) (by positivity)).trans ?_
      decide +kernel

theorem penOk_order {n : ℕ} (hn : 2 ≤ n) {pen : Option (Penalization (Ieee F))} {pen' : Option (Penalization K)}
    (h : PenIs pen pen') (h' : PenOk (n - 2) pen') {q : Penalization (Ieee F)} (hq : pen = some q) : q.kappa + 2 ≤ n := by
  match pen, pen', h, hq with
  | some q, some q', ⟨_, g5, _⟩, rfl =>
    have := (h' q' rfl).2
    omega

theorem room_fit {m : ℕ} (hm : m ≤ 2 ^ 50) {W S : ℚ} (hW0 : 0 ≤ W) (hW : W ≤ 2 ^ 900) (hS : S ≤ 2 ^ 952) :
    12 * ((m + 1) * (W + 1)) + 2 * S ≤ binary64.max := by
  have hmq : (m : ℚ) ≤ 2 ^ 50 := by exact_mod_cast hm
  have q1 : ((m : ℚ) + 1) * (W + 1) ≤ (2 ^ 50 + 1) * (2 ^ 900 + 1) :=
    mul_le_mul (add_le_add hmq le_rfl) (add_le_add hW le_rfl) (by linarith) (by positivity)
  refine (add_le_add (mul_le_mul_of_nonneg_left q1 (by norm_num)) (mul_le_mul_of_nonneg_left hS (by norm_num))).trans ?_
  decide +kernel

theorem l1Dist_nonneg (P P' : List (Pt K d)) : 0 ≤ l1Dist P P' :=
  sum_nonneg fun _ _ => sum_nonneg fun _ _ => abs_nonneg _

section
variable [Trunc (Ieee binary64)] [Sqrt (Ieee binary64)]

/-- **C122** For `f64`: fitting up to `2^50` data points of size `W ≤ 2^900` with loose ends, degree `1 ≤ p ≤ 600`
and `p ≤ n ≤ m` segments gives a curve, whatever the order of the sums in nalgebra's matrix products is
(`generateFit_sequential`: for the order of the model this is `generate`). Its control points are what nalgebra returns for the computed normal
equations `A b`, whose exact values are `A' b'`. If the exact values `X` of these control points are at most `M`
and satisfy this system up to `rho`, then the exact cost of the exact curve with these control points exceeds the
cost of any other control polygon by at most twice the distance of the polygons times
`rho + (10p+5+m) 2^-52 ((m+1)(W+M) + lambda 4^kappa M) + 5 (m+1) 3^(p+2) ((n+1)M+W+1) 2^-1074`. -/
theorem C122_f64_loose {mm : Products (Ieee binary64) d} (hmm : mm.AnyOrder)
    (solver : Solver (Ieee binary64) d) {p n m : ℕ} (h1 : 1 ≤ p) (h2 : p ≤ n) (h3 : n ≤ m) (hp : p ≤ 600)
    (hm : m ≤ 2 ^ 50) {pts : DataPoints (Ieee binary64) d} {D : List (Pt ℚ d)} (hD : List.Forall₂ PtIs pts D)
    (hDl : D.length = m + 1) {pen : Option (Penalization (Ieee binary64))} {pen' : Option (Penalization ℚ)}
    (hpen : PenF64 (n - 1) pen pen') {W : ℚ} (hW : ∀ q ∈ D, ∀ r, |q r| ≤ W) (hW0 : 0 ≤ W) (hW' : W ≤ 2 ^ 900) :
    ∃ (c : Curve (Ieee binary64) d) (U : List (Ieee binary64)) (V T : List ℚ) (A : List (List (Ieee binary64)))
      (b : List (Pt (Ieee binary64) d)) (A' : List (List ℚ)) (b' : List (Pt ℚ d)),
      generateFit mm solver p pts n .looseEnds pen = .ok (.ok c) ∧
      c.points.matrix = .ok (solver.run A b) ∧ c.knots.vector = .ok U ∧ List.Forall₂ Is U V ∧
      ClampedKnots 0 1 p n V ∧ List.Forall₂ Is (ratios binary64 m) T ∧ Square (n + 1) A b ∧
      List.Forall₂ (List.Forall₂ Is) A A' ∧ List.Forall₂ PtIs b b' ∧
      ∀ X, List.Forall₂ PtIs (solver.run A b) X → ∀ M, 0 ≤ M → (∀ q ∈ X, ∀ r, |q r| ≤ M) →
      ∀ rho, SolvesWithin rho A' X b' →
      ∃ (c₀ : Curve ℚ d) (e : ℚ), Built c₀ p V X ∧ X.length = n + 1 ∧ SqError c₀ T D (range (m + 1)) e ∧
      ∀ (P' : List (Pt ℚ d)) (c' : Curve ℚ d) (e' : ℚ), P'.length = n + 1 → Built c' p V P' →
        SqError c' T D (range (m + 1)) e' →
        ∀ (Y : List (Pt ℚ d)) (δ : ℚ), Y.length = m + 1 →
        (∀ g, g ≤ m → c'.evaluate (T.getD g 0) = .ok (.ok (Y.getD g 0))) →
        SqError c₀ T Y (range (m + 1)) δ →
        e + penaltyCost pen' X + δ ≤ e' + penaltyCost pen' P' +
          2 * (rho + ((10 * p + 5 + m) / 2 ^ 52 * ((m + 1) * (W + M) + penSize pen' * M) +
            (m + 1) * (5 * 3 ^ (p + 2)) * ((n + 1) * M + W + 1) * (1 / 2) ^ 1074)) * l1Dist X P' := by
  obtain ⟨g1, g2, g3, g4⟩ := hpen.spec
  obtain ⟨kn, U, V, T, h, hk, hkv, hnew, hU, hV, hun, hh, hgap, hhm, hes, hrl, hT, hT1⟩ := fit_setup h1 h2 h3 hm
  have hl : U.length = n + p + 2 := hU.length_eq.trans hV.length
  have hpl : List.length pts = m + 1 := hD.length_eq.trans hDl
  obtain ⟨P, hP⟩ : ∃ P, Loose.fitWith mm solver kn pts ⟨ratios binary64 m, m⟩ pen = .ok (.ok P) := by
    obtain ⟨-, rfl⟩ := knots_new_inv hnew
    obtain ⟨G, hG, -⟩ := hmm.gram_mat (m + 1) (n + 1) (fun g i => nb p n U i (fn (ratios binary64 m) g))
    obtain ⟨E, hE, -⟩ := penalty_products hmm (n + 1) (fun κ => n + 1 - κ) pen
    obtain ⟨bb, hbb, -⟩ := hmm.mulT_mat (m + 1) (n + 1) (fun g i => nb p n U i (fn (ratios binary64 m) g)) hpl
    rw [loose_fitWith_ok mm hl h1 hpl hrl solver pen hG hE (by rw [hbb]; simp), hun, fitErrorOf_ok g1 g2 le_rfl h2 h3]
    exact ⟨_, rfl⟩
  have hmx := room_fit hm hW0 hW' g3
  have hmW : 4 * ((m + 1 : ℚ) * (W + 1)) + 2 * penSize pen' ≤ binary64.max := by
    clear hW' g3
    have : 0 ≤ (m + 1 : ℚ) * (W + 1) := by positivity
    linarith
  obtain ⟨A, b, A', b', e1, e0, e2, e3, e4⟩ := C122_loose hmm (room_binary64 hp) hnew hU hV h1 hD hDl hT hrl hT1 g1 hh hgap
    hhm hW hW0 (phi64_pow (by omega)).2 hmW hP
  have hPl : (solver.run A b).length = n + 1 := e0.run_length (by omega) solver
  have hmk := mkCurve_ok hPl h2 (show n + p + 1 ≤ U.length by omega)
  refine ⟨canon p U (solver.run A b), U, V, T, A, b, A', b', ?_, canonPts_matrix _ _, canonKnots_vector _, hU, hV, hT, e0, e2, e3, ?_⟩
  · rw [generateFit]
    simp only [generateParams, DataPoints.segments, generateKnots]
    rw [usub_ok (by omega), ok_bind, hpl, Nat.add_sub_cancel, hes, ok_bind, hk, ok_bind]
    dsimp only
    rw [hP, ok_bind]
    dsimp only
    rw [← hmk, mkCurve, hnew, ok_bind, e1]
  · intro X hX M hM0 hM rho hrho
    rw [← e1] at hX
    obtain ⟨c₀, e, f1, f2, f3, f4⟩ := e4 X hX M hM0 hM rho hrho
    refine ⟨c₀, e, f1, f2, f3, fun P' c' e' j1 j2 j3 Y δ j4 j5 j6 => (f4 P' c' e' j1 j2 j3 Y δ j4 j5 j6).trans ?_⟩
    refine add_le_add le_rfl (mul_le_mul_of_nonneg_right ?_ (l1Dist_nonneg _ _))
    have := fitRound_f64 (p := p) (r := m + 1) (c := n + 1) (by omega) hW0 hM0 g4
    push_cast at this
    rw [show (10 * (p : ℚ) + 4 + (m + 1)) = 10 * p + 5 + m by ring] at this
    exact mul_le_mul_of_nonneg_left (add_le_add le_rfl this) (by norm_num)

/-- **C122** For `f64`: the same with fixed ends, for at least two segments and `kappa ≤ n - 2`. The first and the
last control point are the first and the last data point; data enter the bound with `3 W`, and only the inner
data and control points count. -/
theorem C122_f64_fixed {mm : Products (Ieee binary64) d} (hmm : mm.AnyOrder)
    (solver : Solver (Ieee binary64) d) {p n m : ℕ} (h1 : 1 ≤ p) (h2 : p ≤ n) (h3 : n ≤ m) (hn : 2 ≤ n)
    (hp : p ≤ 600) (hm : m ≤ 2 ^ 50) {pts : DataPoints (Ieee binary64) d} {D : List (Pt ℚ d)}
    (hD : List.Forall₂ PtIs pts D) (hDl : D.length = m + 1) {pen : Option (Penalization (Ieee binary64))}
    {pen' : Option (Penalization ℚ)} (hpen : PenF64 (n - 2) pen pen') {W : ℚ} (hW : ∀ q ∈ D, ∀ r, |q r| ≤ W)
    (hW0 : 0 ≤ W) (hW' : W ≤ 2 ^ 900) :
    ∃ (c : Curve (Ieee binary64) d) (P : List (Pt (Ieee binary64) d)) (U : List (Ieee binary64)) (V T : List ℚ)
      (A : List (List (Ieee binary64))) (b : List (Pt (Ieee binary64) d)) (A' : List (List ℚ)) (b' : List (Pt ℚ d)),
      generateFit mm solver p pts n .fixedEnds pen = .ok (.ok c) ∧
      c.points.matrix = .ok P ∧ P.tail.dropLast = solver.run A b ∧ c.knots.vector = .ok U ∧ List.Forall₂ Is U V ∧
      ClampedKnots 0 1 p n V ∧ List.Forall₂ Is (ratios binary64 m) T ∧ Square (n - 1) A b ∧
      List.Forall₂ (List.Forall₂ Is) A A' ∧ List.Forall₂ PtIs b b' ∧
      ∀ X, List.Forall₂ PtIs P X → ∀ M, 0 ≤ M → (∀ q ∈ X, ∀ r, |q r| ≤ M) →
      ∀ rho, SolvesWithin rho A' X.tail.dropLast b' →
      ∃ (c₀ : Curve ℚ d) (e : ℚ), Built c₀ p V X ∧ X.length = n + 1 ∧ X[0]? = D[0]? ∧ X[n]? = D[m]? ∧
      SqError c₀ T D (Ico 1 m) e ∧
      ∀ (P' : List (Pt ℚ d)) (c' : Curve ℚ d) (e' : ℚ), P'.length = n + 1 → Built c' p V P' →
        P'[0]? = D[0]? → P'[n]? = D[m]? → SqError c' T D (Ico 1 m) e' →
        e + penaltyCost pen' X.tail.dropLast ≤ e' + penaltyCost pen' P'.tail.dropLast +
          2 * (rho + ((10 * p + 3 + m) / 2 ^ 52 * ((m - 1) * (3 * W + M) + penSize pen' * M) +
            (m - 1) * (5 * 3 ^ (p + 2)) * ((n - 1) * M + 3 * W + 1) * (1 / 2) ^ 1074)) * l1Dist X P' := by
  obtain ⟨g1, g2, g3, g4⟩ := hpen.spec
  obtain ⟨kn, U, V, T, h, hk, hkv, hnew, hU, hV, hun, hh, hgap, hhm, hes, hrl, hT, hT1⟩ := fit_setup h1 h2 h3 hm
  have hl : U.length = n + p + 2 := hU.length_eq.trans hV.length
  have hpl : List.length pts = m + 1 := hD.length_eq.trans hDl
  obtain ⟨P, hP, hPl⟩ : ∃ P, Fixed.fitWith mm solver kn pts ⟨ratios binary64 m, m⟩ pen = .ok (.ok P) ∧
      P.length = n + 1 := by
    obtain ⟨-, rfl⟩ := knots_new_inv hnew
    obtain ⟨G, hG, -⟩ := hmm.gram_mat (m - 1) (n - 1) (fun g i => nb p n U (i + 1) (fn (ratios binary64 m) (g + 1)))
    obtain ⟨E, hE, -⟩ := penalty_products hmm (n - 1) (fun κ => n - 1 - κ) pen
    rw [fixed_fitWith_ok mm hl h1 hpl hrl solver pen (fun _ => ⟨hn, fun q hq => penOk_order hn g1 g2 hq⟩) hG hE, hun,
      fitErrorOf_ok g1 g2 (by omega) h2 h3]
    exact ⟨_, rfl, by simp⟩
  have hmx := room_fit hm hW0 hW' g3
  obtain ⟨A, b, A', b', e1, e0, e2, e3, e4⟩ := C122_fixed hmm (room_binary64 hp) hnew hU hV h1 hD hDl hT hrl hT1 g1 hh hgap
    hhm hW hW0 (phi64_pow (by omega)).2 hmx hn (fun q hq => penOk_order hn g1 g2 hq) hP
  have hmk := mkCurve_ok hPl h2 (show n + p + 1 ≤ U.length by omega)
  refine ⟨canon p U P, P, U, V, T, A, b, A', b', ?_, canonPts_matrix _ _, e1, canonKnots_vector _, hU, hV, hT, e0, e2, e3, ?_⟩
  · rw [generateFit]
    simp only [generateParams, DataPoints.segments, generateKnots]
    rw [usub_ok (by omega), ok_bind, hpl, Nat.add_sub_cancel, hes, ok_bind, hk, ok_bind]
    dsimp only
    rw [hP, ok_bind]
    dsimp only
    rw [← hmk, mkCurve, hnew, ok_bind]
  · intro X hX M hM0 hM rho hrho
    obtain ⟨c₀, e, f1, f2, f3, f4, f5, f6⟩ := e4 X hX M hM0 hM rho hrho
    refine ⟨c₀, e, f1, f2, f3, f4, f5, fun P' c' e' j1 j2 j3 j4 j5 => (f6 P' c' e' j1 j2 j3 j4 j5).trans ?_⟩
    refine add_le_add le_rfl (mul_le_mul_of_nonneg_right ?_ (l1Dist_nonneg _ _))
    have := fitRound_f64 (p := p) (r := m - 1) (c := n - 1) (W := 3 * W) (by omega) (by linarith) hM0 g4
    rw [Nat.cast_sub (by omega), Nat.cast_sub (by omega), Nat.cast_one,
      show (10 * (p : ℚ) + 4 + (m - 1)) = 10 * p + 3 + m by ring] at this
    exact mul_le_mul_of_nonneg_left (add_le_add le_rfl this) (by norm_num)

/-- **C122** The same for `generate` with the products of the model. -/
theorem C122_generate_loose (solver : Solver (Ieee binary64) d) {p n m : ℕ} (h1 : 1 ≤ p) (h2 : p ≤ n) (h3 : n ≤ m) (hp : p ≤ 600)
    (hm : m ≤ 2 ^ 50) {pts : DataPoints (Ieee binary64) d} {D : List (Pt ℚ d)} (hD : List.Forall₂ PtIs pts D)
    (hDl : D.length = m + 1) {pen : Option (Penalization (Ieee binary64))} {pen' : Option (Penalization ℚ)}
    (hpen : PenF64 (n - 1) pen pen') {W : ℚ} (hW : ∀ q ∈ D, ∀ r, |q r| ≤ W) (hW0 : 0 ≤ W) (hW' : W ≤ 2 ^ 900) :
    ∃ (c : Curve (Ieee binary64) d) (U : List (Ieee binary64)) (V T : List ℚ) (A : List (List (Ieee binary64)))
      (b : List (Pt (Ieee binary64) d)) (A' : List (List ℚ)) (b' : List (Pt ℚ d)),
      generate solver (.leastSquaresFit p pts n .looseEnds pen) = .ok (.ok c) ∧
      c.points.matrix = .ok (solver.run A b) ∧ c.knots.vector = .ok U ∧ List.Forall₂ Is U V ∧
      ClampedKnots 0 1 p n V ∧ List.Forall₂ Is (ratios binary64 m) T ∧ Square (n + 1) A b ∧
      List.Forall₂ (List.Forall₂ Is) A A' ∧ List.Forall₂ PtIs b b' ∧
      ∀ X, List.Forall₂ PtIs (solver.run A b) X → ∀ M, 0 ≤ M → (∀ q ∈ X, ∀ r, |q r| ≤ M) →
      ∀ rho, SolvesWithin rho A' X b' →
      ∃ (c₀ : Curve ℚ d) (e : ℚ), Built c₀ p V X ∧ X.length = n + 1 ∧ SqError c₀ T D (range (m + 1)) e ∧
      ∀ (P' : List (Pt ℚ d)) (c' : Curve ℚ d) (e' : ℚ), P'.length = n + 1 → Built c' p V P' →
        SqError c' T D (range (m + 1)) e' →
        ∀ (Y : List (Pt ℚ d)) (δ : ℚ), Y.length = m + 1 →
        (∀ g, g ≤ m → c'.evaluate (T.getD g 0) = .ok (.ok (Y.getD g 0))) →
        SqError c₀ T Y (range (m + 1)) δ →
        e + penaltyCost pen' X + δ ≤ e' + penaltyCost pen' P' +
          2 * (rho + ((10 * p + 5 + m) / 2 ^ 52 * ((m + 1) * (W + M) + penSize pen' * M) +
            (m + 1) * (5 * 3 ^ (p + 2)) * ((n + 1) * M + W + 1) * (1 / 2) ^ 1074)) * l1Dist X P' :=
  C122_f64_loose sequential_anyOrder solver h1 h2 h3 hp hm hD hDl hpen hW hW0 hW'

/-- **C122** The same for `generate` with fixed ends. -/
theorem C122_generate_fixed (solver : Solver (Ieee binary64) d) {p n m : ℕ} (h1 : 1 ≤ p) (h2 : p ≤ n) (h3 : n ≤ m) (hn : 2 ≤ n)
    (hp : p ≤ 600) (hm : m ≤ 2 ^ 50) {pts : DataPoints (Ieee binary64) d} {D : List (Pt ℚ d)}
    (hD : List.Forall₂ PtIs pts D) (hDl : D.length = m + 1) {pen : Option (Penalization (Ieee binary64))}
    {pen' : Option (Penalization ℚ)} (hpen : PenF64 (n - 2) pen pen') {W : ℚ} (hW : ∀ q ∈ D, ∀ r, |q r| ≤ W)
    (hW0 : 0 ≤ W) (hW' : W ≤ 2 ^ 900) :
    ∃ (c : Curve (Ieee binary64) d) (P : List (Pt (Ieee binary64) d)) (U : List (Ieee binary64)) (V T : List ℚ)
      (A : List (List (Ieee binary64))) (b : List (Pt (Ieee binary64) d)) (A' : List (List ℚ)) (b' : List (Pt ℚ d)),
      generate solver (.leastSquaresFit p pts n .fixedEnds pen) = .ok (.ok c) ∧
      c.points.matrix = .ok P ∧ P.tail.dropLast = solver.run A b ∧ c.knots.vector = .ok U ∧ List.Forall₂ Is U V ∧
      ClampedKnots 0 1 p n V ∧ List.Forall₂ Is (ratios binary64 m) T ∧ Square (n - 1) A b ∧
      List.Forall₂ (List.Forall₂ Is) A A' ∧ List.Forall₂ PtIs b b' ∧
      ∀ X, List.Forall₂ PtIs P X → ∀ M, 0 ≤ M → (∀ q ∈ X, ∀ r, |q r| ≤ M) →
      ∀ rho, SolvesWithin rho A' X.tail.dropLast b' →
      ∃ (c₀ : Curve ℚ d) (e : ℚ), Built c₀ p V X ∧ X.length = n + 1 ∧ X[0]? = D[0]? ∧ X[n]? = D[m]? ∧
      SqError c₀ T D (Ico 1 m) e ∧
      ∀ (P' : List (Pt ℚ d)) (c' : Curve ℚ d) (e' : ℚ), P'.length = n + 1 → Built c' p V P' →
        P'[0]? = D[0]? → P'[n]? = D[m]? → SqError c' T D (Ico 1 m) e' →
        e + penaltyCost pen' X.tail.dropLast ≤ e' + penaltyCost pen' P'.tail.dropLast +
          2 * (rho + ((10 * p + 3 + m) / 2 ^ 52 * ((m - 1) * (3 * W + M) + penSize pen' * M) +
            (m - 1) * (5 * 3 ^ (p + 2)) * ((n - 1) * M + 3 * W + 1) * (1 / 2) ^ 1074)) * l1Dist X P' :=
  C122_f64_fixed sequential_anyOrder solver h1 h2 h3 hn hp hm hD hDl hpen hW hW0 hW'

end

/-- non-vacuity: four points on a parabola, a penalty of weight 3 on second differences, and a solver that returns
the data; its residual is finite, so that the theorem bounds the cost of its answer -/
example [Trunc (Ieee binary64)] [Sqrt (Ieee binary64)] :
    ∃ (solver : Solver (Ieee binary64) 1) (pts : List (Pt (Ieee binary64) 1)) (D : List (Pt ℚ 1))
      (pen : Option (Penalization (Ieee binary64))) (pen' : Option (Penalization ℚ)),
    List.Forall₂ PtIs pts D ∧ D.length = 3 + 1 ∧ PenF64 (3 - 1) pen pen' ∧ (∀ q ∈ D, ∀ r, |q r| ≤ 9) ∧ pen'.isSome ∧
    ∃ (c : Curve (Ieee binary64) 1) (c₀ : Curve ℚ 1) (X : List (Pt ℚ 1)) (V T : List ℚ) (e B : ℚ),
      generate solver (.leastSquaresFit 2 pts 3 .looseEnds pen) = .ok (.ok c) ∧ ClampedKnots 0 1 2 3 V ∧ Built c₀ 2 V X ∧
      SqError c₀ T D (range 4) e ∧ ∀ (P' : List (Pt ℚ 1)) (c' : Curve ℚ 1) (e' : ℚ) (Y : List (Pt ℚ 1)) (δ : ℚ),
        P'.length = 4 → Built c' 2 V P' → SqError c' T D (range 4) e' → Y.length = 4 →
        (∀ g, g ≤ 3 → c'.evaluate (T.getD g 0) = .ok (.ok (Y.getD g 0))) → SqError c₀ T Y (range 4) δ →
        e + penaltyCost pen' X + δ ≤ e' + penaltyCost pen' P' + B * l1Dist X P' := by
  have hz : ∀ i ∈ List.range 4, ((i ^ 2 : ℕ) : ℚ) ≤ binary64.max ∧ binary64.rnd (i ^ 2 : ℕ) = (i ^ 2 : ℕ) := by
    decide +kernel
  have hD : List.Forall₂ PtIs ((List.range 4).map fun (i : ℕ) (_ : Fin 1) => ((i ^ 2 : ℕ) : Ieee binary64))
      ((List.range 4).map fun (i : ℕ) (_ : Fin 1) => ((i ^ 2 : ℕ) : ℚ)) := by
    rw [List.forall₂_map_left_iff, List.forall₂_map_right_iff, List.forall₂_same]
    intro i hi r
    have e := is_natCast (F := binary64) (hz i hi).1
    rwa [(hz i hi).2] at e
  have h3 : Is (3 : Ieee binary64) (3 : ℚ) := by
    have h : (3 : ℕ) ≤ 2 ^ 50 := by norm_num
    have e := is_natCast (F := binary64) (n := 3) (by decide +kernel)
    rw [nat64_rep h] at e
    exact_mod_cast e
  have hD0 : ((List.range 4).map fun (i : ℕ) (_ : Fin 1) => ((i ^ 2 : ℕ) : ℚ)) ≠ [] := by simp
  have hpen : PenF64 (3 - 1) (some ⟨3, 2⟩) (some ⟨3, 2⟩) :=
    ⟨h3, by norm_num, by decide +kernel, rfl, by norm_num, by norm_num⟩
  have h9 : ∀ q ∈ ((List.range 4).map fun (i : ℕ) (_ : Fin 1) => ((i ^ 2 : ℕ) : ℚ)), ∀ r, |q r| ≤ 9 := by decide +kernel
  generalize ((List.range 4).map fun (i : ℕ) (_ : Fin 1) => ((i ^ 2 : ℕ) : Ieee binary64)) = pts at hD
  have hDl : ((List.range 4).map fun (i : ℕ) (_ : Fin 1) => ((i ^ 2 : ℕ) : ℚ)).length = 3 + 1 := by simp
  generalize ((List.range 4).map fun (i : ℕ) (_ : Fin 1) => ((i ^ 2 : ℕ) : ℚ)) = D at hD hD0 h9 hDl
  refine ⟨⟨fun A b => (List.range (ncols A)).map fun i => fn pts i, by simp⟩, pts, D, _, _, hD, hDl, hpen, h9, rfl, ?_⟩
  obtain ⟨c, U, V, T, A, b, A', b', e1, e2, e3, e4, e5, e6, e7, e8, e9, e10⟩ := C122_f64_loose sequential_anyOrder
    ⟨fun A b => (List.range (ncols A)).map fun i => fn pts i, by simp⟩ (p := 2) (n := 3) (m := 3) (by norm_num) (by norm_num)
    (by norm_num) (by norm_num) (by norm_num) hD hDl hpen h9 (by norm_num) (by decide +kernel)
  have hX : List.Forall₂ PtIs ((List.range (ncols A)).map fun i => fn pts i) ((List.range (ncols A)).map fun i => fn D i) := by
    rw [List.forall₂_map_left_iff, List.forall₂_map_right_iff, List.forall₂_same]
    intro i _
    exact fn_ptIs hD i
  have hnc : ncols A = 4 := by
    obtain ⟨q1, -, q2⟩ := e7
    cases A with
    | nil => simp at q1
    | cons row A => exact q2 row (by simp)
  obtain ⟨rho, hrho⟩ := e7.residual e8 e9 (X := (List.range (ncols A)).map fun i => fn D i) (by simp [hnc])
  obtain ⟨c₀, e, f1, f2, f3, f4⟩ := e10 _ hX 9 (by norm_num) (fun q hq r => by
    obtain ⟨i, -, rfl⟩ := List.mem_map.mp hq
    exact h9 _ (fn_mem hD0 i) r) rho hrho
  exact ⟨c, c₀, _, V, T, e, _, e1, e5, f1, f3, fun P' c' e' Y δ j1 j2 j3 j4 j5 j6 => f4 P' c' e' j1 j2 j3 Y δ j4 j5 j6⟩

end BSpline
