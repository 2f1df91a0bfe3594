import Verif.Theory.CauchyBinet
import Verif.Props.Minors
import Verif.Props.FitUnique
import Verif.Props.Support

/-!
# Exactly when a penalised fit is unique: C156
-/

set_option linter.unusedSectionVars false

namespace BSpline

open Finset fwdDiff

variable {K : Type} [Field K] [LinearOrder K] [IsStrictOrderedRing K] {d : ℕ}

/-! ### Sequences without differences of order `κ` -/

/-- sequences that are polynomials of degree below `κ` have no differences of order `κ` -/
theorem diff_choose (κ : ℕ) : ∀ (a : ℕ → K) (i : ℕ),
    (Δ_[1]^[κ] (fun i : ℕ => ∑ r ∈ range κ, (i.choose r : K) * a r)) i = 0 := by
  induction κ with
  | zero => intro a i; simp
  | succ κ ih =>
    intro a i
    rw [Function.iterate_succ_apply]
    have e : Δ_[1] (fun i : ℕ => ∑ r ∈ range (κ + 1), (i.choose r : K) * a r) =
        fun i : ℕ => ∑ r ∈ range κ, (i.choose r : K) * a (r + 1) := by
      funext j
      rw [fwdDiff, sum_range_succ', sum_range_succ' (n := κ)]
      simp only [Nat.choose_succ_succ, Nat.cast_add, add_mul, sum_add_distrib, Nat.choose_zero_right]
      ring
    rw [e]
    exact ih (fun r => a (r + 1)) i

theorem diff_zero (k : ℕ) : ∀ (f : ℕ → K) (i : ℕ), (∀ j, j ≤ i + k → f j = 0) → (Δ_[1]^[k] f) i = 0 := by
  induction k with
  | zero => intro f i h; exact h i le_rfl
  | succ k ih =>
    intro f i h
    rw [Function.iterate_succ_apply]
    refine ih _ i fun j hj => ?_
    rw [fwdDiff, h _ (by omega), h _ (by omega), sub_zero]

/-- conversely, sequences without differences of order `κ` are such polynomials -/
theorem choose_of_diff {n κ : ℕ} (x : ℕ → K) (h : ∀ i, i + κ ≤ n → (Δ_[1]^[κ] x) i = 0) (i : ℕ) (hi : i ≤ n) :
    x i = ∑ r ∈ range κ, (i.choose r : K) * (Δ_[1]^[r] x) 0 := by
  have h1 := shift_eq_sum_fwdDiff_iter (h := 1) x i 0
  rw [zero_add, nsmul_eq_mul, mul_one, Nat.cast_id] at h1
  have h2 : ∀ N, i + 1 ≤ N → ∑ r ∈ range N, (i.choose r : K) * (Δ_[1]^[r] x) 0 =
      ∑ r ∈ range (i + 1), (i.choose r : K) * (Δ_[1]^[r] x) 0 := by
    intro N hN
    symm
    refine sum_subset (range_mono hN) fun r _ hr => ?_
    rw [mem_range, not_lt] at hr
    rw [Nat.choose_eq_zero_of_lt (by omega), Nat.cast_zero, zero_mul]
  have h3 : ∑ r ∈ range (i + 1), (i.choose r : K) * (Δ_[1]^[r] x) 0 =
      ∑ r ∈ range κ, (i.choose r : K) * (Δ_[1]^[r] x) 0 := by
    rcases Nat.lt_or_ge κ (i + 1) with hκ | hκ
    · symm
      refine sum_subset (range_mono hκ.le) fun r hr hr' => ?_
      rw [mem_range, not_lt] at hr'
      rw [mem_range] at hr
      obtain ⟨t, rfl⟩ := Nat.exists_eq_add_of_le hr'
      rw [Nat.add_comm κ t, Function.iterate_add_apply, diff_zero t _ 0 fun j hj => h j (by omega), mul_zero]
    · exact (h2 κ hκ).symm
  rw [← h3, h1]
  refine sum_congr rfl fun r _ => ?_
  rw [nsmul_eq_mul]

/-! ### The kernel of the penalised system -/

section Kernel

variable {p n : ℕ} {U : List K} (hU : ClampedKnots 0 1 p n U)

include hU

/-- no `N` control points, from number `o` on, without differences of order `κ` give the value zero at all parameters,
exactly if for `κ` of their basis functions there are parameters at which they do not vanish, in their order -/
theorem penalised_rank_iff {m κ o N : ℕ} (hκ : 1 ≤ κ) (hκn : κ ≤ N) (ho : o + N ≤ n + 1) {τ : ℕ → K}
    (hτ : ∀ i j, i < j → j ≤ m → τ i < τ j) (hb : ∀ i, i ≤ m → 0 ≤ τ i ∧ τ i ≤ 1) :
    (∀ x : ℕ → K, (∀ g, g ≤ m → ∑ i ∈ range N, nb p n U (i + o) (τ g) * x i = 0) →
      (∀ i, i + κ < N → (Δ_[1]^[κ] x) i = 0) → ∀ i, i < N → x i = 0) ↔
    ∃ s f : ℕ → ℕ, (∀ i j, i < j → j < κ → s i < s j ∧ f i < f j) ∧
      ∀ i, i < κ → s i ≤ m ∧ f i < N ∧ nb p n U (f i + o) (τ (s i)) ≠ 0 := by
  have hsum : ∀ (g : ℕ) (a : ℕ → K), ∑ r ∈ range κ, (∑ i ∈ range N, nb p n U (i + o) (τ g) * (i.choose r : K)) * a r =
      ∑ i ∈ range N, nb p n U (i + o) (τ g) * ∑ r ∈ range κ, (i.choose r : K) * a r := by
    intro g a
    simp only [sum_mul, mul_sum]
    rw [sum_comm]
    exact sum_congr rfl fun i _ => sum_congr rfl fun r _ => by ring
  -- the kernel in terms of the coefficients of the polynomials
  have hk1 : (∀ x : ℕ → K, (∀ g, g ≤ m → ∑ i ∈ range N, nb p n U (i + o) (τ g) * x i = 0) →
      (∀ i, i + κ < N → (Δ_[1]^[κ] x) i = 0) → ∀ i, i < N → x i = 0) ↔
      ∀ a : ℕ → K, (∀ g, g < m + 1 → ∑ r ∈ range κ, (∑ i ∈ range N, nb p n U (i + o) (τ g) * (i.choose r : K)) * a r = 0) →
        ∀ r, r < κ → a r = 0 := by
    constructor
    · intro h a ha
      have h0 := h (fun i => ∑ r ∈ range κ, (i.choose r : K) * a r) (fun g hg => by rw [← hsum]; exact ha g (by omega))
        (fun i _ => diff_choose κ a i)
      intro r
      induction r using Nat.strong_induction_on with
      | _ r ih =>
        intro hr
        have := h0 r (by omega)
        rw [sum_eq_single r] at this
        · simpa using this
        · intro t ht htr
          rw [mem_range] at ht
          rcases Nat.lt_or_ge t r with h1 | h1
          · rw [ih t h1 ht, mul_zero]
          · rw [Nat.choose_eq_zero_of_lt (by omega), Nat.cast_zero, zero_mul]
        · intro h1; exact absurd (mem_range.mpr hr) h1
    · intro h x hx hd i hi
      have hx' := choose_of_diff (n := N - 1) x (fun i hi => hd i (by omega))
      have h0 := h (fun r => (Δ_[1]^[r] x) 0) (fun g hg => by
        rw [hsum, ← hx g (by omega)]
        refine sum_congr rfl fun i hi => ?_
        rw [mem_range] at hi
        rw [hx' i (by omega)])
      rw [hx' i (by omega)]
      refine sum_eq_zero fun r hr => ?_
      rw [h0 r (mem_range.mp hr), mul_zero]
  rw [hk1]
  -- a choice of parameters
  have hdet : ∀ s : ℕ → ℕ, (∀ i j, i < j → j < κ → s i < s j) → (∀ i, i < κ → s i ≤ m) →
      ((Matrix.of fun g r : Fin κ => ∑ i : Fin N, nb p n U (i + o) (τ (s g)) * ((i : ℕ).choose r : K)).det ≠ 0 ↔
      ∃ e : Fin κ → Fin N, StrictMono e ∧ ∀ g, nb p n U (e g + o) (τ (s g)) ≠ 0) := by
    intro s hs1 hs2
    have hst : StrictMono fun g : Fin κ => τ (s g) := fun i j hij => hτ _ _ (hs1 i j hij j.2) (hs2 j j.2)
    have hsb : ∀ g : Fin κ, 0 ≤ τ (s g) ∧ τ (s g) ≤ 1 := fun g => hb _ (hs2 g g.2)
    rw [product_det_ne_zero_iff (A := fun (g : Fin κ) (i : Fin N) => nb p n U (i + o) (τ (s g)))
      (V := fun (i : Fin N) (r : Fin κ) => ((i : ℕ).choose r : K))]
    · refine exists_congr fun e => and_congr_right fun he => ?_
      have hcol : StrictMono fun r => (e r + o : ℕ) := fun i j hij => Nat.add_lt_add_right (he hij) o
      have hle : ∀ r, (e r + o : ℕ) ≤ n := fun r => by have := (e r).2; omega
      constructor
      · intro h g hg
        apply h
        obtain ⟨k, rfl⟩ : ∃ k, κ = k + 1 := ⟨κ - 1, by omega⟩
        exact singular_some hU hst.monotone hsb hcol hle _ (fun _ _ => rfl) hg
      · intro h
        exact regular_some hU hst hsb hcol hle _ (fun _ _ => rfl) h
    · intro e he
      have := minor_nonneg hU hst.monotone hsb (col := fun r => (e r + o : ℕ)) (fun i j hij => Nat.add_lt_add_right (he hij) o)
        (fun r => by have := (e r).2; omega)
      rwa [← Matrix.det_transpose] at this
    · intro e he
      exact choose_minor_pos (e := fun r => (e r : ℕ)) he
  have hker : ∀ s : ℕ → ℕ, (Matrix.of fun g r : Fin κ => ∑ i : Fin N, nb p n U (i + o) (τ (s g)) * ((i : ℕ).choose r : K)).det ≠ 0 ↔
      ∀ a : ℕ → K, (∀ g, g < κ → ∑ r ∈ range κ, (∑ i ∈ range N, nb p n U (i + o) (τ (s g)) * (i.choose r : K)) * a r = 0) →
        ∀ r, r < κ → a r = 0 := by
    intro s
    constructor
    · intro h a ha r hr
      by_contra hne
      apply h
      refine Matrix.exists_mulVec_eq_zero_iff.mp ⟨fun r => a r, fun h0 => hne (congrFun h0 ⟨r, hr⟩), ?_⟩
      funext g
      have := ha g g.2
      rw [← Fin.sum_univ_eq_sum_range (fun r => (∑ i ∈ range N, nb p n U (i + o) (τ (s g)) * (i.choose r : K)) * a r)] at this
      rw [Matrix.mulVec, dotProduct, Pi.zero_apply, ← this]
      refine sum_congr rfl fun r _ => ?_
      rw [Matrix.of_apply, ← Fin.sum_univ_eq_sum_range (fun i => nb p n U (i + o) (τ (s g)) * (i.choose r : K))]
    · intro h h0
      obtain ⟨v, hv, hv0⟩ := Matrix.exists_mulVec_eq_zero_iff.mpr h0
      apply hv
      funext r
      have := h (fun r => if hr : r < κ then v ⟨r, hr⟩ else 0) (fun g hg => by
        have h1 := congrFun hv0 ⟨g, hg⟩
        rw [Matrix.mulVec, dotProduct, Pi.zero_apply] at h1
        refine Eq.trans ?_ h1
        rw [← Fin.sum_univ_eq_sum_range (fun r => (∑ i ∈ range N, nb p n U (i + o) (τ (s g)) * (i.choose r : K)) *
          (if hr : r < κ then v ⟨r, hr⟩ else 0))]
        refine sum_congr rfl fun r _ => ?_
        rw [Matrix.of_apply, ← Fin.sum_univ_eq_sum_range (fun i => nb p n U (i + o) (τ (s g)) * (i.choose r : K)), dif_pos r.2]) r r.2
      rwa [dif_pos r.2] at this
  constructor
  · intro h
    obtain ⟨s, h1, h2, -, h3⟩ := exists_rows (r := m + 1) (c := κ)
      (fun g r => ∑ i ∈ range N, nb p n U (i + o) (τ g) * (i.choose r : K)) h
    obtain ⟨e, he, hne⟩ := (hdet s h1 (fun i hi => by have := h2 i hi; omega)).mp ((hker s).mpr h3)
    refine ⟨s, fun i => if h : i < κ then (e ⟨i, h⟩ : ℕ) else 0, fun i j hij hj => ⟨h1 i j hij hj, ?_⟩, fun i hi => ?_⟩
    · beta_reduce
      rw [dif_pos hj, dif_pos (by omega)]
      exact he (by simpa using hij)
    · beta_reduce
      rw [dif_pos hi]
      have := h2 i hi
      exact ⟨by omega, (e ⟨i, hi⟩).2, hne ⟨i, hi⟩⟩
  · rintro ⟨s, f, h1, h2⟩ a ha
    refine (hker s).mp ((hdet s (fun i j hij hj => (h1 i j hij hj).1) (fun i hi => (h2 i hi).1)).mpr ?_) a
      (fun g hg => ha _ (by have := (h2 g hg).1; omega))
    refine ⟨fun i => ⟨f i, (h2 i i.2).2.1⟩, fun i j hij => ?_, fun g => (h2 g g.2).2.2⟩
    exact (h1 i j hij j.2).2

end Kernel

/-- the penalty of control points to which a sequence without differences of order `κ` is added -/
theorem penalty_diff {n κ : ℕ} (hκ : 1 ≤ κ) (x : ℕ → K) {h : ℕ} (hh : h + κ ≤ n) :
    mv (n + 1) (fun i j => ((differenceOperator κ i j : ℤ) : K)) x h = (Δ_[1]^[κ] x) h := by
  rw [mv, ← sum_differenceOperator x hκ h (show h + κ < n + 1 by omega)]
  exact sum_congr rfl fun j _ => by simp

/-- **C156** The fit with loose ends and a positive penalty on the differences of order `κ` is the only minimiser if
and only if one can choose `κ` basis functions and `κ` parameters, both increasing, such that none of the functions
vanishes at its parameter. -/
theorem C156_unique_iff [NeZero d] {p n m κ : ℕ} {U : List K} {kn : Knots K} {pts P : DataPoints K d}
    {params : Parameters K} {solver : Solver K d} {lam : K} {c : Curve K d} {e : K} (hs : solver.Exact)
    (hk : Knots.new p U = .ok kn) (hU : ClampedKnots 0 1 p n U) (h1 : 1 ≤ p) (hm : List.length pts = m + 1)
    (hv : params.vector.length = params.segments + 1) (hinc : params.vector.Pairwise (· < ·))
    (hτ : ∀ x ∈ params.vector, 0 ≤ x ∧ x ≤ 1) (hlam : 0 < lam) (hκ : 1 ≤ κ) (hκn : κ ≤ n)
    (hfit : Loose.fit solver kn pts params (some ⟨lam, κ⟩) = .ok (.ok P))
    (hc : Built c p U P) (he : SqError c params.vector pts (range (m + 1)) e) :
    (∀ (P' : List (Pt K d)) (c' : Curve K d) (e' : K), P'.length = n + 1 → Built c' p U P' →
      SqError c' params.vector pts (range (m + 1)) e' → P' ≠ P →
      e + penaltyCost (some ⟨lam, κ⟩) P < e' + penaltyCost (some ⟨lam, κ⟩) P') ↔
    ∃ s f : ℕ → ℕ, (∀ i j, i < j → j < κ → s i < s j ∧ f i < f j) ∧
      ∀ i, i < κ → f i ≤ n ∧ ∃ t v, params.vector[s i]? = some t ∧ kn.evaluate 0 (f i) p t = .ok v ∧ v ≠ 0 := by
  obtain ⟨h2, h3, h5, hlen, key⟩ := loose_normal hs hk hU h1 hm hv hfit
  have hI := loose_range hm hv h3
  have hL : params.vector.length = m + 1 := by omega
  have hrank := penalised_rank_iff hU (m := m) (o := 0) (N := n + 1) hκ (by omega) (by omega) (τ := fn params.vector)
    (fun i j hij hj => by
      rw [fn_lt (by omega), fn_lt (by omega)]
      exact List.pairwise_iff_getElem.mp hinc i j (by omega) (by omega) hij)
    (fun i hi => by rw [fn_lt (by omega)]; exact hτ _ (List.getElem_mem _))
  simp only [Nat.add_zero, Nat.lt_succ_iff] at hrank
  have hev : (∃ s f : ℕ → ℕ, (∀ i j, i < j → j < κ → s i < s j ∧ f i < f j) ∧
      ∀ i, i < κ → f i ≤ n ∧ ∃ t v, params.vector[s i]? = some t ∧ kn.evaluate 0 (f i) p t = .ok v ∧ v ≠ 0) ↔
      ∃ s f : ℕ → ℕ, (∀ i j, i < j → j < κ → s i < s j ∧ f i < f j) ∧
        ∀ i, i < κ → s i ≤ m ∧ f i ≤ n ∧ nb p n U (f i) (fn params.vector (s i)) ≠ 0 := by
    obtain ⟨-, rfl⟩ := knots_new_inv hk
    refine exists_congr fun s => exists_congr fun f => and_congr_right fun _ => forall_congr' fun i =>
      forall_congr' fun hi => ?_
    constructor
    · rintro ⟨a0, t, v, a1, a2, a3⟩
      obtain ⟨a4, rfl⟩ := List.getElem?_eq_some_iff.mp a1
      rw [nb_ok hU.length hU.le a0] at a2
      injection a2 with a2
      rw [fn_lt a4, a2]
      exact ⟨by omega, a0, a3⟩
    · rintro ⟨a1, a0, a2⟩
      refine ⟨a0, _, _, List.getElem?_eq_getElem (by omega), nb_ok hU.length hU.le a0 _, ?_⟩
      rwa [fn_lt (by omega)] at a2
  rw [hev, ← hrank]
  constructor
  · intro h x hx hd i hi
    by_contra hne
    let P' : List (Pt K d) := (List.range (n + 1)).map fun (i : ℕ) ρ => fn P i ρ + x i
    have hP' : P'.length = n + 1 := by simp [P']
    have hfP' : ∀ k, k < n + 1 → fn P' k = fun ρ => fn P k ρ + x k := fun k hk => fn_map_range _ hk
    have hc' := mkCurve_ok hP' hU.le (show n + p + 1 ≤ U.length by have := hU.length; omega)
    have hpen : penaltyCost (some ⟨lam, κ⟩) P' = penaltyCost (some ⟨lam, κ⟩) P := by
      rw [penaltyCost_eq hP', penaltyCost_eq hlen]
      refine sum_congr rfl fun ρ _ => ?_
      congr 1
      refine sum_congr rfl fun g hg => ?_
      rw [mem_range] at hg
      simp only [penRows] at hg
      congr 1
      have e0 : mv (n + 1) (penD (some ⟨lam, κ⟩)) x g = 0 := by
        have := penalty_diff (n := n) hκ x (h := g) (by omega)
        rw [hd g (by omega)] at this
        exact this
      rw [← add_zero (mv (n + 1) (penD (some ⟨lam, κ⟩)) (fun j => fn P j ρ) g), ← e0]
      simp only [mv]
      rw [← sum_add_distrib]
      refine sum_congr rfl fun k hk => ?_
      rw [hfP' k (mem_range.mp hk)]
      ring
    have hlt := h P' _ e hP' hc' ?_ ?_
    · rw [hpen] at hlt
      exact lt_irrefl _ hlt
    · rw [sqError_iff hU hP' hc' hI hτ, (sqError_iff hU hlen hc hI hτ).mp he]
      apply sum_congr rfl
      intro g hg
      apply sum_congr rfl
      intro ρ _
      congr 2
      rw [← add_zero (∑ i ∈ range (n + 1), nb p n U i (fn params.vector g) * fn P i ρ),
        ← hx g (by rw [mem_range] at hg; omega), ← sum_add_distrib]
      apply sum_congr rfl
      intro k hk
      rw [hfP' k (mem_range.mp hk)]
      ring
    · intro e1
      have e2 := congrFun (hfP' i (by omega)) 0
      rw [e1] at e2
      exact hne (left_eq_add.mp e2)
  · intro h P' c' e' hP' hc' he' hne
    by_contra hle
    rw [not_lt] at hle
    have h4 := loose_unique hs hk hU h1 hm hv hτ hfit hc hP' hc' he he' hle
    rw [(sqError_iff hU hP' hc' hI hτ).mp he', (sqError_iff hU hlen hc hI hτ).mp he,
      penaltyCost_eq hlen, penaltyCost_eq hP', sum_comm,
      sum_comm (s := range (m + 1)), ← sum_add_distrib, ← sum_add_distrib] at hle
    have h6 : ∀ ρ ∈ (univ : Finset (Fin d)), _ := fun ρ _ => lsq_le h5 (key ρ) (fun j => fn P' j ρ)
    have h7 := (sum_eq_sum_iff_of_le h6).mp (le_antisymm (sum_le_sum h6) hle)
    apply hne
    apply ext_fn (by omega)
    intro i hi
    funext ρ
    refine sub_eq_zero.mp (h (fun i => fn P' i ρ - fn P i ρ) (fun g hg => ?_) (fun g hg => ?_) i (by omega))
    · rw [← sub_eq_zero.mpr (h4 g hg ρ), ← sum_sub_distrib]
      apply sum_congr rfl
      intro k _
      ring
    · rw [← penalty_diff hκ _ hg]
      exact lsq_unique_pen hlam (key ρ) (h7 ρ (mem_univ ρ)).ge g (by simp only [penRows]; omega)

/-- A basis function that has begun before a parameter inside the curve, and is among those of its span, does not
vanish there; the first function of the span never does. -/
theorem active_of_span {p n i j : ℕ} {U : List K} (hU : ClampedKnots 0 1 p n U) {u : K} (h1 : IsSpan (fn U) n u j)
    (hu : u < 1) (hle : i ≤ n) (hlo : j - p ≤ i) (h : i = j - p ∨ fn U i < u) : nb p n U i u ≠ 0 := by
  have hcl := hU.clamp
  have hp1 := h1.p_le hcl
  have hhi := h1.lt_hi hcl hu
  rw [nb_eq_Bs hU h1]
  refine ((Bs_pos_iff hcl h1 hle).mpr ?_).ne'
  have hy : u < fn U (i + p + 1) := lt_of_lt_of_le hhi (hcl.mono (by omega))
  rcases h with h | h
  · have hx : fn U i ≤ u := (hcl.mono (by omega)).trans h1.lo
    rcases hx.lt_or_eq with hx | hx
    · exact Or.inl ⟨hx, hy⟩
    · refine Or.inr (Or.inl ⟨hx.symm, ?_, by rw [hx]; exact hy⟩)
      rw [hx, show i + p = j by omega]
      refine le_antisymm h1.lo ?_
      rw [← hx]
      exact hcl.mono (by omega)
  · exact Or.inl ⟨h, hy⟩

/-- increasing parameters inside the domain: functions of their spans, in their order, that have begun there -/
theorem exists_active_span {p n k : ℕ} {U : List K} (hU : ClampedKnots 0 1 p n U) (hk : k ≤ p + 1) {τ : ℕ → K}
    (hτ : ∀ i, i + 1 < k → τ i < τ (i + 1)) (hb : ∀ i, i < k → 0 < τ i ∧ τ i < 1) :
    ∃ f J : ℕ → ℕ, (∀ i j, i < j → j < k → f i < f j) ∧ ∀ i, i < k → IsSpan (fn U) n (τ i) (J i) ∧
      J i - p ≤ f i ∧ f i ≤ J i - p + i ∧ (f i = J i - p ∨ fn U (f i) < τ i) := by
  classical
  have hcl := hU.clamp
  have hsp : ∀ i, ∃ j, i < k → IsSpan (fn U) n (τ i) j := by
    intro i
    by_cases hi : i < k
    · obtain ⟨j, hj⟩ := hcl.exists_span (hb i hi).1.le (hb i hi).2.le
      exact ⟨j, fun _ => hj⟩
    · exact ⟨0, fun h => absurd h hi⟩
  choose J hJ using hsp
  let f : ℕ → ℕ := fun s => Nat.findGreatest (fun i => i = J s - p ∨ fn U i < τ s) (J s - p + s)
  have hf1 : ∀ s, J s - p ≤ f s := fun s => Nat.le_findGreatest (by omega) (Or.inl rfl)
  have hf2 : ∀ s, f s ≤ J s - p + s := fun s => Nat.findGreatest_le _
  have hf3 : ∀ s, f s = J s - p ∨ fn U (f s) < τ s := fun s =>
    Nat.findGreatest_spec (P := fun i => i = J s - p ∨ fn U i < τ s) (m := J s - p) (by omega) (Or.inl rfl)
  have hstep : ∀ s, s + 1 < k → f s < f (s + 1) := by
    intro s hs
    have h1 := hJ s (by omega)
    have h2 := hJ (s + 1) hs
    have hp1 := h1.p_le hcl
    have hjj : J s ≤ J (s + 1) := by
      by_contra hlt
      rw [not_le] at hlt
      have h3 := h2.lt_hi hcl (hb _ hs).2
      have h4 : fn U (J (s + 1) + 1) ≤ fn U (J s) := hcl.mono (by omega)
      have := h1.lo
      have := hτ s hs
      linarith
    refine Nat.lt_of_succ_le (Nat.le_findGreatest ?_ (Or.inr ?_))
    · have := hf2 s
      omega
    · have h3 : fn U (f s + 1) ≤ fn U (J s) := hcl.mono (by have := hf2 s; omega)
      have := h1.lo
      have := hτ s hs
      exact lt_of_le_of_lt h3 (by linarith)
  refine ⟨f, J, ?_, fun i hi => ⟨hJ i hi, hf1 i, hf2 i, hf3 i⟩⟩
  · intro i j hij
    induction j, hij using Nat.le_induction with
    | base => intro hj; exact hstep i hj
    | succ j _ ih => intro hj; exact (ih (by omega)).trans (hstep j hj)

/-- increasing parameters inside the domain and at most `p + 1` of them: there are basis functions in their order that
do not vanish there -/
theorem exists_active {p n k : ℕ} {U : List K} (hU : ClampedKnots 0 1 p n U) (hk : k ≤ p + 1) {τ : ℕ → K}
    (hτ : ∀ i, i + 1 < k → τ i < τ (i + 1)) (hb : ∀ i, i < k → 0 < τ i ∧ τ i < 1) :
    ∃ f : ℕ → ℕ, (∀ i j, i < j → j < k → f i < f j) ∧ ∀ i, i < k → f i ≤ n ∧ nb p n U (f i) (τ i) ≠ 0 := by
  obtain ⟨f, J, h1, h2⟩ := exists_active_span hU hk hτ hb
  refine ⟨f, h1, fun i hi => ?_⟩
  obtain ⟨a1, a2, a3, a4⟩ := h2 i hi
  have hp1 := a1.p_le hU.clamp
  have hjn := a1.le_n
  have hle : f i ≤ n := by omega
  exact ⟨hle, active_of_span hU a1 (hb i hi).2 hle a2 a4⟩

/-- the same with inner basis functions, for at most `p` parameters -/
theorem exists_active_inner {p n k : ℕ} {U : List K} (hU : ClampedKnots 0 1 p n U) (hk : k ≤ p) (hkn : k < n)
    {τ : ℕ → K} (hτ : ∀ i, i + 1 < k → τ i < τ (i + 1)) (hb : ∀ i, i < k → 0 < τ i ∧ τ i < 1) :
    ∃ f : ℕ → ℕ, (∀ i j, i < j → j < k → f i < f j) ∧
      ∀ i, i < k → 1 ≤ f i ∧ f i < n ∧ nb p n U (f i) (τ i) ≠ 0 := by
  obtain ⟨f, J, h1, h2⟩ := exists_active_span hU (by omega) hτ hb
  refine ⟨fun i => max (f i) (i + 1), fun i j hij hj => ?_, fun i hi => ?_⟩
  · have := h1 i j hij hj
    beta_reduce
    omega
  · obtain ⟨a1, a2, a3, a4⟩ := h2 i hi
    have hp1 := a1.p_le hU.clamp
    have hjn := a1.le_n
    beta_reduce
    refine ⟨by omega, by omega, active_of_span hU a1 (hb i hi).2 (by omega) (by omega) ?_⟩
    rcases le_total (f i) (i + 1) with h | h
    · rw [max_eq_right h]
      right
      rw [hU.clamp.left (i + 1) (by omega)]
      exact (hb i hi).1
    · rw [max_eq_left h]
      exact a4

/-- **C156** If the order of the differences is at most `p + 1`, a penalised fit to increasing parameters is always the
only minimiser, however badly the parameters are distributed. -/
theorem C156_always [NeZero d] {p n m κ : ℕ} {U : List K} {kn : Knots K} {pts P : DataPoints K d}
    {params : Parameters K} {solver : Solver K d} {lam : K} {c : Curve K d} {e : K} (hs : solver.Exact)
    (hk : Knots.new p U = .ok kn) (hU : ClampedKnots 0 1 p n U) (h1 : 1 ≤ p) (hm : List.length pts = m + 1)
    (hv : params.vector.length = params.segments + 1) (hinc : params.vector.Pairwise (· < ·))
    (hτ : ∀ x ∈ params.vector, 0 ≤ x ∧ x ≤ 1) (hlam : 0 < lam) (hκ : 1 ≤ κ) (hκp : κ ≤ p + 1) (hκn : κ < n)
    (hfit : Loose.fit solver kn pts params (some ⟨lam, κ⟩) = .ok (.ok P))
    (hc : Built c p U P) (he : SqError c params.vector pts (range (m + 1)) e) :
    ∀ (P' : List (Pt K d)) (c' : Curve K d) (e' : K), P'.length = n + 1 → Built c' p U P' →
      SqError c' params.vector pts (range (m + 1)) e' → P' ≠ P →
      e + penaltyCost (some ⟨lam, κ⟩) P < e' + penaltyCost (some ⟨lam, κ⟩) P' := by
  obtain ⟨h2, h3, -, -, -⟩ := loose_normal hs hk hU h1 hm hv hfit
  rw [C156_unique_iff hs hk hU h1 hm hv hinc hτ hlam hκ hκn.le hfit hc he]
  have hL : params.vector.length = m + 1 := by omega
  have hlt : ∀ i j, i < j → j ≤ m → fn params.vector i < fn params.vector j := by
    intro i j hij hj
    rw [fn_lt (by omega), fn_lt (by omega)]
    exact List.pairwise_iff_getElem.mp hinc i j (by omega) (by omega) hij
  have hbd : ∀ i, i ≤ m → 0 ≤ fn params.vector i ∧ fn params.vector i ≤ 1 := by
    intro i hi
    rw [fn_lt (by omega)]
    exact hτ _ (List.getElem_mem _)
  obtain ⟨f, hf1, hf2⟩ := exists_active hU hκp (τ := fun i => fn params.vector (i + 1))
    (fun i hi => hlt _ _ (by omega) (by omega))
    (fun i hi => ⟨(hbd 0 (by omega)).1.trans_lt (hlt 0 (i + 1) (by omega) (by omega)),
      (hlt (i + 1) (i + 2) (by omega) (by omega)).trans_le (hbd (i + 2) (by omega)).2⟩)
  refine ⟨fun i => i + 1, f, fun i j hij hj => ⟨by simpa using hij, hf1 i j hij hj⟩, fun i hi => ⟨(hf2 i hi).1, ?_⟩⟩
  obtain ⟨-, rfl⟩ := knots_new_inv hk
  refine ⟨_, _, List.getElem?_eq_getElem (show i + 1 < _ by omega), nb_ok hU.length hU.le (hf2 i hi).1 _, ?_⟩
  have := (hf2 i hi).2
  rwa [fn_lt (by omega)] at this

/-! ### Fixed ends -/

/-- **C156** The fit with fixed ends and a positive penalty on the differences of order `κ` of the inner control points
is the only minimiser among the control points with these ends, if and only if one can choose `κ` inner basis functions
and `κ` inner parameters, both increasing, such that none of the functions vanishes at its parameter. -/
theorem C156_fixed_unique_iff [NeZero d] {p n m κ : ℕ} {U : List K} {kn : Knots K} {pts P : DataPoints K d}
    {params : Parameters K} {solver : Solver K d} {lam : K} {c : Curve K d} {e : K} (hs : solver.Exact)
    (hk : Knots.new p U = .ok kn) (hU : ClampedKnots 0 1 p n U) (h1 : 1 ≤ p) (hm : List.length pts = m + 1)
    (hv : params.vector.length = params.segments + 1) (hinc : params.vector.Pairwise (· < ·))
    (hτ : ∀ x ∈ params.vector, 0 ≤ x ∧ x ≤ 1) (hlam : 0 < lam) (hκ : 1 ≤ κ) (hκn : κ + 2 ≤ n)
    (hfit : Fixed.fit solver kn pts params (some ⟨lam, κ⟩) = .ok (.ok P))
    (hc : Built c p U P) (he : SqError c params.vector pts (Ico 1 m) e) :
    (∀ (P' : List (Pt K d)) (c' : Curve K d) (e' : K), P'.length = n + 1 → Built c' p U P' →
      P'[0]? = pts[0]? → P'[n]? = pts[m]? → SqError c' params.vector pts (Ico 1 m) e' → P' ≠ P →
      e + penaltyCost (some ⟨lam, κ⟩) P.tail.dropLast < e' + penaltyCost (some ⟨lam, κ⟩) P'.tail.dropLast) ↔
    ∃ s f : ℕ → ℕ, (∀ i j, i < j → j < κ → s i < s j ∧ f i < f j) ∧
      ∀ i, i < κ → 1 ≤ s i ∧ s i < m ∧ 1 ≤ f i ∧ f i < n ∧
        ∃ t v, params.vector[s i]? = some t ∧ kn.evaluate 0 (f i) p t = .ok v ∧ v ≠ 0 := by
  obtain ⟨hn, h2, h3, h5, hlen, hP0, hPn, key⟩ := fixed_normal hs hk hU h1 hm hv hfit
  have hI := fixed_range hm hv h3
  have hL : params.vector.length = m + 1 := by omega
  have hrank := penalised_rank_iff hU (m := m - 2) (o := 1) (N := n - 1) hκ (by omega) (by omega)
    (τ := fun g => fn params.vector (g + 1))
    (fun i j hij hj => by
      rw [fn_lt (by omega), fn_lt (by omega)]
      exact List.pairwise_iff_getElem.mp hinc _ _ (by omega) (by omega) (by omega))
    (fun i hi => by rw [fn_lt (by omega)]; exact hτ _ (List.getElem_mem _))
  have hev : (∃ s f : ℕ → ℕ, (∀ i j, i < j → j < κ → s i < s j ∧ f i < f j) ∧
      ∀ i, i < κ → 1 ≤ s i ∧ s i < m ∧ 1 ≤ f i ∧ f i < n ∧
        ∃ t v, params.vector[s i]? = some t ∧ kn.evaluate 0 (f i) p t = .ok v ∧ v ≠ 0) ↔
      ∃ s f : ℕ → ℕ, (∀ i j, i < j → j < κ → s i < s j ∧ f i < f j) ∧
        ∀ i, i < κ → s i ≤ m - 2 ∧ f i < n - 1 ∧ nb p n U (f i + 1) (fn params.vector (s i + 1)) ≠ 0 := by
    obtain ⟨-, rfl⟩ := knots_new_inv hk
    constructor
    · rintro ⟨s, f, a1, a2⟩
      refine ⟨fun i => s i - 1, fun i => f i - 1, fun i j hij hj => ?_, fun i hi => ?_⟩
      · have b1 := a1 i j hij hj
        have b2 := a2 i (by omega)
        beta_reduce
        exact ⟨by omega, by omega⟩
      · obtain ⟨b1, b2, b3, b4, t, v, b5, b6, b7⟩ := a2 i hi
        obtain ⟨b8, rfl⟩ := List.getElem?_eq_some_iff.mp b5
        rw [nb_ok hU.length hU.le b4.le] at b6
        injection b6 with b6
        beta_reduce
        refine ⟨by omega, by omega, ?_⟩
        rw [Nat.sub_add_cancel b1, Nat.sub_add_cancel b3, fn_lt b8, b6]
        exact b7
    · rintro ⟨s, f, a1, a2⟩
      refine ⟨fun i => s i + 1, fun i => f i + 1, fun i j hij hj => ?_, fun i hi => ?_⟩
      · have b1 := a1 i j hij hj
        beta_reduce
        exact ⟨by omega, by omega⟩
      · obtain ⟨b1, b2, b3⟩ := a2 i hi
        beta_reduce
        refine ⟨by omega, by omega, by omega, by omega, _, _, List.getElem?_eq_getElem (show s i + 1 < _ by omega),
          nb_ok hU.length hU.le (show f i + 1 ≤ n by omega) _, ?_⟩
        rwa [fn_lt (by omega)] at b3
  rw [hev, ← hrank]
  constructor
  · intro h x hx hd i hi
    by_contra hne
    -- the control points moved by the sequence `x`, the ends left alone
    let y : ℕ → K := fun i => if i = 0 then 0 else if i = n then 0 else x (i - 1)
    have hy0 : y 0 = 0 := if_pos rfl
    have hyn : y n = 0 := by simp only [y]; rw [if_neg (by omega), if_pos trivial]
    have hyi : ∀ j, j < n - 1 → y (j + 1) = x j := by
      intro j hj
      simp only [y]
      rw [if_neg (by omega), if_neg (by omega), Nat.add_sub_cancel]
    let P' : List (Pt K d) := (List.range (n + 1)).map fun (i : ℕ) ρ => fn P i ρ + y i
    have hP' : P'.length = n + 1 := by simp [P']
    have hfP' : ∀ k, k < n + 1 → fn P' k = fun ρ => fn P k ρ + y k := fun k hk => fn_map_range _ hk
    have hc' := mkCurve_ok hP' hU.le (show n + p + 1 ≤ U.length by have := hU.length; omega)
    have hpen : penaltyCost (some ⟨lam, κ⟩) P'.tail.dropLast = penaltyCost (some ⟨lam, κ⟩) P.tail.dropLast := by
      rw [penaltyCost_eq (length_inner hP'), penaltyCost_eq (length_inner hlen)]
      refine sum_congr rfl fun ρ _ => ?_
      congr 1
      refine sum_congr rfl fun g hg => ?_
      rw [mem_range] at hg
      simp only [penRows] at hg
      congr 1
      have e0 : mv (n - 1) (penD (some ⟨lam, κ⟩)) x g = 0 := by
        have := penalty_diff (n := n - 2) hκ x (h := g) (by omega)
        rw [hd g (by omega), show n - 2 + 1 = n - 1 by omega] at this
        exact this
      rw [← add_zero (mv (n - 1) (penD (some ⟨lam, κ⟩)) (fun j => fn P.tail.dropLast j ρ) g), ← e0]
      simp only [mv]
      rw [← sum_add_distrib]
      refine sum_congr rfl fun k hk => ?_
      rw [mem_range] at hk
      rw [fn_inner (by omega), fn_inner (by omega), hfP' (k + 1) (by omega), hyi k hk]
      ring
    have hlt := h P' _ e hP' hc' ?_ ?_ ?_ ?_
    · rw [hpen] at hlt
      exact lt_irrefl _ hlt
    · rw [getElem?_eq_iff_fn (by omega) (by omega), hfP' 0 (by omega), ← hP0]
      funext ρ
      rw [hy0, add_zero]
    · rw [getElem?_eq_iff_fn (by omega) (by omega), hfP' n (by omega), ← hPn]
      funext ρ
      rw [hyn, add_zero]
    · rw [sqError_iff hU hP' hc' hI hτ, (sqError_iff hU hlen hc hI hτ).mp he]
      apply sum_congr rfl
      intro g hg
      rw [mem_Ico] at hg
      apply sum_congr rfl
      intro ρ _
      congr 2
      have hz : ∑ i ∈ range (n + 1), nb p n U i (fn params.vector g) * y i = 0 := by
        rw [sum_inner (by omega), hy0, hyn, mul_zero, mul_zero, zero_add, zero_add]
        have := hx (g - 1) (by omega)
        rw [Nat.sub_add_cancel hg.1] at this
        rw [← this]
        refine sum_congr rfl fun k hk => ?_
        rw [hyi k (mem_range.mp hk)]
      rw [← add_zero (∑ i ∈ range (n + 1), nb p n U i (fn params.vector g) * fn P i ρ), ← hz, ← sum_add_distrib]
      apply sum_congr rfl
      intro k hk
      rw [hfP' k (mem_range.mp hk)]
      ring
    · intro e1
      have e2 := congrFun (hfP' (i + 1) (by omega)) 0
      rw [e1, hyi i hi] at e2
      exact hne (left_eq_add.mp e2)
  · intro h P' c' e' hP' hc' hP'0 hP'n he' hne
    by_contra hle
    rw [not_lt] at hle
    rw [getElem?_eq_iff_fn (by omega) (by omega)] at hP'0 hP'n
    rw [(sqError_iff hU hP' hc' hI hτ).mp he', (sqError_iff hU hlen hc hI hτ).mp he,
      penaltyCost_eq (length_inner hlen), penaltyCost_eq (length_inner hP'), sum_comm,
      sum_comm (s := Ico 1 m), ← sum_add_distrib, ← sum_add_distrib] at hle
    simp only [fixed_error hn hlen hP0 hPn, fixed_error hn hP' hP'0 hP'n] at hle
    have h6 : ∀ ρ ∈ (univ : Finset (Fin d)), _ :=
      fun ρ _ => lsq_le h5 (key ρ) (fun j => fn P'.tail.dropLast j ρ)
    have h7 := (sum_eq_sum_iff_of_le h6).mp (le_antisymm (sum_le_sum h6) hle)
    have h9 : ∀ ρ i, i < n - 1 → fn P'.tail.dropLast i ρ - fn P.tail.dropLast i ρ = 0 := by
      intro ρ
      refine h (fun i => fn P'.tail.dropLast i ρ - fn P.tail.dropLast i ρ) (fun g hg => ?_) (fun g hg => ?_)
      · have h8 := lsq_unique h5 (key ρ) (h7 ρ (mem_univ ρ)).ge g (by omega)
        simp only [mv] at h8
        rw [← sub_eq_zero.mpr h8, ← sum_sub_distrib]
        exact sum_congr rfl fun k _ => by ring
      · rw [← penalty_diff (n := n - 2) hκ _ (by omega), show n - 2 + 1 = n - 1 by omega]
        exact lsq_unique_pen hlam (key ρ) (h7 ρ (mem_univ ρ)).ge g (by simp only [penRows]; omega)
    apply hne
    apply ext_fn (by omega)
    intro i hi
    rcases Nat.eq_zero_or_pos i with rfl | hi0
    · rw [hP'0, hP0]
    · rcases Nat.eq_or_lt_of_le (show i ≤ n by omega) with rfl | hin
      · rw [hP'n, hPn]
      · funext ρ
        have := h9 ρ (i - 1) (by omega)
        rw [fn_inner (by omega), fn_inner (by omega), Nat.sub_add_cancel hi0] at this
        exact sub_eq_zero.mp this

/-- **C156** If the order of the differences is at most `p`, a penalised fit with fixed ends to increasing parameters is
always the only minimiser. -/
theorem C156_fixed_always [NeZero d] {p n m κ : ℕ} {U : List K} {kn : Knots K} {pts P : DataPoints K d}
    {params : Parameters K} {solver : Solver K d} {lam : K} {c : Curve K d} {e : K} (hs : solver.Exact)
    (hk : Knots.new p U = .ok kn) (hU : ClampedKnots 0 1 p n U) (h1 : 1 ≤ p) (hm : List.length pts = m + 1)
    (hv : params.vector.length = params.segments + 1) (hinc : params.vector.Pairwise (· < ·))
    (hτ : ∀ x ∈ params.vector, 0 ≤ x ∧ x ≤ 1) (hlam : 0 < lam) (hκ : 1 ≤ κ) (hκp : κ ≤ p) (hκn : κ + 2 ≤ n)
    (hfit : Fixed.fit solver kn pts params (some ⟨lam, κ⟩) = .ok (.ok P))
    (hc : Built c p U P) (he : SqError c params.vector pts (Ico 1 m) e) :
    ∀ (P' : List (Pt K d)) (c' : Curve K d) (e' : K), P'.length = n + 1 → Built c' p U P' →
      P'[0]? = pts[0]? → P'[n]? = pts[m]? → SqError c' params.vector pts (Ico 1 m) e' → P' ≠ P →
      e + penaltyCost (some ⟨lam, κ⟩) P.tail.dropLast < e' + penaltyCost (some ⟨lam, κ⟩) P'.tail.dropLast := by
  obtain ⟨hn, h2, h3, -, -, -, -, -⟩ := fixed_normal hs hk hU h1 hm hv hfit
  rw [C156_fixed_unique_iff hs hk hU h1 hm hv hinc hτ hlam hκ hκn hfit hc he]
  have hL : params.vector.length = m + 1 := by omega
  have hlt : ∀ i j, i < j → j ≤ m → fn params.vector i < fn params.vector j := by
    intro i j hij hj
    rw [fn_lt (by omega), fn_lt (by omega)]
    exact List.pairwise_iff_getElem.mp hinc _ _ (by omega) (by omega) hij
  have hbd : ∀ i, i ≤ m → 0 ≤ fn params.vector i ∧ fn params.vector i ≤ 1 := by
    intro i hi
    rw [fn_lt (by omega)]
    exact hτ _ (List.getElem_mem _)
  obtain ⟨f, hf1, hf2⟩ := exists_active_inner hU hκp (by omega) (τ := fun i => fn params.vector (i + 1))
    (fun i hi => hlt _ _ (by omega) (by omega))
    (fun i hi => ⟨(hbd 0 (by omega)).1.trans_lt (hlt 0 (i + 1) (by omega) (by omega)),
      (hlt (i + 1) (i + 2) (by omega) (by omega)).trans_le (hbd (i + 2) (by omega)).2⟩)
  refine ⟨fun i => i + 1, f, fun i j hij hj => ⟨by simpa using hij, hf1 i j hij hj⟩, fun i hi =>
    ⟨by simp, show i + 1 < m by omega, (hf2 i hi).1, (hf2 i hi).2.1, ?_⟩⟩
  obtain ⟨-, rfl⟩ := knots_new_inv hk
  refine ⟨_, _, List.getElem?_eq_getElem (show i + 1 < _ by omega), nb_ok hU.length hU.le (hf2 i hi).2.1.le _, ?_⟩
  have := (hf2 i hi).2.2
  rwa [fn_lt (by omega)] at this

/-- the hypotheses of C156 for loose ends are met: linear fits over four spans with all parameters in the first one. With a penalty on
the second differences the fit is unique, with one on the third differences it is not. -/
example : ∃ (solver : Solver ℚ 1) (kn : Knots ℚ) (U : List ℚ),
    solver.Exact ∧ Knots.new 1 U = .ok kn ∧ ClampedKnots 0 1 1 4 U ∧
    (∀ κ, κ < 4 → ∃ P c e,
      Loose.fit solver kn [![0], ![1], ![3], ![2], ![5]] ⟨[0, 1 / 16, 1 / 8, 3 / 16, 1 / 5], 4⟩ (some ⟨1, κ⟩) = .ok (.ok P) ∧
      Built c 1 U P ∧ SqError c [0, 1 / 16, 1 / 8, 3 / 16, 1 / 5] [![0], ![1], ![3], ![2], ![5]] (range 5) e) ∧
    ¬ ∃ s f : ℕ → ℕ, (∀ i j, i < j → j < 3 → s i < s j ∧ f i < f j) ∧
      ∀ i, i < 3 → f i ≤ 4 ∧ ∃ t v, [(0 : ℚ), 1 / 16, 1 / 8, 3 / 16, 1 / 5][s i]? = some t ∧
        kn.evaluate 0 (f i) 1 t = .ok v ∧ v ≠ 0 := by
  obtain ⟨s, hs⟩ := exists_exact_solver ℚ 1
  have hU : ClampedKnots (0 : ℚ) 1 1 4 [0, 0, 1 / 4, 1 / 2, 3 / 4, 1, 1] := by decide +kernel
  have hk : Knots.new 1 [(0 : ℚ), 0, 1 / 4, 1 / 2, 3 / 4, 1, 1] = .ok _ := Knots.new_ok (by decide)
  have hb : 1 ≤ 4 → isUniform (canonKnots 1 [(0 : ℚ), 0, 1 / 4, 1 / 2, 3 / 4, 1, 1]) = .ok (.ok true) :=
    fun _ => by decide +kernel
  refine ⟨s, _, _, hs, hk, hU, ?_, ?_⟩
  · intro κ hκ
    obtain ⟨P, h1, -⟩ := (C44_loose (d := 1) (m := 4) (pts := [![0], ![1], ![3], ![2], ![5]])
      (params := ⟨[0, 1 / 16, 1 / 8, 3 / 16, 1 / 5], 4⟩) hk hU.length le_rfl rfl rfl hb s (some ⟨1, κ⟩)).2
      (by interval_cases κ <;> decide +kernel)
    obtain ⟨c, e, h3, -, h4, -⟩ := C42_loose_optimal hs hk hU le_rfl rfl rfl (by decide +kernel) h1
    exact ⟨P, c, e, h1, h3, h4⟩
  · rintro ⟨σ, f, h4, h5⟩
    obtain ⟨h0, t, v, h6, h7, h8⟩ := h5 2 (by omega)
    have h2 : 2 ≤ f 2 := by
      have := (h4 0 1 (by omega) (by omega)).2
      have := (h4 1 2 (by omega) (by omega)).2
      omega
    have h9 : ∀ i, 2 ≤ i → i ≤ 4 → ∀ t ∈ [(0 : ℚ), 1 / 16, 1 / 8, 3 / 16, 1 / 5],
        (canonKnots 1 [(0 : ℚ), 0, 1 / 4, 1 / 2, 3 / 4, 1, 1]).evaluate 0 i 1 t = .ok 0 := by
      intro i h1 h2
      interval_cases i <;> decide +kernel
    rw [h9 _ h2 h0 t (List.mem_of_getElem? h6)] at h7
    injection h7 with h7
    exact h8 h7.symm

/-- the hypotheses of C156 for fixed ends are met: with all inner parameters in the first span a penalty on the first
differences makes the linear fit unique, one on the second differences does not. -/
example : ∃ (solver : Solver ℚ 1) (kn : Knots ℚ) (U : List ℚ),
    solver.Exact ∧ Knots.new 1 U = .ok kn ∧ ClampedKnots 0 1 1 4 U ∧
    (∀ κ, κ + 2 ≤ 4 → ∃ P c e,
      Fixed.fit solver kn [![0], ![1], ![3], ![2], ![5]] ⟨[0, 1 / 16, 1 / 8, 3 / 16, 1], 4⟩ (some ⟨1, κ⟩) = .ok (.ok P) ∧
      Built c 1 U P ∧ SqError c [0, 1 / 16, 1 / 8, 3 / 16, 1] [![0], ![1], ![3], ![2], ![5]] (Ico 1 4) e) ∧
    ¬ ∃ s f : ℕ → ℕ, (∀ i j, i < j → j < 2 → s i < s j ∧ f i < f j) ∧
      ∀ i, i < 2 → 1 ≤ s i ∧ s i < 4 ∧ 1 ≤ f i ∧ f i < 4 ∧
        ∃ t v, [(0 : ℚ), 1 / 16, 1 / 8, 3 / 16, 1][s i]? = some t ∧ kn.evaluate 0 (f i) 1 t = .ok v ∧ v ≠ 0 := by
  obtain ⟨s, hs⟩ := exists_exact_solver ℚ 1
  have hU : ClampedKnots (0 : ℚ) 1 1 4 [0, 0, 1 / 4, 1 / 2, 3 / 4, 1, 1] := by decide +kernel
  have hk : Knots.new 1 [(0 : ℚ), 0, 1 / 4, 1 / 2, 3 / 4, 1, 1] = .ok _ := Knots.new_ok (by decide)
  have hb : 1 ≤ 4 → isUniform (canonKnots 1 [(0 : ℚ), 0, 1 / 4, 1 / 2, 3 / 4, 1, 1]) = .ok (.ok true) :=
    fun _ => by decide +kernel
  refine ⟨s, _, _, hs, hk, hU, ?_, ?_⟩
  · intro κ hκ
    have hκ2 : κ ≤ 2 := by omega
    obtain ⟨P, h1, -⟩ := (C44_fixed_partial (d := 1) (m := 4) (pts := [![0], ![1], ![3], ![2], ![5]])
      (params := ⟨[0, 1 / 16, 1 / 8, 3 / 16, 1], 4⟩) hk hU.length le_rfl rfl rfl hb s (some ⟨1, κ⟩)).2
      (by interval_cases κ <;> decide +kernel) (by omega) (by intro q hq; cases hq; exact hκ)
    obtain ⟨c, e, h3, -, -, -, -, -, h4, -⟩ := C43_fixed_optimal hs hk hU le_rfl rfl rfl (by decide +kernel) h1
    exact ⟨P, c, e, h1, h3, h4⟩
  · rintro ⟨σ, f, h4, h5⟩
    obtain ⟨-, -, h1, -, -⟩ := h5 0 (by omega)
    obtain ⟨h10, h11, -, h12, t, v, h6, h7, h8⟩ := h5 1 (by omega)
    have h2 := (h4 0 1 (by omega) (by omega)).2
    have h9 : ∀ i, 2 ≤ i → i < 4 → ∀ g, g < 4 → ∀ t ∈ [(0 : ℚ), 1 / 16, 1 / 8, 3 / 16, 1][g]?,
        (canonKnots 1 [(0 : ℚ), 0, 1 / 4, 1 / 2, 3 / 4, 1, 1]).evaluate 0 i 1 t = .ok 0 := by
      intro i h1 h2 g h3
      interval_cases i <;> interval_cases g <;> (rintro t ⟨⟩; decide +kernel)
    rw [h9 _ (by omega) h12 _ h11 t h6] at h7
    injection h7 with h7
    exact h8 h7.symm

end BSpline
