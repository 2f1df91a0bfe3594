import Verif.Props.Interpolate
import Verif.Props.Reverse

/-!
# Fitting commutes with affine maps and with reversal: C73

Mapping the data by an affine map (also to another dimension), or reversing their order, and then
interpolating or fitting gives the mapped or reversed curve.
-/

set_option linter.unusedSectionVars false

namespace BSpline

open Finset fwdDiff

variable {K : Type} [Field K] [LinearOrder K] [IsStrictOrderedRing K] {d d' : ℕ}
variable [Trunc K] [Sqrt K]

/-! ### Affine maps -/

/-- **C73** Interpolating mapped data gives the mapped curve. -/
theorem C73_interpolation_affine (f : Pt K d →ₗ[K] Pt K d') (t : Pt K d') {p m : ℕ}
    {pts : DataPoints K d} {solver : Solver K d} {solver' : Solver K d'} {c : Curve K d}
    (hs : solver.Exact) (hs' : solver'.Exact) (h1 : 1 ≤ p) (h2 : p ≤ m) (hm : List.length pts = m + 1)
    (hgen : generate solver (.interpolation p pts) = .ok (.ok c)) :
    ∃ (U : List K) (P : List (Pt K d)) (c' : Curve K d'), Built c p U P ∧
      Built c' p U (P.map (fun x => f x + t)) ∧
      generate solver' (.interpolation p (pts.map (fun x => f x + t))) = .ok (.ok c') := by
  obtain ⟨c0, kn, U, P, h3, -, h4, h5, h6, h7⟩ := C40_interpolation hs h1 h2 hm
  rw [hgen] at h3
  injection h3 with h3; injection h3 with h3
  subst h3
  have hP := h6.2.2
  have hU := h6.2.1
  have hb : Built (canon p U (P.map (fun x => f x + t))) p U (P.map (fun x => f x + t)) :=
    mkCurve_ok (by simpa using hP) h2 (by have := hU.length; omega)
  refine ⟨U, P, _, h6.1, hb, ?_⟩
  refine C59_interpolation_reproduces hs' h1 h2 (by rw [List.length_map, hm]) h4 h5
    (by simpa using hP) hb ?_
  intro g q hq
  rw [List.getElem?_map, Option.map_eq_some_iff] at hq
  obtain ⟨x, hx, rfl⟩ := hq
  have hm0 : (0 : K) < (m : K) := by exact_mod_cast (by omega : 0 < m)
  have hg : g ≤ m := by
    have := (List.getElem?_eq_some_iff.mp hx).1
    omega
  obtain ⟨v, e1, e2⟩ := C09_affine_invariance f t h6 hb (u := (g : K) / (m : K))
    (div_nonneg (Nat.cast_nonneg _) hm0.le) (by rw [div_le_one hm0]; exact_mod_cast hg) 0
  have := h7 g x hx
  rw [Curve.evaluate, e1] at this
  injection this with this; injection this with this
  rw [Curve.evaluate, e2, if_pos rfl, this]

/-- the differences of a constant vanish -/
theorem penD_const (c : ℕ) (pen : Option (Penalization K)) (h : ℕ)
    (hh : h < penRows (fun κ => c - κ) pen) : mv c (penD pen) (fun _ => 1) h = 0 := by
  cases pen with
  | none => simp [penRows] at hh
  | some q =>
    simp only [penRows] at hh
    simp only [mv, penD]
    rcases Nat.eq_zero_or_pos q.kappa with h0 | h0
    · simp [h0, differenceOperator_zero]
    · have e : ∀ j ∈ range c, ((differenceOperator q.kappa h j : ℤ) : K) * 1 =
          differenceOperator q.kappa h j • (fun _ : ℕ => (1 : K)) j := by
        intro j _; simp
      rw [sum_congr rfl e, sum_differenceOperator (fun _ => (1 : K)) h0 h (by omega)]
      obtain ⟨k, hk⟩ : ∃ k, q.kappa = k + 1 := ⟨q.kappa - 1, by omega⟩
      rw [hk, Function.iterate_succ_apply]
      have : Δ_[1] (fun _ : ℕ => (1 : K)) = fun _ => 0 := by funext x; simp [fwdDiff]
      rw [this, fwdDiff_iter_eq_sum_shift]
      simp

theorem sum_nb_one {p n : ℕ} {U : List K} (hU : ClampedKnots 0 1 p n U) {u : K} (h0 : 0 ≤ u)
    (h1 : u ≤ 1) : ∑ i ∈ range (n + 1), nb p n U i u = 1 := by
  obtain ⟨j, hs⟩ := hU.clamp.exists_span h0 h1
  rw [sum_congr rfl (fun i _ => nb_eq_Bs hU hs i)]
  exact sum_Bs_one hU.clamp.mono (hs.p_le hU.clamp) hs.le_n (hs.lt hU.clamp)

/-- curves over the uniform knots that agree at the parameters of the data are equal -/
theorem uniform_determined {p n m : ℕ} (h1 : 1 ≤ p) (h2 : p ≤ n) (hmn : n ≤ m) {ps : Parameters K}
    (hps : equallySpaced m = .ok ps) {P P' : List (Pt K d)} (hP : P.length = n + 1)
    (hP' : P'.length = n + 1)
    (heq : ∀ g, g ≤ m → ∀ ρ, ∑ i ∈ range (n + 1), nb p n (genU p n (uniK p n)) i (fn ps.vector g) *
      fn P' i ρ = ∑ i ∈ range (n + 1), nb p n (genU p n (uniK p n)) i (fn ps.vector g) * fn P i ρ) :
    P' = P := by
  have hU := uniform_clamped (K := K) h1 h2
  obtain ⟨ps', h14, -, hlen, h15, -⟩ := C39_equally_spaced (K := K) (m := m) (by omega)
  rw [hps] at h14
  injection h14 with h14
  subst h14
  refine C57_determined (validOn_canon hU hP') (validOn_canon hU hP)
    (uniform_schoenbergWhitney h1 h2 hmn) ?_
  intro i hi
  have hb := (uniform_schoenbergWhitney (K := K) h1 h2 hmn).bounds i hi
  have hg : i * m / n ≤ m := by
    calc i * m / n ≤ n * m / n := Nat.div_le_div_right (Nat.mul_le_mul_right m hi)
      _ = m := Nat.mul_div_cancel_left m (by omega)
  rw [evaluate_sum hU hP' hb.1 hb.2, evaluate_sum hU hP hb.1 hb.2]
  congr 2
  funext ρ
  have h16 := heq _ hg ρ
  have h17 := h15 _ hg
  obtain ⟨hlt, h17⟩ := List.getElem?_eq_some_iff.mp h17
  rw [fn_lt hlt, h17] at h16
  rw [Finset.sum_apply, Finset.sum_apply]
  exact h16

/-- a linear map in coordinates -/
theorem linear_coord (f : Pt K d →ₗ[K] Pt K d') (x : Pt K d) (ρ : Fin d') :
    f x ρ = ∑ s, f (fun r => if s = r then 1 else 0) ρ * x s := by
  rw [LinearMap.pi_apply_eq_sum_univ f x, Finset.sum_apply]
  exact sum_congr rfl (fun s _ => by rw [Pi.smul_apply, smul_eq_mul, mul_comm])

theorem fn_map_affine (f : Pt K d →ₗ[K] Pt K d') (t : Pt K d') {P : List (Pt K d)} {j : ℕ}
    (hj : j < P.length) {ρ : Fin d'} : fn (P.map (fun x => f x + t)) j ρ =
      ∑ s, f (fun r => if s = r then 1 else 0) ρ * fn P j s + t ρ := by
  rw [fn_lt (by simpa using hj), List.getElem_map, fn_lt hj, Pi.add_apply, linear_coord f]

/-- a fit whose error check passes returns a curve over the uniform knots -/
theorem fit_ok_inv {p n m : ℕ} {pts : DataPoints K d} (h1 : 1 ≤ p) (h2 : p ≤ n)
    (hm : List.length pts = m + 1) (solver : Solver K d) (method : FitMethod)
    (pen : Option (Penalization K)) {ps : Parameters K} (hps : equallySpaced m = .ok ps) {c : Curve K d}
    (hgen : generate solver (.leastSquaresFit p pts n method pen) = .ok (.ok c)) :
    ∃ P, runFit method solver (canonKnots p (genU p n (uniK p n))) pts ps pen = .ok (.ok P) ∧
      mkCurve p (genU p n (uniK p n)) P = .ok (.ok c) := by
  rw [generate_fit h1 h2 hm _ _ _ hps] at hgen
  obtain ⟨r, h7, h8⟩ := bind_ok_inv hgen
  cases r with
  | error e => cases h8
  | ok P => exact ⟨P, h7, h8⟩

/-- **C73** Fitting mapped data with loose ends gives the mapped curve. -/
theorem C73_loose_affine (f : Pt K d →ₗ[K] Pt K d') (t : Pt K d') {p n m : ℕ}
    {pts : DataPoints K d} {solver : Solver K d} {solver' : Solver K d'}
    {pen : Option (Penalization K)} {c : Curve K d}
    (hs : solver.Exact) (hs' : solver'.Exact) (h1 : 1 ≤ p) (h2 : p ≤ n) (hm : List.length pts = m + 1)
    (hgen : generate solver (.leastSquaresFit p pts n .looseEnds pen) = .ok (.ok c)) :
    ∃ (U : List K) (P : List (Pt K d)) (c' : Curve K d'), Built c p U P ∧
      Built c' p U (P.map (fun x => f x + t)) ∧
      generate solver' (.leastSquaresFit p (pts.map (fun x => f x + t)) n .looseEnds pen) =
        .ok (.ok c') := by
  have hm' : (pts.map (fun x => f x + t)).length = m + 1 := by rw [List.length_map]; exact hm
  have herr : fitErrorOf n m m p pen true = none := by
    cases he : fitErrorOf n m m p pen true with
    | none => rfl
    | some e =>
      rw [(C44_generate_loose h1 h2 hm solver pen).1 e he] at hgen
      injection hgen with hgen; cases hgen
  obtain ⟨c', -, -, -, -, -, hgen'⟩ := (C44_generate_loose h1 h2 hm' solver' pen).2 herr
  obtain ⟨ps, h3, h4, h5, h6⟩ := equallySpaced_shape (K := K) m
  have hU := uniform_clamped (K := K) h1 h2
  obtain ⟨P, hfit, hb⟩ := fit_ok_inv h1 h2 hm solver _ pen h3 hgen
  obtain ⟨P', hfit', hb'⟩ := fit_ok_inv h1 h2 hm' solver' _ pen h3 hgen'
  obtain ⟨hnm, -, hl, hP, key⟩ := loose_normal hs (genKnots_new h2 _) hU h1 hm (by rw [h5, h4]) hfit
  obtain ⟨-, -, -, hP', key'⟩ := loose_normal hs' (genKnots_new h2 _) hU h1 hm' (by rw [h5, h4]) hfit'
  have hPm : (P.map (fun x => f x + t)).length = n + 1 := by rw [List.length_map]; exact hP
  have hbm : Built (canon p (genU p n (uniK p n)) (P.map (fun x => f x + t))) p (genU p n (uniK p n))
      (P.map (fun x => f x + t)) := mkCurve_ok hPm h2 (by have := hU.length; omega)
  have heq : P' = P.map (fun x => f x + t) := by
    refine uniform_determined h1 h2 hnm h3 hPm hP' ?_
    intro g hg ρ
    refine normal_unique hl (c := n + 1) (y := fun g => fn (pts.map (fun x => f x + t)) g ρ) ?_
      (key' ρ) g (by omega)
    intro i hi
    have hτ : ∀ g, g < m + 1 → 0 ≤ fn ps.vector g ∧ fn ps.vector g ≤ 1 := by
      intro g hg
      rw [fn_lt (by omega)]
      exact h6 _ (List.getElem_mem _)
    have := normal_affine (X := fun s j => fn P j s) (Y := fun s g => fn pts g s) (w := fun _ => 1)
      (fun s => f (fun r => if s = r then 1 else 0) ρ) (t ρ) key
      (fun g hg => by
        simp only [mv, mul_one]
        exact sum_nb_one hU (hτ g hg).1 (hτ g hg).2)
      (fun h hh => penD_const _ pen h hh) i hi
    rw [sum_congr rfl (g := fun j => _ * fn (P.map (fun x => f x + t)) j ρ)
      (fun j hj => by
        rw [fn_map_affine f t (by have := mem_range.mp hj; omega)])] at this
    rw [this]
    refine sum_congr rfl (fun g hg => ?_)
    rw [mul_one, fn_map_affine f t (by have := mem_range.mp hg; omega)]
  exact ⟨_, P, c', hb, heq ▸ hb', hgen'⟩

/-- the ends of a curve in terms of the basis functions -/
theorem sum_nb_ends {p n : ℕ} {U : List K} (hU : ClampedKnots 0 1 p n U) {P : List (Pt K d)}
    (hP : P.length = n + 1) (ρ : Fin d) :
    ∑ i ∈ range (n + 1), nb p n U i 0 * fn P i ρ = fn P 0 ρ ∧
    ∑ i ∈ range (n + 1), nb p n U i 1 * fn P i ρ = fn P n ρ := by
  obtain ⟨a1, a2⟩ := C07_endpoints (validOn_canon hU hP) (first := fn P 0) (last := fn P n)
    (by rw [List.head?_eq_getElem?, List.getElem?_eq_getElem (by omega), fn_lt (by omega)])
    (by rw [List.getLast?_eq_getElem?, hP, Nat.add_sub_cancel, List.getElem?_eq_getElem (by omega),
      fn_lt (by omega)])
  rw [evaluate_sum hU hP le_rfl zero_le_one] at a1
  rw [evaluate_sum hU hP zero_le_one le_rfl] at a2
  injection a1 with a1; injection a1 with a1
  injection a2 with a2; injection a2 with a2
  rw [← congrFun a1 ρ, ← congrFun a2 ρ, Finset.sum_apply, Finset.sum_apply]
  exact ⟨rfl, rfl⟩

/-- a fit with fixed ends that succeeds has a penalty of low enough order -/
theorem fixed_ok_kappa {p n m : ℕ} {pts P : DataPoints K d} {solver : Solver K d}
    {pen : Option (Penalization K)} (h1 : 1 ≤ p) (h2 : p ≤ n) (hm : List.length pts = m + 1)
    {ps : Parameters K} (h3 : equallySpaced m = .ok ps) (herr : fitErrorOf n m m p pen true = none)
    (hfit : Fixed.fit solver (canonKnots p (genU p n (uniK p n))) pts ps pen = .ok (.ok P)) :
    ∀ q ∈ pen, q.kappa + 2 ≤ n := by
  obtain ⟨ps', h3', h4, h5, -⟩ := equallySpaced_shape (K := K) m
  rw [h3] at h3'
  injection h3' with h3'
  subst h3'
  intro q hq
  by_contra hcon
  obtain ⟨e, h⟩ := C44_fixed_panics (genKnots_new h2 _) (genU_length p n _) h1 hm (by rw [h5, h4])
    (fun _ => uniform_isUniform (K := K) h1 h2) solver pen (by rw [h4]; exact herr) (by
      right
      refine ⟨q, hq, ?_⟩
      rw [fitErrorOf_eq] at herr
      cases h7 : checkErrorOf n m m p pen with
      | some e => rw [h7] at herr; simp at herr
      | none =>
        have h8 := (checkErrorOf_none h7).2.2.2 q hq
        omega)
  rw [hfit] at h
  cases h

/-- **C73** Fitting mapped data with fixed ends gives the mapped curve. -/
theorem C73_fixed_affine (f : Pt K d →ₗ[K] Pt K d') (t : Pt K d') {p n m : ℕ}
    {pts : DataPoints K d} {solver : Solver K d} {solver' : Solver K d'}
    {pen : Option (Penalization K)} {c : Curve K d}
    (hs : solver.Exact) (hs' : solver'.Exact) (h1 : 1 ≤ p) (h2 : p ≤ n) (hm : List.length pts = m + 1)
    (hgen : generate solver (.leastSquaresFit p pts n .fixedEnds pen) = .ok (.ok c)) :
    ∃ (U : List K) (P : List (Pt K d)) (c' : Curve K d'), Built c p U P ∧
      Built c' p U (P.map (fun x => f x + t)) ∧
      generate solver' (.leastSquaresFit p (pts.map (fun x => f x + t)) n .fixedEnds pen) =
        .ok (.ok c') := by
  have hm' : (pts.map (fun x => f x + t)).length = m + 1 := by rw [List.length_map]; exact hm
  have herr : fitErrorOf n m m p pen true = none := by
    cases he : fitErrorOf n m m p pen true with
    | none => rfl
    | some e =>
      rw [(C44_generate_fixed_partial h1 h2 hm solver pen).1 e he] at hgen
      injection hgen with hgen; cases hgen
  obtain ⟨ps, h3, h4, h5, h6⟩ := equallySpaced_shape (K := K) m
  have hU := uniform_clamped (K := K) h1 h2
  obtain ⟨P, hfit, hb⟩ := fit_ok_inv h1 h2 hm solver _ pen h3 hgen
  obtain ⟨hn, hnm, -, hl, hP, hP0, hPn, key⟩ :=
    fixed_normal hs (genKnots_new h2 _) hU h1 hm (by rw [h5, h4]) hfit
  have hκ := fixed_ok_kappa h1 h2 hm h3 herr hfit
  obtain ⟨c', -, -, -, -, -, hgen'⟩ := (C44_generate_fixed_partial h1 h2 hm' solver' pen).2 herr hn hκ
  obtain ⟨P', hfit', hb'⟩ := fit_ok_inv h1 h2 hm' solver' _ pen h3 hgen'
  obtain ⟨-, -, -, -, hP', hP0', hPn', key'⟩ :=
    fixed_normal hs' (genKnots_new h2 _) hU h1 hm' (by rw [h5, h4]) hfit'
  have hPm : (P.map (fun x => f x + t)).length = n + 1 := by rw [List.length_map]; exact hP
  have hτ : ∀ g, g < m + 1 → 0 ≤ fn ps.vector g ∧ fn ps.vector g ≤ 1 := by
    intro g hg
    rw [fn_lt (by omega)]
    exact h6 _ (List.getElem_mem _)
  have e0 : fn P' 0 = fn (P.map (fun x => f x + t)) 0 := by
    funext ρ
    rw [hP0', fn_map_affine f t (by omega), fn_map_affine f t (by omega), hP0]
  have en : fn P' n = fn (P.map (fun x => f x + t)) n := by
    funext ρ
    rw [hPn', fn_map_affine f t (by omega), fn_map_affine f t (by omega), hPn]
  have heq : P' = P.map (fun x => f x + t) := by
    refine uniform_determined h1 h2 hnm h3 hPm hP' ?_
    obtain ⟨ps', h14, -, -, h15, -⟩ := C39_equally_spaced (K := K) (m := m) (by omega)
    rw [h3] at h14
    injection h14 with h14
    subst h14
    have hv : ∀ g, g ≤ m → fn ps.vector g = (g : K) / (m : K) := by
      intro g hg
      obtain ⟨hlt, h17⟩ := List.getElem?_eq_some_iff.mp (h15 g hg)
      rw [fn_lt hlt, h17]
    intro g hg ρ
    rcases Nat.eq_zero_or_pos g with rfl | hg0
    · rw [hv 0 hg, Nat.cast_zero, zero_div, (sum_nb_ends hU hPm ρ).1, (sum_nb_ends hU hP' ρ).1, e0]
    rcases hg.eq_or_lt with rfl | hgm
    · have hm0 : (0 : K) < (g : K) := by exact_mod_cast (by omega : 0 < g)
      rw [hv g hg, div_self hm0.ne', (sum_nb_ends hU hPm ρ).2, (sum_nb_ends hU hP' ρ).2, en]
    obtain ⟨g, rfl⟩ : ∃ k, g = k + 1 := ⟨g - 1, by omega⟩
    have r1 := fixed_residual (p := p) (U := genU p n (uniK p n)) (τ := ps.vector)
      (pts := pts.map (fun x => f x + t)) (m := m) hn hP' hP0' hPn' ρ g
    have r2 := fixed_residual (p := p) (U := genU p n (uniK p n)) (τ := ps.vector)
      (pts := pts.map (fun x => f x + t)) (m := m) hn hPm (e0 ▸ hP0') (en ▸ hPn') ρ g
    have hu := normal_unique hl (c := n - 1) (x := fun j => fn (P.map (fun x => f x + t)).tail.dropLast j ρ)
      (y := fun g => fixQ p n m (genU p n (uniK p n)) (pts.map (fun x => f x + t)) ps.vector (g + 1) ρ)
      ?_ (key' ρ) g (by omega)
    · rw [hu, ← r2] at r1
      exact sub_left_injective r1
    intro i hi
    have := normal_affine (X := fun s j => fn P.tail.dropLast j s)
      (Y := fun s g => fixQ p n m (genU p n (uniK p n)) pts ps.vector (g + 1) s)
      (w := fun g => 1 - nb p n (genU p n (uniK p n)) 0 (fn ps.vector (g + 1)) -
        nb p n (genU p n (uniK p n)) n (fn ps.vector (g + 1)))
      (fun s => f (fun r => if s = r then 1 else 0) ρ) (t ρ) key
      (fun g hg => by
        have := sum_nb_one hU (hτ (g + 1) (by omega)).1 (hτ (g + 1) (by omega)).2
        rw [sum_inner (by omega)] at this
        simp only [mv, mul_one]
        rw [← this]; ring)
      (fun h hh => penD_const _ pen h hh) i hi
    rw [sum_congr rfl (g := fun j => _ * fn (P.map (fun x => f x + t)).tail.dropLast j ρ)
      (fun j hj => by
        have := mem_range.mp hj
        rw [fn_inner (by omega), fn_inner (by omega), fn_map_affine f t (by omega)])] at this
    rw [this]
    refine sum_congr rfl (fun g hg => ?_)
    have := mem_range.mp hg
    congr 1
    simp only [fixQ, Pi.sub_apply, scale]
    rw [fn_map_affine f t (by omega), fn_map_affine f t (by omega), fn_map_affine f t (by omega)]
    simp only [mul_sub, sum_sub_distrib, mul_add, mul_sum]
    have e : ∀ x : ℕ, ∀ b : K, ∑ s, f (fun r => if s = r then 1 else 0) ρ * (b * fn pts x s) =
        ∑ s, b * (f (fun r => if s = r then 1 else 0) ρ * fn pts x s) :=
      fun x b => sum_congr rfl (fun s _ => by ring)
    rw [e, e]
    ring
  exact ⟨_, P, c', hb, heq ▸ hb', hgen'⟩

/-! ### Reversal -/

/-- uniform knots are symmetric -/
theorem revU_uniform {p n : ℕ} (h2 : p ≤ n) :
    revU (genU p n (uniK (K := K) p n)) = genU p n (uniK p n) := by
  have hl := genU_length p n (uniK (K := K) p n)
  apply ext_fn (by simp)
  intro i hi
  rw [revU_length, hl] at hi
  rw [fn_revU (by omega), hl, fn_genU (by omega), fn_genU hi]
  by_cases ha : i ≤ p
  · rw [if_pos ha, if_neg (by omega), if_neg (by omega), sub_self]
  by_cases hb : i ≤ n
  · rw [if_neg ha, if_pos hb, if_neg (by omega), if_pos (by omega), uniK, uniK]
    have h0 : (((n - p + 1 : ℕ)) : K) ≠ 0 := by exact_mod_cast (by omega : n - p + 1 ≠ 0)
    rw [eq_div_iff h0, sub_mul, one_mul, div_mul_cancel₀ _ h0,
      show n + p + 2 - 1 - i - p = (n - p + 1) - (i - p) by omega, Nat.cast_sub (by omega)]
    ring
  · rw [if_neg ha, if_neg hb, if_pos (by omega), sub_zero]

/-- the curve over the reversed control points is the reversed curve -/
theorem uniform_reverse {p n : ℕ} (h1 : 1 ≤ p) (h2 : p ≤ n) {P : List (Pt K d)} (hP : P.length = n + 1)
    {u : K} (h0 : 0 ≤ u) (hu : u ≤ 1) :
    (canon p (genU p n (uniK p n)) P).reverse = .ok (canon p (genU p n (uniK p n)) P.reverse) ∧
    (canon p (genU p n (uniK p n)) P.reverse).evaluate u =
      (canon p (genU p n (uniK p n)) P).evaluate (1 - u) := by
  have hU := uniform_clamped (K := K) h1 h2
  have hr := reverse_canon hU.length hP h2
  rw [revU_uniform h2] at hr
  refine ⟨hr, C22_reverse_points (validOn_canon hU hP) hr ?_ h0 hu⟩
  intro x hx0 hx1
  exact (count_le_one hU (uniform_strict p n) hx0 hx1).trans h1

/-- **C73** Interpolating the data in reverse order gives the reversed curve. -/
theorem C73_interpolation_reverse {p m : ℕ} {pts : DataPoints K d} {solver solver' : Solver K d}
    {c : Curve K d} (hs : solver.Exact) (hs' : solver'.Exact) (h1 : 1 ≤ p) (h2 : p ≤ m)
    (hm : List.length pts = m + 1) (hgen : generate solver (.interpolation p pts) = .ok (.ok c)) :
    ∃ c', c.reverse = .ok c' ∧
      generate solver' (.interpolation p (List.reverse pts)) = .ok (.ok c') := by
  obtain ⟨c0, kn, U, P, h3, -, h4, h5, h6, h7⟩ := C40_interpolation hs h1 h2 hm
  rw [hgen] at h3
  injection h3 with h3; injection h3 with h3
  subst h3
  have hP := h6.2.2
  have e : U = genU p m (uniK p m) := by
    rw [uniform_ok h1 h2] at h4
    injection h4 with h4; injection h4 with h4
    rw [← h4, canonKnots_vector] at h5
    injection h5 with h5
    exact h5.symm
  subst e
  have hU := h6.2.1
  obtain rfl := h6.eq_canon
  refine ⟨_, (uniform_reverse h1 h2 hP le_rfl zero_le_one).1, ?_⟩
  refine C59_interpolation_reproduces hs' h1 h2 (by rw [List.length_reverse, hm]) h4 h5
    (P₀ := P.reverse) (by simpa using hP) (mkCurve_ok (by simpa using hP) h2 (by have := hU.length; omega)) ?_
  intro g q hq
  have hg : g ≤ m := by
    have := (List.getElem?_eq_some_iff.mp hq).1
    rw [List.length_reverse] at this
    omega
  have hm0 : (0 : K) < (m : K) := by exact_mod_cast (by omega : 0 < m)
  rw [(uniform_reverse h1 h2 hP (div_nonneg (Nat.cast_nonneg _) hm0.le)
    (by rw [div_le_one hm0]; exact_mod_cast hg)).2]
  rw [List.getElem?_reverse (by omega), hm] at hq
  have := h7 _ q hq
  rwa [show m + 1 - 1 - g = m - g by omega, Nat.cast_sub hg, sub_div, div_self hm0.ne'] at this

/-- differences of a reversed sequence -/
theorem fwdDiff_reverse {f g : ℕ → K} {N : ℕ} (h : ∀ i, i ≤ N → g i = f (N - i)) (κ : ℕ) :
    ∀ i, i + κ ≤ N → (Δ_[1]^[κ] g) i = (-1) ^ κ * (Δ_[1]^[κ] f) (N - κ - i) := by
  induction κ with
  | zero => intro i hi; simpa using h i hi
  | succ κ ih =>
    intro i hi
    rw [Function.iterate_succ_apply', Function.iterate_succ_apply', fwdDiff, fwdDiff,
      ih (i + 1) (by omega), ih i (by omega), show N - κ - i = N - (κ + 1) - i + 1 by omega,
      show N - κ - (i + 1) = N - (κ + 1) - i by omega]
    ring

/-- reversing the control points keeps the roughness -/
theorem roughness_reverse (κ : ℕ) (P : List (Pt K d)) : roughness κ P.reverse = roughness κ P := by
  rw [roughness, roughness, List.length_reverse,
    ← Finset.sum_range_reflect (fun i => ∑ r, (Δ_[1]^[κ] (fun i => (P.getD i 0) r) i) ^ 2)]
  refine sum_congr rfl (fun i hi => sum_congr rfl (fun r _ => ?_))
  rw [mem_range] at hi
  rw [fwdDiff_reverse (f := fun i => P.getD i 0 r) (N := P.length - 1) ?_ κ i (by omega), mul_pow,
    ← pow_mul, mul_comm κ 2, pow_mul, neg_one_sq, one_pow, one_mul,
    show P.length - 1 - κ - i = P.length - κ - 1 - i by omega]
  intro j hj
  show P.reverse.getD j 0 r = P.getD (P.length - 1 - j) 0 r
  rw [List.getD_eq_getElem?_getD, List.getD_eq_getElem?_getD, List.getElem?_reverse (by omega)]

theorem penaltyCost_reverse (pen : Option (Penalization K)) (P : List (Pt K d)) :
    penaltyCost pen P.reverse = penaltyCost pen P := by
  cases pen with
  | none => rfl
  | some q => simp only [penaltyCost, roughness_reverse]

/-- the reversed curve approximates the reversed data as well -/
theorem sqError_reverse {p n m : ℕ} (h1 : 1 ≤ p) (h2 : p ≤ n) (hm1 : 1 ≤ m) {ps : Parameters K}
    (hps : equallySpaced m = .ok ps) {pts : List (Pt K d)} (hm : pts.length = m + 1)
    {P : List (Pt K d)} (hP : P.length = n + 1) {I : Finset ℕ} (hI : ∀ g ∈ I, g ≤ m ∧ m - g ∈ I)
    {e : K} (he : SqError (canon p (genU p n (uniK p n)) P) ps.vector pts I e) :
    SqError (canon p (genU p n (uniK p n)) P.reverse) ps.vector pts.reverse I e := by
  obtain ⟨v, hv, rfl⟩ := he
  obtain ⟨ps', h14, -, hlen, h15, -⟩ := C39_equally_spaced (K := K) (m := m) (by omega)
  rw [hps] at h14
  injection h14 with h14
  subst h14
  have hτ : ∀ g, g ≤ m → ps.vector.getD g 0 = (g : K) / (m : K) := by
    intro g hg
    rw [List.getD_eq_getElem?_getD, h15 g hg]; rfl
  have hm0 : (0 : K) < (m : K) := by exact_mod_cast (by omega : 0 < m)
  refine ⟨fun g => v (m - g), ?_, ?_⟩
  · intro g hg
    have hgm := (hI g hg).1
    have := hv (m - g) (hI g hg).2
    rw [hτ _ (Nat.sub_le _ _), Nat.cast_sub hgm, sub_div, div_self hm0.ne'] at this
    rw [hτ g hgm, (uniform_reverse h1 h2 hP (div_nonneg (Nat.cast_nonneg _) hm0.le)
      (by rw [div_le_one hm0]; exact_mod_cast hgm)).2]
    exact this
  · refine sum_nbij' (fun g => m - g) (fun g => m - g) (fun g hg => (hI g hg).2)
      (fun g hg => (hI g hg).2) (fun g hg => by have := (hI g hg).1; omega)
      (fun g hg => by have := (hI g hg).1; omega) ?_
    intro g hg
    have hgm := (hI g hg).1
    dsimp only
    rw [show m - (m - g) = g by omega]
    congr 1
    rw [List.getD_eq_getElem?_getD, List.getD_eq_getElem?_getD, List.getElem?_reverse (by omega), hm,
      show m + 1 - 1 - (m - g) = g by omega]

/-- **C73** Fitting the data in reverse order with loose ends gives the reversed curve. -/
theorem C73_loose_reverse {p n m : ℕ} {pts : DataPoints K d} {solver solver' : Solver K d}
    {pen : Option (Penalization K)} {c : Curve K d} (hs : solver.Exact) (hs' : solver'.Exact)
    (h1 : 1 ≤ p) (h2 : p ≤ n) (hm : List.length pts = m + 1)
    (hgen : generate solver (.leastSquaresFit p pts n .looseEnds pen) = .ok (.ok c)) :
    ∃ c', c.reverse = .ok c' ∧
      generate solver' (.leastSquaresFit p (List.reverse pts) n .looseEnds pen) = .ok (.ok c') := by
  have hm' : (List.reverse pts).length = m + 1 := by rw [List.length_reverse]; exact hm
  have herr : fitErrorOf n m m p pen true = none := by
    cases he : fitErrorOf n m m p pen true with
    | none => rfl
    | some e =>
      rw [(C44_generate_loose h1 h2 hm solver pen).1 e he] at hgen
      injection hgen with hgen; cases hgen
  have hmn := (fitErrorOf_none herr).1
  obtain ⟨c', -, -, -, -, -, hgen'⟩ := (C44_generate_loose h1 h2 hm' solver' pen).2 herr
  obtain ⟨ps, kn, U, P, e, a1, a2, a3, a4, a5, a6⟩ := C58_loose_unique hs h1 h2 hm hgen
  obtain ⟨ps', kn', U', P', e', b1, b2, b3, b4, b5, b6⟩ := C58_loose_unique hs' h1 h2 hm' hgen'
  rw [uniform_ok h1 h2] at a2 b2
  injection a2 with a2; injection a2 with a2; subst a2
  injection b2 with b2; injection b2 with b2; subst b2
  rw [canonKnots_vector] at a3 b3
  injection a3 with a3; subst a3
  injection b3 with b3; subst b3
  rw [a1] at b1
  injection b1 with b1; subst b1
  have hP := a4.2.2
  have hP' := b4.2.2
  obtain rfl := a4.eq_canon
  obtain rfl := b4.eq_canon
  have hl := genU_length p n (uniK (K := K) p n)
  have hI : ∀ g ∈ range (m + 1), g ≤ m ∧ m - g ∈ range (m + 1) := by
    intro g hg
    rw [mem_range] at hg ⊢
    omega
  have key : P' = P.reverse := by
    by_contra hne
    have c1 := sqError_reverse h1 h2 (by omega) a1 hm hP hI a5
    have c2 := sqError_reverse h1 h2 (by omega) a1 hm' hP' hI b5
    rw [List.reverse_reverse] at c2
    have d1 := b6 P.reverse _ e (by simpa using hP) (mkCurve_ok (by simpa using hP) h2 (by omega)) c1
      (Ne.symm hne)
    have d2 := a6 P'.reverse _ e' (by simpa using hP') (mkCurve_ok (by simpa using hP') h2 (by omega)) c2
      (fun h => hne (by rw [← h, List.reverse_reverse]))
    rw [penaltyCost_reverse] at d1 d2
    exact absurd (d1.trans d2) (lt_irrefl _)
  subst key
  exact ⟨_, (uniform_reverse h1 h2 hP le_rfl zero_le_one).1, hgen'⟩

/-- **C73** Fitting the data in reverse order with fixed ends gives the reversed curve. -/
theorem C73_fixed_reverse {p n m : ℕ} {pts : DataPoints K d} {solver solver' : Solver K d}
    {pen : Option (Penalization K)} {c : Curve K d} (hs : solver.Exact) (hs' : solver'.Exact)
    (h1 : 1 ≤ p) (h2 : p ≤ n) (hm : List.length pts = m + 1)
    (hgen : generate solver (.leastSquaresFit p pts n .fixedEnds pen) = .ok (.ok c)) :
    ∃ c', c.reverse = .ok c' ∧
      generate solver' (.leastSquaresFit p (List.reverse pts) n .fixedEnds pen) = .ok (.ok c') := by
  have hm' : (List.reverse pts).length = m + 1 := by rw [List.length_reverse]; exact hm
  have herr : fitErrorOf n m m p pen true = none := by
    cases he : fitErrorOf n m m p pen true with
    | none => rfl
    | some e =>
      rw [(C44_generate_fixed_partial h1 h2 hm solver pen).1 e he] at hgen
      injection hgen with hgen; cases hgen
  have hmn := (fitErrorOf_none herr).1
  have hn : 2 ≤ n ∧ ∀ q ∈ pen, q.kappa + 2 ≤ n := by
    obtain ⟨ps, h3, h4, h5, h6⟩ := equallySpaced_shape (K := K) m
    obtain ⟨P, hfit, -⟩ := fit_ok_inv h1 h2 hm solver _ pen h3 hgen
    exact ⟨(fixed_normal hs (genKnots_new h2 _) (uniform_clamped h1 h2) h1 hm (by rw [h5, h4]) hfit).1,
      fixed_ok_kappa h1 h2 hm h3 herr hfit⟩
  obtain ⟨c', -, -, -, -, -, hgen'⟩ :=
    (C44_generate_fixed_partial h1 h2 hm' solver' pen).2 herr hn.1 hn.2
  obtain ⟨ps, kn, U, P, e, a1, a2, a3, a4, aF, aL, a5, a6⟩ := C58_fixed_unique hs h1 h2 hm hgen
  obtain ⟨ps', kn', U', P', e', b1, b2, b3, b4, bF, bL, b5, b6⟩ := C58_fixed_unique hs' h1 h2 hm' hgen'
  rw [uniform_ok h1 h2] at a2 b2
  injection a2 with a2; injection a2 with a2; subst a2
  injection b2 with b2; injection b2 with b2; subst b2
  rw [canonKnots_vector] at a3 b3
  injection a3 with a3; subst a3
  injection b3 with b3; subst b3
  rw [a1] at b1
  injection b1 with b1; subst b1
  have hP := a4.2.2
  have hP' := b4.2.2
  obtain rfl := a4.eq_canon
  obtain rfl := b4.eq_canon
  have hl := genU_length p n (uniK (K := K) p n)
  have hI : ∀ g ∈ Ico 1 m, g ≤ m ∧ m - g ∈ Ico 1 m := by
    intro g hg
    rw [mem_Ico] at hg ⊢
    omega
  have hends : ∀ X : List (Pt K d), X.length = n + 1 → X.reverse[0]? = X[n]? ∧ X.reverse[n]? = X[0]? := by
    intro X hX
    rw [List.getElem?_reverse (by omega), List.getElem?_reverse (by omega), hX]
    simp
  have hendsQ : (List.reverse pts)[0]? = (pts : List (Pt K d))[m]? ∧
      (List.reverse pts)[m]? = (pts : List (Pt K d))[0]? := by
    rw [List.getElem?_reverse (by omega), List.getElem?_reverse (by omega), hm]
    simp
  have key : P' = P.reverse := by
    by_contra hne
    have c1 := sqError_reverse h1 h2 (by omega) a1 hm hP hI a5
    have c2 := sqError_reverse h1 h2 (by omega) a1 hm' hP' hI b5
    rw [List.reverse_reverse] at c2
    have d1 := b6 P.reverse _ e (by simpa using hP) (mkCurve_ok (by simpa using hP) h2 (by omega))
      (by rw [(hends P hP).1, hendsQ.1, aL]) (by rw [(hends P hP).2, hendsQ.2, aF]) c1 (Ne.symm hne)
    have d2 := a6 P'.reverse _ e' (by simpa using hP') (mkCurve_ok (by simpa using hP') h2 (by omega))
      (by rw [(hends P' hP').1, bL, hendsQ.2]) (by rw [(hends P' hP').2, bF, hendsQ.1]) c2
      (fun h => hne (by rw [← h, List.reverse_reverse]))
    rw [show P.reverse.tail.dropLast = P.tail.dropLast.reverse by
      rw [List.tail_reverse, List.dropLast_reverse, List.tail_dropLast], penaltyCost_reverse] at d1
    rw [show P'.reverse.tail.dropLast = P'.tail.dropLast.reverse by
      rw [List.tail_reverse, List.dropLast_reverse, List.tail_dropLast], penaltyCost_reverse] at d2
    exact absurd (d1.trans d2) (lt_irrefl _)
  subst key
  exact ⟨_, (uniform_reverse h1 h2 hP le_rfl zero_le_one).1, hgen'⟩

/-! ### Instances -/

/-- the first coordinates of the data, doubled and shifted -/
example [Sqrt ℚ] : ∃ (solver : Solver ℚ 2) (solver' : Solver ℚ 1) (c : Curve ℚ 2) (c' : Curve ℚ 1)
    (U : List ℚ) (P : List (Pt ℚ 2)), solver.Exact ∧ solver'.Exact ∧
    generate solver (.leastSquaresFit 2 exPts 3 .looseEnds (some ⟨1/10, 2⟩)) = .ok (.ok c) ∧
    Built c 2 U P ∧ Built c' 2 U (P.map (fun x => ![2 * x 0 + 5])) ∧
    generate solver' (.leastSquaresFit 2 [![5], ![7], ![11], ![13], ![17]] 3 .looseEnds
      (some ⟨1/10, 2⟩)) = .ok (.ok c') := by
  obtain ⟨s, hs⟩ := exists_exact_solver ℚ 2
  obtain ⟨s', hs'⟩ := exists_exact_solver ℚ 1
  obtain ⟨c, -, -, -, -, -, h⟩ := (C44_generate_loose (p := 2) (n := 3) (m := 4) (pts := exPts)
    (by omega) (by omega) rfl s (some ⟨1/10, 2⟩)).2 (by decide +kernel)
  let f : Pt ℚ 2 →ₗ[ℚ] Pt ℚ 1 := 2 • LinearMap.pi (fun _ => LinearMap.proj 0)
  obtain ⟨U, P, c', h1, h2, h3⟩ := C73_loose_affine f ![5] hs hs' (by omega) (by omega) rfl h
  have e : (fun x => f x + ![5]) = fun x : Pt ℚ 2 => ![2 * x 0 + 5] := by
    funext x r
    obtain rfl : r = 0 := Subsingleton.elim _ _
    simp [f]
  rw [e] at h2 h3
  exact ⟨s, s', c, c', U, P, hs, hs', h, h1, h2, by
    rw [show ([![5], ![7], ![11], ![13], ![17]] : DataPoints ℚ 1) =
      List.map (fun x : Pt ℚ 2 => ![2 * x 0 + 5]) exPts by decide +kernel]
    exact h3⟩

end BSpline
