import Verif.Props.IeeeGenerate
import Verif.Props.Params
import Verif.Refine.FitValue

/-!
# Interpolation in the arithmetic of `f64`: C97

The linear system of an interpolation is solved by nalgebra. Whatever its solution is, if it satisfies the
system it was given up to a residual, then the curve passes through the data up to this residual and the
rounding of the evaluation.
-/

set_option linter.unusedSectionVars false

namespace BSpline

open Finset Ieee

variable {K : Type} [Field K] [LinearOrder K] [IsStrictOrderedRing K] {F : Format K} {d : ℕ}

/-- The computed basis functions at a parameter, and their distance from the exact ones. -/
theorem basis_ieee {p n : ℕ} {U : List (Ieee F)} {V : List K} (hroom : Room F p) (hV : ClampedKnots 0 1 p n V)
    (hU : List.Forall₂ Is U V) {u : Ieee F} {x : K} (hu : Is u x) (h0 : 0 ≤ x) (h1 : x ≤ 1) {h : K} (hh : 0 < h)
    (hgap : ∀ s ∈ V, ∀ t ∈ V, s < t → h ≤ t - s) (hhm : 2 / h ≤ F.max) :
    ∃ a : ℕ → K, (∀ i, Is (nb p n U i u) (a i) ∧ 0 ≤ a i) ∧
      ∑ i ∈ range (n + 1), |a i - nb p n V i x| ≤ F.phi ^ (5 * p) - 1 + (p + 1) * under F p := by
  have hcl := hV.clamp
  have hlV := hV.length
  have hle := hV.le
  have hV0 : V ≠ [] := by rintro rfl; simp at hlV
  obtain ⟨j, hs⟩ := hcl.exists_span h0 h1
  have hpj := hs.p_le hcl
  have hjn := hs.le_n
  have h01 : ∀ i, 0 ≤ fn V i ∧ fn V i ≤ 1 := fun i => ⟨hcl.a_le i, hcl.le_b i⟩
  have hNf := fun i => Nf_ieee (fn_is hU) hcl.mono h01 hu h0 h1 hh
    (fun i j hij => hgap _ (fn_mem hV0 i) _ (fn_mem hV0 j) hij)
    (by
      refine le_trans ?_ hhm
      have := hroom.pow_le (k := 1) (by omega)
      rw [pow_one] at this
      exact div_le_div_of_nonneg_right (by linarith) hh.le) hroom
    (Nat.zero_le n) (fun q hq i => by simpa using Nf_le_one hcl hs (Nat.zero_le p) q (by omega) i) p le_rfl i
  choose a ha using hNf
  have hN : ∀ i, Nf (fn V) 0 n x p i = Bs (fn V) x (delta j) p i := fun i => nb_eq_Bs hV hs i
  refine ⟨a, fun i => ⟨(ha i).1, (ha i).2.1⟩, ?_⟩
  have hone : ∑ i ∈ range (n + 1), Nf (fn V) 0 n x p i = 1 := by
    simp only [hN]
    exact sum_Bs_one hcl.mono hpj hjn (hs.lt hcl)
  have hz : ∀ i, i ∉ Icc (j - p) j → Nf (fn V) 0 n x p i = 0 := by
    intro i hi
    rw [mem_Icc] at hi
    rw [hN, Bs_support _ _ _ _ _ (by omega)]
  have hu0 : 0 ≤ under F p := under_nonneg p
  have hstep : ∀ i ∈ range (n + 1), |a i - nb p n V i x| ≤
      (F.phi ^ (5 * p) - 1) * Nf (fn V) 0 n x p i + if i ∈ Icc (j - p) j then under F p else 0 := by
    intro i _
    obtain ⟨-, -, hn0, hzero, he⟩ := ha i
    split
    · exact he.2.2
    · next hi =>
      have := hz i hi
      rw [nb, hzero this, this]
      simp
  refine (sum_le_sum hstep).trans ?_
  rw [sum_add_distrib, ← mul_sum, hone, mul_one, ← sum_filter, sum_const, nsmul_eq_mul]
  refine add_le_add le_rfl (mul_le_mul_of_nonneg_right ?_ hu0)
  have : (filter (fun i => i ∈ Icc (j - p) j) (range (n + 1))).card ≤ (Icc (j - p) j).card :=
    card_le_card fun i hi => (mem_filter.mp hi).2
  rw [Nat.card_Icc] at this
  exact_mod_cast this.trans (by omega)

/-- **C97** A curve evaluated in floating-point arithmetic differs from the exact sum of the control points
weighted with the *computed* basis functions by at most twice the error of an evaluation. -/
theorem C97_weighted {c : Curve (Ieee F) d} {p n : ℕ} {U : List (Ieee F)} {V : List K}
    {P : List (Pt (Ieee F) d)} {Q : List (Pt K d)} (hroom : Room F p) (hc : Built c p U P)
    (hV : ClampedKnots 0 1 p n V) (hQ : Q.length = n + 1) (hU : List.Forall₂ Is U V) (hP : List.Forall₂ PtIs P Q)
    {u : Ieee F} {x : K} (hu : Is u x) (h0 : 0 ≤ x) (h1 : x ≤ 1) {h : K} (hh : 0 < h)
    (hgap : ∀ s ∈ V, ∀ t ∈ V, s < t → h ≤ t - s) (hhm : 2 / h ≤ F.max) :
    ∃ (v : Pt (Ieee F) d) (a : ℕ → K), c.evaluate u = .ok (.ok v) ∧
      (∀ i, i ≤ n → ∃ b, c.knots.evaluate 0 i p u = .ok b ∧ Is b (a i)) ∧
      ∀ (r : Fin d) (M : K), (∀ q ∈ Q, |q r| ≤ M) → 4 * (M + 1) ≤ F.max →
      ∃ y, Is (v r) y ∧ |y - ∑ i ∈ range (n + 1), a i * fn Q i r| ≤
        2 * ((F.phi ^ (6 * p + 2) - 1) * M + (p + 1) * 3 ^ (p + 3) * (M + 1) * F.eta) := by
  have he : ValidOn 0 1 (canon p V Q) p n V Q := validOn_canon hV hQ
  have hle := hV.le
  have hlU : U.length = n + p + 2 := hU.length_eq.trans hV.length
  have hlP : P.length = n + 1 := hP.length_eq.trans hQ
  have hQ0 : Q ≠ [] := by rintro rfl; simp at hQ
  obtain ⟨v, w, hv, hw, hb⟩ := C85_evaluate hroom hc he hU hP hu h0 h1 hh hgap hhm
  obtain ⟨a, ha, hsum⟩ := basis_ieee hroom hV hU hu h0 h1 hh hgap hhm
  obtain rfl := hc.ieee_eq hlU hle hlP
  refine ⟨v, a, hv, fun i hi => ⟨_, nb_ok hlU hle hi u, (ha i).1⟩, fun r M hM hmax => ?_⟩
  obtain ⟨y, hy, hyb⟩ := hb r M hM hmax
  refine ⟨y, hy, ?_⟩
  have hM0 : 0 ≤ M := (abs_nonneg _).trans (hM _ (fn_mem hQ0 0))
  have hwr : w r = ∑ i ∈ range (n + 1), nb p n V i x * fn Q i r := by
    obtain ⟨j, hs⟩ := hV.clamp.exists_span h0 h1
    have e := evaluateDerivative_eq hV hQ (Nat.zero_le p) h0 h1 hs
    rw [Curve.evaluate] at hw
    rw [hw] at e
    injection e with e; injection e with e
    rw [e, ← fullSum_eq_cv hV.clamp hs (Nat.zero_le p), Finset.sum_apply]
    rfl
  have hdiff : |∑ i ∈ range (n + 1), nb p n V i x * fn Q i r - ∑ i ∈ range (n + 1), a i * fn Q i r| ≤
      (F.phi ^ (5 * p) - 1 + (p + 1) * under F p) * M := by
    rw [← sum_sub_distrib]
    refine (abs_sum_le_sum_abs _ _).trans (le_trans ?_ (mul_le_mul_of_nonneg_right hsum hM0))
    rw [sum_mul]
    refine sum_le_sum fun i _ => ?_
    rw [← sub_mul, abs_mul, abs_sub_comm]
    exact mul_le_mul_of_nonneg_left (hM _ (fn_mem hQ0 i)) (abs_nonneg _)
  have h1 : F.phi ^ (5 * p) ≤ F.phi ^ (6 * p + 2) := F.phi_mono (by omega)
  have h2 : (p + 1) * under F p * M ≤ (p + 1) * 3 ^ (p + 3) * (M + 1) * F.eta := by
    have hu := under_le (F := F) p
    have h3 : (3 : K) ^ (p + 1) ≤ 3 ^ (p + 3) := pow_le_pow_right₀ (by norm_num) (by omega)
    have h4 := F.eta_nonneg
    have h5 : under F p ≤ 3 ^ (p + 3) * F.eta := hu.trans (mul_le_mul_of_nonneg_right h3 h4)
    have h6 : ((p : K) + 1) * under F p ≤ (p + 1) * (3 ^ (p + 3) * F.eta) :=
      mul_le_mul_of_nonneg_left h5 (by positivity)
    calc (p + 1) * under F p * M ≤ (p + 1) * (3 ^ (p + 3) * F.eta) * (M + 1) :=
          mul_le_mul h6 (by linarith) hM0 (by positivity)
      _ = _ := by ring
  have h3 := mul_le_mul_of_nonneg_right h1 hM0
  rw [hwr] at hyb
  have := abs_sub_le y (∑ i ∈ range (n + 1), nb p n V i x * fn Q i r) (∑ i ∈ range (n + 1), a i * fn Q i r)
  rw [sub_mul, one_mul]
  rw [sub_mul, one_mul] at hyb
  rw [add_mul, sub_mul, one_mul] at hdiff
  linarith

/-- the values of equally spaced parameters -/
def eqR (F : Format K) (m g : ℕ) : K := F.rnd ((g : K) / (m : K))

theorem eqR_mem {m g : ℕ} (hm : 1 ≤ m) (hg : g ≤ m) : 0 ≤ eqR F m g ∧ eqR F m g ≤ 1 := by
  have h0 : (0 : K) < m := by exact_mod_cast hm
  have h1 : (g : K) ≤ m := by exact_mod_cast hg
  refine ⟨F.rnd_nonneg (div_nonneg (Nat.cast_nonneg _) h0.le), ?_⟩
  rw [← F.one]
  exact F.mono _ _ ((div_le_one h0).mpr h1)

theorem eqR_is {m g : ℕ} (hnat : ∀ i : ℕ, i ≤ m → F.rnd i = i) (hN : (m : K) ≤ F.max) (hm : 1 ≤ m) (hg : g ≤ m) :
    Is ((g : Ieee F) / (m : Ieee F)) (eqR F m g) := by
  have h0 : (0 : K) < m := by exact_mod_cast hm
  have h1 : (g : K) ≤ m := by exact_mod_cast hg
  have e1 := is_natCast (F := F) (n := g) (h1.trans hN)
  have e2 := is_natCast (F := F) (n := m) hN
  rw [hnat g hg] at e1
  rw [hnat m le_rfl] at e2
  refine e1.div e2 h0.ne' ?_
  rw [abs_of_nonneg (div_nonneg (Nat.cast_nonneg _) h0.le)]
  exact ((div_le_one h0).mpr h1).trans F.one_le_max

theorem natCast_fin {i : ℕ} (hnat : F.rnd i = i) (hN : (i : K) ≤ F.max) :
    ∃ h, (i : Ieee F) = .fin false ⟨i, h⟩ := by
  have h0 : (0 : K) ≤ i := Nat.cast_nonneg i
  have h1 : |F.rnd (i : K)| ≤ F.max := by rwa [hnat, abs_of_nonneg h0]
  refine ⟨⟨hnat, by rwa [hnat] at h1⟩, ?_⟩
  change mk F false (i : K) = _
  rw [Ieee.mk, dif_pos h1]
  congr 1
  · rw [sgn]
    split
    · rfl
    · simp
  · exact Subtype.ext hnat

/-- The first parameter of the code is `0` and the last one `1`: these are the quotients. -/
theorem eqU_eq {m g : ℕ} (hnat : ∀ i : ℕ, i ≤ m → F.rnd i = i) (hN : (m : K) ≤ F.max) (hm : 1 ≤ m) (hg : g ≤ m) :
    (if g = m then 1 else if g = 0 then 0 else (g : Ieee F) / (m : Ieee F)) = (g : Ieee F) / (m : Ieee F) := by
  have h0 : (0 : K) < m := by exact_mod_cast hm
  have hg' : (g : K) ≤ m := by exact_mod_cast hg
  obtain ⟨_, e1⟩ := natCast_fin (hnat g hg) (hg'.trans hN)
  obtain ⟨_, e2⟩ := natCast_fin (hnat m le_rfl) hN
  have e : (g : Ieee F) / (m : Ieee F) = mk F false ((g : K) / (m : K)) := by
    rw [e1, e2]
    change Ieee.div _ _ = _
    rw [Ieee.div]
    dsimp only
    rw [if_neg h0.ne', sgn, if_neg h0.ne']
    rw [decide_eq_false (not_lt.mpr h0.le)]
    rfl
  rw [e]
  split
  · next h => rw [h, div_self h0.ne']; rfl
  split
  · next h => rw [h, Nat.cast_zero, zero_div]; rfl
  · rfl

/-- **C97** Interpolation in floating-point arithmetic, if the numbers up to the number `m` of data segments
are exact and `4 m (eps + eta) ≤ 1`. `generate` returns a curve; its control points are what nalgebra returns
for the system with the matrix `N` of the computed basis functions at the parameters `g / m`, whose exact
values are `A`. If the exact values `X` of these control points satisfy the system up to a residual `rho` in
some coordinate, then evaluating the curve at `g / m` gives the data point up to `rho` and twice the error
of an evaluation (C85). -/
theorem C97_interpolation [IntCast (Ieee F)] [Trunc (Ieee F)] [Sqrt (Ieee F)] (solver : Solver (Ieee F) d)
    {p m : ℕ} (h1 : 1 ≤ p) (h2 : p ≤ m) (hroom : Room F p) (hnat : ∀ i : ℕ, i ≤ m → F.rnd i = i)
    (hN : 4 * (m : K) ≤ F.max) (hs : 4 * ((m : K) * (F.eps + F.eta)) ≤ 1) {pts : List (Pt (Ieee F) d)}
    {D : List (Pt K d)} (hD : List.Forall₂ PtIs pts D) (hDl : D.length = m + 1) :
    ∃ (c : Curve (Ieee F) d) (N : List (List (Ieee F))) (A : ℕ → ℕ → K),
      generate solver (.interpolation p pts) = .ok (.ok c) ∧ c.points.matrix = .ok (solver.run N pts) ∧
      N.length = m + 1 ∧ (∀ g, g ≤ m → ∃ row, N[g]? = some row ∧ row.length = m + 1 ∧
        ∀ i, i ≤ m → ∃ s : Ieee F, row[i]? = some s ∧
          c.knots.evaluate 0 i p ((g : Ieee F) / (m : Ieee F)) = .ok s ∧ Is s (A g i)) ∧
      (∀ g, g ≤ m → ∃ x, Is ((g : Ieee F) / (m : Ieee F)) x ∧ |x - (g : K) / (m : K)| ≤ F.eps + F.eta) ∧
      ∀ (X : List (Pt K d)), List.Forall₂ PtIs (solver.run N pts) X →
      ∀ g, g ≤ m → ∃ v, c.evaluate ((g : Ieee F) / (m : Ieee F)) = .ok (.ok v) ∧
        ∀ (r : Fin d) (M rho : K), (∀ q ∈ X, |q r| ≤ M) → 4 * (M + 1) ≤ F.max →
        |∑ i ∈ range (m + 1), A g i * fn X i r - fn D g r| ≤ rho →
        ∃ y, Is (v r) y ∧ |y - fn D g r| ≤
          rho + 2 * ((F.phi ^ (6 * p + 2) - 1) * M + (p + 1) * 3 ^ (p + 3) * (M + 1) * F.eta) := by
  have hm : 1 ≤ m := h1.trans h2
  have hm0 : (0 : K) < m := by exact_mod_cast hm
  have hNm : (m : K) ≤ F.max := by linarith
  have hle : ((m - p + 1 : ℕ) : K) ≤ m := by exact_mod_cast (by omega : m - p + 1 ≤ m)
  have hpos : (0 : K) < ((m - p + 1 : ℕ) : K) := by exact_mod_cast Nat.succ_pos _
  have hee : 0 ≤ F.eps + F.eta := add_nonneg F.eps_nonneg F.eta_nonneg
  obtain ⟨kn, U, V, hk, hkv, hnew, hU, hV, -, hgap, -⟩ := C90_uniform (F := F) h1 h2
    (fun i hi => hnat i (by omega)) (hle.trans hNm) (by
      have := mul_le_mul_of_nonneg_right hle hee
      linarith)
  have hlU : U.length = m + p + 2 := hU.length_eq.trans hV.length
  have hm1 : List.length pts = m + 1 := hD.length_eq.trans hDl
  obtain rfl : canonKnots p U = kn := by
    rw [Knots.new_ok (by omega)] at hnew
    injection hnew
  have hh : (0 : K) < 1 / (2 * ((m - p + 1 : ℕ) : K)) := by positivity
  have hhm : 2 / (1 / (2 * ((m - p + 1 : ℕ) : K))) ≤ F.max := by
    rw [div_div_eq_mul_div, div_one]
    linarith
  have hu := fun g (hg : g ≤ m) => eqR_is hnat hNm hm hg
  have hx := fun g (hg : g ≤ m) => eqR_mem (F := F) hm hg
  have hfn : ∀ g, g ≤ m → fn ((List.range (m + 1)).map fun g : ℕ => if g = m then 1 else if g = 0 then 0 else
      (g : Ieee F) / (m : Ieee F)) g = (g : Ieee F) / (m : Ieee F) := by
    intro g hg
    rw [fn_map_range _ (by omega)]
    exact eqU_eq hnat hNm hm hg
  have hrun := interpolate_ok hlU h2 hm1 (params := ⟨(List.range (m + 1)).map fun g : ℕ => if g = m then 1 else
    if g = 0 then 0 else (g : Ieee F) / (m : Ieee F), m⟩) (by simp) solver
  generalize hmat : mat (m + 1) (m + 1) (fun g i => nb p m U i (fn ((List.range (m + 1)).map fun g : ℕ =>
    if g = m then 1 else if g = 0 then 0 else (g : Ieee F) / (m : Ieee F)) g)) = N at hrun
  have hlN : (solver.run N pts).length = m + 1 := by rw [← hmat, solver.shape, ncols_mat _ (by omega)]
  have hmk := mkCurve_ok hlN h2 (show m + p + 1 ≤ U.length by omega)
  have hbas := fun g (hg : g ≤ m) => basis_ieee hroom hV hU (hu g hg) (hx g hg).1 (hx g hg).2 hh hgap hhm
  refine ⟨canon p U (solver.run N pts), N, fun g i => if hg : g ≤ m then (hbas g hg).choose i else 0, ?_, ?_, ?_, ?_, ?_, ?_⟩
  · rw [generate]
    simp only [generateParams, DataPoints.segments, generateKnots]
    rw [usub_ok (by omega), ok_bind, hm1, Nat.add_sub_cancel, equallySpaced_ok, ok_bind, ok_bind, hk, ok_bind]
    dsimp only
    rw [hrun, ok_bind, ← hmk, mkCurve, Knots.new_ok (by omega), ok_bind]
  · exact canonPts_matrix _ _
  · rw [← hmat]; simp
  · intro g hg
    refine ⟨(List.range (m + 1)).map fun i => nb p m U i ((g : Ieee F) / (m : Ieee F)), ?_, by simp, fun i hi => ⟨_, ?_,
      nb_ok hlU h2 hi _, ?_⟩⟩
    · rw [← hmat, mat, List.getElem?_map, List.getElem?_range (by omega), Option.map_some, hfn g hg]
    · rw [List.getElem?_map, List.getElem?_range (by omega), Option.map_some]
    · dsimp only
      rw [dif_pos hg]
      exact ((hbas g hg).choose_spec.1 i).1
  · intro g hg
    refine ⟨_, hu g hg, ?_⟩
    have hg' : (g : K) ≤ m := by exact_mod_cast hg
    have h0 : 0 ≤ (g : K) / (m : K) := div_nonneg (Nat.cast_nonneg _) hm0.le
    have h := F.err ((g : K) / (m : K))
    rw [abs_of_nonneg h0] at h
    exact h.trans (add_le_add (mul_le_of_le_one_right F.eps_nonneg ((div_le_one hm0).mpr hg')) le_rfl)
  · intro X hX g hg
    have hXl : X.length = m + 1 := hX.length_eq.symm.trans hlN
    obtain ⟨v, a, hv, ha, hb⟩ := C97_weighted hroom hmk hV hXl hU hX (hu g hg) (hx g hg).1 (hx g hg).2 hh hgap hhm
    refine ⟨v, hv, fun r M rho hM hmax hrho => ?_⟩
    obtain ⟨y, hy, hyb⟩ := hb r M hM hmax
    refine ⟨y, hy, ?_⟩
    have hA : ∀ i ∈ range (m + 1), (if hg : g ≤ m then (hbas g hg).choose i else 0) * fn X i r = a i * fn X i r := by
      intro i hi
      rw [mem_range] at hi
      rw [dif_pos hg]
      obtain ⟨b, hb1, hb2⟩ := ha i (by omega)
      rw [canon_knots, nb_ok hlU h2 (by omega)] at hb1
      injection hb1 with hb1
      rw [← hb1] at hb2
      rw [((hbas g hg).choose_spec.1 i).1.unique hb2]
    rw [sum_congr rfl hA] at hrho
    have := abs_sub_le y (∑ i ∈ range (m + 1), a i * fn X i r) (fn D g r)
    linarith

/-- **C97** For `f64`: interpolation of up to `2^50` points with degree `1 ≤ p ≤ 600`. If the control points that
nalgebra returns are finite, at most `M ≤ 2^1000` in some coordinate, and satisfy the system they were
computed from up to `rho`, then the curve passes through the data up to
`rho + (12p+4) 2^-52 M + (p+1) 3^(p+3) (M+1) 2^-1074`. -/
theorem C97_f64 [IntCast (Ieee binary64)] [Trunc (Ieee binary64)] [Sqrt (Ieee binary64)]
    (solver : Solver (Ieee binary64) d) {p m : ℕ} (h1 : 1 ≤ p) (h2 : p ≤ m) (hp : p ≤ 600) (hm : m ≤ 2 ^ 50)
    {pts : List (Pt (Ieee binary64) d)} {D : List (Pt ℚ d)} (hD : List.Forall₂ PtIs pts D) (hDl : D.length = m + 1) :
    ∃ (c : Curve (Ieee binary64) d) (N : List (List (Ieee binary64))) (A : ℕ → ℕ → ℚ),
      generate solver (.interpolation p pts) = .ok (.ok c) ∧ c.points.matrix = .ok (solver.run N pts) ∧
      N.length = m + 1 ∧ (∀ g, g ≤ m → ∃ row, N[g]? = some row ∧ row.length = m + 1 ∧
        ∀ i, i ≤ m → ∃ s : Ieee binary64, row[i]? = some s ∧
          c.knots.evaluate 0 i p ((g : Ieee binary64) / (m : Ieee binary64)) = .ok s ∧ Is s (A g i)) ∧
      ∀ (X : List (Pt ℚ d)), List.Forall₂ PtIs (solver.run N pts) X →
      ∀ g, g ≤ m → ∃ v, c.evaluate ((g : Ieee binary64) / (m : Ieee binary64)) = .ok (.ok v) ∧
        ∀ (r : Fin d) (M rho : ℚ), (∀ q ∈ X, |q r| ≤ M) → M ≤ 2 ^ 1000 →
        |∑ i ∈ range (m + 1), A g i * fn X i r - fn D g r| ≤ rho →
        ∃ y, Is (v r) y ∧ |y - fn D g r| ≤ rho + ((12 * p + 4) / 2 ^ 52 * M +
          (p + 1) * 3 ^ (p + 3) * (M + 1) * (1 / 2) ^ 1074) := by
  have hmq : (m : ℚ) ≤ 2 ^ 50 := by exact_mod_cast hm
  have hroom := room_binary64 hp
  have hmax : (2 : ℚ) ^ 1023 ≤ binary64.max := by decide +kernel
  have hmax' : (4 : ℚ) * 2 ^ 50 ≤ binary64.max := by decide +kernel
  have heps : binary64.eps = (1 / 2) ^ 53 := rfl
  have heta : binary64.eta ≤ (1 / 2) ^ 53 := by
    change (1 / 2 * 2 ^ ((-1022 : ℤ) - 52) : ℚ) ≤ _
    decide +kernel
  have hsum : binary64.eps + binary64.eta ≤ 1 / 2 ^ 52 := by
    rw [heps]; refine (add_le_add le_rfl heta).trans ?_; norm_num
  obtain ⟨c, N, A, hg, hmat, hlN, hrow, -, hX⟩ := C97_interpolation (F := binary64) solver h1 h2 hroom (by
    intro i hi
    change roundIeee 52 (-1022) (i : ℚ) = i
    have := roundIeee_rep (K := ℚ) (m := 52) (emin := -1022) i 0 (by
      rw [abs_of_nonneg (by positivity)]
      have : (i : ℤ) ≤ 2 ^ 50 := by exact_mod_cast hi.trans hm
      exact this.trans (by norm_num)) (by norm_num)
    simpa using this) (le_trans (by linarith) hmax') (by
    have h0 : (0 : ℚ) ≤ (m : ℚ) := Nat.cast_nonneg _
    have := mul_le_mul_of_nonneg_left hsum h0
    have h3 := mul_le_mul_of_nonneg_right hmq (show (0 : ℚ) ≤ 1 / 2 ^ 52 by norm_num)
    norm_num at h3 this ⊢
    linarith) hD hDl
  refine ⟨c, N, A, hg, hmat, hlN, hrow, fun X hXX g hgm => ?_⟩
  obtain ⟨v, hv, hb⟩ := hX X hXX g hgm
  refine ⟨v, hv, fun r M rho hM hM' hrho => ?_⟩
  obtain ⟨y, hy, hyb⟩ := hb r M rho hM (by
    refine le_trans (show _ ≤ 4 * ((2 : ℚ) ^ 1000 + 1) from
      mul_le_mul_of_nonneg_left (add_le_add hM' le_rfl) (by norm_num)) (le_trans ?_ hmax)
    decide +kernel) hrho
  refine ⟨y, hy, hyb.trans (add_le_add le_rfl ?_)⟩
  clear hyb hM' hmax hmax'
  have hM0 : 0 ≤ M := by
    have hl : X.length = m + 1 := by
      have := hXX.length_eq
      obtain ⟨row, e1, e2, -⟩ := hrow 0 (Nat.zero_le _)
      rw [solver.shape] at this
      cases N with
      | nil => simp at e1
      | cons a N => simp at e1; subst e1; simpa [ncols, e2] using this.symm
    exact (abs_nonneg _).trans (hM _ (fn_mem (by rintro rfl; simp at hl) 0))
  have hphi : binary64.phi ^ (6 * p + 2) - 1 ≤ (6 * p + 2) / 2 ^ 52 := by
    have hpq : (p : ℚ) ≤ 600 := by exact_mod_cast hp
    have hp0 : (0 : ℚ) ≤ p := Nat.cast_nonneg _
    have hbern := one_add_mul_le_pow (a := -(1 / 2 : ℚ) ^ 53) (by norm_num) (6 * p + 2)
    rw [← sub_eq_add_neg] at hbern
    push_cast at hbern
    have ht : 0 < 1 + (6 * (p : ℚ) + 2) * -(1 / 2) ^ 53 := by norm_num; linarith
    rw [Format.phi, heps, inv_pow, sub_le_iff_le_add]
    refine (inv_anti₀ ht hbern).trans ?_
    rw [inv_le_iff_one_le_mul₀ ht]
    norm_num
    nlinarith
  have h3 := mul_le_mul_of_nonneg_right hphi hM0
  have heta' : binary64.eta * 2 = (1 / 2) ^ 1074 := by
    change (1 / 2 * 2 ^ ((-1022 : ℤ) - 52) : ℚ) * 2 = _
    decide +kernel
  rw [← heta']
  generalize binary64.eta = e at *
  have e1 : (12 * (p : ℚ) + 4) / 2 ^ 52 * M = 2 * ((6 * p + 2) / 2 ^ 52 * M) := by ring
  rw [e1]
  linarith

/-- non-vacuity: a solver that returns the data, which is the exact solution for degree 1 -/
example : ∃ (solver : Solver (Ieee binary64) 1) (pts : List (Pt (Ieee binary64) 1)) (D : List (Pt ℚ 1)),
    List.Forall₂ PtIs pts D ∧ D.length = 3 + 1 ∧ (∀ q ∈ D, ∀ r, |q r| ≤ 9) ∧
    ∀ N : List (List (Ieee binary64)), ncols N = 4 → List.Forall₂ PtIs (solver.run N pts) D := by
  have hz : ∀ i ∈ List.range 4, ((i ^ 2 : ℕ) : ℚ) ≤ binary64.max ∧ binary64.rnd (i ^ 2 : ℕ) = (i ^ 2 : ℕ) := by
    decide +kernel
  have hD : List.Forall₂ PtIs ((List.range 4).map fun (i : ℕ) (_ : Fin 1) => ((i ^ 2 : ℕ) : Ieee binary64))
      ((List.range 4).map fun (i : ℕ) (_ : Fin 1) => ((i ^ 2 : ℕ) : ℚ)) := by
    rw [List.forall₂_map_left_iff, List.forall₂_map_right_iff, List.forall₂_same]
    intro i hi r
    have e := is_natCast (F := binary64) (hz i hi).1
    rwa [(hz i hi).2] at e
  refine ⟨⟨fun A b => (List.range (ncols A)).map fun i => fn b i, by simp⟩, _, _, hD, by simp, by decide +kernel, ?_⟩
  intro N hN
  have : ((List.range (ncols N)).map fun i => fn ((List.range 4).map fun (i : ℕ) (_ : Fin 1) =>
      ((i ^ 2 : ℕ) : Ieee binary64)) i) = (List.range 4).map fun (i : ℕ) (_ : Fin 1) => ((i ^ 2 : ℕ) : Ieee binary64) := by
    rw [hN]; rfl
  simp only [this]
  exact hD

end BSpline
