import Verif.Props.MergeExplicit
import Verif.Props.Inexact
import Verif.Props.Stable

/-!
# Merging with an inexact linear solver: C110
-/

set_option linter.unusedSectionVars false

namespace BSpline

open Finset

variable {K : Type} [Field K] [LinearOrder K] [IsStrictOrderedRing K] {d : ℕ}
variable {p m : ℕ} {V W : List K} {S T : List (Pt K d)} {a b : Curve K d}

/-- the system of merging without constraints -/
abbrev sysA (p m o : ℕ) (V W : List K) : List (List K) :=
  mat (p + p + p + 0 + 0) (p + p + p + 0 + 0) (nmatE p m o V W [] [])

/-- its right-hand side -/
abbrev sysB (p m o : ℕ) (V W : List K) (S T : List (Pt K d)) : List (Pt K d) := rhsM p m o (0 + 0) V W S T

theorem sys_solvable (hV : ClampedKnots 0 1 p m V) (hW : ClampedKnots 0 1 p m W) (hS : S.length = m + 1)
    (hT : T.length = m + 1) : ∃ x, Solves (sysA p m m V W) x (sysB p m m V W S T) := by
  obtain ⟨S', T', hj⟩ := joins_exists_right (S := S) (T := T) hV hW hS hT []
  have := system_solvable (ua := []) (ub := []) hV hW (joins_rows hV hW hS hT hj)
  rw [show p + p + (p + ([] : List K).length + ([] : List K).length) = p + p + p + 0 + 0 by
    simp only [List.length_nil]; omega] at this
  exact this

/-- the distance of two answers in the equations -/
theorem near_rows {s s₀ : Solver K d} {rho : K} (h1 : 1 ≤ p) (hs₀ : s₀.Exact)
    (hV : ClampedKnots 0 1 p m V) (hW : ClampedKnots 0 1 p m W) (hS : S.length = m + 1) (hT : T.length = m + 1)
    (hs : SolvesWithin rho (sysA p m m V W) (shiftsOf s p m m V W [] [] S T) (sysB p m m V W S T)) (ρ : Fin d)
    {e : ℕ → K} (he : e = fun i => fn (shiftsOf s p m m V W [] [] S T) i ρ - fn (shiftsOf s₀ p m m V W [] [] S T) i ρ) :
    (∀ i, i < p + p → |e i + ∑ g ∈ range p, conA p m m V W [] [] g i * (half * e (p + p + g))| ≤ rho) ∧
      ∀ g, g < p → |∑ i ∈ range (p + p), conA p m m V W [] [] g i * e i| ≤ rho := by
  have hex := hs₀ _ _ (sys_solvable hV hW hS hT)
  change Solves _ (shiftsOf s₀ p m m V W [] [] S T) _ at hex
  have hb : (sysB p m m V W S T).length = p + p + p + 0 + 0 := by
    have := rhsM_length (p := p) (m := m) (o := m) (V := V) (W := W) (ua := []) (ub := []) (S := S) (T := T)
    simp only [List.length_nil] at this
    omega
  have l1 := shiftsOf_length (o := m) (m := m) s h1 V W [] [] S T
  have l2 := shiftsOf_length (o := m) (m := m) s₀ h1 V W [] [] S T
  simp only [List.length_nil] at l1 l2
  have hex := (solves_mat l2 hb).mp hex
  have key : ∀ g, g < p + p + p + 0 + 0 →
      |∑ j ∈ range (p + p + p + 0 + 0), nmatE p m m V W [] [] g j * e j| ≤ rho := by
    intro g hg
    have h := solvesWithin_mat l1 hb hs g hg ρ
    rw [← hex g hg ρ, ← sum_sub_distrib] at h
    rw [he, sum_congr rfl (fun j _ => mul_sub _ _ _)]
    exact h
  constructor
  · intro i hi
    have h := key i (by omega)
    have e1 := row_top (p := p) (m := m) (o := m) (V := V) (W := W) (ua := []) (ub := []) e hi
    simp only [List.length_nil] at e1
    rw [show p + p + p + 0 + 0 = p + p + (p + 0 + 0) by omega, e1] at h
    rw [show range (p + 0 + 0) = range p from rfl, sum_congr rfl (g := fun g => conA p m m V W [] [] g i *
      (half * e (p + p + g))) (fun g hg => by rw [if_pos (mem_range.mp hg)])] at h
    exact h
  · intro g hg
    have h := key (p + p + g) (by omega)
    have e1 := row_bot (p := p) (m := m) (o := m) (V := V) (W := W) (ua := []) (ub := []) e
      (g := g) (by simpa using hg)
    simp only [List.length_nil] at e1
    rw [show p + p + p + 0 + 0 = p + p + (p + 0 + 0) by omega, e1] at h
    exact h

theorem conA_left {k i : ℕ} (hV : ClampedKnots 0 1 p m V) (hk : k < p) (hi : i < p) :
    conA p m m V W [] [] k i = pf (fn V) p m (m - p + 1 + i) k (m - k) := by
  rw [conA, vE, if_pos hk, hE, if_pos hi, sumL_eq hV.clamp hk.le]

theorem conA_right {k i : ℕ} (hW : ClampedKnots 0 1 p m W) (hk : k < p) (hi : p ≤ i) :
    conA p m m V W [] [] k i = - pf (fn W) p m (i - p) k 0 := by
  rw [conA, vE, if_pos hk, hE, if_neg (by omega), sumR_eq hW.clamp hk.le]
  ring

/-- the answers for polylines -/
theorem near_one {s s₀ : Solver K d} {rho : K} (hs₀ : s₀.Exact)
    (hV : ClampedKnots 0 1 1 m V) (hW : ClampedKnots 0 1 1 m W) (hS : S.length = m + 1) (hT : T.length = m + 1)
    (hs : SolvesWithin rho (sysA 1 m m V W) (shiftsOf s 1 m m V W [] [] S T) (sysB 1 m m V W S T)) (ρ : Fin d) :
    |fn (shiftsOf s 1 m m V W [] [] S T) 1 ρ - fn (shiftsOf s₀ 1 m m V W [] [] S T) 1 ρ| ≤ 3 / 2 * rho := by
  have hm := hV.le
  obtain ⟨h1, h2⟩ := near_rows le_rfl hs₀ hV hW hS hT hs ρ rfl
  have c0 : conA 1 m m V W [] [] 0 0 = 1 := by
    rw [conA_left hV (by omega) (by omega)]
    simp [pf]; omega
  have c1 : conA 1 m m V W [] [] 0 1 = -1 := by
    rw [conA_right hW (by omega) (by omega)]
    simp [pf]
  have r0 := h1 0 (by omega)
  have r1 := h1 1 (by omega)
  have r2 := h2 0 (by omega)
  simp only [sum_range_succ, sum_range_zero, zero_add, c0, c1, add_zero] at r0 r1 r2
  rw [abs_le] at *
  constructor <;> linarith [r0.1, r0.2, r1.1, r1.2, r2.1, r2.2]

/-- the six equations of two quadratic curves -/
theorem six {α β rho e0 e1 e2 e3 ν μ : K} (hα : 2 ≤ α) (hβ : 2 ≤ β)
    (r0 : |e0 - α * μ| ≤ rho) (r1 : |e1 + ν + α * μ| ≤ rho) (r2 : |e2 - ν + β * μ| ≤ rho)
    (r3 : |e3 - β * μ| ≤ rho) (r4 : |e1 - e2| ≤ rho) (r5 : |-α * e0 + α * e1 + β * e2 - β * e3| ≤ rho) :
    |e0| ≤ 7 / 2 * rho ∧ |e3| ≤ 7 / 2 * rho := by
  have hD : 0 < 3 / 2 * (α ^ 2 + β ^ 2) + α * β := by nlinarith
  have hrho : 0 ≤ rho := (abs_nonneg _).trans r0
  have hid : (3 / 2 * (α ^ 2 + β ^ 2) + α * β) * μ =
      α * ((e1 + ν + α * μ) - (e0 - α * μ)) + β * ((e2 - ν + β * μ) - (e3 - β * μ)) -
        (α - β) * ((e1 + ν + α * μ) - (e2 - ν + β * μ) - (e1 - e2)) / 2 -
        (-α * e0 + α * e1 + β * e2 - β * e3) := by ring
  have hμ : (3 / 2 * (α ^ 2 + β ^ 2) + α * β) * |μ| ≤ (2 * α + 2 * β + 3 / 2 * |α - β| + 1) * rho := by
    rw [← abs_of_pos hD, ← abs_mul, hid]
    have t1 : |(e1 + ν + α * μ) - (e0 - α * μ)| ≤ 2 * rho := (abs_sub _ _).trans (by linarith)
    have t2 : |(e2 - ν + β * μ) - (e3 - β * μ)| ≤ 2 * rho := (abs_sub _ _).trans (by linarith)
    have t3 : |(e1 + ν + α * μ) - (e2 - ν + β * μ) - (e1 - e2)| ≤ 3 * rho :=
      (abs_sub _ _).trans (by have := abs_sub (e1 + ν + α * μ) (e2 - ν + β * μ); linarith)
    have s1 : |α * ((e1 + ν + α * μ) - (e0 - α * μ))| ≤ α * (2 * rho) := by
      rw [abs_mul, abs_of_nonneg (by linarith : 0 ≤ α)]; exact mul_le_mul_of_nonneg_left t1 (by linarith)
    have s2 : |β * ((e2 - ν + β * μ) - (e3 - β * μ))| ≤ β * (2 * rho) := by
      rw [abs_mul, abs_of_nonneg (by linarith : 0 ≤ β)]; exact mul_le_mul_of_nonneg_left t2 (by linarith)
    have s3 : |(α - β) * ((e1 + ν + α * μ) - (e2 - ν + β * μ) - (e1 - e2)) / 2| ≤ |α - β| * (3 * rho) / 2 := by
      rw [abs_div, abs_mul, abs_two]
      exact div_le_div_of_nonneg_right (mul_le_mul_of_nonneg_left t3 (abs_nonneg _)) (by norm_num)
    rw [abs_le] at s1 s2 s3 r5 ⊢
    constructor <;> linarith [s1.1, s1.2, s2.1, s2.2, s3.1, s3.2, r5.1, r5.2]
  have hb : ∀ γ, γ = α ∨ γ = β → |γ * μ| ≤ 5 / 2 * rho := by
    intro γ hγ
    have hγ0 : 0 ≤ γ := by rcases hγ with rfl | rfl <;> linarith
    rw [abs_mul, abs_of_nonneg hγ0]
    refine le_of_mul_le_mul_left ?_ hD
    have e1 : γ * (2 * α + 2 * β + 3 / 2 * |α - β| + 1) ≤ 5 / 2 * (3 / 2 * (α ^ 2 + β ^ 2) + α * β) := by
      rcases le_total α β with h | h
      · rw [abs_of_nonpos (by linarith)]
        rcases hγ with rfl | rfl <;> nlinarith
      · rw [abs_of_nonneg (by linarith)]
        rcases hγ with rfl | rfl <;> nlinarith
    calc (3 / 2 * (α ^ 2 + β ^ 2) + α * β) * (γ * |μ|) = γ * ((3 / 2 * (α ^ 2 + β ^ 2) + α * β) * |μ|) := by ring
      _ ≤ γ * ((2 * α + 2 * β + 3 / 2 * |α - β| + 1) * rho) := mul_le_mul_of_nonneg_left hμ hγ0
      _ = (γ * (2 * α + 2 * β + 3 / 2 * |α - β| + 1)) * rho := by ring
      _ ≤ (5 / 2 * (3 / 2 * (α ^ 2 + β ^ 2) + α * β)) * rho := mul_le_mul_of_nonneg_right e1 hrho
      _ = _ := by ring
  have ha := hb α (Or.inl rfl)
  have hb := hb β (Or.inr rfl)
  rw [abs_le] at ha hb r0 r3
  rw [abs_le, abs_le]
  exact ⟨⟨by linarith [r0.1, ha.1], by linarith [r0.2, ha.2]⟩, ⟨by linarith [r3.1, hb.1], by linarith [r3.2, hb.2]⟩⟩

/-- the answers for quadratic curves -/
theorem near_two {s s₀ : Solver K d} {rho : K} (hs₀ : s₀.Exact)
    (hV : ClampedKnots 0 1 2 m V) (hW : ClampedKnots 0 1 2 m W) (hS : S.length = m + 1) (hT : T.length = m + 1)
    (hs : SolvesWithin rho (sysA 2 m m V W) (shiftsOf s 2 m m V W [] [] S T) (sysB 2 m m V W S T)) (ρ : Fin d) :
    |fn (shiftsOf s 2 m m V W [] [] S T) 0 ρ - fn (shiftsOf s₀ 2 m m V W [] [] S T) 0 ρ| ≤ 7 / 2 * rho ∧
    |fn (shiftsOf s 2 m m V W [] [] S T) 3 ρ - fn (shiftsOf s₀ 2 m m V W [] [] S T) 3 ρ| ≤ 7 / 2 * rho := by
  have hm := hV.le
  obtain ⟨h1, h2⟩ := near_rows (by omega) hs₀ hV hW hS hT hs ρ rfl
  obtain ⟨p1, p2⟩ := spans_pos hV hW
  have r1 : fn V (m + 2) = 1 := hV.clamp.right _ (by omega)
  have r2 : fn W 1 = 0 := hW.clamp.left _ (by omega)
  have q1 : 0 ≤ fn V m := hV.clamp.a_le _
  have q2 : fn W 3 ≤ 1 := hW.clamp.le_b _
  have c00 : conA 2 m m V W [] [] 0 0 = 0 := by
    rw [conA_left hV (by omega) (by omega)]; simp [pf]; omega
  have c01 : conA 2 m m V W [] [] 0 1 = 1 := by
    rw [conA_left hV (by omega) (by omega)]; simp [pf]; omega
  have c02 : conA 2 m m V W [] [] 0 2 = -1 := by
    rw [conA_right hW (by omega) (by omega)]; simp [pf]
  have c03 : conA 2 m m V W [] [] 0 3 = 0 := by
    rw [conA_right hW (by omega) (by omega)]; simp [pf]
  have pv : ∀ i, pf (fn V) 2 m i 1 (m - 1) = 2 / (1 - fn V m) * ((if m = i then 1 else 0) - (if m - 1 = i then 1 else 0)) := by
    intro i
    have hcmp : ¬ Cmp.eq (1 : K) (fn V m) = true := fun h => by
      have h : (1 : K) = fn V m := of_decide_eq_true h
      linarith
    simp only [pf, if_pos (show m - 1 ≤ m - (0 + 1) by omega), show m - 1 + 2 + 1 = m + 2 by omega,
      show m - 1 + (0 + 1) = m by omega, r1, if_neg hcmp, if_pos le_rfl,
      if_pos (show m - 1 ≤ m by omega)]
    norm_num
  have pw : ∀ i, pf (fn W) 2 m i 1 0 = 2 / fn W 3 * ((if 1 = i then 1 else 0) - (if 0 = i then 1 else 0)) := by
    intro i
    have hcmp : ¬ Cmp.eq (fn W 3) (0 : K) = true := fun h => by
      have h : fn W 3 = 0 := of_decide_eq_true h
      linarith
    simp only [pf, if_pos (show 0 ≤ m - (0 + 1) by omega), zero_add, r2, if_neg hcmp, if_pos (show 1 ≤ m by omega),
      if_pos (show 0 ≤ m by omega), sub_zero]
    norm_num
  have c10 : conA 2 m m V W [] [] 1 0 = -(2 / (1 - fn V m)) := by
    rw [conA_left hV (by omega) (by omega), pv, if_neg (by omega), if_pos (by omega)]; ring
  have c11 : conA 2 m m V W [] [] 1 1 = 2 / (1 - fn V m) := by
    rw [conA_left hV (by omega) (by omega), pv, if_pos (by omega), if_neg (by omega)]; ring
  have c12 : conA 2 m m V W [] [] 1 2 = 2 / fn W 3 := by
    rw [conA_right hW (by omega) (by omega), pw, if_neg (by omega), if_pos (by omega)]; ring
  have c13 : conA 2 m m V W [] [] 1 3 = -(2 / fn W 3) := by
    rw [conA_right hW (by omega) (by omega), pw, if_pos (by omega), if_neg (by omega)]; ring
  have hα : 2 ≤ 2 / (1 - fn V m) := by rw [le_div_iff₀ p1]; linarith
  have hβ : 2 ≤ 2 / fn W 3 := by rw [le_div_iff₀ p2]; linarith
  have t0 := h1 0 (by omega)
  have t1 := h1 1 (by omega)
  have t2 := h1 2 (by omega)
  have t3 := h1 3 (by omega)
  have t4 := h2 0 (by omega)
  have t5 := h2 1 (by omega)
  simp only [sum_range_succ, sum_range_zero, zero_add, c00, c01, c02, c03, c10, c11, c12, c13, zero_mul, one_mul,
    add_zero, ← sub_eq_add_neg, neg_mul] at t0 t1 t2 t3 t4 t5
  refine six (ν := half * (fn (shiftsOf s 2 m m V W [] [] S T) (2 + 2) ρ - fn (shiftsOf s₀ 2 m m V W [] [] S T) (2 + 2) ρ))
    (μ := half * (fn (shiftsOf s 2 m m V W [] [] S T) (2 + 2 + 1) ρ - fn (shiftsOf s₀ 2 m m V W [] [] S T) (2 + 2 + 1) ρ))
    (e1 := fn (shiftsOf s 2 m m V W [] [] S T) 1 ρ - fn (shiftsOf s₀ 2 m m V W [] [] S T) 1 ρ)
    (e2 := fn (shiftsOf s 2 m m V W [] [] S T) 2 ρ - fn (shiftsOf s₀ 2 m m V W [] [] S T) 2 ρ)
    hα hβ ?_ ?_ ?_ ?_ t4 ?_
  · convert t0 using 2; ring
  · convert t1 using 2; ring
  · convert t2 using 2; ring
  · convert t3 using 2; ring
  · convert t5 using 2; ring

/-- **C110** Two polylines or two quadratic curves with the same number of control points: merging hands a
solvable system to the linear solver. If its answer has a residual of at most `rho`, then every control point of
the result, and the whole result, is within `3/2 rho` (polylines) or `7/2 rho` (quadratic curves) of what an
exact solver gives, in every coordinate; knots and sizes are the same. -/
theorem C110_near (solver : Solver K d) {s₀ : Solver K d} (hs₀ : s₀.Exact) (ha : Built a p V S) (hb : Built b p W T)
    (hV : ClampedKnots 0 1 p m V) (hW : ClampedKnots 0 1 p m W) (hS : S.length = m + 1)
    (hT : T.length = m + 1) {q : K} (hp : p = 1 ∧ q = 3 / 2 ∨ p = 2 ∧ q = 7 / 2) :
    ∃ (c c₀ : Curve K d) (P P₀ : List (Pt K d)) (A : List (List K)) (rhs : List (Pt K d)),
      merge solver a b = .ok (.ok c) ∧ merge s₀ a b = .ok (.ok c₀) ∧ (∃ x, Solves A x rhs) ∧
      ValidOn 0 1 c p (m + m + 1 - p) (concatKnots p m V W) P ∧
      ValidOn 0 1 c₀ p (m + m + 1 - p) (concatKnots p m V W) P₀ ∧
      ∀ rho, SolvesWithin rho A (solver.run A rhs) rhs →
        (∀ (i : ℕ) x y, P[i]? = some x → P₀[i]? = some y → ∀ r, |x r - y r| ≤ q * rho) ∧
        ∀ u, 0 ≤ u → u ≤ 1 → ∃ v w, c.evaluate u = .ok (.ok v) ∧ c₀.evaluate u = .ok (.ok w) ∧
          ∀ r, |v r - w r| ≤ q * rho := by
  have hm := hV.le
  have h1 : 1 ≤ p := by omega
  have h2 : p ≤ 2 := by omega
  have hU := mergedU_clamped hV hW
  have key : ∀ s : Solver K d, ∃ c P, merge s a b = .ok (.ok c) ∧
      ValidOn 0 1 c p (m + m + 1 - p) (concatKnots p m V W) P ∧
      P = mergedPts p m m V W (shiftL p m S (shiftsOf s p m m V W [] [] S T))
        (shiftR p m T (shiftsOf s p m m V W [] [] S T)) := by
    intro s
    have h := merge_valid (ua := []) (ub := []) ha hb hV hW hS hT (by simp only [List.length_nil]; omega) le_rfl (by omega) s
    refine ⟨_, _, h, ?_, rfl⟩
    rw [← mergedU_eq hV hW]
    exact validOn_canon hU (by rw [mergedPts_length]; omega)
  obtain ⟨c, P, e1, v1, hP⟩ := key solver
  obtain ⟨c₀, P₀, e2, v2, hP₀⟩ := key s₀
  refine ⟨c, c₀, P, P₀, sysA p m m V W, sysB p m m V W S T, e1, e2, sys_solvable hV hW hS hT, v1, v2, ?_⟩
  intro rho hrho
  have hpts : ∀ (i : ℕ) x y, P[i]? = some x → P₀[i]? = some y → ∀ r, |x r - y r| ≤ q * rho := by
    intro i x y hx hy r
    have hi : i < m + m + 2 - p := by
      have := (List.getElem?_eq_some_iff.mp hx).1
      rw [hP, mergedPts_length] at this
      exact this
    have hl := mergedPts_length (p := p) (m := m) (o := m) (V := V) (W := W)
      (S' := shiftL p m S (shiftsOf solver p m m V W [] [] S T)) (T' := shiftR p m T (shiftsOf solver p m m V W [] [] S T))
    have hl₀ := mergedPts_length (p := p) (m := m) (o := m) (V := V) (W := W)
      (S' := shiftL p m S (shiftsOf s₀ p m m V W [] [] S T)) (T' := shiftR p m T (shiftsOf s₀ p m m V W [] [] S T))
    obtain rfl : x = fn P i := by
      rw [fn_lt (by rw [hP, hl]; exact hi)]; rw [List.getElem?_eq_getElem (by rw [hP, hl]; exact hi)] at hx
      exact (Option.some.inj hx).symm
    obtain rfl : y = fn P₀ i := by
      rw [fn_lt (by rw [hP₀, hl₀]; exact hi)]; rw [List.getElem?_eq_getElem (by rw [hP₀, hl₀]; exact hi)] at hy
      exact (Option.some.inj hy).symm
    have hrho0 : 0 ≤ rho := by
      refine (abs_nonneg _).trans (hrho.2.2 0 ?_ r)
      rw [mat_length]; omega
    have hq0 : 0 ≤ q := by rcases hp with ⟨-, rfl⟩ | ⟨-, rfl⟩ <;> norm_num
    have hz : ∀ t : K, |t - t| ≤ q * rho := fun t => by rw [sub_self, abs_zero]; exact mul_nonneg hq0 hrho0
    rw [hP, hP₀]
    rcases lt_or_ge i m with h | h
    · rw [fn_mergedPts_left hm hm (by omega) h, fn_mergedPts_left hm hm (by omega) h, fn_shiftL (by omega), fn_shiftL (by omega)]
      by_cases h3 : i + p ≤ m
      · rw [if_pos h3, if_pos h3]; exact hz _
      · rcases hp with ⟨rfl, -⟩ | ⟨rfl, rfl⟩
        · omega
        · rw [if_neg h3, if_neg h3, show i - (m + 1 - 2) = 0 by omega, Pi.add_apply, Pi.add_apply, add_sub_add_left_eq_sub]
          exact (near_two hs₀ hV hW hS hT hrho r).1
    · rw [fn_mergedPts_right hm le_rfl (by omega) (by simp) h (by omega),
        fn_mergedPts_right hm le_rfl (by omega) (by simp) h (by omega), fn_shiftR (by omega), fn_shiftR (by omega)]
      by_cases h3 : i - (m + 1 - p) < p
      · rw [if_pos h3, if_pos h3, Pi.add_apply, Pi.add_apply, add_sub_add_left_eq_sub]
        rcases hp with ⟨rfl, rfl⟩ | ⟨rfl, rfl⟩
        · rw [show 1 + (i - (m + 1 - 1)) = 1 by omega]
          exact near_one hs₀ hV hW hS hT hrho r
        · rw [show 2 + (i - (m + 1 - 2)) = 3 by omega]
          exact (near_two hs₀ hV hW hS hT hrho r).2
      · rw [if_neg h3, if_neg h3]; exact hz _
  refine ⟨hpts, fun u h0 h1 => ?_⟩
  obtain ⟨v, hv⟩ : ∃ v, c.evaluate u = .ok (.ok v) := by
    rw [v1.eq_canon]; exact ⟨_, evaluate_sum v1.2.1 v1.2.2 h0 h1⟩
  obtain ⟨w, hw⟩ : ∃ w, c₀.evaluate u = .ok (.ok w) := by
    rw [v2.eq_canon]; exact ⟨_, evaluate_sum v2.2.1 v2.2.2 h0 h1⟩
  refine ⟨v, w, hv, hw, fun r => ?_⟩
  obtain ⟨v', w', k1, k2, k3⟩ := C93_points v1 v2 (ρ := r) (η := q * rho) (fun i x y hx hy => hpts i x y hx hy r) h0 h1
  rw [hv] at k1; rw [hw] at k2
  injection k1 with k1; injection k1 with k1
  injection k2 with k2; injection k2 with k2
  rw [k1, k2]; exact k3

/-! ### Instances -/

/-- the system of two polylines with two points each that meet -/
def meetA : List (List ℚ) := [[1, 0, 1/2], [0, 1, -1/2], [1, -1, 0]]
def meetB : List (Pt ℚ 1) := [![0], ![0], ![0]]

/-- a solver that is wrong by `1` in this system -/
def offSolver : Solver ℚ 1 where
  run A b := if A = meetA ∧ b = meetB then [![1/2], ![3/2], ![1]] else List.replicate (ncols A) ![0]
  shape A b := by
    split
    · next h => rw [h.1]; rfl
    · simp

/-- **C110** The factor `3/2` is attained: a residual of `1` moves the point in the middle by `3/2`. -/
theorem C110_attained : ∃ (a b c c₀ : Curve ℚ 1), a = canon 1 [0, 0, 1, 1] [![0], ![1]] ∧
    b = canon 1 [0, 0, 1, 1] [![1], ![2]] ∧ SolvesWithin 1 meetA (offSolver.run meetA meetB) meetB ∧
    merge offSolver a b = .ok (.ok c) ∧ (∀ s : Solver ℚ 1, s.Exact → merge s a b = .ok (.ok c₀)) ∧
    c.evaluate (1/2) = .ok (.ok ![5/2]) ∧ c₀.evaluate (1/2) = .ok (.ok ![1]) := by
  have hU : ClampedKnots (0 : ℚ) 1 1 1 [0, 0, 1, 1] := by decide +kernel
  have ha := mkCurve_ok (p := 1) (U := [(0 : ℚ), 0, 1, 1]) (P := [![0], ![1]]) (n := 1) rfl (by omega) (by simp)
  have hb := mkCurve_ok (p := 1) (U := [(0 : ℚ), 0, 1, 1]) (P := [![1], ![2]]) (n := 1) rfl (by omega) (by simp)
  refine ⟨_, _, canon 1 [0, 0, 1/2, 1, 1] [![0], ![5/2], ![2]], canon 1 [0, 0, 1/2, 1, 1] [![0], ![1], ![2]],
    rfl, rfl, ⟨rfl, by decide +kernel, ?_⟩, ?_, ?_, by decide +kernel, by decide +kernel⟩
  · intro g hg r
    have hg : g < 3 := hg
    obtain rfl : r = 0 := Subsingleton.elim _ _
    interval_cases g <;> decide +kernel
  · have h := merge_valid (ua := []) (ub := []) ha hb hU hU rfl rfl (by simp) le_rfl (by omega) offSolver
    rw [mergedU_eq hU hU, show shiftsOf offSolver 1 1 1 [0, 0, 1, 1] [0, 0, 1, 1] [] [] [![0], ![1]] [![1], ![2]] =
      [![1/2], ![3/2], ![1]] by decide +kernel] at h
    refine h.trans ?_
    congr 2
    congr 1 <;> decide +kernel
  · intro s hs
    obtain ⟨c, h1, h2, h3⟩ := C104_polylines (S := [![0], ![1]]) (T := [![1], ![2]]) hs ha hb hU hU rfl rfl
    have h := merge_valid (ua := []) (ub := []) ha hb hU hU rfl rfl (by simp) le_rfl (by omega) s
    rw [merge, h] at h1
    injection h1 with h1; injection h1 with h1; subst h1
    refine h.trans ?_
    rw [canon_knots, canonKnots_vector] at h2
    injection h2 with h2
    rw [canon_matrix] at h3
    injection h3 with h3
    rw [h2, h3]
    congr 2
    congr 1 <;> decide +kernel

/-- two quadratic curves that do not meet, with the knots of the instance of `C104` or any others -/
example (solver : Solver ℚ 1) : ∃ c, merge solver (canon 2 [0, 0, 0, 1/2, 1, 1, 1] [![0], ![1], ![3], ![2]])
    (canon 2 [0, 0, 0, 1/4, 1, 1, 1] [![5], ![1], ![3], ![2]]) = .ok (.ok c) := by
  obtain ⟨s₀, hs₀⟩ := exists_exact_solver ℚ 1
  obtain ⟨c, -, -, -, -, -, h, -⟩ := C110_near (m := 3) (q := 7/2) solver hs₀
    (mkCurve_ok (p := 2) (U := [(0 : ℚ), 0, 0, 1/2, 1, 1, 1]) (P := [![0], ![1], ![3], ![2]]) (n := 3) rfl (by omega) (by simp))
    (mkCurve_ok (p := 2) (U := [(0 : ℚ), 0, 0, 1/4, 1, 1, 1]) (P := [![5], ![1], ![3], ![2]]) (n := 3) rfl (by omega) (by simp))
    (by decide +kernel) (by decide +kernel) rfl rfl (Or.inr ⟨rfl, rfl⟩)
  exact ⟨c, h⟩

end BSpline
