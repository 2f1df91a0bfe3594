import Verif.Theory.Condition
import Verif.Props.Unique
import Verif.Props.Stable
import Verif.Props.Touch

/-!
# The control points are bounded by the curve: C111

De Boor's theorem on the condition of the B-spline basis: a control point is at most `κ` times as
large as the curve in the support of its basis function, where `κ` only depends on the degree.
-/

set_option linter.unusedSectionVars false

namespace BSpline

open Finset

variable {K : Type} [Field K] [LinearOrder K] [IsStrictOrderedRing K] {d : ℕ}

theorem sum_gaps (U : ℕ → K) (i : ℕ) (s : K) : ∀ r, (∀ m, m < r → U (i + m + 1) - U (i + m) < s) → 0 < r →
    U (i + r) - U i < r * s := by
  intro r
  induction r with
  | zero => intro _ h; omega
  | succ r ih =>
    intro h _
    have h1 := h r (by omega)
    rcases Nat.eq_zero_or_pos r with rfl | hr
    · simpa using h1
    · have := ih (fun m hm => h m (by omega)) hr
      push_cast
      rw [← Nat.add_assoc]
      linarith

/-- one of the spans of a support has at least the average length -/
theorem exists_long_span (U : ℕ → K) (i p : ℕ) :
    ∃ m, i ≤ m ∧ m ≤ i + p ∧ U (i + p + 1) - U i ≤ ((p : K) + 1) * (U (m + 1) - U m) := by
  by_contra hcon
  push Not at hcon
  have h0 : (0 : K) < (p : K) + 1 := by positivity
  have := sum_gaps U i ((U (i + p + 1) - U i) / ((p : K) + 1)) (p + 1) (fun m hm => by
    rw [lt_div_iff₀ h0, mul_comm]
    exact hcon (i + m) (by omega) (by omega)) (by omega)
  push_cast at this
  rw [mul_div_cancel₀ _ h0.ne', ← Nat.add_assoc] at this
  exact lt_irrefl _ this

theorem bl_coord (U : ℕ → K) (ts : List K) (P : ℕ → Pt K d) (ρ : Fin d) (a : ℕ) :
    bl U ts P a ρ = bl U ts (fun i => P i ρ) a :=
  (congrFun (bl_map (LinearMap.proj (R := K) ρ : Pt K d →ₗ[K] K) ts U P) a).symm

/-- **C111** For every degree there is a number `κ` such that over all knots (interior multiplicities at most
`p + 1`) and for all dimensions: if two curves differ by at most `M` in a coordinate inside the support of a basis
function, then their control points with this index differ by at most `κ M`. -/
theorem C111_points (p : ℕ) : ∃ κ : K, 0 ≤ κ ∧ ∀ (d n : ℕ) (c c' : Curve K d) (U : List K) (P Q : List (Pt K d)),
    ValidOn 0 1 c p n U P → ValidOn 0 1 c' p n U Q → (∀ x, 0 < x → x < 1 → U.count x ≤ p + 1) →
    ∀ (i : ℕ) (x y : K) (a b : Pt K d) (ρ : Fin d) (M : K), U[i]? = some x → U[i + p + 1]? = some y →
    P[i]? = some a → Q[i]? = some b →
    (∀ u v w, x < u → u < y → c.evaluate u = .ok (.ok v) → c'.evaluate u = .ok (.ok w) → |v ρ - w ρ| ≤ M) →
    |a ρ - b ρ| ≤ κ * M := by
  obtain ⟨κ, hκ, hb⟩ := bz_le (K := K) p
  refine ⟨(2 * ((p : K) + 1)) ^ p * κ, by positivity, ?_⟩
  intro d n c c' U P Q hc hc' hm i x y a b ρ M hx hy ha hb' hM
  obtain rfl := hc.eq_canon
  obtain rfl := hc'.eq_canon
  obtain ⟨-, hU, hP⟩ := hc
  obtain ⟨-, -, hQ⟩ := hc'
  have hl := hU.length
  have hcl := hU.clamp
  obtain ⟨hi, rfl⟩ := List.getElem?_eq_some_iff.mp hx
  obtain ⟨hi', rfl⟩ := List.getElem?_eq_some_iff.mp hy
  obtain ⟨hiP, rfl⟩ := List.getElem?_eq_some_iff.mp ha
  obtain ⟨hiQ, rfl⟩ := List.getElem?_eq_some_iff.mp hb'
  rw [← fn_lt hi, ← fn_lt hi'] at hM
  rw [← fn_lt hiP, ← fn_lt hiQ]
  have hsup := support_pos hU hm (i := i) (by omega)
  obtain ⟨m, m1, m2, m3⟩ := exists_long_span (fn U) i p
  have hlt : fn U m < fn U (m + 1) := by
    by_contra hcon
    have : ((p : K) + 1) * (fn U (m + 1) - fn U m) ≤ 0 :=
      mul_nonpos_of_nonneg_of_nonpos (by positivity) (sub_nonpos.mpr (not_lt.mp hcon))
    linarith
  have hpm : p ≤ m := by
    by_contra hcon
    rw [hcl.left m (by omega), hcl.left (m + 1) (by omega)] at hlt
    exact lt_irrefl _ hlt
  have hmn : m ≤ n := by
    by_contra hcon
    rw [hcl.right m (by omega), hcl.right (m + 1) (by omega)] at hlt
    exact lt_irrefl _ hlt
  have hw := win_of_span hcl.mono hpm hlt
  set A := fn U m with hA
  set B := fn U (m + 1) with hB
  have hiA : fn U i ≤ A := hcl.mono m1
  have hBi : B ≤ fn U (i + p + 1) := hcl.mono (by omega)
  set R : ℕ → K := fun t => fn P t ρ - fn Q t ρ with hR
  set S : ℕ → K := fun t => bl (fn U) (knotsFrom (bz p A B) (0 + t + 1) p) R (m - p) with hS
  have hch := bl_change p (U := fn U) (U' := bz p A B) (P := R) (P' := S) (a := m - p) (b := 0) hw (win_bz p hlt)
    (fun t _ => by rw [hS]; simp only [Nat.zero_add])
  have hSle := hb A B hlt S M (by
    intro g hg
    have n0 : (0 : K) < node p g := node_pos p g
    have n1 : (node p g : K) < 1 := node_lt hg
    have hba : 0 < B - A := sub_pos.mpr hlt
    set u := (B - A) * node p g + A with hu
    have u1 : A < u := by
      have := mul_pos hba n0
      linarith
    have u2 : u < B := by
      have := mul_lt_mul_of_pos_left n1 hba
      rw [mul_one] at this
      linarith
    have v0 : 0 ≤ u := (hcl.a_le m).trans u1.le
    have v1 : u ≤ 1 := u2.le.trans (hcl.le_b _)
    have hs : IsSpan (fn U) n u m := ⟨hmn, u1.le, Or.inl u2⟩
    have := hM u _ _ (lt_of_le_of_lt hiA u1) (lt_of_lt_of_le u2 hBi)
      (evaluateDerivative_eq hU hP (Nat.zero_le p) v0 v1 hs) (evaluateDerivative_eq hU hQ (Nat.zero_le p) v0 v1 hs)
    rw [hch _ (by simp)]
    rw [cv, cv, shiftN_zero, Nat.sub_zero, bl_coord, bl_coord] at this
    simp only [dpt] at this
    rw [hR, bl_sub]
    exact this)
  have hdual := bl_dual p (U := fn U) (P := R) (a := m - p) (i - (m - p)) (by omega) hw
  rw [show m - p + (i - (m - p)) = i by omega] at hdual
  have hfin := bl_bz_le (L := 2 * ((p : K) + 1)) hlt (knotsFrom (fn U) (i + 1) p) (by
    intro t ht
    obtain ⟨k, hk, rfl⟩ := List.mem_map.mp ht
    rw [List.mem_range'] at hk
    obtain ⟨r, hr, rfl⟩ := hk
    have t1 : fn U i ≤ fn U (i + 1 + 1 * r) := hcl.mono (by omega)
    have t2 : fn U (i + 1 + 1 * r) ≤ fn U (i + p + 1) := hcl.mono (by omega)
    have e1 : |B - fn U (i + 1 + 1 * r)| ≤ fn U (i + p + 1) - fn U i := abs_le.mpr ⟨by linarith, by linarith⟩
    have e2 : |fn U (i + 1 + 1 * r) - A| ≤ fn U (i + p + 1) - fn U i := abs_le.mpr ⟨by linarith, by linarith⟩
    linarith) (Q := S) (M := κ * M) (by
    intro t ht
    rw [knotsFrom_length] at ht
    exact hSle t ht)
  rw [knotsFrom_length, hch _ (by simp), hdual] at hfin
  rw [mul_assoc]
  exact hfin

/-- the same for a single curve -/
theorem C111_bound (p : ℕ) : ∃ κ : K, 0 ≤ κ ∧ ∀ (d n : ℕ) (c : Curve K d) (U : List K) (P : List (Pt K d)),
    ValidOn 0 1 c p n U P → (∀ x, 0 < x → x < 1 → U.count x ≤ p + 1) →
    ∀ (i : ℕ) (x y : K) (a : Pt K d) (ρ : Fin d) (M : K), U[i]? = some x → U[i + p + 1]? = some y →
    P[i]? = some a → (∀ u v, x < u → u < y → c.evaluate u = .ok (.ok v) → |v ρ| ≤ M) → |a ρ| ≤ κ * M := by
  obtain ⟨κ, hκ, h⟩ := C111_points (K := K) p
  refine ⟨κ, hκ, ?_⟩
  intro d n c U P hc hm i x y a ρ M hx hy ha hM
  have hl : (List.replicate (n + 1) (0 : Pt K d)).length = n + 1 := List.length_replicate
  have hc' := validOn_canon hc.2.1 hl
  obtain ⟨hiP, -⟩ := List.getElem?_eq_some_iff.mp ha
  have := h d n c _ U P _ hc hc' hm i x y a 0 ρ M hx hy ha
    (by rw [List.getElem?_replicate, if_pos (by rw [hc.2.2] at hiP; exact hiP)]) (by
      intro u v w h1 h2 hv hw
      obtain ⟨-, hU, -⟩ := hc
      have hcl := hU.clamp
      obtain ⟨hi, rfl⟩ := List.getElem?_eq_some_iff.mp hx
      obtain ⟨hi', rfl⟩ := List.getElem?_eq_some_iff.mp hy
      rw [← fn_lt hi] at h1
      rw [← fn_lt hi'] at h2
      rw [evaluate_sum hU hl ((hcl.a_le _).trans h1.le) (h2.le.trans (hcl.le_b _))] at hw
      injection hw with hw; injection hw with hw
      rw [sum_eq_zero] at hw
      · rw [← hw, Pi.zero_apply, sub_zero]
        exact hM u v (by rwa [← fn_lt hi]) (by rwa [← fn_lt hi']) hv
      · intro r hr
        rw [fn_lt (by rw [hl]; exact mem_range.mp hr), List.getElem_replicate, smul_zero])
  simpa using this

/-- **C111** (Markov's inequality) A bounded curve is not steep: if the coordinate is at most `M` everywhere and the
knots `U[i+1]` and `U[i+p+1]` are at least `δ` apart, then the curve moves by at most `2 p κ M / δ` times the
distance of the parameters. -/
theorem C111_steep (p : ℕ) : ∃ κ : K, 0 ≤ κ ∧ ∀ (d n : ℕ) (c : Curve K d) (U : List K) (P : List (Pt K d)),
    ValidOn 0 1 c p n U P → ∀ (ρ : Fin d) (M δ : K), 0 < δ →
    (∀ (i : ℕ) x y, i < n → U[i + 1]? = some x → U[i + p + 1]? = some y → δ ≤ y - x) →
    (∀ u v, 0 ≤ u → u ≤ 1 → c.evaluate u = .ok (.ok v) → |v ρ| ≤ M) →
    ∀ t s, 0 ≤ t → t ≤ 1 → 0 ≤ s → s ≤ 1 → ∃ v w, c.evaluate t = .ok (.ok v) ∧ c.evaluate s = .ok (.ok w) ∧
      |v ρ - w ρ| ≤ 2 * p * κ * M / δ * |t - s| := by
  obtain ⟨κ, hκ, h⟩ := C111_bound (K := K) p
  refine ⟨κ, hκ, ?_⟩
  intro d n c U P hc ρ M δ hδ hgap hM t s ht0 ht1 hs0 hs1
  have hU := hc.2.1
  have hP := hc.2.2
  have hl := hU.length
  have hcl := hU.clamp
  have hcount : ∀ x, 0 < x → x < 1 → U.count x ≤ p := by
    intro x h0 h1
    by_contra hcon
    have hsp := sorted_split hU.sorted x
    have hlen := congrArg List.length hsp
    simp only [List.length_append, List.length_replicate] at hlen
    set b := (U.filter (· < x)).length with hb
    have hat : ∀ m, b ≤ m → m < b + U.count x → fn U m = x := by
      intro m m1 m2
      rw [fn_lt (by omega), List.getElem_of_eq hsp, List.getElem_append_right (by omega),
        List.getElem_append_left (by simp; omega), List.getElem_replicate]
    have b1 : 0 < b := by
      by_contra hb0
      have := hat 0 (by omega) (by omega)
      rw [hcl.left 0 (by omega)] at this
      exact h0.ne this
    have b2 : b ≤ n := by
      by_contra hb0
      have := hat b le_rfl (by omega)
      rw [hcl.right b (by omega)] at this
      exact h1.ne' this
    have := hgap (b - 1) x x (by omega)
      (by rw [← hat (b - 1 + 1) (by omega) (by omega), fn_lt (by omega)]; exact List.getElem?_eq_getElem _)
      (by rw [← hat (b - 1 + p + 1) (by omega) (by omega), fn_lt (by omega)]; exact List.getElem?_eq_getElem _)
    rw [sub_self] at this
    exact absurd hδ (not_lt.mpr this)
  have hle : ∀ a ∈ P, |a ρ| ≤ κ * M := by
    intro a ha
    obtain ⟨i, hi, rfl⟩ := List.mem_iff_getElem.mp ha
    refine h d n c U P hc (fun x h0 h1 => (hcount x h0 h1).trans (Nat.le_succ p)) i (fn U i) (fn U (i + p + 1)) _ ρ M ?_ ?_ ?_ ?_
    · rw [fn_lt (by omega)]; exact List.getElem?_eq_getElem _
    · rw [fn_lt (by omega)]; exact List.getElem?_eq_getElem _
    · exact List.getElem?_eq_getElem _
    · intro u v h1 h2 hv
      exact hM u v ((hcl.a_le _).trans h1.le) (h2.le.trans (hcl.le_b _)) hv
  have hM0 : 0 ≤ κ * M := (abs_nonneg _).trans (hle _ (List.getElem_mem (by omega : 0 < P.length)))
  obtain ⟨v, w, h1, h2, h3⟩ := C93_lipschitz hc hcount (ρ := ρ) (l := 2 * (κ * M) / δ) (by positivity) (by
    intro i a b x y ha hb hx hy
    obtain ⟨hi, rfl⟩ := List.getElem?_eq_some_iff.mp ha
    obtain ⟨hi', rfl⟩ := List.getElem?_eq_some_iff.mp hb
    have g := hgap i x y (by omega) hx hy
    have e1 := abs_le.mp (hle _ (List.getElem_mem hi))
    have e2 := abs_le.mp (hle _ (List.getElem_mem hi'))
    have e3 : |P[i + 1] ρ - P[i] ρ| ≤ 2 * (κ * M) := abs_le.mpr ⟨by linarith [e1.1, e1.2, e2.1, e2.2], by linarith [e1.1, e1.2, e2.1, e2.2]⟩
    refine e3.trans ?_
    rw [div_mul_eq_mul_div, le_div_iff₀ hδ]
    exact mul_le_mul_of_nonneg_left g (by positivity)) ht0 ht1 hs0 hs1
  exact ⟨v, w, h1, h2, h3.trans (le_of_eq (by ring))⟩

/-- a quadratic with a double knot: `U[i+1]` and `U[i+3]` are at least `1/2` apart -/
example : ValidOn (0 : ℚ) 1 (canon 2 [(0 : ℚ), 0, 0, 1 / 2, 1 / 2, 1, 1, 1] [![0], ![1], ![3], ![7], ![7]]) 2 4
      [0, 0, 0, 1 / 2, 1 / 2, 1, 1, 1] [![0], ![1], ![3], ![7], ![7]] ∧
    ∀ (i : ℕ) x y, i < 4 → [(0 : ℚ), 0, 0, 1 / 2, 1 / 2, 1, 1, 1][i + 1]? = some x →
      [(0 : ℚ), 0, 0, 1 / 2, 1 / 2, 1, 1, 1][i + 2 + 1]? = some y → 1 / 2 ≤ y - x := by
  refine ⟨validOn_canon (by decide +kernel) rfl, ?_⟩
  intro i x y hi hx hy
  interval_cases i <;> cases hx <;> cases hy <;> norm_num

/-- **C111** The factor is not one: the middle control point of a quadratic curve can be three times as large as
the curve (control points 1, -3, 1: the second Chebyshev polynomial). -/
theorem C111_factor : ∃ c : Curve ℚ 1, ValidOn 0 1 c 2 2 [0, 0, 0, 1, 1, 1] [![1], ![-3], ![1]] ∧
    ∀ u, 0 ≤ u → u ≤ 1 → ∃ v, c.evaluate u = .ok (.ok v) ∧ |v 0| ≤ 1 := by
  have hU : ClampedKnots (0 : ℚ) 1 2 2 [0, 0, 0, 1, 1, 1] := by decide +kernel
  have hP : ([![1], ![-3], ![1]] : List (Pt ℚ 1)).length = 2 + 1 := rfl
  refine ⟨_, validOn_canon hU hP, ?_⟩
  intro u h0 h1
  have hs : IsSpan (fn [(0 : ℚ), 0, 0, 1, 1, 1]) 2 u 2 := by
    refine ⟨le_rfl, h0, ?_⟩
    rcases h1.lt_or_eq with h | h
    · exact Or.inl h
    · exact Or.inr ⟨rfl, h⟩
  refine ⟨_, evaluateDerivative_eq hU hP (Nat.zero_le 2) h0 h1 hs, ?_⟩
  have e : cv (fn [(0 : ℚ), 0, 0, 1, 1, 1]) 2 (fn [![1], ![-3], ![1]]) 0 2 u 0 = 1 - 8 * u + 8 * u ^ 2 := by
    simp [cv, bl, D, shift, fn, dpt, List.replicate]
    ring
  rw [e, abs_le]
  constructor <;> nlinarith [sq_nonneg (2 * u - 1), mul_nonneg h0 (sub_nonneg.mpr h1)]

end BSpline
