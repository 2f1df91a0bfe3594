import Verif.Props.Forward
import Verif.Props.Convex

/-!
# How well sampled points describe a curve: C153

A curve is drawn by evaluating it at some parameters and connecting the points. The distance of such a chord from the
curve is bounded with the control points of the derivatives that a curve stores.
-/

set_option linter.unusedSectionVars false

namespace BSpline

open Finset

variable {K : Type} [Field K] [LinearOrder K] [IsStrictOrderedRing K] {d : ℕ}

theorem along_single (ρ : Fin d) (v : Pt K d) : along (Pi.single ρ 1) v = v ρ := by
  rw [along, Finset.sum_eq_single ρ]
  · simp
  · intro r _ hr
    rw [Pi.single_eq_of_ne hr, zero_mul]
  · simp

/-- **C153** If the control points of the first derivative lie between `lo` and `hi` in a coordinate, the chord between
two points of the curve is, in this coordinate, within `(hi - lo) s (1 - s) (b - a)` of the curve. -/
theorem C153_first {c : Curve K d} {p n : ℕ} {U : List K} {P D : List (Pt K d)} (hc : ValidOn 0 1 c p n U P)
    (hp : 1 ≤ p) (hm : ∀ x, 0 < x → x < 1 → U.count x ≤ p) (hD : c.points.matrixDerivative 1 = .ok D) {ρ : Fin d}
    {lo hi : K} (hb : ∀ q ∈ D, lo ≤ q ρ ∧ q ρ ≤ hi) {a b s : K} (ha : 0 ≤ a) (hab : a ≤ b) (hb1 : b ≤ 1) (hs0 : 0 ≤ s)
    (hs1 : s ≤ 1) :
    ∃ va vb v, c.evaluate a = .ok (.ok va) ∧ c.evaluate b = .ok (.ok vb) ∧
      c.evaluate ((1 - s) * a + s * b) = .ok (.ok v) ∧
      |v ρ - ((1 - s) * va ρ + s * vb ρ)| ≤ (hi - lo) * (s * (1 - s) * (b - a)) := by
  have hc' := hc
  obtain rfl := hc.eq_canon
  obtain ⟨-, hU, hP⟩ := hc
  have hlen := hU.length
  have hle := hU.le
  have hp0 : (0 : K) < p := by exact_mod_cast (by omega : 0 < p)
  have hb' : ∀ i, i + 1 ≤ n → lo ≤ dpt (fn U) p (fn P) 1 i ρ ∧ dpt (fn U) p (fn P) 1 i ρ ≤ hi := by
    refine (derivative_bounds_iff hP hp hle).mp ?_
    intro E hE
    rw [hD] at hE
    injection hE with hE
    subst hE
    exact hb
  have hdiff : ∀ i, i < n → 0 < fn U (i + p + 1) - fn U (i + 1) ∧
      p * (fn P (i + 1) ρ - fn P i ρ) = dpt (fn U) p (fn P) 1 i ρ * (fn U (i + p + 1) - fn U (i + 1)) := by
    intro i hi
    obtain ⟨h1, h2⟩ := dpt_diff hU (fn P) (k := 0) (i := i) (by omega) (by omega) (by simpa using hm)
    refine ⟨h1, ?_⟩
    have h3 := h2 ρ
    simp only [dpt, Nat.sub_zero, zero_add] at h3 ⊢
    rw [h3]
    field_simp
  have hlo : SpeedAtLeast p n U P (Pi.single ρ 1) lo := by
    rw [speed_iff hU hP]
    intro i hi
    rw [along_single, along_single, (hdiff i hi).2]
    exact mul_le_mul_of_nonneg_right (hb' i hi).1 (hdiff i hi).1.le
  have hhi : SpeedAtMost p n U P (Pi.single ρ 1) hi := by
    intro i hi
    rw [getD_eq_fn (by omega), getD_eq_fn (by omega), getD_eq_fn (by omega), getD_eq_fn (by omega), along_single,
      along_single, (hdiff i hi).2]
    exact mul_le_mul_of_nonneg_right (hb' i hi).2 (hdiff i hi).1.le
  set u := (1 - s) * a + s * b with hu
  have hau : u - a = s * (b - a) := by rw [hu]; ring
  have hub : b - u = (1 - s) * (b - a) := by rw [hu]; ring
  have hd0 : 0 ≤ b - a := sub_nonneg.mpr hab
  have h1s : 0 ≤ 1 - s := sub_nonneg.mpr hs1
  have g1 : a ≤ u := sub_nonneg.mp (hau ▸ mul_nonneg hs0 hd0)
  have g2 : u ≤ b := sub_nonneg.mp (hub ▸ mul_nonneg h1s hd0)
  have eva := evaluate_sum hU hP ha (hab.trans hb1)
  have evb := evaluate_sum hU hP (ha.trans hab) hb1
  have evu := evaluate_sum hU hP (ha.trans g1) (g2.trans hb1)
  refine ⟨_, _, _, eva, evb, evu, ?_⟩
  have l1 := C152_at_least hc' hp hlo ha g1 (g2.trans hb1) eva evu
  have l2 := C152_at_least hc' hp hlo (ha.trans g1) g2 hb1 evu evb
  have m1 := C152_at_most hc' hp hhi ha g1 (g2.trans hb1) eva evu
  have m2 := C152_at_most hc' hp hhi (ha.trans g1) g2 hb1 evu evb
  simp only [along_single] at l1 l2 m1 m2
  rw [hau] at l1 m1
  rw [hub] at l2 m2
  set A := (∑ i ∈ range (n + 1), nb p n U i a • fn P i) ρ
  set B := (∑ i ∈ range (n + 1), nb p n U i b • fn P i) ρ
  set V := (∑ i ∈ range (n + 1), nb p n U i u • fn P i) ρ
  have e1 := mul_le_mul_of_nonneg_left l1 h1s
  have e2 := mul_le_mul_of_nonneg_left m1 h1s
  have e3 := mul_le_mul_of_nonneg_left l2 hs0
  have e4 := mul_le_mul_of_nonneg_left m2 hs0
  rw [abs_le]
  constructor <;> nlinarith

/-! ### The square of the parameter -/

/-- the control points of the curve `u²` -/
def quadCoef (p : ℕ) (U : List K) (i : ℕ) : K := esym 2 (knotsFrom (fn U) (i + 1) p) / (p.choose 2 : K)

theorem sum_nb_quad {p n : ℕ} {U : List K} (hU : ClampedKnots 0 1 p n U) (hp : 2 ≤ p) {u : K} (h0 : 0 ≤ u)
    (h1 : u ≤ 1) : ∑ r ∈ range (n + 1), nb p n U r u * quadCoef p U r = u ^ 2 := by
  set f : List K → Pt K 1 := fun ts => esym 2 ts • (fun _ => 1 / (p.choose 2 : K)) with hf
  have hsa : SymAffine f := (symAffine_esym 2).smul_const _
  have hl := polarPoints_length f p n U
  have h2 := C61_polar_forms hsa (validOn_canon hU hl) h0 h1
  rw [evaluate_sum hU hl h0 h1] at h2
  injection h2 with h2; injection h2 with h2
  have h3 := congrFun h2 0
  have hch : (p.choose 2 : K) ≠ 0 := by exact_mod_cast (Nat.choose_pos hp).ne'
  simp only [Finset.sum_apply, Pi.smul_apply, smul_eq_mul, hf, esym_replicate] at h3
  rw [show (p.choose 2 : K) * u ^ 2 * (1 / (p.choose 2 : K)) = u ^ 2 by field_simp] at h3
  rw [← h3]
  refine sum_congr rfl fun r hr => ?_
  rw [mem_range] at hr
  rw [fn_polarPoints hU.length (by omega)]
  simp [quadCoef, div_eq_mul_inv]

theorem esym_step (U : ℕ → K) (k s r : ℕ) : esym (k + 1) (knotsFrom U (s + 1) (r + 1)) -
    esym (k + 1) (knotsFrom U s (r + 1)) = (U (s + r + 1) - U s) * esym k (knotsFrom U (s + 1) r) := by
  rw [knotsFrom_concat, esym_perm (List.perm_append_singleton _ _), knotsFrom_succ U s r, show s + 1 + r = s + r + 1 by omega]
  simp only [esym]
  ring

/-- the control points minus those of a parabola form a convex polygon -/
theorem quad_convex {p n : ℕ} {U : List K} {P : List (Pt K d)} (hU : ClampedKnots 0 1 p n U)
    (hp : 2 ≤ p) (hm : ∀ x, 0 < x → x < 1 → U.count x + 1 ≤ p) {ρ : Fin d} {σ m : K}
    (hb : ∀ i, i + 2 ≤ n → m ≤ σ * dpt (fn U) p (fn P) 2 i ρ) :
    ConvexPolygon p n U ((List.range (n + 1)).map fun i => (![σ * fn P i ρ - m / 2 * quadCoef p U i] : Pt K 1)) 0 := by
  obtain ⟨t, rfl⟩ : ∃ t, p = t + 2 := ⟨p - 2, by omega⟩
  have hlen := hU.length
  have hle := hU.le
  set R := (List.range (n + 1)).map fun i => (![σ * fn P i ρ - m / 2 * quadCoef (t + 2) U i] : Pt K 1) with hR
  have hRl : R.length = n + 1 := by simp [hR]
  have hRi : ∀ i, i ≤ n → R.getD i 0 0 = σ * fn P i ρ - m / 2 * quadCoef (t + 2) U i := by
    intro i hi
    rw [getD_eq_fn (by omega), hR, fn_map_range _ (by omega)]
    rfl
  have hp0 : (0 : K) < ((t + 2 : ℕ) : K) := by exact_mod_cast (by omega : 0 < t + 2)
  have hq0 : (0 : K) < ((t + 1 : ℕ) : K) := by exact_mod_cast (by omega : 0 < t + 1)
  have hch : ((t + 2).choose 2 : K) = ((t + 2 : ℕ) : K) * ((t + 1 : ℕ) : K) / 2 := by
    have := Nat.add_one_mul_choose_eq (t + 1) 1
    rw [Nat.choose_one_right] at this
    have h2 : (((t + 1 + 1) * (t + 1) : ℕ) : K) = (((t + 1 + 1).choose (1 + 1) * (1 + 1) : ℕ) : K) := by rw [this]
    push_cast at h2 ⊢
    rw [eq_div_iff two_ne_zero]
    linear_combination -h2
  set S : ℕ → K := fun i => esym 1 (knotsFrom (fn U) (i + 2) (t + 1)) with hS
  have hstep : ∀ i, i < n → 0 < fn U (i + (t + 2) + 1) - fn U (i + 1) ∧ R.getD (i + 1) 0 0 - R.getD i 0 0 =
      (fn U (i + (t + 2) + 1) - fn U (i + 1)) / ((t + 2 : ℕ) : K) *
        (σ * dpt (fn U) (t + 2) (fn P) 1 i ρ - m * S i / ((t + 1 : ℕ) : K)) := by
    intro i hi
    obtain ⟨h1, h2⟩ := dpt_diff hU (fn P) (k := 0) (i := i) (by omega) (by omega) (fun x h0 h1 => by
      have := hm x h0 h1; omega)
    have h3 := h2 ρ
    simp only [Nat.sub_zero, zero_add] at h1 h3
    refine ⟨h1, ?_⟩
    have hz : ∀ j, dpt (fn U) (t + 2) (fn P) 0 j = fn P j := fun j => rfl
    rw [hz, hz] at h3
    have h4 := esym_step (fn U) 1 (i + 1) (t + 1)
    rw [hRi _ (by omega), hRi _ (by omega), quadCoef, quadCoef, hch]
    have h5 : fn P (i + 1) ρ = fn P i ρ + dpt (fn U) (t + 2) (fn P) 1 i ρ *
        ((fn U (i + (t + 2) + 1) - fn U (i + 1)) / ((t + 2 : ℕ) : K)) := by rw [← h3]; ring
    have h6 : esym 2 (knotsFrom (fn U) (i + 1 + 1) (t + 2)) = esym 2 (knotsFrom (fn U) (i + 1) (t + 2)) +
        (fn U (i + (t + 2) + 1) - fn U (i + 1)) * S i := by
      rw [show i + 1 + (t + 1) + 1 = i + (t + 2) + 1 by omega] at h4
      rw [hS]
      linear_combination h4
    rw [h5, h6]
    field_simp
    ring
  intro i hi
  have hg : ∀ j, j < n → greville (t + 2) U (j + 1) - greville (t + 2) U j =
      (fn U (j + (t + 2) + 1) - fn U (j + 1)) / ((t + 2 : ℕ) : K) := fun j hj => greville_step (by omega)
  obtain ⟨p1, e1⟩ := hstep i (by omega)
  obtain ⟨p2, e2⟩ := hstep (i + 1) (by omega)
  rw [e1, e2, hg i (by omega), hg (i + 1) (by omega)]
  have hkey : σ * dpt (fn U) (t + 2) (fn P) 1 i ρ - m * S i / ((t + 1 : ℕ) : K) ≤
      σ * dpt (fn U) (t + 2) (fn P) 1 (i + 1) ρ - m * S (i + 1) / ((t + 1 : ℕ) : K) := by
    obtain ⟨h1, h2⟩ := dpt_diff hU (fn P) (k := 1) (i := i) (by omega) (by omega) hm
    have h3 := h2 ρ
    have h4 := esym_step (fn U) 0 (i + 2) t
    rw [esym_zero, mul_one, show i + 2 + t + 1 = i + (t + 2) + 1 by omega] at h4
    have h5 : S (i + 1) = S i + (fn U (i + (t + 2) + 1) - fn U (i + (1 + 1))) := by
      rw [hS]
      change esym 1 (knotsFrom (fn U) (i + 2 + 1) (t + 1)) = _
      linear_combination h4
    rw [show t + 2 - 1 = t + 1 by omega] at h3
    have h6 := hb i hi
    have h7 : σ * dpt (fn U) (t + 2) (fn P) 1 (i + 1) ρ - m * S (i + 1) / ((t + 1 : ℕ) : K) -
        (σ * dpt (fn U) (t + 2) (fn P) 1 i ρ - m * S i / ((t + 1 : ℕ) : K)) =
        (σ * dpt (fn U) (t + 2) (fn P) 2 i ρ - m) *
          ((fn U (i + (t + 2) + 1) - fn U (i + (1 + 1))) / ((t + 1 : ℕ) : K)) := by
      rw [h5]
      linear_combination σ * h3
    have h8 := mul_nonneg (sub_nonneg.mpr h6) (div_pos h1 hq0).le
    linarith
  have k1 := div_pos p1 hp0
  have k2 := div_pos p2 hp0
  nlinarith [mul_le_mul_of_nonneg_left hkey (mul_pos k1 k2).le]

/-- **C153** If the control points of the second derivative lie between `lo` and `hi` in a coordinate, the chord between
two points of the curve is above the curve, in this coordinate, by between `lo s (1 - s) (b - a)² / 2` and
`hi s (1 - s) (b - a)² / 2`. -/
theorem C153_second {c : Curve K d} {p n : ℕ} {U : List K} {P D : List (Pt K d)} (hc : ValidOn 0 1 c p n U P)
    (hp : 2 ≤ p) (hm : ∀ x, 0 < x → x < 1 → U.count x + 1 ≤ p) (hD : c.points.matrixDerivative 2 = .ok D) {ρ : Fin d}
    {lo hi : K} (hb : ∀ q ∈ D, lo ≤ q ρ ∧ q ρ ≤ hi) {a b s : K} (ha0 : 0 ≤ a) (ha1 : a ≤ 1) (hb0 : 0 ≤ b) (hb1 : b ≤ 1)
    (hs0 : 0 ≤ s) (hs1 : s ≤ 1) :
    ∃ va vb v, c.evaluate a = .ok (.ok va) ∧ c.evaluate b = .ok (.ok vb) ∧
      c.evaluate ((1 - s) * a + s * b) = .ok (.ok v) ∧
      lo * (s * (1 - s) * (b - a) ^ 2 / 2) ≤ (1 - s) * va ρ + s * vb ρ - v ρ ∧
      (1 - s) * va ρ + s * vb ρ - v ρ ≤ hi * (s * (1 - s) * (b - a) ^ 2 / 2) := by
  obtain rfl := hc.eq_canon
  obtain ⟨-, hU, hP⟩ := hc
  have hle := hU.le
  have hb' : ∀ i, i + 2 ≤ n → lo ≤ dpt (fn U) p (fn P) 2 i ρ ∧ dpt (fn U) p (fn P) 2 i ρ ≤ hi := by
    refine (derivative_bounds_iff hP hp hle).mp ?_
    intro E hE
    rw [hD] at hE
    injection hE with hE
    subst hE
    exact hb
  have h1s : 0 ≤ 1 - s := sub_nonneg.mpr hs1
  have hu0 : 0 ≤ (1 - s) * a + s * b := add_nonneg (mul_nonneg h1s ha0) (mul_nonneg hs0 hb0)
  have hu1 : (1 - s) * a + s * b ≤ 1 := by nlinarith
  -- values of the auxiliary curves
  have hval : ∀ (σ m x : K) (w : Pt K 1), 0 ≤ x → x ≤ 1 → (canon p U ((List.range (n + 1)).map fun i =>
      (![σ * fn P i ρ - m / 2 * quadCoef p U i] : Pt K 1))).evaluate x = .ok (.ok w) →
      w 0 = σ * (∑ i ∈ range (n + 1), nb p n U i x • fn P i) ρ - m / 2 * x ^ 2 := by
    intro σ m x w x0 x1 hw
    rw [evaluate_sum hU (by simp) x0 x1] at hw
    injection hw with hw; injection hw with hw
    rw [← hw, Finset.sum_apply, Finset.sum_apply, ← sum_nb_quad hU hp x0 x1, mul_sum, mul_sum, ← sum_sub_distrib]
    refine sum_congr rfl fun i hi => ?_
    rw [fn_map_range _ (mem_range.mp hi)]
    simp only [Pi.smul_apply, smul_eq_mul, Matrix.cons_val_zero]
    ring
  have hmain : ∀ σ m : K, (∀ i, i + 2 ≤ n → m ≤ σ * dpt (fn U) p (fn P) 2 i ρ) →
      m * (s * (1 - s) * (b - a) ^ 2 / 2) ≤ σ * ((1 - s) * (∑ i ∈ range (n + 1), nb p n U i a • fn P i) ρ +
        s * (∑ i ∈ range (n + 1), nb p n U i b • fn P i) ρ -
        (∑ i ∈ range (n + 1), nb p n U i ((1 - s) * a + s * b) • fn P i) ρ) := by
    intro σ m hm'
    obtain ⟨wa, wb, w, e1, e2, e3, hw⟩ := C103_convex (validOn_canon hU (by simp)) (by omega)
      (fun x h0 h1 => by have := hm x h0 h1; omega) 0 (quad_convex hU hp hm hm') ha0 ha1 hb0 hb1 hs0 hs1
    rw [hval σ m _ _ ha0 ha1 e1, hval σ m _ _ hb0 hb1 e2, hval σ m _ _ hu0 hu1 e3] at hw
    nlinarith
  refine ⟨_, _, _, evaluate_sum hU hP ha0 ha1, evaluate_sum hU hP hb0 hb1, evaluate_sum hU hP hu0 hu1, ?_, ?_⟩
  · have := hmain 1 lo (fun i hi => by rw [one_mul]; exact (hb' i hi).1)
    linarith
  · have := hmain (-1) (-hi) (fun i hi => by have := (hb' i hi).2; linarith)
    linarith

/-- **C153** The polyline through the points at the multiples of `1/N` is, in every coordinate, within `b / (2 N)` of the
curve, if `b` bounds the control points of the first derivative. -/
theorem C153_samples_first {c : Curve K d} {p n : ℕ} {U : List K} {P D : List (Pt K d)} (hc : ValidOn 0 1 c p n U P)
    (hp : 1 ≤ p) (hm : ∀ x, 0 < x → x < 1 → U.count x ≤ p) (hD : c.points.matrixDerivative 1 = .ok D) {ρ : Fin d}
    {b : K} (hb : ∀ q ∈ D, |q ρ| ≤ b) {N i : ℕ} (hi : i < N) {u : K} (h0 : i ≤ N * u) (h1 : N * u ≤ i + 1) :
    ∃ va vb v, c.evaluate (i / N) = .ok (.ok va) ∧ c.evaluate ((i + 1) / N) = .ok (.ok vb) ∧
      c.evaluate u = .ok (.ok v) ∧ |v ρ - ((i + 1 - N * u) * va ρ + (N * u - i) * vb ρ)| ≤ b / (2 * N) := by
  have hN : (0 : K) < N := by exact_mod_cast (by omega : 0 < N)
  have hiN : (i : K) + 1 ≤ N := by exact_mod_cast hi
  obtain ⟨va, vb, v, e1, e2, e3, h⟩ := C153_first hc hp hm hD (lo := -b) (hi := b) (ρ := ρ)
    (fun q hq => abs_le.mp (hb q hq)) (a := i / N) (b := (i + 1) / N) (s := N * u - i)
    (by positivity) (div_le_div_of_nonneg_right (by linarith) hN.le) (by rw [div_le_one hN]; exact hiN) (by linarith) (by linarith)
  have eu : (1 - (N * u - i)) * (i / N) + (N * u - i) * ((i + 1) / N) = u := by field_simp; ring
  rw [eu] at e3
  refine ⟨va, vb, v, e1, e2, e3, ?_⟩
  rw [show (i : K) + 1 - N * u = 1 - (N * u - i) by ring]
  refine h.trans ?_
  have e : ((i : K) + 1) / N - i / N = 1 / N := by ring
  rw [e]
  have hb0 : 0 ≤ b := by
    by_contra hneg
    have : 0 ≤ (b - -b) * ((N * u - i) * (1 - (N * u - i)) * (1 / N)) := (abs_nonneg _).trans (e ▸ h)
    obtain ⟨q, hq⟩ : ∃ q, q ∈ D := by
      obtain rfl := hc.eq_canon
      have hle := hc.2.1.le
      by_contra hno
      push Not at hno
      have := (derivative_bounds_iff (U := U) (ρ := ρ) (lo := 1) (hi := 0) hc.2.2 hp hle).mp (by
        intro E hE q hq
        rw [hD] at hE
        injection hE with hE
        subst hE
        exact absurd hq (hno q)) 0 (by omega)
      linarith [this.1, this.2]
    exact hneg ((abs_nonneg _).trans (hb q hq))
  have h4 : (N * u - i) * (1 - (N * u - i)) ≤ 1 / 4 := by nlinarith [sq_nonneg (2 * (N * u - i) - 1)]
  have : (b - -b) * ((N * u - i) * (1 - (N * u - i)) * (1 / N)) ≤ (b - -b) * (1 / 4 * (1 / N)) :=
    mul_le_mul_of_nonneg_left (mul_le_mul_of_nonneg_right h4 (by positivity)) (by linarith)
  refine this.trans (le_of_eq ?_)
  field_simp
  ring

/-- **C153** It is within `b / (8 N²)` of the curve, if `b` bounds the control points of the second derivative. -/
theorem C153_samples_second {c : Curve K d} {p n : ℕ} {U : List K} {P D : List (Pt K d)} (hc : ValidOn 0 1 c p n U P)
    (hp : 2 ≤ p) (hm : ∀ x, 0 < x → x < 1 → U.count x + 1 ≤ p) (hD : c.points.matrixDerivative 2 = .ok D) {ρ : Fin d}
    {b : K} (hb : ∀ q ∈ D, |q ρ| ≤ b) {N i : ℕ} (hi : i < N) {u : K} (h0 : i ≤ N * u) (h1 : N * u ≤ i + 1) :
    ∃ va vb v, c.evaluate (i / N) = .ok (.ok va) ∧ c.evaluate ((i + 1) / N) = .ok (.ok vb) ∧
      c.evaluate u = .ok (.ok v) ∧ |v ρ - ((i + 1 - N * u) * va ρ + (N * u - i) * vb ρ)| ≤ b / (8 * N ^ 2) := by
  have hN : (0 : K) < N := by exact_mod_cast (by omega : 0 < N)
  have hiN : (i : K) + 1 ≤ N := by exact_mod_cast hi
  obtain ⟨va, vb, v, e1, e2, e3, hlo, hhi⟩ := C153_second hc hp hm hD (lo := -b) (hi := b) (ρ := ρ)
    (fun q hq => abs_le.mp (hb q hq)) (a := i / N) (b := (i + 1) / N) (s := N * u - i)
    (by positivity) (by rw [div_le_one hN]; linarith) (by positivity) (by rw [div_le_one hN]; exact hiN) (by linarith) (by linarith)
  have eu : (1 - (N * u - i)) * (i / N) + (N * u - i) * ((i + 1) / N) = u := by field_simp; ring
  rw [eu] at e3
  refine ⟨va, vb, v, e1, e2, e3, ?_⟩
  have e : ((i : K) + 1) / N - i / N = 1 / N := by ring
  rw [e] at hlo hhi
  rw [show (i : K) + 1 - N * u = 1 - (N * u - i) by ring]
  have hT0 : 0 ≤ (N * u - i) * (1 - (N * u - i)) := mul_nonneg (by linarith) (by linarith)
  have h4 : (N * u - i) * (1 - (N * u - i)) ≤ 1 / 4 := by nlinarith [sq_nonneg (2 * (N * u - i) - 1)]
  have hb0 : 0 ≤ b := by
    obtain ⟨q, hq⟩ : ∃ q, q ∈ D := by
      obtain rfl := hc.eq_canon
      have hle := hc.2.1.le
      by_contra hno
      push Not at hno
      have := (derivative_bounds_iff (U := U) (ρ := ρ) (lo := 1) (hi := 0) hc.2.2 hp hle).mp (by
        intro E hE q hq
        rw [hD] at hE
        injection hE with hE
        subst hE
        exact absurd hq (hno q)) 0 (by omega)
      linarith [this.1, this.2]
    exact (abs_nonneg _).trans (hb q hq)
  have h5 : b * ((N * u - i) * (1 - (N * u - i)) * (1 / N) ^ 2 / 2) ≤ b / (8 * N ^ 2) := by
    have : b * ((N * u - i) * (1 - (N * u - i)) * (1 / N) ^ 2 / 2) ≤ b * (1 / 4 * (1 / N) ^ 2 / 2) :=
      mul_le_mul_of_nonneg_left (div_le_div_of_nonneg_right (mul_le_mul_of_nonneg_right h4 (by positivity)) (by norm_num)) hb0
    refine this.trans (le_of_eq ?_)
    field_simp
    ring
  rw [abs_le]
  constructor <;> linarith

/-! ### The bounds are attained -/

/-- the parabola `u²` -/
def paraP : List (Pt ℚ 1) := [![0], ![0], ![1]]

/-- **C153** The parabola attains the bound at the middle of every chord, for every number of samples. -/
theorem C153_sharp : ValidOn 0 1 (canon 2 [0, 0, 0, 1, 1, 1] paraP) 2 2 [0, 0, 0, 1, 1, 1] paraP ∧
    (canon 2 [0, 0, 0, 1, 1, 1] paraP).points.matrixDerivative 2 = .ok [![2]] ∧
    ∀ N i : ℕ, i < N → ∃ va vb v : Pt ℚ 1, (canon 2 [0, 0, 0, 1, 1, 1] paraP).evaluate (i / N) = .ok (.ok va) ∧
      (canon 2 [0, 0, 0, 1, 1, 1] paraP).evaluate ((i + 1) / N) = .ok (.ok vb) ∧
      (canon 2 [0, 0, 0, 1, 1, 1] paraP).evaluate ((2 * i + 1) / (2 * N)) = .ok (.ok v) ∧
      (va 0 + vb 0) / 2 - v 0 = 2 / (8 * N ^ 2) := by
  have hU : ClampedKnots (0 : ℚ) 1 2 2 [0, 0, 0, 1, 1, 1] := by decide +kernel
  refine ⟨validOn_canon hU rfl, by decide +kernel, ?_⟩
  have hev : ∀ x : ℚ, 0 ≤ x → x ≤ 1 → (canon 2 [0, 0, 0, 1, 1, 1] paraP).evaluate x = .ok (.ok ![x ^ 2]) := by
    intro x h0 h1
    rw [evaluate_sum hU rfl h0 h1]
    congr 2
    funext r
    obtain rfl : r = 0 := Subsingleton.elim _ _
    rw [Finset.sum_apply]
    have := sum_nb_quad hU le_rfl h0 h1
    have hq : ∀ i ∈ range (2 + 1), quadCoef 2 ([0, 0, 0, 1, 1, 1] : List ℚ) i = fn paraP i 0 := by
      intro i hi
      rw [mem_range] at hi
      interval_cases i <;> decide +kernel
    simp only [Matrix.cons_val_fin_one]
    rw [← this]
    refine sum_congr rfl fun i hi => ?_
    rw [hq i hi]
    rfl
  intro N i hi
  have hN : (0 : ℚ) < N := by exact_mod_cast (by omega : 0 < N)
  have hiN : (i : ℚ) + 1 ≤ N := by exact_mod_cast hi
  refine ⟨_, _, _, hev _ (by positivity) (by rw [div_le_one hN]; linarith), hev _ (by positivity) (by rw [div_le_one hN]; exact hiN),
    hev _ (by positivity) (by rw [div_le_one (by positivity)]; linarith), ?_⟩
  simp only [Matrix.cons_val_zero]
  field_simp
  ring

/-! ### Concrete cases -/

example : ∀ x : ℚ, 0 < x → x < 1 → ([0, 0, 0, 1 / 2, 1, 1, 1] : List ℚ).count x + 1 ≤ 2 := by
  intro x h0 h1
  have : ∀ y ∈ ([0, 0, 0, 1 / 2, 1, 1, 1] : List ℚ), 0 < y → y < 1 → ([0, 0, 0, 1 / 2, 1, 1, 1] : List ℚ).count y + 1 ≤ 2 := by
    decide +kernel
  by_cases hx : x ∈ ([0, 0, 0, 1 / 2, 1, 1, 1] : List ℚ)
  · exact this x hx h0 h1
  · rw [List.count_eq_zero.mpr hx]; omega

example : (canon 2 [0, 0, 0, 1 / 2, 1, 1, 1] fwP).points.matrixDerivative 2 = .ok [![-4, -40], ![12, 24]] := by
  decide +kernel

end BSpline
