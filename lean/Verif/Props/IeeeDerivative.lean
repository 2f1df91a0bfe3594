import Verif.Props.IeeeWhole

/-!
# Derivatives of inserted curves in double precision: C93, C96
-/

set_option linter.unusedSectionVars false

namespace BSpline

open Finset Ieee

section Field

variable {K : Type} [Field K] [LinearOrder K] [IsStrictOrderedRing K] {d : ℕ}

theorem abs_dpt_le_absDpt {U : ℕ → K} (hm : Monotone U) {p : ℕ} {P : ℕ → Pt K d} {r : Fin d} (k : ℕ) (hk : k ≤ p) :
    ∀ i, |dpt U p P k i r| ≤ absDpt U p P k i r := by
  induction k with
  | zero => intro i; exact le_rfl
  | succ k ih =>
    intro i
    have ih := ih (by omega)
    simp only [dpt, absDpt]
    by_cases h : U (i + p + 1) = U (i + (k + 1))
    · rw [if_pos (by simpa [Cmp.eq] using h), if_pos h, abs_zero]
    · rw [if_neg (by simpa [Cmp.eq] using h), if_neg h, scale_eq_smul, Pi.smul_apply, smul_eq_mul, abs_mul]
      have hle : U (i + (k + 1)) ≤ U (i + p + 1) := hm (by omega)
      rw [abs_of_nonneg (div_nonneg (Nat.cast_nonneg _) (sub_nonneg.mpr hle))]
      refine mul_le_mul_of_nonneg_left ?_ (div_nonneg (Nat.cast_nonneg _) (sub_nonneg.mpr hle))
      rw [Pi.sub_apply]
      exact (abs_sub _ _).trans (add_le_add (ih _) (ih _))

theorem dpt_sub (U : ℕ → K) (p : ℕ) (P Q : ℕ → Pt K d) (k : ℕ) : ∀ i,
    dpt U p (fun i => P i - Q i) k i = dpt U p P k i - dpt U p Q k i := by
  induction k with
  | zero => intro i; rfl
  | succ k ih =>
    intro i
    simp only [dpt, ih, scale_eq_smul]
    split
    · funext r; simp
    · rw [← smul_sub]; congr 1; abel

/-- a derivative is bounded by its control points -/
theorem abs_cv_le {p n k j : ℕ} {U : List K} (hU : ClampedKnots 0 1 p n U) {P : ℕ → Pt K d} (hk : k ≤ p) {u : K}
    (hs : IsSpan (fn U) n u j) {r : Fin d} {B : K} (hB : ∀ i, |dpt (fn U) p P k i r| ≤ B) :
    |cv (fn U) p P k j u r| ≤ B := by
  have hcl := hU.clamp
  have hpj := hs.p_le hcl
  have hc := hcl.shiftN hk
  have hs' := hs.shiftN (k := k) (by omega)
  have hw := win_of_span hc.mono (p := p - k) (j := j - k) (by omega) (hs'.lt hc)
  rw [cv, ← sum_Bs_eq_bl, show j - p + (p - k) = j - k by omega, Finset.sum_apply]
  refine (abs_sum_le_sum_abs _ _).trans ?_
  have h1 : ∑ i ∈ range (p - k + 1), Bs (shiftN k (fn U)) u (delta (j - k)) (p - k) (j - p + i) = 1 := by
    have := sum_span_eq (V := K) (U := shiftN k (fn U)) (u := u) (lo := j - p) (j := j - k) (p := p - k)
      (n := j - k) (by omega) le_rfl (by omega) (fun _ => (1 : K))
    rw [bl_const _ _ (by simpa using hw)] at this
    simp only [smul_eq_mul, mul_one] at this
    rw [sum_Ico_eq_sum_range, show j - k + 1 - (j - p) = p - k + 1 by omega] at this
    exact this
  calc _ ≤ ∑ i ∈ range (p - k + 1), Bs (shiftN k (fn U)) u (delta (j - k)) (p - k) (j - p + i) * B := by
        refine sum_le_sum fun i _ => ?_
        have hn := Bs_nonneg hc.mono hs'.lo hs'.le_hi (p - k) (j - p + i)
        rw [Pi.smul_apply, smul_eq_mul, abs_mul, abs_of_nonneg hn]
        exact mul_le_mul_of_nonneg_left (hB _) hn
    _ = B := by rw [← sum_mul, h1, one_mul]

/-- **C93** Moving the control points by at most `η` in a coordinate moves the derivative of order `k` by at most
`(2p/h)^k η`, where `h` is the smallest distance of different knots. -/
theorem C93_points_derivative {c c' : Curve K d} {p n k : ℕ} {U : List K} {P Q : List (Pt K d)}
    (hc : ValidOn 0 1 c p n U P) (hc' : ValidOn 0 1 c' p n U Q) (hk : k ≤ p) {h : K} (hh : 0 < h)
    (hgap : ∀ x ∈ U, ∀ y ∈ U, x < y → h ≤ y - x) {ρ : Fin d} {η : K}
    (hη : ∀ (i : ℕ) a b, P[i]? = some a → Q[i]? = some b → |a ρ - b ρ| ≤ η) {t : K} (h0 : 0 ≤ t) (h1 : t ≤ 1) :
    ∃ v w, c.evaluateDerivative t k = .ok (.ok v) ∧ c'.evaluateDerivative t k = .ok (.ok w) ∧
      |v ρ - w ρ| ≤ (2 * p / h) ^ k * η := by
  obtain rfl := hc.eq_canon
  obtain rfl := hc'.eq_canon
  obtain ⟨-, hU, hP⟩ := hc
  obtain ⟨-, -, hQ⟩ := hc'
  have hU0 : U ≠ [] := by rintro rfl; have := hU.length; simp at this
  obtain ⟨j, hs⟩ := hU.clamp.exists_span h0 h1
  refine ⟨_, _, evaluateDerivative_eq hU hP hk h0 h1 hs, evaluateDerivative_eq hU hQ hk h0 h1 hs, ?_⟩
  have e : cv (fn U) p (fn P) k j t - cv (fn U) p (fn Q) k j t = cv (fn U) p (fun i => fn P i - fn Q i) k j t := by
    have : dpt (fn U) p (fun i => fn P i - fn Q i) k = fun i => dpt (fn U) p (fn P) k i - dpt (fn U) p (fn Q) k i :=
      funext (dpt_sub _ _ _ _ _)
    rw [cv, cv, cv, this, bl_sub]
  rw [← Pi.sub_apply, e]
  have hb : ∀ i, |(fn P i - fn Q i) ρ| ≤ η := by
    intro i
    by_cases hi : i < n + 1
    · exact hη i _ _ (by rw [fn_lt (by omega)]; exact List.getElem?_eq_getElem _)
        (by rw [fn_lt (by omega)]; exact List.getElem?_eq_getElem _)
    · rw [fn_ge (by omega), fn_ge (l := Q) (by omega), fn_last (by omega), fn_last (l := Q) (by omega)]
      exact hη n _ _ (by rw [fn_lt (by omega), List.getElem?_eq_getElem (by omega)]; simp [hP])
        (by rw [fn_lt (by omega), List.getElem?_eq_getElem (by omega)]; simp [hQ])
  exact abs_cv_le hU hk hs fun i => (abs_dpt_le_absDpt hU.clamp.mono k hk i).trans
    (absDpt_le hU.clamp.mono hh (fun i j hij => hgap _ (fn_mem hU0 i) _ (fn_mem hU0 j) hij) hb k hk i)

/-- The bound is attained: degree 1, a knot distance of 1, control points moved in opposite directions. -/
theorem C93_points_derivative_sharp : ∃ (c c' : Curve ℚ 1) (U : List ℚ) (P Q : List (Pt ℚ 1)),
    ValidOn 0 1 c 1 1 U P ∧ ValidOn 0 1 c' 1 1 U Q ∧ (∀ x ∈ U, ∀ y ∈ U, x < y → 1 ≤ y - x) ∧
    (∀ (i : ℕ) a b, P[i]? = some a → Q[i]? = some b → |a 0 - b 0| ≤ 1) ∧
    ∃ v w, c.evaluateDerivative (1 / 2) 1 = .ok (.ok v) ∧ c'.evaluateDerivative (1 / 2) 1 = .ok (.ok w) ∧
      |v 0 - w 0| = (2 * (1 : ℕ) / 1) ^ 1 * 1 := by
  refine ⟨canon 1 [0, 0, 1, 1] [![1], ![-1]], canon 1 [0, 0, 1, 1] [![0], ![0]], _, _, _,
    validOn_canon (by decide +kernel) rfl, validOn_canon (by decide +kernel) rfl, by decide +kernel, ?_, ![-2], ![0],
    by decide +kernel, by decide +kernel, by simp⟩
  intro i a b ha hb
  match i with
  | 0 => cases ha; cases hb; simp
  | 1 => cases ha; cases hb; simp
  | i + 2 => simp at ha

end Field

variable {d : ℕ}

theorem phi64_le {p : ℕ} (hp : p ≤ 600) : binary64.phi ^ (6 * p + 2) - 1 ≤ (6 * p + 2) / 2 ^ 52 := by
  have heps : binary64.eps = (1 / 2) ^ 53 := rfl
  have hpq : (p : ℚ) ≤ 600 := by exact_mod_cast hp
  have hp0 : (0 : ℚ) ≤ p := Nat.cast_nonneg _
  have hbern := one_add_mul_le_pow (a := -(1 / 2 : ℚ) ^ 53) (by norm_num) (6 * p + 2)
  rw [← sub_eq_add_neg] at hbern
  push_cast at hbern
  have ht : 0 < 1 + (6 * (p : ℚ) + 2) * -(1 / 2) ^ 53 := by norm_num; linarith
  rw [Format.phi, heps, inv_pow, sub_le_iff_le_add]
  refine (inv_anti₀ ht hbern).trans ?_
  rw [inv_le_iff_one_le_mul₀ ht]
  norm_num
  nlinarith

theorem growth_le {t : ℕ} (ht : t ≤ 600) {M : ℚ} (hM0 : 0 ≤ M) : t / 2 ^ 48 * M + t / 2 ^ 1072 ≤ M + 1 := by
  have ht1 : (t : ℚ) ≤ 600 := by exact_mod_cast ht
  have h4 : (t : ℚ) / 2 ^ 48 ≤ 1 := by rw [div_le_one (by norm_num)]; norm_num; linarith
  have h5 : (t : ℚ) / 2 ^ 1072 ≤ 1 := by
    rw [div_le_one (by positivity)]
    exact ht1.trans (by decide +kernel)
  have h6 := mul_le_mul_of_nonneg_right h4 hM0
  generalize (t : ℚ) / 2 ^ 1072 = a at h5 ⊢
  linarith

theorem room_order {B M D : ℚ} (hB : 0 ≤ B) (hD : D ≤ M + 1) (h : B * (M + 1) ≤ 2 ^ 998) :
    4 * (B * (M + D + 1)) ≤ 2 ^ 1023 := by
  have h3 : B * (M + D + 1) ≤ B * (2 * (M + 1)) := mul_le_mul_of_nonneg_left (by linarith) hB
  have h4 : 8 * (2 : ℚ) ^ 998 ≤ 2 ^ 1023 := by decide +kernel
  refine le_trans ?_ h4
  generalize (2 : ℚ) ^ 998 = g at h ⊢
  linarith

theorem growth_nonneg {t : ℕ} {M : ℚ} (hM0 : 0 ≤ M) : 0 ≤ t / 2 ^ 48 * M + t / 2 ^ 1072 := by positivity

theorem order_factor_le {p k : ℕ} {h : ℚ} (hh : 0 < h) : 0 ≤ (2 * p / h) ^ k ∧ (2 * p / h) ^ k ≤ (4 * p / h) ^ k := by
  refine ⟨by positivity, pow_le_pow_left₀ (by positivity) (div_le_div_of_nonneg_right ?_ hh.le) k⟩
  exact mul_le_mul_of_nonneg_right (by norm_num) (Nat.cast_nonneg p)

theorem underflow_le {p : ℕ} {M D : ℚ} (hM : 0 ≤ M) (hD : D ≤ M + 1) :
    (p + 1) * 3 ^ (p + 3) * (M + D + 1) * (1 / 2) ^ 1075 ≤ (p + 1) * 3 ^ (p + 4) * (M + 1) * (1 / 2 : ℚ) ^ 1075 := by
  refine mul_le_mul_of_nonneg_right ?_ (by positivity)
  rw [show (p + 1) * 3 ^ (p + 4) * (M + 1) = (p + 1) * 3 ^ (p + 3) * (3 * (M + 1)) by ring]
  exact mul_le_mul_of_nonneg_left (by linarith) (by positivity)

theorem collect_order {A B φ a b X Y M D e : ℚ} (hA0 : 0 ≤ A) (hAB : A ≤ B) (hphi : φ ≤ a) (hMD : 0 ≤ M + D)
    (hcol : a * (M + D) + X + D ≤ b * M + Y) (hX : X ≤ Y) (he : e ≤ φ * (A * (M + D)) + B * X + A * D) :
    e ≤ b * (A * M) + B * Y := by
  have hA1 := mul_le_mul_of_nonneg_right hphi (mul_nonneg hA0 hMD)
  have f1 := mul_le_mul_of_nonneg_left hcol hA0
  have f2 := mul_le_mul_of_nonneg_left hX (sub_nonneg.mpr hAB)
  linarith

/-- **C96** `f64`: inserting a knot repeatedly and evaluating a derivative of order `k`, both in double precision,
gives at every parameter in `[0, 1]` the derivative of the original curve in exact arithmetic, with an error of at
most `(6p + 2 + 17t) / 2^52 · (2p/h)^k M` for `t` insertions and different knots at least `h` apart, and a term for
underflow. -/
theorem C96_insert_times_derivative {c : Curve (Ieee binary64) d} {e : Curve ℚ d} {p n k : ℕ}
    {U : List (Ieee binary64)} {V : List ℚ} {P : List (Pt (Ieee binary64) d)} {Q : List (Pt ℚ d)} (hp : p ≤ 600)
    (hc : Built c p U P) (he : ValidOn 0 1 e p n V Q) (hU : List.Forall₂ Is U V) (hP : List.Forall₂ PtIs P Q)
    (hk : k ≤ p) {u : Ieee binary64} {x : ℚ} (hu : Is u x) (h0 : 0 < x) (h1 : x < 1) (hr : SimpleBelow V x) {t : ℕ}
    (ht : t ≤ 600) (htc : V.count x + t ≤ p + 1) {M : ℚ} (hM0 : 0 ≤ M) (hM : ∀ q ∈ Q, ∀ r, |q r| ≤ M)
    {h : ℚ} (hh : (1 / 2) ^ 1000 ≤ h) (hgap : ∀ a ∈ x :: V, ∀ b ∈ x :: V, a < b → h ≤ b - a)
    (hmax : M ≤ 2 ^ 998) (hmaxk : (4 * p / h) ^ k * (M + 1) ≤ 2 ^ 998) :
    ∃ c', c.insertTimes u t = .ok (c', .ok ()) ∧ ∀ (s : Ieee binary64) (y : ℚ), Is s y → 0 ≤ y → y ≤ 1 →
      ∃ v w, c'.evaluateDerivative s k = .ok (.ok v) ∧ e.evaluateDerivative y k = .ok (.ok w) ∧
        ∀ r, ∃ z, Is (v r) z ∧ |z - w r| ≤ (6 * p + 2 + 17 * t) / 2 ^ 52 * ((2 * p / h) ^ k * M) +
          (p + 1) * 3 ^ (p + 4) * ((4 * p / h) ^ k * (M + 1)) * (1 / 2) ^ 1075 := by
  have hmax' : M ≤ 2 ^ 1000 := hmax.trans (by decide +kernel)
  have hb64 : (2 : ℚ) ^ 1023 ≤ binary64.max := by decide +kernel
  have hhpos : 0 < h := lt_of_lt_of_le (by positivity) hh
  obtain ⟨c', e', hi, hi', happ⟩ := C89_insert_times (room_binary64 hp) hc he hU hP hu h0 h1 hr htc hM0 hM
    (room64 ht hM0 hmax')
  obtain ⟨e'', V', Q', hi'', he', hperm, -, hsame⟩ := C18_insert_times_partial he h0 h1 hr htc
  rw [hi'] at hi''
  injection hi'' with hi''; injection hi'' with hi'' _
  subst hi''
  have hpt : e'.points.matrix = .ok Q' := by rw [he'.eq_canon, canon_points, canonPts_matrix]
  have hMQ : ∀ q ∈ Q', ∀ r, |q r| ≤ M := by
    obtain rfl := he.eq_canon
    have hQ0 : Q ≠ [] := by rintro rfl; have := he.2.2; simp at this
    obtain ⟨_, V2, _, _, Q2, -, i2, -, -, -, -, i7, -, i9, -⟩ := insertTimes_ieee (room_binary64 hp) hu h0 h1 hM0 t hU
      hP he.2.1 he.2.2 he.2.2 hr htc (fun i r => hM _ (fn_mem hQ0 i) r) le_rfl (fun i r => by simp)
      (by rw [add_zero]; exact room64 ht hM0 hmax')
    rw [hi'] at i2
    injection i2 with i2; injection i2 with i2 _
    rw [i2, canon_points, canonPts_matrix] at hpt
    cases hpt
    intro q hq r
    obtain ⟨i, hi, rfl⟩ := List.mem_iff_getElem.mp hq
    rw [← fn_lt hi]
    exact i9 i r
  obtain ⟨D, hD⟩ : ∃ D : ℚ, D = t / 2 ^ 48 * M + t / 2 ^ 1072 := ⟨_, rfl⟩
  have hDroom := grow_room ht hM0 hmax
  have happ := happ.mono le_rfl (grow64 ht hM0)
  rw [← hD] at hDroom happ
  refine ⟨c', hi, fun s y hs hy0 hy1 => ?_⟩
  obtain ⟨U1, V1, X1, P1, Y1, Q1, hc1, he1, hU1, hP1, -, -, -, hcl1, -, hD1⟩ := happ
  have e1 := he1.eq_canon
  have e2 := he'.eq_canon
  have hQQ : Q1 = Q' := by
    have := hpt
    rw [e1, canon_points, canonPts_matrix] at this
    injection this
  have hXX : X1 = V' := by
    have : e'.knots.vector = .ok V' := by rw [e2, canon_knots, canonKnots_vector]
    rw [e1, canon_knots, canonKnots_vector] at this
    injection this
  subst hQQ hXX
  obtain rfl : V1 = X1 := by
    refine List.ext_getElem hcl1.length_eq fun i h1 h2 => ?_
    have := (List.forall₂_iff_get.mp hcl1).2 i h1 h2
    exact sub_eq_zero.mp (abs_nonpos_iff.mp this)
  have hmem : ∀ a ∈ V1, a ∈ x :: V := by
    intro a ha
    rcases List.mem_append.mp (hperm.mem_iff.mp ha) with h | h
    · rw [List.eq_of_mem_replicate h]; exact List.mem_cons_self
    · exact List.mem_cons_of_mem _ h
  have hgap1 : ∀ a ∈ V1, ∀ b ∈ V1, a < b → h ≤ b - a := fun a ha b hb => hgap a (hmem a ha) b (hmem b hb)
  have hlY : Y1.length = n + t + 1 := by rw [hD1.length_eq, he1.2.2]
  have hf := validOn_canon he1.2.1 hlY
  obtain ⟨v, w', hv, hw', hb⟩ := C85_derivative (room_binary64 hp) hc1 hf hU1 hP1 hk hs hy0 hy1 hhpos hgap1 (by
    refine le_trans ?_ hb64
    rw [div_le_iff₀ hhpos]
    refine le_trans ?_ (mul_le_mul_of_nonneg_left hh (by positivity))
    decide +kernel)
  clear hh hmax hmax' hDroom
  obtain ⟨r1, w, hr1, hw, hb'⟩ : ∃ r1 w, (canon p V1 Y1).evaluateDerivative y k = .ok (.ok r1) ∧
      e'.evaluateDerivative y k = .ok (.ok w) ∧ ∀ r, |r1 r - w r| ≤ (2 * p / h) ^ k * D := by
    obtain ⟨j, hj⟩ := he1.2.1.clamp.exists_span hy0 hy1
    refine ⟨_, _, evaluateDerivative_eq he1.2.1 hlY hk hy0 hy1 hj,
      e1 ▸ evaluateDerivative_eq he1.2.1 he1.2.2 hk hy0 hy1 hj, fun r => ?_⟩
    obtain ⟨a, b, a1, a2, a3⟩ := C93_points_derivative hf he1 hk hhpos hgap1 (ρ := r) (η := D)
      (fun i a b ha hb => close_get hD1 ha hb r) hy0 hy1
    rw [evaluateDerivative_eq he1.2.1 hlY hk hy0 hy1 hj] at a1
    rw [e1, evaluateDerivative_eq he1.2.1 he1.2.2 hk hy0 hy1 hj] at a2
    rw [← Except.ok.inj (Except.ok.inj a1), ← Except.ok.inj (Except.ok.inj a2)] at a3
    exact a3
  rw [hr1] at hw'
  injection hw' with hw'; injection hw' with hw'
  subst hw'
  refine ⟨v, w, hv, (hsame y k).symm.trans hw, fun r => ?_⟩
  have hA : (2 * (p / h)) ^ k = (2 * p / h) ^ k := by rw [mul_div_assoc]
  have hB : (4 * (p / h)) ^ k = (4 * p / h) ^ k := by rw [mul_div_assoc]
  obtain ⟨hA0, hAB⟩ := order_factor_le (p := p) (k := k) hhpos
  have hD0 : 0 ≤ D := hD ▸ growth_nonneg hM0
  have hDM : D ≤ M + 1 := hD ▸ growth_le ht hM0
  obtain ⟨z, hz, hzb⟩ := hb r (M + D) (bound_of_close hD1 fun q hq => hMQ q hq r) (by
    rw [hB]
    refine le_trans ?_ hb64
    exact room_order (hA0.trans hAB) hDM hmaxk)
  refine ⟨z, hz, ?_⟩
  have hphi : binary64.phi ^ (6 * p - k + 2) - 1 ≤ (6 * p + 2) / 2 ^ 52 :=
    (sub_le_sub_right (pow_le_pow_right₀ binary64.one_le_phi (by omega)) 1).trans (phi64_le hp)
  have heta : binary64.eta = (1 / 2) ^ 1075 := by
    change (1 / 2 * 2 ^ ((-1022 : ℤ) - 52) : ℚ) = _
    decide +kernel
  rw [hA, hB, heta] at hzb
  have hcol := collect64 hp (show t ≤ p + 1 by omega) hM0 hD
  have htri : |z - w r| ≤ |z - r1 r| + |r1 r - w r| := abs_sub_le _ _ _
  have hw1 := hb' r
  have hMD : 0 ≤ M + D := by linarith
  have hX := underflow_le (p := p) hM0 hDM
  have e3 : (p + 1) * 3 ^ (p + 3) * ((4 * p / h) ^ k * (M + D + 1)) * (1 / 2 : ℚ) ^ 1075 =
    (4 * p / h) ^ k * ((p + 1) * 3 ^ (p + 3) * (M + D + 1) * (1 / 2) ^ 1075) := by
    generalize (4 * p / h) ^ k = B
    generalize (1 / 2 : ℚ) ^ 1075 = z
    ring
  have e4 : (p + 1) * 3 ^ (p + 4) * ((4 * p / h) ^ k * (M + 1)) * (1 / 2 : ℚ) ^ 1075 =
    (4 * p / h) ^ k * ((p + 1) * 3 ^ (p + 4) * (M + 1) * (1 / 2) ^ 1075) := by
    generalize (4 * p / h) ^ k = B
    generalize (1 / 2 : ℚ) ^ 1075 = z
    ring
  rw [e3] at hzb
  rw [e4]
  exact collect_order hA0 hAB hphi hMD hcol hX (htri.trans (add_le_add hzb hw1))

/-! ### A concrete case: the curve of the example in Props/Ieee.lean, its slope after inserting `1/2` -/

example : SimpleBelow ieV (1 / 2) ∧ ieV.count (1 / 2) + 1 ≤ 2 + 1 ∧ (∀ q ∈ ieQ, ∀ r, |q r| ≤ 1) ∧
    (∀ a ∈ (1 / 2) :: ieV, ∀ b ∈ (1 / 2) :: ieV, a < b → 1 / 7 ≤ b - a) ∧ (1 / 2 : ℚ) ^ 1000 ≤ 1 / 7 ∧
    (4 * ((2 : ℕ) : ℚ) / (1 / 7)) ^ 1 * (1 + 1) ≤ 2 ^ 998 := by
  refine ⟨?_, by decide +kernel, by decide +kernel, by decide +kernel, by decide +kernel, by decide +kernel⟩
  intro x h0 h1
  by_contra hcon
  have hm : x ∈ ieV := List.count_pos_iff.mp (by omega)
  have : ∀ y ∈ ieV, 0 < y → y < 1 / 2 → ieV.count y ≤ 1 := by decide +kernel
  have := this x hm h0 h1
  omega

end BSpline
