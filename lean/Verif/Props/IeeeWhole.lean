import Verif.Props.Slope
import Verif.Props.Laws
import Verif.Props.IeeeReverse

/-!
# Values of inserted and split curves in double precision, against the original curve: C96
-/

set_option linter.unusedSectionVars false

namespace BSpline

open Finset Ieee

variable {d : ℕ}

theorem bound_of_close {Y Q : List (Pt ℚ d)} {D M : ℚ} {ρ : Fin d}
    (h : List.Forall₂ (fun (y q : Pt ℚ d) => ∀ r, |y r - q r| ≤ D) Y Q) (hM : ∀ q ∈ Q, |q ρ| ≤ M) :
    ∀ y ∈ Y, |y ρ| ≤ M + D := by
  intro y hy
  obtain ⟨i, hi, rfl⟩ := List.mem_iff_getElem.mp hy
  have h2 := (List.forall₂_iff_get.mp h).2 i hi (by rw [← h.length_eq]; exact hi) ρ
  have h3 := hM (Q.get ⟨i, by rw [← h.length_eq]; exact hi⟩) (List.get_mem _ _)
  have h4 := abs_sub_abs_le_abs_sub (Y[i] ρ) (Q.get ⟨i, by rw [← h.length_eq]; exact hi⟩ ρ)
  have h5 : |Y[i] ρ - Q.get ⟨i, by rw [← h.length_eq]; exact hi⟩ ρ| ≤ D := h2
  linarith

theorem close_get {α β : Type} {R : α → β → Prop} {A : List α} {B : List β} (h : List.Forall₂ R A B) {i : ℕ} {a : α}
    {b : β} (ha : A[i]? = some a) (hb : B[i]? = some b) : R a b := by
  obtain ⟨h1, rfl⟩ := List.getElem?_eq_some_iff.mp ha
  obtain ⟨h2, rfl⟩ := List.getElem?_eq_some_iff.mp hb
  exact (List.forall₂_iff_get.mp h).2 i h1 h2

/-- evaluating an approximation of a curve -/
theorem approx_evaluate64 {c : Curve (Ieee binary64) d} {e : Curve ℚ d} {p n : ℕ} {ε D : ℚ} {X : List ℚ}
    {Q : List (Pt ℚ d)} (hp : p ≤ 600) (h : Approx 0 1 ε D p n c e) (hX : e.knots.vector = .ok X)
    (hQ : e.points.matrix = .ok Q)
    (hgap : ∀ s ∈ X, ∀ t ∈ X, s < t → (1 / 2) ^ 1000 + 2 * ε ≤ t - s)
    {u : Ieee binary64} {y : ℚ} (hu : Is u y) (hy0 : 0 ≤ y) (hy1 : y ≤ 1) :
    ∃ v w, c.evaluate u = .ok (.ok v) ∧ e.evaluate y = .ok (.ok w) ∧
      ∀ (ρ : Fin d) (M l : ℚ), (∀ q ∈ Q, |q ρ| ≤ M) → M + D ≤ 2 ^ 1000 → 0 ≤ l →
      (ε = 0 ∨ SlopesIn p X Q ρ (-l) l ∧ ∀ z, 0 < z → z < 1 → X.count z ≤ p) →
      ∃ z, Is (v ρ) z ∧ |z - w ρ| ≤ (6 * p + 2) / 2 ^ 52 * (M + D) +
          (p + 1) * 3 ^ (p + 3) * (M + D + 1) * (1 / 2) ^ 1075 + (D + p * (l * (3 * ε))) := by
  obtain ⟨U, V, X', P, Y, Q', hc, he, hU, hP, hsort, hleft, hright, hclose, heq, hD⟩ := h
  obtain ⟨-, hXc, hQl⟩ := id he
  have e1 := he.eq_canon
  rw [e1, canon_knots, canonKnots_vector] at hX
  rw [e1, canon_points, canonPts_matrix] at hQ
  cases hX; cases hQ
  have hlX := hXc.length
  have hlV : V.length = n + p + 2 := by rw [hclose.length_eq, hlX]
  have hlY : Y.length = n + 1 := by rw [hD.length_eq, hQl]
  have hVc : ClampedKnots 0 1 p n V := by
    refine ⟨hlV, hsort, ?_, ?_, ?_, hXc.lt, hXc.le⟩
    · rw [hleft]; exact fun x hx => List.eq_of_mem_replicate hx
    · rw [hright]; exact fun x hx => List.eq_of_mem_replicate hx
    · intro z hz
      obtain ⟨i, hi, rfl⟩ := List.mem_iff_getElem.mp hz
      simp only [List.length_take, List.length_drop] at hi
      have hin := hXc.inner (X[p + 1 + i]'(by omega)) (by
        rw [List.mem_iff_getElem]
        exact ⟨i, by simp; omega, by simp⟩)
      have hc := (List.forall₂_iff_get.mp hclose).2 (p + 1 + i) (by omega) (by omega)
      rw [List.getElem_take, List.getElem_drop]
      have g0 := hgap 0 hXc.a_mem _ (List.getElem_mem (by omega)) hin.1
      have g1 := hgap _ (List.getElem_mem (by omega)) 1 hXc.b_mem hin.2
      have hpos : (0 : ℚ) < (1 / 2) ^ 1000 := by positivity
      simp only [List.get_eq_getElem] at hc
      rw [abs_le] at hc
      generalize ((1 : ℚ) / 2) ^ 1000 = g at *
      constructor
      · linarith [hc.1]
      · linarith [hc.2]
  have hf := validOn_canon hVc hlY
  have hmono : ∀ i j, i ≤ j → fn V i ≤ fn V j := fun i j h => hVc.clamp.mono h
  -- knots that differ in the rounded vector differ in the exact one
  have hsep : ∀ i j, i < n + p + 2 → j < n + p + 2 → fn V i < fn V j → fn X i < fn X j := by
    intro i j hi hj hlt
    have hij : i < j := by
      by_contra hcon
      exact absurd (hmono j i (by omega)) (not_le.mpr hlt)
    refine lt_of_le_of_ne (hXc.clamp.mono hij.le) fun hne => ?_
    have := heq i j (by
      rw [List.getElem?_eq_getElem (by omega), List.getElem?_eq_getElem (by omega), ← fn_lt (by omega),
        ← fn_lt (by omega), hne])
    rw [List.getElem?_eq_getElem (by omega), List.getElem?_eq_getElem (by omega), ← fn_lt (by omega),
      ← fn_lt (by omega)] at this
    injection this with this
    exact absurd this hlt.ne
  have hcl : ∀ i, i < n + p + 2 → |fn V i - fn X i| ≤ ε := by
    intro i hi
    rw [fn_lt (by omega), fn_lt (by omega)]
    exact (List.forall₂_iff_get.mp hclose).2 i (by omega) (by omega)
  obtain ⟨v, w', hv, hw', hb⟩ := C85_f64 hp hc hf hU hP hu hy0 hy1 (by
    intro s hs t ht hlt
    obtain ⟨i, hi, rfl⟩ := List.mem_iff_getElem.mp hs
    obtain ⟨j, hj, rfl⟩ := List.mem_iff_getElem.mp ht
    rw [← fn_lt hi, ← fn_lt hj] at hlt ⊢
    have h1 := hsep i j (by omega) (by omega) hlt
    have h2 := hgap (fn X i) (by rw [fn_lt (by omega)]; exact List.getElem_mem _) (fn X j)
      (by rw [fn_lt (by omega)]; exact List.getElem_mem _) h1
    have h3 := abs_le.mp (hcl i (by omega))
    have h4 := abs_le.mp (hcl j (by omega))
    generalize ((1 : ℚ) / 2) ^ 1000 = g at *
    linarith [h3.1, h3.2, h4.1, h4.2])
  obtain ⟨w, hw⟩ : ∃ w, e.evaluate y = .ok (.ok w) := by
    obtain ⟨j, hs⟩ := hXc.clamp.exists_span hy0 hy1
    rw [e1]
    exact ⟨_, evaluateDerivative_eq hXc hQl (Nat.zero_le p) hy0 hy1 hs⟩
  refine ⟨v, w, hv, hw, fun ρ M l hM hMD hl hcase => ?_⟩
  obtain ⟨z, hz, hzb⟩ := hb ρ (M + D) (bound_of_close hD hM) hMD
  refine ⟨z, hz, ?_⟩
  have key : |w' ρ - w ρ| ≤ D + p * (l * (3 * ε)) := by
    rcases hcase with h0 | ⟨hs, hm⟩
    · have hVX : V = X := by
        apply List.ext_getElem (by omega)
        intro i h1 h2
        have := hcl i (by omega)
        rw [h0, fn_lt h1, fn_lt h2] at this
        exact sub_eq_zero.mp (abs_nonpos_iff.mp this)
      subst hVX
      obtain ⟨a, b, a1, a2, a3⟩ := C93_points hf he (ρ := ρ) (η := D) (fun i a b ha hb => close_get hD ha hb ρ)
        hy0 hy1
      rw [hw'] at a1; rw [hw] at a2
      cases a1; cases a2
      rw [h0]; simpa using a3
    · obtain ⟨a, b, a1, a2, a3⟩ := C93_stable hf he hm (by
          intro j x x' y y' g1 g2 g3 g4 hlt
          obtain ⟨k1, rfl⟩ := List.getElem?_eq_some_iff.mp g1
          obtain ⟨k2, rfl⟩ := List.getElem?_eq_some_iff.mp g2
          obtain ⟨k3, rfl⟩ := List.getElem?_eq_some_iff.mp g3
          obtain ⟨k4, rfl⟩ := List.getElem?_eq_some_iff.mp g4
          rw [← fn_lt k1, ← fn_lt k2] at hlt
          rw [← fn_lt k3, ← fn_lt k4]
          exact hsep _ _ (by omega) (by omega) hlt) (ρ := ρ) (l := l) (ε := ε) (η := D) hl
        (fun i a b ha hb => close_get hclose ha hb) (fun i a b ha hb => close_get hD ha hb ρ)
        (by
          intro i a b x y g1 g2 g3 g4
          have := hs i a b x y g1 g2 g3 g4
          rw [abs_le]
          exact ⟨by linarith [this.1], this.2⟩) hy0 hy1 hy0 hy1
      rw [hw'] at a1; rw [hw] at a2
      cases a1; cases a2
      simpa using a3
  calc |z - w ρ| = |(z - w' ρ) + (w' ρ - w ρ)| := by ring_nf
    _ ≤ _ := abs_add_le _ _
    _ ≤ _ := add_le_add hzb key

/-- collecting the errors -/
theorem collect64 {p t : ℕ} (hp : p ≤ 600) (ht : t ≤ p + 1) {M D : ℚ} (hM : 0 ≤ M)
    (hD : D = t / 2 ^ 48 * M + t / 2 ^ 1072) :
    (6 * p + 2) / 2 ^ 52 * (M + D) + (p + 1) * 3 ^ (p + 3) * (M + D + 1) * (1 / 2) ^ 1075 + D ≤
      (6 * p + 2 + 17 * t) / 2 ^ 52 * M + (p + 1) * 3 ^ (p + 4) * (M + 1) * (1 / 2) ^ 1075 := by
  have hp1 : (p : ℚ) ≤ 600 := by exact_mod_cast hp
  have ht1 : (t : ℚ) ≤ p + 1 := by exact_mod_cast ht
  have ht0 : (0 : ℚ) ≤ t := Nat.cast_nonneg t
  have hp0 : (0 : ℚ) ≤ p := Nat.cast_nonneg p
  have hz : (t : ℚ) / 2 ^ 1072 = 8 * t * (1 / 2) ^ 1075 := by
    rw [show (1075 : ℕ) = 1072 + 3 from rfl, pow_add, one_div_pow (2 : ℚ) 1072]
    generalize (2 : ℚ) ^ 1072 = g
    ring
  have hzs : ((1 : ℚ) / 2) ^ 1075 ≤ (1 / 2) ^ 60 := by decide +kernel
  have hz0 : (0 : ℚ) ≤ (1 / 2) ^ 1075 := by positivity
  rw [hz] at hD
  clear hz
  generalize ((1 : ℚ) / 2) ^ 1075 = z at *
  have h3 : (27 : ℚ) ≤ 3 ^ (p + 3) := by
    have : (3 : ℚ) ^ 3 ≤ 3 ^ (p + 3) := pow_le_pow_right₀ (by norm_num) (by omega)
    calc (27 : ℚ) = 3 ^ 3 := by norm_num
      _ ≤ _ := this
  rw [show p + 4 = (p + 3) + 1 from rfl, pow_succ (3 : ℚ) (p + 3)]
  generalize (3 : ℚ) ^ (p + 3) = A at *
  set B : ℚ := (p + 1) * A with hB
  have hB0 : 0 ≤ B := mul_nonneg (by linarith) (by linarith)
  have hBt : 27 * t ≤ B := by
    calc 27 * (t : ℚ) ≤ 27 * (p + 1) := by linarith
      _ = (p + 1) * 27 := by ring
      _ ≤ _ := mul_le_mul_of_nonneg_left h3 (by linarith)
  have hDM : D ≤ M + 1 := by
    rw [hD]
    have a1 : (t : ℚ) / 2 ^ 48 ≤ 1 := by rw [div_le_one (by norm_num)]; norm_num; linarith
    have a2 := mul_le_mul_of_nonneg_right a1 hM
    have a3 : 8 * t * z ≤ 8 * 601 * (1 / 2) ^ 60 :=
      mul_le_mul (by linarith) hzs hz0 (by norm_num)
    have a4 : (8 * 601 * (1 / 2) ^ 60 : ℚ) ≤ 1 := by norm_num
    linarith
  have hD0 : 0 ≤ D := by rw [hD]; positivity
  have b1 : (6 * p + 2) / 2 ^ 52 * D ≤ D / 16 := by
    rw [div_eq_mul_inv D, mul_comm D]
    refine mul_le_mul_of_nonneg_right ?_ hD0
    rw [div_le_iff₀ (by norm_num)]
    norm_num
    linarith
  have b2 : B * (M + D + 1) * z ≤ B * (2 * (M + 1)) * z :=
    mul_le_mul_of_nonneg_right (mul_le_mul_of_nonneg_left (by linarith) hB0) hz0
  have b3 : 17 / 16 * (8 * t * z) ≤ B * (M + 1) * z := by
    have c1 : 17 / 16 * (8 * (t : ℚ)) ≤ B * (M + 1) := by
      have : B * 1 ≤ B * (M + 1) := mul_le_mul_of_nonneg_left (by linarith) hB0
      linarith
    have := mul_le_mul_of_nonneg_right c1 hz0
    linarith
  have b4 : 17 / 16 * D = 17 * t / 2 ^ 52 * M + 17 / 16 * (8 * t * z) := by
    rw [hD]; ring
  have b5 : (p + 1) * A * (M + D + 1) * z = B * (M + D + 1) * z := rfl
  have b6 : (p + 1) * (A * 3) * (M + 1) * z = B * (2 * (M + 1)) * z + B * (M + 1) * z := by rw [hB]; ring
  rw [b5, b6]
  have b7 : (6 * p + 2 + 17 * t) / 2 ^ 52 * M = (6 * p + 2) / 2 ^ 52 * M + 17 * t / 2 ^ 52 * M := by ring
  rw [b7, mul_add]
  linarith

theorem grow_room {t : ℕ} (ht : t ≤ 600) {M : ℚ} (hM : 0 ≤ M) (hmax : M ≤ 2 ^ 998) :
    M + (t / 2 ^ 48 * M + t / 2 ^ 1072) ≤ 2 ^ 1000 := by
  have ht1 : (t : ℚ) ≤ 600 := by exact_mod_cast ht
  have h4 : (t : ℚ) / 2 ^ 48 ≤ 1 := by rw [div_le_one (by norm_num)]; norm_num; linarith
  have h5 : (t : ℚ) / 2 ^ 1072 ≤ 1 := by
    rw [div_le_one (by positivity)]
    exact ht1.trans (by decide +kernel)
  have h6 := mul_le_mul_of_nonneg_right h4 hM
  have h7 : 2 * (2 : ℚ) ^ 998 + 1 ≤ 2 ^ 1000 := by decide +kernel
  refine le_trans ?_ h7
  generalize (2 : ℚ) ^ 998 = b at hmax ⊢
  generalize (t : ℚ) / 2 ^ 1072 = a at h5 ⊢
  linarith

/-- **C96** `f64`: inserting a knot repeatedly and evaluating, both in double precision, gives at every parameter
in `[0, 1]` the value of the original curve in exact arithmetic, with an error of at most
`(6p + 2 + 17t) / 2^52 · M` for `t` insertions, and a term for underflow. -/
theorem C96_insert_times {c : Curve (Ieee binary64) d} {e : Curve ℚ d} {p n : ℕ} {U : List (Ieee binary64)} {V : List ℚ}
    {P : List (Pt (Ieee binary64) d)} {Q : List (Pt ℚ d)} (hp : p ≤ 600) (hc : Built c p U P)
    (he : ValidOn 0 1 e p n V Q) (hU : List.Forall₂ Is U V) (hP : List.Forall₂ PtIs P Q)
    {u : Ieee binary64} {x : ℚ} (hu : Is u x) (h0 : 0 < x) (h1 : x < 1) (hr : SimpleBelow V x) {t : ℕ} (ht : t ≤ 600)
    (htc : V.count x + t ≤ p + 1) {M : ℚ} (hM0 : 0 ≤ M) (hM : ∀ q ∈ Q, ∀ r, |q r| ≤ M) (hmax : M ≤ 2 ^ 998)
    (hgap : ∀ a ∈ x :: V, ∀ b ∈ x :: V, a < b → (1 / 2) ^ 1000 ≤ b - a) :
    ∃ c', c.insertTimes u t = .ok (c', .ok ()) ∧ ∀ (s : Ieee binary64) (y : ℚ), Is s y → 0 ≤ y → y ≤ 1 →
      ∃ v w, c'.evaluate s = .ok (.ok v) ∧ e.evaluate y = .ok (.ok w) ∧ ∀ r, ∃ z, Is (v r) z ∧
        |z - w r| ≤ (6 * p + 2 + 17 * t) / 2 ^ 52 * M + (p + 1) * 3 ^ (p + 4) * (M + 1) * (1 / 2) ^ 1075 := by
  have hmax' : M ≤ 2 ^ 1000 := hmax.trans (by decide +kernel)
  obtain ⟨c', e', hi, hi', happ⟩ := C89_insert_times (room_binary64 hp) hc he hU hP hu h0 h1 hr htc hM0 hM
    (room64 ht hM0 hmax')
  obtain ⟨e'', V', Q', hi'', he', hperm, -, hsame⟩ := C18_insert_times_partial he h0 h1 hr htc
  rw [hi'] at hi''
  injection hi'' with hi''; injection hi'' with hi'' _
  subst hi''
  have hkn : e'.knots.vector = .ok V' := by rw [he'.eq_canon, canon_knots, canonKnots_vector]
  have hpt : e'.points.matrix = .ok Q' := by rw [he'.eq_canon, canon_points, canonPts_matrix]
  have hMQ : ∀ q ∈ Q', ∀ r, |q r| ≤ M := by
    obtain rfl := he.eq_canon
    have hQ0 : Q ≠ [] := by rintro rfl; have := he.2.2; simp at this
    obtain ⟨_, V2, _, _, Q2, -, i2, -, -, -, -, i7, -, i9, -⟩ := insertTimes_ieee (room_binary64 hp) hu h0 h1 hM0 t hU
      hP he.2.1 he.2.2 he.2.2 hr htc (fun i r => hM _ (fn_mem hQ0 i) r) le_rfl (fun i r => by simp)
      (by rw [add_zero]; exact room64 ht hM0 hmax')
    rw [hi'] at i2
    injection i2 with i2; injection i2 with i2 _
    rw [i2, canon_points, canonPts_matrix] at hpt
    cases hpt
    intro q hq r
    obtain ⟨i, hi, rfl⟩ := List.mem_iff_getElem.mp hq
    rw [← fn_lt hi]
    exact i9 i r
  refine ⟨c', hi, fun s y hs hy0 hy1 => ?_⟩
  obtain ⟨v, w, hv, hw, hb⟩ := approx_evaluate64 hp (happ.mono le_rfl (grow64 ht hM0)) hkn hpt (by
    rw [mul_zero, add_zero]
    have hmem : ∀ a ∈ V', a ∈ x :: V := by
      intro a ha
      rcases List.mem_append.mp (hperm.mem_iff.mp ha) with h | h
      · rw [List.eq_of_mem_replicate h]; exact List.mem_cons_self
      · exact List.mem_cons_of_mem _ h
    exact fun a ha b hb => hgap a (hmem a ha) b (hmem b hb)) hs hy0 hy1
  have hsv := hsame y 0
  have hw2 : e.evaluate y = .ok (.ok w) := hsv.symm.trans hw
  refine ⟨v, w, hv, hw2, fun r => ?_⟩
  obtain ⟨z, hz, hzb⟩ := hb r M 0 (fun q hq => hMQ q hq r) (grow_room ht hM0 hmax) le_rfl (Or.inl rfl)
  refine ⟨z, hz, hzb.trans (le_trans (le_of_eq ?_) (collect64 hp (by omega) hM0 rfl))⟩
  simp

/-- a splitting keeps bounds of coordinates -/
theorem split_bound {p n : ℕ} {V : List ℚ} {Q : List (Pt ℚ d)} (hV : ClampedKnots 0 1 p n V) (hQ : Q.length = n + 1)
    {x : ℚ} (h0 : 0 < x) (h1 : x < 1) (hr : SimpleBelow V x) (hm : V.count x ≤ p) {M : ℚ}
    (hM : ∀ q ∈ Q, ∀ r, |q r| ≤ M) {l r : Curve ℚ d} (hs : split (canon p V Q) x = .ok (.ok (l, r)))
    {A B : List (Pt ℚ d)} (hA : l.points.matrix = .ok A) (hB : r.points.matrix = .ok B) :
    (∀ q ∈ A, ∀ r, |q r| ≤ M) ∧ ∀ q ∈ B, ∀ r, |q r| ≤ M := by
  obtain ⟨V', Q', n', q, hins, -, hQ', -, -, -, hsplit⟩ := split_valid_inserted hV hQ h0 h1 hm hr
  rw [split, hsplit] at hs
  injection hs with hs; injection hs with hs; injection hs with e1 e2
  subst e1 e2
  rw [canon_points, canonPts_matrix] at hA hB
  cases hA; cases hB
  have key : ∀ q ∈ Q', ∀ r, |q r| ≤ M := by
    clear hsplit
    generalize p - V.count x = t at hins
    have hall : ∀ (t : ℕ) {n : ℕ} {V : List ℚ} {Q : List (Pt ℚ d)} {V' Q'}, ClampedKnots 0 1 p n V →
        Q.length = n + 1 → SimpleBelow V x → (∀ q ∈ Q, ∀ r, |q r| ≤ M) →
        (canon p V Q).insertTimes x t = .ok (canon p V' Q', .ok ()) → ∀ q ∈ Q', ∀ r, |q r| ≤ M := by
      intro t
      induction t with
      | zero =>
        intro n V Q V' Q' _ _ _ hM h
        rw [Curve.insertTimes] at h
        injection h with h; injection h with h _
        have := congrArg (fun c => c.points.matrix) h
        simp only [canon_points, canonPts_matrix] at this
        cases this
        exact hM
      | succ t ih =>
        intro n V Q V' Q' hV hQ hr hM h
        have hle := hV.le
        have hg := lleq_insert hV h0 h1 hr
        have hb := lleq_bounds (fn V) x (n - p) p
        have hins := insert_ok (d := d) hV.length hQ hV.le x
        have hcmp : (Cmp.le x 0 || Cmp.le 1 x) = false := by simp [Cmp.le, h0, h1]
        rw [multF_eq_count hV h0 h1, if_neg (by simp [hcmp])] at hins
        rw [Curve.insertTimes] at h
        by_cases hm : p < V.count x
        · rw [if_pos hm] at hins
          rw [hins, ok_bind] at h
          injection h with h; injection h with _ h
          cases h
        rw [if_neg hm] at hins
        rw [hins, ok_bind] at h
        generalize lleq (fn V) x (n - p) p = k at hg hb h
        have hperm := insU_perm V x k
        have hQ0 : Q ≠ [] := by rintro rfl; simp at hQ
        refine ih (insU_clamped hV h0 h1 hb.1 (by omega) hg.1 hg.2) (by simp) (by
          intro z hz0 hzu
          rw [hperm.count_eq, List.count_cons_of_ne hzu.ne']
          exact hr z hz0 hzu) ?_ h
        intro q hq r
        obtain ⟨i, -, rfl⟩ := List.mem_map.mp hq
        exact (insP_close (Y := fn Q) (Q := fn Q) (D := 0) hV (by omega) hb.1 (by omega) hg.1 hg.2
          (fun i => hM _ (fn_mem hQ0 i) r) (fun i => by simp)).1
    exact hall t hV hQ hr hM hins
  exact ⟨fun q hq => key q (List.mem_of_mem_take hq), fun q hq => key q (List.mem_of_mem_drop hq)⟩

/-- **C96** `f64`: splitting a curve and evaluating the parts, both in double precision, gives the values of the
original curve in exact arithmetic at the corresponding parameters, if the knots are `2^-49` apart where they
differ. With `t` insertions and slopes of the control polygon over the knots of at most `p l`, the error is at most
`((6p + 2 + 17t) M + 6 p l x) / 2^52` on the left, with `1 - x` in place of `x` on the right, and a term for
underflow. -/
theorem C96_split {c : Curve (Ieee binary64) d} {e : Curve ℚ d} {p n : ℕ} {U : List (Ieee binary64)} {V : List ℚ}
    {P : List (Pt (Ieee binary64) d)} {Q : List (Pt ℚ d)} (hp : p ≤ 600) (hc : Built c p U P)
    (he : ValidOn 0 1 e p n V Q) (hU : List.Forall₂ Is U V) (hP : List.Forall₂ PtIs P Q)
    {u : Ieee binary64} {x : ℚ} (hu : Is u x) (h0 : 0 < x) (h1 : x < 1) (hr : SimpleBelow V x)
    (hm : ∀ z, 0 < z → z < 1 → V.count z ≤ p) {t : ℕ} (ht : t = p - V.count x) {M : ℚ} (hM0 : 0 ≤ M)
    (hM : ∀ q ∈ Q, ∀ r, |q r| ≤ M) (hmax : M ≤ 2 ^ 998)
    (hgap : ∀ a ∈ x :: V, ∀ b ∈ x :: V, a < b → 1 / 2 ^ 49 ≤ b - a) :
    ∃ c1 c2, split c u = .ok (.ok (c1, c2)) ∧ ∀ (s : Ieee binary64) (y : ℚ), Is s y → 0 ≤ y → y ≤ 1 →
      (∃ v w, c1.evaluate s = .ok (.ok v) ∧ e.evaluate (x * y) = .ok (.ok w) ∧
        ∀ (r : Fin d) (l : ℚ), 0 ≤ l → SlopesIn p V Q r (-l) l → ∃ z, Is (v r) z ∧
          |z - w r| ≤ ((6 * p + 2 + 17 * t) * M + 6 * p * l * x) / 2 ^ 52 +
            (p + 1) * 3 ^ (p + 4) * (M + 1) * (1 / 2) ^ 1075) ∧
      ∃ v w, c2.evaluate s = .ok (.ok v) ∧ e.evaluate (x + (1 - x) * y) = .ok (.ok w) ∧
        ∀ (r : Fin d) (l : ℚ), 0 ≤ l → SlopesIn p V Q r (-l) l → ∃ z, Is (v r) z ∧
          |z - w r| ≤ ((6 * p + 2 + 17 * t) * M + 6 * p * l * (1 - x)) / 2 ^ 52 +
            (p + 1) * 3 ^ (p + 4) * (M + 1) * (1 / 2) ^ 1075 := by
  have hmax' : M ≤ 2 ^ 1000 := hmax.trans (by decide +kernel)
  have ht6 : t ≤ 600 := by omega
  obtain ⟨c1, c2, e1, e2, n1, n2, hs, hs', -, happ1, happ2⟩ := C89_f64 hp hc he hU hP hu h0 h1 hr (hm x h0 h1) hM0 hM
    hmax' ht
  obtain ⟨k1, k2, Q1, Q2, hv1, hv2⟩ := C25_split_knots_partial he hr hs'
  have hkn1 : e1.knots.vector = .ok (leftKnots p x V) := by rw [hv1.eq_canon, canon_knots, canonKnots_vector]
  have hkn2 : e2.knots.vector = .ok (rightKnots p x V) := by rw [hv2.eq_canon, canon_knots, canonKnots_vector]
  have hpt1 : e1.points.matrix = .ok Q1 := by rw [hv1.eq_canon, canon_points, canonPts_matrix]
  have hpt2 : e2.points.matrix = .ok Q2 := by rw [hv2.eq_canon, canon_points, canonPts_matrix]
  have hbd : (∀ q ∈ Q1, ∀ r, |q r| ≤ M) ∧ ∀ q ∈ Q2, ∀ r, |q r| ≤ M := by
    have h2 := he.eq_canon
    rw [h2] at hs'
    exact split_bound he.2.1 he.2.2 h0 h1 hr (hm x h0 h1) hM hs' hpt1 hpt2
  have hsl : ∀ (r : Fin d) (l : ℚ), SlopesIn p V Q r (-l) l →
      SlopesIn p (leftKnots p x V) Q1 r (-(l * x)) (l * x) ∧
      SlopesIn p (rightKnots p x V) Q2 r (-(l * (1 - x))) (l * (1 - x)) := by
    intro r l h
    have := C95_split he hr (norm := (true, true)) hs' hkn1 hpt1 hkn2 hpt2 h
    simpa only [if_true, neg_mul] using this
  have hx1 : 0 < 1 - x := by linarith
  have hsmall : (1 / 2) ^ 1000 + 2 * (1 / 2 ^ 51) ≤ (1 / 2 ^ 49 : ℚ) := by decide +kernel
  have hl0 : ∀ a ∈ leftKnots p x V, ∃ b ∈ x :: V, a = b / x := by
    intro a ha
    rcases List.mem_append.mp ha with h | h
    · obtain ⟨b, hb, rfl⟩ := List.mem_map.mp h
      exact ⟨b, List.mem_cons_of_mem _ (List.mem_of_mem_filter hb), rfl⟩
    · exact ⟨x, List.mem_cons_self, by rw [List.eq_of_mem_replicate h, div_self h0.ne']⟩
  have hr0 : ∀ a ∈ rightKnots p x V, ∃ b ∈ x :: V, a = (b - x) / (1 - x) := by
    intro a ha
    rcases List.mem_append.mp ha with h | h
    · exact ⟨x, List.mem_cons_self, by rw [List.eq_of_mem_replicate h, sub_self, zero_div]⟩
    · obtain ⟨b, hb, rfl⟩ := List.mem_map.mp h
      exact ⟨b, List.mem_cons_of_mem _ (List.mem_of_mem_filter hb), rfl⟩
  have hstretch : ∀ {y w : ℚ}, 0 < w → w < 1 → 1 / 2 ^ 49 ≤ y → 1 / 2 ^ 49 ≤ y / w := by
    intro y w hw0 hw1 hy
    rw [le_div_iff₀ hw0]
    refine le_trans ?_ hy
    exact mul_le_of_le_one_right (by positivity) hw1.le
  have hfin : ∀ (l w : ℚ), 0 ≤ l → 0 ≤ w → ∀ {a : ℚ}, a ≤ (6 * p + 2) / 2 ^ 52 * (M + (t / 2 ^ 48 * M + t / 2 ^ 1072)) +
      (p + 1) * 3 ^ (p + 3) * (M + (t / 2 ^ 48 * M + t / 2 ^ 1072) + 1) * (1 / 2) ^ 1075 +
      (t / 2 ^ 48 * M + t / 2 ^ 1072 + p * (l * w * (3 * (1 / 2 ^ 51)))) →
      a ≤ ((6 * p + 2 + 17 * t) * M + 6 * p * l * w) / 2 ^ 52 + (p + 1) * 3 ^ (p + 4) * (M + 1) * (1 / 2) ^ 1075 := by
    intro l w _ _ a ha
    have := collect64 hp (show t ≤ p + 1 by omega) hM0 rfl
    generalize ((1 : ℚ) / 2) ^ 1075 = z at *
    generalize (t : ℚ) / 2 ^ 1072 = z' at *
    linarith
  refine ⟨c1, c2, hs, fun s y hsy hy0 hy1 => ⟨?_, ?_⟩⟩
  · obtain ⟨v, w, hv, hw, hb⟩ := approx_evaluate64 hp happ1 hkn1 hpt1 (by
      intro a ha b hb hlt
      obtain ⟨a', ha', rfl⟩ := hl0 a ha
      obtain ⟨b', hb', rfl⟩ := hl0 b hb
      refine hsmall.trans ?_
      rw [← sub_div]
      exact hstretch h0 h1 (hgap a' ha' b' hb' ((div_lt_div_iff_of_pos_right h0).mp hlt))) hsy hy0 hy1
    refine ⟨v, w, hv, ((C24_split_points_partial he hr hs' hy0 hy1).1).symm.trans hw, fun r l hl hsp => ?_⟩
    obtain ⟨z, hz, hzb⟩ := hb r M (l * x) (fun q hq => hbd.1 q hq r) (grow_room ht6 hM0 hmax) (mul_nonneg hl h0.le)
      (Or.inr ⟨(hsl r l hsp).1, fun z hz0 hz1 => by
        rw [count_leftKnots h0 V hz1]
        exact hm _ (mul_pos h0 hz0) (by nlinarith)⟩)
    exact ⟨z, hz, hfin l x hl h0.le hzb⟩
  · obtain ⟨v, w, hv, hw, hb⟩ := approx_evaluate64 hp happ2 hkn2 hpt2 (by
      intro a ha b hb hlt
      obtain ⟨a', ha', rfl⟩ := hr0 a ha
      obtain ⟨b', hb', rfl⟩ := hr0 b hb
      refine hsmall.trans ?_
      rw [← sub_div, show b' - x - (a' - x) = b' - a' by ring]
      have := (div_lt_div_iff_of_pos_right hx1).mp hlt
      exact hstretch hx1 (by linarith) (hgap a' ha' b' hb' (by linarith))) hsy hy0 hy1
    refine ⟨v, w, hv, ((C24_split_points_partial he hr hs' hy0 hy1).2).symm.trans hw, fun r l hl hsp => ?_⟩
    obtain ⟨z, hz, hzb⟩ := hb r M (l * (1 - x)) (fun q hq => hbd.2 q hq r) (grow_room ht6 hM0 hmax)
      (mul_nonneg hl hx1.le)
      (Or.inr ⟨(hsl r l hsp).2, fun z hz0 hz1 => by
        rw [count_rightKnots h1 V hz0]
        exact hm _ (by nlinarith) (by nlinarith)⟩)
    exact ⟨z, hz, hfin l (1 - x) hl hx1.le hzb⟩

/-- slopes of the reversed control polygon -/
theorem SlopesIn.rev {p n : ℕ} {V : List ℚ} {Q : List (Pt ℚ d)} (hV : V.length = n + p + 2) (hQ : Q.length = n + 1)
    {ρ : Fin d} {l m : ℚ} (h : SlopesIn p V Q ρ l m) :
    SlopesIn p (V.reverse.map fun x => 1 - x) Q.reverse ρ (-m) (-l) := by
  have hs := (slopesIn_iff hV hQ).mp h
  change SlopesIn p (revU V) _ _ _ _
  rw [slopesIn_iff (n := n) (by simpa using hV) (by simpa using hQ)]
  intro i hi
  rw [fn_revU (by omega), fn_revU (by omega), fn_reverse (by omega), fn_reverse (by omega), hV, hQ]
  have := hs (n - 1 - i) (by omega)
  rw [show n - 1 - i + p + 1 = n + p + 2 - 1 - (i + 1) by omega,
    show n - 1 - i + 1 = n + p + 2 - 1 - (i + p + 1) by omega] at this
  rw [show n + 1 - 1 - (i + 1) = n - 1 - i by omega, show n + 1 - 1 - i = n + p + 2 - 1 - (i + p + 1) by omega]
  exact ⟨by linarith [this.2], by linarith [this.1]⟩

/-- **C96** `f64`: reversing a curve and evaluating it, both in double precision, gives the value of the original
curve in exact arithmetic at the mirrored parameter, if the knots are `2^-51` apart where they differ, with an
error of at most `((6p + 2) M + 2 p l) / 2^52` and a term for underflow, where the slopes of the control polygon
over the knots are at most `p l`. -/
theorem C96_reverse {c : Curve (Ieee binary64) d} {e : Curve ℚ d} {p n : ℕ} {U : List (Ieee binary64)} {V : List ℚ}
    {P : List (Pt (Ieee binary64) d)} {Q : List (Pt ℚ d)} (hp : p ≤ 600) (hc : Built c p U P)
    (he : ValidOn 0 1 e p n V Q) (hU : List.Forall₂ Is U V) (hP : List.Forall₂ PtIs P Q)
    (hm : ∀ z, 0 < z → z < 1 → V.count z ≤ p) (hgap : ∀ a ∈ V, ∀ b ∈ V, a < b → 1 / 2 ^ 51 ≤ b - a) :
    ∃ c', c.reverse = .ok c' ∧ ∀ (s : Ieee binary64) (y : ℚ), Is s y → 0 ≤ y → y ≤ 1 →
      ∃ v w, c'.evaluate s = .ok (.ok v) ∧ e.evaluate (1 - y) = .ok (.ok w) ∧
        ∀ (r : Fin d) (M l : ℚ), (∀ q ∈ Q, |q r| ≤ M) → M ≤ 2 ^ 1000 → 0 ≤ l → SlopesIn p V Q r (-l) l →
          ∃ z, Is (v r) z ∧ |z - w r| ≤ ((6 * p + 2) * M + 2 * p * l) / 2 ^ 52 +
            (p + 1) * 3 ^ (p + 3) * (M + 1) * (1 / 2) ^ 1075 := by
  obtain ⟨hb, hV, hQ⟩ := id he
  obtain ⟨c', U', V', hrev, hk', hp', hU', hl', hsort, hleft, hright, -, hclose, heq, c'', hc'', hev⟩ :=
    C88_reverse hc hU hV (hP.length_eq.trans hQ)
  obtain ⟨e', hre, hve⟩ := C23_reverse_valid he
  rw [sub_self, sub_zero] at hve
  have hkn : e'.knots.vector = .ok (V.reverse.map fun x => 1 - x) := by
    rw [hve.eq_canon, canon_knots, canonKnots_vector]
  have hpt : e'.points.matrix = .ok Q.reverse := by rw [hve.eq_canon, canon_points, canonPts_matrix]
  have heps : binary64.eps ≤ 1 / 2 ^ 53 := by
    decide +kernel
  have happ : Approx 0 1 (1 / 2 ^ 53) 0 p n c'' e' := by
    refine ⟨U', V', V.reverse.map fun x => 1 - x, P.reverse, Q.reverse, Q.reverse, hc'', hve, hU', ?_, hsort, hleft,
      hright, ?_, ?_, ?_⟩
    · exact List.rel_reverse hP
    · rw [List.forall₂_map_right_iff]
      rw [List.forall₂_iff_get] at hclose ⊢
      refine ⟨hclose.1, fun i h1 h2 => (hclose.2 i h1 h2).trans ?_⟩
      have hmem : V.reverse.get ⟨i, h2⟩ ∈ V := List.mem_reverse.mp (List.get_mem _ _)
      have := hV.unit _ hmem
      have he0 : 0 ≤ binary64.eps := by decide +kernel
      calc binary64.eps * (1 - V.reverse.get ⟨i, h2⟩) ≤ binary64.eps * 1 :=
            mul_le_mul_of_nonneg_left (by linarith [this.1]) he0
        _ ≤ _ := by rwa [mul_one]
    · intro i j h
      rw [List.getElem?_map, List.getElem?_map] at h
      exact heq i j (Option.map_injective (fun x y h => by simpa using h) h)
    · rw [List.forall₂_same]
      intro q _ r
      simp
  refine ⟨c', hrev, fun s y hs hy0 hy1 => ?_⟩
  obtain ⟨v, w, hv, hw, hbd⟩ := approx_evaluate64 hp happ hkn hpt (by
    intro a ha b hb hlt
    obtain ⟨a', ha', rfl⟩ := List.mem_map.mp ha
    obtain ⟨b', hb', rfl⟩ := List.mem_map.mp hb
    have := hgap b' (List.mem_reverse.mp hb') a' (List.mem_reverse.mp ha') (by linarith)
    have hsmall : (1 / 2) ^ 1000 + 2 * (1 / 2 ^ 53) ≤ (1 / 2 ^ 51 : ℚ) := by decide +kernel
    refine hsmall.trans (this.trans (le_of_eq (by ring)))) hs hy0 hy1
  refine ⟨v, w, (hev s).trans hv, (C22_reverse_points he hre hm hy0 hy1).symm.trans hw,
    fun r M l hM hmax hl hsl => ?_⟩
  obtain ⟨z, hz, hzb⟩ := hbd r M l (fun q hq => hM q (List.mem_reverse.mp hq)) ((add_zero M).le.trans hmax) hl
    (Or.inr ⟨by simpa only [neg_neg] using hsl.rev hV.length hQ, fun z hz0 hz1 => by
      change (revU V).count z ≤ p
      rw [revU_count]
      exact hm _ (by linarith) (by linarith)⟩)
  clear hbd
  refine ⟨z, hz, hzb.trans ?_⟩
  clear hmax hzb
  have hpl : 0 ≤ (p : ℚ) * l := mul_nonneg (Nat.cast_nonneg p) hl
  rw [add_zero]
  generalize ((1 : ℚ) / 2) ^ 1075 = g
  have : (p : ℚ) * (l * (3 * (1 / 2 ^ 53))) ≤ 2 * p * l / 2 ^ 52 := by
    rw [show (p : ℚ) * (l * (3 * (1 / 2 ^ 53))) = 3 / 2 ^ 53 * (p * l) by ring,
      show 2 * (p : ℚ) * l / 2 ^ 52 = 2 / 2 ^ 52 * (p * l) by ring]
    exact mul_le_mul_of_nonneg_right (by norm_num) hpl
  have e2 : ((6 * (p : ℚ) + 2) * M + 2 * p * l) / 2 ^ 52 = (6 * p + 2) / 2 ^ 52 * M + 2 * p * l / 2 ^ 52 := by ring
  rw [e2]
  linarith

/-! ### A concrete case -/

-- the curve of `Ieee.lean`, of degree 2, meets the conditions of all three theorems at one half
example : (∀ a ∈ (1 / 2 : ℚ) :: ieV, ∀ b ∈ (1 / 2 : ℚ) :: ieV, a < b → 1 / 2 ^ 49 ≤ b - a) ∧
    (∀ q ∈ ieQ, ∀ r, |q r| ≤ 1) ∧ ClampedKnots 0 1 2 4 ieV ∧ ∀ z ∈ ieV, 0 < z → z < 1 → ieV.count z ≤ 2 := by
  decide +kernel

example : SlopesIn 2 ieV ieQ 0 (-8) 8 := by
  rw [slopesIn_iff (n := 4) (by decide +kernel) (by decide +kernel)]
  intro i hi
  interval_cases i <;> decide +kernel

end BSpline
