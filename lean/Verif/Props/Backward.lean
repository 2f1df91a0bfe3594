import Verif.Spec.Backward
import Verif.Props.Ieee
import Verif.Refine.FitValue

/-!
# Backward stability of the evaluation in the arithmetic of `f64`: C150

The error of a computed point is small compared with the control points that take part in it, coordinate by
coordinate: the computed point is exactly the point of a curve with slightly different control points.
-/

set_option linter.unusedSectionVars false

namespace BSpline

open Finset Ieee

variable {K : Type} [Field K] [LinearOrder K] [IsStrictOrderedRing K] {F : Format K} {d : ℕ}

/-- the absolute part of the error -/
def blur (F : Format K) (p : ℕ) (M : K) : K := (p + 1) * 3 ^ (p + 3) * (M + 1) * F.eta

theorem fn_abs (Q : List (Pt K d)) (i : ℕ) (r : Fin d) : fn (absPoints Q) i r = |fn Q i r| := by
  by_cases hi : i < Q.length
  · rw [fn_lt (by simpa [absPoints] using hi), fn_lt hi]
    have := List.getElem_map (l := Q) (i := i) (fun q r => |q r|) (h := by simpa using hi)
    exact congrFun this r
  · rw [fn_ge (by simpa [absPoints] using hi), fn_ge (by omega)]
    rcases List.eq_nil_or_concat Q with rfl | ⟨L, q, rfl⟩
    · simp [absPoints]
    · simp [absPoints]

/-- the computed sum, with an error in proportion to the summands -/
theorem evalFold_backward {U : ℕ → Ieee F} {V : ℕ → K} (hU : ∀ i, Is (U i) (V i)) {p n : ℕ} (hcl : Clamp V p n 0 1)
    {u : Ieee F} {x : K} (hu : Is u x) (hx0 : 0 ≤ x) (hx1 : x ≤ 1) {j : ℕ} (hs : IsSpan V n x j)
    {h : K} (hh : 0 < h) (hgap : ∀ i j, V i < V j → h ≤ V j - V i) (hroom : Room F p)
    (hhm : 2 / h ≤ F.max) {P : ℕ → Pt (Ieee F) d} {Q : ℕ → Pt K d} (hP : ∀ i, PtIs (P i) (Q i)) {r : Fin d}
    {M : K} (hM : ∀ i, j ≤ i + p → i ≤ j → |Q i r| ≤ M) (hmax : 4 * (M + 1) ≤ F.max) {lo : ℕ} (hlo : lo ≤ j - p) :
    ∃ z, Is (evalFold U p n P 0 u lo r) z ∧
      |z - ∑ i ∈ range (n + 1), Nf V 0 n x p i * Q i r| ≤
        (F.phi ^ (6 * p + 2) - 1) * (∑ i ∈ range (n + 1), Nf V 0 n x p i * |Q i r|) + blur F p M := by
  have hp := hs.p_le hcl
  have hjn := hs.le_n
  have hM0 : 0 ≤ M := (abs_nonneg _).trans (hM j (by omega) le_rfl)
  have heta := F.eta_nonneg
  have heta' := hroom.eta_small
  have hphi := F.phi_pos
  have h01 : ∀ i, 0 ≤ V i ∧ V i ≤ 1 := fun i =>
    ⟨by rw [← hcl.left 0 (Nat.zero_le _)]; exact hcl.mono (Nat.zero_le i),
      by rw [← hcl.right (max i (n + 1)) (le_max_right _ _)]; exact hcl.mono (le_max_left _ _)⟩
  have hN1 : ∀ q, q ≤ p → ∀ i, Nf V 0 n x q i ≤ 1 := fun q hq i => by
    simpa using Nf_le_one hcl hs (Nat.zero_le p) q (by omega) i
  have hNf := fun i => Nf_ieee hU hcl.mono h01 hu hx0 hx1 hh hgap
    (by
      refine le_trans ?_ hhm
      have := hroom.pow_le (k := 1) (by omega)
      rw [pow_one] at this
      exact div_le_div_of_nonneg_right (by linarith) hh.le) hroom
    (Nat.zero_le n) hN1 p le_rfl i
  have hNz : ∀ i, i + p < j ∨ j < i → Nf V 0 n x p i = 0 :=
    fun i hi => by simpa using Nf_zero_of_span hcl hs (Nat.zero_le p) (by simpa using hi)
  have hone : ∑ i ∈ range (n + 1), Nf V 0 n x p i = 1 := by
    have : ∀ i, Nf V 0 n x p i = Bs V x (delta j) p i := by
      intro i
      rw [Nf_eq_Bs _ (Nat.zero_le n), Nat.sub_zero, base_eq_delta hcl hs]
    simp only [this]
    exact sum_Bs_one hcl.mono hp hjn (hs.lt hcl)
  have hN1 := hN1 p le_rfl
  generalize hNV : Nf V 0 n x p = N at *
  obtain ⟨ua, hua⟩ : ∃ a, a = under F p := ⟨_, rfl⟩
  rw [← hua] at hNf
  have ua0 : 0 ≤ ua := hua ▸ under_nonneg _
  have ua1 : ua ≤ 1 / 12 := hua ▸ hroom.under_small le_rfl
  have ua2 : (p + 1) * (3 * ua) ≤ 1 / 4 := hua ▸ hroom.mul_under_le
  have ua3 : ua ≤ 3 ^ (p + 1) * F.eta := hua ▸ under_le p
  have hge := hroom.mul_eta_le
  have p1 := hroom.pow_le (k := 1) (by omega)
  rw [pow_one] at p1
  obtain ⟨B, hB⟩ : ∃ B, B = 5 / 4 * (ua * M) + F.eta := ⟨_, rfl⟩
  have huM : 0 ≤ ua * M := mul_nonneg ua0 hM0
  have hB0 : 0 ≤ B := by rw [hB]; positivity
  -- a term
  have hterm : ∀ i, j ≤ i + p → i ≤ j → ∃ y, Is (scale (Nf U 0 n u p i) (P i) r) y ∧
      UErr F (5 * p + 1) B y (N i * Q i r) (N i * |Q i r|) := by
    intro i hi1 hi2
    obtain ⟨y, iy, y0, n0, hz, ey⟩ := hNf i
    have hq := hM i hi1 hi2
    have hq0 := abs_nonneg (Q i r)
    have hmul := ey.mul (UErr.refl (F := F) (Q i r))
    have habs : ua * (F.phi ^ 0 * |Q i r|) + F.phi ^ (5 * p) * N i * 0 + ua * 0 ≤ ua * M := by
      rw [pow_zero, one_mul, mul_zero, mul_zero, add_zero, add_zero]
      exact mul_le_mul_of_nonneg_left hq ua0
    have hmul' := hmul.mono (show 5 * p + 0 ≤ 5 * p by omega) habs le_rfl
    have hb : |y * Q i r| ≤ F.max := by
      refine hmul'.abs_le.trans (le_trans ?_ hmax)
      have p1 := hroom.pow_le (k := 5 * p) (by omega)
      have q1 : F.phi ^ (5 * p) * (N i * |Q i r|) ≤ 5 / 4 * (1 * M) :=
        mul_le_mul p1 (mul_le_mul (hN1 i) hq hq0 zero_le_one) (mul_nonneg n0 hq0) (by norm_num)
      have q2 : ua * M ≤ 1 / 12 * M := mul_le_mul_of_nonneg_right ua1 hM0
      linarith
    refine ⟨_, iy.mul (hP i r) hb, hmul'.rnd.mono le_rfl ?_ le_rfl⟩
    rw [hB]
    have := mul_le_mul_of_nonneg_right p1 huM
    linarith
  have hzero : ∀ i, i + p < j ∨ j < i → Is (scale (Nf U 0 n u p i) (P i) r) 0 := by
    intro i hi
    obtain ⟨y, iy, -, -, hz, -⟩ := hNf i
    rw [hz (hNz i hi)] at iy
    have := iy.mul (hP i r) (by rw [zero_mul, abs_zero]; linarith)
    rwa [zero_mul, F.rnd_zero] at this
  have hsum : ∀ f : ℕ → K, ∑ i ∈ range (n + 1), N i * f i =
      ((List.range' (j - p) (p + 1)).map fun i => N i * f i).sum := by
    intro f
    rw [sum_range']
    symm
    apply sum_subset
    · intro i hi
      rw [mem_Ico] at hi
      rw [mem_range]
      omega
    · intro i _ hi
      rw [mem_Ico] at hi
      rw [hNz i (by omega), zero_mul]
  have hn0 : ∀ i, 0 ≤ N i := fun i => by obtain ⟨_, _, _, n0, _⟩ := hNf i; exact n0
  have hSM : ∑ i ∈ range (n + 1), N i * |Q i r| ≤ M := by
    calc ∑ i ∈ range (n + 1), N i * |Q i r| ≤ ∑ i ∈ range (n + 1), N i * M := by
          apply sum_le_sum
          intro i _
          by_cases hi : j ≤ i + p ∧ i ≤ j
          · exact mul_le_mul_of_nonneg_left (hM i hi.1 hi.2) (hn0 i)
          · rw [hNz i (by omega), zero_mul, zero_mul]
      _ = M := by rw [← sum_mul, hone, one_mul]
  have hS0 : 0 ≤ ∑ i ∈ range (n + 1), N i * |Q i r| :=
    sum_nonneg fun i _ => mul_nonneg (hn0 i) (abs_nonneg _)
  have hphiL := hroom.pow_le (k := p + 1) (by omega)
  have hpB0 : 0 ≤ (p + 1) * B := mul_nonneg (by positivity) hB0
  have habs : F.phi ^ (p + 1) * (0 + (p + 1 : ℕ) * B) ≤ 5 / 4 * ((p + 1) * B) := by
    rw [zero_add]
    push_cast
    exact mul_le_mul_of_nonneg_right hphiL hpB0
  have hpB : (p + 1) * B ≤ M + 1 := by
    have e : (p + 1) * B = 5 / 12 * ((p + 1) * (3 * ua) * M) + (p + 1) * (9 * F.eta) / 9 := by
      rw [hB]; ring
    rw [e]
    have q1 : (p + 1) * (3 * ua) * M ≤ 1 / 4 * M := mul_le_mul_of_nonneg_right ua2 hM0
    linarith
  have h1' := foldl_zero_ieee (fun i => scale (Nf U 0 n u p i) (P i) r)
    (List.range' lo (j - p - lo)) 0 0 is_zero (by
      intro i hi
      rw [List.mem_range'_1] at hi
      exact hzero i (by omega))
  have h0 : UErr F (5 * p + 1 + 0) 0 (0 : K) 0 0 := by
    simpa using (UErr.refl (F := F) (0 : K)).mono (Nat.zero_le (5 * p + 1 + 0)) le_rfl le_rfl
  obtain ⟨z, hz, hze⟩ := foldl_ieee (F := F)
    (g := fun i => scale (Nf U 0 n u p i) (P i) r)
    (x := fun i => N i * Q i r) (w := fun i => N i * |Q i r|) (M := 5 * p + 1) (B := B)
    (List.range' (j - p) (p + 1)) 0 _ 0 0 0 0
    (fun i hi => by
      rw [List.mem_range'_1] at hi
      exact hterm i (by omega) (by omega)) h1' h0 hB0 (by
      rw [← hsum fun i => |Q i r|, List.length_range', zero_add]
      have p1 := hroom.pow_le (k := 5 * p + 1 + 0 + (p + 1)) (by omega)
      have := mul_le_mul p1 hSM hS0 (by norm_num)
      linarith)
  have h2' := foldl_zero_ieee (fun i => scale (Nf U 0 n u p i) (P i) r)
    (List.range' (j + 1) (n - j)) _ z hz (by
      intro i hi
      rw [List.mem_range'_1] at hi
      exact hzero i (by omega))
  refine ⟨z, ?_, ?_⟩
  · have e1 : List.range' lo (n + 1 - lo) = List.range' lo (j - p - lo) ++
        (List.range' (j - p) (p + 1) ++ List.range' (j + 1) (n - j)) := by
      rw [show n + 1 - lo = (j - p - lo) + ((p + 1) + (n - j)) by omega,
        ← List.range'_append_1, ← List.range'_append_1, show lo + (j - p - lo) = j - p by omega,
        show j - p + (p + 1) = j + 1 by omega]
    rw [evalFold, foldl_coord, Nat.sub_zero, Nat.sub_zero, e1, List.foldl_append, List.foldl_append]
    exact h2'
  · rw [← hsum fun i => |Q i r|, List.length_range', zero_add, zero_add, ← hsum fun i => Q i r] at hze
    rw [zero_add] at habs
    refine hze.2.2.trans (add_le_add (le_of_eq ?_) (habs.trans ?_))
    · rw [show 5 * p + 1 + 0 + (p + 1) = 6 * p + 2 by omega]; simp only [zero_add]
    · have e : blur F p M = (p + 1) * (9 * (3 ^ (p + 1) * F.eta * (M + 1))) := by rw [blur]; ring
      rw [e, mul_left_comm]
      apply mul_le_mul_of_nonneg_left _ (by positivity)
      rw [hB]
      have p3 : (1 : K) ≤ 3 ^ (p + 1) := one_le_pow₀ (by norm_num)
      have q1 : ua * M ≤ 3 ^ (p + 1) * F.eta * M := mul_le_mul_of_nonneg_right ua3 hM0
      have q2 : F.eta ≤ 3 ^ (p + 1) * F.eta := le_mul_of_one_le_left heta p3
      have q3 : 0 ≤ 3 ^ (p + 1) * F.eta * M := by positivity
      linarith

/-- **C150** The error of a computed coordinate is at most the part `phi^(6p+2) - 1` of the point of the curve
whose control points have the absolute values of the given ones as coordinates, apart from underflow. `M` has to
bound only the control points whose knots reach to the parameter. -/
theorem C150_componentwise {c : Curve (Ieee F) d} {e a : Curve K d} {p n : ℕ} {U : List (Ieee F)} {V : List K}
    {P : List (Pt (Ieee F) d)} {Q : List (Pt K d)} (hroom : Room F p) (hc : Built c p U P)
    (he : ValidOn 0 1 e p n V Q) (ha : ValidOn 0 1 a p n V (absPoints Q)) (hU : List.Forall₂ Is U V)
    (hP : List.Forall₂ PtIs P Q)
    {u : Ieee F} {x : K} (hu : Is u x) (h0 : 0 ≤ x) (h1 : x ≤ 1) {h : K} (hh : 0 < h)
    (hgap : ∀ s ∈ V, ∀ t ∈ V, s < t → h ≤ t - s) (hhm : 2 / h ≤ F.max) :
    ∃ (v : Pt (Ieee F) d) (w s : Pt K d), c.evaluate u = .ok (.ok v) ∧ e.evaluate x = .ok (.ok w) ∧
      a.evaluate x = .ok (.ok s) ∧ (∀ r, |w r| ≤ s r) ∧
      ∀ (r : Fin d) (M : K), ActiveLe p V Q x r M → 4 * (M + 1) ≤ F.max →
      ∃ y, Is (v r) y ∧ |y - w r| ≤ (F.phi ^ (6 * p + 2) - 1) * s r + blur F p M := by
  obtain rfl := he.eq_canon
  obtain rfl := ha.eq_canon
  obtain ⟨-, hV, hQ⟩ := he
  obtain ⟨-, -, hA⟩ := ha
  have hlV := hV.length
  have hle := hV.le
  have hlU : U.length = n + p + 2 := hU.length_eq.trans hlV
  have hlP : P.length = n + 1 := hP.length_eq.trans hQ
  obtain rfl := hc.ieee_eq hlU hle hlP
  have hcl := hV.clamp
  have hV0 : V ≠ [] := by rintro rfl; simp at hlV
  obtain ⟨j, hs⟩ := hcl.exists_span h0 h1
  have hpj := hs.p_le hcl
  have hjn := hs.le_n
  have hlo := lleq_le_span hs (n - p) p (by omega) (by omega)
  have hn0 : ∀ i, 0 ≤ nb p n V i x := fun i => by
    rw [nb_eq_Bs hV hs]; exact Bs_nonneg hcl.mono hs.lo hs.le_hi p i
  refine ⟨_, _, _, evaluateDerivative_ok hlU hlP hle (Nat.zero_le p) ?_ ?_, evaluate_sum hV hQ h0 h1,
    evaluate_sum hV hA h0 h1, ?_, ?_⟩
  · rw [is_zero.cmp_le hu]; simpa using h0
  · rw [hu.cmp_le is_one]; simpa using h1
  · intro r
    simp only [Finset.sum_apply, Pi.smul_apply, smul_eq_mul, fn_abs]
    refine (abs_sum_le_sum_abs _ _).trans (sum_le_sum fun i _ => ?_)
    rw [abs_mul, abs_of_nonneg (hn0 i)]
  intro r M hM hmax
  simp only [Finset.sum_apply, Pi.smul_apply, smul_eq_mul, fn_abs]
  refine evalFold_backward (fn_is hU) hcl hu h0 h1 hs hh
    (fun i j hij => hgap _ (fn_mem hV0 i) _ (fn_mem hV0 j) hij) hroom hhm (fn_ptIs hP) ?_ hmax ?_
  · intro i hi1 hi2
    have hi : i < Q.length := by omega
    have e : ∀ i, i < V.length → V.getD i 0 = fn V i := fun i hi => by rw [fn_lt hi]; simp [hi]
    have := hM i hi (by
      rw [e i (by omega)]; exact (hcl.mono hi2).trans hs.lo) (by
      rw [e _ (by omega)]; exact hs.le_hi.trans (hcl.mono (by omega)))
    rw [fn_lt hi]
    simpa [hi] using this
  · rw [lleq_is (fun i => fn_is hU (i + 0)) hu]
    change lleq (fn V) x (n - p) p - p ≤ j - p
    omega

/-- **C150** The computed point is exactly the point, at the same parameter, of a curve over the same knots whose
control points differ from the given ones in every coordinate by at most the part `phi^(6p+2) - 1` of this
coordinate, apart from underflow. -/
theorem C150_backward {c : Curve (Ieee F) d} {e : Curve K d} {p n : ℕ} {U : List (Ieee F)} {V : List K}
    {P : List (Pt (Ieee F) d)} {Q : List (Pt K d)} (hroom : Room F p) (hc : Built c p U P)
    (he : ValidOn 0 1 e p n V Q) (hU : List.Forall₂ Is U V) (hP : List.Forall₂ PtIs P Q)
    {u : Ieee F} {x : K} (hu : Is u x) (h0 : 0 ≤ x) (h1 : x ≤ 1) {h : K} (hh : 0 < h)
    (hgap : ∀ s ∈ V, ∀ t ∈ V, s < t → h ≤ t - s) (hhm : 2 / h ≤ F.max)
    {M : Pt K d} (hM : ∀ r, ActiveLe p V Q x r (M r)) (hmax : ∀ r, 4 * (M r + 1) ≤ F.max) :
    ∃ (v : Pt (Ieee F) d) (w : Pt K d) (Q' : List (Pt K d)) (e' : Curve K d), c.evaluate u = .ok (.ok v) ∧
      PtIs v w ∧ NearTo (F.phi ^ (6 * p + 2) - 1) (fun r => blur F p (M r)) Q Q' ∧ ValidOn 0 1 e' p n V Q' ∧
      e'.evaluate x = .ok (.ok w) := by
  have hQ := he.2.2
  have hV := he.2.1
  have hA : (absPoints Q).length = n + 1 := by simpa [absPoints] using hQ
  obtain ⟨v, w, s, hv, hw, hs, -, hb⟩ :=
    C150_componentwise hroom hc he (validOn_canon hV hA) hU hP hu h0 h1 hh hgap hhm
  choose y hy hyb using fun r => hb r (M r) (hM r) (hmax r)
  obtain rfl := he.eq_canon
  rw [evaluate_sum hV hQ h0 h1] at hw
  rw [evaluate_sum hV hA h0 h1] at hs
  injection hw with hw; injection hw with hw
  injection hs with hs; injection hs with hs
  set γ := F.phi ^ (6 * p + 2) - 1
  -- the part of the largest admissible change that is needed
  let t : Pt K d := fun r => (y r - w r) / (γ * s r + blur F p (M r))
  have ht : ∀ r, |t r| ≤ 1 := by
    intro r
    have := hyb r
    rw [abs_div]
    exact div_le_one_of_le₀ (this.trans (le_abs_self _)) (abs_nonneg _)
  have ht' : ∀ r, t r * (γ * s r + blur F p (M r)) = y r - w r := by
    intro r
    by_cases h0 : γ * s r + blur F p (M r) = 0
    · have := hyb r
      rw [h0] at this
      rw [h0, mul_zero, abs_nonpos_iff.mp this]
    · exact div_mul_cancel₀ _ h0
  have hγ : 0 ≤ γ := by
    have := F.one_le_phi_pow (6 * p + 2)
    simp only [γ]; linarith
  have hbl : ∀ r, 0 ≤ blur F p (M r) := by
    intro r
    by_contra hneg
    obtain ⟨j, hj⟩ := hV.clamp.exists_span h0 h1
    have hjn := hj.le_n
    have hlV := hV.length
    have hjp := hj.p_le hV.clamp
    have e : ∀ i, i < V.length → V.getD i 0 = fn V i := fun i hi => by rw [fn_lt hi]; simp [hi]
    have := (abs_nonneg _).trans (hM r j (by omega) (by rw [e j (by omega)]; exact hj.lo) (by
      rw [e _ (by omega)]; exact hj.le_hi.trans (hV.clamp.mono (by omega))))
    apply hneg
    have := F.eta_nonneg
    rw [blur]
    positivity
  let g : Pt K d → Pt K d := fun q r => q r + t r * (γ * |q r| + blur F p (M r))
  have hQ' : (Q.map g).length = n + 1 := by simpa using hQ
  refine ⟨v, y, Q.map g, _, hv, hy, ?_, validOn_canon hV hQ', ?_⟩
  · rw [NearTo, List.forall₂_map_right_iff, List.forall₂_same]
    intro q _ r
    simp only [g, add_sub_cancel_left, abs_mul]
    have h3 : 0 ≤ γ * |q r| + blur F p (M r) := add_nonneg (mul_nonneg hγ (abs_nonneg _)) (hbl r)
    rw [abs_of_nonneg h3]
    exact mul_le_of_le_one_left h3 (ht r)
  · rw [evaluate_sum hV hQ' h0 h1]
    congr 2
    funext r
    have hone : ∑ i ∈ range (n + 1), nb p n V i x = 1 := by
      obtain ⟨j, hs⟩ := hV.clamp.exists_span h0 h1
      rw [sum_congr rfl (fun i _ => nb_eq_Bs hV hs i)]
      exact sum_Bs_one hV.clamp.mono (hs.p_le hV.clamp) hs.le_n (hs.lt hV.clamp)
    have hg : ∀ i ∈ range (n + 1), (nb p n V i x • fn (Q.map g) i) r = nb p n V i x * fn Q i r +
        t r * (γ * (nb p n V i x * |fn Q i r|) + nb p n V i x * blur F p (M r)) := by
      intro i hi
      rw [mem_range] at hi
      rw [fn_lt (by omega), fn_lt (show i < Q.length by omega)]
      simp only [List.getElem_map, Pi.smul_apply, smul_eq_mul, g]
      ring
    rw [Finset.sum_apply, sum_congr rfl hg, sum_add_distrib, ← mul_sum, sum_add_distrib, ← mul_sum, ← sum_mul, hone,
      one_mul]
    have e1 : ∑ i ∈ range (n + 1), nb p n V i x * fn Q i r = w r := by
      rw [← hw]; simp
    have e2 : ∑ i ∈ range (n + 1), nb p n V i x * |fn Q i r| = s r := by
      rw [← hs]; simp [fn_abs]
    rw [e1, e2, ht' r]
    ring

/-- **C150** A coordinate in which no control point is negative is computed with a small relative error, apart
from underflow. -/
theorem C150_relative {c : Curve (Ieee F) d} {e : Curve K d} {p n : ℕ} {U : List (Ieee F)} {V : List K}
    {P : List (Pt (Ieee F) d)} {Q : List (Pt K d)} (hroom : Room F p) (hc : Built c p U P)
    (he : ValidOn 0 1 e p n V Q) (hU : List.Forall₂ Is U V) (hP : List.Forall₂ PtIs P Q)
    {u : Ieee F} {x : K} (hu : Is u x) (h0 : 0 ≤ x) (h1 : x ≤ 1) {h : K} (hh : 0 < h)
    (hgap : ∀ s ∈ V, ∀ t ∈ V, s < t → h ≤ t - s) (hhm : 2 / h ≤ F.max) :
    ∃ (v : Pt (Ieee F) d) (w : Pt K d), c.evaluate u = .ok (.ok v) ∧ e.evaluate x = .ok (.ok w) ∧
      ∀ (r : Fin d) (M : K), ActiveLe p V Q x r M → 4 * (M + 1) ≤ F.max → (∀ q ∈ Q, 0 ≤ q r) →
      ∃ y, Is (v r) y ∧ |y - w r| ≤ (F.phi ^ (6 * p + 2) - 1) * w r + blur F p M := by
  have hQ := he.2.2
  have hV := he.2.1
  have hA : (absPoints Q).length = n + 1 := by simpa [absPoints] using hQ
  obtain ⟨v, w, s, hv, hw, hs, -, hb⟩ :=
    C150_componentwise hroom hc he (validOn_canon hV hA) hU hP hu h0 h1 hh hgap hhm
  refine ⟨v, w, hv, hw, fun r M hM hmax hpos => ?_⟩
  obtain ⟨y, hy, hyb⟩ := hb r M hM hmax
  refine ⟨y, hy, ?_⟩
  have e : s r = w r := by
    obtain rfl := he.eq_canon
    rw [evaluate_sum hV hQ h0 h1] at hw
    rw [evaluate_sum hV hA h0 h1] at hs
    injection hw with hw; injection hw with hw
    injection hs with hs; injection hs with hs
    rw [← hw, ← hs]
    simp only [Finset.sum_apply, Pi.smul_apply, smul_eq_mul, fn_abs]
    refine sum_congr rfl fun i _ => ?_
    rw [abs_of_nonneg (hpos _ (fn_mem (by rintro rfl; simp at hQ) i))]
  rwa [e] at hyb

/-! ### `f64` -/

theorem gamma_binary64 {p : ℕ} (hp : p ≤ 600) : binary64.phi ^ (6 * p + 2) - 1 ≤ (6 * p + 2) / 2 ^ 52 := by
  have heps : binary64.eps = (1 / 2) ^ 53 := rfl
  have hpq : (p : ℚ) ≤ 600 := by exact_mod_cast hp
  have hp0 : (0 : ℚ) ≤ p := Nat.cast_nonneg _
  have hbern := one_add_mul_le_pow (a := -(1 / 2 : ℚ) ^ 53) (by norm_num) (6 * p + 2)
  rw [← sub_eq_add_neg] at hbern
  push_cast at hbern
  have ht : 0 < 1 + (6 * (p : ℚ) + 2) * -(1 / 2) ^ 53 := by norm_num; linarith
  rw [Format.phi, heps, inv_pow, sub_le_iff_le_add]
  refine (inv_anti₀ ht hbern).trans ?_
  rw [inv_le_iff_one_le_mul₀ ht]
  norm_num
  nlinarith

theorem blur_binary64 (p : ℕ) (M : ℚ) : blur binary64 p M = (p + 1) * 3 ^ (p + 3) * (M + 1) * (1 / 2) ^ 1075 := by
  have heta : binary64.eta = (1 / 2) ^ 1075 := by
    change (1 / 2 * 2 ^ ((-1022 : ℤ) - 52) : ℚ) = _
    decide +kernel
  rw [blur, heta]

/-- **C150** For `f64`: if the knots of a curve of a degree `p ≤ 600` are finite numbers, different ones at least
`2^-1000` apart, and the control points that are active at the parameter at most `2^1000`, then the computed point
is exactly the point of a curve over the same knots whose control points differ from the given ones in every
coordinate by at most the part `(6p+2) 2^-52` of this coordinate plus `(p+1) 3^(p+3) (M+1) 2^-1075`. -/
theorem C150_f64 {c : Curve (Ieee binary64) d} {e : Curve ℚ d} {p n : ℕ} {U : List (Ieee binary64)} {V : List ℚ}
    {P : List (Pt (Ieee binary64) d)} {Q : List (Pt ℚ d)} (hp : p ≤ 600) (hc : Built c p U P)
    (he : ValidOn 0 1 e p n V Q) (hU : List.Forall₂ Is U V) (hP : List.Forall₂ PtIs P Q)
    {u : Ieee binary64} {x : ℚ} (hu : Is u x) (h0 : 0 ≤ x) (h1 : x ≤ 1)
    (hgap : ∀ s ∈ V, ∀ t ∈ V, s < t → (1 / 2) ^ 1000 ≤ t - s)
    {M : Pt ℚ d} (hM : ∀ r, ActiveLe p V Q x r (M r)) (hmax : ∀ r, M r ≤ 2 ^ 1000) :
    ∃ (v : Pt (Ieee binary64) d) (w : Pt ℚ d) (Q' : List (Pt ℚ d)) (e' : Curve ℚ d), c.evaluate u = .ok (.ok v) ∧
      PtIs v w ∧ NearTo ((6 * (p : ℚ) + 2) / 2 ^ 52) (fun r => (p + 1) * 3 ^ (p + 3) * (M r + 1) * (1 / 2) ^ 1075) Q Q' ∧
      ValidOn 0 1 e' p n V Q' ∧ e'.evaluate x = .ok (.ok w) := by
  have hmx : (2 : ℚ) ^ 1023 ≤ binary64.max := by
    decide +kernel
  obtain ⟨v, w, Q', e', hv, hw, hn, he', hev⟩ := C150_backward (room_binary64 hp) hc he hU hP hu h0 h1
    (by positivity) hgap (by
    refine le_trans ?_ hmx
    decide +kernel) hM (fun r => by
      refine le_trans (show _ ≤ 4 * ((2 : ℚ) ^ 1000 + 1) from
        mul_le_mul_of_nonneg_left (add_le_add (hmax r) le_rfl) (by norm_num)) (le_trans ?_ hmx)
      decide +kernel)
  refine ⟨v, w, Q', e', hv, hw, ?_, he', hev⟩
  refine List.Forall₂.imp (fun q q' h r => (h r).trans (add_le_add ?_ (blur_binary64 p (M r)).le)) hn
  exact mul_le_mul_of_nonneg_right (gamma_binary64 hp) (abs_nonneg _)

/-! ### A concrete case -/

-- at 0.2 the last control point of the curve of C85 is not active
example : ActiveLe 2 ieV ieQ (1 / 5) 0 (7 / 10) := by
  have : ∀ i < 5, ieV.getD i 0 ≤ 1 / 5 → 1 / 5 ≤ ieV.getD (i + 2 + 1) 0 → |ieQ.getD i 0 0| ≤ 7 / 10 := by
    decide +kernel
  exact this

/-! ### What is not true -/

def cuU : List (Ieee binary64) := [0, 0, 1, 1]
def cuP : List (Pt (Ieee binary64) 1) := [![eq64 ((1 / 2) ^ 60)], ![eq64 (-1)]]
def cuQ : List (Pt ℚ 1) := [![(1 / 2) ^ 60], ![-1]]

/-- **C150** The sign condition of the forward bound is needed: with control points `2^-60` and `-1` the computed
point at `2^-60` is zero while the exact one is `-2^-120`. -/
theorem C150_cancellation : Built (canon 1 cuU cuP) 1 cuU cuP ∧ ValidOn 0 1 (canon 1 [0, 0, 1, 1] cuQ) 1 1 [0, 0, 1, 1] cuQ ∧
    List.Forall₂ PtIs cuP cuQ ∧ (canon 1 cuU cuP).evaluate (eq64 ((1 / 2) ^ 60)) = .ok (.ok ![0]) ∧
    (canon 1 [0, 0, 1, 1] cuQ).evaluate ((1 / 2 : ℚ) ^ 60) = .ok (.ok ![-(1 / 2 : ℚ) ^ 120]) := by
  refine ⟨mkCurve_ok (n := 1) rfl (by decide) (by decide), validOn_canon (by decide +kernel) rfl, ?_,
    by decide +kernel, by decide +kernel⟩
  refine .cons ?_ (.cons ?_ .nil)
  · intro r
    fin_cases r
    exact ⟨false, ⟨by decide +kernel, by decide +kernel⟩, by decide +kernel⟩
  · intro r
    fin_cases r
    exact ⟨true, ⟨by decide +kernel, by decide +kernel⟩, by decide +kernel⟩

def suP : List (Pt (Ieee binary64) 1) := [![eq64 ((1 / 2) ^ 1074)], ![eq64 ((1 / 2) ^ 1074)]]
def suQ : List (Pt ℚ 1) := [![(1 / 2) ^ 1074], ![(1 / 2) ^ 1074]]

/-- **C150** The absolute part of the error is needed: a curve both of whose control points are the smallest
positive number is computed as zero in the middle. -/
theorem C150_underflow : Built (canon 1 cuU suP) 1 cuU suP ∧ ValidOn 0 1 (canon 1 [0, 0, 1, 1] suQ) 1 1 [0, 0, 1, 1] suQ ∧
    List.Forall₂ PtIs suP suQ ∧ (canon 1 cuU suP).evaluate (eq64 (1 / 2)) = .ok (.ok ![0]) ∧
    (canon 1 [0, 0, 1, 1] suQ).evaluate (1 / 2) = .ok (.ok ![(1 / 2) ^ 1074]) := by
  refine ⟨mkCurve_ok (n := 1) rfl (by decide) (by decide), validOn_canon (by decide +kernel) rfl, ?_,
    by decide +kernel, by decide +kernel⟩
  have h : PtIs (![eq64 ((1 / 2) ^ 1074)] : Pt (Ieee binary64) 1) ![(1 / 2) ^ 1074] := by
    intro r
    fin_cases r
    exact ⟨false, ⟨by decide +kernel, by decide +kernel⟩, by decide +kernel⟩
  exact .cons h (.cons h .nil)

end BSpline
