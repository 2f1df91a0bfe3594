import Verif.Props.IeeeEnds
import Verif.Props.Touch

/-!
# The derivatives at the ends of a curve in double precision (C130)
-/

set_option linter.unusedSectionVars false

namespace BSpline

section LawFree

variable {K : Type} [Add K] [Sub K] [Mul K] [Div K] [Neg K] [Zero K] [One K] [NatCast K] [Cmp K] {d : ℕ}

/-- the functions for the `k`-th derivative are the functions of `n - k` segments -/
theorem Nf_lower {g g' : ℕ → K} {k n N : ℕ} (hk : k ≤ n) (hg : ∀ i, i < N → g i = g' i) (hN : n - k + 1 < N) (u : K)
    (q : ℕ) : ∀ i, i + q + 1 < N → Nf g k n u q i = Nf g' 0 (n - k) u q i := by
  induction q with
  | zero =>
    intro i hi
    rw [Nf, Nf, hg i (by omega), hg (i + 1) (by omega), Nat.sub_zero, show n - k + 1 - 0 = n + 1 - k by omega,
      hg (n + 1 - k) (by omega)]
  | succ q ih =>
    intro i hi
    rw [Nf, Nf, ih i (by omega), ih (i + 1) (by omega), hg i (by omega), hg (i + (q + 1)) (by omega),
      hg (i + 1) (by omega), hg (i + 1 + (q + 1)) (by omega), hg (i + q + 1) (by omega), hg (i + 1 + q + 1) (by omega)]

/-- what `evaluate_derivative` computes from the stored control points of the derivative -/
theorem evaluateDerivative_stored {c : Curve K d} {p n k : ℕ} {U : List K} {D : List (Pt K d)}
    (hc : c.knots = canonKnots p U) (hU : U.length = n + p + 2) (hn : c.segments = .ok n)
    (hD : c.points.matrixDerivative k = .ok D) (hDl : D.length = n + 1 - k) (hp : p ≤ n) (hk : k ≤ p) {u : K}
    (h0 : Cmp.le 0 u = true) (h1 : Cmp.le u 1 = true) :
    c.evaluateDerivative u k = .ok (.ok
      ((List.range' (lleq (fun i => fn U (i + k)) u (n - p) (p - k) - (p - k))
        (n - k + 1 - (lleq (fun i => fn U (i + k)) u (n - p) (p - k) - (p - k)))).foldl
      (fun v i => v + scale (Nf (fun j => fn U (j + k)) k n u (p - k) i) (fn D i)) (fun _ => 0))) := by
  have hb := lleq_bounds (fun i => fn U (i + k)) u (n - p) (p - k)
  have hdeg : c.degree = p := by rw [Curve.degree, hc, canonKnots_degree]
  simp only [Curve.evaluateDerivative, h0, h1, Bool.and_self, Bool.not_true, Bool.false_eq_true,
    if_false, hdeg, hn, if_pos hk, ok_bind, hc, findIdx_leftOrEqual_ok hU hp hk]
  rw [usub_ok hk, ok_bind, usub_ok hb.1, ok_bind, usub_ok (by omega), ok_bind]
  rw [forRangeIncl, foldlM_ok (g := fun v i => v + scale (Nf (fun j => fn U (j + k)) k n u (p - k) i) (fn D i))]
  · rfl
  · intro s x hx
    rw [List.mem_range'_1] at hx
    rw [knots_evaluate_ok hU hp hk (by omega), ok_bind, hD, ok_bind, column_ok (by omega), ok_bind]
    rfl

theorem Shaped.segmentsOf {c : Curve K d} {p n : ℕ} (h : Shaped c p n) : c.segments = .ok n := by
  have hl := h.lenP 0 (by omega)
  have e : c.points.count = .ok (n + 1) := by
    rw [ControlPoints.count, ControlPoints.countDerivative, idx_getD [] (by have := h.nPk; omega), ok_bind, hl]
    rfl
  rw [Curve.segments, ControlPoints.segments, e, ok_bind, usub_ok (by omega)]
  rfl

theorem Shaped.matrixDerivative {c : Curve K d} {p n k : ℕ} (h : Shaped c p n) (hk : k ≤ p) :
    c.points.matrixDerivative k = .ok (c.points.Pk.getD k []) := by
  rw [ControlPoints.matrixDerivative, if_pos (by rw [h.kMax]; exact hk), idx_getD [] (by have := h.nPk; omega)]

end LawFree

open Finset Ieee

variable {K : Type} [Field K] [LinearOrder K] [IsStrictOrderedRing K] {F : Format K} {d : ℕ}
variable {p n k : ℕ} {V : List K} {h : K}

/-- the knots of a derivative -/
theorem WeaklyClamped.order (hV : WeaklyClamped p n V) (hk : k ≤ p) :
    WeaklyClamped (p - k) (n - k) ((V.drop k).take (n + p + 2 - 2 * k)) := by
  have hl := hV.length
  have hle := hV.le
  have e : ∀ i, i < n + p + 2 - 2 * k → fn ((V.drop k).take (n + p + 2 - 2 * k)) i = fn V (i + k) := fun i hi => by
    rw [fn_take hi (by rw [List.length_drop]; omega), fn_drop (by omega), Nat.add_comm]
  refine WeaklyClamped.of_fn (by rw [List.length_take, List.length_drop]; omega) (by omega)
    ((hV.sorted.drop).take) (fun i hi => ?_) (fun i h1 h2 => ?_)
  · rw [e i (by omega)]; exact hV.zero (by omega)
  · rw [e i (by omega)]; exact hV.one (by omega) (by omega)

theorem order_gap (hgap : ∀ s ∈ V, ∀ t ∈ V, s < t → h ≤ t - s) (m : ℕ) :
    ∀ s ∈ (V.drop k).take m, ∀ t ∈ (V.drop k).take m, s < t → h ≤ t - s := fun s hs t ht =>
  hgap s (List.mem_of_mem_drop (List.mem_of_mem_take hs)) t (List.mem_of_mem_drop (List.mem_of_mem_take ht))

/-- **C130** If only `p + 1` knots are 0, then a derivative at 0 is exactly its first stored control point. -/
theorem C130_start {c : Curve (Ieee F) d} (hroom : Room F p) (hc : Sound c p n V) (hk : k ≤ p)
    (hz : V[p + 1]? ≠ some 0) (hh : 0 < h) (hgap : ∀ s ∈ V, ∀ t ∈ V, s < t → h ≤ t - s) (hhm : 2 / h ≤ F.max)
    {u : Ieee F} (hu : Is u 0) :
    ∃ D v, c.points.matrixDerivative k = .ok D ∧ c.evaluateDerivative u k = .ok (.ok v) ∧
      ∀ r x, (∀ q ∈ D, ∃ y, Is (q r) y) → D.head? = some x → ∀ w, Is (x r) w → Is (v r) w := by
  obtain ⟨U, hkn, hU⟩ := hc.knots
  have hV := hc.weak
  have hl := hV.length
  have hle := hV.le
  have hlU := hU.length_eq.trans hl
  have hDl := hc.shaped.lenP k hk
  have hD := hc.shaped.matrixDerivative hk
  generalize c.points.Pk.getD k [] = D at hDl hD
  have hD0 : D ≠ [] := by rintro rfl; simp at hDl; omega
  have hV0 : V ≠ [] := by rintro rfl; simp at hl
  have hz' : fn V (p + 1) ≠ 0 := by
    rw [List.getElem?_eq_getElem (by omega)] at hz
    rw [fn_lt (by omega)]
    exact fun h => hz (congrArg some h)
  have hmax : F.phi / h ≤ F.max := by
    refine le_trans ?_ hhm
    have := hroom.pow_le (k := 1) (by omega)
    rw [pow_one] at this
    exact div_le_div_of_nonneg_right (by linarith) hh.le
  have g0 : Cmp.le (0 : Ieee F) u = true := by rw [is_zero.cmp_le hu]; simp
  have g1 : Cmp.le u (1 : Ieee F) = true := by rw [hu.cmp_le is_one]; simp
  refine ⟨D, _, hD, evaluateDerivative_stored hkn hlU hc.shaped.segmentsOf hD hDl hle hk g0 g1,
    fun r x hf hx w hw => ?_⟩
  rw [head_fn hD0] at hx
  obtain rfl := Option.some.inj hx
  have hlo : lleq (fun i => fn U (i + k)) u (n - p) (p - k) - (p - k) = 0 := by
    rw [lleq_is (fun i => fn_is hU (i + k)) hu, lleq_start, Nat.sub_self]
    rw [show p - k + 1 + k = p + 1 by omega]
    exact lt_of_le_of_ne (hV.unit _ (fn_mem hV0 _)).1 (Ne.symm hz')
  have hW := hV.order hk
  have hUW : List.Forall₂ Is ((U.drop k).take (n + p + 2 - 2 * k)) ((V.drop k).take (n + p + 2 - 2 * k)) :=
    List.forall₂_take _ (List.forall₂_drop _ hU)
  have e : ∀ {α : Type} [Zero α] (l : List α) i, l.length = n + p + 2 → i < n + p + 2 - 2 * k →
      fn ((l.drop k).take (n + p + 2 - 2 * k)) i = fn l (i + k) := fun l i hl hi => by
    rw [fn_take hi (by rw [List.length_drop]; omega), fn_drop (by omega), Nat.add_comm]
  have hN : ∀ i, i ≤ n - k → Is (Nf (fun j => fn U (j + k)) k n u (p - k) i) (if i = 0 then 1 else 0) := by
    intro i hi
    rw [Nf_lower (N := n + p + 2 - 2 * k) (g' := fn ((U.drop k).take (n + p + 2 - 2 * k))) (by omega)
      (fun i hi => (e U i hlU hi).symm) (by omega) u (p - k) i (by omega)]
    have := Nf_start_ieee hUW hW (by rw [e V _ hl (by omega), show p - k + 1 + k = p + 1 by omega]; exact hz') hu hh
      (order_gap hgap _) hmax (p - k) le_rfl i
    simpa using this
  rw [hlo, foldl_coord, show n - k + 1 - 0 = n - k + 1 by omega, List.range'_succ, List.foldl_cons]
  refine foldl_zero_ieee _ _ _ _ ?_ fun i hi => ?_
  · have h1 := hN 0 (by omega)
    rw [if_pos rfl] at h1
    have h2 := h1.mul hw (by rw [one_mul]; exact hw.le_max)
    rw [one_mul, hw.rep] at h2
    have h3 := (is_zero (F := F)).add h2 (by rw [zero_add]; exact hw.le_max)
    rw [zero_add, hw.rep] at h3
    exact h3
  · have hi := List.mem_range'_1.mp hi
    have h1 := hN i (by omega)
    rw [if_neg (by omega)] at h1
    obtain ⟨z, iz⟩ := hf _ (fn_mem hD0 i)
    have h2 := h1.mul iz (by rw [zero_mul, abs_zero]; exact F.max_nonneg)
    rw [zero_mul, F.rnd_zero] at h2
    exact h2

/-- **C130** If only `p + 1` knots are 1, then a derivative at 1 is exactly its last stored control point. -/
theorem C130_end {c : Curve (Ieee F) d} (hroom : Room F p) (hc : Sound c p n V) (hk : k ≤ p)
    (hz : V[n]? ≠ some 1) (hh : 0 < h) (hgap : ∀ s ∈ V, ∀ t ∈ V, s < t → h ≤ t - s) (hhm : 2 / h ≤ F.max)
    {u : Ieee F} (hu : Is u 1) :
    ∃ D v, c.points.matrixDerivative k = .ok D ∧ c.evaluateDerivative u k = .ok (.ok v) ∧
      ∀ r x, (∀ q ∈ D, ∃ y, Is (q r) y) → D.getLast? = some x → ∀ w, Is (x r) w → Is (v r) w := by
  obtain ⟨U, hkn, hU⟩ := hc.knots
  have hV := hc.weak
  have hl := hV.length
  have hle := hV.le
  have hlU := hU.length_eq.trans hl
  have hDl := hc.shaped.lenP k hk
  have hD := hc.shaped.matrixDerivative hk
  generalize c.points.Pk.getD k [] = D at hDl hD
  have hD0 : D ≠ [] := by rintro rfl; simp at hDl; omega
  have hV0 : V ≠ [] := by rintro rfl; simp at hl
  have hz' : fn V n ≠ 1 := by
    rw [List.getElem?_eq_getElem (by omega)] at hz
    rw [fn_lt (by omega)]
    exact fun h => hz (congrArg some h)
  have hmax : F.phi / h ≤ F.max := by
    refine le_trans ?_ hhm
    have := hroom.pow_le (k := 1) (by omega)
    rw [pow_one] at this
    exact div_le_div_of_nonneg_right (by linarith) hh.le
  have g0 : Cmp.le (0 : Ieee F) u = true := by rw [is_zero.cmp_le hu]; simp
  have g1 : Cmp.le u (1 : Ieee F) = true := by rw [hu.cmp_le is_one]; simp
  refine ⟨D, _, hD, evaluateDerivative_stored hkn hlU hc.shaped.segmentsOf hD hDl hle hk g0 g1,
    fun r x hf hx w hw => ?_⟩
  rw [getLast_fn (n := n - k) (by omega)] at hx
  obtain rfl := Option.some.inj hx
  have hb := lleq_bounds (fun i => fn U (i + k)) u (n - p) (p - k)
  generalize lleq (fun i => fn U (i + k)) u (n - p) (p - k) = l at hb ⊢
  have hW := hV.order hk
  have hUW : List.Forall₂ Is ((U.drop k).take (n + p + 2 - 2 * k)) ((V.drop k).take (n + p + 2 - 2 * k)) :=
    List.forall₂_take _ (List.forall₂_drop _ hU)
  have e : ∀ {α : Type} [Zero α] (l : List α) i, l.length = n + p + 2 → i < n + p + 2 - 2 * k →
      fn ((l.drop k).take (n + p + 2 - 2 * k)) i = fn l (i + k) := fun l i hl hi => by
    rw [fn_take hi (by rw [List.length_drop]; omega), fn_drop (by omega), Nat.add_comm]
  have hN : ∀ i, i ≤ n - k → Is (Nf (fun j => fn U (j + k)) k n u (p - k) i) (if i = n - k then 1 else 0) := by
    intro i hi
    rw [Nf_lower (N := n + p + 2 - 2 * k) (g' := fn ((U.drop k).take (n + p + 2 - 2 * k))) (by omega)
      (fun i hi => (e U i hlU hi).symm) (by omega) u (p - k) i (by omega)]
    exact Nf_end_ieee hUW hW (by rw [e V _ hl (by omega), show n - k + k = n by omega]; exact hz') hu hh
      (order_gap hgap _) hmax (p - k) le_rfl i
  rw [foldl_coord, show n - k + 1 - (l - (p - k)) = (n - k - (l - (p - k))) + 1 by omega, List.range'_concat,
    List.foldl_append, List.foldl_cons, List.foldl_nil]
  have h0 := foldl_zero_ieee (F := F) (fun i => scale (Nf (fun j => fn U (j + k)) k n u (p - k) i) (fn D i) r)
      (List.range' (l - (p - k)) (n - k - (l - (p - k)))) 0 0 is_zero fun i hi => by
    have hi := (List.mem_range'_1.mp hi).2
    have h1 := hN i (by omega)
    rw [if_neg (by omega)] at h1
    obtain ⟨z, iz⟩ := hf _ (fn_mem hD0 i)
    have h2 := h1.mul iz (by rw [zero_mul, abs_zero]; exact F.max_nonneg)
    rw [zero_mul, F.rnd_zero] at h2
    exact h2
  have h1 := hN (n - k) le_rfl
  rw [if_pos rfl] at h1
  have h2 := h1.mul hw (by rw [one_mul]; exact hw.le_max)
  rw [one_mul, hw.rep] at h2
  have h3 := h0.add h2 (by rw [zero_add]; exact hw.le_max)
  rw [zero_add, hw.rep] at h3
  rw [show l - (p - k) + 1 * (n - k - (l - (p - k))) = n - k by omega]
  exact h3

/-- a control point of the first derivative: the error is relative to its own size -/
theorem first_ieee {S T X Y : Ieee F} {s t x y : K} {m : ℕ} (hS : Is S s) (hT : Is T t) (hX : Is X x) (hY : Is Y y)
    (hm : F.rnd m = m) (hm1 : 1 ≤ m) (hst : 0 < s - t) (hst1 : s - t ≤ 1) (hphi : F.phi ^ 4 ≤ 5 / 4)
    (heta : F.eta ≤ 1 / 36) (hmax : 4 * (m / (s - t) * (|x - y| + 1)) ≤ F.max) :
    ∃ z, Is ((m : Ieee F) / (S - T) * (X - Y)) z ∧
      |z - m / (s - t) * (x - y)| ≤ (F.phi ^ 5 - 1 + F.phi ^ 2 * F.eta) * |m / (s - t) * (x - y)| + F.eta := by
  have hm1' : (1 : K) ≤ m := by exact_mod_cast hm1
  have hg1 : (1 : K) ≤ m / (s - t) := by rw [le_div_iff₀ hst]; linarith
  have hp1 := F.one_le_phi
  have hd0 := abs_nonneg (x - y)
  have hgd : 0 ≤ (m : K) / (s - t) * |x - y| := by positivity
  have hm4 : (m : K) / (s - t) + m / (s - t) * |x - y| ≤ F.max / 4 := by linarith
  have hmm : (m : K) ≤ F.max := by
    have : (m : K) ≤ m / (s - t) := by rw [le_div_iff₀ hst]; nlinarith
    linarith
  have hxd : |x - y| ≤ m / (s - t) * |x - y| := le_mul_of_one_le_left hd0 hg1
  have iM : Is ((m : ℕ) : Ieee F) (m : K) := by simpa [hm] using is_natCast (F := F) hmm
  have e1 := hS.sub hT (by rw [abs_of_pos hst]; exact hst1.trans F.one_le_max)
  have e2 := hX.sub hY (by linarith)
  have hq := UErr.quotient (F := F) (a := m) (b := 0) hm F.rnd_zero hS.rep hT.rep hst (by linarith)
  rw [sub_zero, hm] at hq
  have hsd := F.sub s t hS.rep hT.rep
  rw [abs_of_pos hst] at hsd
  have hden : (s - t) * (1 - F.eps) ≤ F.rnd (s - t) := by have := (abs_le.mp hsd).1; linarith
  have hden0 : 0 < F.rnd (s - t) := (mul_pos hst F.del_pos).trans_le hden
  have hp4 : F.phi ≤ F.phi ^ 4 := by simpa using F.phi_mono (a := 1) (b := 4) (by omega)
  have hqm : |(m : K) / F.rnd (s - t)| ≤ F.max := by
    have : (m : K) / F.rnd (s - t) ≤ F.phi * (m / (s - t)) := by
      rw [div_le_iff₀ hden0]
      calc (m : K) = F.phi * (1 - F.eps) * (m / (s - t) * (s - t)) := by
            rw [F.phi_del, one_mul, div_mul_cancel₀ _ hst.ne']
        _ = F.phi * (m / (s - t)) * ((s - t) * (1 - F.eps)) := by ring
        _ ≤ _ := mul_le_mul_of_nonneg_left hden (by positivity)
    rw [abs_of_nonneg (by positivity)]
    have h2 : F.phi * ((m : K) / (s - t)) ≤ 5 / 4 * (m / (s - t)) :=
      mul_le_mul_of_nonneg_right (hp4.trans hphi) (by linarith)
    linarith
  have e3 := iM.div e1 hden0.ne' hqm
  have hdif := (UErr.refl (F := F) (x - y)).rnd_of (F.sub x y hX.rep hY.rep)
  have hmul := hq.mul hdif
  simp only [mul_zero, add_zero, zero_add, pow_one, show 3 + 1 = 4 from rfl] at hmul
  have hprod : |F.rnd ((m : K) / F.rnd (s - t)) * F.rnd (x - y)| ≤ F.max := by
    refine hmul.abs_le.trans ?_
    have h1 : F.phi ^ 4 * ((m : K) / (s - t) * |x - y|) ≤ 5 / 4 * (m / (s - t) * |x - y|) :=
      mul_le_mul_of_nonneg_right hphi hgd
    have h2 : F.eta * (F.phi * |x - y|) ≤ 1 / 36 * (5 / 4 * |x - y|) :=
      mul_le_mul heta (mul_le_mul_of_nonneg_right (hp4.trans hphi) hd0) (by positivity) (by norm_num)
    linarith
  refine ⟨_, e3.mul e2 hprod, ?_⟩
  have hfin := hmul.rnd.2.2
  refine hfin.trans ?_
  rw [abs_mul, abs_of_nonneg (by linarith : (0 : K) ≤ m / (s - t))]
  have h3 : F.phi * (F.eta * (F.phi * |x - y|)) ≤ F.phi ^ 2 * F.eta * (m / (s - t) * |x - y|) := by
    have := mul_le_mul_of_nonneg_left hxd (show 0 ≤ F.phi ^ 2 * F.eta from mul_nonneg (by positivity) F.eta_nonneg)
    calc _ = F.phi ^ 2 * F.eta * |x - y| := by ring
      _ ≤ _ := this
  rw [show 4 + 1 = 5 from rfl]
  linarith

/-- the first derivative at the ends from the control points, with the error of `first_ieee` -/
theorem first_point {p n i : ℕ} {U : List (Ieee F)} {V : List K} {P : List (Pt (Ieee F) d)} {Q : List (Pt K d)}
    (hroom : Room F p) (hp1 : 1 ≤ p) (hU : List.Forall₂ Is U V) (hV : ClampedKnots 0 1 p n V)
    (hP : List.Forall₂ PtIs P Q) (hne : fn V (i + 1) < fn V (i + p + 1)) (hh : 0 < h)
    (hgap : ∀ s ∈ V, ∀ t ∈ V, s < t → h ≤ t - s) {r : Fin d} {M : K} (hM : ∀ q ∈ Q, |q r| ≤ M) (hQ0 : Q ≠ [])
    (hmax : 8 * (p / h * (M + 1)) ≤ F.max) :
    ∃ z, Is (dpt (fn U) p (fn P) 1 i r) z ∧
      |z - p / (fn V (i + p + 1) - fn V (i + 1)) * (fn Q (i + 1) r - fn Q i r)| ≤
        (F.phi ^ 5 - 1 + F.phi ^ 2 * F.eta) *
          |p / (fn V (i + p + 1) - fn V (i + 1)) * (fn Q (i + 1) r - fn Q i r)| + F.eta := by
  have hw := hV.weaklyClamped
  have hl := hV.length
  have hV0 : V ≠ [] := by rintro rfl; simp at hl
  have hun : ∀ i, 0 ≤ fn V i ∧ fn V i ≤ 1 := fun i => hw.unit _ (fn_mem hV0 i)
  have hM0 : 0 ≤ M := (abs_nonneg _).trans (hM _ (fn_mem hQ0 0))
  have hgp := hgap _ (fn_mem hV0 (i + 1)) _ (fn_mem hV0 (i + p + 1)) hne
  have hd : |fn Q (i + 1) r - fn Q i r| ≤ 2 * M := by
    have := abs_sub (fn Q (i + 1) r) (fn Q i r)
    have h1 := hM _ (fn_mem hQ0 (i + 1))
    have h2 := hM _ (fn_mem hQ0 i)
    linarith
  have hcmp : Cmp.eq (fn U (i + p + 1)) (fn U (i + (0 + 1))) = false := by
    rw [(fn_is hU _).cmp_eq (fn_is hU _)]
    simpa using hne.ne'
  have e : dpt (fn U) p (fn P) 1 i r = ((p : ℕ) : Ieee F) / (fn U (i + p + 1) - fn U (i + 1)) *
      (fn P (i + 1) r - fn P i r) := by
    rw [dpt, hcmp]
    simp only [Bool.false_eq_true, if_false, dpt, zero_add, show p - 1 + 1 = p by omega]
    rfl
  rw [e]
  refine first_ieee (fn_is hU _) (fn_is hU _) (fn_ptIs hP _ r) (fn_ptIs hP _ r) (hroom.nat p le_rfl) hp1
    (by linarith) (by linarith [(hun (i + p + 1)).2, (hun (i + 1)).1]) (hroom.pow_le (by omega)) hroom.eta_small ?_
  refine le_trans ?_ hmax
  have h1 : (p : K) / (fn V (i + p + 1) - fn V (i + 1)) ≤ p / h := div_le_div_of_nonneg_left (by positivity) hh hgp
  have h2 : (p : K) / (fn V (i + p + 1) - fn V (i + 1)) * (|fn Q (i + 1) r - fn Q i r| + 1) ≤ p / h * (2 * (M + 1)) :=
    mul_le_mul h1 (by linarith) (by positivity) (by positivity)
  linarith

/-- **C130** The tangents at the ends: in double precision each coordinate of the first derivative at 0 and at 1 has a
relative error of at most `3 * 2^-52` (plus `2^-1075` for underflow), however close the control points are to each
other. -/
theorem C130_tangents {c : Curve (Ieee binary64) d} {e : Curve ℚ d} {p n : ℕ} {U : List (Ieee binary64)} {V : List ℚ}
    {P : List (Pt (Ieee binary64) d)} {Q : List (Pt ℚ d)} (hp1 : 1 ≤ p) (hp : p ≤ 600) (hc : Built c p U P)
    (he : ValidOn 0 1 e p n V Q) (hU : List.Forall₂ Is U V) (hP : List.Forall₂ PtIs P Q) {h : ℚ}
    (hh : (1 / 2) ^ 1000 ≤ h) (hgap : ∀ s ∈ V, ∀ t ∈ V, s < t → h ≤ t - s) :
    ∃ v v' w w', c.evaluateDerivative 0 1 = .ok (.ok v) ∧ c.evaluateDerivative 1 1 = .ok (.ok v') ∧
      e.evaluateDerivative 0 1 = .ok (.ok w) ∧ e.evaluateDerivative 1 1 = .ok (.ok w') ∧
      ∀ r M, (∀ q ∈ Q, |q r| ≤ M) → p / h * (M + 1) ≤ 2 ^ 1000 →
        (∃ y, Is (v r) y ∧ |y - w r| ≤ 3 / 2 ^ 52 * |w r| + (1 / 2) ^ 1075) ∧
        ∃ y, Is (v' r) y ∧ |y - w' r| ≤ 3 / 2 ^ 52 * |w' r| + (1 / 2) ^ 1075 := by
  have hb64 : (2 : ℚ) ^ 1023 ≤ binary64.max := by decide +kernel
  have hroom := room_binary64 hp
  have hhpos : 0 < h := lt_of_lt_of_le (by positivity) hh
  obtain ⟨-, hV, hQ⟩ := id he
  have hl := hV.length
  have hle := hV.le
  have hw := hV.weaklyClamped
  have hlU := hU.length_eq.trans hl
  have hlP : P.length = n + 1 := hP.length_eq.trans hQ
  obtain rfl := hc.ieee_eq hlU hle hlP
  have hs := sound_canon hU hw hlP
  have hV0 : V ≠ [] := by rintro rfl; simp at hl
  have hQ0 : Q ≠ [] := by rintro rfl; simp at hQ
  have h2h : 2 / h ≤ binary64.max := by
    refine le_trans (div_le_div_of_nonneg_left (by norm_num) (by positivity) hh) (le_trans ?_ hb64)
    decide +kernel
  obtain ⟨D, v, d1, d2, d3⟩ := C130_start hroom hs hp1 hV.ends_simple.1 hhpos hgap h2h is_zero
  obtain ⟨D', v', d4, d5, d6⟩ := C130_end hroom hs hp1 hV.ends_simple.2 hhpos hgap h2h is_one
  rw [d1] at d4
  obtain rfl := Except.ok.inj d4
  rw [canon_points, canonPts_matrixDerivative hp1] at d1
  obtain rfl := Except.ok.inj d1
  have g : ∀ {α : Type} [Zero α] (l : List α) i, i < l.length → l[i]? = some (fn l i) := fun l i hi => by
    rw [fn_lt hi]; exact List.getElem?_eq_getElem hi
  obtain ⟨t1, t2⟩ := C108_end_tangents he hp1 (g Q 0 (by omega)) (g Q 1 (by omega)) (g Q n (by omega))
    (g Q (n - 1) (by omega)) (g V (p + 1) (by omega)) (g V n (by omega))
  refine ⟨v, v', _, _, d2, d5, t1, t2, fun r M hM hmax => ?_⟩
  have hM0 : 0 ≤ M := (abs_nonneg _).trans (hM _ (fn_mem hQ0 0))
  have hmax8 : 8 * (p / h * (M + 1)) ≤ binary64.max := by
    refine le_trans (mul_le_mul_of_nonneg_left hmax (by norm_num)) (le_trans ?_ hb64)
    decide +kernel
  have hmaxd : 4 * ((4 * (p / h)) ^ 1 * (M + 1)) ≤ binary64.max := by
    rw [pow_one, mul_assoc 4 (p / h : ℚ), ← mul_assoc]
    refine le_trans (mul_le_mul_of_nonneg_left hmax (by norm_num)) (le_trans ?_ hb64)
    decide +kernel
  have hh1 : h ≤ 1 := by
    have e0 := hw.zero (Nat.zero_le p)
    have e1 := hw.one (i := n + 1) (by omega) (by omega)
    have := hgap _ (fn_mem hV0 0) _ (fn_mem hV0 (n + 1)) (by rw [e0, e1]; exact zero_lt_one)
    rwa [e0, e1, sub_zero] at this
  have hfin := dpt_ieee (fn_is hU) hw.monotone (fun i => hw.unit _ (fn_mem hV0 i)) hhpos hh1
    (fun i j hij => hgap _ (fn_mem hV0 i) _ (fn_mem hV0 j) hij) hroom (fn_ptIs hP) (fun i => hM _ (fn_mem hQ0 i)) 1 hp1
    hmaxd
  have hf : ∀ q ∈ (List.range (P.length - 1)).map (fun i => dpt (fn U) p (fn P) 1 i), ∃ y, Is (q r) y := by
    intro q hq
    obtain ⟨i, -, rfl⟩ := List.mem_map.mp hq
    obtain ⟨y, hy, -⟩ := hfin i
    exact ⟨y, hy⟩
  have hbound : ∀ a : ℚ, (binary64.phi ^ 5 - 1 + binary64.phi ^ 2 * binary64.eta) * |a| + binary64.eta ≤
      3 / 2 ^ 52 * |a| + (1 / 2) ^ 1075 := fun a =>
    add_le_add (mul_le_mul_of_nonneg_right (by decide +kernel) (abs_nonneg a)) (by decide +kernel)
  have hes := hV.ends_simple
  have hz1 : fn V (p + 1) ≠ 0 := fun h0 => hes.1 (by rw [g V (p + 1) (by omega), h0])
  have hz2 : fn V n ≠ 1 := fun h0 => hes.2 (by rw [g V n (by omega), h0])
  have hu1 := hw.unit _ (fn_mem hV0 (p + 1))
  have hu2 := hw.unit _ (fn_mem hV0 n)
  have e1 : fn V 1 = 0 := hw.zero hp1
  have e2 : fn V (n + p) = 1 := hw.one (by omega) (by omega)
  constructor
  · obtain ⟨z, hz, hzb⟩ := first_point (i := 0) hroom hp1 hU hV hP
      (by rw [zero_add, e1, zero_add]; exact lt_of_le_of_ne hu1.1 (Ne.symm hz1)) hhpos hgap hM hQ0 hmax8
    refine ⟨z, d3 r _ hf ?_ z hz, ?_⟩
    · rw [hlP, show n + 1 - 1 = (n - 1) + 1 by omega, List.range_succ_eq_map, List.map_cons, List.head?_cons]
    · simp only [zero_add, e1, sub_zero] at hzb
      exact hzb.trans (hbound _)
  · have hn1 : n - 1 + p + 1 = n + p := by omega
    have hn2 : n - 1 + 1 = n := by omega
    obtain ⟨z, hz, hzb⟩ := first_point (i := n - 1) hroom hp1 hU hV hP
      (by rw [hn1, hn2, e2]; exact lt_of_le_of_ne hu2.2 hz2) hhpos hgap hM hQ0 hmax8
    refine ⟨z, d6 r _ hf ?_ z hz, ?_⟩
    · rw [hlP, show n + 1 - 1 = (n - 1) + 1 by omega, List.range_succ, List.map_append, List.map_singleton,
        List.getLast?_concat]
    · rw [hn1, hn2, e2] at hzb
      exact hzb.trans (hbound _)

/-! ### A concrete case -/

/-- two control points which differ in the last bit: the tangent at 0 is exact -/
example : ∃ (c : Curve (Ieee binary64) 1) (e : Curve ℚ 1) (V : List ℚ) (Q : List (Pt ℚ 1)),
    Built c 2 [0, 0, 0, eq64 (1 / 2), 1, 1, 1] [![1], ![eq64 (1 + 1 / 2 ^ 52)], ![0], ![eq64 (3 / 10)]] ∧
    ValidOn 0 1 e 2 3 V Q ∧ List.Forall₂ Is [0, 0, 0, eq64 (1 / 2), 1, 1, 1] V ∧
    List.Forall₂ PtIs [![1], ![eq64 (1 + 1 / 2 ^ 52)], ![0], ![eq64 (3 / 10)]] Q ∧
    (∀ s ∈ V, ∀ t ∈ V, s < t → 1 / 2 ≤ t - s) ∧
    c.evaluateDerivative 0 1 = .ok (.ok ![eq64 (1 / 2 ^ 50)]) := by
  refine ⟨canon 2 [0, 0, 0, eq64 (1 / 2), 1, 1, 1] [![1], ![eq64 (1 + 1 / 2 ^ 52)], ![0], ![eq64 (3 / 10)]], _,
    [0, 0, 0, eq64 (1 / 2), 1, 1, 1].map exactOf,
    [![1], ![eq64 (1 + 1 / 2 ^ 52)], ![0], ![eq64 (3 / 10)]].map fun q r => exactOf (q r),
    mkCurve_ok (n := 3) rfl (by decide) (by decide), ⟨mkCurve_ok (n := 3) rfl (by decide) (by decide),
    by decide +kernel, rfl⟩, forall₂_exactOf (by decide +kernel), ?_, by decide +kernel, by decide +kernel⟩
  rw [List.forall₂_map_right_iff, List.forall₂_same]
  intro q hq r
  have := (by decide +kernel : ∀ q ∈ ([![1], ![eq64 (1 + 1 / 2 ^ 52)], ![0], ![eq64 (3 / 10)]] : List (Pt _ 1)), ∀ r,
    (match q r with | .fin _ _ => true | _ => false) = true) q hq r
  refine is_exactOf ?_
  revert this
  cases q r <;> simp

end BSpline
