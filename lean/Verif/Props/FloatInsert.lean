import Verif.Props.Float
import Verif.Props.Insert

/-!
# Floating-point knot insertion: C70
-/

set_option linter.unusedSectionVars false

namespace BSpline

open Finset

variable {K : Type} [Field K] [LinearOrder K] [IsStrictOrderedRing K] {R : Rounding K} {d : ℕ}

theorem lleq_fl (U : List (Fl R)) (u : Fl R) (r i : ℕ) :
    lleq (fn U) u r i = lleq (fn (U.map Fl.val)) u.val r i := by
  rw [lleq_val, show fn (U.map Fl.val) = fun i => (fn U i).val from funext (fn_val U)]

theorem multF_fl (p n : ℕ) (U : List (Fl R)) (u : Fl R) :
    multF p n U u = multF p n (U.map Fl.val) u.val := by
  rw [multF, multF, ← List.map_drop, ← List.map_take, List.filter_map, List.length_map]
  rfl

theorem insU_fl (U : List (Fl R)) (u : Fl R) (l : ℕ) :
    (insU U u l).map Fl.val = insU (U.map Fl.val) u.val l := by
  simp [insU]

/-- the weight of the right neighbour is accurate to three roundings -/
theorem insert_weight {x lo hi : Fl R} (h1 : lo.val ≤ x.val) (h2 : x.val ≤ hi.val)
    (h3 : lo.val < hi.val) :
    Err R 3 ((x - lo) / (hi - lo)).val ((x.val - lo.val) / (hi.val - lo.val)) 1 ∧
    Err R 4 (1 - (x - lo) / (hi - lo)).val (1 - (x.val - lo.val) / (hi.val - lo.val)) 1 := by
  have hp : 0 < hi.val - lo.val := sub_pos.mpr h3
  have hn : 0 ≤ x.val - lo.val := sub_nonneg.mpr h1
  have ha0 : 0 ≤ (x.val - lo.val) / (hi.val - lo.val) := div_nonneg hn hp.le
  have ha1 : (x.val - lo.val) / (hi.val - lo.val) ≤ 1 := by
    rw [div_le_one hp]; linarith
  have hnear := ((Fl.sub_near h1).div (Fl.sub_near h3.le) hn hp).rnd ha0
  have he := (Err.of_near hnear ha0).weight_mono ha1
  refine ⟨he, ?_⟩
  have h4 : Err R 3 (1 - ((x - lo) / (hi - lo)).val) (1 - (x.val - lo.val) / (hi.val - lo.val)) 1 := by
    refine ⟨by rw [abs_le]; constructor <;> linarith, ?_⟩
    have := he.2
    rw [show (1 - ((x - lo) / (hi - lo)).val) - (1 - (x.val - lo.val) / (hi.val - lo.val)) =
      -(((x - lo) / (hi - lo)).val - (x.val - lo.val) / (hi.val - lo.val)) by ring, abs_neg]
    exact this
  have h5 := h4.rnd
  rw [Fl.val_sub, Fl.val_one]
  exact h5

/-- a new control point -/
theorem insP_err {p n l i : ℕ} {U : List (Fl R)} {P : List (Pt (Fl R) d)} {u : Fl R}
    (hU : ClampedKnots 0 1 p n (U.map Fl.val)) (hP : P ≠ [])
    (hm : (U.map Fl.val).count u.val ≤ p) (hp : p ≤ l) (hn : l ≤ n) (hl : (fn U l).val ≤ u.val)
    (hl' : u.val ≤ (fn U (l + 1)).val) {r : Fin d} {M : K} (hM : ∀ q ∈ P, |(q r).val| ≤ M) :
    |(insP (fn U) p (fn P) u l i r).val -
      insP (fn (U.map Fl.val)) p (fn (flPts P)) u.val l i r| ≤ 2 * (R.phi ^ 6 - 1) * M := by
  have hMP : ∀ i, Err R 0 (fn P i r).val (fn (flPts P) i r) M := by
    intro i
    rw [fn_flPts]
    exact (Err.refl _).weight_mono (hM _ (fn_mem hP i))
  have hM0 : 0 ≤ M := (hMP 0).weight_nonneg
  have hb : 0 ≤ 2 * (R.phi ^ 6 - 1) * M :=
    mul_nonneg (mul_nonneg two_pos.le (by linarith [R.one_le_phi_pow 6])) hM0
  have hcl := fl_clamp hU
  simp only [insP]
  split
  · rw [fn_flPts, sub_self, abs_zero]; exact hb
  · split
    · rename_i h1 h2
      have hlo : (fn U i).val ≤ u.val := (hcl.mono (by omega)).trans hl
      have hhi : u.val ≤ (fn U (i + p)).val := hl'.trans (hcl.mono (by omega))
      have hlt : (fn U i).val < (fn U (i + p)).val := by
        refine lt_of_le_of_ne (hlo.trans hhi) fun he => ?_
        have hr := run_le_count (U := U.map Fl.val) (x := u.val) (lo := i) (s := p + 1) (by
          have := hU.length; omega) (by
            intro m hm1 hm2
            rw [fn_val]
            have a1 : (fn U i).val ≤ (fn U m).val := hcl.mono hm1
            have a2 : (fn U m).val ≤ (fn U (i + p)).val := hcl.mono (by omega)
            exact le_antisymm (by linarith) (by linarith))
        omega
      obtain ⟨h3, h4⟩ := insert_weight hlo hhi hlt
      have e1 := ((h4.mul (hMP (i - 1))).rnd)
      have e2 := ((h3.mul (hMP i)).rnd).mono (show 3 + 0 + 1 ≤ 4 + 0 + 1 by omega)
      have e3 := (e1.add e2).rnd.2
      rw [fn_val, fn_val]
      have hz : ((0 : Fl R) + (scale (1 - (u - fn U i) / (fn U (i + p) - fn U i)) (fn P (i - 1)) r +
          scale ((u - fn U i) / (fn U (i + p) - fn U i)) (fn P i) r)) =
          (scale (1 - (u - fn U i) / (fn U (i + p) - fn U i)) (fn P (i - 1)) r +
          scale ((u - fn U i) / (fn U (i + p) - fn U i)) (fn P i) r) := Fl.zero_add' _
      have hz' : ((0 : K) + (scale (1 - (u.val - (fn U i).val) / ((fn U (i + p)).val - (fn U i).val))
          (fn (flPts P) (i - 1)) r +
          scale ((u.val - (fn U i).val) / ((fn U (i + p)).val - (fn U i).val)) (fn (flPts P) i) r)) =
          _ := zero_add _
      change |((0 : Fl R) + (scale (1 - (u - fn U i) / (fn U (i + p) - fn U i)) (fn P (i - 1)) r +
          scale ((u - fn U i) / (fn U (i + p) - fn U i)) (fn P i) r)).val -
        ((0 : K) + (scale (1 - (u.val - (fn U i).val) / ((fn U (i + p)).val - (fn U i).val))
          (fn (flPts P) (i - 1)) r +
          scale ((u.val - (fn U i).val) / ((fn U (i + p)).val - (fn U i).val))
            (fn (flPts P) i) r))| ≤ _
      rw [hz, hz']
      refine e3.trans (le_of_eq ?_)
      ring
    · rw [fn_flPts, sub_self, abs_zero]; exact hb

/-- curves with the same knots and close control points are close -/
theorem value_close {a b : Curve K d} {p n : ℕ} {U : List K} {P Q : List (Pt K d)}
    (ha : ValidOn 0 1 a p n U P) (hb : ValidOn 0 1 b p n U Q) {u : K} (h0 : 0 ≤ u) (h1 : u ≤ 1) :
    ∃ v w, a.evaluate u = .ok (.ok v) ∧ b.evaluate u = .ok (.ok w) ∧
      ∀ (r : Fin d) (D : K), (∀ i ≤ n, |fn P i r - fn Q i r| ≤ D) → |v r - w r| ≤ D := by
  obtain rfl := ha.eq_canon
  obtain rfl := hb.eq_canon
  obtain ⟨-, hU, hP⟩ := ha
  obtain ⟨-, -, hQ⟩ := hb
  have hcl := hU.clamp
  obtain ⟨j, hs⟩ := hcl.exists_span h0 h1
  refine ⟨_, _, evaluateDerivative_eq hU hP (Nat.zero_le p) h0 h1 hs,
    evaluateDerivative_eq hU hQ (Nat.zero_le p) h0 h1 hs, ?_⟩
  intro r D hD
  rw [← fullSum_eq_cv hcl hs (Nat.zero_le p), ← fullSum_eq_cv hcl hs (Nat.zero_le p)]
  have hN : ∀ i, Nf (fun i => fn U (i + 0)) 0 n u (p - 0) i = Bs (fn U) u (delta j) p i := by
    intro i
    rw [Nf_eq_Bs _ (by omega), ← base_eq_delta hcl hs]; rfl
  have hnn := Bs_nonneg hcl.mono hs.lo hs.le_hi p
  rw [Finset.sum_apply, Finset.sum_apply, ← sum_sub_distrib]
  simp only [hN, dpt, Pi.smul_apply, smul_eq_mul, ← mul_sub]
  refine (abs_sum_le_sum_abs _ _).trans ?_
  calc _ ≤ ∑ i ∈ range (n - 0 + 1), Bs (fn U) u (delta j) p i * D := by
        apply sum_le_sum
        intro i hi
        rw [mem_range] at hi
        rw [abs_mul, abs_of_nonneg (hnn i)]
        exact mul_le_mul_of_nonneg_left (hD i (by omega)) (hnn i)
    _ = D := by
        rw [← sum_mul, Nat.sub_zero, sum_Bs_one hcl.mono (hs.p_le hcl) hs.le_n (hs.lt hcl), one_mul]

/-- **C70** Knot insertion in floating-point arithmetic: the computed insertion succeeds where the
exact one does, the new knots are the same without any error, and the new control points differ from
the exact ones by at most `2 ((1-eps)^-6 - 1) M` in every coordinate in which the control points are
at most `M`. (The restriction to simple knots below `u` is the one of C15: the exact insertion is
wrong otherwise.) -/
theorem C70_insert {c : Curve (Fl R) d} {e : Curve K d} {p n : ℕ} {U : List (Fl R)}
    {P : List (Pt (Fl R) d)} (hc : Built c p U P)
    (he : ValidOn 0 1 e p n (U.map Fl.val) (flPts P)) {u : Fl R} (h0 : 0 < u.val)
    (h1 : u.val < 1) (hr : SimpleBelow (U.map Fl.val) u.val)
    (hm : (U.map Fl.val).count u.val ≤ p) :
    ∃ (c' : Curve (Fl R) d) (e' : Curve K d) (U' : List (Fl R)) (P' : List (Pt (Fl R) d))
      (Q' : List (Pt K d)), c.insert u = .ok (c', .ok ()) ∧ e.insert u.val = .ok (e', .ok ()) ∧
      Built c' p U' P' ∧ P'.length = n + 2 ∧ ValidOn 0 1 e' p (n + 1) (U'.map Fl.val) Q' ∧
      ∀ (r : Fin d) (M : K), (∀ q ∈ P, |(q r).val| ≤ M) → ∀ (i : ℕ) (a : Pt (Fl R) d) (b : Pt K d),
        P'[i]? = some a → Q'[i]? = some b → |(a r).val - b r| ≤ 2 * (((1 - R.eps)⁻¹) ^ 6 - 1) * M := by
  obtain rfl := he.eq_canon
  obtain ⟨-, hU, hP'⟩ := he
  have hP : P.length = n + 1 := by simpa [flPts] using hP'
  have hlen : U.length = n + p + 2 := by simpa using hU.length
  have hle := hU.le
  obtain rfl := hc.fl_eq hU hP
  have hg := lleq_insert hU h0 h1 hr
  have hb := lleq_bounds (fn (U.map Fl.val)) u.val (n - p) p
  have hins := insert_ok hlen hP hle u
  have hins' := insert_ok (d := d) hU.length hP' hle u.val
  have hcmp : (Cmp.le u.val 0 || Cmp.le 1 u.val) = false := by simp [Cmp.le, h0, h1]
  rw [multF_eq_count hU h0 h1, if_neg (by simp [hcmp]), if_neg (by omega), ← Curve.insert_eq] at hins'
  rw [multF_fl, multF_eq_count hU h0 h1, if_neg (by
    rw [Fl.cmp_le, Fl.cmp_le, Fl.val_zero, Fl.val_one, hcmp]; simp), if_neg (by omega),
    ← Curve.insert_eq, lleq_fl] at hins
  generalize lleq (fn (U.map Fl.val)) u.val (n - p) p = l at hg hb hins hins'
  have hU' := insU_clamped hU h0 h1 hb.1 (by omega) hg.1 hg.2
  refine ⟨_, _, insU U u l, _,
    (List.range (n + 2)).map (insP (fn (U.map Fl.val)) p (fn (flPts P)) u.val l), hins, hins', mkCurve_ok (n := n + 1) (by simp) (by omega)
    (by simp [insU]; omega), by simp, ?_, ?_⟩
  · rw [insU_fl]
    exact validOn_canon hU' (by simp)
  · intro r M hM i a b ha hb'
    rw [List.getElem?_map] at ha hb'
    by_cases hi : i < n + 2
    · rw [List.getElem?_range hi] at ha hb'
      simp only [Option.map_some, Option.some.injEq] at ha hb'
      subst ha; subst hb'
      rw [fn_val, fn_val] at hg
      exact insP_err hU (by rintro rfl; simp at hP) hm hb.1 (by omega) hg.1 hg.2 hM
    · rw [List.getElem?_eq_none (by simpa using hi)] at ha
      simp at ha

/-- **C70** The computed curve after a computed insertion differs from the exact curve before the
insertion by at most `((1-eps)^-(6p+2) (1 + 2 ((1-eps)^-6 - 1)) - 1) M`. -/
theorem C70_curve {c : Curve (Fl R) d} {e : Curve K d} {p n : ℕ} {U : List (Fl R)}
    {P : List (Pt (Fl R) d)} (hc : Built c p U P)
    (he : ValidOn 0 1 e p n (U.map Fl.val) (flPts P)) {u : Fl R} (h0 : 0 < u.val)
    (h1 : u.val < 1) (hr : SimpleBelow (U.map Fl.val) u.val)
    (hm : (U.map Fl.val).count u.val ≤ p) :
    ∃ c', c.insert u = .ok (c', .ok ()) ∧ ∀ v : Fl R, 0 ≤ v.val → v.val ≤ 1 →
      ∃ (y : Pt (Fl R) d) (x : Pt K d), c'.evaluate v = .ok (.ok y) ∧ e.evaluate v.val = .ok (.ok x) ∧
      ∀ (r : Fin d) (M : K), (∀ q ∈ P, |(q r).val| ≤ M) → |(y r).val - x r| ≤
        (((1 - R.eps)⁻¹) ^ (6 * p + 2) * (1 + 2 * (((1 - R.eps)⁻¹) ^ 6 - 1)) - 1) * M := by
  obtain ⟨c', e', U', P', Q', hi, hi', hb', hP', he', herr⟩ := C70_insert hc he h0 h1 hr hm
  refine ⟨c', hi, fun v hv0 hv1 => ?_⟩
  have hpres := C15_insert_preserves_partial he hr hi' v.val 0
  -- the exact curve with the computed control points
  have hm' : ValidOn 0 1 (canon p (U'.map Fl.val) (flPts P')) p (n + 1) (U'.map Fl.val) (flPts P') :=
    validOn_canon he'.2.1 (by simpa [flPts] using hP')
  obtain ⟨y, z, hy, hz, h3⟩ := C69_evaluate hb' hm' hv0 hv1
  obtain ⟨z', x, hz', hx, h4⟩ := value_close hm' he' hv0 hv1
  rw [hz] at hz'
  injection hz' with hz'; injection hz' with hz'; subst hz'
  refine ⟨y, x, hy, by rw [Curve.evaluate, ← hpres]; exact hx, fun r M hM => ?_⟩
  set D := 2 * (((1 - R.eps)⁻¹) ^ 6 - 1) with hD
  have hlenP := hP'
  have hlenQ := he'.2.2
  have hPne : P ≠ [] := by
    rintro rfl
    have := he.2.2
    simp [flPts] at this
  -- the exact new control points are bounded by `M`
  have hclose : ∀ i ≤ n + 1, |fn (flPts P') i r - fn Q' i r| ≤ D * M := by
    intro i hi
    rw [fn_flPts]
    exact herr r M hM i _ _ (by rw [fn_lt (by omega)]; exact List.getElem?_eq_getElem (by omega))
      (by rw [fn_lt (by omega)]; exact List.getElem?_eq_getElem (by omega))
  obtain ⟨Q'', α, hQ1, hQ2, hα, -, -, hcomb⟩ := C20_convex_combination_partial he hr hi'
  have hQQ : Q'' = Q' := by
    rw [he'.eq_canon, canon_points, canonPts_matrix] at hQ1
    injection hQ1 with hQ1
    exact hQ1.symm
  subst hQQ
  have hbound : ∀ i ≤ n + 1, |fn Q'' i r| ≤ M := by
    intro i hi
    have hPn := he.2.2
    have hb1 : ∀ j, |(flPts P).getD j 0 r| ≤ M := by
      intro j
      by_cases hj : j < (flPts P).length
      · rw [List.getD_eq_getElem _ _ hj, ← fn_lt hj, fn_flPts]
        exact hM _ (fn_mem hPne j)
      · rw [List.getD_eq_default _ _ (by omega)]
        obtain ⟨q, hq⟩ := List.exists_mem_of_ne_nil P hPne
        simpa using (abs_nonneg _).trans (hM q hq)
    have h5 := congrFun (hcomb i hi) r
    rw [List.getD_eq_getElem _ _ (by omega), ← fn_lt (by omega)] at h5
    rw [h5]
    simp only [Pi.add_apply, Pi.smul_apply, smul_eq_mul]
    obtain ⟨ha0, ha1⟩ := hα i
    calc _ ≤ |(1 - α i) * (flPts P).getD (i - 1) 0 r| + |α i * (flPts P).getD i 0 r| := abs_add_le _ _
      _ = (1 - α i) * |(flPts P).getD (i - 1) 0 r| + α i * |(flPts P).getD i 0 r| := by
          rw [abs_mul, abs_mul, abs_of_nonneg ha0, abs_of_nonneg (by linarith : 0 ≤ 1 - α i)]
      _ ≤ (1 - α i) * M + α i * M := add_le_add
          (mul_le_mul_of_nonneg_left (hb1 _) (by linarith)) (mul_le_mul_of_nonneg_left (hb1 _) ha0)
      _ = M := by ring
  have h5 := h3 r (M + D * M) (by
    intro q hq
    obtain ⟨i, hi, rfl⟩ := List.getElem_of_mem hq
    have a1 := hclose i (by omega)
    have a2 := hbound i (by omega)
    rw [fn_flPts, fn_lt (by omega)] at a1
    have := abs_sub_abs_le_abs_sub (P'[i] r).val (fn Q'' i r)
    linarith)
  have h6 := h4 r (D * M) hclose
  have h7 : |(y r).val - x r| ≤ |(y r).val - z r| + |z r - x r| := abs_sub_le _ _ _
  refine h7.trans ((add_le_add h5 h6).trans (le_of_eq ?_))
  ring

/-- non-vacuity: inserting one half into a quadratic `f64` curve; the new control points are rounded -/
example : 0 < (Fl.of f64 (1 / 2)).val ∧ (Fl.of f64 (1 / 2)).val < 1 ∧
    SimpleBelow (flU.map Fl.val) (Fl.of f64 (1 / 2)).val ∧
    (flU.map Fl.val).count (Fl.of f64 (1 / 2)).val ≤ 2 := by
  refine ⟨by decide +kernel, by decide +kernel, ?_, by decide +kernel⟩
  · intro x h1 _
    by_cases h : x ∈ flU.map Fl.val
    · have : ∀ y ∈ flU.map Fl.val, 0 < y → y < (Fl.of f64 (1 / 2)).val → (flU.map Fl.val).count y ≤ 1 := by
        decide +kernel
      exact this x h h1 (by assumption)
    · rw [List.count_eq_zero_of_not_mem h]; omega

example : (do
      let (c, _) ← flC.insert (Fl.of f64 (1 / 2))
      let Q ← c.points.matrix
      pure (Q.map fun v => (v 0).val) : Exec (List ℚ)) =
    .ok [0, 3602879701896397 / 36028797018963968, 2476979795053773 / 4503599627370496,
      8556839292003943 / 18014398509481984, -3602879701896397 / 18014398509481984, 1] := by
  decide +kernel

end BSpline
