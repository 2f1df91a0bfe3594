import Verif.Props.Ieee
import Verif.Props.FloatInsert

/-!
# Knot insertion in the arithmetic of `f64`: C86
-/

set_option linter.unusedSectionVars false

namespace BSpline

open Finset Ieee

variable {K : Type} [Field K] [LinearOrder K] [IsStrictOrderedRing K] {F : Format K} {d : ℕ}

theorem multF_is {U : List (Ieee F)} {V : List K} (h : List.Forall₂ Is U V) {u : Ieee F} {x : K} (hu : Is u x)
    (p n : ℕ) : multF p n U u = multF p n V x := by
  have key : ∀ {l : List (Ieee F)} {m : List K}, List.Forall₂ Is l m →
      (l.filter fun y => Cmp.eq y u).length = (m.filter fun y => Cmp.eq y x).length := by
    intro l m h
    induction h with
    | nil => rfl
    | cons h1 _ ih =>
      rw [List.filter_cons, List.filter_cons, h1.cmp_eq hu]
      rename_i a b _ _ _
      rw [show Cmp.eq b x = decide (b = x) from rfl]
      by_cases hbx : b = x
      · simp only [hbx, decide_true, if_true, List.length_cons, ih]
      · simpa only [hbx, decide_false, Bool.false_eq_true, if_false] using ih
  exact key (List.forall₂_take _ (List.forall₂_drop _ h))

theorem insU_is {U : List (Ieee F)} {V : List K} (h : List.Forall₂ Is U V) {u : Ieee F} {x : K} (hu : Is u x)
    (l : ℕ) : List.Forall₂ Is (insU U u l) (insU V x l) :=
  List.rel_append (List.forall₂_take _ h) (.cons hu (List.forall₂_drop _ h))

/-- the weights of an insertion; they never overflow -/
theorem insert_weight_ieee {a lo hi : Ieee F} {x lo' hi' : K} (ha : Is a x) (hlo : Is lo lo') (hhi : Is hi hi')
    (h1 : lo' ≤ x) (h2 : x ≤ hi') (h3 : lo' < hi') (hd1 : hi' - lo' ≤ 1) :
    ∃ y z, Is ((a - lo) / (hi - lo)) y ∧ Is (1 - (a - lo) / (hi - lo)) z ∧ 0 ≤ y ∧ y ≤ 1 ∧ 0 ≤ z ∧ z ≤ 1 ∧
      UErr F 3 F.eta y ((x - lo') / (hi' - lo')) 1 ∧
      UErr F 4 (F.phi * F.eta) z (1 - (x - lo') / (hi' - lo')) 1 := by
  have hp : 0 < hi' - lo' := sub_pos.mpr h3
  have hn : 0 ≤ x - lo' := sub_nonneg.mpr h1
  have hnd : x - lo' ≤ hi' - lo' := by linarith
  have ha0 : 0 ≤ (x - lo') / (hi' - lo') := div_nonneg hn hp.le
  have ha1 : (x - lo') / (hi' - lo') ≤ 1 := (div_le_one hp).mpr hnd
  have e1 := ha.sub hlo (by rw [abs_of_nonneg hn]; exact (hnd.trans hd1).trans F.one_le_max)
  have e2 := hhi.sub hlo (by rw [abs_of_pos hp]; exact hd1.trans F.one_le_max)
  have hsd := F.sub hi' lo' hhi.rep hlo.rep
  rw [abs_of_pos hp] at hsd
  have hden : (hi' - lo') * (1 - F.eps) ≤ F.rnd (hi' - lo') := by have := (abs_le.mp hsd).1; linarith
  have hden0 : 0 < F.rnd (hi' - lo') := (mul_pos hp F.del_pos).trans_le hden
  have hq0 : 0 ≤ F.rnd (x - lo') / F.rnd (hi' - lo') := div_nonneg (F.rnd_nonneg hn) hden0.le
  have hq1 : F.rnd (x - lo') / F.rnd (hi' - lo') ≤ 1 := (div_le_one hden0).mpr (F.mono _ _ hnd)
  have e3 := e1.div e2 hden0.ne' (by rw [abs_of_nonneg hq0]; exact hq1.trans F.one_le_max)
  have hy0 := F.rnd_nonneg hq0
  have hy1 : F.rnd (F.rnd (x - lo') / F.rnd (hi' - lo')) ≤ 1 := by
    have := F.mono _ _ hq1
    rwa [F.one] at this
  have hquo := (UErr.quotient ha.rep hlo.rep hhi.rep hlo.rep hp hn).mono le_rfl le_rfl ha1
  generalize F.rnd (F.rnd (x - lo') / F.rnd (hi' - lo')) = y at e3 hy0 hy1 hquo
  have hz0 : 0 ≤ 1 - y := by linarith
  have e4 := is_one.sub e3 (by rw [abs_of_nonneg hz0]; exact le_trans (by linarith) F.one_le_max)
  have hz1 : F.rnd (1 - y) ≤ 1 := by
    have := F.mono (1 - y) 1 (by linarith)
    rwa [F.one] at this
  refine ⟨y, _, e3, e4, hy0, hy1, F.rnd_nonneg hz0, hz1, hquo, ?_⟩
  have h4 : UErr F 3 F.eta (1 - y) (1 - (x - lo') / (hi' - lo')) 1 := by
    refine ⟨by rw [abs_le]; constructor <;> linarith, F.eta_nonneg, ?_⟩
    have := hquo.2.2
    rwa [show (1 - y) - (1 - (x - lo') / (hi' - lo')) = -(y - (x - lo') / (hi' - lo')) by ring, abs_neg]
  exact h4.rnd_of (F.sub 1 y F.one e3.rep)

/-- a new control point -/
theorem insP_ieee {p n l i : ℕ} {U : List (Ieee F)} {V : List K} {P : List (Pt (Ieee F) d)} {Q : List (Pt K d)}
    (hroom : Room F p) (hU : List.Forall₂ Is U V) (hP : List.Forall₂ PtIs P Q) {u : Ieee F} {x : K} (hu : Is u x)
    (hV : ClampedKnots 0 1 p n V) (hm : V.count x ≤ p) (hp : p ≤ l) (hn : l ≤ n) (hl : fn V l ≤ x)
    (hl' : x ≤ fn V (l + 1)) {r : Fin d} {M : K} (hM : ∀ i, |fn Q i r| ≤ M) (hmax : 4 * (M + 1) ≤ F.max) :
    ∃ y, Is (insP (fn U) p (fn P) u l i r) y ∧
      |y - insP (fn V) p (fn Q) x l i r| ≤ 2 * (F.phi ^ 6 - 1) * M + 4 * (M + 1) * F.eta := by
  have hM0 : 0 ≤ M := (abs_nonneg _).trans (hM 0)
  have heta := F.eta_nonneg
  have hphi := F.phi_pos
  have hb : 0 ≤ 2 * (F.phi ^ 6 - 1) * M + 4 * (M + 1) * F.eta :=
    add_nonneg (mul_nonneg (mul_nonneg two_pos.le (by linarith [F.one_le_phi_pow 6])) hM0) (by positivity)
  have hcl := hV.clamp
  simp only [insP]
  split
  · exact ⟨_, fn_ptIs hP i r, by rw [sub_self, abs_zero]; exact hb⟩
  split
  swap
  · exact ⟨_, fn_ptIs hP (i - 1) r, by rw [sub_self, abs_zero]; exact hb⟩
  rename_i h1 h2
  have hlo : fn V i ≤ x := (hcl.mono (by omega)).trans hl
  have hhi : x ≤ fn V (i + p) := hl'.trans (hcl.mono (by omega))
  have hlt : fn V i < fn V (i + p) := by
    refine lt_of_le_of_ne (hlo.trans hhi) fun he => ?_
    have hr := run_le_count (U := V) (x := x) (lo := i) (s := p + 1) (by
      have := hV.length; omega) (by
        intro m hm1 hm2
        have a1 : fn V i ≤ fn V m := hcl.mono hm1
        have a2 : fn V m ≤ fn V (i + p) := hcl.mono (by omega)
        exact le_antisymm (by linarith) (by linarith))
    omega
  have hd1 : fn V (i + p) - fn V i ≤ 1 := by
    have a1 : (0 : K) ≤ fn V i := by rw [← hcl.left 0 (Nat.zero_le _)]; exact hcl.mono (Nat.zero_le i)
    have a2 : fn V (i + p) ≤ 1 := by
      rw [← hcl.right (max (i + p) (n + 1)) (le_max_right _ _)]; exact hcl.mono (le_max_left _ _)
    linarith
  obtain ⟨y, z, iy, iz, y0, y1, z0, z1, ey, ez⟩ :=
    insert_weight_ieee hu (fn_is hU i) (fn_is hU (i + p)) hlo hhi hlt hd1
  have hP1 := fn_ptIs hP (i - 1) r
  have hP2 := fn_ptIs hP i r
  have u1 : UErr F 0 0 (fn Q (i - 1) r) (fn Q (i - 1) r) M := (UErr.refl _).mono le_rfl le_rfl (hM _)
  have u2 : UErr F 0 0 (fn Q i r) (fn Q i r) M := (UErr.refl _).mono le_rfl le_rfl (hM _)
  have b1 : |z * fn Q (i - 1) r| ≤ M := by
    rw [abs_mul, abs_of_nonneg z0]
    exact (mul_le_of_le_one_left (abs_nonneg _) z1).trans (hM _)
  have b2 : |y * fn Q i r| ≤ M := by
    rw [abs_mul, abs_of_nonneg y0]
    exact (mul_le_of_le_one_left (abs_nonneg _) y1).trans (hM _)
  have t1 := iz.mul hP1 (b1.trans (by linarith))
  have t2 := iy.mul hP2 (b2.trans (by linarith))
  have f1 := (ez.mul u1).rnd
  have f2 := ((ey.mul u2).rnd).mono (show 3 + 0 + 1 ≤ 4 + 0 + 1 by omega) le_rfl le_rfl
  have hsum := f1.add f2
  have c1 := t1.le_max
  -- the sum is bounded by four times `M + 1`
  have p3 := hroom.pow_le (k := 3) (by omega)
  have p2 := hroom.pow_le (k := 2) (by omega)
  have p1 := hroom.pow_le (k := 1) (by omega)
  have p5 := hroom.pow_le (k := 4 + 0 + 1) (by omega)
  have heta' := hroom.eta_small
  rw [pow_one] at p1
  have heM : 0 ≤ F.eta * M := mul_nonneg heta hM0
  have habs : F.phi * (F.phi * (F.phi * F.eta * (F.phi ^ 0 * M) + F.phi ^ 4 * 1 * 0 + F.phi * F.eta * 0) + F.eta +
      (F.phi * (F.eta * (F.phi ^ 0 * M) + F.phi ^ 3 * 1 * 0 + F.eta * 0) + F.eta)) ≤ 4 * (M + 1) * F.eta := by
    have e : F.phi * (F.phi * (F.phi * F.eta * (F.phi ^ 0 * M) + F.phi ^ 4 * 1 * 0 + F.phi * F.eta * 0) + F.eta +
      (F.phi * (F.eta * (F.phi ^ 0 * M) + F.phi ^ 3 * 1 * 0 + F.eta * 0) + F.eta)) =
      F.phi ^ 3 * (F.eta * M) + F.phi ^ 2 * (F.eta * M) + 2 * (F.phi * F.eta) := by ring
    rw [e]
    have q1 := mul_le_mul_of_nonneg_right p3 heM
    have q2 := mul_le_mul_of_nonneg_right p2 heM
    have q3 := mul_le_mul_of_nonneg_right p1 heta
    linarith
  have hbound : |F.rnd (z * fn Q (i - 1) r) + F.rnd (y * fn Q i r)| ≤ F.max := by
    have q1 : F.phi ^ (4 + 0 + 1) * (1 * M + 1 * M) ≤ 5 / 4 * (1 * M + 1 * M) :=
      mul_le_mul_of_nonneg_right p5 (by linarith)
    have q2 := le_mul_of_one_le_left hsum.2.1 F.one_le_phi
    have q3 : (M + 1) * F.eta ≤ (M + 1) * (1 / 36) := mul_le_mul_of_nonneg_left heta' (by linarith)
    refine (hsum.abs_le.trans (add_le_add q1 (q2.trans habs))).trans (le_trans ?_ hmax)
    linarith
  have s1 := t1.add t2 hbound
  have g1 := hsum.rnd_of (F.add_err t1.rep t2.rep)
  have s2 := is_zero.add s1 (by rw [zero_add]; exact s1.le_max)
  rw [zero_add, s1.rep] at s2
  refine ⟨_, s2, ?_⟩
  have hz' : ((0 : K) + (scale (1 - (x - fn V i) / (fn V (i + p) - fn V i)) (fn Q (i - 1)) r +
      scale ((x - fn V i) / (fn V (i + p) - fn V i)) (fn Q i) r)) = _ := zero_add _
  change |_ - ((0 : K) + (scale (1 - (x - fn V i) / (fn V (i + p) - fn V i)) (fn Q (i - 1)) r +
      scale ((x - fn V i) / (fn V (i + p) - fn V i)) (fn Q i) r))| ≤ _
  rw [hz']
  refine g1.2.2.trans (add_le_add (le_of_eq ?_) habs)
  ring

/-- **C86** Knot insertion in the arithmetic of a floating-point format: for *every* clamped vector of finite
knots in [0,1], however close, and control points with all coordinates up to `M`, the computed insertion
succeeds where the exact one does, the new knots are the same without any error, all new control points are
finite, and they differ from the exact ones by at most `2 (phi^6 - 1) M + 4 (M + 1) eta`. -/
theorem C86_insert {c : Curve (Ieee F) d} {e : Curve K d} {p n : ℕ} {U : List (Ieee F)} {V : List K}
    {P : List (Pt (Ieee F) d)} {Q : List (Pt K d)} (hroom : Room F p) (hc : Built c p U P)
    (he : ValidOn 0 1 e p n V Q) (hU : List.Forall₂ Is U V) (hP : List.Forall₂ PtIs P Q)
    {u : Ieee F} {x : K} (hu : Is u x) (h0 : 0 < x) (h1 : x < 1) (hr : SimpleBelow V x) (hm : V.count x ≤ p)
    {M : K} (hM : ∀ q ∈ Q, ∀ r, |q r| ≤ M) (hmax : 4 * (M + 1) ≤ F.max) :
    ∃ (c' : Curve (Ieee F) d) (e' : Curve K d) (U' : List (Ieee F)) (V' : List K) (P' : List (Pt (Ieee F) d))
      (Y Q' : List (Pt K d)), c.insert u = .ok (c', .ok ()) ∧ e.insert x = .ok (e', .ok ()) ∧
      Built c' p U' P' ∧ ValidOn 0 1 e' p (n + 1) V' Q' ∧ List.Forall₂ Is U' V' ∧ List.Forall₂ PtIs P' Y ∧
      P'.length = n + 2 ∧ V'.Perm (x :: V) ∧ ∀ i r, |fn Y i r - fn Q' i r| ≤ 2 * (F.phi ^ 6 - 1) * M + 4 * (M + 1) * F.eta := by
  obtain rfl := he.eq_canon
  obtain ⟨-, hV, hQ⟩ := he
  have hlV := hV.length
  have hle := hV.le
  have hlU : U.length = n + p + 2 := hU.length_eq.trans hlV
  have hlP : P.length = n + 1 := hP.length_eq.trans hQ
  obtain rfl := hc.ieee_eq hlU hle hlP
  have hQ0 : Q ≠ [] := by rintro rfl; simp at hQ
  have hg := lleq_insert hV h0 h1 hr
  have hb := lleq_bounds (fn V) x (n - p) p
  have hins := insert_ok hlU hlP hle u
  have hins' := insert_ok (d := d) hlV hQ hle x
  have hcmp : (Cmp.le x 0 || Cmp.le 1 x) = false := by simp [Cmp.le, h0, h1]
  rw [multF_eq_count hV h0 h1, if_neg (by simp [hcmp]), if_neg (by omega), ← Curve.insert_eq] at hins'
  rw [multF_is hU hu, multF_eq_count hV h0 h1, if_neg (by
    rw [hu.cmp_le is_zero, is_one.cmp_le hu]; simp [h0, h1]), if_neg (by omega),
    ← Curve.insert_eq, lleq_is (fn_is hU) hu] at hins
  generalize lleq (fn V) x (n - p) p = l at hg hb hins hins'
  have hV' := insU_clamped hV h0 h1 hb.1 (by omega) hg.1 hg.2
  have hpt : ∀ i r, ∃ y, Is (insP (fn U) p (fn P) u l i r) y ∧
      |y - insP (fn V) p (fn Q) x l i r| ≤ 2 * (F.phi ^ 6 - 1) * M + 4 * (M + 1) * F.eta :=
    fun i r => insP_ieee hroom hU hP hu hV hm hb.1 (by omega) hg.1 hg.2 (fun i => hM _ (fn_mem hQ0 i) r) hmax
  choose y hy hyb using hpt
  refine ⟨_, _, insU U u l, insU V x l, _, (List.range (n + 2)).map y, _, hins, hins',
    mkCurve_ok (n := n + 1) (by simp) (by omega) (by simp [insU]; omega), validOn_canon hV' (by simp),
    insU_is hU hu l, ?_, by simp, ?_, ?_⟩
  · rw [List.forall₂_map_left_iff, List.forall₂_map_right_iff, List.forall₂_same]
    exact fun i _ => hy i
  · rw [insU]
    exact List.perm_middle.trans (by rw [List.take_append_drop])
  · intro i r
    by_cases hi : i < n + 2
    · rw [fn_map_range _ hi, fn_map_range _ hi]
      exact hyb i r
    · rw [fn_ge (by simp; omega), fn_ge (by simp; omega), fn_last (by simp), fn_last (by simp)]
      simp only [List.length_map, List.length_range]
      rw [fn_map_range _ (by omega), fn_map_range _ (by omega)]
      exact hyb _ r

/-- **C86** The computed curve after a computed insertion of `u` is still finite and close to the exact curve
before the insertion, at every parameter: with `D` the error of the new control points, the error is at most
`(phi^(6p+2) - 1) (M + D) + (p+1) 3^(p+3) (M + D + 1) eta + D`. -/
theorem C86_curve {c : Curve (Ieee F) d} {e : Curve K d} {p n : ℕ} {U : List (Ieee F)} {V : List K}
    {P : List (Pt (Ieee F) d)} {Q : List (Pt K d)} (hroom : Room F p) (hc : Built c p U P)
    (he : ValidOn 0 1 e p n V Q) (hU : List.Forall₂ Is U V) (hP : List.Forall₂ PtIs P Q)
    {u : Ieee F} {x : K} (hu : Is u x) (h0 : 0 < x) (h1 : x < 1) (hr : SimpleBelow V x) (hm : V.count x ≤ p)
    {h : K} (hh : 0 < h) (hgap : ∀ s ∈ x :: V, ∀ t ∈ x :: V, s < t → h ≤ t - s) (hhm : 2 / h ≤ F.max)
    {M : K} (hM0 : 0 ≤ M) (hM : ∀ q ∈ Q, ∀ r, |q r| ≤ M) (hmax : 8 * (M + 1) ≤ F.max) {D : K}
    (hD : D = 2 * (F.phi ^ 6 - 1) * M + 4 * (M + 1) * F.eta) :
    ∃ c', c.insert u = .ok (c', .ok ()) ∧ ∀ (v : Ieee F) (t : K), Is v t → 0 ≤ t → t ≤ 1 →
      ∃ (y : Pt (Ieee F) d) (w : Pt K d), c'.evaluate v = .ok (.ok y) ∧ e.evaluate t = .ok (.ok w) ∧
      ∀ r, ∃ z, Is (y r) z ∧ |z - w r| ≤ (F.phi ^ (6 * p + 2) - 1) * (M + D) +
          (p + 1) * 3 ^ (p + 3) * (M + D + 1) * F.eta + D := by
  have hQ0 : Q ≠ [] := by
    rintro rfl
    have := he.2.2
    simp at this
  obtain ⟨c', e', U', V', P', Y, Q', hi, hi', hb', he', hU', hP', hlP', hperm, herr⟩ :=
    C86_insert hroom hc he hU hP hu h0 h1 hr hm hM (by linarith)
  rw [← hD] at herr
  have heta := F.eta_nonneg
  have heta' := hroom.eta_small
  have hD0 : 0 ≤ D := by
    rw [hD]
    exact add_nonneg (mul_nonneg (mul_nonneg two_pos.le (by linarith [F.one_le_phi_pow 6])) hM0) (by positivity)
  have hD1 : D ≤ M + 1 := by
    have p6 := hroom.pow_le (k := 6) (by omega)
    have q1 : (F.phi ^ 6 - 1) * M ≤ 1 / 4 * M := mul_le_mul_of_nonneg_right (by linarith) hM0
    have q2 : (M + 1) * F.eta ≤ (M + 1) * (1 / 36) := mul_le_mul_of_nonneg_left heta' (by linarith)
    rw [hD]
    linarith
  have hlY : Y.length = n + 2 := hP'.length_eq.symm.trans hlP'
  refine ⟨c', hi, fun v t hv hv0 hv1 => ?_⟩
  have hpres := C15_insert_preserves_partial he hr hi' t 0
  have hm' : ValidOn 0 1 (canon p V' Y) p (n + 1) V' Y := validOn_canon he'.2.1 hlY
  obtain ⟨y, z, hy, hz, h3⟩ := C85_evaluate hroom hb' hm' hU' hP' hv hv0 hv1 hh
    (fun s hs t ht => hgap s (hperm.mem_iff.mp hs) t (hperm.mem_iff.mp ht)) hhm
  obtain ⟨z', w, hz', hw, h4⟩ := value_close hm' he' hv0 hv1
  rw [hz] at hz'
  injection hz' with hz'; injection hz' with hz'; subst hz'
  refine ⟨y, w, hy, by rw [Curve.evaluate, ← hpres]; exact hw, fun r => ?_⟩
  have hlenQ := he'.2.2
  obtain ⟨Q'', α, hQ1, hQ2, hα, -, -, hcomb⟩ := C20_convex_combination_partial he hr hi'
  have hQQ : Q'' = Q' := by
    rw [he'.eq_canon, canon_points, canonPts_matrix] at hQ1
    injection hQ1 with hQ1
    exact hQ1.symm
  subst hQQ
  have hbound : ∀ i ≤ n + 1, |fn Q'' i r| ≤ M := by
    intro i hi
    have hb1 : ∀ j, |Q.getD j 0 r| ≤ M := by
      intro j
      by_cases hj : j < Q.length
      · rw [List.getD_eq_getElem _ _ hj]
        exact hM _ (List.getElem_mem hj) r
      · rw [List.getD_eq_default _ _ (by omega)]
        simpa using hM0
    have h5 := congrFun (hcomb i hi) r
    rw [List.getD_eq_getElem _ _ (by omega), ← fn_lt (by omega)] at h5
    rw [h5]
    simp only [Pi.add_apply, Pi.smul_apply, smul_eq_mul]
    obtain ⟨ha0, ha1⟩ := hα i
    calc _ ≤ |(1 - α i) * Q.getD (i - 1) 0 r| + |α i * Q.getD i 0 r| := abs_add_le _ _
      _ = (1 - α i) * |Q.getD (i - 1) 0 r| + α i * |Q.getD i 0 r| := by
          rw [abs_mul, abs_mul, abs_of_nonneg ha0, abs_of_nonneg (by linarith : 0 ≤ 1 - α i)]
      _ ≤ (1 - α i) * M + α i * M := add_le_add
          (mul_le_mul_of_nonneg_left (hb1 _) (by linarith)) (mul_le_mul_of_nonneg_left (hb1 _) ha0)
      _ = M := by ring
  obtain ⟨a, ha, hab⟩ := h3 r (M + D) (by
    intro q hq
    obtain ⟨i, hi, rfl⟩ := List.getElem_of_mem hq
    have a1 := herr i r
    have a2 := hbound i (by omega)
    rw [fn_lt hi] at a1
    have := abs_sub_abs_le_abs_sub (Y[i] r) (fn Q'' i r)
    linarith) (by linarith)
  have h6 := h4 r D (fun i _ => herr i r)
  refine ⟨a, ha, ?_⟩
  have h7 : |a - w r| ≤ |a - z r| + |z r - w r| := abs_sub_le _ _ _
  linarith

/-- **C86** For `f64`: insertion into a curve with clamped knots and coordinates up to `M ≤ 2^1000` returns
finite control points with an error of at most `3 * 2^-50 M + (M + 1) 2^-1073`. -/
theorem C86_f64 {c : Curve (Ieee binary64) d} {e : Curve ℚ d} {p n : ℕ} {U : List (Ieee binary64)} {V : List ℚ}
    {P : List (Pt (Ieee binary64) d)} {Q : List (Pt ℚ d)} (hp : p ≤ 600) (hc : Built c p U P)
    (he : ValidOn 0 1 e p n V Q) (hU : List.Forall₂ Is U V) (hP : List.Forall₂ PtIs P Q)
    {u : Ieee binary64} {x : ℚ} (hu : Is u x) (h0 : 0 < x) (h1 : x < 1) (hr : SimpleBelow V x) (hm : V.count x ≤ p)
    {M : ℚ} (hM0 : 0 ≤ M) (hM : ∀ q ∈ Q, ∀ r, |q r| ≤ M) (hmax : M ≤ 2 ^ 1000) :
    ∃ (c' : Curve (Ieee binary64) d) (e' : Curve ℚ d) (U' : List (Ieee binary64)) (V' : List ℚ)
      (P' : List (Pt (Ieee binary64) d)) (Y Q' : List (Pt ℚ d)), c.insert u = .ok (c', .ok ()) ∧
      e.insert x = .ok (e', .ok ()) ∧ Built c' p U' P' ∧ ValidOn 0 1 e' p (n + 1) V' Q' ∧
      List.Forall₂ Is U' V' ∧ List.Forall₂ PtIs P' Y ∧ P'.length = n + 2 ∧ V'.Perm (x :: V) ∧
      ∀ i r, |fn Y i r - fn Q' i r| ≤ 3 / 2 ^ 50 * M + (M + 1) * (1 / 2) ^ 1073 := by
  have hmax' : (2 : ℚ) ^ 1023 ≤ binary64.max := by decide +kernel
  obtain ⟨c', e', U', V', P', Y, Q', hi, hi', hb', he', hU', hP', hlP', hperm, herr⟩ :=
    C86_insert (room_binary64 hp) hc he hU hP hu h0 h1 hr hm hM (by
      refine le_trans (show _ ≤ 4 * ((2 : ℚ) ^ 1000 + 1) from
        mul_le_mul_of_nonneg_left (add_le_add hmax le_rfl) (by norm_num)) (le_trans ?_ hmax')
      decide +kernel)
  refine ⟨c', e', U', V', P', Y, Q', hi, hi', hb', he', hU', hP', hlP', hperm, fun i r => (herr i r).trans ?_⟩
  have heta : binary64.eta = (1 / 2) ^ 1075 := by
    change (1 / 2 * 2 ^ ((-1022 : ℤ) - 52) : ℚ) = _
    decide +kernel
  have hphi : 2 * (binary64.phi ^ 6 - 1) ≤ 3 / 2 ^ 50 := by
    have : binary64.phi = (1 - (1 / 2) ^ 53)⁻¹ := rfl
    rw [this]
    norm_num
  refine add_le_add (mul_le_mul_of_nonneg_right hphi hM0) (le_of_eq ?_)
  rw [heta, show (1075 : ℕ) = 1073 + 2 from rfl, pow_add]
  generalize (1 / 2 : ℚ) ^ 1073 = a
  ring

/-! ### A concrete case: inserting one half into the curve of `Ieee.lean` -/

example : Is (eq64 (1 / 2)) (1 / 2) ∧ ieV.count (1 / 2) ≤ 2 ∧ SimpleBelow ieV (1 / 2) := by
  refine ⟨?_, by decide +kernel, ?_⟩
  · have := is_exactOf (x := eq64 (1 / 2)) ⟨false, ⟨1 / 2, by decide +kernel, by decide +kernel⟩, by decide +kernel⟩
    have e : exactOf (eq64 (1 / 2)) = 1 / 2 := by decide +kernel
    rwa [e] at this
  · intro x h1 h2
    by_cases h : x ∈ ieV
    · have : ∀ y ∈ ieV, 0 < y → y < (1 / 2) → ieV.count y ≤ 1 := by decide +kernel
      exact this x h h1 h2
    · rw [List.count_eq_zero_of_not_mem h]; omega

/-- the first coordinates of the control points after an insertion -/
def insertedPts (x : Exec (Curve (Ieee binary64) 1 × Except (InsertError (Ieee binary64)) Unit)) : List ℚ :=
  match x with
  | .ok (c, .ok ()) => match c.points.matrix with
    | .ok Q => Q.map fun v => exactOf (v 0)
    | .error _ => []
  | _ => []

-- the numbers a processor computes (the third and fourth are rounded, ties to even)
example : insertedPts ((canon 2 ieU ieP).insert (eq64 (1 / 2))) =
    [0, 3602879701896397 / 36028797018963968, 4953959590107545 / 9007199254740992,
      8556839292003941 / 18014398509481984, -3602879701896397 / 18014398509481984, 1] := by
  decide +kernel

end BSpline
