import Verif.Props.IeeeTangent

/-!
# Repeated knots in double precision (C131)

At a knot of multiplicity `p - k` or more the sum for the `k`-th derivative has a single weight, and this weight is
computed without error.
-/

set_option linter.unusedSectionVars false

namespace BSpline

open Finset Ieee

variable {K : Type} [Field K] [LinearOrder K] [IsStrictOrderedRing K] {F : Format K} {d : ℕ}
variable {p n k z : ℕ} {U : List (Ieee F)} {V : List K} {h x : K}

/-- the computed basis functions at a knot of multiplicity `p` whose last occurrence is `z` -/
theorem Nf_knot_ieee (hU : List.Forall₂ Is U V) (hV : WeaklyClamped p n V) {u : Ieee F} (hu : Is u x) (hx0 : 0 ≤ x)
    (hzx : fn V z ≤ x) (hzs : x < fn V (z + 1)) (heq : ∀ i, z < i + p → i ≤ z → fn V i = x)
    (hh : 0 < h) (hgap : ∀ s ∈ V, ∀ t ∈ V, s < t → h ≤ t - s) (hmax : F.phi / h ≤ F.max) (q : ℕ) (hq : q ≤ p) :
    ∀ i, Is (Nf (fn U) 0 n u q i) (if i + q = z then 1 else 0) := by
  have hl := hV.length
  have hV0 : V ≠ [] := by rintro rfl; simp at hl
  have hm := hV.monotone
  have hun : ∀ i, 0 ≤ fn V i ∧ fn V i ≤ 1 := fun i => hV.unit _ (fn_mem hV0 i)
  have hx1 : x < 1 := hzs.trans_le (hun _).2
  induction q with
  | zero =>
    intro i
    have h1 : fn V (n + 1) = 1 := hV.one (by omega) (by have := hV.le; omega)
    simp only [Nf, (fn_is hU _).cmp_le hu, hu.cmp_lt (fn_is hU _), hu.cmp_eq (fn_is hU _), Nat.sub_zero, h1,
      add_zero]
    by_cases hi : i = z
    · subst hi
      rw [if_pos rfl, if_pos]
      · exact is_one
      · simp [hzx, hzs]
    · rw [if_neg hi, if_neg]
      · exact is_zero
      · simp only [hx1.ne, decide_false, Bool.and_false, Bool.or_false, Bool.and_eq_true, decide_eq_true_eq,
          not_and, not_lt]
        intro h2
        rcases Nat.lt_or_ge i z with h3 | h3
        · exact (hm (show i + 1 ≤ z by omega)).trans hzx
        · exact absurd (hzs.trans_le (hm (show z + 1 ≤ i by omega))) (not_lt.mpr h2)
  | succ q ih =>
    intro i
    have ih := ih (by omega)
    have hgap' : ∀ i j, i ≤ j → fn V j ≠ fn V i → h ≤ fn V j - fn V i := fun i j hij hne =>
      hgap _ (fn_mem hV0 i) _ (fn_mem hV0 j) (lt_of_le_of_ne (hm hij) (Ne.symm hne))
    have habs : ∀ i j, |fn V i - fn V j| ≤ 1 := fun i j => abs_le.mpr
      ⟨by linarith [(hun i).1, (hun j).2], by linarith [(hun i).2, (hun j).1]⟩
    have habs1 : ∀ i, |x - fn V i| ≤ 1 := fun i => abs_le.mpr ⟨by linarith [(hun i).2], by linarith [(hun i).1]⟩
    have habs2 : ∀ i, |fn V i - x| ≤ 1 := fun i => abs_le.mpr ⟨by linarith [(hun i).1], by linarith [(hun i).2]⟩
    have t1 := (summand_is hu (fn_is hU i) (fn_is hU (i + (q + 1))) (fn_is hU i) (ih i) (habs1 _) (habs _ _) hh
      (hgap' i (i + (q + 1)) (by omega)) hmax).1 (by
        by_cases hi : i + q = z
        · exact Or.inr (heq i (by omega) (by omega)).symm
        · exact Or.inl (if_neg hi))
    have t2 := summand_is (fn_is hU (i + 1 + (q + 1))) hu (fn_is hU (i + 1 + (q + 1))) (fn_is hU (i + 1)) (ih (i + 1))
      (habs2 _) (habs _ _) hh (hgap' (i + 1) (i + 1 + (q + 1)) (by omega)) hmax
    rw [Nf]
    by_cases hi : i + (q + 1) = z
    · have hip : i + 1 + (q + 1) = z + 1 := by omega
      have hix := heq (i + 1) (by omega) (by omega)
      have t3 := t2.2 (by rw [hip, hix]; exact hzs.ne') (by rw [hix])
      rw [if_pos (show i + 1 + q = z by omega)] at t3
      rw [if_pos hi]
      have := t1.add t3 (by rw [zero_add, abs_one]; exact F.one_le_max)
      rwa [zero_add, F.one] at this
    · have t3 := t2.1 (Or.inl (if_neg (by omega)))
      rw [if_neg hi]
      have := t1.add t3 (by rw [zero_add, abs_zero]; exact F.max_nonneg)
      rwa [zero_add, F.rnd_zero] at this

/-- the search does not go beyond the last knot which is at most `x` -/
theorem lleq_le_last {g : ℕ → K} (hm : Monotone g) (hzs : x < g (z + 1)) (r : ℕ) : ∀ i, i ≤ z → lleq g x r i ≤ z := by
  induction r with
  | zero => intro i hi; exact hi
  | succ r ih =>
    intro i hi
    rw [lleq]
    by_cases h1 : g (i + 1) ≤ x
    · have h2 : i + 1 ≤ z := by
        by_contra h2
        exact absurd (hzs.trans_le (hm (show z + 1 ≤ i + 1 by omega))) (not_lt.mpr h1)
      rw [if_pos (by simpa [Cmp.le] using h1)]
      split
      · exact h2
      · exact ih _ h2
    · rw [if_neg (by simpa [Cmp.le] using h1)]
      exact hi

/-- **C131** Let `z` be the index of the last knot which is at most `x < 1`. If the knots `z - (p - k) + 1, …, z` are
all equal to `x`, that is if `x` is a knot of multiplicity `p - k` or more, then the `k`-th derivative at `x` is
exactly the control point `z - p` stored for this derivative. -/
theorem C131_knot {c : Curve (Ieee F) d} (hroom : Room F p) (hc : Sound c p n V) (hk : k ≤ p) (hx0 : 0 ≤ x) {s t : K}
    (hz : V[z]? = some s) (hs : s ≤ x) (hz1 : V[z + 1]? = some t) (ht : x < t)
    (heq : ∀ i, z < i + (p - k) → i ≤ z → V[i]? = some x)
    (hh : 0 < h) (hgap : ∀ s ∈ V, ∀ t ∈ V, s < t → h ≤ t - s) (hhm : 2 / h ≤ F.max)
    {u : Ieee F} (hu : Is u x) :
    ∃ D v, c.points.matrixDerivative k = .ok D ∧ c.evaluateDerivative u k = .ok (.ok v) ∧
      ∀ r y, (∀ q ∈ D, ∃ y, Is (q r) y) → D[z - p]? = some y → ∀ w, Is (y r) w → Is (v r) w := by
  obtain ⟨U, hkn, hU⟩ := hc.knots
  have hV := hc.weak
  have hl := hV.length
  have hle := hV.le
  have hlU := hU.length_eq.trans hl
  have hDl := hc.shaped.lenP k hk
  have hD := hc.shaped.matrixDerivative hk
  generalize c.points.Pk.getD k [] = D at hDl hD
  have hD0 : D ≠ [] := by rintro rfl; simp at hDl; omega
  have hV0 : V ≠ [] := by rintro rfl; simp at hl
  have hget : ∀ {i : ℕ} {y : K}, V[i]? = some y → fn V i = y := fun {i y} h => by
    obtain ⟨hi, h⟩ := List.getElem?_eq_some_iff.mp h
    rw [fn_lt hi]; exact h
  have hzx : fn V z ≤ x := by rw [hget hz]; exact hs
  have hzs : x < fn V (z + 1) := by rw [hget hz1]; exact ht
  have hun : ∀ i, 0 ≤ fn V i ∧ fn V i ≤ 1 := fun i => hV.unit _ (fn_mem hV0 i)
  have hx1 : x < 1 := hzs.trans_le (hun _).2
  have hpz : p ≤ z := by
    by_contra hpz
    rw [hV.zero (by omega)] at hzs
    exact absurd hzs (not_lt.mpr hx0)
  have hzn : z ≤ n := by
    by_contra hzn
    have := hV.mono (i := n + 1) (j := z) (by omega) (by
      have := (List.getElem?_eq_some_iff.mp hz).1; omega)
    rw [hV.one (by omega) (by omega)] at this
    exact absurd (this.trans hzx) (not_le.mpr hx1)
  have hmax : F.phi / h ≤ F.max := by
    refine le_trans ?_ hhm
    have := hroom.pow_le (k := 1) (by omega)
    rw [pow_one] at this
    exact div_le_div_of_nonneg_right (by linarith) hh.le
  have g0 : Cmp.le (0 : Ieee F) u = true := by rw [is_zero.cmp_le hu]; simpa using hx0
  have g1 : Cmp.le u (1 : Ieee F) = true := by rw [hu.cmp_le is_one]; simpa using hx1.le
  refine ⟨D, _, hD, evaluateDerivative_stored hkn hlU hc.shaped.segmentsOf hD hDl hle hk g0 g1,
    fun r y hf hy w hw => ?_⟩
  have hy' : fn D (z - p) = y := by
    obtain ⟨hi, h⟩ := List.getElem?_eq_some_iff.mp hy
    rw [fn_lt hi]; exact h
  subst hy'
  have hb := lleq_bounds (fun i => fn U (i + k)) u (n - p) (p - k)
  have hlz : lleq (fun i => fn U (i + k)) u (n - p) (p - k) ≤ z - k := by
    rw [lleq_is (fun i => fn_is hU (i + k)) hu]
    refine lleq_le_last (fun i j hij => hV.monotone (by omega)) ?_ _ _ (by omega)
    rw [show z - k + 1 + k = z + 1 by omega]
    exact hzs
  generalize lleq (fun i => fn U (i + k)) u (n - p) (p - k) = l at hb hlz ⊢
  have hW := hV.order hk
  have hUW : List.Forall₂ Is ((U.drop k).take (n + p + 2 - 2 * k)) ((V.drop k).take (n + p + 2 - 2 * k)) :=
    List.forall₂_take _ (List.forall₂_drop _ hU)
  have e : ∀ {α : Type} [Zero α] (l : List α) i, l.length = n + p + 2 → i < n + p + 2 - 2 * k →
      fn ((l.drop k).take (n + p + 2 - 2 * k)) i = fn l (i + k) := fun l i hl hi => by
    rw [fn_take hi (by rw [List.length_drop]; omega), fn_drop (by omega), Nat.add_comm]
  have hN : ∀ i, i ≤ n - k → Is (Nf (fun j => fn U (j + k)) k n u (p - k) i) (if i = z - p then 1 else 0) := by
    intro i hi
    rw [Nf_lower (N := n + p + 2 - 2 * k) (g' := fn ((U.drop k).take (n + p + 2 - 2 * k))) (by omega)
      (fun i hi => (e U i hlU hi).symm) (by omega) u (p - k) i (by omega)]
    have := Nf_knot_ieee (z := z - k) hUW hW hu hx0 (by rw [e V _ hl (by omega), show z - k + k = z by omega]; exact hzx)
      (by rw [e V _ hl (by omega), show z - k + 1 + k = z + 1 by omega]; exact hzs)
      (fun i h1 h2 => by rw [e V _ hl (by omega)]; exact hget (heq _ (by omega) (by omega))) hh
      (order_gap hgap _) hmax (p - k) le_rfl i
    by_cases hi' : i = z - p
    · rw [if_pos (show i + (p - k) = z - k by omega)] at this
      rwa [if_pos hi']
    · rw [if_neg (show ¬ i + (p - k) = z - k by omega)] at this
      rwa [if_neg hi']
  have hzero : ∀ i, i ≤ n - k → i ≠ z - p → Is (scale (Nf (fun j => fn U (j + k)) k n u (p - k) i) (fn D i) r) 0 := by
    intro i hi hne
    have h1 := hN i hi
    rw [if_neg hne] at h1
    obtain ⟨z, iz⟩ := hf _ (fn_mem hD0 i)
    have h2 := h1.mul iz (by rw [zero_mul, abs_zero]; exact F.max_nonneg)
    rw [zero_mul, F.rnd_zero] at h2
    exact h2
  rw [foldl_coord, show n - k + 1 - (l - (p - k)) = (z - p - (l - (p - k))) + ((n - k - (z - p)) + 1) by omega,
    ← List.range'_append_1, List.foldl_append, show l - (p - k) + (z - p - (l - (p - k))) = z - p by omega,
    List.range'_succ, List.foldl_cons]
  refine foldl_zero_ieee _ _ _ _ ?_ fun i hi => ?_
  · have h0 := foldl_zero_ieee (F := F) (fun i => scale (Nf (fun j => fn U (j + k)) k n u (p - k) i) (fn D i) r)
        (List.range' (l - (p - k)) (z - p - (l - (p - k)))) 0 0 is_zero fun i hi => by
      have hi := List.mem_range'_1.mp hi
      exact hzero i (by omega) (by omega)
    have h1 := hN (z - p) (by omega)
    rw [if_pos rfl] at h1
    have h2 := h1.mul hw (by rw [one_mul]; exact hw.le_max)
    rw [one_mul, hw.rep] at h2
    have h3 := h0.add h2 (by rw [zero_add]; exact hw.le_max)
    rw [zero_add, hw.rep] at h3
    exact h3
  · have hi := List.mem_range'_1.mp hi
    exact hzero i (by omega) (by omega)

/-- a property which holds below some point holds for as many of the first elements of a sorted list as it counts -/
theorem sorted_countP {q : K → Bool} (hq : ∀ a b, a ≤ b → q b = true → q a = true) : ∀ {V : List K},
    V.Pairwise (· ≤ ·) → ∀ i y, V[i]? = some y → (q y = true ↔ i < V.countP q)
  | [], _, i, y, hy => by simp at hy
  | a :: V, hs, i, y, hy => by
    obtain ⟨ha, hs⟩ := List.pairwise_cons.mp hs
    cases hqa : q a with
    | true =>
      rw [List.countP_cons_of_pos hqa]
      cases i with
      | zero =>
        simp only [List.length_cons, Nat.zero_lt_succ, List.getElem?_eq_getElem, List.getElem_cons_zero,
          Option.some.injEq] at hy
        subst hy
        simp [hqa]
      | succ i =>
        rw [List.getElem?_cons_succ] at hy
        rw [sorted_countP hq hs i y hy]
        omega
    | false =>
      have hall : ∀ b ∈ a :: V, q b = false := fun b hb => by
        by_contra hb'
        rw [Bool.not_eq_false] at hb'
        rcases List.mem_cons.mp hb with rfl | hb
        · rw [hb'] at hqa; cases hqa
        · rw [hq a b (ha b hb) hb'] at hqa; cases hqa
      have h0 : (a :: V).countP q = 0 := List.countP_eq_zero.mpr fun b hb => by rw [hall b hb]; simp
      rw [h0, hall y (List.mem_of_getElem? hy)]
      simp

theorem countP_le_split (x : K) : ∀ V : List K,
    V.countP (fun y => decide (y ≤ x)) = V.countP (fun y => decide (y < x)) + V.count x
  | [] => rfl
  | a :: V => by
    rw [List.countP_cons, List.countP_cons, List.count_cons, countP_le_split x V]
    rcases lt_trichotomy a x with h | h | h
    · simp [h, h.le, h.ne]; omega
    · simp [h]; omega
    · simp [h.not_ge, h.not_gt, h.ne']

/-- **C131** for `f64`: a curve with clamped knots passes through a control point, without any error, at every knot
of multiplicity `p` or more. -/
theorem C131_f64 {c : Curve (Ieee binary64) d} {U : List (Ieee binary64)} {V : List ℚ} {x : ℚ}
    {P : List (Pt (Ieee binary64) d)} (hp : p ≤ 600) (hc : Built c p U P) (hU : List.Forall₂ Is U V)
    (hV : ClampedKnots 0 1 p n V) (hP : P.length = n + 1) (hx0 : 0 ≤ x) (hx1 : x < 1)
    (hmult : p ≤ V.count x) (hgap : ∀ s ∈ V, ∀ t ∈ V, s < t → (1 / 2) ^ 1000 ≤ t - s)
    {u : Ieee binary64} (hu : Is u x) :
    ∃ v y, c.evaluate u = .ok (.ok v) ∧ P[V.countP (· ≤ x) - (p + 1)]? = some y ∧
      ∀ r, (∀ q ∈ P, ∃ w, Is (q r) w) → ∀ w, Is (y r) w → Is (v r) w := by
  have hl := hV.length
  have hw := hV.weaklyClamped
  have hlU := hU.length_eq.trans hl
  obtain rfl := hc.ieee_eq hlU hV.le hP
  have hs := sound_canon hU hw hP
  have hle := sorted_countP (q := fun y => decide (y ≤ x)) (fun a b hab hb => by
    simp only [decide_eq_true_eq] at hb ⊢; exact hab.trans hb) hV.sorted
  have hlt := sorted_countP (q := fun y => decide (y < x)) (fun a b hab hb => by
    simp only [decide_eq_true_eq] at hb ⊢; exact hab.trans_lt hb) hV.sorted
  have hsplit := countP_le_split x V
  have hgetV : ∀ {i}, i < n + p + 2 → V[i]? = some (fn V i) := fun {i} hi => by
    rw [List.getElem?_eq_getElem (by omega), fn_lt (by omega)]
  simp only [decide_eq_true_eq] at hle hlt
  change ∃ v y, _ ∧ P[V.countP (fun y => decide (y ≤ x)) - (p + 1)]? = some y ∧ _
  have hp' : p < V.countP (fun y => decide (y ≤ x)) :=
    (hle p _ (hgetV (by omega))).mp (by rw [hw.zero le_rfl]; exact hx0)
  have hn' : V.countP (fun y => decide (y ≤ x)) ≤ n + 1 := by
    by_contra hcon
    have := (hle (n + 1) _ (hgetV (by omega))).mpr (by omega)
    rw [hw.one (by omega) (by omega)] at this
    exact absurd this (not_le.mpr hx1)
  generalize V.countP (fun y => decide (y ≤ x)) = z at hle hsplit hp' hn' ⊢
  obtain ⟨z, rfl⟩ : ∃ z', z = z' + 1 := ⟨z - 1, by omega⟩
  have hmax : 2 / (1 / 2 : ℚ) ^ 1000 ≤ binary64.max := by decide +kernel
  obtain ⟨D, v, hD, hv, h3⟩ := C131_knot (k := 0) (z := z) (room_binary64 hp) hs (Nat.zero_le p) hx0
    (hgetV (by omega)) ((hle z _ (hgetV (by omega))).mpr (by omega)) (hgetV (by omega))
    (not_le.mp fun h => absurd ((hle (z + 1) _ (hgetV (by omega))).mp h) (by omega))
    (fun i h1 h2 => by
      rw [hgetV (by omega)]
      refine congrArg some (le_antisymm ((hle i _ (hgetV (by omega))).mpr (by omega)) (not_lt.mp fun h => ?_))
      have := (hlt i _ (hgetV (by omega))).mp h
      omega) (by positivity) hgap hmax hu
  have hDP : D = P := by
    rw [ControlPoints.matrixDerivative, if_pos (Nat.zero_le _)] at hD
    exact Except.ok.inj (hD.symm.trans (canon_matrix (p := p) (V := U) (S := P)))
  subst hDP
  have e : z + 1 - (p + 1) = z - p := by omega
  rw [e]
  exact ⟨v, D[z - p], hv, List.getElem?_eq_getElem (by omega), fun r hf w hw =>
    h3 r _ hf (List.getElem?_eq_getElem (by omega)) w hw⟩

/-- **C131** A knot which rounding moved into the left end: the left curve has the knot `2^-1074`, which halving turns
into 0. Merging reports success and the first control point is the first one of the left curve, but the merged curve
starts at the second one. -/
theorem C131_start (solver : Solver (Ieee binary64) d) {S T : List (Pt (Ieee binary64) d)} (hS : S.length = 4)
    (hT : T.length = 4) :
    ∃ (a b c : Curve (Ieee binary64) d) (Ua Ub U' : List (Ieee binary64)) (Q : List (Pt (Ieee binary64) d))
      (v : Pt (Ieee binary64) d),
      Built a 1 Ua S ∧ Built b 1 Ub T ∧ ClampedKnots 0 1 1 3 (Ua.map exactOf) ∧ ClampedKnots 0 1 1 3 (Ub.map exactOf) ∧
      merge solver a b = .ok (.ok c) ∧ Built c 1 U' Q ∧ Q[0]? = S[0]? ∧ c.evaluate 0 = .ok (.ok v) ∧
      ∀ r, (∀ q ∈ Q, ∃ y, Is (q r) y) → ∀ s w, S[1]? = some s → Is (s r) w → Is (v r) w := by
  let Ua : List (Ieee binary64) := [0, 0, eq64 ((1 / 2) ^ 1074), eq64 (1 / 2), 1, 1]
  let Ub : List (Ieee binary64) := [0, 0, eq64 (1 / 4), eq64 (1 / 2), 1, 1]
  have hV : ClampedKnots 0 1 1 3 (Ua.map exactOf) := by decide +kernel
  have hW : ClampedKnots 0 1 1 3 (Ub.map exactOf) := by decide +kernel
  have ha : Built (canon 1 Ua S) 1 Ua S := mkCurve_ok (n := 3) hS (by decide) (by decide)
  have hb : Built (canon 1 Ub T) 1 Ub T := mkCurve_ok (n := 3) hT (by decide) (by decide)
  obtain ⟨Q, h1, h2, h3, -⟩ := merge_core (ua := []) (ub := []) (forall₂_exactOf (by decide +kernel))
    (forall₂_exactOf (by decide +kernel)) hV hW hS hT ha hb le_rfl (by decide) (by decide) solver
  have hc : Built (canon 1 (mergedU 1 3 3 Ua Ub) Q) 1 (mergedU 1 3 3 Ua Ub) Q :=
    mkCurve_ok (n := 6) h2 (by decide) (by decide +kernel)
  have hwk : WeaklyClamped 1 6 ((mergedU 1 3 3 Ua Ub).map exactOf) :=
    ⟨by decide +kernel, by decide +kernel, by decide +kernel, by decide +kernel, by decide⟩
  have hso := sound_canon (forall₂_exactOf (by decide +kernel)) hwk h2
  obtain ⟨D, v, hD, hv, hz⟩ := C131_knot (k := 0) (x := 0) (z := 2) (s := 0) (t := 1 / 4) (h := 1 / 8)
    (room_binary64 (by norm_num)) hso (Nat.zero_le 1) le_rfl (by decide +kernel) le_rfl (by decide +kernel)
    (by norm_num) (fun i h1 h2 => by obtain rfl : i = 2 := by omega
                                     decide +kernel) (by norm_num) (by decide +kernel) (by decide +kernel) is_zero
  have hDQ : D = Q := by
    rw [ControlPoints.matrixDerivative, if_pos (Nat.zero_le _)] at hD
    have := canon_matrix (p := 1) (V := mergedU 1 3 3 Ua Ub) (S := Q)
    exact Except.ok.inj (hD.symm.trans this)
  subst hDQ
  refine ⟨_, _, _, Ua, Ub, _, D, v, ha, hb, hV, hW, h1, hc, ?_, hv, fun r hf s w hs hw => ?_⟩
  · have e := h3 0 (by decide)
    rw [fn_lt (by omega), fn_lt (by omega)] at e
    rw [List.getElem?_eq_getElem (by omega), List.getElem?_eq_getElem (by omega), e]
  · have e := h3 1 (by decide)
    rw [fn_lt (by omega), fn_lt (by omega)] at e
    refine hz r s hf ?_ w hw
    rw [List.getElem?_eq_getElem (show 2 - 1 < D.length by omega)]
    rw [List.getElem?_eq_getElem (by omega)] at hs
    rw [← hs]
    exact congrArg some e

/-! ### A concrete case -/

example : ∃ (c : Curve (Ieee binary64) 1) (V : List ℚ), Built c 2 [0, 0, 0, eq64 (1 / 10), eq64 (1 / 10), 1, 1, 1]
      [![eq64 (1 / 10)], ![1], ![eq64 (7 / 10)], ![0], ![eq64 (3 / 10)]] ∧
    List.Forall₂ Is [0, 0, 0, eq64 (1 / 10), eq64 (1 / 10), 1, 1, 1] V ∧ ClampedKnots 0 1 2 4 V ∧
    2 ≤ V.count (exactOf (eq64 (1 / 10))) ∧ (∀ s ∈ V, ∀ t ∈ V, s < t → (1 / 2) ^ 1000 ≤ t - s) ∧
    V.countP (· ≤ exactOf (eq64 (1 / 10))) - (2 + 1) = 2 ∧
    c.evaluate (eq64 (1 / 10)) = .ok (.ok ![eq64 (7 / 10)]) :=
  ⟨canon 2 [0, 0, 0, eq64 (1 / 10), eq64 (1 / 10), 1, 1, 1]
      [![eq64 (1 / 10)], ![1], ![eq64 (7 / 10)], ![0], ![eq64 (3 / 10)]],
    [0, 0, 0, eq64 (1 / 10), eq64 (1 / 10), 1, 1, 1].map exactOf, mkCurve_ok (n := 4) rfl (by decide) (by decide),
    forall₂_exactOf (by decide +kernel), by decide +kernel, by decide +kernel, by decide +kernel, by decide +kernel,
    by decide +kernel⟩

end BSpline
