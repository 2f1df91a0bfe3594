import Verif.Props.Eval
import Verif.Theory.Deriv
import Mathlib.Analysis.Calculus.ContDiff.Basic
import Mathlib.Analysis.Calculus.ContDiff.Deriv
import Mathlib.Analysis.Calculus.Deriv.Prod
import Mathlib.Topology.Order.OrderClosed

/-!
# Derivatives and smoothness: C11, C12
-/

set_option linter.unusedSectionVars false

namespace BSpline

open Finset Filter Topology

section Span

variable {K : Type} [Field K] [LinearOrder K] [IsStrictOrderedRing K] {d : ℕ}

/-- `f` is the function that `evaluate_derivative(·, k)` computes on `[0, 1]`. -/
def Computes (c : Curve K d) (k : ℕ) (f : K → Pt K d) : Prop :=
  ∀ u, 0 ≤ u → u ≤ 1 → c.evaluateDerivative u k = .ok (.ok (f u))

/-- the span to the left of `u` -/
structure IsLeftSpan (U : ℕ → K) (n : ℕ) (u : K) (j : ℕ) : Prop where
  le_n : j ≤ n
  lo : U j < u
  hi : u ≤ U (j + 1)

theorem Clamp.exists_leftSpan {U : ℕ → K} {p n : ℕ} {a b : K} (h : Clamp U p n a b) {u : K}
    (hu : a < u) (hu' : u ≤ b) : ∃ j, IsLeftSpan U n u j := by
  refine ⟨Nat.findGreatest (fun j => U j < u) n, Nat.findGreatest_le n, ?_, ?_⟩
  · exact Nat.findGreatest_spec (P := fun j => U j < u) (m := 0) (Nat.zero_le n)
      (by rw [h.left 0 (by omega)]; exact hu)
  · by_contra hc
    rw [not_le] at hc
    by_cases hn : Nat.findGreatest (fun j => U j < u) n + 1 ≤ n
    · have := Nat.le_findGreatest (P := fun j => U j < u) hn hc
      omega
    · rw [h.right _ (by omega)] at hc
      exact absurd hc (not_lt.mpr hu')

theorem IsLeftSpan.isSpan {U : ℕ → K} {n : ℕ} {u : K} {j : ℕ} (h : IsLeftSpan U n u j) {v : K}
    (h1 : U j ≤ v) (h2 : v < u) : IsSpan U n v j :=
  ⟨h.le_n, h1, Or.inl (lt_of_lt_of_le h2 h.hi)⟩

theorem IsLeftSpan.p_le {U : ℕ → K} {p n : ℕ} {a b : K} (h : Clamp U p n a b) {u : K} {j : ℕ}
    (hs : IsLeftSpan U n u j) : p ≤ j := by
  by_contra hc
  have := lt_of_lt_of_le hs.lo hs.hi
  rw [h.left j (by omega), h.left (j + 1) (by omega)] at this
  exact lt_irrefl _ this

/-- the two spans meeting at `u` and the knots in between -/
theorem leftSpan_le {U : ℕ → K} {p n : ℕ} {a b : K} (h : Clamp U p n a b) {u : K} {j j' : ℕ}
    (hs : IsSpan U n u j) (hs' : IsLeftSpan U n u j') :
    j' ≤ j ∧ ∀ i, j' < i → i ≤ j → U i = u := by
  constructor
  · by_contra hc
    have h1 : U (j + 1) ≤ U j' := h.mono (by omega)
    exact absurd (lt_of_le_of_lt (hs.le_hi.trans h1) hs'.lo) (lt_irrefl _)
  · intro i h1 h2
    apply le_antisymm
    · exact (h.mono h2).trans hs.lo
    · exact hs'.hi.trans (h.mono h1)

/-- values from both sides agree at a knot of multiplicity at most `p - k` -/
theorem cv_glue {U : ℕ → K} {p n k : ℕ} {a b : K} (h : Clamp U p n a b) {u : K} {j j' : ℕ}
    (hk : k ≤ p) (hs : IsSpan U n u j) (hs' : IsLeftSpan U n u j') (hm : j - j' ≤ p - k)
    (P : ℕ → Pt K d) : cv U p P k j' u = cv U p P k j u := by
  obtain ⟨hle, heq⟩ := leftSpan_le h hs hs'
  have hp' := hs'.p_le h
  have hp := hs.p_le h
  have hc := h.shiftN hk
  have hw1 : Win (shiftN k U) (p - k) (j' - p) := by
    have hlt := lt_of_lt_of_le hs'.lo hs'.hi
    have := win_of_span (U := shiftN k U) hc.mono (p := p - k) (j := j' - k) (by omega) (by
      simp only [shiftN_apply]
      rwa [show j' - k + k = j' by omega, show j' - k + 1 + k = j' + 1 by omega])
    rwa [show j' - k - (p - k) = j' - p by omega] at this
  have hw2 : Win (shiftN k U) (p - k) (j - p) := by
    have hlt := hs.lt h
    have := win_of_span (U := shiftN k U) hc.mono (p := p - k) (j := j - k) (by omega) (by
      simp only [shiftN_apply]
      rwa [show j - k + k = j by omega, show j - k + 1 + k = j + 1 by omega])
    rwa [show j - k - (p - k) = j - p by omega] at this
  obtain ⟨r, hr⟩ : ∃ r, p - k = (j - j') + r := ⟨p - k - (j - j'), by omega⟩
  simp only [cv]
  rw [hr] at hw1 hw2 ⊢
  have hj : j - p = j' - p + (j - j') := by omega
  rw [hj] at hw2 ⊢
  apply bl_glue r (j - j') u hw1 hw2
  intro m hm
  simp only [shiftN_apply]
  apply heq
  · omega
  · omega

/-- glueing with the multiplicity of the knot in the list -/
theorem cv_glue_count {U : List K} {p n k : ℕ} {a b : K} (h : ClampedKnots a b p n U) {u : K}
    {j j' : ℕ} (hk : k ≤ p) (hs : IsSpan (fn U) n u j) (hs' : IsLeftSpan (fn U) n u j')
    (hm : a < u → u < b → U.count u ≤ p - k) (P : ℕ → Pt K d) :
    cv (fn U) p P k j' u = cv (fn U) p P k j u := by
  obtain ⟨hle, heq⟩ := leftSpan_le h.clamp hs hs'
  rcases hle.eq_or_lt with rfl | hlt
  · rfl
  apply cv_glue h.clamp hk hs hs'
  have hjn := hs.le_n
  have hl := h.length
  have huj := heq j hlt le_rfl
  have h1 : u < b := by rw [← huj]; exact h.clamp.lt_b hjn
  have h2 : a < u := by
    rw [← huj]; exact h.clamp.a_lt (by have := hs'.p_le h.clamp; omega)
  refine le_trans ?_ (hm h2 h1)
  apply run_le_count (lo := j' + 1)
  · omega
  · intro i h3 h4; exact heq i (by omega) (by omega)

end Span

variable {d : ℕ}

theorem cv_hasDerivAt {U : ℕ → ℝ} {p n k j : ℕ} {a b : ℝ} (h : Clamp U p n a b) (hk : k < p)
    (hp : p ≤ j) (hlt : U j < U (j + 1)) (P : ℕ → Pt ℝ d) (u : ℝ) :
    HasDerivAt (fun v => cv U p P k j v) (cv U p P (k + 1) j u) u := by
  have hc := h.shiftN hk.le
  have hw : Win (shiftN k U) (p - k) (j - p) := by
    have := win_of_span (U := shiftN k U) hc.mono (p := p - k) (j := j - k) (by omega) (by
      simp only [shiftN_apply]
      rwa [show j - k + k = j by omega, show j - k + 1 + k = j + 1 by omega])
    rwa [show j - k - (p - k) = j - p by omega] at this
  have := bl_hasDerivAt (E := Pt ℝ d) (p - k) (P := dpt U p P k) u hw
  rw [shift_shiftN, ← dpt_succ U hk, show p - k - 1 = p - (k + 1) by omega] at this
  exact this

/-- the continuity of a single polynomial piece -/
theorem cv_continuous {U : ℕ → ℝ} {p k j : ℕ} (P : ℕ → Pt ℝ d) :
    Continuous (fun v => cv U p P k j v) := by
  have key : ∀ (q : ℕ) (U : ℕ → ℝ) (f : ℝ → ℕ → Pt ℝ d), (∀ i, Continuous (fun v => f v i)) →
      ∀ a, Continuous (fun v => bl U (List.replicate q v) (f v) a) := by
    intro q
    induction q with
    | zero => intro U f hf a; simpa using hf a
    | succ q ih =>
      intro U f hf a
      simp only [List.replicate_succ, bl_cons, List.length_replicate]
      apply ih
      intro i
      simp only [D]
      have h1 := hf i
      have h2 := hf (i + 1)
      fun_prop
  exact key _ _ (fun _ => dpt U p P k) (fun _ => continuous_const) _

/-- A concrete smooth case: simple interior knots. -/
noncomputable def exR : List ℝ := [0, 0, 0, 1 / 3, 2 / 3, 1, 1, 1]

theorem exR_clamped : ClampedKnots 0 1 2 4 exR where
  length := rfl
  sorted := by norm_num [exR]
  left := by norm_num [exR]
  right := by norm_num [exR]
  inner := by norm_num [exR]
  lt := by norm_num
  le := by norm_num

section C11

variable {c : Curve ℝ d} {p n k : ℕ} {U : List ℝ} {P : List (Pt ℝ d)} {f g : ℝ → Pt ℝ d}

theorem right_deriv_aux (hU : ClampedKnots 0 1 p n U) (hP : P.length = n + 1) (hk : k < p)
    (hf : Computes (canon p U P) k f) {u : ℝ} {j : ℕ} (h0 : 0 ≤ u) (h1 : u < 1)
    (hs : IsSpan (fn U) n u j) :
    HasDerivWithinAt f (cv (fn U) p (fn P) (k + 1) j u) (Set.Ici u) u := by
  have hcl := hU.clamp
  have hd := (cv_hasDerivAt hcl hk (hs.p_le hcl) (hs.lt hcl) (fn P) u).hasDerivWithinAt
    (s := Set.Ici u)
  have hval : ∀ v, u ≤ v → v < fn U (j + 1) → f v = cv (fn U) p (fn P) k j v := by
    intro v h2 h3
    have hv1 : v ≤ 1 := h3.le.trans (hcl.le_b _)
    have hsv : IsSpan (fn U) n v j := ⟨hs.le_n, hs.lo.trans h2, Or.inl h3⟩
    have := hf v (h0.trans h2) hv1
    rw [evaluateDerivative_eq hU hP hk.le (h0.trans h2) hv1 hsv] at this
    injection this with this; injection this with this; exact this.symm
  have hlt : u < fn U (j + 1) := by
    rcases hs.hi with h | ⟨h2, h3⟩
    · exact h
    · rw [hcl.right _ le_rfl] at h3; rw [h3] at h1; exact absurd h1 (lt_irrefl _)
  apply hd.congr_of_eventuallyEq
  · have : Set.Ico u (fn U (j + 1)) ∈ 𝓝[≥] u := Ico_mem_nhdsGE hlt
    filter_upwards [this] with v hv
    exact hval v hv.1 hv.2
  · exact hval u le_rfl hlt

theorem left_value_aux (hU : ClampedKnots 0 1 p n U) (hP : P.length = n + 1) (hk : k ≤ p)
    (hf : Computes (canon p U P) k f) {u : ℝ} {j j' : ℕ} (h0 : 0 < u) (h1 : u ≤ 1)
    (hs : IsSpan (fn U) n u j) (hs' : IsLeftSpan (fn U) n u j')
    (hm : 0 < u → u < 1 → U.count u ≤ p - k) :
    ∀ v, fn U j' < v → v ≤ u → f v = cv (fn U) p (fn P) k j' v := by
  intro v h2 h3
  have hv0 : 0 ≤ v := (hU.clamp.a_le j').trans h2.le
  have := hf v hv0 (h3.trans h1)
  rcases h3.lt_or_eq with h4 | rfl
  · rw [evaluateDerivative_eq hU hP hk hv0 (h3.trans h1) (hs'.isSpan h2.le h4)] at this
    injection this with this; injection this with this; exact this.symm
  · rw [evaluateDerivative_eq hU hP hk hv0 (h3.trans h1) hs] at this
    injection this with this; injection this with this
    rw [← this, cv_glue_count hU hk hs hs' hm]

theorem left_deriv_aux (hU : ClampedKnots 0 1 p n U) (hP : P.length = n + 1) (hk : k < p)
    (hf : Computes (canon p U P) k f) {u : ℝ} {j j' : ℕ} (h0 : 0 < u) (h1 : u ≤ 1)
    (hs : IsSpan (fn U) n u j) (hs' : IsLeftSpan (fn U) n u j')
    (hm : 0 < u → u < 1 → U.count u ≤ p - k) :
    HasDerivWithinAt f (cv (fn U) p (fn P) (k + 1) j' u) (Set.Iic u) u := by
  have hcl := hU.clamp
  have hd := (cv_hasDerivAt hcl hk (hs'.p_le hcl) (lt_of_lt_of_le hs'.lo hs'.hi) (fn P)
    u).hasDerivWithinAt (s := Set.Iic u)
  have hval := left_value_aux hU hP hk.le hf h0 h1 hs hs' hm
  apply hd.congr_of_eventuallyEq
  · have : Set.Ioc (fn U j') u ∈ 𝓝[≤] u := Ioc_mem_nhdsLE hs'.lo
    filter_upwards [this] with v hv
    exact hval v hv.1 hv.2
  · exact hval u hs'.lo le_rfl

/-- **C11** `evaluate_derivative(·, k+1)` is the right derivative of `evaluate_derivative(·, k)`
at every `u ∈ [0, 1)`, whatever the multiplicities of the knots. -/
theorem C11_right_derivative (hc : ValidOn 0 1 c p n U P) (hk : k < p) (hf : Computes c k f)
    (hg : Computes c (k + 1) g) {u : ℝ} (h0 : 0 ≤ u) (h1 : u < 1) :
    HasDerivWithinAt f (g u) (Set.Ici u) u := by
  obtain rfl := hc.eq_canon
  obtain ⟨-, hU, hP⟩ := hc
  obtain ⟨j, hs⟩ := hU.clamp.exists_span h0 h1.le
  have := hg u h0 h1.le
  rw [evaluateDerivative_eq hU hP hk h0 h1.le hs] at this
  injection this with this; injection this with this
  rw [← this]
  exact right_deriv_aux hU hP hk hf h0 h1 hs

/-- **C11** … the left derivative at `u = 1` … -/
theorem C11_left_derivative_at_one (hc : ValidOn 0 1 c p n U P) (hk : k < p) (hf : Computes c k f)
    (hg : Computes c (k + 1) g) : HasDerivWithinAt f (g 1) (Set.Iic 1) 1 := by
  obtain rfl := hc.eq_canon
  obtain ⟨-, hU, hP⟩ := hc
  have hcl := hU.clamp
  obtain ⟨j, hs⟩ := hcl.exists_span zero_le_one le_rfl
  have hj : j = n := by
    rcases hs.hi with h | ⟨h, _⟩
    · exact absurd (lt_of_lt_of_le h (hcl.le_b _)) (lt_irrefl _)
    · exact h
  have hs' : IsLeftSpan (fn U) n 1 j := ⟨hs.le_n, hcl.lt_b hs.le_n, hs.le_hi⟩
  have := hg 1 zero_le_one le_rfl
  rw [evaluateDerivative_eq hU hP hk zero_le_one le_rfl hs] at this
  injection this with this; injection this with this
  rw [← this]
  exact left_deriv_aux hU hP hk hf one_pos le_rfl hs hs' (fun _ h => absurd h (lt_irrefl _))

/-- **C11** … and the two-sided derivative at every interior `u` that is not a knot. -/
theorem C11_derivative_between_knots (hc : ValidOn 0 1 c p n U P) (hk : k < p)
    (hf : Computes c k f) (hg : Computes c (k + 1) g) {u : ℝ} (h0 : 0 < u) (h1 : u < 1)
    (hu : u ∉ U) : HasDerivAt f (g u) u := by
  have hr := C11_right_derivative hc hk hf hg h0.le h1
  obtain rfl := hc.eq_canon
  obtain ⟨-, hU, hP⟩ := hc
  have hcl := hU.clamp
  obtain ⟨j, hs⟩ := hcl.exists_span h0.le h1.le
  have hjl : j < U.length := by have := hU.length; have := hs.le_n; omega
  have hne : fn U j ≠ u := by
    intro h; apply hu; rw [← h, fn_lt hjl]; exact List.getElem_mem _
  have hs' : IsLeftSpan (fn U) n u j := ⟨hs.le_n, lt_of_le_of_ne hs.lo hne, hs.le_hi⟩
  have hl := left_deriv_aux hU hP hk hf h0 h1.le hs hs'
    (fun _ _ => by rw [List.count_eq_zero_of_not_mem hu]; omega)
  have := hg u h0.le h1.le
  rw [evaluateDerivative_eq hU hP hk h0.le h1.le hs] at this
  injection this with this; injection this with this
  rw [this] at hl
  have := hl.union hr
  rwa [Set.Iic_union_Ici, hasDerivWithinAt_univ] at this

/-- **C11** At every parameter whose multiplicity is at most `p - k - 1` the derivative is
two-sided (relative to `[0, 1]`). -/
theorem C11_derivative_within (hc : ValidOn 0 1 c p n U P) (hk : k < p)
    (hf : Computes c k f) (hg : Computes c (k + 1) g) {u : ℝ} (h0 : 0 ≤ u) (h1 : u ≤ 1)
    (hm : 0 < u → u < 1 → U.count u ≤ p - (k + 1)) :
    HasDerivWithinAt f (g u) (Set.Icc 0 1) u := by
  rcases h1.lt_or_eq with h1' | rfl
  · have hr := C11_right_derivative hc hk hf hg h0 h1'
    rcases h0.lt_or_eq with h0' | rfl
    · obtain rfl := hc.eq_canon
      obtain ⟨-, hU, hP⟩ := hc
      have hcl := hU.clamp
      obtain ⟨j, hs⟩ := hcl.exists_span h0 h1
      obtain ⟨j', hs'⟩ := hcl.exists_leftSpan h0' h1
      have hl := left_deriv_aux hU hP hk hf h0' h1 hs hs'
        (fun a b => (hm a b).trans (by omega))
      rw [cv_glue_count hU hk hs hs' hm] at hl
      have := hg u h0 h1
      rw [evaluateDerivative_eq hU hP hk h0 h1 hs] at this
      injection this with this; injection this with this
      rw [this] at hl
      have := hl.union hr
      rw [Set.Iic_union_Ici] at this
      exact this.mono (Set.subset_univ _)
    · exact hr.mono (fun x hx => hx.1)
  · exact (C11_left_derivative_at_one hc hk hf hg).mono (fun x hx => hx.2)

/-- **C12** The `k`-th derivative is continuous on `[0, 1]` when every interior knot has
multiplicity at most `p - k`. -/
theorem C12_continuous (hc : ValidOn 0 1 c p n U P) (hk : k ≤ p) (hf : Computes c k f)
    (hm : ∀ x, 0 < x → x < 1 → U.count x ≤ p - k) : ContinuousOn f (Set.Icc 0 1) := by
  obtain rfl := hc.eq_canon
  obtain ⟨-, hU, hP⟩ := hc
  have hcl := hU.clamp
  intro u ⟨h0, h1⟩
  obtain ⟨j, hs⟩ := hcl.exists_span h0 h1
  have hright : ContinuousWithinAt f (Set.Icc u 1) u := by
    rcases h1.lt_or_eq with h1' | rfl
    · have hlt : u < fn U (j + 1) := by
        rcases hs.hi with h | ⟨h2, h3⟩
        · exact h
        · rw [hcl.right _ le_rfl] at h3; rw [h3] at h1'; exact absurd h1' (lt_irrefl _)
      have hval : ∀ v, u ≤ v → v < fn U (j + 1) → f v = cv (fn U) p (fn P) k j v := by
        intro v h2 h3
        have hv1 : v ≤ 1 := h3.le.trans (hcl.le_b _)
        have hsv : IsSpan (fn U) n v j := ⟨hs.le_n, hs.lo.trans h2, Or.inl h3⟩
        have := hf v (h0.trans h2) hv1
        rw [evaluateDerivative_eq hU hP hk (h0.trans h2) hv1 hsv] at this
        injection this with this; injection this with this; exact this.symm
      have hcont : ContinuousWithinAt (fun v => cv (fn U) p (fn P) k j v) (Set.Ici u) u :=
        (cv_continuous (fn P)).continuousWithinAt
      refine ContinuousWithinAt.mono (t := Set.Ici u) ?_ (fun x hx => hx.1)
      apply hcont.congr_of_eventuallyEq
      · have : Set.Ico u (fn U (j + 1)) ∈ 𝓝[≥] u := Ico_mem_nhdsGE hlt
        filter_upwards [this] with v hv
        exact hval v hv.1 hv.2
      · exact hval u le_rfl hlt
    · rw [Set.Icc_self]; exact continuousWithinAt_singleton
  have hleft : ContinuousWithinAt f (Set.Icc 0 u) u := by
    rcases h0.lt_or_eq with h0' | rfl
    · obtain ⟨j', hs'⟩ := hcl.exists_leftSpan h0' h1
      have hval := left_value_aux hU hP hk hf h0' h1 hs hs' (hm u)
      have hcont : ContinuousWithinAt (fun v => cv (fn U) p (fn P) k j' v) (Set.Iic u) u :=
        (cv_continuous (fn P)).continuousWithinAt
      refine ContinuousWithinAt.mono (t := Set.Iic u) ?_ (fun x hx => hx.2)
      apply hcont.congr_of_eventuallyEq
      · have : Set.Ioc (fn U j') u ∈ 𝓝[≤] u := Ioc_mem_nhdsLE hs'.lo
        filter_upwards [this] with v hv
        exact hval v hv.1 hv.2
      · exact hval u hs'.lo le_rfl
    · rw [Set.Icc_self]; exact continuousWithinAt_singleton
  have := hleft.union hright
  rwa [Set.Icc_union_Icc_eq_Icc h0 h1] at this

/-- **C12** If every interior knot has multiplicity at most `p - m`, the curve is `m` times
continuously differentiable on `[0, 1]`. -/
theorem C12_contDiffOn (hc : ValidOn 0 1 c p n U P) {m : ℕ} (hkm : k + m ≤ p)
    (hf : Computes c k f) (hm : ∀ x, 0 < x → x < 1 → U.count x ≤ p - (k + m)) :
    ContDiffOn ℝ m f (Set.Icc 0 1) := by
  induction m generalizing k f with
  | zero =>
    rw [Nat.cast_zero, contDiffOn_zero]
    exact C12_continuous hc hkm hf hm
  | succ m ih =>
    have hex : ∃ g, Computes c (k + 1) g := by
      obtain rfl := hc.eq_canon
      obtain ⟨-, hU, hP⟩ := hc
      have : ∀ u : ℝ, ∃ v, 0 ≤ u → u ≤ 1 → (canon p U P).evaluateDerivative u (k + 1) = .ok (.ok v) := by
        intro u
        by_cases h : 0 ≤ u ∧ u ≤ 1
        · obtain ⟨j, hs⟩ := hU.clamp.exists_span h.1 h.2
          exact ⟨_, fun _ _ => evaluateDerivative_eq hU hP (by omega) h.1 h.2 hs⟩
        · exact ⟨0, fun h1 h2 => absurd ⟨h1, h2⟩ h⟩
      choose g hg using this
      exact ⟨g, fun u h1 h2 => hg u h1 h2⟩
    obtain ⟨g, hg⟩ := hex
    have hd : ∀ u ∈ Set.Icc (0 : ℝ) 1, HasDerivWithinAt f (g u) (Set.Icc 0 1) u := by
      intro u hu
      exact C11_derivative_within hc (by omega) hf hg hu.1 hu.2
        (fun a b => (hm u a b).trans (by omega))
    have hg' := ih (k := k + 1) (f := g) (by omega) hg
      (by intro x a b; have := hm x a b; omega)
    have hud := uniqueDiffOn_Icc (zero_lt_one (α := ℝ))
    rw [Nat.cast_succ, contDiffOn_succ_iff_derivWithin hud]
    refine ⟨fun u hu => (hd u hu).differentiableWithinAt, by simp, ?_⟩
    exact hg'.congr (fun u hu => (hd u hu).derivWithin (hud u hu))

/-- **C12** The crate documentation: with simple interior knots a curve of degree `p` is `p - 1`
times continuously differentiable. -/
theorem C12_simple_knots (hc : ValidOn 0 1 c p n U P) (hp : 1 ≤ p) (hf : Computes c 0 f)
    (hm : ∀ x, 0 < x → x < 1 → U.count x ≤ 1) : ContDiffOn ℝ (p - 1 : ℕ) f (Set.Icc 0 1) :=
  C12_contDiffOn hc (by omega) hf (fun x a b => (hm x a b).trans (by omega))

/-- non-vacuity of C11/C12: a quadratic with simple interior knots -/
example (P : List (Pt ℝ 2)) (hP : P.length = 5) : ∃ c f, ValidOn 0 1 c 2 4 exR P ∧
    Computes c 0 f ∧ ContDiffOn ℝ (2 - 1 : ℕ) f (Set.Icc 0 1) := by
  have hv := validOn_canon exR_clamped hP
  have : ∀ u : ℝ, ∃ v, 0 ≤ u → u ≤ 1 → (canon 2 exR P).evaluateDerivative u 0 = .ok (.ok v) := by
    intro u
    by_cases h : 0 ≤ u ∧ u ≤ 1
    · obtain ⟨j, hs⟩ := exR_clamped.clamp.exists_span h.1 h.2
      exact ⟨_, fun _ _ => evaluateDerivative_eq exR_clamped hP (by omega) h.1 h.2 hs⟩
    · exact ⟨0, fun h1 h2 => absurd ⟨h1, h2⟩ h⟩
  choose g hg using this
  refine ⟨_, g, hv, fun u h1 h2 => hg u h1 h2, ?_⟩
  apply C12_simple_knots hv (by norm_num) (fun u h1 h2 => hg u h1 h2)
  intro x h0 h1
  have h2 : exR.count x = if x = 1 / 3 ∨ x = 2 / 3 then 1 else 0 := by
    simp only [exR, List.count_cons, List.count_nil, beq_iff_eq]
    rw [if_neg h1.ne', if_neg h0.ne]
    by_cases h3 : x = 1 / 3
    · subst h3; norm_num
    · by_cases h4 : x = 2 / 3
      · subst h4; norm_num
      · rw [if_neg (fun h => h4 h.symm), if_neg (fun h => h3 h.symm), if_neg (by tauto)]
  rw [h2]; split <;> omega

end C11

end BSpline
