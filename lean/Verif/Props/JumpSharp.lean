import Verif.Props.Reverse
import Verif.Theory.Reproduce
import Verif.Theory.Junction
import Mathlib.Analysis.Calculus.IteratedDeriv.Lemmas

/-!
# Jumps at knots: C87, and the sharp form of C22

The `k`-th derivative of a curve is continuous at an interior knot of multiplicity at most `p - k`
(C12). At every other knot there are control points for which it jumps. So the conditions of C12 and
of C22 cannot be weakened.
-/

set_option linter.unusedSectionVars false

namespace BSpline

open Finset Filter Topology

section
variable {K : Type} [Field K] {d : ℕ}

/-- the elementary symmetric function vanishes if fewer than `k` arguments differ from zero -/
theorem esym_eq_zero [DecidableEq K] (ts : List K) : ∀ {k : ℕ}, ts.countP (fun t => decide (t ≠ 0)) < k → esym k ts = 0 := by
  induction ts with
  | nil => intro k hk; cases k with
    | zero => simp at hk
    | succ k => rfl
  | cons t ts ih =>
    intro k hk
    cases k with
    | zero => omega
    | succ k =>
      rw [esym]
      rw [List.countP_cons] at hk
      by_cases ht : t = 0
      · subst ht
        rw [ih (by simpa using hk), zero_mul, add_zero]
      · rw [if_pos (by simpa using ht)] at hk
        rw [ih (by omega), ih (by omega), mul_zero, add_zero]

end

variable {K : Type} [Field K] [LinearOrder K] [IsStrictOrderedRing K] {d : ℕ}

/-- derivatives of the polynomial `(t - u)^k`, in terms of polar forms -/
theorem bl_dpt_esym {U : ℕ → K} {P : ℕ → Pt K d} {p a k : ℕ} {u : K} {v : Pt K d} (hkp : k ≤ p)
    (h : ∀ ts : List K, ts.length = p → bl U ts P a = esym k (ts.map (· - u)) • v) (i : ℕ) :
    i ≤ k → ∀ ts : List K, ts.length = p - i → bl (shiftN i U) ts (dpt U p P i) a =
      (p.descFactorial i : K) • esym (k - i) (ts.map (· - u)) • v := by
  induction i with
  | zero =>
    intro _ ts hts
    rw [Nat.descFactorial_zero, Nat.cast_one, one_smul]
    exact h ts hts
  | succ i ih =>
    intro hi ts hts
    have h1 := bl_Dv (shiftN i U) ts (dpt U p P i) a
    rw [show ts.length + 1 = p - i by omega, ih (by omega) _ (by simp; omega), ih (by omega) _ (by simp; omega)] at h1
    rw [dpt_succ U (by omega), ← shift_shiftN, h1, Nat.descFactorial_succ, Nat.cast_mul,
      show k - i = (k - (i + 1)) + 1 by omega]
    simp only [List.map_cons, esym]
    module

/-- the number of knots between the spans on both sides of `u` is its multiplicity -/
theorem count_le_run {U : List K} {a b : K} {p n : ℕ} (h : ClampedKnots a b p n U) {u : K} (hub : u < b) {j j' : ℕ}
    (hs : IsSpan (fn U) n u j) (hs' : IsLeftSpan (fn U) n u j') : U.count u ≤ j - j' := by
  have hl := h.length
  have hjn := hs.le_n
  obtain ⟨hle, -⟩ := leftSpan_le h.clamp hs hs'
  have hhi : u < fn U (j + 1) := by
    rcases hs.hi with h1 | ⟨h1, h2⟩
    · exact h1
    · rw [h2, h.clamp.right _ le_rfl] at hub; exact absurd hub (lt_irrefl _)
  have e : U = U.take (j' + 1) ++ ((U.drop (j' + 1)).take (j - j') ++ U.drop (j + 1)) := by
    rw [show U.drop (j + 1) = (U.drop (j' + 1)).drop (j - j') by rw [List.drop_drop]; congr 1; omega,
      List.take_append_drop, List.take_append_drop]
  have h1 : (U.take (j' + 1)).count u = 0 := by
    rw [List.count_eq_zero]
    intro hm
    obtain ⟨i, hi, he⟩ := List.mem_iff_getElem.mp hm
    simp only [List.length_take, List.getElem_take] at hi he
    have h2 : fn U i ≤ fn U j' := h.clamp.mono (by omega)
    rw [fn_lt (by omega), he] at h2
    exact absurd (lt_of_le_of_lt h2 hs'.lo) (lt_irrefl _)
  have h2 : (U.drop (j + 1)).count u = 0 := by
    rw [List.count_eq_zero]
    intro hm
    obtain ⟨i, hi, he⟩ := List.mem_iff_getElem.mp hm
    simp only [List.length_drop, List.getElem_drop] at hi he
    have h2 : fn U (j + 1) ≤ fn U (j + 1 + i) := h.clamp.mono (by omega)
    rw [fn_lt (show j + 1 + i < U.length by omega), he] at h2
    exact absurd (lt_of_lt_of_le hhi h2) (lt_irrefl _)
  have h3 := congrArg (List.count u) e
  rw [List.count_append, List.count_append, h1, h2] at h3
  have h4 : ((U.drop (j' + 1)).take (j - j')).count u ≤ j - j' :=
    List.count_le_length.trans (by simp)
  omega

/-- control points for which the `k`-th derivative jumps at `u`: zero to the left of the knot, and
the polynomial `(t - u)^k` to the right of it -/
def jumpPt (U : ℕ → K) (p k : ℕ) (u : K) (j' : ℕ) (v : Pt K d) (i : ℕ) : Pt K d :=
  if i ≤ j' then 0 else esym k ((knotsFrom U (i + 1) p).map (· - u)) • v

theorem jump_left {U : ℕ → K} {p n k : ℕ} {a b : K} (h : Clamp U p n a b) {u : K} {j' : ℕ} (hk : k ≤ p)
    (hs' : IsLeftSpan U n u j') {P : ℕ → Pt K d} {v : Pt K d} (hP : ∀ i, i ≤ n → P i = jumpPt U p k u j' v i) :
    cv U p P k j' u = 0 := by
  have hp' := hs'.p_le h
  have hn := hs'.le_n
  have h1 : ∀ ts : List K, ts.length = p → bl U ts P (j' - p) = esym k (ts.map (· - u)) • (0 : Pt K d) := by
    intro ts hts
    rw [smul_zero, bl_congr_pts ts (P' := fun _ => 0)]
    · have := bl_smul ts U (0 : K) P
      simp only [zero_smul] at this
      rw [this]
    · intro m hm
      rw [hP _ (by omega), jumpPt, if_pos (by omega)]
  rw [cv, bl_dpt_esym hk h1 k le_rfl _ (by simp), smul_zero, smul_zero]

theorem jump_right {U : ℕ → K} {p n k : ℕ} {a b : K} (h : Clamp U p n a b) {u : K} {j j' : ℕ} (hk : k ≤ p)
    (hs : IsSpan U n u j) (hs' : IsLeftSpan U n u j') (hm : p - k < j - j') {P : ℕ → Pt K d} {v : Pt K d}
    (hP : ∀ i, i ≤ n → P i = jumpPt U p k u j' v i) : cv U p P k j u = (p.descFactorial k : K) • v := by
  obtain ⟨hle, heq⟩ := leftSpan_le h hs hs'
  have hp := hs.p_le h
  have hn := hs.le_n
  have hw : Win U p (j - p) := win_of_span h.mono hp (hs.lt h)
  have hsym : SymAffine (fun ts : List K => esym k (ts.map (· - u)) • v) := by
    refine SymAffine.smul_const (f := fun ts : List K => esym k (ts.map (· - u))) ⟨?_, ?_⟩ v
    · intro ts ts' hp; exact esym_perm (hp.map _) k
    · intro c e s t ts hc
      rw [List.map_cons, show c * s + e * t - u = c * (s - u) + e * (t - u) by linear_combination u * hc]
      exact (symAffine_esym k).affine c e (s - u) (t - u) _ hc
  have h1 : ∀ ts : List K, ts.length = p → bl U ts P (j - p) = esym k (ts.map (· - u)) • v := by
    intro ts hts
    have h2 := bl_reproduce ts hsym (a := j - p) (by rw [hts]; exact hw)
    rw [← h2]
    apply bl_congr_pts
    intro m hm'
    rw [hP _ (by omega), jumpPt, hts]
    split
    · rename_i hi
      obtain ⟨i, rfl⟩ : ∃ i, i = j - p + m := ⟨_, rfl⟩
      generalize hgi : j - p + m = i at hi ⊢
      have e : p = (j' - i) + ((j - j') + (i + p - j)) := by omega
      have h3 : knotsFrom U (i + 1) p = knotsFrom U (i + 1) (j' - i) ++
          (knotsFrom U (j' + 1) (j - j') ++ knotsFrom U (j + 1) (i + p - j)) := by
        conv_lhs => rw [e]
        rw [knotsFrom_append, knotsFrom_append, show i + 1 + (j' - i) = j' + 1 by omega,
          show j' + 1 + (j - j') = j + 1 by omega]
      have h4 : (knotsFrom U (j' + 1) (j - j')).map (· - u) = List.replicate (j - j') 0 := by
        rw [List.eq_replicate_iff]
        refine ⟨by simp, ?_⟩
        intro b hb
        simp only [knotsFrom, List.mem_map, List.mem_range', exists_exists_and_eq_and] at hb
        obtain ⟨x, ⟨y, hy, rfl⟩, rfl⟩ := hb
        rw [heq _ (by omega) (by omega), sub_self]
      rw [esym_eq_zero, zero_smul]
      rw [h3, List.map_append, List.map_append, h4, List.countP_append, List.countP_append]
      have h5 := List.countP_le_length (p := fun t : K => decide (t ≠ 0)) (l := (knotsFrom U (i + 1) (j' - i)).map (· - u))
      have h6 := List.countP_le_length (p := fun t : K => decide (t ≠ 0)) (l := (knotsFrom U (j + 1) (i + p - j)).map (· - u))
      rw [List.length_map, knotsFrom_length] at h5 h6
      have h7 : (List.replicate (j - j') (0 : K)).countP (fun t => decide (t ≠ 0)) = 0 := by
        rw [List.countP_eq_zero]
        intro x hx
        rw [List.eq_of_mem_replicate hx]; simp
      omega
    · rfl
  rw [cv, bl_dpt_esym hk h1 k le_rfl _ (by simp), Nat.sub_self, esym_zero, one_smul]

/-- a valid curve whose `k`-th derivative at an interior knot of multiplicity above `p - k` has the
limit `0` from the left and a non-zero value -/
theorem exists_jump {U : List K} {p n k : ℕ} (hU : ClampedKnots 0 1 p n U) (hk : k ≤ p) {u : K}
    (h1 : u < 1) (hm : p - k < U.count u) {j j' : ℕ} (hs : IsSpan (fn U) n u j)
    (hs' : IsLeftSpan (fn U) n u j') (hd : 0 < d) : ∃ P : List (Pt K d), P.length = n + 1 ∧
      cv (fn U) p (fn P) k j' u = 0 ∧ cv (fn U) p (fn P) k j u ≠ 0 := by
  have hP : ∀ i, i ≤ n → fn ((List.range (n + 1)).map (jumpPt (fn U) p k u j' (fun _ : Fin d => 1))) i =
      jumpPt (fn U) p k u j' (fun _ => 1) i := fun i hi => fn_map_range _ (by omega)
  refine ⟨_, by simp, jump_left hU.clamp hk hs' hP, ?_⟩
  rw [jump_right hU.clamp hk hs hs' (lt_of_lt_of_le hm (count_le_run hU h1 hs hs')) hP]
  intro h
  have := congrFun h ⟨0, hd⟩
  simp only [Pi.smul_apply, smul_eq_mul, mul_one, Pi.zero_apply, Nat.cast_eq_zero,
    Nat.descFactorial_eq_zero_iff_lt] at this
  omega

/-- the two one-sided limits of a derivative at an interior parameter -/
theorem limits_at {U : List ℝ} {P : List (Pt ℝ d)} {p n k : ℕ} {f : ℝ → Pt ℝ d} (hU : ClampedKnots 0 1 p n U)
    (hP : P.length = n + 1) (hk : k ≤ p) (hf : Computes (canon p U P) k f) {u : ℝ} (h1 : u ≤ 1)
    {j' : ℕ} (hs' : IsLeftSpan (fn U) n u j') :
    Tendsto f (𝓝[<] u) (𝓝 (cv (fn U) p (fn P) k j' u)) := by
  have hcont := ((cv_continuous (U := fn U) (p := p) (k := k) (j := j') (fn P)).tendsto
    u).mono_left (nhdsWithin_le_nhds (s := Set.Iio u))
  refine hcont.congr' ?_
  have : Set.Ioo (fn U j') u ∈ 𝓝[<] u := Ioo_mem_nhdsLT hs'.lo
  filter_upwards [this] with v hv
  have hv0 : 0 ≤ v := (hU.clamp.a_le j').trans hv.1.le
  have h3 := hf v hv0 (by linarith [hv.2])
  rw [evaluateDerivative_eq hU hP hk hv0 (by linarith [hv.2]) (hs'.isSpan hv.1.le hv.2)] at h3
  injection h3 with h3; injection h3

theorem right_continuous {U : List ℝ} {P : List (Pt ℝ d)} {p n k : ℕ} {f : ℝ → Pt ℝ d}
    (hU : ClampedKnots 0 1 p n U) (hP : P.length = n + 1) (hk : k ≤ p) (hf : Computes (canon p U P) k f)
    {u : ℝ} (h0 : 0 ≤ u) (h1 : u < 1) : ContinuousWithinAt f (Set.Ici u) u := by
  have hcl := hU.clamp
  obtain ⟨j, hs⟩ := hcl.exists_span h0 h1.le
  have hlt : u < fn U (j + 1) := by
    rcases hs.hi with h | ⟨h2, h3⟩
    · exact h
    · rw [hcl.right _ le_rfl] at h3; rw [h3] at h1; exact absurd h1 (lt_irrefl _)
  have hval : ∀ v, u ≤ v → v < fn U (j + 1) → f v = cv (fn U) p (fn P) k j v := by
    intro v h2 h3
    have hv1 : v ≤ 1 := h3.le.trans (hcl.le_b _)
    have hsv : IsSpan (fn U) n v j := ⟨hs.le_n, hs.lo.trans h2, Or.inl h3⟩
    have := hf v (h0.trans h2) hv1
    rw [evaluateDerivative_eq hU hP hk (h0.trans h2) hv1 hsv] at this
    injection this with this; injection this with this; exact this.symm
  have hcont : ContinuousWithinAt (fun v => cv (fn U) p (fn P) k j v) (Set.Ici u) u :=
    (cv_continuous (fn P)).continuousWithinAt
  apply hcont.congr_of_eventuallyEq
  · have : Set.Ico u (fn U (j + 1)) ∈ 𝓝[≥] u := Ico_mem_nhdsGE hlt
    filter_upwards [this] with v hv
    exact hval v hv.1 hv.2
  · exact hval u le_rfl hlt

/-- a derivative is continuous at an interior parameter if and only if its limit from the left is its value -/
theorem continuousAt_iff_left {U : List ℝ} {P : List (Pt ℝ d)} {p n k : ℕ} {f : ℝ → Pt ℝ d}
    (hU : ClampedKnots 0 1 p n U) (hP : P.length = n + 1) (hk : k ≤ p) (hf : Computes (canon p U P) k f)
    {u : ℝ} (h0 : 0 < u) (h1 : u < 1) {j' : ℕ} (hs' : IsLeftSpan (fn U) n u j') :
    ContinuousAt f u ↔ cv (fn U) p (fn P) k j' u = f u := by
  have hl := limits_at hU hP hk hf h1.le hs'
  have hr := right_continuous hU hP hk hf h0.le h1
  constructor
  · intro hc
    have : Tendsto f (𝓝[<] u) (𝓝 (f u)) := hc.tendsto.mono_left nhdsWithin_le_nhds
    exact tendsto_nhds_unique hl this
  · intro he
    rw [he] at hl
    exact continuousAt_iff_continuous_left_right.mpr ⟨continuousWithinAt_Iio_iff_Iic.mp hl, hr⟩

theorem exists_computes {U : List ℝ} {P : List (Pt ℝ d)} {p n : ℕ} (hU : ClampedKnots 0 1 p n U)
    (hP : P.length = n + 1) {k : ℕ} (hk : k ≤ p) : ∃ f, Computes (canon p U P) k f := by
  have : ∀ u : ℝ, ∃ v, 0 ≤ u → u ≤ 1 → (canon p U P).evaluateDerivative u k = .ok (.ok v) := by
    intro u
    by_cases h : 0 ≤ u ∧ u ≤ 1
    · obtain ⟨j, hs⟩ := hU.clamp.exists_span h.1 h.2
      exact ⟨_, fun _ _ => evaluateDerivative_eq hU hP hk h.1 h.2 hs⟩
    · exact ⟨0, fun h1 h2 => absurd ⟨h1, h2⟩ h⟩
  choose f hf using this
  exact ⟨f, hf⟩

/-- **C87** For given knots the `k`-th derivative of every curve is continuous at the interior parameter
`u` if and only if the multiplicity of `u` is at most `p - k`. -/
theorem C87_continuousAt_iff {U : List ℝ} {p n k : ℕ} (hU : ClampedKnots 0 1 p n U) (hk : k ≤ p) (hd : 0 < d)
    {u : ℝ} (h0 : 0 < u) (h1 : u < 1) :
    (∀ (c : Curve ℝ d) (P : List (Pt ℝ d)) (f : ℝ → Pt ℝ d), ValidOn 0 1 c p n U P → Computes c k f →
      ContinuousAt f u) ↔ U.count u ≤ p - k := by
  obtain ⟨j, hs⟩ := hU.clamp.exists_span h0.le h1.le
  obtain ⟨j', hs'⟩ := hU.clamp.exists_leftSpan h0 h1.le
  constructor
  · intro h
    by_contra hm
    obtain ⟨P, hP, hl, hr⟩ := exists_jump hU hk h1 (by omega) hs hs' hd
    obtain ⟨f, hf⟩ := exists_computes hU hP hk
    have h2 := (continuousAt_iff_left hU hP hk hf h0 h1 hs').mp (h _ P f (validOn_canon hU hP) hf)
    have h3 := hf u h0.le h1.le
    rw [evaluateDerivative_eq hU hP hk h0.le h1.le hs] at h3
    injection h3 with h3; injection h3 with h3
    rw [h3, ← h2] at hr
    exact hr hl
  · intro hm c P f hc hf
    obtain rfl := hc.eq_canon
    obtain ⟨-, -, hP⟩ := hc
    rw [continuousAt_iff_left hU hP hk hf h0 h1 hs', cv_glue_count hU hk hs hs' (fun _ _ => hm)]
    have h3 := hf u h0.le h1.le
    rw [evaluateDerivative_eq hU hP hk h0.le h1.le hs] at h3
    injection h3 with h3; injection h3

/-- **C87** For given knots the `k`-th derivative of every curve is continuous on `[0, 1]` if and only
if the multiplicity of every interior knot is at most `p - k`: the condition of C12 is necessary. -/
theorem C87_continuous_iff {U : List ℝ} {p n k : ℕ} (hU : ClampedKnots 0 1 p n U) (hk : k ≤ p) (hd : 0 < d) :
    (∀ (c : Curve ℝ d) (P : List (Pt ℝ d)) (f : ℝ → Pt ℝ d), ValidOn 0 1 c p n U P → Computes c k f →
      ContinuousOn f (Set.Icc 0 1)) ↔ ∀ x, 0 < x → x < 1 → U.count x ≤ p - k := by
  constructor
  · intro h x h0 h1
    rw [← C87_continuousAt_iff (d := d) hU hk hd h0 h1]
    intro c P f hc hf
    exact (h c P f hc hf).continuousAt (Icc_mem_nhds h0 h1)
  · intro h c P f hc hf
    exact C12_continuous hc hk hf h

/-- between knots the computed derivatives are the derivatives of the curve -/
theorem iterated_between {U : List ℝ} {P : List (Pt ℝ d)} {c : Curve ℝ d} {p n : ℕ} (hc : ValidOn 0 1 c p n U P)
    {f : ℕ → ℝ → Pt ℝ d} {k : ℕ} (hf : ∀ i, i ≤ k → Computes c i (f i)) (i : ℕ) : i ≤ k → k ≤ p → ∀ v, 0 < v → v < 1 →
      v ∉ U → iteratedDerivWithin i (f 0) (Set.Icc 0 1) v = f i v := by
  induction i with
  | zero => intro _ _ v _ _ _; rw [iteratedDerivWithin_zero]
  | succ i ih =>
    intro hi hk v h0 h1 hv
    rw [iteratedDerivWithin_succ, derivWithin_of_mem_nhds (Icc_mem_nhds h0 h1)]
    have hopen : ∀ᶠ w in 𝓝 v, 0 < w ∧ w < 1 ∧ w ∉ U := by
      have e1 : ∀ᶠ w in 𝓝 v, 0 < w := lt_mem_nhds h0
      have e2 : ∀ᶠ w in 𝓝 v, w < 1 := gt_mem_nhds h1
      have e3 : ∀ᶠ w in 𝓝 v, w ∉ U := by
        have hfin : {w | w ∈ U}.Finite := List.finite_toSet U
        exact hfin.isClosed.isOpen_compl.mem_nhds hv
      filter_upwards [e1, e2, e3] with w a b c using ⟨a, b, c⟩
    have : iteratedDerivWithin i (f 0) (Set.Icc 0 1) =ᶠ[𝓝 v] f i := by
      filter_upwards [hopen] with w hw
      exact ih (by omega) hk w hw.1 hw.2.1 hw.2.2
    rw [this.deriv_eq]
    exact (C11_derivative_between_knots hc (by omega) (hf i (by omega)) (hf (i + 1) hi) h0 h1 hv).deriv

/-- if the curve is `k` times continuously differentiable, then the computed `k`-th derivative is continuous -/
theorem continuousAt_of_contDiffOn {U : List ℝ} {P : List (Pt ℝ d)} {c : Curve ℝ d} {p n k : ℕ}
    (hc : ValidOn 0 1 c p n U P) (hk : k ≤ p) {f g : ℝ → Pt ℝ d} (hf : Computes c 0 f) (hg : Computes c k g)
    (hd : ContDiffOn ℝ k f (Set.Icc 0 1)) {u : ℝ} (h0 : 0 < u) (h1 : u < 1) : ContinuousAt g u := by
  obtain rfl := hc.eq_canon
  have hU := hc.2.1
  have hP := hc.2.2
  have hex : ∀ i, ∃ h : ℝ → Pt ℝ d, i ≤ k → Computes (canon p U P) i h := by
    intro i
    by_cases hi : i ≤ k
    · obtain ⟨h, hh⟩ := exists_computes hU hP (k := i) (by omega)
      exact ⟨h, fun _ => hh⟩
    · exact ⟨0, fun h => absurd h hi⟩
  choose F hF using hex
  have hcont : ContinuousAt (iteratedDerivWithin k f (Set.Icc 0 1)) u :=
    (hd.continuousOn_iteratedDerivWithin le_rfl (uniqueDiffOn_Icc zero_lt_one)).continuousAt (Icc_mem_nhds h0 h1)
  have heq0 : ∀ v, 0 ≤ v → v ≤ 1 → F 0 v = f v := by
    intro v a b
    have e1 := hF 0 (by omega) v a b
    rw [hf v a b] at e1
    injection e1 with e1; injection e1 with e1; exact e1.symm
  have heqk : ∀ v, 0 ≤ v → v ≤ 1 → F k v = g v := by
    intro v a b
    have e1 := hF k le_rfl v a b
    rw [hg v a b] at e1
    injection e1 with e1; injection e1 with e1; exact e1.symm
  have hval : ∀ v, 0 < v → v < 1 → v ∉ U → iteratedDerivWithin k f (Set.Icc 0 1) v = g v := by
    intro v a b hv
    rw [← heqk v a.le b.le, ← iterated_between hc hF k le_rfl hk v a b hv]
    exact iteratedDerivWithin_congr (fun x hx => (heq0 x hx.1 hx.2).symm) ⟨a.le, b.le⟩
  have hpunct : ∀ᶠ w in 𝓝[≠] u, iteratedDerivWithin k f (Set.Icc 0 1) w = g w := by
    have e1 : ∀ᶠ w in 𝓝[≠] u, 0 < w := eventually_nhdsWithin_of_eventually_nhds (lt_mem_nhds h0)
    have e2 : ∀ᶠ w in 𝓝[≠] u, w < 1 := eventually_nhdsWithin_of_eventually_nhds (gt_mem_nhds h1)
    have e3 : ∀ᶠ w in 𝓝[≠] u, w ∉ U := by
      have hfin : ({w | w ∈ U} \ {u}).Finite := (List.finite_toSet U).sdiff
      have := hfin.isClosed.isOpen_compl.mem_nhds (show u ∈ ({w | w ∈ U} \ {u})ᶜ by simp)
      rw [eventually_nhdsWithin_iff]
      filter_upwards [this] with w hw hne hwU
      exact hw ⟨hwU, hne⟩
    filter_upwards [e1, e2, e3] with w a b c using hval w a b c
  obtain ⟨j', hs'⟩ := hU.clamp.exists_leftSpan h0 h1.le
  rw [continuousAt_iff_left hU hP hk hg h0 h1 hs']
  have hl := limits_at hU hP hk hg h1.le hs'
  have hr : Tendsto g (𝓝[>] u) (𝓝 (g u)) := (continuousWithinAt_Ioi_iff_Ici.mpr (right_continuous hU hP hk hg h0.le h1))
  have hl' : Tendsto g (𝓝[<] u) (𝓝 (iteratedDerivWithin k f (Set.Icc 0 1) u)) :=
    (hcont.tendsto.mono_left nhdsWithin_le_nhds).congr' (hpunct.filter_mono (nhdsWithin_mono _ (fun x hx => ne_of_lt hx)))
  have hr' : Tendsto g (𝓝[>] u) (𝓝 (iteratedDerivWithin k f (Set.Icc 0 1) u)) :=
    (hcont.tendsto.mono_left nhdsWithin_le_nhds).congr' (hpunct.filter_mono (nhdsWithin_mono _ (fun x hx => ne_of_gt hx)))
  rw [tendsto_nhds_unique hl hl', tendsto_nhds_unique hr' hr]

/-- **C87** For given knots all curves are `m` times continuously differentiable if and only if the
multiplicity of every interior knot is at most `p - m`. -/
theorem C87_contDiffOn_iff {U : List ℝ} {p n m : ℕ} (hU : ClampedKnots 0 1 p n U) (hm : m ≤ p) (hd : 0 < d) :
    (∀ (c : Curve ℝ d) (P : List (Pt ℝ d)) (f : ℝ → Pt ℝ d), ValidOn 0 1 c p n U P → Computes c 0 f →
      ContDiffOn ℝ m f (Set.Icc 0 1)) ↔ ∀ x, 0 < x → x < 1 → U.count x ≤ p - m := by
  constructor
  · intro h x h0 h1
    rw [← C87_continuousAt_iff (d := d) hU hm hd h0 h1]
    intro c P g hc hg
    obtain ⟨f, hf⟩ := exists_computes hU hc.2.2 (Nat.zero_le p)
    rw [← hc.eq_canon] at hf
    exact continuousAt_of_contDiffOn hc hm hf hg (h c P f hc hf) h0 h1
  · intro h c P f hc hf
    exact C12_contDiffOn hc (by omega) hf (fun x h0 h1 => by rw [zero_add]; exact h x h0 h1)

/-- **C22** `reverse()` traverses the curve backwards at `u` if and only if the derivative of the
original curve is continuous (within the domain) at `1 - u`. -/
theorem C22_reverse_iff_continuous {c c' : Curve ℝ d} {p n k : ℕ} {U : List ℝ} {P : List (Pt ℝ d)}
    (hc : ValidOn 0 1 c p n U P) (hr : c.reverse = .ok c') {f g : ℝ → Pt ℝ d} (hf : Computes c k f)
    (hg : Computes c' k g) {u : ℝ} (h0 : 0 ≤ u) (h1 : u ≤ 1) :
    g u = (-1 : ℝ) ^ k • f (1 - u) ↔ ContinuousWithinAt f (Set.Icc 0 1) (1 - u) := by
  have hu0 : 0 ≤ 1 - u := by linarith
  have hu1 : 1 - u ≤ 1 := by linarith
  by_cases hk : k ≤ p
  swap
  · -- derivatives above the degree are zero
    have hz : ∀ v, 0 ≤ v → v ≤ 1 → f v = 0 := by
      intro v a b
      have e := hf v a b
      have : (Cmp.le 0 v && Cmp.le v 1) = true := by simp [Cmp.le, a, b]
      obtain rfl := hc.eq_canon
      simp [Curve.evaluateDerivative, hk, this] at e
      rw [← e]; rfl
    obtain ⟨v, e1, e2⟩ := C22_reverse_geometry (k := k) hc hr h0 h1 (fun _ _ h => absurd h hk)
    rw [hf _ hu0 hu1] at e1
    rw [hg _ h0 h1] at e2
    injection e1 with e1; injection e1 with e1
    injection e2 with e2; injection e2 with e2
    subst e1
    refine ⟨fun _ => ?_, fun _ => e2⟩
    refine (continuousWithinAt_const (b := (0 : Pt ℝ d))).congr (fun x hx => hz x hx.1 hx.2) (hz _ hu0 hu1)
  have hsq : ∀ v : Pt ℝ d, (-1 : ℝ) ^ k • (-1 : ℝ) ^ k • v = v := by
    intro v; rw [smul_smul, ← mul_pow]; simp
  have hc0 := hc
  obtain rfl := hc.eq_canon
  obtain ⟨-, hU, hP⟩ := hc
  rcases h1.lt_or_eq with h1' | rfl
  · have hl := C22_reverse_left_limit hc0 hr hk hf hg h0 h1'
    have hrc : ContinuousWithinAt f (Set.Icc (1 - u) 1) (1 - u) := by
      rcases h0.lt_or_eq with h0' | rfl
      · exact (right_continuous hU hP hk hf hu0 (by linarith)).mono (fun x hx => hx.1)
      · rw [sub_zero, Set.Icc_self]; exact continuousWithinAt_singleton
    have hne : (𝓝[<] (1 - u)).NeBot := inferInstance
    constructor
    · intro he
      rw [he, hsq] at hl
      have h2 : ContinuousWithinAt f (Set.Icc 0 (1 - u)) (1 - u) :=
        (continuousWithinAt_Iio_iff_Iic.mp hl).mono (fun x hx => hx.2)
      have := h2.union hrc
      rwa [Set.Icc_union_Icc_eq_Icc hu0 hu1] at this
    · intro hcont
      have h2 : Tendsto f (𝓝[<] (1 - u)) (𝓝 (f (1 - u))) := by
        have h3 : ContinuousWithinAt f (Set.Ioo 0 (1 - u)) (1 - u) :=
          hcont.mono (fun x hx => ⟨hx.1.le, hx.2.le.trans hu1⟩)
        rwa [ContinuousWithinAt, nhdsWithin_Ioo_eq_nhdsLT (by linarith)] at h3
      rw [← tendsto_nhds_unique hl h2, hsq]
  · obtain ⟨v, e1, e2⟩ := C22_reverse_geometry (k := k) hc0 hr h0 h1 (fun _ h _ => absurd h (lt_irrefl _))
    rw [hf _ hu0 hu1] at e1
    rw [hg _ h0 h1] at e2
    injection e1 with e1; injection e1 with e1
    injection e2 with e2; injection e2 with e2
    subst e1
    refine ⟨fun _ => ?_, fun _ => e2⟩
    rw [sub_self]
    exact (right_continuous hU hP hk hf le_rfl one_pos).mono (fun x hx => hx.1)

/-- **C22** For given knots and `0 < u < 1`, `reverse()` traverses every curve backwards at `u` if and
only if the multiplicity of `1 - u` is at most `p - k`. -/
theorem C22_reverse_iff_multiplicity {p n k : ℕ} {U : List K} (hU : ClampedKnots 0 1 p n U) (hk : k ≤ p) (hd : 0 < d)
    {u : K} (h0 : 0 < u) (h1 : u < 1) :
    (∀ (c c' : Curve K d) (P : List (Pt K d)) (v : Pt K d), ValidOn 0 1 c p n U P → c.reverse = .ok c' →
      c.evaluateDerivative (1 - u) k = .ok (.ok v) →
        c'.evaluateDerivative u k = .ok (.ok ((-1 : K) ^ k • v))) ↔ U.count (1 - u) ≤ p - k := by
  obtain ⟨j, hs⟩ := hU.clamp.exists_span (u := 1 - u) (by linarith) (by linarith)
  obtain ⟨j', hs'⟩ := hU.clamp.exists_leftSpan (u := 1 - u) (by linarith) (by linarith)
  constructor
  · intro h
    by_contra hm
    obtain ⟨P, hP, hl, hr⟩ := exists_jump hU hk (by linarith) (by omega) hs hs' hd
    have h2 := h _ _ P _ (validOn_canon hU hP) (reverse_canon hU.length hP hU.le)
      (evaluateDerivative_eq hU hP hk (by linarith) (by linarith) hs)
    rw [evaluate_reverse hU hP hk h0.le h1.le (Or.inl hs')] at h2
    injection h2 with h2; injection h2 with h2
    rw [hl, smul_zero] at h2
    have h3 := smul_eq_zero.mp h2.symm
    rcases h3 with h3 | h3
    · exact absurd h3 (pow_ne_zero _ (by norm_num))
    · exact hr h3
  · intro hm c c' P v hc hr hv
    obtain ⟨v', h2, h3⟩ := C22_reverse_geometry (k := k) hc hr h0.le h1.le (fun _ _ _ => hm)
    rw [hv] at h2
    injection h2 with h2; injection h2 with h2
    rw [h3, h2]

/-- non-vacuity: a quadratic with the double knot `1/2` -/
noncomputable def jumpU : List ℝ := [0, 0, 0, 1 / 2, 1 / 2, 1, 1, 1]

theorem jumpU_clamped : ClampedKnots 0 1 2 4 jumpU where
  length := rfl
  sorted := by simp [jumpU]; norm_num
  left := by simp [jumpU]
  right := by simp [jumpU]
  inner := by simp [jumpU]; norm_num
  lt := zero_lt_one
  le := by omega

theorem jumpU_count : jumpU.count (1 / 2) = 2 := by
  simp only [jumpU, List.count_cons, List.count_nil, beq_iff_eq]
  norm_num

-- all curves are continuous at `1/2`, but not all are continuously differentiable
example : (∀ (c : Curve ℝ 2) (P : List (Pt ℝ 2)) (f : ℝ → Pt ℝ 2), ValidOn 0 1 c 2 4 jumpU P → Computes c 0 f →
    ContinuousAt f (1 / 2)) ∧
  ¬ ∀ (c : Curve ℝ 2) (P : List (Pt ℝ 2)) (f : ℝ → Pt ℝ 2), ValidOn 0 1 c 2 4 jumpU P → Computes c 0 f →
    ContDiffOn ℝ (1 : ℕ) f (Set.Icc 0 1) := by
  constructor
  · rw [C87_continuousAt_iff jumpU_clamped (by omega) (by omega) (by norm_num) (by norm_num), jumpU_count]
  · rw [C87_contDiffOn_iff jumpU_clamped (by omega) (by omega)]
    intro h
    have := h (1 / 2) (by norm_num) (by norm_num)
    rw [jumpU_count] at this
    omega

end BSpline
