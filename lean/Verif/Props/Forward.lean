import Verif.Spec.Forward
import Verif.Props.ConvergeFast
import Verif.Props.Smooth
import Mathlib.Topology.Order.IntermediateValue

/-!
# Curves that move forward in a direction: C152

If every control point lies further in some direction than the one before it, the curve never stops: it moves forward
in this direction at least as fast as the slowest control point of its derivative, and passes no point twice.
-/

set_option linter.unusedSectionVars false

namespace BSpline

open Finset

variable {K : Type} [Field K] [LinearOrder K] [IsStrictOrderedRing K] {d : ℕ}

theorem along_sum {ι : Type} (w : Pt K d) (s : Finset ι) (a : ι → K) (v : ι → Pt K d) :
    along w (∑ i ∈ s, a i • v i) = ∑ i ∈ s, a i * along w (v i) := by
  simp only [along, Finset.sum_apply, Pi.smul_apply, smul_eq_mul, mul_sum]
  rw [sum_comm]
  exact sum_congr rfl fun i _ => sum_congr rfl fun r _ => by ring

theorem speed_iff {p n : ℕ} {U : List K} {P : List (Pt K d)} (hU : ClampedKnots 0 1 p n U) (hP : P.length = n + 1)
    {w : Pt K d} {m : K} : SpeedAtLeast p n U P w m ↔ ∀ i, i < n →
      m * (fn U (i + p + 1) - fn U (i + 1)) ≤ p * (along w (fn P (i + 1)) - along w (fn P i)) := by
  have hl := hU.length
  refine forall₂_congr fun i hi => ?_
  rw [getD_eq_fn (by omega), getD_eq_fn (by omega), getD_eq_fn (by omega), getD_eq_fn (by omega)]

/-- **C152** A curve moves forward in the direction `w` at least with the speed `m`, if its derivative control points
do. -/
theorem C152_at_least {c : Curve K d} {p n : ℕ} {U : List K} {P : List (Pt K d)} (hc : ValidOn 0 1 c p n U P)
    (hp : 1 ≤ p) {w : Pt K d} {m : K} (hm : SpeedAtLeast p n U P w m) {u v : K} (h0 : 0 ≤ u) (huv : u ≤ v)
    (h1 : v ≤ 1) {a b : Pt K d} (ha : c.evaluate u = .ok (.ok a)) (hb : c.evaluate v = .ok (.ok b)) :
    m * (v - u) ≤ along w b - along w a := by
  obtain rfl := hc.eq_canon
  have hU := hc.2.1
  have hP := hc.2.2
  have hl := hU.length
  rw [speed_iff hU hP] at hm
  have hp0 : (0 : K) < p := by exact_mod_cast hp
  -- the curve minus the straight movement
  set R : List (Pt K 1) := (List.range (n + 1)).map fun i => ![along w (fn P i) - m * greville p U i] with hR
  have hRl : R.length = n + 1 := by simp [hR]
  have hval : ∀ x, 0 ≤ x → x ≤ 1 → ∀ q, (canon p U P).evaluate x = .ok (.ok q) →
      (canon p U R).evaluate x = .ok (.ok ![along w q - m * x]) := by
    intro x x0 x1 q hq
    rw [evaluate_sum hU hP x0 x1] at hq
    injection hq with hq; injection hq with hq
    rw [evaluate_sum hU hRl x0 x1]
    congr 2
    funext r
    obtain rfl : r = 0 := Subsingleton.elim _ _
    rw [← hq, along_sum, Finset.sum_apply]
    have : ∀ i ∈ range (n + 1), (nb p n U i x • fn R i) 0 =
        nb p n U i x * along w (fn P i) - m * (nb p n U i x * greville p U i) := by
      intro i hi
      rw [mem_range] at hi
      rw [hR, fn_map_range _ hi, Pi.smul_apply, smul_eq_mul]
      simp only [Matrix.cons_val_zero]
      ring
    rw [sum_congr rfl this, sum_sub_distrib, ← mul_sum, sum_nb_greville hU hp x0 x1]
    rfl
  have hmono : (R.map fun q => q 0).Pairwise (· ≤ ·) := by
    rw [List.pairwise_iff_getElem]
    have hstep : ∀ i, i < n → along w (fn P i) - m * greville p U i ≤
        along w (fn P (i + 1)) - m * greville p U (i + 1) := by
      intro i hi
      have h2 := greville_step (p := p) (i := i) (U := U) (by omega)
      have h3 := hm i hi
      have h4 : m * (greville p U (i + 1) - greville p U i) ≤ along w (fn P (i + 1)) - along w (fn P i) := by
        rw [h2, ← mul_div_assoc, div_le_iff₀ hp0]
        linarith
      linarith
    have hall : ∀ i j, i ≤ j → j ≤ n → along w (fn P i) - m * greville p U i ≤
        along w (fn P j) - m * greville p U j := by
      intro i j hij
      induction j, hij using Nat.le_induction with
      | base => intro _; exact le_rfl
      | succ j _ ih => intro hj; exact (ih (by omega)).trans (hstep j (by omega))
    intro i j hi hj hij
    simp only [hR, List.length_map, List.length_range] at hi hj
    simp only [hR, List.getElem_map, List.getElem_range, Matrix.cons_val_zero]
    exact hall i j hij.le (by omega)
  have := C63_monotone_coordinate (validOn_canon hU hRl) hp 0 hmono h0 huv h1 (hval u h0 (huv.trans h1) a ha)
    (hval v (h0.trans huv) h1 b hb)
  simp only [Matrix.cons_val_zero] at this
  linarith

theorem along_neg (w v : Pt K d) : along (-w) v = -along w v := by
  simp [along, Finset.sum_neg_distrib]

/-- **C152** and at most with the speed `m`, if they do. -/
theorem C152_at_most {c : Curve K d} {p n : ℕ} {U : List K} {P : List (Pt K d)} (hc : ValidOn 0 1 c p n U P)
    (hp : 1 ≤ p) {w : Pt K d} {m : K} (hm : SpeedAtMost p n U P w m) {u v : K} (h0 : 0 ≤ u) (huv : u ≤ v)
    (h1 : v ≤ 1) {a b : Pt K d} (ha : c.evaluate u = .ok (.ok a)) (hb : c.evaluate v = .ok (.ok b)) :
    along w b - along w a ≤ m * (v - u) := by
  have := C152_at_least (w := -w) (m := -m) hc hp (fun i hi => by
    have := hm i hi
    rw [along_neg, along_neg]
    linarith) h0 huv h1 ha hb
  rw [along_neg, along_neg] at this
  linarith

theorem speed_of_forward {p n : ℕ} {U : List K} {P : List (Pt K d)} (hU : ClampedKnots 0 1 p n U)
    (hP : P.length = n + 1) (hp : 1 ≤ p) {w : Pt K d} (hf : Forward w P) : ∃ m, 0 < m ∧ SpeedAtLeast p n U P w m := by
  have hle := hU.le
  have hstep : ∀ i, i < n → 0 < along w (fn P (i + 1)) - along w (fn P i) := by
    intro i hi
    have := List.pairwise_iff_getElem.mp hf i (i + 1) (by simp; omega) (by simp; omega) (by omega)
    rw [List.getElem_map, List.getElem_map, ← fn_lt, ← fn_lt] at this
    linarith
  obtain ⟨i, hi, hmin⟩ := exists_min_image (range n) (fun i => along w (fn P (i + 1)) - along w (fn P i))
    ⟨0, mem_range.mpr (by omega)⟩
  refine ⟨_, hstep i (mem_range.mp hi), (speed_iff hU hP).mpr fun j hj => ?_⟩
  have h1 := hmin j (mem_range.mpr hj)
  have h2 := hstep j hj
  have h3 := hstep i (mem_range.mp hi)
  have h4 : fn U (j + p + 1) - fn U (j + 1) ≤ 1 := by
    have := hU.clamp.le_b (j + p + 1)
    have := hU.clamp.a_le (j + 1)
    linarith
  have hp0 : (1 : K) ≤ p := by exact_mod_cast hp
  nlinarith

/-- **C152** If every control point lies further in a direction than the one before it, so do the points of the curve,
strictly. -/
theorem C152_forward {c : Curve K d} {p n : ℕ} {U : List K} {P : List (Pt K d)} (hc : ValidOn 0 1 c p n U P)
    (hp : 1 ≤ p) {w : Pt K d} (hf : Forward w P) {u v : K} (h0 : 0 ≤ u) (huv : u < v) (h1 : v ≤ 1) {a b : Pt K d}
    (ha : c.evaluate u = .ok (.ok a)) (hb : c.evaluate v = .ok (.ok b)) : along w a < along w b := by
  obtain ⟨m, hm, hs⟩ := speed_of_forward hc.2.1 hc.2.2 hp hf
  have := C152_at_least hc hp hs h0 huv.le h1 ha hb
  have := mul_pos hm (sub_pos.mpr huv)
  linarith

/-- **C152** Such a curve passes no point twice. -/
theorem C152_injective {c : Curve K d} {p n : ℕ} {U : List K} {P : List (Pt K d)} (hc : ValidOn 0 1 c p n U P)
    (hp : 1 ≤ p) {w : Pt K d} (hf : Forward w P) {u v : K} (h0 : 0 ≤ u) (h1 : u ≤ 1) (h2 : 0 ≤ v) (h3 : v ≤ 1)
    (h : c.evaluate u = c.evaluate v) : u = v := by
  have hex : ∀ x, 0 ≤ x → x ≤ 1 → ∃ q, c.evaluate x = .ok (.ok q) := by
    intro x x0 x1
    obtain rfl := hc.eq_canon
    exact ⟨_, evaluate_sum hc.2.1 hc.2.2 x0 x1⟩
  obtain ⟨a, ha⟩ := hex u h0 h1
  have hb := h ▸ ha
  rcases lt_trichotomy u v with hlt | heq | hlt
  · exact absurd (C152_forward hc hp hf h0 hlt h3 ha hb) (lt_irrefl _)
  · exact heq
  · exact absurd (C152_forward hc hp hf h2 hlt h1 hb ha) (lt_irrefl _)

/-- **C152** The derivative is at least `m` in the direction `w`, if the derivative control points are. -/
theorem C152_derivative {c : Curve K d} {p n : ℕ} {U : List K} {P : List (Pt K d)} (hc : ValidOn 0 1 c p n U P)
    (hp : 1 ≤ p) {w : Pt K d} {m : K} (hm : SpeedAtLeast p n U P w m) {u : K} (h0 : 0 ≤ u) (h1 : u ≤ 1) {a : Pt K d}
    (ha : c.evaluateDerivative u 1 = .ok (.ok a)) : m ≤ along w a := by
  obtain rfl := hc.eq_canon
  obtain ⟨-, hU, hP⟩ := hc
  rw [speed_iff hU hP] at hm
  have hcl := hU.clamp
  have hle := hU.le
  obtain ⟨j, hs⟩ := hcl.exists_span h0 h1
  have hpj := hs.p_le hcl
  have hjn := hs.le_n
  rw [evaluateDerivative_eq hU hP hp h0 h1 hs, ← fullSum_eq_cv hcl hs hp] at ha
  injection ha with ha; injection ha with ha
  rw [← ha]
  have hcs := hcl.shiftN hp
  have hs' := hs.shiftN (k := 1) (by omega)
  have hNB : ∀ i, Nf (fun i => fn U (i + 1)) 1 n u (p - 1) i = Bs (shiftN 1 (fn U)) u (delta (j - 1)) (p - 1) i := by
    intro i
    rw [Nf_eq_Bs _ (by omega), ← base_eq_delta hcs hs']; rfl
  have hone : ∑ i ∈ range (n - 1 + 1), Nf (fun i => fn U (i + 1)) 1 n u (p - 1) i = 1 := by
    simp only [hNB]
    exact sum_Bs_one hcs.mono (by omega) (by omega) (hs'.lt hcs)
  have hnn : ∀ i, 0 ≤ Nf (fun i => fn U (i + 1)) 1 n u (p - 1) i := by
    intro i
    rw [hNB]
    exact Bs_nonneg hcs.mono hs'.lo hs'.le_hi (p - 1) i
  have key : m = ∑ i ∈ range (n - 1 + 1), Nf (fun i => fn U (i + 1)) 1 n u (p - 1) i * m := by
    rw [← sum_mul, hone, one_mul]
  rw [key]
  rw [along_sum w _ (fun i => Nf (fun i => fn U (i + 1)) 1 n u (p - 1) i) (fun i => dpt (fn U) p (fn P) 1 i)]
  refine sum_le_sum fun i hi => ?_
  rw [mem_range] at hi
  by_cases hact : i + p < j ∨ j < i + 1
  · rw [Nf_zero_of_span hcl hs hp hact, zero_mul, zero_mul]
  · refine mul_le_mul_of_nonneg_left ?_ (hnn i)
    have hlt : fn U (i + 1) < fn U (i + p + 1) :=
      (hcl.mono (show i + 1 ≤ j by omega)).trans_lt ((hs.lt hcl).trans_le (hcl.mono (by omega)))
    have hd : 0 < fn U (i + p + 1) - fn U (i + 1) := sub_pos.mpr hlt
    have e : dpt (fn U) p (fn P) 1 i = ((p : K) / (fn U (i + p + 1) - fn U (i + 1))) • (fn P (i + 1) - fn P i) := by
      simp only [dpt]
      rw [if_neg (by simpa [Cmp.eq] using hlt.ne'), scale_eq_smul]
      rw [show p - (0 + 1) + 1 = p by omega]
    have e2 : along w (dpt (fn U) p (fn P) 1 i) =
        p * (along w (fn P (i + 1)) - along w (fn P i)) / (fn U (i + p + 1) - fn U (i + 1)) := by
      rw [e]
      simp only [along, Pi.smul_apply, Pi.sub_apply, smul_eq_mul, ← sum_sub_distrib, mul_sum, sum_div]
      exact sum_congr rfl fun r _ => by ring
    rw [e2, le_div_iff₀ hd]
    exact hm i (by omega)

/-- **C152** If every control point lies further in a direction than the one before it, the derivative is nowhere
zero. -/
theorem C152_regular {c : Curve K d} {p n : ℕ} {U : List K} {P : List (Pt K d)} (hc : ValidOn 0 1 c p n U P)
    (hp : 1 ≤ p) {w : Pt K d} (hf : Forward w P) {u : K} (h0 : 0 ≤ u) (h1 : u ≤ 1) :
    ∃ a, c.evaluateDerivative u 1 = .ok (.ok a) ∧ 0 < along w a ∧ a ≠ 0 := by
  obtain ⟨m, hm, hs⟩ := speed_of_forward hc.2.1 hc.2.2 hp hf
  obtain ⟨a, ha⟩ : ∃ a, c.evaluateDerivative u 1 = .ok (.ok a) := by
    obtain rfl := hc.eq_canon
    obtain ⟨j, hj⟩ := hc.2.1.clamp.exists_span h0 h1
    exact ⟨_, evaluateDerivative_eq hc.2.1 hc.2.2 hp h0 h1 hj⟩
  have h := hm.trans_le (C152_derivative hc hp hs h0 h1 ha)
  refine ⟨a, ha, h, ?_⟩
  rintro rfl
  simp [along] at h

/-- **C152** Over the reals, with interior knots of multiplicity at most `p`, every plane across the direction that
lies between the first and the last control point is met exactly once. -/
theorem C152_once {c : Curve ℝ d} {p n : ℕ} {U : List ℝ} {P : List (Pt ℝ d)} (hc : ValidOn 0 1 c p n U P)
    (hp : 1 ≤ p) (hmult : ∀ x, 0 < x → x < 1 → U.count x ≤ p) {w : Pt ℝ d} (hf : Forward w P) {y : ℝ}
    (hy0 : along w (P.getD 0 0) ≤ y) (hy1 : y ≤ along w (P.getD n 0)) :
    ∃! u, (0 ≤ u ∧ u ≤ 1) ∧ ∃ a, c.evaluate u = .ok (.ok a) ∧ along w a = y := by
  have hU := hc.2.1
  have hP := hc.2.2
  have hex : ∀ u : ℝ, ∃ v, 0 ≤ u → u ≤ 1 → c.evaluateDerivative u 0 = .ok (.ok v) := by
    intro u
    by_cases h : 0 ≤ u ∧ u ≤ 1
    · obtain rfl := hc.eq_canon
      obtain ⟨j, hj⟩ := hU.clamp.exists_span h.1 h.2
      exact ⟨_, fun _ _ => evaluateDerivative_eq hU hP (Nat.zero_le p) h.1 h.2 hj⟩
    · exact ⟨0, fun a b => absurd ⟨a, b⟩ h⟩
  choose f hff using hex
  have hcont : ContinuousOn f (Set.Icc 0 1) :=
    C12_continuous hc (Nat.zero_le p) hff (by simpa using hmult)
  have hcont' : ContinuousOn (fun u => along w (f u)) (Set.Icc 0 1) := by
    unfold along
    refine continuousOn_finsetSum _ fun r _ => ?_
    exact continuousOn_const.mul (continuousOn_pi.mp hcont r)
  have hfirst : P.head? = some (P.getD 0 0) := by
    rw [List.head?_eq_getElem?, List.getD_eq_getElem?_getD, List.getElem?_eq_getElem (by omega)]; rfl
  have hlast : P.getLast? = some (P.getD n 0) := by
    have hn : P.length - 1 = n := by omega
    rw [List.getLast?_eq_getElem?, hn, List.getD_eq_getElem?_getD, List.getElem?_eq_getElem (by omega)]; rfl
  obtain ⟨e0, e1⟩ := C07_endpoints hc hfirst hlast
  have hz : f 0 = P.getD 0 0 := by
    have := hff 0 le_rfl zero_le_one
    change c.evaluate 0 = _ at this
    rw [e0] at this; injection this with this; injection this with this; exact this.symm
  have ho : f 1 = P.getD n 0 := by
    have := hff 1 zero_le_one le_rfl
    change c.evaluate 1 = _ at this
    rw [e1] at this; injection this with this; injection this with this; exact this.symm
  have hmem : y ∈ Set.Icc (along w (f 0)) (along w (f 1)) := by rw [hz, ho]; exact ⟨hy0, hy1⟩
  obtain ⟨u, hu, hyu⟩ := intermediate_value_Icc zero_le_one hcont' hmem
  refine ⟨u, ⟨hu, f u, hff u hu.1 hu.2, hyu⟩, ?_⟩
  rintro v ⟨hv, a, ha, hav⟩
  have hb : c.evaluate u = .ok (.ok (f u)) := hff u hu.1 hu.2
  rcases lt_trichotomy v u with h | h | h
  · have := C152_forward hc hp hf hv.1 h hu.2 ha hb
    rw [hav] at this
    exact absurd (this.trans_eq hyu) (lt_irrefl _)
  · exact h
  · have := C152_forward hc hp hf hu.1 h hv.2 hb ha
    rw [hav] at this
    exact absurd (hyu.symm.trans_lt this) (lt_irrefl _)

/-! ### Concrete cases -/

def fwP : List (Pt ℚ 2) := [![0, 0], ![1, 3], ![2, -1], ![4, 0]]

example : Forward ![1, 0] fwP := by unfold Forward along; decide +kernel
example : ValidOn 0 1 (canon 2 [0, 0, 0, 1 / 2, 1, 1, 1] fwP) 2 3 [0, 0, 0, 1 / 2, 1, 1, 1] fwP :=
  validOn_canon (by decide +kernel) rfl
example : SpeedAtLeast 2 3 [0, 0, 0, 1 / 2, 1, 1, 1] fwP ![1, 0] 2 := by unfold SpeedAtLeast along; decide +kernel

-- not strict: a curve that stops, and returns to the same point
def bwP : List (Pt ℚ 1) := [![0], ![1], ![0]]

example : (canon 2 [0, 0, 0, 1, 1, 1] bwP).evaluate 0 = (canon 2 [0, 0, 0, 1, 1, 1] bwP).evaluate 1 ∧
    (canon 2 [0, 0, 0, 1, 1, 1] bwP).evaluateDerivative (1 / 2) 1 = .ok (.ok ![0]) := by decide +kernel

end BSpline
