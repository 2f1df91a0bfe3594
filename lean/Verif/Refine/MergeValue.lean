import Verif.Refine.Merge
import Verif.Refine.FitValue
import Verif.Theory.MinNorm
import Verif.Spec.Merge

/-!
# What the linear system of merging means
-/

set_option linter.unusedSectionVars false

namespace BSpline

open Finset

variable {K : Type} [Field K] [LinearOrder K] [IsStrictOrderedRing K] {d : ℕ}

/-! ### Derivatives as linear forms -/

theorem pf_support (U : ℕ → K) (p n z k : ℕ) : ∀ i, z < i ∨ i + k < z → pf U p n z k i = 0 := by
  induction k with
  | zero =>
    intro i h
    simp only [pf]
    split
    · rw [if_neg (by omega)]
    · rfl
  | succ k ih =>
    intro i h
    simp only [pf]
    split
    · split
      · rfl
      · rw [ih (i + 1) (by omega), ih i (by omega), sub_self, mul_zero]
    · rfl

theorem dpt_eq_sum (U : ℕ → K) {p n : ℕ} (P : ℕ → Pt K d) (k : ℕ) :
    ∀ i, k ≤ p → i + k ≤ n → dpt U p P k i = ∑ z ∈ range (n + 1), pf U p n z k i • P z := by
  induction k with
  | zero =>
    intro i _ hi
    simp only [dpt, pf]
    rw [sum_eq_single i]
    · rw [if_pos (by omega), if_pos rfl, one_smul]
    · intro z _ hz
      rw [if_pos (by omega), if_neg (Ne.symm hz), zero_smul]
    · intro h; exact absurd (mem_range.mpr (by omega)) h
  | succ k ih =>
    intro i hk hi
    simp only [dpt, pf]
    split
    · rw [sum_eq_zero]; · rfl
      intro z _
      rw [if_pos (by omega), zero_smul]
    · rw [ih (i + 1) (by omega) (by omega), ih i (by omega) (by omega), ← sum_sub_distrib, scale_eq_smul,
        smul_sum]
      apply sum_congr rfl
      intro z _
      rw [if_pos (by omega), show p + 1 - (k + 1) = p - (k + 1) + 1 by omega, mul_smul, sub_smul]

/-- span of the right end -/
theorem isSpan_end {U : ℕ → K} {p n : ℕ} {a b : K} (h : Clamp U p n a b) : IsSpan U n b n where
  le_n := le_rfl
  lo := h.le_b n
  hi := Or.inr ⟨rfl, (h.right (n + 1) le_rfl).symm⟩

/-- span of the left end -/
theorem isSpan_start {U : ℕ → K} {p n : ℕ} {a b : K} (h : Clamp U p n a b) : IsSpan U n a p where
  le_n := h.le
  lo := (h.left p le_rfl).le
  hi := Or.inl (h.a_lt (by omega))

section
variable {E : Type*} [AddCommGroup E] [Module K E]

theorem bl_end {U : ℕ → K} {p n : ℕ} {a b : K} (h : Clamp U p n a b) (X : ℕ → E) :
    bl U (List.replicate p b) X (n - p) = X n := by
  have hs := isSpan_end h
  have hw := win_of_span h.mono h.le (hs.lt h)
  have := bl_dual p (P := X) p le_rfl hw
  rw [show n - p + p = n by have := h.le; omega] at this
  rw [← this]
  congr 1
  apply List.ext_getElem (by simp)
  intro i h1 h2
  simp only [knotsFrom, List.getElem_replicate, List.getElem_map, List.getElem_range']
  rw [h.right _ (by omega)]

theorem bl_start {U : ℕ → K} {p n : ℕ} {a b : K} (h : Clamp U p n a b) (X : ℕ → E) :
    bl U (List.replicate p a) X 0 = X 0 := by
  have hs := isSpan_start h
  have hw := win_of_span h.mono le_rfl (hs.lt h)
  rw [Nat.sub_self] at hw
  have := bl_dual p (P := X) 0 (by omega) hw
  simp only [Nat.zero_add, Nat.add_zero] at this
  rw [← this]
  congr 1
  apply List.ext_getElem (by simp)
  intro i h1 h2
  simp only [List.length_replicate] at h1
  simp only [knotsFrom, List.getElem_replicate, List.getElem_map, List.getElem_range']
  rw [h.left _ (by omega)]

end

theorem cv_end {U : ℕ → K} {p n : ℕ} {a b : K} (h : Clamp U p n a b) {k : ℕ} (hk : k ≤ p)
    (P : ℕ → Pt K d) : cv U p P k n b = dpt U p P k (n - k) := by
  have hc := h.shiftN hk
  have := bl_end hc (dpt U p P k)
  rw [show n - k - (p - k) = n - p by omega] at this
  exact this

theorem cv_start {U : ℕ → K} {p n : ℕ} {a b : K} (h : Clamp U p n a b) {k : ℕ} (hk : k ≤ p)
    (P : ℕ → Pt K d) : cv U p P k p a = dpt U p P k 0 := by
  have hc := h.shiftN hk
  have := bl_start hc (dpt U p P k)
  rw [cv, Nat.sub_self]
  exact this

theorem bw_eq_end {V : ℕ → K} {p m k : ℕ} (h : Clamp V p m 0 1) (hk : k ≤ p) (a : ℕ) :
    bw V m p k (V (m + 1)) a = Bs (shiftN k V) 1 (delta (m - k)) (p - k) a := by
  have hp := h.le
  have hc := h.shiftN hk
  rw [bw, h.right (m + 1) le_rfl, Nf_eq_Bs _ (Nat.zero_le _), Nat.sub_zero]
  congr 1
  exact base_eq_delta hc (isSpan_end hc)

theorem bw_eq_start {W : ℕ → K} {p o k : ℕ} (h : Clamp W p o 0 1) (hk : k ≤ p) (a : ℕ) :
    bw W o p k (W p) a = Bs (shiftN k W) 0 (delta (p - k)) (p - k) a := by
  have hp := h.le
  have hc := h.shiftN hk
  rw [bw, h.left p le_rfl, Nf_eq_Bs _ (Nat.zero_le _), Nat.sub_zero]
  congr 1
  exact base_eq_delta hc (isSpan_start hc)

theorem sumL_eq {V : ℕ → K} {p m k : ℕ} (h : Clamp V p m 0 1) (hk : k ≤ p) (i : ℕ) :
    sumL V m p k i = pf V p m i k (m - k) := by
  have hp := h.le
  have hc := h.shiftN hk
  rw [sumL, foldl_add_eq_sum, zero_add, show m - p + (m - k + 1 - (m - p)) = m - k + 1 by omega]
  simp only [bw_eq_end h hk]
  have := sum_span_eq (U := shiftN k V) (u := (1 : K)) (p := p - k) (n := m - k) (j := m - k) (lo := m - p)
    (by omega) le_rfl (by omega) (pf V p m i k)
  rw [show m - k - (p - k) = m - k - (p - k) from rfl, bl_end hc] at this
  rw [← this]
  apply sum_congr rfl
  intro x _
  rw [smul_eq_mul, mul_comm]

theorem sumR_eq {W : ℕ → K} {p o k : ℕ} (h : Clamp W p o 0 1) (hk : k ≤ p) (j : ℕ) :
    sumR W o p k j = pf W p o j k 0 := by
  have hp := h.le
  have hc := h.shiftN hk
  rw [sumR, foldl_add_eq_sum, zero_add, show 0 + (p - k + 1 - 0) = p - k + 1 by omega]
  simp only [bw_eq_start h hk]
  have := sum_span_eq (U := shiftN k W) (u := (0 : K)) (p := p - k) (n := p - k) (j := p - k) (lo := 0)
    le_rfl le_rfl (by omega) (pf W p o j k)
  rw [Nat.sub_self, bl_start hc] at this
  rw [← this]
  apply sum_congr rfl
  intro x _
  rw [smul_eq_mul, mul_comm]

/-- the derivative at the end of the left curve uses its last control points only -/
theorem dpt_end_eq {V : ℕ → K} {p m k : ℕ} (h : Clamp V p m 0 1) (hk : k ≤ p) (S : ℕ → Pt K d) :
    dpt V p S k (m - k) = ∑ i ∈ Ico (m - p) (m + 1), sumL V m p k i • S i := by
  have hp := h.le
  rw [dpt_eq_sum (n := m) V S k (m - k) hk (by omega)]
  simp only [sumL_eq h hk]
  symm
  apply sum_subset
  · intro x hx; simp only [mem_Ico, mem_range] at hx ⊢; omega
  · intro x hx hx'
    simp only [mem_Ico, mem_range] at hx hx'
    rw [pf_support V p m x k (m - k) (by omega), zero_smul]

theorem dpt_start_eq {W : ℕ → K} {p o k : ℕ} (h : Clamp W p o 0 1) (hk : k ≤ p) (T : ℕ → Pt K d) :
    dpt W p T k 0 = ∑ j ∈ range (p + 1), sumR W o p k j • T j := by
  have hp := h.le
  rw [dpt_eq_sum (n := o) W T k 0 hk (by omega)]
  simp only [sumR_eq h hk]
  symm
  apply sum_subset
  · intro x hx; simp only [mem_range] at hx ⊢; omega
  · intro x hx hx'
    simp only [mem_range] at hx hx'
    rw [pf_support W p o x k 0 (by omega), zero_smul]

theorem foldl_sub_eq_sum {E : Type} [AddCommGroup E] (f : ℕ → E) (lo : ℕ) : ∀ (m : ℕ) (v : E),
    (List.range' lo m).foldl (fun v i => v - f i) v = v - ∑ i ∈ Ico lo (lo + m), f i := by
  intro m v
  simp only [sub_eq_add_neg]
  rw [foldl_add_eq_sum, sum_neg_distrib]

/-- the right-hand side is the difference of the derivatives at the junction -/
theorem kc_eq {V W : ℕ → K} {p m o k : ℕ} (hV : Clamp V p m 0 1) (hW : Clamp W p o 0 1) (hk : k ≤ p)
    (S T : ℕ → Pt K d) : kc p m o V W S T k = dpt W p T k 0 - dpt V p S k (m - k) := by
  have hp := hV.le
  rw [dpt_end_eq hV hk, dpt_start_eq hW hk, kc]
  simp only [scale_eq_smul]
  simp only [foldl_add_eq_sum, foldl_sub_eq_sum]
  rw [show m - p + (m + 1 - (m - p)) = m + 1 by omega,
    show m - p + (m - k + 1 - (m - p)) = m - k + 1 by omega,
    show 0 + (p + 1 - 0) = p + 1 by omega, show 0 + (p - k + 1 - 0) = p - k + 1 by omega]
  have e1 : ∀ i, ∑ a ∈ Ico (m - p) (m - k + 1), (pf V p m i k a * bw V m p k (V (m + 1)) a) • S i =
      sumL V m p k i • S i := by
    intro i
    rw [sumL, foldl_add_eq_sum, zero_add, sum_smul, show m - p + (m - k + 1 - (m - p)) = m - k + 1 by omega]
  have e2 : ∀ j, ∑ b ∈ Ico 0 (p - k + 1), (pf W p o j k b * bw W o p k (W p) b) • T j =
      sumR W o p k j • T j := by
    intro j
    rw [sumR, foldl_add_eq_sum, zero_add, sum_smul, show 0 + (p - k + 1 - 0) = p - k + 1 by omega]
  simp only [e1, e2]
  rw [← range_eq_Ico]
  funext r
  simp only [Pi.sub_apply, Pi.add_apply]
  ring

/-! ### The system -/

/-- the conditions on the shifts: derivatives, left constraints, right constraints -/
def conA (p m o : ℕ) (V W ua ub : List K) : ℕ → ℕ → K :=
  vE p (hE p (fun k i => sumL (fn V) m p k (m - p + 1 + i)) (fun k j => sumR (fn W) o p k j * -1))
    (vE ua.length (hE p (fun g i => conE p m V ua g (m - p + 1 + i)) zE)
      (hE p zE (fun g i => conE p o W ub g i)))

section
variable {p m o : ℕ} {V W ua ub : List K}

theorem nmatE_id {i j : ℕ} (hi : i < p + p) (hj : j < p + p) :
    nmatE p m o V W ua ub i j = if i = j then 1 else 0 := by
  simp only [nmatE, vE, hE]
  rw [if_pos (by omega), if_pos (by omega), if_pos hi, if_pos hj]
  split
  · rfl
  · congr 1
    simp only [eq_iff_iff]; omega

theorem nmatE_mul {i g : ℕ} (hi : i < p + p) (_hg : g < p + ua.length + ub.length) :
    nmatE p m o V W ua ub i (p + p + g) =
      (if g < p then half else -half) * conA p m o V W ua ub g i := by
  simp only [nmatE, conA, vE, hE, zE]
  rw [if_pos (show i < p + p + p + ua.length by omega), if_pos (show i < p + p + p by omega), if_pos hi,
    if_neg (show ¬ p + p + g < p + p by omega), if_neg (show ¬ p + p + g < p + p by omega),
    show p + p + g - (p + p) = g by omega]
  by_cases h1 : i < p
  · simp only [h1, if_true]
    by_cases h2 : g < p
    · simp only [h2, if_true]; ring
    · by_cases h3 : g - p < ua.length
      · simp only [h2, h3, if_true, if_false]; ring
      · simp only [h2, h3, if_false]; ring
  · simp only [h1, if_false]
    by_cases h2 : g < p
    · simp only [h2, if_true]; ring
    · by_cases h3 : g - p < ua.length
      · simp only [h2, h3, if_true, if_false]; ring
      · simp only [h2, h3, if_false]; ring

theorem nmatE_con {g j : ℕ} (hj : j < p + p) (_hg : g < p + ua.length + ub.length) :
    nmatE p m o V W ua ub (p + p + g) j = conA p m o V W ua ub g j := by
  simp only [nmatE, conA, vE, hE, zE]
  rw [if_neg (show ¬ p + p + g < p + p by omega)]
  by_cases h2 : g < p
  · rw [if_pos (show p + p + g < p + p + p + ua.length by omega),
      if_pos (show p + p + g < p + p + p by omega), if_pos h2, show p + p + g - (p + p) = g by omega]
    by_cases h1 : j < p
    · rw [if_pos h1, if_pos h1]
    · rw [if_neg h1, if_neg h1, if_pos (by omega)]
  · rw [if_neg h2, if_neg (show ¬ p + p + g < p + p + p by omega)]
    by_cases h3 : g - p < ua.length
    · rw [if_pos h3, if_pos (show p + p + g < p + p + p + ua.length by omega),
        show p + p + g - (p + p + p) = g - p by omega]
    · rw [if_neg h3, if_neg (show ¬ p + p + g < p + p + p + ua.length by omega),
        show p + p + g - (p + p + p + ua.length) = g - p - ua.length by omega]
      by_cases h1 : j < p
      · rw [if_pos h1, if_pos h1]
      · rw [if_neg h1, if_neg h1, if_pos (by omega)]

theorem nmatE_zero {g g' : ℕ} (_hg : g < p + ua.length + ub.length) :
    nmatE p m o V W ua ub (p + p + g) (p + p + g') = 0 := by
  simp only [nmatE, vE, hE, zE]
  rw [if_neg (show ¬ p + p + g < p + p by omega), if_neg (show ¬ p + p + g' < p by omega),
    if_neg (show ¬ p + p + g' - p < p by omega), if_neg (show ¬ p + p + g' < p by omega),
    if_neg (show ¬ p + p + g' < p by omega), if_neg (show ¬ p + p + g' - p < p by omega)]
  simp

/-- the right-hand side of the conditions -/
def conC (p m : ℕ) (V W : List K) (S T : List (Pt K d)) (g : ℕ) : Pt K d :=
  if g < p then dpt (fn W) p (fn T) g 0 - dpt (fn V) p (fn S) g (m - g) else 0

theorem fn_rhsM_lt {S T : List (Pt K d)} {c i : ℕ} (hi : i < p + p) :
    fn (rhsM p m o c V W S T) i = 0 := by
  rw [rhsM, List.append_assoc, fn_append_left (by simpa [zeroCols] using hi), zeroCols, fn_replicate _ hi]
  rfl

theorem fn_rhsM_ge (hV : ClampedKnots 0 1 p m V) (hW : ClampedKnots 0 1 p o W)
    {S T : List (Pt K d)} {c g : ℕ} (hg : g < p + c) :
    fn (rhsM p m o c V W S T) (p + p + g) = conC p m V W S T g := by
  rw [rhsM, conC]
  split
  · rename_i h
    rw [fn_append_left (by simpa [zeroCols] using h), fn_append_right (by simp [zeroCols])
      (by simpa [zeroCols] using h)]
    simp only [zeroCols, List.length_replicate, Nat.add_sub_cancel_left]
    rw [fn_map_range _ h, kc_eq hV.clamp hW.clamp h.le]
  · rename_i h
    rw [fn_append_right (by simp [zeroCols]; omega) (by simp [zeroCols]; omega)]
    rw [show fn (zeroCols (K := K) d c) _ = (fun _ => 0) from fn_replicate _ (by simp [zeroCols]; omega)]
    rfl

/-- one of the upper rows of the system applied to a vector -/
theorem row_top (x : ℕ → K) {i : ℕ} (hi : i < p + p) :
    ∑ j ∈ range (p + p + (p + ua.length + ub.length)), nmatE p m o V W ua ub i j * x j =
      x i + ∑ g ∈ range (p + ua.length + ub.length), conA p m o V W ua ub g i *
        ((if g < p then half else -half) * x (p + p + g)) := by
  rw [sum_range_add]
  congr 1
  · rw [sum_eq_single i]
    · rw [nmatE_id hi hi, if_pos rfl, one_mul]
    · intro j hj hji
      rw [nmatE_id hi (mem_range.mp hj), if_neg (Ne.symm hji), zero_mul]
    · intro h; exact absurd (mem_range.mpr hi) h
  · apply sum_congr rfl
    intro g hg
    rw [nmatE_mul hi (mem_range.mp hg)]; ring

/-- one of the lower rows of the system applied to a vector -/
theorem row_bot (x : ℕ → K) {g : ℕ} (hg : g < p + ua.length + ub.length) :
    ∑ j ∈ range (p + p + (p + ua.length + ub.length)), nmatE p m o V W ua ub (p + p + g) j * x j =
      ∑ i ∈ range (p + p), conA p m o V W ua ub g i * x i := by
  rw [sum_range_add]
  have : ∑ j ∈ range (p + ua.length + ub.length),
      nmatE p m o V W ua ub (p + p + g) (p + p + j) * x (p + p + j) = 0 := by
    apply sum_eq_zero
    intro j _
    rw [nmatE_zero hg, zero_mul]
  rw [this, add_zero]
  apply sum_congr rfl
  intro i hi
  rw [nmatE_con (mem_range.mp hi) hg]

theorem rhsM_length {S T : List (Pt K d)} : (rhsM p m o (ua.length + ub.length) V W S T).length =
    p + p + (p + ua.length + ub.length) := by
  simp [rhsM, zeroCols]; omega

/-- if the conditions can be met, the system has a solution -/
theorem system_solvable (hV : ClampedKnots 0 1 p m V) (hW : ClampedKnots 0 1 p o W) {S T : List (Pt K d)}
    {z : ℕ → Pt K d} (hz : ∀ g, g < p + ua.length + ub.length → ∀ ρ,
      ∑ i ∈ range (p + p), conA p m o V W ua ub g i * z i ρ = conC p m V W S T g ρ) :
    ∃ x, Solves (mat (p + p + (p + ua.length + ub.length)) (p + p + (p + ua.length + ub.length))
      (nmatE p m o V W ua ub)) x (rhsM p m o (ua.length + ub.length) V W S T) := by
  have rowTop := fun (x : ℕ → K) i (hi : i < p + p) =>
    row_top (p := p) (m := m) (o := o) (V := V) (W := W) (ua := ua) (ub := ub) x hi
  have rowBot := fun (x : ℕ → K) g (hg : g < p + ua.length + ub.length) =>
    row_bot (p := p) (m := m) (o := o) (V := V) (W := W) (ua := ua) (ub := ub) x hg
  have hrl := rhsM_length (p := p) (m := m) (o := o) (V := V) (W := W) (ua := ua) (ub := ub) (S := S) (T := T)
  set R := p + ua.length + ub.length with hR
  have hh : (half : K) ≠ 0 := by
    have h2 : (2 : K) ≠ 0 := two_ne_zero
    rw [half]
    exact div_ne_zero one_ne_zero (by exact_mod_cast h2)
  choose w hw using fun ρ : Fin d => minNorm_exists (r := R) (N := p + p) (A := conA p m o V W ua ub)
    (c := fun g => conC p m V W S T g ρ) (z := fun i => z i ρ) (fun g hg => hz g hg ρ)
  refine ⟨(List.range (p + p + R)).map (fun i ρ =>
        if i < p + p then ∑ g ∈ range R, conA p m o V W ua ub g i * w ρ g
        else -(w ρ (i - (p + p)) / (if i - (p + p) < p then half else -half))), ?_⟩
  rw [solves_mat (by simp) hrl]
  intro i hi ρ
  by_cases h : i < p + p
  · rw [sum_congr rfl (fun j hj => by rw [fn_map_range _ (mem_range.mp hj)]),
      rowTop (fun j => if j < p + p then ∑ g ∈ range R, conA p m o V W ua ub g j * w ρ g
        else -(w ρ (j - (p + p)) / (if j - (p + p) < p then half else -half))) i h, fn_rhsM_lt h]
    simp only [if_pos h, add_tsub_cancel_left]
    rw [← sum_add_distrib]
    apply sum_eq_zero
    intro g _
    rw [if_neg (show ¬ p + p + g < p + p by omega)]
    have : (if g < p then (half : K) else -half) ≠ 0 := by
      split
      · exact hh
      · exact neg_ne_zero.mpr hh
    rw [mul_neg, mul_div_cancel₀ _ this]
    ring
  · obtain ⟨g, rfl⟩ := Nat.exists_eq_add_of_le (not_lt.mp h)
    rw [sum_congr rfl (fun j hj => by rw [fn_map_range _ (mem_range.mp hj)]),
      rowBot (fun j => if j < p + p then ∑ g ∈ range R, conA p m o V W ua ub g j * w ρ g
        else -(w ρ (j - (p + p)) / (if j - (p + p) < p then half else -half))) g (by omega),
      fn_rhsM_ge hV hW (by omega), ← hw ρ g (by omega)]
    apply sum_congr rfl
    intro i hi
    rw [if_pos (mem_range.mp hi)]

/-- what an exact solver returns: the smallest solution of the conditions -/
theorem shifts_min {solver : Solver K d} (hs : solver.Exact) (h1 : 1 ≤ p)
    (hV : ClampedKnots 0 1 p m V) (hW : ClampedKnots 0 1 p o W) {S T : List (Pt K d)}
    {z : ℕ → Pt K d} (hz : ∀ g, g < p + ua.length + ub.length → ∀ ρ,
      ∑ i ∈ range (p + p), conA p m o V W ua ub g i * z i ρ = conC p m V W S T g ρ) :
    (∀ g, g < p + ua.length + ub.length → ∀ ρ, ∑ i ∈ range (p + p), conA p m o V W ua ub g i *
      fn (shiftsOf solver p m o V W ua ub S T) i ρ = conC p m V W S T g ρ) ∧
    ∀ ρ, ∃ w : ℕ → K, ∀ i, i < p + p → fn (shiftsOf solver p m o V W ua ub S T) i ρ =
      ∑ g ∈ range (p + ua.length + ub.length), conA p m o V W ua ub g i * w g := by
  have hlen := shiftsOf_length (o := o) (m := m) solver h1 V W ua ub S T
  have hN : p + p + p + ua.length + ub.length = p + p + (p + ua.length + ub.length) := by omega
  have key := hs _ _ (system_solvable hV hW hz)
  rw [← hN] at key
  change Solves _ (shiftsOf solver p m o V W ua ub S T) _ at key
  rw [hN, solves_mat (by omega) rhsM_length] at key
  constructor
  · intro g hg ρ
    rw [← fn_rhsM_ge hV hW (c := ua.length + ub.length) (by omega), ← key (p + p + g) (by omega) ρ,
      row_bot (fun j => fn (shiftsOf solver p m o V W ua ub S T) j ρ) hg]
  · intro ρ
    refine ⟨fun g => -((if g < p then half else -half) *
      fn (shiftsOf solver p m o V W ua ub S T) (p + p + g) ρ), fun i hi => ?_⟩
    have := key i (by omega) ρ
    rw [row_top (fun j => fn (shiftsOf solver p m o V W ua ub S T) j ρ) hi, fn_rhsM_lt hi] at this
    simp only [mul_neg, sum_neg_distrib]
    exact eq_neg_of_add_eq_zero_left this

/-! ### Joined curves -/

/-- the shifts leading from `S, T` to `S', T'` -/
def zOf (p m : ℕ) (S T S' T' : ℕ → Pt K d) (i : ℕ) : Pt K d :=
  if i < p then S' (m - p + 1 + i) - S (m - p + 1 + i) else T' (i - p) - T (i - p)

theorem zOf_left {S T S' T' : ℕ → Pt K d} {i : ℕ} (h : i < p) :
    zOf p m S T S' T' i = S' (m - p + 1 + i) - S (m - p + 1 + i) := if_pos h

theorem zOf_right {S T S' T' : ℕ → Pt K d} (i : ℕ) :
    zOf p m S T S' T' (p + i) = T' i - T i := by
  rw [zOf, if_neg (by omega), Nat.add_sub_cancel_left]

/-- sums over all left control points that only differ in the last `p` -/
theorem sum_left (hp : p ≤ m) {lo : ℕ} (hlo : lo ≤ m - p + 1) (c : ℕ → K) {S S' : ℕ → Pt K d}
    (hk : ∀ i, i + p ≤ m → S' i = S i) :
    ∑ i ∈ range p, c (m - p + 1 + i) • (S' (m - p + 1 + i) - S (m - p + 1 + i)) =
      ∑ i ∈ Ico lo (m + 1), c i • S' i - ∑ i ∈ Ico lo (m + 1), c i • S i := by
  rw [← sum_sub_distrib, ← sum_Ico_consecutive _ hlo (show m - p + 1 ≤ m + 1 by omega)]
  have : ∑ i ∈ Ico lo (m - p + 1), (c i • S' i - c i • S i) = 0 := by
    apply sum_eq_zero
    intro i hi
    rw [mem_Ico] at hi
    rw [hk i (by omega), sub_self]
  rw [this, zero_add, sum_Ico_eq_sum_range, show m + 1 - (m - p + 1) = p by omega]
  apply sum_congr rfl
  intro i _
  rw [smul_sub]

/-- sums over all right control points that only differ in the first `p` -/
theorem sum_right {hi : ℕ} (hp : p ≤ hi) (ho : hi ≤ o + 1) (c : ℕ → K) {T T' : ℕ → Pt K d}
    (hk : ∀ j, p ≤ j → j ≤ o → T' j = T j) :
    ∑ i ∈ range p, c i • (T' i - T i) = ∑ i ∈ range hi, c i • T' i - ∑ i ∈ range hi, c i • T i := by
  rw [← sum_sub_distrib]
  symm
  simp only [← smul_sub]
  symm
  apply sum_subset
  · intro x hx; simp only [mem_range] at hx ⊢; omega
  · intro x hx hx'
    simp only [mem_range] at hx hx'
    rw [hk x (by omega) (by omega), sub_self, smul_zero]

section rows
variable {S T S' T' : ℕ → Pt K d} (hV : ClampedKnots 0 1 p m V) (hW : ClampedKnots 0 1 p o W)
  (hkS : ∀ i, i + p ≤ m → S' i = S i) (hkT : ∀ j, p ≤ j → j ≤ o → T' j = T j)
include hV hW hkS hkT

theorem row_deriv {k : ℕ} (hk : k < p) (ρ : Fin d) :
    ∑ i ∈ range (p + p), conA p m o V W ua ub k i * zOf p m S T S' T' i ρ =
      (dpt (fn V) p S' k (m - k) - dpt (fn V) p S k (m - k) -
        (dpt (fn W) p T' k 0 - dpt (fn W) p T k 0)) ρ := by
  rw [dpt_end_eq hV.clamp hk.le, dpt_end_eq hV.clamp hk.le, dpt_start_eq hW.clamp hk.le,
    dpt_start_eq hW.clamp hk.le, ← sum_left hV.le (by omega) _ hkS,
    ← sum_right (by omega) (show p + 1 ≤ o + 1 by have := hW.le; omega) _ hkT, sum_range_add]
  simp only [Pi.sub_apply, Finset.sum_apply, Pi.smul_apply, smul_eq_mul]
  rw [sub_eq_add_neg, ← sum_neg_distrib]
  congr 1
  · apply sum_congr rfl
    intro i hi
    rw [mem_range] at hi
    rw [zOf_left hi, conA, vE, if_pos hk, hE, if_pos hi]; rfl
  · apply sum_congr rfl
    intro i hi
    rw [zOf_right, conA, vE, if_pos hk, hE, if_neg (by omega), Nat.add_sub_cancel_left, Pi.sub_apply]
    ring

theorem row_left {g : ℕ} (hg : g < ua.length) (ρ : Fin d) :
    ∑ i ∈ range (p + p), conA p m o V W ua ub (p + g) i * zOf p m S T S' T' i ρ =
      (∑ i ∈ range (m + 1), nb p m V i (fn ua g) • S' i - ∑ i ∈ range (m + 1), nb p m V i (fn ua g) • S i) ρ := by
  rw [range_eq_Ico (m + 1), ← sum_left hV.le (by omega) (fun i => nb p m V i (fn ua g)) hkS, sum_range_add]
  have : ∑ i ∈ range p, conA p m o V W ua ub (p + g) (p + i) * zOf p m S T S' T' (p + i) ρ = 0 := by
    apply sum_eq_zero
    intro i _
    rw [conA, vE, if_neg (by omega), vE, if_pos (by omega), hE, if_neg (by omega), zE, zero_mul]
  rw [this, add_zero]
  simp only [Finset.sum_apply, Pi.smul_apply, smul_eq_mul]
  apply sum_congr rfl
  intro i hi
  rw [mem_range] at hi
  rw [zOf_left hi, conA, vE, if_neg (by omega), vE, if_pos (by omega), hE, if_pos hi,
    Nat.add_sub_cancel_left]
  rfl

theorem row_right {g : ℕ} (_hg : g < ub.length) (ρ : Fin d) :
    ∑ i ∈ range (p + p), conA p m o V W ua ub (p + ua.length + g) i * zOf p m S T S' T' i ρ =
      (∑ i ∈ range (o + 1), nb p o W i (fn ub g) • T' i - ∑ i ∈ range (o + 1), nb p o W i (fn ub g) • T i) ρ := by
  rw [← sum_right (by have := hW.le; omega) (le_refl (o + 1)) (fun i => nb p o W i (fn ub g)) hkT, sum_range_add]
  have : ∑ i ∈ range p, conA p m o V W ua ub (p + ua.length + g) i * zOf p m S T S' T' i ρ = 0 := by
    apply sum_eq_zero
    intro i hi
    rw [mem_range] at hi
    rw [conA, vE, if_neg (by omega), vE, if_neg (by omega), hE, if_pos hi, zE, zero_mul]
  rw [this, zero_add]
  simp only [Finset.sum_apply, Pi.smul_apply, smul_eq_mul]
  apply sum_congr rfl
  intro i hi
  rw [zOf_right, conA, vE, if_neg (by omega), vE, if_neg (by omega), hE, if_neg (by omega),
    Nat.add_sub_cancel_left, show p + ua.length + g - p - ua.length = g by omega]
  rfl

/-- the system says: equal derivatives at the junction, unchanged constrained points -/
theorem rows_iff {S₀ T₀ : List (Pt K d)} (hS₀ : fn S₀ = S) (hT₀ : fn T₀ = T) :
    (∀ g, g < p + ua.length + ub.length → ∀ ρ, ∑ i ∈ range (p + p),
      conA p m o V W ua ub g i * zOf p m S T S' T' i ρ = conC p m V W S₀ T₀ g ρ) ↔
    (∀ k, k < p → dpt (fn V) p S' k (m - k) = dpt (fn W) p T' k 0) ∧
    (∀ g, g < ua.length → ∑ i ∈ range (m + 1), nb p m V i (fn ua g) • S' i =
      ∑ i ∈ range (m + 1), nb p m V i (fn ua g) • S i) ∧
    (∀ g, g < ub.length → ∑ i ∈ range (o + 1), nb p o W i (fn ub g) • T' i =
      ∑ i ∈ range (o + 1), nb p o W i (fn ub g) • T i) := by
  constructor
  · intro h
    refine ⟨fun k hk => ?_, fun g hg => ?_, fun g hg => ?_⟩
    · funext ρ
      have := h k (by omega) ρ
      rw [row_deriv hV hW hkS hkT hk, conC, if_pos hk, hS₀, hT₀] at this
      simp only [Pi.sub_apply] at this
      linear_combination this
    · funext ρ
      have := h (p + g) (by omega) ρ
      rw [row_left hV hW hkS hkT hg, conC, if_neg (by omega)] at this
      exact sub_eq_zero.mp this
    · funext ρ
      have := h (p + ua.length + g) (by omega) ρ
      rw [row_right hV hW hkS hkT hg, conC, if_neg (by omega)] at this
      exact sub_eq_zero.mp this
  · rintro ⟨h1, h2, h3⟩ g hg ρ
    by_cases c1 : g < p
    · rw [row_deriv hV hW hkS hkT c1, conC, if_pos c1, hS₀, hT₀, h1 g c1]
      simp only [Pi.sub_apply]; ring
    · rw [conC, if_neg c1]
      by_cases c2 : g < p + ua.length
      · obtain ⟨g, rfl⟩ := Nat.exists_eq_add_of_le (not_lt.mp c1)
        rw [row_left hV hW hkS hkT (by omega), h2 g (by omega), sub_self]
      · obtain ⟨g, rfl⟩ := Nat.exists_eq_add_of_le (not_lt.mp c2)
        rw [row_right hV hW hkS hkT (by omega), h3 g (by omega), sub_self]

end rows

end

end BSpline
