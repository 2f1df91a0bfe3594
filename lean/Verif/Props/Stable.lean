import Verif.Theory.Stable
import Verif.Props.Smooth
import Verif.Refine.FitValue
import Mathlib.Tactic.IntervalCases

/-!
# How far a curve moves when its points, knots or parameter move: C93
-/

set_option linter.unusedSectionVars false

namespace BSpline

open Finset

variable {K : Type} [Field K] [LinearOrder K] [IsStrictOrderedRing K] {d : ℕ}

/-- one coordinate of the value on a span -/
theorem cv_coord (U : ℕ → K) (p : ℕ) (P : ℕ → Pt K d) (j : ℕ) (u : K) (ρ : Fin d) :
    cv U p P 0 j u ρ = bl U (List.replicate p u) (fun i => P i ρ) (j - p) := by
  have h := congrFun (bl_map (LinearMap.proj ρ : Pt K d →ₗ[K] K) (List.replicate p u) U P) (j - p)
  rw [cv, shiftN_zero, Nat.sub_zero]
  exact h.symm

section

variable {p n : ℕ} {V : List K} {Q : ℕ → Pt K d} {ρ : Fin d} {l : K}

/-- on one span the slope of the curve is at most that of its control polygon -/
theorem lipschitz_span (hV : ClampedKnots 0 1 p n V) (hl : 0 ≤ l)
    (hQ : ∀ i, i < n → |Q (i + 1) ρ - Q i ρ| ≤ l * (fn V (i + 1 + p) - fn V (i + 1))) {j : ℕ} (hj : p ≤ j)
    (hjn : j ≤ n) (hlt : fn V j < fn V (j + 1)) {u v : K} (hu : fn V j ≤ u) (hu' : u ≤ fn V (j + 1))
    (hv : fn V j ≤ v) (hv' : v ≤ fn V (j + 1)) :
    |cv (fn V) p Q 0 j u ρ - cv (fn V) p Q 0 j v ρ| ≤ p * (l * |u - v|) := by
  have hc := hV.clamp
  have e : j - p + p = j := by omega
  rw [cv_coord, cv_coord]
  have := bl_stable p (U := fn V) (V := fn V) (P := fun i => Q i ρ) (Q := fun i => Q i ρ) (a := j - p) (t := u)
    (s := v) (l := l) (E := |u - v|) (η := 0) hc.mono hc.mono (by rwa [e]) (by rwa [e]) (by rwa [e])
    (by rwa [e]) (by rwa [e]) (by rwa [e]) hl (abs_nonneg _) (fun i _ _ => by rw [sub_self, sub_zero])
    (fun i _ _ => by rw [sub_self, abs_zero]) (fun i _ h => hQ i (by omega))
  rwa [zero_add] at this

/-- a curve without jumps is nowhere steeper than its control polygon -/
theorem lipschitz (hV : ClampedKnots 0 1 p n V) (hm : ∀ x, 0 < x → x < 1 → V.count x ≤ p) (hl : 0 ≤ l)
    (hQ : ∀ i, i < n → |Q (i + 1) ρ - Q i ρ| ≤ l * (fn V (i + 1 + p) - fn V (i + 1))) :
    ∀ (k : ℕ) {u v : K} {j j' : ℕ}, u ≤ v → 0 ≤ u → v ≤ 1 → IsSpan (fn V) n u j → IsSpan (fn V) n v j' →
      j' ≤ j + k → |cv (fn V) p Q 0 j u ρ - cv (fn V) p Q 0 j' v ρ| ≤ p * (l * (v - u)) := by
  have hc := hV.clamp
  have mono : ∀ {u v : K} {j j' : ℕ}, u ≤ v → IsSpan (fn V) n u j → IsSpan (fn V) n v j' → j ≤ j' := by
    intro u v j j' huv h1 h2
    rcases h2.hi with h3 | ⟨h3, -⟩
    · by_contra hcon
      exact absurd ((hc.mono (show j' + 1 ≤ j by omega)).trans (h1.lo.trans huv)) (not_le.mpr h3)
    · rw [h3]; exact h1.le_n
  have same : ∀ {u v : K} {j : ℕ}, u ≤ v → IsSpan (fn V) n u j → IsSpan (fn V) n v j →
      |cv (fn V) p Q 0 j u ρ - cv (fn V) p Q 0 j v ρ| ≤ p * (l * (v - u)) := by
    intro u v j huv h1 h2
    have := lipschitz_span hV hl hQ (h1.p_le hc) h1.le_n (h1.lt hc) h1.lo h1.le_hi h2.lo h2.le_hi
    rwa [abs_sub_comm u v, abs_of_nonneg (sub_nonneg.mpr huv)] at this
  intro k
  induction k with
  | zero =>
    intro u v j j' huv _ _ h1 h2 hj
    obtain rfl : j' = j := le_antisymm (by omega) (mono huv h1 h2)
    exact same huv h1 h2
  | succ k ih =>
    intro u v j j' huv hu0 hv1 h1 h2 hj
    have hle := mono huv h1 h2
    rcases hle.eq_or_lt with rfl | hlt
    · exact same huv h1 h2
    have hlt' := h1.lt hc
    have hx : fn V (j + 1) ≤ v := (hc.mono (show j + 1 ≤ j' by omega)).trans h2.lo
    have hx0 : 0 ≤ fn V (j + 1) := hc.a_le _
    obtain ⟨jx, hjx⟩ := hc.exists_span hx0 (hc.le_b _)
    have hux : u ≤ fn V (j + 1) := h1.le_hi
    have hglue := cv_glue_count hV (Nat.zero_le p) hjx ⟨h1.le_n, hlt', le_rfl⟩ (fun a b => hm _ a b) Q
    have hjx1 : j + 1 ≤ jx := by
      rcases hjx.hi with h3 | ⟨h3, -⟩
      · by_contra hcon
        exact absurd (hc.mono (show jx + 1 ≤ j + 1 by omega)) (not_le.mpr h3)
      · have := h2.le_n; omega
    have a1 := lipschitz_span hV hl hQ (h1.p_le hc) h1.le_n hlt' h1.lo h1.le_hi hlt'.le le_rfl
    have a2 := ih hx hx0 hv1 hjx h2 (by omega)
    rw [abs_sub_comm u, abs_of_nonneg (sub_nonneg.mpr hux), hglue] at a1
    calc _ = |(cv (fn V) p Q 0 j u ρ - cv (fn V) p Q 0 jx (fn V (j + 1)) ρ) +
          (cv (fn V) p Q 0 jx (fn V (j + 1)) ρ - cv (fn V) p Q 0 j' v ρ)| := by ring_nf
      _ ≤ _ := abs_add_le _ _
      _ ≤ p * (l * (fn V (j + 1) - u)) + p * (l * (v - fn V (j + 1))) := add_le_add a1 a2
      _ = p * (l * (v - u)) := by ring

theorem lipschitz_abs (hV : ClampedKnots 0 1 p n V) (hm : ∀ x, 0 < x → x < 1 → V.count x ≤ p) (hl : 0 ≤ l)
    (hQ : ∀ i, i < n → |Q (i + 1) ρ - Q i ρ| ≤ l * (fn V (i + 1 + p) - fn V (i + 1)))
    {u v : K} {j j' : ℕ} (hu : 0 ≤ u ∧ u ≤ 1) (hv : 0 ≤ v ∧ v ≤ 1) (h1 : IsSpan (fn V) n u j)
    (h2 : IsSpan (fn V) n v j') :
    |cv (fn V) p Q 0 j u ρ - cv (fn V) p Q 0 j' v ρ| ≤ p * (l * |u - v|) := by
  rcases le_total u v with h | h
  · rw [abs_sub_comm u v, abs_of_nonneg (sub_nonneg.mpr h)]
    exact lipschitz hV hm hl hQ n h hu.1 hv.2 h1 h2 (by have := h2.le_n; omega)
  · rw [abs_of_nonneg (sub_nonneg.mpr h), abs_sub_comm]
    exact lipschitz hV hm hl hQ n h hv.1 hu.2 h2 h1 (by have := h1.le_n; omega)

end

/-- **C93** Two curves of the same degree with nearby control points and knots have nearby values at nearby
parameters. In every coordinate: if the points differ by at most `η`, the knots by at most `ε`, and the control
polygon of the second curve, drawn over its knots, has slopes of at most `p ℓ`, then the values at `t` and `s`
differ by at most `η + p ℓ (3 ε + |t - s|)`. -/
theorem C93_stable {c c' : Curve K d} {p n : ℕ} {U V : List K} {P Q : List (Pt K d)} (hc : ValidOn 0 1 c p n U P)
    (hc' : ValidOn 0 1 c' p n V Q) (hm : ∀ x, 0 < x → x < 1 → V.count x ≤ p)
    (hsim : ∀ (j : ℕ) x x' y y', U[j]? = some x → U[j + 1]? = some x' → V[j]? = some y → V[j + 1]? = some y' →
      x < x' → y < y') {ρ : Fin d} {l ε η : K} (hl : 0 ≤ l)
    (hε : ∀ (i : ℕ) x y, U[i]? = some x → V[i]? = some y → |x - y| ≤ ε)
    (hη : ∀ (i : ℕ) a b, P[i]? = some a → Q[i]? = some b → |a ρ - b ρ| ≤ η)
    (hQ : ∀ (i : ℕ) a b x y, Q[i]? = some a → Q[i + 1]? = some b → V[i + 1]? = some x → V[i + p + 1]? = some y →
      |b ρ - a ρ| ≤ l * (y - x)) {t s : K} (ht0 : 0 ≤ t) (ht1 : t ≤ 1) (hs0 : 0 ≤ s) (hs1 : s ≤ 1) :
    ∃ v w, c.evaluate t = .ok (.ok v) ∧ c'.evaluate s = .ok (.ok w) ∧
      |v ρ - w ρ| ≤ η + p * (l * (3 * ε + |t - s|)) := by
  obtain rfl := hc.eq_canon
  obtain rfl := hc'.eq_canon
  obtain ⟨-, hU, hP⟩ := hc
  obtain ⟨-, hV, hQl⟩ := hc'
  have hlU := hU.length
  have hlV := hV.length
  have hle := hU.le
  have cU := hU.clamp
  have cV := hV.clamp
  have gU : ∀ i, i < n + p + 2 → U[i]? = some (fn U i) := fun i hi => by
    rw [fn_lt (by omega)]; exact List.getElem?_eq_getElem _
  have gV : ∀ i, i < n + p + 2 → V[i]? = some (fn V i) := fun i hi => by
    rw [fn_lt (by omega)]; exact List.getElem?_eq_getElem _
  have gP : ∀ i, i < n + 1 → P[i]? = some (fn P i) := fun i hi => by
    rw [fn_lt (by omega)]; exact List.getElem?_eq_getElem _
  have gQ : ∀ i, i < n + 1 → Q[i]? = some (fn Q i) := fun i hi => by
    rw [fn_lt (by omega)]; exact List.getElem?_eq_getElem _
  have hε' : ∀ i, i < n + p + 2 → |fn U i - fn V i| ≤ ε := fun i hi => hε i _ _ (gU i hi) (gV i hi)
  have hε0 : 0 ≤ ε := (abs_nonneg _).trans (hε' 0 (by omega))
  have hQ' : ∀ i, i < n → |fn Q (i + 1) ρ - fn Q i ρ| ≤ l * (fn V (i + 1 + p) - fn V (i + 1)) := fun i hi => by
    have := hQ i _ _ _ _ (gQ i (by omega)) (gQ (i + 1) (by omega)) (gV (i + 1) (by omega)) (gV (i + p + 1) (by omega))
    rwa [show i + 1 + p = i + p + 1 by ring]
  obtain ⟨j, hj⟩ := cU.exists_span ht0 ht1
  obtain ⟨k, hk⟩ := cV.exists_span hs0 hs1
  have hpj := hj.p_le cU
  have hjn := hj.le_n
  have hVlt : fn V j < fn V (j + 1) := hsim j _ _ _ _ (gU j (by omega)) (gU (j + 1) (by omega)) (gV j (by omega))
    (gV (j + 1) (by omega)) (hj.lt cU)
  -- the nearest parameter in the same span of the second curve
  obtain ⟨r, hr⟩ : ∃ r, r = max (fn V j) (min t (fn V (j + 1))) := ⟨_, rfl⟩
  have hr1 : fn V j ≤ r := hr ▸ le_max_left _ _
  have hr2 : r ≤ fn V (j + 1) := hr ▸ max_le hVlt.le (min_le_right _ _)
  have htr : |t - r| ≤ ε := by
    have b1 := abs_le.mp (hε' j (by omega))
    have b2 := abs_le.mp (hε' (j + 1) (by omega))
    have b3 := hj.lo
    have b4 := hj.le_hi
    rw [hr, abs_le]
    rcases max_cases (fn V j) (min t (fn V (j + 1))) with ⟨h1, h2⟩ | ⟨h1, h2⟩ <;> rw [h1] <;>
      rcases min_cases t (fn V (j + 1)) with ⟨h3, h4⟩ | ⟨h3, h4⟩ <;> rw [h3] at h2 <;> try rw [h3]
    all_goals constructor <;> linarith
  have hr0 : 0 ≤ r := (cV.a_le j).trans hr1
  have hr1' : r ≤ 1 := hr2.trans (cV.le_b _)
  have h1 : |cv (fn U) p (fn P) 0 j t ρ - cv (fn V) p (fn Q) 0 j r ρ| ≤ η + p * (l * (2 * ε)) := by
    have e : j - p + p = j := by omega
    rw [cv_coord, cv_coord]
    refine bl_stable p (U := fn U) (V := fn V) (P := fun i => fn P i ρ) (Q := fun i => fn Q i ρ) (a := j - p) (t := t)
      (s := r) (l := l) (E := 2 * ε) (η := η) cU.mono cV.mono (by rw [e]; exact hj.lo) (by rw [e]; exact hj.le_hi)
      (by rw [e]; exact hj.lt cU) (by rwa [e]) (by rwa [e]) (by rwa [e]) hl (by linarith) ?_ ?_ ?_
    · intro i _ hi
      have := hε' i (by omega)
      rw [abs_le] at *
      constructor <;> linarith
    · intro i _ hi
      exact hη i _ _ (gP i (by omega)) (gQ i (by omega))
    · intro i _ hi
      exact hQ' i (by omega)
  obtain ⟨m, hm'⟩ := cV.exists_span hr0 hr1'
  have h2 : cv (fn V) p (fn Q) 0 j r = cv (fn V) p (fn Q) 0 m r := by
    rcases hr2.lt_or_eq with h3 | h3
    · obtain rfl : m = j := by
        refine le_antisymm ?_ ?_
        · by_contra hcon
          exact absurd ((cV.mono (show j + 1 ≤ m by omega)).trans hm'.lo) (not_le.mpr h3)
        · rcases hm'.hi with h4 | ⟨h4, -⟩
          · by_contra hcon
            exact absurd ((cV.mono (show m + 1 ≤ j by omega)).trans hr1) (not_le.mpr h4)
          · omega
      rfl
    · exact cv_glue_count hV (Nat.zero_le p) hm' ⟨hjn, h3 ▸ hVlt, hr2⟩ (fun a b => hm _ a b) _
  have h3 := lipschitz_abs hV hm hl hQ' (u := r) (v := s) ⟨hr0, hr1'⟩ ⟨hs0, hs1⟩ hm' hk
  refine ⟨_, _, evaluateDerivative_eq hU hP (Nat.zero_le p) ht0 ht1 hj,
    evaluateDerivative_eq hV hQl (Nat.zero_le p) hs0 hs1 hk, ?_⟩
  have h4 : |r - s| ≤ ε + |t - s| := by
    rw [show r - s = -(t - r) + (t - s) by ring]
    refine (abs_add_le _ _).trans ?_
    rw [abs_neg]
    linarith
  have hp0 : (0 : K) ≤ p := Nat.cast_nonneg p
  calc _ = |(cv (fn U) p (fn P) 0 j t ρ - cv (fn V) p (fn Q) 0 j r ρ) +
        (cv (fn V) p (fn Q) 0 m r ρ - cv (fn V) p (fn Q) 0 k s ρ)| := by rw [h2]; ring_nf
    _ ≤ _ := abs_add_le _ _
    _ ≤ (η + p * (l * (2 * ε))) + p * (l * |r - s|) := add_le_add h1 h3
    _ ≤ (η + p * (l * (2 * ε))) + p * (l * (ε + |t - s|)) := by
      gcongr
    _ = η + p * (l * (3 * ε + |t - s|)) := by ring

/-- **C93** A curve without jumps is nowhere steeper than its control polygon, drawn over its knots. -/
theorem C93_lipschitz {c : Curve K d} {p n : ℕ} {V : List K} {Q : List (Pt K d)}
    (hc : ValidOn 0 1 c p n V Q) (hm : ∀ x, 0 < x → x < 1 → V.count x ≤ p) {ρ : Fin d} {l : K} (hl : 0 ≤ l)
    (hQ : ∀ (i : ℕ) a b x y, Q[i]? = some a → Q[i + 1]? = some b → V[i + 1]? = some x → V[i + p + 1]? = some y →
      |b ρ - a ρ| ≤ l * (y - x)) {t s : K} (ht0 : 0 ≤ t) (ht1 : t ≤ 1) (hs0 : 0 ≤ s) (hs1 : s ≤ 1) :
    ∃ v w, c.evaluate t = .ok (.ok v) ∧ c.evaluate s = .ok (.ok w) ∧ |v ρ - w ρ| ≤ p * (l * |t - s|) := by
  obtain ⟨v, w, h1, h2, h3⟩ := C93_stable hc hc hm
    (by intro j x x' y y' a b a' b' h; rw [a] at a'; rw [b] at b'; cases a'; cases b'; exact h) hl (ε := 0) (η := 0)
    (by intro i x y a b; rw [a] at b; cases b; rw [sub_self, abs_zero])
    (by intro i x y a b; rw [a] at b; cases b; rw [sub_self, abs_zero]) hQ ht0 ht1 hs0 hs1
  exact ⟨v, w, h1, h2, by simpa using h3⟩

/-- **C93** Moving the control points by at most `η` in a coordinate moves the curve by at most `η`. This holds for
all knots. -/
theorem C93_points {c c' : Curve K d} {p n : ℕ} {U : List K} {P Q : List (Pt K d)} (hc : ValidOn 0 1 c p n U P)
    (hc' : ValidOn 0 1 c' p n U Q) {ρ : Fin d} {η : K}
    (hη : ∀ (i : ℕ) a b, P[i]? = some a → Q[i]? = some b → |a ρ - b ρ| ≤ η) {t : K} (h0 : 0 ≤ t) (h1 : t ≤ 1) :
    ∃ v w, c.evaluate t = .ok (.ok v) ∧ c'.evaluate t = .ok (.ok w) ∧ |v ρ - w ρ| ≤ η := by
  obtain rfl := hc.eq_canon
  obtain rfl := hc'.eq_canon
  obtain ⟨-, hU, hP⟩ := hc
  obtain ⟨-, -, hQ⟩ := hc'
  let R : List (Pt K d) := (List.range (n + 1)).map fun i => fn P i - fn Q i
  have hR : R.length = n + 1 := by simp [R]
  have hle : ∀ q ∈ R, |q ρ| ≤ η := by
    intro q hq
    obtain ⟨i, hi, rfl⟩ := List.mem_map.mp hq
    rw [List.mem_range] at hi
    exact hη i _ _ (by rw [fn_lt (by omega)]; exact List.getElem?_eq_getElem _)
      (by rw [fn_lt (by omega)]; exact List.getElem?_eq_getElem _)
  obtain ⟨v, hv, h2, h3⟩ := C08_bounding_box (validOn_canon hU hR) h0 h1 (r := ρ) (lo := -η) (hi := η)
    (fun q hq => (abs_le.mp (hle q hq)).1) (fun q hq => (abs_le.mp (hle q hq)).2)
  refine ⟨_, _, evaluate_sum hU hP h0 h1, evaluate_sum hU hQ h0 h1, ?_⟩
  rw [evaluate_sum hU hR h0 h1] at hv
  injection hv with hv; injection hv with hv
  have e : v ρ = (∑ i ∈ range (n + 1), nb p n U i t • fn P i) ρ - (∑ i ∈ range (n + 1), nb p n U i t • fn Q i) ρ := by
    rw [← hv, ← Pi.sub_apply, ← sum_sub_distrib]
    refine congrFun (sum_congr rfl fun i hi => ?_) ρ
    rw [fn_map_range _ (mem_range.mp hi), smul_sub]
  rw [← e]
  exact abs_le.mpr ⟨h2, h3⟩

/-- strictly increasing knots in the domain are simple -/
theorem simple_of_strict {p n : ℕ} {V : List K} (hV : ClampedKnots 0 1 p n V)
    (h : ∀ j, p ≤ j → j ≤ n → fn V j < fn V (j + 1)) : SimpleBelow V 1 := by
  have hl := hV.length
  have hc := hV.clamp
  intro x hx0 hx1
  by_contra hcon
  have hd : List.Duplicate x V := List.duplicate_iff_two_le_count.mpr (by omega)
  obtain ⟨i, j, hij, e1, e2⟩ := List.duplicate_iff_exists_distinct_get.mp hd
  have hi := i.2
  have hj := j.2
  rw [Fin.lt_def] at hij
  simp only [List.get_eq_getElem] at e1 e2
  rw [← fn_lt i.2] at e1
  rw [← fn_lt j.2] at e2
  have b1 : p < (i : ℕ) := by
    by_contra hcon
    rw [hc.left _ (by omega)] at e1; exact hx0.ne' e1
  have b2 : (j : ℕ) ≤ n := by
    by_contra hcon
    rw [hc.right _ (by omega)] at e2; exact hx1.ne e2
  have := (h i b1.le (by omega)).trans_le (hc.mono (show (i : ℕ) + 1 ≤ j from hij))
  rw [← e1, ← e2] at this
  exact lt_irrefl _ this

/-- The bound of `C93_lipschitz` is attained, by a line: degree 1, points 0 and 1. -/
theorem C93_sharp : ∃ (c : Curve ℚ 1) (U : List ℚ) (P : List (Pt ℚ 1)), ValidOn 0 1 c 1 1 U P ∧
    (∀ (i : ℕ) a b x y, P[i]? = some a → P[i + 1]? = some b → U[i + 1]? = some x → U[i + 1 + 1]? = some y →
      |b 0 - a 0| ≤ 1 * (y - x)) ∧
    ∀ t s v w, 0 ≤ t → t ≤ 1 → 0 ≤ s → s ≤ 1 → c.evaluate t = .ok (.ok v) → c.evaluate s = .ok (.ok w) →
      |v 0 - w 0| = 1 * (1 * |t - s|) := by
  have hU : ClampedKnots (0 : ℚ) 1 1 1 [0, 0, 1, 1] := by decide +kernel
  have hP : ([![0], ![1]] : List (Pt ℚ 1)).length = 1 + 1 := rfl
  refine ⟨_, _, _, validOn_canon hU hP, ?_, ?_⟩
  · intro i a b x y h1 h2 h3 h4
    match i with
    | 0 => cases h1; cases h2; cases h3; cases h4; norm_num
    | i + 1 => simp at h2
  · have key : ∀ t, 0 ≤ t → t ≤ 1 → ∀ v, (canon 1 [(0 : ℚ), 0, 1, 1] [![0], ![1]]).evaluate t = .ok (.ok v) →
        v 0 = t := by
      intro t h0 h1 v hv
      obtain ⟨j, hs⟩ := hU.clamp.exists_span h0 h1
      have h3 : j = 1 := le_antisymm hs.le_n (hs.p_le hU.clamp)
      subst h3
      have := evaluateDerivative_eq hU hP (Nat.zero_le 1) h0 h1 hs
      rw [show Curve.evaluateDerivative _ t 0 = Curve.evaluate _ t from rfl, hv] at this
      injection this with this; injection this with this
      rw [this, cv_coord]
      simp [bl_cons, D, fn]
    intro t s v w h0 h1 h2 h3 hv hw
    rw [key t h0 h1 v hv, key s h2 h3 w hw]
    ring

/-- non-vacuity of `C93_stable`: a parabola and a nearby one with a moved inner knot -/
example : ∃ (c c' : Curve ℚ 1) (U V : List ℚ) (P Q : List (Pt ℚ 1)), ValidOn 0 1 c 2 3 U P ∧
    ValidOn 0 1 c' 2 3 V Q ∧ (∀ x, 0 < x → x < 1 → V.count x ≤ 2) ∧ U ≠ V ∧ P ≠ Q ∧
    (∀ (j : ℕ) x x' y y', U[j]? = some x → U[j + 1]? = some x' → V[j]? = some y → V[j + 1]? = some y' →
      x < x' → y < y') ∧
    (∀ (i : ℕ) x y, U[i]? = some x → V[i]? = some y → |x - y| ≤ 1 / 100) ∧
    (∀ (i : ℕ) a b, P[i]? = some a → Q[i]? = some b → |a 0 - b 0| ≤ 1 / 10) ∧
    (∀ (i : ℕ) a b x y, Q[i]? = some a → Q[i + 1]? = some b → V[i + 1]? = some x → V[i + 2 + 1]? = some y →
      |b 0 - a 0| ≤ 4 * (y - x)) := by
  refine ⟨_, _, [0, 0, 0, 51 / 100, 1, 1, 1], [0, 0, 0, 1 / 2, 1, 1, 1], [![0], ![1], ![3], ![21 / 10]],
    [![0], ![1], ![3], ![2]], validOn_canon (by decide +kernel) rfl, validOn_canon (by decide +kernel) rfl, ?_,
    by decide +kernel, by decide +kernel, ?_, ?_, ?_, ?_⟩
  · intro x h0 h1
    have e : [(0 : ℚ), 0, 0, 1 / 2, 1, 1, 1].count x = if 1 / 2 = x then 1 else 0 := by
      simp only [List.count_cons, List.count_nil, beq_iff_eq, h0.ne, h1.ne', if_false]
      simp
    rw [e]; split <;> omega
  · intro j x x' y y' h1 h2 h3 h4 h5
    have hj : j < 6 := Nat.lt_of_succ_lt_succ (List.getElem?_eq_some_iff.mp h2).1
    interval_cases j <;> (cases h1; cases h2; cases h3; cases h4; revert h5; norm_num)
  · intro i x y h1 h2
    have hj : i < 7 := (List.getElem?_eq_some_iff.mp h2).1
    interval_cases i <;> (cases h1; cases h2; norm_num [abs_of_nonneg])
  · intro i x y h1 h2
    have hj : i < 4 := (List.getElem?_eq_some_iff.mp h2).1
    interval_cases i <;> (cases h1; cases h2; norm_num [abs_of_nonneg])
  · intro i a b x y h1 h2 h3 h4
    have hj : i < 3 := Nat.lt_of_succ_lt_succ (List.getElem?_eq_some_iff.mp h2).1
    interval_cases i <;> (cases h1; cases h2; cases h3; cases h4; norm_num [abs_of_nonneg, abs_of_nonpos])

end BSpline
