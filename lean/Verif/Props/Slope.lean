import Verif.Props.Stable
import Verif.Props.Split
import Verif.Props.IeeeSplit
import Verif.Props.Reproduce

/-!
# Insertion and splitting do not steepen the control polygon: C95
-/

set_option linter.unusedSectionVars false

namespace BSpline

open Finset

variable {K : Type} [Field K] [LinearOrder K] [IsStrictOrderedRing K] {d : ℕ}

/-- The slopes of the control polygon over the knots in coordinate `ρ`: the difference of neighbouring control
points is between `l` and `m` times the distance of the first and last of the `p + 1` knots that they share less
one, that is, the control points of the derivative are between `p l` and `p m`. -/
def SlopesIn (p : ℕ) (V : List K) (Q : List (Pt K d)) (ρ : Fin d) (l m : K) : Prop :=
  ∀ (i : ℕ) a b x y, Q[i]? = some a → Q[i + 1]? = some b → V[i + 1]? = some x → V[i + p + 1]? = some y →
    l * (y - x) ≤ b ρ - a ρ ∧ b ρ - a ρ ≤ m * (y - x)

theorem slopesIn_iff {p n : ℕ} {V : List K} {Q : List (Pt K d)} (hV : V.length = n + p + 2) (hQ : Q.length = n + 1)
    {ρ : Fin d} {l m : K} : SlopesIn p V Q ρ l m ↔ ∀ i, i < n →
      l * (fn V (i + p + 1) - fn V (i + 1)) ≤ fn Q (i + 1) ρ - fn Q i ρ ∧
        fn Q (i + 1) ρ - fn Q i ρ ≤ m * (fn V (i + p + 1) - fn V (i + 1)) := by
  constructor
  · intro h i hi
    have := h i (Q[i]'(by omega)) (Q[i + 1]'(by omega)) (V[i + 1]'(by omega)) (V[i + p + 1]'(by omega))
      (List.getElem?_eq_getElem _) (List.getElem?_eq_getElem _) (List.getElem?_eq_getElem _)
      (List.getElem?_eq_getElem _)
    rw [fn_lt (by omega), fn_lt (by omega), fn_lt (by omega), fn_lt (by omega)]
    exact this
  · intro h i a b x y h1 h2 h3 h4
    obtain ⟨g1, rfl⟩ := List.getElem?_eq_some_iff.mp h1
    obtain ⟨g2, rfl⟩ := List.getElem?_eq_some_iff.mp h2
    obtain ⟨g3, rfl⟩ := List.getElem?_eq_some_iff.mp h3
    obtain ⟨g4, rfl⟩ := List.getElem?_eq_some_iff.mp h4
    have := h i (by omega)
    rwa [fn_lt g1, fn_lt g2, fn_lt g3, fn_lt g4] at this

/-- one insertion -/
theorem insP_slopes {p n k : ℕ} {V : List K} {x : K} (hV : ClampedKnots 0 1 p n V) (hm : V.count x ≤ p)
    (hp : p ≤ k) (hn : k ≤ n) (hk : fn V k ≤ x) (hk' : x ≤ fn V (k + 1)) {Q : ℕ → Pt K d} {ρ : Fin d} {l m : K}
    (hQ : ∀ i, i < n → l * (fn V (i + p + 1) - fn V (i + 1)) ≤ Q (i + 1) ρ - Q i ρ ∧
      Q (i + 1) ρ - Q i ρ ≤ m * (fn V (i + p + 1) - fn V (i + 1))) {i : ℕ} (hi : i < n + 1) :
    l * (fn (insU V x k) (i + p + 1) - fn (insU V x k) (i + 1)) ≤
        insP (fn V) p Q x k (i + 1) ρ - insP (fn V) p Q x k i ρ ∧
      insP (fn V) p Q x k (i + 1) ρ - insP (fn V) p Q x k i ρ ≤
        m * (fn (insU V x k) (i + p + 1) - fn (insU V x k) (i + 1)) := by
  have hcl := hV.clamp
  have hlen := hV.length
  have e1 : ∀ {i}, i ≤ k → fn (insU V x k) i = fn V i := fun hi => fn_insU_le (by omega) hi
  have e2 : fn (insU V x k) (k + 1) = x := fn_insU_eq (by omega)
  have e3 : ∀ {i}, k + 1 ≤ i → fn (insU V x k) (i + 1) = fn V i := fun hi => fn_insU_gt (by omega) hi
  have mid : ∀ i, k - p < i → i ≤ k →
      (l * (x - fn V i) ≤ insP (fn V) p Q x k i ρ - Q (i - 1) ρ ∧
        insP (fn V) p Q x k i ρ - Q (i - 1) ρ ≤ m * (x - fn V i)) ∧
      l * (fn V (i + p) - x) ≤ Q i ρ - insP (fn V) p Q x k i ρ ∧
        Q i ρ - insP (fn V) p Q x k i ρ ≤ m * (fn V (i + p) - x) := by
    intro i h1 h2
    have hlo : fn V i ≤ x := (hcl.mono (by omega)).trans hk
    have hhi : x ≤ fn V (i + p) := hk'.trans (hcl.mono (by omega))
    have hlt : fn V i < fn V (i + p) := by
      refine lt_of_le_of_ne (hlo.trans hhi) fun he => ?_
      have hr := run_le_count (U := V) (x := x) (lo := i) (s := p + 1) (by omega) (by
        intro m hm1 hm2
        have a1 : fn V i ≤ fn V m := hcl.mono hm1
        have a2 : fn V m ≤ fn V (i + p) := hcl.mono (by omega)
        exact le_antisymm (by linarith) (by linarith))
      omega
    have hw : 0 < fn V (i + p) - fn V i := sub_pos.mpr hlt
    have hins : insP (fn V) p Q x k i ρ = (1 - (x - fn V i) / (fn V (i + p) - fn V i)) * Q (i - 1) ρ +
        (x - fn V i) / (fn V (i + p) - fn V i) * Q i ρ := by
      simp [insP, h2, scale, show ¬ i ≤ k - p by omega]
    have hq := hQ (i - 1) (by omega)
    rw [show i - 1 + 1 = i by omega, show i - 1 + p + 1 = i + p by omega] at hq
    set w := fn V (i + p) - fn V i with hwd
    have ha : 0 ≤ (x - fn V i) / w := div_nonneg (by linarith) hw.le
    have hb : 0 ≤ (fn V (i + p) - x) / w := div_nonneg (by linarith) hw.le
    have f1 : insP (fn V) p Q x k i ρ - Q (i - 1) ρ = (x - fn V i) / w * (Q i ρ - Q (i - 1) ρ) := by
      rw [hins]; ring
    have f2 : Q i ρ - insP (fn V) p Q x k i ρ = (fn V (i + p) - x) / w * (Q i ρ - Q (i - 1) ρ) := by
      have : (fn V (i + p) - x) / w = 1 - (x - fn V i) / w := by
        rw [eq_sub_iff_add_eq, ← add_div, div_eq_one_iff_eq hw.ne', hwd]; ring
      rw [hins, this]; ring
    have g : ∀ c y : K, c * y = y / w * (c * w) := by
      intro c y
      field_simp
    rw [f1, f2, g l (x - fn V i), g m (x - fn V i), g l (fn V (i + p) - x), g m (fn V (i + p) - x)]
    exact ⟨⟨mul_le_mul_of_nonneg_left hq.1 ha, mul_le_mul_of_nonneg_left hq.2 ha⟩,
      mul_le_mul_of_nonneg_left hq.1 hb, mul_le_mul_of_nonneg_left hq.2 hb⟩
  have low : ∀ i, i ≤ k - p → insP (fn V) p Q x k i ρ = Q i ρ := by
    intro i h; simp [insP, h]
  have high : ∀ i, k < i → insP (fn V) p Q x k i ρ = Q (i - 1) ρ := by
    intro i h; simp [insP, show ¬ i ≤ k - p by omega, show ¬ i ≤ k by omega]
  rcases Nat.lt_or_ge k i with h | h
  · -- behind
    have hq := hQ (i - 1) (by omega)
    rw [show i - 1 + 1 = i by omega, show i - 1 + p + 1 = i + p by omega] at hq
    rw [high _ h, high _ (by omega), Nat.add_sub_cancel, e3 (by omega), e3 (by omega)]
    exact hq
  rcases Nat.lt_or_ge (k - p) i with h2 | h2
  · obtain ⟨-, h3⟩ := mid i h2 h
    rw [e3 (show k + 1 ≤ i + p by omega)]
    rcases Nat.lt_or_ge i k with h4 | h4
    · obtain ⟨h5, -⟩ := mid (i + 1) (by omega) h4
      rw [Nat.add_sub_cancel] at h5
      rw [e1 (show i + 1 ≤ k by omega)]
      constructor
      · calc _ = l * (x - fn V (i + 1)) + l * (fn V (i + p) - x) := by ring
          _ ≤ _ := add_le_add h5.1 h3.1
          _ = _ := by ring
      · calc _ = (insP (fn V) p Q x k (i + 1) ρ - Q i ρ) + (Q i ρ - insP (fn V) p Q x k i ρ) := by ring
          _ ≤ _ := add_le_add h5.2 h3.2
          _ = _ := by ring
    · obtain rfl : i = k := by omega
      rw [high (i + 1) (by omega), Nat.add_sub_cancel, e2]
      exact h3
  · rw [low i h2]
    rcases h2.eq_or_lt with rfl | h4
    · rw [show k - p + p + 1 = k + 1 by omega, e2]
      rcases Nat.eq_zero_or_pos p with rfl | hp0
      · rw [high _ (by omega), show k - 0 + 1 = k + 1 by omega, e2, Nat.add_sub_cancel, Nat.sub_zero]
        simp
      · obtain ⟨h5, -⟩ := mid (k - p + 1) (by omega) (by omega)
        rw [Nat.add_sub_cancel] at h5
        rw [e1 (show k - p + 1 ≤ k by omega)]
        exact h5
    · rw [low _ (by omega), e1 (by omega), e1 (by omega)]
      exact hQ i (by omega)

/-- repeated insertion -/
theorem insertTimes_slopes {p : ℕ} {x : K} (h0 : 0 < x) (h1 : x < 1) {ρ : Fin d} {l m : K} (t : ℕ) :
    ∀ {n : ℕ} {V : List K} {Q : List (Pt K d)}, ClampedKnots 0 1 p n V → Q.length = n + 1 → SimpleBelow V x →
      V.count x + t ≤ p + 1 → SlopesIn p V Q ρ l m →
      ∃ V' Q', (canon p V Q).insertTimes x t = .ok (canon p V' Q', .ok ()) ∧ ClampedKnots 0 1 p (n + t) V' ∧
        Q'.length = n + t + 1 ∧ SlopesIn p V' Q' ρ l m := by
  induction t with
  | zero => exact fun hV hQ _ _ hs => ⟨_, _, rfl, hV, hQ, hs⟩
  | succ t ih =>
    intro n V Q hV hQ hr hm hs
    have hlV := hV.length
    have hg := lleq_insert hV h0 h1 hr
    have hb := lleq_bounds (fn V) x (n - p) p
    have hins := insert_ok (d := d) hlV hQ hV.le x
    have hcmp : (Cmp.le x 0 || Cmp.le 1 x) = false := by simp [Cmp.le, h0, h1]
    rw [multF_eq_count hV h0 h1, if_neg (by simp [hcmp]), if_neg (by omega)] at hins
    have hle := hV.le
    generalize lleq (fn V) x (n - p) p = k at hg hb hins
    have hV' := insU_clamped hV h0 h1 hb.1 (by omega) hg.1 hg.2
    have hperm := insU_perm V x k
    have hsl := (slopesIn_iff hlV hQ).mp hs
    obtain ⟨V', Q', i1, i2, i3, i4⟩ := ih (n := n + 1)
      (Q := (List.range (n + 2)).map (insP (fn V) p (fn Q) x k)) hV' (by simp) (by
        intro z hz0 hzu
        rw [hperm.count_eq, List.count_cons_of_ne hzu.ne']
        exact hr z hz0 hzu) (by
        rw [hperm.count_eq, List.count_cons_self]; omega) (by
        rw [slopesIn_iff hV'.length (by simp)]
        intro i hi
        rw [fn_map_range _ (by omega), fn_map_range _ (by omega)]
        exact insP_slopes hV (by omega) hb.1 (by omega) hg.1 hg.2 hsl hi)
    refine ⟨V', Q', ?_, by rwa [show n + (t + 1) = n + 1 + t by omega], by omega, i4⟩
    rw [Curve.insertTimes, hins]; exact i1

/-- **C95** Inserting knots does not steepen the control polygon: all bounds of the slopes of the control polygon
over the knots, in any coordinate, from above and below, remain true. -/
theorem C95_insert_times {c c' : Curve K d} {p n t : ℕ} {V V' : List K} {Q Q' : List (Pt K d)}
    (hc : ValidOn 0 1 c p n V Q) {x : K} (h0 : 0 < x) (h1 : x < 1) (hr : SimpleBelow V x)
    (ht : V.count x + t ≤ p + 1) (hi : c.insertTimes x t = .ok (c', .ok ())) (hV' : c'.knots.vector = .ok V')
    (hQ' : c'.points.matrix = .ok Q') {ρ : Fin d} {l m : K} (hs : SlopesIn p V Q ρ l m) :
    SlopesIn p V' Q' ρ l m := by
  obtain rfl := hc.eq_canon
  obtain ⟨-, hV, hQ⟩ := hc
  obtain ⟨V'', Q'', i1, -, -, i4⟩ := insertTimes_slopes h0 h1 t hV hQ hr ht hs
  rw [i1] at hi
  injection hi with hi; injection hi with hi _
  subst hi
  rw [canon_knots, canonKnots_vector] at hV'
  rw [canon_points, canonPts_matrix] at hQ'
  cases hV'; cases hQ'
  exact i4

/-- slopes over transformed knots -/
theorem SlopesIn.map {p : ℕ} {V : List K} {Q : List (Pt K d)} {ρ : Fin d} {l m α β : K} (hα : α ≠ 0)
    (h : SlopesIn p V Q ρ l m) : SlopesIn p (V.map fun x => α⁻¹ * x + β) Q ρ (l * α) (m * α) := by
  intro i a b x y h1 h2 h3 h4
  rw [List.getElem?_map, Option.map_eq_some_iff] at h3 h4
  obtain ⟨x', h3, rfl⟩ := h3
  obtain ⟨y', h4, rfl⟩ := h4
  have := h i a b x' y' h1 h2 h3 h4
  rw [show l * α * (α⁻¹ * y' + β - (α⁻¹ * x' + β)) = l * (y' - x') by field_simp; ring,
    show m * α * (α⁻¹ * y' + β - (α⁻¹ * x' + β)) = m * (y' - x') by field_simp; ring]
  exact this

theorem SlopesIn.normalizeIf {a b : K} {p n : ℕ} {V : List K} {Q : List (Pt K d)} {ρ : Fin d} {l m : K}
    (hV : ClampedKnots a b p n V) (h : SlopesIn p V Q ρ l m) (norm : Bool) :
    SlopesIn p (normalizeIf norm V) Q ρ (if norm then l * (b - a) else l) (if norm then m * (b - a) else m) := by
  cases norm
  · exact h
  · change SlopesIn p (normalizeKnots V) Q ρ _ _
    rw [hV.normalize_eq]
    exact h.map (sub_ne_zero.mpr hV.lt.ne')

/-- the slopes of both parts -/
theorem split_slopes {p n : ℕ} {V : List K} {Q : List (Pt K d)} (hV : ClampedKnots 0 1 p n V)
    (hQ : Q.length = n + 1) {x : K} (h0 : 0 < x) (h1 : x < 1) (hr : SimpleBelow V x) (hm : V.count x ≤ p)
    (norm : Bool × Bool) :
    ∃ W1 W2 Q1 Q2, splitAndNormalize (canon p V Q) x norm = .ok (.ok (canon p W1 Q1, canon p W2 Q2)) ∧
      ∀ {ρ : Fin d} {l m : K}, SlopesIn p V Q ρ l m →
      SlopesIn p W1 Q1 ρ (if norm.1 then l * x else l) (if norm.1 then m * x else m) ∧
      SlopesIn p W2 Q2 ρ (if norm.2 then l * (1 - x) else l) (if norm.2 then m * (1 - x) else m) := by
  obtain ⟨V', Q', n', q, hins, hcut, hQ', hn', -, -, hsplit⟩ := split_valid_inserted hV hQ h0 h1 hm hr
  refine ⟨_, _, _, _, hsplit norm, fun {ρ l m} hs => ?_⟩
  obtain ⟨V'', Q'', i1, -, -, i4⟩ := insertTimes_slopes h0 h1 (p - V.count x) hV hQ hr (by omega) hs
  rw [hins] at i1
  injection i1 with i1; injection i1 with i1 _
  have hk := congrArg (fun c => c.knots.vector) i1
  have hp' := congrArg (fun c => c.points.matrix) i1
  simp only [canon_knots, canonKnots_vector, canon_points, canonPts_matrix] at hk hp'
  injection hk with hk
  injection hp' with hp'
  subst hk; subst hp'
  have a1 := hcut.lo_q
  have a2 := hcut.q_hi
  have hlen := hcut.cl.length
  have hsl := (slopesIn_iff hlen hQ').mp i4
  constructor
  · have := SlopesIn.normalizeIf (Q := Q'.take q) (ρ := ρ) (l := l) (m := m) hcut.left_clamped (by
      rw [slopesIn_iff (n := q - 1) (by simp; omega) (by simp; omega)]
      intro i hi
      have hfn : ∀ j, j < q + p → fn (V'.take (q + p) ++ [x]) j = fn V' j := by
        intro j hj
        rw [fn_append_left (by simp; omega), fn_take hj (by omega)]
      rw [hfn _ (by omega), hfn _ (by omega), fn_take (by omega) (by omega), fn_take (by omega) (by omega)]
      exact hsl i (by omega)) norm.1
    rwa [sub_zero] at this
  · refine SlopesIn.normalizeIf (Q := Q'.drop (q - 1)) (ρ := ρ) (l := l) (m := m) hcut.right_clamped ?_ norm.2
    rw [slopesIn_iff (n := n' + 1 - q) (by simp; omega) (by simp; omega)]
    intro i hi
    rw [fn_cons_succ (by simp; omega), fn_cons_succ (by simp; omega), fn_drop (by omega), fn_drop (by omega),
      fn_drop (by omega), fn_drop (by omega)]
    have := hsl (q - 1 + i) (by omega)
    rw [show q - 1 + i + p + 1 = q + (i + p) by omega, show q - 1 + i + 1 = q + i by omega] at this
    rwa [show q - 1 + (i + 1) = q + i by omega]

/-- **C95** Splitting does not steepen the control polygon: the slopes of both parts obey the bounds of the
curve, multiplied by the lengths `x` and `1 - x` of the parts if they are normalised. -/
theorem C95_split {c c1 c2 : Curve K d} {p n : ℕ} {V W1 W2 : List K} {Q Q1 Q2 : List (Pt K d)}
    (hc : ValidOn 0 1 c p n V Q) {x : K} (hr : SimpleBelow V x) {norm : Bool × Bool}
    (hs : splitAndNormalize c x norm = .ok (.ok (c1, c2))) (hW1 : c1.knots.vector = .ok W1)
    (hQ1 : c1.points.matrix = .ok Q1) (hW2 : c2.knots.vector = .ok W2) (hQ2 : c2.points.matrix = .ok Q2)
    {ρ : Fin d} {l m : K} (h : SlopesIn p V Q ρ l m) :
    SlopesIn p W1 Q1 ρ (if norm.1 then l * x else l) (if norm.1 then m * x else m) ∧
      SlopesIn p W2 Q2 ρ (if norm.2 then l * (1 - x) else l) (if norm.2 then m * (1 - x) else m) := by
  obtain ⟨h0, h1, hm⟩ := split_ok_iff hc hr hs
  obtain rfl := hc.eq_canon
  obtain ⟨-, hV, hQ⟩ := hc
  obtain ⟨A1, A2, B1, B2, hsp, hb⟩ := split_slopes hV hQ h0 h1 hr hm norm
  rw [hsp] at hs
  injection hs with hs; injection hs with hs; injection hs with e1 e2
  subst e1 e2
  rw [canon_knots, canonKnots_vector] at hW1 hW2
  rw [canon_points, canonPts_matrix] at hQ1 hQ2
  cases hW1; cases hW2; cases hQ1; cases hQ2
  exact hb h

/-! ### What the slopes say about the curve -/

theorem sum_window {p i : ℕ} {V : List K} (h : i + p + 1 < V.length) :
    ((V.drop (i + 2)).take p).sum - ((V.drop (i + 1)).take p).sum = fn V (i + p + 1) - fn V (i + 1) := by
  have e1 : (V.drop (i + 1)).take (p + 1) = V[i + 1] :: (V.drop (i + 2)).take p := by
    rw [List.drop_eq_getElem_cons (by omega), List.take_succ_cons]
  have e2 : (V.drop (i + 1)).take (p + 1) = (V.drop (i + 1)).take p ++ [V[i + p + 1]] := by
    rw [List.take_succ_eq_append_getElem (by simp; omega), List.getElem_drop]
    congr 3
    omega
  have := congrArg List.sum (e1.symm.trans e2)
  rw [List.sum_cons, List.sum_append, List.sum_singleton] at this
  rw [fn_lt h, fn_lt (by omega)]
  linear_combination this

/-- **C95** The slopes of the control polygon bound the rise of the curve from below and above: between any two
parameters, the mean slope of the curve is between `p l` and `p m`. In particular a coordinate that does not
decrease along the control points does not decrease along the curve. -/
theorem C95_mean_slope {c : Curve K d} {p n : ℕ} {V : List K} {Q : List (Pt K d)}
    (hc : ValidOn 0 1 c p n V Q) (hm : ∀ x, 0 < x → x < 1 → V.count x ≤ p) {ρ : Fin d} {l m : K}
    (hs : SlopesIn p V Q ρ l m) (hlm : l ≤ m) {s t : K} (h0 : 0 ≤ s) (hst : s ≤ t) (h1 : t ≤ 1) :
    ∃ v w, c.evaluate s = .ok (.ok v) ∧ c.evaluate t = .ok (.ok w) ∧
      p * (l * (t - s)) ≤ w ρ - v ρ ∧ w ρ - v ρ ≤ p * (m * (t - s)) := by
  obtain rfl := hc.eq_canon
  obtain ⟨-, hV, hQ⟩ := hc
  have hlen := hV.length
  have hsl := (slopesIn_iff hlen hQ).mp hs
  rcases Nat.eq_zero_or_pos p with rfl | hp
  · obtain ⟨v, w, e1, e2, e3⟩ := C93_lipschitz (validOn_canon hV hQ) hm (ρ := ρ) (l := 0) le_rfl (by
      intro i a b x y g1 g2 g3 g4
      rw [Nat.add_zero, g3] at g4
      cases g4
      have := hs i a b x x g1 g2 g3 g3
      rw [sub_self, mul_zero, mul_zero] at this
      rw [le_antisymm this.2 this.1]
      simp) h0 (hst.trans h1) (h0.trans hst) h1
    refine ⟨v, w, e1, e2, ?_⟩
    rw [Nat.cast_zero, zero_mul, abs_le] at e3
    rw [Nat.cast_zero, zero_mul, zero_mul]
    exact ⟨by linarith [e3.2], by linarith [e3.1]⟩
  have hp0 : (p : K) ≠ 0 := by exact_mod_cast hp.ne'
  set a : K := (l + m) / 2 with ha
  let G : List (Pt K d) := (List.range (n + 1)).map
    fun i => (0 : Pt K d) + (((V.drop (i + 1)).take p).sum / (p : K)) • fun _ => (p : K)
  let R : List (Pt K d) := (List.range (n + 1)).map fun i => fn Q i - a • fn G i
  have hG : G.length = n + 1 := by simp [G]
  have hR : R.length = n + 1 := by simp [R]
  have fG : ∀ i, i < n + 1 → fn G i ρ = ((V.drop (i + 1)).take p).sum := by
    intro i hi
    rw [fn_map_range _ hi]
    simp only [zero_add, Pi.smul_apply, smul_eq_mul]
    exact div_mul_cancel₀ _ hp0
  have gval := (C61_linear_precision (validOn_canon hV hG) hp 0 (fun _ => (p : K))).1 rfl
  have lin : ∀ u, 0 ≤ u → u ≤ 1 → ∃ v w, (canon p V Q).evaluate u = .ok (.ok v) ∧
      (canon p V R).evaluate u = .ok (.ok w) ∧ v ρ = w ρ + a * (u * p) := by
    intro u hu0 hu1
    have g := gval u hu0 hu1
    rw [evaluate_sum hV hG hu0 hu1] at g
    injection g with g; injection g with g
    refine ⟨_, _, evaluate_sum hV hQ hu0 hu1, evaluate_sum hV hR hu0 hu1, ?_⟩
    have gr := congrFun g ρ
    rw [Finset.sum_apply] at gr
    rw [Finset.sum_apply, Finset.sum_apply]
    have gr' : ∑ i ∈ range (n + 1), nb p n V i u * fn G i ρ = u * p := by
      simpa using gr
    rw [← gr', mul_sum, ← sum_add_distrib]
    apply sum_congr rfl
    intro i hi
    rw [fn_map_range _ (by simpa using hi)]
    simp only [Pi.smul_apply, Pi.sub_apply, smul_eq_mul]
    ring
  obtain ⟨v, v', v1, v2, v3⟩ := lin s h0 (hst.trans h1)
  obtain ⟨w, w', w1, w2, w3⟩ := lin t (h0.trans hst) h1
  refine ⟨v, w, v1, w1, ?_⟩
  obtain ⟨b, b', b1, b2, b3⟩ := C93_lipschitz (validOn_canon hV hR) hm (ρ := ρ) (l := (m - l) / 2) (by linarith) (by
      intro i x1 x2 x y g1 g2 g3 g4
      obtain ⟨k1, rfl⟩ := List.getElem?_eq_some_iff.mp g1
      obtain ⟨k2, rfl⟩ := List.getElem?_eq_some_iff.mp g2
      obtain ⟨k3, rfl⟩ := List.getElem?_eq_some_iff.mp g3
      obtain ⟨k4, rfl⟩ := List.getElem?_eq_some_iff.mp g4
      have hi : i < n := by omega
      have q := hsl i hi
      have fR : ∀ i, i < n + 1 → fn R i ρ = fn Q i ρ - a * fn G i ρ := by
        intro i hi
        rw [fn_map_range _ hi]
        rfl
      rw [← fn_lt k1, ← fn_lt k2, ← fn_lt k3, ← fn_lt k4, fR _ (by omega), fR _ (by omega), fG _ (by omega), fG _ (by omega), show fn Q (i + 1) ρ - a * ((V.drop (i + 1 + 1)).take p).sum -
        (fn Q i ρ - a * ((V.drop (i + 1)).take p).sum) = fn Q (i + 1) ρ - fn Q i ρ -
          a * (((V.drop (i + 2)).take p).sum - ((V.drop (i + 1)).take p).sum) by ring, sum_window k4, abs_le, ha]
      constructor
      · linarith
      · linarith) h0 (hst.trans h1) (h0.trans hst) h1
  rw [v2] at b1
  rw [w2] at b2
  cases b1; cases b2
  rw [abs_sub_comm s t, abs_of_nonneg (sub_nonneg.mpr hst), abs_le] at b3
  rw [v3, w3, ha]
  constructor <;> linarith [b3.1, b3.2]

/-- non-vacuity: the control polygon of a quadratic over knots with an interior knot, with slopes from 1 to 4 -/
example : SlopesIn 2 [(0 : ℚ), 0, 0, 1 / 2, 1, 1, 1] [![0], ![1 / 2], ![3 / 2], ![7 / 2]] (0 : Fin 1) 1 4 ∧
    ClampedKnots (0 : ℚ) 1 2 3 [0, 0, 0, 1 / 2, 1, 1, 1] ∧
    SimpleBelow [(0 : ℚ), 0, 0, 1 / 2, 1, 1, 1] (1 / 4) := by
  refine ⟨?_, by decide +kernel, ?_⟩
  · rw [slopesIn_iff (n := 3) (by simp) (by simp)]
    intro i hi
    interval_cases i <;> decide +kernel
  · intro z h0 h1
    have : ([(0 : ℚ), 0, 0, 1 / 2, 1, 1, 1]).count z = 0 := by
      rw [List.count_eq_zero]
      intro h
      simp only [List.mem_cons, List.not_mem_nil, or_false] at h
      rcases h with h | h | h | h | h | h | h <;> (rw [h] at h0 h1; revert h0 h1; norm_num)
    omega

end BSpline
