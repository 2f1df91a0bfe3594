import Verif.Props.MergeMap
import Verif.Props.MergeReverse
import Verif.Props.Unique

/-!
# Which curves survive merging: C80

C31 shows that merging keeps curves of degree one and two that join already. Here: for every other
degree and every other accepted pair of sizes it does not, whatever the knots are. Already two copies
of a point that does not move are torn apart.
-/

set_option linter.unusedSectionVars false

namespace BSpline

open Finset

variable {K : Type} [Field K] [LinearOrder K] [IsStrictOrderedRing K] {d : ℕ}
variable {p m o : ℕ} {V W : List K} {S T S' T' : List (Pt K d)}

/-- a curve that stays at `x` -/
theorem resting_evaluate {c : Curve K d} {n : ℕ} {U : List K} {x : Pt K d} (hU : ClampedKnots 0 1 p n U)
    (hc : Built c p U (List.replicate (n + 1) x)) {u : K} (h0 : 0 ≤ u) (h1 : u ≤ 1) (k : ℕ) :
    c.evaluateDerivative u k = .ok (.ok (if k = 0 then x else 0)) := by
  have e : List.replicate (n + 1) x =
      (List.replicate (n + 1) (0 : Pt K d)).map (fun y => (0 : Pt K d →ₗ[K] Pt K d) y + x) := by
    simp
  rw [e] at hc
  obtain ⟨v, -, h⟩ := C09_affine_invariance 0 x (validOn_canon (P := List.replicate (n + 1) (0 : Pt K d)) hU (by simp))
    hc h0 h1 k
  rw [h]
  congr 2
  split <;> simp

/-- the derivative of order zero is the control point -/
theorem dcp_zero {U : ℕ → K} {N n i : ℕ} {P : ℕ → Pt K d} (hi : i ≤ n) (hn : n ≤ N) :
    dcp U p N n i 0 P = P i := by
  rw [dcp, foldl_add_eq_sum]
  have : ∑ z ∈ Ico 0 (0 + (n + 1 - 0)), scale (pf U p N z 0 i) (P z) = P i := by
    rw [sum_eq_single i]
    · funext r; simp [pf, scale, hi.trans hn]
    · intro z _ hz
      funext r; simp [pf, scale, hz.symm]
    · intro h; simp only [mem_Ico, not_and, not_lt] at h; omega
  rw [this]
  exact zero_add _

/-- the first adjusted control point is a multiple of its neighbour plus the neighbour -/
theorem adjP_first {U Uadj : ℕ → K} {N n : ℕ} {P : ℕ → Pt K d} (hp : 1 ≤ p) (hpn : p ≤ n) (hn : n ≤ N) :
    adjP U Uadj p N n P (n - p + 2) =
      scale ((Uadj (n + 2) - Uadj (n - p + 2)) / (p : K)) (P (n - p + 1)) + P (n - p + 1) := by
  rw [adjP, if_neg (by omega), show n - p + 2 - (n - p + 1) = 0 + 1 by omega, adjq, adjq, adjq, baseRow,
    baseRow, if_neg (by omega), if_pos rfl, dcp_zero (by omega) hn]
  congr 3
  rw [show n - p + 2 + 0 + p = n + 2 by omega]

/-- knots of the left half that merging uses -/
theorem fn_vadj_left (hV : ClampedKnots 0 1 p m V) (hW : ClampedKnots 0 1 p o W) {i : ℕ}
    (hi : i ≤ m + p + 1) : fn (vadj p m V W) i = mknots p m V W i := by
  have hlV := hV.length
  have hlW := hW.length
  have hpo := hW.le
  rw [vadj, mknots]
  split
  · rw [fn_append_left (by simp; omega), fn_take (by omega) (by omega)]
  · rw [fn_append_right (by simp; omega) (by simp; omega), List.length_take,
      show min (m + 2) V.length = m + 2 by omega, fn_map _ (by simp; omega), fn_take (by omega) (by simp; omega),
      fn_drop (by omega)]
    congr 2; omega

/-- knots of the right half that merging uses -/
theorem fn_vadj_right (hV : ClampedKnots 0 1 p m V) (hW : ClampedKnots 0 1 p o W) {i : ℕ}
    (hi : i ≤ o + p + 1) :
    fn ((reverseKnots (vadj p o (reverseKnots W) (reverseKnots V))).map (· + 1)) i =
      mknots p m V W (i + (m + 1 - p)) := by
  have hlV := hV.length
  have hlW := hW.length
  have hpm := hV.le
  have hpo := hW.le
  have hv : (vadj p o (reverseKnots W) (reverseKnots V)).length = o + p + 2 :=
    vadj_length (o := m) (by rw [reverseKnots_length]; exact hlW) (by rw [reverseKnots_length]; exact hlV) hpm
  rw [fn_map _ (by rw [reverseKnots_length, hv]; omega), reverseKnots_eq, fn_revU (by rw [hv]; omega), hv, vadj]
  by_cases h : p ≤ i
  · rw [mknots_right hV hW h, fn_append_left (by rw [List.length_take, reverseKnots_length]; omega),
      fn_take (by omega) (by rw [reverseKnots_length]; omega), reverseKnots_eq, fn_revU (by omega), hlW,
      sub_sub_cancel]
    congr 2; omega
  · rw [mknots_left (by omega), fn_append_right (by rw [List.length_take, reverseKnots_length]; omega)
      (by simp only [List.length_take, List.length_drop, List.length_map, reverseKnots_length]; omega),
      List.length_take, reverseKnots_length, show min (o + 2) W.length = o + 2 by omega,
      fn_map _ (by simp only [List.length_take, List.length_drop, reverseKnots_length]; omega),
      fn_take (by omega) (by rw [List.length_drop, reverseKnots_length]; omega),
      fn_drop (by rw [reverseKnots_length]; omega), reverseKnots_eq, fn_revU (by omega), hlV]
    rw [show (1 : K) - (1 - fn V (m + p + 2 - 1 - (p + 1 + (o + p + 2 - 1 - i - (o + 2)))) + 1) + 1 =
      fn V (m + p + 2 - 1 - (p + 1 + (o + p + 2 - 1 - i - (o + 2)))) by ring]
    congr 1; omega

/-- the first middle point on the left -/
theorem mergedPts_wrong_left (hV : ClampedKnots 0 1 p m V) (hW : ClampedKnots 0 1 p o W) (hp : 3 ≤ p) :
    ∃ e : K, 0 < e ∧ ∀ S' T' : List (Pt K d), S'.length = m + 1 →
      fn (mergedPts p m o V W S' T') (m - p + 2) = fn S' (m - p + 1) + e • fn S' (m - p + 1) := by
  have hpm := hV.le
  have hpo := hW.le
  refine ⟨(fn (vadj p m V W) (m + 2) - fn (vadj p m V W) (m - p + 2)) / p, ?_, ?_⟩
  · rw [fn_vadj_left hV hW (by omega), fn_vadj_left hV hW (by omega),
      mknots_left (i := m - p + 2) (by omega)]
    have e := mknots_right hV hW (show p ≤ p + 1 by omega)
    rw [show p + 1 + (m + 1 - p) = m + 2 by omega] at e
    rw [e]
    have h1 := hV.clamp.le_b (m - p + 2)
    have h2 := hW.clamp.a_lt (show p < p + 1 by omega)
    exact div_pos (by linarith) (by exact_mod_cast (by omega : 0 < p))
  · intro S' T' _
    rw [mergedPts, fn_map_range _ (by omega), mergedP, if_pos (by omega), sadj, fn_map_range _ (by omega),
      adjP_first (by omega) hpm le_rfl, add_comm]
    rfl

/-- interior knots of multiplicity at most `p` -/
theorem lt_of_noJump {n : ℕ} {U : List K} (hU : ClampedKnots 0 1 p n U) (hm : NoJump p U) {i : ℕ}
    (h1 : 1 ≤ i) (hi : i ≤ n) : fn U i < fn U (i + p) := by
  have hc := hU.clamp
  have hlen := hU.length
  rcases (hc.mono (show i ≤ i + p by omega)).lt_or_eq with h | h
  · exact h
  exfalso
  have h1 : 0 < fn U i := by rw [h]; exact hc.a_lt (by omega)
  have h2 : fn U i < 1 := hc.lt_b hi
  have := hm _ h1 h2
  have h3 : p + 1 ≤ U.count (fn U i) := by
    apply run_le_count (lo := i) (by omega)
    intro m hm1 hm2
    apply le_antisymm
    · rw [h]; exact hc.mono (by omega)
    · exact hc.mono hm1
  omega

/-- the first middle point on the right -/
theorem mergedPts_wrong_right (hV : ClampedKnots 0 1 p m V) (hW : ClampedKnots 0 1 p o W) (hp : 2 ≤ p)
    (hmo : m < o) (hom : o < m + p) (hj : NoJump p W) :
    ∃ e : K, 0 < e ∧ ∀ S' T' : List (Pt K d), T'.length = o + 1 →
      fn (mergedPts p m o V W S' T') (o - 1) =
        fn T' (o - (m - p + 1)) + e • fn T' (o - (m - p + 1)) := by
  have hpm := hV.le
  have hpo := hW.le
  refine ⟨(fn ((reverseKnots (vadj p o (reverseKnots W) (reverseKnots V))).map (· + 1)) (m + 2) -
    fn ((reverseKnots (vadj p o (reverseKnots W) (reverseKnots V))).map (· + 1)) (m - p + 2)) / p, ?_, ?_⟩
  · rw [fn_vadj_right hV hW (by omega), fn_vadj_right hV hW (by omega), mknots_right hV hW (by omega)]
    refine div_pos ?_ (by exact_mod_cast (by omega : 0 < p))
    by_cases h : p ≤ m - p + 2
    · rw [mknots_right hV hW h]
      have := lt_of_noJump hW hj (i := m - p + 2) (by omega) (by omega)
      rw [show m - p + 2 + p = m + 2 by omega] at this
      linarith
    · rw [mknots_left (by omega)]
      have h1 := hV.clamp.le_b (m - p + 2 + (m + 1 - p))
      have h2 := hW.clamp.a_lt (show p < m + 2 by omega)
      linarith
  · intro S' T' hT'
    rw [mergedPts, fn_map_range _ (by omega), mergedP, if_neg (by omega), tadj, fn_reverse (by simp; omega),
      List.length_map, List.length_range, fn_map_range _ (by omega),
      show m + 1 - 1 - (o - 1 - m + (m - (o + 1 - p))) = m - p + 2 by omega,
      adjP_first (by omega) hpm (by omega), add_comm, fn_reverse (by omega), hT',
      show o + 1 - 1 - (m - p + 1) = o - (m - p + 1) by omega]
    rfl

theorem mergedU_support (hV : ClampedKnots 0 1 p m V) (hW : ClampedKnots 0 1 p o W) {i : ℕ}
    (h1 : i < m + 1) (h2 : m + 1 ≤ i + p + 1) :
    fn (mergedU p m o V W) i < fn (mergedU p m o V W) (i + p + 1) := by
  have hpm := hV.le
  rw [fn_mergedU hV hW, fn_mergedU hV hW, mknots_left (by omega)]
  have e1 := hV.clamp.lt_b (show i ≤ m by omega)
  have e2 := (mknots_clamp hV hW).mono h2
  rw [mknots_left le_rfl, hV.clamp.right _ le_rfl] at e2
  linarith

/-- a curve that rests at `x` has only the control point `x` (where it matters) -/
theorem resting_points {n : ℕ} {U : List K} {Q : List (Pt K d)} {x : Pt K d} (hU : ClampedKnots 0 1 p n U)
    (hQ : Q.length = n + 1) (h : ∀ u, 0 ≤ u → u ≤ 1 → (canon p U Q).evaluate u = .ok (.ok x)) {i : ℕ}
    (hi : i ≤ n) (hs : fn U i < fn U (i + p + 1)) : fn Q i = x := by
  have hl : (List.replicate (n + 1) x).length = n + 1 := by simp
  have hsame := same_of_evaluate (P := Q) (Q := List.replicate (n + 1) x) hU (by omega) hl (by
    intro u h0 h1
    rw [h u h0 h1, Curve.evaluate, resting_evaluate hU (built_canon hU hl) h0 h1]
    rfl)
  rw [hsame.unique hU.clamp hs]
  exact fn_replicate _ (by omega)

/-- **C80** Two curves that rest at the same point `x` and join with all derivatives. If the degree is at
least three, or if the right curve has more control points, the merged curve still leaves `x`, unless
`x` is the origin. This holds for all knots and constraints and with exact arithmetic. -/
theorem C80_resting_moves {solver : Solver K d} (hs : solver.Exact) {a b : Curve K d} {x : Pt K d}
    {ua ub : List K} (ha : Built a p V S) (hb : Built b p W T) (hV : ClampedKnots 0 1 p m V)
    (hW : ClampedKnots 0 1 p o W) (hS : S.length = m + 1) (hT : T.length = o + 1)
    (hra : ∀ u, 0 ≤ u → u ≤ 1 → a.evaluate u = .ok (.ok x))
    (hrb : ∀ u, 0 ≤ u → u ≤ 1 → b.evaluate u = .ok (.ok x))
    (hab : ∀ k, k < p → a.evaluateDerivative 1 k = b.evaluateDerivative 0 k)
    (hc : ua.length + ub.length < p) (hmo : m ≤ o) (hom : o < m + p)
    (hw : 3 ≤ p ∨ m < o ∧ NoJump p W) (hx : x ≠ 0) :
    ∃ c, mergeWithConstraints solver ⟨a, ⟨ua⟩⟩ ⟨b, ⟨ub⟩⟩ = .ok (.ok c) ∧
      ∃ u, 0 ≤ u ∧ u ≤ 1 ∧ c.evaluate u ≠ .ok (.ok x) := by
  have hpm := hV.le
  have hpo := hW.le
  have hj := joins_self ha hb hV hW hS hT ua ub hab
  refine ⟨_, merge_joined hs ha hb hV hW hS hT hc hmo hom hj, ?_⟩
  rw [ha.eq_canon hV.length hV.le hS] at hra
  rw [hb.eq_canon hW.length hW.le hT] at hrb
  by_contra hall
  push Not at hall
  have key : ∀ i, i ≤ m + o + 1 - p → fn (mergedU p m o V W) i < fn (mergedU p m o V W) (i + p + 1) →
      ∀ e : K, 0 < e → fn (mergedPts p m o V W S T) i ≠ x + e • x := by
    intro i hi hsupp e he h
    rw [resting_points (mergedU_clamped hV hW) (by simp; omega) (fun u h0 h1 => hall u h0 h1) hi hsupp] at h
    have : e • x = 0 := by simpa using h.symm
    rcases smul_eq_zero.mp this with h | h
    · exact he.ne' h
    · exact hx h
  by_cases h3 : 3 ≤ p
  · obtain ⟨e, he, h⟩ := mergedPts_wrong_left (d := d) hV hW h3
    have h := h S T hS
    rw [resting_points hV hS hra (i := m - p + 1) (by omega) (by
      rw [hV.clamp.right (m - p + 1 + p + 1) (by omega)]; exact hV.clamp.lt_b (by omega))] at h
    exact key _ (by omega) (mergedU_support hV hW (by omega) (by omega)) e he h
  · obtain ⟨hmo, hjw⟩ := hw.resolve_left h3
    obtain ⟨e, he, h⟩ := mergedPts_wrong_right (d := d) hV hW (by omega) hmo hom hjw
    have h := h S T hT
    rw [resting_points hW hT hrb (i := o - (m - p + 1)) (by omega) (by
      rw [hW.clamp.left (o - (m - p + 1)) (by omega)]; exact hW.clamp.a_lt (by omega))] at h
    exact key _ (by omega) (mergedU_support hV hW (by omega) (by omega)) e he h

/-- **C80** For which degrees and sizes merging keeps curves that join already: exactly for degree one
and two and the same number of control points. (The right knots are assumed to have no interior knot of
multiplicity above `p`, i.e. the right curve has no jumps.) -/
theorem C80_kept_iff {solver : Solver K d} (hs : solver.Exact) (hd : 0 < d) (hV : ClampedKnots 0 1 p m V)
    (hW : ClampedKnots 0 1 p o W) (h1 : 1 ≤ p) (hmo : m ≤ o) (hom : o < m + p) (hjw : NoJump p W) :
    (∀ (S T : List (Pt K d)) (a b : Curve K d), Built a p V S → Built b p W T → S.length = m + 1 →
      T.length = o + 1 → (∀ k, k < p → a.evaluateDerivative 1 k = b.evaluateDerivative 0 k) →
      ∃ c, merge solver a b = .ok (.ok c) ∧ Halves p c a b) ↔ p ≤ 2 ∧ o = m := by
  constructor
  · intro h
    by_contra hw
    have hw : 3 ≤ p ∨ m < o ∧ NoJump p W := by
      by_cases h3 : 3 ≤ p
      · exact Or.inl h3
      · exact Or.inr ⟨by omega, hjw⟩
    have hA : (List.replicate (m + 1) (fun _ => 1 : Pt K d)).length = m + 1 := by simp
    have hB : (List.replicate (o + 1) (fun _ => 1 : Pt K d)).length = o + 1 := by simp
    have ha := built_canon hV hA
    have hb := built_canon hW hB
    obtain ⟨c, e1, hh⟩ := h _ _ _ _ ha hb hA hB (fun k _ => by
      rw [resting_evaluate hV ha zero_le_one le_rfl, resting_evaluate hW hb le_rfl zero_le_one])
    obtain ⟨c', e2, u, h0, h1, hne⟩ := C80_resting_moves (ua := []) (ub := []) hs ha hb hV hW hA hB
      (fun u h0 h1 => resting_evaluate hV ha h0 h1 0) (fun u h0 h1 => resting_evaluate hW hb h0 h1 0)
      (fun k _ => by rw [resting_evaluate hV ha zero_le_one le_rfl, resting_evaluate hW hb le_rfl zero_le_one])
      (Nat.lt_of_lt_of_le Nat.zero_lt_one h1) hmo hom hw (fun h => one_ne_zero (congrFun h ⟨0, hd⟩))
    rw [merge] at e1
    rw [e1] at e2
    injection e2 with e2; injection e2 with e2
    subst e2
    apply hne
    by_cases hu : u < 1 / 2
    · obtain ⟨w, w1, w2⟩ := hh.left (2 * u) 0 (by linarith) (by linarith) (fun _ => by omega)
      rw [resting_evaluate hV ha (by linarith) (by linarith)] at w1
      injection w1 with w1; injection w1 with w1
      rw [← w1, show 2 * u / 2 = u by ring] at w2
      rw [Curve.evaluate, w2, pow_zero, one_smul, if_pos rfl]
    · obtain ⟨w, w1, w2⟩ := hh.right (2 * u - 1) 0 (by linarith) (by linarith)
      rw [resting_evaluate hW hb (by linarith) (by linarith)] at w1
      injection w1 with w1; injection w1 with w1
      rw [← w1, show (1 + (2 * u - 1)) / 2 = u by ring] at w2
      rw [Curve.evaluate, w2, pow_zero, one_smul, if_pos rfl]
  · rintro ⟨h2, rfl⟩ S T a b ha hb hS hT hj
    exact C31_already_partial (ua := []) (ub := []) hs ha hb hV hW hS hT
      (Nat.lt_of_lt_of_le Nat.zero_lt_one h1) h2 hj

/-- **C80** A curve of degree three or more that rests at a point other than the origin is not restored
by splitting it in the middle and merging the halves, if merging accepts them at all. -/
theorem C80_split_merge {n : ℕ} {U : List K} {P : List (Pt K d)} {c l r c' : Curve K d} {x : Pt K d}
    {solver : Solver K d} (hs : solver.Exact) (hc : ValidOn 0 1 c p n U P) (h3 : 3 ≤ p)
    (hx : x ≠ 0) (hrest : ∀ u, 0 ≤ u → u ≤ 1 → c.evaluate u = .ok (.ok x))
    (hU : (1 / 2 : K) ∉ U) (hr : SimpleBelow U (1 / 2)) (hsp : split c (1 / 2) = .ok (.ok (l, r)))
    (hm : merge solver l r = .ok (.ok c')) :
    ∃ u, 0 ≤ u ∧ u ≤ 1 ∧ c'.evaluate u ≠ c.evaluate u := by
  obtain ⟨n1, n2, U1, U2, P1, P2, hL, hR, -⟩ := C25_split_valid_partial hc hr hsp
  have hcount : U.count (1 / 2) = 0 := List.count_eq_zero.mpr hU
  have hleft : ∀ t k, 0 ≤ t → t ≤ 1 → ∃ w, c.evaluateDerivative (1 / 2 * t) k = .ok (.ok w) ∧
      l.evaluateDerivative t k = .ok (.ok ((1 / 2 : K) ^ k • w)) := by
    intro t k h0 h1
    exact C24_split_left_partial hc hr hsp h0 h1 k (fun _ _ => by rw [hcount]; omega)
  have hright : ∀ t k, 0 ≤ t → t ≤ 1 → ∃ w, c.evaluateDerivative (1 / 2 + (1 - 1 / 2) * t) k = .ok (.ok w) ∧
      r.evaluateDerivative t k = .ok (.ok ((1 - 1 / 2 : K) ^ k • w)) := by
    intro t k h0 h1
    exact C24_split_right_partial hc hr hsp h0 h1 k
  have hj : ∀ k, k < p → l.evaluateDerivative 1 k = r.evaluateDerivative 0 k := by
    intro k hk
    obtain ⟨w, a1, a2⟩ := hleft 1 k zero_le_one le_rfl
    obtain ⟨w', b1, b2⟩ := hright 0 k le_rfl zero_le_one
    rw [mul_one] at a1
    rw [mul_zero, add_zero, a1] at b1
    injection b1 with b1; injection b1 with b1
    rw [a2, b2, b1, show (1 - 1 / 2 : K) = 1 / 2 by norm_num]
  have hl' : ∀ t, 0 ≤ t → t ≤ 1 → l.evaluate t = .ok (.ok x) := by
    intro t h0 h1
    obtain ⟨w, a1, a2⟩ := hleft t 0 h0 h1
    have a3 := hrest (1 / 2 * t) (by linarith) (by linarith)
    rw [Curve.evaluate, a1] at a3
    injection a3 with a3; injection a3 with a3
    rw [Curve.evaluate, a2, a3, pow_zero, one_smul]
  have hr' : ∀ t, 0 ≤ t → t ≤ 1 → r.evaluate t = .ok (.ok x) := by
    intro t h0 h1
    obtain ⟨w, a1, a2⟩ := hright t 0 h0 h1
    have a3 := hrest (1 / 2 + (1 - 1 / 2) * t) (by linarith) (by linarith)
    rw [Curve.evaluate, a1] at a3
    injection a3 with a3; injection a3 with a3
    rw [Curve.evaluate, a2, a3, pow_zero, one_smul]
  obtain ⟨-, h1, h2⟩ := C50_valid (kn := l.knots) (by rw [hL.eq_canon]; exact canonKnots_vector U1)
    (by rw [hL.eq_canon]; rfl) hL.2.1
  obtain ⟨-, h4, h5⟩ := C50_valid (kn := r.knots) (by rw [hR.eq_canon]; exact canonKnots_vector U2)
    (by rw [hR.eq_canon]; rfl) hR.2.1
  have hsize := C29_outcome_partial (ua := []) (ub := []) hL.1 hR.1 hL.2.1.length hL.2.2 hL.2.1.le
    hR.2.1.length hR.2.2 hR.2.1.le h1 h4 h2 h5 (show 0 < p by omega) solver
  rw [merge] at hm
  split at hsize
  · rename_i hsz
    obtain ⟨c'', e, u, h0, h1, hne⟩ := C80_resting_moves (ua := []) (ub := []) hs hL.1 hR.1 hL.2.1 hR.2.1
      hL.2.2 hR.2.2 hl' hr' hj (show 0 < p by omega) hsz.1 hsz.2 (Or.inl h3) hx
    rw [hm] at e
    injection e with e; injection e with e
    subst e
    exact ⟨u, h0, h1, by rw [hrest u h0 h1]; exact hne⟩
  · obtain ⟨e, he⟩ := hsize
    rw [hm] at he
    cases he

/-! ### Cases that meet the hypotheses -/

/-- a cubic curve that rests at `7` -/
example : ∃ solver : Solver ℚ 1, solver.Exact ∧ ∃ c, merge solver
    (canon 3 [0, 0, 0, 0, 1, 1, 1, 1] (List.replicate 4 (fun _ => 7 : Pt ℚ 1)))
    (canon 3 [0, 0, 0, 0, 1/3, 1, 1, 1, 1] (List.replicate 5 (fun _ => 7 : Pt ℚ 1))) = .ok (.ok c) ∧
    ∃ u, 0 ≤ u ∧ u ≤ 1 ∧ c.evaluate u ≠ .ok (.ok fun _ => 7) := by
  obtain ⟨solver, hs⟩ := exists_exact_solver ℚ 1
  have hV : ClampedKnots (0 : ℚ) 1 3 3 [0, 0, 0, 0, 1, 1, 1, 1] := by decide +kernel
  have hW : ClampedKnots (0 : ℚ) 1 3 4 [0, 0, 0, 0, 1/3, 1, 1, 1, 1] := by decide +kernel
  have ha := built_canon (P := List.replicate 4 (fun _ => 7 : Pt ℚ 1)) hV rfl
  have hb := built_canon (P := List.replicate 5 (fun _ => 7 : Pt ℚ 1)) hW rfl
  obtain ⟨c, e, h⟩ := C80_resting_moves (ua := []) (ub := []) hs ha hb hV hW rfl rfl
    (fun u h0 h1 => resting_evaluate hV ha h0 h1 0) (fun u h0 h1 => resting_evaluate hW hb h0 h1 0)
    (fun k _ => by rw [resting_evaluate hV ha zero_le_one le_rfl, resting_evaluate hW hb le_rfl zero_le_one])
    (by decide) (by decide) (by decide) (Or.inl le_rfl) (fun h => absurd (congrFun h 0) (by norm_num))
  exact ⟨solver, hs, c, e, h⟩

/-- the sizes `2`, `3` at degree two are among those for which curves are not kept -/
example (solver : Solver ℚ 1) (hs : solver.Exact) : ¬ ∀ (S T : List (Pt ℚ 1)) (a b : Curve ℚ 1),
    Built a 2 [0, 0, 0, 1, 1, 1] S → Built b 2 [0, 0, 0, 1/2, 1, 1, 1] T → S.length = 3 →
      T.length = 4 → (∀ k, k < 2 → a.evaluateDerivative 1 k = b.evaluateDerivative 0 k) →
      ∃ c, merge solver a b = .ok (.ok c) ∧ Halves 2 c a b := by
  have hj : NoJump (2 : ℕ) [(0 : ℚ), 0, 0, 1/2, 1, 1, 1] := by
    intro x h0 h1
    rcases eq_or_ne x (1 / 2) with rfl | h
    · decide +kernel
    · rw [List.count_eq_zero_of_not_mem]
      · omega
      · simpa [h0.ne', h1.ne] using h
  have := (C80_kept_iff (m := 2) (o := 3) hs Nat.one_pos (by decide +kernel : ClampedKnots (0 : ℚ) 1 2 2 [0, 0, 0, 1, 1, 1])
    (by decide +kernel : ClampedKnots (0 : ℚ) 1 2 3 [0, 0, 0, 1/2, 1, 1, 1]) (by decide) (by decide) (by decide) hj).mp
  intro h
  exact absurd (this h).2 (by decide)

end BSpline
