import Verif.Props.Smooth
import Verif.Props.Insert
import Verif.Refine.Split

/-!
# Splitting: C24 – C27
-/

set_option linter.unusedSectionVars false

namespace BSpline

open Filter Topology

section LawFree
variable {K : Type} [Add K] [Sub K] [Mul K] [Div K] [Neg K] [Zero K] [One K] [NatCast K] [Cmp K]
variable {d : ℕ}

/-- **C26** The bounds check, for any arithmetic: `OutOfBounds` whenever `u <= 0 || u >= 1`. -/
theorem C26_out_of_bounds (c : Curve K d) (u : K) (norm : Bool × Bool)
    (h : (Cmp.le u 0 || Cmp.le 1 u) = true) :
    splitAndNormalize c u norm = .ok (.error (.outOfBounds u 0 1)) := by
  rw [splitAndNormalize, if_pos h]; rfl

end LawFree

variable {K : Type} [Field K] [LinearOrder K] [IsStrictOrderedRing K] {d : ℕ}

/-- what a split of a valid curve returns -/
theorem split_valid_inserted {p n : ℕ} {U : List K} {P : List (Pt K d)} (hU : ClampedKnots 0 1 p n U)
    (hP : P.length = n + 1) {u : K} (h0 : 0 < u) (h1 : u < 1) (hm : U.count u ≤ p)
    (hr : SimpleBelow U u) :
    ∃ U' P' n' q, (canon p U P).insertTimes u (p - U.count u) = .ok (canon p U' P', .ok ()) ∧ Cut U' u p n' q ∧ P'.length = n' + 1 ∧ n' + U.count u = n + p ∧
      U'.Perm (List.replicate (p - U.count u) u ++ U) ∧
      Same p 0 1 n (fn U) (fn P) n' (fn U') (fn P') ∧
      ∀ norm, splitAndNormalize (canon p U P) u norm =
        .ok (.ok (canon p (normalizeIf norm.1 (U'.take (q + p) ++ [u])) (P'.take q),
          canon p (normalizeIf norm.2 (u :: U'.drop q)) (P'.drop (q - 1)))) := by
  obtain ⟨U', P', hins, hU', hP', hperm, hsame⟩ := insertTimes_valid h0 h1 (p - U.count u) hU hP hr
    (by omega)
  have hcount : U'.count u = p := by
    rw [hperm.count_eq, List.count_append, List.count_replicate_self]; omega
  have hq : nlt U' u = nlt U u := by
    rw [nlt_perm hperm, nlt, List.countP_append, nlt]
    simp [List.countP_replicate]
  have hcut := cut_of_count hU' h0 h1 hcount
  rw [hq] at hcut
  refine ⟨U', P', _, nlt U u, hins, hcut, hP', by omega, hperm, hsame, ?_⟩
  intro norm
  obtain ⟨hmult, hl⟩ := split_search hU h0 h1 hr
  have hfi := findIdx_leftOrEqual_ok hU.length hU.le (Nat.zero_le p) u
  simp only [Nat.add_zero, Nat.sub_zero] at hfi
  have hlen := hU'.length
  have a1 := hcut.lo_q
  have a2 := hcut.q_hi
  rw [splitAndNormalize, if_neg (by simp [Cmp.le, h0, h1]), canon_degree, canon_knots, hfi, ok_bind,
    canonKnots_vector, ok_bind]
  dsimp only
  rw [hmult, if_neg (by omega), usub_ok hm, ok_bind, insertUnwrapTimes_ok u _ hins, ok_bind]
  rw [canon_knots, canonKnots_vector, ok_bind, canon_points, canonPts_matrix, ok_bind]
  generalize lleq (fn U) u (n - p) p = l at hl ⊢
  have e1 : (if decide (0 < U.count u) = true then l + p else l + p + 1) = nlt U u + p := by
    simp only [decide_eq_true_eq]
    split at hl
    · rename_i h; rw [if_pos h]; omega
    · rename_i h; rw [if_neg h]; omega
  have e2 : (if decide (0 < U.count u) = true then l else l + 1) = nlt U u := by
    simpa only [decide_eq_true_eq] using hl
  rw [e1, e2, splitLeft_ok u _ _ (by omega) (by omega) (by omega), ok_bind]
  dsimp only
  rw [splitRight_ok u _ _ (by omega) (by omega) (by omega), ok_bind]
  rfl

theorem split_valid {p n : ℕ} {U : List K} {P : List (Pt K d)} (hU : ClampedKnots 0 1 p n U)
    (hP : P.length = n + 1) {u : K} (h0 : 0 < u) (h1 : u < 1) (hm : U.count u ≤ p)
    (hr : SimpleBelow U u) :
    ∃ U' P' n' q, Cut U' u p n' q ∧ P'.length = n' + 1 ∧ n' + U.count u = n + p ∧
      U'.Perm (List.replicate (p - U.count u) u ++ U) ∧
      Same p 0 1 n (fn U) (fn P) n' (fn U') (fn P') ∧
      ∀ norm, splitAndNormalize (canon p U P) u norm =
        .ok (.ok (canon p (normalizeIf norm.1 (U'.take (q + p) ++ [u])) (P'.take q),
          canon p (normalizeIf norm.2 (u :: U'.drop q)) (P'.drop (q - 1)))) := by
  obtain ⟨U', P', n', q, -, h⟩ := split_valid_inserted hU hP h0 h1 hm hr
  exact ⟨U', P', n', q, h⟩

/-- the errors of a split -/
theorem split_errors {p n : ℕ} {U : List K} {P : List (Pt K d)} (hU : ClampedKnots 0 1 p n U)
    {u : K} (h0 : 0 < u) (h1 : u < 1) (hm : p < U.count u)
    (hr : SimpleBelow U u) (norm : Bool × Bool) :
    splitAndNormalize (canon p U P) u norm =
      .ok (.error (.multiplicityTooHigh u p (U.count u))) := by
  obtain ⟨hmult, -⟩ := split_search hU h0 h1 hr
  have hfi := findIdx_leftOrEqual_ok hU.length hU.le (Nat.zero_le p) u
  simp only [Nat.add_zero, Nat.sub_zero] at hfi
  rw [splitAndNormalize, if_neg (by simp [Cmp.le, h0, h1]), canon_degree, canon_knots, hfi, ok_bind,
    canonKnots_vector, ok_bind]
  dsimp only
  rw [hmult, if_pos hm]
  rfl

/-! ### C26 -/

/-- The full claim C26. -/
def C26_full : Prop := ∀ (p n d : ℕ) (U : List ℚ) (P : List (Pt ℚ d)) (c : Curve ℚ d) (u : ℚ),
  ValidOn 0 1 c p n U P →
    (u ≤ 0 ∨ 1 ≤ u → split c u = .ok (.error (.outOfBounds u 0 1))) ∧
    (0 < u → u < 1 → p < U.count u → split c u = .ok (.error (.multiplicityTooHigh u p (U.count u)))) ∧
    (0 < u → u < 1 → U.count u ≤ p → ∃ l r, split c u = .ok (.ok (l, r)))

/-- **C26 (partial)** The outcome of `split_and_normalize` is decided by `u` and the number of
copies of `u` among the knots, and it never panics. Missing: parameters above a repeated interior
knot, where it can panic (`C26_full_false`). -/
theorem C26_split_errors_partial {c : Curve K d} {p n : ℕ} {U : List K} {P : List (Pt K d)}
    (hc : ValidOn 0 1 c p n U P) {u : K} (hr : SimpleBelow U u) (norm : Bool × Bool) :
    (u ≤ 0 ∨ 1 ≤ u → splitAndNormalize c u norm = .ok (.error (.outOfBounds u 0 1))) ∧
    (0 < u → u < 1 → p < U.count u →
      splitAndNormalize c u norm = .ok (.error (.multiplicityTooHigh u p (U.count u)))) ∧
    (0 < u → u < 1 → U.count u ≤ p → ∃ l r, splitAndNormalize c u norm = .ok (.ok (l, r))) := by
  obtain rfl := hc.eq_canon
  obtain ⟨-, hU, hP⟩ := hc
  refine ⟨?_, ?_, ?_⟩
  · intro h
    exact C26_out_of_bounds _ _ _ (by simpa [Cmp.le] using h)
  · intro h0 h1 hm
    exact split_errors hU h0 h1 hm hr norm
  · intro h0 h1 hm
    obtain ⟨U', P', n', q, -, -, -, -, -, hs⟩ := split_valid hU hP h0 h1 hm hr
    exact ⟨_, _, hs norm⟩

/-- A quadratic curve with the double knot `1/4` and the triple knot `1/2`. -/
def exPanic : Curve ℚ 1 := canon 2 [0, 0, 0, 1 / 4, 1 / 4, 1 / 2, 1 / 2, 1 / 2, 1, 1, 1]
  [![0], ![1], ![2], ![3], ![4], ![5], ![6], ![7]]

/-- `split(1/2)` panics (`unwrap` on `MultiplicityError`) where `MultiplicityTooHigh` is due. -/
theorem C26_full_false : ¬ C26_full := by
  intro h
  have := (h 2 7 1 [0, 0, 0, 1 / 4, 1 / 4, 1 / 2, 1 / 2, 1 / 2, 1, 1, 1]
    [![0], ![1], ![2], ![3], ![4], ![5], ![6], ![7]] exPanic (1 / 2)
    (validOn_canon (by decide +kernel) rfl)).2.1 (by norm_num) (by norm_num) (by decide +kernel)
  revert this
  decide +kernel

/-- a split that succeeds is not at a bad parameter -/
theorem split_ok_iff {c l r : Curve K d} {p n : ℕ} {U : List K} {P : List (Pt K d)}
    (hc : ValidOn 0 1 c p n U P) {u : K} (hr : SimpleBelow U u) {norm : Bool × Bool}
    (hs : splitAndNormalize c u norm = .ok (.ok (l, r))) : 0 < u ∧ u < 1 ∧ U.count u ≤ p := by
  obtain ⟨e1, e2, -⟩ := C26_split_errors_partial hc hr norm
  by_cases hu : u ≤ 0 ∨ 1 ≤ u
  · rw [e1 hu] at hs; injection hs with hs; simp at hs
  push Not at hu
  by_cases hm : p < U.count u
  · rw [e2 hu.1 hu.2 hm] at hs; injection hs with hs; simp at hs
  · exact ⟨hu.1, hu.2, by omega⟩

/-! ### Values of the halves -/

theorem evaluateDerivative_high {c : Curve K d} {p k : ℕ} (hd : c.degree = p) (hk : p < k) {u : K}
    (h0 : 0 ≤ u) (h1 : u ≤ 1) : c.evaluateDerivative u k = .ok (.ok 0) := by
  have : (Cmp.le 0 u && Cmp.le u 1) = true := by simp [Cmp.le, h0, h1]
  simp [Curve.evaluateDerivative, hd, Nat.not_le.mpr hk, this]
  rfl

section Values

variable {p n n' q : ℕ} {U U' : List K} {P P' : List (Pt K d)} {u : K}

/-- the value of the left part (before normalisation) at `v ≤ u`, as a value of the old curve -/
theorem cv_split_left (hU : ClampedKnots 0 1 p n U) (hcut : Cut U' u p n' q)
    (hP' : P'.length = n' + 1) (hsame : Same p 0 1 n (fn U) (fn P) n' (fn U') (fn P'))
    {v : K} {j i k : ℕ} (h0 : 0 ≤ v) (h1 : v ≤ u) (hk : k ≤ p)
    (hj : IsSpan (fn (U'.take (q + p) ++ [u])) (q - 1) v j) (hi : IsSpan (fn U) n v i)
    (hm : v = u → U.count u ≤ p - k) :
    cv (fn (U'.take (q + p) ++ [u])) p (fn (P'.take q)) k j v = cv (fn U) p (fn P) k i v := by
  have hu1 := hcut.h1
  have hpj := hj.p_le hcut.left_clamped.clamp
  rw [hcut.cv_left hP' hk hpj hj.le_n]
  rcases h1.lt_or_eq with h2 | rfl
  · exact cv_congr_of_bl (hsame v i j h0 (h2.trans hu1).le hi (hcut.span_left h2 hj)) k hk _ (by simp)
  · obtain rfl := hcut.span_left_end hj
    have a1 := hcut.lo_q
    have a2 := hcut.q_hi
    -- a common span just below `u`
    obtain ⟨i', hi'⟩ := hU.clamp.exists_leftSpan hcut.h0 hu1.le
    have b1 := hcut.low (q - 1) (by omega)
    set w := max (fn U' (q - 1)) (fn U i') with hw
    have hwv : w < v := max_lt b1 hi'.lo
    have hup : v ≤ fn U' (q - 1 + 1) := by
      rw [show q - 1 + 1 = q by omega]
      rcases Nat.eq_zero_or_pos p with hp | hp
      · exact (hcut.high q (by omega)).le
      · exact (hcut.mid q le_rfl (by omega)).ge
    have hs1 : IsSpan (fn U') n' w (q - 1) := ⟨by omega, le_max_left _ _, Or.inl (hwv.trans_le hup)⟩
    have hs2 : IsSpan (fn U) n w i' := hi'.isSpan (le_max_right _ _) hwv
    have hw0 : 0 ≤ w := (hU.clamp.a_le i').trans (le_max_right _ _)
    refine Eq.trans ?_ (cv_glue_count hU hk hi hi' (fun _ _ => hm rfl) _)
    exact cv_congr_of_bl (hsame w i' (q - 1) hw0 (hwv.trans hu1).le hs2 hs1) k hk _ (by simp)

/-- the value of the right part (before normalisation) at `v ≥ u` -/
theorem cv_split_right (hcut : Cut U' u p n' q)
    (hP' : P'.length = n' + 1) (hsame : Same p 0 1 n (fn U) (fn P) n' (fn U') (fn P'))
    {v : K} {j i k : ℕ} (h0 : u ≤ v) (h1 : v ≤ 1) (hk : k ≤ p)
    (hj : IsSpan (fn (u :: U'.drop q)) (n' + 1 - q) v j) (hi : IsSpan (fn U) n v i) :
    cv (fn (u :: U'.drop q)) p (fn (P'.drop (q - 1))) k j v = cv (fn U) p (fn P) k i v := by
  have hpj := hj.p_le hcut.right_clamped.clamp
  rw [hcut.cv_right hP' hk hpj hj.le_n]
  exact cv_congr_of_bl (hsame v i _ (hcut.h0.le.trans h0) h1 hi (hcut.span_right h0 hpj hj)) k hk _
    (by simp)

end Values

/-- the values of a curve whose knots were normalised -/
theorem evaluate_normalized {a b : K} {p n k : ℕ} {V : List K} {Q : List (Pt K d)}
    (h : ClampedKnots a b p n V) (hQ : Q.length = n + 1) (hk : k ≤ p) {t : K} (h0 : 0 ≤ t)
    (h1 : t ≤ 1) {j : ℕ} (hs : IsSpan (fn V) n (a + (b - a) * t) j) :
    (canon p (normalizeKnots V) Q).evaluateDerivative t k =
      .ok (.ok ((b - a) ^ k • cv (fn V) p (fn Q) k j (a + (b - a) * t))) := by
  have hpos : 0 < b - a := sub_pos.mpr h.lt
  have hU : ∀ i, fn (normalizeKnots V) i = (b - a)⁻¹ * fn V i + -a / (b - a) := by
    intro i
    rw [h.normalize_eq, fn_map_of_ne_nil _ h.ne_nil]
  have ht : t = (b - a)⁻¹ * (a + (b - a) * t) + -a / (b - a) := by
    field_simp; ring
  have hs' : IsSpan (fn (normalizeKnots V)) n t j := by
    rw [ht]; exact (isSpan_affine (inv_pos.mpr hpos) hU).mpr hs
  rw [evaluateDerivative_eq h.normalize hQ hk h0 h1 hs']
  congr 2
  conv_lhs => rw [ht]
  rw [cv_affine (inv_ne_zero hpos.ne') hU, inv_inv]

/-! ### C24 -/

/-- The full claim C24 (for points). -/
def C24_full : Prop := ∀ (p n d : ℕ) (U : List ℚ) (P : List (Pt ℚ d)) (c l r : Curve ℚ d) (u t : ℚ),
  ValidOn 0 1 c p n U P → split c u = .ok (.ok (l, r)) → 0 ≤ t → t ≤ 1 →
    l.evaluate t = c.evaluate (u * t) ∧ r.evaluate t = c.evaluate (u + (1 - u) * t)

/-- **C24 (partial)** The left part of a split is the curve on `[0, u]`, traversed by `[0, 1]`; its
`k`-th derivatives are those of the curve times `u^k`. At the end `t = 1` this holds for the
derivatives that are continuous at `u`, in particular (`k = 0`) for the point itself. Missing:
parameters above a repeated interior knot (`C24_full_false`). -/
theorem C24_split_left_partial {c l r : Curve K d} {p n : ℕ} {U : List K} {P : List (Pt K d)}
    (hc : ValidOn 0 1 c p n U P) {u : K} (hr : SimpleBelow U u)
    (hs : split c u = .ok (.ok (l, r))) {t : K} (h0 : 0 ≤ t) (h1 : t ≤ 1) (k : ℕ)
    (hm : t = 1 → k ≤ p → U.count u ≤ p - k) :
    ∃ w, c.evaluateDerivative (u * t) k = .ok (.ok w) ∧
      l.evaluateDerivative t k = .ok (.ok (u ^ k • w)) := by
  obtain ⟨hu0, hu1, hcount⟩ := split_ok_iff hc hr hs
  obtain rfl := hc.eq_canon
  obtain ⟨-, hU, hP⟩ := hc
  obtain ⟨U', P', n', q, hcut, hP', -, -, hsame, hsplit⟩ := split_valid hU hP hu0 hu1 hcount hr
  rw [split, hsplit] at hs
  injection hs with hs; injection hs with hs; injection hs with hl _
  subst hl
  have a1 := hcut.lo_q
  have a2 := hcut.q_hi
  have hv0 : 0 ≤ u * t := mul_nonneg hu0.le h0
  have hvu : u * t ≤ u := mul_le_of_le_one_right hu0.le h1
  have hv1 : u * t ≤ 1 := hvu.trans hu1.le
  by_cases hk : k ≤ p
  · obtain ⟨i, hi⟩ := hU.clamp.exists_span hv0 hv1
    obtain ⟨j, hj⟩ := hcut.left_clamped.clamp.exists_span hv0 hvu
    refine ⟨_, evaluateDerivative_eq hU hP hk hv0 hv1 hi, ?_⟩
    have hj' := hj
    rw [show u * t = 0 + (u - 0) * t by ring] at hj'
    rw [normalizeIf, if_pos rfl, evaluate_normalized hcut.left_clamped (by simp; omega) hk h0 h1 hj']
    rw [show (0 : K) + (u - 0) * t = u * t by ring, sub_zero]
    congr 3
    refine cv_split_left hU hcut hP' hsame hv0 hvu hk hj hi ?_
    intro he
    have ht : t = 1 := mul_left_cancel₀ hu0.ne' (by rw [he, mul_one])
    exact hm ht hk
  · refine ⟨0, evaluateDerivative_high (canon_degree ..) (by omega) hv0 hv1, ?_⟩
    rw [evaluateDerivative_high (canon_degree ..) (by omega) h0 h1, smul_zero]

/-- **C24 (partial)** The right part of a split is the curve on `[u, 1]`; the `k`-th derivatives
are those of the curve times `(1 - u)^k`, for every `t`. Missing: as above. -/
theorem C24_split_right_partial {c l r : Curve K d} {p n : ℕ} {U : List K} {P : List (Pt K d)}
    (hc : ValidOn 0 1 c p n U P) {u : K} (hr : SimpleBelow U u)
    (hs : split c u = .ok (.ok (l, r))) {t : K} (h0 : 0 ≤ t) (h1 : t ≤ 1) (k : ℕ) :
    ∃ w, c.evaluateDerivative (u + (1 - u) * t) k = .ok (.ok w) ∧
      r.evaluateDerivative t k = .ok (.ok ((1 - u) ^ k • w)) := by
  obtain ⟨hu0, hu1, hcount⟩ := split_ok_iff hc hr hs
  obtain rfl := hc.eq_canon
  obtain ⟨-, hU, hP⟩ := hc
  obtain ⟨U', P', n', q, hcut, hP', -, -, hsame, hsplit⟩ := split_valid hU hP hu0 hu1 hcount hr
  rw [split, hsplit] at hs
  injection hs with hs; injection hs with hs; injection hs with _ hl
  subst hl
  have a1 := hcut.lo_q
  have a2 := hcut.q_hi
  have hpos : 0 < 1 - u := sub_pos.mpr hu1
  have hvu : u ≤ u + (1 - u) * t := le_add_of_nonneg_right (mul_nonneg hpos.le h0)
  have hv0 : 0 ≤ u + (1 - u) * t := hu0.le.trans hvu
  have hv1 : u + (1 - u) * t ≤ 1 := by
    have := mul_le_of_le_one_right hpos.le h1
    linarith
  by_cases hk : k ≤ p
  · obtain ⟨i, hi⟩ := hU.clamp.exists_span hv0 hv1
    obtain ⟨j, hj⟩ := hcut.right_clamped.clamp.exists_span hvu hv1
    refine ⟨_, evaluateDerivative_eq hU hP hk hv0 hv1 hi, ?_⟩
    rw [normalizeIf, if_pos rfl, evaluate_normalized hcut.right_clamped (by simp; omega) hk h0 h1 hj]
    congr 3
    exact cv_split_right hcut hP' hsame hvu hv1 hk hj hi
  · refine ⟨0, evaluateDerivative_high (canon_degree ..) (by omega) hv0 hv1, ?_⟩
    rw [evaluateDerivative_high (canon_degree ..) (by omega) h0 h1, smul_zero]

/-- **C24 (partial)** The points of both parts, all parameters. Missing: as above. -/
theorem C24_split_points_partial {c l r : Curve K d} {p n : ℕ} {U : List K} {P : List (Pt K d)}
    (hc : ValidOn 0 1 c p n U P) {u : K} (hr : SimpleBelow U u)
    (hs : split c u = .ok (.ok (l, r))) {t : K} (h0 : 0 ≤ t) (h1 : t ≤ 1) :
    l.evaluate t = c.evaluate (u * t) ∧ r.evaluate t = c.evaluate (u + (1 - u) * t) := by
  obtain ⟨w, e1, e2⟩ := C24_split_left_partial hc hr hs h0 h1 0
    (fun _ _ => (split_ok_iff hc hr hs).2.2)
  obtain ⟨w', e3, e4⟩ := C24_split_right_partial hc hr hs h0 h1 0
  rw [pow_zero, one_smul] at e2 e4
  exact ⟨e2.trans e1.symm, e4.trans e3.symm⟩

/-- **C24, one-sided at `u`** Whatever the multiplicity of `u` is, the derivatives of the left part
at its end are the limits of those of the curve from the left. -/
theorem C24_split_left_limit_partial {c l r : Curve ℝ d} {p n k : ℕ} {U : List ℝ} {P : List (Pt ℝ d)}
    (hc : ValidOn 0 1 c p n U P) {u : ℝ} (hr : SimpleBelow U u)
    (hs : split c u = .ok (.ok (l, r))) (hk : k ≤ p) {f g : ℝ → Pt ℝ d}
    (hf : Computes c k f) (hg : Computes l k g) :
    Tendsto (fun v => u ^ k • f v) (𝓝[<] u) (𝓝 (g 1)) := by
  obtain ⟨hu0, hu1, hcount⟩ := split_ok_iff hc hr hs
  have hleft := fun {t : ℝ} (h0 : 0 ≤ t) (h1 : t ≤ 1) (hne : t ≠ 1) =>
    C24_split_left_partial hc hr hs h0 h1 k (fun h _ => absurd h hne)
  obtain rfl := hc.eq_canon
  obtain ⟨-, hU, hP⟩ := hc
  obtain ⟨U', P', n', q, hcut, hP', -, -, hsame, hsplit⟩ := split_valid hU hP hu0 hu1 hcount hr
  rw [split, hsplit] at hs
  injection hs with hs; injection hs with hs; injection hs with hl _
  have a1 := hcut.lo_q
  have a2 := hcut.q_hi
  have hcl := hcut.left_clamped
  have hval : ∀ {t : ℝ}, 0 ≤ t → t ≤ 1 → ∀ {j}, IsSpan (fn (U'.take (q + p) ++ [u])) (q - 1) (u * t) j →
      g t = u ^ k • cv (fn (U'.take (q + p) ++ [u])) p (fn (P'.take q)) k j (u * t) := by
    intro t h0 h1 j hj
    have h2 := hg t h0 h1
    rw [show u * t = 0 + (u - 0) * t by ring] at hj
    rw [← hl, normalizeIf, if_pos rfl,
      evaluate_normalized hcl (by simp; omega) hk h0 h1 hj] at h2
    injection h2 with h2; injection h2 with h2
    rw [show (0 : ℝ) + (u - 0) * t = u * t by ring, sub_zero] at h2
    exact h2.symm
  have hspan : IsSpan (fn (U'.take (q + p) ++ [u])) (q - 1) u (q - 1) :=
    ⟨le_rfl, hcl.clamp.le_b _, Or.inr ⟨rfl, (hcl.clamp.right _ le_rfl).symm⟩⟩
  rw [hval zero_le_one le_rfl (by rw [mul_one]; exact hspan), mul_one]
  have hcont := (((cv_continuous (U := fn (U'.take (q + p) ++ [u])) (p := p) (k := k) (j := q - 1)
    (fn (P'.take q))).const_smul (u ^ k)).tendsto u).mono_left (nhdsWithin_le_nhds (s := Set.Iio u))
  refine hcont.congr' ?_
  have hlt : fn (U'.take (q + p) ++ [u]) (q - 1) < u := by
    rw [hcut.fn_left, if_pos (by omega)]; exact hcut.low _ (by omega)
  have hnb : Set.Ioo (fn (U'.take (q + p) ++ [u]) (q - 1)) u ∈ 𝓝[<] u := Ioo_mem_nhdsLT hlt
  filter_upwards [hnb] with v hv
  have hv0 : 0 ≤ v := (hcl.clamp.a_le _).trans hv.1.le
  have ht0 : 0 ≤ v / u := div_nonneg hv0 hu0.le
  have ht1 : v / u < 1 := (div_lt_one hu0).mpr hv.2
  have hvt : u * (v / u) = v := mul_div_cancel₀ v hu0.ne'
  obtain ⟨w, h2, h3⟩ := hleft ht0 ht1.le ht1.ne
  rw [hvt, hf v hv0 (hv.2.trans hu1).le] at h2
  rw [hg _ ht0 ht1.le] at h3
  injection h2 with h2; injection h2 with h2
  injection h3 with h3; injection h3 with h3
  rw [h2, ← h3, hval ht0 ht1.le (j := q - 1), hvt]
  · rfl
  rw [hvt]
  refine ⟨le_rfl, hv.1.le, Or.inl ?_⟩
  rw [hcl.clamp.right _ (by omega)]; exact hv.2

/-- The parts of the example curve `exC` (double knot `1/2`) at `9/10`. -/
def exL : Curve ℚ 2 := match split exC (9 / 10) with
  | .ok (.ok (l, _)) => l
  | _ => exC
def exRt : Curve ℚ 2 := match split exC (9 / 10) with
  | .ok (.ok (_, r)) => r
  | _ => exC

theorem exL_eq : split exC (9 / 10) = .ok (.ok (exL, exRt)) := by decide +kernel

theorem C24_full_false : ¬ C24_full := by
  intro h
  have := h 2 5 2 exU exP exC exL exRt (9 / 10) (1 / 2) (validOn_canon (by decide +kernel) rfl) exL_eq
    (by norm_num) (by norm_num)
  revert this
  decide +kernel

/-! ### C25 -/

/-- The full claim C25. -/
def C25_full : Prop := ∀ (p n d : ℕ) (U : List ℚ) (P : List (Pt ℚ d)) (c l r : Curve ℚ d) (u : ℚ),
  ValidOn 0 1 c p n U P → split c u = .ok (.ok (l, r)) →
    ∃ n1 n2 U1 U2 P1 P2, ValidOn 0 1 l p n1 U1 P1 ∧ ValidOn 0 1 r p n2 U2 P2

/-- **C25 (partial)** Both parts are curves that `Curve::new` builds from clamped knot vectors on
`[0, 1]`, of the same degree and dimension; together they have `n + p - m + 2` control points (`m`
the multiplicity of `u`); the last point of the left part is the first of the right part; the outer
end points are those of the curve. Missing: parameters above a repeated interior knot. -/
theorem C25_split_valid_partial {c l r : Curve K d} {p n : ℕ} {U : List K} {P : List (Pt K d)}
    (hc : ValidOn 0 1 c p n U P) {u : K} (hr : SimpleBelow U u)
    (hs : split c u = .ok (.ok (l, r))) :
    ∃ n1 n2 U1 U2 P1 P2, ValidOn 0 1 l p n1 U1 P1 ∧ ValidOn 0 1 r p n2 U2 P2 ∧
      n1 + n2 + U.count u = n + p ∧ P1.getLast? = P2.head? ∧
      l.evaluate 1 = r.evaluate 0 ∧ l.evaluate 0 = c.evaluate 0 ∧ r.evaluate 1 = c.evaluate 1 := by
  obtain ⟨hu0, hu1, hcount⟩ := split_ok_iff hc hr hs
  have e0 := C24_split_points_partial hc hr hs le_rfl zero_le_one
  have e1 := C24_split_points_partial hc hr hs zero_le_one le_rfl
  obtain rfl := hc.eq_canon
  obtain ⟨-, hU, hP⟩ := hc
  obtain ⟨U', P', n', q, hcut, hP', hn', -, -, hsplit⟩ := split_valid hU hP hu0 hu1 hcount hr
  rw [split, hsplit] at hs
  injection hs with hs; injection hs with hs; injection hs with hl hr'
  have a1 := hcut.lo_q
  have a2 := hcut.q_hi
  simp only [mul_zero, mul_one, add_zero] at e0 e1
  refine ⟨q - 1, n' + 1 - q, normalizeKnots (U'.take (q + p) ++ [u]), normalizeKnots (u :: U'.drop q),
    P'.take q, P'.drop (q - 1), ?_, ?_, by omega, ?_, ?_, e0.1, ?_⟩
  · rw [← hl, normalizeIf, if_pos rfl]
    exact validOn_canon hcut.left_clamped.normalize (by simp; omega)
  · rw [← hr', normalizeIf, if_pos rfl]
    exact validOn_canon hcut.right_clamped.normalize (by simp; omega)
  · rw [List.getLast?_eq_getElem?, List.head?_eq_getElem?, List.getElem?_drop, List.length_take,
      Nat.min_eq_left (by omega), List.getElem?_take_of_lt (by omega)]; rfl
  · rw [e1.1, e0.2]
  · rw [e1.2, add_sub_cancel]

theorem C25_full_false : ¬ C25_full := by
  intro h
  obtain ⟨n1, n2, U1, U2, P1, P2, hv, -⟩ := h 2 5 2 exU exP exC exL exRt (9 / 10)
    (validOn_canon (by decide +kernel) rfl) exL_eq
  have h1 := hv.eq_canon
  have h2 : exL.knots.vector = .ok U1 := by rw [h1, canon_knots, canonKnots_vector]
  have h3 : exL.knots.vector = .ok [0, 0, 0, 5 / 9, 1, 5 / 9, 1] := by decide +kernel
  rw [h3] at h2
  injection h2 with h2
  have := hv.2.1.sorted
  rw [← h2] at this
  revert this
  decide +kernel

/-! ### C27 -/

/-- The full claim C27. -/
def C27_full : Prop := ∀ (p n d : ℕ) (U : List ℚ) (P : List (Pt ℚ d)) (c l r : Curve ℚ d) (u v : ℚ),
  ValidOn 0 1 c p n U P → splitAndNormalize c u (false, false) = .ok (.ok (l, r)) →
    (0 ≤ v → v ≤ u → l.evaluate v = c.evaluate v) ∧ (u ≤ v → v ≤ 1 → r.evaluate v = c.evaluate v)

/-- **C27 (partial)** Without normalisation the parts live on `[0, u]` and `[u, 1]` and agree there
with the curve, derivatives included (at `u` on the left: the continuous ones). Missing: parameters
above a repeated interior knot. -/
theorem C27_unnormalized_partial {c l r : Curve K d} {p n : ℕ} {U : List K} {P : List (Pt K d)}
    (hc : ValidOn 0 1 c p n U P) {u : K} (hr : SimpleBelow U u)
    (hs : splitAndNormalize c u (false, false) = .ok (.ok (l, r))) :
    (∃ n1 n2 U1 U2 P1 P2, ValidOn 0 u l p n1 U1 P1 ∧ ValidOn u 1 r p n2 U2 P2) ∧
    (∀ v k, 0 ≤ v → v ≤ u → (v = u → k ≤ p → U.count u ≤ p - k) →
      l.evaluateDerivative v k = c.evaluateDerivative v k) ∧
    (∀ v k, u ≤ v → v ≤ 1 → r.evaluateDerivative v k = c.evaluateDerivative v k) := by
  obtain ⟨hu0, hu1, hcount⟩ := split_ok_iff hc hr hs
  obtain rfl := hc.eq_canon
  obtain ⟨-, hU, hP⟩ := hc
  obtain ⟨U', P', n', q, hcut, hP', -, -, hsame, hsplit⟩ := split_valid hU hP hu0 hu1 hcount hr
  rw [hsplit] at hs
  injection hs with hs; injection hs with hs; injection hs with hl hr'
  simp only [normalizeIf, Bool.false_eq_true, if_false] at hl hr'
  subst hl; subst hr'
  have a1 := hcut.lo_q
  have a2 := hcut.q_hi
  refine ⟨⟨q - 1, n' + 1 - q, _, _, _, _, validOn_canon hcut.left_clamped (by simp; omega),
    validOn_canon hcut.right_clamped (by simp; omega)⟩, ?_, ?_⟩
  · intro v k h0 h1 hm
    have hv1 : v ≤ 1 := h1.trans hu1.le
    by_cases hk : k ≤ p
    · obtain ⟨i, hi⟩ := hU.clamp.exists_span h0 hv1
      obtain ⟨j, hj⟩ := hcut.left_clamped.clamp.exists_span h0 h1
      rw [evaluateDerivative_eq hU hP hk h0 hv1 hi,
        evaluateDerivative_eq hcut.left_clamped (by simp; omega) hk h0 hv1 hj,
        cv_split_left hU hcut hP' hsame h0 h1 hk hj hi (fun h => hm h hk)]
    · rw [evaluateDerivative_high (canon_degree ..) (by omega) h0 hv1,
        evaluateDerivative_high (canon_degree ..) (by omega) h0 hv1]
  · intro v k h0 h1
    have hv0 : 0 ≤ v := hu0.le.trans h0
    by_cases hk : k ≤ p
    · obtain ⟨i, hi⟩ := hU.clamp.exists_span hv0 h1
      obtain ⟨j, hj⟩ := hcut.right_clamped.clamp.exists_span h0 h1
      rw [evaluateDerivative_eq hU hP hk hv0 h1 hi,
        evaluateDerivative_eq hcut.right_clamped (by simp; omega) hk hv0 h1 hj,
        cv_split_right hcut hP' hsame h0 h1 hk hj hi]
    · rw [evaluateDerivative_high (canon_degree ..) (by omega) hv0 h1,
        evaluateDerivative_high (canon_degree ..) (by omega) hv0 h1]

/-- The same bad parameter without normalisation. -/
theorem C27_full_false : ¬ C27_full := by
  intro h
  have hv : ValidOn 0 1 exC 2 5 exU exP := validOn_canon (by decide +kernel) rfl
  have hs : ∃ l r, splitAndNormalize exC (9 / 10) (false, false) = .ok (.ok (l, r)) ∧
      l.evaluate (6 / 10) ≠ exC.evaluate (6 / 10) := by
    refine ⟨match splitAndNormalize exC (9 / 10) (false, false) with
      | .ok (.ok (l, _)) => l
      | _ => exC, match splitAndNormalize exC (9 / 10) (false, false) with
      | .ok (.ok (_, r)) => r
      | _ => exC, ?_, ?_⟩ <;> decide +kernel
  obtain ⟨l, r, hs, hne⟩ := hs
  exact hne ((h 2 5 2 exU exP exC l r (9 / 10) (6 / 10) hv hs).1 (by norm_num) (by norm_num))

/-! ### Non-vacuity -/

/-- `exC` can be split at its double knot `1/2` and at the fresh parameter `1/4`. -/
example : ∃ l r, split exC (1 / 2) = .ok (.ok (l, r)) ∧ SimpleBelow exU (1 / 2) ∧
    l.knots.vector = .ok [0, 0, 0, 1, 1, 1] ∧ r.knots.vector = .ok [0, 0, 0, 1 / 2, 1, 1, 1] := by
  refine ⟨match split exC (1 / 2) with
      | .ok (.ok (l, _)) => l
      | _ => exC, match split exC (1 / 2) with
      | .ok (.ok (_, r)) => r
      | _ => exC, ?_, exU_simpleBelow, ?_, ?_⟩ <;> decide +kernel

example : ∃ l r, split exC (1 / 4) = .ok (.ok (l, r)) ∧ SimpleBelow exU (1 / 4) ∧
    l.evaluate 1 = exC.evaluate (1 / 4) ∧
    l.knots.vector = .ok [0, 0, 0, 1, 1, 1] ∧
    r.knots.vector = .ok [0, 0, 0, 1 / 3, 1 / 3, 2 / 3, 1, 1, 1] := by
  refine ⟨match split exC (1 / 4) with
      | .ok (.ok (l, _)) => l
      | _ => exC, match split exC (1 / 4) with
      | .ok (.ok (_, r)) => r
      | _ => exC, ?_, fun x h0 h1 => exU_simpleBelow x h0 (h1.trans (by norm_num)), ?_, ?_, ?_⟩ <;>
  decide +kernel

end BSpline
