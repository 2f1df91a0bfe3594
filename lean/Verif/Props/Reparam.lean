import Verif.Props.Domain
import Verif.Refine.Reverse

/-!
# Affine changes of the parameter: C120

`Reparam s t c c'`: the knots of `c'` are those of `c` under `x ↦ s x + t`, and the control points are the
same. Evaluation, insertion, splitting and reversal respect this relation whenever both parameters pass
the test against `[0, 1]`, for arbitrary knots.
-/

set_option linter.unusedSectionVars false

namespace BSpline

open Finset

variable {K : Type} [Field K] [LinearOrder K] [IsStrictOrderedRing K] {d : ℕ}

/-- `c'` is `c` with another parametrization -/
def Reparam (s t : K) (c c' : Curve K d) : Prop :=
  ∃ p n U P, Built c p U P ∧ Built c' p (U.map fun x => s * x + t) P ∧ U.length = n + p + 2 ∧
    P.length = n + 1 ∧ p ≤ n

section Maps
variable {s t : K} (hs : 0 < s)
include hs

theorem rep_le {x y : K} : s * x + t ≤ s * y + t ↔ x ≤ y := by
  rw [add_le_add_iff_right, mul_le_mul_iff_right₀ hs]

theorem rep_lt {x y : K} : s * x + t < s * y + t ↔ x < y := by
  rw [← not_le, rep_le hs, not_le]

theorem rep_eq {x y : K} : s * x + t = s * y + t ↔ x = y := by
  rw [add_left_inj, mul_right_inj' hs.ne']

theorem lleq_rep {U U' : ℕ → K} (hU : ∀ i, U' i = s * U i + t) (u : K) (r : ℕ) : ∀ i,
    lleq U' (s * u + t) r i = lleq U u r i := by
  induction r with
  | zero => intro i; rfl
  | succ r ih =>
    intro i
    simp only [lleq, Cmp.le, Cmp.eq, hU, rep_le hs, rep_eq hs, ih]

theorem filter_rep (L : List K) (u : K) : (((L.map fun x => s * x + t)).filter fun x => Cmp.eq x (s * u + t)).length =
    (L.filter fun x => Cmp.eq x u).length := by
  rw [List.filter_map, List.length_map]
  congr 2
  funext x
  simp only [Function.comp, Cmp.eq, rep_eq hs]

theorem multF_rep {p n : ℕ} (U : List K) (u : K) :
    multF p n (U.map fun x => s * x + t) (s * u + t) = multF p n U u := by
  rw [multF, multF, ← List.map_drop, ← List.map_take, filter_rep hs]

theorem takeWhile_rep (L : List K) (u : K) :
    (((L.map fun x => s * x + t)).takeWhile fun x => Cmp.eq x (s * u + t)).length =
      (L.takeWhile fun x => Cmp.eq x u).length := by
  rw [List.takeWhile_map, List.length_map]
  congr 2
  funext x
  simp only [Function.comp, Cmp.eq, rep_eq hs]

theorem ratio_rep (x y z : K) : (s * x + t - (s * y + t)) / (s * z + t - (s * y + t)) = (x - y) / (z - y) := by
  rw [show s * x + t - (s * y + t) = s * (x - y) by ring, show s * z + t - (s * y + t) = s * (z - y) by ring,
    mul_div_mul_left _ _ hs.ne']

theorem insP_rep {U U' : ℕ → K} (hU : ∀ i, U' i = s * U i + t) (p : ℕ) (P : ℕ → Pt K d) (u : K) (l i : ℕ) :
    insP U' p P (s * u + t) l i = insP U p P u l i := by
  simp only [insP, hU, ratio_rep hs]

theorem insU_rep (U : List K) (u : K) (l : ℕ) :
    insU (U.map fun x => s * x + t) (s * u + t) l = (insU U u l).map fun x => s * x + t := by
  simp [insU, List.map_take, List.map_drop]

theorem base_rep {U U' : ℕ → K} (hU : ∀ i, U' i = s * U i + t) (n : ℕ) (u : K) :
    base U' n (s * u + t) = base U n u := by
  funext i
  simp only [base, hU, rep_le hs, rep_eq hs, rep_lt hs]

theorem Bs_rep {U U' : ℕ → K} (hU : ∀ i, U' i = s * U i + t) (u : K) (b : ℕ → K) (q : ℕ) : ∀ i,
    Bs U' (s * u + t) b q i = Bs U u b q i := by
  induction q with
  | zero => intro i; rfl
  | succ q ih =>
    intro i
    simp only [Bs, ih, hU, ratio_rep hs]
    congr 2
    rw [show s * U (i + q + 2) + t - (s * u + t) = s * (U (i + q + 2) - u) by ring,
      show s * U (i + q + 2) + t - (s * U (i + 1) + t) = s * (U (i + q + 2) - U (i + 1)) by ring,
      mul_div_mul_left _ _ hs.ne']

end Maps

theorem map_ne_nil {U : List K} {n p : ℕ} (hU : U.length = n + p + 2) : U ≠ [] := by
  rintro rfl; simp at hU

/-- **C120** Evaluation: the same point, and the `k`-th derivative divided by `s ^ k`. -/
theorem C120_evaluate {s t : K} (hs : 0 < s) {c c' : Curve K d} (h : Reparam s t c c') {v : K} (h0 : 0 ≤ v)
    (h1 : v ≤ 1) (h0' : 0 ≤ s * v + t) (h1' : s * v + t ≤ 1) (k : ℕ) :
    ∃ w, c.evaluateDerivative v k = .ok (.ok w) ∧ c'.evaluateDerivative (s * v + t) k = .ok (.ok ((s⁻¹) ^ k • w)) := by
  obtain ⟨p, n, U, P, hB, hB', hU, hP, hp⟩ := h
  obtain rfl := hB.eq_canon' hU hP hp
  obtain rfl := hB'.eq_canon' (by simpa using hU) hP hp
  have hf : ∀ i, fn (U.map fun x => s * x + t) i = s * fn U i + t := fn_map_of_ne_nil _ (map_ne_nil hU)
  by_cases hk : k ≤ p
  · have hb := lleq_bounds (fun i => fn U (i + k)) v (n - p) (p - k)
    refine ⟨_, evaluateDerivative_ok hU hP hp hk (by simpa [Cmp.le] using h0) (by simpa [Cmp.le] using h1), ?_⟩
    rw [evaluateDerivative_ok (n := n) (by simpa using hU) hP hp hk (by simpa [Cmp.le] using h0')
      (by simpa [Cmp.le] using h1')]
    rw [lleq_rep hs (U := fun i => fn U (i + k)) (fun i => hf (i + k))]
    rw [evalFold_eq_sum _ (by omega) _ _ (by omega), evalFold_eq_sum _ (by omega) _ _ (by omega), smul_sum]
    congr 2
    apply sum_congr rfl
    intro i _
    have hf' : ∀ i, shiftN k (fn (U.map fun x => s * x + t)) i = s * shiftN k (fn U) i + t := fun i => hf (i + k)
    rw [dpt_affine hs.ne' hf, base_rep hs hf', Bs_rep hs hf', smul_comm]
  · refine ⟨0, evaluateDerivative_high (canon_degree ..) (by omega) h0 h1, ?_⟩
    rw [smul_zero]
    exact evaluateDerivative_high (canon_degree ..) (by omega) h0' h1'

/-- **C120** Insertion fails for both or succeeds for both, with corresponding results. -/
theorem C120_insert {s t : K} (hs : 0 < s) {c c' : Curve K d} (h : Reparam s t c c') {u : K} (h0 : 0 < u)
    (h1 : u < 1) (h0' : 0 < s * u + t) (h1' : s * u + t < 1) :
    (∃ m p, c.insert u = .ok (c, .error (.multiplicityError u m p)) ∧
      c'.insert (s * u + t) = .ok (c', .error (.multiplicityError (s * u + t) m p))) ∨
    ∃ e e', c.insert u = .ok (e, .ok ()) ∧ c'.insert (s * u + t) = .ok (e', .ok ()) ∧ Reparam s t e e' := by
  obtain ⟨p, n, U, P, hB, hB', hU, hP, hp⟩ := h
  obtain rfl := hB.eq_canon' hU hP hp
  obtain rfl := hB'.eq_canon' (by simpa using hU) hP hp
  have hf : ∀ i, fn (U.map fun x => s * x + t) i = s * fn U i + t := fn_map_of_ne_nil _ (map_ne_nil hU)
  have hb := lleq_bounds (fn U) u (n - p) p
  have g1 : (Cmp.le u 0 || Cmp.le 1 u) = false := by simp [Cmp.le, h0, h1]
  have g2 : (Cmp.le (s * u + t) 0 || Cmp.le 1 (s * u + t)) = false := by
    simp only [Cmp.le, Bool.or_eq_false_iff, decide_eq_false_iff_not, not_le]; exact ⟨h0', h1'⟩
  rw [Curve.insert_eq, Curve.insert_eq, insert_ok hU hP hp, insert_ok (n := n) (by simpa using hU) hP hp,
    g1, g2, multF_rep hs]
  simp only [Bool.false_eq_true, if_false]
  split
  · left; exact ⟨_, _, rfl, rfl⟩
  · right
    rw [lleq_rep hs hf, insU_rep hs]
    simp only [funext (insP_rep hs hf p (fn P) u (lleq (fn U) u (n - p) p))]
    have hl : (insU U u (lleq (fn U) u (n - p) p)).length = (n + 1) + p + 2 := by
      rw [insU_length (by omega)]; omega
    refine ⟨_, _, rfl, rfl, p, n + 1, _, _, mkCurve_ok (n := n + 1) (by simp) (by omega) (by omega),
      mkCurve_ok (n := n + 1) (by simp) (by omega) (by simp; omega), hl, by simp, by omega⟩

/-- **C120** Repeated insertion; also the curves which a failing call leaves behind correspond. -/
theorem C120_insert_times {s t : K} (hs : 0 < s) {u : K} (h0 : 0 < u) (h1 : u < 1) (h0' : 0 < s * u + t)
    (h1' : s * u + t < 1) (x : ℕ) : ∀ {c c' : Curve K d}, Reparam s t c c' →
    ∃ e e', Reparam s t e e' ∧
      ((∃ m p, c.insertTimes u x = .ok (e, .error (.multiplicityError u m p)) ∧
        c'.insertTimes (s * u + t) x = .ok (e', .error (.multiplicityError (s * u + t) m p))) ∨
      (c.insertTimes u x = .ok (e, .ok ()) ∧ c'.insertTimes (s * u + t) x = .ok (e', .ok ()))) := by
  induction x with
  | zero => intro c c' h; exact ⟨c, c', h, Or.inr ⟨rfl, rfl⟩⟩
  | succ x ih =>
    intro c c' h
    have hi := C120_insert hs h h0 h1 h0' h1'
    rw [Curve.insert_eq, Curve.insert_eq] at hi
    rcases hi with ⟨m, p, e1, e2⟩ | ⟨e, e', e1, e2, e3⟩
    · refine ⟨c, c', h, Or.inl ⟨m, p, ?_, ?_⟩⟩
      · rw [Curve.insertTimes, e1]; rfl
      · rw [Curve.insertTimes, e2]; rfl
    · obtain ⟨f, f', h3, h4⟩ := ih e3
      refine ⟨f, f', h3, ?_⟩
      rw [Curve.insertTimes, Curve.insertTimes, e1, e2, ok_bind, ok_bind]
      exact h4

theorem vmin_rep {s t : K} (hs : 0 < s) {U : List K} (hne : U ≠ []) :
    vmin (U.map fun x => s * x + t) = s * vmin U + t := by
  apply le_antisymm
  · exact vmin_le (List.mem_map_of_mem (vmin_mem hne))
  · have := vmin_mem (l := U.map fun x => s * x + t) (by simpa using hne)
    obtain ⟨y, hy, e⟩ := List.mem_map.mp this
    rw [← e, rep_le hs]; exact vmin_le hy

theorem vmax_rep {s t : K} (hs : 0 < s) {U : List K} (hne : U ≠ []) :
    vmax (U.map fun x => s * x + t) = s * vmax U + t := by
  apply le_antisymm
  · have := vmax_mem (l := U.map fun x => s * x + t) (by simpa using hne)
    obtain ⟨y, hy, e⟩ := List.mem_map.mp this
    rw [← e, rep_le hs]; exact le_vmax hy
  · exact le_vmax (List.mem_map_of_mem (vmax_mem hne))

theorem normalize_rep {s t : K} (hs : 0 < s) (U : List K) :
    normalizeKnots (U.map fun x => s * x + t) = normalizeKnots U := by
  by_cases hne : U = []
  · subst hne; rfl
  · rw [normalizeKnots, normalizeKnots, rescaleKnots, rescaleKnots, vmin_rep hs hne, vmax_rep hs hne, List.map_map]
    apply List.map_congr_left
    intro x _
    simp only [Function.comp, ratio_rep hs]

/-- two parts of a split correspond: equal if normalized -/
def PartRel (norm : Bool) (s t : K) (c c' : Curve K d) : Prop :=
  if norm then c = c' else Reparam s t c c'

theorem partRel_of {s t : K} (hs : 0 < s) {norm : Bool} {p n : ℕ} {V : List K} {Q : List (Pt K d)} {e e' : Curve K d}
    (h : Built e p (normalizeIf norm V) Q) (h' : Built e' p (normalizeIf norm (V.map fun x => s * x + t)) Q)
    (hV : V.length = n + p + 2) (hQ : Q.length = n + 1) (hp : p ≤ n) : PartRel norm s t e e' := by
  cases norm with
  | false => exact ⟨p, n, V, Q, h, h', hV, hQ, hp⟩
  | true =>
    rw [normalizeIf, if_pos rfl] at h h'
    rw [normalize_rep hs] at h'
    rw [Built, h] at h'
    injection h' with h'; injection h' with h'

/-- **C120** Splitting: the same error, a panic for both, or corresponding parts. -/
theorem C120_split {s t : K} (hs : 0 < s) {c c' : Curve K d} (h : Reparam s t c c') {u : K} (h0 : 0 < u)
    (h1 : u < 1) (h0' : 0 < s * u + t) (h1' : s * u + t < 1) (norm : Bool × Bool) :
    (∃ p m, splitAndNormalize c u norm = .ok (.error (.multiplicityTooHigh u p m)) ∧
      splitAndNormalize c' (s * u + t) norm = .ok (.error (.multiplicityTooHigh (s * u + t) p m))) ∨
    (∃ p m, splitAndNormalize c u norm = .ok (.error (.curveError (.degreeAndSegmentsMismatch p m))) ∧
      splitAndNormalize c' (s * u + t) norm = .ok (.error (.curveError (.degreeAndSegmentsMismatch p m)))) ∨
    (∃ e e', splitAndNormalize c u norm = .error e ∧ splitAndNormalize c' (s * u + t) norm = .error e') ∨
    (∃ l r l' r', splitAndNormalize c u norm = .ok (.ok (l, r)) ∧
      splitAndNormalize c' (s * u + t) norm = .ok (.ok (l', r')) ∧
      PartRel norm.1 s t l l' ∧ PartRel norm.2 s t r r') := by
  have h' := h
  obtain ⟨p, n, U, P, hB, hB', hU, hP, hp⟩ := h
  have hU' : (U.map fun x => s * x + t).length = n + p + 2 := by simpa using hU
  have hf : ∀ i, fn (U.map fun x => s * x + t) i = s * fn U i + t := fn_map_of_ne_nil _ (map_ne_nil hU)
  obtain ⟨l, hl, hl1, hl2, k⟩ := C118_split hB hU hP hp u norm
  obtain ⟨l', hl', -, -, k'⟩ := C118_split hB' hU' hP hp (s * u + t) norm
  have hll : l' = l := by
    rw [hB.eq_canon' hU hP hp, canon_knots] at hl
    rw [hB'.eq_canon' hU' hP hp, canon_knots] at hl'
    have e1 := findIdx_leftOrEqual_ok hU hp (Nat.zero_le p) u
    have e2 := findIdx_leftOrEqual_ok hU' hp (Nat.zero_le p) (s * u + t)
    simp only [Nat.add_zero, Nat.sub_zero] at e1 e2
    rw [e1] at hl
    rw [e2, lleq_rep hs hf, hl] at hl'
    injection hl' with hl'
    exact hl'.symm
  subst hll
  dsimp only at k k'
  rw [← List.map_drop, takeWhile_rep hs] at k'
  generalize ((U.drop l').takeWhile (fun x => Cmp.eq x u)).length = m at k k'
  rw [if_neg (by simp [Cmp.le, h0, h1])] at k
  rw [if_neg (by
    simp only [Cmp.le, Bool.or_eq_true, decide_eq_true_eq, not_or, not_le]; exact ⟨h0', h1'⟩)] at k'
  split at k
  · rename_i hm
    rw [if_pos hm] at k'
    exact Or.inl ⟨_, _, k, k'⟩
  rename_i hm
  rw [if_neg hm] at k'
  obtain ⟨f, f', ⟨q, N, V, Q, b1, b2, b3, b4, b5⟩, he⟩ := C120_insert_times hs h0 h1 h0' h1' (p - m) h'
  rcases he with ⟨m', p', e1, e2⟩ | ⟨e1, e2⟩
  · exact Or.inr (Or.inr (Or.inl ⟨_, _, k.1 ⟨_, _, e1⟩, k'.1 ⟨_, _, e2⟩⟩))
  have v1 := b1.vector b3 b4 b5
  have v2 := b2.vector (n := N) (by simpa using b3) b4 b5
  have v3 : f.points.matrix = .ok Q := by rw [b1.eq_canon' b3 b4 b5, canon_matrix]
  have v4 : f'.points.matrix = .ok Q := by
    rw [b2.eq_canon' (n := N) (by simpa using b3) b4 b5, canon_matrix]
  have k := k.2 f V Q e1 v1 v3
  have k' := k'.2 f' _ Q e2 v2 v4
  split at k
  · rename_i hc
    rw [if_pos hc] at k'
    exact Or.inr (Or.inl ⟨_, _, k, k'⟩)
  rename_i hc
  rw [if_neg hc] at k'
  split at k
  · rename_i hc
    rw [if_pos hc] at k'
    obtain ⟨e, k⟩ := k
    obtain ⟨e', k'⟩ := k'
    exact Or.inr (Or.inr (Or.inl ⟨_, _, k, k'⟩))
  rename_i hc2
  rw [if_neg hc2] at k'
  split at k
  · rename_i hc
    rw [if_pos hc] at k'
    exact Or.inr (Or.inl ⟨_, _, k, k'⟩)
  rename_i hc3
  rw [if_neg hc3] at k'
  obtain ⟨a, b, a1, a2, a3, a4, a5⟩ := k
  obtain ⟨a', b', a1', a2', a3', -, -⟩ := k'
  generalize hq : (if 0 < m then l' else l' + 1) = g at a2 a3 a4 a5 a2' a3'
  have hq2 : g = l' ∧ 0 < m ∨ g = l' + 1 ∧ m = 0 := by
    rw [← hq]; split
    · exact Or.inl ⟨rfl, by assumption⟩
    · exact Or.inr ⟨rfl, by omega⟩
  obtain ⟨c1, r1, y, U1, P1, j1, j2, j3, j4, j5, j6, j7⟩ := C18_insert_times hB hU hP hp u (p - m)
  rw [e1] at j1
  injection j1 with j1; injection j1 with j1 j1'
  subst j1 j1'
  obtain ⟨-, rfl⟩ : _ ∧ y = p - m := by
    rcases j7 with h | ⟨e, h, -⟩
    · exact h
    · cases h
  have hU1 : U1.length = (n + (p - m)) + p + 2 := by
    rw [j5.length_eq, List.length_append, List.length_replicate]; omega
  have hP1 : P1.length = n + (p - m) + 1 := by omega
  have hVU : V = U1 := by
    rw [j4.vector hU1 hP1 (by omega)] at v1
    injection v1 with v1; exact v1.symm
  have hQP : Q = P1 := by
    rw [j4.eq_canon' hU1 hP1 (by omega), canon_matrix] at v3
    injection v3 with v3; exact v3.symm
  subst hVU hQP
  refine Or.inr (Or.inr (Or.inr ⟨a, b, a', b', a1, a1', ?_, ?_⟩))
  · refine partRel_of hs (n := g - 1) a2 ?_ ?_ ?_ ?_
    · simpa [List.map_take] using a2'
    · simp; omega
    · omega
    · omega
  · refine partRel_of hs (n := n + p + 1 - m - g) a3 ?_ ?_ ?_ ?_
    · simpa [List.map_drop] using a3'
    · simp; omega
    · omega
    · omega

theorem revU_rep (s t : K) (U : List K) :
    revU (U.map fun x => s * x + t) = (revU U).map fun x => s * x + (1 - s - t) := by
  rw [revU, revU, ← List.map_reverse, List.map_map, List.map_map]
  apply List.map_congr_left
  intro x _
  simp only [Function.comp]
  ring

/-- **C120** Reversal, which maps a parameter `v` to `1 - v` whatever the domain is. -/
theorem C120_reverse {s t : K} {c c' : Curve K d} (h : Reparam s t c c') :
    ∃ e e', c.reverse = .ok e ∧ c'.reverse = .ok e' ∧ Reparam s (1 - s - t) e e' := by
  obtain ⟨p, n, U, P, hB, hB', hU, hP, hp⟩ := h
  obtain rfl := hB.eq_canon' hU hP hp
  obtain rfl := hB'.eq_canon' (by simpa using hU) hP hp
  refine ⟨_, _, reverse_canon hU hP hp, reverse_canon (n := n) (by simpa using hU) hP hp, p, n, revU U, P.reverse,
    mkCurve_ok (n := n) (by simpa using hP) hp (by simp; omega), ?_, by simpa using hU, by simpa using hP, hp⟩
  rw [revU_rep]
  exact mkCurve_ok (n := n) (by simpa using hP) hp (by simp; omega)

/-! ### Splits strictly inside of another domain -/

theorem count_rep {s t : K} (hs : 0 < s) (U : List K) (x : K) :
    (U.map fun x => s * x + t).count (s * x + t) = U.count x :=
  List.count_map_of_injective _ _ (fun _ _ h => (rep_eq hs).mp h) _

/-- knots from the knots of another parametrization -/
theorem clamped_of_rep {s t a b : K} (hs : 0 < s) {p n : ℕ} {U : List K}
    (h : ClampedKnots (s * a + t) (s * b + t) p n (U.map fun x => s * x + t)) : ClampedKnots a b p n U := by
  have k := h.affine (c := s⁻¹) (inv_pos.mpr hs) (-(s⁻¹ * t))
  have e : ∀ x, s⁻¹ * (s * x + t) + -(s⁻¹ * t) = x := by intro x; field_simp; ring
  rw [e, e, List.map_map, show ((fun x => s⁻¹ * x + -(s⁻¹ * t)) ∘ fun x => s * x + t) = id from funext e,
    List.map_id] at k
  exact k

/-- a curve whose other parametrization is clamped -/
theorem Reparam.validOn {s t a b : K} (hs : 0 < s) {c c' : Curve K d} (h : Reparam s t c c') {p n : ℕ}
    {V : List K} {P : List (Pt K d)} (hv : ValidOn (s * a + t) (s * b + t) c' p n V P) :
    ∃ U, V = U.map (fun x => s * x + t) ∧ ValidOn a b c p n U P := by
  obtain ⟨q, N, U, Q, hB, hB', hU, hQ, hq⟩ := h
  have hU' : (U.map fun x => s * x + t).length = N + q + 2 := by simpa using hU
  obtain ⟨k1, k2, k3⟩ := hv
  have e1 := hB'.vector hU' hQ hq
  rw [k1.vector k2.length k3 k2.le] at e1
  injection e1 with e1
  have e2 : c'.points.matrix = .ok Q := by rw [hB'.eq_canon' hU' hQ hq, canon_matrix]
  rw [k1.eq_canon' k2.length k3 k2.le, canon_matrix] at e2
  injection e2 with e2
  subst e1 e2
  have e3 : q = p := by
    have := k2.length
    omega
  subst e3
  exact ⟨U, rfl, hB, clamped_of_rep hs k2, k3⟩

/-- **C120** A split strictly inside of the domain of a curve on another domain than `[0, 1]`: it succeeds for
a knot of multiplicity at most the degree, the parts are curves on the two parts of the domain, and they
evaluate like the curve. -/
theorem C120_split_inside {a b : K} {c : Curve K d} {p n : ℕ} {U : List K} {P : List (Pt K d)}
    (hc : ValidOn a b c p n U P) {u : K} (ha : a < u) (hb : u < b) (h0 : 0 < u) (h1 : u < 1)
    (hr : SimpleFrom a U u) (hm : U.count u ≤ p) :
    ∃ l r, splitAndNormalize c u (false, false) = .ok (.ok (l, r)) ∧
      (∃ n1 n2 U1 U2 P1 P2, ValidOn a u l p n1 U1 P1 ∧ ValidOn u b r p n2 U2 P2) ∧
      (∀ v k, 0 ≤ v → a ≤ v → v ≤ u → (v = u → k ≤ p → U.count u ≤ p - k) →
        l.evaluateDerivative v k = c.evaluateDerivative v k) ∧
      (∀ v k, v ≤ 1 → u ≤ v → v ≤ b → r.evaluateDerivative v k = c.evaluateDerivative v k) := by
  have hpos : 0 < b - a := sub_pos.mpr hc.2.1.lt
  obtain ⟨s, t, hs, ea, eb⟩ : ∃ s t : K, 0 < s ∧ s * a + t = 0 ∧ s * b + t = 1 := by
    refine ⟨(b - a)⁻¹, -((b - a)⁻¹ * a), inv_pos.mpr hpos, by ring, ?_⟩
    field_simp
    ring
  have ua : 0 < s * u + t := by rw [← ea]; exact (rep_lt hs).mpr ha
  have ub : s * u + t < 1 := by rw [← eb]; exact (rep_lt hs).mpr hb
  have hV : ClampedKnots 0 1 p n (U.map fun x => s * x + t) := by
    have := hc.2.1.affine hs t
    rwa [ea, eb] at this
  have hc' := validOn_canon hV hc.2.2
  have hrel : Reparam s t c (canon p (U.map fun x => s * x + t) P) :=
    ⟨p, n, U, P, hc.1, hc'.1, hc.2.1.length, hc.2.2, hc.2.1.le⟩
  have hsb : SimpleBelow (U.map fun x => s * x + t) (s * u + t) := by
    intro x hx1 hx2
    have ex : x = s * (s⁻¹ * (x - t)) + t := by field_simp; ring
    rw [ex, count_rep hs]
    rw [ex, rep_lt hs] at hx2
    rw [ex, ← ea, rep_lt hs] at hx1
    exact hr _ hx1 hx2
  have hm' : (U.map fun x => s * x + t).count (s * u + t) ≤ p := by rw [count_rep hs]; exact hm
  obtain ⟨W, Q, n', q, -, -, -, -, -, hsp⟩ := split_valid hV hc.2.2 ua ub hm' hsb
  have hsp := hsp (false, false)
  rcases C120_split hs hrel h0 h1 ua ub (false, false) with
    ⟨_, _, -, k⟩ | ⟨_, _, -, k⟩ | ⟨_, _, -, k⟩ | ⟨l, r, l', r', k1, k2, k3, k4⟩
  · rw [hsp] at k; cases k
  · rw [hsp] at k; cases k
  · rw [hsp] at k; cases k
  obtain ⟨⟨n1, n2, U1, U2, P1, P2, v1, v2⟩, w1, w2⟩ := C27_unnormalized_partial hc' hsb k2
  have k3 : Reparam s t l l' := k3
  have k4 : Reparam s t r r' := k4
  obtain ⟨V1, -, v1⟩ := k3.validOn (a := a) (b := u) hs (by rw [ea]; exact v1)
  obtain ⟨V2, -, v2⟩ := k4.validOn (a := u) (b := b) hs (by rw [eb]; exact v2)
  have same : ∀ {e e' : Curve K d}, Reparam s t e e' → ∀ v k, 0 ≤ v → v ≤ 1 → 0 ≤ s * v + t → s * v + t ≤ 1 →
      e'.evaluateDerivative (s * v + t) k = (canon p (U.map fun x => s * x + t) P).evaluateDerivative (s * v + t) k →
      e.evaluateDerivative v k = c.evaluateDerivative v k := by
    intro e e' he v k g1 g2 g3 g4 heq
    obtain ⟨x, x1, x2⟩ := C120_evaluate hs he g1 g2 g3 g4 k
    obtain ⟨y, y1, y2⟩ := C120_evaluate hs hrel g1 g2 g3 g4 k
    rw [x2, y2] at heq
    injection heq with heq; injection heq with heq
    rw [x1, y1, (smul_right_injective (Pt K d) (pow_ne_zero k (inv_ne_zero hs.ne'))) heq]
  refine ⟨l, r, k1, ⟨n1, n2, V1, V2, P1, P2, v1, v2⟩, ?_, ?_⟩
  · intro v k g1 g2 g3 g4
    have t0 : 0 ≤ s * v + t := by rw [← ea]; exact (rep_le hs).mpr g2
    have t1 : s * v + t ≤ s * u + t := (rep_le hs).mpr g3
    refine same k3 v k g1 (g3.trans h1.le) t0 (t1.trans ub.le) (w1 _ k t0 t1 ?_)
    intro g5 g6
    rw [count_rep hs]
    exact g4 ((rep_eq hs).mp g5) g6
  · intro v k g1 g2 g3
    have t0 : s * u + t ≤ s * v + t := (rep_le hs).mpr g2
    have t1 : s * v + t ≤ 1 := by rw [← eb]; exact (rep_le hs).mpr g3
    exact same k4 v k (h0.le.trans g2) g1 (ua.le.trans t0) t1 (w2 _ k t0 t1)

/-! ### Examples -/

/-- the two halves of C119 on half the scale -/
example : Reparam (1/2 : ℚ) (1/4) leftHalf (canon 2 [1/4, 1/4, 1/4, 1/2, 1/2, 1/2] (Tests.c1 [1, 2, 4])) :=
  ⟨2, 2, [0, 0, 0, 1/2, 1/2, 1/2], Tests.c1 [1, 2, 4],
    mkCurve_ok (n := 2) rfl le_rfl (by decide), by
      rw [Built, show ([0, 0, 0, 1/2, 1/2, 1/2] : List ℚ).map (fun x => 1/2 * x + 1/4) =
        [1/4, 1/4, 1/4, 1/2, 1/2, 1/2] by decide +kernel]
      exact mkCurve_ok (n := 2) rfl le_rfl (by decide), rfl, rfl, le_rfl⟩
example : leftHalf.evaluateDerivative (1/4) 1 = .ok (.ok ![6]) := by decide +kernel
example : (canon 2 [1/4, 1/4, 1/4, 1/2, 1/2, 1/2] (Tests.c1 [1, 2, 4])).evaluateDerivative (3/8 : ℚ) 1 =
    .ok (.ok ![12]) := by decide +kernel
example : splitAndNormalize rightHalf (3/4) (false, false) = .ok (.ok
    (canon 2 [1/2, 1/2, 1/2, 3/4, 3/4, 3/4] (Tests.c1 [3/2, 2, 21/8]),
     canon 2 [3/4, 3/4, 3/4, 1, 1, 1] (Tests.c1 [21/8, 13/4, 4]))) := by decide +kernel

end BSpline
