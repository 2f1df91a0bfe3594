import Verif.Props.MergeSharp

/-!
# Exactly when the claims about merging hold: C82

C30, C33 and C76 are proved for some degrees and sizes only and refuted by single examples elsewhere.
Here: the degrees and sizes for which they are proved are exactly those for which they hold, whatever the
knots are (interior knots of the right curve of multiplicity at most `p`).
-/

set_option linter.unusedSectionVars false

namespace BSpline

open Finset

variable {K : Type} [Field K] [LinearOrder K] [IsStrictOrderedRing K] {d : ℕ}
variable {p m o : ℕ} {V W : List K}

/-- **C82** For which sizes the merged curve runs through curves that differ from the inputs only in the
last `p` control points of the left curve and the first `p` control points of the right curve, and that
join with all derivatives below `p`: exactly if the right curve has at most one control point more than
the left curve. This holds for every linear solver. -/
theorem C82_halves_iff (hd : 0 < d) (solver : Solver K d) (hV : ClampedKnots 0 1 p m V)
    (hW : ClampedKnots 0 1 p o W) (h1 : 1 ≤ p) (hmo : m ≤ o) (hom : o < m + p) (hjw : NoJump p W) :
    (∀ (S T : List (Pt K d)) (a b : Curve K d), Built a p V S → Built b p W T → S.length = m + 1 →
      T.length = o + 1 → ∃ c, merge solver a b = .ok (.ok c) ∧
        ∃ S' T' a' b', Joins p m o V W S T [] [] S' T' ∧ Built a' p V S' ∧ Built b' p W T' ∧
          Halves p c a' b') ↔ o ≤ m + 1 := by
  have hpm := hV.le
  have hpo := hW.le
  constructor
  · intro h
    by_contra hw
    obtain ⟨e, he, hwr⟩ := mergedPts_wrong_right (d := d) hV hW (by omega) (by omega) hom hjw
    let one : Pt K d := fun _ => 1
    let S : List (Pt K d) := List.replicate (m + 1) 0
    let T : List (Pt K d) := (List.range (o + 1)).map (fun j => if j = o - (m - p + 1) then one else 0)
    have hS : S.length = m + 1 := by simp [S]
    have hT : T.length = o + 1 := by simp [T]
    obtain ⟨c, e1, S', T', a', b', hj, -, hb', hh⟩ := h S T _ _ (built_canon hV hS) (built_canon hW hT) hS hT
    have e2 := merge_valid (ua := []) (ub := []) (built_canon hV hS) (built_canon hW hT) hV hW hS hT
      (Nat.lt_of_lt_of_le Nat.zero_lt_one h1) hmo hom solver
    rw [merge, e2] at e1
    injection e1 with e1; injection e1 with e1
    generalize shiftsOf solver p m o V W [] [] S T = x at e1
    have hk := ((joins_iff hV hW hS hT hj.lenS hj.lenT).mp hj).2.1 (o - (m - p + 1) - 1) (by omega) (by omega)
    obtain ⟨S2, T2, hS2, hT2, hC, hd2⟩ := continues_exists hV hW h1
      (fn (mergedPts p m o V W (shiftL p m S x) (shiftR p o T x)))
    have hh2 := halves_of_continues hV hW hS2 hT2 (by simp) hC hd2
    rw [e1] at hh2
    have hsame := same_of_evaluate (P := T2) (Q := T') hW hT2 hj.lenT (by
      intro u h0 h1
      obtain ⟨w, a1, a2⟩ := hh.right u 0 h0 h1
      obtain ⟨w', b1, b2⟩ := hh2.right u 0 h0 h1
      rw [a2] at b2
      injection b2 with b2; injection b2 with b2
      rw [pow_zero, one_smul, one_smul] at b2
      rw [hb'.eq_canon hW.length hW.le hj.lenT] at a1
      rw [Curve.evaluate, Curve.evaluate, a1, b1, b2])
    have hsup := lt_of_noJump hW hjw (i := o - (m - p + 1) - 1) (by omega) (by omega)
    have h3 := hsame.unique hW.clamp (i := o - (m - p + 1) - 1)
      (hsup.trans_le (hW.clamp.mono (by omega)))
    have h4 := hC.right (o - (m - p + 1) - 1) (by omega) (by omega)
    rw [show o - (m - p + 1) - 1 + (m + 1 - p) = o - 1 by omega, hwr _ _ (by simp [shiftR]), fn_shiftR (by omega),
      if_neg (by omega), h3, hk, fn_map_range _ (by omega), fn_map_range _ (by omega), if_pos rfl,
      if_neg (by omega)] at h4
    have := congrFun h4 ⟨0, hd⟩
    simp only [Pi.add_apply, Pi.smul_apply, Pi.zero_apply, smul_eq_mul, mul_one, one] at this
    linarith
  · intro hle S T a b ha hb hS hT
    exact C30_halves_partial (ua := []) (ub := []) ha hb hV hW hS hT
      (Nat.lt_of_lt_of_le Nat.zero_lt_one h1) hmo hom hle solver

/-- two curves that rest at the same point join -/
theorem resting_joins {x : Pt K d} (hV : ClampedKnots 0 1 p m V) (hW : ClampedKnots 0 1 p o W)
    (ua ub : List K) : Joins p m o V W (List.replicate (m + 1) x) (List.replicate (o + 1) x) ua ub
      (List.replicate (m + 1) x) (List.replicate (o + 1) x) := by
  have hA : (List.replicate (m + 1) x).length = m + 1 := by simp
  have hB : (List.replicate (o + 1) x).length = o + 1 := by simp
  have ha := built_canon hV hA
  have hb := built_canon hW hB
  exact joins_self ha hb hV hW hA hB ua ub (fun k _ => by
    rw [resting_evaluate hV ha zero_le_one le_rfl, resting_evaluate hW hb le_rfl zero_le_one])

/-- merging two curves that rest at `x ≠ 0` gives a curve that leaves `x` -/
theorem resting_merged {x : Pt K d} (hV : ClampedKnots 0 1 p m V) (hW : ClampedKnots 0 1 p o W)
    (hmo : m ≤ o) (hom : o < m + p) (hw : 3 ≤ p ∨ m < o ∧ NoJump p W) (hx : x ≠ 0) :
    ∃ u, 0 ≤ u ∧ u ≤ 1 ∧ (canon p (mergedU p m o V W) (mergedPts p m o V W (List.replicate (m + 1) x)
      (List.replicate (o + 1) x))).evaluate u ≠ .ok (.ok x) := by
  have h1 : 0 < p := by omega
  have hA : (List.replicate (m + 1) x).length = m + 1 := by simp
  have hB : (List.replicate (o + 1) x).length = o + 1 := by simp
  have ha := built_canon hV hA
  have hb := built_canon hW hB
  obtain ⟨solver, hs⟩ := exists_exact_solver K d
  have e := merge_joined (ua := []) (ub := []) hs ha hb hV hW hA hB h1 hmo hom (resting_joins hV hW [] [])
  obtain ⟨c', e2, h⟩ := C80_resting_moves (ua := []) (ub := []) hs ha hb hV hW hA hB
    (fun u h0 h1 => resting_evaluate hV ha h0 h1 0) (fun u h0 h1 => resting_evaluate hW hb h0 h1 0)
    (fun k _ => by rw [resting_evaluate hV ha zero_le_one le_rfl, resting_evaluate hW hb le_rfl zero_le_one])
    h1 hmo hom hw hx
  rw [e] at e2
  injection e2 with e2; injection e2 with e2
  subst e2
  exact h

theorem wrong_size (hmo : m ≤ o) (hjw : NoJump p W) (h : ¬ (p ≤ 2 ∧ o = m)) : 3 ≤ p ∨ m < o ∧ NoJump p W := by
  by_cases h3 : 3 ≤ p
  · exact Or.inl h3
  · exact Or.inr ⟨by omega, hjw⟩

/-- **C82** For which degrees and sizes the points of both curves at constrained parameters stay where they
are, if the constraints can be met: exactly for degree one and two and the same number of control
points. -/
theorem C82_constraints_iff {solver : Solver K d} (hs : solver.Exact) (hd : 0 < d)
    (hV : ClampedKnots 0 1 p m V) (hW : ClampedKnots 0 1 p o W) (h1 : 1 ≤ p) (hmo : m ≤ o) (hom : o < m + p)
    (hjw : NoJump p W) :
    (∀ (S T : List (Pt K d)) (a b : Curve K d) (ua ub : List K), Built a p V S → Built b p W T →
      S.length = m + 1 → T.length = o + 1 → ua.length + ub.length < p →
      (∃ S' T', Joins p m o V W S T ua ub S' T') →
      ∃ c, mergeWithConstraints solver ⟨a, ⟨ua⟩⟩ ⟨b, ⟨ub⟩⟩ = .ok (.ok c) ∧
        (∀ u ∈ ua, 0 ≤ u → u ≤ 1 → c.evaluate (u / 2) = a.evaluate u) ∧
        (∀ u ∈ ub, 0 ≤ u → u ≤ 1 → c.evaluate ((1 + u) / 2) = b.evaluate u)) ↔ p ≤ 2 ∧ o = m := by
  constructor
  · intro h
    by_contra hw
    have hp2 : 2 ≤ p := by
      by_contra hp
      exact hw ⟨by omega, by omega⟩
    have hA : (List.replicate (m + 1) (fun _ => 1 : Pt K d)).length = m + 1 := by simp
    have hB : (List.replicate (o + 1) (fun _ => 1 : Pt K d)).length = o + 1 := by simp
    have ha := built_canon hV hA
    have hb := built_canon hW hB
    obtain ⟨u, h0, hu1, hne⟩ := resting_merged (x := (fun _ => 1 : Pt K d)) hV hW hmo hom
      (wrong_size hmo hjw hw) (fun h => one_ne_zero (congrFun h ⟨0, hd⟩))
    by_cases hu : u < 1 / 2
    · have hc : [2 * u].length + ([] : List K).length < p := by simpa using Nat.lt_of_succ_le hp2
      have e := merge_joined hs ha hb hV hW hA hB hc hmo hom (resting_joins hV hW _ _)
      obtain ⟨c, e2, h3, -⟩ := h _ _ _ _ [2 * u] [] ha hb hA hB hc ⟨_, _, resting_joins hV hW _ _⟩
      rw [e] at e2
      injection e2 with e2; injection e2 with e2
      subst e2
      have := h3 (2 * u) (by simp) (by linarith) (by linarith)
      rw [show 2 * u / 2 = u by ring, Curve.evaluate, Curve.evaluate,
        resting_evaluate hV ha (by linarith) (by linarith)] at this
      exact hne this
    · have hc : ([] : List K).length + [2 * u - 1].length < p := by simpa using Nat.lt_of_succ_le hp2
      have e := merge_joined hs ha hb hV hW hA hB hc hmo hom (resting_joins hV hW _ _)
      obtain ⟨c, e2, -, h3⟩ := h _ _ _ _ [] [2 * u - 1] ha hb hA hB hc ⟨_, _, resting_joins hV hW _ _⟩
      rw [e] at e2
      injection e2 with e2; injection e2 with e2
      subst e2
      have := h3 (2 * u - 1) (by simp) (by linarith) (by linarith)
      rw [show (1 + (2 * u - 1)) / 2 = u by ring, Curve.evaluate, Curve.evaluate,
        resting_evaluate hW hb (by linarith) (by linarith)] at this
      exact hne this
  · rintro ⟨h2, rfl⟩ S T a b ua ub ha hb hS hT hc -
    exact C33_constraints_partial hs ha hb hV hW hS hT hc h2

/-- **C82** For which degrees and sizes merging curves moved by `t` gives the result moved by `t`: exactly
for degree one and two and the same number of control points. -/
theorem C82_translation_iff {solver : Solver K d} (hs : solver.Exact) (hd : 0 < d)
    (hV : ClampedKnots 0 1 p m V) (hW : ClampedKnots 0 1 p o W) (h1 : 1 ≤ p) (hmo : m ≤ o) (hom : o < m + p)
    (hjw : NoJump p W) :
    (∀ (S T : List (Pt K d)) (t : Pt K d) (a b a' b' : Curve K d), Built a p V S → Built b p W T →
      Built a' p V (S.map (· + t)) → Built b' p W (T.map (· + t)) →
      S.length = m + 1 → T.length = o + 1 →
      ∃ c c', merge solver a b = .ok (.ok c) ∧ merge solver a' b' = .ok (.ok c') ∧
        ∀ u, 0 ≤ u → u ≤ 1 → ∃ w, c.evaluate u = .ok (.ok w) ∧ c'.evaluate u = .ok (.ok (w + t))) ↔
      p ≤ 2 ∧ o = m := by
  have hpm := hV.le
  have hpo := hW.le
  have hp0 : ([] : List K).length + ([] : List K).length < p := Nat.lt_of_lt_of_le Nat.zero_lt_one h1
  constructor
  · intro h
    by_contra hw
    have hZA : (List.replicate (m + 1) (0 : Pt K d)).length = m + 1 := by simp
    have hZB : (List.replicate (o + 1) (0 : Pt K d)).length = o + 1 := by simp
    have hA : (List.replicate (m + 1) (fun _ => 1 : Pt K d)).length = m + 1 := by simp
    have hB : (List.replicate (o + 1) (fun _ => 1 : Pt K d)).length = o + 1 := by simp
    have eA : (List.replicate (m + 1) (0 : Pt K d)).map (· + (fun _ => 1)) = List.replicate (m + 1) (fun _ => 1) := by
      simp
    have eB : (List.replicate (o + 1) (0 : Pt K d)).map (· + (fun _ => 1)) = List.replicate (o + 1) (fun _ => 1) := by
      simp
    have ha := built_canon hV hA
    have hb := built_canon hW hB
    obtain ⟨c, c', e1, e2, hcc⟩ := h _ _ (fun _ => 1) _ _ _ _ (built_canon hV hZA) (built_canon hW hZB)
      (by rw [eA]; exact ha) (by rw [eB]; exact hb) hZA hZB
    have e3 := merge_joined hs (built_canon hV hZA) (built_canon hW hZB) hV hW hZA hZB hp0 hmo hom
      (resting_joins hV hW _ _)
    have e4 := merge_joined hs ha hb hV hW hA hB hp0 hmo hom (resting_joins hV hW _ _)
    rw [merge] at e1 e2
    rw [e3] at e1
    rw [e4] at e2
    injection e1 with e1; injection e1 with e1
    injection e2 with e2; injection e2 with e2
    have eZ : mergedPts p m o V W (List.replicate (m + 1) (0 : Pt K d)) (List.replicate (o + 1) 0) =
        List.replicate (m + o + 1 - p + 1) 0 := by
      have := mergedPts_linear (V := V) (W := W) (0 : Pt K d →ₗ[K] Pt K d) h1 hpm hmo hom hA hB
      rw [show ((0 : Pt K d →ₗ[K] Pt K d) : Pt K d → Pt K d) = fun _ => 0 from rfl, List.map_const',
        List.map_const', List.map_const', hA, hB, mergedPts_length] at this
      rw [this, show m + o + 2 - p = m + o + 1 - p + 1 by omega]
    obtain ⟨u, h0, hu1, hne⟩ := resting_merged (x := (fun _ => 1 : Pt K d)) hV hW hmo hom
      (wrong_size hmo hjw hw) (fun h => one_ne_zero (congrFun h ⟨0, hd⟩))
    obtain ⟨w, w1, w2⟩ := hcc u h0 hu1
    rw [← e1, eZ, Curve.evaluate, resting_evaluate (mergedU_clamped hV hW)
      (built_canon (mergedU_clamped hV hW) (by simp)) h0 hu1, if_pos rfl] at w1
    injection w1 with w1; injection w1 with w1
    rw [← e2, ← w1, zero_add] at w2
    exact hne w2
  · rintro ⟨h2, rfl⟩ S T t a b a' b' ha hb ha' hb' hS hT
    have hf : ∃ S' T', Joins p o o V W S T [] [] S' T' := joins_exists_right hV hW hS hT []
    have hx := fun i hi => shifts_affine LinearMap.id t (i := i) hs hs h1 hV hW hS hT hf hi
    have eL := shiftL_affine LinearMap.id t hV.le hS hx
    have eR := shiftR_affine LinearMap.id t (o := o) hT hx
    have hU := mergedU_clamped hV hW
    have hm' := merge_valid ha' hb' hV hW (by simpa using hS) (by simpa using hT) hp0 le_rfl (by omega)
      solver
    have e0 : (fun x : Pt K d => x + t) = fun x => (LinearMap.id : Pt K d →ₗ[K] Pt K d) x + t := rfl
    rw [e0, eL, eR, mergedPts_affine LinearMap.id t h1 h2 hV.le (by simp) (by simp)] at hm'
    refine ⟨_, _, merge_valid ha hb hV hW hS hT hp0 le_rfl (by omega) solver, hm', ?_⟩
    intro u h0 hu1
    obtain ⟨v, v1, v2⟩ := C09_affine_invariance LinearMap.id t (validOn_canon hU (P := mergedPts p o o V W
      (shiftL p o S (shiftsOf solver p o o V W [] [] S T)) (shiftR p o T (shiftsOf solver p o o V W [] [] S T)))
      (by simp; omega)) (built_canon hU (by simp; omega)) h0 hu1 0
    exact ⟨v, v1, v2⟩

/-! ### Cases that meet the hypotheses -/

theorem bezier_noJump (p n : ℕ) : NoJump p (List.replicate n (0 : ℚ) ++ List.replicate n 1) := by
  intro x h0 h1
  rw [List.count_append, List.count_replicate, List.count_replicate]
  simp [h0.ne, h1.ne']

/-- the interior knots `1/3`, `2/3` are simple -/
theorem thirds_noJump {p : ℕ} (hp : 1 ≤ p) : NoJump p [(0 : ℚ), 0, 0, 0, 1/3, 2/3, 1, 1, 1, 1] := by
  intro x h0 h1
  by_cases h : x = 1 / 3
  · subst h; exact le_trans (by decide +kernel) hp
  by_cases h' : x = 2 / 3
  · subst h'; exact le_trans (by decide +kernel) hp
  rw [List.count_eq_zero_of_not_mem]
  · omega
  · simp only [List.mem_cons, List.not_mem_nil, or_false, not_or]
    exact ⟨h0.ne', h0.ne', h0.ne', h0.ne', h, h', h1.ne, h1.ne, h1.ne, h1.ne⟩

/-- cubic curves with `4` and `6` control points: accepted, but the merged curve does not run through
curves with the knots of the inputs that differ only near the junction -/
example (solver : Solver ℚ 1) : ¬ ∀ (S T : List (Pt ℚ 1)) (a b : Curve ℚ 1),
    Built a 3 [0, 0, 0, 0, 1, 1, 1, 1] S → Built b 3 [0, 0, 0, 0, 1/3, 2/3, 1, 1, 1, 1] T → S.length = 3 + 1 →
      T.length = 5 + 1 → ∃ c, merge solver a b = .ok (.ok c) ∧
        ∃ S' T' a' b', Joins 3 3 5 [0, 0, 0, 0, 1, 1, 1, 1] [0, 0, 0, 0, 1/3, 2/3, 1, 1, 1, 1] S T [] [] S' T' ∧
          Built a' 3 [0, 0, 0, 0, 1, 1, 1, 1] S' ∧ Built b' 3 [0, 0, 0, 0, 1/3, 2/3, 1, 1, 1, 1] T' ∧
          Halves 3 c a' b' := by
  rw [C82_halves_iff Nat.one_pos solver (by decide +kernel) (by decide +kernel) (by decide) (by decide)
    (by decide) (thirds_noJump (by decide))]
  decide

/-- cubic Bézier curves: some constraint is missed -/
example (solver : Solver ℚ 1) (hs : solver.Exact) : ¬ ∀ (S T : List (Pt ℚ 1)) (a b : Curve ℚ 1)
    (ua ub : List ℚ), Built a 3 [0, 0, 0, 0, 1, 1, 1, 1] S → Built b 3 [0, 0, 0, 0, 1, 1, 1, 1] T →
      S.length = 3 + 1 → T.length = 3 + 1 → ua.length + ub.length < 3 →
      (∃ S' T', Joins 3 3 3 [0, 0, 0, 0, 1, 1, 1, 1] [0, 0, 0, 0, 1, 1, 1, 1] S T ua ub S' T') →
      ∃ c, mergeWithConstraints solver ⟨a, ⟨ua⟩⟩ ⟨b, ⟨ub⟩⟩ = .ok (.ok c) ∧
        (∀ u ∈ ua, 0 ≤ u → u ≤ 1 → c.evaluate (u / 2) = a.evaluate u) ∧
        (∀ u ∈ ub, 0 ≤ u → u ≤ 1 → c.evaluate ((1 + u) / 2) = b.evaluate u) := by
  rw [C82_constraints_iff (W := [0, 0, 0, 0, 1, 1, 1, 1]) hs Nat.one_pos (by decide +kernel) (by decide +kernel) (by decide) (by decide)
    (by decide) (bezier_noJump 3 4)]
  decide

/-- parabolas with the same number of control points -/
example (solver : Solver ℚ 1) (hs : solver.Exact) (S T : List (Pt ℚ 1)) (t : Pt ℚ 1)
    (a b a' b' : Curve ℚ 1) (ha : Built a 2 [0, 0, 0, 1, 1, 1] S) (hb : Built b 2 [0, 0, 0, 1, 1, 1] T)
    (ha' : Built a' 2 [0, 0, 0, 1, 1, 1] (S.map (· + t))) (hb' : Built b' 2 [0, 0, 0, 1, 1, 1] (T.map (· + t)))
    (hS : S.length = 2 + 1) (hT : T.length = 2 + 1) :
    ∃ c c', merge solver a b = .ok (.ok c) ∧ merge solver a' b' = .ok (.ok c') ∧
      ∀ u, 0 ≤ u → u ≤ 1 → ∃ w, c.evaluate u = .ok (.ok w) ∧ c'.evaluate u = .ok (.ok (w + t)) :=
  (C82_translation_iff hs Nat.one_pos (by decide +kernel) (by decide +kernel) (by decide) (by decide)
    (by decide) (bezier_noJump 2 3)).mpr (by decide) S T t a b a' b' ha hb ha' hb' hS hT

end BSpline
