import Verif.Refine.MergedCurve
import Verif.Props.Merge
import Verif.Props.Fit
import Verif.Props.Split

/-!
# Merging: the merged curve (C30 – C33)
-/

set_option linter.unusedSectionVars false

namespace BSpline

open Finset

variable {K : Type} [Field K] [LinearOrder K] [IsStrictOrderedRing K] {d : ℕ}
variable {p m o : ℕ} {V W ua ub : List K} {S T S' T' : List (Pt K d)} {a b : Curve K d}

/-- what merging returns on valid curves of fitting sizes -/
theorem merge_valid (ha : Built a p V S) (hb : Built b p W T) (hV : ClampedKnots 0 1 p m V)
    (hW : ClampedKnots 0 1 p o W) (hS : S.length = m + 1) (hT : T.length = o + 1)
    (hc : ua.length + ub.length < p) (hmo : m ≤ o) (hom : o < m + p) (solver : Solver K d) :
    mergeWithConstraints solver ⟨a, ⟨ua⟩⟩ ⟨b, ⟨ub⟩⟩ =
      .ok (.ok (canon p (mergedU p m o V W) (mergedPts p m o V W
        (shiftL p m S (shiftsOf solver p m o V W ua ub S T))
        (shiftR p o T (shiftsOf solver p m o V W ua ub S T))))) := by
  have ha' := ha.eq_canon hV.length hV.le hS
  have hb' := hb.eq_canon hW.length hW.le hT
  obtain ⟨-, h1, h2⟩ := C50_valid (kn := a.knots) (by rw [ha']; exact canonKnots_vector V)
    (by rw [ha']; rfl) hV
  obtain ⟨-, h3, h4⟩ := C50_valid (kn := b.knots) (by rw [hb']; exact canonKnots_vector W)
    (by rw [hb']; rfl) hW
  subst ha' hb'
  rw [merge_same solver ⟨canon p V S, ⟨ua⟩⟩ ⟨canon p W T, ⟨ub⟩⟩ rfl h1 h3 h2 h4]
  simp only [Bool.and_self, Bool.true_eq_false, if_false]
  have hn : ¬ (canon p V S).degree ≤ (⟨ua⟩ : Constraints K).count + (⟨ub⟩ : Constraints K).count :=
    show ¬ p ≤ ua.length + ub.length by omega
  rw [if_neg hn]
  exact mergeBody_ok hV.length hS hV.le hW.length hT hW.le (by omega) hmo hom solver

theorem mergedU_eq (hV : ClampedKnots 0 1 p m V) (hW : ClampedKnots 0 1 p o W) :
    mergedU p m o V W = concatKnots p m V W := by
  have hlV := hV.length
  have hlW := hW.length
  have hpm := hV.le
  have hl := mergedU_length hlV hlW hpm
  have hl' : (concatKnots p m V W).length = m + o + 3 := by
    simp [concatKnots, hlV, hlW]; omega
  apply ext_fn (by omega)
  intro i hi
  rw [fn_mergedU hV hW, concatKnots, fn_map _ (by simp; omega)]
  by_cases h : i ≤ m + 1
  · rw [mknots_left h, fn_append_left (by simp; omega), fn_take (by omega) (by omega)]
    ring
  · rw [fn_append_right (by simp; omega) (by simp; omega), List.length_take,
      show min (m + 2) V.length = m + 2 by omega, fn_map _ (by simp; omega), fn_drop (by omega), mknots,
      if_neg h, show p + 1 + (i - (m + 2)) = i - (m + 1) + p by omega]
    ring

/-- a curve with the merged knots whose control points continue two joining curves -/
theorem halves_of_continues (hV : ClampedKnots 0 1 p m V) (hW : ClampedKnots 0 1 p o W)
    (hS' : S'.length = m + 1) (hT' : T'.length = o + 1) {Q : List (Pt K d)} (hQ : Q.length = m + o + 2 - p)
    (hC : Continues p m o V W S' T' (fn Q))
    (h : ∀ k, k < p → dpt (fn V) p (fn S') k (m - k) = dpt (fn W) p (fn T') k 0) :
    Halves p (canon p (mergedU p m o V W) Q) (canon p V S') (canon p W T') := by
  have cV := hV.clamp
  have cW := hW.clamp
  have right : ∀ u k, 0 ≤ u → u ≤ 1 → ∃ w, (canon p W T').evaluateDerivative u k = .ok (.ok w) ∧
      (canon p (mergedU p m o V W) Q).evaluateDerivative ((1 + u) / 2) k = .ok (.ok ((2 : K) ^ k • w)) := by
    intro u k h0 h1
    by_cases hk : k ≤ p
    · obtain ⟨j, hj⟩ := cW.exists_span h0 h1
      exact eval_right hV hW hQ hT' hk h0 h1 hj
        (fun ts hts => hC.bl_right hV hW h (hj.p_le cW) hj.le_n (hj.lt cW) ts hts)
    · exact ⟨0, evaluateDerivative_high (p := p) rfl (by omega) h0 h1, by
        rw [smul_zero]; exact evaluateDerivative_high (p := p) rfl (by omega) (by linarith) (by linarith)⟩
  refine ⟨?_, right⟩
  intro u k h0 h1 hk1
  by_cases hu : u = 1
  · subst hu
    have hk := hk1 rfl
    obtain ⟨w, e1, e2⟩ := right 0 k le_rfl zero_le_one
    rw [add_zero] at e2
    refine ⟨w, ?_, e2⟩
    rw [evalDeriv_end hV hS' hk.le, h k hk, ← evalDeriv_start hW hT' hk.le]
    exact e1
  · have h1 := lt_of_le_of_ne h1 hu
    by_cases hk : k ≤ p
    · obtain ⟨j, hj⟩ := cV.exists_span h0 h1.le
      exact eval_left hV hW hQ hS' hk h0 h1 hj
        (fun ts hts => hC.bl_left hV hW h (hj.p_le cV) hj.le_n (hj.lt cV) ts hts)
    · exact ⟨0, evaluateDerivative_high (p := p) rfl (by omega) h0 h1.le, by
        rw [smul_zero]; exact evaluateDerivative_high (p := p) rfl (by omega) (by linarith) (by linarith)⟩

/-! ### C30 -/

/-- **C30** as claimed, for all sizes that merging accepts -/
def C30_full : Prop := ∀ (p m o : ℕ) (V W ua ub : List ℚ) (S T : List (Pt ℚ 1)) (a b c : Curve ℚ 1)
    (solver : Solver ℚ 1), Built a p V S → Built b p W T → ClampedKnots 0 1 p m V →
    ClampedKnots 0 1 p o W → S.length = m + 1 → T.length = o + 1 →
    mergeWithConstraints solver ⟨a, ⟨ua⟩⟩ ⟨b, ⟨ub⟩⟩ = .ok (.ok c) →
    c.knots.vector = .ok (concatKnots p m V W) ∧
    ∃ S' T' a' b', Joins p m o V W S T [] [] S' T' ∧ Built a' p V S' ∧ Built b' p W T' ∧ Halves p c a' b'

/-- **C30** The knots of the merged curve are those of both curves one after the other, rescaled to
`[0, 1]`, for all accepted sizes and whatever the linear solver returns. -/
theorem C30_knots (ha : Built a p V S) (hb : Built b p W T) (hV : ClampedKnots 0 1 p m V)
    (hW : ClampedKnots 0 1 p o W) (hS : S.length = m + 1) (hT : T.length = o + 1)
    (hc : ua.length + ub.length < p) (hmo : m ≤ o) (hom : o < m + p) (solver : Solver K d) :
    ∃ c, mergeWithConstraints solver ⟨a, ⟨ua⟩⟩ ⟨b, ⟨ub⟩⟩ = .ok (.ok c) ∧ c.degree = p ∧
      c.knots.vector = .ok (concatKnots p m V W) ∧
      ClampedKnots 0 1 p (m + o + 1 - p) (concatKnots p m V W) := by
  refine ⟨_, merge_valid ha hb hV hW hS hT hc hmo hom solver, rfl, ?_, ?_⟩
  · rw [canon_knots, canonKnots_vector, mergedU_eq hV hW]
  · rw [← mergedU_eq hV hW]; exact mergedU_clamped hV hW

/-- **C30 (partial)** The merged curve runs through a curve that differs from the left curve only in
the last `p` control points, then through a curve that differs from the right curve only in the first
`p` control points, and the derivatives `0, …, p - 1` of these agree at the junction. This holds for all
degrees and whatever the linear solver returns. Missing: right curves with more than one control point
more than the left curve, for which it is false (`C30_full_false`). -/
theorem C30_halves_partial (ha : Built a p V S) (hb : Built b p W T) (hV : ClampedKnots 0 1 p m V)
    (hW : ClampedKnots 0 1 p o W) (hS : S.length = m + 1) (hT : T.length = o + 1)
    (hc : ua.length + ub.length < p) (hmo : m ≤ o) (hom : o < m + p) (hom1 : o ≤ m + 1)
    (solver : Solver K d) :
    ∃ c, mergeWithConstraints solver ⟨a, ⟨ua⟩⟩ ⟨b, ⟨ub⟩⟩ = .ok (.ok c) ∧
    ∃ S' T' a' b', Joins p m o V W S T [] [] S' T' ∧ Built a' p V S' ∧ Built b' p W T' ∧
      Halves p c a' b' := by
  have hpm := hV.le
  have hpo := hW.le
  refine ⟨_, merge_valid ha hb hV hW hS hT hc hmo hom solver, ?_⟩
  generalize hx : shiftsOf solver p m o V W ua ub S T = x
  obtain ⟨S', T', hS', hT', hC, hd⟩ := continues_exists hV hW (by omega)
    (fn (mergedPts p m o V W (shiftL p m S x) (shiftR p o T x)))
  refine ⟨S', T', canon p V S', canon p W T', ?_, built_canon hV hS', built_canon hW hT', ?_⟩
  · rw [joins_iff hV hW hS hT hS' hT']
    refine ⟨?_, ?_, hd, by simp, by simp⟩
    · intro i hi
      rw [← hC.left i (by omega), fn_mergedPts_left hpm hpo (by omega) (by omega), fn_shiftL (by omega),
        if_pos hi]
    · intro j hj hjo
      rw [← hC.right j (by omega) hjo, fn_mergedPts_right hpm hmo hom (by simp) (by omega) (by omega),
        show j + (m + 1 - p) - (m + 1 - p) = j by omega, fn_shiftR hjo, if_neg (by omega)]
  · exact halves_of_continues hV hW hS' hT' (by simp) hC hd

/-! ### C31 -/

/-- `S'`, `T'` join the curves with the least movement, and are the only ones with this movement -/
def Nearest (p m o : ℕ) (V W : List K) (S T : List (Pt K d)) (ua ub : List K) (S' T' : List (Pt K d)) : Prop :=
  Joins p m o V W S T ua ub S' T' ∧ ∀ S'' T'', Joins p m o V W S T ua ub S'' T'' →
    moved S S' + moved T T' ≤ moved S S'' + moved T T'' ∧
    (moved S S'' + moved T T'' ≤ moved S S' + moved T T' → S'' = S' ∧ T'' = T')

theorem nearest_shifts {solver : Solver K d} (hs : solver.Exact) (h1 : 1 ≤ p)
    (hV : ClampedKnots 0 1 p m V) (hW : ClampedKnots 0 1 p o W) (hS : S.length = m + 1)
    (hT : T.length = o + 1) (hf : ∃ S' T', Joins p m o V W S T ua ub S' T') :
    Nearest p m o V W S T ua ub (shiftL p m S (shiftsOf solver p m o V W ua ub S T))
      (shiftR p o T (shiftsOf solver p m o V W ua ub S T)) := by
  obtain ⟨hj, hmin⟩ := shifts_join hs h1 hV hW hS hT hf
  refine ⟨hj, ?_⟩
  intro S'' T'' hj'
  have e := hmin S'' T'' hj'
  have n1 := moved_nonneg (shiftL p m S (shiftsOf solver p m o V W ua ub S T)) S''
  have n2 := moved_nonneg (shiftR p o T (shiftsOf solver p m o V W ua ub S T)) T''
  refine ⟨by rw [e]; linarith, ?_⟩
  intro hle
  rw [e] at hle
  exact ⟨moved_eq_zero (by rw [hj'.lenS, hj.lenS]) (by linarith),
    moved_eq_zero (by rw [hj'.lenT, hj.lenT]) (by linarith)⟩

/-- curves that join already are nearest to themselves -/
theorem Nearest.eq_self (h : Nearest p m o V W S T ua ub S' T') (hj : Joins p m o V W S T ua ub S T) :
    S' = S ∧ T' = T := by
  have := (h.2 S T hj).2 (by
    rw [moved_self, moved_self, add_zero]
    exact add_nonneg (moved_nonneg _ _) (moved_nonneg _ _))
  exact ⟨this.1.symm, this.2.symm⟩

/-- **C31** as claimed: the merged curve consists of the nearest joining curves -/
def C31_full : Prop := ∀ (p m o : ℕ) (V W ua ub : List ℚ) (S T : List (Pt ℚ 1)) (a b c : Curve ℚ 1)
    (solver : Solver ℚ 1), solver.Exact → Built a p V S → Built b p W T → ClampedKnots 0 1 p m V →
    ClampedKnots 0 1 p o W → S.length = m + 1 → T.length = o + 1 →
    (∃ S' T', Joins p m o V W S T ua ub S' T') →
    mergeWithConstraints solver ⟨a, ⟨ua⟩⟩ ⟨b, ⟨ub⟩⟩ = .ok (.ok c) →
    ∃ S' T' a' b', Nearest p m o V W S T ua ub S' T' ∧ Built a' p V S' ∧ Built b' p W T' ∧ Halves p c a' b'

/-- **C31 (partial)** For degrees `1` and `2` and curves with the same number of control points, the
merged curve consists of the joining curves with the least movement of control points, under all
constraints that can be met; the linear solver is assumed to be exact. Missing: higher degrees and
right curves with more control points, for which the claim is false (`C31_full_false`); for these
`C31_points_partial` tells what remains true. -/
theorem C31_nearest_partial {solver : Solver K d} (hs : solver.Exact) (ha : Built a p V S)
    (hb : Built b p W T) (hV : ClampedKnots 0 1 p m V)
    (hW : ClampedKnots 0 1 p m W) (hS : S.length = m + 1) (hT : T.length = m + 1)
    (hc : ua.length + ub.length < p) (hp2 : p ≤ 2) :
    ∃ c, mergeWithConstraints solver ⟨a, ⟨ua⟩⟩ ⟨b, ⟨ub⟩⟩ = .ok (.ok c) ∧
    ∃ S' T' a' b', Nearest p m m V W S T ua ub S' T' ∧ Built a' p V S' ∧ Built b' p W T' ∧
      Halves p c a' b' := by
  have hf : ∃ S' T', Joins p m m V W S T ua ub S' T' := by
    cases ub with
    | nil => exact joins_exists_right hV hW hS hT ua
    | cons y ub =>
      cases ua with
      | nil => exact joins_exists_left hV hW hS hT _
      | cons x ua => simp only [List.length_cons] at hc; omega
  have hn := nearest_shifts hs (by omega) hV hW hS hT hf
  have hd := ((joins_iff hV hW hS hT hn.1.lenS hn.1.lenT).mp hn.1).2.2.1
  refine ⟨_, merge_valid ha hb hV hW hS hT hc le_rfl (by omega) solver, _, _, _, _, hn,
    built_canon hV hn.1.lenS, built_canon hW hn.1.lenT, ?_⟩
  exact halves_of_continues hV hW hn.1.lenS hn.1.lenT (by simp)
    (continues_small hV hW hp2 (by omega) hn.1.lenT hd) hd

/-- **C31 (partial)** For all degrees and accepted sizes and all constraints that can be met: the outer
control points of the merged curve, `m + 2 - p` on the left and `m + 2 - p` on the right, are those of
the joining curves with the least movement. The `o - m + p - 2` points between
them are not. -/
theorem C31_points_partial {solver : Solver K d} (hs : solver.Exact) (ha : Built a p V S)
    (hb : Built b p W T) (hV : ClampedKnots 0 1 p m V)
    (hW : ClampedKnots 0 1 p o W) (hS : S.length = m + 1) (hT : T.length = o + 1)
    (hc : ua.length + ub.length < p) (hmo : m ≤ o) (hom : o < m + p)
    (hf : ∃ S' T', Joins p m o V W S T ua ub S' T') :
    ∃ c Q S' T', mergeWithConstraints solver ⟨a, ⟨ua⟩⟩ ⟨b, ⟨ub⟩⟩ = .ok (.ok c) ∧
      c.points.matrix = .ok Q ∧ Q.length = m + o + 2 - p ∧ Nearest p m o V W S T ua ub S' T' ∧
      (∀ i, i + p ≤ m + 1 → i < m → Q[i]? = S'[i]?) ∧
      (∀ i, i ≤ m + 1 - p → Q.reverse[i]? = T'.reverse[i]?) := by
  have hpm := hV.le
  have hpo := hW.le
  have hn := nearest_shifts hs (by omega) hV hW hS hT hf
  refine ⟨_, _, _, _, merge_valid ha hb hV hW hS hT hc hmo hom solver, canon_matrix, by simp, hn, ?_, ?_⟩
  · intro i h1 h2
    rw [getElem?_eq_fn_iff (by simp; omega) (by simp; omega), fn_mergedPts_left hpm hpo h1 h2]
  · intro i hi
    rw [getElem?_eq_fn_iff (by simp; omega) (by simp; omega), fn_reverse (by simp; omega),
      fn_reverse (by simp; omega), mergedPts_length,
      fn_mergedPts_right hpm hmo hom (by simp) (by omega) (by omega)]
    congr 1
    simp only [shiftR_length]
    omega

theorem joins_self (ha : Built a p V S) (hb : Built b p W T) (hV : ClampedKnots 0 1 p m V)
    (hW : ClampedKnots 0 1 p o W) (hS : S.length = m + 1) (hT : T.length = o + 1) (ua ub : List K)
    (h : ∀ k, k < p → a.evaluateDerivative 1 k = b.evaluateDerivative 0 k) :
    Joins p m o V W S T ua ub S T := by
  refine ⟨hS, hT, fun _ _ => rfl, fun _ _ => rfl, ?_, ?_, ?_⟩
  · intro a1 b1 ha1 hb1
    rw [ha1.eq_canon hV.length hV.le hS, hb1.eq_canon hW.length hW.le hT,
      ← ha.eq_canon hV.length hV.le hS, ← hb.eq_canon hW.length hW.le hT]
    exact h
  · intro a1 a2 h1 h2 u _
    rw [h1.eq_canon hV.length hV.le hS, h2.eq_canon hV.length hV.le hS]
  · intro a1 a2 h1 h2 u _
    rw [h1.eq_canon hW.length hW.le hT, h2.eq_canon hW.length hW.le hT]

/-- **C31 (partial)** Curves that join already are not changed, for degrees `1` and `2`. -/
theorem C31_already_partial {solver : Solver K d} (hs : solver.Exact) (ha : Built a p V S)
    (hb : Built b p W T) (hV : ClampedKnots 0 1 p m V)
    (hW : ClampedKnots 0 1 p m W) (hS : S.length = m + 1) (hT : T.length = m + 1)
    (hc : ua.length + ub.length < p) (hp2 : p ≤ 2)
    (h : ∀ k, k < p → a.evaluateDerivative 1 k = b.evaluateDerivative 0 k) :
    ∃ c, mergeWithConstraints solver ⟨a, ⟨ua⟩⟩ ⟨b, ⟨ub⟩⟩ = .ok (.ok c) ∧ Halves p c a b := by
  obtain ⟨c, e, S', T', a', b', hn, ha', hb', hh⟩ := C31_nearest_partial hs ha hb hV hW hS hT hc hp2
  have hj := joins_self ha hb hV hW hS hT ua ub h
  obtain ⟨rfl, rfl⟩ := hn.eq_self hj
  refine ⟨c, e, ?_⟩
  rw [ha.eq_canon hV.length hV.le hS, hb.eq_canon hW.length hW.le hT,
    ← ha'.eq_canon hV.length hV.le hS, ← hb'.eq_canon hW.length hW.le hT]
  exact hh

/-- **C31 (partial)** What merging returns if the curves join already, for all degrees and sizes: the
shifts vanish. -/
theorem merge_joined {solver : Solver K d} (hs : solver.Exact) (ha : Built a p V S)
    (hb : Built b p W T) (hV : ClampedKnots 0 1 p m V)
    (hW : ClampedKnots 0 1 p o W) (hS : S.length = m + 1) (hT : T.length = o + 1)
    (hc : ua.length + ub.length < p) (hmo : m ≤ o) (hom : o < m + p)
    (hj : Joins p m o V W S T ua ub S T) :
    mergeWithConstraints solver ⟨a, ⟨ua⟩⟩ ⟨b, ⟨ub⟩⟩ =
      .ok (.ok (canon p (mergedU p m o V W) (mergedPts p m o V W S T))) := by
  have hn := nearest_shifts hs (by omega) hV hW hS hT ⟨S, T, hj⟩
  have e := hn.eq_self hj
  rw [merge_valid ha hb hV hW hS hT hc hmo hom solver, e.1, e.2]

/-! ### Counterexamples -/

section Counterexamples

/-- two straight lines of degree three that join smoothly -/
def lineA : Curve ℚ 1 := canon 3 [0, 0, 0, 0, 1, 1, 1, 1] (Tests.c1 [-3, -2, -1, 0])
def lineB : Curve ℚ 1 := canon 3 [0, 0, 0, 0, 1, 1, 1, 1] (Tests.c1 [0, 1, 2, 3])

theorem lineA_built : Built lineA 3 [0, 0, 0, 0, 1, 1, 1, 1] (Tests.c1 [-3, -2, -1, 0]) :=
  mkCurve_ok (n := 3) rfl (by decide) (by decide)
theorem lineB_built : Built lineB 3 [0, 0, 0, 0, 1, 1, 1, 1] (Tests.c1 [0, 1, 2, 3]) :=
  mkCurve_ok (n := 3) rfl (by decide) (by decide)

theorem lines_clamped : ClampedKnots (0 : ℚ) 1 3 3 [0, 0, 0, 0, 1, 1, 1, 1] := by decide +kernel

theorem lines_join : ∀ k, k < 3 → lineA.evaluateDerivative 1 k = lineB.evaluateDerivative 0 k := by
  decide +kernel

/-- what merging makes of the lines: the middle control point, which should be `0`, is `-10/3` -/
theorem lines_merged (solver : Solver ℚ 1) (hs : solver.Exact) {ua ub : List ℚ}
    (hc : ua.length + ub.length < 3) : mergeWithConstraints solver ⟨lineA, ⟨ua⟩⟩ ⟨lineB, ⟨ub⟩⟩ =
      .ok (.ok (canon 3 [0, 0, 0, 0, 1/2, 1, 1, 1, 1] (Tests.c1 [-3, -2, -10/3, 2, 3]))) := by
  rw [merge_joined hs lineA_built lineB_built lines_clamped lines_clamped rfl rfl hc le_rfl (by decide)
    (joins_self lineA_built lineB_built lines_clamped lines_clamped rfl rfl ua ub lines_join)]
  have e1 : mergedU (K := ℚ) 3 3 3 [0, 0, 0, 0, 1, 1, 1, 1] [0, 0, 0, 0, 1, 1, 1, 1] =
    [0, 0, 0, 0, 1/2, 1, 1, 1, 1] := by decide +kernel
  have e2 : mergedPts 3 3 3 [0, 0, 0, 0, 1, 1, 1, 1] [0, 0, 0, 0, 1, 1, 1, 1] (Tests.c1 [-3, -2, -1, 0])
    (Tests.c1 [0, 1, 2, 3]) = Tests.c1 [-3, -2, -10/3, 2, 3] := by decide +kernel
  rw [e1, e2]

/-- The two lines of degree three join already, but the result of merging them does not follow them. -/
theorem C31_full_false : ¬ C31_full := by
  intro h
  obtain ⟨solver, hs⟩ := exists_exact_solver ℚ 1
  have hj := joins_self lineA_built lineB_built lines_clamped lines_clamped rfl rfl [] [] lines_join
  obtain ⟨S', T', a', b', hn, ha', hb', hh⟩ := h _ _ _ _ _ _ _ _ _ _ _ _ solver hs lineA_built lineB_built
    lines_clamped lines_clamped rfl rfl ⟨_, _, hj⟩ (lines_merged solver hs (ua := []) (ub := []) (by decide))
  obtain ⟨rfl, rfl⟩ := hn.eq_self hj
  obtain ⟨w, e1, e2⟩ := hh.right 0 0 le_rfl zero_le_one
  rw [hb'.eq_canon (n := 3) rfl (by decide) rfl] at e1
  have e3 : (canon 3 [0, 0, 0, 0, 1, 1, 1, 1] (Tests.c1 [0, 1, 2, 3]) : Curve ℚ 1).evaluateDerivative 0 0 =
    .ok (.ok 0) := by decide +kernel
  rw [e3] at e1
  injection e1 with e1; injection e1 with e1
  rw [← e1] at e2
  revert e2
  decide +kernel

end Counterexamples

/-! ### C33 -/

/-- **C33** as claimed, for constraints that can be met -/
def C33_full : Prop := ∀ (p m o : ℕ) (V W ua ub : List ℚ) (S T : List (Pt ℚ 1)) (a b c : Curve ℚ 1)
    (solver : Solver ℚ 1), solver.Exact → Built a p V S → Built b p W T → ClampedKnots 0 1 p m V →
    ClampedKnots 0 1 p o W → S.length = m + 1 → T.length = o + 1 →
    (∃ S' T', Joins p m o V W S T ua ub S' T') →
    mergeWithConstraints solver ⟨a, ⟨ua⟩⟩ ⟨b, ⟨ub⟩⟩ = .ok (.ok c) →
    (∀ u ∈ ua, 0 ≤ u → u ≤ 1 → c.evaluate (u / 2) = a.evaluate u) ∧
    (∀ u ∈ ub, 0 ≤ u → u ≤ 1 → c.evaluate ((1 + u) / 2) = b.evaluate u)

theorem C33_full_false : ¬ C33_full := by
  intro h
  obtain ⟨solver, hs⟩ := exists_exact_solver ℚ 1
  have hj := joins_self lineA_built lineB_built lines_clamped lines_clamped rfl rfl [1] [] lines_join
  have := (h _ _ _ _ _ _ _ _ _ _ _ _ solver hs lineA_built lineB_built
    lines_clamped lines_clamped rfl rfl ⟨_, _, hj⟩
    (lines_merged solver hs (ua := [1]) (ub := []) (by decide))).1 1 (by simp) (by decide) (by decide)
  revert this
  decide +kernel

/-- **C33 (partial)** Points of both curves at constrained parameters are points of the merged curve, for
degrees `1` and `2` and curves with the same number of control points. Missing: all other degrees and
sizes, where it is false (`C33_full_false`). -/
theorem C33_constraints_partial {solver : Solver K d} (hs : solver.Exact) (ha : Built a p V S)
    (hb : Built b p W T) (hV : ClampedKnots 0 1 p m V)
    (hW : ClampedKnots 0 1 p m W) (hS : S.length = m + 1) (hT : T.length = m + 1)
    (hc : ua.length + ub.length < p) (hp2 : p ≤ 2) :
    ∃ c, mergeWithConstraints solver ⟨a, ⟨ua⟩⟩ ⟨b, ⟨ub⟩⟩ = .ok (.ok c) ∧
      (∀ u ∈ ua, 0 ≤ u → u ≤ 1 → c.evaluate (u / 2) = a.evaluate u) ∧
      (∀ u ∈ ub, 0 ≤ u → u ≤ 1 → c.evaluate ((1 + u) / 2) = b.evaluate u) := by
  obtain ⟨c, e, S', T', a', b', hn, ha', hb', hh⟩ := C31_nearest_partial hs ha hb hV hW hS hT hc hp2
  refine ⟨c, e, ?_, ?_⟩
  · intro u hu h0 h1
    obtain ⟨w, e1, e2⟩ := hh.left u 0 h0 h1 (fun _ => by omega)
    rw [← hn.1.fixA a a' ha ha' u hu]
    rw [pow_zero, one_smul] at e2
    exact e2.trans e1.symm
  · intro u hu h0 h1
    obtain ⟨w, e1, e2⟩ := hh.right u 0 h0 h1
    rw [← hn.1.fixB b b' hb hb' u hu]
    rw [pow_zero, one_smul] at e2
    exact e2.trans e1.symm

/-- **C33 (partial)** `merge_from` keeps the end point of the first, `merge_to` the start point of the
second curve, for curves of degree `2` with the same number of control points. -/
theorem C33_from_to_partial {solver : Solver K d} (hs : solver.Exact) (ha : Built a 2 V S)
    (hb : Built b 2 W T) (hV : ClampedKnots 0 1 2 m V)
    (hW : ClampedKnots 0 1 2 m W) (hS : S.length = m + 1) (hT : T.length = m + 1) :
    (∃ c, mergeFrom solver a b = .ok (.ok c) ∧ c.evaluate (1 / 2) = a.evaluate 1) ∧
    (∃ c, mergeTo solver a b = .ok (.ok c) ∧ c.evaluate (1 / 2) = b.evaluate 0) := by
  constructor
  · obtain ⟨c, e, h, -⟩ := C33_constraints_partial (ua := [1]) (ub := []) hs ha hb hV hW hS hT (by simp) le_rfl
    exact ⟨c, e, h 1 (by simp) zero_le_one le_rfl⟩
  · obtain ⟨c, e, -, h⟩ := C33_constraints_partial (ua := []) (ub := [0]) hs ha hb hV hW hS hT (by simp) le_rfl
    have := h 0 (by simp) le_rfl zero_le_one
    rw [add_zero] at this
    exact ⟨c, e, this⟩

/-- **C33 (partial)** Straight pieces leave no room for a constraint: `merge_from` and `merge_to` are
rejected for curves of degree `1`. -/
theorem C33_linear (solver : Solver K d) (ha : Built a 1 V S)
    (hb : Built b 1 W T) (hV : ClampedKnots 0 1 1 m V)
    (hW : ClampedKnots 0 1 1 o W) (hS : S.length = m + 1) (hT : T.length = o + 1) :
    mergeFrom solver a b = .ok (.error (.tooManyConstraints 1 1)) ∧
    mergeTo solver a b = .ok (.error (.tooManyConstraints 1 1)) := by
  have ha' := ha.eq_canon hV.length hV.le hS
  have hb' := hb.eq_canon hW.length hW.le hT
  obtain ⟨-, h1, h2⟩ := C50_valid (kn := a.knots) (by rw [ha']; exact canonKnots_vector V)
    (by rw [ha']; rfl) hV
  obtain ⟨-, h3, h4⟩ := C50_valid (kn := b.knots) (by rw [hb']; exact canonKnots_vector W)
    (by rw [hb']; rfl) hW
  subst ha' hb'
  constructor
  · rw [mergeFrom, merge_same solver ⟨canon 1 V S, ⟨[1]⟩⟩ ⟨canon 1 W T, ⟨[]⟩⟩ rfl h1 h3 h2 h4]
    rfl
  · rw [mergeTo, merge_same solver ⟨canon 1 V S, ⟨[]⟩⟩ ⟨canon 1 W T, ⟨[0]⟩⟩ rfl h1 h3 h2 h4]
    rfl

/-! ### C32 -/

/-- **C32** as claimed -/
def C32_full : Prop := ∀ (p n : ℕ) (U : List ℚ) (P : List (Pt ℚ 1)) (c l r : Curve ℚ 1)
    (solver : Solver ℚ 1) (Pl Pr : List (Pt ℚ 1)), solver.Exact → ValidOn 0 1 c p n U P → 1 ≤ p →
    (1 / 2 : ℚ) ∉ U → split c (1 / 2) = .ok (.ok (l, r)) → l.points.matrix = .ok Pl →
    r.points.matrix = .ok Pr → Pl.length = Pr.length →
    ∃ c', merge solver l r = .ok (.ok c') ∧ ∀ u, c'.evaluate u = c.evaluate u

/-- **C32 (partial)** Splitting in the middle and merging the halves gives back the curve, with all its
derivatives, for curves of degree `1` and `2` without repeated knots before the middle, if the halves
have the same number of control points and the linear solver is exact. Missing: higher degrees, where it
is false (`C32_full_false`), and repeated knots, where splitting itself fails (`C24_full_false`). -/
theorem C32_split_merge_partial {n : ℕ} {U : List K} {P Pl Pr : List (Pt K d)} {c l r : Curve K d}
    {solver : Solver K d} (hs : solver.Exact) (hc : ValidOn 0 1 c p n U P) (h1 : 1 ≤ p) (h2 : p ≤ 2)
    (hU : (1 / 2 : K) ∉ U) (hr : SimpleBelow U (1 / 2)) (hsp : split c (1 / 2) = .ok (.ok (l, r)))
    (hl : l.points.matrix = .ok Pl) (hrr : r.points.matrix = .ok Pr) (hlr : Pl.length = Pr.length) :
    ∃ c', merge solver l r = .ok (.ok c') ∧ ∀ u k, c'.evaluateDerivative u k = c.evaluateDerivative u k := by
  obtain ⟨n1, n2, U1, U2, P1, P2, hL, hR, -⟩ := C25_split_valid_partial hc hr hsp
  have e1 : P1 = Pl := by
    have := hL.eq_canon
    rw [this, canon_matrix] at hl
    injection hl
  have e2 : P2 = Pr := by
    have := hR.eq_canon
    rw [this, canon_matrix] at hrr
    injection hrr
  have hn : n1 = n2 := by
    have a1 := hL.2.2
    have a2 := hR.2.2
    rw [e1] at a1; rw [e2] at a2
    omega
  subst hn
  have hcount : U.count (1 / 2) = 0 := List.count_eq_zero.mpr hU
  have hleft : ∀ t k, 0 ≤ t → t ≤ 1 → (t = 1 → k < p) → ∃ w, c.evaluateDerivative (1 / 2 * t) k = .ok (.ok w) ∧
      l.evaluateDerivative t k = .ok (.ok ((1 / 2 : K) ^ k • w)) := by
    intro t k h0 h1 _
    exact C24_split_left_partial hc hr hsp h0 h1 k (fun _ _ => by rw [hcount]; omega)
  have hright : ∀ t k, 0 ≤ t → t ≤ 1 → ∃ w, c.evaluateDerivative (1 / 2 + (1 - 1 / 2) * t) k = .ok (.ok w) ∧
      r.evaluateDerivative t k = .ok (.ok ((1 - 1 / 2 : K) ^ k • w)) := by
    intro t k h0 h1
    exact C24_split_right_partial hc hr hsp h0 h1 k
  have hj : ∀ k, k < p → l.evaluateDerivative 1 k = r.evaluateDerivative 0 k := by
    intro k hk
    obtain ⟨w, a1, a2⟩ := hleft 1 k zero_le_one le_rfl (fun _ => hk)
    obtain ⟨w', b1, b2⟩ := hright 0 k le_rfl zero_le_one
    rw [mul_one] at a1
    rw [mul_zero, add_zero, a1] at b1
    injection b1 with b1; injection b1 with b1
    rw [a2, b2, b1, show (1 - 1 / 2 : K) = 1 / 2 by norm_num]
  obtain ⟨c', hm, hh⟩ := C31_already_partial (ua := []) (ub := []) hs hL.1 hR.1 hL.2.1 hR.2.1 hL.2.2 hR.2.2
    (Nat.lt_of_lt_of_le Nat.zero_lt_one h1) h2 hj
  refine ⟨c', hm, ?_⟩
  have hpow : ∀ (k : ℕ) (w : Pt K d), (2 : K) ^ k • (1 / 2 : K) ^ k • w = w := by
    intro k w
    rw [smul_smul, ← mul_pow]; norm_num
  intro u k
  by_cases h0 : 0 ≤ u
  · by_cases hu1 : u ≤ 1
    · by_cases hu : u < 1 / 2
      · obtain ⟨w, a1, a2⟩ := hleft (2 * u) k (by linarith) (by linarith) (fun h => by linarith)
        obtain ⟨w', b1, b2⟩ := hh.left (2 * u) k (by linarith) (by linarith) (fun h => by linarith)
        rw [a2] at b1
        injection b1 with b1; injection b1 with b1
        rw [← b1, hpow] at b2
        rw [show 2 * u / 2 = u by ring] at b2
        rw [show 1 / 2 * (2 * u) = u by ring] at a1
        rw [b2, a1]
      · obtain ⟨w, a1, a2⟩ := hright (2 * u - 1) k (by linarith) (by linarith)
        obtain ⟨w', b1, b2⟩ := hh.right (2 * u - 1) k (by linarith) (by linarith)
        rw [a2] at b1
        injection b1 with b1; injection b1 with b1
        rw [← b1, show (1 - 1 / 2 : K) = 1 / 2 by norm_num, hpow] at b2
        rw [show (1 + (2 * u - 1)) / 2 = u by ring] at b2
        rw [show 1 / 2 + (1 - 1 / 2) * (2 * u - 1) = u by ring] at a1
        rw [b2, a1]
    · have : (Cmp.le 0 u && Cmp.le u 1) = false := by simp [Cmp.le, hu1]
      simp [Curve.evaluateDerivative, this]
  · have : (Cmp.le 0 u && Cmp.le u 1) = false := by simp [Cmp.le, h0]
    simp [Curve.evaluateDerivative, this]

/-- a straight line of degree three -/
def lineC : Curve ℚ 1 := canon 3 [0, 0, 0, 0, 1, 1, 1, 1] (Tests.c1 [-3, -1, 1, 3])

theorem C32_full_false : ¬ C32_full := by
  intro h
  obtain ⟨solver, hs⟩ := exists_exact_solver ℚ 1
  have hsplit : split lineC (1 / 2) = .ok (.ok (lineA, lineB)) := by decide +kernel
  obtain ⟨c', hm, he⟩ := h 3 3 _ _ lineC lineA lineB solver _ _ hs
    (validOn_canon (by decide +kernel) rfl) (by decide) (by decide +kernel) hsplit canon_matrix canon_matrix rfl
  rw [merge, lines_merged solver hs (by decide)] at hm
  injection hm with hm; injection hm with hm
  have := he (1 / 2)
  rw [← hm] at this
  revert this
  decide +kernel

/-! ### C30: larger right curves -/

/-- A cubic curve with six control points appended to one with four: the second derivative at the end,
which only depends on control points that must not move, is wrong. -/
theorem C30_full_false : ¬ C30_full := by
  intro h
  have hV : ClampedKnots (0 : ℚ) 1 3 3 [0, 0, 0, 0, 1, 1, 1, 1] := by decide +kernel
  have hW : ClampedKnots (0 : ℚ) 1 3 5 [0, 0, 0, 0, 1/3, 2/3, 1, 1, 1, 1] := by decide +kernel
  have hS : (Tests.c1 [-3, -2, -1, 0]).length = 3 + 1 := rfl
  have hT : (Tests.c1 [0, 1, 3, 6, 8, 9]).length = 5 + 1 := rfl
  have hb := built_canon hW hT
  have hm := merge_valid (ua := []) (ub := []) (built_canon hV hS) hb hV hW hS hT (by decide) (by decide)
    (by decide) (Tests.exactSolver 1)
  obtain ⟨-, S', T', a', b', hj, -, hb', hh⟩ := h _ _ _ _ _ _ _ _ _ _ _ _ (Tests.exactSolver 1)
    (built_canon hV hS) hb hV hW hS hT hm
  obtain ⟨w, e1, e2⟩ := hh.right 1 2 zero_le_one le_rfl
  have hk := ((joins_iff hV hW hS hT hj.lenS hj.lenT).mp hj).2.1
  rw [hb'.eq_canon hW.length hW.le hj.lenT, evalDeriv_end hW hj.lenT (by decide)] at e1
  have e3 := evalDeriv_end (k := 2) hW hT (by decide)
  have e4 : dpt (fn [0, 0, 0, 0, 1/3, 2/3, 1, 1, 1, 1]) 3 (fn T') 2 (5 - 2) =
      dpt (fn [(0 : ℚ), 0, 0, 0, 1/3, 2/3, 1, 1, 1, 1]) 3 (fn (Tests.c1 [0, 1, 3, 6, 8, 9])) 2 (5 - 2) := by
    simp only [dpt, Nat.reduceSub, Nat.reduceAdd]
    rw [hk 3 (by decide) (by decide), hk 4 (by decide) (by decide), hk 5 (by decide) (by decide)]
  rw [e4, ← e3] at e1
  have e5 : (canon 3 [(0 : ℚ), 0, 0, 0, 1/3, 2/3, 1, 1, 1, 1] (Tests.c1 [0, 1, 3, 6, 8, 9])).evaluateDerivative 1 2
      = .ok (.ok 0) := by decide +kernel
  rw [e5] at e1
  injection e1 with e1; injection e1 with e1
  rw [← e1] at e2
  revert e2
  decide +kernel

/-! ### Cases that meet the hypotheses -/

/-- C30: two cubic curves of different sizes and two constraints, any solver -/
example (solver : Solver ℚ 1) : ∃ c, mergeWithConstraints solver ⟨lineA, ⟨[1]⟩⟩
    ⟨canon 3 [0, 0, 0, 0, 1/3, 1, 1, 1, 1] (Tests.c1 [1, 5, 2, 7, 3]), ⟨[1/2]⟩⟩ = .ok (.ok c) ∧
    ∃ S' T' a' b', Joins 3 3 4 [0, 0, 0, 0, 1, 1, 1, 1] [0, 0, 0, 0, 1/3, 1, 1, 1, 1]
      (Tests.c1 [-3, -2, -1, 0]) (Tests.c1 [1, 5, 2, 7, 3]) [] [] S' T' ∧
      Built a' 3 [0, 0, 0, 0, 1, 1, 1, 1] S' ∧ Built b' 3 [0, 0, 0, 0, 1/3, 1, 1, 1, 1] T' ∧
      Halves 3 c a' b' :=
  have hW : ClampedKnots (0 : ℚ) 1 3 4 [0, 0, 0, 0, 1/3, 1, 1, 1, 1] := by decide +kernel
  C30_halves_partial lineA_built (built_canon hW rfl) lines_clamped hW rfl rfl (by decide) (by decide)
    (by decide) (by decide) solver

/-- C31, C33: two quadratic curves that do not join, with an exact solver -/
example : ∃ solver : Solver ℚ 1, solver.Exact ∧ ∃ c, mergeFrom solver
    (canon 2 [0, 0, 0, 1/3, 1, 1, 1] (Tests.c1 [1, 5, 2, 7])) (canon 2 [0, 0, 0, 1/4, 1, 1, 1] (Tests.c1 [4, 0, 2, 3]))
    = .ok (.ok c) ∧ c.evaluate (1 / 2) = .ok (.ok fun _ => 7) := by
  obtain ⟨solver, hs⟩ := exists_exact_solver ℚ 1
  have hV : ClampedKnots (0 : ℚ) 1 2 3 [0, 0, 0, 1/3, 1, 1, 1] := by decide +kernel
  have hW : ClampedKnots (0 : ℚ) 1 2 3 [0, 0, 0, 1/4, 1, 1, 1] := by decide +kernel
  obtain ⟨c, e, h⟩ := (C33_from_to_partial hs (built_canon hV (P := Tests.c1 [1, 5, 2, 7]) rfl)
    (built_canon hW (P := Tests.c1 [4, 0, 2, 3]) rfl) hV hW rfl rfl).1
  refine ⟨solver, hs, c, e, h.trans ?_⟩
  decide +kernel

/-- C32: a quadratic curve with two interior knots -/
example : ∃ solver : Solver ℚ 1, solver.Exact ∧ ∃ l r c', split
    (canon 2 [0, 0, 0, 1/4, 2/3, 1, 1, 1] (Tests.c1 [1, 5, 2, 7, 3])) (1 / 2) = .ok (.ok (l, r)) ∧
    merge solver l r = .ok (.ok c') ∧ ∀ u k, c'.evaluateDerivative u k =
      (canon 2 [0, 0, 0, 1/4, 2/3, 1, 1, 1] (Tests.c1 [1, 5, 2, 7, 3])).evaluateDerivative u k := by
  obtain ⟨solver, hs⟩ := exists_exact_solver ℚ 1
  have hsp : split (canon 2 [0, 0, 0, 1/4, 2/3, 1, 1, 1] (Tests.c1 [1, 5, 2, 7, 3])) (1 / 2) = .ok (.ok
    (canon 2 [0, 0, 0, 1/2, 1, 1, 1] (Tests.c1 [1, 5, 11/4, 33/10]),
     canon 2 [0, 0, 0, 1/3, 1, 1, 1] (Tests.c1 [33/10, 11/3, 7, 3]))) := by decide +kernel
  obtain ⟨c', e, h⟩ := C32_split_merge_partial hs (validOn_canon (n := 4) (by decide +kernel) rfl)
    (by decide) (by decide) (by decide +kernel) (by
      intro x h1 h2
      rcases eq_or_ne x (1/4) with rfl | h
      · decide +kernel
      · have : x ∉ [(0 : ℚ), 0, 0, 1/4, 2/3, 1, 1, 1] := by
          simp only [List.mem_cons, not_or, List.not_mem_nil]
          refine ⟨h1.ne', h1.ne', h1.ne', h, ?_, ?_, ?_, ?_, by simp⟩ <;>
            exact (lt_trans h2 (by norm_num)).ne
        rw [List.count_eq_zero.mpr this]; omega)
    hsp canon_matrix canon_matrix rfl
  exact ⟨solver, hs, _, _, c', hsp, e, h⟩

end BSpline
