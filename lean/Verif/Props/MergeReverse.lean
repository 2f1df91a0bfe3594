import Verif.Props.MergeMap
import Verif.Props.Reverse

/-!
# Merging reversed curves: C77

Traversing both curves backwards and merging them in the opposite order should give the merged curve,
traversed backwards.
-/

set_option linter.unusedSectionVars false

namespace BSpline

open Finset

variable {K : Type} [Field K] [LinearOrder K] [IsStrictOrderedRing K] {d : ℕ}
variable {p m o : ℕ} {V W ua ub : List K} {S T S' T' : List (Pt K d)} {a b : Curve K d}

theorem revU_clamped01 {n : ℕ} {U : List K} (h : ClampedKnots 0 1 p n U) :
    ClampedKnots 0 1 p n (revU U) := by
  have := revU_clamped h
  rwa [sub_self, sub_zero] at this

/-- no knot between the ends is repeated so often that the curve may jump there -/
def NoJump (p : ℕ) (U : List K) : Prop := ∀ x, 0 < x → x < 1 → U.count x ≤ p

theorem NoJump.rev {U : List K} (h : NoJump p U) : NoJump p (revU U) := by
  intro x h0 h1
  rw [revU_count]
  exact h _ (by linarith) (by linarith)

theorem reverse_built {n : ℕ} {U : List K} {P : List (Pt K d)} {c c' : Curve K d}
    (hU : ClampedKnots 0 1 p n U) (hP : P.length = n + 1) (hc : Built c p U P)
    (hc' : Built c' p (revU U) P.reverse) : c.reverse = .ok c' := by
  rw [hc.eq_canon hU.length hU.le hP, reverse_canon hU.length hP hU.le,
    hc'.eq_canon (n := n) (by simpa using hU.length) hU.le (by simpa using hP)]

/-- the conditions for joining do not depend on the direction -/
theorem joins_reverse (hV : ClampedKnots 0 1 p m V) (hW : ClampedKnots 0 1 p o W)
    (hS : S.length = m + 1) (hT : T.length = o + 1) (hjV : NoJump p V) (hjW : NoJump p W)
    (hua : ∀ u ∈ ua, 0 ≤ u ∧ u ≤ 1) (hub : ∀ u ∈ ub, 0 ≤ u ∧ u ≤ 1)
    (h : Joins p m o V W S T ua ub S' T') :
    Joins p o m (revU W) (revU V) T.reverse S.reverse (ub.map (fun x => 1 - x)) (ua.map (fun x => 1 - x))
      T'.reverse S'.reverse := by
  have hS' := h.lenS
  have hT' := h.lenT
  have vS := validOn_canon hV hS
  have vT := validOn_canon hW hT
  have vS' := validOn_canon hV hS'
  have vT' := validOn_canon hW hT'
  refine ⟨by simpa using hT', by simpa using hS', ?_, ?_, ?_, ?_, ?_⟩
  · intro i hi
    rw [List.getElem?_reverse (by omega), List.getElem?_reverse (by omega), hT, hT']
    exact h.keepT _ (by omega)
  · intro j hj
    by_cases hjm : j ≤ m
    · rw [List.getElem?_reverse (by omega), List.getElem?_reverse (by omega), hS, hS']
      exact h.keepS _ (by omega)
    · rw [List.getElem?_eq_none (by simp; omega), List.getElem?_eq_none (by simp; omega)]
  · intro a' b' ha' hb' k hk
    obtain ⟨v, e1, e2⟩ := C22_reverse_geometry (k := k) vT'
      (reverse_built hW hT' vT'.1 ha') zero_le_one le_rfl (fun _ h => absurd h (lt_irrefl _))
    obtain ⟨w, e3, e4⟩ := C22_reverse_geometry (k := k) vS'
      (reverse_built hV hS' vS'.1 hb') le_rfl zero_le_one (fun h => absurd h (lt_irrefl _))
    rw [sub_self] at e1
    rw [sub_zero] at e3
    have := h.agree _ _ vS'.1 vT'.1 k hk
    rw [e1, e3] at this
    injection this with this; injection this with this
    rw [e2, e4, this]
  · intro a a' ha ha' u hu
    obtain ⟨x, hx, rfl⟩ := List.mem_map.mp hu
    have hx' := hub x hx
    rw [C22_reverse_points vT' (reverse_built hW hT' vT'.1 ha') hjW (by linarith) (by linarith),
      C22_reverse_points vT (reverse_built hW hT vT.1 ha) hjW (by linarith) (by linarith),
      sub_sub_cancel]
    exact h.fixB _ _ vT.1 vT'.1 x hx
  · intro b b' hb hb' u hu
    obtain ⟨x, hx, rfl⟩ := List.mem_map.mp hu
    have hx' := hua x hx
    rw [C22_reverse_points vS' (reverse_built hV hS' vS'.1 hb') hjV (by linarith) (by linarith),
      C22_reverse_points vS (reverse_built hV hS vS.1 hb) hjV (by linarith) (by linarith),
      sub_sub_cancel]
    exact h.fixA _ _ vS.1 vS'.1 x hx

theorem moved_reverse {P P' : List (Pt K d)} (h : P'.length = P.length) :
    moved P.reverse P'.reverse = moved P P' := by
  rw [moved, moved, List.length_reverse, ← sum_range_reflect]
  refine sum_congr rfl (fun i hi => ?_)
  rw [mem_range] at hi
  have e : ∀ l : List (Pt K d), l.length = P.length → l.reverse.getD (P.length - 1 - i) 0 = l.getD i 0 := by
    intro l hl
    rw [List.getD_eq_getElem?_getD, List.getElem?_reverse (by omega), hl, List.getD_eq_getElem?_getD]
    congr 2
    omega
  rw [e P rfl, e P' h]

theorem map_one_sub (l : List K) : (l.map (fun x => 1 - x)).map (fun x => 1 - x) = l := by simp

theorem nearest_reverse (hV : ClampedKnots 0 1 p m V) (hW : ClampedKnots 0 1 p o W)
    (hS : S.length = m + 1) (hT : T.length = o + 1) (hjV : NoJump p V) (hjW : NoJump p W)
    (hua : ∀ u ∈ ua, 0 ≤ u ∧ u ≤ 1) (hub : ∀ u ∈ ub, 0 ≤ u ∧ u ≤ 1)
    (h : Nearest p m o V W S T ua ub S' T') :
    Nearest p o m (revU W) (revU V) T.reverse S.reverse (ub.map (fun x => 1 - x))
      (ua.map (fun x => 1 - x)) T'.reverse S'.reverse := by
  refine ⟨joins_reverse hV hW hS hT hjV hjW hua hub h.1, ?_⟩
  intro T'' S'' hj
  have hj' := joins_reverse (revU_clamped01 hW) (revU_clamped01 hV) (by simpa using hT) (by simpa using hS)
    hjW.rev hjV.rev (by
      intro u hu
      obtain ⟨x, hx, rfl⟩ := List.mem_map.mp hu
      have := hub x hx
      constructor <;> linarith) (by
      intro u hu
      obtain ⟨x, hx, rfl⟩ := List.mem_map.mp hu
      have := hua x hx
      constructor <;> linarith) hj
  rw [revU_revU, revU_revU, map_one_sub, map_one_sub, List.reverse_reverse, List.reverse_reverse] at hj'
  obtain ⟨h1, h2⟩ := h.2 _ _ hj'
  have hjl := hj.lenS
  have hjl' := hj.lenT
  have e1 : moved S S''.reverse = moved S.reverse S'' := by
    rw [← moved_reverse (P := S) (by simp; omega), List.reverse_reverse]
  have e2 : moved T T''.reverse = moved T.reverse T'' := by
    rw [← moved_reverse (P := T) (by simp; omega), List.reverse_reverse]
  rw [e1, e2] at h1 h2
  rw [moved_reverse (by rw [h.1.lenT, hT]), moved_reverse (by rw [h.1.lenS, hS])]
  refine ⟨by linarith, fun hle => ?_⟩
  obtain ⟨h3, h4⟩ := h2 (by linarith)
  rw [← h3, ← h4, List.reverse_reverse, List.reverse_reverse]
  exact ⟨rfl, rfl⟩

theorem mergedU_reverse (hV : ClampedKnots 0 1 p m V) (hW : ClampedKnots 0 1 p o W) :
    mergedU p o m (revU W) (revU V) = revU (mergedU p m o V W) := by
  have hpm := hV.le
  have hpo := hW.le
  have hlV := hV.length
  have hlW := hW.length
  have hl := mergedU_length hlV hlW hpm
  have hl' := mergedU_length (p := p) (m := o) (o := m) (V := revU W) (W := revU V) (by simpa using hlW)
    (by simpa using hlV) hpo
  apply ext_fn (by rw [revU_length]; omega)
  intro i hi
  rw [hl'] at hi
  rw [fn_mergedU (revU_clamped01 hW) (revU_clamped01 hV), fn_revU (by omega), hl, fn_mergedU hV hW]
  suffices h : mknots p o (revU W) (revU V) i = 2 - mknots p m V W (m + o + 2 - i) by
    rw [h, show m + o + 3 - 1 - i = m + o + 2 - i by omega]; ring
  by_cases hio : i ≤ o + 1
  · rw [mknots_left hio, fn_revU (by omega), show m + o + 2 - i = (o + p + 1 - i) + (m + 1 - p) by omega,
      mknots_right hV hW (by omega), show W.length - 1 - i = o + p + 1 - i by omega]
    ring
  · obtain ⟨x, rfl⟩ : ∃ x, i = x + (o + 1 - p) := ⟨i - (o + 1 - p), by omega⟩
    rw [mknots_right (revU_clamped01 hW) (revU_clamped01 hV) (by omega), fn_revU (by omega),
      mknots_left (by omega), show V.length - 1 - x = m + o + 2 - (x + (o + 1 - p)) by omega]
    ring

theorem mergedPts_reverse (h1 : 1 ≤ p) (hp2 : p ≤ 2) (hpm : p ≤ m) (hS : S.length = m + 1)
    (hT : T.length = m + 1) (hj : p = 1 → fn S m = fn T 0) :
    mergedPts p m m (revU W) (revU V) T.reverse S.reverse = (mergedPts p m m V W S T).reverse := by
  apply ext_fn (by simp)
  intro i hi
  rw [mergedPts_length] at hi
  rw [fn_reverse (by simpa using hi), mergedPts_length]
  by_cases him : i < m
  · rw [fn_mergedPts_left hpm hpm (by omega) him, fn_reverse (by omega), hT]
    by_cases h : m + m + 2 - p - 1 - i < m
    · omega
    · rw [fn_mergedPts_right hpm le_rfl (by omega) hT (by omega) (by omega)]
      congr 1; omega
  · rw [fn_mergedPts_right hpm le_rfl (by omega) (by simpa using hS) (by omega) (by omega),
      fn_reverse (by omega), hS]
    by_cases h : m + m + 2 - p - 1 - i < m
    · rw [fn_mergedPts_left hpm hpm (by omega) h]
      congr 1; omega
    · obtain rfl : p = 1 := by omega
      obtain rfl : i = m := by omega
      rw [fn_mergedPts_right hpm le_rfl (by omega) hT (by omega) (by omega)]
      rw [show i + 1 - 1 - (i - (i + 1 - 1)) = i by omega, hj rfl]
      congr 1; omega

/-- **C77** as claimed: merging the reversed curves in the opposite order reverses the result -/
def C77_full : Prop := ∀ (p m : ℕ) (V W : List ℚ) (S T : List (Pt ℚ 1))
    (a b a' b' c c' : Curve ℚ 1) (solver : Solver ℚ 1),
    solver.Exact → ValidOn 0 1 a p m V S → ValidOn 0 1 b p m W T → NoJump p V → NoJump p W →
    a.reverse = .ok a' → b.reverse = .ok b' → merge solver a b = .ok (.ok c) →
    merge solver b' a' = .ok (.ok c') → c.reverse = .ok c'

/-- **C77 (partial)** Merging the reversed curves in the opposite order, with the constraints at the
reflected parameters, gives exactly the reversed result; for degrees `1` and `2` and curves with the
same number of control points. Missing: higher degrees, for which it is false (`C77_full_false`); with
different numbers of control points one of the two calls panics (C29). -/
theorem C77_reverse_partial {solver : Solver K d} (hs : solver.Exact) {a' b' : Curve K d}
    (ha : ValidOn 0 1 a p m V S) (hb : ValidOn 0 1 b p m W T) (hjV : NoJump p V) (hjW : NoJump p W)
    (hua : ∀ u ∈ ua, 0 ≤ u ∧ u ≤ 1) (hub : ∀ u ∈ ub, 0 ≤ u ∧ u ≤ 1)
    (hc : ua.length + ub.length < p) (hp2 : p ≤ 2) (ha' : a.reverse = .ok a') (hb' : b.reverse = .ok b') :
    ∃ c c', mergeWithConstraints solver ⟨a, ⟨ua⟩⟩ ⟨b, ⟨ub⟩⟩ = .ok (.ok c) ∧
      mergeWithConstraints solver ⟨b', ⟨ub.map (fun x => 1 - x)⟩⟩ ⟨a', ⟨ua.map (fun x => 1 - x)⟩⟩ =
        .ok (.ok c') ∧ c.reverse = .ok c' := by
  obtain ⟨ba, hV, hS⟩ := ha
  obtain ⟨bb, hW, hT⟩ := hb
  have h1 : 1 ≤ p := by omega
  have hpm := hV.le
  have hf : ∃ S' T', Joins p m m V W S T ua ub S' T' := by
    cases ub with
    | nil => exact joins_exists_right hV hW hS hT ua
    | cons y ub =>
      cases ua with
      | nil => exact joins_exists_left hV hW hS hT _
      | cons x ua => simp only [List.length_cons] at hc; omega
  have hn := nearest_shifts hs h1 hV hW hS hT hf
  have hn' := nearest_reverse hV hW hS hT hjV hjW hua hub hn
  have hV' := revU_clamped01 hV
  have hW' := revU_clamped01 hW
  have hm' := nearest_shifts hs h1 hW' hV' (by simpa using hT) (by simpa using hS) ⟨_, _, hn'.1⟩
  obtain ⟨eL, eR⟩ := (hm'.2 _ _ hn'.1).2 (hn'.2 _ _ hm'.1).1
  have ba' : Built a' p (revU V) S.reverse := by
    rw [ba.eq_canon hV.length hpm hS, reverse_canon hV.length hS hpm] at ha'
    injection ha' with ha'
    rw [← ha']; exact built_canon hV' (by simpa using hS)
  have bb' : Built b' p (revU W) T.reverse := by
    rw [bb.eq_canon hW.length hpm hT, reverse_canon hW.length hT hpm] at hb'
    injection hb' with hb'
    rw [← hb']; exact built_canon hW' (by simpa using hT)
  have hM := merge_valid (ua := ub.map (fun x => 1 - x)) (ub := ua.map (fun x => 1 - x)) bb' ba' hW' hV'
    (by simpa using hT) (by simpa using hS) (by simp; omega) le_rfl (by omega) solver
  rw [← eL, ← eR, mergedU_reverse hV hW, mergedPts_reverse h1 hp2 hpm (by simp) (by simp)] at hM
  · refine ⟨_, _, merge_valid ba bb hV hW hS hT hc le_rfl (by omega) solver, hM, ?_⟩
    have hU := mergedU_clamped hV hW
    rw [reverse_canon hU.length (by simp; omega) (by omega)]
  · intro hp
    have := ((joins_iff hV hW hS hT hn.1.lenS hn.1.lenT).mp hn.1).2.2.1 0 (by omega)
    simpa only [dpt, Nat.sub_zero] using this

/-- two parabolas with different knots that do not meet; the left one keeps its end point -/
example : ∃ solver : Solver ℚ 2, solver.Exact ∧ ∃ a' b' c c',
    (canon 2 mapV mapS).reverse = .ok a' ∧ (canon 2 mapW mapT).reverse = .ok b' ∧
    mergeWithConstraints solver ⟨canon 2 mapV mapS, ⟨[1]⟩⟩ ⟨canon 2 mapW mapT, ⟨[]⟩⟩ = .ok (.ok c) ∧
    mergeWithConstraints solver ⟨b', ⟨[]⟩⟩ ⟨a', ⟨[1 - 1]⟩⟩ = .ok (.ok c') ∧ c.reverse = .ok c' := by
  obtain ⟨s, hs⟩ := exists_exact_solver ℚ 2
  have hV : ClampedKnots (0 : ℚ) 1 2 3 mapV := by decide +kernel
  have hW : ClampedKnots (0 : ℚ) 1 2 3 mapW := by decide +kernel
  have nV : NoJump 2 mapV := by
    intro x h0 h1
    simp only [mapV, List.count_cons, List.count_nil, beq_iff_eq, h0.ne, h1.ne', if_false]
    split <;> omega
  have nW : NoJump 2 mapW := by
    intro x h0 h1
    simp only [mapW, List.count_cons, List.count_nil, beq_iff_eq, h0.ne, h1.ne', if_false]
    split <;> omega
  have ra := reverse_canon (P := mapS) hV.length rfl hV.le
  have rb := reverse_canon (P := mapT) hW.length rfl hW.le
  obtain ⟨c, c', h1, h2, h3⟩ := C77_reverse_partial (ua := [1]) (ub := []) hs (validOn_canon hV rfl)
    (validOn_canon hW rfl) nV nW (by simp) (by simp) (by decide) le_rfl ra rb
  exact ⟨s, hs, _, _, c, c', ra, rb, h1, h2, h3⟩

/-- The two lines of degree three, merged in both directions. -/
theorem C77_full_false : ¬ C77_full := by
  intro h
  obtain ⟨solver, hs⟩ := exists_exact_solver ℚ 1
  let A' : Curve ℚ 1 := canon 3 [0, 0, 0, 0, 1, 1, 1, 1] (Tests.c1 [0, -1, -2, -3])
  let B' : Curve ℚ 1 := canon 3 [0, 0, 0, 0, 1, 1, 1, 1] (Tests.c1 [3, 2, 1, 0])
  have hA : Built A' 3 [0, 0, 0, 0, 1, 1, 1, 1] (Tests.c1 [0, -1, -2, -3]) :=
    mkCurve_ok (n := 3) rfl (by decide) (by decide)
  have hB : Built B' 3 [0, 0, 0, 0, 1, 1, 1, 1] (Tests.c1 [3, 2, 1, 0]) :=
    mkCurve_ok (n := 3) rfl (by decide) (by decide)
  have hj' := joins_self hB hA lines_clamped lines_clamped rfl rfl [] [] (by decide +kernel)
  have hm' := merge_joined hs hB hA lines_clamped lines_clamped rfl rfl (by decide) le_rfl (by decide) hj'
  have nj : NoJump 3 ([0, 0, 0, 0, 1, 1, 1, 1] : List ℚ) := by
    intro x h0 h1
    rw [List.count_eq_zero_of_not_mem]
    · omega
    · intro hx
      simp at hx
      rcases hx with rfl | rfl
      · exact lt_irrefl _ h0
      · exact lt_irrefl _ h1
  have := h 3 3 _ _ _ _ lineA lineB A' B' _ _ solver hs ⟨lineA_built, lines_clamped, rfl⟩
    ⟨lineB_built, lines_clamped, rfl⟩ nj nj (by decide +kernel) (by decide +kernel)
    (lines_merged solver hs (ua := []) (ub := []) (by decide)) hm'
  revert this
  decide +kernel

end BSpline
