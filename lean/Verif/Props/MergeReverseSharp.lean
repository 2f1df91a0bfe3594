import Verif.Props.MergeSharp
import Verif.Props.Reproduce

/-!
# For which degrees merging commutes with reversal: the exact condition of C77

For degrees of at least three it does not, whatever the knots are: there are two polynomial curves that
join with all derivatives, and the merged curve depends on the direction.
-/

set_option linter.unusedSectionVars false

namespace BSpline

open Finset

variable {K : Type} [Field K] [LinearOrder K] [IsStrictOrderedRing K] {d : ℕ}
variable {p m o : ℕ} {V W : List K} {S T S' T' : List (Pt K d)}

/-! ### The curves `(y - u)^p` -/

/-- the polar form of `(y - u)^p v` -/
def powPolar (y : K) (v : Pt K d) (ts : List K) : Pt K d := (ts.map (y - ·)).prod • v

theorem symAffine_powPolar (y : K) (v : Pt K d) : SymAffine (powPolar y v) :=
  (symAffine_prod y).smul_const v

/-- the factors of the derivatives of `(y - u)^p` -/
def powFactor (K : Type) [Field K] (p : ℕ) : ℕ → K
  | 0 => 1
  | k + 1 => -(((p - k : ℕ) : K) * powFactor K p k)

theorem bl_powPolar {n j : ℕ} {U : List K} {u y : K} (v : Pt K d) (hU : ClampedKnots 0 1 p n U)
    (hs : IsSpan (fn U) n u j) (k : ℕ) : k ≤ p → ∀ ts : List K, ts.length = p - k →
    bl (shiftN k (fn U)) ts (dpt (fn U) p (fn (polarPoints (powPolar y v) p n U)) k) (j - p) =
      powFactor K p k • powPolar y v ts := by
  induction k with
  | zero =>
    intro _ ts hts
    rw [shiftN_zero, powFactor, one_smul]
    exact bl_polarPoints (symAffine_powPolar y v) hU hs ts hts
  | succ k ih =>
    intro hk ts hts
    have ih := ih (by omega)
    rw [dpt_succ _ (by omega), ← shift_shiftN, show p - k = ts.length + 1 by omega, bl_Dv,
      ih (1 :: ts) (by simp; omega), ih (0 :: ts) (by simp; omega), powFactor,
      show p - k = ts.length + 1 by omega]
    simp only [powPolar, List.map_cons, List.prod_cons, smul_smul, ← sub_smul]
    congr 1
    ring

theorem powPolar_evaluate {n : ℕ} {U : List K} {u : K} (y : K) (v : Pt K d) (hU : ClampedKnots 0 1 p n U)
    (h0 : 0 ≤ u) (h1 : u ≤ 1) {k : ℕ} (hk : k ≤ p) :
    (canon p U (polarPoints (powPolar y v) p n U)).evaluateDerivative u k =
      .ok (.ok ((powFactor K p k * (y - u) ^ (p - k)) • v)) := by
  obtain ⟨j, hj⟩ := hU.clamp.exists_span h0 h1
  rw [evaluateDerivative_eq hU (polarPoints_length ..) hk h0 h1 hj, cv,
    bl_powPolar v hU hj k hk _ (by simp), powPolar, smul_smul]
  simp

/-! ### What the adjusted control points depend on -/

theorem adjq_eq_zero {U : ℕ → K} {j : ℕ} {B : ℕ → Pt K d} : ∀ s k, (∀ i, k ≤ i → i ≤ k + s → B i = 0) →
    adjq U p j B s k = 0 := by
  intro s
  induction s with
  | zero => intro k h; exact h k le_rfl le_rfl
  | succ s ih =>
    intro k h
    rw [adjq, ih (k + 1) (fun i h1 h2 => h i (by omega) (by omega)),
      ih k (fun i h1 h2 => h i h1 (by omega)), scale_eq_smul, smul_zero, add_zero]

theorem dcp_eq_zero {U : ℕ → K} {N n i k : ℕ} {P : ℕ → Pt K d} (h : ∀ z, i ≤ z → z ≤ i + k → P z = 0) :
    dcp U p N n i k P = 0 := by
  rw [dcp, foldl_add_eq_sum, sum_eq_zero]
  · exact zero_add _
  · intro z _
    rw [scale_eq_smul]
    by_cases hz : z < i ∨ i + k < z
    · rw [pf_support _ _ _ _ _ _ hz, zero_smul]
    · rw [h z (by omega) (by omega), smul_zero]

/-- the last adjusted control point does not depend on the last two control points -/
theorem adjP_eq_zero {U Uadj : ℕ → K} {N n : ℕ} {P : ℕ → Pt K d} (hp : 3 ≤ p) (hpn : p ≤ n)
    (h : ∀ z, n - p + 1 ≤ z → z + 2 ≤ n → P z = 0) : adjP U Uadj p N n P (n - 1) = 0 := by
  rw [adjP, if_neg (by omega)]
  apply adjq_eq_zero
  intro i _ hi
  rw [baseRow]
  split
  · exact h _ le_rfl (by omega)
  · exact dcp_eq_zero fun z h1 h2 => h z h1 (by omega)

/-! ### C77 -/

theorem powPolar_left_ne {y : K} {v : Pt K d} (hy : 0 < y) (hv : v ≠ 0) (hV : ClampedKnots 0 1 p m V)
    {i : ℕ} (hi : i ≤ m) : fn (polarPoints (powPolar (y + 1) v) p m V) i ≠ 0 := by
  rw [fn_polarPoints hV.length hi, powPolar]
  apply smul_ne_zero _ hv
  rw [Ne, List.prod_eq_zero_iff]
  intro h
  obtain ⟨t, ht, he⟩ := List.mem_map.mp h
  obtain ⟨k, hk, rfl⟩ := List.mem_map.mp ht
  have := hV.clamp.le_b k
  linarith

theorem powPolar_right_zero (v : Pt K d) (hW : ClampedKnots 0 1 p o W) {i : ℕ} (h1 : 1 ≤ i) (h2 : i ≤ p) :
    fn (polarPoints (powPolar (fn W (p + 1)) v) p o W) i = 0 := by
  have := hW.le
  rw [fn_polarPoints hW.length (by omega), powPolar, List.prod_eq_zero, zero_smul]
  refine List.mem_map.mpr ⟨fn W (p + 1), ?_, sub_self _⟩
  exact List.mem_map.mpr ⟨p + 1, by simp [List.mem_range']; exact ⟨p - i, by omega, by omega⟩, rfl⟩

/-- **C77** Over all knots and for every degree of at least three there are curves `a` and `b`, polynomials
that join with all derivatives, such that merging `a` and `b` and merging their reversals give different
curves. -/
theorem C77_direction_matters {solver : Solver K d} (hs : solver.Exact) (hd : 0 < d)
    (hV : ClampedKnots 0 1 p m V) (hW : ClampedKnots 0 1 p m W) (hjV : NoJump p V) (hjW : NoJump p W)
    (h3 : 3 ≤ p) : ∃ S T a b a' b' c c', ValidOn 0 1 a p m V S ∧ ValidOn 0 1 b p m W T ∧
      (∀ k, k ≤ p → a.evaluateDerivative 1 k = b.evaluateDerivative 0 k) ∧
      a.reverse = .ok a' ∧ b.reverse = .ok b' ∧ merge solver a b = .ok (.ok c) ∧
      merge solver b' a' = .ok (.ok c') ∧ c.reverse ≠ .ok c' := by
  have hpm := hV.le
  obtain ⟨v, hv⟩ : ∃ v : Pt K d, v ≠ 0 := ⟨fun _ => 1, fun h => one_ne_zero (congrFun h ⟨0, hd⟩)⟩
  have hy : 0 < fn W (p + 1) := hW.clamp.a_lt (by omega)
  have hS := polarPoints_length (powPolar (fn W (p + 1) + 1) v) p m V
  have hT := polarPoints_length (powPolar (fn W (p + 1)) v) p m W
  have eS : ∀ i, i ≤ m → fn (polarPoints (powPolar (fn W (p + 1) + 1) v) p m V) i ≠ 0 :=
    fun i hi => powPolar_left_ne hy hv hV hi
  have eT : ∀ i, 1 ≤ i → i ≤ p → fn (polarPoints (powPolar (fn W (p + 1)) v) p m W) i = 0 :=
    fun i h1 h2 => powPolar_right_zero v hW h1 h2
  have hagree : ∀ k, k ≤ p →
      (canon p V (polarPoints (powPolar (fn W (p + 1) + 1) v) p m V)).evaluateDerivative 1 k =
        (canon p W (polarPoints (powPolar (fn W (p + 1)) v) p m W)).evaluateDerivative 0 k := by
    intro k hk
    rw [powPolar_evaluate _ v hV zero_le_one le_rfl hk, powPolar_evaluate _ v hW le_rfl zero_le_one hk,
      add_sub_cancel_right, sub_zero]
  revert hS hT eS eT hagree
  generalize polarPoints (powPolar (fn W (p + 1) + 1) v) p m V = S
  generalize polarPoints (powPolar (fn W (p + 1)) v) p m W = T
  intro hS hT eS eT hagree
  have hV' := revU_clamped01 hV
  have hW' := revU_clamped01 hW
  have hj := joins_self (built_canon hV hS) (built_canon hW hT) hV hW hS hT [] [] (fun k hk => hagree k hk.le)
  have hj' := joins_reverse hV hW hS hT hjV hjW (by simp) (by simp) hj
  have hS' : S.reverse.length = m + 1 := by simpa using hS
  have hT' : T.reverse.length = m + 1 := by simpa using hT
  refine ⟨S, T, _, _, _, _, _, _, validOn_canon hV hS, validOn_canon hW hT, hagree,
    reverse_canon hV.length hS hpm, reverse_canon hW.length hT hpm,
    merge_joined hs (built_canon hV hS) (built_canon hW hT) hV hW hS hT (by simp; omega) le_rfl (by omega) hj,
    merge_joined hs (built_canon hW' hT') (built_canon hV' hS') hW' hV' hT' hS' (by simp; omega) le_rfl
      (by omega) hj', ?_⟩
  rw [reverse_canon (mergedU_clamped hV hW).length (by simp; omega) (by omega)]
  intro he
  injection he with he
  have he := congrArg (fun c : Curve K d => c.points.matrix) he
  simp only [canon_points, canonPts_matrix] at he
  injection he with he
  have he := congrArg (fun Q => fn Q (m - 1)) he
  rw [fn_reverse (by simp; omega), mergedPts_length,
    show m + m + 2 - p - 1 - (m - 1) = m - p + 2 by omega] at he
  obtain ⟨e, e0, hw⟩ := mergedPts_wrong_left (d := d) hV hW h3
  rw [hw S T hS, mergedPts, fn_map_range _ (by omega), mergedP, if_pos (by omega), sadj,
    fn_map_range _ (by omega), adjP_eq_zero h3 hpm] at he
  · have h4 : (1 + e) • fn S (m - p + 1) = 0 := by rw [add_smul, one_smul]; exact he
    rcases smul_eq_zero.mp h4 with h | h
    · linarith
    · exact eS _ (by omega) h
  · intro z h1 h2
    rw [fn_reverse (by omega), hT]
    exact eT _ (by omega) (by omega)

/-- **C77** For which degrees merging commutes with reversal, for all knots without jumps: exactly for
degree one and two. (Both merges succeed only if the numbers of control points are equal, C29.) -/
theorem C77_reverse_iff {solver : Solver K d} (hs : solver.Exact) (hd : 0 < d) (h1 : 1 ≤ p)
    (hV : ClampedKnots 0 1 p m V) (hW : ClampedKnots 0 1 p m W) (hjV : NoJump p V) (hjW : NoJump p W) :
    (∀ S T a b a' b' c c', ValidOn 0 1 a p m V S → ValidOn 0 1 b p m W T →
      a.reverse = .ok a' → b.reverse = .ok b' → merge solver a b = .ok (.ok c) →
      merge solver b' a' = .ok (.ok c') → c.reverse = .ok c') ↔ p ≤ 2 := by
  constructor
  · intro h
    by_contra h3
    obtain ⟨S, T, a, b, a', b', c, c', e1, e2, -, e3, e4, e5, e6, e7⟩ :=
      C77_direction_matters hs hd hV hW hjV hjW (by omega)
    exact e7 (h S T a b a' b' c c' e1 e2 e3 e4 e5 e6)
  · intro hp S T a b a' b' c c' e1 e2 e3 e4 e5 e6
    obtain ⟨c1, c2, f1, f2, f3⟩ := C77_reverse_partial hs e1 e2 hjV hjW (ua := []) (ub := []) (by simp)
      (by simp) (by simp; omega) hp e3 e4
    rw [merge] at e5 e6
    rw [e5] at f1
    rw [List.map_nil, e6] at f2
    injection f1 with f1; injection f1 with f1
    injection f2 with f2; injection f2 with f2
    rw [f1, f2]; exact f3

/-- C77: cubic curves with an interior knot, in the plane -/
example : ∃ solver : Solver ℚ 2, solver.Exact ∧
    ∃ S T a b a' b' c c', ValidOn 0 1 a 3 4 [0, 0, 0, 0, 1 / 3, 1, 1, 1, 1] S ∧
      ValidOn 0 1 b 3 4 [0, 0, 0, 0, 1 / 2, 1, 1, 1, 1] T ∧
      (∀ k, k ≤ 3 → a.evaluateDerivative 1 k = b.evaluateDerivative 0 k) ∧
      a.reverse = .ok a' ∧ b.reverse = .ok b' ∧ merge solver a b = .ok (.ok c) ∧
      merge solver b' a' = .ok (.ok c') ∧ c.reverse ≠ .ok c' := by
  obtain ⟨s, hs⟩ := exists_exact_solver ℚ 2
  have nj : ∀ y : ℚ, NoJump 3 [0, 0, 0, 0, y, 1, 1, 1, 1] := by
    intro y x h0 h1
    simp only [List.count_cons, List.count_nil, beq_iff_eq, h0.ne, h1.ne', if_false]
    split <;> omega
  exact ⟨s, hs, C77_direction_matters hs (by omega) (by decide +kernel) (by decide +kernel) (nj _) (nj _) le_rfl⟩

end BSpline
