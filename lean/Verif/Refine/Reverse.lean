import Verif.Refine.Value

/-!
# Reversal of canonical curves
-/

set_option linter.unusedSectionVars false

namespace BSpline

section LawFree

/-- one swap -/
def swapStep {α : Type} (v w : List α) (i : ℕ) : List α :=
  let j := v.length - 1 - i
  match w[i]?, w[j]? with
  | some a, some b => (w.set i b).set j a
  | _, _ => w

theorem swapLoop_inv {α : Type} (v : List α) : ∀ m, m ≤ v.length / 2 →
    ((List.range m).foldl (swapStep v) v).length = v.length ∧
    ∀ j, j < v.length → ((List.range m).foldl (swapStep v) v)[j]? = if j < m ∨ v.length - m ≤ j then v[v.length - 1 - j]? else v[j]? := by
  intro m
  induction m with
  | zero => intro _; simp; intro j hj hj'; omega
  | succ m ih =>
    intro hm
    obtain ⟨ih1, ih2⟩ := ih (by omega)
    rw [List.range_succ, List.foldl_append]
    generalize (List.range m).foldl _ v = w at ih1 ih2
    simp only [List.foldl_cons, List.foldl_nil, swapStep]
    have h1 : w[m]? = some (v[m]'(by omega)) := by
      rw [ih2 m (by omega), if_neg (by omega), List.getElem?_eq_getElem (by omega)]
    have h2 : w[v.length - 1 - m]? = some (v[v.length - 1 - m]'(by omega)) := by
      rw [ih2 _ (by omega), if_neg (by omega), List.getElem?_eq_getElem (by omega)]
    rw [h1, h2]
    refine ⟨by simp [ih1], ?_⟩
    intro j hj
    simp only [List.getElem?_set, List.length_set, ih1]
    by_cases e1 : v.length - 1 - m = j
    · subst e1
      rw [if_pos rfl, if_pos hj, if_pos (by omega),
        show v.length - 1 - (v.length - 1 - m) = m by omega, List.getElem?_eq_getElem (by omega)]
    · rw [if_neg e1]
      by_cases e2 : m = j
      · subst e2
        rw [if_pos rfl, if_pos hj, if_pos (by omega), List.getElem?_eq_getElem (by omega)]
      · rw [if_neg e2, ih2 j hj]
        congr 1
        apply propext
        omega

/-- The swap loop reverses a vector, for every length. -/
theorem swapLoop_eq {α : Type} (v : List α) : swapLoop v = v.reverse := by
  obtain ⟨h1, h2⟩ := swapLoop_inv v (v.length / 2) le_rfl
  have h0 : swapLoop v = (List.range (v.length / 2)).foldl (swapStep v) v := rfl
  rw [h0]
  apply List.ext_getElem?
  intro j
  by_cases hj : j < v.length
  · rw [h2 j hj, List.getElem?_reverse hj]
    split
    · rfl
    · congr 1; omega
  · rw [List.getElem?_eq_none (by omega), List.getElem?_eq_none (by simp; omega)]

variable {K : Type} [Add K] [Sub K] [Mul K] [Div K] [Neg K] [Zero K] [One K] [NatCast K] [Cmp K]
variable {d : ℕ}

/-- what `ControlPoints::reverse` does with the `k`-th derivative points -/
def revPts (k : ℕ) (m : List (Pt K d)) : List (Pt K d) :=
  if k % 2 = 1 then m.reverse.map (fun v => fun r => v r * -1) else m.reverse

theorem controlPoints_reverse_ok {cp : ControlPoints K d} (h : cp.Pk.length = cp.kMax + 1) :
    cp.reverse = .ok { cp with Pk := cp.Pk.mapIdx revPts } := by
  have key := forRangeIncl_inv (lo := 0) (hi := cp.kMax) (σ := ControlPoints K d)
    (S := fun j => { cp with Pk := (cp.Pk.take j).mapIdx revPts ++ cp.Pk.drop j })
    (f := fun cp k => do
      let m ← cp.matrixDerivative k
      let m := reverseCols m
      let m := if k % 2 = 1 then m.map (fun v => fun r => v r * -1) else m
      let Pk ← setIdx cp.Pk k m
      pure { cp with Pk := Pk }) (by omega) (by
      intro i _ h2
      have hi : i < cp.Pk.length := by omega
      rw [ControlPoints.matrixDerivative, if_pos h2]
      dsimp only
      rw [idx_ok' (by simp; omega), ok_bind, setIdx_ok (by simp; omega)]
      simp only [ok_bind, pure_ok]
      congr 2
      apply List.ext_getElem (by simp; omega)
      intro j h3 h4
      simp only [reverseCols, swapLoop_eq]
      rw [List.getElem_set]
      by_cases hij : i = j
      · subst hij
        simp [List.getElem_append, revPts, show min i cp.Pk.length = i by omega]
        intro h6; omega
      · rw [if_neg hij]
        simp only [List.getElem_append, List.length_mapIdx, List.length_take, List.getElem_mapIdx,
          List.getElem_take, List.getElem_drop]
        by_cases h5 : j < i
        · rw [dif_pos (by omega), dif_pos (by omega)]
        · rw [dif_neg (by omega), dif_neg (by omega)]
          congr 1; omega)
  rw [ControlPoints.reverse]
  simp only [List.take_zero, List.mapIdx_nil, List.nil_append, List.drop_zero] at key
  rw [key, List.take_of_length_le (by omega), List.drop_of_length_le (by omega), List.append_nil]

end LawFree

variable {K : Type} [Field K] [LinearOrder K] [IsStrictOrderedRing K] {d : ℕ}

/-- the reversed knot vector: `1 - U_i` in reverse order -/
def revU (U : List K) : List K := U.reverse.map (fun x => 1 - x)

omit [IsStrictOrderedRing K] in
theorem reverseKnots_eq (U : List K) : reverseKnots U = revU U := by
  rw [reverseKnots, swapLoop_eq, revU]
  congr 1; funext x; ring

omit [IsStrictOrderedRing K] [LinearOrder K] in
@[simp] theorem revU_length (U : List K) : (revU U).length = U.length := by simp [revU]

omit [IsStrictOrderedRing K] [LinearOrder K] in
theorem revU_revU (U : List K) : revU (revU U) = U := by
  simp [revU, List.map_reverse]

omit [IsStrictOrderedRing K] [LinearOrder K] in
theorem fn_revU {U : List K} {i : ℕ} (h : i < U.length) :
    fn (revU U) i = 1 - fn U (U.length - 1 - i) := by
  rw [revU, fn_map _ (by simpa using h), fn_reverse h]

omit [IsStrictOrderedRing K] [LinearOrder K] in
theorem revU_count [DecidableEq K] (U : List K) (x : K) : (revU U).count x = U.count (1 - x) := by
  rw [revU, show x = (fun y => 1 - y) (1 - x) by simp, List.count_map_of_injective _ _
    (fun a b h => by simpa using h), List.count_reverse]
  simp

theorem revU_clamped {a b : K} {p n : ℕ} {U : List K} (h : ClampedKnots a b p n U) :
    ClampedKnots (1 - b) (1 - a) p n (revU U) := by
  have hl := h.length
  have hc := h.clamp
  have hle := h.le
  have hs : (revU U).Pairwise (· ≤ ·) := by
    rw [revU, List.pairwise_map, List.pairwise_reverse]
    exact h.sorted.imp (fun h => by linarith)
  have key : ∀ i, i < U.length → fn (revU U) i = 1 - fn U (n + p + 1 - i) := by
    intro i hi; rw [fn_revU hi, hl]; rfl
  apply ClampedKnots.of_clamp (by simp; omega)
  refine ⟨fn_monotone hs, ?_, ?_, ?_, by have := h.lt; linarith, hle⟩
  · intro i hi
    rw [key i (by omega), hc.right _ (by omega)]
  · intro i hi
    by_cases hi' : i < U.length
    · rw [key i hi', hc.left _ (by omega)]
    · rw [fn_ge (by simp; omega), fn_last (by simp; omega), revU_length, key _ (by omega),
        hc.left _ (by omega)]
  · intro i h1 h2
    rw [key i (by omega)]
    have := hc.inner (n + p + 1 - i) (by omega) (by omega)
    constructor <;> linarith

omit [IsStrictOrderedRing K] in
/-- derivative points of the reversed curve -/
theorem dpt_rev {U U' : ℕ → K} {P P' : ℕ → Pt K d} {p n : ℕ}
    (hU : ∀ i, i ≤ n + p + 1 → U' i = 1 - U (n + p + 1 - i)) (hP : ∀ i, i ≤ n → P' i = P (n - i))
    (k : ℕ) : ∀ i, i + k ≤ n → dpt U' p P' k i = (-1 : K) ^ k • dpt U p P k (n - k - i) := by
  induction k with
  | zero => intro i hi; simp [dpt, hP i hi]
  | succ k ih =>
    intro i hi
    simp only [dpt]
    rw [ih (i + 1) (by omega), ih i (by omega)]
    by_cases hp : i + p + 1 ≤ n + p + 1
    · rw [hU (i + p + 1) hp, hU (i + (k + 1)) (by omega),
        show n + p + 1 - (i + (k + 1)) = n - (k + 1) - i + p + 1 by omega,
        show n + p + 1 - (i + p + 1) = n - (k + 1) - i + (k + 1) by omega,
        show n - k - (i + 1) = n - (k + 1) - i by omega,
        show n - k - i = n - (k + 1) - i + 1 by omega]
      generalize n - (k + 1) - i = m
      simp only [Cmp.eq, decide_eq_true_eq, scale_eq_smul, sub_right_inj]
      by_cases he : U (m + (k + 1)) = U (m + p + 1)
      · rw [if_pos he, if_pos he.symm]
        exact (smul_zero _).symm
      · rw [if_neg he, if_neg (Ne.symm he), show (1 - U (m + (k + 1)) - (1 - U (m + p + 1))) =
          U (m + p + 1) - U (m + (k + 1)) by ring, ← smul_sub, smul_comm]
        rw [pow_succ, mul_neg_one, neg_smul, smul_comm, ← smul_neg, ← smul_neg, neg_sub, smul_comm]
    · omega

omit [IsStrictOrderedRing K] in
/-- reversing a canonical curve gives the canonical curve of the reversed data -/
theorem reverse_canon {p n : ℕ} {U : List K} {P : List (Pt K d)} (hU : U.length = n + p + 2)
    (hP : P.length = n + 1) (hp : p ≤ n) :
    (canon p U P).reverse = .ok (canon p (revU U) P.reverse) := by
  rw [Curve.reverse, canon_points, controlPoints_reverse_ok (by simp [canonPts])]
  simp only [ok_bind, pure_ok, canon]
  congr 2
  · simp only [Knots.reverse, canonKnots, List.map_map]
    congr 1
    apply List.map_congr_left
    intro k hk
    rw [List.mem_range] at hk
    simp only [Function.comp, reverseKnots_eq]
    apply ext_fn (by simp)
    intro i hi
    simp only [revU_length, List.length_take, List.length_drop] at hi
    have e1 : (List.take (U.length - 2 * k) (List.drop k U)).length = U.length - 2 * k := by
      rw [List.length_take, List.length_drop]; omega
    rw [fn_revU (by omega), e1, fn_drop_take (by omega) (by omega),
      fn_drop_take (by rw [revU_length]; omega) (by rw [revU_length]; omega), fn_revU (by omega)]
    congr 2
    omega
  · simp only [canonPts]
    congr 1
    apply List.ext_getElem (by simp)
    intro k h1 h2
    simp only [List.length_mapIdx, List.length_map, List.length_range] at h1
    simp only [List.getElem_mapIdx, List.getElem_map, List.getElem_range, List.length_reverse]
    have key : ∀ i, i + k ≤ n → dpt (fn (revU U)) p (fn P.reverse) k i =
        (-1 : K) ^ k • dpt (fn U) p (fn P) k (n - k - i) := by
      intro i hi
      apply dpt_rev _ _ k i hi
      · intro i hi; rw [fn_revU (by omega), hU]; rfl
      · intro i hi; rw [fn_reverse (by omega), hP]; rfl
    apply ext_fn
    · simp only [revPts]; split <;> simp
    intro i hi
    have hi' : i < P.length - k := by
      simp only [revPts] at hi; split at hi <;> simpa using hi
    rw [fn_map_range _ hi', key i (by omega), revPts]
    split
    · rename_i hodd
      rw [fn_map _ (by simpa using hi'), fn_reverse (by simpa using hi'), fn_map_range _ (by simp; omega)]
      rw [Odd.neg_one_pow (Nat.odd_iff.mpr hodd)]
      simp only [List.length_map, List.length_range]
      rw [show P.length - k - 1 - i = n - k - i by omega]
      funext r
      simp
    · rename_i hev
      rw [fn_reverse (by simpa using hi'), fn_map_range _ (by simp; omega)]
      rw [Even.neg_one_pow (Nat.even_iff.mpr (by omega)), one_smul]
      simp only [List.length_map, List.length_range]
      rw [show P.length - k - 1 - i = n - k - i by omega]

end BSpline
