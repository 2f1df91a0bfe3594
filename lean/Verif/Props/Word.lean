import Verif.Model.Word
import Verif.Props.Smoothing

/-!
# The integers of the penalty in 64 bits: C123

The entries of the difference matrix are binomial coefficients, computed with `isize`. They fit exactly for
`kappa ≤ 66`.
-/

namespace BSpline

/-- the exact matrix: entry `(i, j)` is the coefficient of `x^(j-i)` in `(x-1)^kappa` -/
def binomialMatrix (κ r c : ℕ) : List (List ℤ) :=
  (List.range r).map (fun i => (List.range c).map (fun j =>
    if i ≤ j then (-1) ^ (κ + (j - i)) * (κ.choose (j - i) : ℤ) else 0))

theorem choose_word {κ : ℕ} (h : κ ≤ 66) (j : ℕ) : κ.choose j < 2 ^ 63 := by
  have h1 : κ.choose j ≤ (66).choose j := Nat.choose_le_choose j h
  have h2 : (66).choose j ≤ (66).choose (66 / 2) := Nat.choose_le_middle j 66
  have h3 : (66).choose (66 / 2) < 2 ^ 63 := by decide +kernel
  omega

theorem choose_no_word {κ : ℕ} (h : 67 ≤ κ) : 2 ^ 63 < κ.choose 33 := by
  have h1 : (67).choose 33 ≤ κ.choose 33 := Nat.choose_le_choose 33 h
  have h3 : 2 ^ 63 < (67).choose 33 := by decide +kernel
  omega

theorem diffOp_word {κ : ℕ} (h : κ ≤ 66) (i j : ℕ) :
    -2 ^ 63 ≤ differenceOperator κ i j ∧ differenceOperator κ i j < 2 ^ 63 := by
  rcases Nat.eq_zero_or_pos κ with rfl | hκ
  · simp [differenceOperator]
  · rw [C74_difference_operator hκ]
    have := choose_word h (j - i)
    split
    · rcases neg_one_pow_eq_or ℤ (κ + (j - i)) with e | e <;> rw [e] <;> constructor <;> omega
    · norm_num

theorem diffOpI_some {κ : ℕ} {i j : ℕ} {x : ℤ} (h : differenceOperatorI κ i j = some x) :
    x = differenceOperator κ i j := by
  induction κ generalizing i x with
  | zero => simpa [differenceOperatorI, differenceOperator, eq_comm] using h
  | succ k ih =>
    cases k with
    | zero => simpa only [differenceOperatorI, differenceOperator, Option.some.injEq, eq_comm] using h
    | succ k =>
      simp only [differenceOperatorI, Option.bind_eq_bind, Option.bind_eq_some_iff] at h
      obtain ⟨a, ha, b, hb, hx⟩ := h
      unfold isub at hx
      split at hx
      · rw [differenceOperator, ← ih ha, ← ih hb]; exact (Option.some.inj hx).symm
      · cases hx

theorem diffOpI_ok {κ : ℕ} (h : κ ≤ 66) (i j : ℕ) :
    differenceOperatorI κ i j = some (differenceOperator κ i j) := by
  induction κ generalizing i with
  | zero => rfl
  | succ k ih =>
    cases k with
    | zero => rfl
    | succ k =>
      rw [differenceOperatorI, ih (by omega), ih (by omega)]
      exact if_pos (diffOp_word h i j)

theorem diffOpI_67 {k : ℕ} (hk : k = 65) : differenceOperatorI (k + 2) 0 33 = none := by
  rw [differenceOperatorI, diffOpI_ok (by omega), diffOpI_ok (by omega)]
  refine if_neg ?_
  rw [show differenceOperator (k + 1) (0 + 1) 33 - differenceOperator (k + 1) 0 33 = differenceOperator (k + 2) 0 33
    from rfl, C74_difference_operator (by omega)]
  subst hk
  decide +kernel

/-- the entry in column 33 of the first row overflows, if not earlier than at its last subtraction -/
theorem diffOpI_none {κ : ℕ} (h : 67 ≤ κ) : differenceOperatorI κ 0 33 = none := by
  induction κ, h using Nat.le_induction with
  | base =>
    exact diffOpI_67 rfl
  | succ k hk ih =>
    obtain ⟨k, rfl⟩ : ∃ k', k = k' + 1 := ⟨k - 1, by omega⟩
    rw [differenceOperatorI, ih]
    cases differenceOperatorI (k + 1) (0 + 1) 33 <;> rfl

theorem mapM_some {α β : Type} {l : List α} {f : α → Option β} {g : α → β} (h : ∀ a ∈ l, f a = some (g a)) :
    l.mapM f = some (l.map g) := by
  induction l with
  | nil => rfl
  | cons a l ih =>
    rw [List.mapM_cons, h a (by simp), ih (fun x hx => h x (by simp [hx]))]
    rfl

theorem mapM_none {α β : Type} {l : List α} {f : α → Option β} {a : α} (ha : a ∈ l) (h : f a = none) :
    l.mapM f = none := by
  induction l with
  | nil => cases ha
  | cons b l ih =>
    rw [List.mapM_cons]
    rcases List.mem_cons.mp ha with rfl | ha
    · rw [h]; rfl
    · rw [ih ha]; cases f b <;> rfl

/-- **C123**, debug builds: the loops over the difference matrix (`rows + kappa` columns) return the binomial
coefficients for `kappa ≤ 66` and panic for every larger `kappa`. -/
theorem C123_debug {κ r : ℕ} (h1 : 1 ≤ κ) (hr : 1 ≤ r) :
    differenceMatrixI κ r (r + κ) = if κ ≤ 66 then some (binomialMatrix κ r (r + κ)) else none := by
  split_ifs with h
  · refine mapM_some fun i _ => mapM_some fun j _ => ?_
    rw [diffOpI_ok h, C74_difference_operator h1]
  · exact mapM_none (a := 0) (by simp; omega) (mapM_none (a := 33) (by simp; omega) (diffOpI_none (by omega)))

theorem diffOpW_eq (κ i j : ℕ) : differenceOperatorW κ i j = Int.bmod (differenceOperator κ i j) (2 ^ 64) := by
  induction κ generalizing i with
  | zero => rw [differenceOperatorW, differenceOperator, Int.zero_bmod]
  | succ k ih =>
    cases k with
    | zero => rw [differenceOperatorW, differenceOperator]; split_ifs <;> decide +kernel
    | succ k => rw [differenceOperatorW, differenceOperator, ih, ih, Int.bmod_sub_bmod, Int.sub_bmod_bmod]

/-- **C123**, release builds: no panic, each entry is the binomial coefficient modulo `2^64`; these are the right
ones exactly for `kappa ≤ 66`. -/
theorem C123_release {κ r : ℕ} (h1 : 1 ≤ κ) (hr : 1 ≤ r) :
    differenceMatrixW κ r (r + κ) =
        (binomialMatrix κ r (r + κ)).map (List.map (fun x => Int.bmod x (2 ^ 64))) ∧
      (differenceMatrixW κ r (r + κ) = binomialMatrix κ r (r + κ) ↔ κ ≤ 66) := by
  have e : ∀ i j, differenceOperatorW κ i j = Int.bmod
      (if i ≤ j then (-1) ^ (κ + (j - i)) * (κ.choose (j - i) : ℤ) else 0) (2 ^ 64) := fun i j => by
    rw [diffOpW_eq, C74_difference_operator h1]
  refine ⟨?_, fun h => ?_, fun h => ?_⟩
  · simp only [differenceMatrixW, binomialMatrix, List.map_map, e]
    refine List.map_congr_left fun i _ => ?_
    simp only [Function.comp_apply, List.map_map]
    rfl
  · by_contra hc
    have h2 := congrArg (fun M => (M[0]?.getD [])[33]?.getD 0) h
    simp only [differenceMatrixW, binomialMatrix, List.getElem?_map, List.getElem?_range (show 0 < r by omega),
      Option.map_some, Option.getD_some, List.getElem?_range (show 33 < r + κ by omega), Nat.zero_le, if_true,
      Nat.sub_zero, e] at h2
    have h3 := choose_no_word (κ := κ) (by omega)
    have h4 := Int.bmod_lt (x := (-1) ^ (κ + 33) * (κ.choose 33 : ℤ)) (m := 2 ^ 64) (by norm_num)
    have h5 := Int.le_bmod (x := (-1) ^ (κ + 33) * (κ.choose 33 : ℤ)) (m := 2 ^ 64) (by norm_num)
    rw [h2] at h4 h5
    rcases neg_one_pow_eq_or ℤ (κ + 33) with e | e <;> rw [e] at h4 h5 <;> push_cast at h4 h5 <;> omega
  · refine List.map_congr_left fun i _ => List.map_congr_left fun j _ => ?_
    rw [diffOpW_eq, ← C74_difference_operator h1]
    have := diffOp_word h i j
    exact Int.bmod_eq_of_le (by norm_num; omega) (by norm_num; omega)

/-- the first overflow, and a matrix that fits (`C115` counts the `2^kappa - 1` calls for one entry) -/
example : differenceMatrixI 67 1 68 = none ∧ differenceMatrixW 67 1 68 ≠ binomialMatrix 67 1 68 ∧
    differenceMatrixI 3 2 5 = some [[-1, 3, -3, 1, 0], [0, -1, 3, -3, 1]] := by
  refine ⟨by rw [C123_debug (κ := 67) (r := 1) (by omega) le_rfl]; rfl, ?_, by decide +kernel⟩
  rw [Ne, (C123_release (κ := 67) (r := 1) (by omega) le_rfl).2]
  omega

variable {K : Type} [Field K] [LinearOrder K]

/-- **C123**: for `kappa ≤ 66` the difference matrices of both fits are the converted results of these loops, in
debug and release builds, so that all claims about penalised fits hold for `isize` as well. -/
theorem C123_model {p n κ : ℕ} {U : List K} {kn : Knots K} (hk : Knots.new p U = .ok kn)
    (hU : U.length = n + p + 2) (hp : p ≤ n) (h66 : κ ≤ 66) :
    (κ ≤ n → ∃ M, differenceMatrixI κ (n + 1 - κ) (n + 1) = some M ∧ differenceMatrixW κ (n + 1 - κ) (n + 1) = M ∧
      Loose.finiteDifferenceMatrix κ kn = .ok (M.map (List.map (fun x : ℤ => (x : K))))) ∧
    (κ + 2 ≤ n → ∃ M, differenceMatrixI κ (n - 1 - κ) (n - 1) = some M ∧
      differenceMatrixW κ (n - 1 - κ) (n - 1) = M ∧
      Fixed.finiteDifferenceMatrix κ kn = .ok (M.map (List.map (fun x : ℤ => (x : K))))) := by
  have eI : ∀ r c, differenceMatrixI κ r c =
      some ((List.range r).map (fun i => (List.range c).map (fun j => differenceOperator κ i j))) := fun r c =>
    mapM_some fun i _ => mapM_some fun j _ => diffOpI_ok h66 i j
  have eW : ∀ r c, differenceMatrixW κ r c =
      (List.range r).map (fun i => (List.range c).map (fun j => differenceOperator κ i j)) := fun r c =>
    List.map_congr_left fun i _ => List.map_congr_left fun j _ => by
      rw [diffOpW_eq]
      have := diffOp_word h66 i j
      exact Int.bmod_eq_of_le (by norm_num; omega) (by norm_num; omega)
  rw [Knots.new_ok (by omega)] at hk
  injection hk with hk
  subst hk
  refine ⟨fun h => ⟨_, eI _ _, eW _ _, ?_⟩, fun h => ⟨_, eI _ _, eW _ _, ?_⟩⟩
  · rw [loose_fd_ok hU h]
    simp [mat]
  · rw [fixed_fd_ok hU h]
    simp [mat]

end BSpline
