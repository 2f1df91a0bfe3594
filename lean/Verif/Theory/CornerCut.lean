import Verif.Spec.Polygon
import Mathlib.Tactic.Linarith
import Mathlib.Tactic.Module
import Mathlib.Tactic.Positivity

/-!
# What corner cutting does to a polygon
-/

set_option linter.unusedSectionVars false

namespace BSpline

variable {K V : Type} [Field K] [LinearOrder K] [IsStrictOrderedRing K] [AddCommGroup V] [Module K V]

theorem CornerCut.trans {P Q R : List V} (h : CornerCut (K := K) P Q) (h' : CornerCut (K := K) Q R) :
    CornerCut (K := K) P R := by
  induction h' with
  | refl => exact h
  | edge _ h0 h1 ih => exact ih.edge h0 h1
  | drop _ hs ih => exact ih.drop hs

theorem CornerCut.map {W : Type} [AddCommGroup W] [Module K W] {P Q : List V}
    (h : CornerCut (K := K) P Q) (f : V → W)
    (hf : ∀ (s : K) x y, f ((1 - s) • x + s • y) = (1 - s) • f x + s • f y) :
    CornerCut (K := K) (P.map f) (Q.map f) := by
  induction h with
  | refl => exact .refl
  | edge _ h0 h1 ih =>
    simp only [List.map_append, List.map_cons, hf] at ih ⊢
    exact ih.edge h0 h1
  | drop _ hs ih => exact ih.drop (hs.map f)

/-! ### One point on every edge -/

/-- one point on every edge, between its end points -/
def interl (α : ℕ → K) : ℕ → List V → List V
  | i, x :: y :: B => x :: ((1 - α i) • x + α i • y) :: interl α (i + 1) (y :: B)
  | _, l => l

/-- one point on every edge, and the last point -/
def cutTail (α : ℕ → K) : ℕ → List V → List V
  | i, x :: y :: B => ((1 - α i) • x + α i • y) :: cutTail α (i + 1) (y :: B)
  | _, l => l

theorem CornerCut.interl {P : List V} {α : ℕ → K} (hα : ∀ i, 0 ≤ α i ∧ α i ≤ 1) (B : List V) :
    ∀ (A : List V) (i : ℕ), CornerCut (K := K) P (A ++ B) → CornerCut (K := K) P (A ++ interl α i B) := by
  induction B with
  | nil => intro A i h; exact h
  | cons x B ih =>
    intro A i h
    cases B with
    | nil => exact h
    | cons y B =>
      have h2 := ih (A ++ [x, (1 - α i) • x + α i • y]) (i + 1)
        (by simpa using h.edge (hα i).1 (hα i).2)
      simpa [BSpline.interl] using h2

theorem cutTail_sublist (α : ℕ → K) (B : List V) : ∀ (i : ℕ) (x : V),
    (x :: cutTail α i (x :: B)).Sublist (x :: interl α i (x :: B)) ∧
      (B ≠ [] → (x :: cutTail α i (x :: B)).Sublist (interl α i (x :: B))) := by
  induction B with
  | nil => intro i x; exact ⟨by simp [cutTail, interl], by simp⟩
  | cons y B ih =>
    intro i x
    have h2 : (cutTail α (i + 1) (y :: B)).Sublist (interl α (i + 1) (y :: B)) := by
      by_cases hB : B = []
      · subst hB; simp [cutTail, interl]
      · exact (List.sublist_cons_self _ _).trans ((ih (i + 1) y).2 hB)
    have : (x :: cutTail α i (x :: y :: B)).Sublist (interl α i (x :: y :: B)) := by
      simp only [cutTail, interl]
      exact (h2.cons_cons _).cons_cons _
    exact ⟨this.trans (List.sublist_cons_self _ _), fun _ => this⟩

theorem cutTail_length (α : ℕ → K) (B : List V) : ∀ i, (cutTail α i B).length = B.length := by
  induction B with
  | nil => intro i; rfl
  | cons x B ih =>
    intro i
    cases B with
    | nil => rfl
    | cons y B => simp only [cutTail, List.length_cons, ih (i + 1)]

theorem cutTail_getElem (α : ℕ → K) (B : List V) : ∀ (i k : ℕ) (h : k + 1 < B.length),
    (cutTail α i B)[k]'(by rw [cutTail_length]; omega) =
      (1 - α (i + k)) • B[k] + α (i + k) • B[k + 1] := by
  induction B with
  | nil => intro i k h; simp at h
  | cons x B ih =>
    intro i k h
    cases B with
    | nil => simp at h
    | cons y B =>
      cases k with
      | zero => simp [cutTail]
      | succ k =>
        have := ih (i + 1) k (by simpa using h)
        simp only [cutTail, List.getElem_cons_succ]
        simp only [List.getElem_cons_succ] at this
        rw [this, show i + 1 + k = i + (k + 1) by omega]

theorem cutTail_last (α : ℕ → K) (B : List V) : ∀ (i : ℕ) (h : B ≠ []),
    (cutTail α i B)[B.length - 1]'(by
      rw [cutTail_length]; have := List.length_pos_of_ne_nil h; omega) = B.getLast h := by
  induction B with
  | nil => intro i h; exact absurd rfl h
  | cons x B ih =>
    intro i h
    cases B with
    | nil => rfl
    | cons y B =>
      have := ih (i + 1) (by simp)
      simp only [cutTail, List.length_cons, Nat.add_sub_cancel, List.getElem_cons_succ,
        List.getLast_cons_cons] at this ⊢
      exact this

/-- replacing every edge by a point on it, keeping the end points, is corner cutting -/
theorem CornerCut.step {n : ℕ} {P Q : List V} {α : ℕ → K} (hα : ∀ i, 0 ≤ α i ∧ α i ≤ 1)
    (hn : 1 ≤ n) (hP : P.length = n + 1) (hQ : Q.length = n + 2) (h0 : Q[0] = P[0])
    (hl : Q[n + 1] = P[n])
    (hm : ∀ i (h1 : i < n), Q[i + 1] = (1 - α (i + 1)) • P[i] + α (i + 1) • P[i + 1]) :
    CornerCut (K := K) P Q := by
  obtain ⟨x, B, rfl⟩ : ∃ x B, P = x :: B := by
    cases P with
    | nil => simp at hP
    | cons x B => exact ⟨x, B, rfl⟩
  have hB : B ≠ [] := by rintro rfl; simp at hP; omega
  have key : Q = x :: cutTail α 1 (x :: B) := by
    apply List.ext_getElem
    · rw [List.length_cons, cutTail_length, hP, hQ]
    · intro i h1 h2
      cases i with
      | zero => exact h0
      | succ i =>
        rw [List.getElem_cons_succ]
        rcases Nat.lt_or_ge i n with h | h
        · rw [cutTail_getElem _ _ _ _ (by omega), hm i h, show 1 + i = i + 1 by omega]
        · obtain rfl : i = n := by omega
          have := cutTail_last α (x :: B) 1 (by simp)
          simp only [hP, Nat.add_sub_cancel] at this
          rw [this, hl, List.getLast_eq_getElem]
          simp only [hP, Nat.add_sub_cancel]
  rw [key]
  exact (CornerCut.interl (P := x :: B) hα (x :: B) [] 1 .refl).drop ((cutTail_sublist α B 1 x).2 hB)

/-! ### Sign changes -/

/-- the sign of the product of two numbers of known sign -/
theorem mul_lt_zero_iff_of_pos {s x : K} (h : 0 < s) : s * x < 0 ↔ x < 0 := by
  rw [mul_neg_iff]; simp [h, h.not_gt]

theorem mul_lt_zero_iff_of_neg {s x : K} (h : s < 0) : s * x < 0 ↔ 0 < x := by
  rw [mul_neg_iff]; simp [h, h.not_gt]

theorem same_sign {s t : K} (h : 0 < s * t) : (0 < s ∧ 0 < t) ∨ (s < 0 ∧ t < 0) := pos_and_pos_or_neg_and_neg_of_mul_pos h

theorem signChangesFrom_congr (l : List K) {s t : K} (h : 0 < s * t) :
    signChangesFrom s l = signChangesFrom t l := by
  induction l with
  | nil => rfl
  | cons x l ih =>
    simp only [signChangesFrom]
    split
    · exact ih
    · congr 1
      rcases same_sign h with ⟨a, b⟩ | ⟨a, b⟩
      · simp only [mul_lt_zero_iff_of_pos a, mul_lt_zero_iff_of_pos b]
      · simp only [mul_lt_zero_iff_of_neg a, mul_lt_zero_iff_of_neg b]

/-- triangle inequality for sign changes -/
theorem ind_triangle (s : K) {x z : K} (hx : x ≠ 0) (hz : z ≠ 0) :
    (if s * z < 0 then 1 else 0) ≤ (if s * x < 0 then 1 else 0) + (if x * z < 0 then 1 else 0) := by
  rcases lt_trichotomy s 0 with hs | rfl | hs
  · simp only [mul_lt_zero_iff_of_neg hs]
    rcases lt_or_gt_of_ne hx with hx | hx
    · simp only [mul_lt_zero_iff_of_neg hx]; split <;> simp
    · simp only [mul_lt_zero_iff_of_pos hx, if_pos hx]; split <;> simp
  · simp
  · simp only [mul_lt_zero_iff_of_pos hs]
    rcases lt_or_gt_of_ne hx with hx | hx
    · simp only [mul_lt_zero_iff_of_neg hx, if_pos hx]; split <;> simp
    · simp only [mul_lt_zero_iff_of_pos hx]; split <;> simp

theorem signChangesFrom_le (l : List K) (s : K) {x : K} (hx : x ≠ 0) :
    signChangesFrom s l ≤ (if s * x < 0 then 1 else 0) + signChangesFrom x l := by
  induction l with
  | nil => simp [signChangesFrom]
  | cons z l ih =>
    simp only [signChangesFrom]
    split
    · exact ih
    · rename_i hz
      have := ind_triangle s hx hz
      omega

theorem signChangesFrom_sublist {l l' : List K} (h : l.Sublist l') :
    ∀ s : K, signChangesFrom s l ≤ signChangesFrom s l' := by
  induction h with
  | slnil => intro s; exact le_rfl
  | cons x _ ih =>
    intro s
    simp only [signChangesFrom]
    split
    · exact ih s
    · rename_i hx
      exact (signChangesFrom_le _ s hx).trans (Nat.add_le_add_left (ih x) _)
  | cons_cons x _ ih =>
    intro s
    simp only [signChangesFrom]
    split
    · exact ih s
    · exact Nat.add_le_add_left (ih x) _

/-- a point on an edge adds no sign change -/
theorem signChangesFrom_edge (B : List K) {x y α : K} (h0 : 0 ≤ α) (h1 : α ≤ 1) (s : K) :
    signChangesFrom s (x :: ((1 - α) * x + α * y) :: y :: B) ≤ signChangesFrom s (x :: y :: B) := by
  set m := (1 - α) * x + α * y with hm
  by_cases hm0 : m = 0
  · simp only [signChangesFrom, if_pos hm0]; exact le_rfl
  have h1' : 0 ≤ 1 - α := by linarith
  -- the state after `x`
  have key : ∀ t : K, (x ≠ 0 → t = x) → signChangesFrom t (m :: y :: B) ≤ signChangesFrom t (y :: B) := by
    intro t ht
    by_cases hy : y = 0
    · have hx : x ≠ 0 := by rintro rfl; apply hm0; rw [hm, hy]; simp
      have hmx : m = (1 - α) * x := by rw [hm, hy]; ring
      have hpos : 0 < 1 - α := by
        rcases h1'.lt_or_eq with h | h
        · exact h
        · exfalso; apply hm0; rw [hmx, ← h]; simp
      obtain rfl := ht hx
      have : 0 < t * m := by
        rw [hmx, show t * ((1 - α) * t) = (1 - α) * (t * t) by ring]
        exact mul_pos hpos (mul_self_pos.mpr hx)
      simp only [signChangesFrom, if_neg hm0, if_pos hy, if_neg (not_lt.mpr this.le)]
      rw [signChangesFrom_congr B this]; omega
    · simp only [signChangesFrom, if_neg hm0, if_neg hy]
      rw [← add_assoc]
      apply Nat.add_le_add_right
      rcases lt_or_gt_of_ne hm0 with hmn | hmp
      · rcases lt_or_gt_of_ne hy with hyn | hyp
        · simp only [mul_lt_zero_iff_of_neg hmn, if_neg (not_lt.mpr hyn.le)]
          rcases lt_trichotomy t 0 with h | h | h
          · simp only [mul_lt_zero_iff_of_neg h]; simp [not_lt.mpr hmn.le]
          · simp [h]
          · simp only [mul_lt_zero_iff_of_pos h]; simp [hmn, hyn]
        · have hx : x < 0 := by
            by_contra hc
            have : 0 ≤ (1 - α) * x := mul_nonneg h1' (not_lt.mp hc)
            have : 0 ≤ α * y := mul_nonneg h0 hyp.le
            linarith
          obtain rfl := ht hx.ne
          simp only [mul_lt_zero_iff_of_neg hmn, mul_lt_zero_iff_of_neg hx, if_pos hyp,
            if_neg (not_lt.mpr hmn.le)]
          exact le_rfl
      · rcases lt_or_gt_of_ne hy with hyn | hyp
        · have hx : 0 < x := by
            by_contra hc
            have : (1 - α) * x ≤ 0 := mul_nonpos_of_nonneg_of_nonpos h1' (not_lt.mp hc)
            have : α * y ≤ 0 := mul_nonpos_of_nonneg_of_nonpos h0 hyn.le
            linarith
          obtain rfl := ht hx.ne'
          simp only [mul_lt_zero_iff_of_pos hmp, mul_lt_zero_iff_of_pos hx, if_pos hyn,
            if_neg (not_lt.mpr hmp.le)]
          exact le_rfl
        · simp only [mul_lt_zero_iff_of_pos hmp, if_neg (not_lt.mpr hyp.le)]
          rcases lt_trichotomy t 0 with h | h | h
          · simp only [mul_lt_zero_iff_of_neg h]; simp [hmp, hyp]
          · simp [h]
          · simp only [mul_lt_zero_iff_of_pos h]; simp [not_lt.mpr hmp.le]
  by_cases hx : x = 0
  · have := key s (fun h => absurd hx h)
    have e : ∀ l, signChangesFrom s (x :: l) = signChangesFrom s l := fun l => by
      rw [signChangesFrom, if_pos hx]
    rw [e, e]
    exact this
  · have := key x (fun _ => rfl)
    have e : ∀ l, signChangesFrom s (x :: l) = (if s * x < 0 then 1 else 0) + signChangesFrom x l :=
      fun l => by rw [signChangesFrom, if_neg hx]
    rw [e, e]
    exact Nat.add_le_add_left this _

theorem signChangesFrom_append_le {l l' : List K} (h : ∀ s, signChangesFrom s l ≤ signChangesFrom s l')
    (A : List K) : ∀ s, signChangesFrom s (A ++ l) ≤ signChangesFrom s (A ++ l') := by
  induction A with
  | nil => exact h
  | cons x A ih =>
    intro s
    simp only [List.cons_append, signChangesFrom]
    split
    · exact ih s
    · exact Nat.add_le_add_left (ih x) _

/-- corner cutting does not increase the number of sign changes -/
theorem CornerCut.signChanges_le {P Q : List K} (h : CornerCut (K := K) P Q) :
    signChanges Q ≤ signChanges P := by
  induction h with
  | refl => exact le_rfl
  | edge _ h0 h1 ih =>
    exact (signChangesFrom_append_le (signChangesFrom_edge _ h0 h1) _ 0).trans ih
  | drop _ hs ih => exact (signChangesFrom_sublist hs 0).trans ih

/-! ### Order and length -/

/-- corner cutting keeps a list of numbers sorted -/
theorem CornerCut.sorted {P Q : List K} (h : CornerCut (K := K) P Q) (hs : P.Pairwise (· ≤ ·)) :
    Q.Pairwise (· ≤ ·) := by
  induction h with
  | refl => exact hs
  | @edge A B x y α _ h0 h1 ih =>
    have h1' : 0 ≤ 1 - α := by linarith
    simp only [List.pairwise_append, List.pairwise_cons, List.mem_cons, smul_eq_mul] at ih ⊢
    obtain ⟨hA, ⟨hx, hy, hB⟩, hAB⟩ := ih
    have hxy : x ≤ y := hx y (Or.inl rfl)
    have e1 : x ≤ (1 - α) * x + α * y := by nlinarith [mul_nonneg h0 (sub_nonneg.mpr hxy)]
    have e2 : (1 - α) * x + α * y ≤ y := by nlinarith [mul_nonneg h1' (sub_nonneg.mpr hxy)]
    refine ⟨hA, ⟨?_, ?_, hy, hB⟩, ?_⟩
    · rintro z (rfl | rfl | hz)
      · exact e1
      · exact hxy
      · exact hx z (Or.inr hz)
    · rintro z (rfl | hz)
      · exact e2
      · exact e2.trans (hy z hz)
    · rintro a ha z (rfl | rfl | rfl | hz)
      · exact hAB a ha _ (Or.inl rfl)
      · exact (hAB a ha x (Or.inl rfl)).trans e1
      · exact hAB a ha _ (Or.inr (Or.inl rfl))
      · exact hAB a ha z (Or.inr (Or.inr hz))
  | drop _ hs ih => exact ih.sublist hs

section
variable {w : V → V → K}

theorem polyLength_nonneg (hw : ∀ x y, 0 ≤ w x y) (l : List V) : 0 ≤ polyLength w l := by
  induction l with
  | nil => exact le_rfl
  | cons x l ih =>
    cases l with
    | nil => exact le_rfl
    | cons y l => exact add_nonneg (hw _ _) ih

theorem polyLength_cons_le (hw : ∀ x y, 0 ≤ w x y) (htri : ∀ x y z, w x z ≤ w x y + w y z) (x y : V)
    (l : List V) : polyLength w (x :: l) ≤ w x y + polyLength w (y :: l) := by
  cases l with
  | nil => simpa [polyLength] using hw x y
  | cons z l => simp only [polyLength]; linarith [htri x y z]

theorem polyLength_sublist (hw : ∀ x y, 0 ≤ w x y) (htri : ∀ x y z, w x z ≤ w x y + w y z)
    {l l' : List V} (h : l.Sublist l') :
    polyLength w l ≤ polyLength w l' ∧ ∀ x, polyLength w (x :: l) ≤ polyLength w (x :: l') := by
  induction h with
  | slnil => exact ⟨le_rfl, fun _ => le_rfl⟩
  | @cons l₁ l₂ y _ ih =>
    refine ⟨?_, ?_⟩
    · refine ih.1.trans ?_
      cases l₂ with
      | nil => exact le_rfl
      | cons z l => simp only [polyLength]; linarith [hw y z]
    · intro x
      calc polyLength w (x :: l₁) ≤ w x y + polyLength w (y :: l₁) := polyLength_cons_le hw htri x y _
        _ ≤ w x y + polyLength w (y :: l₂) := by linarith [ih.2 y]
        _ = polyLength w (x :: y :: l₂) := rfl
  | @cons_cons l₁ l₂ y _ ih =>
    refine ⟨ih.2 y, ?_⟩
    intro x
    simp only [polyLength]
    linarith [ih.2 y]

theorem polyLength_append_le {l l' : List V} (h : polyLength w l ≤ polyLength w l')
    (hx : ∀ x, polyLength w (x :: l) ≤ polyLength w (x :: l')) (A : List V) :
    polyLength w (A ++ l) ≤ polyLength w (A ++ l') := by
  induction A with
  | nil => exact h
  | cons a A ih =>
    cases A with
    | nil => exact hx a
    | cons b A =>
      simp only [List.cons_append, polyLength] at ih ⊢
      linarith

/-- corner cutting does not lengthen a polygon -/
theorem CornerCut.length_le (hw : ∀ x y, 0 ≤ w x y) (htri : ∀ x y z, w x z ≤ w x y + w y z)
    (hseg : ∀ (s : K) x y, 0 ≤ s → s ≤ 1 →
      w x ((1 - s) • x + s • y) + w ((1 - s) • x + s • y) y ≤ w x y) {P Q : List V}
    (h : CornerCut (K := K) P Q) : polyLength w Q ≤ polyLength w P := by
  induction h with
  | refl => exact le_rfl
  | @edge A B x y α _ h0 h1 ih =>
    refine le_trans (polyLength_append_le ?_ ?_ A) ih
    · simp only [polyLength]; linarith [hseg α x y h0 h1]
    · intro z; simp only [polyLength]; linarith [hseg α x y h0 h1]
  | drop _ hs ih => exact (polyLength_sublist hw htri hs).1.trans ih

end

end BSpline
