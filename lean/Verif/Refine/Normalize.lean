import Verif.Refine.Value

/-!
# Affine changes of the knots
-/

set_option linter.unusedSectionVars false

namespace BSpline

theorem fn_map_of_ne_nil {α β : Type} [Zero α] [Zero β] (f : α → β) {l : List α} (hl : l ≠ []) (i : ℕ) :
    fn (l.map f) i = f (fn l i) := by
  have hpos : 0 < l.length := List.length_pos_iff.mpr hl
  by_cases h : i < l.length
  · exact fn_map f h
  · rw [fn_ge (by simp; omega), fn_ge (by omega), fn_last (by simpa using hpos), fn_last hpos,
      List.length_map, fn_map f (by omega)]

variable {K : Type} [Field K] [LinearOrder K] [IsStrictOrderedRing K] {d : ℕ}

theorem foldl_min_spec (l : List K) : ∀ x,
    (l.foldl (fun a b => if Cmp.le a b then a else b) x ∈ x :: l) ∧
    ∀ y ∈ x :: l, l.foldl (fun a b => if Cmp.le a b then a else b) x ≤ y := by
  induction l with
  | nil => intro x; simp
  | cons a l ih =>
    intro x
    simp only [List.foldl_cons, Cmp.le, decide_eq_true_eq] at ih ⊢
    obtain ⟨h1, h2⟩ := ih (if x ≤ a then x else a)
    constructor
    · rcases List.mem_cons.mp h1 with h | h
      · rw [h]; split <;> simp
      · simp [h]
    · intro y hy
      have h3 := h2 _ (List.mem_cons_self ..)
      rcases List.mem_cons.mp hy with rfl | hy
      · refine h3.trans ?_; split
        · exact le_rfl
        · rename_i h; exact (not_le.mp h).le
      · rcases List.mem_cons.mp hy with rfl | hy
        · refine h3.trans ?_; split
          · assumption
          · exact le_rfl
        · exact h2 y (List.mem_cons_of_mem _ hy)

theorem foldl_max_spec (l : List K) : ∀ x,
    (l.foldl (fun a b => if Cmp.le b a then a else b) x ∈ x :: l) ∧
    ∀ y ∈ x :: l, y ≤ l.foldl (fun a b => if Cmp.le b a then a else b) x := by
  induction l with
  | nil => intro x; simp
  | cons a l ih =>
    intro x
    simp only [List.foldl_cons, Cmp.le, decide_eq_true_eq] at ih ⊢
    obtain ⟨h1, h2⟩ := ih (if a ≤ x then x else a)
    constructor
    · rcases List.mem_cons.mp h1 with h | h
      · rw [h]; split <;> simp
      · simp [h]
    · intro y hy
      have h3 := h2 _ (List.mem_cons_self ..)
      rcases List.mem_cons.mp hy with rfl | hy
      · refine le_trans ?_ h3; split
        · exact le_rfl
        · rename_i h; exact (not_le.mp h).le
      · rcases List.mem_cons.mp hy with rfl | hy
        · refine le_trans ?_ h3; split
          · assumption
          · exact le_rfl
        · exact h2 y (List.mem_cons_of_mem _ hy)

theorem vmin_mem {l : List K} (h : l ≠ []) : vmin l ∈ l := by
  cases l with
  | nil => exact absurd rfl h
  | cons a l => exact (foldl_min_spec l a).1

theorem vmin_le {l : List K} {y : K} (hy : y ∈ l) : vmin l ≤ y := by
  cases l with
  | nil => simp at hy
  | cons a l => exact (foldl_min_spec l a).2 y hy

theorem vmax_mem {l : List K} (h : l ≠ []) : vmax l ∈ l := by
  cases l with
  | nil => exact absurd rfl h
  | cons a l => exact (foldl_max_spec l a).1

theorem le_vmax {l : List K} {y : K} (hy : y ∈ l) : y ≤ vmax l := by
  cases l with
  | nil => simp at hy
  | cons a l => exact (foldl_max_spec l a).2 y hy

namespace ClampedKnots

variable {a b : K} {p n : ℕ} {U : List K}

theorem ne_nil (h : ClampedKnots a b p n U) : U ≠ [] := by
  rintro rfl; have := h.length; simp at this

theorem mem_bounds (h : ClampedKnots a b p n U) {x : K} (hx : x ∈ U) : a ≤ x ∧ x ≤ b := by
  obtain ⟨i, hi, rfl⟩ := List.getElem_of_mem hx
  rw [← fn_lt hi]
  exact ⟨h.clamp.a_le i, h.clamp.le_b i⟩

theorem a_mem (h : ClampedKnots a b p n U) : a ∈ U := by
  have := h.length
  rw [← h.clamp.left 0 (by omega), fn_lt (by omega)]; exact List.getElem_mem _

theorem b_mem (h : ClampedKnots a b p n U) : b ∈ U := by
  have := h.length
  rw [← h.clamp.right (n + 1) le_rfl, fn_lt (by omega)]; exact List.getElem_mem _

theorem vmin_eq (h : ClampedKnots a b p n U) : vmin U = a :=
  le_antisymm (vmin_le h.a_mem) (h.mem_bounds (vmin_mem h.ne_nil)).1

theorem vmax_eq (h : ClampedKnots a b p n U) : vmax U = b :=
  le_antisymm (h.mem_bounds (vmax_mem h.ne_nil)).2 (le_vmax h.b_mem)

/-- increasing affine maps keep knot vectors clamped -/
theorem affine (h : ClampedKnots a b p n U) {c : K} (hc : 0 < c) (e : K) :
    ClampedKnots (c * a + e) (c * b + e) p n (U.map (fun x => c * x + e)) := by
  have hcl := h.clamp
  apply ClampedKnots.of_clamp (by simpa using h.length)
  have hf : ∀ i, fn (U.map (fun x => c * x + e)) i = c * fn U i + e :=
    fun i => fn_map_of_ne_nil _ h.ne_nil i
  refine ⟨?_, ?_, ?_, ?_, ?_, h.le⟩
  · intro i j hij
    rw [hf, hf]
    have := mul_le_mul_of_nonneg_left (hcl.mono hij) hc.le
    linarith
  · intro i hi; rw [hf, hcl.left i hi]
  · intro i hi; rw [hf, hcl.right i hi]
  · intro i h1 h2
    rw [hf]
    obtain ⟨h3, h4⟩ := hcl.inner i h1 h2
    have h5 := mul_lt_mul_of_pos_left h3 hc
    have h6 := mul_lt_mul_of_pos_left h4 hc
    constructor <;> linarith
  · have := mul_lt_mul_of_pos_left h.lt hc
    linarith

theorem normalize_eq (h : ClampedKnots a b p n U) :
    normalizeKnots U = U.map (fun x => (b - a)⁻¹ * x + -a / (b - a)) := by
  rw [normalizeKnots, rescaleKnots, h.vmin_eq, h.vmax_eq]
  apply List.map_congr_left
  intro x _
  have : b - a ≠ 0 := sub_ne_zero.mpr h.lt.ne'
  field_simp
  ring

theorem normalize (h : ClampedKnots a b p n U) : ClampedKnots 0 1 p n (normalizeKnots U) := by
  have hpos : 0 < b - a := sub_pos.mpr h.lt
  have := h.affine (inv_pos.mpr hpos) (-a / (b - a))
  rw [h.normalize_eq]
  convert this using 1
  · field_simp; ring
  · field_simp; ring

end ClampedKnots

omit [IsStrictOrderedRing K] in
/-- derivative points scale with the inverse of the knot scale -/
theorem dpt_affine {U U' : ℕ → K} {p : ℕ} {c e : K} (hc : c ≠ 0) (hU : ∀ i, U' i = c * U i + e)
    (P : ℕ → Pt K d) (k : ℕ) : ∀ i, dpt U' p P k i = (c⁻¹) ^ k • dpt U p P k i := by
  induction k with
  | zero => intro i; simp [dpt]
  | succ k ih =>
    intro i
    simp only [dpt, ih, hU, Cmp.eq, decide_eq_true_eq, scale_eq_smul, add_left_inj, mul_right_inj' hc]
    by_cases he : U (i + p + 1) = U (i + (k + 1))
    · rw [if_pos he, if_pos he]; exact (smul_zero _).symm
    · rw [if_neg he, if_neg he, ← smul_sub, smul_smul, smul_smul]
      congr 1
      have hne : U (i + p + 1) - U (i + (k + 1)) ≠ 0 := sub_ne_zero.mpr he
      rw [show c * U (i + p + 1) + e - (c * U (i + (k + 1)) + e) =
        c * (U (i + p + 1) - U (i + (k + 1))) by ring, pow_succ]
      field_simp

theorem cv_affine {U U' : ℕ → K} {p : ℕ} {c e : K} (hc : c ≠ 0) (hU : ∀ i, U' i = c * U i + e)
    (P : ℕ → Pt K d) (k j : ℕ) (t : K) :
    cv U' p P k j (c * t + e) = (c⁻¹) ^ k • cv U p P k j t := by
  have h1 : dpt U' p P k = fun i => (c⁻¹) ^ k • dpt U p P k i := by
    funext i; exact dpt_affine hc hU P k i
  have h2 : shiftN k U' = fun i => c * shiftN k U i + e := by funext i; simp [hU]
  rw [cv, h1, bl_smul, h2]
  have := bl_reparam c e hc (List.replicate (p - k) t) (shiftN k U) (dpt U p P k)
  rw [List.map_replicate] at this
  beta_reduce
  rw [this]; rfl

/-- spans correspond under an increasing affine map -/
theorem isSpan_affine {U U' : ℕ → K} {n j : ℕ} {c e : K} (hc : 0 < c)
    (hU : ∀ i, U' i = c * U i + e) {t : K} : IsSpan U' n (c * t + e) j ↔ IsSpan U n t j := by
  constructor
  · rintro ⟨h1, h2, h3⟩
    refine ⟨h1, ?_, ?_⟩
    · rw [hU] at h2
      exact le_of_mul_le_mul_left (by linarith) hc
    · rcases h3 with h3 | ⟨h3, h4⟩
      · left; rw [hU] at h3; exact lt_of_mul_lt_mul_left (by linarith) hc.le
      · right; refine ⟨h3, ?_⟩
        rw [hU] at h4; exact mul_left_cancel₀ hc.ne' (by linarith)
  · rintro ⟨h1, h2, h3⟩
    refine ⟨h1, ?_, ?_⟩
    · rw [hU]; have := mul_le_mul_of_nonneg_left h2 hc.le; linarith
    · rcases h3 with h3 | ⟨h3, h4⟩
      · left; rw [hU]; have := mul_lt_mul_of_pos_left h3 hc; linarith
      · right; refine ⟨h3, ?_⟩; rw [hU, h4]

end BSpline
