import Verif.Theory.Span

/-!
# Dependence of a curve on its points, its knots and its parameter

One lemma on polar forms: moving control points by `η`, and knots and argument relative to each other by `E`, moves
the value by at most `η + p ℓ E`, where `ℓ` bounds the slopes of the control polygon.
-/

namespace BSpline

variable {K : Type*} [Field K] [LinearOrder K] [IsStrictOrderedRing K]

/-- one de Boor step, with the argument between the knots -/
theorem D_slope {V : ℕ → K} {q : ℕ} {t l : K} {Q : ℕ → K} {i : ℕ} (h1 : V (i + 1) < V (i + 1 + q))
    (h2 : V (i + 2) < V (i + 2 + q)) (hl : V (i + 2) ≤ t) (hr : t ≤ V (i + 1 + q))
    (hQ : |Q (i + 1) - Q i| ≤ l * (V (i + 1 + q) - V (i + 1)))
    (hQ' : |Q (i + 2) - Q (i + 1)| ≤ l * (V (i + 2 + q) - V (i + 2))) :
    |D V q t Q (i + 1) - D V q t Q i| ≤ l * (V (i + 1 + q) - V (i + 2)) := by
  have e : D V q t Q (i + 1) - D V q t Q i =
      (t - V (i + 2)) / (V (i + 2 + q) - V (i + 2)) * (Q (i + 2) - Q (i + 1)) +
      (V (i + 1 + q) - t) / (V (i + 1 + q) - V (i + 1)) * (Q (i + 1) - Q i) := by
    simp only [D, smul_eq_mul]
    have a1 : V (i + 1 + 1 + q) - V (i + 1 + 1) ≠ 0 := (sub_pos.mpr h2).ne'
    have a2 : V (i + 1 + q) - V (i + 1) ≠ 0 := (sub_pos.mpr h1).ne'
    rw [show i + 2 + q = i + 1 + 1 + q by ring, show i + 2 = i + 1 + 1 by ring]
    field_simp
    ring
  have b1 : 0 < V (i + 2 + q) - V (i + 2) := sub_pos.mpr h2
  have b2 : 0 < V (i + 1 + q) - V (i + 1) := sub_pos.mpr h1
  rw [e]
  calc _ ≤ |(t - V (i + 2)) / (V (i + 2 + q) - V (i + 2)) * (Q (i + 2) - Q (i + 1))| +
        |(V (i + 1 + q) - t) / (V (i + 1 + q) - V (i + 1)) * (Q (i + 1) - Q i)| := abs_add_le _ _
    _ ≤ (t - V (i + 2)) / (V (i + 2 + q) - V (i + 2)) * (l * (V (i + 2 + q) - V (i + 2))) +
        (V (i + 1 + q) - t) / (V (i + 1 + q) - V (i + 1)) * (l * (V (i + 1 + q) - V (i + 1))) := by
      rw [abs_mul, abs_mul, abs_of_nonneg (div_nonneg (sub_nonneg.mpr hl) b1.le),
        abs_of_nonneg (div_nonneg (sub_nonneg.mpr hr) b2.le)]
      exact add_le_add (mul_le_mul_of_nonneg_left hQ' (div_nonneg (sub_nonneg.mpr hl) b1.le))
        (mul_le_mul_of_nonneg_left hQ (div_nonneg (sub_nonneg.mpr hr) b2.le))
    _ = l * (V (i + 1 + q) - V (i + 2)) := by field_simp; ring

theorem D_stable {U V : ℕ → K} {q : ℕ} {t s l E η : K} {P Q : ℕ → K} {i : ℕ} (hE : 0 ≤ E)
    (h1 : U (i + 1) < U (i + 1 + q)) (hl : U (i + 1) ≤ t) (hr : t ≤ U (i + 1 + q))
    (h2 : V (i + 1) < V (i + 1 + q))
    (hE1 : |(t - s) - (U (i + 1) - V (i + 1))| ≤ E) (hE2 : |(t - s) - (U (i + 1 + q) - V (i + 1 + q))| ≤ E)
    (hP : |P i - Q i| ≤ η) (hP' : |P (i + 1) - Q (i + 1)| ≤ η)
    (hQ : |Q (i + 1) - Q i| ≤ l * (V (i + 1 + q) - V (i + 1))) :
    |D U q t P i - D V q s Q i| ≤ η + l * E := by
  have b1 : 0 < U (i + 1 + q) - U (i + 1) := sub_pos.mpr h1
  have b2 : 0 < V (i + 1 + q) - V (i + 1) := sub_pos.mpr h2
  obtain ⟨a, ha⟩ : ∃ a, a = (t - U (i + 1)) / (U (i + 1 + q) - U (i + 1)) := ⟨_, rfl⟩
  have ha0 : 0 ≤ a := by rw [ha]; exact div_nonneg (sub_nonneg.mpr hl) b1.le
  have ha' : (U (i + 1 + q) - t) / (U (i + 1 + q) - U (i + 1)) = 1 - a := by
    rw [ha]; field_simp; ring
  have ha1 : 0 ≤ 1 - a := by rw [← ha']; exact div_nonneg (sub_nonneg.mpr hr) b1.le
  obtain ⟨x, hx⟩ : ∃ x, x = (1 - a) * ((t - s) - (U (i + 1) - V (i + 1))) +
    a * ((t - s) - (U (i + 1 + q) - V (i + 1 + q))) := ⟨_, rfl⟩
  have hxE : |x| ≤ E := by
    rw [hx]
    calc _ ≤ |(1 - a) * ((t - s) - (U (i + 1) - V (i + 1)))| +
          |a * ((t - s) - (U (i + 1 + q) - V (i + 1 + q)))| := abs_add_le _ _
      _ ≤ (1 - a) * E + a * E := by
        rw [abs_mul, abs_mul, abs_of_nonneg ha0, abs_of_nonneg ha1]
        exact add_le_add (mul_le_mul_of_nonneg_left hE1 ha1) (mul_le_mul_of_nonneg_left hE2 ha0)
      _ = E := by ring
  have hta : t = U (i + 1) + a * (U (i + 1 + q) - U (i + 1)) := by rw [ha]; field_simp; ring
  have e : D U q t P i - D V q s Q i = (1 - a) * (P i - Q i) + a * (P (i + 1) - Q (i + 1)) +
      x / (V (i + 1 + q) - V (i + 1)) * (Q (i + 1) - Q i) := by
    simp only [D, smul_eq_mul]
    rw [ha', ← ha, hx, hta]
    field_simp
    ring
  rw [e]
  calc _ ≤ |(1 - a) * (P i - Q i)| + |a * (P (i + 1) - Q (i + 1))| +
        |x / (V (i + 1 + q) - V (i + 1)) * (Q (i + 1) - Q i)| := abs_add_three _ _ _
    _ ≤ (1 - a) * η + a * η + E / (V (i + 1 + q) - V (i + 1)) * (l * (V (i + 1 + q) - V (i + 1))) := by
      rw [abs_mul, abs_mul, abs_mul, abs_of_nonneg ha0, abs_of_nonneg ha1, abs_div, abs_of_pos b2]
      refine add_le_add (add_le_add (mul_le_mul_of_nonneg_left hP ha1) (mul_le_mul_of_nonneg_left hP' ha0)) ?_
      exact mul_le_mul (div_le_div_of_nonneg_right hxE b2.le) hQ (abs_nonneg _) (div_nonneg hE b2.le)
    _ = η + l * E := by field_simp; ring

/-- the values of two polar forms on the diagonal -/
theorem bl_stable (p : ℕ) : ∀ {U V : ℕ → K} {P Q : ℕ → K} {a : ℕ} {t s l E η : K}, Monotone U → Monotone V →
    U (a + p) ≤ t → t ≤ U (a + p + 1) → U (a + p) < U (a + p + 1) →
    V (a + p) ≤ s → s ≤ V (a + p + 1) → V (a + p) < V (a + p + 1) → 0 ≤ l → 0 ≤ E →
    (∀ i, a + 1 ≤ i → i ≤ a + 2 * p → |(t - s) - (U i - V i)| ≤ E) →
    (∀ i, a ≤ i → i ≤ a + p → |P i - Q i| ≤ η) →
    (∀ i, a ≤ i → i < a + p → |Q (i + 1) - Q i| ≤ l * (V (i + 1 + p) - V (i + 1))) →
    |bl U (List.replicate p t) P a - bl V (List.replicate p s) Q a| ≤ η + p * (l * E) := by
  induction p with
  | zero =>
    intro U V P Q a t s l E η _ _ _ _ _ _ _ _ _ _ _ hP _
    simpa using hP a le_rfl (by omega)
  | succ p ih =>
    intro U V P Q a t s l E η hU hV u1 u2 u3 v1 v2 v3 hl hE hk hP hQ
    rw [List.replicate_succ, List.replicate_succ, bl_cons, bl_cons, List.length_replicate, List.length_replicate]
    have hlt : ∀ (W : ℕ → K), Monotone W → W (a + (p + 1)) < W (a + (p + 1) + 1) → ∀ i, a ≤ i → i ≤ a + p →
        W (i + 1) < W (i + 1 + (p + 1)) := by
      intro W hW h i h1 h2
      exact (hW (by omega)).trans_lt (h.trans_le (hW (by omega)))
    have key := ih (U := shift U) (V := shift V) (P := D U (p + 1) t P) (Q := D V (p + 1) s Q) (a := a)
      (t := t) (s := s) (l := l) (E := E) (η := η + l * E)
      (fun i j h => hU (by omega)) (fun i j h => hV (by omega)) u1 u2 u3 v1 v2 v3 hl hE
      (fun i h1 h2 => hk (i + 1) (by omega) (by omega)) (by
        intro i h1 h2
        exact D_stable hE (hlt U hU u3 i h1 h2) ((hU (by omega)).trans u1) (u2.trans (hU (by omega)))
          (hlt V hV v3 i h1 h2) (hk _ (by omega) (by omega)) (hk _ (by omega) (by omega))
          (hP i h1 (by omega)) (hP (i + 1) (by omega) (by omega)) (hQ i h1 (by omega))) (by
        intro i h1 h2
        have := D_slope (V := V) (q := p + 1) (t := s) (l := l) (Q := Q) (i := i)
          (hlt V hV v3 i h1 (by omega)) (hlt V hV v3 (i + 1) (by omega) (by omega))
          ((hV (by omega)).trans v1) (v2.trans (hV (by omega))) (hQ i h1 (by omega)) (hQ (i + 1) (by omega) (by omega))
        simp only [shift_apply]
        rwa [show i + 1 + p + 1 = i + 1 + (p + 1) by ring, show i + 1 + 1 = i + 2 by ring])
    refine key.trans (le_of_eq ?_)
    push_cast
    ring

end BSpline
