import Verif.Spec.IeeeOrder
import Verif.Props.IeeeInsert

/-!
# The order of the control points in the arithmetic of `f64`: C147
-/

set_option linter.unusedSectionVars false

namespace BSpline

open Ieee

variable {K : Type} [Field K] [LinearOrder K] [IsStrictOrderedRing K] {F : Format K} {d : ℕ}

/-! ### Single operations -/

theorem le_mk {s t : Bool} {x y : K} (h : x ≤ y) : Ieee.le (mk F s x) (mk F t y) = true := by
  have hm := F.mono _ _ h
  have hs : F.rnd x < -F.max → x < 0 := fun h' => by
    by_contra hc
    have := F.rnd_nonneg (not_lt.mp hc)
    have := F.max_nonneg
    linarith
  have ht : F.max < F.rnd y → ¬ y < 0 := fun h' hc => by
    have := F.mono _ _ hc.le
    rw [F.rnd_zero] at this
    have := F.max_nonneg
    linarith
  rw [mk, mk]
  split
  · split
    · simpa [Ieee.le] using hm
    · rename_i h1 h2
      have : F.max < F.rnd y := by
        rw [abs_le] at h1 h2
        by_contra hc
        exact h2 ⟨by linarith, not_lt.mp hc⟩
      simpa [Ieee.le] using not_lt.mp (ht this)
  · split
    · rename_i h1 h2
      have : F.rnd x < -F.max := by
        rw [abs_le] at h1 h2
        by_contra hc
        exact h1 ⟨not_lt.mp hc, by linarith⟩
      simpa [Ieee.le] using hs this
    · simp only [Ieee.le, Bool.or_eq_true, decide_eq_true_eq, Bool.not_eq_true', decide_eq_false_iff_not]
      by_cases hx : x < 0
      · exact Or.inl hx
      · exact Or.inr (fun hy => hx (h.trans_lt hy))

theorem add_nan_left (a : Ieee F) : (nan : Ieee F) + a = nan := rfl
theorem add_nan_right (a : Ieee F) : a + (nan : Ieee F) = nan := by cases a <;> rfl
theorem mul_nan_left (a : Ieee F) : (nan : Ieee F) * a = nan := rfl
theorem mul_nan_right (a : Ieee F) : a * (nan : Ieee F) = nan := by cases a <;> rfl
theorem mk_ne_nan (s : Bool) (x : K) : mk F s x ≠ nan := by
  rw [mk]; split <;> simp

theorem le_pos_inf {a : Ieee F} (h : a ≠ nan) : Ieee.le a (inf false) = true := by
  rcases a with _ | s | ⟨s, x⟩
  · exact absurd rfl h
  · simp [Ieee.le]
  · rfl

theorem neg_inf_le {a : Ieee F} (h : a ≠ nan) : Ieee.le (inf true) a = true := by
  rcases a with _ | s | ⟨s, x⟩
  · exact absurd rfl h
  · rfl
  · rfl

/-- the sign of a zero does not matter -/
theorem le_sign (s t : Bool) (v : {x : K // F.Finite x}) (a : Ieee F) : Ieee.le (fin s v) a = Ieee.le (fin t v) a := by
  cases a <;> rfl

/-- addition keeps the order -/
theorem NotAbove.add {a a' b b' : Ieee F} (h : NotAbove a a') (h' : NotAbove b b') : NotAbove (a + b) (a' + b') := by
  intro h1 h2
  have n1 : a ≠ nan := fun e => h1 (by rw [e, add_nan_left])
  have n2 : b ≠ nan := fun e => h1 (by rw [e, add_nan_right])
  have n3 : a' ≠ nan := fun e => h2 (by rw [e, add_nan_left])
  have n4 : b' ≠ nan := fun e => h2 (by rw [e, add_nan_right])
  have l1 := h n1 n3
  have l2 := h' n2 n4
  clear h h' n1 n2 n3 n4
  change Ieee.le (Ieee.add a b) (Ieee.add a' b') = true
  change Ieee.add a b ≠ nan at h1
  change Ieee.add a' b' ≠ nan at h2
  change Ieee.le a a' = true at l1
  change Ieee.le b b' = true at l2
  rcases a with _ | s | ⟨s, x⟩ <;> rcases a' with _ | s' | ⟨s', x'⟩ <;>
  rcases b with _ | t | ⟨t, y⟩ <;> rcases b' with _ | t' | ⟨t', y'⟩ <;>
  simp only [Ieee.le, decide_eq_true_eq, Bool.or_eq_true, Bool.not_eq_true',
    Bool.false_eq_true] at l1 l2
  case fin.fin.fin.fin => exact le_mk (add_le_add l1 l2)
  all_goals try cases s
  all_goals try cases t
  all_goals try cases s'
  all_goals try cases t'
  all_goals first
    | (exfalso; revert l1; simp; done)
    | (exfalso; revert l2; simp; done)
    | exact absurd rfl h1
    | exact absurd rfl h2
    | rfl
    | exact neg_inf_le h2
    | exact le_pos_inf h1

/-- multiplication with a factor that is not negative keeps the order -/
theorem NotAbove.mul {N b b' : Ieee F} (hN : NotNegative N) (h : NotAbove b b') : NotAbove (N * b) (N * b') := by
  intro h1 h2
  have n1 : N ≠ nan := fun e => h1 (by rw [e, mul_nan_left])
  have n2 : b ≠ nan := fun e => h1 (by rw [e, mul_nan_right])
  have n4 : b' ≠ nan := fun e => h2 (by rw [e, mul_nan_right])
  have l0 := hN n1
  have l1 := h n2 n4
  clear h hN
  obtain ⟨s0, hf0, e0⟩ := is_zero (F := F)
  rw [e0] at l0
  change Ieee.le _ N = true at l0
  change Ieee.le (Ieee.mul N b) (Ieee.mul N b') = true
  change Ieee.mul N b ≠ nan at h1
  change Ieee.mul N b' ≠ nan at h2
  change Ieee.le b b' = true at l1
  rcases N with _ | s | ⟨s, x⟩
  · exact absurd rfl n1
  · -- an infinite factor
    obtain rfl : s = false := by simpa [Ieee.le] using l0
    rcases b with _ | t | ⟨t, y⟩ <;> rcases b' with _ | t' | ⟨t', y'⟩ <;>
      simp only [Ieee.le, decide_eq_true_eq, Bool.or_eq_true, Bool.not_eq_true',
        Bool.false_eq_true] at l1
    · simpa [Ieee.mul, Ieee.le] using l1
    · subst l1
      exact neg_inf_le h2
    · subst l1
      exact le_pos_inf h1
    · have hy : y.val ≠ 0 := fun e => h1 (by simp [Ieee.mul, e])
      have hy' : y'.val ≠ 0 := fun e => h2 (by simp [Ieee.mul, e])
      simp only [Ieee.mul, hy, hy', if_false, Ieee.le, sgn, Bool.false_xor, Bool.or_eq_true, decide_eq_true_eq,
        Bool.not_eq_true', decide_eq_false_iff_not]
      by_cases hx : y.val < 0
      · exact Or.inl hx
      · exact Or.inr (fun hy => hx (l1.trans_lt hy))
  · have hx : 0 ≤ x.val := by simpa [Ieee.le] using l0
    have hsg : x.val ≠ 0 → sgn s x.val = false := fun h => by simp [sgn, h, not_lt.mpr hx]
    rcases b with _ | t | ⟨t, y⟩ <;> rcases b' with _ | t' | ⟨t', y'⟩ <;>
      simp only [Ieee.le, decide_eq_true_eq, Bool.or_eq_true, Bool.not_eq_true',
        Bool.false_eq_true] at l1
    · have hx0 : x.val ≠ 0 := fun e => h1 (by simp [Ieee.mul, e])
      simpa [Ieee.mul, hx0, hsg hx0, Ieee.le] using l1
    · have hx0 : x.val ≠ 0 := fun e => h1 (by simp [Ieee.mul, e])
      subst l1
      have : Ieee.mul (fin s x) (inf true) = inf true := by simp [Ieee.mul, hx0, hsg hx0]
      rw [this]
      exact neg_inf_le h2
    · have hx0 : x.val ≠ 0 := fun e => h2 (by simp [Ieee.mul, e])
      subst l1
      have : Ieee.mul (fin s x) (inf false) = inf false := by simp [Ieee.mul, hx0, hsg hx0]
      rw [this]
      exact le_pos_inf h1
    · exact le_mk (mul_le_mul_of_nonneg_left l1 hx)

theorem notNegative_iff {a : Ieee F} : NotNegative a ↔ NotAbove 0 a :=
  ⟨fun h _ h2 => h h2, fun h h2 => h (mk_ne_nan _ _) h2⟩

theorem Ieee.Is.notNegative {a : Ieee F} {x : K} (h : Is a x) (hx : 0 ≤ x) : NotNegative a := fun _ => by
  rw [is_zero.cmp_le h]; simpa using hx

/-- zero, or not a number -/
def ZeroNan (a : Ieee F) : Prop := a = nan ∨ Is a 0

theorem ZeroNan.notNegative {a : Ieee F} (h : ZeroNan a) : NotNegative a := by
  rcases h with rfl | h
  · exact fun h => absurd rfl h
  · exact h.notNegative le_rfl

theorem NotNegative.add {a b : Ieee F} (ha : NotNegative a) (hb : NotNegative b) : NotNegative (a + b) := by
  rw [notNegative_iff] at *
  have := ha.add hb
  intro _ h2
  have h0 : Is ((0 : Ieee F) + 0) 0 := by
    have := is_zero (F := F) |>.add (is_zero (F := F)) (by rw [add_zero, abs_zero]; exact F.max_nonneg)
    rwa [add_zero, F.rnd_zero] at this
  obtain ⟨s, hf, e⟩ := h0
  have := this (by rw [e]; simp) h2
  rw [e] at this
  obtain ⟨t, hf', e'⟩ := is_zero (F := F)
  rw [e']
  exact (le_sign _ _ _ _).trans this

theorem ZeroNan.mul_left {a : Ieee F} (h : ZeroNan a) (b : Ieee F) : ZeroNan (a * b) := by
  rcases h with rfl | h
  · exact Or.inl rfl
  rcases b with _ | t | ⟨t, y⟩
  · exact Or.inl (mul_nan_right _)
  · obtain ⟨s, hf, rfl⟩ := h
    exact Or.inl (by change Ieee.mul _ _ = _; simp [Ieee.mul])
  · right
    have := h.mul ⟨t, y.2, rfl⟩ (by rw [zero_mul, abs_zero]; exact F.max_nonneg)
    rwa [zero_mul, F.rnd_zero] at this

theorem ZeroNan.mul_right {a : Ieee F} (h : ZeroNan a) (b : Ieee F) : ZeroNan (b * a) := by
  rcases h with rfl | h
  · exact Or.inl (mul_nan_right _)
  rcases b with _ | t | ⟨t, y⟩
  · exact Or.inl rfl
  · obtain ⟨s, hf, rfl⟩ := h
    exact Or.inl (by change Ieee.mul _ _ = _; simp [Ieee.mul])
  · right
    have := Is.mul (F := F) (a := fin t y) ⟨t, y.2, rfl⟩ h (by rw [mul_zero, abs_zero]; exact F.max_nonneg)
    rwa [mul_zero, F.rnd_zero] at this

theorem ZeroNan.add {a b : Ieee F} (h : ZeroNan a) (h' : ZeroNan b) : ZeroNan (a + b) := by
  rcases h with rfl | h
  · exact Or.inl rfl
  rcases h' with rfl | h'
  · exact Or.inl (add_nan_right _)
  · right
    have := h.add h' (by rw [add_zero, abs_zero]; exact F.max_nonneg)
    rwa [add_zero, F.rnd_zero] at this

theorem NotNegative.mul {a b : Ieee F} (ha : NotNegative a) (hb : NotNegative b) : NotNegative (a * b) := by
  have h := NotAbove.mul ha (notNegative_iff.mp hb)
  intro h2
  have hz := ZeroNan.mul_right (Or.inr is_zero) a
  rcases hz with hz | ⟨s, hf, e⟩
  · -- infinity times zero
    rcases a with _ | s | ⟨s, x⟩
    · exact absurd rfl h2
    · have l0 := ha (by simp)
      have l1 := hb (fun e => h2 (by rw [e, mul_nan_right]))
      obtain ⟨s0, hf0, e0⟩ := is_zero (F := F)
      rw [e0] at l0 l1 ⊢
      obtain rfl : s = false := by
        change Ieee.le _ _ = true at l0
        simpa [Ieee.le] using l0
      rcases b with _ | t | ⟨t, y⟩
      · exact absurd rfl h2
      · change Ieee.le _ _ = true at l1 ⊢
        change Ieee.le _ (Ieee.mul _ _) = true
        simpa [Ieee.le, Ieee.mul] using l1
      · change Ieee.le _ _ = true at l1
        change Ieee.le _ (Ieee.mul _ _) = true
        have hy : y.val ≠ 0 := fun e => h2 (by change Ieee.mul _ _ = _; simp [Ieee.mul, e])
        have : 0 ≤ y.val := by simpa [Ieee.le] using l1
        simp [Ieee.le, Ieee.mul, hy, sgn, this]
    · obtain ⟨s0, hf0, e0⟩ := is_zero (F := F)
      rw [e0] at hz
      exact absurd hz (mk_ne_nan _ _)
  · have := h (by rw [e]; simp) h2
    rw [e] at this
    obtain ⟨t, hf', e'⟩ := is_zero (F := F)
    rw [e']
    exact (le_sign _ _ _ _).trans this

/-- a quotient of differences of finite numbers -/
theorem quotient_ieee {a b s t : Ieee F} {a' b' s' t' : K} (ha : Is a a') (hb : Is b b') (hs : Is s s')
    (ht : Is t t') (hab : |a' - b'| ≤ 1) (hst : |s' - t'| ≤ 1) (hlt : t' < s') :
    (0 ≤ a' - b' → NotNegative ((a - b) / (s - t))) ∧ (a' - b' = 0 → ZeroNan ((a - b) / (s - t))) := by
  have i1 := ha.sub hb (hab.trans F.one_le_max)
  have i2 := hs.sub ht (hst.trans F.one_le_max)
  have hp : 0 < s' - t' := sub_pos.mpr hlt
  have hr : 0 < F.rnd (s' - t') := by
    have h := F.sub s' t' hs.rep ht.rep
    rw [abs_of_pos hp] at h
    have h1 := (abs_le.mp h).1
    have h2 := mul_pos F.del_pos hp
    linarith
  obtain ⟨σ, hf, e⟩ := i1
  obtain ⟨τ, hg, e'⟩ := i2
  have hq : (a - b) / (s - t) = mk F (σ ^^ sgn τ (F.rnd (s' - t'))) (F.rnd (a' - b') / F.rnd (s' - t')) := by
    rw [e, e']
    change Ieee.div _ _ = _
    simp [Ieee.div, hr.ne']
  rw [hq]
  constructor
  · intro h0 _
    have : (0 : Ieee F) = mk F false 0 := rfl
    rw [this]
    exact le_mk (div_nonneg (F.rnd_nonneg h0) hr.le)
  · intro h0
    right
    rw [h0, F.rnd_zero, zero_div]
    have := is_mk (F := F) (x := 0) (σ ^^ sgn τ (F.rnd (s' - t'))) (by rw [abs_zero]; exact F.max_nonneg)
    rwa [F.rnd_zero] at this

/-- the computed basis functions are never negative, for all knots, however close -/
theorem Nf_sign {U : ℕ → Ieee F} {V : ℕ → K} (hU : ∀ i, Is (U i) (V i)) (hm : Monotone V)
    (h01 : ∀ i, 0 ≤ V i ∧ V i ≤ 1) {u : Ieee F} {x : K} (hu : Is u x) (hx0 : 0 ≤ x) (hx1 : x ≤ 1)
    {k n : ℕ} (hk : k ≤ n) (q : ℕ) : ∀ i, 0 ≤ Nf V k n x q i ∧ NotNegative (Nf U k n u q i) ∧
      (Nf V k n x q i = 0 → ZeroNan (Nf U k n u q i)) := by
  induction q with
  | zero =>
    intro i
    simp only [Nf, (hU _).cmp_le hu, hu.cmp_lt (hU _), hu.cmp_eq (hU _)]
    simp only [Cmp.le, Cmp.lt, Cmp.eq]
    split
    · exact ⟨zero_le_one, is_one.notNegative zero_le_one, fun h => absurd h one_ne_zero⟩
    · exact ⟨le_rfl, is_zero.notNegative le_rfl, fun _ => Or.inr is_zero⟩
  | succ q ih =>
    intro i
    have hs := Nf_support hm hk x q
    have habs : ∀ i j, |V i - V j| ≤ 1 := fun i j => abs_le.mpr
      ⟨by linarith [(h01 i).1, (h01 j).2], by linarith [(h01 i).2, (h01 j).1]⟩
    -- one summand
    have key : ∀ {a b s t Y : Ieee F} {a' b' s' t' N : K}, Is a a' → Is b b' → Is s s' → Is t t' →
        |a' - b'| ≤ 1 → |s' - t'| ≤ 1 → t' ≤ s' → 0 ≤ N → NotNegative Y → (N = 0 → ZeroNan Y) →
        (N ≠ 0 → 0 ≤ a' - b') →
        0 ≤ (if Cmp.eq s' t' then 0 else (a' - b') / (s' - t') * N) ∧
        NotNegative (if Cmp.eq s t then 0 else (a - b) / (s - t) * Y) ∧
        ((if Cmp.eq s' t' then 0 else (a' - b') / (s' - t') * N) = 0 →
          ZeroNan (if Cmp.eq s t then 0 else (a - b) / (s - t) * Y)) := by
      intro a b s t Y a' b' s' t' N ha hb hS hT hab hst hle hN hY hNY hab0
      rw [hS.cmp_eq hT]
      simp only [Cmp.eq, decide_eq_true_eq]
      split
      · exact ⟨le_rfl, is_zero.notNegative le_rfl, fun _ => Or.inr is_zero⟩
      rename_i hne
      have hlt : t' < s' := lt_of_le_of_ne hle (Ne.symm hne)
      have hp : 0 < s' - t' := sub_pos.mpr hlt
      obtain ⟨q1, q2⟩ := quotient_ieee ha hb hS hT hab hst hlt
      by_cases hN0 : N = 0
      · have hz := (hNY hN0).mul_right ((a - b) / (s - t))
        exact ⟨by rw [hN0, mul_zero], hz.notNegative, fun _ => hz⟩
      · refine ⟨mul_nonneg (div_nonneg (hab0 hN0) hp.le) hN, (q1 (hab0 hN0)).mul hY, fun h0 => ?_⟩
        have : a' - b' = 0 := by
          rcases mul_eq_zero.mp h0 with h | h
          · exact (div_eq_zero_iff.mp h).resolve_right hp.ne'
          · exact absurd h hN0
        exact (q2 this).mul_left _
    obtain ⟨e1, s1, z1⟩ := key hu (hU i) (hU (i + (q + 1))) (hU i)
      (abs_le.mpr ⟨by linarith [(h01 i).2], by linarith [(h01 i).1]⟩) (habs _ _) (hm (by omega)) (ih i).1
      (ih i).2.1 (ih i).2.2 (fun hne => sub_nonneg.mpr (hs i hne).1)
    obtain ⟨e2, s2, z2⟩ := key (hU (i + 1 + (q + 1))) hu (hU (i + 1 + (q + 1))) (hU (i + 1))
      (abs_le.mpr ⟨by linarith [(h01 (i + 1 + (q + 1))).1], by linarith [(h01 (i + 1 + (q + 1))).2]⟩) (habs _ _)
      (hm (by omega)) (ih (i + 1)).1 (ih (i + 1)).2.1 (ih (i + 1)).2.2 (fun hne => by
        have := (hs (i + 1) hne).2
        rw [show i + 1 + q + 1 = i + 1 + (q + 1) by omega] at this
        exact sub_nonneg.mpr this)
    refine ⟨add_nonneg e1 e2, s1.add s2, fun h0 => ?_⟩
    have h1 := (add_eq_zero_iff_of_nonneg e1 e2).mp h0
    exact (z1 h1.1).add (z2 h1.2)

theorem NotAbove.refl (a : Ieee F) : NotAbove a a := by
  intro h _
  rcases a with _ | s | ⟨s, x⟩
  · exact absurd rfl h
  · change (s || !s) = true
    simp
  · change decide _ = true
    simp

theorem notAbove_fn {P P' : List (Pt (Ieee F) d)} {r : Fin d}
    (h : List.Forall₂ (fun a b => NotAbove (a r) (b r)) P P') (i : ℕ) : NotAbove (fn P i r) (fn P' i r) :=
  fn_forall₂ (S := fun a b : Pt (Ieee F) d => NotAbove (a r) (b r)) (NotAbove.refl _) h i

theorem foldl_notAbove {N : ℕ → Ieee F} {D D' : ℕ → Pt (Ieee F) d} {r : Fin d} (hN : ∀ i, NotNegative (N i))
    (hD : ∀ i, NotAbove (D i r) (D' i r)) : ∀ (l : List ℕ) (v v' : Pt (Ieee F) d), NotAbove (v r) (v' r) →
    NotAbove (l.foldl (fun v i => v + scale (N i) (D i)) v r) (l.foldl (fun v i => v + scale (N i) (D' i)) v' r) := by
  intro l
  induction l with
  | nil => intro v v' h; exact h
  | cons a l ih =>
    intro v v' h
    exact ih _ _ (h.add (NotAbove.mul (hN a) (hD a)))

theorem foldl_notNegative {N : ℕ → Ieee F} {D : ℕ → Pt (Ieee F) d} {r : Fin d} (hN : ∀ i, NotNegative (N i))
    (hD : ∀ i, NotNegative (D i r)) : ∀ (l : List ℕ) (v : Pt (Ieee F) d), NotNegative (v r) →
    NotNegative (l.foldl (fun v i => v + scale (N i) (D i)) v r) := by
  intro l
  induction l with
  | nil => intro v h; exact h
  | cons a l ih =>
    intro v h
    exact ih _ (h.add ((hN a).mul (hD a)))

theorem fn_zero_one {p n : ℕ} {V : List K} (hV : ClampedKnots 0 1 p n V) (i : ℕ) : 0 ≤ fn V i ∧ fn V i ≤ 1 := by
  have hcl := hV.clamp
  exact ⟨by rw [← hcl.left 0 (Nat.zero_le _)]; exact hcl.mono (Nat.zero_le i),
    by rw [← hcl.right (max i (n + 1)) (le_max_right _ _)]; exact hcl.mono (le_max_left _ _)⟩

theorem neg_ne_nan {a : Ieee F} (h : a ≠ nan) : -a ≠ nan := by
  rcases a with _ | s | ⟨s, x⟩
  · exact absurd rfl h
  · change inf _ ≠ nan; simp
  · exact mk_ne_nan _ _

/-- a difference of numbers in order is not negative -/
theorem NotAbove.sub {a b : Ieee F} (h : NotAbove a b) : NotNegative (b - a) := by
  intro h1
  have h1' : b + -a ≠ nan := h1
  have n1 : b ≠ nan := fun e => h1' (by rw [e, add_nan_left])
  have n2 : a ≠ nan := fun e => h1' (by rw [e]; exact add_nan_right _)
  have l := h n2 n1
  obtain ⟨s0, hf0, e0⟩ := is_zero (F := F)
  rw [e0]
  change Ieee.le _ (Ieee.add b (Ieee.neg a)) = true
  change Ieee.add b (Ieee.neg a) ≠ nan at h1'
  change Ieee.le a b = true at l
  rcases a with _ | s | ⟨s, x⟩
  · exact absurd rfl n2
  · rcases b with _ | t | ⟨t, y⟩
    · exact absurd rfl n1
    · cases s <;> cases t
      · exact absurd rfl h1'
      · exact absurd l (by simp [Ieee.le])
      · rfl
      · exact absurd rfl h1'
    · have hs : s = true := l
      subst hs
      rfl
  · have hx : Is (-(fin s x) : Ieee F) (-x.val) := Is.neg ⟨s, x.2, rfl⟩
    obtain ⟨s1, hf1, e1⟩ := hx
    change Ieee.neg (fin s x) = _ at e1
    rw [e1] at h1' ⊢
    rcases b with _ | t | ⟨t, y⟩
    · exact absurd rfl n1
    · have ht : (!t) = true := l
      exact ht
    · have hl : x.val ≤ y.val := by simpa [Ieee.le] using l
      rw [← e0]
      exact le_mk (by linarith)

/-- a quotient by a positive finite number is not negative -/
theorem NotNegative.div {a b : Ieee F} {y : K} (ha : NotNegative a) (hb : Is b y) (hy : 0 < y) : NotNegative (a / b) := by
  intro h1
  obtain ⟨t, hf, rfl⟩ := hb
  obtain ⟨s0, hf0, e0⟩ := is_zero (F := F)
  rcases a with _ | s | ⟨s, x⟩
  · exact absurd rfl h1
  · have l := ha (by simp)
    rw [e0] at l ⊢
    have hs : (!s) = true := l
    change Ieee.le _ (Ieee.div _ _) = true
    simp only [Ieee.div, Ieee.le, sgn, hy.ne', if_false, not_lt.mpr hy.le, decide_false, Bool.xor_false]
    exact hs
  · have l := ha (by simp)
    rw [e0] at l
    have hx : 0 ≤ x.val := by
      change Ieee.le _ _ = true at l
      simpa [Ieee.le] using l
    change Ieee.le (mk F false 0) (Ieee.div _ _) = true
    simp only [Ieee.div, hy.ne', if_false]
    exact le_mk (div_nonneg hx hy.le)

theorem natCast_notNegative (k : ℕ) : NotNegative ((k : ℕ) : Ieee F) := fun _ => le_mk (Nat.cast_nonneg k)

/-! ### The claims -/

/-- **C147** Two curves over the same finite knots, however close, are evaluated in a floating-point format. If a
coordinate of no control point of the first is above that of the second, then this coordinate of no computed
point of the first is above that of the second; there is no error term. The control points may be infinite, and
nothing is assumed about overflow. -/
theorem C147_evaluate {c c' : Curve (Ieee F) d} {p n : ℕ} {U : List (Ieee F)} {V : List K}
    {P P' : List (Pt (Ieee F) d)} (hc : Built c p U P) (hc' : Built c' p U P') (hV : ClampedKnots 0 1 p n V)
    (hU : List.Forall₂ Is U V) (hP : P.length = n + 1) (hP' : P'.length = n + 1)
    {u : Ieee F} {x : K} (hu : Is u x) (h0 : 0 ≤ x) (h1 : x ≤ 1) :
    ∃ v v', c.evaluate u = .ok (.ok v) ∧ c'.evaluate u = .ok (.ok v') ∧
      ∀ r, List.Forall₂ (fun a b => NotAbove (a r) (b r)) P P' → NotAbove (v r) (v' r) := by
  have hlU : U.length = n + p + 2 := hU.length_eq.trans hV.length
  have hle := hV.le
  obtain rfl := hc.ieee_eq hlU hle hP
  obtain rfl := hc'.ieee_eq hlU hle hP'
  have l0 : Cmp.le 0 u = true := by rw [is_zero.cmp_le hu]; simpa using h0
  have l1 : Cmp.le u 1 = true := by rw [hu.cmp_le is_one]; simpa using h1
  refine ⟨_, _, evaluateDerivative_ok hlU hP hle (Nat.zero_le p) l0 l1,
    evaluateDerivative_ok hlU hP' hle (Nat.zero_le p) l0 l1, fun r h => ?_⟩
  exact foldl_notAbove (fun i => (Nf_sign (fn_is hU) hV.clamp.mono (fn_zero_one hV) hu h0 h1 (Nat.zero_le n) p i).2.1)
    (notAbove_fn h) _ _ _ (NotAbove.refl _)

/-- **C147** If no control point has a negative coordinate `r`, then no computed point has one. -/
theorem C147_not_negative {c : Curve (Ieee F) d} {p n : ℕ} {U : List (Ieee F)} {V : List K}
    {P : List (Pt (Ieee F) d)} (hc : Built c p U P) (hV : ClampedKnots 0 1 p n V)
    (hU : List.Forall₂ Is U V) (hP : P.length = n + 1)
    {u : Ieee F} {x : K} (hu : Is u x) (h0 : 0 ≤ x) (h1 : x ≤ 1) :
    ∃ v, c.evaluate u = .ok (.ok v) ∧ ∀ r, (∀ a ∈ P, NotNegative (a r)) → NotNegative (v r) := by
  have hlU : U.length = n + p + 2 := hU.length_eq.trans hV.length
  have hle := hV.le
  obtain rfl := hc.ieee_eq hlU hle hP
  have l0 : Cmp.le 0 u = true := by rw [is_zero.cmp_le hu]; simpa using h0
  have l1 : Cmp.le u 1 = true := by rw [hu.cmp_le is_one]; simpa using h1
  have hP0 : P ≠ [] := by rintro rfl; simp at hP
  refine ⟨_, evaluateDerivative_ok hlU hP hle (Nat.zero_le p) l0 l1, fun r h => ?_⟩
  exact foldl_notNegative
    (fun i => (Nf_sign (fn_is hU) hV.clamp.mono (fn_zero_one hV) hu h0 h1 (Nat.zero_le n) p i).2.1)
    (fun i => h _ (fn_mem hP0 i)) _ _ (is_zero.notNegative le_rfl)

/-- **C147** If a coordinate of the control points never decreases from one to the next, then the computed first
derivative of this coordinate is nowhere negative. -/
theorem C147_increasing {c : Curve (Ieee F) d} {p n : ℕ} {U : List (Ieee F)} {V : List K}
    {P : List (Pt (Ieee F) d)} (hc : Built c p U P) (hV : ClampedKnots 0 1 p n V) (hp : 1 ≤ p)
    (hU : List.Forall₂ Is U V) (hP : P.length = n + 1)
    {u : Ieee F} {x : K} (hu : Is u x) (h0 : 0 ≤ x) (h1 : x ≤ 1) :
    ∃ v, c.evaluateDerivative u 1 = .ok (.ok v) ∧
      ∀ r, (∀ i a b, P[i]? = some a → P[i + 1]? = some b → NotAbove (a r) (b r)) → NotNegative (v r) := by
  have hlU : U.length = n + p + 2 := hU.length_eq.trans hV.length
  have hle := hV.le
  obtain rfl := hc.ieee_eq hlU hle hP
  have l0 : Cmp.le 0 u = true := by rw [is_zero.cmp_le hu]; simpa using h0
  have l1 : Cmp.le u 1 = true := by rw [hu.cmp_le is_one]; simpa using h1
  refine ⟨_, evaluateDerivative_ok hlU hP hle hp l0 l1, fun r h => ?_⟩
  have hcl := hV.clamp
  have hinc : ∀ i, NotAbove (fn P i r) (fn P (i + 1) r) := by
    intro i
    by_cases hi : i + 1 < P.length
    · rw [fn_lt (by omega), fn_lt hi]
      exact h i _ _ (List.getElem?_eq_getElem (by omega)) (List.getElem?_eq_getElem hi)
    · rw [fn_ge (i := i + 1) (by omega)]
      by_cases hi' : i < P.length
      · obtain rfl : i = n := by omega
        rw [fn_last (by omega), hP]
        exact NotAbove.refl _
      · rw [fn_ge (by omega)]
        exact NotAbove.refl _
  refine foldl_notNegative (fun i => (Nf_sign (U := fun i => fn U (i + 1)) (V := fun i => fn V (i + 1))
    (fun i => fn_is hU (i + 1)) (fun i j hij => hcl.mono (by omega)) (fun i => fn_zero_one hV (i + 1)) hu h0 h1
    (by omega) (p - 1) i).2.1) (fun i => ?_) _ _ (is_zero.notNegative le_rfl)
  simp only [dpt, (fn_is hU _).cmp_eq (fn_is hU _), decide_eq_true_eq]
  split
  · exact is_zero.notNegative le_rfl
  rename_i hne
  have hlt : fn V (i + (0 + 1)) < fn V (i + p + 1) := lt_of_le_of_ne (hcl.mono (by omega)) (Ne.symm hne)
  have hp' : 0 < fn V (i + p + 1) - fn V (i + (0 + 1)) := sub_pos.mpr hlt
  have hd := (fn_is hU (i + p + 1)).sub (fn_is hU (i + (0 + 1))) (by
    refine le_trans ?_ F.one_le_max
    rw [abs_of_pos hp']
    linarith [(fn_zero_one hV (i + (0 + 1))).1, (fn_zero_one hV (i + p + 1)).2])
  have hr : 0 < F.rnd (fn V (i + p + 1) - fn V (i + (0 + 1))) := by
    have h := F.sub _ _ (fn_is hU (i + p + 1)).rep (fn_is hU (i + (0 + 1))).rep
    rw [abs_of_pos hp'] at h
    have h1 := (abs_le.mp h).1
    have h2 := mul_pos F.del_pos hp'
    linarith
  exact ((natCast_notNegative _).div hd hr).mul (hinc i).sub

/-- the new control points of an insertion -/
theorem insP_notAbove {p n l i : ℕ} {U : List (Ieee F)} {V : List K} {P P' : List (Pt (Ieee F) d)}
    (hU : List.Forall₂ Is U V) {u : Ieee F} {x : K} (hu : Is u x)
    (hV : ClampedKnots 0 1 p n V) (hm : V.count x ≤ p) (hp : p ≤ l) (hn : l ≤ n) (hl : fn V l ≤ x)
    (hl' : x ≤ fn V (l + 1)) {r : Fin d} (hP : ∀ i, NotAbove (fn P i r) (fn P' i r)) :
    NotAbove (insP (fn U) p (fn P) u l i r) (insP (fn U) p (fn P') u l i r) := by
  have hcl := hV.clamp
  simp only [insP]
  split
  · exact hP i
  split
  swap
  · exact hP (i - 1)
  rename_i h1 h2
  have hlo : fn V i ≤ x := (hcl.mono (by omega)).trans hl
  have hhi : x ≤ fn V (i + p) := hl'.trans (hcl.mono (by omega))
  have hlt : fn V i < fn V (i + p) := by
    refine lt_of_le_of_ne (hlo.trans hhi) fun he => ?_
    have hr := run_le_count (U := V) (x := x) (lo := i) (s := p + 1) (by
      have := hV.length; omega) (by
        intro m hm1 hm2
        have a1 : fn V i ≤ fn V m := hcl.mono hm1
        have a2 : fn V m ≤ fn V (i + p) := hcl.mono (by omega)
        exact le_antisymm (by linarith) (by linarith))
    omega
  have hd1 : fn V (i + p) - fn V i ≤ 1 := by
    linarith [(fn_zero_one hV i).1, (fn_zero_one hV (i + p)).2]
  obtain ⟨y, z, iy, iz, y0, -, z0, -⟩ :=
    insert_weight_ieee hu (fn_is hU i) (fn_is hU (i + p)) hlo hhi hlt hd1
  exact (NotAbove.refl _).add
    ((NotAbove.mul (iz.notNegative z0) (hP (i - 1))).add (NotAbove.mul (iy.notNegative y0) (hP i)))

/-- **C147** The same for the control points after an insertion of the same knot into both curves. -/
theorem C147_insert {c c' : Curve (Ieee F) d} {p n : ℕ} {U : List (Ieee F)} {V : List K}
    {P P' : List (Pt (Ieee F) d)} (hc : Built c p U P) (hc' : Built c' p U P') (hV : ClampedKnots 0 1 p n V)
    (hU : List.Forall₂ Is U V) (hP : P.length = n + 1) (hP' : P'.length = n + 1)
    {u : Ieee F} {x : K} (hu : Is u x) (h0 : 0 < x) (h1 : x < 1) (hr : SimpleBelow V x) (hm : V.count x ≤ p) :
    ∃ c₁ c₁' U₁ P₁ P₁', c.insert u = .ok (c₁, .ok ()) ∧ c'.insert u = .ok (c₁', .ok ()) ∧
      Built c₁ p U₁ P₁ ∧ Built c₁' p U₁ P₁' ∧ U₁.Perm (u :: U) ∧
      ∀ r, List.Forall₂ (fun a b => NotAbove (a r) (b r)) P P' →
        List.Forall₂ (fun a b => NotAbove (a r) (b r)) P₁ P₁' := by
  have hlU : U.length = n + p + 2 := hU.length_eq.trans hV.length
  have hle := hV.le
  obtain rfl := hc.ieee_eq hlU hle hP
  obtain rfl := hc'.ieee_eq hlU hle hP'
  have hg := lleq_insert hV h0 h1 hr
  have hb := lleq_bounds (fn V) x (n - p) p
  have hins := fun {Q : List (Pt (Ieee F) d)} (hQ : Q.length = n + 1) => insert_ok hlU hQ hle u
  simp only [multF_is hU hu, multF_eq_count hV h0 h1] at hins
  have hcmp : ¬ (Cmp.le u 0 || Cmp.le 1 u) = true := by
    rw [hu.cmp_le is_zero, is_one.cmp_le hu]; simp [h0, h1]
  simp only [if_neg hcmp, if_neg (show ¬ p < V.count x by omega), ← Curve.insert_eq, lleq_is (fn_is hU) hu] at hins
  generalize lleq (fn V) x (n - p) p = l at hg hb hins
  refine ⟨_, _, insU U u l, _, _, hins hP, hins hP',
    mkCurve_ok (n := n + 1) (by simp) (by omega) (by simp [insU]; omega),
    mkCurve_ok (n := n + 1) (by simp) (by omega) (by simp [insU]; omega), ?_, fun r h => ?_⟩
  · rw [insU]
    exact List.perm_middle.trans (by rw [List.take_append_drop])
  · rw [List.forall₂_map_left_iff, List.forall₂_map_right_iff, List.forall₂_same]
    exact fun i _ => insP_notAbove hU hu hV hm hb.1 (by omega) hg.1 hg.2 (notAbove_fn h)

/-- **C147** For `f64`, where nothing overflows: for a degree up to 600, different knots at least `2^-1000` apart
and coordinates up to `2^1000`, the computed coordinates are finite numbers in the order of those of the control
points. -/
theorem C147_f64 {c c' : Curve (Ieee binary64) d} {e e' : Curve ℚ d} {p n : ℕ} {U : List (Ieee binary64)}
    {V : List ℚ} {P P' : List (Pt (Ieee binary64) d)} {Q Q' : List (Pt ℚ d)} (hp : p ≤ 600) (hc : Built c p U P)
    (hc' : Built c' p U P') (he : ValidOn 0 1 e p n V Q) (he' : ValidOn 0 1 e' p n V Q')
    (hU : List.Forall₂ Is U V) (hP : List.Forall₂ PtIs P Q) (hP' : List.Forall₂ PtIs P' Q')
    {u : Ieee binary64} {x : ℚ} (hu : Is u x) (h0 : 0 ≤ x) (h1 : x ≤ 1)
    (hgap : ∀ s ∈ V, ∀ t ∈ V, s < t → (1 / 2) ^ 1000 ≤ t - s) :
    ∃ v v', c.evaluate u = .ok (.ok v) ∧ c'.evaluate u = .ok (.ok v') ∧
      ∀ r, (∀ q ∈ Q, |q r| ≤ 2 ^ 1000) → (∀ q ∈ Q', |q r| ≤ 2 ^ 1000) →
        List.Forall₂ (fun a b => a r ≤ b r) Q Q' → ∃ y y', Is (v r) y ∧ Is (v' r) y' ∧ y ≤ y' := by
  have hl : P.length = n + 1 := hP.length_eq.trans he.2.2
  have hl' : P'.length = n + 1 := hP'.length_eq.trans he'.2.2
  obtain ⟨v, v', hv, hv', h⟩ := C147_evaluate hc hc' he.2.1 hU hl hl' hu h0 h1
  obtain ⟨w, _, hw, -, hb⟩ := C85_f64 hp hc he hU hP hu h0 h1 hgap
  obtain ⟨w', _, hw', -, hb'⟩ := C85_f64 hp hc' he' hU hP' hu h0 h1 hgap
  rw [hv] at hw; injection hw with hw; injection hw with hw; subst hw
  rw [hv'] at hw'; injection hw' with hw'; injection hw' with hw'; subst hw'
  refine ⟨v, v', hv, hv', fun r hM hM' hord => ?_⟩
  obtain ⟨y, iy, -⟩ := hb r _ hM le_rfl
  obtain ⟨y', iy', -⟩ := hb' r _ hM' le_rfl
  refine ⟨y, y', iy, iy', ?_⟩
  have hall : List.Forall₂ (fun a b => NotAbove (a r) (b r)) P P' := by
    clear h hb hb' hM hM' hc hc' he he' hl hl'
    induction hP generalizing P' Q' with
    | nil => cases hord; cases hP'; exact .nil
    | cons h1 _ ih =>
      cases hord with
      | cons ho hord =>
        cases hP' with
        | cons h2 hP' =>
          refine .cons (fun _ _ => ?_) (ih hP' hord)
          rw [(h1 r).cmp_le (h2 r)]
          simpa using ho
  have := h r hall (by obtain ⟨s, hf, e⟩ := iy; rw [e]; simp) (by obtain ⟨s, hf, e⟩ := iy'; rw [e]; simp)
  rw [iy.cmp_le iy'] at this
  simpa using this

/-! ### A concrete case -/

/-- control points above those of `ieP`, one of them infinite -/
def ioP : List (Pt (Ieee binary64) 1) := [![0], ![eq64 (1 / 9)], ![eq64 (7 / 10)], ![1], ![Ieee.inf false]]

example : List.Forall₂ (fun a b => NotAbove (a 0) (b 0)) ieP ioP := by
  have h : ∀ a b : Ieee binary64, Ieee.le a b = true → NotAbove a b := fun _ _ h _ _ => h
  refine .cons (h _ _ ?_) (.cons (h _ _ ?_) (.cons (h _ _ ?_) (.cons (h _ _ ?_) (.cons (h _ _ ?_) .nil)))) <;>
    decide +kernel

/-- whether the first coordinates of two computed points are numbers in this order -/
def inOrder : Exec (Except (CurveError (Ieee binary64)) (Pt (Ieee binary64) 1)) →
    Exec (Except (CurveError (Ieee binary64)) (Pt (Ieee binary64) 1)) → Bool
  | .ok (.ok v), .ok (.ok w) => Cmp.le (v 0) (w 0)
  | _, _ => false

example : inOrder ((canon 2 ieU ieP).evaluate (eq64 (9 / 10))) ((canon 2 ieU ioP).evaluate (eq64 (9 / 10))) = true ∧
    inOrder ((canon 2 ieU ioP).evaluate (eq64 (9 / 10))) ((canon 2 ieU ieP).evaluate (eq64 (9 / 10))) = false := by
  decide +kernel

-- before the last knot the infinite point is multiplied with zero; the result is not a number
example : (canon 2 ieU ioP).evaluate (eq64 (1 / 4)) = .ok (.ok ![Ieee.nan]) := by decide +kernel

-- increasing control points, two of them equal
def iiP : List (Pt (Ieee binary64) 1) := [![eq64 (-1 / 3)], ![eq64 (1 / 10)], ![eq64 (1 / 10)], ![eq64 (7 / 10)], ![1]]

example : (∀ i < 4, NotAbove (fn iiP i 0) (fn iiP (i + 1) 0)) := by
  have h : ∀ a b : Ieee binary64, Ieee.le a b = true → NotAbove a b := fun _ _ h _ _ => h
  have : ∀ i < 4, Ieee.le (fn iiP i 0) (fn iiP (i + 1) 0) = true := by decide +kernel
  exact fun i hi => h _ _ (this i hi)

example : inOrder (.ok (.ok ![0])) ((canon 2 ieU iiP).evaluateDerivative (eq64 (2 / 5)) 1) = true := by decide +kernel

end BSpline
