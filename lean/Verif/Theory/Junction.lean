import Verif.Theory.Same
import Verif.Refine.Value

/-!
# Pieces with equal derivatives at a point

If the derivatives of orders `0, …, p - 1` of two pieces of degree `p` agree at `τ`, their polar
forms agree whenever one argument is `τ`.
-/

set_option linter.unusedSectionVars false

namespace BSpline

variable {K : Type} [Field K] [LinearOrder K] [IsStrictOrderedRing K] {d : ℕ}

theorem dpt_shift (U : ℕ → K) {p : ℕ} (P : ℕ → Pt K d) (k : ℕ) : k ≤ p →
    dpt (shift U) p (Dv U (p + 1) P) k = dpt U (p + 1) P (k + 1) := by
  induction k with
  | zero =>
    intro _
    rw [dpt_succ U (by omega)]
    rfl
  | succ k ih =>
    intro hk
    rw [dpt_succ (shift U) (by omega), ih (by omega), dpt_succ U (k := k + 1) (by omega)]
    congr 1
    · omega

theorem bl_const_arg {U : ℕ → K} {P : ℕ → Pt K d} {a : ℕ} (ts : List K) (x : K)
    (hW : Win U (ts.length + 1) a) :
    bl U (x :: ts) P a = bl U (0 :: ts) P a + x • (bl U (1 :: ts) P a - bl U (0 :: ts) P a) := by
  have := bl_affine (P := P) ts x (1 - x) 1 0 (by ring) hW
  rw [mul_one, mul_zero, add_zero] at this
  rw [this]
  module

theorem junction (p : ℕ) : ∀ {U U' : ℕ → K} {P P' : ℕ → Pt K d} {a b : ℕ} (τ : K), Win U p a →
    Win U' p b →
    (∀ k, k < p → bl (shiftN k U) (List.replicate (p - k) τ) (dpt U p P k) a =
      bl (shiftN k U') (List.replicate (p - k) τ) (dpt U' p P' k) b) →
    ∀ ts : List K, ts.length + 1 = p → bl U (τ :: ts) P a = bl U' (τ :: ts) P' b := by
  induction p with
  | zero => intro U U' P P' a b τ _ _ _ ts hts; omega
  | succ p ih =>
    intro U U' P P' a b τ hW hW' h ts hts
    have h0 : bl U (List.replicate (p + 1) τ) P a = bl U' (List.replicate (p + 1) τ) P' b := h 0 (by omega)
    -- the difference does not depend on a second argument
    have indep : ∀ (x y : K) (us : List K), us.length + 2 = p + 1 →
        bl U (x :: τ :: us) P a - bl U' (x :: τ :: us) P' b =
          bl U (y :: τ :: us) P a - bl U' (y :: τ :: us) P' b := by
      intro x y us hus
      have hd := ih (P := Dv U (p + 1) P) (P' := Dv U' (p + 1) P') τ hW.shift hW'.shift (by
        intro k hk
        have := h (k + 1) (by omega)
        rw [dpt_shift U P k hk.le, dpt_shift U' P' k hk.le]
        rw [show p + 1 - (k + 1) = p - k by omega] at this
        exact this) us (by omega)
      have e1 := bl_Dv U (τ :: us) P a
      have e2 := bl_Dv U' (τ :: us) P' b
      rw [show (τ :: us).length + 1 = p + 1 by simp; omega] at e1 e2
      rw [e1, e2] at hd
      have hne : ((p + 1 : ℕ) : K) ≠ 0 := Nat.cast_ne_zero.mpr (by omega)
      have hd := smul_right_injective _ hne hd
      have w1 : Win U ((τ :: us).length + 1) a := by
        rw [show (τ :: us).length + 1 = p + 1 by simp; omega]; exact hW
      have w2 : Win U' ((τ :: us).length + 1) b := by
        rw [show (τ :: us).length + 1 = p + 1 by simp; omega]; exact hW'
      rw [bl_const_arg (τ :: us) x w1, bl_const_arg (τ :: us) y w1, bl_const_arg (τ :: us) x w2,
        bl_const_arg (τ :: us) y w2, hd]
      module
    have hall : ∀ (l : List K) (n : ℕ), n + l.length = p →
        bl U (τ :: (List.replicate n τ ++ l)) P a - bl U' (τ :: (List.replicate n τ ++ l)) P' b = 0 := by
      intro l
      induction l with
      | nil =>
        intro n hn
        simp only [List.length_nil, Nat.add_zero] at hn
        subst hn
        rw [List.append_nil, ← List.replicate_succ, h0, sub_self]
      | cons s l ihl =>
        intro n hn
        simp only [List.length_cons] at hn
        have hp : (τ :: (List.replicate n τ ++ s :: l)).Perm (s :: τ :: (List.replicate n τ ++ l)) := by
          refine (List.Perm.cons τ List.perm_middle).trans ?_
          exact List.Perm.swap _ _ _
        have hl : (τ :: (List.replicate n τ ++ s :: l)).length = p + 1 := by simp; omega
        rw [bl_perm hp (by rw [hl]; exact hW), bl_perm hp (by rw [hl]; exact hW'),
          indep s τ (List.replicate n τ ++ l) (by simp; omega)]
        have := ihl (n + 1) (by omega)
        rwa [List.replicate_succ, List.cons_append] at this
    have := hall ts 0 (by omega)
    rw [List.replicate_zero, List.nil_append] at this
    exact sub_eq_zero.mp this

/-! ### Joining two splines at a simple knot -/

section
variable {E : Type*} [AddCommGroup E] [Module K E]

theorem knotsFrom_append (U : ℕ → K) (s a b : ℕ) :
    knotsFrom U s (a + b) = knotsFrom U s a ++ knotsFrom U (s + a) b := by
  simp only [knotsFrom, ← List.map_append]
  rw [List.range'_append_1]

/-- the pieces at the windows `a` and `a + s` agree if the `s` knots between them are arguments -/
theorem bl_glue_args (s : ℕ) (ts : List K) : ∀ {U : ℕ → K} {P : ℕ → E} {a : ℕ},
    Win U (s + ts.length) a → Win U (s + ts.length) (a + s) →
    bl U (ts ++ knotsFrom U (a + (s + ts.length) + 1) s) P a =
      bl U (ts ++ knotsFrom U (a + (s + ts.length) + 1) s) P (a + s) := by
  induction ts with
  | nil =>
    intro U P a hW hW'
    have e1 := bl_dual (P := P) s (i := s) le_rfl hW
    have e2 := bl_dual (P := P) s (i := 0) (by omega) hW'
    simp only [List.nil_append, List.length_nil, add_zero] at *
    rw [e1, e2]
  | cons t ts ih =>
    intro U P a hW hW'
    have e : knotsFrom U (a + (s + (t :: ts).length) + 1) s =
        knotsFrom (shift U) (a + (s + ts.length) + 1) s := by
      rw [knotsFrom_shift]; rfl
    rw [e, List.cons_append, bl_cons]
    exact ih hW.shift hW'.shift

/-- as `bl_glue_args`, for any arguments that contain the knots between the windows -/
theorem bl_glue_perm {U : ℕ → K} {P : ℕ → E} {a s p : ℕ} {l ts : List K}
    (hl : l.length = p) (hp : l.Perm (ts ++ knotsFrom U (a + p + 1) s)) (hW : Win U p a)
    (hW' : Win U p (a + s)) : bl U l P a = bl U l P (a + s) := by
  have hts : s + ts.length = p := by
    have := hp.length_eq
    rw [hl, List.length_append, knotsFrom_length] at this
    omega
  rw [bl_perm hp (by rw [hl]; exact hW), bl_perm hp (by rw [hl]; exact hW')]
  have := bl_glue_args s ts (U := U) (P := P) (a := a) (by rw [hts]; exact hW) (by rw [hts]; exact hW')
  rw [hts] at this
  exact this

/-- A spline whose knots up to index `m + 1` are those of `U`, and whose control points are those of
`P` or the polar form of the last piece of `P`, continues to be `P` on the span `j`. -/
theorem glue_left {U M : ℕ → K} {P Q : ℕ → E} {p m j : ℕ} (hU : Monotone U) (hM : Monotone M)
    (hm : ∀ x, x ≤ m + 1 → M x = U x) (hpj : p ≤ j) (hjm : j ≤ m) (hj : U j < U (j + 1))
    (hlast : U m < U (m + 1))
    (hP : ∀ i, j ≤ i + p → i ≤ j → i + p ≤ m + 1 → Q i = P i)
    (hQ : ∀ i, j ≤ i + p → i ≤ j → m + 1 < i + p → Q i = bl U (knotsFrom M (i + 1) p) P (m - p))
    (ts : List K) (hts : ts.length = p) : bl M ts Q (j - p) = bl U ts P (j - p) := by
  have hW := win_of_span hU hpj hj
  have hWm := win_of_span hU (p := p) (by omega) hlast
  have hW' := win_of_span hM hpj (by rw [hm j (by omega), hm (j + 1) (by omega)]; exact hj)
  refine bl_change p hW hW' ?_ ts hts
  intro i hi
  by_cases h : j - p + i + p ≤ m + 1
  · have : knotsFrom M (j - p + i + 1) p = knotsFrom U (j - p + i + 1) p :=
      knotsFrom_congr (fun x hx => hm _ (by omega))
    rw [hP _ (by omega) (by omega) h, this, bl_dual p i hi hW]
  · rw [hQ _ (by omega) (by omega) (by omega)]
    have e : knotsFrom M (j - p + i + 1) p = knotsFrom M (j - p + i + 1) (p - i) ++
        (knotsFrom U (j + 1) (m - j) ++ knotsFrom M (m + 1) (p + i - (m - j) - p)) := by
      have e1 := knotsFrom_append M (j - p + i + 1) (p - i) i
      have e2 := knotsFrom_append M (j + 1) (m - j) (i - (m - j))
      rw [show p - i + i = p by omega, show j - p + i + 1 + (p - i) = j + 1 by omega] at e1
      rw [show m - j + (i - (m - j)) = i by omega, show j + 1 + (m - j) = m + 1 by omega] at e2
      rw [e1, e2, show p + i - (m - j) - p = i - (m - j) by omega]
      congr 2
      exact knotsFrom_congr (fun x hx => hm _ (by omega))
    have := bl_glue_perm (U := U) (P := P) (a := j - p) (s := m - j) (p := p)
      (l := knotsFrom M (j - p + i + 1) p)
      (ts := knotsFrom M (j - p + i + 1) (p - i) ++ knotsFrom M (m + 1) (p + i - (m - j) - p))
      (by simp) (by
        rw [e, show j - p + p + 1 = j + 1 by omega, List.append_assoc]
        exact List.Perm.append_left _ List.perm_append_comm) hW
      (by rw [show j - p + (m - j) = m - p by omega]; exact hWm)
    rw [this, show j - p + (m - j) = m - p by omega]

/-- mirror image of `glue_left`: the knots of `M` from index `c + p` on are those of `U` -/
theorem glue_right {U M : ℕ → K} {P Q : ℕ → E} {p c j : ℕ} (hU : Monotone U) (hM : Monotone M)
    (hm : ∀ x, p ≤ x → M (x + c) = U x) (hpj : p ≤ j) (hj : U j < U (j + 1))
    (hfirst : U p < U (p + 1))
    (hP : ∀ i, j ≤ i + p → i ≤ j → p ≤ i + 1 → Q (i + c) = P i)
    (hQ : ∀ i, j ≤ i + p → i ≤ j → i + 1 < p → Q (i + c) = bl U (knotsFrom M (i + c + 1) p) P 0)
    (ts : List K) (hts : ts.length = p) : bl M ts Q (j - p + c) = bl U ts P (j - p) := by
  have hW := win_of_span hU hpj hj
  have hW0 := win_of_span hU (p := p) le_rfl hfirst
  have hW' := win_of_span hM (p := p) (j := j + c) (by omega) (by
    rw [hm j hpj, show j + c + 1 = j + 1 + c by omega, hm (j + 1) (by omega)]; exact hj)
  rw [show j + c - p = j - p + c by omega] at hW'
  rw [Nat.sub_self] at hW0
  refine bl_change p hW hW' ?_ ts hts
  intro i hi
  rw [show j - p + c + i = j - p + i + c by omega]
  by_cases h : p ≤ j - p + i + 1
  · have : knotsFrom M (j - p + i + c + 1) p = knotsFrom U (j - p + i + 1) p := by
      apply knotsFrom_congr
      intro x hx
      rw [show j - p + i + c + 1 + x = j - p + i + 1 + x + c by omega]
      exact hm _ (by omega)
    rw [hP _ (by omega) (by omega) h, this, bl_dual p i hi hW]
  · rw [hQ _ (by omega) (by omega) (by omega)]
    have e : knotsFrom M (j - p + i + c + 1) p = knotsFrom M (j - p + i + c + 1) (2 * p - j - i) ++
        (knotsFrom U (p + 1) (j - p) ++ knotsFrom M (j + c + 1) i) := by
      have e1 := knotsFrom_append M (j - p + i + c + 1) (2 * p - j - i) (j - p + i)
      have e2 := knotsFrom_append M (p + c + 1) (j - p) i
      rw [show 2 * p - j - i + (j - p + i) = p by omega,
        show j - p + i + c + 1 + (2 * p - j - i) = p + c + 1 by omega] at e1
      rw [show p + c + 1 + (j - p) = j + c + 1 by omega] at e2
      rw [e1, e2]
      congr 2
      apply knotsFrom_congr
      intro x hx
      rw [show p + c + 1 + x = p + 1 + x + c by omega]
      exact hm _ (by omega)
    have := bl_glue_perm (U := U) (P := P) (a := 0) (s := j - p) (p := p)
      (l := knotsFrom M (j - p + i + c + 1) p)
      (ts := knotsFrom M (j - p + i + c + 1) (2 * p - j - i) ++ knotsFrom M (j + c + 1) i)
      (by simp) (by
        rw [e, Nat.zero_add, List.append_assoc]
        exact List.Perm.append_left _ List.perm_append_comm) hW0
      (by rw [Nat.zero_add]; exact hW)
    rw [this, Nat.zero_add]

end

end BSpline
