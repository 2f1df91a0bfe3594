import Mathlib.Algebra.Module.Basic
import Mathlib.Algebra.Field.Basic
import Mathlib.Tactic.FieldSimp
import Mathlib.Tactic.Ring
import Mathlib.Tactic.Module
import Mathlib.Tactic.LinearCombination
import Mathlib.Data.List.Perm.Basic

set_option linter.unusedSectionVars false
set_option linter.unnecessarySimpa false

/-!
# Blossoms (polar forms) of B-spline segments

Pure mathematics, independent of the model. `bl U ts P a` is the polar form of the polynomial
segment with control points `P a, …, P (a + p)` (`p = ts.length`) and knots
`U (a+1), …, U (a+2p)`, computed by de Boor's scheme with one argument per step.
-/

namespace BSpline

variable {K : Type*} [Field K] {V : Type*} [AddCommGroup V] [Module K V]

/-- drop the first knot -/
def shift {α : Type*} (U : ℕ → α) : ℕ → α := fun i => U (i + 1)

@[simp] theorem shift_apply {α : Type*} (U : ℕ → α) (i : ℕ) : shift U i = U (i + 1) := rfl

/-- one de Boor step of degree `q` with argument `t` -/
def D (U : ℕ → K) (q : ℕ) (t : K) (P : ℕ → V) : ℕ → V := fun i =>
  ((U (i + 1 + q) - t) / (U (i + 1 + q) - U (i + 1))) • P i +
    ((t - U (i + 1)) / (U (i + 1 + q) - U (i + 1))) • P (i + 1)

/-- the polar form -/
def bl : (ℕ → K) → List K → (ℕ → V) → ℕ → V
  | _, [], P => P
  | U, t :: ts, P => bl (shift U) ts (D U (ts.length + 1) t P)

@[simp] theorem bl_nil (U : ℕ → K) (P : ℕ → V) : bl U [] P = P := rfl
theorem bl_cons (U : ℕ → K) (t : K) (ts : List K) (P : ℕ → V) :
    bl U (t :: ts) P = bl (shift U) ts (D U (ts.length + 1) t P) := rfl

/-- none of the denominators of the window starting at `a` vanishes -/
def Win {α : Type*} (U : ℕ → α) (p a : ℕ) : Prop :=
  ∀ i, i < p → ∀ k, k < p → U (a + 1 + i) ≠ U (a + 1 + p + k)

theorem Win.shift {α : Type*} {U : ℕ → α} {p a : ℕ} (h : Win U (p + 1) a) :
    Win (shift U) p a := by
  intro i hi k hk
  have := h (i + 1) (by omega) k (by omega)
  simpa [shift, add_assoc, add_comm, add_left_comm] using this

theorem Win.den {U : ℕ → K} {p a m : ℕ} (h : Win U p a) (hm : m < p) :
    U (a + m + 1 + p) - U (a + m + 1) ≠ 0 := by
  have := h m hm m hm
  rw [show a + m + 1 + p = a + 1 + p + m by omega, show a + m + 1 = a + 1 + m by omega]
  exact sub_ne_zero.mpr this.symm

/-! ### Linearity and locality -/

theorem D_add (U : ℕ → K) (q : ℕ) (t : K) (P Q : ℕ → V) :
    D U q t (fun i => P i + Q i) = fun i => D U q t P i + D U q t Q i := by
  funext i; simp only [D]; module

theorem D_smul (U : ℕ → K) (q : ℕ) (t c : K) (P : ℕ → V) :
    D U q t (fun i => c • P i) = fun i => c • D U q t P i := by
  funext i; simp only [D]; module

theorem D_sub (U : ℕ → K) (q : ℕ) (t : K) (P Q : ℕ → V) :
    D U q t (fun i => P i - Q i) = fun i => D U q t P i - D U q t Q i := by
  funext i; simp only [D]; module

theorem bl_add (ts : List K) : ∀ (U : ℕ → K) (P Q : ℕ → V),
    bl U ts (fun i => P i + Q i) = fun i => bl U ts P i + bl U ts Q i := by
  induction ts with
  | nil => intros; rfl
  | cons t ts ih => intro U P Q; simp only [bl_cons, D_add, ih]

theorem bl_sub (ts : List K) : ∀ (U : ℕ → K) (P Q : ℕ → V),
    bl U ts (fun i => P i - Q i) = fun i => bl U ts P i - bl U ts Q i := by
  induction ts with
  | nil => intros; rfl
  | cons t ts ih => intro U P Q; simp only [bl_cons, D_sub, ih]

theorem bl_smul (ts : List K) : ∀ (U : ℕ → K) (c : K) (P : ℕ → V),
    bl U ts (fun i => c • P i) = fun i => c • bl U ts P i := by
  induction ts with
  | nil => intros; rfl
  | cons t ts ih => intro U c P; simp only [bl_cons, D_smul, ih]

theorem D_map {W : Type*} [AddCommGroup W] [Module K W] (f : V →ₗ[K] W) (U : ℕ → K) (q : ℕ) (t : K)
    (P : ℕ → V) : D U q t (fun i => f (P i)) = fun i => f (D U q t P i) := by
  funext i; simp [D]

theorem bl_map {W : Type*} [AddCommGroup W] [Module K W] (f : V →ₗ[K] W) (ts : List K) :
    ∀ (U : ℕ → K) (P : ℕ → V), bl U ts (fun i => f (P i)) = fun i => f (bl U ts P i) := by
  induction ts with
  | nil => intros; rfl
  | cons t ts ih => intro U P; simp only [bl_cons, D_map, ih]

/-- locality: only the control points of the window and its knots matter -/
theorem bl_congr (ts : List K) : ∀ {U U' : ℕ → K} {P P' : ℕ → V} {a b : ℕ},
    (∀ m, m < 2 * ts.length → U (a + 1 + m) = U' (b + 1 + m)) →
    (∀ m, m ≤ ts.length → P (a + m) = P' (b + m)) →
    bl U ts P a = bl U' ts P' b := by
  induction ts with
  | nil => intro U U' P P' a b _ hP; simpa using hP 0 le_rfl
  | cons t ts ih =>
    intro U U' P P' a b hU hP
    simp only [List.length_cons] at hU hP
    rw [bl_cons, bl_cons]
    apply ih
    · intro m hm
      have := hU (m + 1) (by omega)
      simpa [shift, add_assoc] using this
    · intro m hm
      simp only [D]
      have e1 := hU m (by omega)
      have e2 := hU (m + (ts.length + 1)) (by omega)
      have e3 := hP m (by omega)
      have e4 := hP (m + 1) (by omega)
      rw [show a + m + 1 = a + 1 + m by omega, show b + m + 1 = b + 1 + m by omega, e1]
      rw [show a + 1 + m + (ts.length + 1) = a + 1 + (m + (ts.length + 1)) by omega,
        show b + 1 + m + (ts.length + 1) = b + 1 + (m + (ts.length + 1)) by omega, e2, e3]
      rw [show a + 1 + m = a + (m + 1) by omega, e4, show b + 1 + m = b + (m + 1) by omega]

theorem bl_congr_pts (ts : List K) {U : ℕ → K} {P P' : ℕ → V} {a : ℕ}
    (hP : ∀ m, m ≤ ts.length → P (a + m) = P' (a + m)) : bl U ts P a = bl U ts P' a :=
  bl_congr ts (fun _ _ => rfl) hP

/-! ### Symmetry -/

theorem D_swap (U : ℕ → K) (q : ℕ) (s t : K) (P : ℕ → V) (i : ℕ)
    (h1 : U (i + 1 + q + 1) - U (i + 1) ≠ 0) (h2 : U (i + 1 + q + 1) - U (i + 1 + 1) ≠ 0)
    (h3 : U (i + 1 + 1 + q + 1) - U (i + 1 + 1) ≠ 0) :
    D (shift U) q t (D U (q + 1) s P) i = D (shift U) q s (D U (q + 1) t P) i := by
  simp only [D, shift_apply]
  rw [show i + 1 + (q + 1) = i + 1 + q + 1 by omega,
    show i + 1 + 1 + (q + 1) = i + 1 + 1 + q + 1 by omega]
  generalize U (i + 1 + q + 1) = B at *
  generalize U (i + 1) = A at *
  generalize U (i + 1 + 1) = A' at *
  generalize U (i + 1 + 1 + q + 1) = C at *
  match_scalars
  · field_simp
  · field_simp; ring
  · field_simp

theorem bl_swap (ts : List K) {U : ℕ → K} {P : ℕ → V} {a : ℕ} (s t : K)
    (hW : Win U (ts.length + 2) a) :
    bl U (s :: t :: ts) P a = bl U (t :: s :: ts) P a := by
  simp only [bl_cons, List.length_cons]
  apply bl_congr_pts
  intro m hm
  apply D_swap
  · have := hW m (by omega) m (by omega)
    rw [show a + m + 1 + (ts.length + 1) + 1 = a + 1 + (ts.length + 2) + m by omega,
      show a + m + 1 = a + 1 + m by omega]
    exact sub_ne_zero.mpr this.symm
  · have := hW (m + 1) (by omega) m (by omega)
    rw [show a + m + 1 + (ts.length + 1) + 1 = a + 1 + (ts.length + 2) + m by omega,
      show a + m + 1 + 1 = a + 1 + (m + 1) by omega]
    exact sub_ne_zero.mpr this.symm
  · have := hW (m + 1) (by omega) (m + 1) (by omega)
    rw [show a + m + 1 + 1 + (ts.length + 1) + 1 = a + 1 + (ts.length + 2) + (m + 1) by omega,
      show a + m + 1 + 1 = a + 1 + (m + 1) by omega]
    exact sub_ne_zero.mpr this.symm

/-- the polar form is symmetric -/
theorem bl_perm {ts ts' : List K} (h : ts.Perm ts') : ∀ {U : ℕ → K} {P : ℕ → V} {a : ℕ},
    Win U ts.length a → bl U ts P a = bl U ts' P a := by
  induction h with
  | nil => intros; rfl
  | cons x h ih =>
    intro U P a hW
    simp only [bl_cons, h.length_eq]
    exact ih (by simpa using hW.shift)
  | swap x y l => intro U P a hW; exact bl_swap l y x (by simpa using hW)
  | trans h1 h2 ih1 ih2 =>
    intro U P a hW
    rw [ih1 hW, ih2 (by rwa [← h1.length_eq])]

/-! ### Affinity -/

/-- affine in the first argument -/
theorem bl_affine (ts : List K) {U : ℕ → K} {P : ℕ → V} {a : ℕ} (c e s t : K) (hc : c + e = 1)
    (hW : Win U (ts.length + 1) a) :
    bl U ((c * s + e * t) :: ts) P a = c • bl U (s :: ts) P a + e • bl U (t :: ts) P a := by
  have hD : bl U ((c * s + e * t) :: ts) P a =
      bl (shift U) ts (fun i => c • D U (ts.length + 1) s P i + e • D U (ts.length + 1) t P i) a := by
    rw [bl_cons]
    apply bl_congr_pts
    intro m hm
    have hd := hW.den (m := m) (by omega)
    simp only [D]
    generalize U (a + m + 1 + (ts.length + 1)) = B at *
    generalize U (a + m + 1) = A at *
    have he : e = 1 - c := by linear_combination hc
    subst he
    match_scalars
    · field_simp; ring
    · field_simp; ring
  rw [hD, bl_add, bl_smul, bl_smul]
  rfl

/-! ### Dual functionals -/

/-- consecutive knots `U s, …, U (s + p - 1)` -/
def knotsFrom (U : ℕ → K) (s p : ℕ) : List K := (List.range' s p).map U

@[simp] theorem knotsFrom_length (U : ℕ → K) (s p : ℕ) : (knotsFrom U s p).length = p := by
  simp [knotsFrom]

theorem knotsFrom_succ (U : ℕ → K) (s p : ℕ) :
    knotsFrom U s (p + 1) = U s :: knotsFrom U (s + 1) p := by
  simp [knotsFrom, List.range'_succ]

theorem knotsFrom_concat (U : ℕ → K) (s p : ℕ) :
    knotsFrom U s (p + 1) = knotsFrom U s p ++ [U (s + p)] := by
  simp [knotsFrom, List.range'_1_concat]

theorem knotsFrom_shift (U : ℕ → K) (s p : ℕ) :
    knotsFrom (shift U) s p = knotsFrom U (s + 1) p := by
  apply List.ext_getElem (by simp [knotsFrom])
  intro i _ _
  simp only [knotsFrom, List.getElem_map, List.getElem_range', shift_apply]
  congr 1; omega

theorem knotsFrom_congr {U U' : ℕ → K} {s s' p : ℕ} (h : ∀ m, m < p → U (s + m) = U' (s' + m)) :
    knotsFrom U s p = knotsFrom U' s' p := by
  induction p generalizing s s' with
  | zero => rfl
  | succ p ih =>
    rw [knotsFrom_succ, knotsFrom_succ]
    have := h 0 (by omega)
    simp only [add_zero] at this
    rw [this, ih]
    intro m hm
    have := h (m + 1) (by omega)
    rwa [show s + 1 + m = s + (m + 1) by omega, show s' + 1 + m = s' + (m + 1) by omega]

/-- a control point is the polar form at its consecutive knots -/
theorem bl_dual (p : ℕ) : ∀ {U : ℕ → K} {P : ℕ → V} {a : ℕ} (i : ℕ), i ≤ p → Win U p a →
    bl U (knotsFrom U (a + i + 1) p) P a = P (a + i) := by
  induction p with
  | zero => intro U P a i hi _; obtain rfl : i = 0 := by omega
            rfl
  | succ p ih =>
    intro U P a i hi hW
    by_cases hip : i ≤ p
    · rw [knotsFrom_succ, bl_cons, ← knotsFrom_shift, knotsFrom_length, ih i hip hW.shift]
      simp only [D]
      have hd := hW.den (m := i) (by omega)
      rw [div_self hd]; simp
    · obtain rfl : i = p + 1 := by omega
      rw [knotsFrom_concat]
      have hp : (knotsFrom U (a + (p + 1) + 1) p ++ [U (a + (p + 1) + 1 + p)]).Perm
          (U (a + (p + 1) + 1 + p) :: knotsFrom U (a + (p + 1) + 1) p) := by
        simpa using List.perm_append_comm (l₁ := knotsFrom U (a + (p + 1) + 1) p)
          (l₂ := [U (a + (p + 1) + 1 + p)])
      rw [bl_perm hp (by simpa using hW), bl_cons, knotsFrom_length]
      have hk : knotsFrom U (a + (p + 1) + 1) p = knotsFrom (shift U) (a + p + 1) p := by
        rw [knotsFrom_shift]; rfl
      rw [hk, ih p le_rfl hW.shift]
      simp only [D]
      have hd := hW.den (m := p) (by omega)
      rw [show a + (p + 1) + 1 + p = a + p + 1 + (p + 1) by omega, div_self hd]
      simp [add_assoc]

/-! ### Change of knots -/

/-- If new control points are the polar form evaluated at new consecutive knots, then the new
window describes the same polynomial (knot insertion, subdivision, reparametrised windows). -/
theorem bl_change (p : ℕ) : ∀ {U U' : ℕ → K} {P P' : ℕ → V} {a b : ℕ}, Win U p a → Win U' p b →
    (∀ i, i ≤ p → P' (b + i) = bl U (knotsFrom U' (b + i + 1) p) P a) →
    ∀ ts : List K, ts.length = p → bl U' ts P' b = bl U ts P a := by
  induction p with
  | zero =>
    intro U U' P P' a b _ _ hP ts hts
    obtain rfl := List.length_eq_zero_iff.mp hts
    have := hP 0 le_rfl
    simpa [knotsFrom] using this
  | succ p ih =>
    intro U U' P P' a b hW hW' hP ts hts
    match ts, hts with
    | t :: ts, hts =>
      have hl : ts.length = p := by simpa using hts
      rw [bl_cons, bl_cons, hl]
      apply ih hW.shift hW'.shift _ ts hl
      intro i hi
      have h1 := hP i (by omega)
      have h2 := hP (i + 1) (by omega)
      have hd := hW'.den (m := i) (by omega)
      rw [knotsFrom_succ] at h1
      rw [show b + (i + 1) + 1 = b + i + 1 + 1 by omega, knotsFrom_concat] at h2
      have hperm : (knotsFrom U' (b + i + 1 + 1) p ++ [U' (b + i + 1 + 1 + p)]).Perm
          (U' (b + i + 1 + 1 + p) :: knotsFrom U' (b + i + 1 + 1) p) := by
        simpa using List.perm_append_comm (l₁ := knotsFrom U' (b + i + 1 + 1) p)
          (l₂ := [U' (b + i + 1 + 1 + p)])
      rw [bl_perm hperm (by simpa using hW)] at h2
      have hR : bl (shift U) (knotsFrom (shift U') (b + i + 1) p) (D U (p + 1) t P) a =
          bl U (t :: knotsFrom U' (b + i + 1 + 1) p) P a := by
        rw [bl_cons, knotsFrom_shift, knotsFrom_length]
      rw [hR]
      have hA : U' (b + i + 1 + 1 + p) = U' (b + i + 1 + (p + 1)) := by
        congr 1; omega
      have ht : t = ((U' (b + i + 1 + (p + 1)) - t) / (U' (b + i + 1 + (p + 1)) - U' (b + i + 1))) *
            U' (b + i + 1) +
          ((t - U' (b + i + 1)) / (U' (b + i + 1 + (p + 1)) - U' (b + i + 1))) *
            U' (b + i + 1 + (p + 1)) := by
        field_simp; ring
      conv_rhs => rw [ht]
      rw [bl_affine _ _ _ _ _ (by field_simp; ring) (by simpa using hW)]
      rw [show b + (i + 1) = b + i + 1 by omega] at h2
      rw [hA] at h2
      simp only [D]
      rw [h1, h2]

/-! ### Constants, reparametrisation, reversal -/

theorem D_const (U : ℕ → K) (q : ℕ) (t : K) (v : V) (i : ℕ)
    (h : U (i + 1 + q) - U (i + 1) ≠ 0) : D U q t (fun _ => v) i = v := by
  simp only [D]
  rw [← add_smul, ← add_div, show U (i + 1 + q) - t + (t - U (i + 1)) = U (i + 1 + q) - U (i + 1) by
    ring, div_self h, one_smul]

theorem bl_const (ts : List K) : ∀ {U : ℕ → K} {a : ℕ} (v : V), Win U ts.length a →
    bl U ts (fun _ => v) a = v := by
  induction ts with
  | nil => intros; rfl
  | cons t ts ih =>
    intro U a v hW
    rw [bl_cons]
    simp only [List.length_cons] at hW
    have h : bl (shift U) ts (D U (ts.length + 1) t (fun _ => v)) a = bl (shift U) ts (fun _ => v) a := by
      apply bl_congr_pts
      intro m hm
      exact D_const U _ t v (a + m) (hW.den (m := m) (by omega))
    rw [h, ih v hW.shift]

/-- affine reparametrisation of knots and arguments -/
theorem bl_reparam (c e : K) (hc : c ≠ 0) (ts : List K) : ∀ (U : ℕ → K) (P : ℕ → V),
    bl (fun i => c * U i + e) (ts.map (fun t => c * t + e)) P = bl U ts P := by
  induction ts with
  | nil => intros; rfl
  | cons t ts ih =>
    intro U P
    simp only [List.map_cons, bl_cons, List.length_map]
    have hD : D (fun i => c * U i + e) (ts.length + 1) (c * t + e) P = D U (ts.length + 1) t P := by
      funext i
      simp only [D]
      rw [show c * U (i + 1 + (ts.length + 1)) + e - (c * t + e) =
          c * (U (i + 1 + (ts.length + 1)) - t) by ring,
        show c * U (i + 1 + (ts.length + 1)) + e - (c * U (i + 1) + e) =
          c * (U (i + 1 + (ts.length + 1)) - U (i + 1)) by ring,
        show c * t + e - (c * U (i + 1) + e) = c * (t - U (i + 1)) by ring,
        mul_div_mul_left _ _ hc, mul_div_mul_left _ _ hc]
    rw [hD]
    exact ih (shift U) _

/-- reversal: reflecting the window (knots, arguments and control points) -/
theorem bl_reflect (ts : List K) : ∀ {U U' : ℕ → K} {P P' : ℕ → V} {a b : ℕ} (e : K),
    (∀ m, m < 2 * ts.length → U' (b + 1 + m) = e - U (a + 2 * ts.length - m)) →
    (∀ m, m ≤ ts.length → P' (b + m) = P (a + ts.length - m)) →
    bl U' (ts.map (fun t => e - t)) P' b = bl U ts P a := by
  induction ts with
  | nil => intro U U' P P' a b e _ hP; simpa using hP 0 le_rfl
  | cons t ts ih =>
    intro U U' P P' a b e hU hP
    simp only [List.length_cons] at hU hP
    simp only [List.map_cons, bl_cons, List.length_map]
    apply ih e
    · intro m hm
      have := hU (m + 1) (by omega)
      simp only [shift_apply]
      rw [show b + 1 + m + 1 = b + 1 + (m + 1) by omega, this]
      congr 2; omega
    · intro m hm
      simp only [D]
      have e1 := hU m (by omega)
      have e2 := hU (m + (ts.length + 1)) (by omega)
      have e3 := hP m (by omega)
      have e4 := hP (m + 1) (by omega)
      rw [show b + m + 1 = b + 1 + m by omega, e1,
        show b + 1 + m + (ts.length + 1) = b + 1 + (m + (ts.length + 1)) by omega, e2, e3,
        show b + 1 + m = b + (m + 1) by omega, e4]
      rw [show a + 2 * (ts.length + 1) - (m + (ts.length + 1)) = a + ts.length - m + 1 by omega,
        show a + 2 * (ts.length + 1) - m = a + ts.length - m + 1 + (ts.length + 1) by omega,
        show a + (ts.length + 1) - m = a + ts.length - m + 1 by omega,
        show a + (ts.length + 1) - (m + 1) = a + ts.length - m by omega]
      generalize U (a + ts.length - m + 1) = A
      generalize U (a + ts.length - m + 1 + (ts.length + 1)) = B
      rw [show e - A - (e - t) = t - A by ring, show e - A - (e - B) = B - A by ring,
        show e - t - (e - B) = B - t by ring, add_comm]

/-! ### Continuity across a knot -/

/-- If `U (a+p+1) = … = U (a+p+s) = τ` with `s ≤ p`, the windows at `a` and `a + s` have the same
value at `τ`. -/
theorem bl_glue (r s : ℕ) (τ : K) : ∀ {U : ℕ → K} {P : ℕ → V} {a : ℕ},
    Win U (s + r) a → Win U (s + r) (a + s) → (∀ m, m < s → U (a + (s + r) + 1 + m) = τ) →
    bl U (List.replicate (s + r) τ) P a = bl U (List.replicate (s + r) τ) P (a + s) := by
  induction r with
  | zero =>
    intro U P a hW hW' hU
    have h1 : List.replicate (s + 0) τ = knotsFrom U (a + s + 1) s := by
      rw [knotsFrom]
      apply List.ext_getElem (by simp)
      intro i hi _
      simp only [List.getElem_replicate, List.getElem_map, List.getElem_range']
      have := hU i (by simpa using hi)
      rw [← this]; congr 1; omega
    have e1 := bl_dual (P := P) s (i := s) le_rfl hW
    have e2 := bl_dual (P := P) s (i := 0) (by omega) hW'
    rw [h1, e1]
    simp only [add_zero] at e2
    rw [e2]
  | succ r ih =>
    intro U P a hW hW' hU
    have : List.replicate (s + (r + 1)) τ = τ :: List.replicate (s + r) τ := rfl
    rw [this, bl_cons]
    apply ih
    · exact hW.shift
    · exact hW'.shift
    · intro m hm
      have := hU m hm
      simp only [shift_apply]
      rw [← this]; congr 1; omega

/-! ### Derivative control points -/

/-- control points of the derivative -/
def Dv (U : ℕ → K) (q : ℕ) (P : ℕ → V) : ℕ → V := fun i =>
  ((q : K) / (U (i + 1 + q) - U (i + 1))) • (P (i + 1) - P i)

theorem Dv_D_comm (U : ℕ → K) (q : ℕ) (t : K) (P : ℕ → V) (i : ℕ)
    (h1 : U (i + 1 + q + 1) - U (i + 1) ≠ 0) (h2 : U (i + 1 + q + 1) - U (i + 1 + 1) ≠ 0)
    (h3 : U (i + 1 + 1 + q + 1) - U (i + 1 + 1) ≠ 0) :
    ((q + 1 : ℕ) : K) • Dv (shift U) q (D U (q + 1) t P) i =
      (q : K) • D (shift U) q t (Dv U (q + 1) P) i := by
  simp only [D, Dv, shift_apply]
  rw [show i + 1 + (q + 1) = i + 1 + q + 1 by omega,
    show i + 1 + 1 + (q + 1) = i + 1 + 1 + q + 1 by omega]
  generalize U (i + 1 + q + 1) = B at *
  generalize U (i + 1) = A at *
  generalize U (i + 1 + 1) = A' at *
  generalize U (i + 1 + 1 + q + 1) = C at *
  match_scalars
  · field_simp; ring
  · field_simp
  · field_simp

end BSpline
