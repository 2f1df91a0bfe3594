import Verif.Props.IeeeInterpolate
import Verif.Props.Inexact
import Verif.Refine.AnyOrder
import Verif.Refine.Products

/-!
# The normal equations of a fit in IEEE 754 arithmetic

Products, sums of products, and the exact integers of the penalty.
-/

set_option linter.unusedSectionVars false

namespace BSpline

open Finset Ieee

variable {K : Type} [Field K] [LinearOrder K] [IsStrictOrderedRing K] {F : Format K} {d : ℕ}

/-- a product of two computed numbers -/
theorem mul_ieee {a b : Ieee F} {y x w z t v A B : K} {k l : ℕ} (ha : Is a y) (hb : Is b z)
    (h : UErr F k A y x w) (h' : UErr F l B z t v) (hmax : (F.phi ^ k * w + A) * (F.phi ^ l * v + B) ≤ F.max) :
    Is (a * b) (F.rnd (y * z)) ∧ UErr F (k + l + 1)
      (F.phi * (A * (F.phi ^ l * v) + F.phi ^ k * w * B + A * B) + F.eta) (F.rnd (y * z)) (x * t) (w * v) := by
  refine ⟨ha.mul hb ?_, (h.mul h').rnd⟩
  rw [abs_mul]
  refine le_trans (mul_le_mul h.abs_le h'.abs_le (abs_nonneg _) ?_) hmax
  exact add_nonneg (mul_nonneg (pow_nonneg F.phi_pos.le _) h.weight_nonneg) h.2.1

theorem sum_map_range (r : ℕ) (f : ℕ → K) : ((List.range r).map f).sum = ∑ i ∈ range r, f i := by
  induction r with
  | zero => rfl
  | succ r ih => rw [List.range_succ, List.map_append, List.sum_append, ih, sum_range_succ]; simp

/-- a sum of computed numbers, started with a zero -/
theorem sum_ieee {g : ℕ → Ieee F} {x w : ℕ → K} {r k : ℕ} {B : K} {v : Ieee F} (hv : Is v 0) (hB : 0 ≤ B)
    (h : ∀ i, i < r → ∃ y, Is (g i) y ∧ UErr F k B y (x i) (w i))
    (hmax : F.phi ^ (k + r) * ∑ i ∈ range r, w i + F.phi ^ r * (r * B) ≤ F.max) :
    ∃ z, Is ((List.range r).foldl (fun s i => s + g i) v) z ∧
      UErr F (k + r) (F.phi ^ r * (r * B)) z (∑ i ∈ range r, x i) (∑ i ∈ range r, w i) := by
  have e := sum_map_range (K := K) r
  have := foldl_ieee (g := g) (x := x) (w := w) (M := k) (B := B) (List.range r) 0 v 0 0 0 0
    (fun i hi => h i (List.mem_range.mp hi)) hv (by simp [UErr]) hB (by
      rw [e, List.length_range]; simpa using hmax)
  rw [e, e, List.length_range] at this
  simpa using this

/-- an entry of the Gram matrix of computed basis functions, added in any order -/
theorem gram_any {p r i j : ℕ} (hroom : Room F p) {f : ℕ → ℕ → Ieee F} {N : ℕ → ℕ → K} {v : Ieee F}
    (hv : AnySum (fun g => f g i) (fun g => f g j) (List.range r) v)
    (hi : ∀ g, g < r → ∃ y, Is (f g i) y ∧ UErr F (5 * p) (under F p) y (N g i) (N g i))
    (hj : ∀ g, g < r → ∃ y, Is (f g j) y ∧ UErr F (5 * p) (under F p) y (N g j) (N g j))
    (hi1 : ∀ g, g < r → N g i ≤ 1) (hj1 : ∀ g, g < r → N g j ≤ 1)
    (hphi : F.phi ^ (10 * p + 1 + r) ≤ 2) (hmax : 4 * (r : K) ≤ F.max) :
    ∃ z, Is v z ∧ UErr F (10 * p + 1 + r) (r * (8 * under F p + 2 * F.eta)) z
      (∑ g ∈ range r, N g i * N g j) (∑ g ∈ range r, N g i * N g j) := by
  have hu0 := under_nonneg (F := F) p
  have hu1 := hroom.under_small (q := p) le_rfl
  have he0 := F.eta_nonneg
  have he1 := hroom.eta_small
  have h5 : F.phi ^ (5 * p) ≤ 5 / 4 := hroom.pow_le (by omega)
  have h5' := F.one_le_phi_pow (5 * p)
  have hphi1 : F.phi ≤ 5 / 4 := by simpa using hroom.pow_le (k := 1) (by omega)
  have hphi0 := F.phi_pos
  have hr0 : (0 : K) ≤ r := Nat.cast_nonneg _
  have hterm : ∀ g ∈ List.range r, ∃ y z, Is (f g i) y ∧ Is (f g j) z ∧
      UErr F (10 * p) (16 / 5 * under F p) (y * z) (N g i * N g j) (N g i * N g j) := by
    intro g hg
    rw [List.mem_range] at hg
    obtain ⟨y, hy, ey⟩ := hi g hg
    obtain ⟨z, hz, ez⟩ := hj g hg
    have n1 := hi1 g hg
    have n2 := hj1 g hg
    have n3 := ey.weight_nonneg
    have n4 := ez.weight_nonneg
    have b1 : F.phi ^ (5 * p) * N g i ≤ 5 / 4 := by nlinarith
    have b2 : F.phi ^ (5 * p) * N g j ≤ 5 / 4 := by nlinarith
    refine ⟨y, z, hy, hz, (ey.mul ez).mono (by omega) ?_ le_rfl⟩
    have c1 : under F p * (F.phi ^ (5 * p) * N g j) ≤ under F p * (5 / 4) := mul_le_mul_of_nonneg_left b2 hu0
    have c2 : F.phi ^ (5 * p) * N g i * under F p ≤ 5 / 4 * under F p := mul_le_mul_of_nonneg_right b1 hu0
    have c3 : under F p * under F p ≤ under F p * (1 / 12) := mul_le_mul_of_nonneg_left hu1 hu0
    linarith
  have hw : ∑ g ∈ range r, N g i * N g j ≤ r := by
    refine (sum_le_card_nsmul _ _ 1 fun g hg => ?_).trans (by simp)
    have hg := mem_range.mp hg
    obtain ⟨_, -, ey⟩ := hi g hg
    obtain ⟨_, -, ez⟩ := hj g hg
    exact mul_le_one₀ (hi1 g hg) ez.weight_nonneg (hj1 g hg)
  have hw0 : 0 ≤ ∑ g ∈ range r, N g i * N g j := sum_nonneg fun g hg => by
    have hg := mem_range.mp hg
    obtain ⟨_, -, ey⟩ := hi g hg
    obtain ⟨_, -, ez⟩ := hj g hg
    exact mul_nonneg ey.weight_nonneg ez.weight_nonneg
  have hpr : F.phi ^ r ≤ 2 := (F.phi_mono (by omega)).trans hphi
  have hAr : F.phi ^ r * (r * (4 * under F p + F.eta)) ≤ r * (8 * under F p + 2 * F.eta) := by
    have := mul_le_mul_of_nonneg_right hpr (show 0 ≤ (r : K) * (4 * under F p + F.eta) by positivity)
    linarith
  have key := any_ieee (k := 10 * p) (B₀ := 16 / 5 * under F p) (B := 4 * under F p + F.eta) (by positivity) (by
    have := mul_le_mul_of_nonneg_right hphi1 (show 0 ≤ 16 / 5 * under F p by positivity)
    linarith) hv hterm
  rw [sum_map_range, List.length_range] at key
  obtain ⟨z, hz, ez⟩ := key (by
    refine le_trans ?_ hmax
    have d1 := mul_le_mul hphi hw hw0 (by norm_num : (0 : K) ≤ 2)
    have d2 : (r : K) * (8 * under F p + 2 * F.eta) ≤ r * 1 := mul_le_mul_of_nonneg_left (by linarith) hr0
    linarith)
  exact ⟨z, hz, ez.mono le_rfl hAr le_rfl⟩

/-- an entry of the right-hand side of a loose fit, added in any order -/
theorem rhs_any {p r i : ℕ} (hroom : Room F p) {f : ℕ → ℕ → Ieee F} {N : ℕ → ℕ → K} {q : ℕ → Ieee F} {Y : ℕ → K}
    {W B : K} {v : Ieee F} (hv : AnySum (fun g => f g i) q (List.range r) v)
    (hi : ∀ g, g < r → ∃ y, Is (f g i) y ∧ UErr F (5 * p) (under F p) y (N g i) (N g i))
    (hi1 : ∀ g, g < r → N g i ≤ 1) (hq : ∀ g, g < r → Is (q g) (Y g) ∧ |Y g| ≤ W)
    (hW : 0 ≤ W) (hB : 2 * under F p * W + F.eta ≤ B)
    (hphi : F.phi ^ (10 * p + 4 + r) ≤ 2) (hmax : 2 * (r * (W + B)) ≤ F.max) :
    ∃ z, Is v z ∧ UErr F (10 * p + 4 + r) (2 * (r * B)) z
      (∑ g ∈ range r, N g i * Y g) (∑ g ∈ range r, N g i * W) := by
  have hu0 := under_nonneg (F := F) p
  have he0 := F.eta_nonneg
  have hphi1 : F.phi ≤ 5 / 4 := by simpa using hroom.pow_le (k := 1) (by omega)
  have hr0 : (0 : K) ≤ r := Nat.cast_nonneg _
  have huW : 0 ≤ under F p * W := mul_nonneg hu0 hW
  have hB0 : 0 ≤ B := le_trans (by positivity) hB
  have hterm : ∀ g ∈ List.range r, ∃ y z, Is (f g i) y ∧ Is (q g) z ∧
      UErr F (10 * p + 3) (under F p * W) (y * z) (N g i * Y g) (N g i * W) := by
    intro g hg
    rw [List.mem_range] at hg
    obtain ⟨y, hy, ey⟩ := hi g hg
    obtain ⟨hz, hz'⟩ := hq g hg
    refine ⟨y, _, hy, hz, (ey.mul (UErr.refl (F := F) (Y g))).mono (by omega) ?_
      (mul_le_mul_of_nonneg_left hz' ey.weight_nonneg)⟩
    have := mul_le_mul_of_nonneg_left hz' hu0
    simpa using this
  have hw : ∑ g ∈ range r, N g i * W ≤ r * W := by
    refine (sum_le_card_nsmul _ _ W fun g hg => ?_).trans (by simp)
    exact mul_le_of_le_one_left hW (hi1 g (mem_range.mp hg))
  have hw0 : 0 ≤ ∑ g ∈ range r, N g i * W := sum_nonneg fun g hg => by
    obtain ⟨_, -, ey⟩ := hi g (mem_range.mp hg)
    exact mul_nonneg ey.weight_nonneg hW
  have hpr : F.phi ^ r ≤ 2 := (F.phi_mono (by omega)).trans hphi
  have hAr : F.phi ^ r * (r * B) ≤ 2 * (r * B) := mul_le_mul_of_nonneg_right hpr (mul_nonneg hr0 hB0)
  have key := any_ieee (k := 10 * p + 3) (B₀ := under F p * W) (B := B) huW (by
    have := mul_le_mul_of_nonneg_right hphi1 huW
    linarith) hv hterm
  rw [sum_map_range, sum_map_range, List.length_range] at key
  obtain ⟨z, hz, ez⟩ := key (by
    refine le_trans ?_ hmax
    have d1 := mul_le_mul hphi hw hw0 (by norm_num : (0 : K) ≤ 2)
    rw [show 10 * p + 3 + 1 + r = 10 * p + 4 + r by omega]
    linarith)
  exact ⟨z, hz, ez.mono (by omega) hAr le_rfl⟩

/-- an entry of the right-hand side -/
theorem rhs_ieee {p r i : ℕ} (hroom : Room F p) {f : ℕ → ℕ → Ieee F} {N : ℕ → ℕ → K} {q : ℕ → Ieee F} {Y : ℕ → K}
    {A W B : K} {v : Ieee F} (hv : Is v 0)
    (hi : ∀ g, g < r → ∃ y, Is (f g i) y ∧ UErr F (5 * p) (under F p) y (N g i) (N g i))
    (hi1 : ∀ g, g < r → N g i ≤ 1) (hq : ∀ g, g < r → ∃ y, Is (q g) y ∧ UErr F (5 * p + 3) A y (Y g) W)
    (hW : 0 ≤ W) (hA : 0 ≤ A) (hB : 2 * under F p * W + 2 * A + F.eta ≤ B)
    (hphi : F.phi ^ (10 * p + 4 + r) ≤ 2) (hmax : 2 * (r * (W + B)) ≤ F.max) (hmax' : 2 * (W + A) ≤ F.max) :
    ∃ z, Is ((List.range r).foldl (fun s g => s + f g i * q g) v) z ∧ UErr F (10 * p + 4 + r) (2 * (r * B)) z
      (∑ g ∈ range r, N g i * Y g) (∑ g ∈ range r, N g i * W) := by
  have hu0 := under_nonneg (F := F) p
  have hu1 := hroom.under_small (q := p) le_rfl
  have he0 := F.eta_nonneg
  have h5 : F.phi ^ (5 * p) ≤ 5 / 4 := hroom.pow_le (by omega)
  have h5' := F.one_le_phi_pow (5 * p)
  have h6 : F.phi ^ (5 * p + 3) ≤ 5 / 4 := hroom.pow_le (by omega)
  have h6' := F.one_le_phi_pow (5 * p + 3)
  have hphi1 : F.phi ≤ 5 / 4 := by simpa using hroom.pow_le (k := 1) (by omega)
  have hphi0 := F.phi_pos
  have hr0 : (0 : K) ≤ r := Nat.cast_nonneg _
  have hB0 : 0 ≤ B := le_trans (by positivity) hB
  have hterm : ∀ g, g < r → ∃ y, Is (f g i * q g) y ∧
      UErr F (10 * p + 4) B y (N g i * Y g) (N g i * W) := by
    intro g hg
    obtain ⟨y, hy, ey⟩ := hi g hg
    obtain ⟨z, hz, ez⟩ := hq g hg
    have n1 := hi1 g hg
    have n3 := ey.weight_nonneg
    have b1 : F.phi ^ (5 * p) * N g i ≤ 5 / 4 := by nlinarith
    have b3 : 0 ≤ F.phi ^ (5 * p) * N g i := by positivity
    have b2 : F.phi ^ (5 * p + 3) * W ≤ 5 / 4 * W := mul_le_mul_of_nonneg_right h6 hW
    have b4 : 0 ≤ F.phi ^ (5 * p + 3) * W := by positivity
    obtain ⟨m1, m2⟩ := mul_ieee hy hz ey ez (by
      refine le_trans ?_ hmax'
      have : (F.phi ^ (5 * p) * N g i + under F p) * (F.phi ^ (5 * p + 3) * W + A) ≤ 4 / 3 * (5 / 4 * W + A) :=
        mul_le_mul (by linarith) (by linarith) (by positivity) (by norm_num)
      linarith)
    refine ⟨_, m1, m2.mono (by omega) (le_trans ?_ hB) le_rfl⟩
    have c1 : under F p * (F.phi ^ (5 * p + 3) * W) ≤ under F p * (5 / 4 * W) := mul_le_mul_of_nonneg_left b2 hu0
    have c2 : F.phi ^ (5 * p) * N g i * A ≤ 5 / 4 * A := mul_le_mul_of_nonneg_right b1 hA
    have c3 : under F p * A ≤ 1 / 12 * A := mul_le_mul_of_nonneg_right hu1 hA
    have c4 : under F p * (F.phi ^ (5 * p + 3) * W) + F.phi ^ (5 * p) * N g i * A +
        under F p * A ≤ 5 / 4 * (under F p * W) + 4 / 3 * A := by linarith
    have c5 := mul_le_mul hphi1 c4 (by positivity) (by norm_num : (0 : K) ≤ 5 / 4)
    have c6 : 0 ≤ under F p * W := mul_nonneg hu0 hW
    linarith
  have hw : ∑ g ∈ range r, N g i * W ≤ r * W := by
    refine (sum_le_card_nsmul _ _ W fun g hg => ?_).trans (by simp)
    exact mul_le_of_le_one_left hW (hi1 g (mem_range.mp hg))
  have hw0 : 0 ≤ ∑ g ∈ range r, N g i * W := sum_nonneg fun g hg => by
    obtain ⟨_, -, ey⟩ := hi g (mem_range.mp hg)
    exact mul_nonneg ey.weight_nonneg hW
  have hpr : F.phi ^ r ≤ 2 := (F.phi_mono (by omega)).trans hphi
  have hAr : F.phi ^ r * (r * B) ≤ 2 * (r * B) := mul_le_mul_of_nonneg_right hpr (mul_nonneg hr0 hB0)
  obtain ⟨z, hz, ez⟩ := sum_ieee (g := fun g => f g i * q g) hv hB0 hterm (by
    refine le_trans ?_ hmax
    have d1 := mul_le_mul hphi hw hw0 (by norm_num : (0 : K) ≤ 2)
    linarith)
  exact ⟨z, hz, ez.mono le_rfl hAr le_rfl⟩

/-! ### The penalty -/

theorem diffOp_col (κ l i : ℕ) : ∑ h ∈ range l, |differenceOperator κ h i| ≤ 2 ^ κ := by
  cases κ with
  | zero => simp [differenceOperator]
  | succ κ =>
    induction κ generalizing l with
    | zero =>
      have h1 : ∀ h ∈ range l, |differenceOperator 1 h i| ≤ (if h = i then 1 else 0) + if h = i - 1 then 1 else 0 := by
        intro h _
        rw [differenceOperator]
        split
        · split <;> simp
        · split
          · rw [if_pos (by omega)]; simp
          · split <;> simp
      refine (sum_le_sum h1).trans ?_
      rw [sum_add_distrib, sum_ite_eq', sum_ite_eq']
      split <;> split <;> norm_num
    | succ κ ih =>
      have h1 : ∀ h ∈ range l, |differenceOperator (κ + 2) h i| ≤
          |differenceOperator (κ + 1) (h + 1) i| + |differenceOperator (κ + 1) h i| := fun h _ => abs_sub _ _
      refine (sum_le_sum h1).trans ?_
      rw [sum_add_distrib]
      have h2 := ih (l + 1)
      rw [sum_range_succ'] at h2
      have h3 := ih l
      have h4 := abs_nonneg (differenceOperator (κ + 1) 0 i)
      rw [pow_succ]
      linarith

theorem diffOp_row (κ c h : ℕ) : ∑ j ∈ range c, |differenceOperator κ h j| ≤ 2 ^ κ := by
  cases κ with
  | zero => simp [differenceOperator]
  | succ κ =>
    induction κ generalizing h with
    | zero =>
      have h1 : ∀ j ∈ range c, |differenceOperator 1 h j| ≤ (if j = h then 1 else 0) + if j = h + 1 then 1 else 0 := by
        intro j _
        rw [differenceOperator]
        split
        · rw [if_pos (by omega)]; split <;> simp
        · split
          · rw [if_pos (c := j = h + 1) (by omega)]; split <;> simp
          · split <;> split <;> simp
      refine (sum_le_sum h1).trans ?_
      rw [sum_add_distrib, sum_ite_eq', sum_ite_eq']
      split <;> split <;> norm_num
    | succ κ ih =>
      have h1 : ∀ j ∈ range c, |differenceOperator (κ + 2) h j| ≤
          |differenceOperator (κ + 1) (h + 1) j| + |differenceOperator (κ + 1) h j| := fun j _ => abs_sub _ _
      refine (sum_le_sum h1).trans ?_
      rw [sum_add_distrib]
      have h2 := ih (h + 1)
      have h3 := ih h
      rw [pow_succ]
      linarith

theorem diffOp_le (κ h i : ℕ) : |differenceOperator κ h i| ≤ 2 ^ κ :=
  (single_le_sum (f := fun h => |differenceOperator κ h i|) (fun _ _ => abs_nonneg _)
    (mem_range.mpr (Nat.lt_succ_self h))).trans (diffOp_col κ (h + 1) i)

theorem diffOp_prod (κ l i j : ℕ) :
    ∑ h ∈ range l, |differenceOperator κ h i * differenceOperator κ h j| ≤ 4 ^ κ := by
  have : ∀ h ∈ range l, |differenceOperator κ h i * differenceOperator κ h j| ≤ |differenceOperator κ h i| * 2 ^ κ :=
    fun h _ => by rw [abs_mul]; exact mul_le_mul_of_nonneg_left (diffOp_le κ h j) (abs_nonneg _)
  refine (sum_le_sum this).trans ?_
  rw [← sum_mul, show (4 : ℤ) = 2 * 2 by norm_num, mul_pow]
  exact mul_le_mul_of_nonneg_right (diffOp_col κ l i) (by positivity)

/-- the integers of the penalty are exact -/
theorem penalty_any [IntCast (Ieee F)] {κ : ℕ} (hint : ∀ z : ℤ, |z| ≤ 4 ^ κ → Is ((z : ℤ) : Ieee F) (z : K)) {l i j : ℕ}
    {v : Ieee F} (hv : AnySum (fun h => ((differenceOperator κ h i : ℤ) : Ieee F))
      (fun h => ((differenceOperator κ h j : ℤ) : Ieee F)) (List.range l) v) :
    Is v (∑ h ∈ range l, (differenceOperator κ h i : K) * (differenceOperator κ h j : K)) := by
  have hle : ∀ h i, |differenceOperator κ h i| ≤ 4 ^ κ := fun h i =>
    (diffOp_le κ h i).trans (pow_le_pow_left₀ (by norm_num) (by norm_num) κ)
  have hs : ∀ f : ℕ → ℤ, ((List.range l).map f).sum = ∑ h ∈ range l, f h := fun f => by
    clear hv
    induction l with
    | zero => rfl
    | succ r ih => rw [List.range_succ, List.map_append, List.sum_append, ih, sum_range_succ]; simp
  have := any_int (M := 4 ^ κ) (fun z hz => ⟨(hint z hz).rep, (hint z hz).le_max⟩) hv
    (fun g _ => hint _ (hle g i)) (fun g _ => hint _ (hle g j)) (by rw [hs]; exact diffOp_prod κ l i j)
  rw [hs] at this
  push_cast at this
  exact this

/-- the penalisation `pen` of the fit has the exact values `pen'` -/
def PenIs [IntCast (Ieee F)] (pen : Option (Penalization (Ieee F))) (pen' : Option (Penalization K)) : Prop :=
  match pen, pen' with
  | none, none => True
  | some q, some q' => Is q.lambda q'.lambda ∧ q.kappa = q'.kappa ∧
      ∀ z : ℤ, |z| ≤ 4 ^ q.kappa → Is ((z : ℤ) : Ieee F) (z : K)
  | _, _ => False

/-- `lambda 4^kappa`, a bound for the entries of the penalty -/
def penSize (pen : Option (Penalization K)) : K := match pen with | none => 0 | some q => q.lambda * 4 ^ q.kappa

/-- the sum of the absolute values in an entry of the normal equations -/
def normW (r : ℕ) (N : ℕ → ℕ → K) (l : ℕ → ℕ) (pen : Option (Penalization K)) (i j : ℕ) : K :=
  ∑ g ∈ range r, N g i * N g j + penLam pen * ∑ h ∈ range (penRows l pen), |penD pen h i| * |penD pen h j|

theorem normW_pen_le {l : ℕ → ℕ} {pen : Option (Penalization K)} (hl : 0 ≤ penLam pen) (c i : ℕ) :
    ∑ j ∈ range c, penLam pen * ∑ h ∈ range (penRows l pen), |penD pen h i| * |penD pen h j| ≤ penSize pen := by
  cases pen with
  | none => simp [penLam, penSize]
  | some q =>
    simp only [penLam, penSize, penRows, penD] at hl ⊢
    rw [← mul_sum, sum_comm]
    refine mul_le_mul_of_nonneg_left ?_ hl
    have h1 : ∀ h ∈ range (l q.kappa), ∑ j ∈ range c, |(differenceOperator q.kappa h i : K)| *
        |(differenceOperator q.kappa h j : K)| ≤ |(differenceOperator q.kappa h i : K)| * 2 ^ q.kappa := by
      intro h _
      rw [← mul_sum]
      refine mul_le_mul_of_nonneg_left ?_ (abs_nonneg _)
      exact_mod_cast diffOp_row q.kappa c h
    refine (sum_le_sum h1).trans ?_
    rw [← sum_mul, show (4 : K) = 2 * 2 by norm_num, mul_pow]
    refine mul_le_mul_of_nonneg_right ?_ (by positivity)
    exact_mod_cast diffOp_col q.kappa (l q.kappa) i

theorem penSize_nonneg {pen : Option (Penalization K)} (hl : 0 ≤ penLam pen) : 0 ≤ penSize pen := by
  cases pen with
  | none => exact le_rfl
  | some q => exact mul_nonneg hl (by positivity)

/-- `v` is computed as entry `(i, j)` of the normal equations, with sums in any order -/
def NormEntry [IntCast (Ieee F)] (r : ℕ) (f : ℕ → ℕ → Ieee F) (l : ℕ → ℕ) (pen : Option (Penalization (Ieee F))) (i j : ℕ)
    (v : Ieee F) : Prop :=
  ∃ x, AnySum (fun g => f g i) (fun g => f g j) (List.range r) x ∧
    match pen with
    | none => v = x
    | some q => ∃ y, AnySum (fun h => ((differenceOperator q.kappa h i : ℤ) : Ieee F))
        (fun h => ((differenceOperator q.kappa h j : ℤ) : Ieee F)) (List.range (l q.kappa)) y ∧ v = x + q.lambda * y

theorem norm_any [IntCast (Ieee F)] {p r i j : ℕ} (hroom : Room F p) {f : ℕ → ℕ → Ieee F} {N : ℕ → ℕ → K} {v : Ieee F}
    (hi : ∀ g, g < r → ∃ y, Is (f g i) y ∧ UErr F (5 * p) (under F p) y (N g i) (N g i))
    (hj : ∀ g, g < r → ∃ y, Is (f g j) y ∧ UErr F (5 * p) (under F p) y (N g j) (N g j))
    (hi1 : ∀ g, g < r → N g i ≤ 1) (hj1 : ∀ g, g < r → N g j ≤ 1) {l : ℕ → ℕ}
    {pen : Option (Penalization (Ieee F))} {pen' : Option (Penalization K)} (hv : NormEntry r f l pen i j v)
    (hpen : PenIs pen pen')
    (hl : 0 ≤ penLam pen') (hphi : F.phi ^ (10 * p + 2 + r) ≤ 2) (hr : 1 ≤ r)
    (hmax : 4 * (r : K) + 2 * penSize pen' ≤ F.max) :
    ∃ z, Is v z ∧ UErr F (10 * p + 2 + r) (r * (10 * under F p + 4 * F.eta)) z
      (nm r (penRows l pen') N (penD pen') (penLam pen') i j) (normW r N l pen' i j) := by
  have hu0 := under_nonneg (F := F) p
  have hu1 := hroom.under_small (q := p) le_rfl
  have he0 := F.eta_nonneg
  have he1 := hroom.eta_small
  have hr1 : (1 : K) ≤ r := by exact_mod_cast hr
  have hS := penSize_nonneg hl
  obtain ⟨x, hx, hv⟩ := hv
  obtain ⟨z, hz, ez⟩ := gram_any hroom hx hi hj hi1 hj1 ((F.phi_mono (by omega)).trans hphi) (by linarith)
  match pen, pen', hpen, hv with
  | none, none, _, hv =>
    subst hv
    refine ⟨z, hz, ?_⟩
    have hA : (r : K) * (8 * under F p + 2 * F.eta) ≤ r * (10 * under F p + 4 * F.eta) :=
      mul_le_mul_of_nonneg_left (by linarith) (by linarith)
    have := ez.mono (show 10 * p + 1 + r ≤ 10 * p + 2 + r by omega) hA le_rfl
    simpa [nm, normW, penLam] using this
  | some q, some q', ⟨h1, h2, h3⟩, ⟨y, hy, hv⟩ =>
    subst hv
    have ht := penalty_any h3 hy
    rw [h2] at ht
    have hl' : 0 ≤ q'.lambda := hl
    have hphi1 : F.phi ≤ 5 / 4 := by simpa using hroom.pow_le (k := 1) (by omega)
    have hw : penLam (some q') * ∑ h ∈ range (penRows l (some q')), |penD (some q') h i| * |penD (some q') h j| ≤
        penSize (some q') := by
      refine le_trans (single_le_sum (f := fun j => penLam (some q') * ∑ h ∈ range (penRows l (some q')),
        |penD (some q') h i| * |penD (some q') h j|) (fun j _ => mul_nonneg hl (sum_nonneg fun _ _ =>
          mul_nonneg (abs_nonneg _) (abs_nonneg _))) (mem_range.mpr (Nat.lt_succ_self j)))
        (normW_pen_le (l := l) hl (j + 1) i)
    simp only [penLam, penRows, penD] at hw
    have hsz : |q'.lambda * ∑ h ∈ range (l q'.kappa), (differenceOperator q'.kappa h i : K) *
        (differenceOperator q'.kappa h j : K)| ≤ q'.lambda * ∑ h ∈ range (l q'.kappa),
          |(differenceOperator q'.kappa h i : K)| * |(differenceOperator q'.kappa h j : K)| := by
      rw [abs_mul, abs_of_nonneg hl']
      refine mul_le_mul_of_nonneg_left ((abs_sum_le_sum_abs _ _).trans (le_of_eq ?_)) hl'
      exact sum_congr rfl fun _ _ => abs_mul _ _
    have p1 := h1.mul ht (hsz.trans (hw.trans (by linarith)))
    have e1 := ((UErr.refl (F := F) (q'.lambda * ∑ h ∈ range (l q'.kappa), (differenceOperator q'.kappa h i : K) *
        (differenceOperator q'.kappa h j : K))).rnd).mono (show 0 + 1 ≤ 10 * p + 1 + r by omega)
          (show _ ≤ F.eta by rw [mul_zero, zero_add]) hsz
    have e2 := ez.add e1
    have hw0 := e2.weight_nonneg
    have hwN : ∑ g ∈ range r, N g i * N g j ≤ r := by
      refine (sum_le_card_nsmul _ _ 1 fun g hg => ?_).trans (by simp)
      have hg := mem_range.mp hg
      obtain ⟨_, -, ey⟩ := hi g hg
      obtain ⟨_, -, ez⟩ := hj g hg
      exact mul_le_one₀ (hi1 g hg) ez.weight_nonneg (hj1 g hg)
    have p2 := hz.add p1 (by
      refine e2.abs_le.trans (le_trans ?_ hmax)
      have d1 := mul_le_mul ((F.phi_mono (show 10 * p + 1 + r ≤ 10 * p + 2 + r by omega)).trans hphi)
        (add_le_add hwN hw) hw0 (by norm_num : (0 : K) ≤ 2)
      have d2 : (r : K) * (8 * under F p + 2 * F.eta) ≤ r * 1 := mul_le_mul_of_nonneg_left (by linarith) (by linarith)
      linarith)
    have e3 := e2.rnd_of (F.add_err hz.rep p1.rep)
    refine ⟨F.rnd (z + F.rnd (q'.lambda * ∑ h ∈ range (l q'.kappa), (differenceOperator q'.kappa h i : K) *
        (differenceOperator q'.kappa h j : K))), p2, ?_⟩
    have hA : F.phi * (r * (8 * under F p + 2 * F.eta) + F.eta) ≤ r * (10 * under F p + 4 * F.eta) := by
      have d1 := mul_le_mul_of_nonneg_right hphi1 (show 0 ≤ (r : K) * (8 * under F p + 2 * F.eta) + F.eta by positivity)
      have d2 := mul_le_mul_of_nonneg_right hr1 he0
      linarith
    exact e3.mono (by omega) hA le_rfl

/-! ### The exact normal equations -/

/-- The computed basis functions at a parameter. -/
theorem basis_uerr {p n : ℕ} {U : List (Ieee F)} {V : List K} (hroom : Room F p) (hV : ClampedKnots 0 1 p n V)
    (hU : List.Forall₂ Is U V) {u : Ieee F} {x : K} (hu : Is u x) (h0 : 0 ≤ x) (h1 : x ≤ 1) {h : K} (hh : 0 < h)
    (hgap : ∀ s ∈ V, ∀ t ∈ V, s < t → h ≤ t - s) (hhm : 2 / h ≤ F.max) (i : ℕ) :
    ∃ y, Is (nb p n U i u) y ∧ UErr F (5 * p) (under F p) y (nb p n V i x) (nb p n V i x) := by
  have hcl := hV.clamp
  have hlV := hV.length
  have hV0 : V ≠ [] := by rintro rfl; simp at hlV
  obtain ⟨j, hs⟩ := hcl.exists_span h0 h1
  have h01 : ∀ i, 0 ≤ fn V i ∧ fn V i ≤ 1 := fun i => ⟨hcl.a_le i, hcl.le_b i⟩
  obtain ⟨y, h2, -, -, -, h3⟩ := Nf_ieee (fn_is hU) hcl.mono h01 hu h0 h1 hh
    (fun i j hij => hgap _ (fn_mem hV0 i) _ (fn_mem hV0 j) hij)
    (by
      refine le_trans ?_ hhm
      have := hroom.pow_le (k := 1) (by omega)
      rw [pow_one] at this
      exact div_le_div_of_nonneg_right (by linarith) hh.le) hroom
    (Nat.zero_le n) (fun q hq i => by simpa using Nf_le_one hcl hs (Nat.zero_le p) q (by omega) i) p le_rfl i
  exact ⟨y, h2, h3⟩

theorem nb_unit {p n : ℕ} {V : List K} (hV : ClampedKnots 0 1 p n V) {x : K} (h0 : 0 ≤ x) (h1 : x ≤ 1) :
    (∀ i, 0 ≤ nb p n V i x ∧ nb p n V i x ≤ 1) ∧ ∑ i ∈ range (n + 1), nb p n V i x = 1 := by
  have hcl := hV.clamp
  obtain ⟨j, hs⟩ := hcl.exists_span h0 h1
  have hN : ∀ i, nb p n V i x = Bs (fn V) x (delta j) p i := fun i => nb_eq_Bs hV hs i
  refine ⟨fun i => ⟨?_, ?_⟩, ?_⟩
  · rw [hN]
    exact Bs_nonneg hcl.mono hs.lo hs.le_hi p i
  · have := Nf_le_one hcl hs (Nat.zero_le p) p le_rfl i
    simpa [nb] using this
  · simp only [hN]
    exact sum_Bs_one hcl.mono (hs.p_le hcl) hs.le_n (hs.lt hcl)

/-- An approximate solution of a computed system is an approximate solution of the exact normal equations. -/
theorem normal_ieee {r c i : ℕ} {N : ℕ → ℕ → K} {l : ℕ → ℕ} {pen : Option (Penalization K)} {Y X Â : ℕ → K}
    {b A B W M S : K} {k : ℕ} (hN : ∀ g, g < r → ∀ j, j < c → 0 ≤ N g j) (hNi : ∀ g, g < r → 0 ≤ N g i ∧ N g i ≤ 1)
    (hN1 : ∀ g, g < r → ∑ j ∈ range c, N g j ≤ 1) (hl : 0 ≤ penLam pen) (hS : penSize pen ≤ S)
    (hA : ∀ j, j < c → UErr F k A (Â j) (nm r (penRows l pen) N (penD pen) (penLam pen) i j) (normW r N l pen i j))
    (hb : UErr F k B b (∑ g ∈ range r, N g i * Y g) (∑ g ∈ range r, N g i * W)) (hW : 0 ≤ W) (hM : 0 ≤ M)
    (hX : ∀ j, j < c → |X j| ≤ M) {rho : K} (hrho : |∑ j ∈ range c, Â j * X j - b| ≤ rho) :
    |∑ j ∈ range c, nm r (penRows l pen) N (penD pen) (penLam pen) i j * X j - ∑ g ∈ range r, N g i * Y g| ≤
      rho + ((F.phi ^ k - 1) * (r * (W + M) + S * M) + (c * (A * M) + B)) := by
  have hk : 0 ≤ F.phi ^ k - 1 := sub_nonneg.mpr (F.one_le_phi_pow k)
  have h1 : |∑ j ∈ range c, nm r (penRows l pen) N (penD pen) (penLam pen) i j * X j - ∑ j ∈ range c, Â j * X j| ≤
      (F.phi ^ k - 1) * (∑ j ∈ range c, normW r N l pen i j) * M + c * (A * M) := by
    rw [← sum_sub_distrib]
    refine (abs_sum_le_sum_abs _ _).trans ?_
    have : ∀ j ∈ range c, |nm r (penRows l pen) N (penD pen) (penLam pen) i j * X j - Â j * X j| ≤
        ((F.phi ^ k - 1) * normW r N l pen i j + A) * M := by
      intro j hj
      rw [mem_range] at hj
      have h2 := (hA j hj).2.2
      rw [← sub_mul, abs_mul, abs_sub_comm]
      exact mul_le_mul h2 (hX j hj) (abs_nonneg _) ((abs_nonneg _).trans h2)
    refine (sum_le_sum this).trans (le_of_eq ?_)
    rw [← sum_mul, sum_add_distrib, ← mul_sum, sum_const, card_range, nsmul_eq_mul]
    ring
  have h2 : ∑ j ∈ range c, normW r N l pen i j ≤ r + S := by
    simp only [normW]
    rw [sum_add_distrib]
    refine add_le_add ?_ ((normW_pen_le hl c i).trans hS)
    rw [sum_comm]
    refine (sum_le_card_nsmul _ _ 1 fun g hg => ?_).trans (by simp)
    rw [mem_range] at hg
    rw [← mul_sum]
    exact mul_le_one₀ (hNi g hg).2 (sum_nonneg fun j hj => hN g hg j (mem_range.mp hj)) (hN1 g hg)
  have h3 : ∑ g ∈ range r, N g i * W ≤ r * W := by
    refine (sum_le_card_nsmul _ _ W fun g hg => ?_).trans (by simp)
    exact mul_le_of_le_one_left hW (hNi g (mem_range.mp hg)).2
  have h4 := mul_le_mul_of_nonneg_right (mul_le_mul_of_nonneg_left h2 hk) hM
  have h5 := mul_le_mul_of_nonneg_left h3 hk
  have h6 := hb.2.2
  have h7 := abs_sub_le (∑ j ∈ range c, nm r (penRows l pen) N (penD pen) (penLam pen) i j * X j)
    (∑ j ∈ range c, Â j * X j) (∑ g ∈ range r, N g i * Y g)
  have h8 := abs_sub_le (∑ j ∈ range c, Â j * X j) b (∑ g ∈ range r, N g i * Y g)
  linarith

/-! ### The residual data of a fit with fixed ends -/

theorem foldl_pt {R : Type} [Add R] {h : ℕ → Pt R d} (l : List ℕ) (v : Pt R d) (r : Fin d) :
    (l.foldl (fun s g => s + h g) v) r = l.foldl (fun s g => s + h g r) (v r) := by
  induction l generalizing v with
  | nil => rfl
  | cons a l ih => rw [List.foldl_cons, List.foldl_cons, ih]; rfl

/-- data minus the contributions of the ends -/
theorem fixQ_ieee {p : ℕ} (hroom : Room F p) {a b x y z : Ieee F} {a' b' N N' x' y' z' M : K} (ha : Is a a') (hb : Is b b')
    (ea : UErr F (5 * p) (under F p) a' N N) (eb : UErr F (5 * p) (under F p) b' N' N') (hN : N ≤ 1) (hN' : N' ≤ 1)
    (hx : Is x x') (hy : Is y y') (hz : Is z z') (hxM : |x'| ≤ M) (hyM : |y'| ≤ M) (hzM : |z'| ≤ M)
    (hmax : 8 * (M + 1) ≤ F.max) :
    ∃ w, Is (x - a * y - b * z) w ∧
      UErr F (5 * p + 3) (4 * under F p * M + 3 * F.eta) w (x' - N * y' - N' * z') (3 * M) := by
  have hu0 := under_nonneg (F := F) p
  have hu1 := hroom.under_small (q := p) le_rfl
  have he0 := F.eta_nonneg
  have he1 := hroom.eta_small
  have hM0 : 0 ≤ M := (abs_nonneg _).trans hxM
  have h5 : F.phi ^ (5 * p) ≤ 5 / 4 := hroom.pow_le (by omega)
  have h5' := F.one_le_phi_pow (5 * p)
  have hphi1 : F.phi ≤ 5 / 4 := by simpa using hroom.pow_le (k := 1) (by omega)
  have hphi0 := F.phi_pos
  have huM : 0 ≤ under F p * M := mul_nonneg hu0 hM0
  have huM' : under F p * M ≤ 1 / 12 * M := mul_le_mul_of_nonneg_right hu1 hM0
  have prod : ∀ {a y : Ieee F} {a' y' N : K}, Is a a' → UErr F (5 * p) (under F p) a' N N → N ≤ 1 → Is y y' → |y'| ≤ M →
      ∃ w, Is (a * y) w ∧ UErr F (5 * p + 1) (5 / 4 * (under F p * M) + F.eta) w (N * y') M := by
    intro a y a' y' N ha ea hN hy hyM
    have n3 := ea.weight_nonneg
    have b1 : F.phi ^ (5 * p) * N ≤ 5 / 4 := by nlinarith
    have b3 : 0 ≤ F.phi ^ (5 * p) * N := by positivity
    obtain ⟨m1, m2⟩ := mul_ieee ha hy ea ((UErr.refl (F := F) y').mono le_rfl le_rfl hyM) (by
      rw [pow_zero, one_mul, add_zero]
      have := mul_le_mul_of_nonneg_right (show F.phi ^ (5 * p) * N + under F p ≤ 2 by linarith) hM0
      linarith)
    refine ⟨_, m1, m2.mono (by omega) ?_ (mul_le_of_le_one_left hM0 hN)⟩
    rw [pow_zero, one_mul, mul_zero, mul_zero, add_zero, add_zero]
    have := mul_le_mul_of_nonneg_right hphi1 huM
    linarith
  obtain ⟨s, hs, es⟩ := prod ha ea hN hy hyM
  obtain ⟨t, ht, et⟩ := prod hb eb hN' hz hzM
  have k1 : F.phi ^ (5 * p + 1) ≤ 5 / 4 := hroom.pow_le (by omega)
  have k2 : F.phi ^ (5 * p + 2) ≤ 5 / 4 := hroom.pow_le (by omega)
  have d1 := ((UErr.refl (F := F) x').mono (Nat.zero_le (5 * p + 1)) le_rfl hxM).sub es
  have q1 := hx.sub hs (by
    refine d1.abs_le.trans (le_trans ?_ hmax)
    have := mul_le_mul_of_nonneg_right k1 (show 0 ≤ M + M by linarith)
    linarith)
  have d2 := d1.rnd_of (F.sub _ _ hx.rep hs.rep)
  have d3 := d2.sub (et.mono (Nat.le_succ _) le_rfl le_rfl)
  have hA : F.phi * (0 + (5 / 4 * (under F p * M) + F.eta)) ≤ 25 / 16 * (under F p * M) + 5 / 4 * F.eta := by
    have := mul_le_mul_of_nonneg_right hphi1 (show 0 ≤ 0 + (5 / 4 * (under F p * M) + F.eta) by positivity)
    linarith
  have q2 := q1.sub ht (by
    refine d3.abs_le.trans (le_trans ?_ hmax)
    have := mul_le_mul_of_nonneg_right k2 (show 0 ≤ M + M + M by linarith)
    linarith)
  have d4 := d3.rnd_of (F.sub _ _ q1.rep ht.rep)
  refine ⟨_, q2, d4.mono (by omega) ?_ (by linarith)⟩
  have := mul_le_mul hphi1 (add_le_add hA (le_refl (5 / 4 * (under F p * M) + F.eta))) d3.2.1 (by norm_num)
  linarith

end BSpline
