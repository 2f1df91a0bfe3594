import Verif.Theory.Blossom
import Mathlib.Algebra.Order.Field.Basic
import Mathlib.Data.Nat.Choose.Basic
import Mathlib.Tactic.Module
import Mathlib.Tactic.Ring

/-!
# Polar forms reproduce symmetric multi-affine functions

If the control points are the values of a symmetric multi-affine function at consecutive knots, then
the polar form is that function. Special cases: Greville abscissae, Marsden's identity, monomials.
-/

namespace BSpline

variable {K : Type*} [Field K] {V : Type*} [AddCommGroup V] [Module K V]

/-- symmetric, and affine in the first argument -/
structure SymAffine (f : List K → V) : Prop where
  perm : ∀ {ts ts'}, ts.Perm ts' → f ts = f ts'
  affine : ∀ (c e s t : K) (ts : List K), c + e = 1 →
    f ((c * s + e * t) :: ts) = c • f (s :: ts) + e • f (t :: ts)

theorem SymAffine.tail {f : List K → V} (h : SymAffine f) (x : K) : SymAffine (fun ts => f (x :: ts)) where
  perm hp := h.perm (hp.cons x)
  affine c e s t ts hc := by
    rw [h.perm (List.Perm.swap _ _ _), h.affine c e s t _ hc, h.perm (List.Perm.swap _ _ _),
      h.perm (List.Perm.swap t x ts)]

theorem bl_reproduce (ts : List K) : ∀ {U : ℕ → K} {a : ℕ} {f : List K → V}, SymAffine f →
    Win U ts.length a → bl U ts (fun i => f (knotsFrom U (i + 1) ts.length)) a = f ts := by
  induction ts with
  | nil => intro U a f _ _; simp [bl_nil, knotsFrom]
  | cons t ts ih =>
    intro U a f hf hW
    rw [List.length_cons] at hW
    rw [bl_cons, ← ih (hf.tail t) hW.shift]
    apply bl_congr_pts
    intro m hm
    by_cases hm' : m < ts.length + 1
    · have hd := hW.den (m := m) hm'
      simp only [D, List.length_cons]
      rw [knotsFrom_shift, knotsFrom_succ, knotsFrom_concat]
      have hp : (knotsFrom U (a + m + 1 + 1) ts.length ++ [U (a + m + 1 + 1 + ts.length)]).Perm
          (U (a + m + 1 + 1 + ts.length) :: knotsFrom U (a + m + 1 + 1) ts.length) := by
        simp
      rw [hf.perm hp, show a + m + 1 + 1 + ts.length = a + m + 1 + (ts.length + 1) by omega,
        ← hf.affine]
      · congr 2
        field_simp
        ring
      · rw [← add_div, show U (a + m + 1 + (ts.length + 1)) - t + (t - U (a + m + 1)) =
          U (a + m + 1 + (ts.length + 1)) - U (a + m + 1) by ring, div_self hd]
    · omega

/-! ### Elementary symmetric functions -/

/-- the elementary symmetric function of degree `k` -/
def esym : ℕ → List K → K
  | 0, _ => 1
  | _ + 1, [] => 0
  | k + 1, t :: ts => esym (k + 1) ts + t * esym k ts

@[simp] theorem esym_zero (ts : List K) : esym 0 ts = 1 := by cases ts <;> rfl

theorem esym_perm {ts ts' : List K} (h : ts.Perm ts') : ∀ k, esym k ts = esym k ts' := by
  induction h with
  | nil => intro k; rfl
  | cons x _ ih => intro k; cases k <;> simp [esym, ih]
  | swap x y l =>
    intro k
    rcases k with _ | _ | k <;> simp only [esym, esym_zero] <;> ring
  | trans _ _ ih1 ih2 => intro k; rw [ih1, ih2]

theorem symAffine_esym (k : ℕ) : SymAffine (esym (K := K) k) where
  perm h := esym_perm h k
  affine c e s t ts hc := by
    cases k with
    | zero => simp [hc]
    | succ k =>
      simp only [esym, smul_eq_mul]
      linear_combination -(esym (k + 1) ts) * hc

theorem esym_replicate (u : K) (p : ℕ) : ∀ k, esym k (List.replicate p u) = (p.choose k : K) * u ^ k := by
  induction p with
  | zero => intro k; cases k <;> simp [esym]
  | succ p ih =>
    intro k
    cases k with
    | zero => simp
    | succ k =>
      rw [List.replicate_succ, esym, ih, ih, Nat.choose_succ_succ]
      push_cast; ring

theorem SymAffine.add {f g : List K → V} (hf : SymAffine f) (hg : SymAffine g) :
    SymAffine (fun ts => f ts + g ts) where
  perm h := by rw [hf.perm h, hg.perm h]
  affine c e s t ts hc := by rw [hf.affine c e s t ts hc, hg.affine c e s t ts hc]; module

theorem SymAffine.smul_const {f : List K → K} (hf : SymAffine f) (v : V) :
    SymAffine (fun ts => f ts • v) where
  perm h := by rw [hf.perm h]
  affine c e s t ts hc := by rw [hf.affine c e s t ts hc]; simp only [smul_eq_mul]; module

theorem SymAffine.sum {ι : Type*} (s : Finset ι) {f : ι → List K → V} (hf : ∀ i ∈ s, SymAffine (f i)) :
    SymAffine (fun ts => ∑ i ∈ s, f i ts) := by
  constructor
  · intro ts ts' h
    exact Finset.sum_congr rfl (fun i hi => (hf i hi).perm h)
  · intro c e s' t ts hc
    rw [Finset.smul_sum, Finset.smul_sum, ← Finset.sum_add_distrib]
    exact Finset.sum_congr rfl (fun i hi => (hf i hi).affine c e s' t ts hc)

/-- Marsden's dual polynomial -/
theorem symAffine_prod (y : K) : SymAffine (fun ts : List K => (ts.map (y - ·)).prod) where
  perm h := (h.map _).prod_eq
  affine c e s t ts hc := by
    simp only [List.map_cons, List.prod_cons, smul_eq_mul]
    linear_combination (-y * (ts.map (y - ·)).prod) * hc

end BSpline
