import Verif.Spec.AnyOrder
import Verif.Refine.Ieee
import Verif.Refine.Products

/-!
# Errors of sums of products in any order
-/

set_option linter.unusedSectionVars false

namespace BSpline

open Ieee

variable {K : Type} [Field K] [LinearOrder K] [IsStrictOrderedRing K] {F : Format K}

theorem Ieee.Is.fma {a b c : Ieee F} {x y z : K} (ha : Is a x) (hb : Is b y) (hc : Is c z)
    (h : |x * y + z| ≤ F.max) : Is (Ieee.fma a b c) (F.rnd (x * y + z)) := by
  obtain ⟨s, h1, rfl⟩ := ha
  obtain ⟨t, h2, rfl⟩ := hb
  obtain ⟨u, h3, rfl⟩ := hc
  exact is_mk _ h

theorem list_sum_nonneg {l : List ℕ} {w : ℕ → K} (h : ∀ g ∈ l, 0 ≤ w g) : 0 ≤ (l.map w).sum := by
  apply List.sum_nonneg
  intro q hq
  obtain ⟨i, hi, rfl⟩ := List.mem_map.mp hq
  exact h i hi

/-- A sum in any order has the errors of a sum one by one. -/
theorem any_ieee {a b : ℕ → Ieee F} {x w : ℕ → K} {k : ℕ} {B₀ B : K} (hB0 : 0 ≤ B₀) (hB : F.phi * B₀ + F.eta ≤ B)
    {l : List ℕ} {v : Ieee F} (hv : AnySum a b l v)
    (h : ∀ g ∈ l, ∃ y z, Is (a g) y ∧ Is (b g) z ∧ UErr F k B₀ (y * z) (x g) (w g))
    (hmax : F.phi ^ (k + 1 + l.length) * (l.map w).sum + F.phi ^ l.length * (l.length * B) ≤ F.max) :
    ∃ z, Is v z ∧ UErr F (k + 1 + l.length) (F.phi ^ l.length * (l.length * B)) z (l.map x).sum (l.map w).sum := by
  have hphi := F.phi_pos
  have hphi1 : 1 ≤ F.phi := by simpa using F.one_le_phi_pow 1
  have heta := F.eta_nonneg
  have hBB : 0 ≤ B := le_trans (by positivity) hB
  have hB0B : B₀ ≤ B := by nlinarith
  have hw : ∀ s : List ℕ, (∀ g ∈ s, ∃ y z, Is (a g) y ∧ Is (b g) z ∧ UErr F k B₀ (y * z) (x g) (w g)) →
      0 ≤ (s.map w).sum := fun s hs => list_sum_nonneg fun g hg => by
    obtain ⟨_, _, _, _, e⟩ := hs g hg
    exact e.weight_nonneg
  induction hv with
  | zero => exact ⟨0, is_zero, by simp [UErr]⟩
  | prod g =>
    obtain ⟨y, z, hy, hz, e⟩ := h g (by simp)
    simp only [List.map_cons, List.map_nil, List.sum_cons, List.sum_nil, add_zero, List.length_cons, List.length_nil,
      zero_add, Nat.cast_one, one_mul, pow_one] at hmax ⊢
    have e1 := e.weight_nonneg
    refine ⟨_, hy.mul hz (e.abs_le.trans (le_trans ?_ hmax)), e.rnd.mono (by omega) ?_ le_rfl⟩
    · refine add_le_add (mul_le_mul_of_nonneg_right (F.phi_mono (by omega)) e1) ?_
      nlinarith
    · nlinarith
  | @fma g s v hs ih =>
    obtain ⟨y, z, hy, hz, e⟩ := h g (by simp)
    have hs' : ∀ g ∈ s, ∃ y z, Is (a g) y ∧ Is (b g) z ∧ UErr F k B₀ (y * z) (x g) (w g) :=
      fun g hg => h g (by simp [hg])
    have hw1 := hw s hs'
    have hw2 := e.weight_nonneg
    simp only [List.map_cons, List.sum_cons, List.length_cons] at hmax ⊢
    push_cast at hmax ⊢
    have hl : (0 : K) ≤ s.length := Nat.cast_nonneg _
    have q0 : 0 ≤ F.phi ^ s.length * (s.length * B) := by positivity
    have q1 := F.one_le_phi_pow s.length
    have q2 : F.phi ^ s.length ≤ F.phi ^ (s.length + 1) := F.phi_mono (by omega)
    have q3 : F.phi ^ s.length * (s.length * B) ≤ F.phi ^ (s.length + 1) * (s.length * B) :=
      mul_le_mul_of_nonneg_right q2 (by positivity)
    have q4 : 1 * B ≤ F.phi ^ (s.length + 1) * B := mul_le_mul_of_nonneg_right (q1.trans q2) hBB
    have q5 : F.phi ^ (k + 1 + s.length) * (w g + (s.map w).sum) ≤
        F.phi ^ (k + 1 + (s.length + 1)) * (w g + (s.map w).sum) :=
      mul_le_mul_of_nonneg_right (F.phi_mono (by omega)) (by positivity)
    have q6 : 0 ≤ F.phi ^ (k + 1 + s.length) * w g := by positivity
    have q7 : F.phi ^ (s.length + 1) * ((s.length + 1) * B) =
        F.phi ^ (s.length + 1) * (s.length * B) + F.phi ^ (s.length + 1) * B := by ring
    obtain ⟨t, ht, et⟩ := ih hs' (by rw [mul_add] at q5; linarith)
    have e2 := (e.mono (show k ≤ k + 1 + s.length by omega) le_rfl le_rfl).add et
    refine ⟨_, hy.fma hz ht (e2.abs_le.trans ?_), e2.rnd.mono (by omega) ?_ le_rfl⟩
    · linarith
    · rw [mul_add, ← mul_assoc, ← pow_succ']
      linarith
  | @add s t v v' hs ht ih1 ih2 =>
    have hs' : ∀ g ∈ s, ∃ y z, Is (a g) y ∧ Is (b g) z ∧ UErr F k B₀ (y * z) (x g) (w g) :=
      fun g hg => h g (by simp [hg])
    have ht' : ∀ g ∈ t, ∃ y z, Is (a g) y ∧ Is (b g) z ∧ UErr F k B₀ (y * z) (x g) (w g) :=
      fun g hg => h g (by simp [hg])
    have w1 := hw s hs'
    have w2 := hw t ht'
    simp only [List.map_append, List.sum_append, List.length_append] at hmax ⊢
    push_cast at hmax ⊢
    have l1 : (0 : K) ≤ s.length := Nat.cast_nonneg _
    have l2 : (0 : K) ≤ t.length := Nat.cast_nonneg _
    have mono : ∀ {c e : ℕ} {r r' : K}, c ≤ e → 0 ≤ r → r ≤ r' → F.phi ^ c * r ≤ F.phi ^ e * r' :=
      fun hce h0 hr => mul_le_mul (F.phi_mono hce) hr h0 (by positivity)
    obtain ⟨y, hy, ey⟩ := ih1 hs' (le_trans (add_le_add (mono (by omega) w1 (by linarith))
      (mono (by omega) (by positivity) (mul_le_mul_of_nonneg_right (by linarith) hBB))) hmax)
    obtain ⟨z, hz, ez⟩ := ih2 ht' (le_trans (add_le_add (mono (by omega) w2 (by linarith))
      (mono (by omega) (by positivity) (mul_le_mul_of_nonneg_right (by linarith) hBB))) hmax)
    rcases s with _ | ⟨g, s⟩
    · have : y = 0 := by
        have := ey.2.2
        simpa using this
      subst this
      have := hy.add hz (by rw [zero_add]; exact hz.le_max)
      rw [zero_add, hz.rep] at this
      exact ⟨z, this, by simpa using ez⟩
    rcases t with _ | ⟨g', t⟩
    · have : z = 0 := by
        have := ez.2.2
        simpa using this
      subst this
      have := hy.add hz (by rw [add_zero]; exact hy.le_max)
      rw [add_zero, hy.rep] at this
      exact ⟨y, this, by simpa using ey⟩
    generalize hsl : (g :: s).length = c at *
    generalize htl : (g' :: t).length = e at *
    have hc : 1 ≤ c := by rw [← hsl]; simp
    have he : 1 ≤ e := by rw [← htl]; simp
    have e3 := (ey.mono (show k + 1 + c ≤ k + (c + e) by omega) le_rfl le_rfl).add
      (ez.mono (show k + 1 + e ≤ k + (c + e) by omega) le_rfl le_rfl)
    have A1 : F.phi * (F.phi ^ c * (c * B) + F.phi ^ e * (e * B)) ≤ F.phi ^ (c + e) * ((c + e) * B) := by
      rw [show F.phi * (F.phi ^ c * (c * B) + F.phi ^ e * (e * B)) =
        F.phi ^ (c + 1) * (c * B) + F.phi ^ (e + 1) * (e * B) by ring, add_mul, mul_add]
      exact add_le_add (mono (by omega) (by positivity) le_rfl) (mono (by omega) (by positivity) le_rfl)
    have A0 : 0 ≤ F.phi ^ c * (c * B) + F.phi ^ e * (e * B) := by positivity
    refine ⟨_, hy.add hz (e3.abs_le.trans (le_trans (add_le_add (mono (by omega) (add_nonneg w1 w2) le_rfl) ?_) hmax)),
      (e3.rnd_of (F.add_err hy.rep hz.rep)).mono (by omega) A1 le_rfl⟩
    refine le_trans ?_ A1
    nlinarith
  | @perm s t v hp hs ih =>
    have e1 := (hp.map x).sum_eq
    have e2 := (hp.map w).sum_eq
    have e3 := hp.length_eq
    rw [← e1, ← e2, ← e3]
    rw [← e2, ← e3] at hmax
    exact ih (fun g hg => h g (hp.subset hg)) hmax

/-- Sums of products of integers that are representable are exact in any order. -/
theorem any_int {a b : ℕ → Ieee F} {α β : ℕ → ℤ} {M : ℤ} (hint : ∀ z : ℤ, |z| ≤ M → F.Finite (z : K)) {l : List ℕ}
    {v : Ieee F} (hv : AnySum a b l v) (ha : ∀ g ∈ l, Is (a g) (α g : K)) (hb : ∀ g ∈ l, Is (b g) (β g : K))
    (hM : (l.map (fun g => |α g * β g|)).sum ≤ M) : Is v (((l.map (fun g => α g * β g)).sum : ℤ) : K) := by
  have habs : ∀ s : List ℕ, |(s.map (fun g => α g * β g)).sum| ≤ (s.map (fun g => |α g * β g|)).sum := by
    intro s
    induction s with
    | nil => simp
    | cons g s ih => simp only [List.map_cons, List.sum_cons]; exact (abs_add_le _ _).trans (add_le_add le_rfl ih)
  have hnn : ∀ s : List ℕ, 0 ≤ (s.map (fun g => |α g * β g|)).sum := fun s => (abs_nonneg _).trans (habs s)
  induction hv with
  | zero => simpa using is_zero (F := F)
  | prod g =>
    have h1 := hint (α g * β g) (by simpa using hM)
    have := (ha g (by simp)).mul (hb g (by simp)) (by simpa using h1.2)
    have e : F.rnd ((α g : K) * β g) = α g * β g := by simpa using h1.1
    rw [e] at this
    simpa using this
  | @fma g s v hs ih =>
    have hM' := hM
    simp only [List.map_cons, List.sum_cons] at hM'
    have h1 := hint _ ((habs (g :: s)).trans hM)
    have h2 := ih (fun g hg => ha g (by simp [hg])) (fun g hg => hb g (by simp [hg]))
      (by have := abs_nonneg (α g * β g); omega)
    simp only [List.map_cons, List.sum_cons] at h1 ⊢
    push_cast at h1 h2 ⊢
    have := (ha g (by simp)).fma (hb g (by simp)) h2 h1.2
    rwa [h1.1] at this
  | @add s t v w hs ht ih1 ih2 =>
    have hM' := hM
    simp only [List.map_append, List.sum_append] at hM'
    have h1 := hint _ ((habs (s ++ t)).trans hM)
    have h2 := ih1 (fun g hg => ha g (by simp [hg])) (fun g hg => hb g (by simp [hg])) (by have := hnn t; omega)
    have h3 := ih2 (fun g hg => ha g (by simp [hg])) (fun g hg => hb g (by simp [hg])) (by have := hnn s; omega)
    simp only [List.map_append, List.sum_append] at h1 ⊢
    push_cast at h1 h2 h3 ⊢
    have := h2.add h3 h1.2
    rwa [h1.1] at this
  | @perm s t v hp hs ih =>
    rw [← (hp.map _).sum_eq] at hM ⊢
    exact ih (fun g hg => ha g (hp.subset hg)) (fun g hg => hb g (hp.subset hg)) hM

theorem AnySum.congr {a b a' b' : ℕ → Ieee F} {l : List ℕ} {v : Ieee F} (h : AnySum a b l v)
    (ha : ∀ g ∈ l, a g = a' g) (hb : ∀ g ∈ l, b g = b' g) : AnySum a' b' l v := by
  induction h with
  | zero => exact .zero
  | prod g => rw [ha g (by simp), hb g (by simp)]; exact .prod g
  | fma g _ ih =>
    rw [ha g (by simp), hb g (by simp)]
    exact .fma g (ih (fun g hg => ha g (by simp [hg])) (fun g hg => hb g (by simp [hg])))
  | add _ _ ih1 ih2 =>
    exact .add (ih1 (fun g hg => ha g (by simp [hg])) (fun g hg => hb g (by simp [hg])))
      (ih2 (fun g hg => ha g (by simp [hg])) (fun g hg => hb g (by simp [hg])))
  | perm hp _ ih => exact .perm hp (ih (fun g hg => ha g (hp.subset hg)) (fun g hg => hb g (hp.subset hg)))

variable {d : ℕ}

theorem mat_rows {r c : ℕ} (f : ℕ → ℕ → Ieee F) : ∀ row ∈ mat r c f, row.length = c := by
  intro row hrow
  obtain ⟨g, -, rfl⟩ := List.mem_map.mp hrow
  simp

theorem mat_entry {r c g i : ℕ} (f : ℕ → ℕ → Ieee F) (hg : g < r) (hi : i < c) :
    ((mat r c f).getD g []).getD i 0 = f g i := by
  simp [mat, List.getD_eq_getElem?_getD, hg, hi]

variable [IntCast (Ieee F)]

theorem Products.AnyOrder.gram_mat {mm : Products (Ieee F) d} (h : mm.AnyOrder) (r c : ℕ) (f : ℕ → ℕ → Ieee F) :
    ∃ G, mm.gram (mat r c f) c = mat c c G ∧ ∀ i j, i < c → j < c →
      AnySum (fun g => f g i) (fun g => f g j) (List.range r) (G i j) := by
  obtain ⟨h1, h2⟩ := h.gram_shape _ c (mat_rows (r := r) f)
  refine ⟨_, eq_mat h1 h2, fun i j hi hj => ?_⟩
  have := h.gram_sum _ c (mat_rows (r := r) f) i hi j hj
  rw [mat_length] at this
  exact this.congr (fun g hg => mat_entry f (List.mem_range.mp hg) hi) (fun g hg => mat_entry f (List.mem_range.mp hg) hj)

theorem Products.AnyOrder.mulT_mat {mm : Products (Ieee F) d} (h : mm.AnyOrder) (r c : ℕ) (f : ℕ → ℕ → Ieee F)
    {B : List (Pt (Ieee F) d)} (hB : B.length = r) :
    ∃ b : ℕ → Pt (Ieee F) d, mm.mulT (mat r c f) c B = (List.range c).map b ∧ ∀ i, i < c → ∀ ρ,
      AnySum (fun g => f g i) (fun g => fn B g ρ) (List.range r) (b i ρ) := by
  have hB' : B.length = (mat r c f).length := by rw [mat_length, hB]
  have h1 := h.mulT_shape _ c B (mat_rows (r := r) f) hB'
  refine ⟨fun i => (mm.mulT (mat r c f) c B).getD i (fun _ => 0), ?_, fun i hi ρ => ?_⟩
  · apply List.ext_getElem (by simp [h1])
    intro i hi hi'
    simp [hi]
  · have := h.mulT_sum _ c B (mat_rows (r := r) f) hB' i hi ρ
    rw [mat_length] at this
    refine this.congr (fun g hg => mat_entry f (List.mem_range.mp hg) hi) (fun g hg => ?_)
    rw [List.mem_range] at hg
    rw [fn_lt (by omega)]
    simp [hB, hg]

/-- The products of the model are a special case. -/
theorem sequential_anyOrder : (Products.sequential : Products (Ieee F) d).AnyOrder where
  gram_shape A c h := by
    show (gram A c).length = c ∧ ∀ row ∈ gram A c, row.length = c
    constructor
    · simp [gram]
    · intro row hrow
      obtain ⟨i, -, rfl⟩ := List.mem_map.mp hrow
      simp
  gram_sum A c h i hi j hj := by
    show AnySum _ _ _ (((gram A c).getD i []).getD j 0)
    have e := eq_mat rfl h
    generalize hf : (fun i j => (A.getD i []).getD j 0) = f at e
    have e1 : ((gram A c).getD i []).getD j 0 = gramE A.length f i j := by
      rw [e, BSpline.gram_mat, mat_entry _ hi hj, mat_length]
    rw [e1]
    have := anySum_foldl (fun g => f g i) (fun g => f g j) (List.range A.length)
    rw [← hf] at this ⊢
    exact this
  mulT_shape A c B h hB := by simp [Products.sequential, mulT]
  mulT_sum A c B h hB i hi r := by
    show AnySum _ _ _ ((mulT A c B).getD i (fun _ => 0) r)
    have e := eq_mat rfl h
    generalize hf : (fun i j => (A.getD i []).getD j 0) = f at e
    have e1 : (mulT A c B).getD i (fun _ => 0) r = (List.range A.length).foldl (fun s g => s + f g i * fn B g r) 0 := by
      rw [e, BSpline.mulT_mat f hB]
      simp only [List.getD_eq_getElem?_getD, List.getElem?_map, List.getElem?_range hi, Option.map_some, Option.getD_some,
        mat_length, rhsE]
      have : ∀ (l : List ℕ) (v : Pt (Ieee F) d), (l.foldl (fun s g => s + scale (f g i) (fn B g)) v) r =
          l.foldl (fun s g => s + f g i * fn B g r) (v r) := by
        intro l
        induction l with
        | nil => intro v; rfl
        | cons a l ih => intro v; rw [List.foldl_cons, List.foldl_cons, ih]; rfl
      exact this _ _
    rw [e1]
    refine (anySum_foldl (fun g => f g i) (fun g => fn B g r) (List.range A.length)).congr (fun g _ => by rw [← hf])
      (fun g hg => ?_)
    rw [List.mem_range] at hg
    rw [fn_lt (by omega)]
    simp [hB, hg]

end BSpline
