import Verif.Props.Converge
import Verif.Props.Knots
import Verif.Props.Construct

/-!
# Refinement and derivatives: C106

Inserting a knot acts on the control points of every derivative like an insertion into the
derivative curve. So the control points of the derivatives stay within their bounds and converge to
the derivatives, and the control points of the curve converge quadratically.
-/

set_option linter.unusedSectionVars false

namespace BSpline

open Finset

variable {K : Type} [Field K] [LinearOrder K] [IsStrictOrderedRing K] {d : ℕ}

/-! ### Insertion and derivation commute -/

/-- one step of derivation -/
def der (V : ℕ → K) (q : ℕ) (D : ℕ → Pt K d) (i : ℕ) : Pt K d :=
  if Cmp.eq (V (i + q + 1)) (V (i + 1)) then fun _ => 0
  else scale ((q : K) / (V (i + q + 1) - V (i + 1))) (D (i + 1) - D i)

theorem der_insP {V V' : ℕ → K} {q l : ℕ} {x : K} {D : ℕ → Pt K d} (hmono : Monotone V)
    (h1 : V l ≤ x) (hq : 1 ≤ q) (hl : q ≤ l)
    (e1 : ∀ i, i ≤ l → V' i = V i) (e2 : V' (l + 1) = x) (e3 : ∀ i, l + 1 ≤ i → V' (i + 1) = V i)
    (hA : V (l - q + 1) < x) (hB : x < V (l + q)) (hmid : ∀ i, l - q < i → i < l → V (i + 1) < V (i + q)) (i : ℕ) :
    der V' q (insP V q D x l) i = insP (fun j => V (j + 1)) (q - 1) (der V q D) x (l - 1) i := by
  have hsep : ∀ i, l - q < i → i ≤ l → V (i + q) - V i ≠ 0 := by
    intro i a b
    rcases Nat.lt_or_ge i l with h | h
    · exact (sub_pos.mpr ((hmono (Nat.le_succ i)).trans_lt (hmid i a h))).ne'
    · obtain rfl : i = l := by omega
      exact (sub_pos.mpr (h1.trans_lt hB)).ne'
  have mid : ∀ i, l - q < i → i ≤ l → ∀ ρ, insP V q D x l i ρ =
      (1 - (x - V i) / (V (i + q) - V i)) * D (i - 1) ρ + (x - V i) / (V (i + q) - V i) * D i ρ := by
    intro i a b ρ
    simp [insP, b, scale, show ¬ i ≤ l - q by omega]
  have low : ∀ i, i ≤ l - q → insP V q D x l i = D i := by
    intro i h; simp [insP, h]
  have high : ∀ i, l < i → insP V q D x l i = D (i - 1) := by
    intro i h; simp [insP, show ¬ i ≤ l - q by omega, show ¬ i ≤ l by omega]
  have low' : ∀ i, i ≤ l - q → insP (fun j => V (j + 1)) (q - 1) (der V q D) x (l - 1) i = der V q D i := by
    intro i h; simp [insP, show i ≤ l - 1 - (q - 1) by omega]
  have high' : ∀ i, l ≤ i → insP (fun j => V (j + 1)) (q - 1) (der V q D) x (l - 1) i = der V q D (i - 1) := by
    intro i h; simp [insP, show ¬ i ≤ l - 1 - (q - 1) by omega, show ¬ i ≤ l - 1 by omega]
  have cmp : ∀ a b : K, a ≠ b → ¬ Cmp.eq a b = true := by
    intro a b h h'; exact h (of_decide_eq_true h')
  rcases Nat.lt_or_ge l i with h | h
  · -- behind
    obtain ⟨j, rfl⟩ : ∃ j, i = j + 1 := ⟨i - 1, by omega⟩
    rw [high' _ (by omega), der, der, high _ h, high _ (by omega), e3 _ (by omega), e3 _ (by omega)]
    simp only [Nat.add_sub_cancel, show j + 1 + q = j + q + 1 by omega]
  rcases Nat.lt_or_ge i (l - q) with h2 | h2
  · rw [low' _ h2.le, der, der, low _ h2.le, low _ h2, e1 _ (by omega), e1 _ (by omega)]
  rcases Nat.eq_or_lt_of_le h2 with h3 | h3
  · -- the first new edge
    have hw := hsep (i + 1) (by omega) (by omega)
    rw [show i + 1 + q = i + q + 1 by omega] at hw
    have hA' : V (i + 1) < x := by rw [← h3]; exact hA
    rw [low' _ h3.ge, der, der, low _ h3.ge, e1 (i + 1) (by omega), show i + q + 1 = l + 1 by omega, e2,
      if_neg (cmp _ _ hA'.ne'), if_neg (cmp _ _ (by rw [show l + 1 = i + q + 1 by omega]; exact sub_ne_zero.mp hw))]
    funext ρ
    simp only [scale, Pi.sub_apply]
    rw [mid (i + 1) (by omega) (by omega), Nat.add_sub_cancel, show l + 1 = i + q + 1 by omega,
      show i + 1 + q = i + q + 1 by omega]
    have := (sub_pos.mpr hA').ne'
    field_simp
    ring
  rcases Nat.eq_or_lt_of_le h with h4 | h4
  · -- the last new edge
    subst h4
    have hw := hsep i (by omega) le_rfl
    rw [high' _ le_rfl, der, der, high _ (by omega), Nat.add_sub_cancel, e2, e3 _ (by omega),
      if_neg (cmp _ _ hB.ne'), show i - 1 + q + 1 = i + q by omega, show i - 1 + 1 = i by omega,
      if_neg (cmp _ _ (sub_ne_zero.mp hw))]
    funext ρ
    simp only [scale, Pi.sub_apply]
    rw [mid i (by omega) le_rfl]
    have := (sub_pos.mpr hB).ne'
    field_simp
    ring
  · have hw := hsep i h3 h
    have hw' := hsep (i + 1) (by omega) h4
    have hm := (sub_pos.mpr (hmid i h3 h4)).ne'
    rw [show i + 1 + q = i + q + 1 by omega] at hw'
    rw [der, e1 (i + 1) h4, e3 (i + q) (by omega), if_neg (cmp _ _ (sub_ne_zero.mp hm))]
    have hr : insP (fun j => V (j + 1)) (q - 1) (der V q D) x (l - 1) i =
        scale (1 - (x - V (i + 1)) / (V (i + q) - V (i + 1))) (der V q D (i - 1)) +
          scale ((x - V (i + 1)) / (V (i + q) - V (i + 1))) (der V q D i) := by
      rw [insP, if_neg (by omega), if_pos (by omega)]
      simp only [show i + (q - 1) + 1 = i + q by omega]
      funext ρ
      simp
    rw [hr, der, der, show i - 1 + q + 1 = i + q by omega, show i - 1 + 1 = i by omega,
      if_neg (cmp _ _ (sub_ne_zero.mp hw)), if_neg (cmp _ _ (sub_ne_zero.mp hw'))]
    funext ρ
    simp only [scale, Pi.sub_apply, Pi.add_apply]
    rw [mid i h3 h, mid (i + 1) (by omega) h4, Nat.add_sub_cancel, show i + 1 + q = i + q + 1 by omega]
    field_simp
    ring

theorem dpt_succ_der (U : ℕ → K) {p k : ℕ} (hk : k + 1 ≤ p) (P : ℕ → Pt K d) (i : ℕ) :
    dpt U p P (k + 1) i = der (fun j => U (j + k)) (p - k) (dpt U p P k) i := by
  simp only [dpt, der]
  rw [show i + (p - k) + 1 + k = i + p + 1 by omega, show i + 1 + k = i + (k + 1) by omega,
    show p - (k + 1) + 1 = p - k by omega]

/-- The control points of the derivatives after an insertion. -/
theorem dpt_insP {p n l : ℕ} {U : List K} {x : K} (hU : ClampedKnots 0 1 p n U) (hl : p ≤ l) (hn : l ≤ n)
    (h1 : fn U l ≤ x) (h2 : x ≤ fn U (l + 1)) (P : ℕ → Pt K d) (k : ℕ) : U.count x + k ≤ p → ∀ i,
    dpt (fn (insU U x l)) p (insP (fn U) p P x l) k i =
      insP (fun j => fn U (j + k)) (p - k) (dpt (fn U) p P k) x (l - k) i := by
  have hlen := hU.length
  have hcl := hU.clamp
  induction k with
  | zero => intro _ i; simp only [dpt]; rfl
  | succ k ih =>
    intro hk i
    have hmono : Monotone fun j => fn U (j + k) := fun a b h => hcl.mono (by omega)
    rw [dpt_succ_der _ (by omega), funext (ih (by omega)),
      der_insP (V := fun j => fn U (j + k)) (l := l - k) hmono]
    · rw [show p - k - 1 = p - (k + 1) by omega, show l - k - 1 = l - (k + 1) by omega]
      simp only [show ∀ j, j + 1 + k = j + (k + 1) by intro j; omega]
      congr 1
      funext j
      rw [dpt_succ_der _ (by omega)]
    · show fn U (l - k + k) ≤ x
      rw [Nat.sub_add_cancel (by omega)]; exact h1
    · omega
    · omega
    · intro j hj
      exact fn_insU_le (by omega) (by omega)
    · show fn (insU U x l) (l - k + 1 + k) = x
      rw [show l - k + 1 + k = l + 1 by omega]
      exact fn_insU_eq (by omega)
    · intro j hj
      show fn (insU U x l) (j + 1 + k) = fn U (j + k)
      rw [show j + 1 + k = j + k + 1 by omega]
      exact fn_insU_gt (by omega) (by omega)
    · show fn U (l - k - (p - k) + 1 + k) < x
      rw [show l - k - (p - k) + 1 + k = l + 1 - (p - k) by omega]
      by_contra hcon
      push Not at hcon
      refine absurd (run_le_count (U := U) (x := x) (lo := l + 1 - (p - k)) (s := p - k) (by omega) ?_) (by omega)
      intro m m1 m2
      exact le_antisymm ((hcl.mono (show m ≤ l by omega)).trans h1) (hcon.trans (hcl.mono m1))
    · show x < fn U (l - k + (p - k) + k)
      rw [show l - k + (p - k) + k = l + (p - k) by omega]
      by_contra hcon
      push Not at hcon
      refine absurd (run_le_count (U := U) (x := x) (lo := l + 1) (s := p - k) (by omega) ?_) (by omega)
      intro m m1 m2
      exact le_antisymm ((hcl.mono (show m ≤ l + (p - k) by omega)).trans hcon) (h2.trans (hcl.mono m1))
    · intro j j1 j2
      show fn U (j + 1 + k) < fn U (j + (p - k) + k)
      by_contra hcon
      push Not at hcon
      have a1 : fn U (j + 1 + k) ≤ x := (hcl.mono (show j + 1 + k ≤ l by omega)).trans h1
      have a2 : x ≤ fn U (j + (p - k) + k) := h2.trans (hcl.mono (by omega))
      refine absurd (run_le_count (U := U) (x := x) (lo := j + 1 + k) (s := p - k) (by omega) ?_) (by omega)
      intro m m1 m2
      exact le_antisymm ((hcl.mono (show m ≤ j + (p - k) + k by omega)).trans (hcon.trans a1))
        (a2.trans (hcon.trans (hcl.mono m1)))

theorem dpt_congr_points {U : ℕ → K} {p : ℕ} {P P' : ℕ → Pt K d} (k : ℕ) : ∀ i, (∀ j, j ≤ i + k → P j = P' j) →
    dpt U p P k i = dpt U p P' k i := by
  induction k with
  | zero => intro i h; exact h i le_rfl
  | succ k ih =>
    intro i h
    simp only [dpt]
    rw [ih _ fun j hj => h j (by omega), ih _ fun j hj => h j (by omega)]

theorem dpt_insP_list {p n l k i : ℕ} {U : List K} {x : K} (hU : ClampedKnots 0 1 p n U) (hl : p ≤ l) (hn : l ≤ n)
    (h1 : fn U l ≤ x) (h2 : x ≤ fn U (l + 1)) {P : ℕ → Pt K d} (hk : U.count x + k ≤ p) (hi : i + k ≤ n + 1) :
    dpt (fn (insU U x l)) p (fn ((List.range (n + 2)).map (insP (fn U) p P x l))) k i =
      insP (fun j => fn U (j + k)) (p - k) (dpt (fn U) p P k) x (l - k) i := by
  rw [← dpt_insP hU hl hn h1 h2 P k hk i]
  exact dpt_congr_points k i fun j hj => fn_map_range _ (by omega)

/-! ### The control points of the derivatives stay in their bounds -/

/-- a new control point is a mean of two old ones -/
theorem insP_mean {V : ℕ → K} {q m l : ℕ} {x : K} (hmono : Monotone V) (h1 : V l ≤ x) (h2 : x ≤ V (l + 1))
    (hl : l ≤ m) {D : ℕ → Pt K d} {i : ℕ} (hi : i ≤ m + 1) :
    ∃ a : K, 0 ≤ a ∧ a ≤ 1 ∧ insP V q D x l i = (1 - a) • D (i - 1) + a • D (min i m) := by
  rcases Nat.lt_or_ge (l - q) i with h | h
  · rcases Nat.lt_or_ge l i with h3 | h3
    · refine ⟨0, le_rfl, zero_le_one, ?_⟩
      simp [insP, show ¬ i ≤ l - q by omega, show ¬ i ≤ l by omega]
    · have hlo : V i ≤ x := (hmono h3).trans h1
      have hhi : x ≤ V (i + q) := h2.trans (hmono (by omega))
      refine ⟨(x - V i) / (V (i + q) - V i), div_nonneg (by linarith) (by linarith),
        div_le_one_of_le₀ (by linarith) (by linarith), ?_⟩
      rw [Nat.min_eq_left (by omega)]
      funext ρ
      simp [insP, h3, scale, show ¬ i ≤ l - q by omega]
  · refine ⟨1, zero_le_one, le_rfl, ?_⟩
    rw [Nat.min_eq_left (by omega)]
    simp [insP, h]

/-- **C106** The control points of the `k`-th derivative after an insertion are weighted means of two neighbouring
control points of the `k`-th derivative before it, if the knot is afterwards there at most `p - k + 1` times. -/
theorem C106_insert {c c' : Curve K d} {p n k : ℕ} {U : List K} {P : List (Pt K d)} (hc : ValidOn 0 1 c p n U P)
    {x : K} (h0 : 0 < x) (h1 : x < 1) (hr : SimpleBelow U x) (hk : U.count x + k ≤ p)
    (hi : c.insert x = .ok (c', .ok ())) {D D' : List (Pt K d)} (hD : c.points.matrixDerivative k = .ok D)
    (hD' : c'.points.matrixDerivative k = .ok D') {i : ℕ} {q : Pt K d} (hq : D'[i]? = some q) :
    ∃ (r s : Pt K d) (a : K), D[i - 1]? = some r ∧ D[min i (n - k)]? = some s ∧ 0 ≤ a ∧ a ≤ 1 ∧ q = (1 - a) • r + a • s := by
  obtain rfl := hc.eq_canon
  obtain ⟨-, hU, hP⟩ := hc
  have hcl := hU.clamp
  have hle := hU.le
  obtain ⟨l, l1, l2, l3, l4, hi', -, -⟩ := insert_valid hU hP h0 h1 (by omega) hr
  rw [hi'] at hi
  injection hi with hi; injection hi with hi _
  subst hi
  rw [canon_points, canonPts_matrixDerivative (by omega)] at hD hD'
  injection hD with hD
  injection hD' with hD'
  subst hD
  subst hD'
  obtain ⟨hil, rfl⟩ := List.getElem?_eq_some_iff.mp hq
  simp only [List.length_map, List.length_range] at hil
  obtain ⟨a, a0, a1, e⟩ := insP_mean (V := fun j => fn U (j + k)) (q := p - k) (m := n - k) (l := l - k) (x := x)
    (fun _ _ h => hcl.mono (by omega)) (by simpa [Nat.sub_add_cancel (show k ≤ l by omega)] using l3)
    (by simpa [show l - k + 1 + k = l + 1 by omega] using l4) (by omega) (D := dpt (fn U) p (fn P) k) (i := i)
    (by omega)
  refine ⟨dpt (fn U) p (fn P) k (i - 1), dpt (fn U) p (fn P) k (min i (n - k)), a, ?_, ?_, a0, a1, ?_⟩
  · rw [List.getElem?_map, List.getElem?_range (by omega)]; rfl
  · rw [List.getElem?_map, List.getElem?_range (by omega)]; rfl
  · rw [List.getElem_map, List.getElem_range, dpt_insP_list hU l1 l2 l3 l4 hk (by omega), e]

/-- Inserting new, different knots into a curve with simple interior knots, with the control points of all
derivatives. -/
theorem insert_many_bounds {p : ℕ} (xs : List K) : ∀ {n : ℕ} {U : List K} {P : List (Pt K d)},
    ClampedKnots 0 1 p n U → P.length = n + 1 → (∀ x, 0 < x → x < 1 → U.count x ≤ 1) → xs.Nodup →
    (∀ x ∈ xs, 0 < x ∧ x < 1 ∧ x ∉ U) →
    ∃ U' P', Inserted (canon p U P) xs (canon p U' P') ∧ ClampedKnots 0 1 p (n + xs.length) U' ∧
      P'.length = n + xs.length + 1 ∧ U'.Perm (xs ++ U) ∧
      Same p 0 1 n (fn U) (fn P) (n + xs.length) (fn U') (fn P') ∧
      ∀ k, k ≤ p → ∀ ρ lo hi, (∀ i, i + k ≤ n → lo ≤ dpt (fn U) p (fn P) k i ρ ∧ dpt (fn U) p (fn P) k i ρ ≤ hi) →
        ∀ i, i + k ≤ n + xs.length → lo ≤ dpt (fn U') p (fn P') k i ρ ∧ dpt (fn U') p (fn P') k i ρ ≤ hi := by
  induction xs with
  | nil =>
    intro n U P hU hP _ _ _
    exact ⟨U, P, .nil, hU, hP, .refl _, Same.refl hU.clamp, fun _ _ _ _ _ h => h⟩
  | cons x xs ih =>
    intro n U P hU hP hs hnd hx
    obtain ⟨h0, h1, hxU⟩ := hx x (by simp)
    rw [List.nodup_cons] at hnd
    have hcount : U.count x = 0 := List.count_eq_zero_of_not_mem hxU
    obtain ⟨l, l1, l2, l3, l4, hi, hU1, hs1⟩ := insert_valid hU hP h0 h1
      (by omega) (fun z hz0 hz1 => hs z hz0 (hz1.trans h1))
    have hp1 := insU_perm U x l
    obtain ⟨U', P', a1, a2, a3, a4, a5, a6⟩ := ih hU1 (P := (List.range (n + 2)).map
        (insP (fn U) p (fn P) x l)) (by simp)
      (by
        intro z hz0 hz1
        rw [hp1.count_eq]
        by_cases hz : z = x
        · subst hz; rw [List.count_cons_self, hcount]
        · rw [List.count_cons_of_ne (Ne.symm hz)]; exact hs z hz0 hz1) hnd.2
      (by
        intro z hz
        obtain ⟨b0, b1, b2⟩ := hx z (by simp [hz])
        refine ⟨b0, b1, ?_⟩
        rw [hp1.mem_iff, List.mem_cons, not_or]
        exact ⟨fun e => hnd.1 (e ▸ hz), b2⟩)
    have e : n + (x :: xs).length = n + 1 + xs.length := by simp; omega
    rw [e]
    refine ⟨U', P', .cons hi a1, a2, a3, ?_, hs1.trans hU1.clamp a5, ?_⟩
    · refine a4.trans ?_
      refine (List.Perm.append_left xs hp1).trans ?_
      exact List.perm_middle
    · intro k hk ρ lo hi hb
      refine a6 k hk ρ lo hi ?_
      intro i hi'
      rw [dpt_insP_list hU l1 l2 l3 l4 (by omega) hi']
      have hcl := hU.clamp
      obtain ⟨a, b0, b1, e⟩ := insP_mean (V := fun j => fn U (j + k)) (q := p - k) (m := n - k) (l := l - k) (x := x)
        (fun _ _ h => hcl.mono (by omega)) (by simpa [Nat.sub_add_cancel (show k ≤ l by omega)] using l3)
        (by simpa [show l - k + 1 + k = l + 1 by omega] using l4) (by omega) (D := dpt (fn U) p (fn P) k) (i := i)
        (by omega)
      rw [e]
      have c1 := hb (i - 1) (by omega)
      have c2 := hb (min i (n - k)) (by omega)
      have b1' : 0 ≤ 1 - a := by linarith
      simp only [Pi.add_apply, Pi.smul_apply, smul_eq_mul]
      constructor
      · nlinarith [mul_le_mul_of_nonneg_left c1.1 b1', mul_le_mul_of_nonneg_left c2.1 b0]
      · nlinarith [mul_le_mul_of_nonneg_left c1.2 b1', mul_le_mul_of_nonneg_left c2.2 b0]

/-- bounds of the control points of a derivative -/
theorem derivative_bounds_iff {p n k : ℕ} {U : List K} {P : List (Pt K d)} (hP : P.length = n + 1) (hk : k ≤ p)
    (hp : p ≤ n) {ρ : Fin d} {lo hi : K} :
    (∀ D, (canon p U P).points.matrixDerivative k = .ok D → ∀ q ∈ D, lo ≤ q ρ ∧ q ρ ≤ hi) ↔
    ∀ i, i + k ≤ n → lo ≤ dpt (fn U) p (fn P) k i ρ ∧ dpt (fn U) p (fn P) k i ρ ≤ hi := by
  rw [canon_points, canonPts_matrixDerivative hk]
  constructor
  · intro h i hi'
    exact h _ rfl _ (List.mem_map.mpr ⟨i, List.mem_range.mpr (by omega), rfl⟩)
  · intro h D hD q hq
    injection hD with hD
    subst hD
    obtain ⟨i, h1, rfl⟩ := List.mem_map.mp hq
    rw [List.mem_range] at h1
    exact h i (by omega)

/-- **C106** Bounds of the control points of a derivative, in any coordinate, remain true when new knots are
inserted. -/
theorem C106_bounds {c c' : Curve K d} {p n k : ℕ} {U : List K} {P : List (Pt K d)} (hc : ValidOn 0 1 c p n U P)
    (hs : ∀ x, 0 < x → x < 1 → U.count x ≤ 1) {xs : List K} (hnd : xs.Nodup) (hx : ∀ x ∈ xs, 0 < x ∧ x < 1 ∧ x ∉ U)
    (hins : Inserted c xs c') (hk : k ≤ p) {D D' : List (Pt K d)} (hD : c.points.matrixDerivative k = .ok D)
    (hD' : c'.points.matrixDerivative k = .ok D') {ρ : Fin d} {lo hi : K} (hb : ∀ q ∈ D, lo ≤ q ρ ∧ q ρ ≤ hi) :
    ∀ q ∈ D', lo ≤ q ρ ∧ q ρ ≤ hi := by
  obtain rfl := hc.eq_canon
  obtain ⟨-, hU, hP⟩ := hc
  obtain ⟨U', P', a1, a2, a3, -, -, a6⟩ := insert_many_bounds xs hU hP hs hnd hx
  obtain rfl := hins.unique a1
  refine (derivative_bounds_iff a3 hk a2.le).mpr (a6 k hk ρ lo hi ?_) D' hD'
  refine (derivative_bounds_iff hP hk hU.le).mp ?_
  intro E hE
  rw [hD] at hE
  injection hE with hE
  subst hE
  exact hb

/-! ### Convergence -/

/-- the multiples of `1/N` that are not knots yet -/
def gridKnots (N : ℕ) (U : List K) : List K := ((List.range N).map fun j : ℕ => (j : K) / N).filter (· ∉ U)

theorem grid_refine {p n N : ℕ} {U : List K} {P : List (Pt K d)} (hU : ClampedKnots 0 1 p n U) (hP : P.length = n + 1)
    (hs : ∀ x, 0 < x → x < 1 → U.count x ≤ 1) (hN : 0 < N) :
    ∃ m U' P', Inserted (canon p U P) (gridKnots N U) (canon p U' P') ∧ ClampedKnots 0 1 p m U' ∧
      P'.length = m + 1 ∧ Same p 0 1 n (fn U) (fn P) m (fn U') (fn P') ∧ GapsAtMost U' (1 / N) ∧
      (∀ x, 0 < x → x < 1 → U'.count x ≤ 1) ∧
      ∀ k, k ≤ p → ∀ ρ lo hi, (∀ i, i + k ≤ n → lo ≤ dpt (fn U) p (fn P) k i ρ ∧ dpt (fn U) p (fn P) k i ρ ≤ hi) →
        ∀ i, i + k ≤ m → lo ≤ dpt (fn U') p (fn P') k i ρ ∧ dpt (fn U') p (fn P') k i ρ ≤ hi := by
  have hN0 : (0 : K) < N := by exact_mod_cast hN
  have hcl := hU.clamp
  have hmem : ∀ x, x ∈ gridKnots N U ↔ (∃ j, j < N ∧ (j : K) / N = x) ∧ x ∉ U := by
    intro x
    simp only [gridKnots, List.mem_filter, List.mem_map, List.mem_range, decide_eq_true_eq]
  have h0U : (0 : K) ∈ U := by
    have := hcl.left 0 (by omega)
    rw [fn_lt (by have := hU.length; omega)] at this
    rw [← this]
    exact List.getElem_mem _
  have hnd : (gridKnots N U).Nodup := by
    refine List.Nodup.filter _ (List.Nodup.map ?_ List.nodup_range)
    intro i j h
    have h : (i : K) / N = (j : K) / N := h
    rw [div_left_inj' hN0.ne'] at h
    exact_mod_cast h
  have hx : ∀ x ∈ gridKnots N U, 0 < x ∧ x < 1 ∧ x ∉ U := by
    intro x hx
    obtain ⟨⟨j, hj, rfl⟩, h2⟩ := (hmem x).mp hx
    refine ⟨?_, ?_, h2⟩
    · refine lt_of_le_of_ne (by positivity) ?_
      intro h; rw [← h] at h2; exact h2 h0U
    · rw [div_lt_one hN0]; exact_mod_cast hj
  obtain ⟨U', P', a1, a2, a3, a4, a5, a6⟩ := insert_many_bounds (gridKnots N U) hU hP hs hnd hx
  refine ⟨_, U', P', a1, a2, a3, a5, ?_, ?_, a6⟩
  · refine gaps_of_grid a2 hN ?_
    intro j hj0 hjN
    rw [a4.mem_iff, List.mem_append, hmem]
    by_cases h : (j : K) / N ∈ U
    · exact Or.inr h
    · exact Or.inl ⟨⟨j, hjN, rfl⟩, h⟩
  · intro x h0 h1
    rw [a4.count_eq, List.count_append]
    by_cases h : x ∈ gridKnots N U
    · rw [List.count_eq_zero_of_not_mem (hx x h).2.2]
      have := List.nodup_iff_count_le_one.mp hnd x
      omega
    · rw [List.count_eq_zero_of_not_mem h]
      have := hs x h0 h1
      omega

/-- the curve of the `k`-th derivative -/
theorem evaluate_derivative_canon {p n k : ℕ} {U : List K} {P : List (Pt K d)} (hU : ClampedKnots 0 1 p n U)
    (hP : P.length = n + 1) (hk : k ≤ p) (u : K) :
    (canon (p - k) (dvec U k) ((List.range (n + 1 - k)).map fun i => dpt (fn U) p (fn P) k i)).evaluate u =
      (canon p U P).evaluateDerivative u k := by
  have hlen := hU.length
  have hle := hU.le
  obtain ⟨e, h1, -, h2⟩ := C13_derivative_curve_partial (validOn_canon hU hP).1 hlen hP hle hk
  rw [getDerivativeCurve_ok hlen hle hk] at h1
  injection h1 with h1
  rw [← h2 u, ← h1, evaluate_new_points (m := n - k) (by simp; omega), hP]
  rfl

/-- differences of neighbouring control points of a derivative, from those of the next one -/
theorem dpt_diff {p n k i : ℕ} {U : List K} (hU : ClampedKnots 0 1 p n U) (P : ℕ → Pt K d) (hk : k < p) (hi : i + k < n)
    (hm : ∀ x, 0 < x → x < 1 → U.count x + k ≤ p) :
    0 < fn U (i + p + 1) - fn U (i + (k + 1)) ∧ ∀ ρ, dpt (fn U) p P k (i + 1) ρ - dpt (fn U) p P k i ρ =
      dpt (fn U) p P (k + 1) i ρ * ((fn U (i + p + 1) - fn U (i + (k + 1))) / (p - k : ℕ)) := by
  have hcl := hU.clamp
  have hlen := hU.length
  have hlt : fn U (i + (k + 1)) < fn U (i + p + 1) := by
    rcases (hcl.mono (show i + (k + 1) ≤ i + p + 1 by omega)).eq_or_lt with h | h
    · exfalso
      have hall : ∀ m, i + (k + 1) ≤ m → m < i + (k + 1) + (p - k + 1) → fn U m = fn U (i + (k + 1)) := fun m h1 h2 =>
        le_antisymm ((hcl.mono (show m ≤ i + p + 1 by omega)).trans h.ge) (hcl.mono h1)
      have hcount := run_le_count (U := U) (lo := i + (k + 1)) (s := p - k + 1) (by omega) hall
      have := hm _ (h ▸ hcl.a_lt (show p < i + p + 1 by omega)) (hcl.lt_b (show i + (k + 1) ≤ n by omega))
      omega
    · exact h
  have hpos := sub_pos.mpr hlt
  refine ⟨hpos, fun ρ => ?_⟩
  have hq : ((p - k : ℕ) : K) ≠ 0 := by exact_mod_cast (by omega : p - k ≠ 0)
  simp only [dpt]
  have hcmp : ¬ Cmp.eq (fn U (i + p + 1)) (fn U (i + (k + 1))) = true := fun h => hlt.ne' (of_decide_eq_true h)
  rw [if_neg hcmp, show p - (k + 1) + 1 = p - k by omega]
  simp only [scale, Pi.sub_apply]
  have := hpos.ne'
  field_simp

/-- **C106** After inserting the multiples of `1/N`, every control point of the `k`-th derivative is within
`(p - k) b / N` of the `k`-th derivative at its Greville abscissa, where `b` bounds the control points of the
derivative of order `k + 1` before the insertions. -/
theorem C106_derivatives_converge {c c' : Curve K d} {p n k N : ℕ} {U U' : List K} {P : List (Pt K d)}
    (hc : ValidOn 0 1 c p n U P) (hs : ∀ x, 0 < x → x < 1 → U.count x ≤ 1) (hN : 0 < N)
    (hins : Inserted c (gridKnots N U) c') (hU' : c'.knots.vector = .ok U') (hk : k < p) {D D' : List (Pt K d)}
    (hD : c.points.matrixDerivative (k + 1) = .ok D) (hD' : c'.points.matrixDerivative k = .ok D') {ρ : Fin d} {b : K}
    (hb : ∀ q ∈ D, |q ρ| ≤ b) {i : ℕ} {q : Pt K d} (hq : D'[i]? = some q) :
    ∃ v, c.evaluateDerivative (((U'.drop (i + k + 1)).take (p - k)).sum / (p - k : ℕ)) k = .ok (.ok v) ∧
      |q ρ - v ρ| ≤ (p - k : ℕ) * b / N := by
  obtain rfl := hc.eq_canon
  obtain ⟨-, hU, hP⟩ := hc
  have hN0 : (0 : K) < N := by exact_mod_cast hN
  obtain ⟨m, V, Q, a1, a2, a3, a5, a6, a7, a8⟩ := grid_refine hU hP hs hN
  obtain rfl := hins.unique a1
  rw [canon_knots, canonKnots_vector] at hU'
  injection hU' with hU'
  subst hU'
  have hlen := a2.length
  have hle := a2.le
  rw [canon_points, canonPts_matrixDerivative hk.le] at hD'
  injection hD' with hD'
  subst hD'
  have hb' : ∀ i, i + (k + 1) ≤ m → -b ≤ dpt (fn V) p (fn Q) (k + 1) i ρ ∧ dpt (fn V) p (fn Q) (k + 1) i ρ ≤ b := by
    refine a8 (k + 1) hk ρ (-b) b ((derivative_bounds_iff hP hk hU.le).mp ?_)
    intro E hE
    rw [hD] at hE
    injection hE with hE
    subst hE
    exact fun q hq => abs_le.mp (hb q hq)
  have hb0 : 0 ≤ b := by
    have := hb' 0 (by omega)
    linarith [this.1, this.2]
  have hq0 : (0 : K) < (p - k : ℕ) := by exact_mod_cast (by omega : 0 < p - k)
  have hdU := dvec_clamped a2 hk.le
  rw [a3] at hq
  have hdl : ((List.range (m + 1 - k)).map fun i => dpt (fn V) p (fn Q) k i).length = m - k + 1 := by simp; omega
  obtain ⟨v, h1, h2⟩ := C105_greville (validOn_canon hdU hdl) (by omega) (ρ := ρ) (l := b / (p - k : ℕ))
    (h := 1 / N) (i := i) (q := q) (by
      intro x h0 h1
      have : (dvec V k).count x ≤ V.count x :=
        ((List.take_sublist _ _).trans (List.drop_sublist _ _)).count_le x
      have := a7 x h0 h1
      omega) (div_nonneg hb0 hq0.le) (by
      rw [slopesIn_iff (by rw [dvec_length]; omega) hdl]
      intro j hj
      rw [fn_map_range _ (by omega), fn_map_range _ (by omega), fn_dvec (by omega), fn_dvec (by omega)]
      obtain ⟨hpos, hdiff⟩ := dpt_diff a2 (fn Q) hk (i := j) (by omega) (by
        intro x h0 h1
        have := a7 x h0 h1
        omega)
      rw [hdiff ρ, show j + (p - k) + 1 + k = j + p + 1 by omega, show j + 1 + k = j + (k + 1) by omega]
      obtain ⟨c1, c2⟩ := hb' j (by omega)
      have hw := (div_pos hpos hq0).le
      constructor
      · calc _ = -b * ((fn V (j + p + 1) - fn V (j + (k + 1))) / (p - k : ℕ)) := by ring
          _ ≤ _ := mul_le_mul_of_nonneg_right c1 hw
      · calc _ ≤ b * ((fn V (j + p + 1) - fn V (j + (k + 1))) / (p - k : ℕ)) := mul_le_mul_of_nonneg_right c2 hw
          _ = _ := by ring) (by
      intro j x y hx hy
      rw [dvec, List.getElem?_take] at hx hy
      split at hx
      · split at hy
        · rw [List.getElem?_drop] at hx hy
          exact a6 (k + j) x y hx (by rw [← hy]; congr 1)
        · cases hy
      · cases hx) hq
  refine ⟨v, ?_, ?_⟩
  · rw [evaluate_derivative_canon a2 a3 hk.le, evaluateDerivative_same hU a2 hP a3 a5] at h1
    rw [← h1]
    congr 3
    have hi : i < m + 1 - k := by
      obtain ⟨hi, -⟩ := List.getElem?_eq_some_iff.mp hq
      simpa using hi
    rw [dvec, List.drop_take, List.drop_drop, List.take_take, Nat.min_eq_left (by omega)]
    congr 2
    omega
  · refine h2.trans (le_of_eq ?_)
    field_simp

/-! ### Second order -/

theorem greville_step {p i : ℕ} {U : List K} (h : i + p + 1 < U.length) :
    greville p U (i + 1) - greville p U i = (fn U (i + p + 1) - fn U (i + 1)) / p := by
  have := sum_window (p := p) (i := i) (V := U) (by omega)
  rw [greville, greville, ← sub_div, show i + 1 + 1 = i + 2 by omega, this]

theorem sum_nb_greville {p n : ℕ} {U : List K} (hU : ClampedKnots 0 1 p n U) (hp : 1 ≤ p) {u : K} (h0 : 0 ≤ u)
    (h1 : u ≤ 1) : ∑ r ∈ range (n + 1), nb p n U r u * greville p U r = u := by
  set Q : List (Pt K 1) := (List.range (n + 1)).map fun i => (0 : Pt K 1) + greville p U i • (fun _ => (1 : K)) with hQ
  have hQl : Q.length = n + 1 := by simp [hQ]
  have h2 := (C61_linear_precision (validOn_canon hU hQl) hp 0 (fun _ => 1)).1 rfl u h0 h1
  rw [evaluate_sum hU hQl h0 h1] at h2
  injection h2 with h2
  injection h2 with h2
  have := congrFun h2 0
  simp only [Finset.sum_apply, Pi.smul_apply, smul_eq_mul, Pi.add_apply, Pi.zero_apply, zero_add, mul_one] at this
  refine Eq.trans (sum_congr rfl fun r hr => ?_) this
  rw [mem_range] at hr
  rw [hQ, fn_map_range _ hr]
  simp

/-- **C106** A control point is close to the curve to second order: within `p (p + 1) / 2 b h²` of the value at its
Greville abscissa, if `b` bounds the control points of the second derivative and neighbouring knots are at
most `h` apart. -/
theorem C106_second_order {c : Curve K d} {p n : ℕ} {U : List K} {P D : List (Pt K d)} (hc : ValidOn 0 1 c p n U P)
    (hp : 2 ≤ p) (hm : ∀ x, 0 < x → x < 1 → U.count x + 1 ≤ p) (hD : c.points.matrixDerivative 2 = .ok D)
    {ρ : Fin d} {b h : K} (hb : ∀ q ∈ D, |q ρ| ≤ b) (hg : GapsAtMost U h) {i : ℕ} {q : Pt K d} (hq : P[i]? = some q) :
    ∃ v, c.evaluate (((U.drop (i + 1)).take p).sum / p) = .ok (.ok v) ∧
      |q ρ - v ρ| ≤ p * (p + 1) / 2 * b * h ^ 2 := by
  obtain rfl := hc.eq_canon
  obtain ⟨-, hU, hP⟩ := hc
  have hlen := hU.length
  have hle := hU.le
  have hcl := hU.clamp
  obtain ⟨hi, rfl⟩ := List.getElem?_eq_some_iff.mp hq
  rw [← fn_lt]
  have hp0 : (0 : K) < p := by exact_mod_cast (by omega : 0 < p)
  have hq0 : (0 : K) < (p - 1 : ℕ) := by exact_mod_cast (by omega : 0 < p - 1)
  have hb' : ∀ i, i + 2 ≤ n → -b ≤ dpt (fn U) p (fn P) 2 i ρ ∧ dpt (fn U) p (fn P) 2 i ρ ≤ b := by
    refine (derivative_bounds_iff hP hp hle).mp ?_
    intro E hE
    rw [hD] at hE
    injection hE with hE
    subst hE
    exact fun q hq => abs_le.mp (hb q hq)
  have hb0 : 0 ≤ b := by
    have := hb' 0 (by omega)
    linarith [this.1, this.2]
  have hh0 : 0 ≤ h := by
    have := gaps_sum hg (i := p) 1 (by omega)
    have h2 := hcl.mono (show p ≤ p + 1 by omega)
    push_cast at this
    linarith
  -- neighbouring first derivatives
  have hE1 : ∀ j, j + 2 ≤ n → |dpt (fn U) p (fn P) 1 (j + 1) ρ - dpt (fn U) p (fn P) 1 j ρ| ≤ b * h := by
    intro j hj
    obtain ⟨hpos, hdiff⟩ := dpt_diff hU (fn P) (k := 1) (i := j) (by omega) (by omega) hm
    have h1 := gaps_sum hg (i := j + 2) (p - 1) (by omega)
    rw [show j + 2 + (p - 1) = j + p + 1 by omega] at h1
    rw [hdiff ρ, abs_mul, abs_of_nonneg (div_pos hpos hq0).le]
    refine mul_le_mul (abs_le.mpr (hb' j hj)) ?_ (div_pos hpos hq0).le hb0
    rw [div_le_iff₀ hq0]
    linarith
  have hE : ∀ t j, j + t + 1 ≤ n → |dpt (fn U) p (fn P) 1 (j + t) ρ - dpt (fn U) p (fn P) 1 j ρ| ≤ t * (b * h) := by
    intro t
    induction t with
    | zero => intro j _; simp
    | succ t ih =>
      intro j hj
      have h1 := ih j (by omega)
      have h2 := hE1 (j + t) (by omega)
      rw [show j + (t + 1) = j + t + 1 by omega]
      rw [abs_le] at h1 h2 ⊢
      push_cast
      constructor <;> linarith [h1.1, h1.2, h2.1, h2.2]
  -- the slope of the tangent line
  obtain ⟨s, hs1, hs2⟩ : ∃ s : K, (∀ t, t + 1 ≤ i → |dpt (fn U) p (fn P) 1 (i - t - 1) ρ - s| ≤ (t + 1 : ℕ) * (b * h)) ∧
      ∀ t, i + t < n → |dpt (fn U) p (fn P) 1 (i + t) ρ - s| ≤ (t + 1 : ℕ) * (b * h) := by
    have hbh := mul_nonneg hb0 hh0
    rcases Nat.lt_or_ge i n with h | h
    · refine ⟨dpt (fn U) p (fn P) 1 i ρ, ?_, ?_⟩
      · intro t ht
        have := hE (t + 1) (i - t - 1) (by omega)
        rwa [show i - t - 1 + (t + 1) = i by omega, abs_sub_comm] at this
      · intro t ht
        refine (hE t i (by omega)).trans ?_
        push_cast
        linarith
    · refine ⟨dpt (fn U) p (fn P) 1 (i - 1) ρ, ?_, ?_⟩
      · intro t ht
        have := hE t (i - t - 1) (by omega)
        rw [show i - t - 1 + t = i - 1 by omega, abs_sub_comm] at this
        refine this.trans ?_
        push_cast
        linarith
      · intro t ht; omega
  have hstep : ∀ j, j < n → fn P (j + 1) ρ - fn P j ρ =
      dpt (fn U) p (fn P) 1 j ρ * (greville p U (j + 1) - greville p U j) ∧
      0 ≤ greville p U (j + 1) - greville p U j ∧ greville p U (j + 1) - greville p U j ≤ h := by
    intro j hj
    obtain ⟨hpos, hdiff⟩ := dpt_diff hU (fn P) (k := 0) (i := j) (by omega) (by omega) (by
      intro x h0 h1
      have := hm x h0 h1
      omega)
    have h1 := gaps_sum hg (i := j + 1) p (by omega)
    rw [show j + 1 + p = j + p + 1 by omega] at h1
    rw [greville_step (by omega)]
    refine ⟨hdiff ρ, (div_pos hpos hp0).le, ?_⟩
    rw [div_le_iff₀ hp0]
    linarith
  set F : ℕ → K := fun r => fn P r ρ - fn P i ρ - s * (greville p U r - greville p U i) with hF
  have hFs : ∀ j, j < n → ∀ e : K, |dpt (fn U) p (fn P) 1 j ρ - s| ≤ e * (b * h) → |F (j + 1) - F j| ≤ e * b * h ^ 2 := by
    intro j hj e he
    obtain ⟨g1, g2, g3⟩ := hstep j hj
    have : F (j + 1) - F j = (dpt (fn U) p (fn P) 1 j ρ - s) * (greville p U (j + 1) - greville p U j) := by
      simp only [hF]
      linear_combination g1
    rw [this, abs_mul, abs_of_nonneg g2]
    calc _ ≤ e * (b * h) * h := mul_le_mul he g3 g2 ((abs_nonneg _).trans he)
      _ = _ := by ring
  have hup : ∀ t, i + t ≤ n → |F (i + t)| ≤ t * (t + 1) / 2 * b * h ^ 2 := by
    intro t
    induction t with
    | zero => intro _; simp [hF]
    | succ t ih =>
      intro ht
      have h1 := ih (by omega)
      have h2 := hFs (i + t) (by omega) _ (hs2 t (by omega))
      have h3 : F (i + (t + 1)) = F (i + t) + (F (i + t + 1) - F (i + t)) := by
        rw [show i + (t + 1) = i + t + 1 by omega]; ring
      rw [h3]
      refine (abs_add_le _ _).trans ((add_le_add h1 h2).trans (le_of_eq ?_))
      push_cast
      ring
  have hdown : ∀ t, t ≤ i → |F (i - t)| ≤ t * (t + 1) / 2 * b * h ^ 2 := by
    intro t
    induction t with
    | zero => intro _; simp [hF]
    | succ t ih =>
      intro ht
      have h1 := ih (by omega)
      have h2 := hFs (i - t - 1) (by omega) _ (hs1 t ht)
      rw [show i - t - 1 + 1 = i - t by omega] at h2
      have h3 : F (i - (t + 1)) = F (i - t) - (F (i - t) - F (i - t - 1)) := by
        rw [show i - (t + 1) = i - t - 1 by omega]; ring
      rw [h3]
      refine (abs_sub _ _).trans ((add_le_add h1 h2).trans (le_of_eq ?_))
      push_cast
      ring
  have hmon : ∀ t : ℕ, t ≤ p → (t : K) * (t + 1) / 2 * b * h ^ 2 ≤ p * (p + 1) / 2 * b * h ^ 2 := by
    intro t ht
    have : (t : K) ≤ p := by exact_mod_cast ht
    have ht0 : (0 : K) ≤ t := Nat.cast_nonneg t
    gcongr
  have hclose : ∀ r, r ≤ n → i ≤ r + p → r ≤ i + p → |F r| ≤ p * (p + 1) / 2 * b * h ^ 2 := by
    intro r hr h1 h2
    rcases le_total i r with h3 | h3
    · obtain ⟨t, rfl⟩ := Nat.exists_eq_add_of_le h3
      exact (hup t hr).trans (hmon t (by omega))
    · have := hdown (i - r) (by omega)
      rw [show i - (i - r) = r by omega] at this
      exact this.trans (hmon _ (by omega))
  -- the value of the curve
  obtain ⟨g1, g2⟩ := greville_bounds hU (show 1 ≤ p by omega) (i := i) (by omega)
  have g3 := greville_right hU (show 1 ≤ p by omega) (by
      intro x h0 h1
      have := hm x h0 h1
      omega) (i := i) (by omega)
  rw [← greville]
  set u := greville p U i with hu
  have h0 : 0 ≤ u := (hcl.a_le _).trans g1
  have h1 : u ≤ 1 := g2.trans (hcl.le_b _)
  obtain ⟨j, hs⟩ := hcl.exists_span h0 h1
  obtain ⟨hj1, hj2⟩ := near_span hU (by omega) hs ((hcl.mono (show i ≤ i + 1 by omega)).trans g1) g3
  have hhi : u ≤ fn U (j + 1) := by
    rcases hs.hi with h2 | ⟨h2, h3⟩
    · exact h2.le
    · rw [h2, h3]
  refine ⟨_, evaluate_sum hU hP h0 h1, ?_⟩
  have hnear : ∀ r ∈ range (n + 1), |nb p n U r u * F r| ≤ nb p n U r u * (p * (p + 1) / 2 * b * h ^ 2) := by
    intro r hr
    rw [mem_range] at hr
    rw [nb_eq_Bs hU hs]
    have hn := Bs_nonneg hcl.mono hs.lo hhi p r
    by_cases hz : r + p < j ∨ j < r
    · rw [Bs_support _ _ _ _ _ hz, zero_mul, zero_mul, abs_zero]
    · rw [abs_mul, abs_of_nonneg hn]
      exact mul_le_mul_of_nonneg_left (hclose r (by omega) (by omega) (by omega)) hn
  have e : (∑ r ∈ range (n + 1), nb p n U r u • fn P r) ρ - fn P i ρ = ∑ r ∈ range (n + 1), nb p n U r u * F r := by
    simp only [hF, mul_sub, sum_sub_distrib, ← sum_mul, sum_nb_unit hU h0 h1, one_mul, Finset.sum_apply,
      Pi.smul_apply, smul_eq_mul]
    have h2 := sum_nb_greville hU (show 1 ≤ p by omega) h0 h1
    have h3 : ∑ r ∈ range (n + 1), nb p n U r u * (s * greville p U r) = s * u := by
      rw [← h2, mul_sum]
      exact sum_congr rfl fun r _ => by rw [h2]; ring
    rw [h3]
    ring
  rw [abs_sub_comm, e]
  refine (abs_sum_le_sum_abs _ _).trans ((sum_le_sum hnear).trans ?_)
  rw [← sum_mul, sum_nb_unit hU h0 h1, one_mul]

/-- **C106** After inserting the multiples of `1/N` every control point is within `p (p + 1) / 2 b / N²` of the value
of the original curve at its Greville abscissa: halving the distances divides the error by four. -/
theorem C106_quadratic {c c' : Curve K d} {p n N : ℕ} {U U' : List K} {P P' : List (Pt K d)}
    (hc : ValidOn 0 1 c p n U P) (hp : 2 ≤ p) (hs : ∀ x, 0 < x → x < 1 → U.count x ≤ 1) (hN : 0 < N)
    (hins : Inserted c (gridKnots N U) c') (hU' : c'.knots.vector = .ok U') (hP' : c'.points.matrix = .ok P')
    {D : List (Pt K d)} (hD : c.points.matrixDerivative 2 = .ok D) {ρ : Fin d} {b : K}
    (hb : ∀ q ∈ D, |q ρ| ≤ b) {i : ℕ} {q : Pt K d} (hq : P'[i]? = some q) :
    ∃ v, c.evaluate (((U'.drop (i + 1)).take p).sum / p) = .ok (.ok v) ∧
      |q ρ - v ρ| ≤ p * (p + 1) / 2 * b / N ^ 2 := by
  obtain rfl := hc.eq_canon
  obtain ⟨-, hU, hP⟩ := hc
  have hN0 : (0 : K) < N := by exact_mod_cast hN
  obtain ⟨m, V, Q, a1, a2, a3, a5, a6, a7, a8⟩ := grid_refine hU hP hs hN
  obtain rfl := hins.unique a1
  rw [canon_knots, canonKnots_vector] at hU'
  injection hU' with hU'
  subst hU'
  rw [canon_points, canonPts_matrix] at hP'
  injection hP' with hP'
  subst hP'
  obtain ⟨v, h1, h2⟩ := C106_second_order (validOn_canon a2 a3) hp (by
      intro x h0 h1
      have := a7 x h0 h1
      omega) (D := (List.range (m + 1 - 2)).map fun i => dpt (fn V) p (fn Q) 2 i)
      (by rw [canon_points, canonPts_matrixDerivative hp, a3]) (ρ := ρ) (b := b) (by
      have := a8 2 hp ρ (-b) b ((derivative_bounds_iff hP hp hU.le).mp (by
        intro E hE
        rw [hD] at hE
        injection hE with hE
        subst hE
        exact fun q hq => abs_le.mp (hb q hq)))
      intro q hq
      rw [List.mem_map] at hq
      obtain ⟨j, hj, rfl⟩ := hq
      rw [List.mem_range] at hj
      exact abs_le.mpr (this j (by omega))) a6 hq
  refine ⟨v, ?_, h2.trans (le_of_eq (by field_simp))⟩
  rw [Curve.evaluate, evaluateDerivative_same hU a2 hP a3 a5] at h1
  exact h1

/-- the hypotheses are met: a quadratic with the simple interior knot `1/2`, second derivatives `0` and `12`, refined with the
multiples of `1/4` -/
example : ∃ c' U' P', ValidOn (0 : ℚ) 1 (canon 2 [(0 : ℚ), 0, 0, 1 / 2, 1, 1, 1] [![0], ![1 / 2], ![3 / 2], ![7 / 2]]) 2 3
      [0, 0, 0, 1 / 2, 1, 1, 1] [![0], ![1 / 2], ![3 / 2], ![7 / 2]] ∧
    gridKnots 4 [(0 : ℚ), 0, 0, 1 / 2, 1, 1, 1] = [1 / 4, 3 / 4] ∧
    Inserted (canon 2 [(0 : ℚ), 0, 0, 1 / 2, 1, 1, 1] [![0], ![1 / 2], ![3 / 2], ![7 / 2]]) [1 / 4, 3 / 4] c' ∧
    c'.knots.vector = .ok U' ∧ c'.points.matrix = .ok P' ∧ P'.length = 6 ∧
    (canon 2 [(0 : ℚ), 0, 0, 1 / 2, 1, 1, 1] [![0], ![1 / 2], ![3 / 2], ![7 / 2]]).points.matrixDerivative 2 =
      .ok [![0], ![12]] := by
  obtain ⟨c', U', P', h1, h2, -, -⟩ := C105_insert_all (c := canon 2 [(0 : ℚ), 0, 0, 1 / 2, 1, 1, 1]
      [![0], ![1 / 2], ![3 / 2], ![7 / 2]]) (p := 2) (n := 3) (U := [0, 0, 0, 1 / 2, 1, 1, 1])
      (P := [![0], ![1 / 2], ![3 / 2], ![7 / 2]]) (validOn_canon (by decide +kernel) rfl) (by
    intro x h0 h1
    by_cases hx : x = 1 / 2
    · subst hx; decide +kernel
    · rw [List.count_eq_zero_of_not_mem]
      · omega
      · simp only [List.mem_cons, List.not_mem_nil, or_false, not_or]
        exact ⟨h0.ne', h0.ne', h0.ne', hx, h1.ne, h1.ne, h1.ne⟩) (xs := [1 / 4, 3 / 4]) (by decide +kernel)
    (by decide +kernel)
  obtain rfl := h2.eq_canon
  refine ⟨_, U', P', validOn_canon (by decide +kernel) rfl, by decide +kernel, h1, ?_, ?_, h2.2.2, by decide +kernel⟩
  · rw [canon_knots, canonKnots_vector]
  · rw [canon_points, canonPts_matrix]

/-- The rate is right: for the parabola `u²` and `N = 2`, the middle control points `0` and `1/2` are at the distance
`1/16 = 1/(4 N²)` from the curve at `1/4` and `3/4`. -/
example : (∃ c', (canon 2 [(0 : ℚ), 0, 0, 1, 1, 1] [![0], ![0], ![1]]).insert (1 / 2) = .ok (c', .ok ()) ∧
      c'.points.matrix = .ok [![0], ![0], ![1 / 2], ![1]]) ∧
    (canon 2 [(0 : ℚ), 0, 0, 1, 1, 1] [![0], ![0], ![1]]).evaluate (1 / 4) = .ok (.ok ![1 / 16]) ∧
    (canon 2 [(0 : ℚ), 0, 0, 1, 1, 1] [![0], ![0], ![1]]).evaluate (3 / 4) = .ok (.ok ![9 / 16]) := by
  refine ⟨?_, by decide +kernel, by decide +kernel⟩
  have : ((canon 2 [(0 : ℚ), 0, 0, 1, 1, 1] [![0], ![0], ![1]]).insert (1 / 2)).map
      (fun r => (r.1.points.matrix.toOption, r.2.toOption)) = .ok (some [![0], ![0], ![1 / 2], ![1]], some ()) := by
    decide +kernel
  revert this
  generalize (canon 2 [(0 : ℚ), 0, 0, 1, 1, 1] [![0], ![0], ![1]]).insert (1 / 2) = r
  intro h
  match r, h with
  | .ok (c', .ok ()), h =>
    refine ⟨c', rfl, ?_⟩
    simp only [Except.map, Except.ok.injEq, Prod.mk.injEq] at h
    revert h
    cases c'.points.matrix with
    | error e => intro h; cases h.1
    | ok M => intro h; rw [show M = _ from Option.some.inj h.1]
  | .ok (c', .error e), h =>
    simp only [Except.map, Except.ok.injEq, Prod.mk.injEq] at h
    cases h.2

end BSpline
