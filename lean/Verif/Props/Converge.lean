import Verif.Props.Convex
import Verif.Props.History
import Verif.Props.FitUnique
import Verif.Props.Regular

/-!
# Refined control polygons approach the curve (C105)
-/

set_option linter.unusedSectionVars false

namespace BSpline

open Finset

variable {K : Type} [Field K] [LinearOrder K] [IsStrictOrderedRing K] {d : ℕ}

/-! ### Specification -/

/-- calling `insert` with the given parameters one after the other, all successfully, turns the first
curve into the second -/
inductive Inserted : Curve K d → List K → Curve K d → Prop
  | nil {c} : Inserted c [] c
  | cons {c c' c'' x xs} : c.insert x = .ok (c', .ok ()) → Inserted c' xs c'' → Inserted c (x :: xs) c''

/-- no two neighbouring knots are more than `h` apart -/
def GapsAtMost (U : List K) (h : K) : Prop :=
  ∀ (j : ℕ) x y, U[j]? = some x → U[j + 1]? = some y → y - x ≤ h

/-! ### Inserting many knots -/

/-- Inserting new, different knots into a curve with simple interior knots. -/
theorem insert_many {p : ℕ} (xs : List K) : ∀ {n : ℕ} {U : List K} {P : List (Pt K d)},
    ClampedKnots 0 1 p n U → P.length = n + 1 → (∀ x, 0 < x → x < 1 → U.count x ≤ 1) → xs.Nodup →
    (∀ x ∈ xs, 0 < x ∧ x < 1 ∧ x ∉ U) →
    ∃ U' P', Inserted (canon p U P) xs (canon p U' P') ∧ ClampedKnots 0 1 p (n + xs.length) U' ∧
      P'.length = n + xs.length + 1 ∧ U'.Perm (xs ++ U) ∧
      Same p 0 1 n (fn U) (fn P) (n + xs.length) (fn U') (fn P') ∧
      ∀ ρ l m, SlopesIn p U P ρ l m → SlopesIn p U' P' ρ l m := by
  induction xs with
  | nil =>
    intro n U P hU hP _ _ _
    exact ⟨U, P, .nil, hU, hP, .refl _, Same.refl hU.clamp, fun _ _ _ h => h⟩
  | cons x xs ih =>
    intro n U P hU hP hs hnd hx
    obtain ⟨h0, h1, hxU⟩ := hx x (by simp)
    rw [List.nodup_cons] at hnd
    obtain ⟨l, l1, l2, l3, l4, hi, hU1, hs1⟩ := insert_valid hU hP h0 h1
      (by rw [List.count_eq_zero_of_not_mem hxU]; omega) (fun z hz0 hz1 => hs z hz0 (hz1.trans h1))
    have hp1 := insU_perm U x l
    obtain ⟨U', P', a1, a2, a3, a4, a5, a6⟩ := ih hU1 (P := (List.range (n + 2)).map
        (insP (fn U) p (fn P) x l)) (by simp)
      (by
        intro z hz0 hz1
        rw [hp1.count_eq]
        by_cases hz : z = x
        · subst hz; rw [List.count_cons_self, List.count_eq_zero_of_not_mem hxU]
        · rw [List.count_cons_of_ne (Ne.symm hz)]; exact hs z hz0 hz1) hnd.2
      (by
        intro z hz
        obtain ⟨b0, b1, b2⟩ := hx z (by simp [hz])
        refine ⟨b0, b1, ?_⟩
        rw [hp1.mem_iff, List.mem_cons, not_or]
        exact ⟨fun e => hnd.1 (e ▸ hz), b2⟩)
    have e : n + (x :: xs).length = n + 1 + xs.length := by simp; omega
    rw [e]
    refine ⟨U', P', .cons hi a1, a2, a3, ?_, hs1.trans hU1.clamp a5, ?_⟩
    · refine a4.trans ?_
      refine (List.Perm.append_left xs hp1).trans ?_
      exact List.perm_middle
    · intro ρ lo m h
      refine a6 ρ lo m ?_
      rw [slopesIn_iff hU1.length (by simp)]
      intro i hi
      rw [fn_map_range _ (by omega), fn_map_range _ (by omega)]
      exact insP_slopes hU (by rw [List.count_eq_zero_of_not_mem hxU]; omega) l1 l2 l3 l4
        ((slopesIn_iff hU.length hP).mp h) hi

theorem Inserted.unique {c c₁ c₂ : Curve K d} {xs : List K} (h : Inserted c xs c₁) (h' : Inserted c xs c₂) :
    c₁ = c₂ := by
  induction h with
  | nil => cases h'; rfl
  | cons h _ ih =>
    cases h' with
    | cons g g' =>
      rw [h] at g
      injection g with g; injection g with g _
      subst g
      exact ih g'

/-- **C105** New, pairwise different knots can be inserted one after the other into a curve without repeated
interior knots: all calls succeed, the knot vector receives exactly these knots, and the values and
derivatives of the curve remain the same. -/
theorem C105_insert_all {c : Curve K d} {p n : ℕ} {U : List K} {P : List (Pt K d)} (hc : ValidOn 0 1 c p n U P)
    (hs : ∀ x, 0 < x → x < 1 → U.count x ≤ 1) {xs : List K} (hnd : xs.Nodup)
    (hx : ∀ x ∈ xs, 0 < x ∧ x < 1 ∧ x ∉ U) :
    ∃ c' U' P', Inserted c xs c' ∧ ValidOn 0 1 c' p (n + xs.length) U' P' ∧ U'.Perm (xs ++ U) ∧
      ∀ v k, c'.evaluateDerivative v k = c.evaluateDerivative v k := by
  obtain rfl := hc.eq_canon
  obtain ⟨-, hU, hP⟩ := hc
  obtain ⟨U', P', a1, a2, a3, a4, a5, -⟩ := insert_many xs hU hP hs hnd hx
  exact ⟨_, U', P', a1, validOn_canon a2 a3, a4, fun v k => evaluateDerivative_same hU a2 hP a3 a5 v k⟩

/-- **C105** The order of the insertions does not matter. -/
theorem C105_any_order {c c₁ c₂ : Curve K d} {p n : ℕ} {U : List K} {P : List (Pt K d)}
    (hc : ValidOn 0 1 c p n U P) (hs : ∀ x, 0 < x → x < 1 → U.count x ≤ 1) {xs ys : List K} (hnd : xs.Nodup)
    (hx : ∀ x ∈ xs, 0 < x ∧ x < 1 ∧ x ∉ U) (hp : xs.Perm ys) (h₁ : Inserted c xs c₁) (h₂ : Inserted c ys c₂) :
    c₁ = c₂ := by
  obtain rfl := hc.eq_canon
  obtain ⟨-, hU, hP⟩ := hc
  obtain ⟨U1, P1, a1, a2, a3, a4, a5, -⟩ := insert_many xs hU hP hs hnd hx
  obtain ⟨U2, P2, b1, b2, b3, b4, b5, -⟩ := insert_many ys hU hP hs (hp.nodup_iff.mp hnd)
    (fun x h => hx x (hp.mem_iff.mpr h))
  obtain rfl := h₁.unique a1
  obtain rfl := h₂.unique b1
  have hUU : U1 = U2 := by
    have : U1.Perm U2 := a4.trans ((hp.append_right U).trans b4.symm)
    exact this.eq_of_pairwise (fun x y _ _ => le_antisymm) a2.sorted b2.sorted
  subst hUU
  rw [← hp.length_eq] at b2 b3 b5
  congr 1
  apply ext_fn (by omega)
  intro i hi
  refine (a5.symm.trans hU.clamp b5).unique a2.clamp (support_pos a2 ?_ (by omega))
  intro x h0 h1
  rw [a4.count_eq, List.count_append]
  by_cases h : x ∈ xs
  · rw [List.count_eq_zero_of_not_mem (hx x h).2.2]
    have := List.nodup_iff_count_le_one.mp hnd x
    omega
  · rw [List.count_eq_zero_of_not_mem h]
    have := hs x h0 h1
    omega

/-! ### The distance between control points and curve -/

theorem gaps_sum {U : List K} {h : K} (hg : GapsAtMost U h) {i : ℕ} (k : ℕ) (hi : i + k < U.length) :
    fn U (i + k) - fn U i ≤ k * h := by
  induction k with
  | zero => simp
  | succ k ih =>
    have h1 := ih (by omega)
    have h2 := hg (i + k) (fn U (i + k)) (fn U (i + (k + 1)))
      (by rw [fn_lt (by omega)]; exact List.getElem?_eq_getElem _)
      (by rw [fn_lt (by omega)]; exact List.getElem?_eq_getElem _)
    push_cast
    linarith

/-- neighbouring control points are close, if the knots are -/
theorem points_close {p n : ℕ} {U : List K} {P : List (Pt K d)} (hU : ClampedKnots 0 1 p n U)
    (hP : P.length = n + 1) {ρ : Fin d} {l h : K} (hl : 0 ≤ l) (hsl : SlopesIn p U P ρ (-l) l)
    (hg : GapsAtMost U h) {i : ℕ} (k : ℕ) (hi : i + k ≤ n) :
    |fn P (i + k) ρ - fn P i ρ| ≤ k * (p * l * h) := by
  have hlen := hU.length
  induction k with
  | zero => simp
  | succ k ih =>
    have h1 := ih (by omega)
    obtain ⟨h2, h3⟩ := (slopesIn_iff hlen hP).mp hsl (i + k) (by omega)
    have h4 := gaps_sum hg (i := i + k + 1) p (by omega)
    rw [show i + k + 1 + p = i + k + p + 1 by omega] at h4
    have h5 := mul_le_mul_of_nonneg_left h4 hl
    rw [show i + (k + 1) = i + k + 1 by omega]
    rw [abs_le] at h1 ⊢
    push_cast
    constructor <;> nlinarith

theorem near_span {p n : ℕ} {U : List K} (hU : ClampedKnots 0 1 p n U) {i j : ℕ} {u : K} (hi : i ≤ n)
    (hs : IsSpan (fn U) n u j) (hxu : fn U i ≤ u) (huy : u < fn U (i + p + 1) ∨ u = 1 ∧ fn U (i + p + 1) = 1) :
    i ≤ j ∧ j ≤ i + p := by
  have hcl := hU.clamp
  constructor
  · by_contra hcon
    rcases hs.hi with h2 | ⟨h2, -⟩
    · exact absurd (h2.trans_le (hcl.mono (show j + 1 ≤ i by omega))) (not_lt.mpr hxu)
    · omega
  · by_contra hcon
    have h2 : fn U (i + p + 1) ≤ u := (hcl.mono (show i + p + 1 ≤ j by omega)).trans hs.lo
    rcases huy with h3 | ⟨-, h3⟩
    · exact absurd h3 (not_lt.mpr h2)
    · have := hcl.lt_b (i := i + p + 1) (by have := hs.le_n; omega)
      exact absurd h3 this.ne

/-- **C105** A control point is close to all points of the curve that depend on it: within `p² l h`, if the slopes
of the control polygon are at most `l` and neighbouring knots at most `h` apart. -/
theorem C105_distance {c : Curve K d} {p n : ℕ} {U : List K} {P : List (Pt K d)} (hc : ValidOn 0 1 c p n U P)
    {ρ : Fin d} {l h : K} (hl : 0 ≤ l) (hsl : SlopesIn p U P ρ (-l) l) (hg : GapsAtMost U h)
    {i : ℕ} {q : Pt K d} {x y u : K} (hq : P[i]? = some q) (hx : U[i]? = some x) (hy : U[i + p + 1]? = some y)
    (hxu : x ≤ u) (huy : u < y ∨ u = 1 ∧ y = 1) :
    ∃ v, c.evaluate u = .ok (.ok v) ∧ |q ρ - v ρ| ≤ p ^ 2 * l * h := by
  obtain rfl := hc.eq_canon
  obtain ⟨-, hU, hP⟩ := hc
  have hlen := hU.length
  have hcl := hU.clamp
  obtain ⟨hi, rfl⟩ := List.getElem?_eq_some_iff.mp hq
  obtain ⟨_, rfl⟩ := List.getElem?_eq_some_iff.mp hx
  obtain ⟨_, rfl⟩ := List.getElem?_eq_some_iff.mp hy
  rw [← fn_lt] at hxu huy ⊢
  have h0 : 0 ≤ u := (hcl.a_le i).trans hxu
  have h1 : u ≤ 1 := by
    rcases huy with h | h
    · exact h.le.trans (hcl.le_b _)
    · exact h.1.le
  have hh : 0 ≤ p * l * h := by
    have hp := hU.le
    have := gaps_sum hg (i := p) 1 (by omega)
    have h2 := hcl.mono (show p ≤ p + 1 by omega)
    have : 0 ≤ h := by push_cast at this; linarith
    positivity
  have hclose : ∀ j, j ≤ n → i ≤ j + p → j ≤ i + p → |fn P i ρ - fn P j ρ| ≤ p ^ 2 * l * h := by
    intro j hj h2 h3
    rcases le_total i j with h4 | h4
    · obtain ⟨k, rfl⟩ := Nat.exists_eq_add_of_le h4
      have := points_close hU hP hl hsl hg (i := i) k hj
      rw [abs_sub_comm]
      have hk : (k : K) ≤ p := by exact_mod_cast (by omega : k ≤ p)
      nlinarith
    · obtain ⟨k, rfl⟩ := Nat.exists_eq_add_of_le h4
      have := points_close hU hP hl hsl hg (i := j) k (by omega)
      have hk : (k : K) ≤ p := by exact_mod_cast (by omega : k ≤ p)
      nlinarith
  refine ⟨_, evaluate_sum hU hP h0 h1, ?_⟩
  obtain ⟨j, hs⟩ := hcl.exists_span h0 h1
  have hij := near_span hU (by omega) hs hxu huy
  have hhi : u ≤ fn U (j + 1) := by
    rcases hs.hi with h2 | ⟨h2, h3⟩
    · exact h2.le
    · rw [h2, h3]
  have hnear : ∀ r ∈ range (n + 1), |nb p n U r u * (fn P i ρ - fn P r ρ)| ≤ nb p n U r u * (p ^ 2 * l * h) := by
    intro r hr
    rw [mem_range] at hr
    rw [nb_eq_Bs hU hs]
    have hn := Bs_nonneg hcl.mono hs.lo hhi p r
    by_cases hz : r + p < j ∨ j < r
    · rw [Bs_support _ _ _ _ _ hz, zero_mul, zero_mul, abs_zero]
    · rw [abs_mul, abs_of_nonneg hn]
      exact mul_le_mul_of_nonneg_left (hclose r (by omega) (by omega) (by omega)) hn
  have e : fn P i ρ - (∑ r ∈ range (n + 1), nb p n U r u • fn P r) ρ =
      ∑ r ∈ range (n + 1), nb p n U r u * (fn P i ρ - fn P r ρ) := by
    simp only [mul_sub, sum_sub_distrib, ← sum_mul, sum_nb_unit hU h0 h1, one_mul, Finset.sum_apply, Pi.smul_apply,
      smul_eq_mul]
  rw [e]
  refine (abs_sum_le_sum_abs _ _).trans ((sum_le_sum hnear).trans ?_)
  rw [← sum_mul, sum_nb_unit hU h0 h1, one_mul]

theorem greville_bounds {p n : ℕ} {U : List K} (hU : ClampedKnots 0 1 p n U) (hp : 1 ≤ p) {i : ℕ} (hi : i ≤ n) :
    fn U (i + 1) ≤ greville p U i ∧ greville p U i ≤ fn U (i + p) := by
  have hlen := hU.length
  have hcl := hU.clamp
  have hp0 : (0 : K) < p := by exact_mod_cast hp
  have hl : ((U.drop (i + 1)).take p).length = p := by simp; omega
  have hmem : ∀ z ∈ (U.drop (i + 1)).take p, fn U (i + 1) ≤ z ∧ z ≤ fn U (i + p) := by
    intro z hz
    obtain ⟨k, hk, rfl⟩ := List.getElem_of_mem hz
    rw [hl] at hk
    rw [List.getElem_take, List.getElem_drop, ← fn_lt]
    exact ⟨hcl.mono (by omega), hcl.mono (by omega)⟩
  rw [greville, le_div_iff₀ hp0, div_le_iff₀ hp0]
  constructor
  · have := List.card_nsmul_le_sum _ _ (fun z hz => (hmem z hz).1)
    rw [hl, nsmul_eq_mul] at this
    linarith
  · have := List.sum_le_card_nsmul _ _ (fun z hz => (hmem z hz).2)
    rw [hl, nsmul_eq_mul] at this
    linarith

theorem greville_right {p n : ℕ} {U : List K} (hU : ClampedKnots 0 1 p n U) (hp : 1 ≤ p)
    (hm : ∀ x, 0 < x → x < 1 → U.count x ≤ p) {i : ℕ} (hi : i ≤ n) :
    greville p U i < fn U (i + p + 1) ∨ greville p U i = 1 ∧ fn U (i + p + 1) = 1 := by
  have hlen := hU.length
  have hcl := hU.clamp
  obtain ⟨-, g2⟩ := greville_bounds hU hp hi
  rcases (g2.trans (hcl.mono (show i + p ≤ i + p + 1 by omega))).lt_or_eq with h1 | h1
  · exact Or.inl h1
  · right
    have hall : fn U (i + 1) = fn U (i + p + 1) := by
      rcases (hcl.mono (show i + 1 ≤ i + p + 1 by omega)).lt_or_eq with h2 | h2
      · exfalso
        have hp0 : (0 : K) < p := by exact_mod_cast hp
        have e : (U.drop (i + 1)).take p = fn U (i + 1) :: (U.drop (i + 2)).take (p - 1) := by
          obtain ⟨p', rfl⟩ := Nat.exists_eq_add_of_le' hp
          rw [List.drop_eq_getElem_cons (by omega), List.take_succ_cons, fn_lt (by omega)]
          rfl
        have hsum : ((U.drop (i + 2)).take (p - 1)).sum ≤ (p - 1 : ℕ) * fn U (i + p + 1) := by
          have hl : ((U.drop (i + 2)).take (p - 1)).length = p - 1 := by simp; omega
          have := List.sum_le_card_nsmul ((U.drop (i + 2)).take (p - 1)) (fn U (i + p + 1)) (by
            intro z hz
            obtain ⟨k, hk, rfl⟩ := List.getElem_of_mem hz
            rw [hl] at hk
            rw [List.getElem_take, List.getElem_drop, ← fn_lt]
            exact hcl.mono (by omega))
          rwa [hl, nsmul_eq_mul] at this
        rw [greville, div_eq_iff hp0.ne', e, List.sum_cons] at h1
        rw [Nat.cast_sub hp, Nat.cast_one] at hsum
        linarith
      · exact h2
    have hcount := run_le_count (U := U) (x := fn U (i + p + 1)) (lo := i + 1) (s := p + 1) (by omega)
      (fun k k1 k2 => le_antisymm (hcl.mono (show k ≤ i + p + 1 by omega)) (hall ▸ hcl.mono k1))
    have hpos := hcl.a_lt (show p < i + p + 1 by omega)
    have hone : fn U (i + p + 1) = 1 := by
      rcases (hcl.le_b (i + p + 1)).lt_or_eq with h2 | h2
      · have := hm _ hpos h2
        omega
      · exact h2
    exact ⟨h1.trans hone, hone⟩

/-- **C105** In particular it is close to the value at its Greville abscissa, the mean of its `p` inner knots. -/
theorem C105_greville {c : Curve K d} {p n : ℕ} {U : List K} {P : List (Pt K d)} (hc : ValidOn 0 1 c p n U P)
    (hp : 1 ≤ p) (hm : ∀ x, 0 < x → x < 1 → U.count x ≤ p)
    {ρ : Fin d} {l h : K} (hl : 0 ≤ l) (hsl : SlopesIn p U P ρ (-l) l) (hg : GapsAtMost U h)
    {i : ℕ} {q : Pt K d} (hq : P[i]? = some q) :
    ∃ v, c.evaluate (((U.drop (i + 1)).take p).sum / p) = .ok (.ok v) ∧ |q ρ - v ρ| ≤ p ^ 2 * l * h := by
  have hU := hc.2.1
  have hP := hc.2.2
  have hlen := hU.length
  have hcl := hU.clamp
  obtain ⟨hi, -⟩ := List.getElem?_eq_some_iff.mp hq
  obtain ⟨g1, g2⟩ := greville_bounds hU hp (i := i) (by omega)
  refine C105_distance hc hl hsl hg hq (List.getElem?_eq_getElem (by omega)) (List.getElem?_eq_getElem (by omega))
    ?_ ?_
  · rw [← fn_lt]
    exact (hcl.mono (by omega)).trans g1
  · rw [← fn_lt]
    exact greville_right hU hp hm (by omega)

/-- **C105** Every point of the curve is close to a control point. -/
theorem C105_cover {c : Curve K d} {p n : ℕ} {U : List K} {P : List (Pt K d)} (hc : ValidOn 0 1 c p n U P)
    {ρ : Fin d} {l h : K} (hl : 0 ≤ l) (hsl : SlopesIn p U P ρ (-l) l) (hg : GapsAtMost U h)
    {u : K} (h0 : 0 ≤ u) (h1 : u ≤ 1) :
    ∃ v q, c.evaluate u = .ok (.ok v) ∧ q ∈ P ∧ |q ρ - v ρ| ≤ p ^ 2 * l * h := by
  have hU := hc.2.1
  have hP := hc.2.2
  have hlen := hU.length
  have hcl := hU.clamp
  obtain ⟨j, hs⟩ := hcl.exists_span h0 h1
  have hj := hs.le_n
  obtain ⟨v, e, hv⟩ := C105_distance hc hl hsl hg (i := j) (u := u) (List.getElem?_eq_getElem (by omega))
    (List.getElem?_eq_getElem (by omega)) (List.getElem?_eq_getElem (by omega))
    (by rw [← fn_lt]; exact hs.lo) (by
      rw [← fn_lt]
      rcases hs.hi with h2 | ⟨h2, h3⟩
      · exact Or.inl (h2.trans_le (hcl.mono (by omega)))
      · exact Or.inr ⟨h3.trans (hcl.right _ le_rfl), hcl.right _ (by omega)⟩)
  exact ⟨v, _, e, List.getElem_mem _, hv⟩

/-! ### Equidistant refinement -/

/-- inserting all multiples of `1/N` leaves no gap longer than `1/N` -/
theorem gaps_of_grid {p n : ℕ} {U : List K} (hU : ClampedKnots 0 1 p n U) {N : ℕ} (hN : 0 < N)
    (hg : ∀ j, 0 < j → j < N → (j : K) / N ∈ U) : GapsAtMost U (1 / N) := by
  have hlen := hU.length
  have hcl := hU.clamp
  have hN0 : (0 : K) < N := by exact_mod_cast hN
  intro j x y hx hy
  obtain ⟨h1, rfl⟩ := List.getElem?_eq_some_iff.mp hx
  obtain ⟨h2, rfl⟩ := List.getElem?_eq_some_iff.mp hy
  rw [← fn_lt, ← fn_lt]
  by_contra hcon
  push Not at hcon
  have hy1 := hcl.le_b (j + 1)
  have hx0 := hcl.a_le j
  have hpos : (0 : K) < 1 / N := by positivity
  have hex : ∃ m : ℕ, fn U j < (m : K) / N := ⟨N, by rw [div_self hN0.ne']; linarith⟩
  classical
  set m := Nat.find hex with hm
  have hm1 : fn U j < (m : K) / N := Nat.find_spec hex
  have hm0 : 0 < m := by
    rcases Nat.eq_zero_or_pos m with h | h
    · rw [h, Nat.cast_zero, zero_div] at hm1; linarith
    · exact h
  have hm2 : ((m - 1 : ℕ) : K) / N ≤ fn U j := not_lt.mp (Nat.find_min hex (show m - 1 < m by omega))
  have hm3 : (m : K) / N ≤ fn U j + 1 / N := by
    rw [Nat.cast_sub hm0, Nat.cast_one, sub_div] at hm2
    linarith
  have hmN : m < N := by
    have : (m : K) / N < 1 := by linarith
    rw [div_lt_one hN0] at this
    exact_mod_cast this
  obtain ⟨k, hk, e⟩ := List.getElem_of_mem (hg m hm0 hmN)
  rw [← fn_lt] at e
  rcases Nat.lt_or_ge j k with h | h
  · have := hcl.mono (show j + 1 ≤ k by omega)
    rw [e] at this
    linarith
  · have := hcl.mono h
    rw [e] at this
    linarith

/-- **C105** Inserting the multiples of `1/N` that are not knots yet moves the control polygon to within
`p² l / N` of the curve, where `l` bounds the slopes of the control polygon before the insertions. So the refined
control polygons converge to the curve. -/
theorem C105_converges {c : Curve K d} {p n : ℕ} {U : List K} {P : List (Pt K d)} (hc : ValidOn 0 1 c p n U P)
    (hp : 1 ≤ p) (hs : ∀ x, 0 < x → x < 1 → U.count x ≤ 1) {N : ℕ} (hN : 0 < N) :
    ∃ c' m U' P', Inserted c (((List.range N).map fun j : ℕ => (j : K) / N).filter (· ∉ U)) c' ∧
      ValidOn 0 1 c' p m U' P' ∧
      ∀ ρ l, 0 ≤ l → SlopesIn p U P ρ (-l) l → ∀ (i : ℕ) q, P'[i]? = some q →
        ∃ v, c.evaluate (((U'.drop (i + 1)).take p).sum / p) = .ok (.ok v) ∧ |q ρ - v ρ| ≤ p ^ 2 * l * (1 / N) := by
  set xs := ((List.range N).map fun j : ℕ => (j : K) / N).filter (· ∉ U) with hxs
  have hN0 : (0 : K) < N := by exact_mod_cast hN
  have hc0 := hc.eq_canon
  obtain ⟨-, hU, hP⟩ := hc
  have hcl := hU.clamp
  have hmem : ∀ x, x ∈ xs ↔ (∃ j, j < N ∧ (j : K) / N = x) ∧ x ∉ U := by
    intro x
    simp only [hxs, List.mem_filter, List.mem_map, List.mem_range, decide_eq_true_eq]
  have h0U : (0 : K) ∈ U := by
    have := hcl.left 0 (by omega)
    rw [fn_lt (by have := hU.length; omega)] at this
    rw [← this]
    exact List.getElem_mem _
  have hnd : xs.Nodup := by
    refine List.Nodup.filter _ (List.Nodup.map ?_ List.nodup_range)
    intro i j h
    have h : (i : K) / N = (j : K) / N := h
    rw [div_left_inj' hN0.ne'] at h
    exact_mod_cast h
  have hx : ∀ x ∈ xs, 0 < x ∧ x < 1 ∧ x ∉ U := by
    intro x hx
    obtain ⟨⟨j, hj, rfl⟩, h2⟩ := (hmem x).mp hx
    refine ⟨?_, ?_, h2⟩
    · refine lt_of_le_of_ne (by positivity) ?_
      intro h; rw [← h] at h2; exact h2 h0U
    · rw [div_lt_one hN0]; exact_mod_cast hj
  obtain ⟨U', P', a1, a2, a3, a4, a5, a6⟩ := insert_many xs hU hP hs hnd hx
  have hgap : GapsAtMost U' (1 / N) := by
    refine gaps_of_grid a2 hN ?_
    intro j hj0 hjN
    rw [a4.mem_iff, List.mem_append, hmem]
    by_cases h : (j : K) / N ∈ U
    · exact Or.inr h
    · exact Or.inl ⟨⟨j, hjN, rfl⟩, h⟩
  rw [hc0]
  refine ⟨_, _, U', P', a1, validOn_canon a2 a3, ?_⟩
  intro ρ l hl hsl i q hq
  obtain ⟨v, h1, h2⟩ := C105_greville (validOn_canon a2 a3) hp (fun x h0 h1 => by
    rw [a4.count_eq, List.count_append]
    by_cases h : x ∈ xs
    · rw [List.count_eq_zero_of_not_mem (hx x h).2.2]
      have := List.nodup_iff_count_le_one.mp hnd x
      omega
    · rw [List.count_eq_zero_of_not_mem h]
      have := hs x h0 h1
      omega) hl (a6 ρ _ _ hsl) hgap hq
  refine ⟨v, ?_, h2⟩
  rw [← h1]
  exact (evaluateDerivative_same hU a2 hP a3 a5 _ 0).symm

/-! ### Examples -/

/-- a quadratic with the simple interior knot `1/2`: `1/4` and `3/4` are inserted, the slopes are at most `4` and no
control point is farther than `16/N` from the curve after inserting the multiples of `1/N` -/
example : ValidOn (0 : ℚ) 1 (canon 2 [(0 : ℚ), 0, 0, 1 / 2, 1, 1, 1] [![0], ![1 / 2], ![3 / 2], ![7 / 2]]) 2 3
      [0, 0, 0, 1 / 2, 1, 1, 1] [![0], ![1 / 2], ![3 / 2], ![7 / 2]] ∧
    (∀ x, (0 : ℚ) < x → x < 1 → [(0 : ℚ), 0, 0, 1 / 2, 1, 1, 1].count x ≤ 1) ∧
    ((List.range 4).map fun j : ℕ => (j : ℚ) / (4 : ℕ)).filter (· ∉ [(0 : ℚ), 0, 0, 1 / 2, 1, 1, 1]) =
      [1 / 4, 3 / 4] ∧
    SlopesIn 2 [(0 : ℚ), 0, 0, 1 / 2, 1, 1, 1] [![0], ![1 / 2], ![3 / 2], ![7 / 2]] (0 : Fin 1) (-4) 4 := by
  refine ⟨validOn_canon (by decide +kernel) rfl, ?_, by decide +kernel, ?_⟩
  · intro x h0 h1
    by_cases hx : x = 1 / 2
    · subst hx; decide +kernel
    · rw [List.count_eq_zero_of_not_mem]
      · omega
      · simp only [List.mem_cons, List.not_mem_nil, or_false, not_or]
        exact ⟨h0.ne', h0.ne', h0.ne', hx, h1.ne, h1.ne, h1.ne⟩
  · rw [slopesIn_iff (n := 3) (by simp) (by simp)]
    intro i hi
    interval_cases i <;> (simp [fn]; norm_num)

/-- The bound of `C105_distance` is attained: for the polyline from `0` to `1` over one span, `q - v` for the first
control point and the value just before the next knot is at the distance `u`, which comes arbitrarily close to `p² l h = 1`. -/
example (u : ℚ) (h0 : 0 ≤ u) (h1 : u ≤ 1) :
    ∃ v, (canon 1 [(0 : ℚ), 0, 1, 1] [![0], ![1]]).evaluate u = .ok (.ok v) ∧ |(![0] : Pt ℚ 1) 0 - v 0| = u := by
  have hU : ClampedKnots (0 : ℚ) 1 1 1 [0, 0, 1, 1] := by decide +kernel
  obtain ⟨j, hs⟩ := hU.clamp.exists_span h0 h1
  have h3 : j = 1 := le_antisymm hs.le_n (hs.p_le hU.clamp)
  subst h3
  refine ⟨_, evaluateDerivative_eq hU rfl (Nat.zero_le 1) h0 h1 hs, ?_⟩
  rw [cv_coord]
  simp [bl_cons, D, fn, abs_of_nonneg h0]

end BSpline
