import Mathlib.Data.List.TakeWhile
import Verif.Refine.Twin
import Verif.Props.IeeeMerge
import Verif.Props.IeeeSplit
import Verif.Props.Outcome

/-!
# The knots of a session in double precision: C127

Rounding can make knots coincide, with each other or with an end of the domain. So in double precision
the knots of a session do not stay clamped in the strict sense, but in the weak sense defined here.
-/

set_option linter.unusedSectionVars false

namespace BSpline

open Finset Ieee Knots

variable {K : Type} [Field K] [LinearOrder K] [IsStrictOrderedRing K] {F : Format K} {d : ℕ}

/-- The knots `V` of a curve with degree `p` and `n` segments: sorted, the first `p + 1` are `0`, the last
`p + 1` are `1`. In contrast to `ClampedKnots` the other ones may be `0` or `1`, too. -/
structure WeaklyClamped (p n : ℕ) (V : List K) : Prop where
  length : V.length = n + p + 2
  sorted : V.Pairwise (· ≤ ·)
  left : V.take (p + 1) = List.replicate (p + 1) 0
  right : V.drop (n + 1) = List.replicate (p + 1) 1
  le : p ≤ n

/-- No knot which is less than `x` and comes after the first `p + 1` ones is equal to the next one. -/
def CareBelow (p : ℕ) (V : List K) (x : K) : Prop :=
  ∀ i, p < i → i + 1 < V.length → fn V i < x → fn V (i + 1) ≠ fn V i

theorem ClampedKnots.weaklyClamped {p n : ℕ} {V : List K} (h : ClampedKnots 0 1 p n V) : WeaklyClamped p n V :=
  ⟨h.length, h.sorted, h.take_eq, h.drop_eq, h.le⟩

namespace WeaklyClamped

variable {p n : ℕ} {V : List K}

theorem mono (h : WeaklyClamped p n V) {i j : ℕ} (hij : i ≤ j) (hj : j < n + p + 2) : fn V i ≤ fn V j := by
  rw [← h.length] at hj
  rw [fn_lt (by omega), fn_lt hj]
  rcases Nat.lt_or_eq_of_le hij with hij | rfl
  · exact List.pairwise_iff_getElem.mp h.sorted i j _ _ hij
  · exact le_rfl

theorem zero (h : WeaklyClamped p n V) {i : ℕ} (hi : i ≤ p) : fn V i = 0 := by
  have hl := h.length
  have e : fn (V.take (p + 1)) i = fn V i := fn_take (by omega) (by omega)
  rw [← e, h.left, fn_lt (by simp; omega), List.getElem_replicate]

theorem one (h : WeaklyClamped p n V) {i : ℕ} (hi : n < i) (hi' : i < n + p + 2) : fn V i = 1 := by
  have hl := h.length
  have e : fn (V.drop (n + 1)) (i - (n + 1)) = fn V i := by
    rw [fn_drop (by omega)]; congr 1; omega
  rw [← e, h.right, fn_lt (by simp; omega), List.getElem_replicate]

theorem unit (h : WeaklyClamped p n V) : ∀ x ∈ V, 0 ≤ x ∧ x ≤ 1 := by
  intro x hx
  have hl := h.length
  obtain ⟨i, hi, rfl⟩ := List.mem_iff_getElem.mp hx
  rw [← fn_lt hi, ← h.zero (Nat.zero_le p), ← h.one (i := n + p + 1) (by have := h.le; omega) (by omega)]
  exact ⟨h.mono (Nat.zero_le _) (by omega), h.mono (by omega) (by omega)⟩

theorem of_fn (hl : V.length = n + p + 2) (hp : p ≤ n) (hs : V.Pairwise (· ≤ ·)) (h0 : ∀ i, i ≤ p → fn V i = 0)
    (h1 : ∀ i, n < i → i < n + p + 2 → fn V i = 1) : WeaklyClamped p n V := by
  refine ⟨hl, hs, ?_, ?_, hp⟩
  · apply List.ext_getElem (by simp; omega)
    intro i hi hi'
    simp only [List.length_replicate] at hi'
    rw [List.getElem_take, List.getElem_replicate, ← fn_lt, h0 i (by omega)]
  · apply List.ext_getElem (by simp; omega)
    intro i hi hi'
    simp only [List.length_replicate] at hi'
    rw [List.getElem_drop, List.getElem_replicate, ← fn_lt, h1 _ (by omega) (by omega)]

/-- the checks of merging -/
theorem checks (h : WeaklyClamped p n V) :
    (canonKnots p V).isClamped = .ok true ∧ (canonKnots p V).isNormed = .ok true := by
  have hl := h.length
  have hle := h.le
  obtain ⟨b, h1, h2⟩ := C50_is_clamped (canonKnots_vector (p := p) V)
  obtain ⟨b', h3, h4⟩ := C50_is_normed (canonKnots_vector (p := p) V)
  have hdeg : (canonKnots p V).degree = p := rfl
  have e : ∀ i (hi : i < V.length), V[i] = fn V i := fun i hi => (fn_lt hi).symm
  refine ⟨h1.trans (congrArg _ (h2.2 ?_)), h3.trans (congrArg _ (h4.2 ⟨?_, ?_, h.unit⟩))⟩
  · intro i hi hip
    rw [hdeg] at hip
    exact ⟨by rw [e, h.zero hip], by rw [e, h.one (by omega) (by omega)]⟩
  · rw [← h.zero (Nat.zero_le p), fn_lt (by omega)]
    exact List.getElem_mem _
  · rw [← h.one (i := n + 1) (by omega) (by omega), fn_lt (by omega)]
    exact List.getElem_mem _

/-! ### Searching and insertion -/

/-- the search started below `x`: either no knot equals `x` and it ends between the knots around it, or it
ends at the first knot which equals `x` -/
theorem search_aux {x : K} (h : WeaklyClamped p n V) (hc : CareBelow p V x) (hx1 : x < 1) : ∀ r i, i + r = n → p ≤ i →
    fn V i < x → fn V (lleq (fn V) x r i) < x ∧ x < fn V (lleq (fn V) x r i + 1) ∨
      i < lleq (fn V) x r i ∧ fn V (lleq (fn V) x r i) = x ∧ fn V (lleq (fn V) x r i - 1) < x := by
  have hl := h.length
  intro r
  induction r with
  | zero =>
    intro i hi _ hx
    rw [lleq]
    refine Or.inl ⟨hx, ?_⟩
    rw [h.one (by omega) (by omega)]
    exact hx1
  | succ r ih =>
    intro i hi hpi hx
    rw [lleq]
    change (fn V (if decide (fn V (i + 1) ≤ x) = true then (if decide (fn V (i + 1 + 1) = fn V (i + 1)) = true then _ else _)
      else _) < x ∧ x < fn V ((if decide (fn V (i + 1) ≤ x) = true then
        (if decide (fn V (i + 1 + 1) = fn V (i + 1)) = true then _ else _) else _) + 1)) ∨
      i < (if decide (fn V (i + 1) ≤ x) = true then
        (if decide (fn V (i + 1 + 1) = fn V (i + 1)) = true then _ else _) else _) ∧
      fn V (if decide (fn V (i + 1) ≤ x) = true then
        (if decide (fn V (i + 1 + 1) = fn V (i + 1)) = true then _ else _) else _) = x ∧
      fn V ((if decide (fn V (i + 1) ≤ x) = true then
        (if decide (fn V (i + 1 + 1) = fn V (i + 1)) = true then _ else _) else _) - 1) < x
    simp only [decide_eq_true_eq]
    by_cases h1 : fn V (i + 1) ≤ x
    · rw [if_pos h1]
      by_cases h2 : fn V (i + 1 + 1) = fn V (i + 1)
      · rw [if_pos h2]
        refine Or.inr ⟨by omega, le_antisymm h1 (not_lt.mp fun h3 => hc (i + 1) (by omega) (by omega) h3 h2), ?_⟩
        rwa [Nat.add_sub_cancel]
      · rw [if_neg h2]
        rcases lt_or_eq_of_le h1 with h3 | h3
        · rcases ih (i + 1) (by omega) (by omega) h3 with h4 | ⟨h4, h5⟩
          · exact Or.inl h4
          · exact Or.inr ⟨by omega, h5⟩
        · have h4 : ¬ fn V (i + 1 + 1) ≤ x := by
            intro h4
            exact h2 (le_antisymm (h4.trans h3.ge) (h.mono (by omega) (by omega)))
          have e : lleq (fn V) x r (i + 1) = i + 1 := by
            cases r with
            | zero => rfl
            | succ r =>
              rw [lleq]
              exact if_neg (by change ¬ decide _ = true; simpa using h4)
          rw [e]
          exact Or.inr ⟨by omega, h3, by rwa [Nat.add_sub_cancel]⟩
    · rw [if_neg h1]
      exact Or.inl ⟨hx, not_le.mp h1⟩

/-- the search over the domain -/
theorem search {x : K} (h : WeaklyClamped p n V) (hc : CareBelow p V x) (hx0 : 0 < x) (hx1 : x < 1) :
    p ≤ lleq (fn V) x (n - p) p ∧ lleq (fn V) x (n - p) p ≤ n ∧
    (fn V (lleq (fn V) x (n - p) p) < x ∧ x < fn V (lleq (fn V) x (n - p) p + 1) ∨
      p < lleq (fn V) x (n - p) p ∧ fn V (lleq (fn V) x (n - p) p) = x ∧ fn V (lleq (fn V) x (n - p) p - 1) < x) := by
  have hle := h.le
  have hb := lleq_bounds (fn V) x (n - p) p
  exact ⟨hb.1, by omega, h.search_aux hc hx1 (n - p) p (by omega) le_rfl (by rw [h.zero le_rfl]; exact hx0)⟩

end WeaklyClamped

/-- `V` consists of `q` knots less than `x`, `m` knots equal to `x`, and knots greater than `x` -/
def Around (q m : ℕ) (V : List K) (x : K) : Prop :=
  q + m ≤ V.length ∧ (∀ i, i < q → fn V i < x) ∧ (∀ i, q ≤ i → i < q + m → fn V i = x) ∧
    ∀ i, q + m ≤ i → i < V.length → x < fn V i

/-- the position of the search in terms of the knots less than `x` -/
theorem WeaklyClamped.around {p n : ℕ} {V : List K} {x : K} (h : WeaklyClamped p n V) (hc : CareBelow p V x)
    (hx0 : 0 < x) (hx1 : x < 1) : ∃ q m, Around q m V x ∧ p < q ∧ q + m ≤ n + 1 ∧
      lleq (fn V) x (n - p) p = (if 0 < m then q else q - 1) ∧
      ((V.drop (lleq (fn V) x (n - p) p)).takeWhile fun y => Cmp.eq y x).length = m := by
  obtain ⟨h1, h2, h3⟩ := h.search hc hx0 hx1
  have hl := h.length
  have hle := h.le
  generalize lleq (fn V) x (n - p) p = l at *
  rcases h3 with ⟨h3, h4⟩ | ⟨h3, h4, h5⟩
  · refine ⟨l + 1, 0, ⟨by omega, fun i hi => (h.mono (by omega) (by omega)).trans_lt h3, fun i _ _ => by omega,
      fun i h5 h6 => h4.trans_le (h.mono (by omega) (by omega))⟩, by omega, by omega, by simp, ?_⟩
    rw [List.drop_eq_getElem_cons (by omega), List.takeWhile_cons, ← fn_lt (by omega)]
    rw [if_neg]
    · rfl
    · change ¬ decide (fn V l = x) = true
      simpa using h3.ne
  · obtain ⟨m, hm⟩ : ∃ m, ((V.drop l).takeWhile fun y => Cmp.eq y x).length = m := ⟨_, rfl⟩
    have hmle : m ≤ (V.drop l).length := hm ▸ (List.takeWhile_sublist _).length_le
    rw [List.length_drop] at hmle
    have heq : ∀ i, l ≤ i → i < l + m → fn V i = x := by
      intro i hi hi'
      have h6 : (V.drop l).takeWhile (fun y => Cmp.eq y x) = (V.drop l).take m := by
        rw [← hm]; exact (List.prefix_iff_eq_take.mp (List.takeWhile_prefix _))
      have h7 : fn V i ∈ (V.drop l).takeWhile (fun y => Cmp.eq y x) := by
        rw [h6, show fn V i = fn ((V.drop l).take m) (i - l) by
          rw [fn_take (by omega) (by rw [List.length_drop]; omega), fn_drop (by omega)]; congr 1; omega]
        rw [fn_lt (by simp; omega)]
        exact List.getElem_mem _
      have := List.mem_takeWhile_imp h7
      change decide _ = true at this
      simpa using this
    have hnext : l + m < V.length → fn V (l + m) ≠ x := by
      intro h6 h7
      have : m < ((V.drop l).takeWhile fun y => Cmp.eq y x).length := by
        have h8 : (V.drop l).take (m + 1) <+: (V.drop l).takeWhile fun y => Cmp.eq y x := by
          have h9 : ∀ y ∈ (V.drop l).take (m + 1), Cmp.eq y x = true := by
            intro y hy
            obtain ⟨i, hi, rfl⟩ := List.mem_iff_getElem.mp hy
            simp only [List.length_take, List.length_drop] at hi
            rw [List.getElem_take, List.getElem_drop, ← fn_lt]
            change decide _ = true
            rw [decide_eq_true_eq]
            rcases Nat.lt_or_ge i m with h | h
            · exact heq _ (by omega) (by omega)
            · rw [show l + i = l + m by omega]; exact h7
          have h10 := List.takeWhile_append_of_pos (p := fun y => Cmp.eq y x) (l₁ := (V.drop l).take (m + 1))
            (l₂ := (V.drop l).drop (m + 1)) h9
          rw [List.take_append_drop] at h10
          rw [h10]
          exact List.prefix_append _ _
        have := h8.length_le
        rw [List.length_take, List.length_drop] at this
        omega
      omega
    have hm0 : 0 < m := by
      by_contra h0
      exact hnext (by omega) (by rw [show m = 0 by omega]; exact h4)
    refine ⟨l, m, ⟨by omega, fun i hi => (h.mono (by omega) (by omega)).trans_lt h5, heq, fun i h6 h7 =>
      (lt_of_le_of_ne ((heq l le_rfl (by omega)).ge.trans (h.mono (by omega) (by omega)))
        (hnext (by omega)).symm).trans_le (h.mono h6 (by omega))⟩, h3, ?_, by rw [if_pos hm0], hm⟩
    by_contra h6
    have h7 := heq (l + m - 1) (by omega) (by omega)
    rw [h.one (by omega) (by omega)] at h7
    linarith


theorem Around.unique {q m q' m' : ℕ} {V : List K} {x : K} (h : Around q m V x) (h' : Around q' m' V x) :
    q = q' ∧ m = m' := by
  have key : ∀ {q m q' m' : ℕ}, Around q m V x → Around q' m' V x → q ≤ q' := by
    intro q m q' m' h h'
    by_contra hlt
    have h1 := h.2.1 q' (by omega)
    rcases Nat.lt_or_ge q' (q' + m') with h2 | h2
    · rw [h'.2.2.1 q' le_rfl h2] at h1
      exact lt_irrefl _ h1
    · exact lt_asymm h1 (h'.2.2.2 q' (by omega) (by have := h.1; omega))
  have e : q = q' := le_antisymm (key h h') (key h' h)
  subst e
  have key2 : ∀ {m m' : ℕ}, Around q m V x → Around q m' V x → m ≤ m' := by
    intro m m' h h'
    by_contra hlt
    have h1 := h.2.2.1 (q + m') (by omega) (by omega)
    have h2 := h'.2.2.2 (q + m') le_rfl (by have := h.1; omega)
    rw [h1] at h2
    exact lt_irrefl _ h2
  exact ⟨rfl, le_antisymm (key2 h h') (key2 h' h)⟩

theorem pairwise_of_fn {V : List K} (h : ∀ i j, i < j → j < V.length → fn V i ≤ fn V j) : V.Pairwise (· ≤ ·) := by
  rw [List.pairwise_iff_getElem]
  intro i j hi hj hij
  rw [← fn_lt, ← fn_lt]
  exact h i j hij hj

/-- one insertion -/
theorem WeaklyClamped.insert {p n : ℕ} {V : List K} {x : K} (h : WeaklyClamped p n V) (hc : CareBelow p V x)
    (hx0 : 0 < x) (hx1 : x < 1) {l : ℕ} (hl : l = lleq (fn V) x (n - p) p) :
    WeaklyClamped p (n + 1) (insU V x l) ∧ CareBelow p (insU V x l) x ∧
      ∀ q m, Around q m V x → Around q (m + 1) (insU V x l) x := by
  obtain ⟨q, m, ha, hpq, hqn, hlq, -⟩ := h.around hc hx0 hx1
  rw [← hl] at hlq
  have hlen := h.length
  have hle := h.le
  have hl1 : l + 1 < V.length := by split at hlq <;> omega
  have hW : (insU V x l).length = n + 1 + p + 2 := by rw [insU_length (by omega)]; omega
  have e1 : ∀ {i}, i ≤ l → fn (insU V x l) i = fn V i := fun hi => fn_insU_le (by omega) hi
  have e2 : fn (insU V x l) (l + 1) = x := fn_insU_eq (by omega)
  have e3 : ∀ {i}, l + 1 < i → fn (insU V x l) i = fn V (i - 1) := by
    intro i hi
    have := fn_insU_gt (U := V) (u := x) (i := i - 1) hl1 (by omega)
    rwa [Nat.sub_add_cancel (by omega)] at this
  have hlow : ∀ i, i ≤ l → fn V i ≤ x := by
    intro i hi
    rcases Nat.lt_or_ge i q with h1 | h1
    · exact (ha.2.1 i h1).le
    · split at hlq
      · exact (ha.2.2.1 i h1 (by omega)).le
      · omega
  have hhigh : ∀ i, l < i → i < V.length → x ≤ fn V i := by
    intro i hi hi'
    rcases Nat.lt_or_ge i (q + m) with h1 | h1
    · exact (ha.2.2.1 i (by split at hlq <;> omega) h1).ge
    · exact (ha.2.2.2 i h1 hi').le
  have hA : Around q (m + 1) (insU V x l) x := by
    refine ⟨by have := ha.1; omega, fun i hi => ?_, fun i hi hi' => ?_, fun i hi hi' => ?_⟩
    · rw [e1 (by split at hlq <;> omega)]
      exact ha.2.1 i hi
    · rcases Nat.lt_trichotomy i (l + 1) with h1 | rfl | h1
      · rw [e1 (by omega)]
        exact ha.2.2.1 i hi (by split at hlq <;> omega)
      · exact e2
      · rw [e3 h1]
        exact ha.2.2.1 _ (by split at hlq <;> omega) (by omega)
    · rw [e3 (by split at hlq <;> omega)]
      exact ha.2.2.2 _ (by omega) (by omega)
  have hpl : p ≤ l := by split at hlq <;> omega
  have hln : l ≤ n := by split at hlq <;> omega
  refine ⟨.of_fn hW (by omega) (pairwise_of_fn fun i j hij hj => ?_) (fun i hi => ?_) (fun i hi hi' => ?_), ?_, ?_⟩
  · rcases Nat.lt_trichotomy j (l + 1) with h1 | rfl | h1
    · rw [e1 (by omega), e1 (by omega)]
      exact h.mono (by omega) (by omega)
    · rw [e1 (by omega), e2]
      exact hlow i (by omega)
    · rw [e3 h1]
      rcases Nat.lt_trichotomy i (l + 1) with h2 | rfl | h2
      · rw [e1 (by omega)]
        exact h.mono (by omega) (by omega)
      · rw [e2]
        exact hhigh _ (by omega) (by omega)
      · rw [e3 h2]
        exact h.mono (by omega) (by omega)
  · rw [e1 (by omega)]
    exact h.zero hi
  · rw [e3 (by omega)]
    exact h.one (by omega) (by omega)
  · intro i hi hi' hlt
    have hiq : i < q := by
      by_contra h1
      rcases Nat.lt_or_ge i (q + (m + 1)) with h2 | h2
      · rw [hA.2.2.1 i (by omega) h2] at hlt
        exact lt_irrefl _ hlt
      · exact lt_asymm hlt (hA.2.2.2 i h2 (by omega))
    rcases Nat.lt_or_ge (i + 1) q with h1 | h1
    · have q1 : i ≤ l := by split at hlq <;> omega
      have q2 : i + 1 ≤ l := by split at hlq <;> omega
      rw [e1 q1] at hlt
      rw [e1 q1, e1 q2]
      exact hc i hi (by omega) hlt
    · rw [hA.2.2.1 (i + 1) (by omega) (by omega)]
      exact hlt.ne'
  · intro q' m' ha'
    obtain ⟨rfl, rfl⟩ := ha.unique ha'
    exact hA

/-! ### Curves -/

/-- the curve `c` of degree `p` with `n` segments has the weakly clamped knots `V` -/
structure Sound (c : Curve (Ieee F) d) (p n : ℕ) (V : List K) : Prop where
  shaped : Shaped c p n
  knots : ∃ U, c.knots = canonKnots p U ∧ List.Forall₂ Is U V
  weak : WeaklyClamped p n V

/-- the twin which `Curve::new` makes of the knots and control points -/
theorem Sound.twin {c : Curve (Ieee F) d} {p n : ℕ} {V : List K} (h : Sound c p n V) :
    ∃ U P, c.knots = canonKnots p U ∧ List.Forall₂ Is U V ∧ U.length = n + p + 2 ∧ P.length = n + 1 ∧
      c.points.matrix = .ok P ∧ Twin c (canon p U P) := by
  obtain ⟨U, hU, hV⟩ := h.knots
  have hP := h.shaped.lenP 0 (by omega)
  exact ⟨U, _, hU, hV, hV.length_eq.trans h.weak.length, by simpa using hP, h.shaped.matrix, hU, h.shaped.matrix.trans
    (by rw [canon_matrix])⟩

theorem sound_canon {p n : ℕ} {U : List (Ieee F)} {V : List K} {P : List (Pt (Ieee F) d)} (hU : List.Forall₂ Is U V)
    (hV : WeaklyClamped p n V) (hP : P.length = n + 1) : Sound (canon p U P) p n V :=
  ⟨shaped_canon (hU.length_eq.trans hV.length) hP hV.le, ⟨U, rfl, hU⟩, hV⟩

theorem Sound.getD {c : Curve (Ieee F) d} {p n : ℕ} {U : List (Ieee F)} {V : List K} (h : Sound c p n V)
    (hU : c.knots = canonKnots p U) : c.knots.Uk.getD 0 [] = U := by
  have := h.shaped.vector
  rw [hU, canonKnots_vector] at this
  rw [hU]
  exact (Except.ok.inj this).symm

/-- parameters outside of the open interval -/
theorem insertTimes_outside {c c' : Curve (Ieee F) d} {u : Ieee F} {r} (hu : (Cmp.le u 0 || Cmp.le 1 u) = true) {t : ℕ}
    (e : c.insertTimes u t = .ok (c', r)) : c' = c := by
  cases t with
  | zero => injection e with e; injection e with e _; exact e.symm
  | succ t =>
    rw [Curve.insertTimes, BSpline.insert, if_pos hu] at e
    injection e with e; injection e with e _
    exact e.symm

theorem Sound.insertTimes {p : ℕ} {u : Ieee F} {x : K} (hu : Is u x) (t : ℕ) : ∀ {c c' : Curve (Ieee F) d} {n : ℕ}
    {V : List K} {r}, Sound c p n V → CareBelow p V x → c.insertTimes u t = .ok (c', r) →
    ∃ n' V', Sound c' p n' V' ∧ (r = .ok () → n' = n + t ∧ ∀ q m, Around q m V x → Around q (m + t) V' x) := by
  induction t with
  | zero =>
    intro c c' n V r h _ e
    injection e with e; injection e with e _
    subst e
    exact ⟨n, V, h, fun _ => ⟨rfl, fun q m h => h⟩⟩
  | succ t ih =>
    intro c c' n V r h hc e
    by_cases hb : (Cmp.le u 0 || Cmp.le 1 u) = true
    · refine ⟨n, V, (insertTimes_outside hb e) ▸ h, ?_⟩
      rw [Curve.insertTimes, BSpline.insert, if_pos hb] at e
      injection e with e; injection e with _ e
      subst e
      intro h; cases h
    obtain ⟨U, hk, hU⟩ := h.knots
    have hx : 0 < x ∧ x < 1 := by
      rw [hu.cmp_le is_zero, is_one.cmp_le hu] at hb
      simpa using hb
    rw [Curve.insertTimes, h.shaped.insert_eq, if_neg hb, h.getD hk, lleq_is (fn_is hU) hu] at e
    split at e
    · injection e with e; injection e with e e'
      subst e e'
      exact ⟨n, V, h, fun h => by cases h⟩
    · rw [ok_bind] at e
      obtain ⟨h1, h2, h3⟩ := h.weak.insert hc hx.1 hx.2 rfl
      obtain ⟨n', V', h4, h5⟩ := ih (sound_canon (insU_is hU hu _) h1 (by simp)) h2 e
      refine ⟨n', V', h4, fun hr => ⟨by have := (h5 hr).1; omega, fun q m ha => ?_⟩⟩
      have := (h5 hr).2 q (m + 1) (h3 q m ha)
      rwa [show m + 1 + t = m + (t + 1) by omega] at this

/-- a curve made from knots between `a` and `b` by normalisation -/
theorem sound_normalized {p n : ℕ} {U : List (Ieee F)} {V : List K} {P : List (Pt (Ieee F) d)} {c : Curve (Ieee F) d}
    {a b : K} (hc : Built c p (normalizeIf true U) P) (hU : List.Forall₂ Is U V) (hl : V.length = n + p + 2)
    (hP : P.length = n + 1) (hp : p ≤ n) (hs : ∀ i j, i < j → j < V.length → fn V i ≤ fn V j)
    (h0 : ∀ i, i ≤ p → fn V i = a) (h1 : ∀ i, n < i → i < n + p + 2 → fn V i = b) (hab : a < b)
    (hmax : b - a ≤ F.max) : ∃ W, Sound c p n W := by
  have hmem : ∀ i, i < V.length → fn V i ∈ V := fun i hi => by rw [fn_lt hi]; exact List.getElem_mem _
  have ha : a ∈ V := h0 0 (by omega) ▸ hmem 0 (by omega)
  have hb : b ∈ V := h1 (n + 1) (by omega) (by omega) ▸ hmem (n + 1) (by omega)
  obtain ⟨g, g1, g2, g3, g4, -⟩ := C89_normalize hU ha hb (by
    intro x hx
    obtain ⟨i, hi, rfl⟩ := List.mem_iff_getElem.mp hx
    rw [← fn_lt hi]
    constructor
    · rcases Nat.eq_zero_or_pos i with rfl | h
      · rw [h0 0 (by omega)]
      · rw [← h0 0 (by omega)]; exact hs 0 i h hi
    · rcases Nat.lt_or_ge i (n + p + 1) with h | h
      · rw [← h1 (n + p + 1) (by omega) (by omega)]; exact hs i _ h (by omega)
      · rw [h1 i (by omega) (by omega)]) hab hmax
  have hlU := hU.length_eq
  rw [normalizeIf, if_pos rfl] at hc
  have hlN : (normalizeKnots U).length = n + p + 2 := by rw [g1.length_eq, List.length_map, hl]
  obtain rfl := hc.eq_canon' hlN hP hp
  refine ⟨V.map g, sound_canon g1 (.of_fn (by rw [List.length_map, hl]) hp (pairwise_of_fn fun i j hij hj => ?_)
    (fun i hi => ?_) (fun i hi hi' => ?_)) hP⟩
  · rw [List.length_map] at hj
    rw [fn_map _ (by omega), fn_map _ hj]
    exact g4 _ _ (hs i j hij hj)
  · rw [fn_map _ (by omega), h0 i hi, g2]
  · rw [fn_map _ (by omega), h1 i hi hi', g3]

/-- splitting -/
theorem Sound.split {p n : ℕ} {u : Ieee F} {x : K} {V : List K} {c a b : Curve (Ieee F) d} (h : Sound c p n V)
    (hu : Is u x) (hc : CareBelow p V x) (e : BSpline.split c u = .ok (.ok (a, b))) :
    (∃ n' W, Sound a p n' W) ∧ ∃ n' W, Sound b p n' W := by
  obtain ⟨U, P, hk, hU, hlU, hlP, hm, htw⟩ := h.twin
  have hp := h.weak.le
  rw [BSpline.split, htw.split h.shaped (shaped_canon hlU hlP hp)] at e
  have hB : Built (canon p U P) p U P := mkCurve_ok (n := n) hlP hp (by omega)
  obtain ⟨l, hl, hpl, hln, hs⟩ := C118_split hB hlU hlP hp u (true, true)
  have hfi := findIdx_leftOrEqual_ok hlU hp (Nat.zero_le p) u
  simp only [Nat.add_zero, Nat.sub_zero] at hfi
  rw [canon_knots, hfi] at hl
  have hl := Except.ok.inj hl
  rw [lleq_is (fn_is hU) hu] at hl
  dsimp only at hs
  by_cases hb : (Cmp.le u 0 || Cmp.le 1 u) = true
  · rw [if_pos hb, e] at hs
    simp at hs
  rw [if_neg hb] at hs
  have hx : 0 < x ∧ x < 1 := by
    rw [hu.cmp_le is_zero, is_one.cmp_le hu] at hb
    simpa using hb
  obtain ⟨q, m, ha, hpq, hqn, hlq, hcnt⟩ := h.weak.around hc hx.1 hx.2
  rw [hl] at hlq hcnt
  rw [takeWhile_is (List.forall₂_drop _ hU) hu, hcnt] at hs
  by_cases hpm : p < m
  · rw [if_pos hpm, e] at hs
    simp at hs
  rw [if_neg hpm] at hs
  obtain ⟨hs1, hs2⟩ := hs
  have hsc := sound_canon hU h.weak hlP
  obtain ⟨c1, r, n1, h1, -⟩ := Shaped.insertTimes_shaped u (p - m) hsc.shaped
  obtain ⟨n', V', h2, h3⟩ := hsc.insertTimes hu (p - m) hc h1
  cases r with
  | error err =>
    have := hs1 ⟨c1, err, h1⟩
    rw [e] at this
    cases this
  | ok _ =>
    obtain ⟨rfl, h4⟩ := h3 rfl
    have hA := h4 q m ha
    rw [show m + (p - m) = p by omega] at hA
    obtain ⟨U', P', hk', hU', hlU', hlP', hm', -⟩ := h2.twin
    have hs3 := hs2 c1 U' P' h1 (by rw [hk', canonKnots_vector]) hm'
    have hq : (if 0 < m then l else l + 1) = q := by
      split at hlq
      · rw [if_pos (by assumption)]; exact hlq
      · rw [if_neg (by assumption)]; omega
    rw [if_neg (by rintro ⟨h5, h6⟩; rw [if_pos h5] at hlq; omega),
      if_neg (by rintro ⟨h5, h6⟩; rw [if_pos h5] at hlq; omega),
      if_neg (by rintro ⟨h5, h6⟩; rw [if_pos h5] at hlq; omega), hq] at hs3
    obtain ⟨a', b', e', hBa, hBb, hl1, hl2⟩ := hs3
    rw [e] at e'
    have e' := Except.ok.inj e'
    injection e' with e'
    injection e' with ea eb
    subst ea eb
    have hw := h2.weak
    have hlV := hw.length
    have hmax : (1 : K) ≤ F.max := F.one_le_max
    have hqp : q + p ≤ n + (p - m) + 1 := by
      by_contra h5
      have h6 := hA.2.2.1 (q + p - 1) (by omega) (by omega)
      rw [hw.one (by omega) (by omega)] at h6
      exact hx.2.ne h6.symm
    have hlow : ∀ i, i < q + p → fn V' i ≤ x := by
      intro i hi
      rcases Nat.lt_or_ge i q with h5 | h5
      · exact (hA.2.1 i h5).le
      · exact (hA.2.2.1 i h5 hi).le
    constructor
    · refine ⟨q - 1, sound_normalized (V := V'.take (q + p) ++ [x]) (a := 0) (b := x) hBa
        (List.rel_append (List.forall₂_take _ hU') (.cons hu .nil)) (by simp; omega) (by rw [hl1]; omega) (by omega)
        (fun i j hij hj => ?_) (fun i hi => ?_) (fun i hi hi' => ?_) hx.1 (by linarith [hx.2])⟩
      · simp only [List.length_append, List.length_take, List.length_singleton] at hj
        rw [fn_append_left (by simp; omega), fn_take (by omega) (by omega)]
        rcases Nat.lt_or_ge j (q + p) with h5 | h5
        · rw [fn_append_left (by simp; omega), fn_take (by omega) (by omega)]
          exact hw.mono (by omega) (by omega)
        · rw [fn_append_right (by simp; omega) (by simp; omega)]
          rw [show j - (List.take (q + p) V').length = 0 by simp; omega]
          exact hlow i (by omega)
      · rw [fn_append_left (by simp; omega), fn_take (by omega) (by omega)]
        exact hw.zero hi
      · rcases Nat.lt_or_ge i (q + p) with h5 | h5
        · rw [fn_append_left (by simp; omega), fn_take (by omega) (by omega)]
          exact hA.2.2.1 i (by omega) h5
        · rw [fn_append_right (by simp; omega) (by simp; omega)]
          rw [show i - (List.take (q + p) V').length = 0 by simp; omega]
          rfl
    · refine ⟨n + p + 1 - m - q, sound_normalized (V := x :: V'.drop q) (a := x) (b := 1) hBb
        (.cons hu (List.forall₂_drop _ hU')) (by simp; omega) (by rw [hl2]; omega) (by omega)
        (fun i j hij hj => ?_) (fun i hi => ?_) (fun i hi hi' => ?_) hx.2 (by linarith [hx.1])⟩
      · simp only [List.length_cons, List.length_drop] at hj
        obtain ⟨j, rfl⟩ : ∃ k, j = k + 1 := ⟨j - 1, by omega⟩
        rw [fn_cons_succ (by simp; omega), fn_drop (by omega)]
        cases i with
        | zero =>
          rw [fn_cons_zero]
          rcases Nat.lt_or_ge j p with h5 | h5
          · exact (hA.2.2.1 (q + j) (by omega) (by omega)).ge
          · exact (hA.2.2.2 (q + j) (by omega) (by omega)).le
        | succ i =>
          rw [fn_cons_succ (by simp; omega), fn_drop (by omega)]
          exact hw.mono (by omega) (by omega)
      · cases i with
        | zero => rfl
        | succ i =>
          rw [fn_cons_succ (by simp; omega), fn_drop (by omega)]
          exact hA.2.2.1 (q + i) (by omega) (by omega)
      · obtain ⟨i, rfl⟩ : ∃ k, i = k + 1 := ⟨i - 1, by omega⟩
        rw [fn_cons_succ (by simp; omega), fn_drop (by omega)]
        exact hw.one (by omega) (by omega)

/-- reversal -/
theorem Sound.reverse {p n : ℕ} {V : List K} {c c' : Curve (Ieee F) d} (h : Sound c p n V) (e : c.reverse = .ok c') :
    Sound c' p n (revR F V) := by
  obtain ⟨U, hk, hU⟩ := h.knots
  have hl := h.weak.length
  have hlU := hU.length_eq.trans hl
  have hp := h.weak.le
  obtain ⟨c1, e1, hs⟩ := h.shaped.reverse_shaped
  rw [e] at e1
  obtain rfl := Except.ok.inj e1
  have e2 : c = ⟨canonKnots p U, c.points⟩ := by rw [← hk]
  rw [e2, reverse_free hlU hp (by rw [h.shaped.nPk, h.shaped.kMax])] at e
  have e := Except.ok.inj e
  refine ⟨hs, ⟨reverseKnots U, by rw [← e], is_reverseKnots hU h.weak.unit⟩, .of_fn (by simp [revR, hl]) hp
    (pairwise_of_fn fun i j hij hj => ?_) (fun i hi => ?_) (fun i hi hi' => ?_)⟩
  · have hj : j < V.length := by simpa [revR] using hj
    rw [fn_revR (by omega), fn_revR hj]
    exact F.mono _ _ (by linarith [h.weak.mono (show V.length - 1 - j ≤ V.length - 1 - i by omega) (by omega)])
  · rw [fn_revR (by omega), h.weak.one (by omega) (by omega), sub_self, F.rnd_zero]
  · rw [fn_revR (by omega), h.weak.zero (by omega), sub_zero, F.one]

/-! ### Merging -/

theorem WeaklyClamped.mergedU {p m o : ℕ} {Ua Ub : List (Ieee F)} {V W : List K} (h2 : F.rnd 2 = 2) (hm2 : 2 ≤ F.max)
    (hUa : List.Forall₂ Is Ua V) (hUb : List.Forall₂ Is Ub W) (hV : WeaklyClamped p m V) (hW : WeaklyClamped p o W) :
    List.Forall₂ Is (mergedU p m o Ua Ub) (mergeR F p m V W) ∧
      WeaklyClamped p (m + o + 1 - p) (mergeR F p m V W) := by
  have hlV := hV.length
  have hlW := hW.length
  have hpm := hV.le
  have hpo := hW.le
  have hraw : List.Forall₂ Is (mergedRaw p m o Ua Ub) (V.take (m + 2) ++ (W.drop (p + 1)).map (rightR F)) := by
    rw [mergedRaw_free (hUa.length_eq.trans hV.length) (hUb.length_eq.trans hW.length) hV.le]
    refine List.rel_append (List.forall₂_take _ hUa) ?_
    rw [List.forall₂_map_left_iff, List.forall₂_map_right_iff]
    have h01 := hW.unit
    have := List.forall₂_drop (p + 1) hUb
    rw [List.forall₂_iff_get] at this ⊢
    refine ⟨this.1, fun i h h' => ?_⟩
    have hi := this.2 i h h'
    have hw := h01 _ (List.mem_of_mem_drop (List.get_mem _ ⟨i, h'⟩))
    generalize (List.drop (p + 1) W).get ⟨i, h'⟩ = w at *
    have ha := F.rnd_unit (show 0 ≤ 1 - w by linarith) (by linarith)
    have hb := F.rnd_unit (show 0 ≤ 1 - F.rnd (1 - w) by linarith) (by linarith)
    exact (is_reverseKnot (is_reverseKnot hi hw.1 hw.2) ha.1 ha.2).add is_one (by
      rw [abs_of_nonneg (by linarith)]; linarith)
  have hlast : Is (fn (mergedRaw p m o Ua Ub) (m + o + 2)) 2 := by
    have := fn_is hraw (m + o + 2)
    rw [fn_append_right (by simp) (by simp; omega), fn_map _ (by simp; omega), fn_drop (by simp; omega),
      List.length_take, hlV, show p + 1 + (m + o + 2 - min (m + 2) (m + p + 2)) = o + p + 1 by omega,
      hW.one (by omega) (by omega), rightR_one h2] at this
    exact this
  constructor
  · rw [BSpline.mergedU, mergeR, List.forall₂_map_left_iff, List.forall₂_map_right_iff]
    rw [List.forall₂_iff_get] at hraw ⊢
    refine ⟨hraw.1, fun i h h' => ?_⟩
    have hi := hraw.2 i h h'
    exact hi.div hlast two_ne_zero (by
      rw [abs_div, abs_two]
      have := hi.le_max
      have := abs_nonneg ((List.take (m + 2) V ++ List.map (rightR F) (List.drop (p + 1) W)).get ⟨i, h'⟩)
      linarith)
  · refine .of_fn (by rw [mergeR_length hlV hlW]; omega) (by omega) ?_ (fun i hi => ?_) (fun i hi hi' => ?_)
    · rw [mergeR, List.pairwise_map, List.pairwise_append, List.pairwise_map]
      have mono : ∀ {x y : K}, x ≤ y → F.rnd (x / 2) ≤ F.rnd (y / 2) := fun h => F.mono _ _ (by linarith)
      refine ⟨(hV.sorted.sublist (List.take_sublist _ _)).imp mono,
        (hW.sorted.sublist (List.drop_sublist _ _)).imp fun h => mono (rightR_mono h), ?_⟩
      intro x hx y hy
      simp only [List.mem_map] at hy
      obtain ⟨w, hw, rfl⟩ := hy
      have h1 := hV.unit x (List.mem_of_mem_take hx)
      have h3 := hW.unit w (List.mem_of_mem_drop hw)
      exact mono (h1.2.trans (rightR_mem h2 h3.1 h3.2).1)
    · rw [fn_mergeR_left hlV (by omega), hV.zero hi, zero_div, F.rnd_zero]
    · rw [show i = i - (m + 1 - p) + (m + 1 - p) by omega, fn_mergeR_right hlV hlW hpm (by omega) (by omega),
        hW.one (by omega) (by omega), rightR_one h2, div_self two_ne_zero, F.one]

/-- merging: the result for each size -/
theorem Sound.merge_outcome {p m o : ℕ} {V W : List K} {a b : Curve (Ieee F) d} (h2 : F.rnd 2 = 2) (hm2 : 2 ≤ F.max)
    (ha : Sound a p m V) (hb : Sound b p o W) (ca cb : Constraints (Ieee F)) (solver : Solver (Ieee F) d) :
    if p ≤ ca.count + cb.count then
      mergeWithConstraints solver ⟨a, ca⟩ ⟨b, cb⟩ = .ok (.error (.tooManyConstraints (ca.count + cb.count) p))
    else if m ≤ o ∧ o < m + p then ∃ c, mergeWithConstraints solver ⟨a, ca⟩ ⟨b, cb⟩ = .ok (.ok c) ∧
      Sound c p (m + o + 1 - p) (mergeR F p m V W)
    else ∃ e, mergeWithConstraints solver ⟨a, ca⟩ ⟨b, cb⟩ = .error e := by
  obtain ⟨Ua, S, -, hUa, hlU, hS, -, ta⟩ := ha.twin
  obtain ⟨Ub, T, -, hUb, hlW, hT, -, tb⟩ := hb.twin
  obtain ⟨ua⟩ := ca
  obtain ⟨ub⟩ := cb
  have hpm := ha.weak.le
  have hpo := hb.weak.le
  rw [ta.merge tb]
  have c1 := (isClamped_is (p := p) hUa).trans ha.weak.checks.1
  have c2 := (isClamped_is (p := p) hUb).trans hb.weak.checks.1
  have c3 := (isNormed_is (p := p) hUa).trans ha.weak.checks.2
  have c4 := (isNormed_is (p := p) hUb).trans hb.weak.checks.2
  have hsame := merge_same solver ⟨canon p Ua S, ⟨ua⟩⟩ ⟨canon p Ub T, ⟨ub⟩⟩ rfl c1 c2 c3 c4
  simp only [Bool.and_self, Bool.true_eq_false, if_false] at hsame
  split
  · rename_i h
    rw [hsame]
    exact if_pos h
  rename_i hcon
  have hcon' : ua.length + ub.length < p := not_le.mp hcon
  split
  · rename_i hmo
    obtain ⟨h3, h4⟩ := ha.weak.mergedU h2 hm2 hUa hUb hb.weak
    rw [if_neg (show ¬ (canon p Ua S).degree ≤ (⟨ua⟩ : Constraints (Ieee F)).count +
        (⟨ub⟩ : Constraints (Ieee F)).count from hcon)] at hsame
    exact ⟨_, hsame.trans (mergeBody_ok hlU hS hpm hlW hT hpo (by omega) hmo.1 hmo.2 solver),
      sound_canon h3 h4 (by simp [mergedPts]; omega)⟩
  · rename_i hmo
    have := C29_outcome_partial (mkCurve_ok (n := m) hS hpm (by omega)) (mkCurve_ok (n := o) hT hpo (by omega)) hlU hS hpm
      hlW hT hpo c1 c2 c3 c4 hcon' solver
    rwa [if_neg hmo] at this

theorem Sound.merge {p q m o : ℕ} {V W : List K} {a b c : Curve (Ieee F) d} (h2 : F.rnd 2 = 2) (hm2 : 2 ≤ F.max)
    (ha : Sound a p m V) (hb : Sound b q o W) {ca cb : Constraints (Ieee F)} {solver : Solver (Ieee F) d}
    (e : mergeWithConstraints solver ⟨a, ca⟩ ⟨b, cb⟩ = .ok (.ok c)) :
    q = p ∧ Sound c p (m + o + 1 - p) (mergeR F p m V W) := by
  obtain rfl : p = q := by
    by_contra hpq
    have h1 : a.degree ≠ b.degree := by
      rw [show a.degree = p from ha.shaped.deg, show b.degree = q from hb.shaped.deg]; exact hpq
    rw [mergeWithConstraints] at e
    dsimp only at e
    rw [if_pos h1] at e
    have e := Except.ok.inj e
    cases e
  refine ⟨rfl, ?_⟩
  have := ha.merge_outcome h2 hm2 hb ca cb solver
  split at this
  · rw [e] at this
    simp at this
  split at this
  · obtain ⟨c', e', h⟩ := this
    rw [e] at e'
    have e' := Except.ok.inj e'
    injection e' with e'
    exact e' ▸ h
  · obtain ⟨err, this⟩ := this
    rw [e] at this
    cases this

/-! ### Sessions -/

/-- The parameter `u` is safe for insertion into `c`: it lies outside of the open interval from 0 to 1 (so that
there will be an error), or it is a finite number above no repeated knot of `c`. -/
def Safe (c : Curve (Ieee F) d) (u : Ieee F) : Prop :=
  (Cmp.le u 0 || Cmp.le 1 u) = true ∨
    ∃ x, Is u x ∧ ∀ U V, c.knots.vector = .ok U → List.Forall₂ Is U V → CareBelow c.degree V x

/-- `Steady c`: the caller holds `c` after a session that began with curves whose knots are clamped, and in
which insertions and splits were safe -/
inductive Steady : Curve (Ieee F) d → Prop
  | new {c p n U V P} : Built c p U P → List.Forall₂ Is U V → WeaklyClamped p n V → P.length = n + 1 → Steady c
  | insert {c c' r} (u : Ieee F) : Steady c → Safe c u → c.insert u = .ok (c', r) → Steady c'
  | insertTimes {c c' r} (u : Ieee F) (t : ℕ) : Steady c → Safe c u → c.insertTimes u t = .ok (c', r) → Steady c'
  | reverse {c c'} : Steady c → c.reverse = .ok c' → Steady c'
  | splitLeft {c l r} (u : Ieee F) : Steady c → Safe c u → BSpline.split c u = .ok (.ok (l, r)) → Steady l
  | splitRight {c l r} (u : Ieee F) : Steady c → Safe c u → BSpline.split c u = .ok (.ok (l, r)) → Steady r
  | merged {a b c} (solver : Solver (Ieee F) d) (ca cb : Constraints (Ieee F)) : Steady a → Steady b →
      mergeWithConstraints solver ⟨a, ca⟩ ⟨b, cb⟩ = .ok (.ok c) → Steady c
  | append {a b c} (solver : Solver (Ieee F) d) : Steady a → Steady b → a.append solver b = .ok c → Steady c
  | prepend {a b c} (solver : Solver (Ieee F) d) : Steady a → Steady b → a.prepend solver b = .ok c → Steady c
  | appendConstrained {a b c} (solver : Solver (Ieee F) d) (ca cb : Constraints (Ieee F)) : Steady a → Steady b →
      a.appendConstrained solver ca b cb = .ok c → Steady c
  | prependConstrained {a b c} (solver : Solver (Ieee F) d) (ca cb : Constraints (Ieee F)) : Steady a → Steady b →
      a.prependConstrained solver ca b cb = .ok c → Steady c

theorem Sound.degree {p n : ℕ} {V : List K} {c : Curve (Ieee F) d} (h : Sound c p n V) : c.degree = p := h.shaped.deg

theorem Sound.insert_times {p n : ℕ} {V : List K} {c c' : Curve (Ieee F) d} (h : Sound c p n V) {u : Ieee F}
    (hs : Safe c u) {t : ℕ} {r} (e : c.insertTimes u t = .ok (c', r)) : ∃ n' V', Sound c' p n' V' := by
  rcases hs with hs | ⟨x, hu, hs⟩
  · exact ⟨n, V, insertTimes_outside hs e ▸ h⟩
  · obtain ⟨U, hk, hU⟩ := h.knots
    have := hs U V (by rw [hk, canonKnots_vector]) hU
    rw [h.degree] at this
    obtain ⟨n', V', h1, -⟩ := h.insertTimes hu t this e
    exact ⟨n', V', h1⟩

theorem Sound.split_safe {p n : ℕ} {V : List K} {c a b : Curve (Ieee F) d} (h : Sound c p n V) {u : Ieee F}
    (hs : Safe c u) (e : BSpline.split c u = .ok (.ok (a, b))) :
    (∃ n' W, Sound a p n' W) ∧ ∃ n' W, Sound b p n' W := by
  rcases hs with hs | ⟨x, hu, hs⟩
  · rw [BSpline.split, splitAndNormalize, if_pos hs] at e
    have e := Except.ok.inj e
    cases e
  · obtain ⟨U, hk, hU⟩ := h.knots
    have := hs U V (by rw [hk, canonKnots_vector]) hU
    rw [h.degree] at this
    exact h.split hu this e

theorem Steady.sound (h2 : F.rnd 2 = 2) (hm2 : 2 ≤ F.max) {c : Curve (Ieee F) d} (h : Steady c) :
    ∃ p n V, Sound c p n V := by
  have hM : ∀ {solver : Solver (Ieee F) d} {a b c : Curve (Ieee F) d} {ca cb : Constraints (Ieee F)},
      (∃ p n V, Sound a p n V) → (∃ p n V, Sound b p n V) →
      mergeWithConstraints solver ⟨a, ca⟩ ⟨b, cb⟩ = .ok (.ok c) → ∃ p n V, Sound c p n V := by
    rintro solver a b c ca cb ⟨p, n, V, ha⟩ ⟨q, o, W, hb⟩ e
    exact ⟨_, _, _, (ha.merge h2 hm2 hb e).2⟩
  induction h with
  | new hc hU hV hP =>
    obtain rfl := hc.eq_canon' (hU.length_eq.trans hV.length) hP hV.le
    exact ⟨_, _, _, sound_canon hU hV hP⟩
  | insert u _ hs e ih =>
    obtain ⟨p, n, V, h⟩ := ih
    exact ⟨p, h.insert_times hs (t := 1) e⟩
  | insertTimes u t _ hs e ih =>
    obtain ⟨p, n, V, h⟩ := ih
    exact ⟨p, h.insert_times hs e⟩
  | reverse _ e ih =>
    obtain ⟨p, n, V, h⟩ := ih
    exact ⟨p, n, _, h.reverse e⟩
  | splitLeft u _ hs e ih =>
    obtain ⟨p, n, V, h⟩ := ih
    exact ⟨p, (h.split_safe hs e).1⟩
  | splitRight u _ hs e ih =>
    obtain ⟨p, n, V, h⟩ := ih
    exact ⟨p, (h.split_safe hs e).2⟩
  | merged solver ca cb _ _ e ha hb => exact hM ha hb e
  | append solver _ _ e ha hb =>
    obtain ⟨r, h1, h2⟩ := bind_ok_inv e
    rw [unwrap_inv h2] at h1
    exact hM ha hb h1
  | prepend solver _ _ e ha hb =>
    obtain ⟨r, h1, h2⟩ := bind_ok_inv e
    rw [unwrap_inv h2] at h1
    exact hM hb ha h1
  | appendConstrained solver ca cb _ _ e ha hb =>
    obtain ⟨r, h1, h2⟩ := bind_ok_inv e
    rw [unwrap_inv h2] at h1
    exact hM ha hb h1
  | prependConstrained solver ca cb _ _ e ha hb =>
    obtain ⟨r, h1, h2⟩ := bind_ok_inv e
    rw [unwrap_inv h2] at h1
    exact hM hb ha h1

/-- **C127** In double precision every curve which a caller holds after a session with safe insertions and
splits has finite and sorted knots in `[0, 1]`, of which the first `p + 1` are exactly 0 and the last `p + 1`
exactly 1, and the number of knots and control points fits. -/
theorem C127_session {c : Curve (Ieee binary64) d} (h : Steady c) :
    ∃ n U V P, c.knots.vector = .ok U ∧ List.Forall₂ Is U V ∧ WeaklyClamped c.degree n V ∧
      c.points.matrix = .ok P ∧ P.length = n + 1 ∧ c.segments = .ok n := by
  obtain ⟨p, n, V, h⟩ := h.sound two64.1 two64.2
  obtain ⟨U, P, hk, hU, -, hP, hm, -⟩ := h.twin
  exact ⟨n, U, V, P, by rw [hk, canonKnots_vector], hU, h.degree ▸ h.weak, hm, hP, h.shaped.pts_segments⟩

/-- **C127** so evaluation, of the curve or a derivative, never panics and is an error exactly outside of `[0, 1]` -/
theorem C127_evaluate {c : Curve (Ieee binary64) d} (h : Steady c) (u : Ieee binary64) (k : ℕ) :
    ((∃ x, Is u x ∧ 0 ≤ x ∧ x ≤ 1) → ∃ v, c.evaluateDerivative u k = .ok (.ok v)) ∧
    ((¬ ∃ x, Is u x ∧ 0 ≤ x ∧ x ≤ 1) → c.evaluateDerivative u k = .ok (.error (.parameterOutOfBounds u 0 1))) := by
  obtain ⟨p, n, V, h⟩ := h.sound two64.1 two64.2
  obtain ⟨h1, h2⟩ := h.shaped.evaluate_total u k
  constructor
  · rintro ⟨x, hu, h3, h4⟩
    exact h2 (by rw [is_zero.cmp_le hu, hu.cmp_le is_one]; simp [h3, h4])
  · intro h3
    apply h1
    rw [← Bool.not_eq_true]
    intro h4
    apply h3
    obtain ⟨s0, z0, e0⟩ := is_zero (F := binary64)
    obtain ⟨s1, z1, e1⟩ := is_one (F := binary64)
    cases u with
    | nan => rw [e0] at h4; cases h4
    | inf s => rw [e0, e1] at h4; cases s <;> cases h4
    | fin s v =>
      have hu : Is (Ieee.fin s v) v.1 := ⟨s, v.2, rfl⟩
      rw [is_zero.cmp_le hu, hu.cmp_le is_one] at h4
      exact ⟨v.1, hu, by simpa using h4⟩

/-- **C127** and merging two such curves of equal degree `p` never fails the checks of the knots: if there are
fewer than `p` constraints, it returns a curve exactly if the numbers of segments satisfy `m ≤ o < m + p`, and
panics otherwise. -/
theorem C127_merge {a b : Curve (Ieee binary64) d} (ha : Steady a) (hb : Steady b) {m o : ℕ} (hm : a.segments = .ok m)
    (ho : b.segments = .ok o) (hd : a.degree = b.degree) {ca cb : Constraints (Ieee binary64)}
    (hcon : ca.count + cb.count < a.degree) (solver : Solver (Ieee binary64) d) :
    if m ≤ o ∧ o < m + a.degree then
      ∃ c, mergeWithConstraints solver ⟨a, ca⟩ ⟨b, cb⟩ = .ok (.ok c) ∧ Steady c ∧ c.segments = .ok (m + o + 1 - a.degree)
    else ∃ e, mergeWithConstraints solver ⟨a, ca⟩ ⟨b, cb⟩ = .error e := by
  obtain ⟨p, m', V, h⟩ := ha.sound two64.1 two64.2
  obtain ⟨q, o', W, h'⟩ := hb.sound two64.1 two64.2
  have e1 := h.degree
  have e2 := h'.degree
  have e3 : Except.ok m' = Except.ok m := h.shaped.pts_segments.symm.trans hm
  have e4 : Except.ok o' = Except.ok o := h'.shaped.pts_segments.symm.trans ho
  obtain rfl := Except.ok.inj e3
  obtain rfl := Except.ok.inj e4
  obtain rfl : q = p := by omega
  rw [e1] at hcon ⊢
  have := h.merge_outcome two64.1 two64.2 h' ca cb solver
  rw [if_neg (by omega)] at this
  split at this
  · rename_i hmo
    rw [if_pos hmo]
    obtain ⟨c, e, h3⟩ := this
    exact ⟨c, e, .merged solver ca cb ha hb e, h3.shaped.pts_segments⟩
  · rename_i hmo
    rw [if_neg hmo]
    exact this

/-- **C127** The condition of safety is needed even for callers who never insert a knot twice: two curves with
simple knots are merged, rounding makes two knots coincide at `1 / 2`, and one insertion at `3 / 4` then leaves
knots that are not sorted. -/
theorem C127_unsafe (solver : Solver (Ieee binary64) d) {S T : List (Pt (Ieee binary64) d)} (hS : S.length = 4)
    (hT : T.length = 4) :
    ∃ (a b c c' : Curve (Ieee binary64) d) (Ua Ub W : List (Ieee binary64)),
      Built a 1 Ua S ∧ Built b 1 Ub T ∧ ClampedKnots 0 1 1 3 (Ua.map exactOf) ∧ ClampedKnots 0 1 1 3 (Ub.map exactOf) ∧
      (((Ua.map exactOf).drop 1).take 4).Nodup ∧ (((Ub.map exactOf).drop 1).take 4).Nodup ∧
      Steady c ∧ merge solver a b = .ok (.ok c) ∧ c.insert (eq64 (3 / 4)) = .ok (c', .ok ()) ∧
      c'.knots.vector = .ok W ∧ W.map exactOf = [0, 0, 0, 1 / 4, 1 / 2, 3 / 4, 1 / 2, 1, 1, 1] := by
  let Ua : List (Ieee binary64) := [0, 0, eq64 ((1 / 2) ^ 1074), eq64 (1 / 2), 1, 1]
  let Ub : List (Ieee binary64) := [0, 0, eq64 ((1 / 2) ^ 54), eq64 (1 - (1 / 2) ^ 53), 1, 1]
  have hV : ClampedKnots 0 1 1 3 (Ua.map exactOf) := by decide +kernel
  have hW : ClampedKnots 0 1 1 3 (Ub.map exactOf) := by decide +kernel
  have ha : Built (canon 1 Ua S) 1 Ua S := mkCurve_ok (n := 3) hS (by decide) (by decide)
  have hb : Built (canon 1 Ub T) 1 Ub T := mkCurve_ok (n := 3) hT (by decide) (by decide)
  have iUa : List.Forall₂ Is Ua (Ua.map exactOf) := forall₂_exactOf (by decide +kernel)
  have iUb : List.Forall₂ Is Ub (Ub.map exactOf) := forall₂_exactOf (by decide +kernel)
  obtain ⟨Q, h1, h2, -⟩ := merge_core (ua := []) (ub := []) iUa iUb hV hW hS hT ha hb le_rfl (by decide) (by decide) solver
  have hs : Steady (canon 1 (mergedU 1 3 3 Ua Ub) Q) := .merged solver ⟨[]⟩ ⟨[]⟩ (.new ha iUa hV.weaklyClamped hS)
    (.new hb iUb hW.weaklyClamped hT) h1
  have hsh : Shaped (canon 1 (mergedU 1 3 3 Ua Ub) Q) 1 6 := shaped_canon (by decide +kernel) h2 (by decide)
  have hg : (canon 1 (mergedU 1 3 3 Ua Ub) Q).knots.Uk.getD 0 [] = mergedU 1 3 3 Ua Ub := by
    have := hsh.vector
    rw [canon_knots, canonKnots_vector] at this
    exact (Except.ok.inj this).symm
  have hi := hsh.insert_eq (eq64 (3 / 4))
  rw [hg, if_neg (by decide +kernel), if_neg (by decide +kernel), ← Curve.insert_eq] at hi
  exact ⟨_, _, _, _, Ua, Ub, _, ha, hb, hV, hW, by decide +kernel, by decide +kernel, hs, h1, hi, canonKnots_vector _,
    by decide +kernel⟩

/-! ### Knots which collapsed into the right end -/

theorem Nf_end {p n : ℕ} {V : List K} (h : WeaklyClamped p n V) (hp : 1 ≤ p) (hn : fn V n = 1) : ∀ q i,
    Nf (fn V) 0 n (1 : K) (q + 1) i = 0 := by
  have hl := h.length
  have hV0 : V ≠ [] := by rintro rfl; simp at hl
  have hu : ∀ i, fn V i ≤ 1 := fun i => (h.unit _ (fn_mem hV0 i)).2
  have h0 : ∀ i, i ≠ n → Nf (fn V) 0 n (1 : K) 0 i = 0 := by
    intro i hi
    rw [Nf, if_neg]
    have h1 : Cmp.lt (1 : K) (fn V (i + 1)) = false := by
      change decide _ = false
      simpa using hu (i + 1)
    rw [h1]
    simp [hi]
  have h1 : fn V (n + 1) = 1 := h.one (by omega) (by omega)
  intro q
  induction q with
  | zero =>
    intro i
    rw [Nf]
    have e1 : (if Cmp.eq (fn V (i + (0 + 1))) (fn V i) = true then (0 : K) else
        (1 - fn V i) / (fn V (i + 0 + 1) - fn V i) * Nf (fn V) 0 n 1 0 i) = 0 := by
      by_cases hi : i = n
      · rw [if_pos]
        subst hi
        change decide _ = true
        simp [hn, h1]
      · rw [h0 i hi]; simp
    have e2 : (if Cmp.eq (fn V (i + 1 + (0 + 1))) (fn V (i + 1)) = true then (0 : K) else
        (fn V (i + 1 + (0 + 1)) - 1) / (fn V (i + 1 + 0 + 1) - fn V (i + 1)) * Nf (fn V) 0 n 1 0 (i + 1)) = 0 := by
      by_cases hi : i + 1 = n
      · rw [if_pos]
        subst hi
        change decide _ = true
        simp only [zero_add]
        rw [hn, h1]
        simp
      · rw [h0 _ hi]; simp
    rw [e1, e2, add_zero]
  | succ q ih =>
    intro i
    rw [Nf, ih, ih]
    simp

/-- **C128** If the last `p + 2` knots are 1, as they are after rounding made a knot collapse into the end of the
domain, then the curve evaluates to the origin at 1, whatever its (finite) control points are. -/
theorem C128_end {c : Curve (Ieee F) d} {p n : ℕ} {U : List (Ieee F)} {V : List K} {P : List (Pt (Ieee F) d)}
    (hroom : Room F p) (hc : Built c p U P) (hU : List.Forall₂ Is U V) (hV : WeaklyClamped p n V) (hP : P.length = n + 1)
    (hp : 1 ≤ p) (hn : V[n]? = some 1) {h : K} (hh : 0 < h) (hgap : ∀ s ∈ V, ∀ t ∈ V, s < t → h ≤ t - s)
    (hhm : 2 / h ≤ F.max) :
    ∃ v, c.evaluate 1 = .ok (.ok v) ∧ ∀ r, (∀ q ∈ P, ∃ y, Is (q r) y) → Is (v r) 0 := by
  have hl := hV.length
  have hle := hV.le
  have hlU : U.length = n + p + 2 := hU.length_eq.trans hl
  have hV0 : V ≠ [] := by rintro rfl; simp at hl
  have hP0 : P ≠ [] := by rintro rfl; simp at hP
  have hn' : fn V n = 1 := by
    rw [List.getElem?_eq_getElem (by omega)] at hn
    rw [fn_lt (by omega)]
    exact Option.some.inj hn
  obtain rfl := hc.ieee_eq hlU hle hP
  have g0 : Cmp.le (0 : Ieee F) 1 = true := by rw [is_zero.cmp_le is_one]; simp
  have g1 : Cmp.le (1 : Ieee F) 1 = true := by rw [is_one.cmp_le is_one]; simp
  refine ⟨_, evaluateDerivative_ok hlU hP hle (Nat.zero_le p) g0 g1, fun r hf => ?_⟩
  rw [evalFold, foldl_coord]
  refine foldl_zero_ieee _ _ _ _ is_zero fun i _ => ?_
  have hmono : Monotone (fn V) := by
    intro i j hij
    rcases Nat.lt_or_ge j (n + p + 2) with hj | hj
    · exact hV.mono hij hj
    · have : fn V j = fn V (n + p + 1) := by
        rw [fn_ge (by omega), fn_lt (by omega)]
        rw [List.getLastD_eq_getLast?, List.getLast?_eq_getElem?, List.getElem?_eq_getElem (by omega)]
        simp [hl]
      have h1 : fn V (n + p + 1) = 1 := hV.one (by omega) (by omega)
      rw [this, h1]
      exact (hV.unit _ (fn_mem hV0 i)).2
  obtain ⟨y, iy, -, -, hz, -⟩ := Nf_ieee (U := fn U) (V := fn V) (fn_is hU) hmono (fun i => hV.unit _ (fn_mem hV0 i))
    (is_one (F := F)) zero_le_one le_rfl hh (fun i j hij => hgap _ (fn_mem hV0 i) _ (fn_mem hV0 j) hij) (by
      refine le_trans ?_ hhm
      have := hroom.pow_le (k := 1) (by omega)
      rw [pow_one] at this
      exact div_le_div_of_nonneg_right (by linarith) hh.le) hroom (Nat.zero_le n)
    (fun q hq i => by
      cases q with
      | zero => rw [Nf]; split <;> simp
      | succ q => rw [Nf_end hV hp hn' q i]; exact zero_le_one) p le_rfl i
  obtain ⟨q, rfl⟩ : ∃ q, p = q + 1 := ⟨p - 1, by omega⟩
  rw [hz (Nf_end hV hp hn' q i)] at iy
  obtain ⟨z, iz⟩ := hf _ (fn_mem hP0 i)
  have := iy.mul iz (by rw [zero_mul, abs_zero]; exact zero_le_one.trans F.one_le_max)
  rw [zero_mul, F.rnd_zero] at this
  exact this

/-- **C128** This happens to merged curves: the right curve has the knot `1 - 2^-53`, which halving and shifting turn
into 1. Merging reports success, the last control point is the last one of the right curve, and evaluation at 1 gives
the origin, provided no control point overflowed. -/
theorem C128_origin (solver : Solver (Ieee binary64) d) {S T : List (Pt (Ieee binary64) d)} (hS : S.length = 4)
    (hT : T.length = 4) :
    ∃ (a b c : Curve (Ieee binary64) d) (Ua Ub U' : List (Ieee binary64)) (Q : List (Pt (Ieee binary64) d))
      (v : Pt (Ieee binary64) d),
      Built a 1 Ua S ∧ Built b 1 Ub T ∧ ClampedKnots 0 1 1 3 (Ua.map exactOf) ∧ ClampedKnots 0 1 1 3 (Ub.map exactOf) ∧
      merge solver a b = .ok (.ok c) ∧ Built c 1 U' Q ∧ Q[6]? = T[3]? ∧ c.evaluate 1 = .ok (.ok v) ∧
      ∀ r, (∀ q ∈ Q, ∃ y, Is (q r) y) → Is (v r) 0 := by
  let Ua : List (Ieee binary64) := [0, 0, eq64 (1 / 4), eq64 (1 / 2), 1, 1]
  let Ub : List (Ieee binary64) := [0, 0, eq64 (1 / 2), eq64 (1 - (1 / 2) ^ 53), 1, 1]
  have hV : ClampedKnots 0 1 1 3 (Ua.map exactOf) := by decide +kernel
  have hW : ClampedKnots 0 1 1 3 (Ub.map exactOf) := by decide +kernel
  have ha : Built (canon 1 Ua S) 1 Ua S := mkCurve_ok (n := 3) hS (by decide) (by decide)
  have hb : Built (canon 1 Ub T) 1 Ub T := mkCurve_ok (n := 3) hT (by decide) (by decide)
  obtain ⟨Q, h1, h2, -, h4⟩ := merge_core (ua := []) (ub := []) (forall₂_exactOf (by decide +kernel))
    (forall₂_exactOf (by decide +kernel)) hV hW hS hT ha hb le_rfl (by decide) (by decide) solver
  have hc : Built (canon 1 (mergedU 1 3 3 Ua Ub) Q) 1 (mergedU 1 3 3 Ua Ub) Q :=
    mkCurve_ok (n := 6) h2 (by decide) (by decide +kernel)
  have hwk : WeaklyClamped 1 6 ((mergedU 1 3 3 Ua Ub).map exactOf) :=
    ⟨by decide +kernel, by decide +kernel, by decide +kernel, by decide +kernel, by decide⟩
  obtain ⟨v, hv, hz⟩ := C128_end (h := 1 / 8) (room_binary64 (by norm_num)) hc (forall₂_exactOf (by decide +kernel)) hwk h2 le_rfl
    (by decide +kernel) (by norm_num) (by decide +kernel) (by decide +kernel)
  refine ⟨_, _, _, Ua, Ub, _, Q, v, ha, hb, hV, hW, h1, hc, ?_, hv, hz⟩
  have e := h4 6 (by decide) (by decide) (by decide)
  rw [fn_lt (by omega), fn_lt (by omega)] at e
  rw [List.getElem?_eq_getElem (by omega), List.getElem?_eq_getElem (by omega), e]

/-! ### A concrete case -/

/-- knots with a double zero which rounding has made: weakly clamped, not clamped -/
def wkU : List (Ieee binary64) := [0, 0, 0, eq64 (1 / 4), eq64 (1 / 2), 1, 1]

example : WeaklyClamped 1 4 (wkU.map exactOf) :=
  ⟨by decide +kernel, by decide +kernel, by decide +kernel, by decide +kernel, by decide +kernel⟩
example : ¬ ClampedKnots 0 1 1 4 (wkU.map exactOf) := by decide +kernel
/-- insertion at `0.3` is safe -/
example : ∀ i < 7, 1 < i → i + 1 < (wkU.map exactOf).length → fn (wkU.map exactOf) i < exactOf (eq64 (3 / 10)) →
    fn (wkU.map exactOf) (i + 1) ≠ fn (wkU.map exactOf) i := by decide +kernel

end BSpline
