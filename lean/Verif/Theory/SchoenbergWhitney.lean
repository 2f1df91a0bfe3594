import Verif.Refine.Insert
import Mathlib.LinearAlgebra.Pi
import Mathlib.Data.Finset.Sort

/-!
# The Schoenberg–Whitney theorem

A spline that vanishes at parameters `τ i`, one inside the support of each basis function, is zero.
The proof counts sign alternations of the coefficients: inserting knots never creates new ones
(variation diminution), and after separating the zeros by knots of full multiplicity every zero
needs a sign change of its own.  It works over every ordered field.
-/

set_option linter.unusedSectionVars false

namespace BSpline

open Finset

variable {K : Type} [Field K] [LinearOrder K] [IsStrictOrderedRing K]

/-! ### Positivity of the basis functions -/

/-- the `i`-th basis function of degree `p` is positive at `x` (off knots of full multiplicity) -/
def Act (U : ℕ → K) (p i : ℕ) (x : K) : Prop := U i < x ∧ x < U (i + p + 1)

/-- the first basis function of a span is positive up to the end of the span -/
theorem Bs_first_pos {U : ℕ → K} (hm : Monotone U) {u : K} {j : ℕ} (hlo : U j ≤ u)
    (hhi : u < U (j + 1)) (q : ℕ) : ∀ i, i + q = j → 0 < Bs U u (delta j) q i := by
  induction q with
  | zero => intro i hi; simp only [Bs, delta]; rw [if_pos (by omega)]; exact one_pos
  | succ q ih =>
    intro i hi
    simp only [Bs]
    rw [Bs_support U u j q i (by omega), mul_zero, zero_add]
    have h1 : U (i + 1) ≤ U j := hm (by omega)
    rw [show i + q + 2 = j + 1 by omega]
    exact mul_pos (div_pos (by linarith) (by linarith)) (ih (i + 1) (by omega))

theorem Bs_pos {U : ℕ → K} (hm : Monotone U) {u : K} {j : ℕ} (hlo : U j ≤ u)
    (hhi : u < U (j + 1)) (q : ℕ) : ∀ i, i ≤ j → j ≤ i + q → U i < u → 0 < Bs U u (delta j) q i := by
  induction q with
  | zero => intro i h1 h2 _; simp only [Bs, delta]; rw [if_pos (by omega)]; exact one_pos
  | succ q ih =>
    intro i h1 h2 h3
    rcases Nat.lt_or_ge (i + q) j with h4 | h4
    · exact Bs_first_pos hm hlo hhi _ _ (by omega)
    · simp only [Bs]
      apply add_pos_of_pos_of_nonneg
      · apply mul_pos (div_pos (by linarith) _) (ih i h1 h4 h3)
        rcases Nat.lt_or_ge (i + q) j with h5 | h5
        · omega
        · have : U (j + 1) ≤ U (i + q + 1) := hm (by omega)
          linarith
      · by_cases hs : i + 1 + q < j ∨ j < i + 1
        · rw [Bs_support _ _ _ _ _ hs, mul_zero]
        · apply mul_nonneg _ (Bs_nonneg hm hlo hhi.le q (i + 1))
          have e1 : U (j + 1) ≤ U (i + q + 2) := hm (by omega)
          have e2 : U (i + 1) ≤ U j := hm (by omega)
          exact div_nonneg (by linarith) (by linarith)

theorem Bs_zero_at_knot {U : ℕ → K} (hm : Monotone U) {u : K} {j : ℕ} (hlo : U j ≤ u) (q : ℕ) :
    ∀ i, u ≤ U i → j < i + q → Bs U u (delta j) q i = 0 := by
  induction q with
  | zero => intro i h1 h2; exact Bs_support _ _ _ _ _ (by omega)
  | succ q ih =>
    intro i h1 h2
    rcases Nat.lt_or_ge j i with h3 | h3
    · exact Bs_support _ _ _ _ _ (by omega)
    · have e : U i = u := le_antisymm ((hm h3).trans hlo) h1
      simp only [Bs]
      rw [e, sub_self, zero_div, zero_mul, zero_add]
      rcases Nat.lt_or_ge j (i + 1) with h4 | h4
      · rw [Bs_support _ _ _ _ _ (Or.inr h4), mul_zero]
      · rw [ih (i + 1) (h1.trans (hm (by omega))) (by omega), mul_zero]

/-- `x` is not a knot of multiplicity above `p` -/
def NoFull (U : ℕ → K) (p : ℕ) (x : K) : Prop := ∀ q, ¬ (U q = x ∧ U (q + p) = x)

/-- `y` is a knot of multiplicity above `p` -/
def Full (U : ℕ → K) (p : ℕ) (y : K) : Prop := ∃ q, U q = y ∧ U (q + p) = y

/-- a zero of the spline takes coefficients of both signs, or none at all -/
theorem both_signs {U : ℕ → K} {p n : ℕ} {lo hi x : K} {c : ℕ → K} {j : ℕ} (hc : Clamp U p n lo hi)
    (hx : x < hi) (hs : IsSpan U n x j) (hf : NoFull U p x)
    (h0 : bl U (List.replicate p x) c (j - p) = 0) {i : ℕ} (hi : Act U p i x) (hi0 : c i ≠ 0) :
    ∃ i', i' ≤ n ∧ Act U p i' x ∧ 0 < c i' := by
  have hpj := hs.p_le hc
  have hlt : x < U (j + 1) := by
    rcases hs.hi with h1 | ⟨rfl, h1⟩
    · exact h1
    · rw [h1, hc.right _ le_rfl] at hx; exact absurd hx (lt_irrefl _)
  have hact : ∀ m, Act U p m x → m ≤ j ∧ j ≤ m + p := by
    intro m hm
    constructor
    · by_contra h
      exact absurd (lt_of_lt_of_le hlt ((hc.mono (by omega)).trans hm.1.le)) (lt_irrefl _)
    · by_contra h
      exact absurd (lt_of_lt_of_le hm.2 ((hc.mono (by omega)).trans hs.lo)) (lt_irrefl _)
  by_contra hno
  push Not at hno
  rw [← sum_span_eq (V := K) (n := n) (lo := 0) hpj hs.le_n (Nat.zero_le _)] at h0
  have hneg : ∑ m ∈ Ico 0 (n + 1), Bs U x (delta j) p m • c m < 0 := by
    have hle := hs.le_n
    have hb := hact i hi
    apply sum_neg'
    · intro m hm
      rw [smul_eq_mul]
      by_cases h1 : j < m ∨ m + p < j
      · rw [Bs_support _ _ _ _ _ (by omega), zero_mul]
      · have hn := Bs_nonneg hc.mono hs.lo hlt.le p m
        by_cases h2 : U m < x
        · have h3 : Act U p m x := ⟨h2, lt_of_lt_of_le hlt (hc.mono (by omega))⟩
          exact mul_nonpos_of_nonneg_of_nonpos hn (hno m (by omega) h3)
        · rw [not_lt] at h2
          rw [Bs_zero_at_knot hc.mono hs.lo p m h2, zero_mul]
          by_contra h4
          apply hf m
          have e : U m = x := le_antisymm ((hc.mono (by omega)).trans hs.lo) h2
          exact ⟨e, le_antisymm ((hc.mono (by omega)).trans hs.lo) (e ▸ hc.mono (by omega))⟩
    · refine ⟨i, by rw [mem_Ico]; omega, ?_⟩
      rw [smul_eq_mul]
      exact mul_neg_of_pos_of_neg (Bs_pos hc.mono hs.lo hlt p i hb.1 hb.2 hi.1)
        (lt_of_le_of_ne (hno i (by omega) hi) hi0)
  rw [h0] at hneg
  exact lt_irrefl _ hneg

/-! ### Sign alternations -/

/-- the first `n + 1` coefficients have `r + 1` terms of alternating signs -/
def Alt (c : ℕ → K) (n r : ℕ) : Prop :=
  ∃ (ε : K) (i : ℕ → ℕ), (∀ s, s ≤ r → i s ≤ n) ∧ (∀ s, s < r → i s < i (s + 1)) ∧
    ∀ s, s ≤ r → 0 < (-1) ^ s * ε * c (i s)

/-- coefficients after inserting the knot `u` in the span `l` -/
def insS (U : ℕ → K) (p : ℕ) (c : ℕ → K) (u : K) (l : ℕ) (i : ℕ) : K :=
  if i ≤ l - p then c i
  else if i ≤ l then
    (1 - (u - U i) / (U (i + p) - U i)) * c (i - 1) + (u - U i) / (U (i + p) - U i) * c i
  else c (i - 1)

/-- knots after inserting `u` in the span `l` -/
def insF (U : ℕ → K) (u : K) (l : ℕ) (i : ℕ) : K :=
  if i ≤ l then U i else if i = l + 1 then u else U (i - 1)

theorem insF_seq (U : ℕ → K) (u : K) (l : ℕ) : InsSeq U (insF U u l) u l where
  low := fun i hi => by rw [insF, if_pos hi]
  mid := by rw [insF, if_neg (by omega), if_pos rfl]
  high := fun i hi => by rw [insF, if_neg (by omega), if_neg (by omega), Nat.add_sub_cancel]

theorem InsSeq.clamp {U U' : ℕ → K} {u : K} {l p n : ℕ} {lo hi : K} (h : InsSeq U U' u l)
    (hc : Clamp U p n lo hi) (h0 : lo < u) (h1 : u < hi) (hpl : p ≤ l) (hln : l ≤ n)
    (hl : U l ≤ u) (hu : u ≤ U (l + 1)) : Clamp U' p (n + 1) lo hi where
  mono := by
    apply monotone_nat_of_le_succ
    intro i
    rcases lt_trichotomy i l with h2 | rfl | h2
    · rw [h.low i h2.le, h.low (i + 1) h2]; exact hc.mono (by omega)
    · rw [h.low i le_rfl, h.mid]; exact hl
    · obtain ⟨m, rfl⟩ : ∃ m, i = m + 1 := ⟨i - 1, by omega⟩
      rw [h.high (m + 1) (by omega)]
      rcases Nat.lt_or_ge l m with h3 | h3
      · rw [h.high m h3]; exact hc.mono (by omega)
      · rw [show m = l by omega, h.mid]; exact hu
  left := fun i hi => by rw [h.low i (by omega)]; exact hc.left i hi
  right := fun i hi => by
    obtain ⟨m, rfl⟩ : ∃ m, i = m + 1 := ⟨i - 1, by omega⟩
    rw [h.high m (by omega)]; exact hc.right m (by omega)
  inner := fun i h2 h3 => by
    rcases lt_trichotomy i (l + 1) with h4 | rfl | h4
    · rw [h.low i (by omega)]; exact hc.inner i h2 (by omega)
    · rw [h.mid]; exact ⟨h0, h1⟩
    · obtain ⟨m, rfl⟩ : ∃ m, i = m + 1 := ⟨i - 1, by omega⟩
      rw [h.high m (by omega)]; exact hc.inner m (by omega) (by omega)
  lt := hc.lt
  le := by have := hc.le; omega

theorem insS_same {U U' : ℕ → K} {u : K} {l p n : ℕ} {lo hi : K} (hc : Clamp U p n lo hi)
    (hc' : Clamp U' p (n + 1) lo hi) (h : InsSeq U U' u l) (hpl : p ≤ l) (hln : l ≤ n)
    (hlo : U l ≤ u) (hhi : u ≤ U (l + 1)) (c : ℕ → K) :
    Same p lo hi n U c (n + 1) U' (insS U p c u l) := by
  have key := same_insert (d := 1) hc hc' h hpl hln hlo hhi (fun i _ => c i)
  intro v j j' h1 h2 hs hs' ts hts
  have := congrArg (LinearMap.proj (R := K) (φ := fun _ : Fin 1 => K) 0)
    (key v j j' h1 h2 hs hs' ts hts)
  have e1 := congrFun (bl_map (LinearMap.proj (R := K) (φ := fun _ : Fin 1 => K) 0) ts U'
    (insP U p (fun i _ => c i) u l)) (j' - p)
  have e2 := congrFun (bl_map (LinearMap.proj (R := K) (φ := fun _ : Fin 1 => K) 0) ts U
    (fun i (_ : Fin 1) => c i)) (j - p)
  rw [← e1, ← e2] at this
  have e3 : (fun i => (LinearMap.proj (R := K) (φ := fun _ : Fin 1 => K) 0)
      (insP U p (fun i _ => c i) u l i)) = insS U p c u l := by
    funext i
    simp only [LinearMap.proj_apply, insP, insS]
    split
    · rfl
    · split
      · simp only [Pi.add_apply, zero_add]; rfl
      · rfl
  rw [e3] at this
  exact this

/-- inserting a knot creates no new alternation -/
theorem Alt.of_insS {U : ℕ → K} {u : K} {l p n r : ℕ} (hm : Monotone U) (hpl : p ≤ l) (hln : l ≤ n)
    (hlo : U l ≤ u) (hhi : u < U (l + 1)) {c : ℕ → K} (h : Alt (insS U p c u l) (n + 1) r) :
    Alt c n r := by
  obtain ⟨ε, i, hi, hlt, hs⟩ := h
  have key : ∀ s, ∃ i', s ≤ r → i' ≤ n ∧ i' ≤ i s ∧ i s ≤ i' + 1 ∧ 0 < (-1) ^ s * ε * c i' := by
    intro s
    by_cases hsr : s ≤ r
    swap
    · exact ⟨0, fun h => absurd h hsr⟩
    have h1 := hs s hsr
    have h2 := hi s hsr
    rw [insS] at h1
    split at h1
    · exact ⟨i s, fun _ => ⟨by omega, le_rfl, by omega, h1⟩⟩
    · split at h1
      · rename_i h3 h4
        have e1 : U (i s) ≤ u := (hm h4).trans hlo
        have e2 : u < U (i s + p) := lt_of_lt_of_le hhi (hm (by omega))
        have a0 : 0 ≤ (u - U (i s)) / (U (i s + p) - U (i s)) :=
          div_nonneg (by linarith) (by linarith)
        have a1 : (u - U (i s)) / (U (i s + p) - U (i s)) ≤ 1 := by
          rw [div_le_one (by linarith)]; linarith
        generalize (u - U (i s)) / (U (i s + p) - U (i s)) = α at h1 a0 a1
        generalize (-1) ^ s * ε = σ at h1 ⊢
        by_cases h5 : 0 < σ * c (i s)
        · exact ⟨i s, fun _ => ⟨by omega, le_rfl, by omega, h5⟩⟩
        · refine ⟨i s - 1, fun _ => ⟨by omega, by omega, by omega, ?_⟩⟩
          by_contra h6
          have h7 : (1 - α) * (σ * c (i s - 1)) ≤ 0 :=
            mul_nonpos_of_nonneg_of_nonpos (by linarith) (not_lt.mp h6)
          have h8 : α * (σ * c (i s)) ≤ 0 := mul_nonpos_of_nonneg_of_nonpos a0 (not_lt.mp h5)
          nlinarith
      · exact ⟨i s - 1, fun _ => ⟨by omega, by omega, by omega, h1⟩⟩
  choose i' hi' using key
  refine ⟨ε, i', fun s h => (hi' s h).1, ?_, fun s h => (hi' s h).2.2.2⟩
  intro s h
  have h1 := hi' s h.le
  have h2 := hi' (s + 1) h
  have h3 := hlt s h
  rcases Nat.lt_or_ge (i' s) (i' (s + 1)) with h4 | h4
  · exact h4
  · have e : i' s = i' (s + 1) := by omega
    have h5 := h1.2.2.2
    have h6 := h2.2.2.2
    rw [e] at h5
    rw [pow_succ] at h6
    nlinarith

/-- a zero that takes coefficients still does so after an insertion elsewhere -/
theorem act_zero_of_insS {U U' : ℕ → K} {u : K} {l p n : ℕ} (h : InsSeq U U' u l) (hm : Monotone U)
    (hpl : p ≤ l) (hln : l ≤ n) (hlo : U l ≤ u) (hhi : u < U (l + 1)) {c : ℕ → K} {x : K}
    (hux : u ≠ x) (h0 : ∀ i, i ≤ n + 1 → Act U' p i x → insS U p c u l i = 0) (i : ℕ) (hi : i ≤ n)
    (ha : Act U p i x) : c i = 0 := by
  rcases lt_or_gt_of_ne hux with hlt | hgt
  · -- the new knot lies below `x`: descend
    have hhigh : ∀ i, i ≤ n → l ≤ i → Act U p i x → c i = 0 := by
      intro i hi hli ha
      have := h0 (i + 1) (by omega) ⟨by
        rcases Nat.lt_or_ge l i with h1 | h1
        · rw [h.high i h1]; exact ha.1
        · rw [show i = l by omega, h.mid]; exact hlt, by
        rw [show i + 1 + p + 1 = (i + p + 1) + 1 by omega, h.high _ (by omega)]; exact ha.2⟩
      rw [insS, if_neg (by omega), if_neg (by omega)] at this
      exact this
    have hdesc : ∀ t i, i + t = l → l ≤ i + p → i ≤ n → Act U p i x → c i = 0 := by
      intro t
      induction t with
      | zero => intro i h1 _ h2 h3; exact hhigh i h2 (by omega) h3
      | succ t ih =>
        intro i h1 h2 h3 h4
        have e1 : U (i + 1) ≤ u := (hm (by omega)).trans hlo
        have h5 := ih (i + 1) (by omega) (by omega) (by omega)
          ⟨lt_of_le_of_lt e1 hlt, lt_of_lt_of_le h4.2 (hm (by omega))⟩
        have h6 := h0 (i + 1) (by omega) ⟨by
          rw [h.low _ (by omega)]; exact lt_of_le_of_lt e1 hlt, by
          rw [show i + 1 + p + 1 = (i + p + 1) + 1 by omega, h.high _ (by omega)]; exact h4.2⟩
        rw [insS, if_neg (by omega), if_pos (by omega), h5, mul_zero, add_zero,
          Nat.add_sub_cancel] at h6
        rcases mul_eq_zero.mp h6 with h7 | h7
        · exfalso
          have e2 : u < U (i + 1 + p) := by
            rw [show i + 1 + p = i + p + 1 by omega]; exact hlt.trans h4.2
          rw [sub_eq_zero, eq_comm, div_eq_one_iff_eq (by linarith)] at h7
          linarith
        · exact h7
    rcases Nat.lt_or_ge i l with h1 | h1
    · rcases Nat.lt_or_ge (i + p) l with h2 | h2
      · exfalso
        exact absurd (lt_of_lt_of_le ha.2 ((hm (by omega)).trans hlo)) (not_lt.mpr hlt.le)
      · exact hdesc (l - i) i (by omega) h2 hi ha
    · exact hhigh i hi h1 ha
  · -- the new knot lies above `x`: ascend
    have hil : i ≤ l := by
      by_contra h1
      have : U (l + 1) ≤ U i := hm (by omega)
      exact absurd (lt_of_lt_of_le hhi this) (not_lt.mpr (ha.1.le.trans hgt.le))
    have hlow : ∀ i, i ≤ l - p → Act U p i x → c i = 0 := by
      intro i h1 h2
      have := h0 i (by omega) ⟨by rw [h.low i (by omega)]; exact h2.1, by
        rcases Nat.lt_or_ge l (i + p + 1) with h3 | h3
        · rw [show i + p + 1 = l + 1 by omega, h.mid]; exact hgt
        · rw [h.low _ h3]; exact h2.2⟩
      rwa [insS, if_pos h1] at this
    have hasc : ∀ t i, i = l - p + t → i ≤ l → Act U p i x → c i = 0 := by
      intro t
      induction t with
      | zero => intro i h1 _ h3; exact hlow i (by omega) h3
      | succ t ih =>
        intro i h1 h2 h3
        have e2 : u < U (i + p) := lt_of_lt_of_le hhi (hm (by omega))
        have h5 := ih (i - 1) (by omega) (by omega) ⟨lt_of_le_of_lt (hm (by omega)) h3.1, by
          rw [show i - 1 + p + 1 = i + p by omega]; exact hgt.trans e2⟩
        have h6 := h0 i (by omega) ⟨by rw [h.low i h2]; exact h3.1, by
          rw [h.high _ (by omega)]; exact hgt.trans e2⟩
        rw [insS, if_neg (by omega), if_pos h2, h5, mul_zero, zero_add] at h6
        rcases mul_eq_zero.mp h6 with h7 | h7
        · exfalso
          have e3 := h3.1
          rcases div_eq_zero_iff.mp h7 with h8 | h8 <;> linarith
        · exact h7
    rcases Nat.lt_or_ge i (l - p) with h1 | h1
    · exact hlow i h1.le ha
    · exact hasc (i - (l - p)) i (by omega) hil ha

/-! ### Refinement -/

/-- `(n', U', c')` is obtained from `(n, U, c)` by inserting knots outside `X` -/
structure Refd (p : ℕ) (lo hi : K) (X : K → Prop) (n : ℕ) (U c : ℕ → K) (n' : ℕ) (U' c' : ℕ → K) :
    Prop where
  clamp : Clamp U' p n' lo hi
  same : Same p lo hi n U c n' U' c'
  alt : ∀ r, Alt c' n' r → Alt c n r
  zero : ∀ x, X x → (∀ i, i ≤ n' → Act U' p i x → c' i = 0) → ∀ i, i ≤ n → Act U p i x → c i = 0
  nofull : ∀ x, X x → NoFull U p x → NoFull U' p x
  full : ∀ y, Full U p y → Full U' p y

theorem Refd.refl {p : ℕ} {lo hi : K} {X : K → Prop} {n : ℕ} {U c : ℕ → K}
    (hc : Clamp U p n lo hi) : Refd p lo hi X n U c n U c where
  clamp := hc
  same := by
    intro v j j' _ _ h1 h2 ts _
    rw [h1.unique hc h2]
  alt := fun _ h => h
  zero := fun _ _ h => h
  nofull := fun _ _ h => h
  full := fun _ h => h

theorem Refd.trans {p : ℕ} {lo hi : K} {X : K → Prop} {n n' n'' : ℕ} {U c U' c' U'' c'' : ℕ → K}
    (h : Refd p lo hi X n U c n' U' c') (h' : Refd p lo hi X n' U' c' n'' U'' c'') :
    Refd p lo hi X n U c n'' U'' c'' where
  clamp := h'.clamp
  same := h.same.trans h.clamp h'.same
  alt := fun r hr => h.alt r (h'.alt r hr)
  zero := fun x hx h0 => h.zero x hx (h'.zero x hx h0)
  nofull := fun x hx h0 => h'.nofull x hx (h.nofull x hx h0)
  full := fun y h0 => h'.full y (h.full y h0)

theorem Refd.step {p : ℕ} {lo hi : K} {X : K → Prop} {n l : ℕ} {U c : ℕ → K} {y : K}
    (hc : Clamp U p n lo hi) (hX : ¬ X y) (h0 : lo < y) (h1 : y < hi) (hpl : p ≤ l) (hln : l ≤ n)
    (hl : U l ≤ y) (hu : y < U (l + 1)) :
    Refd p lo hi X n U c (n + 1) (insF U y l) (insS U p c y l) := by
  have hs := insF_seq U y l
  have hc' := hs.clamp hc h0 h1 hpl hln hl hu.le
  refine ⟨hc', insS_same hc hc' hs hpl hln hl hu.le c,
    fun r hr => hr.of_insS hc.mono hpl hln hl hu, ?_, ?_, ?_⟩
  · intro x hx hz i hi ha
    exact act_zero_of_insS hs hc.mono hpl hln hl hu (fun e => hX (e ▸ hx)) hz i hi ha
  · intro x hx hf q ⟨e1, e2⟩
    rcases Nat.lt_or_ge l (q + p) with h2 | h2
    · rcases Nat.lt_or_ge (l + 1) q with h3 | h3
      · apply hf (q - 1)
        have g1 := hs.high (q - 1) (by omega)
        have g2 := hs.high (q + p - 1) (by omega)
        rw [Nat.sub_add_cancel (by omega)] at g1 g2
        rw [show q - 1 + p = q + p - 1 by omega, ← g1, ← g2]
        exact ⟨e1, e2⟩
      · have g1 := hc'.mono h3
        have g2 := hc'.mono (show l + 1 ≤ q + p by omega)
        rw [e1, hs.mid] at g1
        rw [e2, hs.mid] at g2
        exact hX ((le_antisymm g1 g2) ▸ hx)
    · apply hf q
      rw [← hs.low q (by omega), ← hs.low (q + p) h2]
      exact ⟨e1, e2⟩
  · rintro z ⟨q, e1, e2⟩
    have hmid : ∀ m, q ≤ m → m ≤ q + p → U m = z := fun m g1 g2 =>
      le_antisymm (e2 ▸ hc.mono g2) (e1 ▸ hc.mono g1)
    rcases Nat.lt_or_ge l q with h2 | h2
    · exact ⟨q + 1, by rw [hs.high q h2, e1], by
        rw [show q + 1 + p = q + p + 1 by omega, hs.high _ (by omega), e2]⟩
    · rcases Nat.lt_or_ge l (q + p) with h3 | h3
      · refine ⟨q, by rw [hs.low q h2, e1], ?_⟩
        apply le_antisymm
        · have := hc'.mono (show q + p ≤ q + p + 1 by omega)
          rwa [hs.high (q + p) (by omega), e2] at this
        · have := hc'.mono (show q ≤ q + p by omega)
          rwa [hs.low q h2, e1] at this
      · exact ⟨q, by rw [hs.low q h2, e1], by rw [hs.low _ h3, e2]⟩

/-- make `y` a knot of full multiplicity -/
theorem Refd.exists_full {p : ℕ} {lo hi : K} {X : K → Prop} {n : ℕ} {U c : ℕ → K} {y : K}
    (hc : Clamp U p n lo hi) (hX : ¬ X y) (h0 : lo < y) (h1 : y < hi) :
    ∃ n' U' c', Refd p lo hi X n U c n' U' c' ∧ Full U' p y := by
  have key : ∀ k, ∃ n' U' c', Refd p lo hi X n U c n' U' c' ∧ ∃ q, ∀ m, m < k → U' (q + m) = y := by
    intro k
    induction k with
    | zero => exact ⟨n, U, c, Refd.refl hc, 0, fun m hm => absurd hm (by omega)⟩
    | succ k ih =>
      obtain ⟨n', U', c', hr, q, hq⟩ := ih
      obtain ⟨l, hl⟩ := hr.clamp.exists_span h0.le h1.le
      have hlt : y < U' (l + 1) := by
        rcases hl.hi with h2 | ⟨rfl, h2⟩
        · exact h2
        · rw [h2, hr.clamp.right _ le_rfl] at h1; exact absurd h1 (lt_irrefl _)
      refine ⟨n' + 1, insF U' y l, insS U' p c' y l,
        hr.trans (Refd.step hr.clamp hX h0 h1 (hl.p_le hr.clamp) hl.le_n hl.lo hlt), ?_⟩
      have hs := insF_seq U' y l
      rcases Nat.eq_zero_or_pos k with rfl | hk
      · exact ⟨l + 1, fun m hm => by rw [show l + 1 + m = l + 1 by omega, hs.mid]⟩
      · have hql : q + (k - 1) ≤ l := by
          by_contra h2
          have := hr.clamp.mono (show l + 1 ≤ q + (k - 1) by omega)
          rw [hq (k - 1) (by omega)] at this
          exact absurd hlt (not_lt.mpr this)
        refine ⟨q, fun m hm => ?_⟩
        rcases Nat.lt_or_ge l (q + m) with h2 | h2
        · rw [show q + m = l + 1 by omega, hs.mid]
        · rw [hs.low _ h2]
          apply le_antisymm
          · exact (hr.clamp.mono h2).trans hl.lo
          · have := hr.clamp.mono (show q ≤ q + m by omega)
            rwa [← Nat.add_zero q, hq 0 hk] at this
  obtain ⟨n', U', c', hr, q, hq⟩ := key (p + 1)
  exact ⟨n', U', c', hr, q, hq 0 (by omega), hq p (by omega)⟩

theorem Refd.exists_full_all {p : ℕ} {lo hi : K} {X : K → Prop} {n : ℕ} {U c : ℕ → K}
    (hc : Clamp U p n lo hi) (y : ℕ → K) (k : ℕ)
    (hy : ∀ s, s < k → ¬ X (y s) ∧ lo < y s ∧ y s < hi) :
    ∃ n' U' c', Refd p lo hi X n U c n' U' c' ∧ ∀ s, s < k → Full U' p (y s) := by
  induction k with
  | zero => exact ⟨n, U, c, Refd.refl hc, fun s hs => absurd hs (by omega)⟩
  | succ k ih =>
    obtain ⟨n', U', c', hr, hf⟩ := ih (fun s hs => hy s (by omega))
    obtain ⟨g1, g2, g3⟩ := hy k (by omega)
    obtain ⟨n'', U'', c'', hr', hf'⟩ := Refd.exists_full (c := c') hr.clamp g1 g2 g3
    refine ⟨n'', U'', c'', hr.trans hr', fun s hs => ?_⟩
    rcases Nat.lt_or_ge s k with h | h
    · exact hr'.full _ (hf s h)
    · rw [show s = k by omega]; exact hf'

/-! ### Counting zeros -/

/-- the spline with coefficients `c` vanishes at `x` -/
def Vanishes (U : ℕ → K) (p n : ℕ) (c : ℕ → K) (x : K) : Prop :=
  ∀ j, IsSpan U n x j → bl U (List.replicate p x) c (j - p) = 0

/-- every zero needs a sign change of its own -/
theorem alt_of_zeros {p n r : ℕ} {lo hi : K} {U c : ℕ → K} (hc : Clamp U p n lo hi) (x : ℕ → K)
    (hr : 0 < r) (hx : ∀ s, s < r → lo < x s ∧ x s < hi) (hlt : ∀ s t, s < t → t < r → x s < x t)
    (hf : ∀ s, s < r → NoFull U p (x s)) (h0 : ∀ s, s < r → Vanishes U p n c (x s))
    (hact : ∀ s, s < r → ∃ i, i ≤ n ∧ Act U p i (x s) ∧ c i ≠ 0) : Alt c n r := by
  let X : K → Prop := fun z => ∃ s, s < r ∧ z = x s
  have hmono : ∀ s t, s < r → t < r → x s < x t → s < t := by
    intro s t h1 h2 h3
    by_contra h4
    rcases Nat.lt_or_ge t s with h5 | h5
    · exact absurd (hlt t s h5 h1) (not_lt.mpr h3.le)
    · rw [show s = t by omega] at h3; exact lt_irrefl _ h3
  obtain ⟨n', U', c', hR, hfull⟩ := Refd.exists_full_all (X := X) (c := c) hc
    (fun s => (x s + x (s + 1)) / 2) (r - 1) (by
      intro s hs
      have g1 := hx s (by omega)
      have g2 := hx (s + 1) (by omega)
      have g3 := hlt s (s + 1) (by omega) (by omega)
      refine ⟨?_, by linarith, by linarith⟩
      rintro ⟨t, ht, e⟩
      have k1 := hmono s t (by omega) ht (by linarith)
      have k2 := hmono t (s + 1) ht (by omega) (by linarith)
      omega)
  apply hR.alt
  -- coefficients of both signs at each zero
  have hboth : ∀ s, ∃ P N, s < r → (P ≤ n' ∧ Act U' p P (x s) ∧ 0 < c' P) ∧
      (N ≤ n' ∧ Act U' p N (x s) ∧ c' N < 0) := by
    intro s
    by_cases hs : s < r
    swap
    · exact ⟨0, 0, fun h => absurd h hs⟩
    have hXs : X (x s) := ⟨s, hs, rfl⟩
    obtain ⟨i, hi, ha, hci⟩ := hact s hs
    have : ∃ i', i' ≤ n' ∧ Act U' p i' (x s) ∧ c' i' ≠ 0 := by
      by_contra hno
      push Not at hno
      exact hci (hR.zero _ hXs hno i hi ha)
    obtain ⟨i', hi', ha', hci'⟩ := this
    obtain ⟨j', hj'⟩ := hR.clamp.exists_span (hx s hs).1.le (hx s hs).2.le
    obtain ⟨j, hj⟩ := hc.exists_span (hx s hs).1.le (hx s hs).2.le
    have hz : bl U' (List.replicate p (x s)) c' (j' - p) = 0 := by
      rw [hR.same (x s) j j' (hx s hs).1.le (hx s hs).2.le hj hj' _ (by simp)]
      exact h0 s hs j hj
    have hz' : bl U' (List.replicate p (x s)) (fun i => -c' i) (j' - p) = 0 := by
      have := congrFun (bl_smul (List.replicate p (x s)) U' (-1 : K) c') (j' - p)
      simp only [smul_eq_mul, neg_mul, one_mul] at this
      rw [this, hz, neg_zero]
    have hnf := hR.nofull _ hXs (hf s hs)
    obtain ⟨P, hP⟩ := both_signs hR.clamp (hx s hs).2 hj' hnf hz ha' hci'
    obtain ⟨N, hN1, hN2, hN3⟩ := both_signs hR.clamp (hx s hs).2 hj' hnf hz' ha'
      (neg_ne_zero.mpr hci')
    exact ⟨P, N, fun _ => ⟨hP, hN1, hN2, by linarith⟩⟩
  choose P N hPN using hboth
  -- the supports of consecutive zeros are ordered
  have hord : ∀ s i i', s + 1 < r → Act U' p i (x s) → Act U' p i' (x (s + 1)) → i < i' := by
    intro s i i' hs h1 h2
    obtain ⟨q, e1, e2⟩ := hfull s (by omega)
    have g3 := hlt s (s + 1) (by omega) hs
    have k1 : i < q := by
      by_contra h
      have : U' q ≤ U' i := hR.clamp.mono (by omega)
      have := h1.1
      linarith
    have k2 : q ≤ i' := by
      by_contra h
      have : U' (i' + p + 1) ≤ U' (q + p) := hR.clamp.mono (by omega)
      have := h2.2
      linarith
    omega
  have hne : P 0 ≠ N 0 := by
    intro e
    have h1 := (hPN 0 hr).1.2.2
    have h2 := (hPN 0 hr).2.2.2
    rw [e] at h1
    exact absurd h1 (not_lt.mpr h2.le)
  -- `pick σ s` is a coefficient index at zero `s` with the sign of `σ`
  let pick : Bool → ℕ → ℕ := fun b s => if b then P s else N s
  have hpick : ∀ b s, s < r → pick b s ≤ n' ∧ Act U' p (pick b s) (x s) ∧
      0 < (if b then (1 : K) else -1) * c' (pick b s) := by
    intro b s hs
    cases b
    · have := (hPN s hs).2
      refine ⟨this.1, this.2.1, ?_⟩
      simp only [pick, Bool.false_eq_true, if_false]
      have := this.2.2
      linarith
    · have := (hPN s hs).1
      refine ⟨this.1, this.2.1, ?_⟩
      simp only [pick, if_true, one_mul]
      exact this.2.2
  let b0 : Bool := decide (P 0 < N 0)
  have hb0 : pick b0 0 < pick (!b0) 0 := by
    by_cases h : P 0 < N 0
    · have : b0 = true := by simp [b0, h]
      rw [this]; exact h
    · have : b0 = false := by simp [b0, h]
      rw [this]
      show N 0 < P 0
      omega
  let sgn : ℕ → Bool := fun s => if s % 2 = 0 then b0 else !b0
  refine ⟨if b0 then 1 else -1, fun s => pick (sgn s) (s - 1), ?_, ?_, ?_⟩
  · intro s hs; exact (hpick _ _ (by omega)).1
  · intro s hs
    rcases Nat.eq_zero_or_pos s with rfl | hpos
    · show pick (sgn 0) (0 - 1) < pick (sgn 1) (1 - 1)
      exact hb0
    · have := hord (s - 1) (pick (sgn s) (s - 1)) (pick (sgn (s + 1)) s) (by omega)
        (hpick _ _ (by omega)).2.1 (by
          rw [Nat.sub_add_cancel hpos]; exact (hpick _ _ (by omega)).2.1)
      exact this
  · intro s hs
    have h1 := (hpick (sgn s) (s - 1) (by omega)).2.2
    have h2 : (-1 : K) ^ s * (if b0 then 1 else -1) = if sgn s then 1 else -1 := by
      rcases Nat.even_or_odd s with he | ho
      · have : s % 2 = 0 := Nat.even_iff.mp he
        rw [he.neg_one_pow, one_mul]
        simp only [sgn, this, if_true]
      · have : s % 2 = 1 := Nat.odd_iff.mp ho
        rw [ho.neg_one_pow]
        simp only [sgn, this, one_ne_zero, if_false]
        cases b0 <;> simp
    rw [h2]; exact h1

/-- `N i (x) > 0`: inside the support, or at the end of the domain the function belongs to -/
def Touches (U : ℕ → K) (p n : ℕ) (lo hi : K) (i : ℕ) (x : K) : Prop :=
  Act U p i x ∨ (i = 0 ∧ x = lo) ∨ (i = n ∧ x = hi)

/-- at the ends of the domain the value is the end coefficient -/
theorem coef_zero_left {p n : ℕ} {lo hi : K} {U c : ℕ → K} (hc : Clamp U p n lo hi)
    (h : Vanishes U p n c lo) : c 0 = 0 := by
  have hle := hc.le
  have hs : IsSpan U n lo p := ⟨hle, (hc.left p le_rfl).le, Or.inl (hc.a_lt (by omega))⟩
  have h1 := h p hs
  have hw := win_of_span hc.mono le_rfl (hs.lt hc)
  have h2 := bl_dual (P := c) p (i := 0) (by omega) hw
  rw [Nat.sub_self] at h1 h2
  have e : knotsFrom U (0 + 0 + 1) p = List.replicate p lo := by
    rw [List.eq_replicate_iff]
    refine ⟨by simp, ?_⟩
    intro z hz
    simp only [knotsFrom, List.mem_map, List.mem_range'_1] at hz
    obtain ⟨m, hm, rfl⟩ := hz
    exact hc.left m (by omega)
  rw [e, h1] at h2
  exact h2.symm

theorem coef_zero_right {p n : ℕ} {lo hi : K} {U c : ℕ → K} (hc : Clamp U p n lo hi)
    (h : Vanishes U p n c hi) : c n = 0 := by
  have hle := hc.le
  have hs : IsSpan U n hi n := ⟨le_rfl, (hc.lt_b le_rfl).le, Or.inr ⟨rfl, (hc.right _ le_rfl).symm⟩⟩
  have h1 := h n hs
  have hw := win_of_span hc.mono hle (hs.lt hc)
  have h2 := bl_dual (P := c) p (i := p) (by omega) hw
  rw [show n - p + p = n by omega] at h2
  have e : knotsFrom U (n + 1) p = List.replicate p hi := by
    rw [List.eq_replicate_iff]
    refine ⟨by simp, ?_⟩
    intro z hz
    simp only [knotsFrom, List.mem_map, List.mem_range'_1] at hz
    obtain ⟨m, hm, rfl⟩ := hz
    exact hc.right m (by omega)
  rw [e, h1] at h2
  exact h2.symm

/-- **Schoenberg–Whitney**: a spline vanishing at a parameter in the support of each basis function with a
non-zero coefficient is zero -/
theorem schoenberg_whitney_core {p n : ℕ} {lo hi : K} {U c : ℕ → K} (hc : Clamp U p n lo hi) (τ : ℕ → K)
    (hmono : ∀ i j, i < j → j ≤ n → τ i < τ j)
    (hact : ∀ i, i ≤ n → c i ≠ 0 → Act U p i (τ i))
    (hf : ∀ i, i ≤ n → c i ≠ 0 → NoFull U p (τ i))
    (h0 : ∀ i, i ≤ n → Vanishes U p n c (τ i)) : ∀ i, i ≤ n → c i = 0 := by
  classical
  let S := (range (n + 1)).filter (fun i => c i ≠ 0)
  have hS : ∀ i, i ∈ S ↔ i ≤ n ∧ c i ≠ 0 := by
    intro i; simp [S]
  have hin : ∀ i, i ∈ S → Act U p i (τ i) := by
    intro i hi
    obtain ⟨h1, h2⟩ := (hS i).mp hi
    exact hact i h1 h2
  by_contra hne
  push Not at hne
  obtain ⟨i0, hi0, hc0⟩ := hne
  have hpos : 0 < S.card := card_pos.mpr ⟨i0, (hS i0).mpr ⟨hi0, hc0⟩⟩
  let e := S.orderEmbOfFin rfl
  let idx : ℕ → ℕ := fun s => if h : s < S.card then e ⟨s, h⟩ else 0
  have hidx : ∀ s, s < S.card → idx s ∈ S := by
    intro s hs
    simp only [idx, dif_pos hs]
    exact orderEmbOfFin_mem S rfl _
  have hidxlt : ∀ s t, s < t → t < S.card → idx s < idx t := by
    intro s t h1 h2
    simp only [idx, dif_pos h2, dif_pos (h1.trans h2)]
    exact e.strictMono h1
  have hin' : ∀ s, s < S.card → lo < τ (idx s) ∧ τ (idx s) < hi := by
    intro s hs
    have h1 := hin _ (hidx s hs)
    exact ⟨lt_of_le_of_lt (hc.a_le _) h1.1, lt_of_lt_of_le h1.2 (hc.le_b _)⟩
  have halt : Alt c n S.card := alt_of_zeros hc (fun s => τ (idx s)) hpos hin'
    (fun s t h1 h2 => hmono _ _ (hidxlt s t h1 h2) ((hS _).mp (hidx t h2)).1)
    (fun s hs => hf _ ((hS _).mp (hidx s hs)).1 ((hS _).mp (hidx s hs)).2)
    (fun s hs => h0 _ ((hS _).mp (hidx s hs)).1)
    (fun s hs => ⟨idx s, ((hS _).mp (hidx s hs)).1, hin _ (hidx s hs), ((hS _).mp (hidx s hs)).2⟩)
  obtain ⟨ε, i, h1, h2, h3⟩ := halt
  have hmem : ∀ s, s ≤ S.card → i s ∈ S := by
    intro s hs
    refine (hS _).mpr ⟨h1 s hs, fun h => ?_⟩
    have := h3 s hs
    rw [h, mul_zero] at this
    exact lt_irrefl _ this
  have hinj : ∀ s t, s < t → t ≤ S.card → i s < i t := by
    intro s t hst
    induction t with
    | zero => omega
    | succ t ih =>
      intro ht
      rcases Nat.lt_or_ge s t with h | h
      · exact (ih h (by omega)).trans (h2 t (by omega))
      · rw [show s = t by omega]; exact h2 t (by omega)
  have : (range (S.card + 1)).card ≤ S.card := by
    apply card_le_card_of_injOn i
    · intro s hs
      have := mem_range.mp hs
      exact hmem s (by omega)
    · intro s hs t ht hst
      have h4 := mem_range.mp hs
      have h5 := mem_range.mp ht
      rcases lt_trichotomy s t with h6 | h6 | h6
      · have := hinj s t h6 (by omega); omega
      · exact h6
      · have := hinj t s h6 (by omega); omega
  rw [card_range] at this
  omega

/-- **Schoenberg–Whitney**: a spline vanishing at a parameter in the support of each of its basis
functions is zero -/
theorem schoenberg_whitney {p n : ℕ} {lo hi : K} {U c : ℕ → K} (hc : Clamp U p n lo hi) (τ : ℕ → K)
    (hmono : ∀ i j, i < j → j ≤ n → τ i < τ j)
    (htouch : ∀ i, i ≤ n → Touches U p n lo hi i (τ i))
    (hf : ∀ i, i ≤ n → lo < τ i → τ i < hi → NoFull U p (τ i))
    (h0 : ∀ i, i ≤ n → Vanishes U p n c (τ i)) : ∀ i, i ≤ n → c i = 0 := by
  have hact : ∀ i, i ≤ n → c i ≠ 0 → Act U p i (τ i) := by
    intro i h1 h2
    rcases htouch i h1 with h3 | ⟨rfl, h3⟩ | ⟨rfl, h3⟩
    · exact h3
    · exact absurd (coef_zero_left hc (h3 ▸ h0 0 h1)) h2
    · exact absurd (coef_zero_right hc (h3 ▸ h0 i h1)) h2
  refine schoenberg_whitney_core hc τ hmono hact (fun i h1 h2 => ?_) h0
  have h3 := hact i h1 h2
  exact hf i h1 (lt_of_le_of_lt (hc.a_le _) h3.1) (lt_of_lt_of_le h3.2 (hc.le_b _))

end BSpline
