import Verif.Props.TotalPositive

/-!
# Which minors are positive: C151, continued

The proofs of the Schoenberg–Whitney theorem (Theory/SchoenbergWhitney.lean) and of C91, for some of the basis functions
instead of all of them.
-/

set_option linter.unusedSectionVars false

namespace BSpline

open Finset

variable {K : Type} [Field K] [LinearOrder K] [IsStrictOrderedRing K] {d : ℕ}

/-- **Schoenberg–Whitney** for some of the basis functions: parameters are needed only for the coefficients that are
not zero -/
theorem schoenberg_whitney_some {p n : ℕ} {lo hi : K} {U c : ℕ → K} (hc : Clamp U p n lo hi) (τ : ℕ → K)
    (hmono : ∀ i j, i < j → j ≤ n → c i ≠ 0 → c j ≠ 0 → τ i < τ j)
    (hact : ∀ i, i ≤ n → c i ≠ 0 → Act U p i (τ i))
    (hf : ∀ i, i ≤ n → c i ≠ 0 → NoFull U p (τ i))
    (h0 : ∀ i, i ≤ n → c i ≠ 0 → Vanishes U p n c (τ i)) : ∀ i, i ≤ n → c i = 0 := by
  classical
  let S := (range (n + 1)).filter (fun i => c i ≠ 0)
  have hS : ∀ i, i ∈ S ↔ i ≤ n ∧ c i ≠ 0 := by
    intro i; simp [S]
  have hin : ∀ i, i ∈ S → Act U p i (τ i) := by
    intro i hi
    obtain ⟨h1, h2⟩ := (hS i).mp hi
    exact hact i h1 h2
  by_contra hne
  push Not at hne
  obtain ⟨i0, hi0, hc0⟩ := hne
  have hpos : 0 < S.card := card_pos.mpr ⟨i0, (hS i0).mpr ⟨hi0, hc0⟩⟩
  let e := S.orderEmbOfFin rfl
  let idx : ℕ → ℕ := fun s => if h : s < S.card then e ⟨s, h⟩ else 0
  have hidx : ∀ s, s < S.card → idx s ∈ S := by
    intro s hs
    simp only [idx, dif_pos hs]
    exact orderEmbOfFin_mem S rfl _
  have hidxlt : ∀ s t, s < t → t < S.card → idx s < idx t := by
    intro s t h1 h2
    simp only [idx, dif_pos h2, dif_pos (h1.trans h2)]
    exact e.strictMono h1
  have hin' : ∀ s, s < S.card → lo < τ (idx s) ∧ τ (idx s) < hi := by
    intro s hs
    have h1 := hin _ (hidx s hs)
    exact ⟨lt_of_le_of_lt (hc.a_le _) h1.1, lt_of_lt_of_le h1.2 (hc.le_b _)⟩
  have halt : Alt c n S.card := alt_of_zeros hc (fun s => τ (idx s)) hpos hin'
    (fun s t h1 h2 => hmono _ _ (hidxlt s t h1 h2) ((hS _).mp (hidx t h2)).1
      ((hS _).mp (hidx s (h1.trans h2))).2 ((hS _).mp (hidx t h2)).2)
    (fun s hs => hf _ ((hS _).mp (hidx s hs)).1 ((hS _).mp (hidx s hs)).2)
    (fun s hs => h0 _ ((hS _).mp (hidx s hs)).1 ((hS _).mp (hidx s hs)).2)
    (fun s hs => ⟨idx s, ((hS _).mp (hidx s hs)).1, hin _ (hidx s hs), ((hS _).mp (hidx s hs)).2⟩)
  obtain ⟨ε, i, h1, h2, h3⟩ := halt
  have hmem : ∀ s, s ≤ S.card → i s ∈ S := by
    intro s hs
    refine (hS _).mpr ⟨h1 s hs, fun h => ?_⟩
    have := h3 s hs
    rw [h, mul_zero] at this
    exact lt_irrefl _ this
  have hinj : ∀ s t, s < t → t ≤ S.card → i s < i t := by
    intro s t hst
    induction t with
    | zero => omega
    | succ t ih =>
      intro ht
      rcases Nat.lt_or_ge s t with h | h
      · exact (ih h (by omega)).trans (h2 t (by omega))
      · rw [show s = t by omega]; exact h2 t (by omega)
  have : (range (S.card + 1)).card ≤ S.card := by
    apply card_le_card_of_injOn i
    · intro s hs
      have := mem_range.mp hs
      exact hmem s (by omega)
    · intro s hs t ht hst
      have h4 := mem_range.mp hs
      have h5 := mem_range.mp ht
      rcases lt_trichotomy s t with h6 | h6 | h6
      · have := hinj s t h6 (by omega); omega
      · exact h6
      · have := hinj t s h6 (by omega); omega
  rw [card_range] at this
  omega

/-- the kernel of some columns of a collocation matrix without zeros on the diagonal -/
theorem kernel_some {p n : ℕ} {U : List K} (hU : ClampedKnots 0 1 p n U) {τ : ℕ → K} {c : ℕ → K}
    (hτ : ∀ i j, i < j → j ≤ n → c i ≠ 0 → c j ≠ 0 → τ i < τ j)
    (hb : ∀ i, i ≤ n → c i ≠ 0 → 0 ≤ τ i ∧ τ i ≤ 1) (hd : ∀ i, i ≤ n → c i ≠ 0 → nb p n U i (τ i) ≠ 0)
    (h0 : ∀ g, g ≤ n → c g ≠ 0 → ∑ i ∈ range (n + 1), nb p n U i (τ g) * c i = 0) : ∀ i, i ≤ n → c i = 0 := by
  have hc := hU.clamp
  have hv : ∀ i, i ≤ n → c i ≠ 0 → Vanishes (fn U) p n c (τ i) := fun i hi hci => vanishes_of_sum hU (h0 i hi hci)
  have key : ∀ i, i ≤ n → c i ≠ 0 → Act (fn U) p i (τ i) ∧ NoFull (fn U) p (τ i) := by
    intro i hi hci
    rcases (hb i hi hci).2.lt_or_eq with h1 | h1
    · obtain ⟨j, hs⟩ := hc.exists_span (hb i hi hci).1 h1.le
      obtain ⟨h2, h3, h4, h5⟩ := nb_ne_zero hU h1 hs (hd i hi hci)
      rcases h5 with h5 | ⟨h5, h6⟩
      · refine ⟨⟨h5, h4.trans_le (hc.mono (by omega))⟩, ?_⟩
        rintro q ⟨e1, e2⟩
        have h6 : i < q := by
          by_contra hcon
          have := hc.mono (show q ≤ i by omega)
          rw [e1] at this
          exact absurd h5 (not_lt.mpr this)
        have h7 : q + p ≤ j := by
          by_contra hcon
          have := hc.mono (show j + 1 ≤ q + p by omega)
          rw [e2] at this
          exact absurd h4 (not_lt.mpr this)
        omega
      · exfalso
        apply hci
        have h7 := hv i hi hci j hs
        have hw := win_of_span hc.mono (hs.p_le hc) (hs.lt hc)
        have h8 := bl_dual (P := c) p (i := 0) (by omega) hw
        have e : knotsFrom (fn U) (j - p + 0 + 1) p = List.replicate p (τ i) := by
          rw [List.eq_replicate_iff]
          refine ⟨by simp, ?_⟩
          intro z hz
          simp only [knotsFrom, List.mem_map, List.mem_range'_1] at hz
          obtain ⟨m, hm, rfl⟩ := hz
          exact le_antisymm ((hc.mono (show m ≤ j by omega)).trans hs.lo)
            (h6.symm.le.trans (hc.mono (show i ≤ m by omega)))
        rw [e, h7, show j - p + 0 = i by omega] at h8
        exact h8.symm
    · exfalso
      have h2 := hd i hi hci
      rw [h1, nb_one hU hi] at h2
      split at h2
      · rename_i h3
        subst h3
        exact hci (coef_zero_right hc (h1 ▸ hv i hi hci))
      · exact h2 rfl
  exact schoenberg_whitney_some hc τ hτ (fun i h1 h2 => (key i h1 h2).1) (fun i h1 h2 => (key i h1 h2).2) hv

/-- a zero on the diagonal of some columns of a collocation matrix makes them singular -/
theorem singular_some {p n m : ℕ} {U : List K} (hU : ClampedKnots 0 1 p n U) {τ : Fin (m + 1) → K}
    (hmono : Monotone τ) (hb : ∀ g, 0 ≤ τ g ∧ τ g ≤ 1) {col : Fin (m + 1) → ℕ} (hcol : StrictMono col)
    (hle : ∀ k, col k ≤ n) (A : Matrix (Fin (m + 1)) (Fin (m + 1)) K) (hA : ∀ g i, A g i = nb p n U (col i) (τ g))
    {i : Fin (m + 1)} (hi : A i i = 0) : A.det = 0 := by
  have hc := hU.clamp
  have hin : col i ≤ n := hle i
  have hi' : nb p n U (col i) (τ i) = 0 := by rw [← hA]; exact hi
  -- a basis function without support
  rcases Nat.lt_or_ge (col i) n with hlt | hge
  swap
  · -- the last function: every parameter lies at or before its first knot
    have hin' : col i = n := by omega
    have h1 : τ i < 1 := by
      rcases (hb i).2.lt_or_eq with h | h
      · exact h
      · rw [h, nb_one hU hin, if_pos hin'] at hi'
        exact absurd hi' one_ne_zero
    have h2 : τ i ≤ fn U (col i) := by
      by_contra hcon
      refine nb_ne_zero_of_inside hU (not_le.mp hcon) ?_ hi'
      rw [hc.right _ (by omega)]; exact h1
    refine det_zero_of_block A univ {i} (fun g _ k hk => ?_) (by simp)
    rw [Finset.mem_singleton] at hk
    subst hk
    rw [hA]
    by_contra hne
    have h3 : τ g ≤ τ k := hmono (by
      by_contra hgt
      have := hcol (not_le.mp hgt)
      have := hle g
      omega)
    obtain ⟨j, hs⟩ := hc.exists_span (hb g).1 (hb g).2
    obtain ⟨a1, a2, a3, a4⟩ := nb_ne_zero hU (h3.trans_lt h1) hs hne
    rcases a4 with a4 | ⟨a4, a5⟩
    · exact absurd (h3.trans h2) (not_le.mpr a4)
    · have e : τ g = τ k := le_antisymm h3 (h2.trans a5.le)
      rw [e] at hne
      exact hne hi'
  by_cases hdeg : fn U (col i) = fn U (col i + p + 1)
  · refine det_zero_of_block A univ {i} (fun g _ k hk => ?_) (by simp)
    rw [Finset.mem_singleton] at hk
    subst hk
    rw [hA]
    by_contra hne
    have h1 : τ g < 1 := by
      rcases (hb g).2.lt_or_eq with h | h
      · exact h
      · rw [h, nb_one hU hin, if_neg (by omega)] at hne
        exact absurd rfl hne
    obtain ⟨j, hs⟩ := hc.exists_span (hb g).1 h1.le
    obtain ⟨a1, a2, a3, a4⟩ := nb_ne_zero hU h1 hs hne
    have a5 : fn U (j + 1) ≤ fn U (col k + p + 1) := hc.mono (by omega)
    have a6 : fn U (col k) ≤ τ g := by rcases a4 with h | h; exacts [h.le, h.2.le]
    rw [hdeg] at a6
    exact absurd (a3.trans_le a5) (not_lt.mpr a6)
  have hnd : fn U (col i) < fn U (col i + p + 1) := lt_of_le_of_ne (hc.mono (by omega)) hdeg
  have hcase : τ i ≤ fn U (col i) ∨ fn U (col i + p + 1) ≤ τ i := by
    by_contra hcon
    push Not at hcon
    exact nb_ne_zero_of_inside hU hcon.1 hcon.2 hi'
  rcases hcase with h1 | h1
  · -- the rows up to `i` and the columns from `i`
    refine det_zero_of_block A (Finset.Iic i) (Finset.Ici i) (fun g hg k hk => ?_) ?_
    · rw [Finset.mem_Iic] at hg
      rw [Finset.mem_Ici] at hk
      rw [hA]
      by_contra hne
      have h2 : τ g ≤ τ i := hmono hg
      have h3 : fn U (col i) ≤ fn U (col k) := hc.mono (hcol.monotone hk)
      have h4 : τ g < 1 := (h2.trans h1).trans_lt (hnd.trans_le (hc.le_b _))
      obtain ⟨j, hs⟩ := hc.exists_span (hb g).1 h4.le
      obtain ⟨a1, a2, a3, a4⟩ := nb_ne_zero hU h4 hs hne
      rcases a4 with a4 | ⟨a4, a5⟩
      · exact absurd ((h2.trans h1).trans h3) (not_le.mpr a4)
      · rcases lt_or_ge i k with h5 | h5
        · -- more than `p + 1` equal knots from `i` on
          have a6 : fn U (col i + p + 1) ≤ fn U j := hc.mono (by have := hcol h5; omega)
          have a7 := a6.trans (hs.lo.trans (h2.trans h1))
          exact absurd hnd (not_lt.mpr a7)
        · have e : k = i := le_antisymm h5 hk
          rw [e] at a5 hne
          rw [le_antisymm h2 (h1.trans a5.le)] at hne
          exact hne hi'
    · rw [Fin.card_Iic, Fin.card_Ici]
      omega
  · -- the rows from `i` and the columns up to `i`
    refine det_zero_of_block A (Finset.Ici i) (Finset.Iic i) (fun g hg k hk => ?_) ?_
    · rw [Finset.mem_Ici] at hg
      rw [Finset.mem_Iic] at hk
      rw [hA]
      by_contra hne
      have h2 : τ i ≤ τ g := hmono hg
      have h3 : fn U (col k + p + 1) ≤ fn U (col i + p + 1) := hc.mono (by have := hcol.monotone hk; omega)
      rcases (hb g).2.lt_or_eq with h4 | h4
      · obtain ⟨j, hs⟩ := hc.exists_span (hb g).1 h4.le
        obtain ⟨a1, a2, a3, a4⟩ := nb_ne_zero hU h4 hs hne
        have a5 : fn U (j + 1) ≤ fn U (col k + p + 1) := hc.mono (by omega)
        exact absurd (a3.trans_le (a5.trans (h3.trans (h1.trans h2)))) (lt_irrefl _)
      · have hk' := hcol.monotone hk
        rw [h4, nb_one hU (hle _), if_neg (by omega)] at hne
        exact hne rfl
    · rw [Fin.card_Iic, Fin.card_Ici]
      omega

/-- the values of some basis functions at as many parameters are linearly independent if no function vanishes at its
parameter -/
theorem regular_some {p n k : ℕ} {U : List K} (hU : ClampedKnots 0 1 p n U) {τ : Fin k → K} (hτ : StrictMono τ)
    (hb : ∀ g, 0 ≤ τ g ∧ τ g ≤ 1) {col : Fin k → ℕ} (hcol : StrictMono col) (hle : ∀ s, col s ≤ n)
    (A : Matrix (Fin k) (Fin k) K) (hA : ∀ g i, A g i = nb p n U (col i) (τ g)) (hd : ∀ i, A i i ≠ 0) :
    A.det ≠ 0 := by
  classical
  intro hdet
  obtain ⟨v, hv, h0⟩ := Matrix.exists_mulVec_eq_zero_iff.mpr hdet
  apply hv
  let c : ℕ → K := fun i => ∑ s, if col s = i then v s else 0
  have hcs : ∀ s, c (col s) = v s := by
    intro s
    simp only [c]
    rw [Finset.sum_eq_single s]
    · simp
    · intro t _ hts
      rw [if_neg fun h => hts (hcol.injective h)]
    · simp
  have hc0 : ∀ i, c i ≠ 0 → ∃ s, col s = i := by
    intro i hi
    by_contra hno
    push Not at hno
    exact hi (Finset.sum_eq_zero fun s _ => if_neg (hno s))
  let τ' : ℕ → K := fun i => if h : ∃ s, col s = i then τ h.choose else 0
  have hτ' : ∀ s, τ' (col s) = τ s := by
    intro s
    have h : ∃ t, col t = col s := ⟨s, rfl⟩
    simp only [τ', dif_pos h]
    rw [hcol.injective h.choose_spec]
  have key := kernel_some hU (τ := τ') (c := c) (by
    intro i j hij _ hi hj
    obtain ⟨s, rfl⟩ := hc0 i hi
    obtain ⟨t, rfl⟩ := hc0 j hj
    rw [hτ', hτ']
    exact hτ (hcol.lt_iff_lt.mp hij)) (by
    intro i _ hi
    obtain ⟨s, rfl⟩ := hc0 i hi
    rw [hτ']
    exact hb s) (by
    intro i _ hi
    obtain ⟨s, rfl⟩ := hc0 i hi
    rw [hτ', ← hA]
    exact hd s) (by
    intro i _ hi
    obtain ⟨g, rfl⟩ := hc0 i hi
    rw [hτ']
    have h1 := congrFun h0 g
    rw [Matrix.mulVec, dotProduct, Pi.zero_apply] at h1
    rw [← h1]
    simp only [c, mul_sum]
    rw [sum_comm]
    refine sum_congr rfl fun s _ => ?_
    rw [Finset.sum_eq_single (col s)]
    · rw [if_pos rfl, hA]
    · intro m _ hm
      rw [if_neg (Ne.symm hm), mul_zero]
    · intro hm
      exact absurd (mem_range.mpr (by have := hle s; omega)) hm)
  funext s
  rw [← hcs s]
  exact key _ (hle s)

/-- **C151** For increasing parameters and any choice of basis functions, the minor is positive exactly if none of
these functions vanishes at its parameter; otherwise it is zero. -/
theorem C151_minor_positive {p n k : ℕ} {U : List K} {kn : Knots K} (hU : ClampedKnots 0 1 p n U)
    (hk : Knots.new p U = .ok kn) {τ : Fin k → K} (hm : StrictMono τ) (hτ : ∀ g, 0 ≤ τ g ∧ τ g ≤ 1)
    {col : Fin k → ℕ} (hcol : StrictMono col) (hle : ∀ c, col c ≤ n) (A : Matrix (Fin k) (Fin k) K)
    (hA : ∀ g c, kn.evaluate 0 (col c) p (τ g) = .ok (A g c)) :
    (0 < A.det ↔ ∀ i, 0 < A i i) ∧ (A.det = 0 ↔ ∃ i, A i i = 0) := by
  have h0 := C151_minors hU hk hm.monotone hτ hcol hle A hA
  obtain ⟨-, rfl⟩ := knots_new_inv hk
  have hA' : ∀ g i, A g i = nb p n U (col i) (τ g) := by
    intro g i
    have := hA g i
    rw [nb_ok hU.length hU.le (hle i)] at this
    injection this with this
    exact this.symm
  have hd : ∀ i, 0 ≤ A i i := by
    intro i
    rw [hA']
    obtain ⟨j, hs⟩ := hU.clamp.exists_span (hτ i).1 (hτ i).2
    rw [nb_eq_Bs hU hs]
    exact Bs_nonneg hU.clamp.mono hs.lo hs.le_hi p _
  have hz : A.det = 0 ↔ ∃ i, A i i = 0 := by
    constructor
    · intro hdet
      by_contra hno
      push Not at hno
      exact regular_some hU hm hτ hcol hle A hA' hno hdet
    · rintro ⟨i, hi⟩
      obtain ⟨m, rfl⟩ : ∃ m, k = m + 1 := ⟨k - 1, by have := i.2; omega⟩
      exact singular_some hU hm.monotone hτ hcol hle A hA' hi
  refine ⟨⟨fun h i => lt_of_le_of_ne (hd i) fun hi => h.ne' (hz.mpr ⟨i, hi.symm⟩), fun h => ?_⟩, hz⟩
  refine lt_of_le_of_ne h0 fun hdet => ?_
  obtain ⟨i, hi⟩ := hz.mp hdet.symm
  exact (h i).ne' hi

/-- **C151** A curve whose remaining control points are known is determined by its values at as many increasing
parameters as there are unknown control points, if and only if none of their basis functions vanishes at its
parameter. -/
theorem C151_known [NeZero d] {p n k : ℕ} {U : List K} {kn : Knots K} (hU : ClampedKnots 0 1 p n U)
    (hk : Knots.new p U = .ok kn) {τ : Fin k → K} (hm : StrictMono τ) (hτ : ∀ g, 0 ≤ τ g ∧ τ g ≤ 1)
    {col : Fin k → ℕ} (hcol : StrictMono col) (hle : ∀ s, col s ≤ n) :
    (∀ (c c' : Curve K d) (P P' : List (Pt K d)), ValidOn 0 1 c p n U P → ValidOn 0 1 c' p n U P' →
      (∀ i, (∀ s, col s ≠ i) → P[i]? = P'[i]?) → (∀ g, c.evaluate (τ g) = c'.evaluate (τ g)) → P = P') ↔
    ∀ s, kn.evaluate 0 (col s) p (τ s) ≠ .ok 0 := by
  classical
  obtain ⟨-, rfl⟩ := knots_new_inv hk
  have hev : ∀ i, i ≤ n → ∀ x, (canonKnots p U).evaluate 0 i p x = .ok (nb p n U i x) :=
    fun i hi x => nb_ok hU.length hU.le hi x
  let A : Matrix (Fin k) (Fin k) K := fun g s => nb p n U (col s) (τ g)
  -- a curve without the known control points
  have hval : ∀ (v : Fin k → K) (P : List (Pt K d)) (ρ : Fin d), (∀ s, fn P (col s) ρ = v s) →
      (∀ i, i < n + 1 → (∀ s, col s ≠ i) → fn P i ρ = 0) → ∀ g, ∑ i ∈ range (n + 1), nb p n U i (τ g) * fn P i ρ = A.mulVec v g := by
    intro v P ρ h1 h2 g
    rw [Matrix.mulVec, dotProduct]
    have himg : ∑ i ∈ univ.image col, nb p n U i (τ g) * fn P i ρ = ∑ i ∈ range (n + 1), nb p n U i (τ g) * fn P i ρ := by
      refine sum_subset (fun i hi => ?_) fun i hir hi => ?_
      · obtain ⟨s, -, rfl⟩ := mem_image.mp hi
        exact mem_range.mpr (by have := hle s; omega)
      · rw [h2 i (mem_range.mp hir) fun s hs => hi (mem_image.mpr ⟨s, mem_univ _, hs⟩), mul_zero]
    rw [← himg, sum_image fun s _ t _ h => hcol.injective h]
    exact sum_congr rfl fun s _ => by rw [h1]
  constructor
  · intro h s h0
    rw [hev _ (hle s)] at h0
    injection h0 with h0
    have hdet : A.det = 0 := by
      obtain ⟨m, rfl⟩ : ∃ m, k = m + 1 := ⟨k - 1, by have := s.2; omega⟩
      exact singular_some hU hm.monotone hτ hcol hle A (fun _ _ => rfl) (i := s) h0
    obtain ⟨v, hv, h1⟩ := Matrix.exists_mulVec_eq_zero_iff.mpr hdet
    apply hv
    let P : List (Pt K d) := (List.range (n + 1)).map fun i _ => ∑ s, if col s = i then v s else 0
    let P' : List (Pt K d) := (List.range (n + 1)).map fun _ _ => 0
    have hP : P.length = n + 1 := by simp [P]
    have hP' : P'.length = n + 1 := by simp [P']
    have hPs : ∀ s ρ, fn P (col s) ρ = v s := by
      intro s ρ
      simp only [P]
      rw [fn_map_range _ (by have := hle s; omega), Finset.sum_eq_single s]
      · simp
      · intro t _ hts
        rw [if_neg fun h => hts (hcol.injective h)]
      · simp
    have hPi : ∀ i, i < n + 1 → (∀ s, col s ≠ i) → ∀ ρ, fn P i ρ = 0 := by
      intro i hlt hi ρ
      simp only [P]
      rw [fn_map_range _ hlt]
      exact Finset.sum_eq_zero fun s _ => if_neg (hi s)
    have e := h _ _ P P' (validOn_canon hU hP) (validOn_canon hU hP') (by
      intro i hi
      rcases Nat.lt_or_ge i (n + 1) with hlt | hge
      · rw [List.getElem?_eq_getElem (by omega), List.getElem?_eq_getElem (by omega), ← fn_lt, ← fn_lt]
        congr 1
        funext ρ
        rw [hPi i hlt hi ρ]
        simp only [P']
        rw [fn_map_range _ hlt]
      · rw [List.getElem?_eq_none (by omega), List.getElem?_eq_none (by omega)]) (by
      intro g
      rw [evaluate_sum hU hP (hτ g).1 (hτ g).2, evaluate_sum hU hP' (hτ g).1 (hτ g).2]
      congr 2
      funext ρ
      rw [Finset.sum_apply, Finset.sum_apply, Finset.sum_eq_zero (s := range (n + 1)) (f := fun i =>
        (nb p n U i (τ g) • fn P' i) ρ) fun i hi => by
          simp only [P']
          rw [Pi.smul_apply, smul_eq_mul, fn_map_range _ (mem_range.mp hi), mul_zero]]
      exact (hval v P ρ (fun s => hPs s ρ) (fun i hlt hi => hPi i hlt hi ρ) g).trans (congrFun h1 g))
    funext s
    have e2 : fn P (col s) 0 = fn P' (col s) 0 := by rw [e]
    rw [hPs s 0] at e2
    rw [e2]
    simp only [P']
    rw [fn_map_range _ (by have := hle s; omega)]
    rfl
  · intro h c c' P P' hc hc' hknown heq
    obtain rfl := hc.eq_canon
    obtain rfl := hc'.eq_canon
    obtain ⟨-, -, hP⟩ := hc
    obtain ⟨-, -, hP'⟩ := hc'
    have hdet : A.det ≠ 0 := regular_some hU hm hτ hcol hle A (fun _ _ => rfl) fun s h0 => h s (by
      rw [hev _ (hle s)]; exact congrArg _ h0)
    have hfix : ∀ i, i < n + 1 → (∀ s, col s ≠ i) → fn P i = fn P' i := by
      intro i hlt hi
      have := hknown i hi
      rw [List.getElem?_eq_getElem (by omega), List.getElem?_eq_getElem (by omega), ← fn_lt, ← fn_lt] at this
      exact Option.some.inj this
    apply ext_fn (hP.trans hP'.symm)
    intro i hi
    by_cases hcase : ∃ s, col s = i
    swap
    · push Not at hcase
      exact hfix i (by omega) hcase
    obtain ⟨s, rfl⟩ := hcase
    funext ρ
    let D : List (Pt K d) := (List.range (n + 1)).map fun i ρ => fn P i ρ - fn P' i ρ
    have hD : ∀ i, i < n + 1 → fn D i ρ = fn P i ρ - fn P' i ρ := by
      intro i hlt
      simp only [D]
      rw [fn_map_range _ hlt]
    have hker : A.mulVec (fun s => fn P (col s) ρ - fn P' (col s) ρ) = 0 := by
      funext g
      rw [← hval _ D ρ (fun s => hD _ (by have := hle s; omega))
        (fun i hlt hi => by rw [hD i hlt, hfix i hlt hi, sub_self]) g]
      have h1 := heq g
      rw [evaluate_sum hU hP (hτ g).1 (hτ g).2, evaluate_sum hU hP' (hτ g).1 (hτ g).2] at h1
      injection h1 with h1; injection h1 with h1
      have h2 := congrFun h1 ρ
      rw [Finset.sum_apply, Finset.sum_apply] at h2
      rw [sum_congr rfl fun i hi => by rw [hD i (mem_range.mp hi), mul_sub], sum_sub_distrib, Pi.zero_apply]
      rw [sub_eq_zero]
      exact h2
    have := congrFun (Matrix.eq_zero_of_mulVec_eq_zero hdet hker) s
    simpa [sub_eq_zero] using this

/-! ### Concrete cases -/

-- the two inner basis functions of the cubic Bezier curve, and a choice of functions one of which vanishes
example : ∀ i : Fin 2, 0 < (Matrix.of fun g c : Fin 2 =>
    nb 3 3 ([0, 0, 0, 0, 1, 1, 1, 1] : List ℚ) (![1, 2] c) (![1 / 3, 2 / 3] g)) i i := by decide +kernel
example : (Matrix.of fun g c : Fin 2 => nb 2 3 tpU (![0, 3] c) (![2 / 3, 1] g)) 0 0 = 0 := by decide +kernel
example : StrictMono (![0, 3] : Fin 2 → ℕ) ∧ StrictMono (![2 / 3, 1] : Fin 2 → ℚ) := by
  constructor <;> · intro a b h; fin_cases a <;> fin_cases b <;> revert h <;> decide +kernel

end BSpline
