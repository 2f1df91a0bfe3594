import Verif.Props.Polygon
import Verif.Props.Regular
import Mathlib.LinearAlgebra.Matrix.Adjugate

/-!
# Total positivity: C151

No minor of a matrix of values of basis functions is negative. Hence interpolating alternating data gives
alternating control points, and of all data of a given size the alternating ones need the largest control points.
-/

set_option linter.unusedSectionVars false

namespace BSpline

open Finset

variable {K : Type} [Field K] [LinearOrder K] [IsStrictOrderedRing K] {d : ℕ}

/-! ### Refinement of basis functions -/

/-- unit vectors as control points -/
def unitPts (K : Type) [Field K] (n : ℕ) : List (Pt K (n + 1)) :=
  (List.range (n + 1)).map fun i ρ => if (ρ : ℕ) = i then 1 else 0

theorem fn_unitPts {n i : ℕ} (hi : i ≤ n) (ρ : Fin (n + 1)) : fn (unitPts K n) i ρ = if (ρ : ℕ) = i then 1 else 0 := by
  rw [unitPts, fn_map_range _ (by omega)]

theorem unit_sum {p n m : ℕ} (hm : m ≤ n) {U : List K} (x : K) :
    (∑ i ∈ range (n + 1), nb p n U i x • fn (unitPts K n) i) ⟨m, by omega⟩ = nb p n U m x := by
  rw [Finset.sum_apply]
  have : ∀ i ∈ range (n + 1), (nb p n U i x • fn (unitPts K n) i) ⟨m, by omega⟩ =
      if m = i then nb p n U i x else 0 := by
    intro i hi
    rw [mem_range] at hi
    rw [Pi.smul_apply, smul_eq_mul, fn_unitPts (by omega), mul_ite, mul_one, mul_zero]
  rw [sum_congr rfl this, sum_ite_eq, if_pos (mem_range.mpr (by omega))]

/-- a basis function is a combination of two neighbouring ones over knots with one more -/
theorem nb_refine {p n j : ℕ} {U : List K} {u : K} (hU : ClampedKnots 0 1 p n U) (h0 : 0 < u) (h1 : u < 1)
    (hs : IsSpan (fn U) n u j) :
    ∃ α : ℕ → K, (∀ i, 0 ≤ α i ∧ α i ≤ 1) ∧ ∀ x, 0 ≤ x → x ≤ 1 → ∀ m, m ≤ n →
      nb p n U m x = α m * nb p (n + 1) (insU U u j) m x +
        (1 - α (m + 1)) * nb p (n + 1) (insU U u j) (m + 1) x := by
  have hc := hU.clamp
  have hpj := hs.p_le hc
  have hjn := hs.le_n
  have hhi := hs.lt_hi hc h1
  have hlen := hU.length
  have hU' := insU_clamped hU h0 h1 hpj hjn hs.lo hs.le_hi
  refine ⟨fun i => if i ≤ j - p then 1 else if i ≤ j then (u - fn U i) / (fn U (i + p) - fn U i) else 0, ?_, ?_⟩
  · intro i
    dsimp only
    split
    · exact ⟨zero_le_one, le_rfl⟩
    · split
      · have e1 : fn U i ≤ u := (hc.mono (by assumption)).trans hs.lo
        have e2 : u < fn U (i + p) := hhi.trans_le (hc.mono (by omega))
        constructor
        · exact div_nonneg (by linarith) (by linarith)
        · rw [div_le_one (by linarith)]; linarith
      · exact ⟨le_rfl, zero_le_one⟩
  intro x hx0 hx1 m hm
  have hP : (unitPts K n).length = n + 1 := by simp [unitPts]
  have hP' : ((List.range (n + 2)).map (insP (fn U) p (fn (unitPts K n)) u j)).length = n + 1 + 1 := by simp
  have hsame : Same p 0 1 n (fn U) (fn (unitPts K n)) (n + 1) (fn (insU U u j))
      (fn ((List.range (n + 2)).map (insP (fn U) p (fn (unitPts K n)) u j))) := by
    have hs1 := same_insert hc hU'.clamp (insU_seq (by omega)) hpj hjn hs.lo hs.le_hi (fn (unitPts K n))
    intro v i i' a b hi hi' ts hts
    rw [← hs1 v i i' a b hi hi' ts hts]
    apply bl_congr_pts
    intro m hm
    have := hi'.le_n
    have := hi'.p_le hU'.clamp
    rw [fn_map_range _ (by omega)]
  have heq := evaluateDerivative_same hU hU' hP hP' hsame x 0
  change (canon p _ _).evaluate x = (canon p _ _).evaluate x at heq
  rw [evaluate_sum hU hP hx0 hx1, evaluate_sum hU' hP' hx0 hx1] at heq
  injection heq with heq; injection heq with heq
  have h := congrFun heq ⟨m, by omega⟩
  rw [unit_sum hm] at h
  rw [← h, Finset.sum_apply]
  have hterm : ∀ i ∈ range (n + 1 + 1), (nb p (n + 1) (insU U u j) i x •
      fn ((List.range (n + 2)).map (insP (fn U) p (fn (unitPts K n)) u j)) i) ⟨m, by omega⟩ =
      (if i = m then nb p (n + 1) (insU U u j) i x * (if i ≤ j - p then 1 else if i ≤ j then
        (u - fn U i) / (fn U (i + p) - fn U i) else 0) else 0) +
      (if i = m + 1 then nb p (n + 1) (insU U u j) i x * (1 - (if i ≤ j - p then 1 else if i ≤ j then
        (u - fn U i) / (fn U (i + p) - fn U i) else 0)) else 0) := by
    intro i hi
    rw [mem_range] at hi
    rw [Pi.smul_apply, smul_eq_mul, fn_map_range _ (by omega)]
    rcases Nat.lt_or_ge (j - p) i with h1 | h1
    · rw [if_neg (by omega : ¬ i ≤ j - p)]
      rcases Nat.lt_or_ge j i with h2 | h2
      · rw [if_neg (by omega : ¬ i ≤ j), insP_high h2, fn_unitPts (by omega)]
        by_cases h3 : i = m + 1
        · subst h3; simp
        · have : m ≠ i - 1 := by omega
          simp [h3, this]
      · rw [if_pos h2, insP_mid h1 h2, Pi.add_apply, Pi.smul_apply, Pi.smul_apply, fn_unitPts (by omega),
          fn_unitPts (by omega)]
        by_cases h3 : i = m + 1
        · subst h3; simp
        · by_cases h4 : i = m
          · subst h4
            have : i ≠ i - 1 := by omega
            simp [this]
          · have h5 : m ≠ i - 1 := by omega
            have h6 : m ≠ i := by omega
            simp [h3, h4, h5, h6]
    · rw [if_pos h1, insP_low h1, fn_unitPts (by omega)]
      by_cases h4 : i = m
      · subst h4; simp
      · have h6 : m ≠ i := by omega
        simp [h4, h6]
  rw [sum_congr rfl hterm, sum_add_distrib, sum_ite_eq', sum_ite_eq', if_pos (mem_range.mpr (by omega)),
    if_pos (mem_range.mpr (by omega))]
  ring

/-! ### Minors -/

/-- the columns `col` of the matrix of the values of basis functions -/
def minorOf (p n : ℕ) (U : List K) {k : ℕ} (τ : Fin k → K) (col : Fin k → ℕ) : Matrix (Fin k) (Fin k) K :=
  Matrix.of fun c g => nb p n U (col c) (τ g)

theorem det_two_rows {k : ℕ} (a b : Fin k → K) (y z : Fin k → Fin k → K) :
    (Matrix.of fun c => a c • y c + b c • z c).det =
      ∑ s : Finset (Fin k), (∏ c, s.piecewise a b c) * (Matrix.of (s.piecewise y z)).det := by
  change Matrix.detRowAlternating ((fun c => a c • y c) + fun c => b c • z c) = _
  rw [AlternatingMap.map_add_univ]
  refine sum_congr rfl fun s _ => ?_
  have : s.piecewise (fun c => a c • y c) (fun c => b c • z c) =
      fun c => s.piecewise a b c • s.piecewise y z c := by
    funext c
    by_cases hc : c ∈ s <;> simp [hc]
  rw [this, AlternatingMap.map_smul_univ]
  rfl

theorem minor_step {p n j k : ℕ} {U : List K} {u : K} (hU : ClampedKnots 0 1 p n U) (h0 : 0 < u) (h1 : u < 1)
    (hs : IsSpan (fn U) n u j) {τ : Fin k → K} (hτ : ∀ g, 0 ≤ τ g ∧ τ g ≤ 1)
    (ih : ∀ col : Fin k → ℕ, StrictMono col → (∀ c, col c ≤ n + 1) → 0 ≤ (minorOf p (n + 1) (insU U u j) τ col).det)
    {col : Fin k → ℕ} (hcol : StrictMono col) (hle : ∀ c, col c ≤ n) : 0 ≤ (minorOf p n U τ col).det := by
  obtain ⟨α, hα, hN⟩ := nb_refine hU h0 h1 hs
  have e : minorOf p n U τ col = Matrix.of fun c => α (col c) • (fun g => nb p (n + 1) (insU U u j) (col c) (τ g)) +
      (1 - α (col c + 1)) • (fun g => nb p (n + 1) (insU U u j) (col c + 1) (τ g)) := by
    ext c g
    exact hN (τ g) (hτ g).1 (hτ g).2 (col c) (hle c)
  rw [e, det_two_rows]
  refine sum_nonneg fun s _ => mul_nonneg (prod_nonneg fun c _ => ?_) ?_
  · by_cases hc : c ∈ s
    · rw [Finset.piecewise_eq_of_mem _ _ _ hc]; exact (hα _).1
    · rw [Finset.piecewise_eq_of_notMem _ _ _ hc]; linarith [(hα (col c + 1)).2]
  · set col' : Fin k → ℕ := fun c => if c ∈ s then col c else col c + 1 with hcol'
    have e' : (Matrix.of (s.piecewise (fun c g => nb p (n + 1) (insU U u j) (col c) (τ g))
        (fun c g => nb p (n + 1) (insU U u j) (col c + 1) (τ g)))) = minorOf p (n + 1) (insU U u j) τ col' := by
      ext c g
      simp only [minorOf, Matrix.of_apply, hcol']
      by_cases hc : c ∈ s <;> simp [hc]
    rw [e']
    have hb : ∀ c, col c ≤ col' c ∧ col' c ≤ col c + 1 := by
      intro c
      simp only [hcol']
      split <;> omega
    by_cases hst : StrictMono col'
    · exact ih col' hst fun c => (hb c).2.trans (by have := hle c; omega)
    · rw [StrictMono] at hst
      push Not at hst
      obtain ⟨c, c', hcc, hge⟩ := hst
      have := hcol hcc
      have h3 := hb c
      have h4 := hb c'
      rw [Matrix.det_zero_of_row_eq hcc.ne]
      funext g
      simp only [minorOf, Matrix.of_apply]
      rw [show col' c = col' c' by omega]

/-- a matrix with unit vectors as columns, in increasing order -/
theorem unit_minor {k : ℕ} {f col : Fin k → ℕ} (hf : Monotone f) (hcol : StrictMono col) :
    0 ≤ (Matrix.of fun c g => if col c = f g then (1 : K) else 0).det := by
  by_contra hneg
  have hne : (Matrix.of fun c g => if col c = f g then (1 : K) else 0).det ≠ 0 := fun h => hneg h.ge
  have hex : ∀ g, ∃ c, col c = f g := by
    intro g
    by_contra hno
    push Not at hno
    exact hne (Matrix.det_eq_zero_of_column_eq_zero g fun c => by simp [hno c])
  choose σ hσ using hex
  have hinj : Function.Injective σ := by
    intro g g' h
    by_contra hgg
    exact hne (Matrix.det_zero_of_column_eq hgg fun c => by
      simp only [Matrix.of_apply]
      rw [← hσ g, ← hσ g', h])
  have hmono : StrictMono σ := by
    refine Monotone.strictMono_of_injective ?_ hinj
    intro g g' h
    have := hf h
    rw [← hσ g, ← hσ g'] at this
    exact hcol.le_iff_le.mp this
  have hid : σ = id := by
    funext g
    have h1 : ∀ g, g ≤ σ g := fun g => hmono.le_apply
    have h2 : ∀ g, σ g ≤ g := fun g => hmono.apply_le
    exact le_antisymm (h2 g) (h1 g)
  apply hneg
  have : (Matrix.of fun c g => if col c = f g then (1 : K) else 0) = 1 := by
    ext c g
    simp only [Matrix.of_apply]
    rw [← hσ g, hid, Matrix.one_apply]
    simp [hcol.injective.eq_iff]
  rw [this, Matrix.det_one]
  exact zero_le_one

/-- all minors, as soon as every parameter is a knot of full multiplicity -/
theorem minor_base {p n k : ℕ} {V : List K} (hp : 1 ≤ p) (hV : ClampedKnots 0 1 p n V) {τ : Fin k → K}
    (hm : Monotone τ) (hτ : ∀ g, 0 ≤ τ g ∧ τ g ≤ 1) (hcount : ∀ g, 0 < τ g → τ g < 1 → p ≤ V.count (τ g))
    {col : Fin k → ℕ} (hcol : StrictMono col) (hle : ∀ c, col c ≤ n) : 0 ≤ (minorOf p n V τ col).det := by
  have hQ : (unitPts K n).length = n + 1 := by simp [unitPts]
  have hpos : ∀ u : K, (∃ g, τ g = u) → ∃ i, i ≤ n ∧
      (u < 1 → i + p ≤ n ∧ fn V (i + p) ≤ u ∧ (0 < u → fn V (i + p) = u)) ∧
      (u = 1 → i = n) ∧ (canon p V (unitPts K n)).evaluate u = .ok (.ok (fn (unitPts K n) i)) := by
    rintro u ⟨g, rfl⟩
    exact exists_position hp hV hQ (hτ g).1 (hτ g).2 (hcount g)
  choose! pos hpos using hpos
  have hmono : Monotone fun g => pos (τ g) := by
    intro g g' hg
    rcases (hm hg).lt_or_eq with huv | huv
    swap
    · simp only [huv, le_refl]
    obtain ⟨hu1, hu2, -, -⟩ := hpos (τ g) ⟨g, rfl⟩
    obtain ⟨hv1, hv2, hv3, -⟩ := hpos (τ g') ⟨g', rfl⟩
    have hu1' : τ g < 1 := huv.trans_le (hτ g').2
    have hv0 : 0 < τ g' := lt_of_le_of_lt (hτ g).1 huv
    dsimp only
    rcases (hτ g').2.lt_or_eq with h | h
    · obtain ⟨-, -, h3⟩ := hv2 h
      obtain ⟨-, h4, -⟩ := hu2 hu1'
      by_contra hle
      have := hV.clamp.mono (show pos (τ g') + p ≤ pos (τ g) + p by omega)
      rw [h3 hv0] at this
      exact absurd (huv.trans_le this) (not_lt.mpr h4)
    · have := hv3 h
      have := (hu2 hu1').1
      omega
  have e : minorOf p n V τ col = Matrix.of fun c g => if col c = pos (τ g) then (1 : K) else 0 := by
    ext c g
    obtain ⟨hi, -, -, hev⟩ := hpos (τ g) ⟨g, rfl⟩
    rw [evaluate_sum hV hQ (hτ g).1 (hτ g).2] at hev
    injection hev with hev; injection hev with hev
    have := congrFun hev ⟨col c, by have := hle c; omega⟩
    rw [unit_sum (hle c), fn_unitPts hi] at this
    exact this
  rw [e]
  exact unit_minor hmono hcol

theorem minor_refine {p k : ℕ} (hp : 1 ≤ p) {τ : Fin k → K} (hm : Monotone τ) (hτ : ∀ g, 0 ≤ τ g ∧ τ g ≤ 1)
    (L : List K) (hL : ∀ x ∈ L, 0 < x ∧ x < 1) : ∀ {n : ℕ} {U : List K}, ClampedKnots 0 1 p n U →
    (∀ g, 0 < τ g → τ g < 1 → p ≤ (L ++ U).count (τ g)) →
    ∀ {col : Fin k → ℕ}, StrictMono col → (∀ c, col c ≤ n) → 0 ≤ (minorOf p n U τ col).det := by
  induction L with
  | nil =>
    intro n U hU hcount col hcol hle
    exact minor_base hp hU hm hτ (by simpa using hcount) hcol hle
  | cons u L ih =>
    intro n U hU hcount col hcol hle
    obtain ⟨h0, h1⟩ := hL u (by simp)
    obtain ⟨j, hj⟩ := hU.clamp.exists_span h0.le h1.le
    have hc := hU.clamp
    have hlen := hU.length
    have hpj := hj.p_le hc
    have hjn := hj.le_n
    have hU' := insU_clamped hU h0 h1 hpj hjn hj.lo hj.le_hi
    refine minor_step hU h0 h1 hj hτ (fun col' hcol' hle' => ?_) hcol hle
    refine ih (fun x hx => hL x (by simp [hx])) hU' ?_ hcol' hle'
    intro g g0 g1
    have hperm : (L ++ insU U u j).Perm (u :: L ++ U) :=
      ((insU_perm U u j).append_left L).trans List.perm_middle
    rw [hperm.count_eq]
    exact hcount g g0 g1

/-- all minors -/
theorem minor_nonneg {p n k : ℕ} {U : List K} (hU : ClampedKnots 0 1 p n U) {τ : Fin k → K} (hm : Monotone τ)
    (hτ : ∀ g, 0 ≤ τ g ∧ τ g ≤ 1) {col : Fin k → ℕ} (hcol : StrictMono col) (hle : ∀ c, col c ≤ n) :
    0 ≤ (minorOf p n U τ col).det := by
  rcases Nat.eq_zero_or_pos p with rfl | hp
  · have hsp : ∀ g, ∃ j, IsSpan (fn U) n (τ g) j := fun g => hU.clamp.exists_span (hτ g).1 (hτ g).2
    choose f hf using hsp
    have hmono : Monotone f := by
      intro g g' hg
      by_contra hlt
      rcases (hf g').hi with h | ⟨h, -⟩
      · have := hU.clamp.mono (show f g' + 1 ≤ f g by omega)
        exact absurd (((this.trans (hf g).lo).trans (hm hg)).trans_lt h) (lt_irrefl _)
      · have := (hf g).le_n
        omega
    have e : minorOf 0 n U τ col = Matrix.of fun c g => if col c = f g then (1 : K) else 0 := by
      ext c g
      simp only [minorOf, Matrix.of_apply]
      rw [nb_eq_Bs hU (hf g)]
      simp [Bs, delta]
    rw [e]
    exact unit_minor hmono hcol
  · set us := (List.ofFn τ).filter (fun u => 0 < u ∧ u < 1) with hus
    refine minor_refine hp hm hτ (us.flatMap fun u => List.replicate p u) ?_ hU ?_ hcol hle
    · intro x hx
      rw [List.mem_flatMap] at hx
      obtain ⟨a, ha, hx⟩ := hx
      rw [hus, List.mem_filter] at ha
      rw [List.eq_of_mem_replicate hx]
      simpa using ha.2
    · intro g g0 g1
      have hmem : τ g ∈ us := by
        rw [hus, List.mem_filter]
        exact ⟨List.mem_ofFn.mpr ⟨g, rfl⟩, by simp [g0, g1]⟩
      obtain ⟨A, B, hAB⟩ := List.append_of_mem hmem
      rw [hAB, List.flatMap_append, List.flatMap_cons, List.count_append, List.count_append, List.count_append,
        List.count_replicate_self]
      omega

/-- **C151** No minor of the matrix of values of basis functions at increasing parameters is negative. -/
theorem C151_minors {p n k : ℕ} {U : List K} {kn : Knots K} (hU : ClampedKnots 0 1 p n U)
    (hk : Knots.new p U = .ok kn) {τ : Fin k → K} (hm : Monotone τ) (hτ : ∀ g, 0 ≤ τ g ∧ τ g ≤ 1)
    {col : Fin k → ℕ} (hcol : StrictMono col) (hle : ∀ c, col c ≤ n) (A : Matrix (Fin k) (Fin k) K)
    (hA : ∀ g c, kn.evaluate 0 (col c) p (τ g) = .ok (A g c)) : 0 ≤ A.det := by
  obtain ⟨-, rfl⟩ := knots_new_inv hk
  have e : A = (minorOf p n U τ col).transpose := by
    ext g c
    have := hA g c
    rw [nb_ok hU.length hU.le (hle c)] at this
    injection this with this
    exact this.symm
  rw [e, Matrix.det_transpose]
  exact minor_nonneg hU hm hτ hcol hle

/-- **C151** The determinant of an interpolation problem is positive exactly if no basis function vanishes at its
parameter; otherwise it is zero. -/
theorem C151_determinant {p n : ℕ} {U : List K} {kn : Knots K} (hU : ClampedKnots 0 1 p n U)
    (hk : Knots.new p U = .ok kn) {τ : ℕ → K} (hτ : ∀ i j, i < j → j ≤ n → τ i < τ j)
    (hb : ∀ i, i ≤ n → 0 ≤ τ i ∧ τ i ≤ 1) (A : Matrix (Fin (n + 1)) (Fin (n + 1)) K)
    (hA : ∀ g i : Fin (n + 1), kn.evaluate 0 i p (τ g) = .ok (A g i)) :
    0 ≤ A.det ∧ (0 < A.det ↔ ∀ i, 0 < A i i) := by
  have h0 : 0 ≤ A.det := C151_minors hU hk (τ := fun g : Fin (n + 1) => τ g) (col := fun c : Fin (n + 1) => (c : ℕ))
    (fun g g' h => by
      rcases h.lt_or_eq with h | rfl
      · exact (hτ _ _ h (by omega)).le
      · exact le_rfl) (fun g => hb g (by omega)) Fin.val_strictMono (fun c => by omega) A hA
  have hreg := C91_regular_iff hU hk hτ hb A hA
  have hd : ∀ i, 0 ≤ A i i := by
    intro i
    obtain ⟨-, rfl⟩ := knots_new_inv hk
    have := hA i i
    rw [nb_ok hU.length hU.le (by omega)] at this
    injection this with this
    rw [← this]
    obtain ⟨j, hs⟩ := hU.clamp.exists_span (hb i (by omega)).1 (hb i (by omega)).2
    rw [nb_eq_Bs hU hs]
    exact Bs_nonneg hU.clamp.mono hs.lo hs.le_hi p i
  refine ⟨h0, fun h i => lt_of_le_of_ne (hd i) (Ne.symm (hreg.mp h.ne' i)), fun h => ?_⟩
  exact lt_of_le_of_ne h0 (Ne.symm (hreg.mpr fun i => (h i).ne'))

/-! ### Alternating data -/

/-- **C151** A curve that is determined by its values at increasing parameters, and whose values alternate in a
coordinate, has control points that alternate in this coordinate, with the same sign at the beginning (`a`). -/
theorem C151_alternating {c : Curve K d} {p n : ℕ} {U : List K} {P : List (Pt K d)} {kn : Knots K}
    (hc : ValidOn 0 1 c p n U P) (hk : Knots.new p U = .ok kn) {τ : ℕ → K} (hτ : ∀ i j, i < j → j ≤ n → τ i < τ j)
    (hb : ∀ i, i ≤ n → 0 ≤ τ i ∧ τ i ≤ 1) (A : Matrix (Fin (n + 1)) (Fin (n + 1)) K)
    (hA : ∀ g i : Fin (n + 1), kn.evaluate 0 i p (τ g) = .ok (A g i)) (hreg : A.det ≠ 0) {w : ℕ → Pt K d}
    (hw : ∀ g, g ≤ n → c.evaluate (τ g) = .ok (.ok (w g))) {r : Fin d}
    {a : ℕ} (halt : ∀ g, g ≤ n → 0 ≤ (-1) ^ (g + a) * w g r) : ∀ i, i ≤ n → 0 ≤ (-1) ^ (i + a) * P.getD i 0 r := by
  have hU := hc.2.1
  have hP := hc.2.2
  have hdet : 0 < A.det := lt_of_le_of_ne (C151_determinant hU hk hτ hb A hA).1 (Ne.symm hreg)
  have hminor : ∀ g i : Fin (n + 1), 0 ≤ (A.submatrix g.succAbove i.succAbove).det := by
    intro g i
    refine C151_minors hU hk (τ := fun a : Fin n => τ (g.succAbove a)) (col := fun a : Fin n => (i.succAbove a : ℕ))
      ?_ (fun a => hb _ (by omega)) ?_ (fun a => by omega) _ (fun a b => ?_)
    · intro a b hab
      rcases hab.lt_or_eq with h | rfl
      · exact (hτ _ _ (Fin.strictMono_succAbove g h) (by omega)).le
      · exact le_rfl
    · intro a b hab
      exact Fin.strictMono_succAbove i hab
    · exact hA _ _
  intro i hi
  obtain ⟨-, rfl⟩ := knots_new_inv hk
  obtain rfl := hc.eq_canon
  have hA' : ∀ g i : Fin (n + 1), A g i = nb p n U i (τ g) := by
    intro g i
    have := hA g i
    rw [nb_ok hU.length hU.le (by omega)] at this
    injection this with this
    exact this.symm
  have hsys : A.mulVec (fun i : Fin (n + 1) => fn P i r) = fun g : Fin (n + 1) => w g r := by
    funext g
    have := hw g (by omega)
    rw [evaluate_sum hU hP (hb g (by omega)).1 (hb g (by omega)).2] at this
    injection this with this; injection this with this
    rw [← this, Finset.sum_apply, Matrix.mulVec, dotProduct,
      ← Fin.sum_univ_eq_sum_range (fun i => (nb p n U i (τ g) • fn P i) r) (n + 1)]
    refine sum_congr rfl fun i _ => ?_
    rw [hA', Pi.smul_apply, smul_eq_mul]
  have hcr : A.det * fn P i r = ∑ g : Fin (n + 1), A.adjugate ⟨i, by omega⟩ g * w g r := by
    have := congrArg (A.adjugate.mulVec) hsys
    rw [Matrix.mulVec_mulVec, Matrix.adjugate_mul, Matrix.smul_mulVec, Matrix.one_mulVec] at this
    exact congrFun this ⟨i, by omega⟩
  have hget : P.getD i 0 r = fn P i r := by
    rw [fn_lt (by omega)]; simp [show i < P.length by omega]
  rw [hget]
  refine nonneg_of_mul_nonneg_right (a := A.det) ?_ hdet
  rw [mul_left_comm, hcr, mul_sum]
  refine sum_nonneg fun g _ => ?_
  rw [Matrix.adjugate_fin_succ_eq_det_submatrix]
  have e : (-1 : K) ^ (i + a) * ((-1) ^ ((g : ℕ) + i) * (A.submatrix g.succAbove (Fin.succAbove ⟨i, by omega⟩)).det * w g r) =
      (A.submatrix g.succAbove (Fin.succAbove ⟨i, by omega⟩)).det * ((-1) ^ ((g : ℕ) + a) * w g r) := by
    have : (-1 : K) ^ i * (-1) ^ i = 1 := by rw [← mul_pow]; simp
    rw [pow_add, pow_add, pow_add]
    linear_combination ((-1) ^ (g : ℕ) * (-1) ^ a * (A.submatrix g.succAbove (Fin.succAbove ⟨i, by omega⟩)).det * w g r) * this
  rw [e]
  exact mul_nonneg (hminor _ _) (halt g (by omega))

/-- **C151** A single datum different from zero: the control points alternate, and the one with the same number has
the sign of the datum. -/
theorem C151_single {c : Curve K d} {p n : ℕ} {U : List K} {P : List (Pt K d)} {kn : Knots K}
    (hc : ValidOn 0 1 c p n U P) (hk : Knots.new p U = .ok kn) {τ : ℕ → K} (hτ : ∀ i j, i < j → j ≤ n → τ i < τ j)
    (hb : ∀ i, i ≤ n → 0 ≤ τ i ∧ τ i ≤ 1) (A : Matrix (Fin (n + 1)) (Fin (n + 1)) K)
    (hA : ∀ g i : Fin (n + 1), kn.evaluate 0 i p (τ g) = .ok (A g i)) (hreg : A.det ≠ 0) {w : ℕ → Pt K d}
    (hw : ∀ g, g ≤ n → c.evaluate (τ g) = .ok (.ok (w g))) {r : Fin d} {j : ℕ} (hj : 0 ≤ w j r)
    (hz : ∀ g, g ≤ n → g ≠ j → w g r = 0) : ∀ i, i ≤ n → 0 ≤ (-1) ^ (i + j) * P.getD i 0 r := by
  refine C151_alternating hc hk hτ hb A hA hreg hw ?_
  intro g hg
  by_cases h : g = j
  · subst h
    rw [← two_mul, pow_mul]
    simpa using hj
  · rw [hz g hg h, mul_zero]

theorem fn_comb {P Q : List (Pt K d)} {n i : ℕ} (hP : P.length = n + 1) (hQ : Q.length = n + 1) (s : K) (hi : i ≤ n) :
    fn (List.zipWith (fun a b => a + s • b) P Q) i = fn P i + s • fn Q i := by
  rw [fn_lt (by simp; omega), fn_lt (by omega), fn_lt (by omega), List.getElem_zipWith]

/-- **C151** Of all data of a given size the alternating ones need the largest control points: if no value of a curve
at the parameters exceeds `B`, no control point exceeds the corresponding one of the curve with the values
`B, -B, B, …`. -/
theorem C151_worst {c e : Curve K d} {p n : ℕ} {U : List K} {P Q : List (Pt K d)} {kn : Knots K}
    (hc : ValidOn 0 1 c p n U P) (he : ValidOn 0 1 e p n U Q)
    (hk : Knots.new p U = .ok kn) {τ : ℕ → K} (hτ : ∀ i j, i < j → j ≤ n → τ i < τ j)
    (hb : ∀ i, i ≤ n → 0 ≤ τ i ∧ τ i ≤ 1) (A : Matrix (Fin (n + 1)) (Fin (n + 1)) K)
    (hA : ∀ g i : Fin (n + 1), kn.evaluate 0 i p (τ g) = .ok (A g i)) (hreg : A.det ≠ 0) {w v : ℕ → Pt K d}
    (hw : ∀ g, g ≤ n → c.evaluate (τ g) = .ok (.ok (w g))) (hv : ∀ g, g ≤ n → e.evaluate (τ g) = .ok (.ok (v g)))
    {r : Fin d} {B : K} (hwB : ∀ g, g ≤ n → |w g r| ≤ B) (hvB : ∀ g, g ≤ n → v g r = (-1) ^ g * B) :
    ∀ i, i ≤ n → |P.getD i 0 r| ≤ (-1) ^ i * Q.getD i 0 r := by
  obtain rfl := hc.eq_canon
  obtain rfl := he.eq_canon
  have hU := hc.2.1
  have hP := hc.2.2
  have hQ := he.2.2
  have key : ∀ s : K, s = 1 ∨ s = -1 → ∀ i, i ≤ n → 0 ≤ (-1) ^ i * (Q.getD i 0 r + s * P.getD i 0 r) := by
    intro s hs i hi
    have hl : (List.zipWith (fun a b => a + s • b) Q P).length = n + 1 := by simp [hP, hQ]
    have := C151_alternating (validOn_canon hU hl) hk hτ hb A hA hreg (w := fun g => v g + s • w g) (r := r) (a := 0)
      (fun g hg => by
        have h1 := hw g hg
        have h2 := hv g hg
        rw [evaluate_sum hU hP (hb g hg).1 (hb g hg).2] at h1
        rw [evaluate_sum hU hQ (hb g hg).1 (hb g hg).2] at h2
        injection h1 with h1; injection h1 with h1
        injection h2 with h2; injection h2 with h2
        rw [evaluate_sum hU hl (hb g hg).1 (hb g hg).2, ← h1, ← h2, smul_sum, ← sum_add_distrib]
        congr 2
        refine sum_congr rfl fun m hm => ?_
        rw [mem_range] at hm
        rw [fn_comb hQ hP s (by omega), smul_add, smul_comm]) (fun g hg => by
        have h1 := abs_le.mp (hwB g hg)
        have h2 : (-1 : K) ^ g * (-1) ^ g = 1 := by rw [← mul_pow]; simp
        rw [Nat.add_zero, Pi.add_apply, Pi.smul_apply, smul_eq_mul, hvB g hg, mul_add, ← mul_assoc, h2, one_mul]
        rcases hs with rfl | rfl <;> rcases neg_one_pow_eq_or K g with h3 | h3 <;> rw [h3] <;> linarith) i hi
    rw [Nat.add_zero] at this
    have e1 : (List.zipWith (fun a b => a + s • b) Q P).getD i 0 r = Q.getD i 0 r + s * P.getD i 0 r := by
      have h1 : i < Q.length := by omega
      have h2 : i < P.length := by omega
      simp [h1, h2]
    rwa [e1] at this
  intro i hi
  have h1 := key 1 (Or.inl rfl) i hi
  have h2 := key (-1) (Or.inr rfl) i hi
  rcases neg_one_pow_eq_or K i with h3 | h3 <;> rw [h3] at h1 h2 ⊢ <;> rw [abs_le] <;> constructor <;> linarith

/-- **C151** `generate` with interpolation: alternating data give alternating control points. -/
theorem C151_interpolation [Trunc K] [Sqrt K] {p m : ℕ} {pts : DataPoints K d} {solver : Solver K d} (hs : solver.Exact)
    (h1 : 1 ≤ p) (h2 : p ≤ m) (hm : List.length pts = m + 1) {r : Fin d}
    (halt : ∀ (g : ℕ) q, pts[g]? = some q → 0 ≤ (-1) ^ g * q r) :
    ∃ (c : Curve K d) (U : List K) (P : List (Pt K d)), generate solver (.interpolation p pts) = .ok (.ok c) ∧
      ValidOn 0 1 c p m U P ∧ ∀ (i : ℕ) q, P[i]? = some q → 0 ≤ (-1) ^ i * q r := by
  obtain ⟨c, kn, U, P, hg, -, hkn, hU, hc, hev⟩ := C40_interpolation hs h1 h2 hm
  refine ⟨c, U, P, hg, hc, ?_⟩
  obtain ⟨ps, h3, h3', h4, h5, -⟩ := C39_equally_spaced (K := K) (m := m) (by omega)
  have hm0 : (0 : K) < (m : K) := by exact_mod_cast (by omega : 0 < m)
  have hkn' := hkn
  rw [uniform_ok h1 h2] at hkn
  injection hkn with hkn; injection hkn with hkn
  have hUe : U = genU p m (uniK (K := K) p m) := by
    rw [← hkn, canonKnots_vector] at hU
    injection hU with hU
    exact hU.symm
  have hnew : Knots.new p U = .ok kn := by rw [hUe, ← hkn]; exact genKnots_new h2 _
  have hlen := hc.2.1.length
  let A : Matrix (Fin (m + 1)) (Fin (m + 1)) K := Matrix.of fun g i => nb p m U i ((g : ℕ) / (m : K))
  have hA : ∀ g i : Fin (m + 1), kn.evaluate 0 i p (((g : ℕ) : K) / (m : K)) = .ok (A g i) := by
    intro g i
    obtain ⟨-, rfl⟩ := knots_new_inv hnew
    exact nb_ok hlen h2 (by omega) _
  have hreg : A.det ≠ 0 := C41_regular h1 h2 hkn' h3 A (fun g i => by
    rw [List.getD_eq_getElem?_getD, h5 g (by omega)]
    exact hA g i)
  have := C151_alternating hc hnew (τ := fun g => (g : K) / (m : K))
    (fun i j hij _ => (div_lt_div_iff_of_pos_right hm0).mpr (by exact_mod_cast hij))
    (fun i hi => ⟨by positivity, by rw [div_le_one hm0]; exact_mod_cast hi⟩) A hA hreg (w := fn pts)
    (fun g hg => by
      have hgl : g < List.length pts := by omega
      exact hev g _ (by rw [List.getElem?_eq_getElem hgl, fn_lt hgl])) (r := r) (a := 0) (fun g hg => by
      have hgl : g < List.length pts := by omega
      exact halt g _ (by rw [List.getElem?_eq_getElem hgl, fn_lt hgl]))
  intro i q hi
  obtain ⟨hil, rfl⟩ := List.getElem?_eq_some_iff.mp hi
  have h := this i (by have := hc.2.2; omega)
  simpa [hil] using h

/-! ### Concrete cases -/

-- a quadratic curve, with parameters at which no basis function vanishes, and a single datum
def tpU : List ℚ := [0, 0, 0, 1 / 2, 1, 1, 1]
def tpP : List (Pt ℚ 1) := [![0], ![3 / 2], ![-1 / 2], ![0]]

example : ClampedKnots 0 1 2 3 tpU := by decide +kernel
example : ValidOn 0 1 (canon 2 tpU tpP) 2 3 tpU tpP := validOn_canon (by decide +kernel) rfl
example : (canon 2 tpU tpP).evaluate 0 = .ok (.ok ![0]) ∧ (canon 2 tpU tpP).evaluate (1 / 3) = .ok (.ok ![8 / 9]) ∧
    (canon 2 tpU tpP).evaluate (2 / 3) = .ok (.ok ![0]) ∧ (canon 2 tpU tpP).evaluate 1 = .ok (.ok ![0]) := by
  decide +kernel

-- without the order of the parameters a minor is negative
example : (Matrix.of ![![nb 1 1 ([0, 0, 1, 1] : List ℚ) 0 1, nb 1 1 ([0, 0, 1, 1] : List ℚ) 1 1],
    ![nb 1 1 ([0, 0, 1, 1] : List ℚ) 0 0, nb 1 1 ([0, 0, 1, 1] : List ℚ) 1 0]]).det < 0 := by
  rw [Matrix.det_fin_two]
  decide +kernel

end BSpline
