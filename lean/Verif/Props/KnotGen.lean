import Verif.Props.Predicates
import Verif.Spec.Scalars
import Mathlib.Algebra.BigOperators.Intervals
import Mathlib.Algebra.Order.BigOperators.Group.Finset
import Mathlib.Tactic.Linarith
import Mathlib.Tactic.FieldSimp
import Mathlib.Tactic.Ring
import Mathlib.Tactic.Positivity

/-!
# Knot generation: C35, C36, C37, C38
-/

set_option linter.unusedSectionVars false

namespace BSpline

open Finset

/-! ### C38 -/

section
variable {K : Type} [Add K] [Sub K] [Mul K] [Div K] [Neg K] [Zero K] [One K] [NatCast K] [Cmp K]

/-- **C38** `uniform`: the two errors occur exactly for `p = 0` and `p > n`; otherwise the result is
a knot vector of degree `p` with `n` segments and `n + p + 2` knots. In any arithmetic. -/
theorem C38_uniform (p n : ℕ) :
    (p = 0 → uniform (K := K) p n = .ok (.error (.degreeTooLow p 0))) ∧
    (1 ≤ p → n < p → uniform (K := K) p n = .ok (.error (.degreeAndSegmentsMismatch p n))) ∧
    (1 ≤ p → p ≤ n → ∃ kn U, uniform (K := K) p n = .ok (.ok kn) ∧ kn.degree = p ∧
      kn.segments = .ok n ∧ kn.vector = .ok U ∧ U.length = n + p + 2 ∧ Knots.new p U = .ok kn) := by
  refine ⟨?_, ?_, ?_⟩
  · intro h; rw [uniform, inputCheck, if_pos h]; rfl
  · intro h1 h2; rw [uniform, inputCheck, if_neg (by omega), if_pos h2]; rfl
  · intro h1 h2
    exact ⟨_, _, uniform_ok h1 h2, rfl, canonKnots_segments (genU_length ..), canonKnots_vector _,
      genU_length .., genKnots_new h2 _⟩

/-- **C38** `averaging`: as for `uniform`, with a parameter vector of at least `n` entries. -/
theorem C38_averaging (p n : ℕ) (params : Parameters K) :
    (p = 0 → averaging p n params = .ok (.error (.degreeTooLow p 0))) ∧
    (1 ≤ p → n < p → averaging p n params = .ok (.error (.degreeAndSegmentsMismatch p n))) ∧
    (1 ≤ p → p ≤ n → n ≤ params.vector.length → ∃ kn U, averaging p n params = .ok (.ok kn) ∧
      kn.degree = p ∧ kn.segments = .ok n ∧ kn.vector = .ok U ∧ U.length = n + p + 2 ∧
      Knots.new p U = .ok kn) := by
  refine ⟨?_, ?_, ?_⟩
  · intro h; rw [averaging, inputCheck, if_pos h]; rfl
  · intro h1 h2; rw [averaging, inputCheck, if_neg (by omega), if_pos h2]; rfl
  · intro h1 h2 h3
    exact ⟨_, _, averaging_ok h1 h2 h3, rfl, canonKnots_segments (genU_length ..), canonKnots_vector _,
      genU_length .., genKnots_new h2 _⟩

/-- **C38** `de_boor`: the input errors, in any arithmetic. -/
theorem C38_de_boor_errors [Trunc K] (p n : ℕ) (params : Parameters K) :
    (p = 0 → deBoor p n params = .ok (.error (.degreeTooLow p 0))) ∧
    (1 ≤ p → n < p → deBoor p n params = .ok (.error (.degreeAndSegmentsMismatch p n))) := by
  refine ⟨?_, ?_⟩
  · intro h; rw [deBoor, inputCheck, if_pos h]; rfl
  · intro h1 h2; rw [deBoor, inputCheck, if_neg (by omega), if_pos h2]; rfl

end

variable {K : Type} [Field K] [LinearOrder K] [IsStrictOrderedRing K]

/-! ### C35 -/

/-- **C35** For `1 ≤ p ≤ n`, `uniform(p, n)` is a valid clamped knot vector on `[0, 1]` whose domain
knots are `j / (n - p + 1)` for `j = 0, ..., n - p + 1`; so they are equidistant and strictly
increasing. `is_uniform`, `is_clamped`, `is_normed` and `is_sorted` accept it. -/
theorem C35_uniform {p n : ℕ} (h1 : 1 ≤ p) (h2 : p ≤ n) :
    ∃ (kn : Knots K) (U : List K), uniform p n = .ok (.ok kn) ∧ kn.vector = .ok U ∧
      ClampedKnots 0 1 p n U ∧
      (∀ j, j ≤ n - p + 1 → U[p + j]? = some ((j : K) / ((n - p + 1 : ℕ) : K))) ∧
      isUniform kn = .ok (.ok true) ∧ kn.isClamped = .ok true ∧ kn.isNormed = .ok true ∧
      kn.isSorted = .ok true := by
  have hpos : (0 : K) < ((n - p + 1 : ℕ) : K) := by exact_mod_cast Nat.succ_pos _
  have hU : ClampedKnots 0 1 p n (genU p n (uniK (K := K) p n)) := by
    apply genU_clamped h2
    · intro j hj1 hj2
      constructor
      · exact div_pos (by exact_mod_cast hj1) hpos
      · rw [uniK, div_lt_one hpos]; exact_mod_cast Nat.lt_succ_of_le hj2
    · intro j hj1 hj2
      rw [uniK, uniK]
      exact div_le_div_of_nonneg_right (by exact_mod_cast Nat.le_succ j) hpos.le
  have hl := hU.length
  have hp := C50_valid (canonKnots_vector (p := p) _) rfl hU
  refine ⟨_, _, uniform_ok h1 h2, canonKnots_vector _, hU, ?_, ?_, hp.2.1, hp.2.2, hp.1⟩
  · intro j hj
    rw [List.getElem?_eq_getElem (by omega), ← fn_lt, fn_genU (by omega)]
    congr 1
    by_cases e1 : j = 0
    · subst e1; rw [if_pos (by omega)]; simp
    · rw [if_neg (by omega)]
      by_cases e2 : p + j ≤ n
      · rw [if_pos e2, uniK]; congr 2; omega
      · rw [if_neg e2, show j = n - p + 1 by omega, div_self hpos.ne']
  · obtain ⟨b, h3, h4⟩ := C50_is_uniform (p := p) (canonKnots_vector (p := p) (genU p n (uniK (K := K) p n)))
      rfl hl h1 h2
    rw [h3]
    congr 2
    rw [h4]
    intro i hi
    rw [← fn_lt hi, fn_genU (by omega)]
    refine ⟨fun h => by rw [if_pos h], fun h => by rw [if_neg (by omega), if_neg (by omega)],
      fun h h' => by rw [if_neg (by omega), if_pos h']; rfl⟩

/-- non-vacuity -/
example : ∃ kn : Knots ℚ, uniform 2 5 = .ok (.ok kn) ∧
    kn.vector = .ok [0, 0, 0, 1 / 4, 1 / 2, 3 / 4, 1, 1, 1] :=
  ⟨_, uniform_ok (by omega) (by omega), by decide +kernel⟩

/-! ### C36 -/

theorem winSum_eq (ub : List K) (p j : ℕ) : winSum ub p j = ∑ i ∈ range p, fn ub (j + i) := by
  have : ∀ (p j : ℕ) (s : K), (List.range' j p).foldl (fun s i => s + fn ub i) s =
      s + ∑ i ∈ range p, fn ub (j + i) := by
    intro p
    induction p with
    | zero => intro j s; simp
    | succ p ih =>
      intro j s
      rw [List.range'_succ, List.foldl_cons, ih, Finset.sum_range_succ', add_zero]
      have : ∀ i, j + 1 + i = j + (i + 1) := by intro i; omega
      simp only [this]
      ring
  rw [winSum, this, zero_add]

/-- strictly increasing parameters -/
theorem fn_strict {ub : List K} (h : ub.Pairwise (· < ·)) {i j : ℕ} (hij : i < j)
    (hj : j < ub.length) : fn ub i < fn ub j := by
  rw [fn_lt (by omega), fn_lt hj]
  exact List.pairwise_iff_getElem.mp h i j (by omega) hj hij

/-- **C36** For `1 ≤ p ≤ n` and `n + 1` strictly increasing parameters from `0` to `1`,
`averaging(p, n, params)` is a valid clamped knot vector; its `j`-th interior knot is the mean of
the `p` parameters `j, ..., j + p - 1`; the interior knots increase strictly; and the
Schoenberg-Whitney condition holds strictly for the inner parameters. -/
theorem C36_averaging {p n : ℕ} (h1 : 1 ≤ p) (h2 : p ≤ n) {params : Parameters K}
    (hl : params.vector.length = n + 1) (hs : params.vector.Pairwise (· < ·))
    (h0 : params.vector[0]? = some 0) (hn : params.vector[n]? = some 1) :
    ∃ (kn : Knots K) (U : List K), averaging p n params = .ok (.ok kn) ∧ kn.vector = .ok U ∧
      ClampedKnots 0 1 p n U ∧
      (∀ j, 1 ≤ j → j ≤ n - p →
        U[p + j]? = some ((∑ i ∈ range p, params.vector.getD (j + i) 0) / (p : K))) ∧
      (∀ i, p ≤ i → i ≤ n → U.getD i 0 < U.getD (i + 1) 0) ∧
      (∀ i, 1 ≤ i → i < n → U.getD i 0 < params.vector.getD i 0 ∧
        params.vector.getD i 0 < U.getD (i + p + 1) 0) := by
  have hub := averaging_ok (params := params) h1 h2 (by omega)
  generalize params.vector = ub at *
  have hF0 : fn ub 0 = 0 := by
    rw [List.getElem?_eq_getElem (by omega)] at h0
    rw [fn_lt (by omega)]; exact Option.some.inj h0
  have hFn : fn ub n = 1 := by
    rw [List.getElem?_eq_getElem (by omega)] at hn
    rw [fn_lt (by omega)]; exact Option.some.inj hn
  have hst : ∀ {i j : ℕ}, i < j → j ≤ n → fn ub i < fn ub j :=
    fun h h' => fn_strict hs h (by omega)
  have hpos : ∀ {i : ℕ}, 1 ≤ i → i ≤ n → 0 < fn ub i := fun h h' => hF0 ▸ hst h h'
  have hlt1 : ∀ {i : ℕ}, i < n → fn ub i < 1 := fun h => hFn ▸ hst h le_rfl
  have hp0 : (0 : K) < (p : K) := by exact_mod_cast h1
  have hne : (range p).Nonempty := ⟨0, by simpa using (show 0 < p by omega)⟩
  set f : ℕ → K := fun j => winSum ub p j / (p : K) with hf
  -- means
  have mean_lt : ∀ j x, (∀ i, i < p → fn ub (j + i) < x) → f j < x := by
    intro j x h
    rw [hf]; dsimp only
    rw [winSum_eq, div_lt_iff₀ hp0]
    calc ∑ i ∈ range p, fn ub (j + i) < ∑ _i ∈ range p, x :=
          sum_lt_sum_of_nonempty hne (fun i hi => h i (by simpa using hi))
      _ = x * p := by rw [sum_const, card_range, nsmul_eq_mul, mul_comm]
  have lt_mean : ∀ j x, (∀ i, i < p → x < fn ub (j + i)) → x < f j := by
    intro j x h
    rw [hf]; dsimp only
    rw [winSum_eq, lt_div_iff₀ hp0]
    calc x * p = ∑ _i ∈ range p, x := by rw [sum_const, card_range, nsmul_eq_mul, mul_comm]
      _ < ∑ i ∈ range p, fn ub (j + i) :=
          sum_lt_sum_of_nonempty hne (fun i hi => h i (by simpa using hi))
  have f01 : ∀ j, 1 ≤ j → j ≤ n - p → 0 < f j ∧ f j < 1 := fun j hj1 hj2 =>
    ⟨lt_mean j 0 (fun i hi => hpos (by omega) (by omega)),
      mean_lt j 1 (fun i hi => hlt1 (by omega))⟩
  have fst : ∀ j, 1 ≤ j → j + 1 ≤ n - p → f j < f (j + 1) := by
    intro j hj1 hj2
    rw [hf]; dsimp only
    rw [winSum_eq, winSum_eq]
    apply div_lt_div_of_pos_right _ hp0
    exact sum_lt_sum_of_nonempty hne (fun i hi => hst (by omega) (by simp at hi; omega))
  have hU : ClampedKnots 0 1 p n (genU p n f) :=
    genU_clamped h2 f01 (fun j a b => (fst j a b).le)
  have hlen := hU.length
  have hg : ∀ i, i < n + p + 2 → (genU p n f).getD i 0 =
      if i ≤ p then 0 else if i ≤ n then f (i - p) else 1 := by
    intro i hi
    rw [List.getD_eq_getElem _ _ (by omega), ← fn_lt, fn_genU hi]
  have hgu : ∀ i, i < ub.length → ub.getD i 0 = fn ub i := by
    intro i hi
    rw [List.getD_eq_getElem _ _ hi, ← fn_lt]
  refine ⟨_, _, hub, canonKnots_vector _, hU, ?_, ?_, ?_⟩
  · intro j hj1 hj2
    rw [List.getElem?_eq_getElem (by omega), ← fn_lt, fn_genU (by omega), if_neg (by omega),
      if_pos (by omega), show p + j - p = j by omega, hf]
    dsimp only
    rw [winSum_eq]
    congr 2
    apply sum_congr rfl
    intro i hi
    rw [hgu _ (by simp at hi; omega)]
  · intro i hi1 hi2
    rw [hg i (by omega), hg (i + 1) (by omega), if_neg (by omega : ¬ i + 1 ≤ p)]
    by_cases e1 : i ≤ p
    · rw [if_pos e1]
      split
      · exact (f01 _ (by omega) (by omega)).1
      · exact zero_lt_one
    · rw [if_neg e1, if_pos hi2]
      split
      · rw [show i + 1 - p = i - p + 1 by omega]; exact fst _ (by omega) (by omega)
      · exact (f01 _ (by omega) (by omega)).2
  · intro i hi1 hi2
    rw [hg i (by omega), hg (i + p + 1) (by omega), hgu i (by omega), if_neg (by omega : ¬ i + p + 1 ≤ p)]
    constructor
    · split
      · exact hpos hi1 hi2.le
      · rw [if_pos hi2.le]
        exact mean_lt _ _ (fun m hm => hst (by omega) hi2.le)
    · split
      · exact lt_mean _ _ (fun m hm => hst (by omega) (by omega))
      · exact hlt1 hi2

/-- non-vacuity: parameters that are not equidistant -/
example : ∃ kn : Knots ℚ, averaging 2 4 ⟨[0, 1 / 8, 1 / 4, 3 / 4, 1], 4⟩ = .ok (.ok kn) ∧
    kn.vector = .ok [0, 0, 0, 3 / 16, 1 / 2, 1, 1, 1] :=
  ⟨_, averaging_ok (by omega) (by omega) (by decide), by decide +kernel⟩
example : ([0, 1 / 8, 1 / 4, 3 / 4, 1] : List ℚ).Pairwise (· < ·) := by decide +kernel

/-! ### C37 -/

section
variable [Trunc K] [LawfulTrunc K]

/-- position and index of the `j`-th de Boor knot -/
theorem deBoor_pos {p n j : ℕ} (h1 : 1 ≤ p) (h2 : p ≤ n) (hj1 : 1 ≤ j) (hj2 : j ≤ n - p) :
    let dd : K := ((n + 1 : ℕ) : K) / ((n - p + 1 : ℕ) : K)
    let i := Trunc.trunc ((j : K) * dd)
    1 < dd ∧ 1 ≤ i ∧ i ≤ n - 1 ∧ (i : K) ≤ (j : K) * dd ∧ (j : K) * dd < (i : K) + 1 ∧
      (i = 1 → 0 < (j : K) * dd - (i : K)) := by
  intro dd i
  have hpos : (0 : K) < ((n - p + 1 : ℕ) : K) := by exact_mod_cast Nat.succ_pos _
  have hdd : 1 < dd := by
    rw [one_lt_div hpos]; exact_mod_cast (by omega : n - p + 1 < n + 1)
  have hj1' : (1 : K) ≤ (j : K) := by exact_mod_cast hj1
  have hjd : 1 < (j : K) * dd := by nlinarith
  have hi1 : (i : K) ≤ (j : K) * dd := LawfulTrunc.le _ (by linarith)
  have hi2 : (j : K) * dd < (i : K) + 1 := LawfulTrunc.lt _ (by linarith)
  have hjn : (j : K) * dd < (n : K) := by
    have e : (j : K) * dd = (j : K) * ((n + 1 : ℕ) : K) / ((n - p + 1 : ℕ) : K) := by
      simp only [dd]; ring
    rw [e, div_lt_iff₀ hpos]
    have : j * (n + 1) < n * (n - p + 1) := by
      obtain ⟨q, rfl⟩ := Nat.exists_eq_add_of_le h2
      have : p + q - p = q := by omega
      rw [this] at hj2 ⊢
      have h3 := Nat.mul_le_mul_right (p + q + 1) hj2
      have h4 : q * (p + q + 1) < (p + q) * (q + 1) := by nlinarith
      omega
    exact_mod_cast this
  refine ⟨hdd, ?_, ?_, hi1, hi2, ?_⟩
  · by_contra h
    have : i = 0 := by omega
    rw [this] at hi2
    simp at hi2; linarith
  · have : (i : K) < (n : K) := by linarith
    have : i < n := by exact_mod_cast this
    omega
  · intro h
    rw [h]; push_cast; linarith

/-- **C38** `de_boor` with exact truncation does not panic if there are at least `n` parameters. -/
theorem C38_de_boor {p n : ℕ} (h1 : 1 ≤ p) (h2 : p ≤ n) {params : Parameters K}
    (hl : n ≤ params.vector.length) : ∃ kn U, deBoor p n params = .ok (.ok kn) ∧
      kn.degree = p ∧ kn.segments = .ok n ∧ kn.vector = .ok U ∧ U.length = n + p + 2 ∧
      Knots.new p U = .ok kn :=
  ⟨_, _, deBoor_ok (params := params) h1 h2 (by
    intro j hj1 hj2
    obtain ⟨-, a, b, -, -, -⟩ := deBoor_pos (K := K) h1 h2 hj1 hj2
    exact ⟨a, by omega⟩), rfl, canonKnots_segments (genU_length ..), canonKnots_vector _,
      genU_length .., genKnots_new h2 _⟩

/-- **C37, C38** For `1 ≤ p ≤ n` and at least `n + 1` strictly increasing parameters in `[0, 1]`,
`de_boor(p, n, params)` does not panic and returns a valid clamped knot vector with strictly
increasing domain knots, each of whose spans contains a parameter (one of the first `n`; and
in its interior, except perhaps for the first span). -/
theorem C37_de_boor {p n : ℕ} (h1 : 1 ≤ p) (h2 : p ≤ n) {params : Parameters K}
    (hl : n + 1 ≤ params.vector.length) (hs : params.vector.Pairwise (· < ·))
    (hb : ∀ x ∈ params.vector, 0 ≤ x ∧ x ≤ 1) :
    ∃ (kn : Knots K) (U : List K), deBoor p n params = .ok (.ok kn) ∧ kn.vector = .ok U ∧
      kn.degree = p ∧ ClampedKnots 0 1 p n U ∧
      (∀ i, p ≤ i → i ≤ n → U.getD i 0 < U.getD (i + 1) 0) ∧
      (∀ i, p ≤ i → i ≤ n → ∃ k, k < n ∧ U.getD i 0 ≤ params.vector.getD k 0 ∧
        params.vector.getD k 0 < U.getD (i + 1) 0 ∧ (p < i → U.getD i 0 < params.vector.getD k 0)) := by
  have hub := deBoor_ok (params := params) h1 h2 (by
    intro j hj1 hj2
    obtain ⟨-, a, b, -, -, -⟩ := deBoor_pos (K := K) h1 h2 hj1 hj2
    exact ⟨a, by omega⟩)
  generalize params.vector = ub at *
  have hst : ∀ {i j : ℕ}, i < j → j ≤ n → fn ub i < fn ub j :=
    fun h h' => fn_strict hs h (by omega)
  have hle : ∀ {i j : ℕ}, i ≤ j → j ≤ n → fn ub i ≤ fn ub j := by
    intro i j h h'
    rcases h.lt_or_eq with h | rfl
    · exact (hst h h').le
    · exact le_rfl
  have hbd : ∀ {i : ℕ}, i ≤ n → 0 ≤ fn ub i ∧ fn ub i ≤ 1 := by
    intro i hi
    rw [fn_lt (by omega)]; exact hb _ (List.getElem_mem _)
  set f : ℕ → K := deBoorK ub p n with hf
  -- each knot lies between two consecutive parameters
  have key : ∀ j, 1 ≤ j → j ≤ n - p → ∃ i, 1 ≤ i ∧ i ≤ n - 1 ∧ fn ub (i - 1) ≤ f j ∧ f j < fn ub i ∧
      0 < f j ∧ (∀ j', 1 ≤ j' → j' < j → ∃ i', i' < i ∧ 1 ≤ i' ∧ f j' < fn ub i' ∧ fn ub i' < f j) ∧
      fn ub 0 < f j := by
    intro j hj1 hj2
    obtain ⟨hdd, a1, a2, a3, a4, a5⟩ := deBoor_pos (K := K) h1 h2 hj1 hj2
    have hfj : f j = (1 - ((j : K) * (((n + 1 : ℕ) : K) / ((n - p + 1 : ℕ) : K)) -
      (Trunc.trunc ((j : K) * (((n + 1 : ℕ) : K) / ((n - p + 1 : ℕ) : K))) : ℕ))) *
      fn ub (Trunc.trunc ((j : K) * (((n + 1 : ℕ) : K) / ((n - p + 1 : ℕ) : K))) - 1) +
      ((j : K) * (((n + 1 : ℕ) : K) / ((n - p + 1 : ℕ) : K)) -
      (Trunc.trunc ((j : K) * (((n + 1 : ℕ) : K) / ((n - p + 1 : ℕ) : K))) : ℕ)) *
      fn ub (Trunc.trunc ((j : K) * (((n + 1 : ℕ) : K) / ((n - p + 1 : ℕ) : K)))) := rfl
    generalize hi : Trunc.trunc ((j : K) * (((n + 1 : ℕ) : K) / ((n - p + 1 : ℕ) : K))) = i at *
    have hlt := hst (show i - 1 < i by omega) (by omega)
    set al : K := (j : K) * (((n + 1 : ℕ) : K) / ((n - p + 1 : ℕ) : K)) - (i : K) with hal
    have hal0 : 0 ≤ al := by rw [hal]; linarith
    have hal1 : al < 1 := by rw [hal]; linarith
    have b1 : fn ub (i - 1) ≤ f j := by rw [hfj]; nlinarith
    have b2 : f j < fn ub i := by rw [hfj]; nlinarith
    have b1' : 0 < al → fn ub (i - 1) < f j := by intro h; rw [hfj]; nlinarith
    have b3 : fn ub 0 < f j := by
      by_cases e : i = 1
      · have := b1' (a5 e); rwa [e] at this
      · exact (hst (show 0 < i - 1 by omega) (by omega)).trans_le b1
    refine ⟨i, a1, a2, b1, b2, (hbd (Nat.zero_le n)).1.trans_lt b3, ?_, b3⟩
    intro j' hj1' hjj
    obtain ⟨-, c1, c2, c3, c4, -⟩ := deBoor_pos (K := K) h1 h2 hj1' (hjj.le.trans hj2)
    have hfj' : f j' = (1 - ((j' : K) * (((n + 1 : ℕ) : K) / ((n - p + 1 : ℕ) : K)) -
      (Trunc.trunc ((j' : K) * (((n + 1 : ℕ) : K) / ((n - p + 1 : ℕ) : K))) : ℕ))) *
      fn ub (Trunc.trunc ((j' : K) * (((n + 1 : ℕ) : K) / ((n - p + 1 : ℕ) : K))) - 1) +
      ((j' : K) * (((n + 1 : ℕ) : K) / ((n - p + 1 : ℕ) : K)) -
      (Trunc.trunc ((j' : K) * (((n + 1 : ℕ) : K) / ((n - p + 1 : ℕ) : K))) : ℕ)) *
      fn ub (Trunc.trunc ((j' : K) * (((n + 1 : ℕ) : K) / ((n - p + 1 : ℕ) : K)))) := rfl
    generalize Trunc.trunc ((j' : K) * (((n + 1 : ℕ) : K) / ((n - p + 1 : ℕ) : K))) = i' at *
    have hlt' := hst (show i' - 1 < i' by omega) (by omega)
    have hjj' : (j' : K) + 1 ≤ (j : K) := by exact_mod_cast hjj
    set dd : K := ((n + 1 : ℕ) : K) / ((n - p + 1 : ℕ) : K)
    have hstep : (j' : K) * dd + 1 < (j : K) * dd := by nlinarith
    have hii : i' < i := by
      have : (i' : K) < (i : K) := by linarith
      exact_mod_cast this
    refine ⟨i', hii, c1, by rw [hfj']; nlinarith, ?_⟩
    by_cases e : i = i' + 1
    · have : 0 < al := by
        rw [hal, e]; push_cast; linarith
      have := b1' this
      rwa [e, show i' + 1 - 1 = i' by omega] at this
    · exact (hst (show i' < i - 1 by omega) (by omega)).trans_le b1
  have f01 : ∀ j, 1 ≤ j → j ≤ n - p → 0 < f j ∧ f j < 1 := by
    intro j hj1 hj2
    obtain ⟨i, a1, a2, -, a4, a5, -⟩ := key j hj1 hj2
    exact ⟨a5, a4.trans_le (hbd (by omega)).2⟩
  have fst : ∀ j, 1 ≤ j → j + 1 ≤ n - p → f j < f (j + 1) := by
    intro j hj1 hj2
    obtain ⟨_, -, -, -, -, -, h6, -⟩ := key (j + 1) (by omega) hj2
    obtain ⟨i', -, -, a, b⟩ := h6 j hj1 (by omega)
    exact a.trans b
  have hU : ClampedKnots 0 1 p n (genU p n f) :=
    genU_clamped h2 f01 (fun j a b => (fst j a b).le)
  have hlen := hU.length
  have hg : ∀ i, i < n + p + 2 → (genU p n f).getD i 0 =
      if i ≤ p then 0 else if i ≤ n then f (i - p) else 1 := by
    intro i hi
    rw [List.getD_eq_getElem _ _ (by omega), ← fn_lt, fn_genU hi]
  have hgu : ∀ i, i ≤ n → ub.getD i 0 = fn ub i := by
    intro i hi
    rw [List.getD_eq_getElem _ _ (by omega), ← fn_lt]
  refine ⟨_, _, hub, canonKnots_vector _, rfl, hU, ?_, ?_⟩
  · intro i hi1 hi2
    rw [hg i (by omega), hg (i + 1) (by omega), if_neg (by omega : ¬ i + 1 ≤ p)]
    by_cases e1 : i ≤ p
    · rw [if_pos e1]
      split
      · exact (f01 _ (by omega) (by omega)).1
      · exact zero_lt_one
    · rw [if_neg e1, if_pos hi2]
      split
      · rw [show i + 1 - p = i - p + 1 by omega]; exact fst _ (by omega) (by omega)
      · exact (f01 _ (by omega) (by omega)).2
  · intro i hi1 hi2
    have hlast : ∀ k, k < n → fn ub k < 1 := fun k hk => (hst hk le_rfl).trans_le (hbd le_rfl).2
    rw [hg i (by omega), hg (i + 1) (by omega), if_neg (by omega : ¬ i + 1 ≤ p)]
    by_cases e1 : i ≤ p
    · rw [if_pos e1]
      refine ⟨0, by omega, ?_, ?_, by omega⟩
      · rw [hgu 0 (by omega)]; exact (hbd (by omega)).1
      · rw [hgu 0 (by omega)]
        split
        · obtain ⟨_, -, -, -, -, -, -, h7⟩ := key (i + 1 - p) (by omega) (by omega)
          exact h7
        · exact hlast 0 (by omega)
    · rw [if_neg e1, if_pos hi2]
      by_cases e2 : i + 1 ≤ n
      · rw [if_pos e2]
        obtain ⟨m, m1, m2, -, -, -, h6, -⟩ := key (i + 1 - p) (by omega) (by omega)
        obtain ⟨i', h7, h8, h9, h10⟩ := h6 (i - p) (by omega) (by omega)
        exact ⟨i', by omega, by rw [hgu i' (by omega)]; exact h9.le, by rw [hgu i' (by omega)]; exact h10,
          fun _ => by rw [hgu i' (by omega)]; exact h9⟩
      · rw [if_neg e2]
        obtain ⟨m, m1, m2, -, h4, -⟩ := key (i - p) (by omega) (by omega)
        exact ⟨m, by omega, by rw [hgu m (by omega)]; exact h4.le,
          by rw [hgu m (by omega)]; exact hlast m (by omega), fun _ => by rw [hgu m (by omega)]; exact h4⟩

end

/-- non-vacuity -/
example : ∃ kn : Knots ℚ, deBoor 2 4 ⟨[0, 1 / 8, 1 / 4, 3 / 4, 1], 4⟩ = .ok (.ok kn) ∧
    kn.vector = .ok [0, 0, 0, 1 / 12, 5 / 12, 1, 1, 1] := by
  obtain ⟨kn, U, h1, h2, -⟩ := C37_de_boor (K := ℚ) (p := 2) (n := 4)
    (params := ⟨[0, 1 / 8, 1 / 4, 3 / 4, 1], 4⟩) (by omega) (by omega) (by decide)
    (by decide +kernel) (by decide +kernel)
  refine ⟨kn, h1, ?_⟩
  have : (match deBoor 2 4 (⟨[0, 1 / 8, 1 / 4, 3 / 4, 1], 4⟩ : Parameters ℚ) with
    | .ok (.ok kn) => kn.vector
    | _ => .error .index) = .ok [0, 0, 0, 1 / 12, 5 / 12, 1, 1, 1] := by decide +kernel
  rwa [h1] at this

end BSpline
