import Verif.Props.Generation
import Verif.Spec.NaN

/-!
# Curves from control points with repetitions: C101

C60 describes `generate` for control points of which no two consecutive ones agree. Here repetitions
are allowed. The parameters are then only non-decreasing, and knots computed from them can coincide
with an end of `[0, 1]`.
-/

set_option linter.unusedSectionVars false

namespace BSpline

open Finset

section
variable {K : Type} [Field K] [LinearOrder K] [IsStrictOrderedRing K] {d : ℕ}

/-- the points with the numbers `lo, ..., hi` are all the same -/
def Coincide (P : List (Pt K d)) (lo hi : ℕ) : Prop :=
  ∀ i, lo ≤ i → i ≤ hi → P.getD i 0 = P.getD lo 0

theorem coincide_iff_step {P : List (Pt K d)} {lo hi : ℕ} :
    Coincide P lo hi ↔ ∀ i, lo ≤ i → i < hi → P.getD i 0 = P.getD (i + 1) 0 := by
  constructor
  · intro h i h1 h2
    rw [h i h1 (by omega), h (i + 1) (by omega) (by omega)]
  · intro h i h1
    induction i, h1 using Nat.le_induction with
    | base => intro _; rfl
    | succ i h1 ih => intro h2; rw [← h i h1 (by omega), ih (by omega)]

theorem Proportional.getD {P : List (Pt K d)} {n : ℕ} {w : Pt K d → Pt K d → K} {v : List K}
    (h : Proportional P n w v) {g : ℕ} (hg : g ≤ n) :
    v.getD g 0 = (∑ h ∈ range g, w (P.getD h 0) (P.getD (h + 1) 0)) /
      (∑ h ∈ range n, w (P.getD h 0) (P.getD (h + 1) 0)) := by
  rw [List.getD_eq_getElem?_getD, h.value g hg]; rfl

/-- a parameter is zero exactly if all points up to it agree -/
theorem Proportional.zero_iff {P : List (Pt K d)} {n : ℕ} {w : Pt K d → Pt K d → K} {v : List K}
    (h : Proportional P n w v) (hw : ∀ a b, 0 ≤ w a b) (hw' : ∀ a b, w a b = 0 ↔ a = b)
    {g : ℕ} (hg : g ≤ n) : v.getD g 0 = 0 ↔ Coincide P 0 g := by
  have hL : (∑ h ∈ range n, w (P.getD h 0) (P.getD (h + 1) 0)) ≠ 0 := by
    intro e
    have := h.last
    rw [h.value n le_rfl, e, div_zero] at this
    exact zero_ne_one (Option.some.inj this)
  rw [h.getD hg, div_eq_zero_iff, or_iff_left hL, sum_eq_zero_iff_of_nonneg (fun _ _ => hw _ _),
    coincide_iff_step]
  simp only [mem_range, hw', Nat.zero_le, true_implies]

/-- a parameter is one exactly if all points from it on agree -/
theorem Proportional.one_iff {P : List (Pt K d)} {n : ℕ} {w : Pt K d → Pt K d → K} {v : List K}
    (h : Proportional P n w v) (hw : ∀ a b, 0 ≤ w a b) (hw' : ∀ a b, w a b = 0 ↔ a = b)
    {g : ℕ} (hg : g ≤ n) : v.getD g 0 = 1 ↔ Coincide P g n := by
  have hL : (∑ h ∈ range n, w (P.getD h 0) (P.getD (h + 1) 0)) ≠ 0 := by
    intro e
    have := h.last
    rw [h.value n le_rfl, e, div_zero] at this
    exact zero_ne_one (Option.some.inj this)
  rw [h.getD hg, div_eq_one_iff_eq hL, ← sum_range_add_sum_Ico _ hg, left_eq_add,
    sum_eq_zero_iff_of_nonneg (fun _ _ => hw _ _), coincide_iff_step]
  simp only [mem_Ico, hw', and_imp]

/-! ### The knots as a function of the parameters -/

theorem genU_congr {p n : ℕ} {f g : ℕ → K} (h : ∀ j, 1 ≤ j → j ≤ n - p → f j = g j) :
    genU p n f = genU p n g := by
  rw [genU, genU]
  apply List.map_congr_left
  intro i hi
  rw [List.mem_range] at hi
  split
  · rfl
  · split
    · exact h _ (by omega) (by omega)
    · rfl

theorem generateKnots_genU [Trunc K] [LawfulTrunc K] {p n : ℕ} (h1 : 1 ≤ p) (h2 : p ≤ n)
    {ps : Parameters K} (hl : n + 1 ≤ ps.vector.length) (km : KnotMethod) :
    generateKnots p n ps km =
      .ok (.ok (canonKnots p (genU p n (interiorKnot km p n ps.vector)))) := by
  have hget : ∀ i, i ≤ n → ps.vector.getD i 0 = fn ps.vector i := by
    intro i hi
    rw [List.getD_eq_getElem _ _ (by omega), ← fn_lt]
  cases km with
  | uniform => exact uniform_ok h1 h2
  | averaging =>
    refine (averaging_ok h1 h2 (params := ps) (by omega)).trans ?_
    congr 3
    apply genU_congr
    intro j hj1 hj2
    rw [winSum_eq, interiorKnot]
    congr 1
    apply sum_congr rfl
    intro i hi
    rw [mem_range] at hi
    rw [hget _ (by omega)]
  | deBoor =>
    have ht : ∀ j, 1 ≤ j → j ≤ n - p →
        1 ≤ Trunc.trunc ((j : K) * (((n + 1 : ℕ) : K) / ((n - p + 1 : ℕ) : K))) ∧
        Trunc.trunc ((j : K) * (((n + 1 : ℕ) : K) / ((n - p + 1 : ℕ) : K))) < ps.vector.length := by
      intro j hj1 hj2
      obtain ⟨-, a, b, -, -, -⟩ := deBoor_pos (K := K) h1 h2 hj1 hj2
      exact ⟨a, by omega⟩
    obtain ⟨kn, U, a, b, hv⟩ := C37_de_boor_value h1 h2 (params := ps) (by omega)
    have e := deBoor_ok (params := ps) h1 h2 ht
    rw [a] at e
    cases e
    rw [canonKnots_vector] at b
    injection b with b
    refine a.trans ?_
    congr 3
    apply genU_congr
    intro j hj1 hj2
    have := hv j hj1 hj2
    rw [← b, List.getElem?_eq_getElem (by rw [genU_length]; omega), ← fn_lt, fn_genU (by omega),
      if_neg (by omega), if_pos (by omega), show p + j - p = j by omega] at this
    exact Option.some.inj this

/-- index of the last parameter which the first interior knot depends on -/
def firstReach (km : KnotMethod) (p n : ℕ) : ℕ :=
  match km with
  | .uniform => n
  | .averaging => p
  | .deBoor => if (n + 1) % (n - p + 1) = 0 then (n + 1) / (n - p + 1) - 1 else (n + 1) / (n - p + 1)

/-- index of the first parameter which the last interior knot depends on -/
def lastReach (km : KnotMethod) (p n : ℕ) : ℕ :=
  match km with
  | .uniform => 0
  | .averaging => n - p
  | .deBoor => (n - p) * (n + 1) / (n - p + 1) - 1

/-- parameters as the methods make them, but possibly with repetitions -/
structure WeakParams (n : ℕ) (t : List K) : Prop where
  length : t.length = n + 1
  mono : t.Pairwise (· ≤ ·)
  first : t.getD 0 0 = 0
  last : t.getD n 0 = 1

namespace WeakParams
variable {n : ℕ} {t : List K}

theorem le (h : WeakParams n t) {i j : ℕ} (hij : i ≤ j) (hj : j ≤ n) : t.getD i 0 ≤ t.getD j 0 := by
  have hl := h.length
  rcases hij.lt_or_eq with h' | rfl
  · rw [List.getD_eq_getElem _ _ (by omega), List.getD_eq_getElem _ _ (by omega)]
    exact List.pairwise_iff_getElem.mp h.mono i j (by omega) (by omega) h'
  · exact le_rfl

theorem bounds (h : WeakParams n t) {i : ℕ} (hi : i ≤ n) : 0 ≤ t.getD i 0 ∧ t.getD i 0 ≤ 1 :=
  ⟨h.first.symm.le.trans (h.le (Nat.zero_le i) hi), (h.le hi le_rfl).trans h.last.le⟩

/-- the position of de Boor's knots -/
theorem deBoor_idx {p j : ℕ} (h1 : 1 ≤ p) (h2 : p ≤ n) (hj1 : 1 ≤ j) (hj2 : j ≤ n - p) :
    1 ≤ j * (n + 1) / (n - p + 1) ∧ j * (n + 1) / (n - p + 1) ≤ n - 1 := by
  obtain ⟨q, rfl⟩ := Nat.exists_eq_add_of_le h2
  rw [show p + q - p = q by omega] at *
  constructor
  · rw [Nat.le_div_iff_mul_le (by omega)]; nlinarith
  · have h3 := Nat.mul_le_mul_right (p + q + 1) hj2
    have h4 : q * (p + q + 1) < (p + q) * (q + 1) := by nlinarith
    have : j * (p + q + 1) / (q + 1) < p + q := by
      rw [Nat.div_lt_iff_lt_mul (by omega)]; omega
    omega

/-- the `j`-th knot of de Boor lies between two parameters -/
theorem deBoor_between (h : WeakParams n t) {p j : ℕ} (h1 : 1 ≤ p) (h2 : p ≤ n) (hj1 : 1 ≤ j)
    (hj2 : j ≤ n - p) :
    t.getD (j * (n + 1) / (n - p + 1) - 1) 0 ≤ interiorKnot .deBoor p n t j ∧
      interiorKnot .deBoor p n t j ≤ t.getD (j * (n + 1) / (n - p + 1)) 0 := by
  obtain ⟨ha, hb⟩ := deBoor_idx h1 h2 hj1 hj2
  have hle := h.le (Nat.sub_le (j * (n + 1) / (n - p + 1)) 1) (by omega)
  rw [interiorKnot]
  have hN : 0 < n - p + 1 := by omega
  generalize n - p + 1 = N at *
  have hr := Nat.mod_lt (j * (n + 1)) hN
  generalize j * (n + 1) % N = r at *
  have hN' : (0 : K) < N := by exact_mod_cast hN
  have hr' : (r : K) ≤ N := by exact_mod_cast hr.le
  have hr0 : (0 : K) ≤ r := Nat.cast_nonneg _
  rw [le_div_iff₀ hN', div_le_iff₀ hN', Nat.cast_sub hr.le]
  constructor <;> nlinarith

theorem interior_mono (h : WeakParams n t) {p : ℕ} (h1 : 1 ≤ p) (h2 : p ≤ n) (km : KnotMethod) {j : ℕ}
    (hj1 : 1 ≤ j) (hj2 : j + 1 ≤ n - p) :
    interiorKnot km p n t j ≤ interiorKnot km p n t (j + 1) := by
  cases km with
  | uniform =>
    apply div_le_div_of_nonneg_right _ (Nat.cast_nonneg _)
    exact_mod_cast (Nat.le_succ j)
  | averaging =>
    apply div_le_div_of_nonneg_right _ (Nat.cast_nonneg _)
    apply sum_le_sum
    intro i hi
    rw [mem_range] at hi
    exact h.le (by omega) (by omega)
  | deBoor =>
    obtain ⟨ha, hb⟩ := deBoor_idx (j := j + 1) h1 h2 (by omega) hj2
    refine (h.deBoor_between h1 h2 hj1 (by omega)).2.trans
      (le_trans (h.le ?_ (by omega)) (h.deBoor_between h1 h2 (by omega) hj2).1)
    have : j * (n + 1) / (n - p + 1) + 1 ≤ (j + 1) * (n + 1) / (n - p + 1) := by
      rw [← Nat.add_div_right _ (by omega : 0 < n - p + 1)]
      apply Nat.div_le_div_right
      rw [Nat.add_mul]; omega
    omega

theorem interior_bounds (h : WeakParams n t) {p : ℕ} (h1 : 1 ≤ p) (h2 : p ≤ n) (km : KnotMethod) {j : ℕ}
    (hj1 : 1 ≤ j) (hj2 : j ≤ n - p) :
    0 ≤ interiorKnot km p n t j ∧ interiorKnot km p n t j ≤ 1 := by
  cases km with
  | uniform =>
    refine ⟨by rw [interiorKnot]; positivity, ?_⟩
    rw [interiorKnot, div_le_one (by exact_mod_cast Nat.succ_pos _)]
    exact_mod_cast (by omega : j ≤ n - p + 1)
  | averaging =>
    have hp : (0 : K) < p := by exact_mod_cast h1
    rw [interiorKnot, le_div_iff₀ hp, div_le_iff₀ hp, zero_mul, one_mul]
    constructor
    · exact sum_nonneg fun i hi => (h.bounds (by rw [mem_range] at hi; omega)).1
    · refine (sum_le_sum (g := fun _ => (1 : K)) fun i hi => (h.bounds (by
        rw [mem_range] at hi; omega)).2).trans ?_
      simp
  | deBoor =>
    obtain ⟨ha, hb⟩ := deBoor_idx h1 h2 hj1 hj2
    obtain ⟨hc, hd⟩ := h.deBoor_between h1 h2 hj1 hj2
    exact ⟨(h.bounds (by omega)).1.trans hc, hd.trans (h.bounds (by omega)).2⟩

/-- the first interior knot is zero exactly if all parameters it depends on are -/
theorem interior_zero_iff (h : WeakParams n t) {p : ℕ} (h1 : 1 ≤ p) (h2 : p < n) (km : KnotMethod) :
    interiorKnot km p n t 1 = 0 ↔ t.getD (firstReach km p n) 0 = 0 := by
  cases km with
  | uniform =>
    rw [interiorKnot, firstReach, h.last]
    have : (0 : K) < ((n - p + 1 : ℕ) : K) := by exact_mod_cast Nat.succ_pos _
    rw [Nat.cast_one]
    exact iff_of_false (one_div_ne_zero this.ne') one_ne_zero
  | averaging =>
    have hp : (p : K) ≠ 0 := by exact_mod_cast (by omega : p ≠ 0)
    rw [interiorKnot, firstReach, div_eq_zero_iff, or_iff_left hp,
      sum_eq_zero_iff_of_nonneg (fun i hi => (h.bounds (by rw [mem_range] at hi; omega)).1)]
    constructor
    · intro h'
      have := h' (p - 1) (by rw [mem_range]; omega)
      rwa [show 1 + (p - 1) = p by omega] at this
    · intro h' i hi
      rw [mem_range] at hi
      exact le_antisymm ((h.le (by omega) h2.le).trans h'.le) (h.bounds (by omega)).1
  | deBoor =>
    obtain ⟨ha, hb⟩ := deBoor_idx (j := 1) h1 h2.le le_rfl (by omega)
    rw [one_mul] at ha hb
    have hle := h.le (Nat.sub_le ((n + 1) / (n - p + 1)) 1) (by omega)
    have hx := (h.bounds (i := (n + 1) / (n - p + 1) - 1) (by omega)).1
    have hy := (h.bounds (i := (n + 1) / (n - p + 1)) (by omega)).1
    rw [interiorKnot, firstReach]
    rw [one_mul]
    have hN : 0 < n - p + 1 := by omega
    generalize n - p + 1 = N at *
    have hr := Nat.mod_lt (n + 1) hN
    generalize (n + 1) % N = r at *
    generalize (n + 1) / N = i at *
    have hN' : (N : K) ≠ 0 := by exact_mod_cast hN.ne'
    have hs : (0 : K) < ((N - r : ℕ) : K) := by exact_mod_cast (by omega : 0 < N - r)
    rw [div_eq_zero_iff, or_iff_left hN',
      add_eq_zero_iff_of_nonneg (mul_nonneg hs.le hx) (mul_nonneg (Nat.cast_nonneg _) hy),
      mul_eq_zero, or_iff_right hs.ne', mul_eq_zero]
    split
    · rename_i e
      simp [e]
    · rename_i e
      have e' : (r : K) ≠ 0 := by exact_mod_cast e
      rw [or_iff_right e']
      exact ⟨fun h' => h'.2, fun h' => ⟨le_antisymm (hle.trans h'.le) hx, h'⟩⟩

/-- the last interior knot is one exactly if all parameters it depends on are -/
theorem interior_one_iff (h : WeakParams n t) {p : ℕ} (h1 : 1 ≤ p) (h2 : p < n) (km : KnotMethod) :
    interiorKnot km p n t (n - p) = 1 ↔ t.getD (lastReach km p n) 0 = 1 := by
  cases km with
  | uniform =>
    rw [interiorKnot, lastReach, h.first]
    have : (0 : K) < ((n - p + 1 : ℕ) : K) := by exact_mod_cast Nat.succ_pos _
    rw [div_eq_one_iff_eq this.ne']
    simp
  | averaging =>
    have hp : (p : K) ≠ 0 := by exact_mod_cast (by omega : p ≠ 0)
    have hsum : ((p : ℕ) : K) = ∑ _i ∈ range p, (1 : K) := by simp
    rw [interiorKnot, lastReach, div_eq_one_iff_eq hp, hsum,
      sum_eq_sum_iff_of_le (fun i hi => (h.bounds (by rw [mem_range] at hi; omega)).2)]
    constructor
    · intro h'
      exact h' 0 (by rw [mem_range]; omega)
    · intro h' i hi
      rw [mem_range] at hi
      exact le_antisymm (h.bounds (by omega)).2 (h'.symm.le.trans (h.le (by omega) (by omega)))
  | deBoor =>
    obtain ⟨ha, hb⟩ := deBoor_idx (j := n - p) h1 h2.le (by omega) le_rfl
    have hle := h.le (Nat.sub_le ((n - p) * (n + 1) / (n - p + 1)) 1) (by omega)
    have hx := (h.bounds (i := (n - p) * (n + 1) / (n - p + 1) - 1) (by omega)).2
    have hy := (h.bounds (i := (n - p) * (n + 1) / (n - p + 1)) (by omega)).2
    rw [interiorKnot, lastReach]
    have hN : 0 < n - p + 1 := by omega
    generalize hM : (n - p) * (n + 1) = M at *
    generalize n - p + 1 = N at *
    have hr := Nat.mod_lt M hN
    generalize M % N = r at *
    generalize M / N = i at *
    have hN' : (N : K) ≠ 0 := by exact_mod_cast hN.ne'
    have hs : (0 : K) < ((N - r : ℕ) : K) := by exact_mod_cast (by omega : 0 < N - r)
    have hr0 : (0 : K) ≤ r := Nat.cast_nonneg _
    have hNr : (N : K) = ((N - r : ℕ) : K) + r := by
      rw [Nat.cast_sub hr.le]; ring
    rw [div_eq_one_iff_eq hN', hNr]
    constructor
    · intro h'
      by_contra hne
      have hlt : t.getD (i - 1) 0 < 1 := lt_of_le_of_ne hx hne
      have h3 : ((N - r : ℕ) : K) * t.getD (i - 1) 0 < ((N - r : ℕ) : K) := by nlinarith
      have h4 : (r : K) * t.getD i 0 ≤ r := by nlinarith
      linarith
    · intro h'
      have : t.getD i 0 = 1 := le_antisymm hy (h'.symm.le.trans hle)
      rw [h', this]; ring

end WeakParams

/-- a generated vector with non-decreasing interior knots is valid exactly if the first one is positive
and the last one below one -/
theorem genU_clamped_iff {p n : ℕ} {f : ℕ → K} (hp : p ≤ n)
    (h0 : ∀ j, 1 ≤ j → j ≤ n - p → 0 ≤ f j ∧ f j ≤ 1)
    (hf : ∀ j, 1 ≤ j → j + 1 ≤ n - p → f j ≤ f (j + 1)) :
    ClampedKnots 0 1 p n (genU p n f) ↔ n = p ∨ (f 1 ≠ 0 ∧ f (n - p) ≠ 1) := by
  have hm : ∀ i j, 1 ≤ i → i ≤ j → j ≤ n - p → f i ≤ f j := by
    intro i j hi hij
    induction j, hij using Nat.le_induction with
    | base => intro _; exact le_rfl
    | succ j hij ih => intro hj; exact (ih (by omega)).trans (hf j (by omega) hj)
  constructor
  · intro h
    by_cases e : n = p
    · exact Or.inl e
    · right
      have hi := h.clamp.inner
      have a := hi (p + 1) (by omega) (by omega)
      have b := hi n (by omega) le_rfl
      rw [fn_genU (by omega), if_neg (by omega), if_pos (by omega), show p + 1 - p = 1 by omega] at a
      rw [fn_genU (by omega), if_neg (by omega), if_pos le_rfl] at b
      exact ⟨a.1.ne', b.2.ne⟩
  · intro h
    apply genU_clamped hp _ hf
    intro j hj1 hj2
    rcases h with h | ⟨ha, hb⟩
    · omega
    · have ha' := lt_of_le_of_ne (h0 1 le_rfl (by omega)).1 ha.symm
      have hb' := lt_of_le_of_ne (h0 (n - p) (by omega) le_rfl).2 hb
      exact ⟨ha'.trans_le (hm 1 j le_rfl hj1 hj2), (hm j (n - p) hj1 hj2 le_rfl).trans_lt hb'⟩

/-! ### Evaluation when the last interior knot is one -/

/-- all basis functions of positive degree vanish at the right end if it has a knot too many -/
theorem Nf_end_zero {U : ℕ → K} {p n : ℕ} (hend : ∀ i, n ≤ i → i ≤ n + p + 1 → U i = 1)
    (hle : ∀ i, i ≤ n + p + 1 → U i ≤ 1) (h : ℕ) (hp : h + 1 ≤ p) :
    ∀ i, i + h + 1 ≤ n + p → Nf U 0 n (1 : K) (h + 1) i = 0 := by
  have base : ∀ i, i ≤ n + p → i ≠ n → Nf U 0 n (1 : K) 0 i = 0 := by
    intro i hi' hi
    rw [Nf, if_neg]
    have h1 : Cmp.lt (1 : K) (U (i + 1)) = false := by
      simp [Cmp.lt, hle (i + 1) (by omega)]
    simp [h1, hi]
  induction h with
  | zero =>
    intro i hi
    rw [Nf]
    have h1 : (if Cmp.eq (U (i + (0 + 1))) (U i) then 0
        else (1 - U i) / (U (i + 0 + 1) - U i) * Nf U 0 n (1 : K) 0 i) = 0 := by
      by_cases e : i = n
      · subst e
        rw [if_pos]
        simp [Cmp.eq, hend i le_rfl (by omega), hend (i + 1) (by omega) (by omega)]
      · rw [base i (by omega) e]; simp
    have h2 : (if Cmp.eq (U (i + 1 + (0 + 1))) (U (i + 1)) then 0
        else (U (i + 1 + (0 + 1)) - 1) / (U (i + 1 + 0 + 1) - U (i + 1)) * Nf U 0 n (1 : K) 0 (i + 1)) = 0 := by
      by_cases e : i + 1 = n
      · rw [if_pos]
        simp [Cmp.eq, hend (i + 1) (by omega) (by omega), hend (i + 1 + 1) (by omega) (by omega)]
      · rw [base _ (by omega) e]; simp
    rw [h1, h2, add_zero]
  | succ h ih =>
    intro i hi
    rw [Nf, ih (by omega) i (by omega), ih (by omega) (i + 1) (by omega)]
    simp

theorem evalFold_end_zero {U : ℕ → K} {p n : ℕ} (h1 : 1 ≤ p) (hend : ∀ i, n ≤ i → i ≤ n + p + 1 → U i = 1)
    (hle : ∀ i, i ≤ n + p + 1 → U i ≤ 1) (P : ℕ → Pt K d) (lo : ℕ) : evalFold U p n P 0 1 lo = 0 := by
  rw [evalFold]
  have : ∀ (l : List ℕ) (v : Pt K d), (∀ i ∈ l, i ≤ n) →
      l.foldl (fun v i => v + scale (Nf (fun j => U (j + 0)) 0 n 1 (p - 0) i) (dpt U p P 0 i)) v = v := by
    intro l
    induction l with
    | nil => intro v _; rfl
    | cons a l ih =>
      intro v hl
      obtain ⟨q, rfl⟩ : ∃ q, p = q + 1 := ⟨p - 1, by omega⟩
      have ha := hl a (by simp)
      have e := Nf_end_zero (U := U) (p := q + 1) (n := n) hend hle q le_rfl a (by omega)
      rw [List.foldl_cons]
      have e' : scale (Nf (fun j => U (j + 0)) 0 n 1 (q + 1 - 0) a) (dpt U (q + 1) P 0 a) = 0 := by
        show scale (Nf U 0 n 1 (q + 1) a) _ = 0
        rw [e]; funext r; simp [scale]
      rw [e', add_zero]
      exact ih v (fun i hi => hl i (by simp [hi]))
  refine (this _ _ ?_)
  intro i hi
  rw [List.mem_range'_1] at hi
  omega

/-! ### The generated curve -/

variable [Trunc K] [LawfulTrunc K] [Sqrt K] [LawfulSqrt K]

theorem dist2_nonneg_all (a b : Pt K d) : 0 ≤ dist2 a b := by rw [dist2_eq]; exact norm_nonneg _

theorem sqrt_zero' : Sqrt.sqrt (0 : K) = 0 := by
  have := LawfulSqrt.mul_self (0 : K) le_rfl
  simpa using this

theorem dist2_eq_zero (a b : Pt K d) : dist2 a b = 0 ↔ a = b := by
  constructor
  · intro h
    by_contra hne
    rw [dist2_eq] at h
    exact (norm_pos (sub_ne_zero.mpr (Ne.symm hne))).ne' h
  · rintro rfl
    rw [dist2]; simp [sqrt_zero']

theorem sqrt_eq_zero' {x : K} (h : 0 ≤ x) : Sqrt.sqrt x = 0 ↔ x = 0 := by
  constructor
  · intro h'
    have := LawfulSqrt.mul_self x h
    rw [h', zero_mul] at this
    exact this.symm
  · rintro rfl; exact sqrt_zero'

/-- the parameters of points with repetitions -/
theorem generateParams_weak {P : List (Pt K d)} {n : ℕ} (hn : 1 ≤ n) (hP : P.length = n + 1)
    (pm : ParamMethod)
    (hch : pm = .chordLength → 0 < ∑ h ∈ range n, dist2 (P.getD h 0) (P.getD (h + 1) 0))
    (hc : pm = .centripetal →
      1 / 2 ^ 26 ≤ ∑ h ∈ range n, Sqrt.sqrt (dist2 (P.getD h 0) (P.getD (h + 1) 0))) :
    ∃ ps : Parameters K, generateParams P pm = .ok ps ∧ ParamsOf pm P n ps.vector ∧
      WeakParams n ps.vector ∧ (pm ≠ .equallySpaced → ∀ g, g ≤ n →
        (ps.vector.getD g 0 = 0 ↔ Coincide P 0 g) ∧ (ps.vector.getD g 0 = 1 ↔ Coincide P g n)) := by
  have getD_of : ∀ {v : List K} {i : ℕ} {x : K}, v[i]? = some x → v.getD i 0 = x := by
    intro v i x h
    rw [List.getD_eq_getElem?_getD, h]; rfl
  cases pm with
  | equallySpaced =>
    obtain ⟨ps, a, -, b, c, e, f, g⟩ := C39_equally_spaced (K := K) hn
    refine ⟨ps, ?_, ⟨b, c⟩, ⟨b, g.imp le_of_lt, getD_of e, getD_of f⟩, fun h => absurd rfl h⟩
    rw [generateParams, DataPoints.segments, usub_ok (by omega), ok_bind,
      show List.length P - 1 = n by omega, a]
  | chordLength =>
    obtain ⟨ps, a, -, b⟩ := C39_chord_length hP (hch rfl)
    exact ⟨ps, a, ⟨b.length, b.value⟩, ⟨b.length, b.mono, getD_of b.first, getD_of b.last⟩,
      fun _ g hg => ⟨b.zero_iff dist2_nonneg_all dist2_eq_zero hg, b.one_iff dist2_nonneg_all dist2_eq_zero hg⟩⟩
  | centripetal =>
    obtain ⟨ps, a, -, b⟩ := C39_centripetal_partial hP (hc rfl)
    have hw : ∀ a b : Pt K d, 0 ≤ Sqrt.sqrt (dist2 a b) := fun a b => LawfulSqrt.nonneg _ (dist2_nonneg_all a b)
    have hw' : ∀ a b : Pt K d, Sqrt.sqrt (dist2 a b) = 0 ↔ a = b := fun a b => by
      rw [sqrt_eq_zero' (dist2_nonneg_all a b), dist2_eq_zero]
    exact ⟨ps, a, ⟨b.length, b.value⟩, ⟨b.length, b.mono, getD_of b.first, getD_of b.last⟩,
      fun _ g hg => ⟨b.zero_iff hw hw' hg, b.one_iff hw hw' hg⟩⟩

/-- **C101** Control points with repetitions. For `1 ≤ p ≤ n` and points that do not all agree (with
the centripetal method: whose total is at least `2^-26`), `generate` returns a curve of degree `p` with
exactly the given control points. Its knots are non-decreasing from `0` (`p + 1` times) to `1` (`p + 1`
times), the interior ones follow from the points by the formulas of the two methods.

The knots are valid, with all interior knots strictly inside, exactly if `n = p`, or neither all
parameters that the first interior knot depends on are zero nor all parameters that the last one depends
on are one.

If the last interior knot is one, the curve evaluates to the zero vector at `u = 1`. -/
theorem C101_generate (solver : Solver K d) {p n : ℕ} {P : List (Pt K d)} (h1 : 1 ≤ p) (h2 : p ≤ n)
    (hP : P.length = n + 1) (pm : ParamMethod) (km : KnotMethod)
    (hch : pm = .chordLength → 0 < ∑ h ∈ range n, dist2 (P.getD h 0) (P.getD (h + 1) 0))
    (hc : pm = .centripetal →
      1 / 2 ^ 26 ≤ ∑ h ∈ range n, Sqrt.sqrt (dist2 (P.getD h 0) (P.getD (h + 1) 0))) :
    ∃ c U t, generate solver (.manual p (ControlPoints.new P) (.method pm km)) = .ok (.ok c) ∧
      Built c p U P ∧ ParamsOf pm P n t ∧ U.length = n + p + 2 ∧ U.Pairwise (· ≤ ·) ∧
      (∀ i, i ≤ p → U[i]? = some 0) ∧
      (∀ j, 1 ≤ j → j ≤ n - p → U[p + j]? = some (interiorKnot km p n t j)) ∧
      (∀ i, n < i → i ≤ n + p + 1 → U[i]? = some 1) ∧
      (pm ≠ .equallySpaced → (ClampedKnots 0 1 p n U ↔
        n = p ∨ (¬ Coincide P 0 (firstReach km p n) ∧ ¬ Coincide P (lastReach km p n) n))) ∧
      (pm ≠ .equallySpaced → p < n → Coincide P (lastReach km p n) n → c.evaluate 1 = .ok (.ok 0)) := by
  obtain ⟨ps, ha, hb, hw, hz⟩ := generateParams_weak (by omega) hP pm hch hc
  have hk := generateKnots_genU h1 h2 hw.length.ge km
  set f := interiorKnot km p n ps.vector with hf
  have hl : (genU p n f).length = n + p + 2 := genU_length ..
  have get : ∀ i, i < n + p + 2 → (genU p n f)[i]? = some (fn (genU p n f) i) := by
    intro i hi
    rw [List.getElem?_eq_getElem (by omega), ← fn_lt]
  have hfr : firstReach km p n ≤ n := by
    cases km with
    | uniform => exact le_rfl
    | averaging => exact h2
    | deBoor =>
      rw [firstReach]
      rcases h2.lt_or_eq with h | h
      · have := (WeakParams.deBoor_idx (n := n) (j := 1) h1 h2 le_rfl (by omega)).2
        rw [one_mul] at this
        split <;> omega
      · subst h
        simp [Nat.mod_one]
  have hlr : lastReach km p n ≤ n := by
    cases km with
    | uniform => exact Nat.zero_le _
    | averaging => exact Nat.sub_le _ _
    | deBoor =>
      rw [lastReach]
      rcases h2.lt_or_eq with h | h
      · have := (WeakParams.deBoor_idx (n := n) (j := n - p) h1 h2 (by omega) le_rfl).2
        omega
      · subst h
        simp
  have hbd := fun j (hj1 : 1 ≤ j) (hj2 : j ≤ n - p) => hw.interior_bounds h1 h2 km hj1 hj2
  have hmo := fun j (hj1 : 1 ≤ j) (hj2 : j + 1 ≤ n - p) => hw.interior_mono h1 h2 km hj1 hj2
  have hgen : generate solver (.manual p (ControlPoints.new P) (.method pm km)) =
      .ok (.ok (canon p (genU p n f) P)) := by
    have := mkCurve_ok (p := p) (U := genU p n f) hP h2 (by omega)
    rw [mkCurve, Knots.new_ok (by omega), ok_bind] at this
    rw [generate]
    simp only [segments_new hP, ok_bind, matrix_new, generateManualKnots, ha, hk]
    rw [if_neg (by omega)]
    exact this
  have hle1 : ∀ i, i ≤ n + p + 1 → fn (genU p n f) i ≤ 1 := by
    intro i hi
    rw [fn_genU (by omega)]
    split
    · exact zero_le_one
    · split
      · exact (hbd _ (by omega) (by omega)).2
      · exact le_rfl
  refine ⟨_, _, ps.vector, hgen, mkCurve_ok hP h2 (by omega), hb, hl, ?_, ?_, ?_, ?_, ?_, ?_⟩
  · rw [← List.isChain_iff_pairwise, List.isChain_iff_getElem]
    intro i hi
    rw [← fn_lt, ← fn_lt, fn_genU (by omega), fn_genU (by omega)]
    by_cases e1 : i + 1 ≤ p
    · rw [if_pos (by omega), if_pos e1]
    rw [if_neg e1]
    by_cases e2 : i ≤ p
    · rw [if_pos e2]
      split
      · exact (hbd _ (by omega) (by omega)).1
      · exact zero_le_one
    rw [if_neg e2]
    by_cases e3 : i + 1 ≤ n
    · rw [if_pos e3, if_pos (by omega), show i + 1 - p = i - p + 1 by omega]
      exact hmo _ (by omega) (by omega)
    · rw [if_neg e3]
      split
      · exact (hbd _ (by omega) (by omega)).2
      · exact le_rfl
  · intro i hi
    rw [get i (by omega), fn_genU (by omega), if_pos hi]
  · intro j hj1 hj2
    rw [get _ (by omega), fn_genU (by omega), if_neg (by omega), if_pos (by omega),
      show p + j - p = j by omega]
  · intro i hi1 hi2
    rw [get i (by omega), fn_genU (by omega), if_neg (by omega), if_neg (by omega)]
  · intro hpm
    rw [genU_clamped_iff h2 hbd hmo]
    by_cases e : n = p
    · simp [e]
    · rw [Ne, Ne, hw.interior_zero_iff h1 (by omega), hw.interior_one_iff h1 (by omega),
        (hz hpm _ hfr).1, (hz hpm _ hlr).2]
  · intro hpm hpn hco
    have hone : f (n - p) = 1 := by
      rw [hf, hw.interior_one_iff h1 hpn, (hz hpm _ hlr).2]; exact hco
    rw [Curve.evaluate, evaluateDerivative_ok hl hP h2 (Nat.zero_le p) (by simp [Cmp.le])
      (by simp [Cmp.le])]
    rw [evalFold_end_zero h1 _ hle1]
    intro i hi1 hi2
    rw [fn_genU (by omega), if_neg (by omega)]
    split
    · rw [show i = n by omega]; exact hone
    · rfl

/-- **C101** For `averaging` the condition reads: neither the first nor the last `p + 1` control points
are all the same. In particular a closing segment made of `p + 1` equal points, the textbook way to pull
a curve into its end, yields a curve that ends in the origin instead. -/
theorem C101_averaging (solver : Solver K d) {p n : ℕ} {P : List (Pt K d)} (h1 : 1 ≤ p) (h2 : p < n)
    (hP : P.length = n + 1) {pm : ParamMethod} (hpm : pm ≠ .equallySpaced)
    (hch : pm = .chordLength → 0 < ∑ h ∈ range n, dist2 (P.getD h 0) (P.getD (h + 1) 0))
    (hc : pm = .centripetal →
      1 / 2 ^ 26 ≤ ∑ h ∈ range n, Sqrt.sqrt (dist2 (P.getD h 0) (P.getD (h + 1) 0))) :
    ∃ c U, generate solver (.manual p (ControlPoints.new P) (.method pm .averaging)) = .ok (.ok c) ∧
      Built c p U P ∧
      (ClampedKnots 0 1 p n U ↔ ¬ Coincide P 0 p ∧ ¬ Coincide P (n - p) n) ∧
      (Coincide P (n - p) n → c.evaluate 1 = .ok (.ok 0)) := by
  obtain ⟨c, U, t, hg, hB, -, -, -, -, -, -, hv, he⟩ :=
    C101_generate solver h1 h2.le hP pm .averaging hch hc
  refine ⟨c, U, hg, hB, ?_, he hpm h2⟩
  rw [hv hpm, or_iff_right (by omega)]
  rfl

/-- non-vacuity: the points 0, 1, 5, 5 on the line and degree 1 -/
example (solver : Solver ℝ 1) : ∃ c U,
    generate solver (.manual 1 (ControlPoints.new [![0], ![1], ![5], ![5]])
      (.method .chordLength .averaging)) = .ok (.ok c) ∧ Built c 1 U [![0], ![1], ![5], ![5]] ∧
    ¬ ClampedKnots 0 1 1 3 U ∧ c.evaluate 1 = .ok (.ok 0) := by
  have hco : Coincide [![(0 : ℝ)], ![1], ![5], ![5]] (3 - 1) 3 := by
    intro i h1 h2
    obtain rfl | rfl : i = 2 ∨ i = 3 := by omega
    · rfl
    · rfl
  obtain ⟨c, U, hg, hB, hv, he⟩ := C101_averaging solver (p := 1) (n := 3)
    (P := [![0], ![1], ![5], ![5]]) (pm := .chordLength) le_rfl (by omega) rfl (by simp) (by
      intro _
      rw [sum_range_succ, sum_range_succ, sum_range_succ, range_zero, sum_empty, zero_add]
      show 0 < dist2 (K := ℝ) ![0] ![1] + dist2 (K := ℝ) ![1] ![5] + dist2 (K := ℝ) ![5] ![5]
      rw [dist2_real_one, dist2_real_one, dist2_real_one]
      norm_num) (by simp)
  exact ⟨c, U, hg, hB, fun h => (hv.mp h).2 hco, he hco⟩

end

/-! ### All control points agree -/

section
variable {K : Type} [Field K] [LinearOrder K] [IsStrictOrderedRing K] {d : ℕ}

open NF

namespace NF

theorem nan_add (x : NF K) : (nan : NF K) + x = nan := by cases x <;> rfl
theorem add_nan (x : NF K) : x + (nan : NF K) = nan := by cases x <;> rfl
theorem nan_mul (x : NF K) : (nan : NF K) * x = nan := by cases x <;> rfl
theorem sub_nan (x : NF K) : x - (nan : NF K) = nan := by cases x <;> rfl
theorem nan_div (x : NF K) : (nan : NF K) / x = nan := by cases x <;> rfl
theorem eq_nan (x : NF K) : Cmp.eq x (nan : NF K) = false := by cases x <;> rfl

end NF

/-- the point with the finite coordinates `x` -/
def finitePt (x : Pt K d) : Pt (NF K) d := fun r => num (x r)

variable [Sqrt (NF K)]

theorem norm_self (hs : Sqrt.sqrt (0 : NF K) = 0) (x : Pt K d) :
    norm (finitePt x - finitePt x) = 0 := by
  rw [norm]
  have h : ∀ r, (finitePt x - finitePt x) r = (0 : NF K) := by
    intro r
    show num (x r - x r) = num 0
    rw [sub_self]
  have : ∀ l : List (Fin d), l.foldl (fun s r => s + (finitePt x - finitePt x) r * (finitePt x - finitePt x) r)
      (0 : NF K) = 0 := by
    intro l
    induction l with
    | nil => rfl
    | cons a l ih =>
      rw [List.foldl_cons, h]
      have e : (0 : NF K) + 0 * 0 = 0 := by
        show num (0 + 0 * 0) = num (0 : K)
        rw [mul_zero, add_zero]
      rw [e, ih]
  rw [this, hs]

/-- **C101** All control points agree. Then the total length is zero and `chord_length` divides by it.
With an arithmetic that has a value for `0 / 0`, `generate` still returns a curve, and whatever the
number of control points above `p + 1`, **every** evaluation of it returns a point all of whose
coordinates are undefined, although every control point is the same finite point. -/
theorem C101_all_equal [Trunc (NF K)] [IntCast (NF K)] (hs : Sqrt.sqrt (0 : NF K) = 0)
    (solver : Solver (NF K) d) {p n : ℕ} (h1 : 1 ≤ p) (h2 : p < n) (x : Pt K d) :
    ∃ c, generate solver (.manual p (ControlPoints.new (List.replicate (n + 1) (finitePt x)))
        (.method .chordLength .averaging)) = .ok (.ok c) ∧
      ∀ u : K, 0 ≤ u → u ≤ 1 → c.evaluate (num u) = .ok (.ok (fun _ => nan)) := by
  set P := List.replicate (n + 1) (finitePt x) with hPd
  have hP : P.length = n + 1 := by simp [hPd]
  have hfn : ∀ i, i ≤ n → fn P i = finitePt x := by
    intro i hi
    rw [fn_lt (by omega)]; simp [hPd]
  have htot : ∀ i, i ≤ n → cumTotal norm P i = 0 := by
    intro i
    induction i with
    | zero => intro _; rfl
    | succ i ih =>
      intro hi
      rw [cumTotal, ih (by omega), hfn _ hi, hfn _ (by omega), norm_self hs]
      show num (0 + 0) = num (0 : K)
      rw [add_zero]
  have hcum : ∀ i, 1 ≤ i → i ≤ n → cum norm P (0 : NF K) i = nan := by
    intro i h1 hi
    obtain ⟨i, rfl⟩ : ∃ k, i = k + 1 := ⟨i - 1, by omega⟩
    rw [cum, hfn _ hi, hfn _ (by omega), norm_self hs]
    have : (0 : NF K) / 0 = nan := by
      show (if (0 : K) = 0 then nan else num (0 / 0)) = nan
      rw [if_pos rfl]
    rw [this, add_nan]
  have hps : generateParams P .chordLength = .ok ⟨(List.range (n + 1)).map
      (fun i => if i = n then 1 else cum norm P (0 : NF K) i), n⟩ := by
    rw [generateParams, chordLength, DataPoints.segments, usub_ok (by omega), ok_bind,
      show List.length P - 1 = n by omega, chordSum_ok hP, ok_bind, cumulate_ok hP, ok_bind,
      htot n le_rfl]
    rfl
  set ps : Parameters (NF K) := ⟨(List.range (n + 1)).map
      (fun i => if i = n then 1 else cum norm P (0 : NF K) i), n⟩ with hpsd
  have hwin : ∀ j, 1 ≤ j → j ≤ n - p → winSum ps.vector p j / (p : NF K) = nan := by
    intro j hj1 hj2
    have : winSum ps.vector p j = nan := by
      rw [winSum]
      obtain ⟨q, rfl⟩ : ∃ q, p = q + 1 := ⟨p - 1, by omega⟩
      rw [List.range'_succ, List.foldl_cons]
      have e : fn ps.vector j = nan := by
        rw [hpsd]
        show fn ((List.range (n + 1)).map _) j = nan
        rw [fn_map_range _ (by omega), if_neg (by omega), hcum j hj1 (by omega)]
      rw [e, add_nan]
      generalize List.range' (j + 1) q = l
      induction l with
      | nil => rfl
      | cons a l ih => rw [List.foldl_cons, nan_add, ih]
    rw [this, nan_div]
  have hk := averaging_ok h1 h2.le (params := ps) (by simp [hpsd])
  set f := fun j => winSum ps.vector p j / (p : NF K) with hf
  have hl : (genU p n f).length = n + p + 2 := genU_length ..
  refine ⟨canon p (genU p n f) P, ?_, ?_⟩
  · have := mkCurve_ok (p := p) (U := genU p n f) hP h2.le (by omega)
    rw [mkCurve, Knots.new_ok (by omega), ok_bind] at this
    rw [generate]
    simp only [segments_new hP, ok_bind, matrix_new, generateManualKnots, hps, generateKnots, hk]
    rw [if_neg (by omega)]
    exact this
  · intro u h0 hu1
    rw [Curve.evaluate, evaluateDerivative_ok hl hP h2.le (Nat.zero_le p)
      (show decide ((0 : K) ≤ u) = true by simpa using h0)
      (show decide (u ≤ (1 : K)) = true by simpa using hu1)]
    congr 2
    have hb := lleq_bounds (fun i => fn (genU p n f) (i + 0)) (num u) (n - p) (p - 0)
    generalize hlo : lleq (fun i => fn (genU p n f) (i + 0)) (num u) (n - p) (p - 0) - (p - 0) = lo
    have hlon : lo ≤ n := by omega
    funext r
    rw [evalFold]
    have hN : Nf (fun j => fn (genU p n f) (j + 0)) 0 n (num u) (p - 0) n = nan := by
      obtain ⟨q, rfl⟩ : ∃ q, p = q + 1 := ⟨p - 1, by omega⟩
      have hU : fn (genU (q + 1) n f) n = nan := by
        rw [genU, fn_map_range _ (by omega), if_neg (by omega), if_pos le_rfl]
        exact hwin _ (by omega) le_rfl
      show Nf (fn (genU (q + 1) n f)) 0 n (num u) (q + 1) n = nan
      rw [Nf, hU, eq_nan]
      simp only [Bool.false_eq_true, if_false]
      rw [sub_nan, nan_div, nan_mul, nan_add]
    rw [show n - 0 + 1 - lo = (n - lo) + 1 by omega, List.range'_concat, List.foldl_append,
      List.foldl_cons, List.foldl_nil, show lo + 1 * (n - lo) = n by omega, hN]
    simp only [Pi.add_apply, scale, nan_mul, add_nan]

end

/-- non-vacuity: three times the same point of the line and degree 1; here the square root maps zero to
zero and is otherwise arbitrary -/
example (solver : Solver (NF ℚ) 1) : ∃ (_ : Sqrt (NF ℚ)) (_ : Trunc (NF ℚ)) (_ : IntCast (NF ℚ)),
    ∃ c, generate solver (.manual 1 (ControlPoints.new (List.replicate 3 (finitePt ![(7 : ℚ)])))
        (.method .chordLength .averaging)) = .ok (.ok c) ∧
      ∀ u : ℚ, 0 ≤ u → u ≤ 1 → c.evaluate (.num u) = .ok (.ok (fun _ => .nan)) := by
  let i1 : Sqrt (NF ℚ) := ⟨id⟩
  let i2 : Trunc (NF ℚ) := ⟨fun _ => 0⟩
  let i3 : IntCast (NF ℚ) := ⟨fun n => .num n⟩
  exact ⟨i1, i2, i3, C101_all_equal rfl solver (n := 2) le_rfl (by omega) _⟩

end BSpline
