import Verif.Props.FloatParams
import Verif.Props.IeeeReverse

/-!
# Averaged knots and knots of de Boor in floating-point arithmetic: C113
-/

set_option linter.unusedSectionVars false

namespace BSpline

open Finset

variable {K : Type} [Field K] [LinearOrder K] [IsStrictOrderedRing K] {R : Rounding K}

/-! ### Generated knot vectors -/

theorem genU_get {α : Type} [Zero α] [One α] {p n i : ℕ} {f : ℕ → α} {x : α} (h : (genU p n f)[i]? = some x) :
    i < n + p + 2 ∧ x = if i ≤ p then 0 else if i ≤ n then f (i - p) else 1 := by
  rw [genU, List.getElem?_map, Option.map_eq_some_iff] at h
  obtain ⟨a, h1, h2⟩ := h
  obtain ⟨h3, h4⟩ := List.getElem?_eq_some_iff.mp h1
  simp only [List.length_range] at h3
  rw [List.getElem_range] at h4
  subst h4
  exact ⟨by omega, h2.symm⟩

/-- knots with non-decreasing interior ones in `[0, 1]` pass the tests of the library -/
theorem genU_accepted {p n : ℕ} {f : ℕ → K} (hp : p ≤ n)
    (h0 : ∀ j, 1 ≤ j → j ≤ n - p → 0 ≤ f j ∧ f j ≤ 1)
    (hf : ∀ j, 1 ≤ j → j + 1 ≤ n - p → f j ≤ f (j + 1)) :
    (genU p n f).Pairwise (· ≤ ·) ∧ (canonKnots p (genU p n f)).isSorted = .ok true ∧
      (canonKnots p (genU p n f)).isClamped = .ok true ∧ (canonKnots p (genU p n f)).isNormed = .ok true := by
  have hl := genU_length p n f
  have hg : ∀ i (hi : i < (genU p n f).length), (genU p n f)[i] =
      if i ≤ p then 0 else if i ≤ n then f (i - p) else 1 := fun i hi =>
    (genU_get (List.getElem?_eq_getElem hi)).2
  have hs : (genU p n f).Pairwise (· ≤ ·) := by
    apply List.isChain_iff_pairwise.mp
    rw [List.isChain_iff_getElem]
    intro i hi
    rw [hg i (by omega), hg (i + 1) hi]
    by_cases e1 : i + 1 ≤ p
    · rw [if_pos (by omega), if_pos e1]
    rw [if_neg e1]
    by_cases e2 : i ≤ p
    · rw [if_pos e2]
      split
      · exact (h0 _ (by omega) (by omega)).1
      · exact zero_le_one
    rw [if_neg e2]
    by_cases e3 : i + 1 ≤ n
    · rw [if_pos (by omega), if_pos e3, show i + 1 - p = i - p + 1 by omega]
      exact hf _ (by omega) (by omega)
    · rw [if_neg e3]
      split
      · exact (h0 _ (by omega) (by omega)).2
      · exact le_rfl
  refine ⟨hs, ?_, ?_, ?_⟩
  · obtain ⟨b, h1, h2⟩ := C50_is_sorted (canonKnots_vector (p := p) (genU p n f))
    rw [h1, h2.mpr]
    intro i j hj hij
    rcases hij.lt_or_eq with h | rfl
    · exact List.pairwise_iff_getElem.mp hs i j (by omega) hj h
    · exact le_rfl
  · obtain ⟨b, h1, h2⟩ := C50_is_clamped (canonKnots_vector (p := p) (genU p n f))
    rw [h1, h2.mpr]
    intro i hi hip
    rw [canonKnots_degree] at hip
    rw [hg i hi, hg _ (by omega), if_pos hip, if_neg (by omega), if_neg (by omega)]
    exact ⟨rfl, rfl⟩
  · obtain ⟨b, h1, h2⟩ := C50_is_normed (canonKnots_vector (p := p) (genU p n f))
    rw [h1, h2.mpr]
    refine ⟨?_, ?_, ?_⟩
    · have := hg 0 (by omega)
      rw [if_pos (by omega)] at this
      rw [← this]; exact List.getElem_mem _
    · have := hg (n + 1) (by omega)
      rw [if_neg (by omega), if_neg (by omega)] at this
      rw [← this]; exact List.getElem_mem _
    · intro x hx
      obtain ⟨i, hi, rfl⟩ := List.getElem_of_mem hx
      rw [hg i hi]
      split
      · exact ⟨le_rfl, zero_le_one⟩
      · split
        · exact h0 _ (by omega) (by omega)
        · exact ⟨zero_le_one, le_rfl⟩

theorem getD_fn {α : Type} [Zero α] {l : List α} {i : ℕ} (h : i < l.length) : l.getD i 0 = fn l i := by
  rw [fn_lt h, List.getD_eq_getElem _ _ h]

/-! ### Averaging -/

theorem foldl_add_mono {ub : List (Fl R)} (p : ℕ) : ∀ (j k : ℕ) (s t : Fl R), s.val ≤ t.val →
    (∀ i, i < p → (fn ub (j + i)).val ≤ (fn ub (k + i)).val) →
    ((List.range' j p).foldl (fun s i => s + fn ub i) s).val ≤
      ((List.range' k p).foldl (fun s i => s + fn ub i) t).val := by
  induction p with
  | zero => intro j k s t h _; exact h
  | succ p ih =>
    intro j k s t h hle
    rw [List.range'_succ, List.range'_succ, List.foldl_cons, List.foldl_cons]
    refine ih (j + 1) (k + 1) _ _ (R.mono _ _ (add_le_add h (hle 0 (by omega)))) ?_
    intro i hi
    have := hle (i + 1) (by omega)
    rwa [show j + (i + 1) = j + 1 + i by omega, show k + (i + 1) = k + 1 + i by omega] at this

theorem foldl_add_le {ub : List (Fl R)} (hub : ∀ i, (fn ub i).val ≤ 1) (p : ℕ) : ∀ (j m : ℕ) (s : Fl R),
    (∀ i : ℕ, i ≤ m + p → R.rnd i = i) → s.val ≤ m →
    ((List.range' j p).foldl (fun s i => s + fn ub i) s).val ≤ ((m + p : ℕ) : K) := by
  induction p with
  | zero => intro j m s _ h; exact h
  | succ p ih =>
    intro j m s hnat h
    rw [List.range'_succ, List.foldl_cons, show m + (p + 1) = m + 1 + p by omega]
    refine ih (j + 1) (m + 1) _ (fun i hi => hnat i (by omega)) ?_
    rw [← hnat (m + 1) (by omega)]
    refine R.mono _ _ ?_
    push_cast
    exact add_le_add h (hub j)

theorem sum_range'_map (x : ℕ → K) (p : ℕ) : ∀ j, ((List.range' j p).map x).sum = ∑ i ∈ range p, x (j + i) := by
  induction p with
  | zero => intro j; rfl
  | succ p ih =>
    intro j
    rw [List.range'_succ, List.map_cons, List.sum_cons, ih, sum_range_succ', add_zero, add_comm]
    congr 1
    refine sum_congr rfl fun i _ => ?_
    rw [show j + 1 + i = j + (i + 1) by omega]

/-- **C113** `averaging(p, n, params)` in floating-point arithmetic, for at least `n` non-decreasing
parameters in `[0, 1]`, if the integers up to `p` are representable: the `j`-th interior knot is the
mean of the `p` parameters `j, ..., j + p - 1` up to `p + 1` roundings. The rounding errors disturb
neither the order of the knots nor their range: `is_sorted`, `is_clamped` and `is_normed` accept
them. They are the knots of a valid curve if moreover the second parameter is positive and the last but
one is less than `1` by more than these rounding errors. -/
theorem C113_averaging {p n : ℕ} (h1 : 1 ≤ p) (h2 : p ≤ n) {params : Parameters (Fl R)}
    (hl : n ≤ params.vector.length) (hs : params.vector.Pairwise (fun x y => x.val ≤ y.val))
    (hb : ∀ x ∈ params.vector, 0 ≤ x.val ∧ x.val ≤ 1) (hnat : ∀ m : ℕ, m ≤ p → R.rnd m = m) :
    ∃ (kn : Knots (Fl R)) (U : List (Fl R)), averaging p n params = .ok (.ok kn) ∧ kn.vector = .ok U ∧
      U.length = n + p + 2 ∧ U.Pairwise (fun x y => x.val ≤ y.val) ∧
      (∀ (j : ℕ) (x : Fl R), 1 ≤ j → j ≤ n - p → U[p + j]? = some x →
        (∑ i ∈ range p, (params.vector.map Fl.val).getD (j + i) 0) / p * (1 - R.eps) ^ (p + 1) ≤ x.val ∧
        x.val * (1 - R.eps) ^ (p + 1) ≤
          (∑ i ∈ range p, (params.vector.map Fl.val).getD (j + i) 0) / p) ∧
      kn.isSorted = .ok true ∧ kn.isClamped = .ok true ∧ kn.isNormed = .ok true ∧
      (0 < (params.vector.map Fl.val).getD 1 0 →
        (params.vector.map Fl.val).getD (n - 1) 0 < (1 - R.eps) ^ (p + 1) →
        ClampedKnots 0 1 p n (U.map Fl.val)) := by
  set ub := params.vector with hubdef
  have hne : ub ≠ [] := by
    intro h; rw [h] at hl; simp at hl; omega
  have hmem : ∀ i, 0 ≤ (fn ub i).val ∧ (fn ub i).val ≤ 1 := fun i => hb _ (fn_mem hne i)
  have hmono : Monotone (fn (ub.map Fl.val)) := fn_monotone (List.pairwise_map.mpr hs)
  have hm : ∀ {i j}, i ≤ j → (fn ub i).val ≤ (fn ub j).val := fun {i j} h => by
    have := hmono h
    rwa [fn_val, fn_val] at this
  have hp0 : (0 : K) < p := by exact_mod_cast h1
  have hpv : (p : Fl R).val = (p : K) := hnat p le_rfl
  set f : ℕ → Fl R := fun j => winSum ub p j / (p : Fl R) with hf
  have hsum : ∀ j, Near R p (winSum ub p j).val (∑ i ∈ range p, (fn ub (j + i)).val) := by
    intro j
    have hx : ∀ i : ℕ, 0 ≤ (fn ub i).val := fun i => (hmem i).1
    have := fold_near (R := R) (g := fun i => fn ub i) (x := fun i => (fn ub i).val) (k := 0) hx
      (List.range' j p) 0 0 0 (fun i _ => Near.refl _) le_rfl (by rw [Fl.val_zero]; exact Near.refl _)
    rw [List.length_range', zero_add, zero_add, zero_add] at this
    have e : ((List.range' j p).map fun i => (fn ub i).val).sum = ∑ i ∈ range p, (fn ub (j + i)).val := by
      exact sum_range'_map _ p j
    rw [e] at this
    exact this
  have hnn : ∀ j, 0 ≤ ∑ i ∈ range p, (fn ub (j + i)).val := fun j => sum_nonneg fun i _ => (hmem _).1
  have hnear : ∀ j, Near R (p + 1) (f j).val ((∑ i ∈ range p, (fn ub (j + i)).val) / p) := by
    intro j
    have h3 := ((hsum j).div (Near.refl (R := R) (p : K)) (hnn j) hp0).rnd (div_nonneg (hnn j) hp0.le)
    rw [add_zero, ← hpv] at h3
    rw [hpv] at h3
    have e : (f j).val = R.rnd ((winSum ub p j).val / (p : K)) := by
      rw [← hpv]; rfl
    rw [e]
    exact h3
  have hval : ∀ j, (f j).val = R.rnd ((winSum ub p j).val / (p : K)) := by
    intro j; rw [← hpv]; rfl
  have hrange : ∀ j, 0 ≤ (f j).val ∧ (f j).val ≤ 1 := by
    intro j
    refine ⟨(hnear j).nonneg (div_nonneg (hnn j) hp0.le), ?_⟩
    rw [hval, ← R.one]
    refine R.mono _ _ ?_
    rw [div_le_one hp0]
    have := foldl_add_le (R := R) (fun i => (hmem i).2) p j 0 0 (by simpa using hnat) (by simp [Fl.val_zero])
    rwa [zero_add] at this
  have hinc : ∀ j, (f j).val ≤ (f (j + 1)).val := by
    intro j
    rw [hval, hval]
    refine R.mono _ _ (div_le_div_of_nonneg_right ?_ hp0.le)
    exact foldl_add_mono p j (j + 1) 0 0 le_rfl fun i _ => hm (by omega)
  obtain ⟨ha, hb', hc, hd⟩ := genU_accepted (f := fun j => (f j).val) h2 (fun j _ _ => hrange j)
    (fun j _ _ => hinc j)
  have hv : (canonKnots p ((genU p n f).map Fl.val)).vector = .ok ((genU p n f).map Fl.val) :=
    canonKnots_vector _
  rw [← map_val_genU] at ha hb' hc hd
  refine ⟨_, _, averaging_ok h1 h2 hl, canonKnots_vector _, genU_length .., List.pairwise_map.mp ha, ?_,
    ?_, ?_, ?_, ?_⟩
  · intro j x hj1 hj2 hx
    obtain ⟨-, h4⟩ := genU_get hx
    rw [if_neg (by omega), if_pos (by omega), Nat.add_sub_cancel_left] at h4
    have e : ∑ i ∈ range p, (ub.map Fl.val).getD (j + i) 0 = ∑ i ∈ range p, (fn ub (j + i)).val := by
      refine sum_congr rfl fun i hi => ?_
      rw [mem_range] at hi
      rw [← fn_val, getD_fn (by rw [List.length_map]; omega)]
    rw [e, h4]
    exact hnear j
  · rw [isSorted_fl (canonKnots_vector _) hv]; exact hb'
  · rw [isClamped_fl (canonKnots_vector _) hv rfl]; exact hc
  · rw [isNormed_fl (canonKnots_vector _) hv]; exact hd
  · intro h3 h4
    rw [map_val_genU]
    refine genU_clamped h2 (fun j hj1 hj2 => ?_) (fun j _ _ => hinc j)
    rw [getD_fn (by rw [List.length_map]; omega), fn_val] at h3 h4
    constructor
    · refine (hnear j).pos (div_pos (sum_pos (fun i _ => h3.trans_le (hm (by omega))) ⟨0, ?_⟩) hp0)
      rw [mem_range]; omega
    · have h5 : (∑ i ∈ range p, (fn ub (j + i)).val) / p ≤ (fn ub (n - 1)).val := by
        rw [div_le_iff₀ hp0]
        calc _ ≤ ∑ _i ∈ range p, (fn ub (n - 1)).val := sum_le_sum fun i hi => by
              rw [mem_range] at hi; exact hm (by omega)
          _ = _ := by rw [sum_const, card_range, nsmul_eq_mul, mul_comm]
      have h6 := (hnear j).2
      have h7 := R.del_pow_pos (p + 1)
      refine lt_of_mul_lt_mul_right ?_ h7.le
      rw [one_mul]
      exact (h6.trans h5).trans_lt h4

/-! ### Knots of de Boor -/

/-- the value at `x` of the polygon through `t 0, t 1, ...`, where `t (i - 1)` is reached at `i` -/
def ramp (t : ℕ → K) (x : K) (i : ℕ) : K := (1 - (x - (i : K))) * t (i - 1) + (x - (i : K)) * t i

theorem gap_le {t : ℕ → K} {g : K} {N : ℕ} (hg : ∀ m, m + 1 ≤ N → g ≤ t (m + 1) - t m) {a : ℕ} :
    ∀ b, a ≤ b → b ≤ N → g * ((b : K) - (a : K)) ≤ t b - t a := by
  intro b hab
  induction b, hab using Nat.le_induction with
  | base => intro _; simp
  | succ b _ ih =>
    intro hb
    have h1 := ih (by omega)
    have h2 := hg b hb
    push_cast
    linarith

theorem ramp_sub_ge {t : ℕ → K} {g : K} {N : ℕ} (hg : ∀ m, m + 1 ≤ N → g ≤ t (m + 1) - t m) {x y : K}
    {i k : ℕ} (hi : 1 ≤ i) (hi1 : (i : K) ≤ x) (hi2 : x < (i : K) + 1) (hk1 : (k : K) ≤ y)
    (hk2 : y < (k : K) + 1) (hxy : x ≤ y) (hk : k ≤ N) : g * (y - x) ≤ ramp t y k - ramp t x i := by
  have hik : i ≤ k := by
    have : (i : K) < ((k + 1 : ℕ) : K) := by push_cast; linarith
    have : i < k + 1 := by exact_mod_cast this
    omega
  have hdk := hg (k - 1) (by omega)
  rw [show k - 1 + 1 = k by omega] at hdk
  rcases hik.eq_or_lt with rfl | hlt
  · have : ramp t y i - ramp t x i = (y - x) * (t i - t (i - 1)) := by rw [ramp, ramp]; ring
    rw [this, mul_comm]
    exact mul_le_mul_of_nonneg_left hdk (by linarith)
  · have hdi := hg (i - 1) (by omega)
    rw [show i - 1 + 1 = i by omega] at hdi
    have hm := gap_le hg (a := i) (k - 1) (by omega) (by omega)
    have e : ((k - 1 : ℕ) : K) = (k : K) - 1 := by rw [Nat.cast_sub (by omega), Nat.cast_one]
    rw [e] at hm
    have h1 := mul_le_mul_of_nonneg_left hdk (show 0 ≤ y - (k : K) by linarith)
    have h2 := mul_le_mul_of_nonneg_left hdi (show 0 ≤ (i : K) + 1 - x by linarith)
    have : ramp t y k - ramp t x i = (y - k) * (t k - t (k - 1)) + (t (k - 1) - t i) +
        ((i : K) + 1 - x) * (t i - t (i - 1)) := by rw [ramp, ramp]; ring
    rw [this]
    linarith [show g * (y - x) = (y - k) * g + g * ((k : K) - 1 - i) + ((i : K) + 1 - x) * g by ring]

theorem ramp_sub_le {t : ℕ → K} {g : K} {N : ℕ} (hg : ∀ m, m + 1 ≤ N → t (m + 1) - t m ≤ g) {x y : K}
    {i k : ℕ} (hi : 1 ≤ i) (hi1 : (i : K) ≤ x) (hi2 : x < (i : K) + 1) (hk1 : (k : K) ≤ y)
    (hk2 : y < (k : K) + 1) (hxy : x ≤ y) (hk : k ≤ N) : ramp t y k - ramp t x i ≤ g * (y - x) := by
  have := ramp_sub_ge (t := fun m => -t m) (g := -g) (N := N) (fun m hm => by linarith [hg m hm]) hi hi1 hi2
    hk1 hk2 hxy hk
  have e : ∀ z j, ramp (fun m => -t m) z j = -ramp t z j := fun z j => by rw [ramp, ramp]; ring
  rw [e, e] at this
  linarith

section DeBoor

variable [Trunc K] [LawfulTrunc K] {p n : ℕ}

/-- the position of the `j`-th knot among the parameters, as the code computes it -/
def flPos (R : Rounding K) (p n j : ℕ) : K :=
  ((j : Fl R) * (((n + 1 : ℕ) : Fl R) / ((n - p + 1 : ℕ) : Fl R))).val

theorem flPos_facts (h1 : 1 ≤ p) (h2 : p ≤ n) (hnat : ∀ m : ℕ, m ≤ n + 1 → R.rnd m = m)
    (hn : 8 * (n : K) * R.eps ≤ 1) {j : ℕ} (hj1 : 1 ≤ j) (hj2 : j ≤ n - p) :
    |flPos R p n j - (j : K) * (((n + 1 : ℕ) : K) / ((n - p + 1 : ℕ) : K))| ≤ 4 * n * R.eps ∧
    1 ≤ Trunc.trunc (flPos R p n j) ∧ Trunc.trunc (flPos R p n j) ≤ n ∧
    ((Trunc.trunc (flPos R p n j) : ℕ) : K) ≤ flPos R p n j ∧
    flPos R p n j < ((Trunc.trunc (flPos R p n j) : ℕ) : K) + 1 ∧
    (j + 1 ≤ n - p → flPos R p n j + 3 / 8 ≤ flPos R p n (j + 1)) := by
  have hpos : (0 : K) < ((n - p + 1 : ℕ) : K) := by exact_mod_cast Nat.succ_pos _
  have he := R.eps_nonneg
  have hn1 : (1 : K) ≤ n := by exact_mod_cast (by omega : 1 ≤ n)
  have he8 : 8 * R.eps ≤ 1 := by nlinarith
  set dd : K := ((n + 1 : ℕ) : K) / ((n - p + 1 : ℕ) : K) with hdd
  set D : K := (((n + 1 : ℕ) : Fl R) / ((n - p + 1 : ℕ) : Fl R)).val with hD
  have hDv : D = R.rnd dd := by
    have e1 : ((n + 1 : ℕ) : Fl R).val = ((n + 1 : ℕ) : K) := hnat _ le_rfl
    have e2 : ((n - p + 1 : ℕ) : Fl R).val = ((n - p + 1 : ℕ) : K) := hnat _ (by omega)
    rw [hdd, ← e1, ← e2]; rfl
  have hdd1 : 1 ≤ dd := by
    rw [hdd, one_le_div hpos]; exact_mod_cast (by omega : n - p + 1 ≤ n + 1)
  have hD1 : 1 ≤ D := by rw [hDv, ← R.one]; exact R.mono _ _ hdd1
  have hX : ∀ i : ℕ, i ≤ n + 1 → flPos R p n i = R.rnd ((i : K) * D) := by
    intro i hi
    have e : (i : Fl R).val = (i : K) := hnat i hi
    rw [← e]; rfl
  have hDn : Near R 1 D dd := by rw [hDv]; exact (Near.refl _).rnd (by linarith)
  have hXn : ∀ i : ℕ, i ≤ n + 1 → Near R 2 (flPos R p n i) ((i : K) * dd) := by
    intro i hi
    rw [hX i hi]
    have := ((Near.refl (R := R) (i : K)).mul hDn (Nat.cast_nonneg _) (by linarith)).rnd
      (mul_nonneg (Nat.cast_nonneg _) (by linarith))
    simpa using this
  have hlt : ∀ i : ℕ, 1 ≤ i → i ≤ n - p → (i : K) * dd < n := by
    intro i hi1 hi2
    obtain ⟨-, -, a, -, b, -⟩ := deBoor_pos (K := K) h1 h2 hi1 hi2
    have : ((Trunc.trunc ((i : K) * dd) + 1 : ℕ) : K) ≤ n := by
      have a' : Trunc.trunc ((i : K) * dd) ≤ n - 1 := a
      have hn' : 1 ≤ n := by omega
      exact_mod_cast (by omega : Trunc.trunc ((i : K) * dd) + 1 ≤ n)
    push_cast at this
    exact lt_of_lt_of_le b this
  have hphi : ∀ m : ℕ, m ≤ 4 → R.phi ^ m - 1 ≤ 2 * (m * R.eps) := fun m hm => by
    refine R.phi_pow_sub_one_le ?_
    have : (m : K) ≤ 4 := by exact_mod_cast hm
    nlinarith
  have herr : ∀ i : ℕ, 1 ≤ i → i ≤ n - p → |flPos R p n i - (i : K) * dd| ≤ 4 * n * R.eps := by
    intro i hi1 hi2
    have h3 := (Err.of_near (hXn i (by omega)) (mul_nonneg (Nat.cast_nonneg _) (by linarith))).2
    have h4 := hphi 2 (by omega)
    have h5 := hlt i hi1 hi2
    have h6 : 0 ≤ (i : K) * dd := mul_nonneg (Nat.cast_nonneg _) (by linarith)
    calc _ ≤ _ := h3
      _ ≤ (2 * ((2 : ℕ) * R.eps)) * ((i : K) * dd) := mul_le_mul_of_nonneg_right h4 h6
      _ ≤ (2 * ((2 : ℕ) * R.eps)) * n := mul_le_mul_of_nonneg_left h5.le (by positivity)
      _ = _ := by push_cast; ring
  have hjX : (j : K) ≤ flPos R p n j := by
    rw [hX j (by omega), ← hnat j (by omega)]
    refine R.mono _ _ ?_
    rw [hnat j (by omega)]
    exact le_mul_of_one_le_right (Nat.cast_nonneg _) hD1
  have hj1' : (1 : K) ≤ j := by exact_mod_cast hj1
  have hX0 : 0 ≤ flPos R p n j := by linarith
  have ht1 := LawfulTrunc.le (flPos R p n j) hX0
  have ht2 := LawfulTrunc.lt (flPos R p n j) hX0
  have hej := herr j hj1 hj2
  have hlj := hlt j hj1 hj2
  refine ⟨hej, ?_, ?_, ht1, ht2, ?_⟩
  · by_contra h
    have : Trunc.trunc (flPos R p n j) = 0 := by omega
    rw [this] at ht2
    simp at ht2; linarith
  · have : ((Trunc.trunc (flPos R p n j) : ℕ) : K) < ((n + 1 : ℕ) : K) := by
      rw [abs_le] at hej
      push_cast
      linarith [hej.2]
    have : Trunc.trunc (flPos R p n j) < n + 1 := by exact_mod_cast this
    omega
  · intro hj3
    have a1 := herr j hj1 hj2
    have hl' := hlt (j + 1) (by omega) hj3
    -- both positions in terms of the computed step
    have hjD : (j : K) * D ≤ (n : K) + 2 * n * R.eps := by
      have h3 := (Err.of_near hDn (by linarith)).2
      have h4 := hphi 1 (by omega)
      rw [abs_le] at h3
      have h5 : D ≤ dd + 2 * R.eps * dd := by
        have := mul_le_mul_of_nonneg_right h4 (show 0 ≤ dd by linarith)
        push_cast at this
        linarith [h3.2]
      have h6 := mul_le_mul_of_nonneg_left h5 (show (0 : K) ≤ j by linarith)
      have h7 := mul_le_mul_of_nonneg_left hlj.le (show 0 ≤ 2 * R.eps by linarith)
      linarith [show (j : K) * (dd + 2 * R.eps * dd) = j * dd + 2 * R.eps * (j * dd) by ring]
    have hj0 : 0 ≤ (j : K) * D := mul_nonneg (by linarith) (by linarith)
    have b1 := R.rel ((j : K) * D)
    have b2 := R.rel (((j + 1 : ℕ) : K) * D)
    rw [hX j (by omega), hX (j + 1) (by omega)]
    have e2 : ((j + 1 : ℕ) : K) * D = j * D + D := by push_cast; ring
    rw [e2] at b2 ⊢
    rw [abs_of_nonneg hj0, abs_le] at b1
    have hj0' : 0 ≤ (j : K) * D + D := by linarith
    rw [abs_of_nonneg hj0', abs_le] at b2
    have hD0 : 0 ≤ D - 1 := by linarith
    have hDj : D ≤ j * D := le_mul_of_one_le_left (by linarith) hj1'
    have c1 := mul_le_mul_of_nonneg_left hjD he
    have c2 := mul_le_mul_of_nonneg_left hDj he
    have c3 : R.eps * (2 * n * R.eps) ≤ 1 / 32 := by nlinarith [mul_nonneg (show (0 : K) ≤ n by linarith) he]
    have c4 : R.eps * ((n : K) + 2 * n * R.eps) ≤ 1 / 8 + 1 / 32 := by
      rw [mul_add]; linarith
    nlinarith [b1.2, b2.1]

/-- one knot, in terms of its computed position -/
theorem deBoorK_err (h1 : 1 ≤ p) (h2 : p ≤ n) (hnat : ∀ m : ℕ, m ≤ n + 1 → R.rnd m = m)
    (hn : 8 * (n : K) * R.eps ≤ 1) {ub : List (Fl R)} (hb : ∀ i, 0 ≤ (fn ub i).val ∧ (fn ub i).val ≤ 1)
    {j : ℕ} (hj1 : 1 ≤ j) (hj2 : j ≤ n - p) :
    0 ≤ (deBoorK ub p n j).val ∧ |(deBoorK ub p n j).val -
      ramp (fn (ub.map Fl.val)) (flPos R p n j) (Trunc.trunc (flPos R p n j))| ≤ 24 * R.eps := by
  obtain ⟨-, -, h3, h4, h5, -⟩ := flPos_facts h1 h2 hnat hn hj1 hj2
  set X := flPos R p n j with hX
  set i := Trunc.trunc X with hi
  have he := R.eps_nonneg
  have hn1 : (1 : K) ≤ n := by exact_mod_cast (by omega : 1 ≤ n)
  set a := (fn ub (i - 1)).val
  set b := (fn ub i).val
  obtain ⟨ha0, ha1⟩ := hb (i - 1)
  obtain ⟨hb0, hb1⟩ := hb i
  set α := R.rnd (X - (i : K)) with hα
  have hval : (deBoorK ub p n j).val = R.rnd (R.rnd (R.rnd (1 - α) * a) + R.rnd (α * b)) := by
    have e : (i : Fl R).val = (i : K) := hnat i (by omega)
    have e1 : (1 : Fl R).val = (1 : K) := Fl.val_one
    rw [hα, ← e, ← e1]; rfl
  have hα0 : 0 ≤ α := R.rnd_nonneg (by linarith)
  have hα1 : α ≤ 1 := by rw [hα, ← R.one]; exact R.mono _ _ (by linarith)
  refine ⟨?_, ?_⟩
  · rw [hval]
    refine R.rnd_nonneg (add_nonneg (R.rnd_nonneg (mul_nonneg (R.rnd_nonneg (by linarith)) ha0))
      (R.rnd_nonneg (mul_nonneg hα0 hb0)))
  · have e1 : Err R 1 α (X - i) 1 :=
      (Err.of_near ((Near.refl _).rnd (by linarith)) (by linarith)).weight_mono (by linarith)
    have e0 : Err R 1 (1 : K) 1 1 := by
      have := (Err.refl (R := R) (1 : K)).mono (l := 1) (by omega)
      rwa [abs_one] at this
    have ea : Err R 0 a a 1 := by
      have := Err.refl (R := R) a
      rw [abs_of_nonneg ha0] at this
      exact this.weight_mono ha1
    have eb : Err R 0 b b 1 := by
      have := Err.refl (R := R) b
      rw [abs_of_nonneg hb0] at this
      exact this.weight_mono hb1
    have e2 := ((e0.sub e1).rnd.mul ea).rnd
    have e3 := ((e1.mul eb).rnd.mono (l := 3) (by omega))
    have e4 := (e2.add e3).rnd.2
    have h6 : R.phi ^ 4 - 1 ≤ 2 * ((4 : ℕ) * R.eps) := R.phi_pow_sub_one_le (by push_cast; nlinarith)
    rw [hval, ramp, fn_val, fn_val]
    refine e4.trans ?_
    push_cast at h6
    norm_num
    linarith

theorem fn_mem_unit {ub : List (Fl R)} (hne : ub ≠ []) (hb : ∀ x ∈ ub, 0 ≤ x.val ∧ x.val ≤ 1) (i : ℕ) :
    0 ≤ (fn ub i).val ∧ (fn ub i).val ≤ 1 := hb _ (fn_mem hne i)

/-- **C113** `de_boor(p, n, params)` in floating-point arithmetic, for at least `n + 1` non-decreasing
parameters in `[0, 1]`, if the integers up to `n + 1` are representable and `8 n eps ≤ 1`: the
truncated positions stay within the parameters, so nothing panics. Every knot differs by at most
`(4 n + 24) eps` from the one of exact arithmetic, although a position close to an integer may be
truncated to another index. No knot is negative or exceeds `1` by more than `24 eps`, and none exceeds
its successor by more than `48 eps`, whatever the number of segments. -/
theorem C113_de_boor (h1 : 1 ≤ p) (h2 : p ≤ n) (hnat : ∀ m : ℕ, m ≤ n + 1 → R.rnd m = m)
    (hn : 8 * (n : K) * R.eps ≤ 1) {params : Parameters (Fl R)} (hl : n + 1 ≤ params.vector.length)
    (hs : params.vector.Pairwise (fun x y => x.val ≤ y.val))
    (hb : ∀ x ∈ params.vector, 0 ≤ x.val ∧ x.val ≤ 1) :
    ∃ (kn : Knots (Fl R)) (U : List (Fl R)) (kn' : Knots K) (V : List K),
      deBoor p n params = .ok (.ok kn) ∧ kn.vector = .ok U ∧
      deBoor p n ⟨params.vector.map Fl.val, params.segments⟩ = .ok (.ok kn') ∧ kn'.vector = .ok V ∧
      U.length = n + p + 2 ∧ V.length = n + p + 2 ∧ kn.isClamped = .ok true ∧
      (∀ (i : ℕ) (x : Fl R) (y : K), U[i]? = some x → V[i]? = some y →
        |x.val - y| ≤ (4 * n + 24) * R.eps) ∧
      (∀ x ∈ U, 0 ≤ x.val ∧ x.val ≤ 1 + 24 * R.eps) ∧
      ∀ (i : ℕ) (x y : Fl R), U[i]? = some x → U[i + 1]? = some y → x.val ≤ y.val + 48 * R.eps := by
  set ub := params.vector with hub
  have hne : ub ≠ [] := by intro h; rw [h] at hl; simp at hl
  have hmem := fn_mem_unit hne hb
  have hmono : Monotone (fn (ub.map Fl.val)) := fn_monotone (List.pairwise_map.mpr hs)
  have hunit : ∀ i, 0 ≤ fn (ub.map Fl.val) i ∧ fn (ub.map Fl.val) i ≤ 1 := fun i => by
    rw [fn_val]; exact hmem i
  have he := R.eps_nonneg
  have hn1 : (1 : K) ≤ n := by exact_mod_cast (by omega : 1 ≤ n)
  have hne' : 0 ≤ (n : K) * R.eps := mul_nonneg (by linarith) he
  have hF := fun {j : ℕ} hj1 hj2 => flPos_facts (R := R) (j := j) h1 h2 hnat hn hj1 hj2
  have hE := fun {j : ℕ} hj1 hj2 => deBoorK_err (R := R) (j := j) h1 h2 hnat hn hmem hj1 hj2
  have hok := deBoor_ok (params := params) h1 h2 (by
    intro j hj1 hj2
    obtain ⟨-, a, b, -⟩ := hF hj1 hj2
    refine ⟨a, ?_⟩
    have : Trunc.trunc (flPos R p n j) ≤ n := b
    change Trunc.trunc (flPos R p n j) < ub.length
    omega)
  have hok' := deBoor_ok (params := ⟨ub.map Fl.val, params.segments⟩) h1 h2 (by
    intro j hj1 hj2
    obtain ⟨-, a, b, -⟩ := deBoor_pos (K := K) h1 h2 hj1 hj2
    refine ⟨a, ?_⟩
    change _ < (ub.map Fl.val).length
    rw [List.length_map]
    exact lt_of_le_of_lt b (by omega))
  -- the polygon through the parameters
  have hramp : ∀ {x : K} {i : ℕ}, 1 ≤ i → (i : K) ≤ x → x < (i : K) + 1 →
      0 ≤ ramp (fn (ub.map Fl.val)) x i ∧ ramp (fn (ub.map Fl.val)) x i ≤ 1 := by
    intro x i _ hx1 hx2
    have a := hunit (i - 1)
    have b := hunit i
    rw [ramp]
    constructor
    · exact add_nonneg (mul_nonneg (by linarith) a.1) (mul_nonneg (by linarith) b.1)
    · have c1 := mul_le_of_le_one_right (show 0 ≤ 1 - (x - (i : K)) by linarith) a.2
      have c2 := mul_le_of_le_one_right (show 0 ≤ x - (i : K) by linarith) b.2
      linarith
  have hge := fun {x y : K} {i k : ℕ} => ramp_sub_ge (t := fn (ub.map Fl.val)) (g := 0) (N := k)
    (fun m _ => sub_nonneg.mpr (hmono (Nat.le_succ m))) (x := x) (y := y) (i := i) (k := k)
  have hle := fun {x y : K} {i k : ℕ} => ramp_sub_le (t := fn (ub.map Fl.val)) (g := 1) (N := k)
    (fun m _ => by linarith [(hunit (m + 1)).2, (hunit m).1]) (x := x) (y := y) (i := i) (k := k)
  have hrange : ∀ j, 1 ≤ j → j ≤ n - p →
      0 ≤ (deBoorK ub p n j).val ∧ (deBoorK ub p n j).val ≤ 1 + 24 * R.eps := by
    intro j hj1 hj2
    obtain ⟨a1, a2⟩ := hE hj1 hj2
    obtain ⟨-, b1, b2, b3, b4, -⟩ := hF hj1 hj2
    have := (hramp b1 b3 b4).2
    rw [abs_le] at a2
    exact ⟨a1, by linarith [a2.2]⟩
  refine ⟨_, _, _, _, hok, canonKnots_vector _, hok', canonKnots_vector _, genU_length .., genU_length ..,
    ?_, ?_, ?_, ?_⟩
  · rw [isClamped_fl (canonKnots_vector _) (canonKnots_vector (p := p) _) rfl]
    obtain ⟨b, h3, h4⟩ := C50_is_clamped
      (canonKnots_vector (p := p) ((genU p n (deBoorK (K := Fl R) ub p n)).map Fl.val))
    rw [h3, h4.mpr]
    intro i hi hip
    rw [canonKnots_degree] at hip
    have hlen : ((genU p n (deBoorK (K := Fl R) ub p n)).map Fl.val).length = n + p + 2 := by
      rw [List.length_map, genU_length]
    have hg : ∀ i (hi : i < ((genU p n (deBoorK (K := Fl R) ub p n)).map Fl.val).length),
        ((genU p n (deBoorK (K := Fl R) ub p n)).map Fl.val)[i] =
        (if i ≤ p then (0 : Fl R) else if i ≤ n then deBoorK ub p n (i - p) else 1).val := by
      intro i hi
      rw [List.getElem_map]
      congr 1
      exact (genU_get (List.getElem?_eq_getElem (by simpa using hi))).2
    rw [hg i hi, hg _ (by omega), if_pos hip, if_neg (by omega), if_neg (by omega)]
    exact ⟨Fl.val_zero, Fl.val_one⟩
  · intro i x y hx hy
    obtain ⟨hi, rfl⟩ := genU_get hx
    obtain ⟨-, rfl⟩ := genU_get hy
    have hz : 0 ≤ (4 * (n : K) + 24) * R.eps := by positivity
    by_cases e1 : i ≤ p
    · rw [if_pos e1, if_pos e1, Fl.val_zero, sub_zero, abs_zero]; exact hz
    rw [if_neg e1, if_neg e1]
    by_cases e2 : i ≤ n
    swap
    · rw [if_neg e2, if_neg e2, Fl.val_one, sub_self, abs_zero]; exact hz
    rw [if_pos e2, if_pos e2]
    obtain ⟨-, a2⟩ := hE (j := i - p) (by omega) (by omega)
    obtain ⟨b0, b1, b2, b3, b4, -⟩ := hF (j := i - p) (by omega) (by omega)
    obtain ⟨-, c1, c2, c3, c4, -⟩ := deBoor_pos (K := K) (j := i - p) h1 h2 (by omega) (by omega)
    have key : |ramp (fn (ub.map Fl.val)) (flPos R p n (i - p)) (Trunc.trunc (flPos R p n (i - p))) -
        deBoorK (ub.map Fl.val) p n (i - p)| ≤ 4 * n * R.eps := by
      refine le_trans ?_ b0
      set x := flPos R p n (i - p)
      set y := ((i - p : ℕ) : K) * (((n + 1 : ℕ) : K) / ((n - p + 1 : ℕ) : K)) with hy
      change |ramp _ x (Trunc.trunc x) - ramp _ y (Trunc.trunc y)| ≤ |x - y|
      rcases le_total x y with h | h
      · have d1 := hge b1 b3 b4 c3 c4 h le_rfl
        have d2 := hle b1 b3 b4 c3 c4 h le_rfl
        rw [abs_sub_comm, abs_sub_comm x, abs_of_nonneg (by linarith), abs_of_nonneg (by linarith)]
        linarith
      · have d1 := hge c1 c3 c4 b3 b4 h le_rfl
        have d2 := hle c1 c3 c4 b3 b4 h le_rfl
        rw [abs_of_nonneg (by linarith), abs_of_nonneg (by linarith)]
        linarith
    calc _ ≤ _ := abs_sub_le _ _ _
      _ ≤ 24 * R.eps + 4 * n * R.eps := add_le_add a2 key
      _ = _ := by ring
  · intro x hx
    obtain ⟨i, hi, rfl⟩ := List.getElem_of_mem hx
    rw [(genU_get (List.getElem?_eq_getElem hi)).2]
    split
    · rw [Fl.val_zero]; exact ⟨le_rfl, by linarith⟩
    · split
      · exact hrange _ (by omega) (by omega)
      · rw [Fl.val_one]; exact ⟨zero_le_one, by linarith⟩
  · intro i x y hx hy
    obtain ⟨hi, rfl⟩ := genU_get hx
    obtain ⟨hi', rfl⟩ := genU_get hy
    by_cases e1 : i + 1 ≤ p
    · rw [if_pos (by omega), if_pos e1]; linarith
    rw [if_neg e1]
    by_cases e2 : i ≤ p
    · rw [if_pos e2, Fl.val_zero]
      split
      · linarith [(hrange (i + 1 - p) (by omega) (by omega)).1]
      · rw [Fl.val_one]; linarith
    rw [if_neg e2]
    by_cases e3 : i + 1 ≤ n
    · rw [if_pos (by omega), if_pos e3, show i + 1 - p = i - p + 1 by omega]
      obtain ⟨-, a2⟩ := hE (j := i - p) (by omega) (by omega)
      obtain ⟨-, a4⟩ := hE (j := i - p + 1) (by omega) (by omega)
      obtain ⟨-, b1, b2, b3, b4, b5⟩ := hF (j := i - p) (by omega) (by omega)
      obtain ⟨-, c1, c2, c3, c4, -⟩ := hF (j := i - p + 1) (by omega) (by omega)
      have d1 := hge b1 b3 b4 c3 c4 (by linarith [b5 (by omega)]) le_rfl
      rw [abs_le] at a2 a4
      linarith [a2.2, a4.1]
    · rw [if_neg e3, Fl.val_one]
      split
      · linarith [(hrange (i - p) (by omega) (by omega)).2]
      · rw [Fl.val_one]; linarith

/-- **C113** If moreover neighbouring parameters differ by at least `128 n eps`, and `8 n^2 eps ≤ 1`
(in `f64`: up to about `33` million segments), then the knots of `de_boor` are those of a valid curve:
clamped, sorted, and the interior ones strictly increasing within `(0, 1)`. -/
theorem C113_de_boor_valid (h1 : 1 ≤ p) (h2 : p ≤ n) (hnat : ∀ m : ℕ, m ≤ n + 1 → R.rnd m = m)
    (hn : 8 * (n : K) ^ 2 * R.eps ≤ 1) {params : Parameters (Fl R)} (hl : n + 1 ≤ params.vector.length)
    (hb : ∀ x ∈ params.vector, 0 ≤ x.val ∧ x.val ≤ 1)
    (hg : ∀ (m : ℕ) (x y : Fl R), params.vector[m]? = some x → params.vector[m + 1]? = some y →
      128 * n * R.eps ≤ y.val - x.val) (he0 : 0 < R.eps) :
    ∃ (kn : Knots (Fl R)) (U : List (Fl R)), deBoor p n params = .ok (.ok kn) ∧ kn.vector = .ok U ∧
      ClampedKnots 0 1 p n (U.map Fl.val) ∧
      (∀ (i : ℕ) (x y : Fl R), p ≤ i → i ≤ n → U[i]? = some x → U[i + 1]? = some y → x.val < y.val) ∧
      kn.isSorted = .ok true ∧ kn.isClamped = .ok true ∧ kn.isNormed = .ok true := by
  set ub := params.vector with hub
  have hne : ub ≠ [] := by intro h; rw [h] at hl; simp at hl
  have hmem := fn_mem_unit hne hb
  have hn1 : (1 : K) ≤ n := by exact_mod_cast (by omega : 1 ≤ n)
  have hn8 : 8 * (n : K) * R.eps ≤ 1 := by
    have : (n : K) ≤ (n : K) ^ 2 := by nlinarith
    nlinarith
  have hF := fun {j : ℕ} hj1 hj2 => flPos_facts (R := R) (j := j) h1 h2 hnat hn8 hj1 hj2
  have hE := fun {j : ℕ} hj1 hj2 => deBoorK_err (R := R) (j := j) h1 h2 hnat hn8 hmem hj1 hj2
  set t := fn (ub.map Fl.val) with ht
  have hgap : ∀ m, m + 1 ≤ n → 128 * n * R.eps ≤ t (m + 1) - t m := by
    intro m hm
    rw [ht, fn_val, fn_val, fn_lt (by omega), fn_lt (by omega)]
    exact hg m _ _ (List.getElem?_eq_getElem _) (List.getElem?_eq_getElem _)
  have hunit : ∀ i, 0 ≤ t i ∧ t i ≤ 1 := fun i => by rw [ht, fn_val]; exact hmem i
  have hok := deBoor_ok (params := params) h1 h2 (by
    intro j hj1 hj2
    obtain ⟨-, a, b, -⟩ := hF hj1 hj2
    refine ⟨a, ?_⟩
    have : Trunc.trunc (flPos R p n j) ≤ n := b
    change Trunc.trunc (flPos R p n j) < ub.length
    omega)
  set g : K := 128 * n * R.eps with hgdef
  -- positions keep a distance of `1 / (2 n)` from the ends
  have hdist : ∀ j, 1 ≤ j → j ≤ n - p → 1 + 1 / (2 * n) ≤ flPos R p n j ∧ flPos R p n j ≤ n - 1 / (2 * n) := by
    intro j hj1 hj2
    obtain ⟨b0, -⟩ := hF hj1 hj2
    have hpos : (0 : K) < ((n - p + 1 : ℕ) : K) := by exact_mod_cast Nat.succ_pos _
    have hnn : ((n - p + 1 : ℕ) : K) ≤ n := by exact_mod_cast (by omega : n - p + 1 ≤ n)
    have hn0 : (0 : K) < n := by linarith
    have hsm : 4 * (n : K) * R.eps ≤ 1 / (2 * n) := by
      rw [le_div_iff₀ (by linarith)]; nlinarith
    have lo : 1 + 1 / (n : K) ≤ (j : K) * (((n + 1 : ℕ) : K) / ((n - p + 1 : ℕ) : K)) := by
      have a1 : 1 + 1 / (n : K) ≤ ((n + 1 : ℕ) : K) / ((n - p + 1 : ℕ) : K) := by
        rw [le_div_iff₀ hpos]
        have : (1 + 1 / (n : K)) * ((n - p + 1 : ℕ) : K) ≤ (1 + 1 / (n : K)) * n :=
          mul_le_mul_of_nonneg_left hnn (by positivity)
        refine this.trans (le_of_eq ?_)
        push_cast; field_simp
      have hj : (1 : K) ≤ j := by exact_mod_cast hj1
      exact a1.trans (le_mul_of_one_le_left (by positivity) hj)
    have hi' : (j : K) * (((n + 1 : ℕ) : K) / ((n - p + 1 : ℕ) : K)) ≤ n - 1 / (n : K) := by
      have hj : (j : K) ≤ ((n - p : ℕ) : K) := by exact_mod_cast hj2
      obtain ⟨q, rfl⟩ := Nat.exists_eq_add_of_le h2
      have eq1 : p + q - p = q := by omega
      rw [eq1] at hj hnn hpos ⊢
      have hp1 : (1 : K) ≤ p := by exact_mod_cast h1
      rw [← mul_div_assoc, div_le_iff₀ hpos, sub_mul, one_div, inv_mul_eq_div]
      have c1 : ((q + 1 : ℕ) : K) / ((p + q : ℕ) : K) ≤ 1 := by rw [div_le_one hn0]; exact hnn
      have c2 : (j : K) * ((p + q + 1 : ℕ) : K) ≤ q * ((p + q + 1 : ℕ) : K) :=
        mul_le_mul_of_nonneg_right hj (Nat.cast_nonneg _)
      push_cast at c1 c2 ⊢
      nlinarith
    have half : 1 / (n : K) = 1 / (2 * n) + 1 / (2 * n) := by field_simp; norm_num
    rw [abs_le] at b0
    constructor
    · linarith [b0.1]
    · linarith [b0.2]
  have hn0 : (0 : K) < n := by linarith
  have hgn : g * (1 / (2 * n)) = 64 * R.eps := by rw [hgdef]; field_simp; norm_num
  have hg0 : 0 < g := by rw [hgdef]; positivity
  have hin : ∀ j, 1 ≤ j → j ≤ n - p → 0 < (deBoorK ub p n j).val ∧ (deBoorK ub p n j).val < 1 := by
    intro j hj1 hj2
    obtain ⟨-, a2⟩ := hE hj1 hj2
    obtain ⟨-, b1, b2, b3, b4, -⟩ := hF hj1 hj2
    obtain ⟨c1, c2⟩ := hdist j hj1 hj2
    have hn1' : 0 < 1 / (2 * (n : K)) := by positivity
    have d1 := ramp_sub_ge hgap (x := 1) (y := flPos R p n j) (i := 1) (le_refl 1) (by simp) (by simp) b3 b4
      (by linarith) b2
    have hnat' : ((n : ℕ) : K) < (n : K) + 1 := by linarith
    have d2 := ramp_sub_ge hgap (x := flPos R p n j) (y := n) (k := n) b1 b3 b4 le_rfl hnat'
      (by linarith) le_rfl
    have r1 : ramp t 1 1 = t 0 := by rw [ramp]; simp
    have r2 : ramp t (n : K) n = t (n - 1) := by rw [ramp]; simp
    rw [r1] at d1
    rw [r2] at d2
    have m1 := mul_le_mul_of_nonneg_left (show 1 / (2 * (n : K)) ≤ flPos R p n j - 1 by linarith) hg0.le
    have m2 := mul_le_mul_of_nonneg_left (show 1 / (2 * (n : K)) ≤ n - flPos R p n j by linarith) hg0.le
    rw [hgn] at m1 m2
    have u1 := (hunit 0).1
    have u2 := (hunit (n - 1)).2
    rw [abs_le] at a2
    constructor
    · linarith [a2.1]
    · linarith [a2.2]
  have hinc : ∀ j, 1 ≤ j → j + 1 ≤ n - p → (deBoorK ub p n j).val < (deBoorK ub p n (j + 1)).val := by
    intro j hj1 hj2
    obtain ⟨-, a2⟩ := hE (j := j) hj1 (by omega)
    obtain ⟨-, a4⟩ := hE (j := j + 1) (by omega) hj2
    obtain ⟨-, b1, b2, b3, b4, b5⟩ := hF (j := j) hj1 (by omega)
    obtain ⟨-, c1, c2, c3, c4, -⟩ := hF (j := j + 1) (by omega) hj2
    have b5' := b5 hj2
    have d1 := ramp_sub_ge hgap b1 b3 b4 c3 c4 (by linarith) c2
    have m1 := mul_le_mul_of_nonneg_left (show 3 / 8 ≤ flPos R p n (j + 1) - flPos R p n j by linarith) hg0.le
    have hn2 : (2 : K) ≤ n := by exact_mod_cast (by omega : 2 ≤ n)
    have m2 : 256 * R.eps ≤ g := by rw [hgdef]; nlinarith
    rw [abs_le] at a2 a4
    linarith [a2.2, a4.1]
  have hU : ClampedKnots 0 1 p n ((genU p n (deBoorK (K := Fl R) ub p n)).map Fl.val) := by
    rw [map_val_genU]
    exact genU_clamped h2 hin fun j hj1 hj2 => (hinc j hj1 hj2).le
  have hv : (canonKnots p ((genU p n (deBoorK (K := Fl R) ub p n)).map Fl.val)).vector = .ok _ :=
    canonKnots_vector _
  have hV := C50_valid hv rfl hU
  refine ⟨_, _, hok, canonKnots_vector _, hU, ?_, ?_, ?_, ?_⟩
  · intro i x y hi1 hi2 hx hy
    obtain ⟨hi, rfl⟩ := genU_get hx
    obtain ⟨hi', rfl⟩ := genU_get hy
    rw [if_neg (show ¬ i + 1 ≤ p by omega)]
    by_cases e2 : i ≤ p
    · rw [if_pos e2, Fl.val_zero]
      split
      · exact (hin (i + 1 - p) (by omega) (by omega)).1
      · rw [Fl.val_one]; exact zero_lt_one
    rw [if_neg e2, if_pos hi2]
    by_cases e3 : i + 1 ≤ n
    · rw [if_pos e3, show i + 1 - p = i - p + 1 by omega]
      exact hinc _ (by omega) (by omega)
    · rw [if_neg e3, Fl.val_one]
      exact (hin (i - p) (by omega) (by omega)).2
  · rw [isSorted_fl (canonKnots_vector _) hv]; exact hV.1
  · rw [isClamped_fl (canonKnots_vector _) hv rfl]; exact hV.2.1
  · rw [isNormed_fl (canonKnots_vector _) hv]; exact hV.2.2

end DeBoor

/-! ### Concrete cases, and rounding errors that disturb the order -/

/-- parameters that are not equidistant, with a third among them -/
def fkParams : Parameters (Fl f64) := ⟨[0, Fl.of f64 (1 / 10), Fl.of f64 (1 / 3), Fl.of f64 (9 / 10), 1], 4⟩

example : fkParams.vector.Pairwise (fun x y => x.val ≤ y.val) := by decide +kernel
example : ∀ x ∈ fkParams.vector, 0 ≤ x.val ∧ x.val ≤ 1 := by decide +kernel
example : ∀ m : ℕ, m ≤ 5 → f64.rnd m = m := by decide +kernel
example : 8 * ((4 : ℕ) : ℚ) ^ 2 * f64.eps ≤ 1 ∧ 0 < f64.eps := by decide +kernel
example : (0 : ℚ) < (fkParams.vector.map Fl.val).getD 1 0 ∧
    (fkParams.vector.map Fl.val).getD (4 - 1) 0 < (1 - f64.eps) ^ (2 + 1) := by decide +kernel
example : ∀ m < 4, 128 * ((4 : ℕ) : ℚ) * f64.eps ≤
    (fkParams.vector.map Fl.val).getD (m + 1) 0 - (fkParams.vector.map Fl.val).getD m 0 := by decide +kernel

section Counterexample

/-- a square root that is right on the squares of rational numbers -/
local instance fkSqrt : Sqrt ℚ := ⟨fun x => (Nat.sqrt x.num.toNat : ℚ) / (Nat.sqrt x.den : ℚ)⟩

/-- control points on a line, four of which coincide -/
def fkPts : DataPoints (Fl f64) 1 :=
  [![0], ![Fl.of f64 28], ![Fl.of f64 28], ![Fl.of f64 28], ![Fl.of f64 28], ![Fl.of f64 29]]

/-- **C113** The distance between the parameters is needed: `generate` with degree `1`, the parameters
of `chord_length` and the knots of `de_boor` succeeds for the control points `0, 28, 28, 28, 28, 29`, its
parameters `0, 28/29, ..., 28/29, 1` are sorted, but its knots are not: between equal parameters
`(1 - a) x + a x` is rounded in one case to `x`, in the other one to its predecessor. -/
theorem C113_generate_unsorted (solver : Solver (Fl f64) 1) :
    ∃ (ps : Parameters (Fl f64)) (c : Curve (Fl f64) 1), chordLength fkPts = .ok ps ∧
      ps.vector.Pairwise (fun x y => x.val ≤ y.val) ∧ (∀ x ∈ ps.vector, 0 ≤ x.val ∧ x.val ≤ 1) ∧
      generate solver (.manual 1 (ControlPoints.new fkPts) (.method .chordLength .deBoor)) = .ok (.ok c) ∧
      c.knots.isSorted = .ok false := by
  have h : observe (do
      let data ← (ControlPoints.new fkPts).matrix
      let knots ← generateManualKnots 1 5 data (.method .chordLength .deBoor)
      match knots with
      | .error e => pure (.error e)
      | .ok knots => Curve.new knots (ControlPoints.new fkPts)) = some (false, 29) := by decide +kernel
  obtain ⟨c, v, h1, h2, -, -⟩ := observe_ok h
  have h1 : generate solver (.manual 1 (ControlPoints.new fkPts) (.method .chordLength .deBoor)) =
      .ok (.ok c) := by
    have hseg : (ControlPoints.new fkPts).segments = .ok 5 := rfl
    rw [generate]
    simp only [hseg, ok_bind]
    rw [if_neg (by omega)]
    convert h1
    rename_i y; cases y <;> rfl
  have h3 : (chordLength fkPts).map (fun ps => decide (ps.vector.Pairwise (fun x y => x.val ≤ y.val) ∧
    ∀ x ∈ ps.vector, 0 ≤ x.val ∧ x.val ≤ 1)) = .ok true := by decide +kernel
  rcases hc : chordLength fkPts with e | ps
  · rw [hc] at h3; cases h3
  · rw [hc] at h3
    have h4 := of_decide_eq_true (Except.ok.inj h3)
    exact ⟨ps, c, rfl, h4.1, h4.2, h1, h2⟩

end Counterexample

/-- truncation of a number of the format to an unsigned integer, as `as usize` does it -/
def truncIeee : Ieee binary64 → ℕ
  | .fin _ v => ⌊v.val⌋.toNat
  | .inf true => 0
  | .inf false => 2 ^ 64 - 1
  | .nan => 0

local instance : Trunc (Ieee binary64) := ⟨truncIeee⟩

/-- **C113** The same with ties to even, in the format of `f64`, for the knots themselves. -/
theorem C113_unsorted_f64 : ∃ (ps : Parameters (Ieee binary64)) (kn : Knots (Ieee binary64))
    (U : List (Ieee binary64)), ps.vector.map exactOf = [0, binary64.rnd (28 / 29), binary64.rnd (28 / 29),
      binary64.rnd (28 / 29), binary64.rnd (28 / 29), 1] ∧ deBoor 1 5 ps = .ok (.ok kn) ∧
    kn.vector = .ok U ∧ kn.isSorted = .ok false ∧ ∃ x y, (U.map exactOf)[4]? = some x ∧
      (U.map exactOf)[5]? = some y ∧ y < x := by
  refine ⟨⟨[0, eq64 (28 / 29), eq64 (28 / 29), eq64 (28 / 29), eq64 (28 / 29), 1], 5⟩, _, _,
    by decide +kernel, deBoor_ok (by omega) (by omega) (by decide +kernel), canonKnots_vector _,
    by decide +kernel, _, _, rfl, rfl, by decide +kernel⟩

end BSpline
