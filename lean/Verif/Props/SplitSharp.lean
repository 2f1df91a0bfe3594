import Mathlib.LinearAlgebra.FiniteDimensional.Lemmas
import Mathlib.LinearAlgebra.Dimension.Constructions
import Verif.Props.InsertSharp
import Verif.Props.Split
import Verif.Props.Unique
import Verif.Refine.Merge

/-!
# Exactly when splitting works: C83

C24–C27 are proved for parameters with no repeated interior knot below. Here: the outcome of `split` in
the remaining cases, and that the parts are never right there.
-/

set_option linter.unusedSectionVars false

namespace BSpline

open Finset

variable {K : Type} [Field K] [LinearOrder K] [IsStrictOrderedRing K] {d : ℕ}

/-- inserting adds one to the computed multiplicity, wherever the knot goes -/
theorem multF_insU {p n l : ℕ} {U : List K} {u : K} (hU : U.length = n + p + 2) (hp : p ≤ n) (h1 : p ≤ l)
    (h2 : l ≤ n) : multF p (n + 1) (insU U u l) u = multF p n U u + 1 := by
  rw [multF, multF, insU, List.drop_append_of_le_length (by simp; omega), List.drop_take]
  have e : (U.drop p).take (n - p + 2) =
      (U.drop p).take (l + 1 - p) ++ (U.drop (l + 1)).take (n - l + 1) := by
    rw [show n - p + 2 = (l + 1 - p) + (n - l + 1) by omega, List.take_add, List.drop_drop,
      show p + (l + 1 - p) = l + 1 by omega]
  rw [e, List.take_append, List.take_of_length_le (by simp; omega), List.length_take, List.length_drop,
    show n + 1 - p + 2 - min (l + 1 - p) (U.length - p) = n - l + 1 + 1 by omega, List.take_succ_cons,
    List.filter_append, List.filter_append, List.length_append, List.length_append,
    List.filter_cons_of_pos (by simp [Cmp.eq]), List.length_cons]
  omega

/-- what is behind a place stays behind it -/
theorem mem_drop_insU {U : List K} {u y : K} {l k : ℕ} (hy : y ∈ U.drop k) : y ∈ (insU U u l).drop k := by
  obtain ⟨i, hi, rfl⟩ := List.mem_iff_getElem.mp hy
  simp only [List.length_drop] at hi
  rw [List.getElem_drop, insU]
  by_cases h : k + i < l + 1
  · refine List.mem_iff_getElem.mpr ⟨i, by simp; omega, ?_⟩
    rw [List.getElem_drop, List.getElem_append_left (by simp; omega), List.getElem_take]
  · refine List.mem_iff_getElem.mpr ⟨i + 1, by simp; omega, ?_⟩
    rw [List.getElem_drop, List.getElem_append_right (by simp; omega)]
    simp only [List.length_take]
    rw [List.getElem_cons, dif_neg (by omega), List.getElem_drop]
    congr 1; omega

/-- weights of the old control points in the new ones -/
def insW (U : ℕ → K) (p : ℕ) (u : K) (l i j : ℕ) : K :=
  if i ≤ l - p then (if j = i then 1 else 0)
  else if i ≤ l then (1 - (u - U i) / (U (i + p) - U i)) * (if j = i - 1 then 1 else 0) +
    (u - U i) / (U (i + p) - U i) * (if j = i then 1 else 0)
  else (if j = i - 1 then 1 else 0)

theorem insP_sum {U : ℕ → K} {p n l i : ℕ} (P : ℕ → Pt K d) (u : K) (hl : l ≤ n) (hi : i ≤ n + 1) :
    insP U p P u l i = ∑ j ∈ range (n + 1), insW U p u l i j • P j := by
  have key : ∀ s, s ≤ n → ∑ j ∈ range (n + 1), (if j = s then (1 : K) else 0) • P j = P s := by
    intro s hs
    rw [sum_eq_single s]
    · rw [if_pos rfl, one_smul]
    · intro j _ hj; rw [if_neg hj, zero_smul]
    · intro h; exact absurd (mem_range.mpr (by omega)) h
  simp only [insP, insW]
  split
  · rw [key i (by omega)]
  split
  · simp only [add_smul, mul_smul]
    rw [sum_add_distrib, ← smul_sum, ← smul_sum, key (i - 1) (by omega), key i (by omega)]
    funext r
    simp [scale]
  · rw [key (i - 1) (by omega)]

/-- repeated insertion that does not panic: the new points are combinations of the old ones -/
theorem insertUnwrapTimes_linear {p : ℕ} {u : K} (h0 : 0 < u) (h1 : u < 1) (x : ℕ) : ∀ {n : ℕ} {U : List K},
    U.length = n + p + 2 → p ≤ n → multF p n U u + x ≤ p + 1 →
    ∃ (U' : List K) (A : ℕ → ℕ → K), U'.length = n + x + p + 2 ∧ (∀ k, ∀ y ∈ U.drop k, y ∈ U'.drop k) ∧
      ∀ (d : ℕ) (P : List (Pt K d)), P.length = n + 1 → insertUnwrapTimes (canon p U P) u x =
        .ok (canon p U' ((List.range (n + x + 1)).map (fun i => ∑ j ∈ range (n + 1), A i j • fn P j))) := by
  induction x with
  | zero =>
    intro n U hU hp _
    refine ⟨U, fun i j => if j = i then 1 else 0, hU, fun _ _ h => h, ?_⟩
    intro d P hP
    rw [insertUnwrapTimes, pure_ok]
    congr 2
    apply ext_fn (by simp [hP])
    intro i hi
    rw [fn_map_range _ (by omega), sum_eq_single i]
    · dsimp only; rw [if_pos rfl, one_smul]
    · intro j _ hj; dsimp only; rw [if_neg hj, zero_smul]
    · intro h; exact absurd (mem_range.mpr (by omega)) h
  | succ x ih =>
    intro n U hU hp hm
    have hb := lleq_bounds (fn U) u (n - p) p
    have hl : (insU U u (lleq (fn U) u (n - p) p)).length = n + 1 + p + 2 := by
      rw [insU]; simp; omega
    obtain ⟨U', A, e1, e2, e3⟩ := ih hl (by omega) (by rw [multF_insU hU hp hb.1 (by omega)]; omega)
    refine ⟨U', fun i j => ∑ k ∈ range (n + 2), A i k * insW (fn U) p u (lleq (fn U) u (n - p) p) k j,
      by omega, fun k y hy => e2 k y (mem_drop_insU hy), ?_⟩
    intro d P hP
    rw [insertUnwrapTimes, insert_ok hU hP hp, if_neg (by simp [Cmp.le, h0, h1]), if_neg (by omega), ok_bind]
    dsimp only [unwrap]
    rw [ok_bind, e3 _ _ (by simp)]
    congr 2
    rw [show n + 1 + x + 1 = n + (x + 1) + 1 by omega]
    apply List.map_congr_left
    intro i _
    simp only [sum_smul, mul_smul]
    rw [sum_comm]
    apply sum_congr rfl
    intro k hk
    rw [mem_range] at hk
    rw [fn_map_range _ hk, insP_sum _ _ (n := n) (by omega) (by omega), smul_sum]

/-- repeated insertion panics if the multiplicity gets too high -/
theorem insertUnwrapTimes_panic {p : ℕ} {u : K} (h0 : 0 < u) (h1 : u < 1) (x : ℕ) : ∀ {n : ℕ} {U : List K}
    {P : List (Pt K d)}, U.length = n + p + 2 → P.length = n + 1 → p ≤ n → 0 < x →
    p + 1 < multF p n U u + x → insertUnwrapTimes (canon p U P) u x = .error .unwrap := by
  induction x with
  | zero => intro n U P _ _ _ h; omega
  | succ x ih =>
    intro n U P hU hP hp _ hm
    have hb := lleq_bounds (fn U) u (n - p) p
    rw [insertUnwrapTimes, insert_ok hU hP hp, if_neg (by simp [Cmp.le, h0, h1])]
    by_cases h : p < multF p n U u
    · rw [if_pos h, ok_bind]; rfl
    · rw [if_neg h, ok_bind]
      dsimp only [unwrap]
      rw [ok_bind]
      refine ih (n := n + 1) (by rw [insU]; simp; omega) (by simp) (by omega) (by omega) ?_
      rw [multF_insU hU hp hb.1 (by omega)]; omega

/-- where the search stops above a repeated knot -/
theorem search_stops {p n : ℕ} {U : List K} {u : K} (hU : ClampedKnots 0 1 p n U) (h1 : u < 1)
    (hr : ¬ SimpleBelow U u) : p < lleq (fn U) u (n - p) p ∧ lleq (fn U) u (n - p) p ≤ n ∧
      fn U (lleq (fn U) u (n - p) p + 1) = fn U (lleq (fn U) u (n - p) p) ∧
      fn U (lleq (fn U) u (n - p) p) < u ∧
      fn U (lleq (fn U) u (n - p) p - 1) < fn U (lleq (fn U) u (n - p) p) := by
  have hlen := hU.length
  have hle := hU.le
  have hcl := hU.clamp
  simp only [SimpleBelow, not_forall, not_le] at hr
  obtain ⟨x, hx0, hxu, hcon⟩ := hr
  have i1 : ∀ {i}, i < U.length → (fn U i < x ↔ i < nlt U x) := fun hi => fn_lt_iff hU.sorted x hi
  have i2 : ∀ {i}, i < U.length → (fn U i ≤ x ↔ i < nlt U x + U.count x) :=
    fun hi => fn_le_iff hU.sorted x hi
  have a1 := (i1 (i := p) (by omega)).mp (by rw [hcl.left p le_rfl]; exact hx0)
  have a2 := (not_congr (i2 (i := n + 1) (by omega))).mp
    (by rw [hcl.right (n + 1) le_rfl]; exact not_le.mpr (hxu.trans h1))
  have eqx : ∀ i, nlt U x ≤ i → i < nlt U x + U.count x → fn U i = x := fun i h1 h2 =>
    le_antisymm ((i2 (by omega)).mpr h2) (not_lt.mp ((not_congr (i1 (by omega))).mpr (by omega)))
  have hrep : ∃ m, p < m ∧ m ≤ n ∧ fn U (m + 1) = fn U m ∧ fn U m < u := ⟨nlt U x, by omega, by omega,
    by rw [eqx _ (by omega) (by omega), eqx _ le_rfl (by omega)],
    by rw [eqx _ le_rfl (by omega)]; exact hxu⟩
  have hst := lleq_stops (u := u) hcl.mono (n - p) p (n := n) (by omega) hrep
  have hst' := lleq_stops_first (u := u) hcl.mono (n - p) p (n := n) (by omega)
    (by rw [hcl.left p le_rfl]; exact hcl.a_lt (by omega)) hrep
  exact ⟨hst'.1, hst.1, hst.2.1, hst.2.2, hst'.2⟩

/-- `split` above a repeated knot up to the insertions -/
theorem split_start {p n : ℕ} {U : List K} {P : List (Pt K d)} {u : K} (hU : ClampedKnots 0 1 p n U)
    (h0 : 0 < u) (h1 : u < 1) (hr : ¬ SimpleBelow U u) (norm : Bool × Bool) :
    splitAndNormalize (canon p U P) u norm = (do
      let b ← insertUnwrapTimes (canon p U P) u p
      let U' ← b.knots.vector
      let P' ← b.points.matrix
      let left ← splitLeft p U' P' u (lleq (fn U) u (n - p) p + p + 1) false norm.1
      match left with
      | .error e => pure (.error (.curveError e))
      | .ok left => do
        let right ← splitRight p U' P' u (lleq (fn U) u (n - p) p + 1) false norm.2
        match right with
        | .error e => pure (.error (.curveError e))
        | .ok right => pure (.ok (left, right))) := by
  obtain ⟨hpl, hln, hl1, hlu, -⟩ := search_stops hU h1 hr
  have hfi := findIdx_leftOrEqual_ok hU.length hU.le (Nat.zero_le p) u
  have hlen := hU.length
  simp only [Nat.add_zero, Nat.sub_zero] at hfi
  rw [splitAndNormalize, if_neg (by simp [Cmp.le, h0, h1]), canon_degree, canon_knots, hfi, ok_bind,
    canonKnots_vector, ok_bind]
  dsimp only
  have hm : ((U.drop (lleq (fn U) u (n - p) p)).takeWhile (fun x => Cmp.eq x u)).length = 0 := by
    rw [List.drop_eq_getElem_cons (by omega), List.takeWhile_cons_of_neg]
    · rfl
    · rw [← fn_lt]; simpa [Cmp.eq] using hlu.ne
  rw [hm, if_neg (by omega), usub_ok (Nat.zero_le p), ok_bind]
  rfl

/-- what `split` returns above a repeated knot -/
theorem split_above {p n : ℕ} {U : List K} {u : K} (hU : ClampedKnots 0 1 p n U)
    (h0 : 0 < u) (h1 : u < 1) (hr : ¬ SimpleBelow U u) (hm : p = 0 ∨ U.count u ≤ 1) :
    ∃ (l : ℕ) (U' : List K) (A : ℕ → ℕ → K), l = lleq (fn U) u (n - p) p ∧ U'.length = n + p + p + 2 ∧
      fn U l ∈ U'.drop (l + 1) ∧ ∀ (d : ℕ) (P : List (Pt K d)) (norm : Bool × Bool), P.length = n + 1 →
        splitAndNormalize (canon p U P) u norm = .ok (.ok
          (canon p (normalizeIf norm.1 (U'.take (l + 1 + p) ++ [u]))
            (((List.range (n + p + 1)).map (fun i => ∑ j ∈ range (n + 1), A i j • fn P j)).take (l + 1)),
          canon p (normalizeIf norm.2 (u :: U'.drop (l + 1)))
            (((List.range (n + p + 1)).map (fun i => ∑ j ∈ range (n + 1), A i j • fn P j)).drop l))) := by
  obtain ⟨hpl, hln, hl1, hlu, -⟩ := search_stops hU h1 hr
  have hlen := hU.length
  have hle := hU.le
  have hmf : multF p n U u + p ≤ p + 1 ∨ p = 0 := by
    rw [multF_eq_count hU h0 h1]; omega
  have hex : ∃ (U' : List K) (A : ℕ → ℕ → K), U'.length = n + p + p + 2 ∧ (∀ k, ∀ y ∈ U.drop k, y ∈ U'.drop k) ∧
      ∀ (d : ℕ) (P : List (Pt K d)), P.length = n + 1 → insertUnwrapTimes (canon p U P) u p =
        .ok (canon p U' ((List.range (n + p + 1)).map (fun i => ∑ j ∈ range (n + 1), A i j • fn P j))) := by
    rcases hmf with h | rfl
    · exact insertUnwrapTimes_linear h0 h1 p hlen hle h
    · refine ⟨U, fun i j => if j = i then 1 else 0, by omega, fun _ _ h => h, ?_⟩
      intro d P hP
      rw [insertUnwrapTimes, pure_ok]
      congr 2
      apply ext_fn (by simp [hP])
      intro i hi
      rw [fn_map_range _ (by omega), sum_eq_single i]
      · dsimp only; rw [if_pos rfl, one_smul]
      · intro j _ hj; dsimp only; rw [if_neg hj, zero_smul]
      · intro h; exact absurd (mem_range.mpr (by omega)) h
  obtain ⟨U', A, e1, e2, e3⟩ := hex
  refine ⟨_, U', A, rfl, e1, ?_, ?_⟩
  · apply e2
    rw [← hl1, fn_lt (by omega), List.mem_drop_iff_getElem]
    exact ⟨0, by omega, rfl⟩
  · intro d P norm hP
    rw [split_start hU h0 h1 hr, e3 d P hP, ok_bind, canon_knots, canonKnots_vector, ok_bind, canon_matrix,
      ok_bind, show lleq (fn U) u (n - p) p + p + 1 = lleq (fn U) u (n - p) p + 1 + p by omega,
      splitLeft_ok _ _ _ (by omega) (by omega) (by simp; omega), ok_bind]
    dsimp only
    rw [splitRight_ok _ _ _ (by simp; omega) (by omega) (by simp; omega), ok_bind]
    rfl

/-- normalisation keeps the order of two different knots -/
theorem normalizeIf_lt {v : List K} {x y : K} (norm : Bool) (hx : x ∈ v) (hy : y ∈ v) (hxy : x < y) :
    ∃ f : K → K, normalizeIf norm v = v.map f ∧ f x < f y := by
  cases norm with
  | false => exact ⟨id, by simp [normalizeIf], hxy⟩
  | true =>
    refine ⟨_, rfl, ?_⟩
    have h : 0 < vmax v - vmin v := by
      have h1 := vmin_le hx
      have h2 := le_vmax hy
      linarith
    simp only [sub_zero, mul_one, add_zero]
    exact div_lt_div_of_pos_right (by linarith) h

/-- **C83** `split` above a repeated interior knot. If `u` itself is a repeated knot (and the degree is
positive) it panics. Otherwise it returns two curves, and the knots of the second one are not even
sorted. -/
theorem C83_outcome {c : Curve K d} {p n : ℕ} {U : List K} {P : List (Pt K d)} (hc : ValidOn 0 1 c p n U P)
    {u : K} (h0 : 0 < u) (h1 : u < 1) (hr : ¬ SimpleBelow U u) (norm : Bool × Bool) :
    (1 ≤ p → 2 ≤ U.count u → splitAndNormalize c u norm = .error .unwrap) ∧
    (p = 0 ∨ U.count u ≤ 1 → ∃ l r V, splitAndNormalize c u norm = .ok (.ok (l, r)) ∧
      r.knots.vector = .ok V ∧ ¬ V.Pairwise (· ≤ ·)) := by
  obtain rfl := hc.eq_canon
  obtain ⟨-, hU, hP⟩ := hc
  constructor
  · intro hp hm
    rw [split_start hU h0 h1 hr, insertUnwrapTimes_panic h0 h1 p hU.length hP hU.le (by omega)
      (by rw [multF_eq_count hU h0 h1]; omega)]
    rfl
  · intro hm
    obtain ⟨-, -, -, hlu, -⟩ := search_stops hU h1 hr
    obtain ⟨l, U', A, rfl, -, hmem, hs⟩ := split_above hU h0 h1 hr hm
    refine ⟨_, _, _, hs d P norm hP, by rw [canon_knots, canonKnots_vector], ?_⟩
    obtain ⟨f, e, hf⟩ := normalizeIf_lt norm.2 (List.mem_cons_of_mem u hmem) List.mem_cons_self hlu
    rw [e, List.map_cons, List.pairwise_cons]
    rintro ⟨hall, -⟩
    exact absurd (hall _ (List.mem_map_of_mem hmem)) (not_le.mpr hf)

/-- **C83** When `split` panics. -/
theorem C83_panic_iff {c : Curve K d} {p n : ℕ} {U : List K} {P : List (Pt K d)} (hc : ValidOn 0 1 c p n U P)
    (u : K) (norm : Bool × Bool) : (∃ e, splitAndNormalize c u norm = .error e) ↔
      0 < u ∧ u < 1 ∧ ¬ SimpleBelow U u ∧ 1 ≤ p ∧ 2 ≤ U.count u := by
  constructor
  · rintro ⟨e, he⟩
    by_cases hu : u ≤ 0 ∨ 1 ≤ u
    · rw [C26_out_of_bounds _ _ _ (by simpa [Cmp.le] using hu)] at he
      cases he
    push Not at hu
    by_cases hr : SimpleBelow U u
    · obtain ⟨-, a1, a2⟩ := C26_split_errors_partial hc hr norm
      by_cases hm : p < U.count u
      · rw [a1 hu.1 hu.2 hm] at he; cases he
      · obtain ⟨l, r, h⟩ := a2 hu.1 hu.2 (by omega)
        rw [h] at he; cases he
    · by_cases hm : p = 0 ∨ U.count u ≤ 1
      · obtain ⟨l, r, V, h, -⟩ := (C83_outcome hc hu.1 hu.2 hr norm).2 hm
        rw [h] at he; cases he
      · exact ⟨hu.1, hu.2, hr, by omega, by omega⟩
  · rintro ⟨h0, h1, hr, hp, hm⟩
    exact ⟨_, (C83_outcome hc h0 h1 hr norm).1 hp hm⟩

/-- **C83** When `split` returns two proper curves. -/
theorem C83_valid_iff {c : Curve K d} {p n : ℕ} {U : List K} {P : List (Pt K d)} (hc : ValidOn 0 1 c p n U P)
    (u : K) : (∃ l r n1 n2 U1 U2 P1 P2, split c u = .ok (.ok (l, r)) ∧ ValidOn 0 1 l p n1 U1 P1 ∧
      ValidOn 0 1 r p n2 U2 P2) ↔ 0 < u ∧ u < 1 ∧ SimpleBelow U u ∧ U.count u ≤ p := by
  constructor
  · rintro ⟨l, r, n1, n2, U1, U2, P1, P2, hs, -, hR⟩
    by_cases hu : u ≤ 0 ∨ 1 ≤ u
    · rw [split, C26_out_of_bounds _ _ _ (by simpa [Cmp.le] using hu)] at hs
      cases hs
    push Not at hu
    by_cases hr : SimpleBelow U u
    · exact ⟨hu.1, hu.2, hr, (split_ok_iff hc hr hs).2.2⟩
    · exfalso
      by_cases hm : p = 0 ∨ U.count u ≤ 1
      · obtain ⟨l', r', V, h, hV, hV'⟩ := (C83_outcome hc hu.1 hu.2 hr (true, true)).2 hm
        rw [split, h] at hs
        injection hs with hs; injection hs with hs; injection hs with _ hs
        subst hs
        rw [hR.eq_canon, canon_knots, canonKnots_vector] at hV
        injection hV with hV
        exact hV' (hV ▸ hR.2.1.sorted)
      · rw [split, (C83_outcome hc hu.1 hu.2 hr (true, true)).1 (by omega) (by omega)] at hs
        cases hs
  · rintro ⟨h0, h1, hr, hm⟩
    obtain ⟨l, r, hs⟩ := (C26_split_errors_partial hc hr (true, true)).2.2 h0 h1 hm
    obtain ⟨n1, n2, U1, U2, P1, P2, hL, hR, -⟩ := C25_split_valid_partial hc hr hs
    exact ⟨l, r, n1, n2, U1, U2, P1, P2, hs, hL, hR⟩

/-! ### Values -/

/-- the search only passes knots that differ from their successor -/
theorem lleq_passed {U : ℕ → K} {u : K} (r : ℕ) : ∀ i m, i < m → m < lleq U u r i → U (m + 1) ≠ U m := by
  induction r with
  | zero => intro i m h1 h2; simp only [lleq] at h2; omega
  | succ r ih =>
    intro i m h1 h2
    simp only [lleq, Cmp.le, Cmp.eq, decide_eq_true_eq] at h2
    split at h2
    · split at h2
      · omega
      · rename_i h3
        rcases (by omega : m = i + 1 ∨ i + 1 < m) with rfl | h
        · exact h3
        · exact ih _ _ h h2
    · omega

/-- a curve that vanishes below `u` -/
theorem points_zero {p n : ℕ} {U : List K} {P : List (Pt K d)} {u : K} (hU : ClampedKnots 0 1 p n U)
    (hP : P.length = n + 1) (hu : u ≤ 1)
    (h : ∀ v, 0 ≤ v → v < u → (canon p U P).evaluate v = .ok (.ok 0)) {i j : ℕ} (hj : fn U j < fn U (j + 1))
    (hju : fn U j < u) (h1 : j ≤ i + p) (h2 : i ≤ j) : fn P i = 0 := by
  have hc := hU.clamp
  obtain ⟨hpj, hs⟩ := isSpan_left hc hj
  have hw := win_of_span hc.mono hpj hj
  have h4 := bl_dual (P := fn P) p (a := j - p) (i := i - (j - p)) (by omega) hw
  rw [show j - p + (i - (j - p)) = i by omega] at h4
  have hz : ∀ ts : List K, ts.length = p → bl (fn U) ts (fun _ => (0 : Pt K d)) (j - p) = 0 := fun ts hts =>
    bl_const ts 0 (by rw [hts]; exact hw)
  rw [← h4, bl_eq_of_diag (Q := fun _ => (0 : Pt K d)) hw (S := Set.Ico (fn U j) (min (fn U (j + 1)) u))
    (Set.Ico_infinite (lt_min hj hju)) ?_ _ (by simp), hz _ (by simp)]
  intro v hv
  have h0 : 0 ≤ v := (hc.a_le j).trans hv.1
  have hvu : v < u := hv.2.trans_le (min_le_right _ _)
  have hsp : IsSpan (fn U) n v j := ⟨hs.le_n, hv.1, Or.inl (hv.2.trans_le (min_le_left _ _))⟩
  have := h v h0 hvu
  rw [Curve.evaluate, evaluateDerivative_eq hU hP (Nat.zero_le p) h0 (hvu.le.trans hu) hsp] at this
  injection this with this
  injection this with this
  rw [hz _ (by simp)]
  exact this

/-- control points that vanish give the value zero, whatever the knots are -/
theorem zero_evaluate {p n : ℕ} {U : List K} {Q : List (Pt K d)} (hU : U.length = n + p + 2)
    (hQ : Q.length = n + 1) (hp : p ≤ n) (h : ∀ i, i ≤ n → fn Q i = 0) {t : K} (h0 : 0 ≤ t) (h1 : t ≤ 1) :
    (canon p U Q).evaluate t = .ok (.ok 0) := by
  have hb := lleq_bounds (fun i => fn U (i + 0)) t (n - p) (p - 0)
  rw [Curve.evaluate, evaluateDerivative_ok hU hQ hp (Nat.zero_le p) (by simpa [Cmp.le] using h0)
    (by simpa [Cmp.le] using h1)]
  congr 2
  rw [evalFold_eq_sum _ (Nat.zero_le n) _ _ (by omega)]
  apply sum_eq_zero
  intro i hi
  rw [mem_Ico] at hi
  have : dpt (fn U) p (fn Q) 0 i = 0 := h i (by omega)
  rw [this, smul_zero]

/-- **C83** If an interior knot below `u` is repeated and `split(u)` returns two curves, then for some
control points the first curve is not the part below `u`: it rests at the origin, the curve does not. -/
theorem C83_changed {p n : ℕ} {U : List K} {u : K} (hd : 0 < d) (hU : ClampedKnots 0 1 p n U) (h0 : 0 < u)
    (h1 : u < 1) (hp : 1 ≤ p) (hm : U.count u ≤ 1) (hr : ¬ SimpleBelow U u) :
    ∃ (P : List (Pt K d)) (c l r : Curve K d), P.length = n + 1 ∧ Built c p U P ∧
      split c u = .ok (.ok (l, r)) ∧ (∀ t, 0 ≤ t → t ≤ 1 → l.evaluate t = .ok (.ok 0)) ∧
      ∃ t, 0 ≤ t ∧ t < 1 ∧ c.evaluate (u * t) ≠ .ok (.ok 0) := by
  have hlen := hU.length
  have hle := hU.le
  have hcl := hU.clamp
  have hpass := fun m => lleq_passed (U := fn U) (u := u) (n - p) p m
  obtain ⟨hpl, hln, hl1, hlu, hl2⟩ := search_stops hU h1 hr
  obtain ⟨l, U', A, hl, hU', -, hs⟩ := split_above hU h0 h1 hr (Or.inr hm)
  rw [← hl] at hpl hln hl1 hlu hl2 hpass
  -- the last copy of the repeated knot
  obtain ⟨j, hlj, hjn, hj, hju⟩ : ∃ j, l + 1 ≤ j ∧ j ≤ n ∧ fn U j < fn U (j + 1) ∧ fn U j < u := by
    have i2 : ∀ {i}, i < U.length → (fn U i ≤ fn U l ↔ i < nlt U (fn U l) + U.count (fn U l)) :=
      fun hi => fn_le_iff hU.sorted _ hi
    have a1 := (i2 (i := l + 1) (by omega)).mp hl1.le
    have a2 := (not_congr (i2 (i := n + 1) (by omega))).mp
      (by rw [hcl.right (n + 1) le_rfl]; exact not_le.mpr (hlu.trans h1))
    have a3 := (i2 (i := nlt U (fn U l) + U.count (fn U l) - 1) (by omega)).mpr (by omega)
    have a4 := (not_congr (i2 (i := nlt U (fn U l) + U.count (fn U l) - 1 + 1) (by omega))).mpr (by omega)
    exact ⟨nlt U (fn U l) + U.count (fn U l) - 1, by omega, by omega, a3.trans_lt (not_le.mp a4), a3.trans_lt hlu⟩
  -- control points supported on `l + 2` places, `l + 1` conditions
  let coef : ℕ → (Fin (l + 2) → K) →ₗ[K] K := fun i =>
    if h : i < l then LinearMap.proj ⟨i, by omega⟩ else if i = j - 1 then LinearMap.proj ⟨l, by omega⟩
    else if i = j then LinearMap.proj ⟨l + 1, by omega⟩ else 0
  let F : (Fin (l + 2) → K) →ₗ[K] (Fin (l + 1) → K) :=
    LinearMap.pi (fun i => ∑ s ∈ range (n + 1), A i s • coef s)
  have hker : LinearMap.ker F ≠ ⊥ := LinearMap.ker_ne_bot_of_finrank_lt (by simp)
  obtain ⟨x, hx, hx0⟩ := (Submodule.ne_bot_iff _).mp hker
  rw [LinearMap.mem_ker] at hx
  let P : List (Pt K d) := (List.range (n + 1)).map (fun i => coef i x • (fun _ => 1 : Pt K d))
  have hP : P.length = n + 1 := by simp [P]
  have hfP : ∀ i, i ≤ n → fn P i = coef i x • (fun _ => 1 : Pt K d) := fun i hi => fn_map_range _ (by omega)
  refine ⟨P, _, _, _, hP, (validOn_canon hU hP).1, hs d P (true, true) hP, ?_, ?_⟩
  · intro t ht0 ht1
    refine zero_evaluate (n := l) ?_ (by simp; omega) (by omega) ?_ ht0 ht1
    · rw [normalizeIf_length]; simp; omega
    · intro i hi
      rw [fn_take (by omega) (by simp; omega), fn_map_range _ (by omega)]
      have := congrFun hx ⟨i, by omega⟩
      simp only [F, LinearMap.pi_apply, LinearMap.sum_apply, LinearMap.smul_apply, Pi.zero_apply] at this
      rw [sum_congr rfl (fun s hs => by rw [hfP s (by rw [mem_range] at hs; omega), smul_smul]), ← sum_smul]
      simp only [smul_eq_mul] at this
      rw [this, zero_smul]
  · by_contra hall
    push Not at hall
    have hz : ∀ v, 0 ≤ v → v < u → (canon p U P).evaluate v = .ok (.ok 0) := by
      intro v hv0 hvu
      have := hall (v / u) (div_nonneg hv0 h0.le) ((div_lt_one h0).mpr hvu)
      rwa [mul_div_cancel₀ _ h0.ne'] at this
    have hcoef : ∀ i, i ≤ n → (∃ j, fn U j < fn U (j + 1) ∧ fn U j < u ∧ j ≤ i + p ∧ i ≤ j) → coef i x = 0 := by
      rintro i hi ⟨j, b1, b2, b3, b4⟩
      have := points_zero hU hP h1.le hz b1 b2 b3 b4
      rw [hfP i hi] at this
      simpa using congrFun this ⟨0, hd⟩
    apply hx0
    funext s
    obtain ⟨s, hsl⟩ := s
    rcases (by omega : s < l ∨ s = l ∨ s = l + 1) with h | rfl | rfl
    · have := hcoef s (by omega) (by
        by_cases hsp : s ≤ p
        · exact ⟨p, by rw [hcl.left p le_rfl]; exact hcl.a_lt (by omega), by rw [hcl.left p le_rfl]; exact h0,
            by omega, hsp⟩
        · exact ⟨s, lt_of_le_of_ne (hcl.mono (by omega)) (hpass s (by omega) h).symm,
            (hcl.mono h.le).trans_lt hlu, by omega, le_rfl⟩)
      simpa [coef, h] using this
    · have := hcoef (j - 1) (by omega) ⟨j, hj, hju, by omega, by omega⟩
      simpa [coef, show ¬ j - 1 < s by omega] using this
    · have := hcoef j hjn ⟨j, hj, hju, by omega, le_rfl⟩
      simpa [coef, show ¬ j < l by omega, show j ≠ j - 1 by omega] using this

/-- **C83** When `split(u)` cuts every curve over the given knots into the part below and the part above
`u`: exactly if `u` lies above no repeated interior knot and has multiplicity at most `p`. -/
theorem C83_kept_iff {p n : ℕ} {U : List K} {u : K} (hd : 0 < d) (hU : ClampedKnots 0 1 p n U) (h0 : 0 < u)
    (h1 : u < 1) (hp : 1 ≤ p) :
    (∀ (P : List (Pt K d)) (c : Curve K d), P.length = n + 1 → Built c p U P →
      ∃ l r, split c u = .ok (.ok (l, r)) ∧ ∀ t, 0 ≤ t → t ≤ 1 →
        l.evaluate t = c.evaluate (u * t) ∧ r.evaluate t = c.evaluate (u + (1 - u) * t)) ↔
      SimpleBelow U u ∧ U.count u ≤ p := by
  constructor
  · intro h
    have hz : (List.replicate (n + 1) (0 : Pt K d)).length = n + 1 := by simp
    have hv : ValidOn 0 1 (canon p U (List.replicate (n + 1) (0 : Pt K d))) p n U _ := validOn_canon hU hz
    obtain ⟨l, r, hs, -⟩ := h _ _ hz hv.1
    by_cases hr : SimpleBelow U u
    · exact ⟨hr, (split_ok_iff hv hr hs).2.2⟩
    · exfalso
      by_cases hm : U.count u ≤ 1
      · obtain ⟨P, c, l, r, hP, hc, hs, hl, t, ht0, ht1, hne⟩ := C83_changed hd hU h0 h1 hp hm hr
        obtain ⟨l', r', hs', h2⟩ := h P c hP hc
        rw [hs] at hs'
        injection hs' with hs'; injection hs' with hs'; injection hs' with e _
        subst e
        exact hne ((h2 t ht0 ht1.le).1 ▸ hl t ht0 ht1.le)
      · rw [split, (C83_outcome hv h0 h1 hr (true, true)).1 hp (by omega)] at hs
        cases hs
  · rintro ⟨hr, hm⟩ P c hP hc
    have hv : ValidOn 0 1 c p n U P := ⟨hc, hU, hP⟩
    obtain ⟨l, r, hs⟩ := (C26_split_errors_partial hv hr (true, true)).2.2 h0 h1 hm
    exact ⟨l, r, hs, fun t ht0 ht1 => C24_split_points_partial hv hr hs ht0 ht1⟩

/-! ### Cases that meet the hypotheses -/

/-- a quadratic curve with a double knot at `1/2`, split at `9/10` -/
theorem exU_not_simple : ¬ SimpleBelow exU (9 / 10) := by
  intro h
  exact absurd (h (1 / 2) (by norm_num) (by norm_num)) (by decide +kernel)

example : ∃ l r V, split exC (9 / 10) = .ok (.ok (l, r)) ∧ r.knots.vector = .ok V ∧ ¬ V.Pairwise (· ≤ ·) :=
  (C83_outcome (validOn_canon (by decide +kernel) rfl) (by norm_num) (by norm_num) exU_not_simple _).2
    (Or.inr (by decide +kernel))

/-- the curve of `C26_full_false` -/
example : split exPanic (1 / 2) = .error .unwrap :=
  (C83_outcome (P := [![0], ![1], ![2], ![3], ![4], ![5], ![6], ![7]])
    (validOn_canon (n := 7) (by decide +kernel) rfl) (by norm_num) (by norm_num) (by
      intro h
      exact absurd (h (1 / 4) (by norm_num) (by norm_num)) (by decide +kernel)) _).1 (by decide)
    (by decide +kernel)

example : ∃ (P : List (Pt ℚ 2)) (c l r : Curve ℚ 2), P.length = 6 ∧ Built c 2 exU P ∧
    split c (9 / 10) = .ok (.ok (l, r)) ∧ (∀ t, 0 ≤ t → t ≤ 1 → l.evaluate t = .ok (.ok 0)) ∧
    ∃ t, 0 ≤ t ∧ t < 1 ∧ c.evaluate (9 / 10 * t) ≠ .ok (.ok 0) :=
  C83_changed (n := 5) (by decide) (by decide +kernel) (by norm_num) (by norm_num) (by decide) (by decide +kernel)
    exU_not_simple

end BSpline
