import Verif.Props.Stable
import Verif.Props.Similar
import Verif.Props.Polygon
import Mathlib.Data.List.Duplicate

/-!
# Generated curves and small movements of the points: C144

A caller who moves the control points a little and generates again gets other parameters and other knots as well.
Here the whole way from the points to the curve is measured.
-/

namespace BSpline

open Finset

variable {K : Type} [Field K] [LinearOrder K] [IsStrictOrderedRing K] [Trunc K] [LawfulTrunc K]
variable [Sqrt K] [LawfulSqrt K] {d : ℕ}

/-! ### Shares of nonnegative weights -/

omit [Trunc K] [LawfulTrunc K] [Sqrt K] [LawfulSqrt K] in
/-- the share of the first `g` of `n` weights moves by at most `n ε / S` when every weight moves by at most `ε` -/
theorem share_stable {n g : ℕ} (hg : g ≤ n) {w w' : ℕ → K} (h' : ∀ i, i < n → 0 ≤ w' i) {ε : K}
    (hε : ∀ i, i < n → |w i - w' i| ≤ ε) (hS : 0 < ∑ h ∈ range n, w h) (hS' : 0 < ∑ h ∈ range n, w' h) :
    |(∑ h ∈ range g, w h) / (∑ h ∈ range n, w h) - (∑ h ∈ range g, w' h) / (∑ h ∈ range n, w' h)| ≤
      n * ε / ∑ h ∈ range n, w h := by
  obtain ⟨x, hx⟩ : ∃ x, x = (∑ h ∈ range g, w' h) / (∑ h ∈ range n, w' h) := ⟨_, rfl⟩
  have e1 := sum_range_add_sum_Ico w hg
  have e2 := sum_range_add_sum_Ico w' hg
  have p1 : 0 ≤ ∑ h ∈ range g, w' h := sum_nonneg fun i hi => h' i (by rw [mem_range] at hi; omega)
  have p2 : 0 ≤ ∑ h ∈ Ico g n, w' h := sum_nonneg fun i hi => h' i (mem_Ico.mp hi).2
  have d1 : |∑ h ∈ range g, w h - ∑ h ∈ range g, w' h| ≤ g * ε := by
    rw [← sum_sub_distrib]
    refine (abs_sum_le_sum_abs _ _).trans ?_
    have := sum_le_card_nsmul (range g) (fun i => |w i - w' i|) ε
      (fun i hi => hε i (by rw [mem_range] at hi; omega))
    simpa using this
  have d2 : |∑ h ∈ Ico g n, w h - ∑ h ∈ Ico g n, w' h| ≤ (n - g : ℕ) * ε := by
    rw [← sum_sub_distrib]
    refine (abs_sum_le_sum_abs _ _).trans ?_
    have := sum_le_card_nsmul (Ico g n) (fun i => |w i - w' i|) ε (fun i hi => hε i (mem_Ico.mp hi).2)
    simpa using this
  have c : ((n - g : ℕ) : K) = n - g := Nat.cast_sub hg
  rw [c] at d2
  rw [← hx]
  have hx0 : 0 ≤ x := hx ▸ div_nonneg p1 hS'.le
  have hx1 : x ≤ 1 := by rw [hx, div_le_one hS']; linarith
  have hxA : x * (∑ h ∈ range n, w' h) = ∑ h ∈ range g, w' h := by rw [hx, div_mul_cancel₀ _ hS'.ne']
  generalize ∑ h ∈ range g, w h = A at *
  generalize ∑ h ∈ range g, w' h = A' at *
  generalize ∑ h ∈ Ico g n, w h = B at *
  generalize ∑ h ∈ Ico g n, w' h = B' at *
  rw [← e1] at hS ⊢
  rw [← e2] at hxA
  have e : A / (A + B) - x = ((1 - x) * (A - A') - x * (B - B')) / (A + B) := by
    field_simp
    linear_combination -hxA
  rw [e, abs_div, abs_of_pos hS]
  refine div_le_div_of_nonneg_right ?_ hS.le
  have hg0 : 0 ≤ (g : K) * ε := (abs_nonneg _).trans d1
  have hg1 : 0 ≤ ((n : K) - g) * ε := (abs_nonneg _).trans d2
  calc _ ≤ |(1 - x) * (A - A')| + |x * (B - B')| := abs_sub _ _
    _ = (1 - x) * |A - A'| + x * |B - B'| := by
      rw [abs_mul, abs_mul, abs_of_nonneg hx0, abs_of_nonneg (sub_nonneg.mpr hx1)]
    _ ≤ 1 * (g * ε) + 1 * ((n - g) * ε) := by
      refine add_le_add (mul_le_mul (by linarith) d1 (abs_nonneg _) zero_le_one)
        (mul_le_mul hx1 d2 (abs_nonneg _) zero_le_one)
    _ = n * ε := by ring

omit [Trunc K] [LawfulTrunc K] in
theorem chord_stable {a b a' b' : Pt K d} {δ : K} (ha : dist2 a a' ≤ δ) (hb : dist2 b b' ≤ δ) :
    |dist2 a b - dist2 a' b'| ≤ 2 * δ := by
  have h1 := dist2_triangle a a' b
  have h2 := dist2_triangle a' b' b
  have h3 := dist2_triangle a' a b'
  have h4 := dist2_triangle a b b'
  have e1 : dist2 b' b = dist2 b b' := by rw [dist2, dist2]; congr 1; exact sum_congr rfl (fun r _ => by ring)
  have e2 : dist2 a' a = dist2 a a' := by rw [dist2, dist2]; congr 1; exact sum_congr rfl (fun r _ => by ring)
  rw [abs_le]
  constructor <;> linarith

omit [Trunc K] [LawfulTrunc K] in
theorem abs_le_dist2 (a b : Pt K d) (ρ : Fin d) : |a ρ - b ρ| ≤ dist2 a b := by
  have h := dist2_nonneg a b
  have hs : dist2 a b * dist2 a b = ∑ r, (b - a) r ^ 2 := LawfulSqrt.mul_self _ (sqsum_nonneg (b - a))
  refine abs_le_of_sq_le_sq ?_ h
  have := single_le_sum (f := fun r => (b - a) r ^ 2) (fun r _ => sq_nonneg _) (mem_univ ρ)
  rw [← hs] at this
  simp only [Pi.sub_apply] at this
  nlinarith

omit [Trunc K] [LawfulTrunc K] in
theorem sqrt_stable {x y δ : K} (hx : 0 ≤ x) (hy : 0 ≤ y) (h : |x - y| ≤ δ) :
    |Sqrt.sqrt x - Sqrt.sqrt y| ≤ Sqrt.sqrt δ := by
  have hδ := (abs_nonneg _).trans h
  have nx := LawfulSqrt.nonneg x hx
  have ny := LawfulSqrt.nonneg y hy
  have nd := LawfulSqrt.nonneg δ hδ
  have ex := LawfulSqrt.mul_self x hx
  have ey := LawfulSqrt.mul_self y hy
  have ed := LawfulSqrt.mul_self δ hδ
  generalize Sqrt.sqrt x = a at *
  generalize Sqrt.sqrt y = b at *
  generalize Sqrt.sqrt δ = e at *
  rw [← ex, ← ey, ← ed] at h
  have hh := abs_le.mp h
  refine abs_le_of_sq_le_sq ?_ nd
  rcases le_total a b with hab | hab <;> nlinarith

omit [Trunc K] [LawfulTrunc K] in
theorem polygon_pos {P : List (Pt K d)} {n : ℕ} (hn : 1 ≤ n)
    (hne : ∀ i, i < n → P.getD i 0 ≠ P.getD (i + 1) 0) :
    0 < ∑ h ∈ range n, dist2 (P.getD h 0) (P.getD (h + 1) 0) := by
  refine sum_pos (fun i hi => ?_) ⟨0, mem_range.mpr hn⟩
  rw [dist2_eq]
  exact norm_pos (sub_ne_zero.mpr (hne i (mem_range.mp hi)).symm)

omit [Trunc K] [LawfulTrunc K] in
theorem polygon_sqrt_pos {P : List (Pt K d)} {n : ℕ} (hn : 1 ≤ n)
    (hne : ∀ i, i < n → P.getD i 0 ≠ P.getD (i + 1) 0) :
    0 < ∑ h ∈ range n, Sqrt.sqrt (dist2 (P.getD h 0) (P.getD (h + 1) 0)) := by
  refine sum_pos (fun i hi => sqrt_pos' ?_) ⟨0, mem_range.mpr hn⟩
  rw [dist2_eq]
  exact norm_pos (sub_ne_zero.mpr (hne i (mem_range.mp hi)).symm)

/-! ### Parameters -/

/-- **C144** When every one of `n + 1` points moves by at most `δ`, every chord length parameter moves by at most
`2 n δ / L`, where `L` is the length of the polygon through the points (before or after the movement). -/
theorem C144_chord_length {P P' : List (Pt K d)} {n : ℕ} (hn : 1 ≤ n) (hP : P.length = n + 1)
    (hP' : P'.length = n + 1) (hne : ∀ i, i < n → P.getD i 0 ≠ P.getD (i + 1) 0)
    (hne' : ∀ i, i < n → P'.getD i 0 ≠ P'.getD (i + 1) 0) {δ : K}
    (hδ : ∀ i, i ≤ n → dist2 (P.getD i 0) (P'.getD i 0) ≤ δ) :
    ∃ ps ps' : Parameters K, generateParams P .chordLength = .ok ps ∧ generateParams P' .chordLength = .ok ps' ∧
      ∀ g, g ≤ n → ∃ x y, ps.vector[g]? = some x ∧ ps'.vector[g]? = some y ∧
        |x - y| ≤ n * (2 * δ) / ∑ h ∈ range n, dist2 (P.getD h 0) (P.getD (h + 1) 0) := by
  obtain ⟨ps, a, b, -⟩ := generateParams_spec hn hP hne .chordLength (by simp)
  obtain ⟨ps', a', b', -⟩ := generateParams_spec hn hP' hne' .chordLength (by simp)
  refine ⟨ps, ps', a, a', fun g hg => ⟨_, _, b.2 g hg, b'.2 g hg, ?_⟩⟩
  exact share_stable hg (w := fun h => dist2 (P.getD h 0) (P.getD (h + 1) 0))
    (w' := fun h => dist2 (P'.getD h 0) (P'.getD (h + 1) 0)) (fun i _ => dist2_nonneg _ _)
    (fun i hi => chord_stable (hδ i hi.le) (hδ (i + 1) hi)) (polygon_pos hn hne) (polygon_pos hn hne')

/-- **C144** Every centripetal parameter moves by at most `n √(2 δ) / S`, where `S` is the sum of the square roots
of the chord lengths. -/
theorem C144_centripetal {P P' : List (Pt K d)} {n : ℕ} (hn : 1 ≤ n) (hP : P.length = n + 1)
    (hP' : P'.length = n + 1) (hne : ∀ i, i < n → P.getD i 0 ≠ P.getD (i + 1) 0)
    (hne' : ∀ i, i < n → P'.getD i 0 ≠ P'.getD (i + 1) 0)
    (hS : 1 / 2 ^ 26 ≤ ∑ h ∈ range n, Sqrt.sqrt (dist2 (P.getD h 0) (P.getD (h + 1) 0)))
    (hS' : 1 / 2 ^ 26 ≤ ∑ h ∈ range n, Sqrt.sqrt (dist2 (P'.getD h 0) (P'.getD (h + 1) 0))) {δ : K}
    (hδ : ∀ i, i ≤ n → dist2 (P.getD i 0) (P'.getD i 0) ≤ δ) :
    ∃ ps ps' : Parameters K, generateParams P .centripetal = .ok ps ∧ generateParams P' .centripetal = .ok ps' ∧
      ∀ g, g ≤ n → ∃ x y, ps.vector[g]? = some x ∧ ps'.vector[g]? = some y ∧
        |x - y| ≤ n * Sqrt.sqrt (2 * δ) /
          ∑ h ∈ range n, Sqrt.sqrt (dist2 (P.getD h 0) (P.getD (h + 1) 0)) := by
  obtain ⟨ps, a, b, -⟩ := generateParams_spec hn hP hne .centripetal (fun _ => hS)
  obtain ⟨ps', a', b', -⟩ := generateParams_spec hn hP' hne' .centripetal (fun _ => hS')
  refine ⟨ps, ps', a, a', fun g hg => ⟨_, _, b.2 g hg, b'.2 g hg, ?_⟩⟩
  exact share_stable hg (w := fun h => Sqrt.sqrt (dist2 (P.getD h 0) (P.getD (h + 1) 0)))
    (w' := fun h => Sqrt.sqrt (dist2 (P'.getD h 0) (P'.getD (h + 1) 0)))
    (fun i _ => LawfulSqrt.nonneg _ (dist2_nonneg _ _))
    (fun i hi => sqrt_stable (dist2_nonneg _ _) (dist2_nonneg _ _) (chord_stable (hδ i hi.le) (hδ (i + 1) hi)))
    (polygon_sqrt_pos hn hne) (polygon_sqrt_pos hn hne')

/-! ### Knots -/

omit [Trunc K] [LawfulTrunc K] [Sqrt K] [LawfulSqrt K] in
theorem interiorKnot_stable {p n j : ℕ} (h1 : 1 ≤ p) (h2 : p ≤ n) (hjn : j ≤ n - p) {t t' : List K}
    {ε : K} (hε : ∀ g, g ≤ n → |t.getD g 0 - t'.getD g 0| ≤ ε) (km : KnotMethod) :
    |interiorKnot km p n t j - interiorKnot km p n t' j| ≤ ε := by
  have hε0 : 0 ≤ ε := (abs_nonneg _).trans (hε 0 (by omega))
  cases km with
  | uniform => simpa [interiorKnot] using hε0
  | averaging =>
    have hp : (0 : K) < p := by exact_mod_cast h1
    simp only [interiorKnot]
    rw [← sub_div, ← sum_sub_distrib, abs_div, abs_of_pos hp, div_le_iff₀ hp]
    refine (abs_sum_le_sum_abs _ _).trans ?_
    have := sum_le_card_nsmul (range p) (fun i => |t.getD (j + i) 0 - t'.getD (j + i) 0|) ε
      (fun i hi => hε _ (by rw [mem_range] at hi; omega))
    rw [card_range, nsmul_eq_mul] at this
    rwa [mul_comm ε]
  | deBoor =>
    simp only [interiorKnot]
    have hm : 0 < n - p + 1 := by omega
    have hr := Nat.mod_lt (j * (n + 1)) hm
    have hq : j * (n + 1) / (n - p + 1) ≤ n := by
      rw [← Nat.lt_succ_iff, Nat.div_lt_iff_lt_mul hm]
      calc j * (n + 1) ≤ (n - p) * (n + 1) := Nat.mul_le_mul_right _ hjn
        _ < (n + 1) * (n - p + 1) := by
          rw [Nat.mul_comm (n + 1)]; exact Nat.mul_lt_mul_of_pos_right (by omega) (by omega)
    generalize j * (n + 1) / (n - p + 1) = q at *
    generalize j * (n + 1) % (n - p + 1) = r at *
    generalize n - p + 1 = m at *
    have hmK : (0 : K) < m := by exact_mod_cast hm
    have ha := hε (q - 1) (by omega)
    have hb := hε q hq
    rw [← sub_div, abs_div, abs_of_pos hmK, div_le_iff₀ hmK, Nat.cast_sub hr.le]
    have hrm : (r : K) ≤ m := by exact_mod_cast hr.le
    have hr0 : (0 : K) ≤ r := Nat.cast_nonneg r
    calc _ = |((m : K) - r) * (t.getD (q - 1) 0 - t'.getD (q - 1) 0) + r * (t.getD q 0 - t'.getD q 0)| := by
          ring_nf
      _ ≤ _ := abs_add_le _ _
      _ = ((m : K) - r) * |t.getD (q - 1) 0 - t'.getD (q - 1) 0| + r * |t.getD q 0 - t'.getD q 0| := by
        rw [abs_mul, abs_mul, abs_of_nonneg hr0, abs_of_nonneg (sub_nonneg.mpr hrm)]
      _ ≤ ((m : K) - r) * ε + r * ε := add_le_add (mul_le_mul_of_nonneg_left ha (sub_nonneg.mpr hrm))
        (mul_le_mul_of_nonneg_left hb hr0)
      _ = ε * m := by ring

omit [Trunc K] [LawfulTrunc K] [Sqrt K] [LawfulSqrt K] in
/-- two clamped knot vectors whose interior knots are near to each other -/
theorem knots_near {p n : ℕ} {U V : List K} (hU : ClampedKnots 0 1 p n U) (hV : ClampedKnots 0 1 p n V) {ε : K}
    (hε : 0 ≤ ε) (h : ∀ j, 1 ≤ j → j ≤ n - p → |fn U (p + j) - fn V (p + j)| ≤ ε) (i : ℕ) :
    |fn U i - fn V i| ≤ ε := by
  have cU := hU.clamp
  have cV := hV.clamp
  rcases le_or_gt i p with h1 | h1
  · rw [cU.left i h1, cV.left i h1]; simpa using hε
  · rcases le_or_gt i n with h2 | h2
    · have := h (i - p) (by omega) (by omega)
      rwa [show p + (i - p) = i by omega] at this
    · rw [cU.right i h2, cV.right i h2]; simpa using hε

/-- **C144** When every parameter moves by at most `ε`, so does every knot of all three methods. -/
theorem C144_knots {p n : ℕ} (h1 : 1 ≤ p) (h2 : p ≤ n) {ps ps' : Parameters K} (hl : ps.vector.length = n + 1)
    (hs : ps.vector.Pairwise (· < ·)) (h0 : ps.vector[0]? = some 0) (hn : ps.vector[n]? = some 1)
    (hl' : ps'.vector.length = n + 1) (hs' : ps'.vector.Pairwise (· < ·)) (h0' : ps'.vector[0]? = some 0)
    (hn' : ps'.vector[n]? = some 1) {ε : K}
    (hε : ∀ (g : ℕ) x y, ps.vector[g]? = some x → ps'.vector[g]? = some y → |x - y| ≤ ε) (km : KnotMethod) :
    ∃ (kn kn' : Knots K) (U V : List K), generateKnots p n ps km = .ok (.ok kn) ∧
      generateKnots p n ps' km = .ok (.ok kn') ∧ kn.vector = .ok U ∧ kn'.vector = .ok V ∧
      U.length = n + p + 2 ∧ V.length = n + p + 2 ∧
      ∀ (i : ℕ) x y, U[i]? = some x → V[i]? = some y → |x - y| ≤ ε := by
  obtain ⟨U, a, hU, b⟩ := generateKnots_spec h1 h2 hl hs h0 hn km
  obtain ⟨V, a', hV, b'⟩ := generateKnots_spec h1 h2 hl' hs' h0' hn' km
  have hg : ∀ g, g ≤ n → |ps.vector.getD g 0 - ps'.vector.getD g 0| ≤ ε := fun g hg => by
    rw [List.getD_eq_getElem _ _ (by omega), List.getD_eq_getElem _ _ (by omega)]
    exact hε g _ _ (List.getElem?_eq_getElem _) (List.getElem?_eq_getElem _)
  have hε0 : 0 ≤ ε := (abs_nonneg _).trans (hg 0 (by omega))
  have hlU := hU.length
  have hlV := hV.length
  have some_fn : ∀ {W : List K} {i : ℕ} {x : K}, W[i]? = some x → fn W i = x := by
    intro W i x h
    obtain ⟨hi, rfl⟩ := List.getElem?_eq_some_iff.mp h
    exact fn_lt hi
  refine ⟨_, _, U, V, a, a', canonKnots_vector U, canonKnots_vector V, hU.length, hV.length, ?_⟩
  intro i x y hx hy
  rw [← some_fn hx, ← some_fn hy]
  refine knots_near hU hV hε0 (fun j hj hjn => ?_) i
  rw [some_fn (b j hj hjn), some_fn (b' j hj hjn)]
  exact interiorKnot_stable h1 h2 hjn hg km

/-! ### Curves -/

omit [Trunc K] [LawfulTrunc K] [Sqrt K] [LawfulSqrt K] in
theorem count_le_one_of_strict {p n : ℕ} {V : List K} (hV : ClampedKnots 0 1 p n V)
    (hst : ∀ i, p ≤ i → i ≤ n → fn V i < fn V (i + 1)) {x : K} (h0 : 0 < x) (h1 : x < 1) : V.count x ≤ 1 := by
  by_contra hc
  have hd : V.Duplicate x := List.duplicate_iff_two_le_count.mpr (by omega)
  obtain ⟨i, j, hij, hi, hj⟩ := List.duplicate_iff_exists_distinct_get.mp hd
  have ei : fn V i = x := by rw [fn_lt i.2]; exact hi.symm
  have ej : fn V j = x := by rw [fn_lt j.2]; exact hj.symm
  have cV := hV.clamp
  have hij : (i : ℕ) < j := hij
  have hp : p ≤ (i : ℕ) := by
    by_contra h
    rw [cV.left i (by omega)] at ei; exact absurd h0 (by rw [← ei]; exact lt_irrefl _)
  have hn : (j : ℕ) ≤ n := by
    by_contra h
    rw [cV.right j (by omega)] at ej; exact absurd h1 (by rw [← ej]; exact lt_irrefl _)
  have := hst i hp (by omega)
  have m := cV.mono (show (i : ℕ) + 1 ≤ j by omega)
  rw [ei] at this
  rw [ej] at m
  exact absurd this (not_lt.mpr m)

/-- what chord length parameters and averaged knots give -/
theorem generate_chord_averaging (solver : Solver K d) {p n : ℕ} {P : List (Pt K d)} (h1 : 1 ≤ p) (h2 : p ≤ n)
    (hP : P.length = n + 1) (hne : ∀ i, i < n → P.getD i 0 ≠ P.getD (i + 1) 0) :
    ∃ c U t, generate solver (.manual p (ControlPoints.new P) (.method .chordLength .averaging)) = .ok (.ok c) ∧
      ValidOn 0 1 c p n U P ∧ ParamsOf .chordLength P n t ∧
      (∀ j, 1 ≤ j → j ≤ n - p → fn U (p + j) = interiorKnot .averaging p n t j) ∧
      (∀ i, p ≤ i → i ≤ n → fn U i < fn U (i + 1)) ∧
      (∀ i, i < n → dist2 (P.getD i 0) (P.getD (i + 1) 0) ≤
        (∑ h ∈ range n, dist2 (P.getD h 0) (P.getD (h + 1) 0)) * (fn U (i + 1 + p) - fn U (i + 1))) := by
  obtain ⟨ps, a, b, hs, h0, hn⟩ := generateParams_spec (by omega) hP hne .chordLength (by simp)
  obtain ⟨U, a', hU, hv⟩ := generateKnots_spec h1 h2 b.1 hs h0 hn .averaging
  obtain ⟨kn, U', e1, e2, -, -, hst, -⟩ := C36_averaging h1 h2 b.1 hs h0 hn
  have e3 : averaging p n ps = .ok (.ok (canonKnots p U)) := a'
  rw [e1] at e3
  cases e3
  rw [canonKnots_vector] at e2
  cases e2
  obtain ⟨c, hc, hc'⟩ := generate_of_knots solver hU hP (g := .method .chordLength .averaging) (by
    rw [generateManualKnots, a, ok_bind, a'])
  have hlU := hU.length
  have hl := b.1
  have cU := hU.clamp
  have some_fn : ∀ {W : List K} {i : ℕ} {x : K}, W[i]? = some x → fn W i = x := by
    intro W i x h
    obtain ⟨hi, rfl⟩ := List.getElem?_eq_some_iff.mp h
    exact fn_lt hi
  have hv' : ∀ j, 1 ≤ j → j ≤ n - p → fn U (p + j) = interiorKnot .averaging p n ps.vector j :=
    fun j hj hjn => some_fn (hv j hj hjn)
  have hmono : ∀ i j, i ≤ j → j ≤ n → ps.vector.getD i 0 ≤ ps.vector.getD j 0 := by
    intro i j hij hj
    rw [List.getD_eq_getElem _ _ (by omega), List.getD_eq_getElem _ _ (by omega)]
    rcases hij.eq_or_lt with rfl | h
    · exact le_rfl
    · exact (List.pairwise_iff_getElem.mp hs i j (by omega) (by omega) h).le
  have g0 : ps.vector.getD 0 0 = 0 := by rw [List.getD_eq_getElem?_getD, h0]; rfl
  have gn : ps.vector.getD n 0 = 1 := by rw [List.getD_eq_getElem?_getD, hn]; rfl
  have hp : (0 : K) < p := by exact_mod_cast h1
  refine ⟨c, U, ps.vector, hc, hc', b, hv', fun i hi hin => ?_, fun i hi => ?_⟩
  · have := hst i hi hin
    rwa [List.getD_eq_getElem _ _ (by omega), List.getD_eq_getElem _ _ (by omega), ← fn_lt, ← fn_lt] at this
  · have lo : fn U (i + 1) ≤ ps.vector.getD i 0 := by
      rcases le_or_gt (i + 1) p with h | h
      · rw [cU.left _ h]; exact g0.ge.trans (hmono 0 i (Nat.zero_le _) hi.le)
      · have := hv' (i + 1 - p) (by omega) (by omega)
        rw [show p + (i + 1 - p) = i + 1 by omega] at this
        rw [this, interiorKnot, div_le_iff₀ hp]
        have := sum_le_card_nsmul (range p) (fun k => ps.vector.getD (i + 1 - p + k) 0) (ps.vector.getD i 0)
          (fun k hk => hmono _ _ (by rw [mem_range] at hk; omega) hi.le)
        rw [card_range, nsmul_eq_mul] at this
        rwa [mul_comm]
    have hi' : ps.vector.getD (i + 1) 0 ≤ fn U (i + 1 + p) := by
      rcases le_or_gt (i + 1 + p) n with h | h
      · have := hv' (i + 1) (by omega) (by omega)
        rw [show p + (i + 1) = i + 1 + p by omega] at this
        rw [this, interiorKnot, le_div_iff₀ hp]
        have := card_nsmul_le_sum (range p) (fun k => ps.vector.getD (i + 1 + k) 0) (ps.vector.getD (i + 1) 0)
          (fun k hk => hmono _ _ (by omega) (by rw [mem_range] at hk; omega))
        rw [card_range, nsmul_eq_mul] at this
        rwa [mul_comm]
      · rw [cU.right _ h]; exact (hmono _ _ hi le_rfl).trans gn.le
    have L := polygon_pos (by omega : 1 ≤ n) hne
    have e : dist2 (P.getD i 0) (P.getD (i + 1) 0) =
        (∑ h ∈ range n, dist2 (P.getD h 0) (P.getD (h + 1) 0)) *
          (ps.vector.getD (i + 1) 0 - ps.vector.getD i 0) := by
      rw [List.getD_eq_getElem?_getD (l := ps.vector), List.getD_eq_getElem?_getD (l := ps.vector), b.2 i hi.le,
        b.2 (i + 1) hi, Option.getD_some, Option.getD_some, ← sub_div, sum_range_succ, add_sub_cancel_left,
        mul_div_cancel₀ _ L.ne']
    rw [e]
    exact mul_le_mul_of_nonneg_left (by linarith) L.le

/-- **C144** A curve generated with chord length parameters and averaged knots and the curve generated from points
which all lie within `δ` of the first ones: in every coordinate the values at `t` and `s` differ by at most
`(1 + 6 n p) δ + p L |t - s|`, where `L` is the length of the second polygon. The factor of `δ` knows nothing of
the positions of the points. -/
theorem C144_generate (solver : Solver K d) {p n : ℕ} {P P' : List (Pt K d)} (h1 : 1 ≤ p) (h2 : p ≤ n)
    (hP : P.length = n + 1) (hP' : P'.length = n + 1) (hne : ∀ i, i < n → P.getD i 0 ≠ P.getD (i + 1) 0)
    (hne' : ∀ i, i < n → P'.getD i 0 ≠ P'.getD (i + 1) 0) {δ : K}
    (hδ : ∀ i, i ≤ n → dist2 (P.getD i 0) (P'.getD i 0) ≤ δ) :
    ∃ c c', generate solver (.manual p (ControlPoints.new P) (.method .chordLength .averaging)) = .ok (.ok c) ∧
      generate solver (.manual p (ControlPoints.new P') (.method .chordLength .averaging)) = .ok (.ok c') ∧
      ∀ t s, 0 ≤ t → t ≤ 1 → 0 ≤ s → s ≤ 1 → ∃ v w, c.evaluate t = .ok (.ok v) ∧ c'.evaluate s = .ok (.ok w) ∧
        ∀ ρ, |v ρ - w ρ| ≤ (1 + 6 * n * p) * δ +
          p * (∑ h ∈ range n, dist2 (P'.getD h 0) (P'.getD (h + 1) 0)) * |t - s| := by
  obtain ⟨c, U, τ, hc, vc, pt, hk, hst, -⟩ := generate_chord_averaging solver h1 h2 hP hne
  obtain ⟨c', V, τ', hc', vc', pt', hk', hst', hsl⟩ := generate_chord_averaging solver h1 h2 hP' hne'
  have L := polygon_pos (by omega : 1 ≤ n) hne'
  have L1 := polygon_pos (by omega : 1 ≤ n) hne
  refine ⟨c, c', hc, hc', fun t s ht0 ht1 hs0 hs1 => ?_⟩
  have cU := vc.2.1.clamp
  have cV := vc'.2.1.clamp
  have hlU := vc.2.1.length
  have hlV := vc'.2.1.length
  have hδ0 : 0 ≤ δ := (dist2_nonneg _ _).trans (hδ 0 (by omega))
  have hτ : ∀ g, g ≤ n → |τ.getD g 0 - τ'.getD g 0| ≤
      n * (2 * δ) / ∑ h ∈ range n, dist2 (P'.getD h 0) (P'.getD (h + 1) 0) := fun g hg => by
    rw [List.getD_eq_getElem?_getD (l := τ), List.getD_eq_getElem?_getD (l := τ'), pt.2 g hg, pt'.2 g hg,
      Option.getD_some, Option.getD_some, abs_sub_comm]
    refine share_stable hg (w' := fun h => dist2 (P.getD h 0) (P.getD (h + 1) 0))
      (w := fun h => dist2 (P'.getD h 0) (P'.getD (h + 1) 0)) (fun i _ => dist2_nonneg _ _)
      (fun i hi => ?_) L L1
    rw [abs_sub_comm]
    exact chord_stable (hδ i hi.le) (hδ (i + 1) hi)
  have some_fn : ∀ {W : List K} {i : ℕ} {x : K}, W[i]? = some x → fn W i = x := by
    intro W i x h
    obtain ⟨hi, rfl⟩ := List.getElem?_eq_some_iff.mp h
    exact fn_lt hi
  have getD_of : ∀ {W : List (Pt K d)} {i : ℕ} {x : Pt K d}, W[i]? = some x → W.getD i 0 = x := by
    intro W i x h
    rw [List.getD_eq_getElem?_getD, h]; rfl
  have hε : ∀ (i : ℕ) x y, U[i]? = some x → V[i]? = some y →
      |x - y| ≤ n * (2 * δ) / ∑ h ∈ range n, dist2 (P'.getD h 0) (P'.getD (h + 1) 0) := by
    intro i x y hx hy
    rw [← some_fn hx, ← some_fn hy]
    refine knots_near vc.2.1 vc'.2.1 (by positivity) (fun j hj hjn => ?_) i
    rw [hk j hj hjn, hk' j hj hjn]
    exact interiorKnot_stable h1 h2 hjn hτ .averaging
  have key := fun ρ => C93_stable vc vc' (fun x h0 hx1 => (count_le_one_of_strict vc'.2.1 hst' h0 hx1).trans h1)
    (fun j x x' y y' hx hx' hy hy' hlt => by
      rw [← some_fn hx, ← some_fn hx'] at hlt
      rw [← some_fn hy, ← some_fn hy']
      refine hst' j ?_ ?_
      · by_contra h
        rw [cU.left j (by omega), cU.left (j + 1) (by omega)] at hlt; exact lt_irrefl _ hlt
      · by_contra h
        rw [cU.right j (by omega), cU.right (j + 1) (by omega)] at hlt; exact lt_irrefl _ hlt)
    (ρ := ρ) L.le hε (η := δ) (fun i a b ha hb => by
      obtain ⟨hi, -⟩ := List.getElem?_eq_some_iff.mp ha
      have := hδ i (by omega)
      rw [getD_of ha, getD_of hb] at this
      exact (abs_le_dist2 a b ρ).trans this)
    (fun i a b x y ha hb hx hy => by
      obtain ⟨hi, -⟩ := List.getElem?_eq_some_iff.mp hb
      have := hsl i (by omega)
      rw [getD_of ha, getD_of hb, some_fn hx, show i + 1 + p = i + p + 1 by omega, some_fn hy] at this
      rw [abs_sub_comm]
      exact (abs_le_dist2 a b ρ).trans this) ht0 ht1 hs0 hs1
  obtain ⟨v, hv⟩ := (C06_evaluation_total vc.1 vc.2.1.length vc.2.2 h2 t 0).2.1 (by simp [Cmp.le, ht0, ht1])
  obtain ⟨w, hw⟩ := (C06_evaluation_total vc'.1 vc'.2.1.length vc'.2.2 h2 s 0).2.1 (by simp [Cmp.le, hs0, hs1])
  refine ⟨v, w, hv, hw, fun ρ => ?_⟩
  obtain ⟨v', w', hv', hw', hb⟩ := key ρ
  rw [Curve.evaluate, hv] at hv'; cases hv'
  rw [Curve.evaluate, hw] at hw'; cases hw'
  refine hb.trans (le_of_eq ?_)
  field_simp
  ring

/-- **C144** The generated curve moves at most `p` times as fast as a point which runs once along its control
polygon: in every coordinate the values at `t` and `s` differ by at most `p L |t - s|`. -/
theorem C144_speed (solver : Solver K d) {p n : ℕ} {P : List (Pt K d)} (h1 : 1 ≤ p) (h2 : p ≤ n)
    (hP : P.length = n + 1) (hne : ∀ i, i < n → P.getD i 0 ≠ P.getD (i + 1) 0) :
    ∃ c, generate solver (.manual p (ControlPoints.new P) (.method .chordLength .averaging)) = .ok (.ok c) ∧
      ∀ t s, 0 ≤ t → t ≤ 1 → 0 ≤ s → s ≤ 1 → ∃ v w, c.evaluate t = .ok (.ok v) ∧ c.evaluate s = .ok (.ok w) ∧
        ∀ ρ, |v ρ - w ρ| ≤ p * (∑ h ∈ range n, dist2 (P.getD h 0) (P.getD (h + 1) 0)) * |t - s| := by
  obtain ⟨c, c', hc, hc', h⟩ := C144_generate solver h1 h2 hP hP hne hne (δ := 0) (fun i _ => by
    have e : dist2 (P.getD i 0) (P.getD i 0) = 0 := by
      have h0 := LawfulSqrt.mul_self (0 : K) le_rfl
      rw [dist2_eq, sub_self, norm_eq]; simpa using h0
    exact e.le)
  rw [hc] at hc'; cases hc'
  refine ⟨c, hc, fun t s a b e f => ?_⟩
  obtain ⟨v, w, hv, hw, k⟩ := h t s a b e f
  exact ⟨v, w, hv, hw, fun ρ => by simpa using k ρ⟩

/-- non-vacuity: three points on the line, of which the last moves from `5` to `49/10` -/
example (solver : Solver ℝ 1) : ∃ c c',
    generate solver (.manual 2 (ControlPoints.new [![0], ![1], ![5]]) (.method .chordLength .averaging)) =
      .ok (.ok c) ∧
    generate solver (.manual 2 (ControlPoints.new [![0], ![1], ![49 / 10]]) (.method .chordLength .averaging)) =
      .ok (.ok c') ∧
    ∃ v w, c.evaluate (1 / 3) = .ok (.ok v) ∧ c'.evaluate (1 / 3) = .ok (.ok w) ∧
      |v 0 - w 0| ≤ (1 + 6 * 2 * 2) * (1 / 10) := by
  have ne : ∀ x y : ℝ, x ≠ y → (![x] : Pt ℝ 1) ≠ ![y] := fun x y h e => h (by simpa using congrFun e 0)
  obtain ⟨c, c', h1, h2, h3⟩ := C144_generate solver (p := 2) (n := 2) (P := [![0], ![1], ![5]])
    (P' := [![0], ![1], ![49 / 10]]) (by omega) le_rfl rfl rfl (by
      intro i hi
      obtain rfl | rfl : i = 0 ∨ i = 1 := by omega
      · exact ne 0 1 (by norm_num)
      · exact ne 1 5 (by norm_num)) (by
      intro i hi
      obtain rfl | rfl : i = 0 ∨ i = 1 := by omega
      · exact ne 0 1 (by norm_num)
      · exact ne 1 (49 / 10) (by norm_num)) (δ := 1 / 10) (by
      intro i hi
      obtain rfl | rfl | rfl : i = 0 ∨ i = 1 ∨ i = 2 := by omega
      · exact (dist2_real_one 0 0).le.trans (by norm_num)
      · exact (dist2_real_one 1 1).le.trans (by norm_num)
      · refine (dist2_real_one 5 (49 / 10)).le.trans ?_
        rw [abs_of_nonpos (by norm_num)]; norm_num)
  obtain ⟨v, w, hv, hw, k⟩ := h3 (1 / 3) (1 / 3) (by norm_num) (by norm_num) (by norm_num) (by norm_num)
  exact ⟨c, c', h1, h2, v, w, hv, hw, by simpa using k 0⟩

/-- the bound for the speed is attained: one segment of degree one runs along its polygon at the speed `L` -/
example (solver : Solver ℝ 1) : ∃ c,
    generate solver (.manual 1 (ControlPoints.new [![0], ![5]]) (.method .chordLength .averaging)) = .ok (.ok c) ∧
    ∃ v w, c.evaluate 0 = .ok (.ok v) ∧ c.evaluate 1 = .ok (.ok w) ∧ |v 0 - w 0| = 5 := by
  obtain ⟨c, U, τ, hc, vc, -⟩ := generate_chord_averaging solver (p := 1) (n := 1) (P := [![0], ![5]]) le_rfl le_rfl
    rfl (by
      intro i hi
      obtain rfl : i = 0 := by omega
      exact fun e => by simpa using congrFun e 0)
  obtain ⟨h0, h1⟩ := C07_endpoints vc (first := ![0]) (last := ![5]) rfl rfl
  exact ⟨c, hc, _, _, h0, h1, by norm_num⟩

end BSpline
