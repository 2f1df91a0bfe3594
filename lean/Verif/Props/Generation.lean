import Verif.Props.KnotGen
import Verif.Props.Params
import Verif.Props.Fit

/-!
# Curves from control points: C60

`generate` in its `Manual` mode takes a degree, control points and a way to obtain the knots:
uniform ones, given ones, or a pair of a parameter method and a knot method. The specification below
describes parameters and knots by formulas on the control points; it does not use the model.
-/

set_option linter.unusedSectionVars false

namespace BSpline

open Finset

/-! ### The value of de Boor's knots (completes C37) -/

section
variable {K : Type} [Field K] [LinearOrder K] [IsStrictOrderedRing K] [Trunc K] [LawfulTrunc K]

/-- **C37** The value of the knots of `de_boor`. Write `j (n + 1) = i (n - p + 1) + r` with
`r < n - p + 1`. The `j`-th interior knot divides the segment between the parameters `i - 1` and `i`
in the ratio `r : (n - p + 1 - r)`. (Piegl, Tiller, eqs. 9.68 and 9.69, with `m = n`.) -/
theorem C37_de_boor_value {p n : ℕ} (h1 : 1 ≤ p) (h2 : p ≤ n) {params : Parameters K}
    (hl : n ≤ params.vector.length) :
    ∃ (kn : Knots K) (U : List K), deBoor p n params = .ok (.ok kn) ∧ kn.vector = .ok U ∧
      (∀ j, 1 ≤ j → j ≤ n - p → U[p + j]? = some
        ((((n - p + 1 - j * (n + 1) % (n - p + 1) : ℕ) : K) *
            params.vector.getD (j * (n + 1) / (n - p + 1) - 1) 0 +
          ((j * (n + 1) % (n - p + 1) : ℕ) : K) *
            params.vector.getD (j * (n + 1) / (n - p + 1)) 0) / ((n - p + 1 : ℕ) : K))) := by
  refine ⟨_, _, deBoor_ok (params := params) h1 h2 (by
    intro j hj1 hj2
    obtain ⟨-, a, b, -, -, -⟩ := deBoor_pos (K := K) h1 h2 hj1 hj2
    exact ⟨a, by omega⟩), canonKnots_vector _, ?_⟩
  intro j hj1 hj2
  obtain ⟨-, ha, hb, hc, hd, -⟩ := deBoor_pos (K := K) h1 h2 hj1 hj2
  rw [List.getElem?_eq_getElem (by rw [genU_length]; omega), ← fn_lt, fn_genU (by omega),
    if_neg (by omega), if_pos (by omega), show p + j - p = j by omega, deBoorK]
  generalize hN : n - p + 1 = N at *
  have hN0 : (0 : K) < (N : K) := by rw [← hN]; exact_mod_cast Nat.succ_pos _
  have hNn : 0 < N := by omega
  have hdm := Nat.div_add_mod (j * (n + 1)) N
  have hlt := Nat.mod_lt (j * (n + 1)) hNn
  have hq : Trunc.trunc ((j : K) * (((n + 1 : ℕ) : K) / (N : K))) = j * (n + 1) / N := by
    generalize Trunc.trunc ((j : K) * (((n + 1 : ℕ) : K) / (N : K))) = i at *
    have e : (j : K) * (((n + 1 : ℕ) : K) / (N : K)) = ((j * (n + 1) : ℕ) : K) / (N : K) := by
      push_cast; ring
    rw [e, le_div_iff₀ hN0] at hc
    rw [e, div_lt_iff₀ hN0] at hd
    have hc' : i * N ≤ j * (n + 1) := by exact_mod_cast hc
    have hd' : j * (n + 1) < (i + 1) * N := by exact_mod_cast hd
    symm
    rw [Nat.div_eq_iff hNn]
    constructor
    · exact hc'
    · rw [Nat.add_mul] at hd'; omega
  rw [hq] at ha hb ⊢
  generalize hi : j * (n + 1) / N = i at *
  generalize hr : j * (n + 1) % N = r at *
  have e : (j : K) * (((n + 1 : ℕ) : K) / (N : K)) = (i : K) + (r : K) / (N : K) := by
    have : ((j * (n + 1) : ℕ) : K) = (N : K) * i + r := by exact_mod_cast hdm.symm
    rw [← mul_div_assoc, ← Nat.cast_mul, this]; field_simp
  rw [e, List.getD_eq_getElem _ _ (by omega), List.getD_eq_getElem _ _ (by omega), ← fn_lt, ← fn_lt,
    Nat.cast_sub hlt.le]
  congr 1
  field_simp
  ring

end

/-! ### C60: the specification -/

section
variable {K : Type} [Field K] [LinearOrder K] [Sqrt K] {d : ℕ}

/-- the parameters which the three methods assign to the points `P_0, ..., P_n` -/
def ParamsOf (pm : ParamMethod) (P : List (Pt K d)) (n : ℕ) (t : List K) : Prop :=
  t.length = n + 1 ∧ match pm with
  | .equallySpaced => ∀ g, g ≤ n → t[g]? = some ((g : K) / (n : K))
  | .chordLength => ∀ g, g ≤ n → t[g]? =
      some ((∑ h ∈ range g, dist2 (P.getD h 0) (P.getD (h + 1) 0)) /
        (∑ h ∈ range n, dist2 (P.getD h 0) (P.getD (h + 1) 0)))
  | .centripetal => ∀ g, g ≤ n → t[g]? =
      some ((∑ h ∈ range g, Sqrt.sqrt (dist2 (P.getD h 0) (P.getD (h + 1) 0))) /
        (∑ h ∈ range n, Sqrt.sqrt (dist2 (P.getD h 0) (P.getD (h + 1) 0))))

/-- the `j`-th interior knot of the three methods, from the parameters `t` -/
def interiorKnot (km : KnotMethod) (p n : ℕ) (t : List K) (j : ℕ) : K :=
  match km with
  | .uniform => (j : K) / ((n - p + 1 : ℕ) : K)
  | .averaging => (∑ i ∈ range p, t.getD (j + i) 0) / (p : K)
  | .deBoor => (((n - p + 1 - j * (n + 1) % (n - p + 1) : ℕ) : K) *
        t.getD (j * (n + 1) / (n - p + 1) - 1) 0 +
      ((j * (n + 1) % (n - p + 1) : ℕ) : K) * t.getD (j * (n + 1) / (n - p + 1)) 0) /
        ((n - p + 1 : ℕ) : K)

end

/-! ### C60: errors -/

section
variable {K : Type} [Add K] [Sub K] [Mul K] [Div K] [Neg K] [Zero K] [One K] [NatCast K] [IntCast K] [Cmp K]
variable [Trunc K] [Sqrt K] {d : ℕ}

theorem segments_new {P : List (Pt K d)} {n : ℕ} (hP : P.length = n + 1) :
    (ControlPoints.new P).segments = .ok n := by
  simp only [ControlPoints.segments, ControlPoints.count, ControlPoints.countDerivative,
    ControlPoints.new, idx, List.getElem?_cons_zero, ok_bind, pure_ok]
  rw [usub_ok (by omega)]; congr 1; omega

theorem matrix_new (P : List (Pt K d)) : (ControlPoints.new P).matrix = .ok P := by
  simp [ControlPoints.matrix, ControlPoints.new, idx]

/-- **C60** With fewer control points than the degree asks for, `generate` fails with the mismatch
error whatever the knot method, without looking at the knots. In any arithmetic. -/
theorem C60_too_few_points (solver : Solver K d) {p n : ℕ} {P : List (Pt K d)}
    (hP : P.length = n + 1) (h : n < p) (g : KnotGeneration K) :
    generate solver (.manual p (ControlPoints.new P) g) =
      .ok (.error (.degreeAndSegmentsMismatch p n)) := by
  rw [generate]
  simp only [segments_new hP, ok_bind]
  rw [if_pos h]; rfl

/-- **C60** Degree zero with uniform knots is refused. In any arithmetic. -/
theorem C60_degree_zero_uniform (solver : Solver K d) {n : ℕ} {P : List (Pt K d)}
    (hP : P.length = n + 1) :
    generate solver (.manual 0 (ControlPoints.new P) .uniform) = .ok (.error (.degreeTooLow 0 0)) := by
  rw [generate]
  simp only [segments_new hP, ok_bind, matrix_new, generateManualKnots]
  rw [if_neg (by omega), (C38_uniform 0 n).1 rfl]; rfl

/-- **C60** Without control points `generate` panics. In any arithmetic. -/
theorem C60_no_points (solver : Solver K d) (p : ℕ) (g : KnotGeneration K) :
    generate solver (.manual p (ControlPoints.new []) g) = .error .underflow := by
  rw [generate]
  rfl

/-- **C60** With given knots the degree argument only takes part in the check on the number of
points. The result is the curve which `Curve::new` makes from these knots and points; its degree is
that of the knots. In any arithmetic. -/
theorem C60_manual_knots (solver : Solver K d) {p q n : ℕ} {P : List (Pt K d)} {U : List K}
    {kn : Knots K} (hP : P.length = n + 1) (hp : p ≤ n) (hk : Knots.new q U = .ok kn) :
    generate solver (.manual p (ControlPoints.new P) (.manual kn)) = mkCurve q U P := by
  rw [generate, mkCurve, hk]
  simp only [segments_new hP, ok_bind, matrix_new, generateManualKnots, pure_ok]
  rw [if_neg (by omega)]

end

variable {K : Type} [Field K] [LinearOrder K] [IsStrictOrderedRing K] [Trunc K] [LawfulTrunc K]
variable [Sqrt K] [LawfulSqrt K] {d : ℕ}

theorem generate_of_knots (solver : Solver K d) {p n : ℕ} {P : List (Pt K d)} {U : List K}
    (hU : ClampedKnots 0 1 p n U) (hP : P.length = n + 1) {g : KnotGeneration K}
    (hg : generateManualKnots p n P g = .ok (.ok (canonKnots p U))) :
    ∃ c, generate solver (.manual p (ControlPoints.new P) g) = .ok (.ok c) ∧
      ValidOn 0 1 c p n U P := by
  have hl := hU.length
  have hp := hU.le
  refine ⟨canon p U P, ?_, validOn_canon hU hP⟩
  have := mkCurve_ok (p := p) hP hp (by omega : n + p + 1 ≤ U.length)
  rw [mkCurve, Knots.new_ok (by omega), ok_bind] at this
  rw [generate]
  simp only [segments_new hP, ok_bind, matrix_new, hg]
  rw [if_neg (by omega)]
  exact this

theorem eq_canonKnots_of {p n : ℕ} {kn : Knots K} {U : List K} (hU : U.length = n + p + 2)
    (hp : p ≤ n) (hk : Knots.new p U = .ok kn) : kn = canonKnots p U := by
  rw [Knots.new_ok (by omega)] at hk
  exact (Except.ok.inj hk).symm

/-- **C60** Uniform knots: for `1 ≤ p ≤ n` the result is the curve of degree `p` with exactly the
given control points and equidistant knots on `[0, 1]`. -/
theorem C60_uniform (solver : Solver K d) {p n : ℕ} {P : List (Pt K d)} (h1 : 1 ≤ p) (h2 : p ≤ n)
    (hP : P.length = n + 1) :
    ∃ c U, generate solver (.manual p (ControlPoints.new P) .uniform) = .ok (.ok c) ∧
      ValidOn 0 1 c p n U P ∧
      (∀ j, j ≤ n - p + 1 → U[p + j]? = some ((j : K) / ((n - p + 1 : ℕ) : K))) := by
  obtain ⟨kn, U, a, b, hU, hv, -⟩ := C35_uniform (K := K) h1 h2
  obtain ⟨kn', U', a', -, -, b', hl', hn'⟩ := (C38_uniform (K := K) p n).2.2 h1 h2
  rw [a] at a'; cases a'
  rw [b] at b'; cases b'
  have := eq_canonKnots_of hl' h2 hn'
  subst this
  obtain ⟨c, hc, hc'⟩ := generate_of_knots solver hU hP (g := .uniform) (by
    rw [generateManualKnots, a])
  exact ⟨c, U, hc, hc', hv⟩

/-- the parameters of `generate` and what they are -/
theorem generateParams_spec {P : List (Pt K d)} {n : ℕ} (hn : 1 ≤ n) (hP : P.length = n + 1)
    (hne : ∀ i, i < n → P.getD i 0 ≠ P.getD (i + 1) 0) (pm : ParamMethod)
    (hc : pm = .centripetal →
      1 / 2 ^ 26 ≤ ∑ h ∈ range n, Sqrt.sqrt (dist2 (P.getD h 0) (P.getD (h + 1) 0))) :
    ∃ ps : Parameters K, generateParams P pm = .ok ps ∧ ParamsOf pm P n ps.vector ∧
      ps.vector.Pairwise (· < ·) ∧ ps.vector[0]? = some 0 ∧ ps.vector[n]? = some 1 := by
  have strict : ∀ {w : Pt K d → Pt K d → K} {v : List K}, Proportional P n w v →
      v.Pairwise (· < ·) := by
    intro w v h
    have hl := h.length
    rw [← List.isChain_iff_pairwise, List.isChain_iff_getElem]
    intro i hi
    have := h.strict i (by omega) (hne i (by omega))
    rwa [List.getD_eq_getElem _ _ (by omega), List.getD_eq_getElem _ _ (by omega)] at this
  cases pm with
  | equallySpaced =>
    obtain ⟨ps, a, -, b, c, e, f, g⟩ := C39_equally_spaced (K := K) hn
    refine ⟨ps, ?_, ⟨b, c⟩, g, e, f⟩
    rw [generateParams, DataPoints.segments, usub_ok (by omega), ok_bind,
      show List.length P - 1 = n by omega, a]
  | chordLength =>
    have hpos : 0 < ∑ h ∈ range n, dist2 (P.getD h 0) (P.getD (h + 1) 0) := by
      refine sum_pos (fun i hi => ?_) ⟨0, by simpa using (show 0 < n by omega)⟩
      rw [dist2_eq]
      exact norm_pos (sub_ne_zero.mpr (hne i (by simpa using hi)).symm)
    obtain ⟨ps, a, -, b⟩ := C39_chord_length hP hpos
    exact ⟨ps, a, ⟨b.length, b.value⟩, strict b, b.first, b.last⟩
  | centripetal =>
    obtain ⟨ps, a, -, b⟩ := C39_centripetal_partial hP (hc rfl)
    exact ⟨ps, a, ⟨b.length, b.value⟩, strict b, b.first, b.last⟩

/-- the knots of `generate` and what they are -/
theorem generateKnots_spec {p n : ℕ} (h1 : 1 ≤ p) (h2 : p ≤ n) {ps : Parameters K}
    (hl : ps.vector.length = n + 1) (hs : ps.vector.Pairwise (· < ·))
    (h0 : ps.vector[0]? = some 0) (hn : ps.vector[n]? = some 1) (km : KnotMethod) :
    ∃ U : List K, generateKnots p n ps km = .ok (.ok (canonKnots p U)) ∧ ClampedKnots 0 1 p n U ∧
      (∀ j, 1 ≤ j → j ≤ n - p → U[p + j]? = some (interiorKnot km p n ps.vector j)) := by
  cases km with
  | uniform =>
    obtain ⟨kn, U, a, b, hU, hv, -⟩ := C35_uniform (K := K) h1 h2
    obtain ⟨kn', U', a', -, -, b', hl', hn'⟩ := (C38_uniform (K := K) p n).2.2 h1 h2
    rw [a] at a'; cases a'
    rw [b] at b'; cases b'
    have := eq_canonKnots_of hl' h2 hn'
    subst this
    exact ⟨U, a, hU, fun j _ hj => hv j (by omega)⟩
  | averaging =>
    obtain ⟨kn, U, a, b, hU, hv, -⟩ := C36_averaging h1 h2 hl hs h0 hn
    obtain ⟨kn', U', a', -, -, b', hl', hn'⟩ := (C38_averaging p n ps).2.2 h1 h2 (by omega)
    rw [a] at a'; cases a'
    rw [b] at b'; cases b'
    have := eq_canonKnots_of hl' h2 hn'
    subst this
    exact ⟨U, a, hU, hv⟩
  | deBoor =>
    have hb : ∀ x ∈ ps.vector, 0 ≤ x ∧ x ≤ 1 := by
      intro x hx
      obtain ⟨i, hi, rfl⟩ := List.getElem_of_mem hx
      rw [List.getElem?_eq_getElem (by omega)] at h0 hn
      have h0 := Option.some.inj h0
      have hn := Option.some.inj hn
      have hp := List.pairwise_iff_getElem.mp hs
      constructor
      · rcases Nat.eq_zero_or_pos i with rfl | h
        · exact h0.ge
        · rw [← h0]; exact (hp 0 i (by omega) hi h).le
      · rcases (show i ≤ n by omega).lt_or_eq with h | rfl
        · rw [← hn]; exact (hp i n hi (by omega) h).le
        · exact hn.le
    obtain ⟨kn, U, a, b, -, hU, -⟩ := C37_de_boor h1 h2 (by omega) hs hb
    obtain ⟨kn', U', a', b', hv⟩ := C37_de_boor_value h1 h2 (params := ps) (by omega)
    rw [a] at a'; cases a'
    rw [b] at b'; cases b'
    obtain ⟨kn', U', a', -, -, b', hl', hn'⟩ := C38_de_boor h1 h2 (params := ps) (by omega)
    rw [a] at a'; cases a'
    rw [b] at b'; cases b'
    have := eq_canonKnots_of hl' h2 hn'
    subst this
    exact ⟨U, a, hU, hv⟩

/-- **C60** Knots by a pair of methods: for `1 ≤ p ≤ n` and control points of which no two
consecutive ones agree, the result is the curve of degree `p` with exactly the given control points
and a clamped knot vector on `[0, 1]`; the interior knots follow from the control points by the
formulas of the two methods. The centripetal method also needs a total of at least `2^-26`. -/
theorem C60_method (solver : Solver K d) {p n : ℕ} {P : List (Pt K d)} (h1 : 1 ≤ p) (h2 : p ≤ n)
    (hP : P.length = n + 1) (hne : ∀ i, i < n → P.getD i 0 ≠ P.getD (i + 1) 0)
    (pm : ParamMethod) (km : KnotMethod) (hc : pm = .centripetal →
      1 / 2 ^ 26 ≤ ∑ h ∈ range n, Sqrt.sqrt (dist2 (P.getD h 0) (P.getD (h + 1) 0))) :
    ∃ c U t, generate solver (.manual p (ControlPoints.new P) (.method pm km)) = .ok (.ok c) ∧
      ValidOn 0 1 c p n U P ∧ ParamsOf pm P n t ∧
      (∀ j, 1 ≤ j → j ≤ n - p → U[p + j]? = some (interiorKnot km p n t j)) := by
  obtain ⟨ps, a, b, hs, h0, hn⟩ := generateParams_spec (by omega) hP hne pm hc
  obtain ⟨U, a', hU, hv⟩ := generateKnots_spec h1 h2 b.1 hs h0 hn km
  obtain ⟨c, hc, hc'⟩ := generate_of_knots solver hU hP (g := .method pm km) (by
    rw [generateManualKnots, a, ok_bind, a'])
  exact ⟨c, U, ps.vector, hc, hc', b, hv⟩

/-- non-vacuity: three points on the line, every pair of methods -/
example (solver : Solver ℝ 1) (pm : ParamMethod) (km : KnotMethod) :
    ∃ c U t, generate solver (.manual 1 (ControlPoints.new [![0], ![1], ![5]]) (.method pm km)) =
        .ok (.ok c) ∧ ValidOn 0 1 c 1 2 U [![0], ![1], ![5]] ∧ ParamsOf pm [![0], ![1], ![5]] 2 t ∧
      (∀ j, 1 ≤ j → j ≤ 2 - 1 → U[1 + j]? = some (interiorKnot km 1 2 t j)) := by
  have ne : ∀ x y : ℝ, x ≠ y → (![x] : Pt ℝ 1) ≠ ![y] := fun x y h e => h (by simpa using congrFun e 0)
  refine C60_method solver le_rfl (by omega) rfl ?_ pm km ?_
  · intro i hi
    obtain rfl | rfl : i = 0 ∨ i = 1 := by omega
    · exact ne 0 1 (by norm_num)
    · exact ne 1 5 (by norm_num)
  · intro _
    rw [sum_range_succ, sum_range_succ, range_zero, sum_empty, zero_add]
    have e : Sqrt.sqrt (dist2 (K := ℝ) ![0] ![1]) = 1 := by
      rw [dist2_real_one]; show Real.sqrt _ = _; norm_num
    show _ ≤ Sqrt.sqrt (dist2 (K := ℝ) ![0] ![1]) + Sqrt.sqrt (dist2 (K := ℝ) ![1] ![5])
    rw [e]
    have : 0 ≤ Sqrt.sqrt (dist2 (K := ℝ) ![1] ![5]) := Real.sqrt_nonneg _
    have h2 : (1 : ℝ) / 2 ^ 26 ≤ 1 := by norm_num
    linarith

/-- What a caller expects from the degree argument: the generated curve has it. -/
def C60_full : Prop := ∀ (d p n q : ℕ) (P : List (Pt ℚ d)) (kn : Knots ℚ) (U : List ℚ)
  (c : Curve ℚ d) (solver : Solver ℚ d) (_ : Sqrt ℚ), P.length = n + 1 → Knots.new q U = .ok kn →
  ClampedKnots 0 1 q n U →
  generate solver (.manual p (ControlPoints.new P) (.manual kn)) = .ok (.ok c) → c.degree = p

/-- **C60** It does not when the knots are given. -/
theorem C60_full_false : ¬ C60_full := by
  intro h
  obtain ⟨s, -⟩ := exists_exact_solver ℚ 1
  have hU : ClampedKnots (0 : ℚ) 1 2 2 [0, 0, 0, 1, 1, 1] := by decide +kernel
  have hk : Knots.new 2 [(0 : ℚ), 0, 0, 1, 1, 1] = .ok _ := Knots.new_ok (by decide)
  let _ : Sqrt ℚ := ⟨id⟩
  have e := C60_manual_knots s (p := 1) (n := 2) (P := [![(0 : ℚ)], ![1], ![2]]) rfl (by omega) hk
  rw [mkCurve_ok (n := 2) rfl (by omega) (by decide)] at e
  have := h 1 1 2 2 [![0], ![1], ![2]] _ [0, 0, 0, 1, 1, 1] _ s ⟨id⟩ rfl hk hU e
  rw [canon_degree] at this
  omega

end BSpline
