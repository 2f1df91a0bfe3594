import Verif.Props.Generation
import Verif.Props.Reverse

/-!
# Generated knots under similarities and reversal: C75

The parameters by chord length and the centripetal parameters, and hence the knots generated from
them, depend only on the shape of the point sequence: they do not change under translations,
rotations, reflections and scalings. Reversing the points reverses the generated curve, for uniform
knots and for knots by averaging, but not for de Boor's knots.
-/

set_option linter.unusedSectionVars false

namespace BSpline

open Finset

variable {K : Type} [Field K] [LinearOrder K] [IsStrictOrderedRing K] [Trunc K] [LawfulTrunc K]
variable [Sqrt K] [LawfulSqrt K] {d d' : ℕ}

theorem sqrt_mul' {x y : K} (hx : 0 ≤ x) (hy : 0 ≤ y) :
    Sqrt.sqrt (x * y) = Sqrt.sqrt x * Sqrt.sqrt y := by
  have h1 := LawfulSqrt.mul_self _ (mul_nonneg hx hy)
  have h2 := LawfulSqrt.mul_self x hx
  have h3 := LawfulSqrt.mul_self y hy
  have h4 := LawfulSqrt.nonneg _ (mul_nonneg hx hy)
  have h5 := mul_nonneg (LawfulSqrt.nonneg x hx) (LawfulSqrt.nonneg y hy)
  have h6 : Sqrt.sqrt (x * y) * Sqrt.sqrt (x * y) =
      Sqrt.sqrt x * Sqrt.sqrt y * (Sqrt.sqrt x * Sqrt.sqrt y) := by
    rw [h1, mul_mul_mul_comm, h2, h3]
  exact (mul_self_inj h4 h5).mp h6

theorem dist2_nonneg2 (a b : Pt K d) : 0 ≤ dist2 a b := by rw [dist2_eq]; exact norm_nonneg _

theorem dist2_comm (a b : Pt K d) : dist2 a b = dist2 b a := by
  rw [dist2, dist2]
  congr 1
  exact sum_congr rfl (fun r _ => by ring)

/-- a map that multiplies all distances by `s` -/
def Similarity (s : K) (φ : Pt K d → Pt K d') : Prop :=
  ∀ x y, dist2 (φ x) (φ y) = s * dist2 x y

theorem getD_map_lt {α β : Type} (f : α → β) {l : List α} {i : ℕ} (hi : i < l.length) (a : α) (b : β) :
    (l.map f).getD i b = f (l.getD i a) := by
  rw [List.getD_eq_getElem _ _ (by simpa using hi), List.getElem_map, List.getD_eq_getElem _ _ hi]

theorem chord_sum_map {s : K} {φ : Pt K d → Pt K d'} (hφ : Similarity s φ) {P : List (Pt K d)} {n : ℕ}
    (hP : P.length = n + 1) {g : ℕ} (hg : g ≤ n) :
    ∑ h ∈ range g, dist2 ((P.map φ).getD h 0) ((P.map φ).getD (h + 1) 0) =
      s * ∑ h ∈ range g, dist2 (P.getD h 0) (P.getD (h + 1) 0) := by
  rw [mul_sum]
  refine sum_congr rfl (fun h hh => ?_)
  rw [mem_range] at hh
  rw [getD_map_lt φ (by omega) 0, getD_map_lt φ (by omega) 0, hφ]

theorem centripetal_sum_map {s : K} (hs : 0 < s) {φ : Pt K d → Pt K d'} (hφ : Similarity s φ)
    {P : List (Pt K d)} {n : ℕ} (hP : P.length = n + 1) {g : ℕ} (hg : g ≤ n) :
    ∑ h ∈ range g, Sqrt.sqrt (dist2 ((P.map φ).getD h 0) ((P.map φ).getD (h + 1) 0)) =
      Sqrt.sqrt s * ∑ h ∈ range g, Sqrt.sqrt (dist2 (P.getD h 0) (P.getD (h + 1) 0)) := by
  rw [mul_sum]
  refine sum_congr rfl (fun h hh => ?_)
  rw [mem_range] at hh
  rw [getD_map_lt φ (by omega) 0, getD_map_lt φ (by omega) 0, hφ, sqrt_mul' hs.le (dist2_nonneg2 _ _)]

theorem eq_of_get {t t' : List K} {n : ℕ} (ht : t.length = n + 1) (ht' : t'.length = n + 1)
    (h : ∀ g, g ≤ n → t'[g]? = t[g]?) : t' = t := by
  apply List.ext_getElem?
  intro g
  by_cases hg : g ≤ n
  · exact h g hg
  · rw [List.getElem?_eq_none (by omega), List.getElem?_eq_none (by omega)]

theorem paramsOf_map {s : K} (hs : 0 < s) {φ : Pt K d → Pt K d'} (hφ : Similarity s φ)
    {P : List (Pt K d)} {n : ℕ} (hP : P.length = n + 1) {pm : ParamMethod} {t t' : List K}
    (h : ParamsOf pm P n t) (h' : ParamsOf pm (P.map φ) n t') : t' = t := by
  refine eq_of_get h.1 h'.1 (fun g hg => ?_)
  cases pm with
  | equallySpaced => rw [h.2 g hg, h'.2 g hg]
  | chordLength =>
    rw [h.2 g hg, h'.2 g hg, chord_sum_map hφ hP hg, chord_sum_map hφ hP le_rfl,
      mul_div_mul_left _ _ hs.ne']
  | centripetal =>
    rw [h.2 g hg, h'.2 g hg, centripetal_sum_map hs hφ hP hg, centripetal_sum_map hs hφ hP le_rfl,
      mul_div_mul_left _ _ (sqrt_pos' hs).ne']

theorem similarity_ne {s : K} (hs : 0 < s) {φ : Pt K d → Pt K d'} (hφ : Similarity s φ)
    {P : List (Pt K d)} {n : ℕ} (hP : P.length = n + 1)
    (hne : ∀ i, i < n → P.getD i 0 ≠ P.getD (i + 1) 0) :
    ∀ i, i < n → (P.map φ).getD i 0 ≠ (P.map φ).getD (i + 1) 0 := by
  intro i hi he
  rw [getD_map_lt φ (by omega) 0, getD_map_lt φ (by omega) 0] at he
  have h1 := hφ (P.getD i 0) (P.getD (i + 1) 0)
  rw [he, dist2_eq, sub_self] at h1
  have h2 : norm (0 : Pt K d') = 0 := by
    have h0 := LawfulSqrt.mul_self (0 : K) le_rfl
    rw [norm_eq]; simpa using h0
  rw [h2] at h1
  have h3 : 0 < dist2 (P.getD i 0) (P.getD (i + 1) 0) := by
    rw [dist2_eq]; exact norm_pos (sub_ne_zero.mpr (hne i hi).symm)
  exact absurd h1 (mul_pos hs h3).ne

theorem generateKnots_congr {ps ps' : Parameters K} (h : ps'.vector = ps.vector) (p n : ℕ)
    (km : KnotMethod) : generateKnots p n ps' km = generateKnots p n ps km := by
  cases km <;> simp only [generateKnots, averaging, deBoor, h]

/-- **C75** The parameters of a similar point sequence are the same. The centripetal method needs
both sequences to pass its size check. -/
theorem C75_parameters {s : K} (hs : 0 < s) {φ : Pt K d → Pt K d'} (hφ : Similarity s φ)
    {P : List (Pt K d)} {n : ℕ} (hn : 1 ≤ n) (hP : P.length = n + 1)
    (hne : ∀ i, i < n → P.getD i 0 ≠ P.getD (i + 1) 0) (pm : ParamMethod)
    (hc : pm = .centripetal →
      1 / 2 ^ 26 ≤ ∑ h ∈ range n, Sqrt.sqrt (dist2 (P.getD h 0) (P.getD (h + 1) 0)) ∧
      1 / 2 ^ 26 ≤ Sqrt.sqrt s * ∑ h ∈ range n, Sqrt.sqrt (dist2 (P.getD h 0) (P.getD (h + 1) 0))) :
    ∃ ps ps' : Parameters K, generateParams P pm = .ok ps ∧ generateParams (P.map φ) pm = .ok ps' ∧
      ps'.vector = ps.vector := by
  obtain ⟨ps, a, b, -⟩ := generateParams_spec hn hP hne pm (fun h => (hc h).1)
  obtain ⟨ps', a', b', -⟩ := generateParams_spec hn (P := P.map φ) (by rw [List.length_map]; exact hP)
    (similarity_ne hs hφ hP hne) pm
    (fun h => by rw [centripetal_sum_map hs hφ hP le_rfl]; exact (hc h).2)
  exact ⟨ps, ps', a, a', paramsOf_map hs hφ hP b b'⟩

/-- **C75** Curves generated by methods from similar control points have the same knots. -/
theorem C75_generate_similar {s : K} (hs : 0 < s) {φ : Pt K d → Pt K d'} (hφ : Similarity s φ)
    (solver : Solver K d) (solver' : Solver K d') {p n : ℕ} {P : List (Pt K d)} (h1 : 1 ≤ p)
    (h2 : p ≤ n) (hP : P.length = n + 1) (hne : ∀ i, i < n → P.getD i 0 ≠ P.getD (i + 1) 0)
    (pm : ParamMethod) (km : KnotMethod) (hc : pm = .centripetal →
      1 / 2 ^ 26 ≤ ∑ h ∈ range n, Sqrt.sqrt (dist2 (P.getD h 0) (P.getD (h + 1) 0)) ∧
      1 / 2 ^ 26 ≤ Sqrt.sqrt s * ∑ h ∈ range n, Sqrt.sqrt (dist2 (P.getD h 0) (P.getD (h + 1) 0))) :
    ∃ (c : Curve K d) (c' : Curve K d') (U : List K),
      generate solver (.manual p (ControlPoints.new P) (.method pm km)) = .ok (.ok c) ∧
      generate solver' (.manual p (ControlPoints.new (P.map φ)) (.method pm km)) = .ok (.ok c') ∧
      ValidOn 0 1 c p n U P ∧ ValidOn 0 1 c' p n U (P.map φ) := by
  obtain ⟨ps, a, b, hs1, h0, hn⟩ := generateParams_spec (by omega) hP hne pm (fun h => (hc h).1)
  obtain ⟨U, a', hU, -⟩ := generateKnots_spec h1 h2 b.1 hs1 h0 hn km
  obtain ⟨ps1, ps2, e1, e2, e3⟩ := C75_parameters hs hφ (by omega) hP hne pm hc
  rw [a] at e1
  injection e1 with e1
  subst e1
  obtain ⟨c, g, v⟩ := generate_of_knots solver hU hP (g := .method pm km) (by
    rw [generateManualKnots, a, ok_bind, a'])
  obtain ⟨c', g', v'⟩ := generate_of_knots solver' hU (P := P.map φ) (by rw [List.length_map]; exact hP)
    (g := .method pm km) (by
      rw [generateManualKnots, e2, ok_bind, generateKnots_congr e3, a'])
  exact ⟨c, c', U, g, g', v, v'⟩

/-! ### Reversal -/

theorem sum_tail_eq (F : ℕ → K) {n g : ℕ} (hg : g ≤ n) :
    ∑ h ∈ range g, F (n - 1 - h) = ∑ h ∈ range n, F h - ∑ h ∈ range (n - g), F h := by
  induction g with
  | zero => simp
  | succ g ih =>
    rw [sum_range_succ, ih (by omega), show n - g = n - (g + 1) + 1 by omega, sum_range_succ,
      show n - 1 - g = n - (g + 1) by omega]
    ring

theorem sum_chords_reverse (w : Pt K d → Pt K d → K) (hw : ∀ a b, w a b = w b a) {P : List (Pt K d)}
    {n : ℕ} (hP : P.length = n + 1) {g : ℕ} (hg : g ≤ n) :
    ∑ h ∈ range g, w (P.reverse.getD h 0) (P.reverse.getD (h + 1) 0) =
      ∑ h ∈ range n, w (P.getD h 0) (P.getD (h + 1) 0) -
        ∑ h ∈ range (n - g), w (P.getD h 0) (P.getD (h + 1) 0) := by
  rw [← sum_tail_eq (fun h => w (P.getD h 0) (P.getD (h + 1) 0)) hg]
  refine sum_congr rfl (fun h hh => ?_)
  rw [mem_range] at hh
  have : ∀ i, i ≤ n → P.reverse.getD i 0 = P.getD (n - i) 0 := by
    intro i hi
    rw [List.getD_eq_getElem?_getD, List.getElem?_reverse (by omega), hP, List.getD_eq_getElem?_getD,
      Nat.add_sub_cancel]
  rw [this h (by omega), this (h + 1) (by omega), hw, show n - (h + 1) = n - 1 - h by omega,
    show n - 1 - h + 1 = n - h by omega]

theorem paramsOf_reverse {P : List (Pt K d)} {n : ℕ} (hn : 1 ≤ n) (hP : P.length = n + 1)
    (hne : ∀ i, i < n → P.getD i 0 ≠ P.getD (i + 1) 0) {pm : ParamMethod} {t t' : List K}
    (h : ParamsOf pm P n t) (h' : ParamsOf pm P.reverse n t') : t' = revU t := by
  refine eq_of_get (n := n) (by rw [revU_length]; exact h.1) h'.1 (fun g hg => ?_)
  have e : (revU t)[g]? = (t[n - g]?).map (fun x => 1 - x) := by
    rw [revU, List.getElem?_map, List.getElem?_reverse (by rw [h.1]; omega), h.1, Nat.add_sub_cancel]
  have hd : ∀ i, i < n → 0 < dist2 (P.getD i 0) (P.getD (i + 1) 0) := by
    intro i hi
    rw [dist2_eq]; exact norm_pos (sub_ne_zero.mpr (hne i hi).symm)
  have hne0 : (range n).Nonempty := ⟨0, by simpa using (show 0 < n by omega)⟩
  rw [e]
  cases pm with
  | equallySpaced =>
    have hn0 : (n : K) ≠ 0 := by exact_mod_cast (by omega : n ≠ 0)
    rw [h.2 _ (Nat.sub_le _ _), h'.2 g hg, Option.map_some, Nat.cast_sub hg, sub_div, div_self hn0,
      sub_sub_cancel]
  | chordLength =>
    have h0 : ∑ h ∈ range n, dist2 (P.getD h 0) (P.getD (h + 1) 0) ≠ 0 :=
      (sum_pos (fun i hi => hd i (by simpa using hi)) hne0).ne'
    rw [h.2 _ (Nat.sub_le _ _), h'.2 g hg, Option.map_some,
      sum_chords_reverse dist2 dist2_comm hP hg, sum_chords_reverse dist2 dist2_comm hP le_rfl,
      Nat.sub_self, range_zero, sum_empty, sub_zero, sub_div, div_self h0]
  | centripetal =>
    have hc : ∀ a b : Pt K d, Sqrt.sqrt (dist2 a b) = Sqrt.sqrt (dist2 b a) := fun a b => by
      rw [dist2_comm]
    have h0 : ∑ h ∈ range n, Sqrt.sqrt (dist2 (P.getD h 0) (P.getD (h + 1) 0)) ≠ 0 :=
      (sum_pos (fun i hi => sqrt_pos' (hd i (by simpa using hi))) hne0).ne'
    rw [h.2 _ (Nat.sub_le _ _), h'.2 g hg, Option.map_some,
      sum_chords_reverse (fun a b => Sqrt.sqrt (dist2 a b)) hc hP hg,
      sum_chords_reverse (fun a b => Sqrt.sqrt (dist2 a b)) hc hP le_rfl,
      Nat.sub_self, range_zero, sum_empty, sub_zero, sub_div, div_self h0]

theorem reverse_ne {P : List (Pt K d)} {n : ℕ} (hP : P.length = n + 1)
    (hne : ∀ i, i < n → P.getD i 0 ≠ P.getD (i + 1) 0) :
    ∀ i, i < n → P.reverse.getD i 0 ≠ P.reverse.getD (i + 1) 0 := by
  intro i hi he
  have : ∀ i, i ≤ n → P.reverse.getD i 0 = P.getD (n - i) 0 := by
    intro i hi
    rw [List.getD_eq_getElem?_getD, List.getElem?_reverse (by omega), hP, List.getD_eq_getElem?_getD,
      Nat.add_sub_cancel]
  rw [this i (by omega), this (i + 1) (by omega)] at he
  refine hne (n - (i + 1)) (by omega) ?_
  rw [show n - (i + 1) + 1 = n - i by omega]
  exact he.symm

theorem centripetal_reverse {P : List (Pt K d)} {n : ℕ} (hP : P.length = n + 1) :
    ∑ h ∈ range n, Sqrt.sqrt (dist2 (P.reverse.getD h 0) (P.reverse.getD (h + 1) 0)) =
      ∑ h ∈ range n, Sqrt.sqrt (dist2 (P.getD h 0) (P.getD (h + 1) 0)) := by
  rw [sum_chords_reverse (fun a b => Sqrt.sqrt (dist2 a b)) (fun a b => by rw [dist2_comm]) hP le_rfl]
  simp

/-- **C75** The parameters of the reversed points are the reversed parameters. -/
theorem C75_parameters_reverse {P : List (Pt K d)} {n : ℕ} (hn : 1 ≤ n) (hP : P.length = n + 1)
    (hne : ∀ i, i < n → P.getD i 0 ≠ P.getD (i + 1) 0) (pm : ParamMethod)
    (hc : pm = .centripetal →
      1 / 2 ^ 26 ≤ ∑ h ∈ range n, Sqrt.sqrt (dist2 (P.getD h 0) (P.getD (h + 1) 0))) :
    ∃ ps ps' : Parameters K, generateParams P pm = .ok ps ∧
      generateParams (List.reverse P) pm = .ok ps' ∧
      ps'.vector = ps.vector.reverse.map (fun x => 1 - x) := by
  obtain ⟨ps, a, b, -⟩ := generateParams_spec hn hP hne pm hc
  obtain ⟨ps', a', b', -⟩ := generateParams_spec hn (P := P.reverse) (by rw [List.length_reverse]; exact hP)
    (reverse_ne hP hne) pm (fun h => by rw [centripetal_reverse hP]; exact hc h)
  exact ⟨ps, ps', a, a', paramsOf_reverse hn hP hne b b'⟩

theorem clamped_ext {p n : ℕ} {U V : List K} (hU : ClampedKnots 0 1 p n U) (hV : ClampedKnots 0 1 p n V)
    (h : ∀ j, 1 ≤ j → j ≤ n - p → fn U (p + j) = fn V (p + j)) : U = V := by
  apply ext_fn (hU.length.trans hV.length.symm)
  intro i hi
  by_cases ha : i ≤ p
  · rw [hU.clamp.left i ha, hV.clamp.left i ha]
  by_cases hb : i ≤ n
  · have := h (i - p) (by omega) (by omega)
    rwa [show p + (i - p) = i by omega] at this
  · rw [hU.clamp.right i (by omega), hV.clamp.right i (by omega)]

/-- **C75** A curve generated by methods from the reversed control points is the reversed curve,
unless the knots are de Boor's. -/
theorem C75_generate_reverse (solver : Solver K d) {p n : ℕ} {P : List (Pt K d)} (h1 : 1 ≤ p)
    (h2 : p ≤ n) (hP : P.length = n + 1) (hne : ∀ i, i < n → P.getD i 0 ≠ P.getD (i + 1) 0)
    (pm : ParamMethod) (km : KnotMethod) (hkm : km ≠ .deBoor) (hc : pm = .centripetal →
      1 / 2 ^ 26 ≤ ∑ h ∈ range n, Sqrt.sqrt (dist2 (P.getD h 0) (P.getD (h + 1) 0))) :
    ∃ c c' : Curve K d, generate solver (.manual p (ControlPoints.new P) (.method pm km)) = .ok (.ok c) ∧
      c.reverse = .ok c' ∧
      generate solver (.manual p (ControlPoints.new P.reverse) (.method pm km)) = .ok (.ok c') := by
  have hP' : P.reverse.length = n + 1 := by rw [List.length_reverse]; exact hP
  obtain ⟨ps, a, b, s1, s2, s3⟩ := generateParams_spec (by omega) hP hne pm hc
  obtain ⟨U, k, hU, hv⟩ := generateKnots_spec h1 h2 b.1 s1 s2 s3 km
  obtain ⟨ps', a', b', s1', s2', s3'⟩ := generateParams_spec (by omega) hP' (reverse_ne hP hne) pm
    (fun h => by rw [centripetal_reverse hP]; exact hc h)
  obtain ⟨U', k', hU', hv'⟩ := generateKnots_spec h1 h2 b'.1 s1' s2' s3' km
  have ht := paramsOf_reverse (by omega) hP hne b b'
  obtain ⟨c, g, v⟩ := generate_of_knots solver hU hP (g := .method pm km) (by
    rw [generateManualKnots, a, ok_bind, k])
  obtain ⟨c', g', v'⟩ := generate_of_knots solver hU' hP' (g := .method pm km) (by
    rw [generateManualKnots, a', ok_bind, k'])
  have hl := hU.length
  have hl' := hU'.length
  have hrev : ClampedKnots 0 1 p n (revU U) := by simpa using revU_clamped hU
  have key : U' = revU U := by
    refine clamped_ext hU' hrev (fun j hj1 hj2 => ?_)
    have e1 := hv' j hj1 hj2
    obtain ⟨l1, e1⟩ := List.getElem?_eq_some_iff.mp e1
    have e2 := hv (n - p + 1 - j) (by omega) (by omega)
    obtain ⟨l2, e2⟩ := List.getElem?_eq_some_iff.mp e2
    rw [fn_lt l1, e1, fn_revU (by omega), hl, show n + p + 2 - 1 - (p + j) = p + (n - p + 1 - j) by omega,
      fn_lt l2, e2]
    cases km with
    | deBoor => exact absurd rfl hkm
    | uniform =>
      simp only [interiorKnot]
      have h0 : (((n - p + 1 : ℕ)) : K) ≠ 0 := by exact_mod_cast (by omega : n - p + 1 ≠ 0)
      rw [Nat.cast_sub (by omega), sub_div, div_self h0, sub_sub_cancel]
    | averaging =>
      simp only [interiorKnot]
      have h0 : (p : K) ≠ 0 := by exact_mod_cast (by omega : p ≠ 0)
      have e : ∀ i ∈ range p, ps'.vector.getD (j + i) 0 =
          1 - ps.vector.getD (n - p + 1 - j + (p - 1 - i)) 0 := by
        intro i hi
        rw [mem_range] at hi
        rw [ht, List.getD_eq_getElem?_getD, revU, List.getElem?_map,
          List.getElem?_reverse (by rw [b.1]; omega), b.1,
          List.getElem?_eq_getElem (by rw [b.1]; omega), List.getD_eq_getElem _ _ (by rw [b.1]; omega)]
        simp only [Option.map_some, Option.getD_some]
        congr 2
        omega
      rw [sum_congr rfl e, sum_sub_distrib, sum_const, card_range, nsmul_eq_mul, mul_one, sub_div,
        div_self h0, sum_range_reflect (fun i => ps.vector.getD (n - p + 1 - j + i) 0)]
  subst key
  refine ⟨c, c', g, ?_, g'⟩
  rw [v.eq_canon, v'.eq_canon]
  exact reverse_canon hl hP h2

/-- **C75** De Boor's knots are not symmetric: for the equally spaced points `0, 1, 2, 3, 4` the
interior knots are `1/6` and `7/12`. -/
theorem C75_de_boor_asymmetric :
    (do let ps ← equallySpaced (K := ℚ) 4; deBoor 2 4 ps) =
      .ok (.ok (canonKnots 2 [0, 0, 0, 1 / 6, 7 / 12, 1, 1, 1])) ∧
    revU [(0 : ℚ), 0, 0, 1 / 6, 7 / 12, 1, 1, 1] ≠ [0, 0, 0, 1 / 6, 7 / 12, 1, 1, 1] := by
  decide +kernel

/-! ### Instances -/

/-- doubling and shifting the line is a similarity, and so is embedding it into the plane -/
example : Similarity (K := ℝ) 2 (fun x : Pt ℝ 1 => ![2 * x 0 + 7]) ∧
    Similarity (K := ℝ) 5 (fun x : Pt ℝ 1 => ![3 * x 0, 4 * x 0 + 1]) := by
  constructor
  · intro x y
    simp only [dist2, Sqrt.sqrt, Fin.sum_univ_one, Matrix.cons_val_zero, Real.sqrt_sq_eq_abs]
    rw [show 2 * y 0 + 7 - (2 * x 0 + 7) = 2 * (y 0 - x 0) by ring, abs_mul, abs_two]
  · intro x y
    simp only [dist2, Sqrt.sqrt, Fin.sum_univ_two, Fin.sum_univ_one, Matrix.cons_val_zero,
      Matrix.cons_val_one, Real.sqrt_sq_eq_abs]
    rw [show (3 * y 0 - 3 * x 0) ^ 2 + (4 * y 0 + 1 - (4 * x 0 + 1)) ^ 2 = (5 * (y 0 - x 0)) ^ 2 by ring,
      Real.sqrt_sq_eq_abs, abs_mul, abs_of_pos (by norm_num : (0 : ℝ) < 5)]

/-- generating from the points `0, 1, 5` backwards -/
example (solver : Solver ℝ 1) : ∃ c c' : Curve ℝ 1,
    generate solver (.manual 1 (ControlPoints.new [![0], ![1], ![5]]) (.method .chordLength .averaging)) =
      .ok (.ok c) ∧ c.reverse = .ok c' ∧
    generate solver (.manual 1 (ControlPoints.new [![5], ![1], ![0]]) (.method .chordLength .averaging)) =
      .ok (.ok c') := by
  have ne : ∀ x y : ℝ, x ≠ y → (![x] : Pt ℝ 1) ≠ ![y] := fun x y h e => h (by simpa using congrFun e 0)
  refine C75_generate_reverse (n := 2) (P := [![0], ![1], ![5]]) solver le_rfl (by omega) rfl ?_ _ _
    (by decide) (by intro h; cases h)
  intro i hi
  obtain rfl | rfl : i = 0 ∨ i = 1 := by omega
  · exact ne 0 1 (by norm_num)
  · exact ne 1 5 (by norm_num)

end BSpline
