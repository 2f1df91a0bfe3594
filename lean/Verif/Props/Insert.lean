import Verif.Props.Eval
import Verif.Refine.Insert

/-!
# Knot insertion: C15 – C20
-/

set_option linter.unusedSectionVars false

namespace BSpline

/-! ### C17, for any arithmetic -/

section LawFree

variable {K : Type} [Add K] [Sub K] [Mul K] [Div K] [Neg K] [Zero K] [One K] [NatCast K] [Cmp K]
variable {d : ℕ}

theorem Curve.insert_eq (c : Curve K d) (u : K) : c.insert u = BSpline.insert c u := by
  rw [Curve.insert, Curve.insertTimes]
  cases BSpline.insert c u with
  | error e => rfl
  | ok r =>
    obtain ⟨c', r⟩ := r
    cases r with
    | error e => rfl
    | ok _ => rfl

/-- a curve that `Curve::new` built from matching counts -/
def Wf (c : Curve K d) (p n : ℕ) : Prop :=
  ∃ U P, Built c p U P ∧ U.length = n + p + 2 ∧ P.length = n + 1 ∧ p ≤ n

theorem Wf.eq_canon {c : Curve K d} {p n : ℕ} (h : Wf c p n) :
    ∃ U P, c = canon p U P ∧ U.length = n + p + 2 ∧ P.length = n + 1 ∧ p ≤ n := by
  obtain ⟨U, P, hc, hU, hP, hp⟩ := h
  refine ⟨U, P, ?_, hU, hP, hp⟩
  rw [Built, mkCurve_ok hP hp (by omega)] at hc
  injection hc with hc; injection hc with hc; exact hc.symm

theorem wf_canon {p n : ℕ} {U : List K} {P : List (Pt K d)} (hU : U.length = n + p + 2)
    (hP : P.length = n + 1) (hp : p ≤ n) : Wf (canon p U P) p n :=
  ⟨U, P, mkCurve_ok hP hp (by omega), hU, hP, hp⟩

/-- **C17** `insert(u)` never panics on a curve with matching counts. It returns `OutOfBounds`
exactly when `u <= 0 || u >= 1`, `MultiplicityError` exactly when the multiplicity exceeds the
degree, and `Ok` otherwise; on `Err` the curve is unchanged, on `Ok` it is a curve with matching
counts and one more control point. Any arithmetic, any comparison (NaN included). -/
theorem C17_insert_total {c : Curve K d} {p n : ℕ} (hc : Wf c p n) (u : K) :
    ∃ m, c.knots.multiplicity u = .ok m ∧
    ((Cmp.le u 0 || Cmp.le 1 u) = true → c.insert u = .ok (c, .error (.outOfBounds u 0 1))) ∧
    ((Cmp.le u 0 || Cmp.le 1 u) = false → p < m →
      c.insert u = .ok (c, .error (.multiplicityError u m p))) ∧
    ((Cmp.le u 0 || Cmp.le 1 u) = false → m ≤ p →
      ∃ c', c.insert u = .ok (c', .ok ()) ∧ Wf c' p (n + 1)) := by
  obtain ⟨U, P, rfl, hU, hP, hp⟩ := hc.eq_canon
  refine ⟨multF p n U u, canonKnots_multiplicity hU hp u, ?_, ?_, ?_⟩
  · intro h
    rw [Curve.insert_eq, insert_ok hU hP hp, if_pos h]
  · intro h h2
    rw [Curve.insert_eq, insert_ok hU hP hp, if_neg (by simp [h]), if_pos h2]
  · intro h h2
    rw [Curve.insert_eq, insert_ok hU hP hp, if_neg (by simp [h]), if_neg (by omega)]
    have hb := lleq_bounds (fn U) u (n - p) p
    exact ⟨_, rfl, wf_canon (by simp [insU]; omega) (by simp) (by omega)⟩

end LawFree

variable {K : Type} [Field K] [LinearOrder K] [IsStrictOrderedRing K] {d : ℕ}

/-- **C17** On a valid curve, in terms of the knot values: the three outcomes are decided by `u`
and by the number of copies of `u` among the knots. -/
theorem C17_insert_errors_exact {c : Curve K d} {p n : ℕ} {U : List K} {P : List (Pt K d)}
    (hc : ValidOn 0 1 c p n U P) (u : K) :
    (u ≤ 0 ∨ 1 ≤ u → c.insert u = .ok (c, .error (.outOfBounds u 0 1))) ∧
    (0 < u → u < 1 → p < U.count u →
      c.insert u = .ok (c, .error (.multiplicityError u (U.count u) p))) ∧
    (0 < u → u < 1 → U.count u ≤ p → ∃ c', c.insert u = .ok (c', .ok ())) := by
  obtain rfl := hc.eq_canon
  obtain ⟨-, hU, hP⟩ := hc
  obtain ⟨m, hm, h1, h2, h3⟩ := C17_insert_total (wf_canon hU.length hP hU.le) u
  rw [canon_knots, canonKnots_multiplicity hU.length hU.le] at hm
  injection hm with hm
  have hin : 0 < u → u < 1 → (Cmp.le u 0 || Cmp.le 1 u) = false := by
    intro h0 h1
    simp [Cmp.le, h0, h1]
  refine ⟨?_, ?_, ?_⟩
  · intro h
    apply h1
    simpa [Cmp.le] using h
  · intro h0 h1' hmu
    rw [multF_eq_count hU h0 h1'] at hm
    have := h2 (hin h0 h1') (by omega)
    rw [this, ← hm]
  · intro h0 h1' hmu
    rw [multF_eq_count hU h0 h1'] at hm
    obtain ⟨c', hc', -⟩ := h3 (hin h0 h1') (by omega)
    exact ⟨c', hc'⟩

example : exC.insert (1 / 2) ≠ .ok (exC, .ok ()) ∧ exC.insert 1 = .ok (exC, .error (.outOfBounds 1 0 1)) := by
  decide +kernel
/-- a double knot in a linear curve cannot be inserted again -/
example : (canon 1 ([0, 0, 1 / 2, 1 / 2, 1, 1] : List ℚ) [![0], ![1], ![2], ![3]]).insert (1 / 2) =
    .ok (canon 1 [0, 0, 1 / 2, 1 / 2, 1, 1] [![0], ![1], ![2], ![3]],
      .error (.multiplicityError (1 / 2) 2 1)) := by decide +kernel

/-! ### C15, C16 -/

/-- what a successful insertion does to a valid curve -/
theorem insert_valid {p n : ℕ} {U : List K} {P : List (Pt K d)} (hU : ClampedKnots 0 1 p n U)
    (hP : P.length = n + 1) {u : K} (h0 : 0 < u) (h1 : u < 1) (hm : U.count u ≤ p)
    (hr : SimpleBelow U u) :
    ∃ l, p ≤ l ∧ l ≤ n ∧ fn U l ≤ u ∧ u ≤ fn U (l + 1) ∧
      (canon p U P).insert u = .ok (canon p (insU U u l)
        ((List.range (n + 2)).map (insP (fn U) p (fn P) u l)), .ok ()) ∧
      ClampedKnots 0 1 p (n + 1) (insU U u l) ∧
      Same p 0 1 n (fn U) (fn P) (n + 1) (fn (insU U u l))
        (fn ((List.range (n + 2)).map (insP (fn U) p (fn P) u l))) := by
  have hg := lleq_insert hU h0 h1 hr
  have hb := lleq_bounds (fn U) u (n - p) p
  have hle := hU.le
  have hlen := hU.length
  have hins := insert_ok (d := d) hU.length hP hU.le u
  rw [multF_eq_count hU h0 h1, if_neg (by simp [Cmp.le, h0, h1]), if_neg (by omega),
    ← Curve.insert_eq] at hins
  generalize lleq (fn U) u (n - p) p = l at hg hb hins
  have hU' := insU_clamped hU h0 h1 hb.1 (by omega) hg.1 hg.2
  refine ⟨l, hb.1, by omega, hg.1, hg.2, hins, hU', ?_⟩
  have hs := same_insert hU.clamp hU'.clamp (insU_seq (by omega)) hb.1 (by omega) hg.1 hg.2 (fn P)
  intro v j j' a1 a2 hj hj' ts hts
  rw [← hs v j j' a1 a2 hj hj' ts hts]
  apply bl_congr_pts
  intro m hm
  have := hj'.le_n
  have := hj'.p_le hU'.clamp
  exact fn_map_range _ (by omega)

/-- The full claim C15. -/
def C15_full : Prop := ∀ (p n d : ℕ) (U : List ℚ) (P : List (Pt ℚ d)) (c c' : Curve ℚ d) (u : ℚ),
  ValidOn 0 1 c p n U P → c.insert u = .ok (c', .ok ()) →
    ∀ v k, c'.evaluateDerivative v k = c.evaluateDerivative v k

/-- **C15 (partial)** A successful `insert(u)` does not change the curve: every evaluation of every
derivative, inside and outside the domain, gives the same result. `u` may coincide with existing
knots. Missing: inserting above a repeated interior knot, where the claim is false
(`C15_full_false`). -/
theorem C15_insert_preserves_partial {c c' : Curve K d} {p n : ℕ} {U : List K} {P : List (Pt K d)}
    (hc : ValidOn 0 1 c p n U P) {u : K} (hr : SimpleBelow U u)
    (hi : c.insert u = .ok (c', .ok ())) (v : K) (k : ℕ) :
    c'.evaluateDerivative v k = c.evaluateDerivative v k := by
  have hex := C17_insert_errors_exact hc u
  obtain rfl := hc.eq_canon
  obtain ⟨-, hU, hP⟩ := hc
  by_cases hu : u ≤ 0 ∨ 1 ≤ u
  · rw [hex.1 hu] at hi; injection hi with hi; simp at hi
  push Not at hu
  by_cases hm : p < U.count u
  · rw [hex.2.1 hu.1 hu.2 hm] at hi; injection hi with hi; simp at hi
  obtain ⟨l, hl1, hl2, -, -, hins, hU', hs⟩ := insert_valid hU hP hu.1 hu.2 (by omega) hr
  rw [hins] at hi
  injection hi with hi; injection hi with hi _
  rw [← hi]
  exact evaluateDerivative_same hU hU' hP (by simp) hs v k

/-- The full claim C16: the new knot vector is the old one plus `u`, sorted and clamped. -/
def C16_full : Prop := ∀ (p n d : ℕ) (U : List ℚ) (P : List (Pt ℚ d)) (c c' : Curve ℚ d) (u : ℚ),
  ValidOn 0 1 c p n U P → c.insert u = .ok (c', .ok ()) →
    ∃ U' P', ValidOn 0 1 c' p (n + 1) U' P' ∧ U'.Perm (u :: U)

/-- **C16 (partial)** A successful `insert(u)` leaves a curve that `Curve::new` would build (so the
cached derivatives are up to date) from a clamped sorted knot vector with the same knots plus one
copy of `u`, and one more control point; degree and dimension are unchanged. Missing: as for C15. -/
theorem C16_insert_adds_knot_partial {c c' : Curve K d} {p n : ℕ} {U : List K} {P : List (Pt K d)}
    (hc : ValidOn 0 1 c p n U P) {u : K} (hr : SimpleBelow U u)
    (hi : c.insert u = .ok (c', .ok ())) :
    ∃ U' P', ValidOn 0 1 c' p (n + 1) U' P' ∧ U'.Perm (u :: U) := by
  have hex := C17_insert_errors_exact hc u
  obtain rfl := hc.eq_canon
  obtain ⟨-, hU, hP⟩ := hc
  by_cases hu : u ≤ 0 ∨ 1 ≤ u
  · rw [hex.1 hu] at hi; injection hi with hi; simp at hi
  push Not at hu
  by_cases hm : p < U.count u
  · rw [hex.2.1 hu.1 hu.2 hm] at hi; injection hi with hi; simp at hi
  obtain ⟨l, hl1, hl2, -, -, hins, hU', hs⟩ := insert_valid hU hP hu.1 hu.2 (by omega) hr
  rw [hins] at hi
  injection hi with hi; injection hi with hi _
  rw [← hi]
  exact ⟨_, _, validOn_canon hU' (by simp), insU_perm U u l⟩

/-- The curve `exC` has the double knot `1/2`; inserting `9/10` above it puts the new knot between
the two copies and changes the curve. -/
def exBad : Curve ℚ 2 := match exC.insert (9 / 10) with
  | .ok (c, .ok ()) => c
  | _ => exC

theorem exBad_eq : exC.insert (9 / 10) = .ok (exBad, .ok ()) := by decide +kernel
example : exBad.knots.vector = .ok [0, 0, 0, 1 / 2, 9 / 10, 1 / 2, 3 / 4, 1, 1, 1] := by decide +kernel

theorem C15_full_false : ¬ C15_full := by
  intro h
  have := h 2 5 2 exU exP exC exBad (9 / 10) (validOn_canon (by decide +kernel) rfl) exBad_eq (6 / 10) 0
  revert this
  decide +kernel

theorem C16_full_false : ¬ C16_full := by
  intro h
  obtain ⟨U', P', hv, -⟩ := h 2 5 2 exU exP exC exBad (9 / 10)
    (validOn_canon (by decide +kernel) rfl) exBad_eq
  have h1 := hv.eq_canon
  have h2 : exBad.knots.vector = .ok U' := by
    rw [h1, canon_knots, canonKnots_vector]
  have h3 : exBad.knots.vector = .ok [0, 0, 0, 1 / 2, 9 / 10, 1 / 2, 3 / 4, 1, 1, 1] := by
    decide +kernel
  rw [h3] at h2
  injection h2 with h2
  have := hv.2.1.sorted
  rw [← h2] at this
  revert this
  decide +kernel

/-- non-vacuity: `1/4` and even the double knot `1/2` itself satisfy the hypotheses -/
theorem exU_simpleBelow : SimpleBelow exU (1 / 2) := by
  intro x h0 h1
  have h2 : exU.count x = 0 := by
    apply List.count_eq_zero_of_not_mem
    intro hm
    simp only [exU, List.mem_cons, List.not_mem_nil, or_false] at hm
    rcases hm with rfl | rfl | rfl | rfl | rfl | rfl | rfl | rfl | rfl <;> revert h0 h1 <;> norm_num
  omega

example : ∃ c', exC.insert (1 / 2) = .ok (c', .ok ()) ∧
    ∀ v k, c'.evaluateDerivative v k = exC.evaluateDerivative v k := by
  have hv : ValidOn 0 1 exC 2 5 exU exP := validOn_canon (by decide +kernel) rfl
  obtain ⟨c', hc'⟩ := (C17_insert_errors_exact hv (1 / 2)).2.2 (by norm_num) (by norm_num)
    (by decide +kernel)
  exact ⟨c', hc', C15_insert_preserves_partial hv exU_simpleBelow hc'⟩

/-! ### C20 -/

/-- The full claim C20: every new control point is a convex combination of two neighbouring old
ones, the ends are unchanged. -/
def C20_full : Prop := ∀ (p n d : ℕ) (U : List ℚ) (P : List (Pt ℚ d)) (c c' : Curve ℚ d) (u : ℚ),
  ValidOn 0 1 c p n U P → c.insert u = .ok (c', .ok ()) →
    ∃ (P' : List (Pt ℚ d)) (α : ℕ → ℚ), c'.points.matrix = .ok P' ∧ P'.length = n + 2 ∧
      (∀ i, 0 ≤ α i ∧ α i ≤ 1) ∧ α 0 = 1 ∧ α (n + 1) = 0 ∧
      ∀ i, i ≤ n + 1 → P'.getD i 0 = (1 - α i) • P.getD (i - 1) 0 + α i • P.getD i 0

theorem getD_eq_fn {α : Type} [Zero α] {l : List α} {i : ℕ} (h : i < l.length) :
    l.getD i 0 = fn l i := by
  rw [fn_lt h, List.getD_eq_getElem _ _ h]

/-- the divisors of the insertion are positive -/
theorem insert_divisor_pos {p n l : ℕ} {U : List K} (hU : ClampedKnots 0 1 p n U) {u : K}
    (hln : l ≤ n) (hlo : fn U l ≤ u) (hhi : u ≤ fn U (l + 1)) (hm : U.count u ≤ p)
    {i : ℕ} (h1 : l - p < i) (h2 : i ≤ l) : fn U i < fn U (i + p) := by
  have hc := hU.clamp
  have hlen := hU.length
  rcases (hc.mono (show i ≤ i + p by omega)).lt_or_eq with h | h
  · exact h
  exfalso
  have hle1 : fn U i ≤ u := (hc.mono h2).trans hlo
  have hle2 : u ≤ fn U (i + p) := hhi.trans (hc.mono (by omega))
  have : p + 1 ≤ U.count u := by
    apply run_le_count (lo := i) (by omega)
    intro m hm1 hm2
    apply le_antisymm
    · exact (hc.mono (show m ≤ i + p by omega)).trans (h ▸ hle1)
    · exact (h ▸ hle2 : u ≤ fn U i).trans (hc.mono hm1)
  omega

/-- **C20 (partial)** Missing: as for C15. -/
theorem C20_convex_combination_partial {c c' : Curve K d} {p n : ℕ} {U : List K}
    {P : List (Pt K d)} (hc : ValidOn 0 1 c p n U P) {u : K} (hr : SimpleBelow U u)
    (hi : c.insert u = .ok (c', .ok ())) :
    ∃ (P' : List (Pt K d)) (α : ℕ → K), c'.points.matrix = .ok P' ∧ P'.length = n + 2 ∧
      (∀ i, 0 ≤ α i ∧ α i ≤ 1) ∧ α 0 = 1 ∧ α (n + 1) = 0 ∧
      ∀ i, i ≤ n + 1 → P'.getD i 0 = (1 - α i) • P.getD (i - 1) 0 + α i • P.getD i 0 := by
  have hex := C17_insert_errors_exact hc u
  obtain rfl := hc.eq_canon
  obtain ⟨-, hU, hP⟩ := hc
  by_cases hu : u ≤ 0 ∨ 1 ≤ u
  · rw [hex.1 hu] at hi; injection hi with hi; simp at hi
  push Not at hu
  by_cases hm : p < U.count u
  · rw [hex.2.1 hu.1 hu.2 hm] at hi; injection hi with hi; simp at hi
  obtain ⟨l, hl1, hl2, hlo, hhi, hins, hU', hs⟩ := insert_valid hU hP hu.1 hu.2 (by omega) hr
  rw [hins] at hi
  injection hi with hi; injection hi with hi _
  rw [← hi]
  have hmono := hU.clamp.mono
  refine ⟨_, fun i => if i ≤ l - p then 1 else if i ≤ l then
    (u - fn U i) / (fn U (i + p) - fn U i) else 0, canonPts_matrix _ _, by simp, ?_, ?_, ?_, ?_⟩
  · intro i
    beta_reduce
    split
    · exact ⟨zero_le_one, le_rfl⟩
    split
    · rename_i h1 h2
      have hd := insert_divisor_pos hU hl2 hlo hhi (by omega) (not_le.mp h1) h2
      have h3 : fn U i ≤ u := (hmono h2).trans hlo
      have h4 : u ≤ fn U (i + p) := hhi.trans (hmono (by omega))
      constructor
      · exact div_nonneg (sub_nonneg.mpr h3) (sub_nonneg.mpr hd.le)
      · rw [div_le_one (sub_pos.mpr hd)]
        exact sub_le_sub_right h4 _
    · exact ⟨le_rfl, zero_le_one⟩
  · simp
  · beta_reduce; rw [if_neg (by omega), if_neg (by omega)]
  · intro i hi'
    beta_reduce
    rw [getD_eq_fn (by simp; omega), fn_map_range _ (by omega)]
    split
    · rename_i h1
      rw [insP_low h1, getD_eq_fn (i := i) (by omega)]; simp
    · split
      · rename_i h1 h2
        rw [insP_mid (not_le.mp h1) h2, getD_eq_fn (by omega), getD_eq_fn (by omega)]
      · rename_i h1 h2
        rw [insP_high (not_le.mp h2), getD_eq_fn (i := i - 1) (by omega)]; simp

/-- the first and the last control point stay where they are -/
theorem C20_ends_partial {c c' : Curve K d} {p n : ℕ} {U : List K}
    {P : List (Pt K d)} (hc : ValidOn 0 1 c p n U P) {u : K} (hr : SimpleBelow U u)
    (hi : c.insert u = .ok (c', .ok ())) :
    ∃ P', c'.points.matrix = .ok P' ∧ P'.head? = P.head? ∧ P'.getLast? = P.getLast? := by
  obtain ⟨P', α, h1, h2, -, h4, h5, h6⟩ := C20_convex_combination_partial hc hr hi
  have hP := hc.2.2
  refine ⟨P', h1, ?_, ?_⟩
  · have := h6 0 (by omega)
    rw [h4] at this
    simp only [sub_self, zero_smul, one_smul, zero_add] at this
    rw [List.head?_eq_getElem?, List.head?_eq_getElem?, List.getElem?_eq_getElem (by omega),
      List.getElem?_eq_getElem (by omega)]
    rw [List.getD_eq_getElem _ _ (by omega), List.getD_eq_getElem _ _ (by omega)] at this
    rw [this]
  · have := h6 (n + 1) le_rfl
    rw [h5] at this
    simp only [sub_zero, zero_smul, one_smul, add_zero, Nat.add_sub_cancel] at this
    rw [List.getLast?_eq_getElem?, List.getLast?_eq_getElem?, h2, hP]
    simp only [show n + 2 - 1 = n + 1 by omega, Nat.add_sub_cancel]
    rw [List.getElem?_eq_getElem (by omega), List.getElem?_eq_getElem (by omega)]
    rw [List.getD_eq_getElem _ _ (by omega), List.getD_eq_getElem _ _ (by omega)] at this
    rw [this]

/-- Inserting above a repeated knot extrapolates the control polygon. -/
theorem C20_full_false : ¬ C20_full := by
  intro h
  obtain ⟨P', α, h1, -, h3, -, -, h6⟩ := h 2 5 2 exU exP exC exBad (9 / 10)
    (validOn_canon (by decide +kernel) rfl) exBad_eq
  have h2 : exBad.points.matrix = .ok [![0, 0], ![1, 2], ![14 / 5, -8 / 5], ![18 / 5, 8 / 5], ![3, 1],
      ![4, 5], ![6, 0]] := by decide +kernel
  rw [h2] at h1
  injection h1 with h1
  have := congrFun (h6 2 (by norm_num)) 0
  rw [← h1] at this
  simp [exP] at this
  have h4 := (h3 2).2
  linarith

/-! ### C18 -/

/-- The full claim C18. -/
def C18_full : Prop := ∀ (p n d : ℕ) (U : List ℚ) (P : List (Pt ℚ d)) (c c' : Curve ℚ d) (u : ℚ) (x : ℕ),
  ValidOn 0 1 c p n U P →
    (c.insertTimes u x = .ok (c', .ok ()) → ∃ U' P', ValidOn 0 1 c' p (n + x) U' P' ∧
      U'.Perm (List.replicate x u ++ U)) ∧
    ∀ e, c.insertTimes u x = .ok (c', .error e) → c' = c

theorem insertTimes_valid {p : ℕ} {u : K} (h0 : 0 < u) (h1 : u < 1) (x : ℕ) :
    ∀ {n : ℕ} {U : List K} {P : List (Pt K d)}, ClampedKnots 0 1 p n U → P.length = n + 1 →
      SimpleBelow U u → U.count u + x ≤ p + 1 →
    ∃ U' P', (canon p U P).insertTimes u x = .ok (canon p U' P', .ok ()) ∧
      ClampedKnots 0 1 p (n + x) U' ∧ P'.length = n + x + 1 ∧
      U'.Perm (List.replicate x u ++ U) ∧
      Same p 0 1 n (fn U) (fn P) (n + x) (fn U') (fn P') := by
  induction x with
  | zero =>
    intro n U P hU hP hr hm
    refine ⟨U, P, rfl, hU, hP, by simp, ?_⟩
    intro v j j' _ _ hj hj' ts _
    rw [hj.unique hU.clamp hj']
  | succ x ih =>
    intro n U P hU hP hr hm
    obtain ⟨l, hl1, hl2, -, -, hins, hU', hs⟩ := insert_valid hU hP h0 h1 (by omega) hr
    have hperm := insU_perm U u l
    obtain ⟨U2, P2, hi2, hU2, hP2, hperm2, hs2⟩ := ih hU' (P := (List.range (n + 2)).map
        (insP (fn U) p (fn P) u l)) (by simp) (by
        intro y hy0 hyu
        rw [hperm.count_eq, List.count_cons_of_ne hyu.ne']
        exact hr y hy0 hyu) (by
        rw [hperm.count_eq, List.count_cons_self]; omega)
    refine ⟨U2, P2, ?_, ?_, ?_, ?_, ?_⟩
    · rw [Curve.insertTimes, ← Curve.insert_eq, hins]; exact hi2
    · rw [show n + (x + 1) = n + 1 + x by omega]; exact hU2
    · omega
    · refine hperm2.trans ?_
      rw [List.replicate_succ, List.cons_append]
      exact (List.Perm.append_left _ hperm).trans List.perm_middle
    · rw [show n + (x + 1) = n + 1 + x by omega]
      exact hs.trans hU'.clamp hs2

/-- **C18 (partial)** `insert_times(u, x)` with at most `p + 1` copies of `u` in the end succeeds,
adds exactly `x` copies of `u` and does not change the curve. Missing: inserting above a repeated
knot, and the side effect of a failing call (`C18_error_leaves_insertions`). -/
theorem C18_insert_times_partial {c : Curve K d} {p n : ℕ} {U : List K} {P : List (Pt K d)}
    (hc : ValidOn 0 1 c p n U P) {u : K} (h0 : 0 < u) (h1 : u < 1) (hr : SimpleBelow U u) {x : ℕ}
    (hx : U.count u + x ≤ p + 1) :
    ∃ c' U' P', c.insertTimes u x = .ok (c', .ok ()) ∧ ValidOn 0 1 c' p (n + x) U' P' ∧
      U'.Perm (List.replicate x u ++ U) ∧ U'.count u = U.count u + x ∧
      ∀ v k, c'.evaluateDerivative v k = c.evaluateDerivative v k := by
  obtain rfl := hc.eq_canon
  obtain ⟨-, hU, hP⟩ := hc
  obtain ⟨U', P', hi, hU', hP', hperm, hs⟩ := insertTimes_valid h0 h1 x hU hP hr hx
  refine ⟨_, U', P', hi, validOn_canon hU' hP', hperm, ?_, ?_⟩
  · rw [hperm.count_eq, List.count_append, List.count_replicate_self]; omega
  · exact evaluateDerivative_same hU hU' hP hP' hs

theorem insertTimes_add {c c' : Curve K d} {u : K} (x y : ℕ) :
    c.insertTimes u x = .ok (c', .ok ()) → c.insertTimes u (x + y) = c'.insertTimes u y := by
  induction x generalizing c with
  | zero =>
    intro h
    injection h with h; injection h with h _
    rw [h, Nat.zero_add]
  | succ x ih =>
    intro h
    rw [show x + 1 + y = (x + y) + 1 by omega, Curve.insertTimes]
    rw [Curve.insertTimes] at h
    cases hi : BSpline.insert c u with
    | error e => rw [hi] at h; cases h
    | ok r =>
      obtain ⟨c1, r⟩ := r
      rw [hi] at h
      cases r with
      | error e => injection h with h; injection h with _ h; cases h
      | ok _ => exact ih h

/-- **C18, the part that is false.** A call that asks for too many copies fails, but it has already
inserted as many copies as possible: the curve is left with `p + 1` copies of `u`. -/
theorem C18_error_leaves_insertions {c : Curve K d} {p n : ℕ} {U : List K} {P : List (Pt K d)}
    (hc : ValidOn 0 1 c p n U P) {u : K} (h0 : 0 < u) (h1 : u < 1) (hr : SimpleBelow U u) {x : ℕ}
    (hm : U.count u ≤ p + 1) (hx : p + 1 < U.count u + x) :
    ∃ c' U' P', c.insertTimes u x = .ok (c', .error (.multiplicityError u (p + 1) p)) ∧
      ValidOn 0 1 c' p (n + (p + 1 - U.count u)) U' P' ∧ U'.count u = p + 1 := by
  obtain ⟨c', U', P', hi, hv, -, hcnt, -⟩ := C18_insert_times_partial hc h0 h1 hr
    (x := p + 1 - U.count u) (by omega)
  rw [show U.count u + (p + 1 - U.count u) = p + 1 by omega] at hcnt
  refine ⟨c', U', P', ?_, hv, hcnt⟩
  have hex := (C17_insert_errors_exact hv u).2.1 h0 h1 (by omega)
  rw [hcnt, Curve.insert_eq] at hex
  rw [show x = (p + 1 - U.count u) + ((x - (p + 1 - U.count u) - 1) + 1) by omega,
    insertTimes_add _ _ hi, Curve.insertTimes, hex]
  rfl

/-- `insert_times` outside the open unit interval leaves the curve alone. -/
theorem C18_out_of_bounds {c : Curve K d} {p n : ℕ} {U : List K} {P : List (Pt K d)}
    (hc : ValidOn 0 1 c p n U P) {u : K} (hu : u ≤ 0 ∨ 1 ≤ u) (x : ℕ) :
    c.insertTimes u (x + 1) = .ok (c, .error (.outOfBounds u 0 1)) := by
  have := (C17_insert_errors_exact hc u).1 hu
  rw [Curve.insert_eq] at this
  rw [Curve.insertTimes, this]
  rfl

theorem C18_full_false : ¬ C18_full := by
  intro h
  have hv : ValidOn 0 1 exC 2 5 exU exP := validOn_canon (by decide +kernel) rfl
  obtain ⟨c', U', P', hi, hv', hcnt⟩ := C18_error_leaves_insertions hv (u := 1 / 2) (by norm_num)
    (by norm_num) exU_simpleBelow (x := 2) (by decide +kernel) (by decide +kernel)
  have := (h 2 5 2 exU exP exC c' (1 / 2) 2 hv).2 _ hi
  have h1 := hv'.eq_canon
  rw [this] at h1
  have h2 : exC.knots.vector = .ok U' := by rw [h1, canon_knots, canonKnots_vector]
  have h3 : exC.knots.vector = .ok exU := by decide +kernel
  rw [h3] at h2
  injection h2 with h2
  rw [← h2] at hcnt
  revert hcnt
  decide +kernel

/-! ### C19 -/

/-- every basis function has a support of positive length if no knot is repeated more than `p + 1`
times -/
theorem support_pos {p n : ℕ} {a b : K} {U : List K} (hU : ClampedKnots a b p n U)
    (hm : ∀ x, a < x → x < b → U.count x ≤ p + 1) {i : ℕ} (hi : i ≤ n) :
    fn U i < fn U (i + p + 1) := by
  have hc := hU.clamp
  have hlen := hU.length
  rcases (hc.mono (show i ≤ i + p + 1 by omega)).lt_or_eq with h | h
  · exact h
  exfalso
  have h1 : a < fn U i := by rw [h]; exact hc.a_lt (by omega)
  have h2 : fn U i < b := hc.lt_b hi
  have := hm _ h1 h2
  have h3 : p + 2 ≤ U.count (fn U i) := by
    apply run_le_count (lo := i) (by omega)
    intro m hm1 hm2
    apply le_antisymm
    · rw [h]; exact hc.mono (by omega)
    · exact hc.mono hm1
  omega

/-- **C19** Insertions commute: the two orders give the same curve (knots, control points and
cached derivatives). -/
theorem C19_insertions_commute {c : Curve K d} {p n : ℕ} {U : List K} {P : List (Pt K d)}
    (hc : ValidOn 0 1 c p n U P) (hsimple : ∀ x, 0 < x → x < 1 → U.count x ≤ 1) {u v : K}
    (hu : 0 < u ∧ u < 1) (hv : 0 < v ∧ v < 1) (huv : u ≠ v) (hu' : u ∉ U) (hv' : v ∉ U) :
    ∃ c1 c2 c12, c.insert u = .ok (c1, .ok ()) ∧ c1.insert v = .ok (c12, .ok ()) ∧
      c.insert v = .ok (c2, .ok ()) ∧ c2.insert u = .ok (c12, .ok ()) := by
  obtain rfl := hc.eq_canon
  obtain ⟨-, hU, hP⟩ := hc
  have main : ∀ {u v : K}, 0 < u ∧ u < 1 → 0 < v ∧ v < 1 → u ≠ v → u ∉ U → v ∉ U →
      ∃ c1 U2 P2, (canon p U P).insert u = .ok (c1, .ok ()) ∧
        c1.insert v = .ok (canon p U2 P2, .ok ()) ∧ ClampedKnots 0 1 p (n + 2) U2 ∧
        P2.length = n + 3 ∧ U2.Perm (v :: u :: U) ∧
        Same p 0 1 n (fn U) (fn P) (n + 2) (fn U2) (fn P2) := by
    intro u v hu hv huv hu' hv'
    obtain ⟨l, -, -, -, -, hi1, hU1, hs1⟩ := insert_valid hU hP hu.1 hu.2
      (by rw [List.count_eq_zero_of_not_mem hu']; omega) (fun x h0 h1 => hsimple x h0 (h1.trans hu.2))
    have hp1 := insU_perm U u l
    obtain ⟨l2, -, -, -, -, hi2, hU2, hs2⟩ := insert_valid hU1 (P := (List.range (n + 2)).map
        (insP (fn U) p (fn P) u l)) (by simp) hv.1 hv.2
      (by rw [hp1.count_eq, List.count_cons_of_ne huv, List.count_eq_zero_of_not_mem hv']; omega)
      (by
        intro x h0 h1
        rw [hp1.count_eq]
        by_cases hx : x = u
        · subst hx; rw [List.count_cons_self, List.count_eq_zero_of_not_mem hu']
        · rw [List.count_cons_of_ne (Ne.symm hx)]; exact hsimple x h0 (h1.trans hv.2))
    refine ⟨_, _, _, hi1, hi2, hU2, by simp, ?_, hs1.trans hU1.clamp hs2⟩
    exact (insU_perm _ v l2).trans (hp1.cons v)
  obtain ⟨c1, U2, P2, a1, a2, a3, a4, a5, a6⟩ := main hu hv huv hu' hv'
  obtain ⟨c2, U3, P3, b1, b2, b3, b4, b5, b6⟩ := main hv hu huv.symm hv' hu'
  have hUU : U2 = U3 := by
    have : U2.Perm U3 := a5.trans ((List.Perm.swap u v U).trans b5.symm)
    exact this.eq_of_pairwise (fun x y _ _ => le_antisymm) a3.sorted b3.sorted
  subst hUU
  have hPP : P2 = P3 := by
    apply ext_fn (by omega)
    intro i hi
    have hs := a6.symm.trans hU.clamp b6
    apply hs.unique a3.clamp
    apply support_pos a3 _ (by omega)
    intro x h0 h1
    rw [a5.count_eq]
    have := hsimple x h0 h1
    by_cases hx : x = u
    · subst hx
      rw [List.count_cons_of_ne huv.symm, List.count_cons_self, List.count_eq_zero_of_not_mem hu']
      omega
    · rw [List.count_cons]
      rw [List.count_cons_of_ne (Ne.symm hx)]
      by_cases hx' : x = v
      · subst hx'
        rw [List.count_eq_zero_of_not_mem hv']; simp
      · rw [if_neg (by simpa using Ne.symm hx')]; omega
  subst hPP
  exact ⟨c1, c2, _, a1, a2, b1, b2⟩

/-- non-vacuity of C19 -/
example : ValidOn (0 : ℚ) 1 (canon 2 [0, 0, 0, 1 / 3, 1, 1, 1] [![0], ![1], ![2], ![3]]) 2 3
    [0, 0, 0, 1 / 3, 1, 1, 1] [![0], ![1], ![2], ![3]] := validOn_canon (by decide +kernel) rfl

end BSpline
