import Verif.Refine.Value
import Verif.Theory.Same

/-!
# Knot insertion on canonical curves
-/

set_option linter.unusedSectionVars false

namespace BSpline

section LawFree
variable {K : Type} [Add K] [Sub K] [Mul K] [Div K] [Zero K] [One K] [NatCast K] [Cmp K] {d : ℕ}

/-- the new knot vector -/
def insU (U : List K) (u : K) (l : ℕ) : List K := U.take (l + 1) ++ u :: U.drop (l + 1)

/-- the new control points -/
def insP (U : ℕ → K) (p : ℕ) (P : ℕ → Pt K d) (u : K) (l : ℕ) (i : ℕ) : Pt K d :=
  if i ≤ l - p then P i
  else if i ≤ l then
    (fun _ => 0) + (scale (1 - (u - U i) / (U (i + p) - U i)) (P (i - 1)) +
      scale ((u - U i) / (U (i + p) - U i)) (P i))
  else P (i - 1)

/-- the multiplicity as computed by the crate -/
def multF (p n : ℕ) (U : List K) (u : K) : ℕ :=
  (((U.drop p).take (n - p + 2)).filter (fun x => Cmp.eq x u)).length

theorem canonKnots_domain {p n : ℕ} {U : List K} (hU : U.length = n + p + 2) (hp : p ≤ n) :
    (canonKnots p U).domain = .ok ((U.drop p).take (n - p + 2)) := by
  simp only [Knots.domain, Knots.domainDerivative, canonKnots_idx (Nat.zero_le p), ok_bind,
    Knots.domainCount, canonKnots_segments hU, canonKnots_p]
  rw [usub_ok (Nat.zero_le p), ok_bind, usub_ok hp, ok_bind]
  simp only [pure_ok, ok_bind, List.drop_zero, Nat.mul_zero, Nat.sub_zero, List.take_length]
  rw [segment_ok (by omega)]

theorem canonKnots_multiplicity {p n : ℕ} {U : List K} (hU : U.length = n + p + 2) (hp : p ≤ n)
    (u : K) : (canonKnots p U).multiplicity u = .ok (multF p n U u) := by
  rw [Knots.multiplicity, canonKnots_domain hU hp]; rfl

/-- the state of the new control points before iteration `i` of the loop -/
def insState (U : ℕ → K) (p n : ℕ) (P : ℕ → Pt K d) (u : K) (l j : ℕ) : List (Pt K d) :=
  (List.range (n + 2)).map (fun i => if i < j ∨ l < i then insP U p P u l i else fun _ => 0)

theorem insertLoop_ok {p n l : ℕ} {U : List K} {P : List (Pt K d)} (hU : U.length = n + p + 2)
    (hP : P.length = n + 1) (hl : p ≤ l) (hln : l ≤ n) (u : K) :
    insertLoop u U P p (l - p + 1) l (insState (fn U) p n (fn P) u l (l - p + 1)) =
      .ok ((List.range (n + 2)).map (insP (fn U) p (fn P) u l)) := by
  rw [insertLoop, forRangeIncl_inv (S := insState (fn U) p n (fn P) u l) (by omega)]
  · congr 1
    apply List.map_congr_left
    intro i hi
    rw [if_pos (by omega)]
  · intro i h1 h2
    rw [idx_ok (by omega), ok_bind, idx_ok (by omega), ok_bind, ok_bind, usub_ok (by omega), ok_bind,
      column_ok (by omega), ok_bind, column_ok (by omega), ok_bind, addCol]
    rw [column_ok (by simp [insState]; omega), ok_bind, pure_ok]
    congr 1
    apply List.ext_getElem (by simp [insState])
    intro m hm1 hm2
    simp only [insState, List.length_map, List.length_range] at hm2
    rw [List.getElem_set]
    simp only [insState, List.getElem_map, List.getElem_range]
    rw [fn_map_range _ (by omega)]
    rw [if_neg (show ¬ (i < i ∨ l < i) by omega)]
    split
    · rename_i h; subst h
      rw [if_pos (by omega), insP, if_neg (by omega), if_pos h2]
    · rename_i h
      by_cases h3 : m < i ∨ l < m
      · rw [if_pos h3, if_pos (by omega)]
      · rw [if_neg h3, if_neg (by omega)]

theorem insState_eq {p n l : ℕ} {U : ℕ → K} {P : List (Pt K d)} {u : K}
    (hP : P.length = n + 1) (hl : p ≤ l) (hln : l ≤ n) :
    insState U p n (fn P) u l (l - p + 1) =
      (let A := List.take 0 (zeroCols d (n + 1 + 1)) ++ List.take (l - p + 1) (List.drop 0 P) ++
        List.drop (0 + (List.take (l - p + 1) (List.drop 0 P)).length) (zeroCols d (n + 1 + 1))
      List.take (A.length - (n + 1 - l)) A ++
        List.take (n + 1 - l) (List.drop (P.length - (n + 1 - l)) P) ++
        List.drop (A.length - (n + 1 - l) +
          (List.take (n + 1 - l) (List.drop (P.length - (n + 1 - l)) P)).length) A) := by
  apply List.ext_getElem
  · simp [insState, zeroCols]; omega
  · intro m h1 h2
    simp only [insState, List.length_map, List.length_range] at h1
    simp only [insState, zeroCols, List.getElem_map, List.getElem_range, List.getElem_append,
      List.getElem_take, List.getElem_drop, List.getElem_replicate, List.length_append,
      List.length_take, List.length_drop, List.length_replicate, insP]
    by_cases c1 : m ≤ l - p
    · rw [if_pos (by omega), if_pos c1, fn_lt (by omega), dif_pos (by omega), dif_pos (by omega),
        dif_pos (by omega), dif_neg (by omega)]
      congr 1
      omega
    · by_cases c2 : m ≤ l
      · rw [if_neg (by omega), dif_pos (by omega), dif_pos (by omega), dif_neg (by omega)]
      · rw [if_pos (by omega), if_neg c1, if_neg c2, fn_lt (by omega), dif_pos (by omega),
          dif_neg (by omega)]
        congr 1
        omega

/-- **Insertion never panics** on a canonical curve; this is what it does. -/
theorem insert_ok {p n : ℕ} {U : List K} {P : List (Pt K d)} (hU : U.length = n + p + 2)
    (hP : P.length = n + 1) (hp : p ≤ n) (u : K) :
    insert (canon p U P) u =
      if Cmp.le u 0 || Cmp.le 1 u then .ok (canon p U P, .error (.outOfBounds u 0 1))
      else if p < multF p n U u then
        .ok (canon p U P, .error (.multiplicityError u (multF p n U u) p))
      else .ok (canon p (insU U u (lleq (fn U) u (n - p) p))
        ((List.range (n + 2)).map (insP (fn U) p (fn P) u (lleq (fn U) u (n - p) p))), .ok ()) := by
  rw [insert]
  split
  · rfl
  rw [canon_degree, canon_knots, canonKnots_multiplicity hU hp, ok_bind]
  split
  · rfl
  have hb := lleq_bounds (fn U) u (n - p) p
  have hfi := findIdx_leftOrEqual_ok hU hp (Nat.zero_le p) u
  simp only [Nat.add_zero, Nat.sub_zero] at hfi
  rw [canonKnots_vector, ok_bind, canon_points, canonPts_matrix, ok_bind, hfi, ok_bind]
  generalize lleq (fn U) u (n - p) p = l at hb ⊢
  have hcount : (canonPts p U P).count = .ok (n + 1) := by
    simp only [ControlPoints.count, ControlPoints.countDerivative, canonPts_idx_zero, ok_bind,
      pure_ok, hP]
  rw [insertRow, if_pos (by omega), ok_bind, hcount, ok_bind]
  rw [usub_ok hb.1, ok_bind]
  dsimp only
  rw [segment_ok (by omega), ok_bind,
    setSegment_ok (by simp [zeroCols]; omega), ok_bind, usub_ok (by omega), ok_bind,
    usub_ok (by simp [zeroCols]; omega), ok_bind, usub_ok (by omega), ok_bind,
    segment_ok (by omega), ok_bind, setSegment_ok (by simp [zeroCols]; omega), ok_bind]
  rw [← insState_eq hP hb.1 (by omega), insertLoop_ok hU hP hb.1 (by omega), ok_bind]
  rw [setIdx_ok (by simp [canonKnots]), ok_bind, setIdx_ok (by simp [canonPts]), ok_bind]
  rw [calculateDerivatives_ok (n := n + 1) (U := insU U u l)
    (P := (List.range (n + 2)).map (insP (fn U) p (fn P) u l))]
  · rfl
  · simp only [canonKnots]
    rw [List.range_succ_eq_map]; rfl
  · simp only [canonPts]
    rw [List.range_succ_eq_map]; rfl
  · simp
  · simp; omega
  · simp [insU]; omega

end LawFree

section Value

variable {K : Type} [Field K] [LinearOrder K] [IsStrictOrderedRing K] {d : ℕ}

/-- Equal polar forms give equal evaluation, for all derivative orders. -/
theorem cv_congr_of_bl {U U' : ℕ → K} {P P' : ℕ → Pt K d} {p j j' : ℕ}
    (h : ∀ ts : List K, ts.length = p → bl U' ts P' (j' - p) = bl U ts P (j - p)) (k : ℕ)
    (hk : k ≤ p) : ∀ ts : List K, ts.length = p - k →
      bl (shiftN k U') ts (dpt U' p P' k) (j' - p) = bl (shiftN k U) ts (dpt U p P k) (j - p) := by
  induction k with
  | zero => exact h
  | succ k ih =>
    intro ts hts
    rw [dpt_succ U' (by omega), dpt_succ U (by omega), ← shift_shiftN, ← shift_shiftN]
    exact bl_Dv_congr (by omega) (ih (by omega)) ts (by omega)

/-- `Same` splines evaluate equally, for every parameter and derivative order. -/
theorem evaluateDerivative_same {p n n' : ℕ} {U U' : List K} {P P' : List (Pt K d)}
    (h : ClampedKnots 0 1 p n U) (h' : ClampedKnots 0 1 p n' U') (hP : P.length = n + 1)
    (hP' : P'.length = n' + 1) (hs : Same p 0 1 n (fn U) (fn P) n' (fn U') (fn P')) (v : K) (k : ℕ) :
    (canon p U' P').evaluateDerivative v k = (canon p U P).evaluateDerivative v k := by
  by_cases hv : 0 ≤ v ∧ v ≤ 1
  · by_cases hk : k ≤ p
    · obtain ⟨j, hj⟩ := h.clamp.exists_span hv.1 hv.2
      obtain ⟨j', hj'⟩ := h'.clamp.exists_span hv.1 hv.2
      rw [evaluateDerivative_eq h hP hk hv.1 hv.2 hj, evaluateDerivative_eq h' hP' hk hv.1 hv.2 hj']
      congr 2
      exact cv_congr_of_bl (hs v j j' hv.1 hv.2 hj hj') k hk _ (by simp)
    · simp [Curve.evaluateDerivative, hk]
  · have : (Cmp.le 0 v && Cmp.le v 1) = false := by
      simp only [Cmp.le, Bool.and_eq_false_iff, decide_eq_false_iff_not]
      tauto
    simp [Curve.evaluateDerivative, this]

/-! ### Knots -/

theorem insU_length {U : List K} {u : K} {l : ℕ} (hl : l + 1 ≤ U.length) :
    (insU U u l).length = U.length + 1 := by
  simp [insU]; omega

theorem fn_insU_le {U : List K} {u : K} {l i : ℕ} (hl : l + 1 ≤ U.length) (hi : i ≤ l) :
    fn (insU U u l) i = fn U i := by
  rw [insU, fn_append_left (by simp; omega), fn_take (by omega) (by omega)]

theorem fn_insU_eq {U : List K} {u : K} {l : ℕ} (hl : l + 1 ≤ U.length) :
    fn (insU U u l) (l + 1) = u := by
  rw [insU, fn_append_right (by simp) (by simp; omega)]
  simp [List.length_take, Nat.min_eq_left hl, fn_cons_zero]

theorem fn_insU_gt {U : List K} {u : K} {l i : ℕ} (hl : l + 1 < U.length) (hi : l + 1 ≤ i) :
    fn (insU U u l) (i + 1) = fn U i := by
  by_cases h : i < U.length
  · rw [insU, fn_append_right (by simp; omega) (by simp; omega)]
    rw [List.length_take, Nat.min_eq_left (by omega), show i + 1 - (l + 1) = (i - (l + 1)) + 1 by omega,
      fn_cons_succ (by simp; omega), fn_drop (by omega)]
    congr 1; omega
  · rw [fn_ge (by rw [insU_length (by omega)]; omega), fn_ge (by omega)]
    rw [insU, List.getLastD_eq_getLast?, List.getLastD_eq_getLast?]
    rw [List.getLast?_append, List.getLast?_cons, List.getLast?_drop]
    rw [if_neg (by omega)]
    have : U ≠ [] := by rintro rfl; simp at hl
    simp [List.getLast?_eq_getLast_of_ne_nil this]

theorem insU_perm (U : List K) (u : K) (l : ℕ) : (insU U u l).Perm (u :: U) := by
  rw [insU]
  refine List.perm_middle.trans ?_
  rw [List.take_append_drop]

/-- insertion at the right place keeps the knot vector clamped -/
theorem insU_clamped {a b : K} {p n l : ℕ} {U : List K} {u : K} (h : ClampedKnots a b p n U)
    (ha : a < u) (hb : u < b) (hpl : p ≤ l) (hln : l ≤ n) (hlo : fn U l ≤ u)
    (hhi : u ≤ fn U (l + 1)) : ClampedKnots a b p (n + 1) (insU U u l) := by
  have hl := h.length
  have hc := h.clamp
  have e1 : ∀ {i}, i ≤ l → fn (insU U u l) i = fn U i := fun hi => fn_insU_le (by omega) hi
  have e2 : fn (insU U u l) (l + 1) = u := fn_insU_eq (by omega)
  have e3 : ∀ {i}, l + 1 ≤ i → fn (insU U u l) (i + 1) = fn U i := fun hi => fn_insU_gt (by omega) hi
  apply ClampedKnots.of_clamp (by rw [insU_length (by omega)]; omega)
  refine ⟨?_, ?_, ?_, ?_, h.lt, by have := h.le; omega⟩
  · apply monotone_nat_of_le_succ
    intro i
    rcases lt_trichotomy i l with h1 | rfl | h1
    · rw [e1 (by omega), e1 (by omega)]; exact hc.mono (by omega)
    · rw [e1 le_rfl, e2]; exact hlo
    · rcases Nat.lt_or_ge (l + 1) i with h2 | h2
      · obtain ⟨i, rfl⟩ : ∃ m, i = m + 1 := ⟨i - 1, by omega⟩
        rw [e3 (by omega), e3 (by omega)]; exact hc.mono (by omega)
      · obtain rfl : i = l + 1 := by omega
        rw [e2, e3 le_rfl]; exact hhi
  · intro i hi
    rw [e1 (by omega)]; exact hc.left i hi
  · intro i hi
    obtain ⟨i, rfl⟩ : ∃ m, i = m + 1 := ⟨i - 1, by omega⟩
    rw [e3 (by omega)]; exact hc.right i (by omega)
  · intro i h1 h2
    rcases Nat.lt_or_ge l i with h3 | h3
    · rcases Nat.lt_or_ge (l + 1) i with h4 | h4
      · obtain ⟨i, rfl⟩ : ∃ m, i = m + 1 := ⟨i - 1, by omega⟩
        rw [e3 (by omega)]; exact hc.inner i (by omega) (by omega)
      · obtain rfl : i = l + 1 := by omega
        rw [e2]; exact ⟨ha, hb⟩
    · rw [e1 h3]; exact hc.inner i h1 (by omega)

/-! ### The insertion theorem -/

theorem insP_low {U : ℕ → K} {p : ℕ} {P : ℕ → Pt K d} {u : K} {l i : ℕ} (h : i ≤ l - p) :
    insP U p P u l i = P i := by rw [insP, if_pos h]

theorem insP_high {U : ℕ → K} {p : ℕ} {P : ℕ → Pt K d} {u : K} {l i : ℕ} (h : l < i) :
    insP U p P u l i = P (i - 1) := by rw [insP, if_neg (by omega), if_neg (by omega)]

theorem insP_mid {U : ℕ → K} {p : ℕ} {P : ℕ → Pt K d} {u : K} {l i : ℕ} (h : l - p < i)
    (h' : i ≤ l) : insP U p P u l i = (1 - (u - U i) / (U (i + p) - U i)) • P (i - 1) +
      ((u - U i) / (U (i + p) - U i)) • P i := by
  rw [insP, if_neg (by omega), if_pos h']
  simp only [scale_eq_smul]
  rw [show (fun _ => 0 : Pt K d) = 0 from rfl, zero_add]

/-- abstract knot insertion: the new sequence of knots -/
structure InsSeq (U U' : ℕ → K) (u : K) (l : ℕ) : Prop where
  low : ∀ i, i ≤ l → U' i = U i
  mid : U' (l + 1) = u
  high : ∀ i, l + 1 ≤ i → U' (i + 1) = U i

theorem insU_seq {U : List K} {u : K} {l : ℕ} (hl : l + 1 < U.length) :
    InsSeq (fn U) (fn (insU U u l)) u l :=
  ⟨fun _ hi => fn_insU_le (by omega) hi, fn_insU_eq (by omega), fun _ hi => fn_insU_gt hl hi⟩

/-- the knots around the new one, without it -/
theorem knotsFrom_mid {U U' : ℕ → K} {u : K} {l : ℕ} (h : InsSeq U U' u l) {p i : ℕ}
    (h1 : l < i + p) (h2 : i ≤ l) (hp : 1 ≤ p) :
    (knotsFrom U' (i + 1) p).Perm (u :: knotsFrom U (i + 1) (p - 1)) := by
  -- split at the new knot
  obtain ⟨r, hr⟩ : ∃ r, l = i + r := ⟨l - i, by omega⟩
  have e1 : knotsFrom U' (i + 1) p = knotsFrom U' (i + 1) r ++ u :: knotsFrom U' (l + 2) (p - 1 - r) := by
    rw [knotsFrom, show p = r + (1 + (p - 1 - r)) by omega, ← List.range'_append_1, List.map_append,
      ← List.range'_append_1, List.map_append]
    simp only [List.range'_one, List.map_cons, List.map_nil, List.cons_append, List.nil_append]
    rw [show i + 1 + r = l + 1 by omega, h.mid]
    simp only [knotsFrom]
    congr 5; omega
  have e2 : knotsFrom U (i + 1) (p - 1) = knotsFrom U' (i + 1) r ++ knotsFrom U' (l + 2) (p - 1 - r) := by
    rw [knotsFrom, show p - 1 = r + (p - 1 - r) by omega, ← List.range'_append_1, List.map_append]
    congr 1
    · apply knotsFrom_congr
      intro m hm; exact (h.low _ (by omega)).symm
    · rw [show r + (p - 1 - r) - r = p - 1 - r by omega]
      apply knotsFrom_congr
      intro m hm
      rw [show l + 2 + m = (l + 1 + m) + 1 by omega, h.high _ (by omega)]
      congr 1; omega
  rw [e1, e2]
  exact List.perm_middle

/-- **Böhm's insertion theorem** on a window. -/
theorem bl_insert {U U' : ℕ → K} {u : K} {l p : ℕ} (h : InsSeq U U' u l) (P : ℕ → Pt K d) {a b : ℕ}
    (hW : Win U p a) (hW' : Win U' p b) (hab : (b = a ∧ a ≤ l - p ∧ p ≤ l) ∨ (b = a + 1 ∧ l ≤ a + p))
    (ts : List K) (hts : ts.length = p) : bl U' ts (insP U p P u l) b = bl U ts P a := by
  apply bl_change p hW hW' _ ts hts
  intro i hi
  generalize hm : b + i = m
  have hma : a ≤ m ∧ m ≤ a + p + 1 := by omega
  rcases Nat.lt_or_ge (l - p) m with h1 | h1
  · rcases Nat.lt_or_ge l m with h2 | h2
    · -- above
      rw [insP_high h2]
      have := bl_dual (P := P) p (i := m - 1 - a) (by omega) hW
      rw [show a + (m - 1 - a) = m - 1 by omega] at this
      rw [← this]
      congr 1
      apply knotsFrom_congr
      intro r hr
      rw [show m + 1 + r = (m + r) + 1 by omega, h.high _ (by omega)]
      congr 1; omega
    · -- in the middle
      have hp1 : 1 ≤ p := by omega
      rw [insP_mid h1 h2]
      have hmid := knotsFrom_mid h (p := p) (i := m) (by omega) h2 hp1
      rw [bl_perm hmid (by simpa using hW)]
      have hden : U (m + p) - U m ≠ 0 := by
        have := hW.den (m := m - 1 - a) (by omega)
        rwa [show a + (m - 1 - a) + 1 + p = m + p by omega,
          show a + (m - 1 - a) + 1 = m by omega] at this
      have hu : u = (1 - (u - U m) / (U (m + p) - U m)) * U m +
          ((u - U m) / (U (m + p) - U m)) * U (m + p) := by
        field_simp; ring
      conv_rhs => rw [hu]
      rw [bl_affine _ _ _ _ _ (by ring) (by
        rw [knotsFrom_length, show p - 1 + 1 = p by omega]; exact hW)]
      congr 2
      · have := bl_dual (P := P) p (i := m - 1 - a) (by omega) hW
        rw [show a + (m - 1 - a) = m - 1 by omega, show m - 1 + 1 = m by omega] at this
        rw [← this]
        congr 1
        rw [show p = (p - 1) + 1 by omega, knotsFrom_succ]
        simp
      · have := bl_dual (P := P) p (i := m - a) (by omega) hW
        rw [show a + (m - a) = m by omega] at this
        rw [← this]
        have hperm : (knotsFrom U (m + 1) p).Perm (U (m + p) :: knotsFrom U (m + 1) (p - 1)) := by
          have := knotsFrom_concat U (m + 1) (p - 1)
          rw [show p - 1 + 1 = p by omega, show m + 1 + (p - 1) = m + p by omega] at this
          rw [this]
          exact List.perm_append_comm
        exact bl_perm hperm (by simpa using hW)
  · -- below
    rw [insP_low h1]
    have := bl_dual (P := P) p (i := m - a) (by omega) hW
    rw [show a + (m - a) = m by omega] at this
    rw [← this]
    congr 1
    apply knotsFrom_congr
    intro r hr
    rw [h.low _ (by omega)]

/-- knot insertion does not change the spline -/
theorem same_insert {U U' : ℕ → K} {u : K} {l p n : ℕ} {a b : K} (hc : Clamp U p n a b)
    (hc' : Clamp U' p (n + 1) a b) (h : InsSeq U U' u l) (hpl : p ≤ l) (hln : l ≤ n) (hlo : U l ≤ u)
    (hhi : u ≤ U (l + 1)) (P : ℕ → Pt K d) :
    Same p a b n U P (n + 1) U' (insP U p P u l) := by
  intro v j j' h1 h2 hs hs' ts hts
  have hpj := hs.p_le hc
  have hpj' := hs'.p_le hc'
  have hjn := hs.le_n
  have hW := win_of_span hc.mono hpj (hs.lt hc)
  have hW' := win_of_span hc'.mono hpj' (hs'.lt hc')
  apply bl_insert h P hW hW' _ ts hts
  have key : (j' = j ∧ j ≤ l) ∨ (j' = j + 1 ∧ l ≤ j) := by
    have huniq : ∀ {i}, IsSpan U' (n + 1) v i → j' = i := fun hi => hs'.unique hc' hi
    rcases lt_trichotomy j l with h3 | rfl | h3
    · left
      refine ⟨huniq ⟨by omega, ?_, Or.inl ?_⟩, h3.le⟩
      · rw [h.low _ h3.le]; exact hs.lo
      · rw [h.low _ (by omega)]
        rcases hs.hi with h4 | ⟨h4, _⟩
        · exact h4
        · omega
    · rcases lt_or_ge v u with h4 | h4
      · left
        refine ⟨huniq ⟨by omega, ?_, Or.inl ?_⟩, le_rfl⟩
        · rw [h.low _ le_rfl]; exact hs.lo
        · rw [h.mid]; exact h4
      · right
        refine ⟨huniq ⟨by omega, ?_, ?_⟩, le_rfl⟩
        · rw [h.mid]; exact h4
        · rcases hs.hi with h5 | ⟨h5, h6⟩
          · left; rw [h.high _ le_rfl]; exact h5
          · right; refine ⟨by omega, ?_⟩
            rw [h.high _ (by omega)]; exact h6
    · right
      refine ⟨huniq ⟨by omega, ?_, ?_⟩, h3.le⟩
      · rw [h.high _ (by omega)]; exact hs.lo
      · rcases hs.hi with h5 | ⟨h5, h6⟩
        · left; rw [h.high _ (by omega)]; exact h5
        · right; refine ⟨by omega, ?_⟩
          rw [h.high _ (by omega)]; exact h6
  omega

/-! ### The knot search -/

/-- the search ends at the right place when no knot below `u` is repeated -/
theorem lleq_good {U : ℕ → K} {p n : ℕ} {a b u : K} (hc : Clamp U p n a b) (hub : u < b)
    (hrep : ∀ i, p < i → i ≤ n → U i < u → U (i + 1) ≠ U i) (r : ℕ) : ∀ i, p ≤ i → i + r = n →
    U i ≤ u → U (lleq U u r i) ≤ u ∧ u ≤ U (lleq U u r i + 1) := by
  induction r with
  | zero =>
    intro i _ hr hi
    simp only [lleq]
    refine ⟨hi, ?_⟩
    rw [hc.right _ (by omega)]; exact hub.le
  | succ r ih =>
    intro i hp hr hi
    simp only [lleq, Cmp.le, Cmp.eq, decide_eq_true_eq]
    split
    · rename_i h1
      split
      · rename_i h2
        refine ⟨h1, ?_⟩
        rcases h1.lt_or_eq with h3 | h3
        · exact absurd h2 (hrep (i + 1) (by omega) (by omega) h3)
        · rw [h2, h3]
      · exact ih (i + 1) (by omega) (by omega) h1
    · rename_i h1
      exact ⟨hi, (not_le.mp h1).le⟩

theorem SimpleBelow.not_eq {p n : ℕ} {U : List K} {u : K} (h : ClampedKnots 0 1 p n U)
    (hr : SimpleBelow U u) {i : ℕ} (h1 : p < i) (h2 : i ≤ n) (h3 : fn U i < u) :
    fn U (i + 1) ≠ fn U i := by
  intro he
  have := hr (fn U i) (h.clamp.a_lt h1) h3
  have h2' : 2 ≤ U.count (fn U i) := by
    apply run_le_count (lo := i) (by have := h.length; omega)
    intro m hm1 hm2
    rcases Nat.lt_or_ge i m with h4 | h4
    · rw [show m = i + 1 by omega, he]
    · rw [show m = i by omega]
  omega

/-- the search result for an admissible parameter -/
theorem lleq_insert {p n : ℕ} {U : List K} {u : K} (h : ClampedKnots 0 1 p n U) (h0 : 0 < u)
    (h1 : u < 1) (hr : SimpleBelow U u) :
    fn U (lleq (fn U) u (n - p) p) ≤ u ∧ u ≤ fn U (lleq (fn U) u (n - p) p + 1) := by
  apply lleq_good h.clamp h1 (fun i => hr.not_eq h) _ _ le_rfl
  · have := h.le; omega
  · rw [h.clamp.left p le_rfl]; exact h0.le

/-- the multiplicity computed by the crate is the number of occurrences -/
theorem multF_eq_count {p n : ℕ} {U : List K} {u : K} (h : ClampedKnots 0 1 p n U) (h0 : 0 < u)
    (h1 : u < 1) : multF p n U u = U.count u := by
  have hl := h.length
  have e : U = U.take p ++ ((U.drop p).take (n - p + 2) ++ (U.drop p).drop (n - p + 2)) := by
    rw [List.take_append_drop, List.take_append_drop]
  conv_rhs => rw [e]
  rw [List.count_append, List.count_append, multF]
  have z1 : (U.take p).count u = 0 := by
    apply List.count_eq_zero_of_not_mem
    intro hm
    have : u ∈ U.take (p + 1) := List.mem_of_mem_take (i := p) (by
      rw [List.take_take, Nat.min_eq_left (by omega)]; exact hm)
    rw [h.left u this] at h0; exact lt_irrefl _ h0
  have z2 : ((U.drop p).drop (n - p + 2)).count u = 0 := by
    apply List.count_eq_zero_of_not_mem
    intro hm
    rw [List.drop_drop] at hm
    have : u ∈ U.drop (n + 1) := by
      have e2 : p + (n - p + 2) = (n + 1) + 1 := by have := h.le; omega
      rw [e2, ← List.drop_drop] at hm
      exact List.mem_of_mem_drop hm
    rw [h.right u this] at h1; exact lt_irrefl _ h1
  rw [z1, z2, zero_add, add_zero, ← List.countP_eq_length_filter, List.count]
  congr 1

end Value

end BSpline
