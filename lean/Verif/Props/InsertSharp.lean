import Verif.Props.InsertExact

/-!
# Exactly when insertion keeps the curve: C81

Above a repeated interior knot insertion not only unsorts the knots (C16): it changes the curve.
-/

set_option linter.unusedSectionVars false

namespace BSpline

open Finset

variable {K : Type} [Field K] [LinearOrder K] [IsStrictOrderedRing K] {d : ℕ}

/-- the search stops at the first copy of the first repeated knot -/
theorem lleq_stops_first {U : ℕ → K} {n : ℕ} {u : K} (hmono : Monotone U) (r : ℕ) : ∀ i, i + r = n →
    U i < U (i + 1) → (∃ m, i < m ∧ m ≤ n ∧ U (m + 1) = U m ∧ U m < u) →
    i < lleq U u r i ∧ U (lleq U u r i - 1) < U (lleq U u r i) := by
  induction r with
  | zero => rintro i hi - ⟨m, h1, h2, -⟩; omega
  | succ r ih =>
    rintro i hi h0 ⟨m, h1, h2, h3, h4⟩
    have h5 : U (i + 1) < u := (hmono (by omega)).trans_lt h4
    simp only [lleq, Cmp.le, Cmp.eq, decide_eq_true_eq]
    rw [if_pos h5.le]
    split
    · exact ⟨by omega, h0⟩
    · rename_i h6
      have := ih (i + 1) (by omega) (lt_of_le_of_ne (hmono (by omega)) (Ne.symm h6)) ⟨m, ?_, h2, h3, h4⟩
      · exact ⟨by omega, this.2⟩
      · rcases Nat.lt_or_ge (i + 1) m with h7 | h7
        · exact h7
        · obtain rfl : m = i + 1 := by omega
          exact absurd h3 h6

/-- the search does not pass a larger knot -/
theorem lleq_le_of_lt {U : ℕ → K} {v : K} {l : ℕ} (h : v < U (l + 1)) (r : ℕ) : ∀ i, i ≤ l →
    lleq U v r i ≤ l := by
  induction r with
  | zero => intro i hi; exact hi
  | succ r ih =>
    intro i hi
    simp only [lleq, Cmp.le, Cmp.eq, decide_eq_true_eq]
    split
    · rename_i h1
      have : i + 1 ≤ l := by
        by_contra hc
        obtain rfl : i = l := by omega
        exact absurd h (not_lt.mpr h1)
      split
      · exact this
      · exact ih _ this
    · exact hi

/-! ### The two basis functions involved -/

theorem Bs_below {U : ℕ → K} {v : K} {b : ℕ → K} {lo l : ℕ} (hb : ∀ i, lo ≤ i → i < l → b i = 0) (q : ℕ) :
    ∀ i, lo ≤ i → i + q < l → Bs U v b q i = 0 := by
  induction q with
  | zero => intro i h1 h2; exact hb i h1 h2
  | succ q ih =>
    intro i h1 h2
    rw [Bs, ih i h1 (by omega), ih (i + 1) (by omega) (by omega), mul_zero, mul_zero, add_zero]

theorem Bs_left {U : ℕ → K} {v : K} {b : ℕ → K} {l p q : ℕ} (hb : ∀ i, l - p ≤ i → i < l → b i = 0)
    (hq : q < p) (hpl : p ≤ l) :
    Bs U v b (q + 1) (l - (q + 1)) =
      (U (l + 1) - v) / (U (l + 1) - U (l - q)) * Bs U v b q (l - q) := by
  rw [Bs, Bs_below hb q _ (by omega) (by omega), mul_zero, zero_add]
  rw [show l - (q + 1) + q + 2 = l + 1 by omega, show l - (q + 1) + 1 = l - q by omega]

theorem Bs_right {U : ℕ → K} {v : K} {b : ℕ → K} {l q : ℕ} (hq : q ≤ l) :
    Bs U v b (q + 1) (l - q) = (v - U (l - q)) / (U (l + 1) - U (l - q)) * Bs U v b q (l - q) +
      (U (l + 2) - v) / (U (l + 2) - U (l - q + 1)) * Bs U v b q (l - q + 1) := by
  rw [Bs, show l - q + q + 1 = l + 1 by omega, show l - q + q + 2 = l + 2 by omega]

/-- The weight of control point `l - p` after the insertion: it does not vanish. -/
theorem weight_ne_zero {U : ℕ → K} {v u x : K} {b : ℕ → K} {l p : ℕ} (hpl : p ≤ l) (hxv : x < v) (hvu : v < u)
    (hl : U l = x) (h1 : U (l + 1) = u) (h2 : U (l + 2) = x) (hlt : ∀ i, i < l → U i < x)
    (hb : ∀ i, l - p ≤ i → i < l → b i = 0) (hbl : b l = 1) :
    ∀ q, 1 ≤ q → q + 1 ≤ p →
      Bs U v b (q + 1) (l - (q + 1)) - (u - x) / (x - U (l - q)) * Bs U v b (q + 1) (l - q) ≠ 0 := by
  intro q hq
  induction q, hq using Nat.le_induction with
  | base =>
    intro hp
    have e1 : Bs U v b 1 (l - 1) = (u - v) / (u - x) := by
      rw [Bs_left (q := 0) hb (by omega) hpl, Nat.sub_zero, h1, hl, Bs, hbl, mul_one]
    have e2 : (x - v) / (x - U (l - 1 + 1)) = 0 := by
      rw [show l - 1 + 1 = l by omega, hl, sub_self, div_zero]
    rw [Bs_left (q := 1) hb (by omega) hpl, Bs_right (q := 1) (by omega), e1, h1, h2, e2, zero_mul, add_zero]
    have ha := hlt (l - 1) (by omega)
    generalize U (l - 1) = a at ha
    have : (u - v) / (u - a) * ((u - v) / (u - x)) -
        (u - x) / (x - a) * ((v - a) / (u - a) * ((u - v) / (u - x))) =
        (u - v) / (u - x) * ((x - v) / (x - a)) := by
      have n1 : u - a ≠ 0 := by linarith
      have n2 : u - x ≠ 0 := by linarith
      have n3 : x - a ≠ 0 := by linarith
      field_simp
      ring
    rw [this]
    have n0 : u - v ≠ 0 := by linarith
    have n2 : u - x ≠ 0 := by linarith
    have n3 : x - a ≠ 0 := by linarith
    have n4 : x - v ≠ 0 := by linarith
    exact mul_ne_zero (div_ne_zero n0 n2) (div_ne_zero n4 n3)
  | succ q hq ih =>
    intro hp
    have ih := ih (by omega)
    rw [Bs_left (q := q + 1) hb (by omega) hpl, Bs_right (q := q + 1) (by omega), h1, h2,
      show l - (q + 1) + 1 = l - q by omega]
    have ha := hlt (l - (q + 1)) (by omega)
    have ha' := hlt (l - q) (by omega)
    generalize U (l - (q + 1)) = a at ha
    generalize U (l - q) = a' at ha' ih
    generalize Bs U v b (q + 1) (l - (q + 1)) = L at ih
    generalize Bs U v b (q + 1) (l - q) = R at ih
    have : (u - v) / (u - a) * L - (u - x) / (x - a) * ((v - a) / (u - a) * L + (x - v) / (x - a') * R) =
        (x - v) / (x - a) * (L - (u - x) / (x - a') * R) := by
      have n1 : u - a ≠ 0 := by linarith
      have n3 : x - a ≠ 0 := by linarith
      have n4 : x - a' ≠ 0 := by linarith
      field_simp
      ring
    rw [this]
    have n3 : x - a ≠ 0 := by linarith
    have n4 : x - v ≠ 0 := by linarith
    exact mul_ne_zero (div_ne_zero n4 n3) ih

/-- control points that vanish except for one -/
def onePoint (n s : ℕ) (w : Pt K d) : List (Pt K d) := (List.range (n + 1)).map (fun i => if i = s then w else 0)

theorem fn_onePoint {n s i : ℕ} {w : Pt K d} (hi : i ≤ n) :
    fn (onePoint n s w) i = if i = s then w else 0 := by
  rw [onePoint, fn_map_range _ (by omega)]

/-- **C81** If an interior knot below `u` is repeated, then for
suitable control points `insert(u)` changes the value at all parameters between the first such knot and
`u`. -/
theorem C81_changed {p n : ℕ} {U : List K} {u : K} (hU : ClampedKnots 0 1 p n U) (h0 : 0 < u) (h1 : u < 1)
    (hm : U.count u ≤ p) (hmult : ∀ x, 0 < x → x < u → U.count x ≤ p) (hr : ¬ SimpleBelow U u) :
    ∃ s x, s ≤ n ∧ 0 < x ∧ x < u ∧ 2 ≤ U.count x ∧ ∀ (w : Pt K d) (c : Curve K d), w ≠ 0 →
      Built c p U (onePoint n s w) → ∃ c', c.insert u = .ok (c', .ok ()) ∧
        ∀ v, x < v → v < u → c.evaluate v = .ok (.ok 0) ∧
          ∃ w', w' ≠ 0 ∧ c'.evaluate v = .ok (.ok w') := by
  have hlen := hU.length
  have hle := hU.le
  have hcl := hU.clamp
  simp only [SimpleBelow, not_forall, not_le] at hr
  obtain ⟨x, hx0, hxu, hcon⟩ := hr
  have hp2 : 2 ≤ p := le_trans hcon (hmult x hx0 hxu)
  have i1 : ∀ {i}, i < U.length → (fn U i < x ↔ i < nlt U x) := fun hi => fn_lt_iff hU.sorted x hi
  have i2 : ∀ {i}, i < U.length → (fn U i ≤ x ↔ i < nlt U x + U.count x) :=
    fun hi => fn_le_iff hU.sorted x hi
  have a1 := (i1 (i := p) (by omega)).mp (by rw [hcl.left p le_rfl]; exact hx0)
  have a2 := (not_congr (i2 (i := n + 1) (by omega))).mp
    (by rw [hcl.right (n + 1) le_rfl]; exact not_le.mpr (hxu.trans h1))
  have eqx : ∀ i, nlt U x ≤ i → i < nlt U x + U.count x → fn U i = x := fun i h1 h2 =>
    le_antisymm ((i2 (by omega)).mpr h2) (not_lt.mp ((not_congr (i1 (by omega))).mpr (by omega)))
  have hrep : ∃ m, p < m ∧ m ≤ n ∧ fn U (m + 1) = fn U m ∧ fn U m < u := ⟨nlt U x, by omega, by omega,
    by rw [eqx _ (by omega) (by omega), eqx _ le_rfl (by omega)],
    by rw [eqx _ le_rfl (by omega)]; exact hxu⟩
  have hst := lleq_stops (u := u) hcl.mono (n - p) p (n := n) (by omega) hrep
  have hst' := lleq_stops_first (u := u) hcl.mono (n - p) p (n := n) (by omega)
    (by rw [hcl.left p le_rfl]; exact hcl.a_lt (by omega)) hrep
  clear i1 i2 a1 a2 eqx hrep hcon hxu hx0 x
  generalize hl : lleq (fn U) u (n - p) p = l at hst hst'
  obtain ⟨hln, hl1, hlu⟩ := hst
  obtain ⟨hpl, hl2⟩ := hst'
  have hx0 : 0 < fn U l := hcl.a_lt hpl
  refine ⟨l - p, fn U l, by omega, hx0, hlu, ?_, ?_⟩
  · apply run_le_count (lo := l) (by omega)
    intro i h1 h2
    rcases (by omega : i = l ∨ i = l + 1) with rfl | rfl
    · rfl
    · exact hl1
  intro w c hw hc
  have hP : (onePoint n (l - p) w).length = n + 1 := by simp [onePoint]
  rw [hc.eq_canon hlen hle hP]
  refine ⟨canon p (insU U u l) ((List.range (n + 2)).map (insP (fn U) p (fn (onePoint n (l - p) w)) u l)), ?_, ?_⟩
  · rw [Curve.insert_eq, insert_ok hlen hP hle, multF_eq_count hU h0 h1,
      if_neg (by simp [Cmp.le, h0, h1]), if_neg (by omega), hl]
  intro v hxv hvu
  constructor
  · obtain ⟨j, hj⟩ := hcl.exists_span (hx0.trans hxv).le (hvu.trans h1).le
    have hjl : l + 1 ≤ j := by
      by_contra hcon
      have := hcl.mono (show j + 1 ≤ l + 1 by omega)
      rw [hl1] at this
      rcases hj.hi with h | ⟨-, h⟩
      · exact absurd (h.trans_le this) (not_lt.mpr hxv.le)
      · rw [hcl.right _ le_rfl] at h
        exact absurd (h ▸ hvu : 1 < u) (not_lt.mpr h1.le)
    have hjn := hj.le_n
    rw [Curve.evaluate, evaluateDerivative_eq hU hP (Nat.zero_le p) (hx0.trans hxv).le (hvu.trans h1).le hj, cv]
    congr 2
    have hw' := win_of_span hcl.mono (hj.p_le hcl) (hj.lt hcl)
    have := bl_const (U := fn U) (a := j - p) (List.replicate p v) (0 : Pt K d) (by simpa using hw')
    rw [← this]
    apply bl_congr_pts
    intro m hm
    rw [List.length_replicate] at hm
    simp only [dpt]
    rw [fn_onePoint (by omega), if_neg (by omega)]
  · -- the new curve
    have k1 : ∀ i, i ≤ l → fn (insU U u l) i = fn U i := fun i hi => fn_insU_le (by omega) hi
    have k2 : fn (insU U u l) (l + 1) = u := fn_insU_eq (by omega)
    have k3 : fn (insU U u l) (l + 2) = fn U l := by rw [fn_insU_gt (i := l + 1) (by omega) le_rfl, hl1]
    have hb : ∀ i, l - p ≤ i → i < l → base (fn (insU U u l)) (n + 1) v i = 0 := by
      intro i _ hi
      rw [base, if_neg]
      rintro (⟨-, h⟩ | ⟨h, -⟩)
      · rw [k1 _ (by omega)] at h
        exact absurd (h.trans_le (hcl.mono (show i + 1 ≤ l by omega))) (not_lt.mpr hxv.le)
      · omega
    have hbl : base (fn (insU U u l)) (n + 1) v l = 1 := by
      rw [base, if_pos (Or.inl ⟨by rw [k1 _ le_rfl]; exact hxv.le, by rw [k2]; exact hvu⟩)]
    have hlt : ∀ i, i < l → fn (insU U u l) i < fn U l := by
      intro i hi
      rw [k1 _ hi.le]
      exact (hcl.mono (show i ≤ l - 1 by omega)).trans_lt hl2
    have hne := weight_ne_zero (U := fn (insU U u l)) (v := v) (u := u) (x := fn U l)
      (b := base (fn (insU U u l)) (n + 1) v) (p := p) (by omega) hxv hvu (k1 _ le_rfl) k2 k3 hlt hb hbl (p - 1)
      (by omega) (by omega)
    have hlo : lleq (fn (insU U u l)) v (n + 1 - p) p ≤ l :=
      lleq_le_of_lt (by rw [k2]; exact hvu) _ _ hpl.le
    have hlo' := (lleq_bounds (fn (insU U u l)) v (n + 1 - p) p).1
    refine ⟨_, ?_, evaluateDerivative_ok (n := n + 1) (by simp [insU]; omega) (by simp) (by omega) (Nat.zero_le p)
      (by simpa [Cmp.le] using (hx0.trans hxv).le) (by simpa [Cmp.le] using (hvu.trans h1).le)⟩
    have hfold := evalFold_eq_sum (fn (insU U u l)) (p := p) (n := n + 1) (k := 0) (Nat.zero_le _)
      (fn ((List.range (n + 2)).map (insP (fn U) p (fn (onePoint n (l - p) w)) u l))) v
      (lo := lleq (fn (insU U u l)) v (n + 1 - p) p - p) (by omega)
    simp only [Nat.sub_zero, Nat.add_zero] at hfold ⊢
    rw [hfold]
    have hpt : ∀ i, i ≤ n + 1 → i ≠ l - p → i ≠ l - p + 1 →
        insP (fn U) p (fn (onePoint n (l - p) w)) u l i = 0 := by
      intro i hi h1 h2
      rcases le_or_gt i (l - p) with h | h
      · rw [insP_low h, fn_onePoint (by omega), if_neg h1]
      · rcases le_or_gt i l with h' | h'
        · rw [insP_mid h h', fn_onePoint (by omega), fn_onePoint (by omega), if_neg (by omega), if_neg (by omega),
            smul_zero, smul_zero, add_zero]
        · rw [insP_high h', fn_onePoint (by omega), if_neg (by omega)]
    have hsum : ∑ i ∈ Ico (lleq (fn (insU U u l)) v (n + 1 - p) p - p) (n + 1 + 1),
        Bs (shiftN 0 (fn (insU U u l))) v (base (shiftN 0 (fn (insU U u l))) (n + 1) v) p i •
          dpt (fn (insU U u l)) p (fn ((List.range (n + 2)).map
            (insP (fn U) p (fn (onePoint n (l - p) w)) u l))) 0 i =
        (Bs (fn (insU U u l)) v (base (fn (insU U u l)) (n + 1) v) p (l - p) - (u - fn U l) / (fn U l -
          fn (insU U u l) (l - (p - 1))) * Bs (fn (insU U u l)) v (base (fn (insU U u l)) (n + 1) v) p (l - p + 1)) • w := by
      have hsub : ({l - p, l - p + 1} : Finset ℕ) ⊆
          Ico (lleq (fn (insU U u l)) v (n + 1 - p) p - p) (n + 1 + 1) := by
        intro i hi
        simp only [mem_insert, mem_singleton] at hi
        rw [mem_Ico]
        omega
      rw [← sum_subset hsub]
      · rw [sum_pair (by omega)]
        simp only [dpt, shiftN_zero]
        rw [fn_map_range _ (by omega), fn_map_range _ (by omega), insP_low le_rfl, insP_mid (by omega) (by omega),
          fn_onePoint (by omega), fn_onePoint (by omega), fn_onePoint (by omega), if_pos rfl, if_pos (by omega),
          if_neg (by omega), smul_zero, add_zero, k1 _ (by omega), show l - p + 1 + p = l + 1 by omega, hl1,
          show l - (p - 1) = l - p + 1 by omega]
        have n1 : fn U l - fn U (l - p + 1) ≠ 0 := by
          have := hlt (l - p + 1) (by omega)
          rw [k1 _ (by omega)] at this
          exact sub_ne_zero.mpr this.ne'
        rw [smul_smul, ← add_smul]
        congr 1
        field_simp
        ring
      · intro i hi hi'
        simp only [mem_insert, mem_singleton, not_or] at hi'
        rw [mem_Ico] at hi
        simp only [dpt]
        rw [fn_map_range _ (by omega), hpt i (by omega) hi'.1 hi'.2, smul_zero]
    rw [hsum]
    refine smul_ne_zero ?_ hw
    rw [show p - 1 + 1 = p by omega, show l - (p - 1) = l - p + 1 by omega] at hne
    rw [show l - (p - 1) = l - p + 1 by omega]
    exact hne

/-- **C81** `insert(u)` keeps the values of all curves over the knots `U` if and only if no
interior knot below `u` is repeated. (Multiplicities are at most `p`; for multiplicity `p + 1` the code
divides by zero, see C53.) -/
theorem C81_kept_iff {p n : ℕ} {U : List K} {u : K} (hU : ClampedKnots 0 1 p n U) (h0 : 0 < u) (h1 : u < 1)
    (hm : U.count u ≤ p) (hmult : ∀ x, 0 < x → x < u → U.count x ≤ p) (hd : 0 < d) :
    (∀ (P : List (Pt K d)) (c c' : Curve K d), ValidOn 0 1 c p n U P → c.insert u = .ok (c', .ok ()) →
      ∀ v, c'.evaluate v = c.evaluate v) ↔ SimpleBelow U u := by
  constructor
  · intro h
    by_contra hr
    obtain ⟨s, x, -, -, hxu, -, hc⟩ := C81_changed (d := d) hU h0 h1 hm hmult hr
    have hlen : (onePoint n s (fun _ => 1 : Pt K d)).length = n + 1 := by simp [onePoint]
    obtain ⟨c', hi, hv⟩ := hc (fun _ => 1) _ (fun h => one_ne_zero (congrFun h ⟨0, hd⟩)) (validOn_canon hU hlen).1
    obtain ⟨e1, w', hw', e2⟩ := hv ((x + u) / 2) (by linarith) (by linarith)
    have := h _ _ _ (validOn_canon hU hlen) hi ((x + u) / 2)
    rw [e1, e2] at this
    injection this with this; injection this with this
    exact hw' this
  · intro hr P c c' hc hi v
    exact C15_insert_preserves_partial hc hr hi v 0

/-- the knots of `exC` show that both sides occur: `1/2` is a double knot -/
example : ¬ SimpleBelow exU (9 / 10) ∧ exU.count (9 / 10) ≤ 2 ∧ ∀ x, 0 < x → x < 9 / 10 → exU.count x ≤ 2 := by
  refine ⟨fun h => absurd (h (1 / 2) (by norm_num) (by norm_num)) (by decide +kernel), by decide +kernel, ?_⟩
  intro x h0 h1
  have : ∀ x ∈ exU, 0 < x → x < 9 / 10 → exU.count x ≤ 2 := by decide +kernel
  by_cases hx : x ∈ exU
  · exact this x hx h0 h1
  · rw [List.count_eq_zero_of_not_mem hx]; omega

end BSpline
