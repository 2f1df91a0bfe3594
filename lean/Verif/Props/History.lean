import Verif.Refine.Shape
import Verif.Props.Reverse

/-!
# Histories of edits: C51, C52
-/

set_option linter.unusedSectionVars false

namespace BSpline

/-! ### C51 -/

section
variable {K : Type} [Add K] [Sub K] [Mul K] [Div K] [Neg K] [Zero K] [One K] [NatCast K] [Cmp K]
variable {d : ℕ}

/-- `Reach c₀ c`: a caller who starts with `c₀` can hold the curve `c` after a number of calls, with
any arguments; calls that returned an error count, too (for `insert_times` the receiver may have
changed nevertheless). After a split the caller goes on with either half. -/
inductive Reach (c₀ : Curve K d) : Curve K d → Prop
  | start : Reach c₀ c₀
  | insert {c c' r} (u : K) : Reach c₀ c → c.insert u = .ok (c', r) → Reach c₀ c'
  | insertTimes {c c' r} (u : K) (x : ℕ) : Reach c₀ c → c.insertTimes u x = .ok (c', r) → Reach c₀ c'
  | reverse {c c'} : Reach c₀ c → c.reverse = .ok c' → Reach c₀ c'
  | splitLeft {c l r} (u : K) (norm : Bool × Bool) : Reach c₀ c →
      BSpline.splitAndNormalize c u norm = .ok (.ok (l, r)) → Reach c₀ l
  | splitRight {c l r} (u : K) (norm : Bool × Bool) : Reach c₀ c →
      BSpline.splitAndNormalize c u norm = .ok (.ok (l, r)) → Reach c₀ r

/-- every reachable curve has the right shape -/
theorem Reach.shaped {c₀ c : Curve K d} {p n : ℕ} (h₀ : Shaped c₀ p n) (h : Reach c₀ c) :
    ∃ m, Shaped c p m := by
  induction h with
  | start => exact ⟨n, h₀⟩
  | insert u _ e ih =>
    obtain ⟨m, hm⟩ := ih
    obtain ⟨c', r, m', h1, h2⟩ := hm.insert_shaped u
    rw [Curve.insert_eq, h1] at e
    simp only [Except.ok.injEq, Prod.mk.injEq] at e
    exact ⟨m', e.1 ▸ h2⟩
  | insertTimes u x _ e ih =>
    obtain ⟨m, hm⟩ := ih
    obtain ⟨c', r, m', h1, h2⟩ := Shaped.insertTimes_shaped u x hm
    rw [h1] at e
    simp only [Except.ok.injEq, Prod.mk.injEq] at e
    exact ⟨m', e.1 ▸ h2⟩
  | reverse _ e ih =>
    obtain ⟨m, hm⟩ := ih
    obtain ⟨c', h1, h2⟩ := hm.reverse_shaped
    rw [h1] at e
    injection e with e
    exact ⟨m, e ▸ h2⟩
  | splitLeft u norm _ e ih =>
    obtain ⟨m, hm⟩ := ih
    obtain ⟨m', hm'⟩ := (split_shaped e).1
    rw [show Curve.degree _ = p from hm.deg] at hm'
    exact ⟨m', hm'⟩
  | splitRight u norm _ e ih =>
    obtain ⟨m, hm⟩ := ih
    obtain ⟨m', hm'⟩ := (split_shaped e).2
    rw [show Curve.degree _ = p from hm.deg] at hm'
    exact ⟨m', hm'⟩

/-- **C51** Whatever a caller does with a consistently built curve, the curve they hold has the
degree `p` of the first one and consistent counts, and none of `evaluate_derivative`, `insert`,
`insert_times`, `reverse` panics on it, for all arguments and in any arithmetic (floating point
with NaN included). -/
theorem C51_histories_never_panic {c₀ c : Curve K d} {p n : ℕ} {U : List K} {P : List (Pt K d)}
    (h₀ : Built c₀ p U P) (hU : U.length = n + p + 2) (hP : P.length = n + 1) (hp : p ≤ n)
    (h : Reach c₀ c) :
    (∀ u k, ∃ r, c.evaluateDerivative u k = .ok r) ∧
    (∀ u, ∃ c' r, c.insert u = .ok (c', r)) ∧
    (∀ u x, ∃ c' r, c.insertTimes u x = .ok (c', r)) ∧
    (∃ c', c.reverse = .ok c') ∧
    c.degree = p ∧
    ∃ m, p ≤ m ∧ c.segments = .ok m ∧ c.knots.segments = .ok m ∧ c.points.count = .ok (m + 1) ∧
      ∃ V, c.knots.vector = .ok V ∧ V.length = m + p + 2 := by
  have h₁ : c₀ = canon p U P := by
    rw [Built, mkCurve_ok hP hp (by omega)] at h₀
    injection h₀ with h₀; injection h₀ with h₀; exact h₀.symm
  subst h₁
  obtain ⟨m, hm⟩ := h.shaped (shaped_canon hU hP hp)
  refine ⟨?_, ?_, ?_, ?_, hm.deg, m, hm.le, hm.pts_segments, hm.segments, hm.pts_count, _, hm.vector,
    hm.lenU 0 (by omega)⟩
  · intro u k
    obtain ⟨h1, h2⟩ := hm.evaluate_total u k
    cases hb : (Cmp.le 0 u && Cmp.le u 1)
    · exact ⟨_, h1 hb⟩
    · obtain ⟨v, hv⟩ := h2 hb; exact ⟨_, hv⟩
  · intro u
    obtain ⟨c', r, -, h1, -⟩ := hm.insert_shaped u
    exact ⟨c', r, by rw [Curve.insert_eq, h1]⟩
  · intro u x
    obtain ⟨c', r, -, h1, -⟩ := Shaped.insertTimes_shaped u x hm
    exact ⟨c', r, h1⟩
  · obtain ⟨c', h1, -⟩ := hm.reverse_shaped
    exact ⟨c', h1⟩

/-- **C51** An evaluation on a reachable curve returns a point exactly if `0 ≤ u` and `u ≤ 1` test
true, otherwise the out-of-bounds error. -/
theorem C51_histories_errors_exact {c₀ c : Curve K d} {p n : ℕ} {U : List K} {P : List (Pt K d)}
    (h₀ : Built c₀ p U P) (hU : U.length = n + p + 2) (hP : P.length = n + 1) (hp : p ≤ n)
    (h : Reach c₀ c) (u : K) (k : ℕ) :
    (Cmp.le 0 u = true ∧ Cmp.le u 1 = true → ∃ v, c.evaluateDerivative u k = .ok (.ok v)) ∧
    (¬ (Cmp.le 0 u = true ∧ Cmp.le u 1 = true) →
      c.evaluateDerivative u k = .ok (.error (.parameterOutOfBounds u 0 1))) := by
  have h₁ : c₀ = canon p U P := by
    rw [Built, mkCurve_ok hP hp (by omega)] at h₀
    injection h₀ with h₀; injection h₀ with h₀; exact h₀.symm
  subst h₁
  obtain ⟨m, hm⟩ := h.shaped (shaped_canon hU hP hp)
  obtain ⟨h1, h2⟩ := hm.evaluate_total u k
  constructor
  · intro hb; exact h2 (by simp [hb.1, hb.2])
  · intro hb
    exact h1 (by
      cases ha : Cmp.le 0 u <;> cases hb' : Cmp.le u 1 <;> simp_all)

end

/-- non-vacuity: insert above the double knot (which goes wrong), a failing insertion, a reversal,
and a split -/
example : ∃ c c' l r, exC.insert (9 / 10) = .ok (c, .ok ()) ∧ c.reverse = .ok c' ∧
    splitAndNormalize c' (1 / 4) (true, false) = .ok (.ok (l, r)) ∧ Reach exC r := by
  have h1 : exC.insert (9 / 10) = .ok (exBad, .ok ()) := exBad_eq
  have h2 : (exBad.reverse).isOk = true := by decide +kernel
  obtain ⟨c', h3⟩ : ∃ c', exBad.reverse = .ok c' := by
    cases h : exBad.reverse with
    | error e => rw [h] at h2; simp [Except.isOk, Except.toBool] at h2
    | ok c' => exact ⟨c', rfl⟩
  have h4 : (match exBad.reverse with
    | .ok c' => match splitAndNormalize c' (1 / 4) (true, false) with
      | .ok (.ok _) => true
      | _ => false
    | _ => false) = true := by decide +kernel
  rw [h3] at h4
  dsimp only at h4
  cases h : splitAndNormalize c' (1 / 4) (true, false) with
  | error e => rw [h] at h4; simp at h4
  | ok x =>
    cases x with
    | error e => rw [h] at h4; simp at h4
    | ok lr =>
      exact ⟨exBad, c', lr.1, lr.2, h1, h3, h, .splitRight _ _ (.reverse (.insert _ .start h1) h3) h⟩

/-! ### C52 -/

variable {K : Type} [Field K] [LinearOrder K] [IsStrictOrderedRing K] {d : ℕ}

/-- equal polar forms on spans whose intervals overlap -/
theorem Same.overlap {p n n' : ℕ} {a b : K} {U U' : ℕ → K} {P P' : ℕ → Pt K d}
    (h : Same p a b n U P n' U' P') (hc : Clamp U p n a b) (hc' : Clamp U' p n' a b) {i i' : ℕ}
    (hi : i ≤ n) (hi' : i' ≤ n')
    (h1 : U i < U (i + 1)) (h2 : U i < U' (i' + 1)) (h3 : U' i' < U (i + 1)) (h4 : U' i' < U' (i' + 1))
    (ts : List K) (hts : ts.length = p) : bl U' ts P' (i' - p) = bl U ts P (i - p) := by
  refine h (max (U i) (U' i')) i i' (le_trans (hc.a_le i) (le_max_left _ _))
    (max_le (hc.le_b i) (hc'.le_b i')) ⟨hi, le_max_left _ _, Or.inl (max_lt h1 h3)⟩
    ⟨hi', le_max_right _ _, Or.inl (max_lt h2 h4)⟩ ts hts

/-- reversing both curves keeps them equal -/
theorem Same.rev {p n n' : ℕ} {U U' : List K} {P P' : List (Pt K d)} (hU : ClampedKnots 0 1 p n U)
    (hU' : ClampedKnots 0 1 p n' U') (hP : P.length = n + 1) (hP' : P'.length = n' + 1)
    (h : Same p 0 1 n (fn U) (fn P) n' (fn U') (fn P')) :
    Same p 0 1 n (fn (revU U)) (fn P.reverse) n' (fn (revU U')) (fn P'.reverse) := by
  have hr := revU_clamped hU
  have hr' := revU_clamped hU'
  simp only [sub_self, sub_zero] at hr hr'
  -- a span of the reversed curve comes from the mirrored span
  have key : ∀ {n : ℕ} {U : List K} {P : List (Pt K d)}, ClampedKnots 0 1 p n U → P.length = n + 1 →
      ∀ {v : K} {j : ℕ}, v ≤ 1 → IsSpan (fn (revU U)) n v j → ∃ i, p ≤ i ∧ i ≤ n ∧
        1 - v ≤ fn U (i + 1) ∧ (fn U i < 1 - v ∨ (v = 1 ∧ fn U i = 0)) ∧
        fn U i < fn U (i + 1) ∧ (v = 1 → fn U i = 0) ∧
        ∀ ts : List K, ts.length = p → bl (fn (revU U)) ts (fn P.reverse) (j - p) =
          bl (fn U) (ts.map (fun t => 1 - t)) (fn P) (i - p) := by
    intro n U P hU hP v j hv1 hs
    have hr := revU_clamped hU
    simp only [sub_self, sub_zero] at hr
    have hl := hU.length
    have hle := hU.le
    have e1 : ∀ i, i ≤ n + p + 1 → fn (revU U) i = 1 - fn U (n + p + 1 - i) := by
      intro i hi; rw [fn_revU (by omega), hl]; rfl
    have e2 : ∀ i, i ≤ n → fn P.reverse i = fn P (n - i) := by
      intro i hi; rw [fn_reverse (by omega), hP]; rfl
    have hjn := hs.le_n
    have hpj := hs.p_le hr.clamp
    have hlt := hs.lt hr.clamp
    have a1 := e1 j (by omega)
    have a2 := e1 (j + 1) (by omega)
    rw [show n + p + 1 - j = n + p - j + 1 by omega] at a1
    rw [show n + p + 1 - (j + 1) = n + p - j by omega] at a2
    rw [a1, a2] at hlt
    have hlo := hs.lo
    rw [a1] at hlo
    refine ⟨n + p - j, by omega, by omega, by linarith, ?_, by linarith, ?_, ?_⟩
    · rcases hs.hi with h | ⟨rfl, h⟩
      · left; rw [a2] at h; linarith
      · right
        rw [hr.clamp.right _ le_rfl] at h
        refine ⟨h, ?_⟩
        rw [show j + p - j = p by omega]
        exact hU.clamp.left p le_rfl
    · intro hv
      rcases hs.hi with h | ⟨rfl, h⟩
      · have := hr.clamp.le_b (j + 1)
        rw [hv] at h
        exact absurd (h.trans_le this) (lt_irrefl _)
      · rw [show j + p - j = p by omega]
        exact hU.clamp.left p le_rfl
    · intro ts hts
      have := bl_reflect (ts.map (fun t => 1 - t)) (U := fn U) (U' := fn (revU U)) (P := fn P)
        (P' := fn P.reverse) (a := n + p - j - p) (b := j - p) 1 (by
          intro m hm
          simp only [List.length_map, hts] at hm ⊢
          rw [e1 _ (by omega)]
          congr 2; omega) (by
          intro m hm
          simp only [List.length_map, hts] at hm ⊢
          rw [e2 _ (by omega)]
          congr 1; omega)
      rw [← this, List.map_map]
      congr 1
      simp
  intro v j j' h0 h1 hs hs' ts hts
  obtain ⟨i, -, hin, b1, b2, b3, b4, b5⟩ := key hU hP h1 hs
  obtain ⟨i', -, hin', b1', b2', b3', b4', b5'⟩ := key hU' hP' h1 hs'
  rw [b5 ts hts, b5' ts hts]
  have c1 : fn U i < fn U' (i' + 1) := by
    by_cases hv : v = 1
    · rw [b4 hv, ← b4' hv]; exact b3'
    · rcases b2 with h | h
      · linarith
      · exact absurd h.1 hv
  have c2 : fn U' i' < fn U (i + 1) := by
    by_cases hv : v = 1
    · rw [b4' hv, ← b4 hv]; exact b3
    · rcases b2' with h | h
      · linarith
      · exact absurd h.1 hv
  exact h.overlap hU.clamp hU'.clamp hin hin' b3 c1 c2 b3' _ (by simpa using hts)

theorem Same.refl {p n : ℕ} {a b : K} {U : ℕ → K} {P : ℕ → Pt K d} (hc : Clamp U p n a b) :
    Same p a b n U P n U P := by
  intro v j j' _ _ hj hj' ts _
  rw [hj.unique hc hj']

/-- one insertion with any outcome -/
theorem insert_any {p n : ℕ} {U : List K} {P : List (Pt K d)} (hU : ClampedKnots 0 1 p n U)
    (hP : P.length = n + 1) {u : K} (hr : SimpleBelow U u) {c' : Curve K d} {r}
    (hi : (canon p U P).insert u = .ok (c', r)) :
    ∃ n' U' P', c' = canon p U' P' ∧ ClampedKnots 0 1 p n' U' ∧ P'.length = n' + 1 ∧
      Same p 0 1 n (fn U) (fn P) n' (fn U') (fn P') ∧ SimpleBelow U' u := by
  have hex := C17_insert_errors_exact (validOn_canon hU hP) u
  have hfail : c' = canon p U P → ∃ n' U' P', c' = canon p U' P' ∧ ClampedKnots 0 1 p n' U' ∧
      P'.length = n' + 1 ∧ Same p 0 1 n (fn U) (fn P) n' (fn U') (fn P') ∧ SimpleBelow U' u :=
    fun h => ⟨n, U, P, h, hU, hP, Same.refl hU.clamp, hr⟩
  by_cases hu : u ≤ 0 ∨ 1 ≤ u
  · rw [hex.1 hu] at hi; injection hi with hi; injection hi with hi _; exact hfail hi.symm
  push Not at hu
  by_cases hm : p < U.count u
  · rw [hex.2.1 hu.1 hu.2 hm] at hi; injection hi with hi; injection hi with hi _; exact hfail hi.symm
  obtain ⟨l, hl1, hl2, -, -, hins, hU', hs⟩ := insert_valid hU hP hu.1 hu.2 (by omega) hr
  rw [hins] at hi
  injection hi with hi; injection hi with hi _
  refine ⟨n + 1, _, _, hi.symm, hU', by simp, hs, ?_⟩
  intro x hx0 hxu
  rw [(insU_perm U u l).count_eq, List.count_cons_of_ne hxu.ne']
  exact hr x hx0 hxu

theorem insertTimes_any {p : ℕ} {u : K} {c' : Curve K d} {r} (x : ℕ) : ∀ {n : ℕ} {U : List K}
    {P : List (Pt K d)}, ClampedKnots 0 1 p n U → P.length = n + 1 → SimpleBelow U u →
    (canon p U P).insertTimes u x = .ok (c', r) →
    ∃ n' U' P', c' = canon p U' P' ∧ ClampedKnots 0 1 p n' U' ∧ P'.length = n' + 1 ∧
      Same p 0 1 n (fn U) (fn P) n' (fn U') (fn P') := by
  induction x with
  | zero =>
    intro n U P hU hP hr hi
    simp only [Curve.insertTimes, pure_ok, Except.ok.injEq, Prod.mk.injEq] at hi
    exact ⟨n, U, P, hi.1.symm, hU, hP, Same.refl hU.clamp⟩
  | succ x ih =>
    intro n U P hU hP hr hi
    rw [Curve.insertTimes] at hi
    obtain ⟨⟨c1, r1⟩, h1, h2⟩ := bind_ok_inv hi
    rw [← Curve.insert_eq] at h1
    obtain ⟨n1, U1, P1, rfl, hU1, hP1, hs1, hr1⟩ := insert_any hU hP hr h1
    cases r1 with
    | error e =>
      simp only [pure_ok, Except.ok.injEq, Prod.mk.injEq] at h2
      exact ⟨n1, U1, P1, h2.1.symm, hU1, hP1, hs1⟩
    | ok _ =>
      obtain ⟨n2, U2, P2, h3, hU2, hP2, hs2⟩ := ih hU1 hP1 hr1 h2
      exact ⟨n2, U2, P2, h3, hU2, hP2, hs1.trans hU1.clamp hs2⟩

/-- `Edit c₀ b c`: `c` results from `c₀` by insertions (with any outcome) which are not above a
repeated interior knot, and reversals; `b` tells whether the number of reversals is odd. -/
inductive Edit (c₀ : Curve K d) : Bool → Curve K d → Prop
  | start : Edit c₀ false c₀
  | insert {b c c' r V} (u : K) : Edit c₀ b c → c.knots.vector = .ok V → SimpleBelow V u →
      c.insert u = .ok (c', r) → Edit c₀ b c'
  | insertTimes {b c c' r V} (u : K) (x : ℕ) : Edit c₀ b c → c.knots.vector = .ok V →
      SimpleBelow V u → c.insertTimes u x = .ok (c', r) → Edit c₀ b c'
  | reverse {b c c'} : Edit c₀ b c → c.reverse = .ok c' → Edit c₀ (!b) c'

theorem Edit.same {c₀ c : Curve K d} {b : Bool} {p n : ℕ} {U : List K} {P : List (Pt K d)}
    (h₀ : ValidOn 0 1 c₀ p n U P) (h : Edit c₀ b c) :
    ∃ n' U' P', c = canon p U' P' ∧ ClampedKnots 0 1 p n' U' ∧ P'.length = n' + 1 ∧
      Same p 0 1 n (fn (if b then revU U else U)) (fn (if b then P.reverse else P)) n' (fn U')
        (fn P') := by
  have hU := h₀.2.1
  have hP := h₀.2.2
  have hc0 := h₀.eq_canon
  induction h with
  | start => exact ⟨n, U, P, hc0, hU, hP, Same.refl hU.clamp⟩
  | insert u _ hv hr hi ih =>
    obtain ⟨n', U', P', rfl, hU', hP', hs⟩ := ih
    rw [canon_knots, canonKnots_vector] at hv
    injection hv with hv
    obtain ⟨n2, U2, P2, h1, hU2, hP2, hs2, -⟩ := insert_any hU' hP' (hv ▸ hr) hi
    exact ⟨n2, U2, P2, h1, hU2, hP2, hs.trans hU'.clamp hs2⟩
  | insertTimes u x _ hv hr hi ih =>
    obtain ⟨n', U', P', rfl, hU', hP', hs⟩ := ih
    rw [canon_knots, canonKnots_vector] at hv
    injection hv with hv
    obtain ⟨n2, U2, P2, h1, hU2, hP2, hs2⟩ := insertTimes_any x hU' hP' (hv ▸ hr) hi
    exact ⟨n2, U2, P2, h1, hU2, hP2, hs.trans hU'.clamp hs2⟩
  | @reverse b c c' _ hi ih =>
    obtain ⟨n', U', P', rfl, hU', hP', hs⟩ := ih
    rw [reverse_canon hU'.length hP' hU'.le] at hi
    injection hi with hi
    have hU2 := revU_clamped hU'
    simp only [sub_self, sub_zero] at hU2
    have hr := revU_clamped hU
    simp only [sub_self, sub_zero] at hr
    refine ⟨n', revU U', P'.reverse, hi.symm, hU2, by simpa using hP', ?_⟩
    cases b
    · exact Same.rev hU hU' hP hP' hs
    · have := Same.rev hr hU' (by simpa using hP) hP' hs
      simpa [revU_revU] using this

/-- **C52** After any history of insertions (none above a repeated knot) and an even number of
reversals the curve is the original one: all derivatives at all parameters are the same. -/
theorem C52_history_even {c₀ c : Curve K d} {p n : ℕ} {U : List K} {P : List (Pt K d)}
    (h₀ : ValidOn 0 1 c₀ p n U P) (h : Edit c₀ false c) (u : K) (k : ℕ) :
    c.evaluateDerivative u k = c₀.evaluateDerivative u k := by
  obtain ⟨n', U', P', rfl, hU', hP', hs⟩ := h.same h₀
  rw [h₀.eq_canon]
  exact evaluateDerivative_same h₀.2.1 hU' h₀.2.2 hP' hs u k

/-- **C52** With an odd number of reversals the curve is the reversed original curve. -/
theorem C52_history_odd {c₀ c : Curve K d} {p n : ℕ} {U : List K} {P : List (Pt K d)}
    (h₀ : ValidOn 0 1 c₀ p n U P) (h : Edit c₀ true c) :
    ∃ c₁, c₀.reverse = .ok c₁ ∧ ∀ u k, c.evaluateDerivative u k = c₁.evaluateDerivative u k := by
  obtain ⟨n', U', P', rfl, hU', hP', hs⟩ := h.same h₀
  have hU := h₀.2.1
  have hr := revU_clamped hU
  simp only [sub_self, sub_zero] at hr
  refine ⟨canon p (revU U) P.reverse, by rw [h₀.eq_canon]; exact reverse_canon hU.length h₀.2.2 hU.le,
    fun u k => ?_⟩
  exact evaluateDerivative_same hr hU' (by simpa using h₀.2.2) hP' hs u k

/-- **C52** ... and so it traverses the original points backwards, if the original curve is
continuous (no interior knot of multiplicity more than `p`). -/
theorem C52_history_backwards {c₀ c : Curve K d} {p n : ℕ} {U : List K} {P : List (Pt K d)}
    (h₀ : ValidOn 0 1 c₀ p n U P) (hm : ∀ x, 0 < x → x < 1 → U.count x ≤ p) (h : Edit c₀ true c)
    {u : K} (hu0 : 0 ≤ u) (hu1 : u ≤ 1) : c.evaluate u = c₀.evaluate (1 - u) := by
  obtain ⟨c₁, h1, h2⟩ := C52_history_odd h₀ h
  rw [← C22_reverse_points h₀ h1 hm hu0 hu1, Curve.evaluate, Curve.evaluate, h2]

/-- non-vacuity: insert `1/2` (the third copy in `exC`), reverse, insert `1/8` twice -/
example : ∃ c₁ c₂ c₃, exC.insert (1 / 2) = .ok (c₁, .ok ()) ∧ c₁.reverse = .ok c₂ ∧
    c₂.insertTimes (1 / 8) 2 = .ok (c₃, .ok ()) ∧ Edit exC true c₃ := by
  obtain ⟨l, -, -, -, -, h1, hU1, -⟩ := insert_valid (p := 2) (n := 5) (U := exU) (P := exP)
    (u := 1 / 2) (by decide +kernel) rfl (by norm_num) (by norm_num) (by decide +kernel) exU_simpleBelow
  have hp := insU_perm exU (1 / 2) l
  have hU2 := revU_clamped hU1
  simp only [sub_self, sub_zero] at hU2
  have hsb : SimpleBelow (revU (insU exU (1 / 2) l)) (1 / 8) := by
    intro x hx0 hx1
    have h2 : exU.count (1 - x) = 0 := by
      apply List.count_eq_zero_of_not_mem
      intro hm
      simp only [exU, List.mem_cons, List.not_mem_nil, or_false] at hm
      rcases hm with h | h | h | h | h | h | h | h | h <;> linarith
    rw [revU_count, hp.count_eq, List.count_cons_of_ne (by intro h; linarith), h2]
    omega
  obtain ⟨U3, P3, h3, -⟩ := insertTimes_valid (u := (1 / 8 : ℚ)) (by norm_num) (by norm_num) 2 hU2
    (P := (((List.range (5 + 2)).map (insP (fn exU) 2 (fn exP) (1 / 2) l)).reverse)) (by simp) hsb (by
      rw [revU_count, hp.count_eq]
      decide +kernel)
  have hr := reverse_canon (p := 2) (n := 6) hU1.length
    (P := ((List.range (5 + 2)).map (insP (fn exU) 2 (fn exP) (1 / 2) l))) (by simp) hU1.le
  refine ⟨_, _, _, h1, hr, h3, ?_⟩
  exact .insertTimes (V := revU (insU exU (1 / 2) l)) (1 / 8) 2
    (.reverse (.insert (V := exU) (1 / 2) .start (by decide +kernel) exU_simpleBelow h1) hr)
    (canonKnots_vector ..) hsb h3

end BSpline
