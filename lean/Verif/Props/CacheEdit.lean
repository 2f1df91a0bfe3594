import Verif.Props.Access
import Verif.Refine.Shape

/-!
# C100: the remaining accessors

Writing through `vector_derivative_mut(k)` and `matrix_derivative_mut(k)`, and the predicates
`is_empty` and `is_valid`. No laws of arithmetic are used.
-/

set_option linter.unusedSectionVars false

namespace BSpline

variable {K : Type} [Add K] [Sub K] [Mul K] [Div K] [Neg K] [Zero K] [One K] [NatCast K] [Cmp K]
variable {d : ℕ}

/-- the caches of a built curve -/
theorem Built.caches {c : Curve K d} {p : ℕ} {U : List K} {P : List (Pt K d)} (hc : Built c p U P) :
    (∃ t, c.knots.Uk = U :: t ∧ t.length = p) ∧ c.knots.p = p ∧ c.knots.derive = .ok c.knots ∧
    (∃ t, c.points.Pk = P :: t ∧ t.length = p) ∧ c.points.kMax = p ∧
    c.points.derive c.knots = .ok c.points := by
  obtain ⟨kn, a1, a2, a3, -⟩ := hc.parts
  obtain ⟨s, hs, hsl, hp, -⟩ := Knots.derive_head rfl a1
  obtain ⟨s', hs', hsl', hp', -⟩ := Knots.derive_head hs a2
  obtain ⟨t, ht, hl, hk⟩ := ControlPoints.derive_head rfl a3
  have hpp : c.knots.p = p := by rw [hp', hp]
  refine ⟨⟨s', hs', by rw [hsl', hp]⟩, hpp, ?_, ⟨t, ht, by rw [hl, hpp]⟩, by rw [hk, hpp],
    (ControlPoints.derive_congr ht rfl c.knots).trans a3⟩
  rw [← a2, Knots.derive, Knots.derive, hs, hs', hp']
  rfl

/-- **C100** `*c.points.matrix_derivative_mut(k) = Q` panics exactly if `k` exceeds the degree. Else
the matrix is read back as written, and all other orders are as before. -/
theorem C100_points_written {c : Curve K d} {p : ℕ} {U : List K} {P : List (Pt K d)}
    (hc : Built c p U P) (k : ℕ) (Q : List (Pt K d)) :
    (p < k → c.points.setMatrixDerivative k Q = .error .assertion) ∧
    (k ≤ p → ∃ cp, c.points.setMatrixDerivative k Q = .ok cp ∧ cp.matrixDerivative k = .ok Q ∧
      ∀ j, j ≠ k → cp.matrixDerivative j = c.points.matrixDerivative j) := by
  obtain ⟨-, -, -, ⟨t, ht, htl⟩, hk, -⟩ := hc.caches
  have hl : c.points.Pk.length = p + 1 := by rw [ht, List.length_cons, htl]
  refine ⟨fun h => ?_, fun h => ?_⟩
  · rw [ControlPoints.setMatrixDerivative, if_neg (by omega)]
  · rw [ControlPoints.setMatrixDerivative, if_pos (by omega), setIdx_ok (by omega), ok_bind, pure_ok]
    refine ⟨_, rfl, ?_, ?_⟩
    · rw [ControlPoints.matrixDerivative, if_pos (by dsimp only; omega),
        idx_ok' (by rw [List.length_set]; omega)]
      simp
    · intro j hj
      rw [ControlPoints.matrixDerivative, ControlPoints.matrixDerivative]
      dsimp only
      split
      · rw [idx_ok' (by rw [List.length_set]; omega), idx_ok' (by omega)]
        rw [List.getElem_set_ne (by omega)]
      · rfl

/-- **C100** The edit of the derivative points of order `k ≥ 1` reaches the derivative of order `k`
alone: values, other derivatives, insertions and splits are as before. The derivative of order `k`
is that of any curve over the same knots with as many points whose derivative points were written.
`derive` undoes the edit. -/
theorem C100_points {c c1 : Curve K d} {cp : ControlPoints K d} {p k : ℕ} {U : List K}
    {P Q : List (Pt K d)} (hc : Built c p U P) (hk : 1 ≤ k)
    (h1 : c.points.setMatrixDerivative k Q = .ok cp) (hc1 : c1 = { c with points := cp }) (u : K) :
    (∀ j, j ≠ k → c1.evaluateDerivative u j = c.evaluateDerivative u j) ∧
    (∀ norm, splitAndNormalize c1 u norm = splitAndNormalize c u norm) ∧
    (∀ g, insert c u = .ok (g, .ok ()) → insert c1 u = .ok (g, .ok ())) ∧
    (∀ f P', Built f p U P' → P'.length = P.length → f.points.matrixDerivative k = .ok Q →
      c1.evaluateDerivative u k = f.evaluateDerivative u k) ∧
    c1.derivePoints = .ok c := by
  have hkp : k ≤ p := by
    by_contra h
    rw [(C100_points_written hc k Q).1 (by omega)] at h1
    cases h1
  obtain ⟨cp', h2, h3, h4⟩ := (C100_points_written hc k Q).2 hkp
  obtain rfl : cp' = cp := by rw [h1] at h2; injection h2 with h2; exact h2.symm
  obtain ⟨⟨s, hs, -⟩, hp, -, ⟨t, ht, htl⟩, hkm, hd⟩ := hc.caches
  obtain ⟨k, rfl⟩ : ∃ j, k = j + 1 := ⟨k - 1, by omega⟩
  have hcp : cp'.Pk = P :: t.set k Q ∧ cp'.kMax = p := by
    rw [ControlPoints.setMatrixDerivative, if_pos (by omega), ht,
      setIdx_ok (by rw [List.length_cons]; omega), ok_bind, pure_ok] at h1
    injection h1 with h1
    rw [← h1]
    exact ⟨rfl, hkm⟩
  subst hc1
  have hb : SameBase { c with points := cp' } c := ⟨rfl, ⟨U, s, s, hs, hs⟩, P, _, t, hcp.1, ht⟩
  refine ⟨?_, hb.split u, (hb.insert u).1, ?_, ?_⟩
  · intro j hj
    rw [Curve.evaluateDerivative, Curve.evaluateDerivative]
    simp only [Curve.segments, Curve.degree, hb.segments, h4 j hj]
    rfl
  · intro f P' hf hl hQ
    obtain ⟨-, -, -, ⟨t', ht', -⟩, -, -⟩ := hf.caches
    have hkn : f.knots = c.knots := by
      obtain ⟨kn, a1, a2, -⟩ := hc.parts
      obtain ⟨kn', b1, b2, -⟩ := hf.parts
      rw [a1] at b1
      injection b1 with b1
      subst b1
      rw [a2] at b2
      injection b2 with b2
      exact b2.symm
    have hsg : cp'.segments = f.points.segments := by
      rw [ControlPoints.segments, ControlPoints.segments, ControlPoints.count, ControlPoints.count,
        ControlPoints.countDerivative, ControlPoints.countDerivative, hcp.1, ht']
      rw [idx_ok' (by simp), idx_ok' (by simp)]
      simp [hl]
    rw [Curve.evaluateDerivative, Curve.evaluateDerivative]
    simp only [Curve.segments, Curve.degree, hsg, h3, hQ, hkn]
  · rw [Curve.derivePoints, hb.derive, hd, ok_bind, pure_ok]

/-- **C100** `*c.knots.vector_derivative_mut(k) = V` panics exactly if `k` exceeds the degree. Else
the vector is read back as written, and all other orders are as before. -/
theorem C100_knots_written {c : Curve K d} {p : ℕ} {U : List K} {P : List (Pt K d)}
    (hc : Built c p U P) (k : ℕ) (V : List K) :
    (p < k → c.knots.setVectorDerivative k V = .error .index) ∧
    (k ≤ p → ∃ kn, c.knots.setVectorDerivative k V = .ok kn ∧ kn.vectorDerivative k = .ok V ∧
      ∀ j, j ≠ k → kn.vectorDerivative j = c.knots.vectorDerivative j) := by
  obtain ⟨⟨s, hs, hsl⟩, -, -, -⟩ := hc.caches
  have hl : c.knots.Uk.length = p + 1 := by rw [hs, List.length_cons, hsl]
  refine ⟨fun h => ?_, fun h => ?_⟩
  · rw [Knots.setVectorDerivative, setIdx, if_neg (by omega)]; rfl
  · rw [Knots.setVectorDerivative, setIdx_ok (by omega), ok_bind, pure_ok]
    refine ⟨_, rfl, ?_, ?_⟩
    · rw [Knots.vectorDerivative, idx_ok' (by rw [List.length_set]; omega)]
      simp
    · intro j hj
      rw [Knots.vectorDerivative, Knots.vectorDerivative, idx, idx]
      dsimp only
      rw [List.getElem?_set_ne (by omega)]

/-- **C100** The edit of the knots of order `k ≥ 1` reaches the derivative of order `k` alone; values,
other derivatives, insertions and splits are as before, and `derive` undoes the edit. -/
theorem C100_knots {c c1 : Curve K d} {kn : Knots K} {p k : ℕ} {U V : List K} {P : List (Pt K d)}
    (hc : Built c p U P) (hk : 1 ≤ k) (h1 : c.knots.setVectorDerivative k V = .ok kn)
    (hc1 : c1 = { c with knots := kn }) (u : K) :
    (∀ j, j ≠ k → c1.evaluateDerivative u j = c.evaluateDerivative u j) ∧
    (∀ norm, splitAndNormalize c1 u norm = splitAndNormalize c u norm) ∧
    (∀ g, insert c u = .ok (g, .ok ()) → insert c1 u = .ok (g, .ok ())) ∧
    c1.deriveKnots = .ok c := by
  have hkp : k ≤ p := by
    by_contra h
    rw [(C100_knots_written hc k V).1 (by omega)] at h1
    cases h1
  obtain ⟨kn', h2, h3, h4⟩ := (C100_knots_written hc k V).2 hkp
  obtain rfl : kn' = kn := by rw [h1] at h2; injection h2 with h2; exact h2.symm
  obtain ⟨⟨s, hs, hsl⟩, hp, hkd, ⟨t, ht, htl⟩, hkm, -⟩ := hc.caches
  obtain ⟨k, rfl⟩ : ∃ j, k = j + 1 := ⟨k - 1, by omega⟩
  have hcp : kn'.Uk = U :: s.set k V ∧ kn'.p = c.knots.p := by
    rw [Knots.setVectorDerivative, hs,
      setIdx_ok (by rw [List.length_cons]; omega), ok_bind, pure_ok] at h1
    injection h1 with h1
    rw [← h1]
    exact ⟨rfl, rfl⟩
  subst hc1
  have hb : SameBase { c with knots := kn' } c := ⟨hcp.2, ⟨U, _, s, hcp.1, hs⟩, P, t, t, ht, ht⟩
  refine ⟨?_, hb.split u, (hb.insert u).1, ?_⟩
  · intro j hj
    have hv : idx kn'.Uk j = idx c.knots.Uk j := h4 j hj
    have hsg : kn'.segments = c.knots.segments := hb.knotSegments
    have hf : ∀ cmp, kn'.findIdx u j cmp = c.knots.findIdx u j cmp := by
      intro cmp
      unfold Knots.findIdx
      rw [Knots.vectorDerivative, Knots.vectorDerivative, Knots.degree, Knots.degree, hv, hcp.2, hsg]
    have he : ∀ i q, kn'.evaluate j i q u = c.knots.evaluate j i q u := by
      intro i q
      rw [Knots.evaluate, Knots.evaluate, hv, hsg]
    rw [Curve.evaluateDerivative, Curve.evaluateDerivative]
    simp only [Curve.segments, Curve.degree, Knots.degree, hcp.2, hf, he]
    rfl
  · rw [Curve.deriveKnots, hb.deriveKnots, hkd, ok_bind, pure_ok]

/-- **C100** A curve is never empty, unless its points have no coordinates; `is_empty` of its points
says so. -/
theorem C100_is_empty {c : Curve K d} {p : ℕ} {U : List K} {P : List (Pt K d)} (hc : Built c p U P) :
    c.points.isEmpty = .ok (decide (d = 0)) := by
  obtain ⟨-, -, -, ⟨t, ht, -⟩, -, hd⟩ := hc.caches
  have hP : P.length ≠ 0 := by
    intro h0
    rw [ControlPoints.derive, ControlPoints.segments, ControlPoints.count,
      ControlPoints.countDerivative, ht, idx_ok' (by simp)] at hd
    simp [h0, usub] at hd
  rw [ControlPoints.isEmpty, ControlPoints.matrix, ht, idx_ok' (by simp), ok_bind, pure_ok]
  simp [hP]

/-- **C100** Control points on their own are empty exactly if there are none, or none with coordinates. -/
theorem C100_points_empty (P : List (Pt K d)) :
    ∃ e, (ControlPoints.new P).isEmpty = .ok e ∧ (e = true ↔ P = [] ∨ d = 0) := by
  refine ⟨_, rfl, ?_⟩
  simp [or_comm]

/-- **C100** The private `is_valid` never says no: it panics if there are fewer than `p + 2` knots, or
none at all, and is true otherwise. -/
theorem C100_is_valid (kn : Knots K) :
    (∀ U t, kn.Uk = U :: t → (kn.p + 2 ≤ U.length → kn.isValid = .ok true) ∧
      (U.length < kn.p + 2 → kn.isValid = .error .underflow)) ∧
    (kn.Uk = [] → kn.isValid = .error .index) := by
  refine ⟨fun U t h => ⟨fun hl => ?_, fun hl => ?_⟩, fun h => ?_⟩
  · rw [Knots.isValid, Knots.segments, Knots.segmentsDerivative, Knots.len, h, idx_ok' (by simp)]
    simp [usub, hl, Knots.degree]
  · rw [Knots.isValid, Knots.segments, Knots.segmentsDerivative, h, idx_ok' (by simp)]
    simp [usub, Nat.not_le.mpr hl]
  · rw [Knots.isValid, Knots.segments, Knots.segmentsDerivative, h]
    rfl

/-- **C100** `count` and `segments` of data points: `segments` panics exactly for no points. -/
theorem C100_data (m : DataPoints K d) :
    (m.count = 0 → m.segments = .error .underflow) ∧ ∀ n, m.segments = .ok n ↔ m.count = n + 1 := by
  rw [DataPoints.count, DataPoints.segments, usub_debug]
  refine ⟨fun h => by rw [if_neg (by omega)], fun n => ?_⟩
  split
  · constructor
    · intro h; injection h with h; omega
    · intro h; rw [h]; rfl
  · constructor
    · intro h; cases h
    · intro h; omega

section Example

/-- a curve of degree two -/
def ceCurve : Curve ℚ 1 := canon 2 [0, 0, 0, 1 / 2, 1, 1, 1] [![0], ![1], ![3], ![4]]

theorem ceCurve_built : Built ceCurve 2 [0, 0, 0, 1 / 2, 1, 1, 1] [![0], ![1], ![3], ![4]] :=
  mkCurve_ok (n := 3) rfl (by norm_num) (by simp)

/-- the hypotheses of **C100** are met, and the edited order does change -/
example : ∃ cp, ceCurve.points.setMatrixDerivative 1 [![7], ![7], ![7]] = .ok cp ∧
    ({ ceCurve with points := cp } : Curve ℚ 1).evaluateDerivative (1 / 4) 1 = .ok (.ok ![7]) ∧
    ceCurve.evaluateDerivative (1 / 4) 1 ≠ .ok (.ok ![7]) := by
  obtain ⟨cp, h, -⟩ := (C100_points_written ceCurve_built 1 [![7], ![7], ![7]]).2 (by norm_num)
  refine ⟨cp, h, ?_, by decide +kernel⟩
  have : (ceCurve.points.setMatrixDerivative 1 [![7], ![7], ![7]] >>= fun cp =>
      ({ ceCurve with points := cp } : Curve ℚ 1).evaluateDerivative (1 / 4) 1) = .ok (.ok ![7]) := by
    decide +kernel
  rw [h] at this
  exact this

example : ceCurve.points.setMatrixDerivative 3 [] = .error .assertion ∧
    ceCurve.knots.setVectorDerivative 3 [] = .error .index := by decide +kernel

example : ceCurve.points.isEmpty = .ok false ∧ ceCurve.knots.isValid = .ok true := by decide +kernel

example : (ControlPoints.new ([] : List (Pt ℚ 2))).isEmpty = .ok true ∧
    (ControlPoints.new [(![0, 0] : Pt ℚ 2)]).isEmpty = .ok false := by decide +kernel

end Example

end BSpline
