import Verif.Refine.Insert
import Verif.Refine.Reverse
import Verif.Refine.Split

/-!
# Shapes

The dimensions of the vectors and matrices that a curve stores, without any claim about their
contents. Reversal of floating point curves does not keep the caches equal to freshly computed
ones, but it keeps the shape, and the shape alone makes evaluation and editing free of panics.
-/

set_option linter.unusedSectionVars false

namespace BSpline

theorem bind_ok_inv {ε α β : Type} {x : Except ε α} {f : α → Except ε β} {y : β}
    (h : (x >>= f) = .ok y) : ∃ a, x = .ok a ∧ f a = .ok y := by
  cases x with
  | error e => simp at h
  | ok a => exact ⟨a, rfl, h⟩

theorem usub_inv {a b c : ℕ} (h : usub a b = .ok c) : b ≤ a ∧ c = a - b := by
  rw [usub] at h
  split at h
  · rename_i h1; injection h with h; exact ⟨h1, h.symm⟩
  · simp at h

theorem segment_inv {α : Type} {v w : List α} {s n : ℕ} (h : segment v s n = .ok w) :
    w.length = n ∧ s + n ≤ v.length := by
  rw [segment] at h
  split at h
  · rename_i h1; injection h with h; rw [← h]; simp; omega
  · simp at h

theorem setIdx_inv {α : Type} {v w : List α} {i : ℕ} {x : α} (h : setIdx v i x = .ok w) :
    w.length = v.length := by
  rw [setIdx] at h
  split at h
  · injection h with h; rw [← h]; simp
  · simp at h

theorem setSegment_inv {α : Type} {v src w : List α} {s : ℕ} (h : setSegment v s src = .ok w) :
    w.length = v.length := by
  rw [setSegment] at h
  split at h
  · rename_i h1; injection h with h; rw [← h]; simp; omega
  · simp at h

theorem setTail_inv {α : Type} {v src w : List α} (h : setTail v src = .ok w) :
    w.length = v.length := by
  rw [setTail] at h
  obtain ⟨s, -, h⟩ := bind_ok_inv h
  exact setSegment_inv h

theorem foldlM_total {σ : Type} {f : σ → ℕ → Exec σ} : ∀ (l : List ℕ) (s : σ),
    (∀ s, ∀ x ∈ l, ∃ s', f s x = .ok s') → ∃ s', l.foldlM f s = .ok s' := by
  intro l
  induction l with
  | nil => intro s _; exact ⟨s, rfl⟩
  | cons a l ih =>
    intro s h
    obtain ⟨s', hs'⟩ := h s a (by simp)
    rw [List.foldlM_cons, hs', ok_bind]
    exact ih s' (fun s x hx => h s x (by simp [hx]))

variable {K : Type} [Add K] [Sub K] [Mul K] [Div K] [Neg K] [Zero K] [One K] [NatCast K] [Cmp K]
variable {d : ℕ}

/-- the dimensions of everything stored in a curve of degree `p` with `n + 1` control points -/
structure Shaped (c : Curve K d) (p n : ℕ) : Prop where
  deg : c.knots.p = p
  nUk : c.knots.Uk.length = p + 1
  lenU : ∀ k, k ≤ p → (c.knots.Uk.getD k []).length = n + p + 2 - 2 * k
  kMax : c.points.kMax = p
  nPk : c.points.Pk.length = p + 1
  lenP : ∀ k, k ≤ p → (c.points.Pk.getD k []).length = n + 1 - k
  le : p ≤ n

theorem idx_getD {α : Type} {l : List α} {i : ℕ} (a : α) (h : i < l.length) :
    idx l i = .ok (l.getD i a) := by
  rw [idx_ok' h, List.getD_eq_getElem _ _ h]

theorem shaped_canon {p n : ℕ} {U : List K} {P : List (Pt K d)} (hU : U.length = n + p + 2)
    (hP : P.length = n + 1) (hp : p ≤ n) : Shaped (canon p U P) p n where
  deg := rfl
  nUk := by simp [canonKnots]
  lenU := by
    intro k hk
    rw [List.getD_eq_getElem _ _ (by simp [canonKnots]; omega)]
    simp [canonKnots]; omega
  kMax := rfl
  nPk := by simp [canonPts]
  lenP := by
    intro k hk
    rw [List.getD_eq_getElem _ _ (by simp [canonPts]; omega)]
    simp [canonPts]; omega
  le := hp

namespace Shaped

variable {c : Curve K d} {p n : ℕ}

theorem idxU (h : Shaped c p n) {k : ℕ} (hk : k ≤ p) :
    idx c.knots.Uk k = .ok (c.knots.Uk.getD k []) := idx_getD _ (by rw [h.nUk]; omega)

theorem idxP (h : Shaped c p n) {k : ℕ} (hk : k ≤ p) :
    idx c.points.Pk k = .ok (c.points.Pk.getD k []) := idx_getD _ (by rw [h.nPk]; omega)

theorem segments (h : Shaped c p n) : c.knots.segments = .ok n := by
  simp only [Knots.segments, Knots.segmentsDerivative, h.idxU (Nat.zero_le p), ok_bind, h.deg]
  rw [usub_ok (by omega), ok_bind, usub_ok (by rw [h.lenU 0 (by omega)]; omega), h.lenU 0 (by omega)]
  congr 1; omega

theorem pts_count (h : Shaped c p n) : c.points.count = .ok (n + 1) := by
  simp only [ControlPoints.count, ControlPoints.countDerivative, h.idxP (Nat.zero_le p), ok_bind,
    pure_ok, h.lenP 0 (by omega)]
  rfl

theorem pts_segments (h : Shaped c p n) : c.points.segments = .ok n := by
  rw [ControlPoints.segments, h.pts_count, ok_bind, usub_ok (by omega)]; rfl

theorem findIdx (h : Shaped c p n) {k : ℕ} (hk : k ≤ p) (u : K) :
    c.knots.findIdx u k .leftOrEqual =
      .ok (lleq (fn (c.knots.Uk.getD k [])) u (n - p) (p - k)) := by
  have hl := h.lenU k hk
  have hle := h.le
  simp only [Knots.findIdx, Knots.vectorDerivative, h.idxU hk, ok_bind, Knots.degree, h.segments,
    h.deg]
  rw [usub_ok hk, ok_bind, usub_ok (by omega), ok_bind, loopLeftOrEqual_ok]
  · rw [show n + 1 - k - (p - k + 1) = n - p by omega]
  · omega

/-- **Evaluation never panics**, whatever the stored values are. -/
theorem evaluate_total (h : Shaped c p n) (u : K) (k : ℕ) :
    ((Cmp.le 0 u && Cmp.le u 1) = false →
      c.evaluateDerivative u k = .ok (.error (.parameterOutOfBounds u 0 1))) ∧
    ((Cmp.le 0 u && Cmp.le u 1) = true → ∃ v, c.evaluateDerivative u k = .ok (.ok v)) := by
  constructor
  · intro hb
    rw [Curve.evaluateDerivative, hb]; rfl
  · intro hb
    rw [Curve.evaluateDerivative, hb]
    simp only [Bool.not_true, Bool.false_eq_true, if_false]
    have hle := h.le
    by_cases hk : k ≤ p
    · have hdeg : c.degree = p := h.deg
      rw [hdeg, if_pos hk, Curve.segments, h.pts_segments, ok_bind, h.findIdx hk, ok_bind, usub_ok hk,
        ok_bind]
      have hlb := lleq_bounds (fn (c.knots.Uk.getD k [])) u (n - p) (p - k)
      rw [usub_ok hlb.1, ok_bind, usub_ok (by omega), ok_bind, forRangeIncl]
      obtain ⟨s', hs'⟩ := foldlM_total (List.range' (lleq (fn (c.knots.Uk.getD k [])) u (n - p) (p - k) -
        (p - k)) (n - k + 1 - (lleq (fn (c.knots.Uk.getD k [])) u (n - p) (p - k) - (p - k))))
        (fun _ => 0 : Pt K d) (f := fun value i => do
          let N ← c.knots.evaluate k i p u
          let m ← c.points.matrixDerivative k
          let col ← column m i
          pure (value + scale N col)) (by
        intro s x hx
        rw [List.mem_range'_1] at hx
        have hl := h.lenU k hk
        have hlp := h.lenP k hk
        rw [Knots.evaluate, h.idxU hk, ok_bind, h.segments, ok_bind, usub_ok hk, ok_bind,
          basis_ok (by omega) (by omega) _ _ (by omega), ok_bind, ControlPoints.matrixDerivative,
          if_pos (by rw [h.kMax]; exact hk), h.idxP hk, ok_bind, column_ok (by omega), ok_bind]
        exact ⟨_, rfl⟩)
      rw [hs', ok_bind]
      exact ⟨_, rfl⟩
    · have hdeg : c.degree = p := h.deg
      rw [hdeg, if_neg hk]
      exact ⟨_, rfl⟩

theorem vector (h : Shaped c p n) : c.knots.vector = .ok (c.knots.Uk.getD 0 []) :=
  h.idxU (Nat.zero_le p)

theorem matrix (h : Shaped c p n) : c.points.matrix = .ok (c.points.Pk.getD 0 []) :=
  h.idxP (Nat.zero_le p)

theorem multiplicity (h : Shaped c p n) (u : K) :
    c.knots.multiplicity u = .ok (multF p n (c.knots.Uk.getD 0 []) u) := by
  have hl := h.lenU 0 (by omega)
  have hle := h.le
  rw [Knots.multiplicity, Knots.domain, Knots.domainDerivative, h.idxU (Nat.zero_le p), ok_bind, h.deg,
    usub_ok (Nat.zero_le p), ok_bind, Knots.domainCount, h.segments, ok_bind, h.deg, usub_ok hle,
    ok_bind, pure_ok, ok_bind, segment_ok (by omega), ok_bind]
  rfl

theorem take_one {α : Type} {l : List α} (a : α) (h : 0 < l.length) : l.take 1 = [l.getD 0 a] := by
  cases l with
  | nil => simp at h
  | cons b l => simp

/-- insertion on any curve of the right shape -/
theorem insert_eq (h : Shaped c p n) (u : K) :
    BSpline.insert c u =
      if Cmp.le u 0 || Cmp.le 1 u then .ok (c, .error (.outOfBounds u 0 1))
      else if p < multF p n (c.knots.Uk.getD 0 []) u then
        .ok (c, .error (.multiplicityError u (multF p n (c.knots.Uk.getD 0 []) u) p))
      else .ok (canon p (insU (c.knots.Uk.getD 0 []) u (lleq (fn (c.knots.Uk.getD 0 [])) u (n - p) p))
        ((List.range (n + 2)).map (insP (fn (c.knots.Uk.getD 0 [])) p (fn (c.points.Pk.getD 0 [])) u
          (lleq (fn (c.knots.Uk.getD 0 [])) u (n - p) p))), .ok ()) := by
  rw [BSpline.insert]
  split
  · rfl
  have hdeg : c.degree = p := h.deg
  rw [hdeg, h.multiplicity, ok_bind]
  split
  · rfl
  have hU := h.lenU 0 (by omega)
  have hP := h.lenP 0 (by omega)
  have hp := h.le
  have hfi := h.findIdx (Nat.zero_le p) u
  simp only [Nat.sub_zero] at hfi
  simp only [Nat.mul_zero, Nat.sub_zero] at hU hP
  rw [h.vector, ok_bind, h.matrix, ok_bind, hfi, ok_bind]
  have nUk := h.nUk
  have nPk := h.nPk
  have hcount := h.pts_count
  generalize c.knots.Uk.getD 0 [] = U at hU ⊢
  generalize c.points.Pk.getD 0 [] = P at hP ⊢
  have hb := lleq_bounds (fn U) u (n - p) p
  generalize lleq (fn U) u (n - p) p = l at hb ⊢
  rw [insertRow, if_pos (by omega), ok_bind, hcount, ok_bind]
  rw [usub_ok hb.1, ok_bind]
  dsimp only
  rw [segment_ok (by omega), ok_bind,
    setSegment_ok (by simp [zeroCols]; omega), ok_bind, usub_ok (by omega), ok_bind,
    usub_ok (by simp [zeroCols]; omega), ok_bind, usub_ok (by omega), ok_bind,
    segment_ok (by omega), ok_bind, setSegment_ok (by simp [zeroCols]; omega), ok_bind]
  rw [← insState_eq hP hb.1 (by omega), insertLoop_ok hU hP hb.1 (by omega), ok_bind]
  rw [setIdx_ok (by omega), ok_bind, setIdx_ok (by omega), ok_bind]
  have hdeg' : ({ c.knots with Uk := c.knots.Uk.set 0 (insU U u l) } : Knots K).p = p := h.deg
  rw [calculateDerivatives_ok (n := n + 1) (U := insU U u l)
    (P := (List.range (n + 2)).map (insP (fn U) p (fn P) u l))]
  · rw [ok_bind, hdeg']; rfl
  · rw [take_one [] (by simp; omega)]
    congr 1
    rw [List.getD_eq_getElem _ _ (by simp; omega)]
    rw [List.getElem_set]; simp [insU]
  · rw [take_one [] (by simp; omega)]
    congr 1
    rw [List.getD_eq_getElem _ _ (by simp; omega)]
    rw [List.getElem_set]; simp
  · simp
  · rw [hdeg']; omega
  · rw [hdeg']; simp [insU]; omega

theorem insert_shaped (h : Shaped c p n) (u : K) :
    ∃ c' r n', BSpline.insert c u = .ok (c', r) ∧ Shaped c' p n' := by
  rw [h.insert_eq]
  split
  · exact ⟨c, _, n, rfl, h⟩
  split
  · exact ⟨c, _, n, rfl, h⟩
  · have hU := h.lenU 0 (by omega)
    have hp := h.le
    have hb := lleq_bounds (fn (c.knots.Uk.getD 0 [])) u (n - p) p
    exact ⟨_, _, n + 1, rfl, shaped_canon (by rw [insU]; simp only [List.length_append,
      List.length_take, List.length_cons, List.length_drop]; omega) (by simp) (by omega)⟩

theorem insertTimes_shaped (u : K) (x : ℕ) : ∀ {c : Curve K d} {n : ℕ}, Shaped c p n →
    ∃ c' r n', c.insertTimes u x = .ok (c', r) ∧ Shaped c' p n' := by
  induction x with
  | zero => intro c n h; exact ⟨c, .ok (), n, rfl, h⟩
  | succ x ih =>
    intro c n h
    obtain ⟨c', r, n', h1, h2⟩ := h.insert_shaped u
    rw [Curve.insertTimes, h1, ok_bind]
    cases r with
    | error e => exact ⟨c', .error e, n', rfl, h2⟩
    | ok _ => exact ih h2

theorem getD_map {α β : Type} (f : α → β) {l : List α} {i : ℕ} (h : i < l.length) (a : α) (b : β) :
    (l.map f).getD i b = f (l.getD i a) := by
  rw [List.getD_eq_getElem _ _ (by simpa using h), List.getD_eq_getElem _ _ h, List.getElem_map]

theorem reverse_shaped (h : Shaped c p n) : ∃ c', c.reverse = .ok c' ∧ Shaped c' p n := by
  refine ⟨{ knots := c.knots.reverse, points := { c.points with Pk := c.points.Pk.mapIdx revPts } },
    ?_, ?_⟩
  · rw [Curve.reverse, controlPoints_reverse_ok (by rw [h.nPk, h.kMax])]; rfl
  · refine ⟨h.deg, by simp [Knots.reverse, h.nUk], ?_, h.kMax, by simp [h.nPk], ?_, h.le⟩
    · intro k hk
      simp only [Knots.reverse]
      rw [getD_map _ (by rw [h.nUk]; omega) [], reverseKnots, List.length_map, swapLoop_eq,
        List.length_reverse, h.lenU k hk]
    · intro k hk
      rw [← h.lenP k hk, List.getD_eq_getElem _ _ (by simp [h.nPk]; omega),
        List.getD_eq_getElem _ _ (by rw [h.nPk]; omega), List.getElem_mapIdx, revPts]
      split <;> simp

end Shaped

/-- a curve returned by `Curve::new` has at least `p + 1` control points -/
theorem mkCurve_shaped {p : ℕ} {U : List K} {P : List (Pt K d)} {c : Curve K d}
    (h : mkCurve p U P = .ok (.ok c)) (hl : U.length = P.length + p + 1) :
    ∃ n, Shaped c p n ∧ c = canon p U P := by
  have hn : p + 1 ≤ P.length := by
    by_contra hcon
    have h' := h
    rw [mkCurve] at h'
    obtain ⟨kn, h1, h2⟩ := bind_ok_inv h'
    have hdeg : kn.degree = p := by
      rw [Knots.new, Knots.derive] at h1
      obtain ⟨Uk, -, h3⟩ := bind_ok_inv h1
      injection h3 with h3
      rw [← h3]; rfl
    rw [Curve.new] at h2
    obtain ⟨m, h3, h4⟩ := bind_ok_inv h2
    have hm : m + 1 = P.length := by
      simp only [ControlPoints.segments, ControlPoints.count, ControlPoints.countDerivative,
        ControlPoints.new, idx, List.getElem?_cons_zero, ok_bind, pure_ok] at h3
      have := usub_inv h3
      omega
    rw [if_pos (by rw [hdeg]; omega)] at h4
    simp at h4
  have hlen : P.length = (P.length - 1) + 1 := by omega
  rw [mkCurve_ok hlen (by omega) (by omega)] at h
  injection h with h; injection h with h
  exact ⟨P.length - 1, h ▸ shaped_canon (by omega) hlen (by omega), h.symm⟩

theorem splitLeft_shaped {p len : ℕ} {U : List K} {P : List (Pt K d)} {u : K} {mp norm : Bool}
    {l : Curve K d} (h : splitLeft p U P u len mp norm = .ok (.ok l)) :
    ∃ n, Shaped l p n ∧ ∃ V Q, l = canon p V Q := by
  rw [splitLeft] at h
  obtain ⟨src, h1, h⟩ := bind_ok_inv h
  obtain ⟨U1, h2, h⟩ := bind_ok_inv h
  obtain ⟨U2, h3, h⟩ := bind_ok_inv h
  have hlen : (normalizeIf norm U2).length = len + 1 := by
    rw [normalizeIf_length, setIdx_inv h3, setSegment_inv h2]; simp [zeros]
  dsimp only at h
  rw [hlen] at h
  cases mp
  · rw [if_neg (by simp)] at h
    obtain ⟨cols, h4, h⟩ := bind_ok_inv h
    obtain ⟨Pl, h5, h⟩ := bind_ok_inv h
    obtain ⟨n, hn, hc⟩ := mkCurve_shaped h (by
      have := usub_inv h4; have := segment_inv h5; omega)
    exact ⟨n, hn, _, _, hc⟩
  · rw [if_pos rfl] at h
    obtain ⟨x, h4, h⟩ := bind_ok_inv h
    rw [pure_ok, ok_bind] at h
    obtain ⟨Pl, h5, h⟩ := bind_ok_inv h
    obtain ⟨n, hn, hc⟩ := mkCurve_shaped h (by
      have := usub_inv h4; have := segment_inv h5; omega)
    exact ⟨n, hn, _, _, hc⟩

theorem splitRight_shaped {p frm : ℕ} {U : List K} {P : List (Pt K d)} {u : K} {mp norm : Bool}
    {r : Curve K d} (h : splitRight p U P u frm mp norm = .ok (.ok r)) :
    ∃ n, Shaped r p n ∧ ∃ V Q, r = canon p V Q := by
  rw [splitRight] at h
  obtain ⟨len, h0, h⟩ := bind_ok_inv h
  obtain ⟨U1, h2, h⟩ := bind_ok_inv h
  obtain ⟨t, -, h⟩ := bind_ok_inv h
  obtain ⟨src, -, h⟩ := bind_ok_inv h
  obtain ⟨U2, h3, h⟩ := bind_ok_inv h
  have hlen : (normalizeIf norm U2).length = len := by
    rw [normalizeIf_length, setTail_inv h3, setIdx_inv h2]; simp [zeros]
  dsimp only at h
  rw [hlen] at h
  cases mp
  · rw [if_neg (by simp)] at h
    obtain ⟨cols, h4, h⟩ := bind_ok_inv h
    obtain ⟨s, h6, h⟩ := bind_ok_inv h
    obtain ⟨Pl, h5, h⟩ := bind_ok_inv h
    have h4' := usub_inv h4
    have h5' := segment_inv h5
    obtain ⟨n, hn, hc⟩ := mkCurve_shaped h (by omega)
    exact ⟨n, hn, _, _, hc⟩
  · rw [if_pos rfl] at h
    obtain ⟨x, h4, h⟩ := bind_ok_inv h
    rw [pure_ok, ok_bind] at h
    obtain ⟨s, h6, h⟩ := bind_ok_inv h
    obtain ⟨Pl, h5, h⟩ := bind_ok_inv h
    obtain ⟨n, hn, hc⟩ := mkCurve_shaped h (by
      have := usub_inv h4; have := segment_inv h5; omega)
    exact ⟨n, hn, _, _, hc⟩

/-- whatever a split returns has the right shape and was newly built -/
theorem split_canon {c l r : Curve K d} {u : K} {norm : Bool × Bool}
    (h : splitAndNormalize c u norm = .ok (.ok (l, r))) :
    (∃ n, Shaped l c.degree n ∧ ∃ V Q, l = canon c.degree V Q) ∧
      ∃ n, Shaped r c.degree n ∧ ∃ V Q, r = canon c.degree V Q := by
  rw [splitAndNormalize] at h
  split at h
  · simp at h
  obtain ⟨i, -, h⟩ := bind_ok_inv h
  obtain ⟨U0, -, h⟩ := bind_ok_inv h
  dsimp only at h
  split at h
  · simp at h
  obtain ⟨times, -, h⟩ := bind_ok_inv h
  obtain ⟨b, -, h⟩ := bind_ok_inv h
  obtain ⟨U, -, h⟩ := bind_ok_inv h
  obtain ⟨P, -, h⟩ := bind_ok_inv h
  obtain ⟨left, h1, h⟩ := bind_ok_inv h
  cases left with
  | error e => simp at h
  | ok left =>
    obtain ⟨right, h2, h⟩ := bind_ok_inv h
    cases right with
    | error e => simp at h
    | ok right =>
      simp only [pure_ok, Except.ok.injEq, Prod.mk.injEq] at h
      rw [← h.1, ← h.2]
      exact ⟨splitLeft_shaped h1, splitRight_shaped h2⟩

/-- whatever a split returns has the right shape -/
theorem split_shaped {c l r : Curve K d} {u : K} {norm : Bool × Bool}
    (h : splitAndNormalize c u norm = .ok (.ok (l, r))) :
    (∃ n, Shaped l c.degree n) ∧ ∃ n, Shaped r c.degree n := by
  obtain ⟨⟨n, h1, -⟩, ⟨n', h2, -⟩⟩ := split_canon h
  exact ⟨⟨n, h1⟩, ⟨n', h2⟩⟩

end BSpline
