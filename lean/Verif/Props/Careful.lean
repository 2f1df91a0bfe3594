import Verif.Props.Session
import Verif.Props.MergeValue
import Verif.Props.Generation
import Verif.Props.Interpolate

/-!
# Sessions in exact arithmetic: C78, C79

With exact arithmetic every curve a caller holds is what `Curve::new` makes of its own knots and points;
and if no knot is inserted above a repeated one, its knots are always clamped on `[0, 1]`. So the
hypotheses of the other theorems hold throughout.
-/

set_option linter.unusedSectionVars false

namespace BSpline

variable {K : Type} [Field K] [LinearOrder K] [IsStrictOrderedRing K] [Trunc K] [Sqrt K] {d : ℕ}

/-! ### C78: no stale data -/

theorem Shaped.of_canon {c : Curve K d} {p n : ℕ} {U : List K} {P : List (Pt K d)} (h : Shaped c p n)
    (hc : c = canon p U P) : U.length = n + p + 2 ∧ P.length = n + 1 := by
  subst hc
  have h1 := h.vector
  have h2 := h.matrix
  rw [canon_knots, canonKnots_vector] at h1
  rw [canon_matrix] at h2
  injection h1 with h1
  injection h2 with h2
  have h3 := h.lenU 0 (by omega)
  have h4 := h.lenP 0 (by omega)
  rw [canon_knots, ← h1] at h3
  rw [← h2] at h4
  exact ⟨by simpa using h3, by simpa using h4⟩

theorem insert_canon {p n : ℕ} {U : List K} {P : List (Pt K d)} (h : Shaped (canon p U P) p n) {u : K}
    {c' : Curve K d} {r} (e : BSpline.insert (canon p U P) u = .ok (c', r)) :
    ∃ U' P', c' = canon p U' P' := by
  rw [h.insert_eq] at e
  split at e
  · injection e with e; injection e with e _; exact ⟨U, P, e.symm⟩
  split at e
  · injection e with e; injection e with e _; exact ⟨U, P, e.symm⟩
  · injection e with e; injection e with e _; exact ⟨_, _, e.symm⟩

theorem insertTimes_canon {p : ℕ} {u : K} {c' : Curve K d} {r} (x : ℕ) : ∀ {n : ℕ} {U : List K}
    {P : List (Pt K d)}, Shaped (canon p U P) p n → (canon p U P).insertTimes u x = .ok (c', r) →
    ∃ U' P', c' = canon p U' P' := by
  induction x with
  | zero =>
    intro n U P h e
    injection e with e; injection e with e _
    exact ⟨U, P, e.symm⟩
  | succ x ih =>
    intro n U P h e
    rw [Curve.insertTimes] at e
    obtain ⟨⟨c1, r1⟩, h1, h2⟩ := bind_ok_inv e
    obtain ⟨U1, P1, rfl⟩ := insert_canon h h1
    cases r1 with
    | error e =>
      injection h2 with h2; injection h2 with h2 _
      exact ⟨U1, P1, h2.symm⟩
    | ok _ =>
      obtain ⟨c2, r2, n2, h3, h4⟩ := h.insert_shaped u
      rw [h1] at h3
      injection h3 with h3; injection h3 with h3 _
      subst h3
      exact ih h4 h2

/-- every held curve is canonical -/
theorem Held.canon {c : Curve K d} (h : Held c) : ∃ p U P, c = canon p U P := by
  have hM : ∀ {solver : Solver K d} {a b : ConstrainedCurve K d} {c : Curve K d},
      Held a.curve → Held b.curve → mergeWithConstraints solver a b = .ok (.ok c) →
      ∃ p U P, c = BSpline.canon p U P := by
    intro solver a b c ha hb e
    obtain ⟨p, n, ha⟩ := ha.shaped
    obtain ⟨q, o, hb⟩ := hb.shaped
    exact ⟨_, (merge_shaped ha hb e).2.2⟩
  induction h with
  | generated solver hg e =>
    obtain ⟨p, n, -, U, P, h⟩ := generate_shaped hg e
    exact ⟨p, U, P, h⟩
  | insert u hc e ih =>
    obtain ⟨p, U, P, rfl⟩ := ih
    obtain ⟨q, n, hs⟩ := hc.shaped
    obtain rfl : p = q := hs.deg
    exact ⟨p, insertTimes_canon 1 hs e⟩
  | insertTimes u x hc e ih =>
    obtain ⟨p, U, P, rfl⟩ := ih
    obtain ⟨q, n, hs⟩ := hc.shaped
    obtain rfl : p = q := hs.deg
    exact ⟨p, insertTimes_canon x hs e⟩
  | reverse hc e ih =>
    obtain ⟨p, U, P, rfl⟩ := ih
    obtain ⟨q, n, hs⟩ := hc.shaped
    obtain rfl : p = q := hs.deg
    obtain ⟨h1, h2⟩ := hs.of_canon rfl
    rw [reverse_canon h1 h2 hs.le] at e
    injection e with e
    exact ⟨p, _, _, e.symm⟩
  | splitLeft u norm _ e _ =>
    obtain ⟨⟨n, -, h⟩, -⟩ := split_canon e
    exact ⟨_, h⟩
  | splitRight u norm _ e _ =>
    obtain ⟨-, ⟨n, -, h⟩⟩ := split_canon e
    exact ⟨_, h⟩
  | merged solver ca cb ha hb e _ _ => exact hM (a := ⟨_, ca⟩) (b := ⟨_, cb⟩) ha hb e
  | append solver ha hb e _ _ =>
    obtain ⟨r, h1, h2⟩ := bind_ok_inv e
    rw [unwrap_inv h2] at h1
    exact hM (a := ⟨_, _⟩) (b := ⟨_, _⟩) ha hb h1
  | prepend solver ha hb e _ _ =>
    obtain ⟨r, h1, h2⟩ := bind_ok_inv e
    rw [unwrap_inv h2] at h1
    exact hM (a := ⟨_, _⟩) (b := ⟨_, _⟩) hb ha h1
  | appendConstrained solver ca cb ha hb e _ _ =>
    obtain ⟨r, h1, h2⟩ := bind_ok_inv e
    rw [unwrap_inv h2] at h1
    exact hM (a := ⟨_, _⟩) (b := ⟨_, _⟩) ha hb h1
  | prependConstrained solver ca cb ha hb e _ _ =>
    obtain ⟨r, h1, h2⟩ := bind_ok_inv e
    rw [unwrap_inv h2] at h1
    exact hM (a := ⟨_, _⟩) (b := ⟨_, _⟩) hb ha h1

/-- **C78** In exact arithmetic every held curve is exactly what `Curve::new` makes of its own knot vector
and control points, with the right counts: no edit leaves stale derivative data behind. -/
theorem C78_nothing_stale {c : Curve K d} (h : Held c) :
    ∃ n V P, c.knots.vector = .ok V ∧ c.points.matrix = .ok P ∧ Built c c.degree V P ∧
      V.length = n + c.degree + 2 ∧ P.length = n + 1 ∧ c.degree ≤ n := by
  obtain ⟨p, U, P, rfl⟩ := h.canon
  obtain ⟨q, n, hs⟩ := h.shaped
  obtain rfl : p = q := hs.deg
  obtain ⟨h1, h2⟩ := hs.of_canon rfl
  exact ⟨n, U, P, canonKnots_vector U, canon_matrix, mkCurve_ok h2 hs.le (by
    have := hs.le; rw [canon_degree]; omega), h1, h2, hs.le⟩

/-- **C78** Merging held curves of equal degree that pass the checks succeeds exactly if the number of
segments `o` of the second satisfies `m ≤ o < m + p`; otherwise it panics. -/
theorem C78_merge_outcome {a b : Curve K d} (ha : Held a) (hb : Held b) {m o : ℕ} {ua ub : List K}
    (hm : a.segments = .ok m) (ho : b.segments = .ok o) (hd : a.degree = b.degree)
    (hca : a.knots.isClamped = .ok true) (hcb : b.knots.isClamped = .ok true)
    (hna : a.knots.isNormed = .ok true) (hnb : b.knots.isNormed = .ok true)
    (hc : ua.length + ub.length < a.degree) (solver : Solver K d) :
    if m ≤ o ∧ o < m + a.degree then
      ∃ c, mergeWithConstraints solver ⟨a, ⟨ua⟩⟩ ⟨b, ⟨ub⟩⟩ = .ok (.ok c) ∧ Held c
    else ∃ e, mergeWithConstraints solver ⟨a, ⟨ua⟩⟩ ⟨b, ⟨ub⟩⟩ = .error e := by
  obtain ⟨m', V, S, -, h2, h3, h4, h5, h6⟩ := C78_nothing_stale ha
  obtain ⟨o', W, T, -, k2, k3, k4, k5, k6⟩ := C78_nothing_stale hb
  have e1 : m' = m := by
    obtain ⟨p, n, hs⟩ := ha.shaped
    have := hs.pts_segments
    have h7 := hs.matrix
    have h8 := hs.lenP 0 (by omega)
    rw [h2] at h7
    injection h7 with h7
    rw [← h7] at h8
    rw [Curve.segments, this] at hm
    injection hm with hm
    omega
  have e2 : o' = o := by
    obtain ⟨p, n, hs⟩ := hb.shaped
    have := hs.pts_segments
    have h7 := hs.matrix
    have h8 := hs.lenP 0 (by omega)
    rw [k2] at h7
    injection h7 with h7
    rw [← h7] at h8
    rw [Curve.segments, this] at ho
    injection ho with ho
    omega
  subst e1 e2
  rw [← hd] at k3 k4 k6
  have := C29_outcome_partial h3 k3 h4 h5 h6 k4 k5 k6 hca hcb hna hnb hc solver
  split at this
  · rename_i h
    rw [if_pos h]
    obtain ⟨c, e⟩ := this
    exact ⟨c, e, .merged solver ⟨ua⟩ ⟨ub⟩ ha hb e⟩
  · rename_i h
    rw [if_neg h]
    exact this

/-! ### C79: careful sessions -/

variable [LawfulTrunc K] [LawfulSqrt K]

/-- descriptions whose knots are clamped on `[0, 1]`: uniform knots; given knots that are clamped; knots
from a parameter method if consecutive points differ (and are not all too close together for the
centripetal method); interpolations and fits -/
def Generation.Clamped : Generation K d → Prop
  | .manual _ points .uniform => ∃ P, points = ControlPoints.new P
  | .manual _ points (.manual kn) => ∃ P p n U, points = ControlPoints.new P ∧ Knots.new p U = .ok kn ∧
      ClampedKnots 0 1 p n U ∧ P.length = n + 1
  | .manual _ points (.method pm _) => ∃ P n, points = ControlPoints.new P ∧ P.length = n + 1 ∧
      (∀ i, i < n → P.getD i 0 ≠ P.getD (i + 1) 0) ∧ (pm = .centripetal →
        1 / 2 ^ 26 ≤ ∑ h ∈ Finset.range n, Sqrt.sqrt (dist2 (P.getD h 0) (P.getD (h + 1) 0)))
  | _ => True

/-- `Careful c`: the caller holds `c` after a session in which they never inserted or split above a
repeated interior knot, and split with both halves normalised (as `split` does) -/
inductive Careful : Curve K d → Prop
  | generated {g : Generation K d} {c} (solver : Solver K d) : g.Clamped →
      generate solver g = .ok (.ok c) → Careful c
  | insert {c c' r V} (u : K) : Careful c → c.knots.vector = .ok V → SimpleBelow V u →
      c.insert u = .ok (c', r) → Careful c'
  | insertTimes {c c' r V} (u : K) (x : ℕ) : Careful c → c.knots.vector = .ok V → SimpleBelow V u →
      c.insertTimes u x = .ok (c', r) → Careful c'
  | reverse {c c'} : Careful c → c.reverse = .ok c' → Careful c'
  | splitLeft {c l r V} (u : K) : Careful c → c.knots.vector = .ok V → SimpleBelow V u →
      BSpline.split c u = .ok (.ok (l, r)) → Careful l
  | splitRight {c l r V} (u : K) : Careful c → c.knots.vector = .ok V → SimpleBelow V u →
      BSpline.split c u = .ok (.ok (l, r)) → Careful r
  | merged {a b c} (solver : Solver K d) (ca cb : Constraints K) : Careful a → Careful b →
      mergeWithConstraints solver ⟨a, ca⟩ ⟨b, cb⟩ = .ok (.ok c) → Careful c
  | append {a b c} (solver : Solver K d) : Careful a → Careful b → a.append solver b = .ok c → Careful c
  | prepend {a b c} (solver : Solver K d) : Careful a → Careful b → a.prepend solver b = .ok c → Careful c
  | appendConstrained {a b c} (solver : Solver K d) (ca cb : Constraints K) : Careful a → Careful b →
      a.appendConstrained solver ca b cb = .ok c → Careful c
  | prependConstrained {a b c} (solver : Solver K d) (ca cb : Constraints K) : Careful a → Careful b →
      a.prependConstrained solver ca b cb = .ok c → Careful c

theorem uniform_inv {p n : ℕ} {kn : Knots K} (h : uniform p n = .ok (.ok kn)) :
    ∃ U, Knots.new p U = .ok kn ∧ ClampedKnots 0 1 p n U := by
  have hp : 1 ≤ p := by
    by_contra h1
    rw [(C38_uniform p n).1 (by omega)] at h
    injection h with h; injection h
  have hn : p ≤ n := by
    by_contra h1
    rw [(C38_uniform p n).2.1 hp (by omega)] at h
    injection h with h; injection h
  rw [uniform_ok hp hn] at h
  injection h with h; injection h with h
  exact ⟨_, h ▸ genKnots_new hn _, uniform_clamped hp hn⟩

theorem generateKnots_pos {p n : ℕ} {ps : Parameters K} {km : KnotMethod} {kn : Knots K}
    (h : generateKnots p n ps km = .ok (.ok kn)) : 1 ≤ p ∧ p ≤ n := by
  have hp : 1 ≤ p := by
    by_contra h1
    cases km
    · rw [generateKnots, (C38_uniform p n).1 (by omega)] at h
      injection h with h; injection h
    · rw [generateKnots, (C38_de_boor_errors p n ps).1 (by omega)] at h
      injection h with h; injection h
    · rw [generateKnots, (C38_averaging p n ps).1 (by omega)] at h
      injection h with h; injection h
  refine ⟨hp, ?_⟩
  by_contra h1
  cases km
  · rw [generateKnots, (C38_uniform p n).2.1 hp (by omega)] at h
    injection h with h; injection h
  · rw [generateKnots, (C38_de_boor_errors p n ps).2 hp (by omega)] at h
    injection h with h; injection h
  · rw [generateKnots, (C38_averaging p n ps).2.1 hp (by omega)] at h
    injection h with h; injection h

theorem generate_valid {solver : Solver K d} {g : Generation K d} {c : Curve K d} (hg : g.Clamped)
    (h : generate solver g = .ok (.ok c)) : ∃ p n U P, ValidOn 0 1 c p n U P := by
  have key : ∀ {p n : ℕ} {U : List K} {kn : Knots K} {P : List (Pt K d)}, Knots.new p U = .ok kn →
      ClampedKnots 0 1 p n U → P.length = n + 1 → Curve.new kn (ControlPoints.new P) = .ok (.ok c) →
      ∃ p n U P, ValidOn 0 1 c p n U P := by
    intro p n U kn P h1 h2 h3 h4
    exact ⟨p, n, U, P, by rw [Built, mkCurve, h1, ok_bind]; exact h4, h2, h3⟩
  cases g with
  | manual degree points method =>
    cases method with
    | uniform =>
      obtain ⟨P, rfl⟩ := hg
      rw [generate] at h
      obtain ⟨n, hn, h⟩ := bind_ok_inv h
      have hl : P.length = n + 1 := by
        simp only [ControlPoints.segments, ControlPoints.count, ControlPoints.countDerivative,
          ControlPoints.new, idx, List.getElem?_cons_zero, ok_bind, pure_ok] at hn
        have := usub_inv hn
        omega
      dsimp only at h
      split at h
      · simp at h
      obtain ⟨data, -, h⟩ := bind_ok_inv h
      obtain ⟨r, hr, h⟩ := bind_ok_inv h
      cases r with
      | error e => simp at h
      | ok kn =>
        obtain ⟨U, h1, h2⟩ := uniform_inv hr
        exact key h1 h2 hl h
    | manual kn =>
      obtain ⟨P, p, n, U, rfl, h1, h2, h3⟩ := hg
      rw [generate] at h
      obtain ⟨n', -, h⟩ := bind_ok_inv h
      dsimp only at h
      split at h
      · simp at h
      obtain ⟨data, -, h⟩ := bind_ok_inv h
      exact key h1 h2 h3 h
    | method pm km =>
      obtain ⟨P, n, rfl, hP, hne, hc⟩ := hg
      have hpn : 1 ≤ degree ∧ degree ≤ n := by
        rw [generate, segments_new hP, ok_bind] at h
        dsimp only at h
        split at h
        · simp at h
        obtain ⟨data, -, h⟩ := bind_ok_inv h
        obtain ⟨r, hr, h⟩ := bind_ok_inv h
        cases r with
        | error e => simp at h
        | ok kn =>
          rw [generateManualKnots] at hr
          obtain ⟨ps, -, hr⟩ := bind_ok_inv hr
          exact generateKnots_pos hr
      obtain ⟨c', U, t, e, hv, -⟩ := C60_method solver hpn.1 hpn.2 hP hne pm km hc
      rw [e] at h
      injection h with h; injection h with h
      exact ⟨_, _, _, _, h ▸ hv⟩
  | interpolation degree points =>
    rw [generate] at h
    obtain ⟨ps, -, h⟩ := bind_ok_inv h
    obtain ⟨n, hn, h⟩ := bind_ok_inv h
    obtain ⟨r, hr, h⟩ := bind_ok_inv h
    cases r with
    | error e => simp at h
    | ok kn =>
      obtain ⟨P, hP, h⟩ := bind_ok_inv h
      obtain ⟨U, h1, h2⟩ := uniform_inv hr
      have := interpolate_length hP
      have := points_segments hn
      exact key h1 h2 (by omega) h
  | leastSquaresFit degree points intended method pen =>
    rw [generate] at h
    obtain ⟨ps, -, h⟩ := bind_ok_inv h
    obtain ⟨r, hr, h⟩ := bind_ok_inv h
    cases r with
    | error e => simp at h
    | ok kn =>
      obtain ⟨U, h1, h2⟩ := uniform_inv hr
      cases method with
      | fixedEnds =>
        obtain ⟨r, hP, h⟩ := bind_ok_inv h
        cases r with
        | error e => simp at h
        | ok P => exact key h1 h2 (fixed_length h1 h2.length hP) h
      | looseEnds =>
        obtain ⟨r, hP, h⟩ := bind_ok_inv h
        cases r with
        | error e => simp at h
        | ok P => exact key h1 h2 (loose_length h1 h2.length hP) h

theorem merge_valid_inv {solver : Solver K d} {a b : ConstrainedCurve K d} {c : Curve K d} {p m q o : ℕ}
    {V W : List K} {S T : List (Pt K d)} (ha : ValidOn 0 1 a.curve p m V S)
    (hb : ValidOn 0 1 b.curve q o W T) (h : mergeWithConstraints solver a b = .ok (.ok c)) :
    ∃ p n U P, ValidOn 0 1 c p n U P := by
  obtain ⟨ha, hV, hS⟩ := ha
  obtain ⟨hb, hW, hT⟩ := hb
  obtain ⟨a, ⟨ua⟩⟩ := a
  obtain ⟨b, ⟨ub⟩⟩ := b
  dsimp only at ha hb
  have ha' := ha.eq_canon hV.length hV.le hS
  have hb' := hb.eq_canon hW.length hW.le hT
  have hd1 : a.degree = p := by rw [ha']; rfl
  have hd2 : b.degree = q := by rw [hb']; rfl
  obtain rfl : p = q := by
    by_contra hne
    rw [C28_degree solver ⟨a, ⟨ua⟩⟩ ⟨b, ⟨ub⟩⟩ (show a.degree ≠ b.degree by rw [hd1, hd2]; exact hne)] at h
    injection h with h; injection h
  obtain ⟨-, h1, h2⟩ := C50_valid (kn := a.knots) (by rw [ha']; exact canonKnots_vector V)
    (by rw [ha']; rfl) hV
  obtain ⟨-, h3, h4⟩ := C50_valid (kn := b.knots) (by rw [hb']; exact canonKnots_vector W)
    (by rw [hb']; rfl) hW
  have hc : ua.length + ub.length < p := by
    by_contra hc
    rw [merge_same solver ⟨a, ⟨ua⟩⟩ ⟨b, ⟨ub⟩⟩ (hd1.trans hd2.symm) h1 h3 h2 h4] at h
    simp only [Bool.and_self, Bool.true_eq_false, if_false] at h
    rw [if_pos (show a.degree ≤ (⟨ua⟩ : Constraints K).count + (⟨ub⟩ : Constraints K).count from
      show a.degree ≤ ua.length + ub.length by omega)] at h
    injection h with h; injection h
  have hmo : m ≤ o ∧ o < m + p := by
    by_contra hmo
    have := C29_outcome_partial ha hb hV.length hS hV.le hW.length hT hW.le h1 h3 h2 h4 hc solver
    rw [if_neg hmo] at this
    obtain ⟨e, he⟩ := this
    rw [he] at h
    injection h
  rw [merge_valid ha hb hV hW hS hT hc hmo.1 hmo.2 solver] at h
  injection h with h; injection h with h
  subst h
  have hpm := hV.le
  have hpo := hW.le
  refine ⟨p, m + o + 1 - p, _, _, validOn_canon (mergedU_clamped hV hW) ?_⟩
  simp [mergedPts]
  omega

/-- **C79** Every curve held in a careful session is valid: `Curve::new` makes it from a knot vector which
is clamped on `[0, 1]` and the right number of control points. -/
theorem C79_careful_valid {c : Curve K d} (h : Careful c) : ∃ p n U P, ValidOn 0 1 c p n U P := by
  have hins : ∀ {c c' : Curve K d} {r} {V : List K} {u : K} {x : ℕ}, (∃ p n U P, ValidOn 0 1 c p n U P) →
      c.knots.vector = .ok V → SimpleBelow V u → c.insertTimes u x = .ok (c', r) →
      ∃ p n U P, ValidOn 0 1 c' p n U P := by
    rintro c c' r V u x ⟨p, n, U, P, hc⟩ hv hr hi
    obtain rfl := hc.eq_canon
    obtain ⟨-, hU, hP⟩ := hc
    rw [canon_knots, canonKnots_vector] at hv
    injection hv with hv
    subst hv
    obtain ⟨n', U', P', rfl, hU', hP', -⟩ := insertTimes_any x hU hP hr hi
    exact ⟨p, n', U', P', validOn_canon hU' hP'⟩
  have hsp : ∀ {c l r : Curve K d} {V : List K} {u : K}, (∃ p n U P, ValidOn 0 1 c p n U P) →
      c.knots.vector = .ok V → SimpleBelow V u → BSpline.split c u = .ok (.ok (l, r)) →
      (∃ p n U P, ValidOn 0 1 l p n U P) ∧ ∃ p n U P, ValidOn 0 1 r p n U P := by
    rintro c l r V u ⟨p, n, U, P, hc⟩ hv hr hs
    obtain ⟨hu0, hu1, hcount⟩ := split_ok_iff hc (by
      obtain rfl := hc.eq_canon
      rw [canon_knots, canonKnots_vector] at hv
      injection hv with hv
      exact hv ▸ hr) hs
    obtain rfl := hc.eq_canon
    obtain ⟨-, hU, hP⟩ := hc
    rw [canon_knots, canonKnots_vector] at hv
    injection hv with hv
    subst hv
    obtain ⟨U', P', n', q, hcut, hP', -, -, hsame, hsplit⟩ := split_valid hU hP hu0 hu1 hcount hr
    rw [split, hsplit] at hs
    injection hs with hs; injection hs with hs; injection hs with hl hr'
    subst hl hr'
    have a1 := hcut.lo_q
    have a2 := hcut.q_hi
    exact ⟨⟨p, q - 1, _, _, validOn_canon hcut.left_clamped.normalize (by simp; omega)⟩,
      ⟨p, n' + 1 - q, _, _, validOn_canon hcut.right_clamped.normalize (by simp; omega)⟩⟩
  have hM : ∀ {solver : Solver K d} {a b : ConstrainedCurve K d} {c : Curve K d},
      (∃ p n U P, ValidOn 0 1 a.curve p n U P) → (∃ p n U P, ValidOn 0 1 b.curve p n U P) →
      mergeWithConstraints solver a b = .ok (.ok c) → ∃ p n U P, ValidOn 0 1 c p n U P := by
    rintro solver a b c ⟨p, m, V, S, ha⟩ ⟨q, o, W, T, hb⟩ e
    exact merge_valid_inv ha hb e
  induction h with
  | generated solver hg e => exact generate_valid hg e
  | insert u _ hv hr e ih => exact hins (x := 1) ih hv hr e
  | insertTimes u x _ hv hr e ih => exact hins ih hv hr e
  | reverse _ e ih =>
    obtain ⟨p, n, U, P, hc⟩ := ih
    obtain rfl := hc.eq_canon
    obtain ⟨-, hU, hP⟩ := hc
    rw [reverse_canon hU.length hP hU.le] at e
    injection e with e
    subst e
    exact ⟨p, n, _, _, validOn_canon (by simpa using revU_clamped hU) (by simpa using hP)⟩
  | splitLeft u _ hv hr e ih => exact (hsp ih hv hr e).1
  | splitRight u _ hv hr e ih => exact (hsp ih hv hr e).2
  | merged solver ca cb _ _ e iha ihb => exact hM (a := ⟨_, ca⟩) (b := ⟨_, cb⟩) iha ihb e
  | append solver _ _ e iha ihb =>
    obtain ⟨r, h1, h2⟩ := bind_ok_inv e
    rw [unwrap_inv h2] at h1
    exact hM (a := ⟨_, _⟩) (b := ⟨_, _⟩) iha ihb h1
  | prepend solver _ _ e iha ihb =>
    obtain ⟨r, h1, h2⟩ := bind_ok_inv e
    rw [unwrap_inv h2] at h1
    exact hM (a := ⟨_, _⟩) (b := ⟨_, _⟩) ihb iha h1
  | appendConstrained solver ca cb _ _ e iha ihb =>
    obtain ⟨r, h1, h2⟩ := bind_ok_inv e
    rw [unwrap_inv h2] at h1
    exact hM (a := ⟨_, _⟩) (b := ⟨_, _⟩) iha ihb h1
  | prependConstrained solver ca cb _ _ e iha ihb =>
    obtain ⟨r, h1, h2⟩ := bind_ok_inv e
    rw [unwrap_inv h2] at h1
    exact hM (a := ⟨_, _⟩) (b := ⟨_, _⟩) ihb iha h1

/-- **C79** Careful curves of equal degree always pass the checks of merging: with fewer constraints than
the degree, merging succeeds exactly if `m ≤ o < m + p`, and the result is careful again. -/
theorem C79_careful_merge {a b : Curve K d} (ha : Careful a) (hb : Careful b) {m o : ℕ} {ua ub : List K}
    (hm : a.segments = .ok m) (ho : b.segments = .ok o) (hd : a.degree = b.degree)
    (hc : ua.length + ub.length < a.degree) (solver : Solver K d) :
    if m ≤ o ∧ o < m + a.degree then
      ∃ c, mergeWithConstraints solver ⟨a, ⟨ua⟩⟩ ⟨b, ⟨ub⟩⟩ = .ok (.ok c) ∧ Careful c
    else ∃ e, mergeWithConstraints solver ⟨a, ⟨ua⟩⟩ ⟨b, ⟨ub⟩⟩ = .error e := by
  obtain ⟨p, m', V, S, hva⟩ := C79_careful_valid ha
  obtain ⟨q, o', W, T, hvb⟩ := C79_careful_valid hb
  have ea := hva.eq_canon
  have eb := hvb.eq_canon
  obtain ⟨ha', hV, hS⟩ := hva
  obtain ⟨hb', hW, hT⟩ := hvb
  have hd1 : a.degree = p := by rw [ea]; rfl
  have hd2 : b.degree = q := by rw [eb]; rfl
  obtain rfl : p = q := by rw [← hd1, ← hd2, hd]
  obtain rfl : m' = m := by
    rw [ea, canon_segments hS] at hm
    injection hm
  obtain rfl : o' = o := by
    rw [eb, canon_segments hT] at ho
    injection ho
  obtain ⟨-, h1, h2⟩ := C50_valid (kn := a.knots) (by rw [ea]; exact canonKnots_vector V)
    (by rw [ea]; rfl) hV
  obtain ⟨-, h3, h4⟩ := C50_valid (kn := b.knots) (by rw [eb]; exact canonKnots_vector W)
    (by rw [eb]; rfl) hW
  rw [hd1] at hc ⊢
  have := C29_outcome_partial ha' hb' hV.length hS hV.le hW.length hT hW.le h1 h3 h2 h4 hc solver
  split at this
  · rename_i h
    rw [if_pos h]
    obtain ⟨c, e⟩ := this
    exact ⟨c, e, .merged solver ⟨ua⟩ ⟨ub⟩ ha hb e⟩
  · rename_i h
    rw [if_neg h]
    exact this

/-- **C79** Care is needed: after inserting above a double knot a caller holds a curve whose knots are
not sorted. -/
theorem C79_careless : ∃ (_ : Trunc ℚ) (_ : Sqrt ℚ) (c : Curve ℚ 2) (V : List ℚ), Held c ∧
    c.knots.vector = .ok V ∧ ¬ V.Pairwise (· ≤ ·) := by
  let _ : Sqrt ℚ := ⟨id⟩
  obtain ⟨s, -⟩ := exists_exact_solver ℚ 2
  have hk : Knots.new 2 exU = .ok _ := Knots.new_ok (by decide +kernel)
  have h0 : Held exC := by
    refine .generated (g := .manual 2 (ControlPoints.new exP) (.manual _)) s ⟨exP, rfl, ?_⟩
      ((C60_manual_knots s (n := 5) rfl (by omega) hk).trans (mkCurve_ok (n := 5) rfl (by omega) (by decide +kernel)))
    rintro kn ⟨⟩
    exact ⟨2, exU, hk, by decide +kernel⟩
  have h1 : Held exBad := .insert (9 / 10) h0 exBad_eq
  have h2 : (match exBad.knots.vector with
    | .ok V => decide (¬ V.Pairwise (· ≤ ·))
    | .error _ => false) = true := by decide +kernel
  cases hv : exBad.knots.vector with
  | error e => rw [hv] at h2; simp at h2
  | ok V =>
    rw [hv] at h2
    exact ⟨inferInstance, inferInstance, exBad, V, h1, hv, by simpa using h2⟩

/-- non-vacuity: generate, insert, reverse, append; every step is careful -/
example [Sqrt ℝ] [LawfulSqrt ℝ] [Trunc ℝ] [LawfulTrunc ℝ] (s : Solver ℝ 1) :
    ∃ a b c : Curve ℝ 1, generate s (.manual 2 (ControlPoints.new [![0], ![1], ![3], ![2]]) .uniform) = .ok (.ok a) ∧
      a.insert (1 / 4) = .ok (b, .ok ()) ∧ a.append s b = .ok c ∧ Careful c := by
  obtain ⟨a, U, ha, hv, hU⟩ := C60_uniform s (p := 2) (n := 3) (P := [![(0 : ℝ)], ![1], ![3], ![2]])
    (by omega) (by omega) rfl
  have hca : Careful a :=
    .generated (g := .manual 2 (ControlPoints.new [![0], ![1], ![3], ![2]]) .uniform) s ⟨_, rfl⟩ ha
  have hvec : a.knots.vector = .ok U := by rw [hv.eq_canon]; exact canonKnots_vector U
  have hU4 : U = [0, 0, 0, 1 / 2, 1, 1, 1] := by
    have hl := hv.2.1.length
    have hc := hv.2.1.clamp
    have h3 := hU 1 (by omega)
    apply ext_fn (by rw [hl]; rfl)
    intro i hi
    rw [hl] at hi
    have e3 : fn U 3 = 1 / 2 := by
      have := (List.getElem?_eq_some_iff.mp h3)
      obtain ⟨a, b⟩ := this
      rw [fn_lt a, b]; norm_num
    have : i = 0 ∨ i = 1 ∨ i = 2 ∨ i = 3 ∨ i = 4 ∨ i = 5 ∨ i = 6 := by omega
    rcases this with rfl | rfl | rfl | rfl | rfl | rfl | rfl
    · rw [hc.left 0 (by omega)]; rfl
    · rw [hc.left 1 (by omega)]; rfl
    · rw [hc.left 2 (by omega)]; rfl
    · rw [e3]; rfl
    · rw [hc.right 4 (by omega)]; rfl
    · rw [hc.right 5 (by omega)]; rfl
    · rw [hc.right 6 (by omega)]; rfl
  have hsb : SimpleBelow U (1 / 4) := by
    intro x h0 h1
    have : U.count x = 0 := by
      apply List.count_eq_zero_of_not_mem
      rw [hU4]
      intro hm
      simp only [List.mem_cons, List.not_mem_nil, or_false] at hm
      rcases hm with h | h | h | h | h | h | h <;> linarith
    omega
  have hcnt : U.count (1 / 4) = 0 := by
    apply List.count_eq_zero_of_not_mem
    rw [hU4]
    intro hm
    simp only [List.mem_cons, List.not_mem_nil, or_false] at hm
    rcases hm with h | h | h | h | h | h | h <;> norm_num at h
  obtain ⟨l, -, -, -, -, hi, hUi, -⟩ := insert_valid hv.2.1 hv.2.2 (u := 1 / 4) (by norm_num) (by norm_num)
    (by omega) hsb
  rw [← hv.eq_canon] at hi
  have hcb : Careful _ := .insert (1 / 4) hca hvec hsb hi
  have hm := C79_careful_merge hca hcb (m := 3) (o := 4) (ua := []) (ub := [])
    (by rw [hv.eq_canon]; exact canon_segments rfl) (canon_segments (by simp)) (by rw [hv.eq_canon]; rfl)
    (by rw [hv.eq_canon]; exact (by decide : 0 < 2)) s
  rw [if_pos ⟨by omega, by rw [hv.eq_canon]; exact (by decide : 4 < 3 + 2)⟩] at hm
  obtain ⟨c, e, hc⟩ := hm
  refine ⟨a, _, c, ha, hi, ?_, hc⟩
  rw [Curve.append, merge, e]
  rfl

end BSpline
