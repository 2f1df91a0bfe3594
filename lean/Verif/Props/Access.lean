import Verif.Model.Access
import Verif.Model.Debug
import Verif.Props.Insert
import Verif.Refine.Reverse
import Verif.Spec.Basic

/-!
# Editing a curve through the mutable accessors: C66, C67

`c.points.matrix_mut()`, `c.points.get_mut(i)` and `c.knots.vector_mut()` change the curve at once,
but not the cached derivatives. All statements but the last ones are law-free: they hold for every
scalar type, so also for floating-point numbers.
-/

set_option linter.unusedSectionVars false

namespace BSpline

section LawFree

variable {K : Type} [Add K] [Sub K] [Mul K] [Div K] [Neg K] [Zero K] [One K] [NatCast K] [Cmp K]
variable {d : ℕ}

/-! ### The parts of a built curve -/

/-- a loop that only appends keeps the first entry -/
theorem foldlM_head {α : Type} {f : List α → ℕ → Exec (List α)}
    (hf : ∀ l i l', f l i = .ok l' → ∃ x, l' = l ++ [x]) : ∀ (is : List ℕ) (l l' : List α),
    is.foldlM f l = .ok l' → ∃ t, l' = l ++ t ∧ t.length = is.length := by
  intro is
  induction is with
  | nil =>
    intro l l' h
    simp only [List.foldlM_nil, pure_ok] at h
    injection h with h
    exact ⟨[], by simp [h], rfl⟩
  | cons i is ih =>
    intro l l' h
    rw [List.foldlM_cons] at h
    cases hx : f l i with
    | error e => rw [hx, error_bind] at h; cases h
    | ok l1 =>
      rw [hx, ok_bind] at h
      obtain ⟨x, rfl⟩ := hf l i l1 hx
      obtain ⟨t, rfl, ht⟩ := ih _ _ h
      exact ⟨x :: t, by simp, by simp [ht]⟩

theorem Knots.derive_head {kn kn' : Knots K} {U : List K} {t : List (List K)} (hU : kn.Uk = U :: t)
    (h : kn.derive = .ok kn') :
    ∃ t, kn'.Uk = U :: t ∧ t.length = kn.p ∧ kn'.p = kn.p ∧ kn'.kMax = kn.p := by
  rw [Knots.derive, hU] at h
  simp only [List.take_succ_cons, List.take_zero] at h
  cases hx : forRangeIncl 1 kn.p [U] (fun Uk k => do
    let prev ← idx Uk (k - 1)
    let len ← usub prev.length 2
    let seg ← segment prev 1 len
    pure (Uk ++ [seg])) with
  | error e => rw [hx, error_bind] at h; cases h
  | ok Uk =>
    rw [hx, ok_bind] at h
    injection h with h
    subst h
    obtain ⟨t, rfl, ht⟩ := foldlM_head (by
      intro l i l' h
      cases h1 : idx l (i - 1) with
      | error e => rw [h1, error_bind] at h; cases h
      | ok prev =>
        rw [h1, ok_bind] at h
        cases h2 : usub prev.length 2 with
        | error e => rw [h2, error_bind] at h; cases h
        | ok len =>
          rw [h2, ok_bind] at h
          cases h3 : segment prev 1 len with
          | error e => rw [h3, error_bind] at h; cases h
          | ok seg =>
            rw [h3, ok_bind] at h
            injection h with h
            exact ⟨seg, h.symm⟩) _ _ _ hx
    exact ⟨t, rfl, by simpa using ht, rfl, rfl⟩

theorem ControlPoints.derive_head {cp cp' : ControlPoints K d} {kn : Knots K} {P : List (Pt K d)}
    {t : List (List (Pt K d))} (hP : cp.Pk = P :: t) (h : cp.derive kn = .ok cp') :
    ∃ t, cp'.Pk = P :: t ∧ t.length = kn.p ∧ cp'.kMax = kn.p := by
  rw [ControlPoints.derive] at h
  cases hs : cp.segments with
  | error e => rw [hs, error_bind] at h; cases h
  | ok n =>
    rw [hs, ok_bind, hP] at h
    simp only [List.take_succ_cons, List.take_zero] at h
    cases hx : forRangeIncl 1 kn.degree [P] (fun Pk k => do
      let nk ← usub n k
      let Pnew ← (List.range (nk + 1)).mapM (fun i =>
        deriveSinglePoint { Pk := Pk, kMax := cp.kMax } kn k i)
      pure (Pk ++ [Pnew])) with
    | error e => rw [hx, error_bind] at h; cases h
    | ok Pk =>
      rw [hx, ok_bind] at h
      injection h with h
      subst h
      obtain ⟨t, rfl, ht⟩ := foldlM_head (by
        intro l i l' h
        cases h1 : usub n i with
        | error e => rw [h1, error_bind] at h; cases h
        | ok nk =>
          rw [h1, ok_bind] at h
          cases h2 : (List.range (nk + 1)).mapM (fun j =>
              deriveSinglePoint { Pk := l, kMax := cp.kMax } kn i j) with
          | error e => rw [h2, error_bind] at h; cases h
          | ok Pnew =>
            rw [h2, ok_bind] at h
            injection h with h
            exact ⟨Pnew, h.symm⟩) _ _ _ hx
      exact ⟨t, rfl, by simpa [Knots.degree] using ht, rfl⟩

theorem deriveSinglePoint_kMax (Pk : List (List (Pt K d))) (a b : ℕ) (kn : Knots K) : ∀ k i,
    ControlPoints.deriveSinglePoint ⟨Pk, a⟩ kn k i = ControlPoints.deriveSinglePoint ⟨Pk, b⟩ kn k i
  | 0, _ => rfl
  | k + 1, i => by
    rw [ControlPoints.deriveSinglePoint, ControlPoints.deriveSinglePoint,
      deriveSinglePoint_kMax Pk a b kn k i, deriveSinglePoint_kMax Pk a b kn k (i + 1)]

/-- `derive` reads the points themselves only, not the cached derivatives -/
theorem ControlPoints.derive_congr {cp cp' : ControlPoints K d} {P : List (Pt K d)}
    {t t' : List (List (Pt K d))} (h : cp.Pk = P :: t) (h' : cp'.Pk = P :: t') (kn : Knots K) :
    cp.derive kn = cp'.derive kn := by
  have hs : cp.segments = cp'.segments := by
    rw [ControlPoints.segments, ControlPoints.segments, ControlPoints.count, ControlPoints.count,
      ControlPoints.countDerivative, ControlPoints.countDerivative, h, h']
    rfl
  rw [ControlPoints.derive, ControlPoints.derive, hs, h, h']
  have hk : (fun (Pk : List (List (Pt K d))) k i =>
      ControlPoints.deriveSinglePoint ⟨Pk, cp.kMax⟩ kn k i) = fun Pk k i =>
      ControlPoints.deriveSinglePoint ⟨Pk, cp'.kMax⟩ kn k i := by
    funext Pk k i
    exact deriveSinglePoint_kMax _ _ _ _ _ _
  have hk' := fun Pk k => congrFun (congrFun hk Pk) k
  simp only [hk', List.take_succ_cons, List.take_zero]

/-- what `mkCurve` returns: knots that depend on `p` and `U` only, and derived points -/
theorem Built.parts {c : Curve K d} {p : ℕ} {U : List K} {P : List (Pt K d)} (hc : Built c p U P) :
    ∃ kn, Knots.new p U = .ok kn ∧ kn.derive = .ok c.knots ∧
      (ControlPoints.new P).derive c.knots = .ok c.points ∧ p < P.length := by
  rw [Built, mkCurve] at hc
  cases h1 : Knots.new p U with
  | error e => rw [h1, error_bind] at hc; cases hc
  | ok kn =>
    rw [h1, ok_bind, Curve.new] at hc
    cases h2 : (ControlPoints.new P).segments with
    | error e => rw [h2, error_bind] at hc; cases hc
    | ok n =>
      rw [h2, ok_bind] at hc
      have hpk : kn.degree = p := by
        obtain ⟨t, -, -, h, -⟩ := Knots.derive_head rfl h1
        exact h
      have hn : P.length = n + 1 := by
        rw [ControlPoints.segments, ControlPoints.count, ControlPoints.countDerivative,
          ControlPoints.new, idx_ok' (by simp)] at h2
        simp only [ok_bind, pure_ok, List.getElem_cons_zero] at h2
        rcases Nat.lt_or_ge P.length 1 with h | h
        · rw [usub_error h] at h2; cases h2
        · rw [usub_ok h] at h2; injection h2 with h2; omega
      split at hc
      · injection hc with hc; cases hc
      · rename_i hlt
        rw [Curve.calculateDerivatives] at hc
        dsimp only at hc
        cases h3 : kn.derive with
        | error e => rw [h3, error_bind, error_bind] at hc; cases hc
        | ok kn' =>
          rw [h3, ok_bind] at hc
          cases h4 : (ControlPoints.new P).derive kn' with
          | error e => rw [h4, error_bind, error_bind] at hc; cases hc
          | ok pts =>
            rw [h4, ok_bind, pure_ok, ok_bind, pure_ok] at hc
            injection hc with hc
            injection hc with hc
            subst hc
            exact ⟨kn, rfl, h3, h4, by omega⟩

theorem bind_ne_error {α β ε : Type} {x : Exec α} {f : α → Exec (β × Except ε Unit)} {g : β} {e : ε}
    (h : ∀ a, ¬ f a = .ok (g, .error e)) : ¬ (x >>= f) = .ok (g, .error e) := by
  cases x with
  | error _ => intro hx; cases hx
  | ok a => rw [ok_bind]; exact h a

/-- two curves that differ at most in the cached derivatives of the knots and points -/
structure SameBase (c f : Curve K d) : Prop where
  p : c.knots.p = f.knots.p
  kn : ∃ U t t', c.knots.Uk = U :: t ∧ f.knots.Uk = U :: t'
  pts : ∃ P t t', c.points.Pk = P :: t ∧ f.points.Pk = P :: t'

namespace SameBase

variable {c f : Curve K d}

theorem idx_zero (h : SameBase c f) : idx c.knots.Uk 0 = idx f.knots.Uk 0 := by
  obtain ⟨U, t, t', h1, h2⟩ := h.kn
  rw [h1, h2]; rfl

theorem vector (h : SameBase c f) : c.knots.vector = f.knots.vector := h.idx_zero

theorem degree (h : SameBase c f) : c.degree = f.degree := h.p

theorem knotSegments (h : SameBase c f) : c.knots.segments = f.knots.segments := by
  rw [Knots.segments, Knots.segments, Knots.segmentsDerivative, Knots.segmentsDerivative, h.idx_zero, h.p]

theorem multiplicity (h : SameBase c f) (u : K) : c.knots.multiplicity u = f.knots.multiplicity u := by
  rw [Knots.multiplicity, Knots.multiplicity, Knots.domain, Knots.domain, Knots.domainDerivative,
    Knots.domainDerivative, Knots.domainCount, Knots.domainCount, h.idx_zero, h.p, h.knotSegments]

theorem findIdx (h : SameBase c f) (u : K) (cmp : Comparator) :
    c.knots.findIdx u 0 cmp = f.knots.findIdx u 0 cmp := by
  unfold Knots.findIdx
  rw [Knots.vectorDerivative, Knots.vectorDerivative, Knots.degree, Knots.degree, h.idx_zero, h.p,
    h.knotSegments]

theorem basis (h : SameBase c f) (i q : ℕ) (u : K) :
    c.knots.evaluate 0 i q u = f.knots.evaluate 0 i q u := by
  rw [Knots.evaluate, Knots.evaluate, h.idx_zero, h.knotSegments]

theorem matrix (h : SameBase c f) : c.points.matrix = f.points.matrix := by
  obtain ⟨P, t, t', h1, h2⟩ := h.pts
  rw [ControlPoints.matrix, ControlPoints.matrix, h1, h2]; rfl

theorem count (h : SameBase c f) : c.points.count = f.points.count := by
  obtain ⟨P, t, t', h1, h2⟩ := h.pts
  rw [ControlPoints.count, ControlPoints.count, ControlPoints.countDerivative,
    ControlPoints.countDerivative, h1, h2]; rfl

theorem segments (h : SameBase c f) : c.points.segments = f.points.segments := by
  rw [ControlPoints.segments, ControlPoints.segments, h.count]

theorem evaluate (h : SameBase c f) (u : K) : c.evaluate u = f.evaluate u := by
  have h0 : c.points.matrixDerivative 0 = f.points.matrixDerivative 0 := by
    obtain ⟨P, t, t', h1, h2⟩ := h.pts
    rw [ControlPoints.matrixDerivative, ControlPoints.matrixDerivative, if_pos (Nat.zero_le _),
      if_pos (Nat.zero_le _), h1, h2]; rfl
  rw [Curve.evaluate, Curve.evaluate, Curve.evaluateDerivative, Curve.evaluateDerivative, h.degree,
    Curve.segments, Curve.segments, h.segments, h0, h.findIdx]
  simp only [h.basis]

theorem derive (h : SameBase c f) (kn : Knots K) : c.points.derive kn = f.points.derive kn := by
  obtain ⟨P, t, t', h1, h2⟩ := h.pts
  exact ControlPoints.derive_congr h1 h2 kn

theorem deriveKnots (h : SameBase c f) : c.knots.derive = f.knots.derive := by
  obtain ⟨U, t, t', h1, h2⟩ := h.kn
  rw [Knots.derive, Knots.derive, h1, h2, h.p]
  rfl

theorem calculateDerivatives (h : SameBase c f) : c.calculateDerivatives = f.calculateDerivatives := by
  rw [Curve.calculateDerivatives, Curve.calculateDerivatives, h.deriveKnots]
  simp only [h.derive]

/-- a successful insertion forgets the cached derivatives -/
theorem insert (h : SameBase c f) (u : K) :
    (∀ g, BSpline.insert f u = .ok (g, .ok ()) → BSpline.insert c u = .ok (g, .ok ())) ∧
    (∀ g e, BSpline.insert f u = .ok (g, .error e) → BSpline.insert c u = .ok (c, .error e)) ∧
    (∀ e, BSpline.insert f u = .error e → BSpline.insert c u = .error e) := by
  have hm := h.matrix
  have hcount := h.count
  have hbody : ∀ (X : List K) (Y : List (Pt K d)),
      (do
        let Uk ← setIdx c.knots.Uk 0 X
        let Pk ← setIdx c.points.Pk 0 Y
        let c' ← Curve.calculateDerivatives (K := K) (d := d)
          { knots := { c.knots with Uk := Uk }, points := { c.points with Pk := Pk } }
        pure (c', (.ok () : Except (InsertError K) Unit)) : Exec _) =
      (do
        let Uk ← setIdx f.knots.Uk 0 X
        let Pk ← setIdx f.points.Pk 0 Y
        let c' ← Curve.calculateDerivatives
          { knots := { f.knots with Uk := Uk }, points := { f.points with Pk := Pk } }
        pure (c', .ok ())) := by
    intro X Y
    obtain ⟨hk, ⟨U, s, s', g1, g2⟩, P, t, t', h1, h2⟩ := h
    rw [h1, h2, g1, g2, setIdx_ok (by simp), setIdx_ok (by simp), setIdx_ok (by simp),
      setIdx_ok (by simp), ok_bind, ok_bind, ok_bind, ok_bind]
    simp only [List.set_cons_zero]
    rw [SameBase.calculateDerivatives
      (c := ⟨{ c.knots with Uk := X :: s }, { c.points with Pk := Y :: t }⟩)
      (f := ⟨{ f.knots with Uk := X :: s' }, { f.points with Pk := Y :: t' }⟩)
      ⟨hk, ⟨X, s, s', rfl, rfl⟩, Y, t, t', rfl, rfl⟩]
  unfold BSpline.insert
  rw [h.degree, h.multiplicity, h.vector, h.findIdx, hm, hcount]
  split
  · refine ⟨?_, ?_, ?_⟩
    · intro g hg; injection hg with hg; injection hg with _ hg; cases hg
    · intro g e hg; injection hg with hg; injection hg with _ hg; rw [hg]; rfl
    · intro e hg; cases hg
  · cases hmu : f.knots.multiplicity u with
    | error e => simp
    | ok m =>
      simp only [ok_bind]
      split
      · refine ⟨?_, ?_, ?_⟩
        · intro g hg; injection hg with hg; injection hg with _ hg; cases hg
        · intro g e hg; injection hg with hg; injection hg with _ hg; rw [hg]; rfl
        · intro e hg; cases hg
      · simp only [hbody]
        refine ⟨fun g hg => hg, fun g e hg => ?_, fun e he => he⟩
        exfalso
        revert hg
        change ¬ _
        repeat (refine bind_ne_error fun _ => ?_)
        intro hg
        injection hg with hg
        injection hg with _ hg
        cases hg

theorem unwrapTimes (h : SameBase c f) (u : K) (x : ℕ) (hx : 0 < x) :
    insertUnwrapTimes c u x = insertUnwrapTimes f u x := by
  obtain ⟨x, rfl⟩ : ∃ y, x = y + 1 := ⟨x - 1, by omega⟩
  rw [insertUnwrapTimes, insertUnwrapTimes]
  obtain ⟨h1, h2, h3⟩ := h.insert u
  cases hf : BSpline.insert f u with
  | error e => rw [h3 e hf]
  | ok r =>
    obtain ⟨g, r⟩ := r
    cases r with
    | error e => rw [h2 g e hf]; rfl
    | ok _ => rw [h1 g hf]

theorem split (h : SameBase c f) (u : K) (norm : Bool × Bool) :
    splitAndNormalize c u norm = splitAndNormalize f u norm := by
  have hq : ∀ x, ∀ F : List K → List (Pt K d) → Exec (Except (SplitError K) (Curve K d × Curve K d)),
      (do
        let b ← insertUnwrapTimes c u x
        let U ← b.knots.vector
        let P ← b.points.matrix
        F U P) = (do
        let b ← insertUnwrapTimes f u x
        let U ← b.knots.vector
        let P ← b.points.matrix
        F U P) := by
    intro x F
    rcases Nat.eq_zero_or_pos x with rfl | hx
    · rw [insertUnwrapTimes, insertUnwrapTimes, pure_ok, pure_ok, ok_bind, ok_bind, h.vector, h.matrix]
    · rw [h.unwrapTimes u x hx]
  unfold splitAndNormalize
  rw [h.degree, h.findIdx, h.vector]
  simp only [hq]

end SameBase

/-! ### C66: editing the control points in place -/

theorem Built.setMatrix {c f c1 : Curve K d} {p : ℕ} {U : List K} {P Q : List (Pt K d)}
    (hc : Built c p U P) (hf : Built f p U Q) (h1 : c.setMatrix Q = .ok c1) :
    SameBase c1 f ∧ c1.knots = c.knots ∧ c1.knots = f.knots ∧
      ∃ t, c.points.Pk = P :: t ∧ c1.points.Pk = Q :: t ∧ t.length = p ∧ c1.points.kMax = p := by
  obtain ⟨kn, a1, a2, a3, -⟩ := hc.parts
  obtain ⟨kn', b1, b2, b3, -⟩ := hf.parts
  rw [a1] at b1
  injection b1 with b1
  subst b1
  rw [a2] at b2
  injection b2 with b2
  obtain ⟨s, hs, -, hp, -⟩ := Knots.derive_head rfl a1
  obtain ⟨s', hs', -, hp', -⟩ := Knots.derive_head hs a2
  obtain ⟨t, ht, hl, hk⟩ := ControlPoints.derive_head rfl a3
  obtain ⟨t', ht', hl', hk'⟩ := ControlPoints.derive_head rfl b3
  have hpp : c.knots.p = p := by rw [hp', hp]
  rw [Curve.setMatrix, ControlPoints.setMatrix, ht, setIdx_ok (by simp), ok_bind, pure_ok, ok_bind,
    pure_ok] at h1
  injection h1 with h1
  subst h1
  refine ⟨⟨congrArg _ b2, ?_, Q, t, t', rfl, ht'⟩, rfl, b2, t, ht, rfl, by omega, ?_⟩
  · exact ⟨U, s', s', hs', by rw [← b2, hs']⟩
  · change c.points.kMax = p
    rw [hk, hpp]

/-- **C66** `*c.points.matrix_mut() = Q` succeeds on every curve that `Curve::new` returned, whatever
the number of columns of `Q`, and the matrix read afterwards is `Q`. -/
theorem C66_edit_succeeds {c : Curve K d} {p : ℕ} {U : List K} {P : List (Pt K d)}
    (hc : Built c p U P) (Q : List (Pt K d)) :
    ∃ c1, c.setMatrix Q = .ok c1 ∧ c1.points.matrix = .ok Q ∧ c1.knots = c.knots := by
  obtain ⟨kn, a1, a2, a3, -⟩ := hc.parts
  obtain ⟨t, ht, hl, hk⟩ := ControlPoints.derive_head rfl a3
  rw [Curve.setMatrix, ControlPoints.setMatrix, ht, setIdx_ok (by simp), ok_bind, pure_ok, ok_bind,
    pure_ok]
  exact ⟨_, rfl, rfl, rfl⟩

/-- **C66** The edit is live: evaluation, splitting and every successful or refused insertion behave
as on the curve built from the new points. -/
theorem C66_points_live {c f c1 : Curve K d} {p : ℕ} {U : List K} {P Q : List (Pt K d)}
    (hc : Built c p U P) (hf : Built f p U Q) (h1 : c.setMatrix Q = .ok c1) (u : K) :
    c1.evaluate u = f.evaluate u ∧
    (∀ norm, splitAndNormalize c1 u norm = splitAndNormalize f u norm) ∧
    (∀ g, insert f u = .ok (g, .ok ()) → insert c1 u = .ok (g, .ok ())) ∧
    (∀ g e, insert f u = .ok (g, .error e) → insert c1 u = .ok (c1, .error e)) ∧
    (∀ e, insert f u = .error e → insert c1 u = .error e) := by
  obtain ⟨h, -⟩ := hc.setMatrix hf h1
  exact ⟨h.evaluate u, h.split u, h.insert u⟩

/-- derivatives of order at least one do not read the points themselves, only their number -/
theorem evaluateDerivative_congr {c c1 : Curve K d} {A B : List (Pt K d)}
    {t : List (List (Pt K d))} (hk : c1.knots = c.knots) (h : c.points.Pk = A :: t)
    (h1 : c1.points.Pk = B :: t) (hkm : c1.points.kMax = c.points.kMax) (hl : B.length = A.length)
    (u : K) {k : ℕ} (hk1 : 1 ≤ k) : c1.evaluateDerivative u k = c.evaluateDerivative u k := by
  obtain ⟨k, rfl⟩ : ∃ j, k = j + 1 := ⟨k - 1, by omega⟩
  have hm : c1.points.matrixDerivative (k + 1) = c.points.matrixDerivative (k + 1) := by
    rw [ControlPoints.matrixDerivative, ControlPoints.matrixDerivative, h, h1, hkm]
    rfl
  have hs : c1.points.segments = c.points.segments := by
    rw [ControlPoints.segments, ControlPoints.segments, ControlPoints.count, ControlPoints.count,
      ControlPoints.countDerivative, ControlPoints.countDerivative, h, h1]
    rw [idx_ok' (by simp), idx_ok' (by simp)]
    simp [hl]
  rw [Curve.evaluateDerivative, Curve.evaluateDerivative]
  simp only [Curve.segments, Curve.degree, hs, hm, hk]
  rfl

/-- **C66** The derivatives are stale: after an edit that keeps the number of points, every
derivative of order at least one is still that of the old curve. -/
theorem C66_derivatives_stale {c c1 : Curve K d} {p : ℕ} {U : List K} {P Q : List (Pt K d)}
    (hc : Built c p U P) (hl : Q.length = P.length) (h1 : c.setMatrix Q = .ok c1) (u : K) {k : ℕ}
    (hk : 1 ≤ k) : c1.evaluateDerivative u k = c.evaluateDerivative u k := by
  obtain ⟨kn, a1, a2, a3, -⟩ := hc.parts
  obtain ⟨t, ht, -, -⟩ := ControlPoints.derive_head rfl a3
  rw [Curve.setMatrix, ControlPoints.setMatrix, ht, setIdx_ok (by simp), ok_bind, pure_ok, ok_bind,
    pure_ok] at h1
  injection h1 with h1
  subst h1
  refine evaluateDerivative_congr (A := P) (B := Q) (t := t) ?_ ht ?_ ?_ hl u hk <;> rfl

/-- **C66** `c.points.derive(&c.knots)` after the edit gives exactly the curve built from the new
points. -/
theorem C66_derive_refreshes {c f c1 : Curve K d} {p : ℕ} {U : List K} {P Q : List (Pt K d)}
    (hc : Built c p U P) (hf : Built f p U Q) (h1 : c.setMatrix Q = .ok c1) :
    c1.derivePoints = .ok f := by
  obtain ⟨h, h2, h3, -⟩ := hc.setMatrix hf h1
  obtain ⟨kn, -, -, b3, -⟩ := hf.parts
  obtain ⟨t', ht', hl', hk'⟩ := ControlPoints.derive_head rfl b3
  have hd : f.points.derive f.knots = .ok f.points :=
    (ControlPoints.derive_congr ht' rfl f.knots).trans b3
  rw [Curve.derivePoints, h3, h.derive, hd, ok_bind, pure_ok]

/-- **C66** `get_mut(i)` panics exactly when `i` is not a column; otherwise writing `v` through it
is the edit that replaces the `i`-th point. -/
theorem C66_set_point {c : Curve K d} {p : ℕ} {U : List K} {P : List (Pt K d)}
    (hc : Built c p U P) (i : ℕ) (v : Pt K d) :
    (i < P.length → c.setPoint i v = c.setMatrix (P.set i v)) ∧
    (P.length ≤ i → c.setPoint i v = .error .view) ∧
    (c.points.get i = match P[i]? with | some x => .ok x | none => .error .view) := by
  obtain ⟨kn, a1, a2, a3, -⟩ := hc.parts
  obtain ⟨t, ht, -, -⟩ := ControlPoints.derive_head rfl a3
  have hm : c.points.matrix = .ok P := by
    rw [ControlPoints.matrix, ht]; rfl
  refine ⟨fun h => ?_, fun h => ?_, ?_⟩
  · rw [Curve.setPoint, Curve.setMatrix, ControlPoints.setPoint, hm, ok_bind]
    simp [column, h]
  · rw [Curve.setPoint, ControlPoints.setPoint, hm, ok_bind]
    simp [column, h]
  · rw [ControlPoints.get, hm, ok_bind, column]
    cases P[i]? <;> rfl

/-- merging reads the knots and the points of a curve, not the cached derivatives of the points -/
theorem SameBase.merge_left {c f : Curve K d} (h : SameBase c f) (hk : c.knots = f.knots)
    {d₂ : ℕ} (solver : Solver K d) (cs : Constraints K) (b : ConstrainedCurve K d₂) :
    mergeWithConstraints solver ⟨c, cs⟩ b = mergeWithConstraints solver ⟨f, cs⟩ b := by
  have h1 := h.matrix
  have h2 := h.count
  have h3 : c.segments = f.segments := h.segments
  have h4 := h.degree
  unfold mergeWithConstraints
  simp only [h4, hk, mergeBody, solveLinearEquationSystem, constructNmat, constructConstMat,
    calculateKV, calculateIV, calculateGV, calculateIpV, sumLeft, calculateKconst,
    generateShifted, adjustKnotsOfBoth, createMergedKnotVector, adjustShiftedOfBoth,
    generateMergedPoints, h1, h2, h3]

theorem SameBase.merge_right {c f : Curve K d} (h : SameBase c f) (hk : c.knots = f.knots)
    {d₁ : ℕ} (solver : Solver K d₁) (cs : Constraints K) (a : ConstrainedCurve K d₁) :
    mergeWithConstraints solver a ⟨c, cs⟩ = mergeWithConstraints solver a ⟨f, cs⟩ := by
  have h1 := h.matrix
  have h2 := h.count
  have h3 : c.segments = f.segments := h.segments
  have h4 := h.degree
  unfold mergeWithConstraints
  simp only [h4]
  split
  · rfl
  · split
    · rename_i hd
      subst hd
      simp only [h4, hk, mergeBody, solveLinearEquationSystem, constructNmat, constructConstMat,
        calculateKW, calculateJW, calculateHW, calculateJppW, sumRight, calculateKconst,
        generateShifted, adjustKnotsOfBoth, createMergedKnotVector, adjustShiftedOfBoth,
        generateMergedPoints, h1, h2, h3]
    · rfl

/-- **C66** Merging an edited curve, on either side and with any constraints, gives what merging the
curve built from the new points gives: the same curve, the same error or the same panic. -/
theorem C66_merge_live {c f c1 : Curve K d} {p : ℕ} {U : List K} {P Q : List (Pt K d)}
    (hc : Built c p U P) (hf : Built f p U Q) (h1 : c.setMatrix Q = .ok c1) (cs : Constraints K)
    {e : ℕ} (o : ConstrainedCurve K e) :
    (∀ solver, mergeWithConstraints solver ⟨c1, cs⟩ o = mergeWithConstraints solver ⟨f, cs⟩ o) ∧
    (∀ solver, mergeWithConstraints solver o ⟨c1, cs⟩ = mergeWithConstraints solver o ⟨f, cs⟩) := by
  obtain ⟨h, -, hk, -⟩ := hc.setMatrix hf h1
  exact ⟨fun s => h.merge_left hk s cs o, fun s => h.merge_right hk s cs o⟩

/-- **C66** Reversing an edited curve reverses the new points and the old derivatives: the result
evaluates like the reverse of the curve built from the new points, and its derivatives are those of
the reverse of the old curve. -/
theorem C66_reverse {c f c1 : Curve K d} {p : ℕ} {U : List K} {P Q : List (Pt K d)}
    (hc : Built c p U P) (hf : Built f p U Q) (h1 : c.setMatrix Q = .ok c1) :
    ∃ rc rf r1, c.reverse = .ok rc ∧ f.reverse = .ok rf ∧ c1.reverse = .ok r1 ∧
      (∀ u, r1.evaluate u = rf.evaluate u) ∧
      (Q.length = P.length → ∀ u k, 1 ≤ k →
        r1.evaluateDerivative u k = rc.evaluateDerivative u k) := by
  obtain ⟨hb, hk1, hk, t, ht, ht1, hl, hkm⟩ := hc.setMatrix hf h1
  obtain ⟨kn, a1, a2, a3, -⟩ := hc.parts
  obtain ⟨_, _, _, b3, -⟩ := hf.parts
  obtain ⟨_, g1, g2, g3⟩ := ControlPoints.derive_head rfl a3
  obtain ⟨t', ht', hl', hk'⟩ := ControlPoints.derive_head rfl b3
  have e1 : c.points.Pk.length = c.points.kMax + 1 := by rw [g1, g3, List.length_cons, g2]
  have e2 : f.points.Pk.length = f.points.kMax + 1 := by rw [ht', hk', List.length_cons, hl']
  have e3 : c1.points.Pk.length = c1.points.kMax + 1 := by rw [ht1, hkm, List.length_cons, hl]
  have hkk : c1.points.kMax = c.points.kMax := by
    rw [ht, List.length_cons] at e1; omega
  obtain ⟨s, hs, -, -, -⟩ := Knots.derive_head rfl a1
  obtain ⟨s', hs', -, -, -⟩ := Knots.derive_head hs a2
  refine ⟨_, _, _, by rw [Curve.reverse, controlPoints_reverse_ok e1, ok_bind, pure_ok],
    by rw [Curve.reverse, controlPoints_reverse_ok e2, ok_bind, pure_ok],
    by rw [Curve.reverse, controlPoints_reverse_ok e3, ok_bind, pure_ok], ?_, ?_⟩
  · intro u
    refine SameBase.evaluate ⟨?_, ?_, ?_⟩ u
    · exact hb.p
    · refine ⟨reverseKnots U, s'.map reverseKnots, s'.map reverseKnots, ?_, ?_⟩
      · simp only [Knots.reverse, hk1, hs', List.map_cons]
      · simp only [Knots.reverse, ← hk, hk1, hs', List.map_cons]
    · simp only [ht1, ht', List.mapIdx_cons]
      exact ⟨_, _, _, rfl, rfl⟩
  · intro hlen u k hk0
    refine evaluateDerivative_congr (A := revPts 0 P) (B := revPts 0 Q)
      (t := t.mapIdx fun i => revPts (i + 1)) ?_ ?_ ?_ ?_ ?_ u hk0
    · simp only [hk1]
    · simp only [ht, List.mapIdx_cons]
    · simp only [ht1, List.mapIdx_cons]
    · exact hkk
    · simp [revPts, hlen]

/-! ### C67: editing the knots in place -/

theorem Built.setVector {c f c1 : Curve K d} {p : ℕ} {U V : List K} {P : List (Pt K d)}
    (hc : Built c p U P) (hf : Built f p V P) (h1 : c.setVector V = .ok c1) :
    SameBase c1 f := by
  obtain ⟨kn, a1, a2, a3, -⟩ := hc.parts
  obtain ⟨kn', b1, b2, b3, -⟩ := hf.parts
  obtain ⟨s, hs, -, hp, -⟩ := Knots.derive_head rfl a1
  obtain ⟨s', hs', -, hp', -⟩ := Knots.derive_head hs a2
  obtain ⟨r, hr, -, hq, -⟩ := Knots.derive_head rfl b1
  obtain ⟨r', hr', -, hq', -⟩ := Knots.derive_head hr b2
  obtain ⟨t, ht, -, -⟩ := ControlPoints.derive_head rfl a3
  obtain ⟨t', ht', -, -⟩ := ControlPoints.derive_head rfl b3
  rw [Curve.setVector, Knots.setVector, hs', setIdx_ok (by simp), ok_bind, pure_ok, ok_bind,
    pure_ok] at h1
  injection h1 with h1
  subst h1
  refine ⟨?_, ⟨V, s', r', rfl, hr'⟩, P, t, t', ht, ht'⟩
  change c.knots.p = f.knots.p
  rw [hp', hp, hq', hq]

/-- **C67** `*c.knots.vector_mut() = V` succeeds on every curve that `Curve::new` returned, and the
vector read afterwards is `V`. -/
theorem C67_edit_succeeds {c : Curve K d} {p : ℕ} {U : List K} {P : List (Pt K d)}
    (hc : Built c p U P) (V : List K) :
    ∃ c1, c.setVector V = .ok c1 ∧ c1.knots.vector = .ok V ∧ c1.points = c.points := by
  obtain ⟨kn, a1, a2, a3, -⟩ := hc.parts
  obtain ⟨s, hs, -, hp, -⟩ := Knots.derive_head rfl a1
  obtain ⟨s', hs', -, hp', -⟩ := Knots.derive_head hs a2
  rw [Curve.setVector, Knots.setVector, hs', setIdx_ok (by simp), ok_bind, pure_ok, ok_bind,
    pure_ok]
  exact ⟨_, rfl, rfl, rfl⟩

/-- **C67** `*c.knots.vector_mut() = V` is live for evaluation, insertion and splitting: they behave
as on the curve built from the new knots. -/
theorem C67_knots_live {c f c1 : Curve K d} {p : ℕ} {U V : List K} {P : List (Pt K d)}
    (hc : Built c p U P) (hf : Built f p V P) (h1 : c.setVector V = .ok c1) (u : K) :
    c1.evaluate u = f.evaluate u ∧
    (∀ norm, splitAndNormalize c1 u norm = splitAndNormalize f u norm) ∧
    (∀ g, insert f u = .ok (g, .ok ()) → insert c1 u = .ok (g, .ok ())) ∧
    (∀ g e, insert f u = .ok (g, .error e) → insert c1 u = .ok (c1, .error e)) ∧
    (∀ e, insert f u = .error e → insert c1 u = .error e) := by
  have h := hc.setVector hf h1
  exact ⟨h.evaluate u, h.split u, h.insert u⟩

/-- **C67** The derivatives of order at least one stay those of the old knots, if the new vector has
the same length. -/
theorem C67_derivatives_stale {c c1 : Curve K d} {p : ℕ} {U V : List K} {P : List (Pt K d)}
    (hc : Built c p U P) (hl : V.length = U.length) (h1 : c.setVector V = .ok c1) (u : K) {k : ℕ}
    (hk : 1 ≤ k) : c1.evaluateDerivative u k = c.evaluateDerivative u k := by
  obtain ⟨kn, a1, a2, a3, -⟩ := hc.parts
  obtain ⟨s, hs, -, hp, -⟩ := Knots.derive_head rfl a1
  obtain ⟨s', hs', -, hp', -⟩ := Knots.derive_head hs a2
  rw [Curve.setVector, Knots.setVector, hs', setIdx_ok (by simp), ok_bind, pure_ok, ok_bind,
    pure_ok] at h1
  injection h1 with h1
  subst h1
  obtain ⟨k, rfl⟩ : ∃ j, k = j + 1 := ⟨k - 1, by omega⟩
  have hsg : Knots.segments { c.knots with Uk := (U :: s').set 0 V } = c.knots.segments := by
    rw [Knots.segments, Knots.segments, Knots.segmentsDerivative, Knots.segmentsDerivative, hs']
    simp only [List.set_cons_zero]
    rw [idx_ok' (by simp), idx_ok' (by simp)]
    simp [hl]
  have hv : idx ((U :: s').set 0 V) (k + 1) = idx c.knots.Uk (k + 1) := by
    rw [hs']; rfl
  have hfi : Knots.findIdx { c.knots with Uk := (U :: s').set 0 V } u (k + 1) .leftOrEqual =
      c.knots.findIdx u (k + 1) .leftOrEqual := by
    unfold Knots.findIdx
    rw [Knots.vectorDerivative, Knots.vectorDerivative, Knots.degree, Knots.degree, hsg, hv]
  have hev : ∀ i q, Knots.evaluate { c.knots with Uk := (U :: s').set 0 V } (k + 1) i q u =
      c.knots.evaluate (k + 1) i q u := by
    intro i q
    rw [Knots.evaluate, Knots.evaluate, hsg, hv]
  rw [Curve.evaluateDerivative, Curve.evaluateDerivative]
  simp only [Curve.segments, Curve.degree, hfi, hev]
  rfl

/-- **C67** `c.knots.derive()` followed by `c.points.derive(&c.knots)` gives exactly the curve built
from the new knots. -/
theorem C67_derive_refreshes {c f c1 : Curve K d} {p : ℕ} {U V : List K} {P : List (Pt K d)}
    (hc : Built c p U P) (hf : Built f p V P) (h1 : c.setVector V = .ok c1) :
    (c1.deriveKnots >>= Curve.derivePoints) = .ok f := by
  have h := hc.setVector hf h1
  obtain ⟨kn, b1, b2, b3, -⟩ := hf.parts
  obtain ⟨r, hr, -, hq, -⟩ := Knots.derive_head rfl b1
  obtain ⟨r', hr', -, hq', -⟩ := Knots.derive_head hr b2
  obtain ⟨t', ht', -, -⟩ := ControlPoints.derive_head rfl b3
  have hkn : f.knots.derive = .ok f.knots := by
    rw [← b2, Knots.derive, Knots.derive, hr, hr', hq']
    rfl
  have hd : f.points.derive f.knots = .ok f.points :=
    (ControlPoints.derive_congr ht' rfl f.knots).trans b3
  rw [Curve.deriveKnots, h.deriveKnots, hkn, ok_bind, pure_ok, ok_bind, Curve.derivePoints]
  dsimp only
  rw [h.derive, hd, ok_bind, pure_ok]

end LawFree

/-! ### Concrete cases -/

/-- the quadratic curve used below, before the edit, with the edited points and with edited knots -/
private def acU : List ℚ := [0, 0, 0, 1/2, 1, 1, 1]
private def acV : List ℚ := [0, 0, 0, 3/4, 1, 1, 1]
private def acP : List (Pt ℚ 1) := [![0], ![1], ![3], ![4]]
private def acQ : List (Pt ℚ 1) := [![0], ![5], ![3], ![4]]

/-- what an evaluation returned, if it returned a point -/
private def acVal (x : Exec (Except (CurveError ℚ) (Pt ℚ 1))) : Option (Pt ℚ 1) :=
  match x with
  | .ok (.ok v) => some v
  | _ => none

private def acBuilt (U : List ℚ) (P : List (Pt ℚ 1)) : Option (Curve ℚ 1) :=
  match mkCurve 2 U P with
  | .ok (.ok c) => some c
  | _ => none

/-- **C66** a user would expect the derivative of an edited curve to be that of the curve built from
the edited points; it is not -/
theorem C66_stale_is_wrong : ∃ (c f c1 : Curve ℚ 1) (U : List ℚ) (P Q : List (Pt ℚ 1)) (u : ℚ),
    Built c 2 U P ∧ Built f 2 U Q ∧ c.setMatrix Q = .ok c1 ∧ Q.length = P.length ∧
    c1.evaluate u = f.evaluate u ∧ c1.evaluate u ≠ c.evaluate u ∧
    c1.evaluateDerivative u 1 ≠ f.evaluateDerivative u 1 := by
  obtain ⟨c, hc⟩ : ∃ c, Built c 2 acU acP := by
    have : (acBuilt acU acP).isSome = true := by decide +kernel
    rw [acBuilt] at this
    split at this
    · exact ⟨_, by assumption⟩
    · cases this
  obtain ⟨f, hf⟩ : ∃ c, Built c 2 acU acQ := by
    have : (acBuilt acU acQ).isSome = true := by decide +kernel
    rw [acBuilt] at this
    split at this
    · exact ⟨_, by assumption⟩
    · cases this
  obtain ⟨c1, h1, -⟩ := C66_edit_succeeds hc acQ
  have e1 := C66_derivatives_stale hc (by decide) h1 (1/4) (k := 1) le_rfl
  have e0 := (C66_points_live hc hf h1 (1/4)).1
  have d : (acBuilt acU acP).map (fun c => (acVal (c.evaluate (1/4)), acVal (c.evaluateDerivative (1/4) 1))) =
      some (some ![1], some ![4]) := by decide +kernel
  have d' : (acBuilt acU acQ).map (fun c => (acVal (c.evaluate (1/4)),
      acVal (c.evaluateDerivative (1/4) 1))) = some (some ![7/2], some ![8]) := by decide +kernel
  have hc' : acBuilt acU acP = some c := by rw [acBuilt, hc]
  have hf' : acBuilt acU acQ = some f := by rw [acBuilt, hf]
  rw [hc', Option.map_some] at d
  rw [hf', Option.map_some] at d'
  simp only [Option.some.injEq, Prod.mk.injEq] at d d'
  refine ⟨c, f, c1, acU, acP, acQ, 1/4, hc, hf, h1, by decide, e0, ?_, ?_⟩
  · rw [e0]
    intro h
    have := d'.1.symm.trans ((congrArg acVal h).trans d.1)
    revert this
    decide +kernel
  · rw [e1]
    intro h
    have := d.2.symm.trans ((congrArg acVal h).trans d'.2)
    revert this
    decide +kernel

/-- **C67** the same for an edit of the knots: the value is that of the new knots, the derivative
that of the old ones -/
theorem C67_stale_is_wrong : ∃ (c f c1 : Curve ℚ 1) (U V : List ℚ) (P : List (Pt ℚ 1)) (u : ℚ),
    Built c 2 U P ∧ Built f 2 V P ∧ c.setVector V = .ok c1 ∧ V.length = U.length ∧
    c1.evaluate u = f.evaluate u ∧ c1.evaluate u ≠ c.evaluate u ∧
    c1.evaluateDerivative u 1 ≠ f.evaluateDerivative u 1 := by
  obtain ⟨c, hc⟩ : ∃ c, Built c 2 acU acP := by
    have : (acBuilt acU acP).isSome = true := by decide +kernel
    rw [acBuilt] at this
    split at this
    · exact ⟨_, by assumption⟩
    · cases this
  obtain ⟨f, hf⟩ : ∃ c, Built c 2 acV acP := by
    have : (acBuilt acV acP).isSome = true := by decide +kernel
    rw [acBuilt] at this
    split at this
    · exact ⟨_, by assumption⟩
    · cases this
  obtain ⟨c1, h1, -⟩ := C67_edit_succeeds hc acV
  have e1 := C67_derivatives_stale hc (by decide) h1 (1/4) (k := 1) le_rfl
  have e0 := (C67_knots_live hc hf h1 (1/4)).1
  have d : (acBuilt acU acP).map (fun c => (acVal (c.evaluate (1/4)),
      acVal (c.evaluateDerivative (1/4) 1))) = some (some ![1], some ![4]) := by decide +kernel
  have d' : (acBuilt acV acP).map (fun c => (acVal (c.evaluate (1/4)),
      acVal (c.evaluateDerivative (1/4) 1))) = some (some ![13/18], some ![28/9]) := by decide +kernel
  have hc' : acBuilt acU acP = some c := by rw [acBuilt, hc]
  have hf' : acBuilt acV acP = some f := by rw [acBuilt, hf]
  rw [hc', Option.map_some] at d
  rw [hf', Option.map_some] at d'
  simp only [Option.some.injEq, Prod.mk.injEq] at d d'
  refine ⟨c, f, c1, acU, acV, acP, 1/4, hc, hf, h1, by decide, e0, ?_, ?_⟩
  · rw [e0]
    intro h
    have := d'.1.symm.trans ((congrArg acVal h).trans d.1)
    revert this
    decide +kernel
  · rw [e1]
    intro h
    have := d.2.symm.trans ((congrArg acVal h).trans d'.2)
    revert this
    decide +kernel

end BSpline
