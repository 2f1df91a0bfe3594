import Verif.Props.History
import Verif.Model.Generate
import Verif.Model.Debug
import Verif.Spec.Scalars

/-!
# Whole sessions: C78

Everything a caller can hold after any sequence of calls: generated curves, edited curves, halves of
curves, merged curves. No law of arithmetic is used.
-/

set_option linter.unusedSectionVars false

namespace BSpline

variable {K : Type} [Add K] [Sub K] [Mul K] [Div K] [Neg K] [Zero K] [One K] [NatCast K]
  [IntCast K] [Cmp K] [Trunc K] [Sqrt K] {d : ℕ}

/-- the counts of a manual description agree: control points without derivatives and, if knots are
given, one knot vector of the fitting length -/
def Generation.Fits : Generation K d → Prop
  | .manual _ points knots => ∃ P, points = ControlPoints.new P ∧
      ∀ kn, knots = .manual kn → ∃ p U, Knots.new p U = .ok kn ∧ U.length = P.length + p + 1
  | _ => True

/-- `Held c`: a caller can hold the curve `c`. Calls that returned an error count, too; merging may use
any linear solver. -/
inductive Held : Curve K d → Prop
  | generated {g : Generation K d} {c} (solver : Solver K d) : g.Fits →
      generate solver g = .ok (.ok c) → Held c
  | insert {c c' r} (u : K) : Held c → c.insert u = .ok (c', r) → Held c'
  | insertTimes {c c' r} (u : K) (x : ℕ) : Held c → c.insertTimes u x = .ok (c', r) → Held c'
  | reverse {c c'} : Held c → c.reverse = .ok c' → Held c'
  | splitLeft {c l r} (u : K) (norm : Bool × Bool) : Held c →
      BSpline.splitAndNormalize c u norm = .ok (.ok (l, r)) → Held l
  | splitRight {c l r} (u : K) (norm : Bool × Bool) : Held c →
      BSpline.splitAndNormalize c u norm = .ok (.ok (l, r)) → Held r
  | merged {a b c} (solver : Solver K d) (ca cb : Constraints K) : Held a → Held b →
      mergeWithConstraints solver ⟨a, ca⟩ ⟨b, cb⟩ = .ok (.ok c) → Held c
  | append {a b c} (solver : Solver K d) : Held a → Held b → a.append solver b = .ok c → Held c
  | prepend {a b c} (solver : Solver K d) : Held a → Held b → a.prepend solver b = .ok c → Held c
  | appendConstrained {a b c} (solver : Solver K d) (ca cb : Constraints K) : Held a → Held b →
      a.appendConstrained solver ca b cb = .ok c → Held c
  | prependConstrained {a b c} (solver : Solver K d) (ca cb : Constraints K) : Held a → Held b →
      a.prependConstrained solver ca b cb = .ok c → Held c

/-! ### Loops -/

theorem foldlM_pres {σ : Type} (I : σ → Prop) {f : σ → ℕ → Exec σ}
    (h : ∀ s i s', I s → f s i = .ok s' → I s') :
    ∀ (l : List ℕ) (s s' : σ), I s → l.foldlM f s = .ok s' → I s' := by
  intro l
  induction l with
  | nil => intro s s' hs e; injection e with e; exact e ▸ hs
  | cons i l ih =>
    intro s s' hs e
    rw [List.foldlM_cons] at e
    obtain ⟨s1, h1, h2⟩ := bind_ok_inv e
    exact ih _ _ (h _ _ _ hs h1) h2

theorem forRangeIncl_pres {σ : Type} (I : σ → Prop) {f : σ → ℕ → Exec σ} {lo hi : ℕ} {s s' : σ}
    (h : ∀ s i s', I s → f s i = .ok s' → I s') (hs : I s) (e : forRangeIncl lo hi s f = .ok s') :
    I s' := foldlM_pres I h _ _ _ hs e

theorem forRange_pres {σ : Type} (I : σ → Prop) {f : σ → ℕ → Exec σ} {lo hi : ℕ} {s s' : σ}
    (h : ∀ s i s', I s → f s i = .ok s' → I s') (hs : I s) (e : forRange lo hi s f = .ok s') :
    I s' := foldlM_pres I h _ _ _ hs e

theorem mapM_length {α β : Type} {f : α → Exec β} : ∀ {l : List α} {r : List β},
    l.mapM f = .ok r → r.length = l.length := by
  intro l
  induction l with
  | nil => intro r h; injection h with h; rw [← h]; rfl
  | cons x l ih =>
    intro r h
    rw [List.mapM_cons] at h
    obtain ⟨y, -, h⟩ := bind_ok_inv h
    obtain ⟨ys, h2, h⟩ := bind_ok_inv h
    injection h with h
    rw [← h, List.length_cons, ih h2, List.length_cons]

theorem tabulateIncl_length {α : Type} {f : ℕ → Exec α} {lo hi : ℕ} {r : List α}
    (h : tabulateIncl lo hi f = .ok r) : r.length = hi + 1 - lo := by
  rw [tabulateIncl] at h
  rw [mapM_length h, List.length_range']

theorem tabulateIncl_mem {α : Type} {f : ℕ → Exec α} {lo hi : ℕ} {r : List α}
    (h : tabulateIncl lo hi f = .ok r) : ∀ y ∈ r, ∃ i, f i = .ok y := by
  rw [tabulateIncl] at h
  generalize List.range' lo (hi + 1 - lo) = l at h
  induction l generalizing r with
  | nil => injection h with h; subst h; simp
  | cons x l ih =>
    rw [List.mapM_cons] at h
    obtain ⟨y, h1, h⟩ := bind_ok_inv h
    obtain ⟨ys, h2, h⟩ := bind_ok_inv h
    injection h with h
    subst h
    intro z hz
    rcases List.mem_cons.mp hz with rfl | hz
    · exact ⟨x, h1⟩
    · exact ih h2 z hz

/-! ### Generated knots -/

theorem setTailOnes_length {n : ℕ} {U U' : List K} (h : setTailOnes n U = .ok U') :
    U'.length = U.length := by
  rw [setTailOnes] at h
  exact forRange_pres (fun s => s.length = U.length)
    (fun s i s' hs e => by rw [setIdx_inv e, hs]) rfl h

theorem uniform_shape {p n : ℕ} {kn : Knots K} (h : uniform p n = .ok (.ok kn)) :
    ∃ U, Knots.new p U = .ok kn ∧ U.length = n + p + 2 := by
  rw [uniform] at h
  cases hi : inputCheck (K := K) p n with
  | error e => rw [hi] at h; simp at h
  | ok x =>
    rw [hi] at h
    obtain ⟨c, -, h⟩ := bind_ok_inv h
    obtain ⟨U, h1, h⟩ := bind_ok_inv h
    obtain ⟨U', h2, h⟩ := bind_ok_inv h
    obtain ⟨kn', h3, h⟩ := bind_ok_inv h
    injection h with h; injection h with h
    subst h
    refine ⟨U', h3, ?_⟩
    rw [setTailOnes_length h2]
    exact forRangeIncl_pres (fun s => s.length = n + p + 2)
      (fun s i s' hs e => by rw [setIdx_inv e, hs]) (by simp [zeros]; omega) h1

theorem averaging_shape {p n : ℕ} {ps : Parameters K} {kn : Knots K}
    (h : averaging p n ps = .ok (.ok kn)) : ∃ U, Knots.new p U = .ok kn ∧ U.length = n + p + 2 := by
  rw [averaging] at h
  cases hi : inputCheck (K := K) p n with
  | error e => rw [hi] at h; simp at h
  | ok x =>
    rw [hi] at h
    obtain ⟨c, -, h⟩ := bind_ok_inv h
    obtain ⟨U, h1, h⟩ := bind_ok_inv h
    obtain ⟨U', h2, h⟩ := bind_ok_inv h
    obtain ⟨kn', h3, h⟩ := bind_ok_inv h
    injection h with h; injection h with h
    subst h
    refine ⟨U', h3, ?_⟩
    rw [setTailOnes_length h2]
    refine forRangeIncl_pres (fun s => s.length = n + p + 2) ?_ (by simp [zeros]; omega) h1
    intro s i s' hs e
    obtain ⟨_, -, e⟩ := bind_ok_inv e
    obtain ⟨_, -, e⟩ := bind_ok_inv e
    rw [setIdx_inv e, hs]

theorem deBoor_shape {p n : ℕ} {ps : Parameters K} {kn : Knots K}
    (h : deBoor p n ps = .ok (.ok kn)) : ∃ U, Knots.new p U = .ok kn ∧ U.length = n + p + 2 := by
  rw [deBoor] at h
  cases hi : inputCheck (K := K) p n with
  | error e => rw [hi] at h; simp at h
  | ok x =>
    rw [hi] at h
    obtain ⟨c, -, h⟩ := bind_ok_inv h
    obtain ⟨U, h1, h⟩ := bind_ok_inv h
    obtain ⟨U', h2, h⟩ := bind_ok_inv h
    obtain ⟨kn', h3, h⟩ := bind_ok_inv h
    injection h with h; injection h with h
    subst h
    refine ⟨U', h3, ?_⟩
    rw [setTailOnes_length h2]
    refine forRangeIncl_pres (fun s => s.length = n + p + 2) ?_ (by simp [zeros]; omega) h1
    intro s i s' hs e
    obtain ⟨_, -, e⟩ := bind_ok_inv e
    obtain ⟨_, -, e⟩ := bind_ok_inv e
    obtain ⟨_, -, e⟩ := bind_ok_inv e
    rw [setIdx_inv e, hs]

theorem generateKnots_shape {p n : ℕ} {ps : Parameters K} {km : KnotMethod} {kn : Knots K}
    (h : generateKnots p n ps km = .ok (.ok kn)) :
    ∃ U, Knots.new p U = .ok kn ∧ U.length = n + p + 2 := by
  cases km with
  | uniform => exact uniform_shape h
  | deBoor => exact deBoor_shape h
  | averaging => exact averaging_shape h

theorem new_base {p : ℕ} {U : List K} {kn : Knots K} (h : Knots.new p U = .ok kn) :
    kn.p = p ∧ kn.Uk[0]? = some U := by
  rw [Knots.new, Knots.derive] at h
  obtain ⟨t, h1, h2⟩ := bind_ok_inv h
  injection h2 with h2
  subst h2
  refine ⟨rfl, ?_⟩
  refine forRangeIncl_pres (fun s => s[0]? = some U) ?_ rfl h1
  intro s i s' hs e
  obtain ⟨_, -, e⟩ := bind_ok_inv e
  obtain ⟨_, -, e⟩ := bind_ok_inv e
  obtain ⟨_, -, e⟩ := bind_ok_inv e
  injection e with e
  rw [← e]
  cases s with
  | nil => simp at hs
  | cons x l => simpa using hs

theorem new_segments {p n m : ℕ} {U : List K} {kn : Knots K} (h : Knots.new p U = .ok kn)
    (hU : U.length = n + p + 2) (hs : kn.segments = .ok m) : m = n := by
  obtain ⟨h1, h2⟩ := new_base h
  rw [Knots.segments, Knots.segmentsDerivative, idx, h2, h1] at hs
  rw [ok_bind, usub_ok (by omega), ok_bind] at hs
  have := usub_inv hs
  omega

/-! ### Generated control points -/

theorem svdSolve_length {solver : Solver K d} {A : List (List K)} {b x : List (Pt K d)}
    (h : svdSolve solver A b = .ok x) : x.length = ncols A := by
  rw [svdSolve] at h
  split at h
  · simp at h
  · split at h
    · simp at h
    · injection h with h; rw [← h, solver.shape]

theorem points_segments {pts : DataPoints K d} {m : ℕ} (h : pts.segments = .ok m) :
    List.length pts = m + 1 := by
  have := usub_inv h
  omega

theorem ncols_of {A : List (List K)} {c : ℕ} (h : ∀ r ∈ A, r.length = c) (hA : A ≠ []) : ncols A = c := by
  cases A with
  | nil => exact absurd rfl hA
  | cons r A => exact h r (by simp)

theorem interpolate_length {solver : Solver K d} {kn : Knots K} {pts : DataPoints K d}
    {ps : Parameters K} {P : List (Pt K d)} (h : interpolate solver kn pts ps = .ok P) :
    P.length = List.length pts := by
  rw [interpolate] at h
  obtain ⟨m, h1, h⟩ := bind_ok_inv h
  obtain ⟨N, h2, h⟩ := bind_ok_inv h
  rw [svdSolve_length h, points_segments h1]
  refine ncols_of (fun r hr => ?_) ?_
  · obtain ⟨i, hi⟩ := tabulateIncl_mem h2 r hr
    rw [tabulateIncl_length hi, Nat.sub_zero]
  · intro h0
    have := tabulateIncl_length h2
    rw [h0] at this
    simp at this

theorem addRows_cols {A B : List (List K)} {c : ℕ} (hA : ∀ r ∈ A, r.length = c) (hB : ∀ r ∈ B, r.length = c) :
    ∀ r ∈ addRows A B, r.length = c := by
  intro r hr
  rw [addRows] at hr
  obtain ⟨i, hi, rfl⟩ := List.mem_iff_getElem.mp hr
  rw [List.length_zipWith] at hi
  rw [List.getElem_zipWith, List.length_zipWith, hA _ (List.getElem_mem _), hB _ (List.getElem_mem _),
    Nat.min_self]

theorem gram_cols (A : List (List K)) (c : ℕ) : ∀ r ∈ gram A c, r.length = c := by
  intro r hr
  obtain ⟨i, -, rfl⟩ := List.mem_map.mp hr
  simp

theorem computeSvdMatrix_cols {kn : Knots K} {N A : List (List K)} {c : ℕ}
    {pen : Option (Penalization K)} {fd : ℕ → Knots K → Exec (List (List K))}
    (h : computeSvdMatrix kn N c pen fd = .ok (.ok A)) : ∀ r ∈ A, r.length = c := by
  unfold computeSvdMatrix at h
  cases pen with
  | none => injection h with h; injection h with h; rw [← h]; exact gram_cols N c
  | some pen =>
    dsimp only at h
    split at h
    · simp at h
    · have fin : ∀ {b : Bool}, ((if b = true then pure (.error .nonUniformKnots) else do
          let D ← fd pen.kappa kn
          pure (.ok (addRows (gram N c) ((gram D c).map (List.map fun x => pen.lambda * x))))) :
          Exec (Except (FitError K) (List (List K)))) = .ok (.ok A) → ∀ r ∈ A, r.length = c := by
        intro b h
        split at h
        · simp at h
        · obtain ⟨D, -, h⟩ := bind_ok_inv h
          injection h with h; injection h with h
          rw [← h]
          refine addRows_cols (gram_cols N c) ?_
          intro r hr
          obtain ⟨s, hs, rfl⟩ := List.mem_map.mp hr
          rw [List.length_map]
          exact gram_cols D c s hs
      split at h
      · obtain ⟨_, -, h⟩ := bind_ok_inv h
        obtain ⟨_, -, h⟩ := bind_ok_inv h
        obtain ⟨_, -, h⟩ := bind_ok_inv h
        exact fin h
      · obtain ⟨_, -, h⟩ := bind_ok_inv h
        exact fin h

theorem loose_length {solver : Solver K d} {kn : Knots K} {pts : DataPoints K d} {ps : Parameters K}
    {pen : Option (Penalization K)} {P : List (Pt K d)} {p n : ℕ} {U : List K}
    (hkn : Knots.new p U = .ok kn) (hU : U.length = n + p + 2)
    (h : Loose.fit solver kn pts ps pen = .ok (.ok P)) : P.length = n + 1 := by
  rw [Loose.fit] at h
  obtain ⟨r, -, h⟩ := bind_ok_inv h
  cases r with
  | error e => simp at h
  | ok x =>
    obtain ⟨N, -, h⟩ := bind_ok_inv h
    obtain ⟨n', hn, h⟩ := bind_ok_inv h
    obtain ⟨r, hr, h⟩ := bind_ok_inv h
    have := new_segments hkn hU hn
    subst this
    cases r with
    | error e => simp at h
    | ok A =>
      obtain ⟨x, hx, h⟩ := bind_ok_inv h
      injection h with h; injection h with h
      rw [← h, svdSolve_length hx]
      refine ncols_of (computeSvdMatrix_cols hr) ?_
      rintro rfl
      rw [svdSolve] at hx
      simp at hx

theorem fixed_length {solver : Solver K d} {kn : Knots K} {pts : DataPoints K d} {ps : Parameters K}
    {pen : Option (Penalization K)} {P : List (Pt K d)} {p n : ℕ} {U : List K}
    (hkn : Knots.new p U = .ok kn) (hU : U.length = n + p + 2)
    (h : Fixed.fit solver kn pts ps pen = .ok (.ok P)) : P.length = n + 1 := by
  rw [Fixed.fit] at h
  obtain ⟨r, -, h⟩ := bind_ok_inv h
  cases r with
  | error e => simp at h
  | ok x =>
    obtain ⟨Q, -, h⟩ := bind_ok_inv h
    obtain ⟨Qm, -, h⟩ := bind_ok_inv h
    obtain ⟨N, -, h⟩ := bind_ok_inv h
    obtain ⟨n', hn, h⟩ := bind_ok_inv h
    obtain ⟨n1, -, h⟩ := bind_ok_inv h
    obtain ⟨r, hr, h⟩ := bind_ok_inv h
    have := new_segments hkn hU hn
    subst this
    cases r with
    | error e => simp at h
    | ok A =>
      obtain ⟨x, hx, h⟩ := bind_ok_inv h
      obtain ⟨m, -, h⟩ := bind_ok_inv h
      obtain ⟨q0, -, h⟩ := bind_ok_inv h
      obtain ⟨P1, h1, h⟩ := bind_ok_inv h
      obtain ⟨qm, -, h⟩ := bind_ok_inv h
      obtain ⟨P2, h2, h⟩ := bind_ok_inv h
      obtain ⟨P3, h3, h⟩ := bind_ok_inv h
      injection h with h; injection h with h
      subst h
      refine forRangeIncl_pres (fun s => s.length = n' + 1) ?_ ?_ h3
      · intro s i s' hs e
        obtain ⟨_, -, e⟩ := bind_ok_inv e
        rw [setIdx_inv e, hs]
      · rw [setIdx_inv h2, setIdx_inv h1]; simp [zeroCols]

/-- everything `generate` returns has the right shape and was newly built -/
theorem generate_shaped {solver : Solver K d} {g : Generation K d} {c : Curve K d} (hg : g.Fits)
    (h : generate solver g = .ok (.ok c)) : ∃ p n, Shaped c p n ∧ ∃ U P, c = canon p U P := by
  have key : ∀ {p : ℕ} {U : List K} {kn : Knots K} {P : List (Pt K d)}, Knots.new p U = .ok kn →
      U.length = P.length + p + 1 → Curve.new kn (ControlPoints.new P) = .ok (.ok c) →
      ∃ p n, Shaped c p n ∧ ∃ U P, c = canon p U P := by
    intro p U kn P h1 h2 h3
    obtain ⟨n, hn, hc⟩ := mkCurve_shaped (p := p) (U := U) (P := P) (c := c)
      (by rw [mkCurve, h1, ok_bind]; exact h3) h2
    exact ⟨p, n, hn, _, _, hc⟩
  cases g with
  | manual degree points method =>
    obtain ⟨P, rfl, hk⟩ := hg
    rw [generate] at h
    obtain ⟨n, hn, h⟩ := bind_ok_inv h
    have hl : P.length = n + 1 := by
      simp only [ControlPoints.segments, ControlPoints.count, ControlPoints.countDerivative,
        ControlPoints.new, idx, List.getElem?_cons_zero, ok_bind, pure_ok] at hn
      have := usub_inv hn
      omega
    dsimp only at h
    split at h
    · simp at h
    · obtain ⟨data, -, h'⟩ := bind_ok_inv h
      obtain ⟨r, hr, h''⟩ := bind_ok_inv h'
      cases r with
      | error e => simp at h''
      | ok kn =>
        cases method with
        | uniform =>
          obtain ⟨U, h1, h2⟩ := uniform_shape hr
          exact key h1 (by omega) h''
        | manual kn' =>
          obtain ⟨p, U, h1, h2⟩ := hk kn' rfl
          injection hr with hr; injection hr with hr
          subst hr
          exact key h1 h2 h''
        | method pm km =>
          rw [generateManualKnots] at hr
          obtain ⟨ps, -, hr⟩ := bind_ok_inv hr
          obtain ⟨U, h1, h2⟩ := generateKnots_shape hr
          exact key h1 (by omega) h''
  | interpolation degree points =>
    rw [generate] at h
    obtain ⟨ps, -, h⟩ := bind_ok_inv h
    obtain ⟨n, hn, h⟩ := bind_ok_inv h
    obtain ⟨r, hr, h⟩ := bind_ok_inv h
    cases r with
    | error e => simp at h
    | ok kn =>
      obtain ⟨P, hP, h⟩ := bind_ok_inv h
      obtain ⟨U, h1, h2⟩ := generateKnots_shape hr
      have := interpolate_length hP
      have := points_segments hn
      exact key h1 (by omega) h
  | leastSquaresFit degree points intended method pen =>
    rw [generate] at h
    obtain ⟨ps, -, h⟩ := bind_ok_inv h
    obtain ⟨r, hr, h⟩ := bind_ok_inv h
    cases r with
    | error e => simp at h
    | ok kn =>
      obtain ⟨U, h1, h2⟩ := generateKnots_shape hr
      cases method with
      | fixedEnds =>
        obtain ⟨r, hP, h⟩ := bind_ok_inv h
        cases r with
        | error e => simp at h
        | ok P => exact key h1 (by have := fixed_length h1 h2 hP; omega) h
      | looseEnds =>
        obtain ⟨r, hP, h⟩ := bind_ok_inv h
        cases r with
        | error e => simp at h
        | ok P => exact key h1 (by have := loose_length h1 h2 hP; omega) h

/-! ### Merged curves -/

theorem merge_shaped {solver : Solver K d} {a b : ConstrainedCurve K d} {c : Curve K d} {p m q o : ℕ}
    (ha : Shaped a.curve p m) (hb : Shaped b.curve q o)
    (h : mergeWithConstraints solver a b = .ok (.ok c)) : q = p ∧ Shaped c p (m + o + 1 - p) ∧ ∃ U P, c = canon p U P := by
  rw [mergeWithConstraints] at h
  dsimp only at h
  split at h
  · simp at h
  · rename_i hpq
    have hpq' : q = p := by
      by_contra hne
      exact hpq (fun e => hne (by rw [← ha.deg, ← hb.deg]; exact e.symm))
    refine ⟨hpq', ?_⟩
    subst hpq'
    rw [dif_pos rfl] at h
    obtain ⟨u1, -, h⟩ := bind_ok_inv h
    split at h
    · simp at h
    obtain ⟨u2, -, h⟩ := bind_ok_inv h
    split at h
    · simp at h
    split at h
    · simp at h
    rw [mergeBody] at h
    obtain ⟨sh, -, h⟩ := bind_ok_inv h
    obtain ⟨⟨S, T⟩, -, h⟩ := bind_ok_inv h
    obtain ⟨⟨Va, Wr, Wa⟩, -, h⟩ := bind_ok_inv h
    obtain ⟨U, hU, h⟩ := bind_ok_inv h
    obtain ⟨⟨Sa, Ta⟩, -, h⟩ := bind_ok_inv h
    obtain ⟨P, hP, h⟩ := bind_ok_inv h
    obtain ⟨r, hr, h⟩ := bind_ok_inv h
    cases r with
    | error e => simp at h
    | ok c' =>
      injection h with h; injection h with h
      subst h
      have hUl : U.length = m + o + 3 := by
        rw [createMergedKnotVector, show a.curve.segments = .ok m from ha.pts_segments, ok_bind,
          show b.curve.segments = .ok o from hb.pts_segments, ok_bind] at hU
        obtain ⟨_, -, hU⟩ := bind_ok_inv hU
        obtain ⟨U1, e1, hU⟩ := bind_ok_inv hU
        obtain ⟨_, -, hU⟩ := bind_ok_inv hU
        obtain ⟨U2, e2, hU⟩ := bind_ok_inv hU
        obtain ⟨_, -, hU⟩ := bind_ok_inv hU
        injection hU with hU
        rw [← hU, List.length_map, setTail_inv e2, setSegment_inv e1]
        simp [zeros]; omega
      have hPl : P.length = m + 1 + (o + 1) - q ∧ q ≤ m + 1 + (o + 1) := by
        rw [generateMergedPoints, ha.pts_count, ok_bind, hb.pts_count, ok_bind,
          show a.curve.degree = q from ha.deg] at hP
        obtain ⟨len, e0, hP⟩ := bind_ok_inv hP
        have := usub_inv e0
        split at hP
        · obtain ⟨P1, e1, hP⟩ := bind_ok_inv hP
          obtain ⟨_, -, hP⟩ := bind_ok_inv hP
          obtain ⟨_, -, hP⟩ := bind_ok_inv hP
          obtain ⟨_, -, hP⟩ := bind_ok_inv hP
          obtain ⟨_, -, hP⟩ := bind_ok_inv hP
          rw [setSegment_inv hP, setSegment_inv e1]
          simp [zeroCols]; omega
        · simp at hP
      rw [show a.curve.degree = q from ha.deg] at hr
      have hle := ha.le
      have hle' := hb.le
      obtain ⟨n, -, hc⟩ := mkCurve_shaped hr (by omega)
      refine ⟨?_, _, _, hc⟩
      rw [hc]
      exact shaped_canon (by omega) (by omega) (by omega)

theorem unwrap_inv {ε α : Type} {r : Except ε α} {x : α} (h : unwrap r = .ok x) : r = .ok x := by
  cases r with
  | error e => simp [unwrap] at h
  | ok a => simpa [unwrap] using h

/-- every held curve has the right shape -/
theorem Held.shaped {c : Curve K d} (h : Held c) : ∃ p n, Shaped c p n := by
  have hR : ∀ {c₀ c : Curve K d}, (∃ p n, Shaped c₀ p n) → Reach c₀ c → ∃ p n, Shaped c p n := by
    rintro c₀ c ⟨p, n, h⟩ hr
    obtain ⟨m, hm⟩ := hr.shaped h
    exact ⟨p, m, hm⟩
  have hM : ∀ {solver : Solver K d} {a b : ConstrainedCurve K d} {c : Curve K d},
      (∃ p n, Shaped a.curve p n) → (∃ p n, Shaped b.curve p n) →
      mergeWithConstraints solver a b = .ok (.ok c) → ∃ p n, Shaped c p n := by
    rintro solver a b c ⟨p, n, ha⟩ ⟨q, o, hb⟩ e
    exact ⟨_, _, (merge_shaped ha hb e).2.1⟩
  induction h with
  | generated solver hg e =>
    obtain ⟨p, n, h, -⟩ := generate_shaped hg e
    exact ⟨p, n, h⟩
  | insert u _ e ih => exact hR ih (.insert u .start e)
  | insertTimes u x _ e ih => exact hR ih (.insertTimes u x .start e)
  | reverse _ e ih => exact hR ih (.reverse .start e)
  | splitLeft u norm _ e ih => exact hR ih (.splitLeft u norm .start e)
  | splitRight u norm _ e ih => exact hR ih (.splitRight u norm .start e)
  | merged solver ca cb _ _ e iha ihb => exact hM (a := ⟨_, ca⟩) (b := ⟨_, cb⟩) iha ihb e
  | append solver _ _ e iha ihb =>
    obtain ⟨r, h1, h2⟩ := bind_ok_inv e
    rw [unwrap_inv h2] at h1
    exact hM (a := ⟨_, _⟩) (b := ⟨_, _⟩) iha ihb h1
  | prepend solver _ _ e iha ihb =>
    obtain ⟨r, h1, h2⟩ := bind_ok_inv e
    rw [unwrap_inv h2] at h1
    exact hM (a := ⟨_, _⟩) (b := ⟨_, _⟩) ihb iha h1
  | appendConstrained solver ca cb _ _ e iha ihb =>
    obtain ⟨r, h1, h2⟩ := bind_ok_inv e
    rw [unwrap_inv h2] at h1
    exact hM (a := ⟨_, _⟩) (b := ⟨_, _⟩) iha ihb h1
  | prependConstrained solver ca cb _ _ e iha ihb =>
    obtain ⟨r, h1, h2⟩ := bind_ok_inv e
    rw [unwrap_inv h2] at h1
    exact hM (a := ⟨_, _⟩) (b := ⟨_, _⟩) ihb iha h1

/-- **C78** On every curve that a caller can hold after any sequence of generating, editing, splitting
and merging, with any arguments and in any arithmetic, the counts are consistent and none of
`evaluate_derivative`, `insert`, `insert_times`, `reverse` panics. -/
theorem C78_sessions_never_panic {c : Curve K d} (h : Held c) :
    (∀ u k, (Cmp.le 0 u = true ∧ Cmp.le u 1 = true → ∃ v, c.evaluateDerivative u k = .ok (.ok v)) ∧
      (¬ (Cmp.le 0 u = true ∧ Cmp.le u 1 = true) →
        c.evaluateDerivative u k = .ok (.error (.parameterOutOfBounds u 0 1)))) ∧
    (∀ u, ∃ c' r, c.insert u = .ok (c', r)) ∧
    (∀ u x, ∃ c' r, c.insertTimes u x = .ok (c', r)) ∧
    (∃ c', c.reverse = .ok c') ∧
    ∃ n V P, c.degree ≤ n ∧ c.segments = .ok n ∧ c.knots.segments = .ok n ∧
      c.knots.vector = .ok V ∧ V.length = n + c.degree + 2 ∧ c.points.matrix = .ok P ∧
      P.length = n + 1 := by
  obtain ⟨p, n, hm⟩ := h.shaped
  refine ⟨?_, ?_, ?_, ?_, n, _, _, ?_, hm.pts_segments, hm.segments, hm.vector, ?_, hm.matrix, ?_⟩
  · intro u k
    obtain ⟨h1, h2⟩ := hm.evaluate_total u k
    constructor
    · intro hb; exact h2 (by simp [hb.1, hb.2])
    · intro hb
      exact h1 (by
        cases ha : Cmp.le 0 u <;> cases hb' : Cmp.le u 1 <;> simp_all)
  · intro u
    obtain ⟨c', r, -, h1, -⟩ := hm.insert_shaped u
    exact ⟨c', r, by rw [Curve.insert_eq, h1]⟩
  · intro u x
    obtain ⟨c', r, -, h1, -⟩ := Shaped.insertTimes_shaped u x hm
    exact ⟨c', r, h1⟩
  · obtain ⟨c', h1, -⟩ := hm.reverse_shaped
    exact ⟨c', h1⟩
  · rw [show c.degree = p from hm.deg]; exact hm.le
  · rw [show c.degree = p from hm.deg, hm.lenU 0 (by omega)]; rfl
  · rw [hm.lenP 0 (by omega)]; rfl

/-- **C78** Whenever merging two held curves succeeds, both have the same degree, the result has it, too,
and `p` control points less than the two together. -/
theorem C78_merged_counts {solver : Solver K d} {a b c : Curve K d} {ca cb : Constraints K} (ha : Held a)
    (hb : Held b) (h : mergeWithConstraints solver ⟨a, ca⟩ ⟨b, cb⟩ = .ok (.ok c)) :
    ∃ na nb, a.points.count = .ok na ∧ b.points.count = .ok nb ∧ a.degree = b.degree ∧
      c.degree = a.degree ∧ c.points.count = .ok (na + nb - a.degree) := by
  obtain ⟨p, m, ha⟩ := ha.shaped
  obtain ⟨q, o, hb⟩ := hb.shaped
  obtain ⟨rfl, hc, -⟩ := merge_shaped (a := ⟨a, ca⟩) (b := ⟨b, cb⟩) ha hb h
  have h1 : a.degree = q := ha.deg
  have h2 : b.degree = q := hb.deg
  have h3 : c.degree = q := hc.deg
  have := ha.le
  have := hb.le
  refine ⟨m + 1, o + 1, ha.pts_count, hb.pts_count, by rw [h1, h2], by rw [h1, h3], ?_⟩
  rw [hc.pts_count, h1]
  congr 1
  omega

/-! ### Non-vacuity -/

/-- the session below takes no square root; any function will do -/
local instance sesSqrt : Sqrt ℚ := ⟨fun x => x⟩

/-- quadratic with uniform knots -/
def sesG : Generation ℚ 1 := .manual 2 (ControlPoints.new [fun _ => 0, fun _ => 1, fun _ => 3, fun _ => 2]) .uniform

/-- a session: generate, insert, reverse, append the generated curve to the result -/
def sesRun (solver : Solver ℚ 1) : Exec (Curve ℚ 1) := do
  let c ← generate solver sesG
  let c ← unwrap c
  let (e, _) ← c.insert (1 / 4)
  let e ← e.reverse
  c.append solver e

/-- the session ends without a panic; its result is held -/
example : ∃ c, sesRun ⟨fun A _ => List.replicate (ncols A) (fun _ => 0), by simp⟩ = .ok c ∧ Held c := by
  have h : (sesRun ⟨fun A _ => List.replicate (ncols A) (fun _ => 0), by simp⟩).isOk = true := by decide +kernel
  cases hr : sesRun ⟨fun A _ => List.replicate (ncols A) (fun _ => 0), by simp⟩ with
  | error e => rw [hr] at h; simp [Except.isOk, Except.toBool] at h
  | ok c =>
    refine ⟨c, rfl, ?_⟩
    rw [sesRun] at hr
    obtain ⟨c0, h0, hr⟩ := bind_ok_inv hr
    obtain ⟨c1, h1, hr⟩ := bind_ok_inv hr
    rw [unwrap_inv h1] at h0
    obtain ⟨⟨e, r⟩, h2, hr⟩ := bind_ok_inv hr
    obtain ⟨e', h3, hr⟩ := bind_ok_inv hr
    have hg : Held c1 := .generated (g := sesG) _ ⟨_, rfl, by rintro kn ⟨⟩⟩ h0
    exact .append _ hg (.reverse (.insert _ hg h2) h3) hr

end BSpline
