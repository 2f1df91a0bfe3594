import Verif.Refine.Relate
import Verif.Props.History
import Verif.Tests.Unit

/-!
# Divisions by zero and NaN: C53, C54

The model is run over `NF K`, where every division by zero yields `nan` (`Verif.Spec.NaN`).
-/

set_option linter.unusedSectionVars false

namespace BSpline

open List

section

variable {K : Type} [Field K] [LinearOrder K] {d : ℕ}

/-! ### From relations to equations -/

theorem PRel.eq {v : Pt (NF K) d} {w : Pt K d} (h : PRel (fun x y => x = NF.num y) v w) : v = mapPt NF.num w :=
  funext h

theorem pRel_mapPt (w : Pt K d) : PRel (fun x y => x = NF.num y) (mapPt NF.num w) w := fun _ => rfl

theorem curveRel_map (c : Curve K d) : CurveRel (fun x y => x = NF.num y) (c.map NF.num) c := by
  refine ⟨⟨?_, rfl, rfl⟩, ⟨?_, rfl⟩⟩
  · show Forall₂ _ (c.knots.Uk.map _) c.knots.Uk
    rw [forall₂_map_left_iff]
    exact forall₂_same.mpr fun U _ => forall₂_map_self U
  · show Forall₂ _ (c.points.Pk.map _) c.points.Pk
    rw [forall₂_map_left_iff]
    refine forall₂_same.mpr fun P _ => ?_
    rw [forall₂_map_left_iff]
    exact forall₂_same.mpr fun P _ => pRel_mapPt P

theorem CurveRel.eq {a : Curve (NF K) d} {b : Curve K d} (h : CurveRel (fun x y => x = NF.num y) a b) :
    a = b.map NF.num := by
  obtain ⟨⟨Uk, pp, km⟩, ⟨Pk, km'⟩⟩ := a
  obtain ⟨⟨h1, h2, h3⟩, ⟨h4, h5⟩⟩ := h
  have e1 : Uk = b.knots.Uk.map (·.map NF.num) := forall₂_eq_map (h1.imp fun _ _ h => forall₂_eq_map h)
  have e2 : Pk = b.points.Pk.map (·.map (mapPt NF.num)) :=
    forall₂_eq_map (h4.imp fun _ _ h => forall₂_eq_map (h.imp fun _ _ h => h.eq))
  dsimp only at h2 h3 h5
  subst e1 e2 h2 h3 h5
  rfl

theorem FitErrorRel.eq {a : FitError (NF K)} {b : FitError K}
    (h : FitErrorRel (fun x y => x = NF.num y) a b) : a = b.map NF.num := by
  cases h <;> first | rfl | (subst_vars; rfl)

theorem CurveErrorRel.eq {a : CurveError (NF K)} {b : CurveError K}
    (h : CurveErrorRel (fun x y => x = NF.num y) a b) : a = b.map NF.num := by
  cases h with
  | fit h => rw [h.eq]; rfl
  | _ => subst_vars; rfl

theorem InsertErrorRel.eq {a : InsertError (NF K)} {b : InsertError K}
    (h : InsertErrorRel (fun x y => x = NF.num y) a b) : a = b.map NF.num := by
  cases h <;> subst_vars <;> rfl

theorem SplitErrorRel.eq {a : SplitError (NF K)} {b : SplitError K}
    (h : SplitErrorRel (fun x y => x = NF.num y) a b) : a = b.map NF.num := by
  cases h with
  | curve h => rw [h.eq]; rfl
  | _ => subst_vars; rfl

theorem ResultRel.eq {ε ε' α β : Type} {E : ε → ε' → Prop} {R : α → β → Prop} {g : ε' → ε} {f : β → α}
    (hE : ∀ e e', E e e' → e = g e') (hR : ∀ a b, R a b → a = f b) {x : Except ε α} {y : Except ε' β}
    (h : ResultRel E R x y) : x = mapResult g f y := by
  cases h with
  | error h => rw [hE _ _ h]; rfl
  | ok h => rw [hR _ _ h]; rfl

/-! ### C53 -/

/-- **C53** Building a curve never divides by zero, whatever the knots and control points are. -/
theorem C53_new (p : ℕ) (U : List K) (P : List (Pt K d)) :
    mkCurve p (U.map NF.num) (P.map (mapPt NF.num)) =
      (mkCurve p U P).map (mapResult (CurveError.map NF.num) (Curve.map NF.num)) := by
  refine ERel.eq_map (ERel.mono (fun x y h => ResultRel.eq (fun _ _ h => CurveErrorRel.eq h)
    (fun _ _ h => CurveRel.eq h) h) (CurveRel.mkCurve follows_num (forall₂_map_self U) p ?_))
  rw [forall₂_map_left_iff]
  exact forall₂_same.mpr fun P _ => pRel_mapPt P

/-- **C53** Evaluating never divides by zero, whatever the curve is (its knots may even be
unsorted), for all parameters and derivatives. -/
theorem C53_evaluate (c : Curve K d) (u : K) (k : ℕ) :
    (c.map NF.num).evaluateDerivative (NF.num u) k =
      (c.evaluateDerivative u k).map (mapResult (CurveError.map NF.num) (mapPt NF.num)) :=
  ERel.eq_map (ERel.mono (fun _ _ h => ResultRel.eq (fun _ _ h => CurveErrorRel.eq h)
    (fun _ _ h => PRel.eq h) h) ((curveRel_map c).evaluateDerivative follows_num rfl k))

/-- **C53** Reversing does not divide at all. -/
theorem C53_reverse (c : Curve K d) : (c.map NF.num).reverse = c.reverse.map (Curve.map NF.num) :=
  ERel.eq_map (ERel.mono (fun _ _ h => CurveRel.eq h) ((curveRel_map c).reverse follows_num))

theorem insertRel_eq {x : Curve (NF K) d × Except (InsertError (NF K)) Unit}
    {y : Curve K d × Except (InsertError K) Unit}
    (h : CurveRel (fun x y => x = NF.num y) x.1 y.1 ∧
      ResultRel (InsertErrorRel (fun x y => x = NF.num y)) (fun _ _ => True) x.2 y.2) :
    x = Prod.map (Curve.map NF.num) (mapResult (InsertError.map NF.num) id) y := by
  obtain ⟨c, e⟩ := x
  obtain ⟨c', e'⟩ := y
  obtain ⟨h1, h2⟩ := h
  rw [Prod.map_apply, ← h1.eq]
  congr 1
  exact ResultRel.eq (fun _ _ h => InsertErrorRel.eq h) (fun _ _ _ => rfl) h2

end

variable {K : Type} [Field K] [LinearOrder K] [IsStrictOrderedRing K] {d : ℕ}

theorem lleq_le {U : ℕ → K} {u : K} (s : ℕ) : ∀ i, U i ≤ u → U (lleq U u s i) ≤ u := by
  induction s with
  | zero => intro i h; exact h
  | succ s ih =>
    intro i h
    simp only [lleq, Cmp.le, Cmp.eq, decide_eq_true_eq]
    split
    · rename_i h1
      split
      · exact h1
      · exact ih _ h1
    · exact h

/-- the divisors of an insertion, for any search result: the knots below `u` are repeated at most `p`
times -/
theorem safe_canon {p n : ℕ} {U : List K} {P : List (Pt K d)} (hU : ClampedKnots 0 1 p n U)
    {u : K} (h0 : 0 < u) (h1 : u < 1) (hx : ∀ x, 0 < x → x < u → U.count x ≤ max 1 p)
    (hm : ∀ m, (canonKnots p U).multiplicity u = .ok m → m ≤ p) : CurveRel.Safe (canon p U P) u := by
  intro V l i x y hV hl hli hil hxi hyi
  rw [canon_knots, canonKnots_vector] at hV
  injection hV with hV
  subst hV
  have hfi := findIdx_leftOrEqual_ok hU.length hU.le (Nat.zero_le p) u
  simp only [Nat.add_zero, Nat.sub_zero] at hfi
  rw [canon_knots, hfi] at hl
  injection hl with hl
  have hcount := hm _ (canonKnots_multiplicity hU.length hU.le u)
  rw [multF_eq_count hU h0 h1] at hcount
  have hb := lleq_bounds (fn U) u (n - p) p
  have hlu := lleq_le (U := fn U) (u := u) (n - p) p (by rw [hU.clamp.left p le_rfl]; exact h0.le)
  rw [hl] at hb hlu
  have hlen := hU.length
  have hle := hU.le
  change l - p < i at hli
  change idx U (i + p) = _ at hyi
  rw [idx_ok (by omega)] at hxi hyi
  injection hxi with hxi
  injection hyi with hyi
  rw [← hxi, ← hyi]
  intro he
  rcases Nat.eq_zero_or_pos p with hp | hp
  · omega
  have hc := hU.clamp
  have hpos : 0 < fn U i := he ▸ hc.a_lt (show p < i + p by omega)
  have hiu : fn U i ≤ u := (hc.mono hil).trans hlu
  have : p + 1 ≤ U.count (fn U i) := by
    apply run_le_count (lo := i) (by omega)
    intro m hm1 hm2
    apply le_antisymm
    · exact (hc.mono (show m ≤ i + p by omega)).trans he.le
    · exact hc.mono hm1
  rcases hiu.lt_or_eq with h | h
  · have := hx _ hpos h
    omega
  · rw [h] at this
    omega

/-- **C53** for insertion and splitting as claimed, for all valid curves -/
def C53_full : Prop := ∀ (p n d : ℕ) (U : List ℚ) (P : List (Pt ℚ d)) (c : Curve ℚ d) (u : ℚ),
  ValidOn 0 1 c p n U P →
    (c.map NF.num).insert (NF.num u) =
      (c.insert u).map (Prod.map (Curve.map NF.num) (mapResult (InsertError.map NF.num) id)) ∧
    split (c.map NF.num) (NF.num u) =
      (split c u).map (mapResult (SplitError.map NF.num) (Prod.map (Curve.map NF.num) (Curve.map NF.num)))

/-- **C53 (partial)** Inserting never divides by zero if no interior knot below `u` is repeated more
than `p` times. Missing: interior knots of multiplicity `p + 1`, where it does (`C53_full_false`). -/
theorem C53_insert_partial {c : Curve K d} {p n : ℕ} {U : List K} {P : List (Pt K d)}
    (hc : ValidOn 0 1 c p n U P) {u : K} (hx : ∀ x, 0 < x → x < u → U.count x ≤ max 1 p) :
    (c.map NF.num).insert (NF.num u) =
      (c.insert u).map (Prod.map (Curve.map NF.num) (mapResult (InsertError.map NF.num) id)) := by
  rw [Curve.insert_eq, Curve.insert_eq]
  refine ERel.eq_map (ERel.mono (fun _ _ h => insertRel_eq h)
    ((curveRel_map c).insert follows_num rfl fun hu hm => ?_))
  push Not at hu
  obtain rfl := hc.eq_canon
  exact safe_canon hc.2.1 hu.1 hu.2 hx hm

theorem insertTimes_keeps {p : ℕ} {u : K} {c' : Curve K d} {r} (x : ℕ) : ∀ {n : ℕ} {U : List K}
    {P : List (Pt K d)}, ClampedKnots 0 1 p n U → P.length = n + 1 → SimpleBelow U u →
    (canon p U P).insertTimes u x = .ok (c', r) →
    ∃ n' U' P', c' = canon p U' P' ∧ ClampedKnots 0 1 p n' U' ∧ P'.length = n' + 1 ∧ n ≤ n' ∧
      SimpleBelow U' u := by
  induction x with
  | zero =>
    intro n U P hU hP hr hi
    simp only [Curve.insertTimes, pure_ok, Except.ok.injEq, Prod.mk.injEq] at hi
    exact ⟨n, U, P, hi.1.symm, hU, hP, le_rfl, hr⟩
  | succ x ih =>
    intro n U P hU hP hr hi
    rw [Curve.insertTimes] at hi
    obtain ⟨⟨c1, r1⟩, h1, h2⟩ := bind_ok_inv hi
    have h1' := h1
    rw [← Curve.insert_eq] at h1
    obtain ⟨n1, U1, P1, rfl, hU1, hP1, hs1, hr1⟩ := insert_any hU hP hr h1
    have hn : n ≤ n1 := by
      obtain ⟨m, -, e1, e2, e3⟩ := C17_insert_total (wf_canon hU.length hP hU.le) u
      have key : ∀ {c : Curve K d} {n'}, canon p U1 P1 = c → Wf c p n' → n1 = n' := by
        rintro _ n' rfl hw
        obtain ⟨U2, P2, he, hl, -, -⟩ := hw.eq_canon
        have := congrArg (fun c : Curve K d => c.knots.vector) he
        simp only [canon_knots, canonKnots_vector] at this
        injection this with this
        have := hU1.length
        subst_vars
        omega
      by_cases hb : (Cmp.le u 0 || Cmp.le 1 u) = true
      · rw [e1 hb] at h1
        injection h1 with h1; injection h1 with h1 _
        exact (key h1.symm (wf_canon hU.length hP hU.le)).ge
      · rw [Bool.not_eq_true] at hb
        rcases Nat.lt_or_ge p m with hm | hm
        · rw [e2 hb hm] at h1
          injection h1 with h1; injection h1 with h1 _
          exact (key h1.symm (wf_canon hU.length hP hU.le)).ge
        · obtain ⟨c2, e, hw⟩ := e3 hb hm
          rw [e] at h1
          injection h1 with h1; injection h1 with h1 _
          rw [key h1.symm hw]; omega
    cases r1 with
    | error e =>
      simp only [pure_ok, Except.ok.injEq, Prod.mk.injEq] at h2
      exact ⟨n1, U1, P1, h2.1.symm, hU1, hP1, hn, hr1⟩
    | ok _ =>
      obtain ⟨n2, U2, P2, h3, hU2, hP2, hn2, hr2⟩ := ih hU1 hP1 hr1 h2
      exact ⟨n2, U2, P2, h3, hU2, hP2, hn.trans hn2, hr2⟩

/-- **C53** The same for `insert_times`, if no interior knot below `u` is repeated. -/
theorem C53_insert_times_partial {c : Curve K d} {p n : ℕ} {U : List K} {P : List (Pt K d)}
    (hc : ValidOn 0 1 c p n U P) {u : K} (hr : SimpleBelow U u) (x : ℕ) :
    (c.map NF.num).insertTimes (NF.num u) x =
      (c.insertTimes u x).map (Prod.map (Curve.map NF.num) (mapResult (InsertError.map NF.num) id)) := by
  refine ERel.eq_map (ERel.mono (fun _ _ h => insertRel_eq h)
    (CurveRel.insertTimes follows_num rfl x (curveRel_map c) fun j c' _ hj hu hm => ?_))
  push Not at hu
  obtain rfl := hc.eq_canon
  obtain ⟨n', U', P', rfl, hU', -, -, hr'⟩ := insertTimes_keeps j hc.2.1 hc.2.2 hr hj
  exact safe_canon hU' hu.1 hu.2 (fun x h1 h2 => (hr' x h1 h2).trans (le_max_left _ _)) hm

theorem insertUnwrapTimes_inv (u : K) (x : ℕ) : ∀ {c c' : Curve K d},
    insertUnwrapTimes c u x = .ok c' → c.insertTimes u x = .ok (c', .ok ()) := by
  induction x with
  | zero =>
    intro c c' h
    rw [insertUnwrapTimes, pure_ok] at h
    injection h with h
    rw [Curve.insertTimes, h]; rfl
  | succ x ih =>
    intro c c' h
    rw [insertUnwrapTimes] at h
    obtain ⟨⟨c1, r1⟩, h1, h2⟩ := bind_ok_inv h
    obtain ⟨w, h3, h4⟩ := bind_ok_inv h2
    rw [Curve.insertTimes, h1, ok_bind]
    cases r1 with
    | error e => simp [unwrap] at h3
    | ok _ => exact ih h4

/-- **C53 (partial)** Splitting never divides by zero if no interior knot below `u` is repeated,
whether or not the halves are normalized. Missing: as for insertion. -/
theorem C53_split_partial {c : Curve K d} {p n : ℕ} {U : List K} {P : List (Pt K d)}
    (hc : ValidOn 0 1 c p n U P) {u : K} (hr : SimpleBelow U u) (norm : Bool × Bool) :
    splitAndNormalize (c.map NF.num) (NF.num u) norm = (splitAndNormalize c u norm).map
      (mapResult (SplitError.map NF.num) (Prod.map (Curve.map NF.num) (Curve.map NF.num))) := by
  obtain rfl := hc.eq_canon
  obtain ⟨-, hU, hP⟩ := hc
  refine ERel.eq_map (ERel.mono (fun _ _ h => ResultRel.eq (fun _ _ h => SplitErrorRel.eq h)
    (fun a b h => ?_) h) ((curveRel_map _).splitAndNormalize follows_num rfl norm fun hu => ?_))
  · obtain ⟨a1, a2⟩ := a
    obtain ⟨b1, b2⟩ := b
    rw [Prod.map_apply, ← h.1.eq, ← h.2.eq]
  push Not at hu
  have hc := hU.clamp
  refine ⟨?_, ?_, ?_⟩
  · intro j c' hj hm
    obtain ⟨n', U', P', rfl, hU', -, -, hr'⟩ := insertTimes_keeps j hU hP hr hj
    exact safe_canon hU' hu.1 hu.2 (fun x h1 h2 => (hr' x h1 h2).trans (le_max_left _ _)) hm
  · intro c' V x l len hx hV _ _ hlen
    obtain ⟨n', U', P', rfl, hU', -, -, hr'⟩ := insertTimes_keeps x hU hP hr (insertUnwrapTimes_inv u x hx)
    rw [canon_knots, canonKnots_vector] at hV
    injection hV with hV
    subst hV
    have h1 : fn U' 0 ∈ U'.take len := by
      have := hU'.length
      rw [fn_lt (by omega), mem_take_iff_getElem]
      exact ⟨0, by omega, rfl⟩
    rw [hU'.clamp.left 0 (by omega)] at h1
    have h2 := vmin_le (l := U'.take len ++ [u]) (y := 0) (by simp [h1])
    have h3 := le_vmax (l := U'.take len ++ [u]) (y := u) (by simp)
    exact (lt_of_le_of_lt h2 (lt_of_lt_of_le hu.1 h3)).ne'
  · intro c' V x l frm hx hV _ hl hfrm
    obtain ⟨n', U', P', rfl, hU', -, hn, hr'⟩ := insertTimes_keeps x hU hP hr (insertUnwrapTimes_inv u x hx)
    rw [canon_knots, canonKnots_vector] at hV
    injection hV with hV
    subst hV
    have hfi := findIdx_leftOrEqual_ok hU.length hU.le (Nat.zero_le p) u
    simp only [Nat.add_zero, Nat.sub_zero] at hfi
    rw [canon_knots, hfi] at hl
    injection hl with hl
    have hb := lleq_bounds (fn U) u (n - p) p
    change lleq (fn U) u (n - p) p = l at hl
    have hle := hU.le
    have h1 : fn U' (n' + 1) ∈ U'.drop frm := by
      have := hU'.length
      rw [fn_lt (by omega), mem_drop_iff_getElem]
      exact ⟨n' + 1 - frm, by omega, by congr 1; omega⟩
    rw [hU'.clamp.right _ le_rfl] at h1
    have h2 := vmin_le (l := u :: U'.drop frm) (y := u) (by simp)
    have h3 := le_vmax (l := u :: U'.drop frm) (y := 1) (by simp [h1])
    exact (lt_of_le_of_lt h2 (lt_of_lt_of_le hu.2 h3)).ne'

/-- A linear curve with a double knot: inserting above this knot divides by zero. -/
theorem C53_full_false : ¬ C53_full := by
  intro h
  have := (h 1 3 1 [0, 0, 1 / 2, 1 / 2, 1, 1] (Tests.c1 [0, 1, 2, 3]) _ (3 / 4)
    (validOn_canon (by decide +kernel) rfl)).1
  revert this
  decide +kernel

/-- C53: a quadratic curve with a double knot below the inserted one -/
example : ((canon 2 [0, 0, 0, 1 / 2, 1 / 2, 1, 1, 1] (Tests.c1 [0, 1, 2, 3, 4])).map NF.num).insert
      (NF.num (3 / 4)) =
    ((canon 2 [0, 0, 0, 1 / 2, 1 / 2, 1, 1, 1] (Tests.c1 [0, 1, 2, 3, 4])).insert (3 / 4)).map
      (Prod.map (Curve.map NF.num) (mapResult (InsertError.map NF.num) id)) := by
  refine C53_insert_partial (n := 4) (validOn_canon (by decide +kernel) rfl) ?_
  · intro x h0 h1
    rcases eq_or_ne x (1 / 2) with rfl | h
    · decide +kernel
    · have : x ∉ [(0 : ℚ), 0, 0, 1 / 2, 1 / 2, 1, 1, 1] := by
        simp only [List.mem_cons, not_or, List.not_mem_nil]
        refine ⟨h0.ne', h0.ne', h0.ne', h, h, ?_, ?_, ?_, by simp⟩ <;>
          exact (lt_trans h1 (by norm_num)).ne
      rw [List.count_eq_zero.mpr this]; omega

/-- C53: `exC` (with the double knot `1/2`) at this knot -/
example : split (exC.map NF.num) (NF.num (1 / 2)) = (split exC (1 / 2)).map
    (mapResult (SplitError.map NF.num) (Prod.map (Curve.map NF.num) (Curve.map NF.num))) ∧
    ∃ x, split exC (1 / 2) = .ok (.ok x) := by
  refine ⟨C53_split_partial (n := 5) (P := exP) (validOn_canon (by decide +kernel) rfl)
    exU_simpleBelow (true, true), match split exC (1 / 2) with
      | .ok (.ok x) => x
      | _ => (exC, exC), by decide +kernel⟩

/-! ### C54 -/

section NaN

variable {K : Type} [Field K] [LinearOrder K] {d : ℕ}

/-- **C54** as claimed, for curves with matching counts -/
def C54_full : Prop := ∀ (p n d : ℕ) (c : Curve (NF ℚ) d), Wf c p n →
  (∃ e, c.evaluate NF.nan = .ok (.error e)) ∧ (∃ c' e, c.insert NF.nan = .ok (c', .error e)) ∧
  ∃ e, split c NF.nan = .ok (.error e)

/-- **C54** Evaluating at NaN returns an error, for all curves and derivatives. -/
theorem C54_evaluate_partial (c : Curve (NF K) d) (k : ℕ) :
    c.evaluateDerivative NF.nan k = .ok (.error (.parameterOutOfBounds NF.nan 0 1)) := rfl

theorem lleq_nan (U : ℕ → NF K) (s i : ℕ) : lleq U NF.nan s i = i := by
  cases s with
  | zero => rfl
  | succ s =>
    rw [lleq, if_neg]
    show ¬ (NF.cmp _ _ _ = true)
    cases U (i + 1) <;> simp [NF.cmp]

theorem eq_nan (x : NF K) : Cmp.eq x NF.nan = false := by cases x <;> rfl

theorem insert_nan {p n : ℕ} {U : List (NF K)} {P : List (Pt (NF K) d)} (hU : U.length = n + p + 2)
    (hP : P.length = n + 1) (hp : p ≤ n) : ∃ P', P'.length = n + 2 ∧
      BSpline.insert (canon p U P) NF.nan =
        .ok (canon p (U.take (p + 1) ++ NF.nan :: U.drop (p + 1)) P', .ok ()) := by
  have h := insert_ok (d := d) hU hP hp NF.nan
  have hm : multF p n U NF.nan = 0 := by
    rw [multF, List.length_eq_zero_iff, List.filter_eq_nil_iff]
    intro x _
    rw [eq_nan]; simp
  rw [hm, lleq_nan, if_neg (by simp [Cmp.le, NF.cmp]), if_neg (by omega)] at h
  exact ⟨_, by simp, h⟩

/-- **C54 (partial)** `insert` accepts NaN for every curve: it returns `Ok`, and NaN is among the knots. -/
theorem C54_insert_accepts {c : Curve (NF K) d} {p n : ℕ} {U : List (NF K)} {P : List (Pt (NF K) d)}
    (hc : Built c p U P) (hU : U.length = n + p + 2) (hP : P.length = n + 1) (hp : p ≤ n) :
    ∃ c', c.insert NF.nan = .ok (c', .ok ()) ∧ Wf c' p (n + 1) ∧
      c'.knots.vector = .ok (U.take (p + 1) ++ NF.nan :: U.drop (p + 1)) := by
  rw [Built, mkCurve_ok hP hp (by omega)] at hc
  injection hc with hc; injection hc with hc
  subst hc
  obtain ⟨P', hP', h⟩ := insert_nan hU hP hp
  rw [Curve.insert_eq]
  exact ⟨_, h, wf_canon (by simp; omega) hP' (by omega), by rw [canon_knots, canonKnots_vector]⟩

theorem insertTimes_nan {p : ℕ} (x : ℕ) : ∀ {n : ℕ} {U : List (NF K)} {P : List (Pt (NF K) d)},
    U.length = n + p + 2 → P.length = n + 1 → p ≤ n → ∃ P' U', P'.length = n + x + 1 ∧
      U'.length = n + x + p + 2 ∧ (canon p U P).insertTimes NF.nan x = .ok (canon p U' P', .ok ()) := by
  induction x with
  | zero => intro n U P hU hP hp; exact ⟨P, U, hP, hU, rfl⟩
  | succ x ih =>
    intro n U P hU hP hp
    obtain ⟨P1, hP1, h1⟩ := insert_nan hU hP hp
    obtain ⟨P2, U2, hP2, hU2, h2⟩ := ih (n := n + 1) (U := U.take (p + 1) ++ NF.nan :: U.drop (p + 1))
      (by simp; omega) hP1 (by omega)
    refine ⟨P2, U2, by omega, by omega, ?_⟩
    rw [Curve.insertTimes, h1]
    exact h2

/-- **C54 (partial)** `split` accepts NaN for every curve: it returns `Ok` with two curves of which the
right one begins with a NaN knot if it is not normalized. -/
theorem C54_split_accepts {c : Curve (NF K) d} {p n : ℕ} (hc : Wf c p n) (norm : Bool × Bool) :
    ∃ l r, splitAndNormalize c NF.nan norm = .ok (.ok (l, r)) ∧ Wf l p p ∧ Wf r p n ∧
      (norm.2 = false → ∃ V, r.knots.vector = .ok (NF.nan :: V)) := by
  obtain ⟨U, P, rfl, hU, hP, hp⟩ := hc.eq_canon
  obtain ⟨P', U', hP', hU', hi⟩ := insertTimes_nan (d := d) p hU hP hp
  have hfi := findIdx_leftOrEqual_ok hU hp (Nat.zero_le p) (NF.nan (K := K))
  simp only [Nat.sub_zero] at hfi
  rw [lleq_nan] at hfi
  refine ⟨canon p (normalizeIf norm.1 (U'.take (p + 1 + p) ++ [NF.nan])) (P'.take (p + 1)),
    canon p (normalizeIf norm.2 (NF.nan :: U'.drop (p + 1))) (P'.drop p), ?_, ?_, ?_, ?_⟩
  · have ht : (List.takeWhile (fun x => Cmp.eq x (NF.nan (K := K))) (U.drop p)).length = 0 := by
      cases U.drop p with
      | nil => rfl
      | cons x xs => rw [List.takeWhile_cons, eq_nan]; rfl
    rw [splitAndNormalize, if_neg (by simp [Cmp.le, NF.cmp]), canon_degree, canon_knots,
      hfi, ok_bind, canonKnots_vector, ok_bind]
    dsimp only
    rw [ht, if_neg (by omega), usub_ok (by omega), ok_bind, Nat.sub_zero, insertUnwrapTimes_ok _ _ hi,
      ok_bind, canon_knots, canonKnots_vector, ok_bind, canon_points, canonPts_matrix, ok_bind]
    rw [if_neg (by simp), if_neg (by simp), show p + p + 1 = p + 1 + p by omega,
      splitLeft_ok _ _ _ (by omega) (by omega) (by omega), ok_bind]
    dsimp only
    rw [splitRight_ok _ _ _ (by omega) (by omega) (by omega), ok_bind]
    rfl
  · exact wf_canon (by rw [normalizeIf_length]; simp; omega) (by simp; omega) le_rfl
  · exact wf_canon (by rw [normalizeIf_length]; simp; omega) (by simp; omega) hp
  · intro hn
    rw [hn]
    exact ⟨_, by rw [canon_knots, canonKnots_vector]; rfl⟩

theorem C54_full_false : ¬ C54_full := by
  intro h
  have hw : Wf (canon 1 [0, 0, 1, 1] [fun _ => 0, fun _ => 1] : Curve (NF ℚ) 1) 1 1 :=
    wf_canon rfl rfl le_rfl
  obtain ⟨-, -, e, he⟩ := h 1 1 1 _ hw
  obtain ⟨l, r, hs, -⟩ := C54_split_accepts hw (true, true)
  rw [split, hs] at he
  injection he with he
  cases he

/-- non-vacuity of C54: a curve, and what `insert(NaN)` makes of its knots -/
example : ∃ c' : Curve (NF ℚ) 1, (canon 1 [0, 0, 1, 1] [fun _ => 0, fun _ => 1]).insert NF.nan =
    .ok (c', .ok ()) ∧ c'.knots.vector = .ok [0, 0, NF.nan, 1, 1] := by
  obtain ⟨c', h1, -, h2⟩ := C54_insert_accepts (K := ℚ) (d := 1) (p := 1) (n := 1) (U := [0, 0, 1, 1])
    (P := [fun _ => 0, fun _ => 1]) (mkCurve_ok (n := 1) rfl le_rfl (by decide)) rfl rfl le_rfl
  exact ⟨c', h1, h2⟩

end NaN

end BSpline
