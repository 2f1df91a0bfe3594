import Verif.Props.InsertTimes
import Verif.Props.Careful
import Verif.Props.ConstructSharp

/-!
# How every call of `insert`, `insert_times`, `split_and_normalize` and `merge` ends: C118

C17, C18, C26, C29 and C83 are about curves with valid knots. Here the knots are arbitrary: unsorted,
not normalized, with NaN. Only the numbers of knots and points match, as they do for every curve that
a caller can hold (C78). Debug build.
-/

set_option linter.unusedSectionVars false

namespace BSpline

section LawFree

variable {K : Type} [Add K] [Sub K] [Mul K] [Div K] [Neg K] [Zero K] [One K] [NatCast K] [Cmp K]
variable {d : ℕ}

theorem Built.eq_canon' {c : Curve K d} {p n : ℕ} {U : List K} {P : List (Pt K d)} (hc : Built c p U P)
    (hU : U.length = n + p + 2) (hP : P.length = n + 1) (hp : p ≤ n) : c = canon p U P := by
  rw [Built, mkCurve_ok hP hp (by omega)] at hc
  injection hc with hc; injection hc with hc; exact hc.symm

/-- the knots of the domain which equal `u`, as `multiplicity` counts them -/
def domainCopies (p n : ℕ) (U : List K) (u : K) : ℕ :=
  ((List.range' p (n - p + 2)).filter fun i => (U[i]?.map fun x => Cmp.eq x u).getD false).length

theorem domainCopies_eq {p n : ℕ} {U : List K} (hU : U.length = n + p + 2) (u : K) (hp : p ≤ n) :
    domainCopies p n U u = multF p n U u := by
  rw [domainCopies, multF]
  have e : (U.drop p).take (n - p + 2) = (List.range' p (n - p + 2)).map (fun i => fn U i) := by
    apply List.ext_getElem
    · simp; omega
    · intro i h1 h2
      simp only [List.getElem_take, List.getElem_drop, List.getElem_map, List.getElem_range']
      simp only [List.length_take, List.length_drop] at h1
      rw [one_mul, fn_lt (by omega)]
  rw [e, List.filter_map, List.length_map]
  congr 1
  apply List.filter_congr
  intro i hi
  rw [List.mem_range'_1] at hi
  rw [List.getElem?_eq_getElem (by omega), ← fn_lt]
  rfl

/-- **C118** `insert(u)` on any curve with matching counts, in any arithmetic: never a panic, an error
exactly in these two cases, and then no effect. -/
theorem C118_insert {c : Curve K d} {p n : ℕ} {U : List K} {P : List (Pt K d)} (hc : Built c p U P)
    (hU : U.length = n + p + 2) (hP : P.length = n + 1) (hp : p ≤ n) (u : K) :
    if Cmp.le u 0 || Cmp.le 1 u then c.insert u = .ok (c, .error (.outOfBounds u 0 1))
    else if p < domainCopies p n U u then
      c.insert u = .ok (c, .error (.multiplicityError u (domainCopies p n U u) p))
    else ∃ c' U' P', c.insert u = .ok (c', .ok ()) ∧ Built c' p U' P' ∧ U'.Perm (u :: U) ∧
      P'.length = n + 2 := by
  obtain rfl := hc.eq_canon' hU hP hp
  rw [domainCopies_eq hU u hp, Curve.insert_eq, insert_ok hU hP hp]
  split
  · rfl
  split
  · rfl
  have hperm : (insU U u (lleq (fn U) u (n - p) p)).Perm (u :: U) := by
    rw [insU]
    refine List.perm_middle.trans ?_
    rw [List.take_append_drop]
  refine ⟨_, _, _, rfl, mkCurve_ok (n := n + 1) (by simp) (by omega) ?_, hperm, by simp⟩
  rw [hperm.length_eq, List.length_cons]; omega

/-- **C118** `insert_times(u, x)`: an error exactly if `u` is out of bounds or there would be more than
`p + 1` copies of `u`; for arithmetics and `u` with `u == u`. -/
theorem C118_insert_times {c : Curve K d} {p n : ℕ} {U : List K} {P : List (Pt K d)} (hc : Built c p U P)
    (hU : U.length = n + p + 2) (hP : P.length = n + 1) (hp : p ≤ n) {u : K} (hu : Cmp.eq u u = true)
    (x : ℕ) :
    (∃ c' e, c.insertTimes u x = .ok (c', .error e)) ↔
      0 < x ∧ ((Cmp.le u 0 || Cmp.le 1 u) = true ∨ p + 1 < domainCopies p n U u + x) := by
  obtain rfl := hc.eq_canon' hU hP hp
  rw [domainCopies_eq hU u hp]
  cases hb : (Cmp.le u 0 || Cmp.le 1 u) with
  | false => rw [insertTimes_error_iff hb hu x hU hP hp]; simp
  | true =>
    cases x with
    | zero =>
      constructor
      · rintro ⟨c', e, h⟩
        injection h with h; injection h with _ h; cases h
      · rintro ⟨h, -⟩; omega
    | succ x =>
      refine ⟨fun _ => ⟨by omega, Or.inl rfl⟩, fun _ => ⟨canon p U P, .outOfBounds u 0 1, ?_⟩⟩
      rw [Curve.insertTimes, insert_ok hU hP hp, if_pos hb]; rfl

/-- insertions of which one fails -/
theorem insertUnwrapTimes_error (u : K) (x : ℕ) : ∀ {c c' : Curve K d} {e : InsertError K},
    c.insertTimes u x = .ok (c', .error e) → insertUnwrapTimes c u x = .error .unwrap := by
  induction x with
  | zero =>
    intro c c' e h
    rw [Curve.insertTimes, pure_ok] at h
    injection h with h; injection h with _ h; cases h
  | succ x ih =>
    intro c c' e h
    rw [Curve.insertTimes] at h
    rw [insertUnwrapTimes]
    cases hi : BSpline.insert c u with
    | error e => rw [hi] at h; simp at h
    | ok r =>
      obtain ⟨c1, r⟩ := r
      rw [hi, ok_bind] at h
      cases r with
      | error e => rw [ok_bind]; rfl
      | ok _ =>
        rw [ok_bind]
        exact ih h

/-- the left part if the first knot of the domain is `u` -/
theorem splitLeft_short {p : ℕ} {U : List K} {P : List (Pt K d)} (u : K) (norm : Bool)
    (hp : 1 ≤ p) (h1 : p + p ≤ U.length) (h3 : p ≤ P.length) :
    splitLeft p U P u (p + p) true norm = .ok (.error (.degreeAndSegmentsMismatch p (p - 1))) := by
  rw [splitLeft, head_ok h1, ok_bind, setSegment_ok (by simp [zeros, h1]), ok_bind,
    setIdx_ok (by simp [zeros]), ok_bind]
  dsimp only
  rw [if_pos rfl]
  have hl : ∀ v : List K, v.length = p + p + 1 → (do
      let x ← usub (normalizeIf norm v).length (p + 2)
      let cols ← pure (x + 1)
      let Pl ← segment P 0 cols
      mkCurve p (normalizeIf norm v) Pl : Exec (Except (CurveError K) (Curve K d))) =
      .ok (.error (.degreeAndSegmentsMismatch p (p - 1))) := by
    intro v hv
    rw [normalizeIf_length, hv, usub_ok (by omega), ok_bind, pure_ok, ok_bind,
      show p + p + 1 - (p + 2) + 1 = p by omega, segment_ok (by omega), ok_bind, List.drop_zero]
    exact (C14_new_error_iff (n := p - 1) (by rw [normalizeIf_length, hv]; omega) (by simp; omega)).1 (by omega)
  refine hl _ ?_
  simp [zeros, h1]

/-- the right part if too many knots from its first one on are `u` -/
theorem splitRight_short {p q : ℕ} {U : List K} {P : List (Pt K d)} (u : K) (norm : Bool)
    (h1 : P.length + 1 < q + p + 1) (h2 : 1 ≤ q) (h3 : U.length = P.length + p + 1)
    (h4 : q + 1 ≤ P.length) :
    if P.length + 2 < q + p then ∃ e, splitRight p U P u q true norm = .error e
    else splitRight p U P u q true norm = .ok (.error (.degreeAndSegmentsMismatch p (P.length - q))) := by
  have e : splitRight p U P u q true norm =
      mkCurve p (normalizeIf norm (u :: U.drop q)) (P.drop (q - 1)) := by
    rw [splitRight, usub_ok (by omega), ok_bind]
    dsimp only
    rw [setIdx_ok (by simp [zeros]; omega), ok_bind, usub_ok (by omega), ok_bind, tail_ok (by omega),
      ok_bind, show U.length - (U.length - q) = q by omega]
    have e : setTail ((zeros (U.length + 1 - q) : List K).set 0 u) (U.drop q) = .ok (u :: U.drop q) := by
      rw [setTail, usub_ok (by simp [zeros]; omega), ok_bind, setSegment_ok (by simp [zeros]; omega)]
      congr 1
      rw [show ((zeros (U.length + 1 - q) : List K).set 0 u).length - (U.drop q).length = 1 by
        simp [zeros]; omega]
      rw [show U.length + 1 - q = (U.length - q) + 1 by omega]
      simp [zeros, List.replicate_succ]
    rw [e, ok_bind]
    have hl : (normalizeIf norm (u :: U.drop q)).length = U.length - q + 1 := by
      rw [normalizeIf_length]; simp
    rw [if_pos rfl, hl, usub_ok (by omega), ok_bind, pure_ok, ok_bind,
      show U.length - q + 1 - (p + 2) + 1 = P.length + 1 - q by omega, usub_ok (by omega), ok_bind,
      segment_ok (by omega), ok_bind, show P.length - (P.length + 1 - q) = q - 1 by omega,
      List.take_of_length_le (by simp; omega)]
  have hl : (normalizeIf norm (u :: U.drop q)).length = P.length + p + 2 - q := by
    rw [normalizeIf_length]; simp; omega
  rw [e]
  split
  · rw [mkCurve]
    cases hk : Knots.new p (normalizeIf norm (u :: U.drop q)) with
    | error e => exact ⟨e, rfl⟩
    | ok kn =>
      have := (C14_knots_iff p _).mp ⟨kn, hk⟩
      omega
  · exact (C14_new_error_iff (n := P.length - q) (by omega) (by simp; omega)).1 (by omega)

/-- **C118** `split_and_normalize(u)` on any curve with matching counts, in any arithmetic. Let `l` be
the knot which `find_idx` finds for `u` and `m` the number of knots from there on which equal `u`.
The call ends with `OutOfBounds`, `MultiplicityTooHigh`, a panic if the `p - m` insertions fail, an
error about degree and segments if `l` is the first knot of the domain and equals `u`, the same error
or a panic if the run of copies of `u` reaches beyond the domain, and otherwise with two curves: the
knots and points after the insertions up to and from `q` on, with one more copy of `u` at the cut. -/
theorem C118_split {c : Curve K d} {p n : ℕ} {U : List K} {P : List (Pt K d)} (hc : Built c p U P)
    (hU : U.length = n + p + 2) (hP : P.length = n + 1) (hp : p ≤ n) (u : K) (norm : Bool × Bool) :
    ∃ l, c.knots.findIdx u 0 .leftOrEqual = .ok l ∧ p ≤ l ∧ l ≤ n ∧
    let m := ((U.drop l).takeWhile (fun x => Cmp.eq x u)).length
    if Cmp.le u 0 || Cmp.le 1 u then
      splitAndNormalize c u norm = .ok (.error (.outOfBounds u 0 1))
    else if p < m then
      splitAndNormalize c u norm = .ok (.error (.multiplicityTooHigh u p m))
    else ((∃ c' e, c.insertTimes u (p - m) = .ok (c', .error e)) →
        splitAndNormalize c u norm = .error .unwrap) ∧
      (∀ c' U' P', c.insertTimes u (p - m) = .ok (c', .ok ()) → c'.knots.vector = .ok U' →
          c'.points.matrix = .ok P' →
        if 0 < m ∧ l = p then splitAndNormalize c u norm =
          .ok (.error (.curveError (.degreeAndSegmentsMismatch p (p - 1))))
        else if 0 < m ∧ n + 3 < l + m then ∃ e, splitAndNormalize c u norm = .error e
        else if 0 < m ∧ n + 1 < l + m then splitAndNormalize c u norm =
          .ok (.error (.curveError (.degreeAndSegmentsMismatch p (n + p + 1 - m - l))))
        else
          let q := if 0 < m then l else l + 1
          ∃ a b, splitAndNormalize c u norm = .ok (.ok (a, b)) ∧
            Built a p (normalizeIf norm.1 (U'.take (q + p) ++ [u])) (P'.take q) ∧
            Built b p (normalizeIf norm.2 (u :: U'.drop q)) (P'.drop (q - 1)) ∧
            (P'.take q).length = q ∧ (P'.drop (q - 1)).length = n + p + 2 - m - q) := by
  obtain rfl := hc.eq_canon' hU hP hp
  have hb := lleq_bounds (fn U) u (n - p) p
  have hfi := findIdx_leftOrEqual_ok hU hp (Nat.zero_le p) u
  simp only [Nat.add_zero, Nat.sub_zero] at hfi
  obtain ⟨l, hl⟩ : ∃ l, l = lleq (fn U) u (n - p) p := ⟨_, rfl⟩
  rw [← hl] at hfi hb
  refine ⟨l, hfi, hb.1, by omega, ?_⟩
  dsimp only
  obtain ⟨m, hm⟩ : ∃ m, m = ((U.drop l).takeWhile (fun x => Cmp.eq x u)).length := ⟨_, rfl⟩
  rw [← hm]
  have hstart : (Cmp.le u 0 || Cmp.le 1 u) = false → splitAndNormalize (canon p U P) u norm =
      (if p < m then .ok (.error (.multiplicityTooHigh u p m)) else do
        let times ← usub p m
        let b ← insertUnwrapTimes (canon p U P) u times
        let U ← b.knots.vector
        let P ← b.points.matrix
        let multPos := decide (0 < m)
        let left ← splitLeft p U P u (if multPos then l + p else l + p + 1) multPos norm.1
        match left with
        | .error e => pure (.error (.curveError e))
        | .ok left => do
          let right ← splitRight p U P u (if multPos then l else l + 1) multPos norm.2
          match right with
          | .error e => pure (.error (.curveError e))
          | .ok right => pure (.ok (left, right))) := by
    intro h
    rw [splitAndNormalize, if_neg (by rw [h]; simp), canon_degree, canon_knots, hfi, ok_bind,
      canonKnots_vector, ok_bind]
    dsimp only
    rw [← hm]
    rfl
  by_cases h0 : (Cmp.le u 0 || Cmp.le 1 u) = true
  · rw [if_pos h0, splitAndNormalize, if_pos h0]; rfl
  rw [if_neg h0]
  have hs := hstart (by simpa using h0)
  by_cases h1 : p < m
  · rw [if_pos h1, hs, if_pos h1]
  rw [if_neg h1]
  rw [if_neg h1, usub_ok (by omega), ok_bind] at hs
  constructor
  · rintro ⟨c', e, he⟩
    rw [hs, insertUnwrapTimes_error u _ he]; rfl
  intro c' V Q hc' hV hQ
  obtain ⟨c1, r, y, U', P', k1, k2, k3, k4, k5, k6, k7⟩ :=
    C18_insert_times (mkCurve_ok hP hp (by omega) : Built (canon p U P) p U P) hU hP hp u (p - m)
  rw [hc'] at k1
  injection k1 with k1; injection k1 with k1 k1'
  subst k1 k1'
  obtain ⟨-, rfl⟩ : _ ∧ y = p - m := by
    rcases k7 with h | ⟨e, h, -⟩
    · exact h
    · cases h
  have hU' : U'.length = (n + (p - m)) + p + 2 := by
    rw [k5.length_eq, List.length_append, List.length_replicate]; omega
  have hP' : P'.length = (n + (p - m)) + 1 := by omega
  obtain rfl := k4.eq_canon' hU' hP' (by omega)
  rw [canon_knots, canonKnots_vector] at hV
  rw [canon_matrix] at hQ
  injection hV with hV
  injection hQ with hQ
  subst hV hQ
  rw [insertUnwrapTimes_ok u _ hc', ok_bind, canon_knots, canonKnots_vector, ok_bind, canon_matrix,
    ok_bind] at hs
  dsimp only at hs
  have hbuilt : ∀ q, p + 1 ≤ q → q ≤ P'.length → ∀ b,
      Built (canon p (normalizeIf b (U'.take (q + p) ++ [u])) (P'.take q)) p
        (normalizeIf b (U'.take (q + p) ++ [u])) (P'.take q) := by
    intro q h1 h2 b
    exact mkCurve_ok (n := q - 1) (by simp; omega) (by omega) (by rw [normalizeIf_length]; simp; omega)
  have hbuilt' : ∀ q, 1 ≤ q → q + p ≤ P'.length → ∀ b,
      Built (canon p (normalizeIf b (u :: U'.drop q)) (P'.drop (q - 1))) p
        (normalizeIf b (u :: U'.drop q)) (P'.drop (q - 1)) := by
    intro q h1 h2 b
    exact mkCurve_ok (n := P'.length - q) (by simp; omega) (by omega) (by rw [normalizeIf_length]; simp; omega)
  by_cases hm0 : 0 < m
  · rw [decide_eq_true hm0] at hs
    simp only [if_true] at hs
    simp only [hm0, true_and, if_true]
    by_cases hlp : l = p
    · rw [if_pos hlp, hs, hlp, splitLeft_short u norm.1 (by omega) (by omega) (by omega)]; rfl
    rw [if_neg hlp]
    rw [splitLeft_ok u true norm.1 (by omega) (by omega) (by omega), ok_bind] at hs
    dsimp only at hs
    by_cases hr : n + 1 < l + m
    · have hsr := splitRight_short (p := p) (q := l) u norm.2 (U := U') (P := P') (by omega) (by omega) (by omega)
        (by omega)
      by_cases h3 : n + 3 < l + m
      · rw [if_pos h3]
        rw [if_pos (by omega)] at hsr
        obtain ⟨e, he⟩ := hsr
        rw [hs, he]; exact ⟨e, rfl⟩
      · rw [if_neg h3, if_pos hr, hs]
        rw [if_neg (by omega)] at hsr
        rw [hsr, show n + p + 1 - m - l = P'.length - l by omega]; rfl
    · rw [if_neg (by omega), if_neg hr, hs,
        splitRight_ok u true norm.2 (by omega) (by omega) (by omega)]
      exact ⟨_, _, rfl, hbuilt l (by omega) (by omega) _, hbuilt' l (by omega) (by omega) _,
        by simp; omega, by simp; omega⟩
  · obtain rfl : m = 0 := by omega
    rw [decide_eq_false (by omega)] at hs
    simp only [Bool.false_eq_true, if_false] at hs
    simp only [lt_irrefl, false_and, if_false]
    rw [show l + p + 1 = l + 1 + p by omega, splitLeft_ok u false norm.1 (by omega) (by omega) (by omega),
      ok_bind] at hs
    dsimp only at hs
    rw [hs, splitRight_ok u false norm.2 (by omega) (by omega) (by omega)]
    exact ⟨_, _, rfl, hbuilt (l + 1) (by omega) (by omega) _, hbuilt' (l + 1) (by omega) (by omega) _,
      by simp; omega, by simp; omega⟩

end LawFree

section Field
variable {K : Type} [Field K] [LinearOrder K] [IsStrictOrderedRing K] {d d₁ d₂ : ℕ}

/-- **C118** `merge_with_constraints(a, b)` on any two curves with matching counts, of any degrees and
dimensions and with any knots: the documented error if there is one, else a curve of the degree of `a`
if `m ≤ o < m + p` for the numbers `m + 1` and `o + 1` of control points, else a panic. -/
theorem C118_merge {p q m o : ℕ} {V W ua ub : List K} {S : List (Pt K d₁)} {T : List (Pt K d₂)}
    {a : Curve K d₁} {b : Curve K d₂} (ha : Built a p V S) (hb : Built b q W T)
    (hV : V.length = m + p + 2) (hS : S.length = m + 1) (hpm : p ≤ m)
    (hW : W.length = o + q + 2) (hT : T.length = o + 1) (hqo : q ≤ o) (solver : Solver K d₁) :
    (∀ e, mergeErrorOf p q d₁ d₂ V W ua.length ub.length = some e →
      mergeWithConstraints solver ⟨a, ⟨ua⟩⟩ ⟨b, ⟨ub⟩⟩ = .ok (.error e)) ∧
    (mergeErrorOf p q d₁ d₂ V W ua.length ub.length = none →
      if m ≤ o ∧ o < m + p then ∃ c, mergeWithConstraints solver ⟨a, ⟨ua⟩⟩ ⟨b, ⟨ub⟩⟩ = .ok (.ok c)
      else ∃ e, mergeWithConstraints solver ⟨a, ⟨ua⟩⟩ ⟨b, ⟨ub⟩⟩ = .error e) := by
  obtain rfl := ha.eq_canon' hV hS hpm
  obtain rfl := hb.eq_canon' hW hT hqo
  refine ⟨fun e he => (C28_errors solver ⟨canon p V S, ⟨ua⟩⟩ ⟨canon q W T, ⟨ub⟩⟩
    (canonKnots_vector V) (canonKnots_vector W)).1 e he, fun h => ?_⟩
  rw [mergeErrorOf] at h
  split at h
  · cases h
  rename_i h1
  split at h
  · cases h
  rename_i h2
  split at h
  · cases h
  rename_i h3
  split at h
  · cases h
  rename_i h4
  split at h
  · cases h
  rename_i h5
  push Not at h1 h2 h3 h4 h5
  subst h1 h2
  obtain ⟨ca, hca, hca'⟩ := C50_is_clamped (canonKnots_vector V)
  obtain ⟨cb, hcb, hcb'⟩ := C50_is_clamped (canonKnots_vector W)
  obtain ⟨na, hna, hna'⟩ := C50_is_normed (canonKnots_vector V)
  obtain ⟨nb, hnb, hnb'⟩ := C50_is_normed (canonKnots_vector W)
  obtain rfl := hca'.2 h3.1
  obtain rfl := hcb'.2 h3.2
  obtain rfl := hna'.2 h4.1
  obtain rfl := hnb'.2 h4.2
  exact C29_outcome_partial ha hb hV hS hpm hW hT hqo hca hcb hna hnb h5 solver

end Field

/-! ### Every case occurs -/

/-- the right half of a parabola with the knots as `split_and_normalize` returns them without
normalization -/
def rightHalf : Curve ℚ 1 := canon 2 [1/2, 1/2, 1/2, 1, 1, 1] (Tests.c1 [3/2, 5/2, 4])

example : splitAndNormalize (canon 2 [0, 0, 0, 1, 1, 1] (Tests.c1 [0, 1, 4])) (1/2) (false, false) =
    .ok (.ok (canon 2 [0, 0, 0, 1/2, 1/2, 1/2] (Tests.c1 [0, 1/2, 3/2]), rightHalf)) := by decide +kernel
/-- `1/2` is the first knot of the domain -/
example : splitAndNormalize rightHalf (1/2) (false, false) =
    .ok (.error (.curveError (.degreeAndSegmentsMismatch 2 1))) := by decide +kernel
example : splitAndNormalize rightHalf 1 (false, false) = .ok (.error (.outOfBounds 1 0 1)) := by decide +kernel
/-- the run of copies of `1/2` starts in the domain and ends beyond it -/
example : splitAndNormalize (canon 2 [0, 0, 0, 1/2, 1/2, 1, 1] (Tests.c1 [0, 1, 2, 3])) (1/2) (true, true) =
    .ok (.error (.curveError (.degreeAndSegmentsMismatch 2 1))) := by decide +kernel
example : splitAndNormalize (canon 4 [0, 0, 0, 0, 0, 1/2, 1/2, 1/2, 1/2, 1, 1] (Tests.c1 [0, 1, 2, 3, 4, 5]))
    (1/2) (true, true) = .error .underflow := by decide +kernel
/-- unsorted knots: one copy of `1/2` is found, four are counted, so the insertion fails -/
example : splitAndNormalize (canon 2 [0, 0, 0, 1/2, 1/4, 1/2, 1/4, 1/2, 1, 1, 1] (Tests.c1 [0, 1, 2, 3, 4, 5, 6, 7]))
    (1/2) (true, true) = .error .unwrap := by decide +kernel
example : (rightHalf.insert (1/2)).map Prod.snd = .ok (.ok ()) := by decide +kernel
example : (rightHalf.insertTimes (1/2) 3).map Prod.snd = .ok (.error (.multiplicityError (1/2) 3 2)) := by
  decide +kernel
end BSpline
