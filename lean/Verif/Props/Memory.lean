import Verif.Props.Release
import Verif.Props.Merge
import Verif.Props.KnotsSharp
import Verif.Props.ConstructSharp

/-!
# Accesses outside of buffers in release builds: C121

In a release build a subtraction below zero wraps, and so does the sum with which nalgebra checks the range
of a view. The two can cancel.
-/

set_option linter.unusedSectionVars false

namespace BSpline

section Views
variable {α : Type}

theorem wadd_lt {a b : ℕ} (h : a + b < 2 ^ 64) : wadd a b = a + b := Nat.mod_eq_of_lt h

theorem wadd_ge {a b : ℕ} (h : 2 ^ 64 ≤ a + b) (h' : a + b < 2 ^ 64 + 2 ^ 64) : wadd a b = a + b - 2 ^ 64 := by
  rw [wadd, Nat.mod_eq_sub_mod h, Nat.mod_eq_of_lt (by omega)]

theorem wsub_le {a b : ℕ} (h : b ≤ a) : wsub a b = a - b := if_pos h

theorem wsub_gt {a b : ℕ} (h : a < b) : wsub a b = 2 ^ 64 + a - b := if_neg (by omega)

theorem inside_of {w : View α} (hl : w.buffer.length < 2 ^ 64) (h : w.start + w.len ≤ w.buffer.length) :
    w.Inside := by
  intro i hi
  rw [wadd_lt (by omega)]
  omega

/-- **C121** The range check of a view: it suffices if the sum of start and length does not wrap; if the sum
wraps and the check passes, the view contains elements which are not in the buffer. -/
theorem C121_view {v : List α} {start n : ℕ} (hv : v.length < 2 ^ 64) (hs : start < 2 ^ 64) (hn : n < 2 ^ 64) :
    (start + n ≤ v.length → ∃ w, view v start n = .ok w ∧ w.read = .ok ((v.drop start).take n) ∧
      ∀ i < n, ∃ x, v[start + i]? = some x ∧ w.get i = .ok x) ∧
    (v.length < start + n → start + n < 2 ^ 64 → view v start n = .error (.panic .view)) ∧
    (2 ^ 64 ≤ start + n → v.length < start + n - 2 ^ 64 → view v start n = .error (.panic .view)) ∧
    (2 ^ 64 ≤ start + n → start + n - 2 ^ 64 ≤ v.length → ∃ w, view v start n = .ok w ∧
      w.read = .error .outside ∧ ∃ i < n, w.get i = .error .outside) := by
  refine ⟨fun h => ?_, fun h h' => ?_, fun h h' => ?_, fun h h' => ?_⟩
  · refine ⟨⟨v, start, n⟩, ?_, ?_, ?_⟩
    · rw [view, wadd_lt (by omega), if_pos h]
    · rw [View.read, if_pos (inside_of hv h)]
    · intro i hi
      refine ⟨_, List.getElem?_eq_getElem (by omega), ?_⟩
      rw [View.get, if_pos hi]
      dsimp only
      rw [wadd_lt (by omega), List.getElem?_eq_getElem (by omega)]
  · rw [view, wadd_lt h', if_neg (by omega)]
  · rw [view, wadd_ge h (by omega), if_neg (by omega)]
  · obtain ⟨i, hi, hw⟩ : ∃ i < n, v.length ≤ wadd start i := by
      by_cases hsv : v.length ≤ start
      · exact ⟨0, by omega, by rw [wadd_lt (by omega)]; omega⟩
      · exact ⟨v.length - start, by omega, by rw [wadd_lt (by omega)]; omega⟩
    refine ⟨⟨v, start, n⟩, ?_, ?_, i, hi, ?_⟩
    · rw [view, wadd_ge h (by omega), if_pos h']
    · rw [View.read, if_neg]
      intro hin
      have : wadd start i < v.length := hin i hi
      omega
    · rw [View.get, if_pos hi]
      dsimp only
      rw [List.getElem?_eq_none hw]

/-- **C121** `tail(n)`: the last `n` elements if there are as many. Otherwise a debug build panics, and in a
release build all checks pass and the first `n - len` elements lie before the buffer; writing to
`tail_mut(n)` writes there. -/
theorem C121_tail {v : List α} {n : ℕ} (hv : v.length < 2 ^ 64) (hn : n < 2 ^ 64) :
    (n ≤ v.length → ∃ w, tailView v n = .ok w ∧ w.read = .ok (v.drop (v.length - n)) ∧
      tail v n = .ok (v.drop (v.length - n)) ∧
      ∀ src : List α, src.length = n → w.write src = .ok (v.take (v.length - n) ++ src) ∧
        setTail v src = .ok (v.take (v.length - n) ++ src)) ∧
    (v.length < n → tail v n = .error .underflow ∧ ∃ w, tailView v n = .ok w ∧ w.read = .error .outside ∧
      (∀ i < n - v.length, w.get i = .error .outside) ∧
      ∀ src : List α, src.length = n → w.write src = .error .outside ∧ setTail v src = .error .underflow) := by
  constructor
  · intro h
    obtain ⟨w, h1, h2, -⟩ := (C121_view (start := v.length - n) (n := n) hv (by omega) hn).1 (by omega)
    have hw : w = ⟨v, v.length - n, n⟩ := by
      rw [view] at h1
      split at h1
      · injection h1 with h1; exact h1.symm
      · cases h1
    have ht : (v.drop (v.length - n)).take n = v.drop (v.length - n) :=
      List.take_of_length_le (by rw [List.length_drop]; omega)
    refine ⟨w, by rw [tailView, wsub_le h]; exact h1, by rw [h2, ht], ?_, ?_⟩
    · rw [tail, usub_ok h, ok_bind, segment, if_pos (by omega), ht]
    · intro src hsrc
      constructor
      · rw [hw, View.write, if_pos hsrc, if_pos (inside_of hv (by dsimp only; omega))]
        dsimp only
        rw [List.drop_of_length_le (by omega), List.append_nil]
      · rw [setTail, hsrc, usub_ok h, ok_bind, setSegment, if_pos (by omega),
          List.drop_of_length_le (by omega), List.append_nil]
  · intro h
    have hg : ∀ i < n - v.length, wadd (2 ^ 64 + v.length - n) i = 2 ^ 64 + v.length - n + i :=
      fun i hi => wadd_lt (by omega)
    have hno : ¬ (⟨v, 2 ^ 64 + v.length - n, n⟩ : View α).Inside := by
      intro hin
      have : wadd (2 ^ 64 + v.length - n) 0 < v.length := hin 0 (by dsimp only; omega)
      rw [hg 0 (by omega)] at this
      omega
    refine ⟨by rw [tail, usub_error h]; rfl, ⟨v, 2 ^ 64 + v.length - n, n⟩, ?_, ?_, ?_, ?_⟩
    · rw [tailView, wsub_gt h, view, wadd_ge (by omega) (by omega), if_pos (by omega)]
    · rw [View.read, if_neg hno]
    · intro i hi
      rw [View.get, if_pos (by dsimp only; omega)]
      dsimp only
      rw [hg i hi, List.getElem?_eq_none (by omega)]
    · intro src hsrc
      exact ⟨by rw [View.write, if_pos hsrc, if_neg hno], by rw [setTail, hsrc, usub_error h]; rfl⟩

end Views

variable {K : Type} [Add K] [Sub K] [Mul K] [Div K] [Neg K] [Zero K] [One K] [NatCast K] [IntCast K] [Cmp K]
  {d : ℕ}

/-- **C121** `internal_knot(i)` of knots which the constructor accepts. With at least `2p + 2` knots release
builds do what debug builds do. With `2p` or `2p + 1` knots a debug build panics; in a release build every
index below `2^64 - 2` passes the checks, and the elements which are not in the vector are read, too. -/
theorem C121_internal_knot {p : ℕ} {U : List K} {kn : Knots K} (hkn : Knots.new p U = .ok kn) (hne : U ≠ [])
    (hU : U.length < 2 ^ 63) (i : ℕ) (hi : p + 1 + i < 2 ^ 64) :
    (2 * p + 2 ≤ U.length → kn.internalKnotRelease i = Mem.of (kn.internalKnot i)) ∧
    (U.length < 2 * p + 2 → kn.internalKnot i = .error .underflow ∧
      (p + 1 + i < U.length → ∃ x, U[p + 1 + i]? = some x ∧ kn.internalKnotRelease i = .ok x) ∧
      (U.length ≤ p + 1 + i → i < 2 ^ 64 - 2 → kn.internalKnotRelease i = .error .outside)) := by
  have hlen : 2 * p ≤ U.length := (C14_knots_iff p U).mp ⟨kn, hkn⟩
  have hlen' := List.length_pos_of_ne_nil hne
  rw [Knots.new_ok hlen] at hkn
  injection hkn with hkn
  subst hkn
  have h0 : idx (canonKnots p U).Uk 0 = .ok U := canonKnots_vector U
  have hp : (canonKnots p U).p = p := rfl
  constructor
  · intro h
    have hw : wsub (wsub U.length (p + 2)) p = U.length - (p + 2) - p := by
      rw [wsub_le (show p + 2 ≤ U.length by omega), wsub_le (by omega)]
    have e1 : (canonKnots p U).internalView = .ok ⟨U, p + 1, U.length - (p + 2) - p⟩ := by
      rw [Knots.internalView, h0, hp]
      show view U (p + 1) _ = _
      rw [hw, view, wadd_lt (by omega), if_pos (by omega)]
    have e2 : (canonKnots p U).internal = .ok ((U.drop (p + 1)).take (U.length - (p + 2) - p)) := by
      rw [Knots.internal, h0, ok_bind, Knots.internalCount, Knots.segments, Knots.segmentsDerivative, h0, ok_bind, hp,
        usub_ok (by omega), ok_bind, usub_ok (by omega), ok_bind, usub_ok (by omega), ok_bind, segment,
        if_pos (by omega)]
      simp
    rw [Knots.internalKnotRelease, e1, Knots.internalKnot, e2]
    show View.get _ i = Mem.of (idx _ i)
    rw [View.get, idx]
    dsimp only
    split
    · rw [wadd_lt (by omega), List.getElem?_take_of_lt (by omega), List.getElem?_drop,
        List.getElem?_eq_getElem (by omega)]
      rfl
    · rw [List.getElem?_eq_none (by rw [List.length_take]; omega)]
      rfl
  · intro h
    have e2 : (canonKnots p U).internalKnot i = .error .underflow := by
      rw [Knots.internalKnot, Knots.internal, h0, ok_bind, Knots.internalCount, Knots.segments,
        Knots.segmentsDerivative, h0, ok_bind, hp, usub_ok (by omega), ok_bind]
      rcases Nat.lt_or_ge U.length (p + 2) with h2 | h2
      · rw [usub_error (by omega)]; rfl
      · rw [usub_ok (by omega), ok_bind, usub_error (by omega)]; rfl
    have hw : wsub (wsub U.length (p + 2)) p = 2 ^ 64 + U.length - (2 * p + 2) := by
      rcases Nat.lt_or_ge U.length (p + 2) with h2 | h2
      · rw [wsub_gt h2, wsub_le (by omega)]; omega
      · rw [wsub_le h2, wsub_gt (by omega)]; omega
    have e1 : (canonKnots p U).internalView = .ok ⟨U, p + 1, 2 ^ 64 + U.length - (2 * p + 2)⟩ := by
      rw [Knots.internalView, h0, hp]
      show view U (p + 1) _ = _
      rw [hw, view]
      rw [wadd_ge (by omega) (by omega), if_pos (by omega)]
    refine ⟨e2, ?_, ?_⟩
    all_goals
      rw [Knots.internalKnotRelease, e1]
      intro h4
    · refine ⟨_, List.getElem?_eq_getElem h4, ?_⟩
      show View.get _ i = _
      rw [View.get]
      dsimp only
      rw [if_pos (by omega), wadd_lt hi, List.getElem?_eq_getElem h4]
    · intro h5
      show View.get _ i = _
      rw [View.get]
      dsimp only
      rw [if_pos (by omega), wadd_lt hi, List.getElem?_eq_none h4]

/-- **C121** `domain` of the same knots: here the sum wraps back, and release builds return the knots from
`p` to `n + 1` also where debug builds panic. -/
theorem C121_domain {p : ℕ} {U : List K} {kn : Knots K} (hkn : Knots.new p U = .ok kn) (hne : U ≠ [])
    (hU : U.length < 2 ^ 63) :
    ∃ w, kn.domainView = .ok w ∧ w.read = .ok ((U.drop p).take (U.length - 2 * p)) ∧
      (2 * p + 2 ≤ U.length → kn.domain = .ok ((U.drop p).take (U.length - 2 * p))) ∧
      (U.length < 2 * p + 2 → kn.domain = .error .underflow) := by
  have hlen : 2 * p ≤ U.length := (C14_knots_iff p U).mp ⟨kn, hkn⟩
  have hlen' := List.length_pos_of_ne_nil hne
  rw [Knots.new_ok hlen] at hkn
  injection hkn with hkn
  subst hkn
  have h0 : idx (canonKnots p U).Uk 0 = .ok U := canonKnots_vector U
  have hp : (canonKnots p U).p = p := rfl
  have hw : wadd (wsub (wsub U.length (p + 2)) p) 2 = U.length - 2 * p := by
    rcases Nat.lt_or_ge U.length (p + 2) with h2 | h2
    · rw [wsub_gt h2, wsub_le (by omega), wadd_ge (by omega) (by omega)]; omega
    · rcases Nat.lt_or_ge U.length (2 * p + 2) with h3 | h3
      · rw [wsub_le h2, wsub_gt (by omega), wadd_ge (by omega) (by omega)]; omega
      · rw [wsub_le h2, wsub_le (by omega), wadd_lt (by omega)]; omega
  obtain ⟨w, h1, h2, -⟩ := (C121_view (v := U) (start := p) (n := U.length - 2 * p) (by omega) (by omega)
    (by omega)).1 (by omega)
  refine ⟨w, ?_, h2, ?_, ?_⟩
  · rw [Knots.domainView, h0, hp]
    show view U p _ = _
    rw [hw, h1]
  all_goals
    intro h
    rw [Knots.domain, Knots.domainDerivative, h0, ok_bind, hp, usub_ok (by omega), ok_bind, Knots.domainCount,
      Knots.segments, Knots.segmentsDerivative, h0, ok_bind, hp, usub_ok (by omega), ok_bind]
  · rw [usub_ok (by omega), ok_bind, usub_ok (by omega), ok_bind, pure_ok, ok_bind, segment, if_pos (by omega)]
    congr 3
    omega
  · rcases Nat.lt_or_ge U.length (p + 2) with h2 | h2
    · rw [usub_error (by omega)]; rfl
    · rw [usub_ok (by omega), ok_bind, usub_error (by omega)]; rfl

/-! ### `find_idx` -/

/-- a result or another panic than `underflow` and `debugAssert` is the same in every build -/
theorem SameRun.eq {α : Type} {x y : Exec α} (h : SameRun x y) (h1 : x ≠ .error .underflow)
    (h2 : x ≠ .error .debugAssert) : y = x := by
  rcases h.out with h | h | h
  · exact absurd h h1
  · exact absurd h h2
  · exact h

theorem roe_zero (β : Build) (U : List K) (u : K) (i : ℕ) : @Knots.loopRightOrEqual K _ β U u 0 i = (do
    let j ← @usub β i 1
    let x ← idx U j
    if Cmp.le u x then pure i else pure i) := by
  rw [@Knots.loopRightOrEqual.eq_def]

theorem roe_succ (β : Build) (U : List K) (u : K) (r i : ℕ) : @Knots.loopRightOrEqual K _ β U u (r + 1) i = (do
    let j ← @usub β i 1
    let x ← idx U j
    if Cmp.le u x then do
      let i' ← @usub β i 1
      let j' ← @usub β i' 1
      let a ← idx U j'
      let b ← idx U i'
      if Cmp.eq a b then pure i' else @Knots.loopRightOrEqual K _ β U u r i'
    else pure i) := by
  rw [@Knots.loopRightOrEqual.eq_def]

theorem idx_error_index {α : Type} {v : List α} {j : ℕ} {e : Panic} (h : idx v j = .error e) : e = .index := by
  rw [idx] at h
  split at h
  · cases h
  · injection h with h; exact h.symm

theorem loopRightOrEqual_release {U : List K} (hU : U.length < 2 ^ 64) (u : K) (r : ℕ) : ∀ i,
    Knots.loopRightOrEqual U u r i = .error .underflow →
    @Knots.loopRightOrEqual K _ Build.release U u r i = .error .index := by
  have hout : idx U (2 ^ 64 - 1) = .error .index := by
    rw [idx, List.getElem?_eq_none (by omega)]
  have hrel : @usub Build.release 0 1 = .ok (2 ^ 64 - 1) := rfl
  induction r with
  | zero =>
    intro i h
    rw [roe_zero] at h ⊢
    rcases Nat.eq_zero_or_pos i with rfl | hi
    · rw [hrel, ok_bind, hout]; rfl
    · exfalso
      rw [usub_ok hi, ok_bind] at h
      rcases hx : idx U (i - 1) with e | x
      · rw [hx] at h
        obtain rfl := idx_error_index hx
        cases h
      · rw [hx, ok_bind] at h
        split at h <;> cases h
  | succ r ih =>
    intro i h
    rw [roe_succ] at h ⊢
    rcases Nat.eq_zero_or_pos i with rfl | hi
    · rw [hrel, ok_bind, hout]; rfl
    · rw [usub_ok hi, ok_bind] at h
      rw [@usub_ok Build.release _ _ hi, ok_bind]
      rcases hx : idx U (i - 1) with e | x
      · rw [hx] at h
        obtain rfl := idx_error_index hx
        cases h
      · rw [hx, ok_bind] at h
        rw [ok_bind]
        split at h
        · rename_i hle
          rw [if_pos hle]
          rw [ok_bind] at h ⊢
          rcases Nat.eq_zero_or_pos (i - 1) with h0 | h0
          · rw [h0, hrel, ok_bind, hout]; rfl
          · rw [usub_ok h0, ok_bind] at h
            rw [@usub_ok Build.release _ _ h0, ok_bind]
            rcases hy : idx U (i - 1 - 1) with e | y
            · rw [hy] at h
              obtain rfl := idx_error_index hy
              cases h
            · rw [hy, ok_bind, hx, ok_bind] at h
              rw [ok_bind, hx, ok_bind]
              split at h
              · cases h
              · rename_i hne
                rw [if_neg hne]
                exact ih _ h
        · cases h

/-- **C121** `find_idx` has no such access: release builds panic exactly where debug builds do (see
`C46_panics_iff`), and return the same index otherwise. -/
theorem C121_find_idx {p n k : ℕ} {U : List K} (hU : U.length = n + p + 2) (hp : p ≤ n) (hk : k ≤ p)
    (h64 : U.length < 2 ^ 64) {kn : Knots K} (hkn : Knots.new p U = .ok kn) (u : K) (c : Comparator) :
    (∀ i, kn.findIdx u k c = .ok i → @Knots.findIdx K _ Build.release kn u k c = .ok i) ∧
    ((∃ e, kn.findIdx u k c = .error e) → @Knots.findIdx K _ Build.release kn u k c = .error .index) := by
  constructor
  · intro i h
    have hs : builds% Build.release, kn.findIdx u k c := inferInstance
    rw [hs.eq (by rw [h]; simp) (by rw [h]; simp), h]
  · rintro ⟨e, he⟩
    by_cases hc : c = .rightOrEqual → k < p
    · obtain ⟨i, hi, -⟩ := C46_never_panics_partial hU hp hk hkn u c hc
      rw [hi] at he
      cases he
    · push Not at hc
      obtain ⟨rfl, hkp⟩ := hc
      obtain rfl : k = p := by omega
      rw [Knots.new_ok (by omega)] at hkn
      injection hkn with hkn
      subst hkn
      have hl := dvec_length U k
      rw [canon_findIdx hU hp le_rfl] at he
      dsimp only at he
      obtain ⟨g1, -⟩ := loopRightOrEqual_error_iff (V := dvec U k) (u := u) (n - k + 1) (n + 1 - k) (by omega)
        (by omega) (by omega)
      have he : Knots.loopRightOrEqual (dvec U k) u (n - k + 1) (n + 1 - k) = .error .underflow := by
        rcases g1 with g | ⟨j, g⟩
        · exact g
        · rw [g] at he; cases he
      have hd : @usub Build.release (canonKnots k U).degree k = .ok (k - k) := @usub_ok Build.release _ _ le_rfl
      rw [@Knots.findIdx.eq_def, canon_vectorDerivative le_rfl, ok_bind, hd, ok_bind]
      dsimp only
      rw [@usub_ok Build.release _ _ (show 1 ≤ (dvec U k).length by omega), ok_bind,
        @usub_ok Build.release _ _ (show k - k ≤ (dvec U k).length - 1 by omega), ok_bind,
        show (dvec U k).length - 1 - (k - k) = n + 1 - k by omega, show n + 1 - k - (k - k) = n - k + 1 by omega]
      exact loopRightOrEqual_release (by omega) u _ _ he

/-! ### Merging -/

theorem Mem.of_ok {α : Type} {x y : Exec α} {a : α} (h : SameRun x y) (hx : x = .ok a) : Mem.of y = .ok a := by
  rw [h.eq (by rw [hx]; simp) (by rw [hx]; simp), hx]; rfl

theorem mem_ok_bind {α β : Type} (a : α) (f : α → Mem β) : ((Except.ok a : Mem α) >>= f) = f a := rfl

theorem view_ok {α : Type} {v : List α} {s n : ℕ} (hv : v.length < 2 ^ 64) (h : s + n ≤ v.length) :
    view v s n = .ok ⟨v, s, n⟩ := by
  rw [view, wadd_lt (by omega), if_pos h]

section
variable {p m o : ℕ} {V W : List K} {S T Sa Ta : List (Pt K d)}

theorem generateMergedPointsRelease_eq (hS : S.length = m + 1) (hT : T.length = o + 1) (hpm : p ≤ m) (hpo : p ≤ o)
    (hSa : Sa.length = m + 1) (hTa : Ta.length = m + 1) (h1 : 1 ≤ p) (h64 : m + o + 2 < 2 ^ 64) :
    generateMergedPointsRelease (canon p V S) (canon p W T) Sa Ta =
      if o < m + p then Mem.of (generateMergedPoints (canon p V S) (canon p W T) Sa Ta) else .error .outside := by
  have c1 : (canon p V S).points.count = .ok (m + 1) := by
    simp [ControlPoints.count, ControlPoints.countDerivative, canonPts_idx_zero, hS]
  have c2 : (canon p W T).points.count = .ok (o + 1) := by
    simp [ControlPoints.count, ControlPoints.countDerivative, canonPts_idx_zero, hT]
  have hz : (zeroCols d (m + 1 + (o + 1) - p) : List (Pt K d)).length = m + o + 2 - p := by
    rw [zeroCols, List.length_replicate]; omega
  rw [generateMergedPointsRelease, generateMergedPoints, c1, c2, canon_degree]
  show (view (zeroCols d (wsub (m + 1 + (o + 1)) p)) 0 (m + 1) >>= _) = _
  rw [ok_bind, ok_bind, wsub_le (show p ≤ m + 1 + (o + 1) by omega), usub_ok (show p ≤ m + 1 + (o + 1) by omega),
    ok_bind]
  dsimp only
  generalize (zeroCols d (m + 1 + (o + 1) - p) : List (Pt K d)) = Z at hz ⊢
  have hl : (Sa ++ Z.drop (m + 1)).length = m + o + 2 - p := by
    rw [List.length_append, List.length_drop, hz]; omega
  rw [view_ok (by omega) (by omega), mem_ok_bind, View.write, if_pos (by dsimp only; omega),
    if_pos (inside_of (by dsimp only; omega) (by dsimp only; omega)), mem_ok_bind, if_pos hSa, setSegment,
    if_pos (show 0 + Sa.length ≤ Z.length by omega), ok_bind]
  dsimp only
  rw [List.take_zero, List.nil_append, Nat.zero_add, Nat.zero_add, hSa]
  generalize Sa ++ Z.drop (m + 1) = Q at hl ⊢
  rw [wsub_le (show p ≤ o + 1 + 1 by omega), usub_ok (show p ≤ o + 1 + 1 by omega), ok_bind, hl, hTa,
    wsub_le (show o + 1 + 1 - p ≤ m + o + 2 - p by omega), usub_ok (show o + 1 + 1 - p ≤ m + o + 2 - p by omega),
    ok_bind, view_ok (by omega) (by omega), mem_ok_bind]
  split
  · rename_i ho
    rw [wsub_le (by omega), view_ok (by omega) (by omega), mem_ok_bind, View.read,
      if_pos (inside_of (by dsimp only; omega) (by dsimp only; omega)), mem_ok_bind, View.write,
      if_pos (by dsimp only; rw [List.length_take, List.length_drop]; omega),
      if_pos (inside_of (by dsimp only; omega) (by dsimp only; omega))]
    rw [usub_ok (by omega), ok_bind, segment, if_pos (by omega), ok_bind, setSegment,
      if_pos (by rw [hl, List.length_take, List.length_drop]; omega)]
    rw [List.length_take, List.length_drop, hTa, Nat.min_eq_left (by omega)]
    rfl
  · rename_i ho
    obtain ⟨w, e1, e2, -⟩ := (C121_tail (v := Ta) (n := o + 1 + 1 - p) (by omega) (by omega)).2 (by omega)
      |>.2
    rw [tailView, hTa] at e1
    rw [e1, mem_ok_bind, e2]
    rfl

end

theorem adjustShifted_view {n p : ℕ} {U Uadj : List K} {P : List (Pt K d)} (h : P.length ≤ n) :
    adjustShifted P U Uadj p n = .error .view := by
  have key : ∀ (l : List ℕ), (∃ i ∈ l, P.length ≤ i) → l.mapM (fun i => do
      let c ← column P i
      pure [c]) = (.error .view : Exec (List (List (Pt K d)))) := by
    intro l
    induction l with
    | nil => rintro ⟨i, h, -⟩; simp at h
    | cons a l ih =>
      rintro ⟨i, hi, hl⟩
      rw [List.mapM_cons]
      by_cases ha : P.length ≤ a
      · rw [column_error ha]; rfl
      · rw [column_ok (by omega)]
        have : i ∈ l := by
          rcases List.mem_cons.mp hi with rfl | h
          · exact absurd hl ha
          · exact h
        rw [ok_bind, pure_ok, ok_bind, ih ⟨i, this, hl⟩]
        rfl
  rw [adjustShifted, key (List.range (n + 1)) ⟨n, by simp, h⟩]
  rfl

/-- **C121** Merging two curves of the same degree and dimension, one with `m + 1` and one with `o + 1` control
points. If `m ≤ o < m + p`, a release build returns what a debug build returns. If `o < m` both panic. If
`m + p ≤ o` a debug build panics, and a release build copies control points from outside of a buffer. -/
theorem C121_merge {p m o : ℕ} {V W ua ub : List K} {S T : List (Pt K d)} {a b : Curve K d}
    (ha : Built a p V S) (hb : Built b p W T)
    (hV : V.length = m + p + 2) (hS : S.length = m + 1) (hpm : p ≤ m)
    (hW : W.length = o + p + 2) (hT : T.length = o + 1) (hpo : p ≤ o)
    (hca : a.knots.isClamped = .ok true) (hcb : b.knots.isClamped = .ok true)
    (hna : a.knots.isNormed = .ok true) (hnb : b.knots.isNormed = .ok true)
    (hc : ua.length + ub.length < p) (h64 : m + o + 2 < 2 ^ 64) (solver : Solver K d) :
    (o < m → mergeWithConstraintsRelease solver ⟨a, ⟨ua⟩⟩ ⟨b, ⟨ub⟩⟩ = .error (.panic .view) ∧
      mergeWithConstraints solver ⟨a, ⟨ua⟩⟩ ⟨b, ⟨ub⟩⟩ = .error .view) ∧
    (m ≤ o → o < m + p → ∃ c, mergeWithConstraintsRelease solver ⟨a, ⟨ua⟩⟩ ⟨b, ⟨ub⟩⟩ = .ok (.ok c) ∧
      mergeWithConstraints solver ⟨a, ⟨ua⟩⟩ ⟨b, ⟨ub⟩⟩ = .ok (.ok c)) ∧
    (m + p ≤ o → mergeWithConstraintsRelease solver ⟨a, ⟨ua⟩⟩ ⟨b, ⟨ub⟩⟩ = .error .outside ∧
      mergeWithConstraints solver ⟨a, ⟨ua⟩⟩ ⟨b, ⟨ub⟩⟩ = .error .underflow) := by
  rw [Built, mkCurve_ok hS hpm (by omega)] at ha
  rw [Built, mkCurve_ok hT hpo (by omega)] at hb
  injection ha with ha; injection ha with ha
  injection hb with hb; injection hb with hb
  subst ha hb
  have h1 : 1 ≤ p := by omega
  have hn : ¬ (canon p V S).degree ≤ (⟨ua⟩ : Constraints K).count + (⟨ub⟩ : Constraints K).count :=
    show ¬ p ≤ ua.length + ub.length by omega
  have hrel : mergeWithConstraintsRelease solver ⟨canon p V S, ⟨ua⟩⟩ ⟨canon p W T, ⟨ub⟩⟩ =
      mergeBodyRelease solver ⟨canon p V S, ⟨ua⟩⟩ ⟨canon p W T, ⟨ub⟩⟩ := by
    rw [mergeWithConstraintsRelease, if_neg (by simp [canon_degree])]
    dsimp only
    rw [hca, hcb, hna, hnb, eitherNot_ok]
    exact if_neg hn
  have hdeb : mergeWithConstraints solver ⟨canon p V S, ⟨ua⟩⟩ ⟨canon p W T, ⟨ub⟩⟩ =
      mergeBody solver ⟨canon p V S, ⟨ua⟩⟩ ⟨canon p W T, ⟨ub⟩⟩ := by
    rw [merge_same solver ⟨canon p V S, ⟨ua⟩⟩ ⟨canon p W T, ⟨ub⟩⟩ rfl hca hcb hna hnb]
    simp only [Bool.and_self, Bool.true_eq_false, if_false]
    rw [if_neg hn]
  rw [hrel, hdeb]
  have hx := shiftsOf_length (o := o) (m := m) solver h1 V W ua ub S T
  have hv1 := vadj_length hV hW hpo
  have hv2 : (vadj p o (reverseKnots W) (reverseKnots V)).length = o + p + 2 :=
    vadj_length (o := m) (by rw [reverseKnots_length]; exact hW) (by rw [reverseKnots_length]; exact hV) hpm
  have s1 := solveLinear_ok (ua := ua) (ub := ub) hV hS hpm hW hT hpo h1 solver
  have s2 := generateShifted_ok (V := V) (W := W) (x := shiftsOf solver p m o V W ua ub S T) hS hpm hT hpo (by omega)
  have s3 := adjustKnotsOfBoth_ok (S := S) (T := T) hV hS hpm hW hT hpo
  have s4 := createMerged_ok (S := S) (T := T) hV hS hpm hW hT hpo
  have key : mergeBodyRelease solver ⟨canon p V S, ⟨ua⟩⟩ ⟨canon p W T, ⟨ub⟩⟩ = (do
      let (Sadj, Tadj) ← Mem.of (letI := Build.release; adjustShiftedOfBoth (canon p V S)
        (shiftL p m S (shiftsOf solver p m o V W ua ub S T)) (shiftR p o T (shiftsOf solver p m o V W ua ub S T))
        (vadj p m V W) (reverseKnots W)
        ((reverseKnots (vadj p o (reverseKnots W) (reverseKnots V))).map (· + 1)))
      let P ← generateMergedPointsRelease (canon p V S) (canon p W T) Sadj Tadj
      let r ← Mem.of (letI := Build.release; mkCurve (canon p V S).degree (mergedU p m o V W) P)
      match r with
      | .ok c => pure (.ok c)
      | .error err => pure (.error (.curveGenerationFailure err))) := by
    rw [mergeBodyRelease, Mem.of_ok (solveLinearEquationSystem_builds Build.release _ _ _) s1, mem_ok_bind]
    dsimp only
    rw [Mem.of_ok (generateShifted_builds Build.release _ _ _) s2, mem_ok_bind]
    dsimp only
    rw [Mem.of_ok (adjustKnotsOfBoth_builds Build.release _ _) s3, mem_ok_bind]
    dsimp only
    rw [Mem.of_ok (createMergedKnotVector_builds Build.release _ _ _ _) s4, mem_ok_bind]
    rfl
  have s5 : ∀ {N : ℕ}, m ≤ N → N = o → adjustShiftedOfBoth (canon p V S)
        (shiftL p m S (shiftsOf solver p m o V W ua ub S T)) (shiftR p o T (shiftsOf solver p m o V W ua ub S T))
        (vadj p m V W) (reverseKnots W)
        ((reverseKnots (vadj p o (reverseKnots W) (reverseKnots V))).map (· + 1)) =
      .ok (sadj p m V W (shiftL p m S (shiftsOf solver p m o V W ua ub S T)),
        tadj p m o V W (shiftR p o T (shiftsOf solver p m o V W ua ub S T))) := by
    rintro N hmo rfl
    rw [adjustShiftedOfBoth, canon_segments hS, ok_bind, canon_knots, canonKnots_vector, ok_bind, canon_degree,
      adjustShifted_ok (N := m) (by omega) (by omega) (by simp) h1 hpm le_rfl, ok_bind, reverseCols, swapLoop_eq]
    dsimp only
    rw [adjustShifted_ok (N := N) (by rw [reverseKnots_length]; omega)
      (by rw [List.length_map, reverseKnots_length]; omega) (by simp) h1 hpm hmo, ok_bind, pure_ok, reverseCols,
      swapLoop_eq]
    rfl
  have hl1 : ∀ x : List (Pt K d), (sadj p m V W x).length = m + 1 := by intro x; simp [sadj]
  have hl2 : ∀ x : List (Pt K d), (tadj p m o V W x).length = m + 1 := by intro x; simp [tadj]
  refine ⟨fun hom => ⟨?_, ?_⟩, fun hmo hom => ?_, fun hom => ⟨?_, ?_⟩⟩
  · have s6 : adjustShiftedOfBoth (canon p V S)
        (shiftL p m S (shiftsOf solver p m o V W ua ub S T)) (shiftR p o T (shiftsOf solver p m o V W ua ub S T))
        (vadj p m V W) (reverseKnots W)
        ((reverseKnots (vadj p o (reverseKnots W) (reverseKnots V))).map (· + 1)) = .error .view := by
      rw [adjustShiftedOfBoth, canon_segments hS, ok_bind, canon_knots, canonKnots_vector, ok_bind, canon_degree,
        adjustShifted_ok (N := m) (by omega) (by omega) (by simp) h1 hpm le_rfl, ok_bind, reverseCols, swapLoop_eq]
      dsimp only
      rw [adjustShifted_view (by simp; omega)]
      rfl
    rw [key, (adjustShiftedOfBoth_builds Build.release _ _ _ _ _ _).eq (by rw [s6]; simp) (by rw [s6]; simp), s6]
    rfl
  · rw [mergeBody, s1, ok_bind]
    dsimp only
    rw [s2, ok_bind]
    dsimp only
    rw [s3, ok_bind]
    dsimp only
    rw [s4, ok_bind, adjustShiftedOfBoth, canon_segments hS, ok_bind, canon_knots, canonKnots_vector, ok_bind,
      canon_degree, adjustShifted_ok (N := m) (by omega) (by omega) (by simp) h1 hpm le_rfl, ok_bind, reverseCols,
      swapLoop_eq]
    dsimp only
    rw [adjustShifted_view (by simp; omega)]
    rfl
  · refine ⟨_, ?_, mergeBody_ok hV hS hpm hW hT hpo h1 hmo hom solver⟩
    rw [key, Mem.of_ok (adjustShiftedOfBoth_builds Build.release _ _ _ _ _ _) (s5 hmo rfl), mem_ok_bind]
    dsimp only
    rw [generateMergedPointsRelease_eq hS hT hpm hpo (hl1 _) (hl2 _) h1 h64, if_pos hom,
      generateMergedPoints_ok hS hT hpo (hl1 _) (hl2 _) hom h1 hpm]
    rw [show ∀ x : List (Pt K d), Mem.of (Except.ok x) = .ok x from fun _ => rfl, mem_ok_bind]
    have s7 := mkCurve_ok (p := p) (n := m + o + 1 - p) (U := mergedU p m o V W) (P := mergedPts p m o V W
      (shiftL p m S (shiftsOf solver p m o V W ua ub S T)) (shiftR p o T (shiftsOf solver p m o V W ua ub S T)))
      (by rw [mergedPts, List.length_map, List.length_range]; omega) (by omega)
      (by rw [mergedU_length hV hW hpm]; omega)
    exact (congrArg (· >>= _) (Mem.of_ok (mkCurve_builds Build.release _ _ _) s7)).trans rfl
  · rw [key, Mem.of_ok (adjustShiftedOfBoth_builds Build.release _ _ _ _ _ _) (s5 (by omega) rfl), mem_ok_bind]
    dsimp only
    rw [generateMergedPointsRelease_eq hS hT hpm hpo (hl1 _) (hl2 _) h1 h64, if_neg (by omega)]
    rfl
  · exact mergeBody_panics_lt hV hS hpm hW hT hpo h1 hom solver

/-! ### Examples -/

/-- the last five elements of a vector with four -/
example : ∃ w, tailView [10, 20, 30, (40 : ℚ)] 5 = .ok w ∧ w.get 0 = .error .outside ∧ w.get 1 = .ok 10 ∧
    w.get 5 = .error (.panic .index) :=
  ⟨⟨[10, 20, 30, 40], 2 ^ 64 - 1, 5⟩, rfl, rfl, rfl, rfl⟩

/-- degree 2 with 4 knots: element 103 of a vector with 4 elements -/
example : ∃ kn, Knots.new 2 [0, 0, 1, (1 : ℚ)] = .ok kn ∧ kn.internalKnotRelease 0 = .ok 1 ∧
    kn.internalKnotRelease 100 = .error .outside ∧ kn.internalKnot 100 = .error .underflow :=
  ⟨canonKnots 2 [0, 0, 1, 1], by decide +kernel, by decide +kernel, by decide +kernel, by decide +kernel⟩

/-- a line with two control points, and a line with three -/
example : mergeWithConstraintsRelease (Tests.exactSolver 1)
    ⟨canon 1 [0, 0, 1, 1] (Tests.c1 [0, 1]), ⟨[]⟩⟩
    ⟨canon 1 [0, 0, 1/2, 1, 1] (Tests.c1 [1, 2, 3]), ⟨[]⟩⟩ = .error .outside := by
  refine ((C121_merge (p := 1) (m := 1) (o := 2) (mkCurve_ok (n := 1) rfl (by decide) (by decide))
    (mkCurve_ok (n := 2) rfl (by decide) (by decide)) rfl rfl le_rfl rfl rfl (by decide) (by decide +kernel)
    (by decide +kernel) (by decide +kernel) (by decide +kernel) (by decide) (by decide) _).2.2 (by decide)).1

end BSpline
