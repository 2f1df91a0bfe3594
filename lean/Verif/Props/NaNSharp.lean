import Verif.Props.NaN
import Verif.Props.KnotsSharp
import Verif.Props.InsertSharp

/-!
# When insertion divides by zero: the exact condition of C53
-/

set_option linter.unusedSectionVars false

namespace BSpline

section LawFree
variable {K : Type} [Zero K] [Cmp K]

/-- the search does not pass a repeated knot -/
theorem lleq_passed_free {U : ℕ → K} {u : K} (r : ℕ) : ∀ i m, i < m → m < lleq U u r i →
    Cmp.eq (U (m + 1)) (U m) = false := by
  induction r with
  | zero => intro i m h1 h2; rw [lleq] at h2; omega
  | succ r ih =>
    intro i m h1 h2
    rw [lleq] at h2
    by_cases h : Cmp.le (U (i + 1)) u = true
    · rw [if_pos h] at h2
      by_cases he : Cmp.eq (U (i + 1 + 1)) (U (i + 1)) = true
      · rw [if_pos he] at h2; omega
      · rw [if_neg he] at h2
        rcases Nat.lt_or_ge (i + 1) m with h3 | h3
        · exact ih (i + 1) m h3 h2
        · rw [show m = i + 1 by omega]; simpa using he
    · rw [if_neg h] at h2; omega

end LawFree

variable {K : Type} [Field K] [LinearOrder K] [IsStrictOrderedRing K] {d : ℕ}

theorem lleq_num {U : ℕ → K} {V : ℕ → NF K} (hV : ∀ i, V i = NF.num (U i)) (u : K) (r : ℕ) :
    ∀ i, lleq V (NF.num u) r i = lleq U u r i := by
  induction r with
  | zero => intro i; rfl
  | succ r ih =>
    intro i
    simp only [lleq, hV, ih]
    rfl

theorem fn_map_num (U : List K) (i : ℕ) : fn (U.map NF.num) i = NF.num (fn U i) := by
  rcases Nat.lt_or_ge i U.length with h | h
  · rw [fn_lt (by simpa using h), fn_lt h]; simp
  · rw [fn_ge (by simpa using h), fn_ge h]
    cases U with
    | nil => rfl
    | cons x U => rw [List.map_cons, List.getLastD_cons, List.getLastD_cons, List.getLastD_map]

theorem canon_map_num {p n : ℕ} {U : List K} {P : List (Pt K d)} (hU : U.length = n + p + 2)
    (hP : P.length = n + 1) (hp : p ≤ n) :
    (canon p U P).map NF.num = canon p (U.map NF.num) (P.map (mapPt NF.num)) := by
  have h := C53_new p U P
  rw [mkCurve_ok (n := n) hP hp (by omega), mkCurve_ok (n := n) (by simpa using hP) hp (by simp; omega)] at h
  injection h with h; injection h with h
  exact h.symm

/-- a knot repeated more than `p` times below `u`, with no repeated knot before it -/
def FirstRepeatedFull (p : ℕ) (U : List K) (u : K) : Prop :=
  ∃ x, 0 < x ∧ x < u ∧ p < U.count x ∧ ∀ y, 0 < y → y < x → U.count y ≤ 1

/-- the search stops at the first repeated knot; this one gives the divisor zero -/
theorem zero_divisor {p n : ℕ} {U : List K} {u : K} (hU : ClampedKnots 0 1 p n U) (hp : 1 ≤ p) (h1 : u < 1)
    (h : FirstRepeatedFull p U u) :
    p < lleq (fn U) u (n - p) p ∧ lleq (fn U) u (n - p) p ≤ n ∧
      fn U (lleq (fn U) u (n - p) p + p) = fn U (lleq (fn U) u (n - p) p) := by
  obtain ⟨x, hx0, hxu, hcx, hy⟩ := h
  have hlen := hU.length
  have hle := hU.le
  have hcl := hU.clamp
  obtain ⟨s, hs1, hs2, hs3, hs4⟩ := exists_repeated hU hx0 (hxu.trans h1) (by omega)
  have hrep : ∃ m, p < m ∧ m ≤ n ∧ fn U (m + 1) = fn U m ∧ fn U m < u :=
    ⟨s, hs1, by omega, by rw [hs3, hs4], by rw [hs3]; exact hxu⟩
  have hst := lleq_stops (u := u) hcl.mono (n - p) p (n := n) (by omega) hrep
  have hst' := lleq_stops_first (u := u) hcl.mono (n - p) p (n := n) (by omega)
    (by rw [hcl.left p le_rfl]; exact hcl.a_lt (by omega)) hrep
  have hpass := lleq_passed_free (U := fn U) (u := u) (n - p) p s hs1
  generalize lleq (fn U) u (n - p) p = l at *
  obtain ⟨h3, h4, h5⟩ := hst
  obtain ⟨h6, h7⟩ := hst'
  have hls : l ≤ s := by
    by_contra hn
    have := hpass (by omega)
    rw [hs3, hs4] at this
    simp [Cmp.eq] at this
  have hlx : fn U l ≤ x := hs3 ▸ hcl.mono hls
  have hlx' : fn U l = x := by
    rcases hlx.lt_or_eq with h | h
    · have hc := hy _ (hcl.a_lt h6) h
      have : 2 ≤ U.count (fn U l) := by
        apply run_le_count (lo := l) (by omega)
        intro m hm1 hm2
        rcases Nat.lt_or_ge l m with h8 | h8
        · rw [show m = l + 1 by omega, h4]
        · rw [show m = l by omega]
      omega
    · exact h
  refine ⟨h6, h3, ?_⟩
  have i1 : ∀ {i}, i < U.length → (fn U i < x ↔ i < nlt U x) := fun hi => fn_lt_iff hU.sorted x hi
  have i2 : ∀ {i}, i < U.length → (fn U i ≤ x ↔ i < nlt U x + U.count x) :=
    fun hi => fn_le_iff hU.sorted x hi
  rw [hlx'] at h7
  have a1 := (i1 (i := l - 1) (by omega)).mp h7
  have a2 := (not_congr (i1 (i := l) (by omega))).mp (by rw [hlx']; exact lt_irrefl _)
  apply le_antisymm
  · rw [hlx']
    exact (i2 (by omega)).mpr (by omega)
  · exact hcl.mono (by omega)

/-- only a knot repeated more than `p` times gives a divisor zero -/
theorem safe_of_not {p n : ℕ} {U : List K} {P : List (Pt K d)} (hU : ClampedKnots 0 1 p n U)
    {u : K} (h0 : 0 < u) (h1 : u < 1) (hx : ¬ FirstRepeatedFull p U u)
    (hm : ∀ m, (canonKnots p U).multiplicity u = .ok m → m ≤ p) : CurveRel.Safe (canon p U P) u := by
  intro V l i x y hV hl hli hil hxi hyi
  rw [canon_knots, canonKnots_vector] at hV
  injection hV with hV
  subst hV
  have hfi := findIdx_leftOrEqual_ok hU.length hU.le (Nat.zero_le p) u
  simp only [Nat.add_zero, Nat.sub_zero] at hfi
  rw [canon_knots, hfi] at hl
  injection hl with hl
  have hcount := hm _ (canonKnots_multiplicity hU.length hU.le u)
  rw [multF_eq_count hU h0 h1] at hcount
  have hb := lleq_bounds (fn U) u (n - p) p
  have hlu := lleq_le (U := fn U) (u := u) (n - p) p (by rw [hU.clamp.left p le_rfl]; exact h0.le)
  have hpass := lleq_passed_free (U := fn U) (u := u) (n - p) p
  rw [hl] at hb hlu hpass
  have hlen := hU.length
  have hle := hU.le
  change l - p < i at hli
  change idx U (i + p) = _ at hyi
  rw [idx_ok (by omega)] at hxi hyi
  injection hxi with hxi
  injection hyi with hyi
  rw [← hxi, ← hyi]
  intro he
  rcases Nat.eq_zero_or_pos p with hp | hp
  · omega
  have hc := hU.clamp
  have hpos : 0 < fn U i := he ▸ hc.a_lt (show p < i + p by omega)
  have hiu : fn U i ≤ u := (hc.mono hil).trans hlu
  have hcnt : p + 1 ≤ U.count (fn U i) := by
    apply run_le_count (lo := i) (by omega)
    intro m hm1 hm2
    apply le_antisymm
    · exact (hc.mono (show m ≤ i + p by omega)).trans he.le
    · exact hc.mono hm1
  rcases hiu.lt_or_eq with h | h
  · refine hx ⟨fn U i, hpos, h, hcnt, fun y hy0 hy => ?_⟩
    by_contra hcy
    obtain ⟨s, hs1, hs2, hs3, hs4⟩ := exists_repeated hU hy0 (hy.trans (h.trans h1)) (by omega : 2 ≤ U.count y)
    have hsi : s < l := by
      by_contra hn
      have := hc.mono (show i ≤ s by omega)
      rw [hs3] at this
      exact absurd hy (not_lt.mpr this)
    have := hpass s hs1 hsi
    rw [hs3, hs4] at this
    simp [Cmp.eq] at this
  · rw [h] at hcnt
    omega

/-- **C53** The exact condition, for every valid curve of positive degree and dimension: inserting `u`
computes with numbers only, that is, it does the same when every division by zero yields NaN, if and
only if `u` is refused, or the first repeated interior knot below `u` (if there is one) is repeated at
most `p` times. -/
theorem C53_insert_iff {c : Curve K d} {p n : ℕ} {U : List K} {P : List (Pt K d)}
    (hc : ValidOn 0 1 c p n U P) (hd : 0 < d) (hp : 1 ≤ p) (u : K) :
    (c.map NF.num).insert (NF.num u) =
      (c.insert u).map (Prod.map (Curve.map NF.num) (mapResult (InsertError.map NF.num) id)) ↔
    (u ≤ 0 ∨ 1 ≤ u ∨ p < U.count u) ∨
      ∀ x, 0 < x → x < u → p < U.count x → ∃ y, 0 < y ∧ y < x ∧ 2 ≤ U.count y := by
  have hfr : (∀ x, 0 < x → x < u → p < U.count x → ∃ y, 0 < y ∧ y < x ∧ 2 ≤ U.count y) ↔
      ¬ FirstRepeatedFull p U u := by
    constructor
    · rintro h ⟨x, h1, h2, h3, h4⟩
      obtain ⟨y, h5, h6, h7⟩ := h x h1 h2 h3
      have := h4 y h5 h6
      omega
    · intro h x h1 h2 h3
      by_contra hn
      push Not at hn
      exact h ⟨x, h1, h2, h3, fun y h5 h6 => by have := hn y h5 h6; omega⟩
  rw [hfr]
  obtain rfl := hc.eq_canon
  obtain ⟨-, hU, hP⟩ := hc
  have hlen := hU.length
  have hle := hU.le
  constructor
  · intro heq
    by_contra hcon
    push Not at hcon
    obtain ⟨⟨h0, h1, hm⟩, hF⟩ := hcon
    obtain ⟨hl1, hl2, hl3⟩ := zero_divisor hU hp h1 hF
    have hmult : multF p n (U.map NF.num) (NF.num u) = multF p n U u := by
      rw [multF, multF, ← List.map_drop, ← List.map_take, List.filter_map, List.length_map]
      rfl
    have hmc := multF_eq_count hU h0 h1
    have hb : ¬ ((Cmp.le (NF.num u) 0 || Cmp.le 1 (NF.num u)) = true) := by
      show ¬ ((decide (u ≤ 0) || decide (1 ≤ u)) = true)
      simp [h0, h1]
    rw [canon_map_num hlen hP hle, Curve.insert_eq, Curve.insert_eq,
      insert_ok (by simpa using hlen) (by simpa using hP) hle,
      insert_ok hlen hP hle, hmult, if_neg hb,
      if_neg (by omega), if_neg (by simp [Cmp.le, h0, h1]), if_neg (by omega),
      lleq_num (fn_map_num U)] at heq
    generalize lleq (fn U) u (n - p) p = l at *
    injection heq with heq
    rw [Prod.map_apply] at heq
    injection heq with heq
    rw [canon_map_num (n := n + 1) (by simp [insU]; omega) (by simp) (by omega)] at heq
    have hc2 := congrArg (fun c : Curve (NF K) d => c.points.matrix) heq
    simp only [canon_points, canonPts_matrix] at hc2
    injection hc2 with hc2
    have hc3 := congrArg (fun Q => Q[l]?) hc2
    simp only [List.map_map, List.getElem?_map, List.getElem?_range (show l < n + 2 by omega),
      Option.map_some, Option.some.injEq, Function.comp_apply] at hc3
    have hc4 := congrFun hc3 ⟨0, hd⟩
    have hnan : (NF.num u - NF.num (fn U l)) / (NF.num (fn U (l + p)) - NF.num (fn U l)) = (NF.nan : NF K) := by
      show (if fn U (l + p) - fn U l = 0 then NF.nan else NF.num _) = _
      rw [if_pos (by rw [hl3, sub_self])]
    have hx : ∀ x y z : NF K, x + ((1 - NF.nan) * y + z) = NF.nan := by
      intro x y z; cases x <;> cases y <;> rfl
    rw [insP, if_neg (by omega), if_pos le_rfl, fn_map_num, fn_map_num, hnan] at hc4
    have hc5 : (NF.nan : NF K) = NF.num (insP (fn U) p (fn P) u l l ⟨0, hd⟩) := (hx _ _ _).symm.trans hc4
    cases hc5
  · rintro (h | h)
    · rw [Curve.insert_eq, Curve.insert_eq]
      refine ERel.eq_map (ERel.mono (fun _ _ h => insertRel_eq h)
        ((curveRel_map _).insert follows_num rfl fun hu hm => ?_))
      have := hm _ (canonKnots_multiplicity hlen hle u)
      push Not at hu
      rw [multF_eq_count hU hu.1 hu.2, canon_degree] at this
      rcases h with h | h | h
      · exact absurd h (not_le.mpr hu.1)
      · exact absurd h (not_le.mpr hu.2)
      · omega
    · rw [Curve.insert_eq, Curve.insert_eq]
      refine ERel.eq_map (ERel.mono (fun _ _ h => insertRel_eq h)
        ((curveRel_map _).insert follows_num rfl fun hu hm => ?_))
      push Not at hu
      exact safe_of_not hU hu.1 hu.2 h hm

/-- C53: a linear curve with two double knots. Above the first one the insertion divides by zero, below
it does not. -/
example : ValidOn 0 1 (canon 1 [0, 0, 1 / 4, 1 / 4, 1 / 2, 1 / 2, 1, 1] (Tests.c1 [0, 1, 2, 3, 4, 5])) 1 5
      [0, 0, 1 / 4, 1 / 4, 1 / 2, 1 / 2, 1, 1] (Tests.c1 [0, 1, 2, 3, 4, 5]) ∧
    FirstRepeatedFull (K := ℚ) 1 [0, 0, 1 / 4, 1 / 4, 1 / 2, 1 / 2, 1, 1] (3 / 4) ∧
    ¬ FirstRepeatedFull (K := ℚ) 1 [0, 0, 1 / 4, 1 / 4, 1 / 2, 1 / 2, 1, 1] (1 / 8) := by
  refine ⟨validOn_canon (by decide +kernel) rfl, ⟨1 / 4, by norm_num, by norm_num, by decide +kernel, ?_⟩, ?_⟩
  · intro y h0 h1
    rw [List.count_eq_zero.mpr]
    · omega
    · simp only [List.mem_cons, not_or, List.not_mem_nil]
      refine ⟨h0.ne', h0.ne', h1.ne, h1.ne, ?_, ?_, ?_, ?_, by simp⟩ <;>
        exact (lt_trans h1 (by norm_num)).ne
  · rintro ⟨x, h0, h1, h2, -⟩
    have : x ∉ [(0 : ℚ), 0, 1 / 4, 1 / 4, 1 / 2, 1 / 2, 1, 1] := by
      simp only [List.mem_cons, not_or, List.not_mem_nil]
      refine ⟨h0.ne', h0.ne', ?_, ?_, ?_, ?_, ?_, ?_, by simp⟩ <;> exact (lt_trans h1 (by norm_num)).ne
    rw [List.count_eq_zero.mpr this] at h2
    omega

end BSpline
