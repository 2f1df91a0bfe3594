import Verif.Spec.NotFinite
import Verif.Props.IeeeOrder
import Verif.Props.IeeeFit
import Verif.Props.IeeeInterpolate

/-!
# Data that are not finite: C148

NaN and the infinities are absorbing for sums and products, so a single coordinate that is not finite reaches every
control point of an interpolation or of a least-squares fit. Nothing reports this.
-/

set_option linter.unusedSectionVars false

namespace BSpline

open Ieee

variable {K : Type} [Field K] [LinearOrder K] [IsStrictOrderedRing K] {F : Format K} {d : ℕ}

/-! ### Single operations -/

theorem notFinite_nan : NotFinite (nan : Ieee F) := by rintro x ⟨s, h, e⟩; cases e

theorem notFinite_inf (s : Bool) : NotFinite (inf s : Ieee F) := by rintro x ⟨s, h, e⟩; cases e

theorem NotFinite.cases {a : Ieee F} (h : NotFinite a) : a = nan ∨ ∃ s, a = inf s := by
  rcases a with _ | s | ⟨s, x⟩
  · exact Or.inl rfl
  · exact Or.inr ⟨s, rfl⟩
  · exact absurd ⟨s, x.2, rfl⟩ (h x.1)

theorem NotFinite.add_left {a : Ieee F} (h : NotFinite a) (b : Ieee F) : NotFinite (a + b) := by
  change NotFinite (Ieee.add a b)
  rcases h.cases with rfl | ⟨s, rfl⟩
  · exact notFinite_nan
  · rcases b with _ | t | ⟨t, y⟩
    · exact notFinite_nan
    · simp only [Ieee.add]; split
      · exact notFinite_inf _
      · exact notFinite_nan
    · exact notFinite_inf _

theorem NotFinite.add_right {a : Ieee F} (h : NotFinite a) (b : Ieee F) : NotFinite (b + a) := by
  change NotFinite (Ieee.add b a)
  rcases h.cases with rfl | ⟨s, rfl⟩
  · cases b <;> exact notFinite_nan
  · rcases b with _ | t | ⟨t, y⟩
    · exact notFinite_nan
    · simp only [Ieee.add]; split
      · exact notFinite_inf _
      · exact notFinite_nan
    · exact notFinite_inf _

theorem NotFinite.neg {a : Ieee F} (h : NotFinite a) : NotFinite (-a) := by
  change NotFinite (Ieee.neg a)
  rcases h.cases with rfl | ⟨s, rfl⟩
  · exact notFinite_nan
  · exact notFinite_inf _

theorem NotFinite.sub_left {a : Ieee F} (h : NotFinite a) (b : Ieee F) : NotFinite (a - b) := h.add_left (-b)

theorem NotFinite.sub_right {a : Ieee F} (h : NotFinite a) (b : Ieee F) : NotFinite (b - a) := h.neg.add_right b

theorem NotFinite.mul_left {a : Ieee F} (h : NotFinite a) (b : Ieee F) : NotFinite (a * b) := by
  change NotFinite (Ieee.mul a b)
  rcases h.cases with rfl | ⟨s, rfl⟩
  · exact notFinite_nan
  · rcases b with _ | t | ⟨t, y⟩
    · exact notFinite_nan
    · exact notFinite_inf _
    · simp only [Ieee.mul]; split
      · exact notFinite_nan
      · exact notFinite_inf _

theorem NotFinite.mul_right {a : Ieee F} (h : NotFinite a) (b : Ieee F) : NotFinite (b * a) := by
  change NotFinite (Ieee.mul b a)
  rcases h.cases with rfl | ⟨s, rfl⟩
  · cases b <;> exact notFinite_nan
  · rcases b with _ | t | ⟨t, y⟩
    · exact notFinite_nan
    · exact notFinite_inf _
    · simp only [Ieee.mul]; split
      · exact notFinite_nan
      · exact notFinite_inf _

theorem NotFinite.div {a : Ieee F} (h : NotFinite a) (b : Ieee F) : NotFinite (a / b) := by
  change NotFinite (Ieee.div a b)
  rcases h.cases with rfl | ⟨s, rfl⟩
  · exact notFinite_nan
  · rcases b with _ | t | ⟨t, y⟩
    · exact notFinite_nan
    · exact notFinite_nan
    · exact notFinite_inf _

/-- zero times a number that is not finite is not a number -/
theorem NotFinite.mul_zero {a : Ieee F} (h : NotFinite a) : a * 0 = nan := by
  change Ieee.mul a _ = nan
  obtain ⟨s, hf, e⟩ := is_zero (F := F)
  rw [show (0 : Ieee F) = _ from e]
  rcases h.cases with rfl | ⟨s, rfl⟩
  · rfl
  · simp [Ieee.mul]

theorem NotFinite.fma_left {a : Ieee F} (h : NotFinite a) (b c : Ieee F) : NotFinite (Ieee.fma b a c) := by
  rcases h.cases with rfl | ⟨s, rfl⟩
  · cases b <;> exact (NotFinite.mul_right notFinite_nan _).add_left c
  · cases b <;> exact (NotFinite.mul_right (notFinite_inf s) _).add_left c

theorem NotFinite.fma_right {a : Ieee F} (h : NotFinite a) (b c : Ieee F) : NotFinite (Ieee.fma b c a) := by
  rcases h.cases with rfl | ⟨s, rfl⟩
  · cases b <;> cases c <;> exact NotFinite.add_right notFinite_nan _
  · cases b <;> cases c <;> exact NotFinite.add_right (notFinite_inf s) _

/-! ### Sums of products -/

theorem NotFinite.anySum {a b : ℕ → Ieee F} {l : List ℕ} {v : Ieee F} (h : AnySum a b l v) {g : ℕ} (hg : g ∈ l)
    (hb : NotFinite (b g)) : NotFinite v := by
  induction h with
  | zero => simp at hg
  | prod g' =>
    obtain rfl := List.mem_singleton.mp hg
    exact hb.mul_right _
  | fma g' _ ih =>
    rcases List.mem_cons.mp hg with rfl | hg
    · exact hb.fma_left _ _
    · exact (ih hg).fma_right _ _
  | add _ _ ih1 ih2 =>
    rcases List.mem_append.mp hg with hg | hg
    · exact (ih1 hg).add_left _
    · exact (ih2 hg).add_right _
  | perm hp _ ih => exact ih (hp.mem_iff.mpr hg)

theorem foldl_notFinite {α : Type} {r : Fin d} {f : α → Ieee F} {q : α → Pt (Ieee F) d} : ∀ (l : List α)
    (v : Pt (Ieee F) d), (NotFinite (v r) ∨ ∃ x ∈ l, NotFinite (q x r)) →
    NotFinite (l.foldl (fun s x => s + scale (f x) (q x)) v r) := by
  intro l
  induction l with
  | nil =>
    rintro v (h | ⟨x, hx, -⟩)
    · exact h
    · simp at hx
  | cons a l ih =>
    rintro v (h | ⟨x, hx, h⟩)
    · exact ih _ (Or.inl (h.add_left _))
    · rcases List.mem_cons.mp hx with rfl | hx
      · exact ih _ (Or.inl ((h.mul_right (f x)).add_right (v r)))
      · exact ih _ (Or.inr ⟨x, hx, h⟩)

theorem foldl_sticks {α : Type} {r : Fin d} {f : α → Ieee F} {q : α → Pt (Ieee F) d} : ∀ (l : List α)
    (v : Pt (Ieee F) d), v r = nan → l.foldl (fun s x => s + scale (f x) (q x)) v r = nan := by
  intro l
  induction l with
  | nil => intro v h; exact h
  | cons a l ih =>
    intro v h
    refine ih _ ?_
    change v r + _ = nan
    rw [h]; rfl

theorem foldl_zeroNan {α : Type} {r : Fin d} {f : α → Ieee F} {q : α → Pt (Ieee F) d} : ∀ (l : List α)
    (v : Pt (Ieee F) d), ZeroNan (v r) → (∀ x ∈ l, ZeroNan (q x r)) →
    ZeroNan (l.foldl (fun s x => s + scale (f x) (q x)) v r) := by
  intro l
  induction l with
  | nil => intro v h _; exact h
  | cons a l ih =>
    intro v h hl
    exact ih _ (h.add ((hl a (by simp)).mul_right _)) (fun x hx => hl x (by simp [hx]))

theorem mulT_notFinite {A : List (List (Ieee F))} {c : ℕ} {B : List (Pt (Ieee F) d)} {r : Fin d} {k : ℕ} {b : Pt (Ieee F) d}
    (hk : k < A.length) (hb : B[k]? = some b) (h : NotFinite (b r)) : ∀ q ∈ mulT A c B, NotFinite (q r) := by
  intro q hq
  obtain ⟨i, -, rfl⟩ := List.mem_map.mp hq
  refine foldl_notFinite (f := fun x : List (Ieee F) × Pt (Ieee F) d => entry x.1 i) (q := fun x => x.2) _ _
    (Or.inr ⟨(A[k], b), ?_, h⟩)
  obtain ⟨h1, rfl⟩ := List.getElem?_eq_some_iff.mp hb
  rw [List.mem_iff_getElem]
  exact ⟨k, by simp; omega, by simp⟩

theorem mulT_zeroNan {A : List (List (Ieee F))} {c : ℕ} {B : List (Pt (Ieee F) d)} {r : Fin d}
    (h : ∀ b ∈ B, ZeroNan (b r)) : ∀ q ∈ mulT A c B, ZeroNan (q r) := by
  intro q hq
  obtain ⟨i, -, rfl⟩ := List.mem_map.mp hq
  exact foldl_zeroNan (f := fun x : List (Ieee F) × Pt (Ieee F) d => entry x.1 i) (q := fun x => x.2) _ _
    (Or.inr is_zero) (fun x hx => h _ (List.of_mem_zip hx).2)

/-- solving with a right-hand side that is not finite -/
theorem svd_spoiled {decompose : List (List (Ieee F)) → Svd (Ieee F)} (hD : Svd.Shaped decompose) (eps : Ieee F)
    {A : List (List (Ieee F))} {b : List (Pt (Ieee F) d)} (hb : b.length = A.length) {r : Fin d}
    (h : ∃ q ∈ b, NotFinite (q r)) : Spoiled r ((Solver.svd decompose eps).run A b) := by
  obtain ⟨q, hq, h⟩ := h
  obtain ⟨k, hk, rfl⟩ := List.mem_iff_getElem.mp hq
  obtain ⟨h1, h2⟩ := hD A
  change Spoiled r (mulT _ _ _)
  have hy := mulT_notFinite (A := (decompose A).u) (c := (decompose A).s.length) (k := k) (by omega)
    (List.getElem?_eq_getElem hk) h
  have hyl : (mulT (decompose A).u (decompose A).s.length b).length = (decompose A).s.length := by simp [mulT]
  by_cases hs : ∃ σ ∈ (decompose A).s, Cmp.lt eps σ = true
  · obtain ⟨σ, hσ, hlt⟩ := hs
    obtain ⟨j, hj, rfl⟩ := List.mem_iff_getElem.mp hσ
    left
    refine mulT_notFinite (k := j) (b := Svd.cut eps (decompose A).s[j] (mulT (decompose A).u (decompose A).s.length b)[j])
      (by omega) ?_ ?_
    · rw [List.getElem?_zipWith, List.getElem?_eq_getElem hj, List.getElem?_eq_getElem (by omega)]
    · rw [Svd.cut, if_pos hlt]
      exact (hy _ (List.getElem_mem _)).div _
  · right
    intro q hq s
    refine mulT_zeroNan (r := s) ?_ q hq
    intro b' hb'
    obtain ⟨j, hj, rfl⟩ := List.mem_iff_getElem.mp hb'
    rw [List.getElem_zipWith, Svd.cut, if_neg]
    · exact Or.inr is_zero
    · exact fun hlt => hs ⟨_, List.getElem_mem _, hlt⟩

/-! ### Evaluation -/

/-- **C148** If coordinate `r` of one of the last `p + 1` control points is not finite, then coordinate `r` is not
finite at any parameter, although each control point has an influence on a part of the curve only. -/
theorem C148_evaluate {c : Curve (Ieee F) d} {p n i : ℕ} {U : List (Ieee F)} {P : List (Pt (Ieee F) d)}
    (hc : Built c p U P) (hU : U.length = n + p + 2) (hp : p ≤ n) (hP : P.length = n + 1) (hi : n ≤ i + p) {q : Pt (Ieee F) d}
    (hq : P[i]? = some q) {r : Fin d} (hr : NotFinite (q r)) {u : Ieee F} (h0 : Cmp.le 0 u = true)
    (h1 : Cmp.le u 1 = true) :
    ∃ v, c.evaluate u = .ok (.ok v) ∧ NotFinite (v r) := by
  obtain rfl := hc.ieee_eq hU hp hP
  refine ⟨_, evaluateDerivative_ok hU hP hp (Nat.zero_le p) h0 h1, ?_⟩
  have hb := lleq_bounds (fun i => fn U (i + 0)) u (n - p) (p - 0)
  obtain ⟨hi', rfl⟩ := List.getElem?_eq_some_iff.mp hq
  refine foldl_notFinite _ _ (Or.inr ⟨i, ?_, ?_⟩)
  · rw [List.mem_range'_1]
    omega
  · change NotFinite (fn P i r)
    rwa [fn_lt hi']

/-! ### Fits -/

section

variable [IntCast (Ieee F)]

/-- **C148** Fit with loose ends: if one coordinate of one data point is not finite, then this coordinate of all
control points is not finite, or all control points are zero. -/
theorem C148_loose {mm : Products (Ieee F) d} (hmm : mm.AnyOrder) {decompose : List (List (Ieee F)) → Svd (Ieee F)}
    (hD : Svd.Shaped decompose) (eps : Ieee F) {p n m : ℕ} {U : List (Ieee F)} {kn : Knots (Ieee F)}
    (hk : Knots.new p U = .ok kn) (hU : U.length = n + p + 2) (h1 : 1 ≤ p) {pts : DataPoints (Ieee F) d}
    (hm : List.length pts = m + 1) {params : Parameters (Ieee F)} (hv : params.vector.length = params.segments + 1)
    {pen : Option (Penalization (Ieee F))} {P : List (Pt (Ieee F) d)}
    (hfit : Loose.fitWith mm (Solver.svd decompose eps) kn pts params pen = .ok (.ok P)) {r : Fin d}
    (hr : ∃ q : Pt (Ieee F) d, q ∈ pts ∧ NotFinite (q r)) : P.length = n + 1 ∧ Spoiled r P := by
  obtain ⟨-, rfl⟩ := knots_new_inv hk
  obtain ⟨G, hG, -⟩ := hmm.gram_mat (m + 1) (n + 1) (fun g i => nb p n U i (fn params.vector g))
  obtain ⟨E, hE, -⟩ := penalty_products hmm (n + 1) (fun κ => n + 1 - κ) pen
  obtain ⟨bb, hbb, hbb'⟩ := hmm.mulT_mat (m + 1) (n + 1) (fun g i => nb p n U i (fn params.vector g)) hm
  rw [loose_fitWith_ok mm hU h1 hm hv _ pen hG hE (by rw [hbb]; simp), hbb] at hfit
  have hfit := Except.ok.inj hfit
  split at hfit
  · cases hfit
  · obtain rfl := Except.ok.inj hfit
    refine ⟨by rw [Solver.shape, ncols_mat _ (by omega)], svd_spoiled hD eps (by simp [mat]) ?_⟩
    obtain ⟨q, hq, hr⟩ := hr
    obtain ⟨g, hg, rfl⟩ := List.mem_iff_getElem.mp hq
    refine ⟨bb 0, List.mem_map.mpr ⟨0, by simp, rfl⟩, NotFinite.anySum (hbb' 0 (by omega) r) (g := g) ?_ ?_⟩
    · rw [List.mem_range]; omega
    · rwa [fn_lt hg]

/-- **C148** Fit with fixed ends: if one coordinate of one data point is not finite, then this coordinate of all
inner control points is not finite, or all inner control points are zero. -/
theorem C148_fixed {mm : Products (Ieee F) d} (hmm : mm.AnyOrder) {decompose : List (List (Ieee F)) → Svd (Ieee F)}
    (hD : Svd.Shaped decompose) (eps : Ieee F) {p n m : ℕ} {U : List (Ieee F)} {kn : Knots (Ieee F)}
    (hk : Knots.new p U = .ok kn) (hU : U.length = n + p + 2) (h1 : 1 ≤ p) {pts : DataPoints (Ieee F) d}
    (hm : List.length pts = m + 1) {params : Parameters (Ieee F)} (hv : params.vector.length = params.segments + 1)
    {pen : Option (Penalization (Ieee F))} {P : List (Pt (Ieee F) d)} (hn : 2 ≤ n) (hpen : ∀ q, pen = some q → q.kappa + 2 ≤ n)
    (hfit : Fixed.fitWith mm (Solver.svd decompose eps) kn pts params pen = .ok (.ok P)) {r : Fin d}
    (hr : ∃ q : Pt (Ieee F) d, q ∈ pts ∧ NotFinite (q r)) :
    P.length = n + 1 ∧ P[0]? = pts[0]? ∧ P[n]? = pts[m]? ∧ Spoiled r P.tail.dropLast := by
  obtain ⟨-, rfl⟩ := knots_new_inv hk
  obtain ⟨G, hG, -⟩ := hmm.gram_mat (m - 1) (n - 1) (fun g i => nb p n U (i + 1) (fn params.vector (g + 1)))
  obtain ⟨E, hE, -⟩ := penalty_products hmm (n - 1) (fun κ => n - 1 - κ) pen
  rw [fixed_fitWith_ok mm hU h1 hm hv _ pen (fun _ => ⟨hn, hpen⟩) hG hE] at hfit
  have hfit := Except.ok.inj hfit
  rw [fitErrorOf_eq] at hfit
  cases h2 : checkErrorOf n m params.segments p pen with
  | some e => rw [h2] at hfit; cases hfit
  | none =>
    obtain ⟨h3, h4, h5, -⟩ := checkErrorOf_none h2
    rw [h2] at hfit
    dsimp only at hfit
    split at hfit
    · cases hfit
    · obtain rfl := Except.ok.inj hfit
      generalize hA : mat (n - 1) (n - 1) (normG G E pen) = A
      have hAl : A.length = n - 1 := by rw [← hA]; simp [mat]
      have hsp := svd_spoiled (d := d) hD eps (A := A)
        (b := (List.range (n - 1)).map (fun i => fixAcc p n m U pts params.vector (i + 1))) (by simp [hAl]) (r := r) (by
        refine ⟨_, List.mem_map.mpr ⟨0, by simp; omega, rfl⟩, ?_⟩
        obtain ⟨q, hq, hr⟩ := hr
        obtain ⟨g, hg, rfl⟩ := List.mem_iff_getElem.mp hq
        rw [fixAcc]
        refine foldl_notFinite _ _ (Or.inr ?_)
        have hr' : NotFinite (fn pts g r) := by rwa [fn_lt hg]
        by_cases e0 : g = 0
        · subst e0
          exact ⟨1, by rw [List.mem_range'_1]; omega, ((hr'.mul_right _).sub_right _).sub_left _⟩
        by_cases em : g = m
        · subst em
          exact ⟨1, by rw [List.mem_range'_1]; omega, (hr'.mul_right _).sub_right _⟩
        exact ⟨g, by rw [List.mem_range'_1]; omega, (hr'.sub_left _).sub_left _⟩)
      have hXl : ((Solver.svd decompose eps).run A
          ((List.range (n - 1)).map (fun i => fixAcc p n m U pts params.vector (i + 1)))).length = n - 1 := by
        rw [Solver.shape, ← hA, ncols_mat _ (by omega)]
      generalize (Solver.svd decompose eps).run A
          ((List.range (n - 1)).map (fun i => fixAcc p n m U pts params.vector (i + 1))) = X at hsp hXl
      have e : ((List.range (n + 1)).map (fixP n m pts X)).tail.dropLast = X := by
        apply List.ext_getElem (by simp [hXl])
        intro i h6 h7
        simp only [List.length_dropLast, List.length_tail, List.length_map, List.length_range] at h6
        simp only [List.getElem_dropLast, List.getElem_tail, List.getElem_map, List.getElem_range, fixP]
        rw [if_neg (by omega), if_neg (by omega), Nat.add_sub_cancel, fn_lt h7]
      refine ⟨by simp, ?_, ?_, by rwa [e]⟩
      · rw [List.getElem?_map, List.getElem?_range (by omega), Option.map_some, fixP, if_pos rfl, fn_lt (by omega),
          ← List.getElem?_eq_getElem]
      · rw [List.getElem?_map, List.getElem?_range (by omega), Option.map_some, fixP, if_neg (by omega), if_pos rfl,
          fn_lt (by omega), ← List.getElem?_eq_getElem]

/-- **C148** The constant terms of a fit with fixed ends are accumulated one after the other in a vector that is
"reset" by a multiplication with zero (`accum *= 0.0`). Once one of them is infinite, be it by overflow of finite
data, all later ones are NaN. -/
theorem C148_reset {mm : Products (Ieee F) d} (hmm : mm.AnyOrder) (solver : Solver (Ieee F) d) {p n m : ℕ}
    {U : List (Ieee F)} {kn : Knots (Ieee F)}
    (hk : Knots.new p U = .ok kn) (hU : U.length = n + p + 2) (h1 : 1 ≤ p) {pts : DataPoints (Ieee F) d}
    (hm : List.length pts = m + 1) {params : Parameters (Ieee F)} (hv : params.vector.length = params.segments + 1)
    {pen : Option (Penalization (Ieee F))} {P : List (Pt (Ieee F) d)} (hn : 2 ≤ n) (hpen : ∀ q, pen = some q → q.kappa + 2 ≤ n)
    (hfit : Fixed.fitWith mm solver kn pts params pen = .ok (.ok P)) :
    ∃ A b, P.tail.dropLast = solver.run A b ∧ b.length = n - 1 ∧
      ∀ (i j : ℕ) (s t : Pt (Ieee F) d), i < j → b[i]? = some s → b[j]? = some t → ∀ r, NotFinite (s r) → t r = nan := by
  obtain ⟨-, rfl⟩ := knots_new_inv hk
  obtain ⟨G, hG, -⟩ := hmm.gram_mat (m - 1) (n - 1) (fun g i => nb p n U (i + 1) (fn params.vector (g + 1)))
  obtain ⟨E, hE, -⟩ := penalty_products hmm (n - 1) (fun κ => n - 1 - κ) pen
  rw [fixed_fitWith_ok mm hU h1 hm hv _ pen (fun _ => ⟨hn, hpen⟩) hG hE] at hfit
  have hfit := Except.ok.inj hfit
  split at hfit
  · cases hfit
  · obtain rfl := Except.ok.inj hfit
    refine ⟨mat (n - 1) (n - 1) (normG G E pen),
      (List.range (n - 1)).map (fun i => fixAcc p n m U pts params.vector (i + 1)), ?_, ?_, ?_⟩
    · generalize hX : solver.run _ _ = X
      have hXl : X.length = n - 1 := by rw [← hX, Solver.shape, ncols_mat _ (by omega)]
      apply List.ext_getElem (by simp [hXl])
      intro i h6 h7
      simp only [List.length_dropLast, List.length_tail, List.length_map, List.length_range] at h6
      simp only [List.getElem_dropLast, List.getElem_tail, List.getElem_map, List.getElem_range, fixP]
      rw [if_neg (by omega), if_neg (by omega), Nat.add_sub_cancel, fn_lt h7]
    · simp
    · intro i j s t hij hs ht r hr
      have key : ∀ k, NotFinite (fixAcc p n m U pts params.vector k r) →
          fixAcc p n m U pts params.vector (k + 1) r = nan := by
        intro k hk
        rw [fixAcc]
        exact foldl_sticks _ _ hk.mul_zero
      have hi : i < n - 1 := by
        have := (List.getElem?_eq_some_iff.mp hs).1
        simpa using this
      have hj : j < n - 1 := by
        have := (List.getElem?_eq_some_iff.mp ht).1
        simpa using this
      rw [List.getElem?_map, List.getElem?_range hi, Option.map_some] at hs
      rw [List.getElem?_map, List.getElem?_range hj, Option.map_some] at ht
      obtain rfl := Option.some.inj hs
      obtain rfl := Option.some.inj ht
      obtain ⟨k, rfl⟩ : ∃ k, j = i + 1 + k := ⟨j - i - 1, by omega⟩
      clear ht hj hij
      induction k with
      | zero => exact key _ hr
      | succ k ih =>
        refine key _ ?_
        rw [show i + 1 + (k + 1) = i + 1 + k + 1 by omega]
        rw [ih]
        exact notFinite_nan

end

/-! ### Double precision -/

/-- what a spoiled curve returns: at every parameter coordinate `r` is not finite, or the solution is zero -/
theorem spoiled_evaluate {p n : ℕ} {U : List (Ieee F)} {P : List (Pt (Ieee F) d)} {c : Curve (Ieee F) d}
    (hc : Built c p U P) (hU : U.length = n + p + 2) (hp : p ≤ n) (hP : P.length = n + 1) {i : ℕ} (hi : n ≤ i + p)
    (hin : i ≤ n) {r : Fin d} (h : ∀ q, P[i]? = some q → NotFinite (q r)) (u : Ieee F) (h0 : Cmp.le 0 u = true)
    (h1 : Cmp.le u 1 = true) : ∃ v, c.evaluate u = .ok (.ok v) ∧ NotFinite (v r) :=
  C148_evaluate hc hU hp hP hi (List.getElem?_eq_getElem (show i < P.length by omega)) (h _ (List.getElem?_eq_getElem _)) h0 h1

section

variable [Trunc (Ieee binary64)] [Sqrt (Ieee binary64)]

/-- **C148** Interpolation in `f64`: if coordinate `r` of one data point is NaN or infinite, then `generate` returns a
curve without any error, whose coordinate `r` is NaN or infinite in every control point and at every parameter; or
nalgebra cuts off all singular values and all control points are zero. -/
theorem C148_interpolation {decompose : List (List (Ieee binary64)) → Svd (Ieee binary64)} (hD : Svd.Shaped decompose)
    (eps : Ieee binary64) {p m : ℕ} (h1 : 1 ≤ p) (h2 : p ≤ m) (hm : m ≤ 2 ^ 50) {pts : DataPoints (Ieee binary64) d}
    (hl : List.length pts = m + 1) {r : Fin d} (hr : ∃ q : Pt (Ieee binary64) d, q ∈ pts ∧ NotFinite (q r)) :
    ∃ (c : Curve (Ieee binary64) d) (P : List (Pt (Ieee binary64) d)),
      generate (Solver.svd decompose eps) (.interpolation p pts) = .ok (.ok c) ∧ c.points.matrix = .ok P ∧ P.length = m + 1 ∧
      ((∀ q ∈ P, ∀ s, ZeroOrNan (q s)) ∨ (∀ q ∈ P, NotFinite (q r)) ∧
        ∀ u, Cmp.le 0 u = true → Cmp.le u 1 = true → ∃ v, c.evaluate u = .ok (.ok v) ∧ NotFinite (v r)) := by
  obtain ⟨kn, U, V, T, h, hk, hkv, hnew, hU, hV, hun, hh, hgap, hhm, hes, hrl, hT, hT1⟩ := fit_setup h1 h2 le_rfl hm
  have hlU : U.length = m + p + 2 := hU.length_eq.trans hV.length
  obtain ⟨-, rfl⟩ := knots_new_inv hnew
  have hrun := interpolate_ok hlU h2 hl (params := ⟨ratios binary64 m, m⟩) hrl (Solver.svd decompose eps)
  have hsp := svd_spoiled hD eps (A := mat (m + 1) (m + 1) (fun g i => nb p m U i (fn (ratios binary64 m) g)))
    (b := pts) (by simp [hl, mat]) hr
  have hPl := Solver.shape (Solver.svd decompose eps)
    (mat (m + 1) (m + 1) (fun g i => nb p m U i (fn (ratios binary64 m) g))) pts
  rw [ncols_mat _ (by omega)] at hPl
  dsimp only at hrun
  generalize (Solver.svd decompose eps).run (mat (m + 1) (m + 1) (fun g i => nb p m U i (fn (ratios binary64 m) g))) pts = P
    at hrun hsp hPl
  have hmk := mkCurve_ok hPl h2 (show m + p + 1 ≤ U.length by omega)
  refine ⟨canon p U P, P, ?_, canonPts_matrix _ _, hPl, ?_⟩
  · rw [generate]
    simp only [generateParams, DataPoints.segments, generateKnots]
    rw [usub_ok (by omega), ok_bind, hl, Nat.add_sub_cancel, hes, ok_bind, ok_bind, hk, ok_bind]
    dsimp only
    rw [hrun, ok_bind, ← hmk, mkCurve, hnew, ok_bind]
  · rcases hsp with hsp | hsp
    · exact Or.inr ⟨hsp, spoiled_evaluate hmk hlU h2 hPl (i := m) (by omega) le_rfl
        (fun q hq => hsp q (List.mem_of_getElem? hq))⟩
    · exact Or.inl hsp

/-- **C148** Least-squares fit with loose ends in `f64`, for products of matrices computed in any order: the same. -/
theorem C148_fit_loose {mm : Products (Ieee binary64) d} (hmm : mm.AnyOrder)
    {decompose : List (List (Ieee binary64)) → Svd (Ieee binary64)} (hD : Svd.Shaped decompose)
    (eps : Ieee binary64) {p n m : ℕ} (h1 : 1 ≤ p) (h2 : p ≤ n) (h3 : n ≤ m) (hm : m ≤ 2 ^ 50)
    {pts : DataPoints (Ieee binary64) d} (hl : List.length pts = m + 1) {pen : Option (Penalization (Ieee binary64))}
    {pen' : Option (Penalization ℚ)} (hpen : PenF64 (n - 1) pen pen') {r : Fin d}
    (hr : ∃ q : Pt (Ieee binary64) d, q ∈ pts ∧ NotFinite (q r)) :
    ∃ (c : Curve (Ieee binary64) d) (P : List (Pt (Ieee binary64) d)),
      generateFit mm (Solver.svd decompose eps) p pts n .looseEnds pen = .ok (.ok c) ∧ c.points.matrix = .ok P ∧
      P.length = n + 1 ∧
      ((∀ q ∈ P, ∀ s, ZeroOrNan (q s)) ∨ (∀ q ∈ P, NotFinite (q r)) ∧
        ∀ u, Cmp.le 0 u = true → Cmp.le u 1 = true → ∃ v, c.evaluate u = .ok (.ok v) ∧ NotFinite (v r)) := by
  obtain ⟨g1, g2, -, -⟩ := hpen.spec
  obtain ⟨kn, U, V, T, h, hk, hkv, hnew, hU, hV, hun, hh, hgap, hhm, hes, hrl, hT, hT1⟩ := fit_setup h1 h2 h3 hm
  have hlU : U.length = n + p + 2 := hU.length_eq.trans hV.length
  obtain ⟨P, hP⟩ : ∃ P, Loose.fitWith mm (Solver.svd decompose eps) kn pts ⟨ratios binary64 m, m⟩ pen = .ok (.ok P) := by
    obtain ⟨-, rfl⟩ := knots_new_inv hnew
    obtain ⟨G, hG, -⟩ := hmm.gram_mat (m + 1) (n + 1) (fun g i => nb p n U i (fn (ratios binary64 m) g))
    obtain ⟨E, hE, -⟩ := penalty_products hmm (n + 1) (fun κ => n + 1 - κ) pen
    obtain ⟨bb, hbb, -⟩ := hmm.mulT_mat (m + 1) (n + 1) (fun g i => nb p n U i (fn (ratios binary64 m) g)) hl
    rw [loose_fitWith_ok mm hlU h1 hl hrl _ pen hG hE (by rw [hbb]; simp), hun, fitErrorOf_ok g1 g2 le_rfl h2 h3]
    exact ⟨_, rfl⟩
  obtain ⟨hPl, hsp⟩ := C148_loose hmm hD eps hnew hlU h1 hl hrl hP hr
  have hmk := mkCurve_ok hPl h2 (show n + p + 1 ≤ U.length by omega)
  refine ⟨canon p U P, P, ?_, canonPts_matrix _ _, hPl, ?_⟩
  · rw [generateFit]
    simp only [generateParams, DataPoints.segments, generateKnots]
    rw [usub_ok (by omega), ok_bind, hl, Nat.add_sub_cancel, hes, ok_bind, hk, ok_bind]
    dsimp only
    rw [hP, ok_bind]
    dsimp only
    rw [← hmk, mkCurve, hnew, ok_bind]
  · rcases hsp with hsp | hsp
    · exact Or.inr ⟨hsp, spoiled_evaluate hmk hlU h2 hPl (i := n) (by omega) le_rfl
        (fun q hq => hsp q (List.mem_of_getElem? hq))⟩
    · exact Or.inl hsp

/-- **C148** Least-squares fit with fixed ends in `f64`, for products of matrices computed in any order: the ends are
the first and the last data point, all inner control points are spoiled, and with them all points of the curve. -/
theorem C148_fit_fixed {mm : Products (Ieee binary64) d} (hmm : mm.AnyOrder)
    {decompose : List (List (Ieee binary64)) → Svd (Ieee binary64)} (hD : Svd.Shaped decompose)
    (eps : Ieee binary64) {p n m : ℕ} (h1 : 1 ≤ p) (h2 : p ≤ n) (h3 : n ≤ m) (hn : 2 ≤ n) (hm : m ≤ 2 ^ 50)
    {pts : DataPoints (Ieee binary64) d} (hl : List.length pts = m + 1) {pen : Option (Penalization (Ieee binary64))}
    {pen' : Option (Penalization ℚ)} (hpen : PenF64 (n - 2) pen pen') {r : Fin d}
    (hr : ∃ q : Pt (Ieee binary64) d, q ∈ pts ∧ NotFinite (q r)) :
    ∃ (c : Curve (Ieee binary64) d) (P : List (Pt (Ieee binary64) d)),
      generateFit mm (Solver.svd decompose eps) p pts n .fixedEnds pen = .ok (.ok c) ∧ c.points.matrix = .ok P ∧
      P.length = n + 1 ∧ P[0]? = pts[0]? ∧ P[n]? = pts[m]? ∧
      ((∀ q ∈ P.tail.dropLast, ∀ s, ZeroOrNan (q s)) ∨ (∀ q ∈ P.tail.dropLast, NotFinite (q r)) ∧
        ∀ u, Cmp.le 0 u = true → Cmp.le u 1 = true → ∃ v, c.evaluate u = .ok (.ok v) ∧ NotFinite (v r)) := by
  obtain ⟨g1, g2, -, -⟩ := hpen.spec
  obtain ⟨kn, U, V, T, h, hk, hkv, hnew, hU, hV, hun, hh, hgap, hhm, hes, hrl, hT, hT1⟩ := fit_setup h1 h2 h3 hm
  have hlU : U.length = n + p + 2 := hU.length_eq.trans hV.length
  have hord := fun q (hq : pen = some q) => penOk_order hn g1 g2 hq
  obtain ⟨P, hP⟩ : ∃ P, Fixed.fitWith mm (Solver.svd decompose eps) kn pts ⟨ratios binary64 m, m⟩ pen = .ok (.ok P) := by
    obtain ⟨-, rfl⟩ := knots_new_inv hnew
    obtain ⟨G, hG, -⟩ := hmm.gram_mat (m - 1) (n - 1) (fun g i => nb p n U (i + 1) (fn (ratios binary64 m) (g + 1)))
    obtain ⟨E, hE, -⟩ := penalty_products hmm (n - 1) (fun κ => n - 1 - κ) pen
    rw [fixed_fitWith_ok mm hlU h1 hl hrl _ pen (fun _ => ⟨hn, hord⟩) hG hE, hun, fitErrorOf_ok g1 g2 (by omega) h2 h3]
    exact ⟨_, rfl⟩
  obtain ⟨hPl, e0, en, hsp⟩ := C148_fixed hmm hD eps hnew hlU h1 hl hrl hn hord hP hr
  have hmk := mkCurve_ok hPl h2 (show n + p + 1 ≤ U.length by omega)
  refine ⟨canon p U P, P, ?_, canonPts_matrix _ _, hPl, e0, en, ?_⟩
  · rw [generateFit]
    simp only [generateParams, DataPoints.segments, generateKnots]
    rw [usub_ok (by omega), ok_bind, hl, Nat.add_sub_cancel, hes, ok_bind, hk, ok_bind]
    dsimp only
    rw [hP, ok_bind]
    dsimp only
    rw [← hmk, mkCurve, hnew, ok_bind]
  · rcases hsp with hsp | hsp
    · refine Or.inr ⟨hsp, spoiled_evaluate hmk hlU h2 hPl (i := n - 1) (by omega) (by omega) (fun q hq => hsp q ?_)⟩
      have : P.tail.dropLast[n - 2]? = some q := by
        obtain ⟨h4, rfl⟩ := List.getElem?_eq_some_iff.mp hq
        rw [List.getElem?_eq_getElem (by simp; omega)]
        simp only [List.getElem_dropLast, List.getElem_tail, Option.some.injEq]
        congr 1
        omega
      exact List.mem_of_getElem? this
    · exact Or.inl hsp

/-- **C148** The two fits as `generate` computes them. -/
theorem C148_generate {decompose : List (List (Ieee binary64)) → Svd (Ieee binary64)} (hD : Svd.Shaped decompose)
    (eps : Ieee binary64) {p n m : ℕ} (h1 : 1 ≤ p) (h2 : p ≤ n) (h3 : n ≤ m) (hm : m ≤ 2 ^ 50)
    {pts : DataPoints (Ieee binary64) d} (hl : List.length pts = m + 1) {pen : Option (Penalization (Ieee binary64))}
    {pen' : Option (Penalization ℚ)} {method : FitMethod}
    (hpen : match method with
      | .looseEnds => PenF64 (n - 1) pen pen'
      | .fixedEnds => 2 ≤ n ∧ PenF64 (n - 2) pen pen') {r : Fin d}
    (hr : ∃ q : Pt (Ieee binary64) d, q ∈ pts ∧ NotFinite (q r)) :
    ∃ (c : Curve (Ieee binary64) d) (P : List (Pt (Ieee binary64) d)),
      generate (Solver.svd decompose eps) (.leastSquaresFit p pts n method pen) = .ok (.ok c) ∧ c.points.matrix = .ok P ∧
      P.length = n + 1 ∧
      ((∀ q ∈ P.tail.dropLast, ∀ s, ZeroOrNan (q s)) ∨ (∀ q ∈ P.tail.dropLast, NotFinite (q r)) ∧
        ∀ u, Cmp.le 0 u = true → Cmp.le u 1 = true → ∃ v, c.evaluate u = .ok (.ok v) ∧ NotFinite (v r)) := by
  have hsub : ∀ {P : List (Pt (Ieee binary64) d)} {q}, q ∈ P.tail.dropLast → q ∈ P := fun h =>
    List.mem_of_mem_tail (List.mem_of_mem_dropLast h)
  cases method with
  | looseEnds =>
    obtain ⟨c, P, e1, e2, e3, e4⟩ := C148_fit_loose sequential_anyOrder hD eps h1 h2 h3 hm hl hpen hr
    refine ⟨c, P, e1, e2, e3, ?_⟩
    rcases e4 with e4 | ⟨e4, e5⟩
    · exact Or.inl fun q hq => e4 q (hsub hq)
    · exact Or.inr ⟨fun q hq => e4 q (hsub hq), e5⟩
  | fixedEnds =>
    obtain ⟨c, P, e1, e2, e3, -, -, e4⟩ := C148_fit_fixed sequential_anyOrder hD eps h1 h2 h3 hpen.1 hm hl hpen.2 hr
    exact ⟨c, P, e1, e2, e3, e4⟩

end

/-- non-vacuity: a decomposition with `u` and `v_t` full of ones and all singular values one, and five points of which
the middle one is infinite; the curve has no finite point -/
example [Trunc (Ieee binary64)] [Sqrt (Ieee binary64)] :
    ∃ (decompose : List (List (Ieee binary64)) → Svd (Ieee binary64)) (pts : DataPoints (Ieee binary64) 1),
      Svd.Shaped decompose ∧ List.length pts = 5 ∧ (∃ q : Pt (Ieee binary64) 1, q ∈ pts ∧ NotFinite (q 0)) ∧
      (∃ q : Pt (Ieee binary64) 1, q ∈ pts ∧ Is (q 0) 0) ∧
      ∃ c P, generate (Solver.svd decompose 0) (.leastSquaresFit 2 pts 3 .fixedEnds none) = .ok (.ok c) ∧
        c.points.matrix = .ok P ∧ P.length = 4 := by
  have hS : Svd.Shaped (F := binary64) (fun A => ⟨A.map fun _ => A.map fun _ => 1, A.map fun _ => 1, A.map fun _ => A.map fun _ => 1⟩) :=
    fun A => by simp
  have h1 : ∃ q : Pt (Ieee binary64) 1, q ∈ [(fun _ => 0), (fun _ => 0), (fun _ => inf false), (fun _ => 0), (fun _ => 0)] ∧
      NotFinite (q 0) := ⟨fun _ => inf false, by simp, notFinite_inf _⟩
  obtain ⟨c, P, e1, e2, e3, -⟩ := C148_generate hS 0 (p := 2) (n := 3) (m := 4) (by omega) (by omega) (by omega) (by norm_num)
    (pts := [(fun _ => 0), (fun _ => 0), (fun _ => inf false), (fun _ => 0), (fun _ => 0)]) rfl (pen := none) (pen' := none)
    (method := .fixedEnds) ⟨by omega, trivial⟩ h1
  exact ⟨_, _, hS, rfl, h1, ⟨fun _ => 0, by simp, is_zero⟩, c, P, e1, e2, e3⟩

section overflow

local instance overflowTrunc : Trunc (Ieee binary64) := ⟨fun _ => 0⟩
local instance overflowSqrt : Sqrt (Ieee binary64) := ⟨fun a => a⟩

/-- a solver that returns the constant terms, in order to look at them -/
def echo : Solver (Ieee binary64) 1 where
  run A b := (List.range (ncols A)).map fun i => b.getD i (fun _ => 0)
  shape A b := by simp

/-- the first coordinates of the control points of a successful call -/
def firstCoords (r : Exec (Except (CurveError (Ieee binary64)) (Curve (Ieee binary64) 1))) : List (Ieee binary64) :=
  match r with
  | .ok (.ok c) => (match c.points.matrix with
    | .ok P => P.map fun q => q 0
    | .error _ => [])
  | _ => []

/-- `3 * 2^1022`, a finite number near the end of the range -/
def nearMax : Ieee binary64 := Ieee.mk binary64 false (3 * 2 ^ 1022)

/-- the reset that does not reset: all data are finite, the first constant term overflows, and the second is NaN -/
example : firstCoords (generate echo (.leastSquaresFit 1 ([0, nearMax, nearMax, nearMax, 0, 0, 0].map fun x _ => x) 3
    .fixedEnds none)) = [0, inf false, nan, 0] := by decide +kernel

/-- without the data that made the first constant term overflow, both constant terms are finite; the second basis
function vanishes at these data (up to rounding), so the second constant term should not have changed -/
example : ∀ a ∈ firstCoords (generate echo (.leastSquaresFit 1 ([0, 0, 0, nearMax, 0, 0, 0].map fun x _ => x) 3
    .fixedEnds none)), a ≠ nan ∧ a ≠ inf true ∧ a ≠ inf false := by
  decide +kernel

end overflow

end BSpline
