import Verif.Props.Ieee

/-!
# Local control in the arithmetic of `f64`: C124

`V` are the exact values of the knots `U`. A sum of `evaluate` runs over all control points up to the last
one, most of them multiplied by a zero.
-/

set_option linter.unusedSectionVars false

namespace BSpline

open Finset Ieee

variable {K : Type} [Field K] [LinearOrder K] [IsStrictOrderedRing K] {F : Format K} {d : ℕ}

/-- equal, up to the sign of a zero -/
def SameNum (a b : Ieee F) : Prop := a = b ∨ ∃ x, Is a x ∧ Is b x

theorem SameNum.is {a b : Ieee F} {x : K} (h : SameNum a b) (ha : Is a x) : Is b x := by
  rcases h with rfl | ⟨y, h1, h2⟩
  · exact ha
  · obtain ⟨s, q, rfl⟩ := h1
    obtain ⟨t, q', e⟩ := ha
    injection e with _ e
    injection e with e
    subst e
    exact h2

theorem SameNum.add_same {a b : Ieee F} (h : SameNum a b) (g : Ieee F) : SameNum (a + g) (b + g) := by
  rcases h with rfl | ⟨x, ⟨s, q, rfl⟩, ⟨t, q', rfl⟩⟩
  · exact Or.inl rfl
  · cases g with
    | nan => exact Or.inl rfl
    | inf _ => exact Or.inl rfl
    | fin w y =>
      change SameNum (Ieee.mk F (s && w) (x + y.val)) (Ieee.mk F (t && w) (x + y.val))
      by_cases hm : |F.rnd (x + y.val)| ≤ F.max
      · exact Or.inr ⟨F.rnd (x + y.val), ⟨_, ⟨F.idem _, hm⟩, by rw [Ieee.mk, dif_pos hm]⟩,
          ⟨_, ⟨F.idem _, hm⟩, by rw [Ieee.mk, dif_pos hm]⟩⟩
      · exact Or.inl (by rw [Ieee.mk, Ieee.mk, dif_neg hm, dif_neg hm])

theorem SameNum.add_zero {a b : Ieee F} (h : SameNum a b) {g g' : Ieee F} (hg : Is g 0) (hg' : Is g' 0) :
    SameNum (a + g) (b + g') := by
  obtain ⟨s, q, rfl⟩ := hg
  obtain ⟨t, q', rfl⟩ := hg'
  have key : ∀ {c : Ieee F} {x : K} {w : Bool} {k : F.Finite 0}, Is c x → Is (c + fin w ⟨0, k⟩) x := by
    intro c x w k hc
    have := hc.add (b := fin w ⟨0, k⟩) (y := 0) ⟨w, k, rfl⟩ (by rw [_root_.add_zero]; exact hc.le_max)
    rwa [_root_.add_zero, hc.rep] at this
  rcases h with rfl | ⟨x, h1, h2⟩
  · cases a with
    | nan => exact Or.inl rfl
    | inf _ => exact Or.inl rfl
    | fin w y => exact Or.inr ⟨y.val, key ⟨w, y.2, rfl⟩, key ⟨w, y.2, rfl⟩⟩
  · exact Or.inr ⟨x, key h1, key h2⟩

theorem foldl_same {g g' : ℕ → Ieee F} : ∀ (l : List ℕ) (v v' : Ieee F), SameNum v v' →
    (∀ i ∈ l, g i = g' i ∨ Is (g i) 0 ∧ Is (g' i) 0) →
    SameNum (l.foldl (fun y i => y + g i) v) (l.foldl (fun y i => y + g' i) v') := by
  intro l
  induction l with
  | nil => intro v v' h _; exact h
  | cons a l ih =>
    intro v v' h hl
    rw [List.foldl_cons, List.foldl_cons]
    refine ih _ _ ?_ (fun i hi => hl i (by simp [hi]))
    rcases hl a (by simp) with e | ⟨h1, h2⟩
    · rw [e]; exact h.add_same _
    · exact h.add_zero h1 h2

/-- a computed basis function is zero where it should be -/
theorem Nf_zero_ieee {U : List (Ieee F)} {V : List K} {p n : ℕ} (hroom : Room F p) (hV : ClampedKnots 0 1 p n V)
    (hU : List.Forall₂ Is U V) {u : Ieee F} {x : K} (hu : Is u x) (h0 : 0 ≤ x) (h1 : x ≤ 1) {h : K} (hh : 0 < h)
    (hgap : ∀ s ∈ V, ∀ t ∈ V, s < t → h ≤ t - s) (hhm : 2 / h ≤ F.max) {j : ℕ} (hs : IsSpan (fn V) n x j)
    {i : ℕ} (hi : i + p < j ∨ j < i) : Is (Nf (fn U) 0 n u p i) 0 := by
  have hcl := hV.clamp
  have hV0 : V ≠ [] := by rintro rfl; have := hV.length; simp at this
  have h01 : ∀ i, 0 ≤ fn V i ∧ fn V i ≤ 1 := fun i =>
    ⟨by rw [← hcl.left 0 (Nat.zero_le _)]; exact hcl.mono (Nat.zero_le i),
      by rw [← hcl.right (max i (n + 1)) (le_max_right _ _)]; exact hcl.mono (le_max_left _ _)⟩
  obtain ⟨y, iy, -, -, hz, -⟩ := Nf_ieee (U := fn U) (V := fn V) (fn_is hU) hcl.mono h01 hu h0 h1 hh
    (fun i j hij => hgap _ (fn_mem hV0 i) _ (fn_mem hV0 j) hij) (by
      refine le_trans ?_ hhm
      have := hroom.pow_le (k := 1) (by omega)
      rw [pow_one] at this
      exact div_le_div_of_nonneg_right (by linarith) hh.le) hroom (Nat.zero_le n)
    (fun q hq i => Nf_le_one hcl hs (Nat.zero_le p) q (by omega) i) p le_rfl i
  rwa [hz (Nf_zero_of_span hcl hs (Nat.zero_le p) (by omega))] at iy

/-- **C124** Local control in floating-point arithmetic: if the control points of two curves over the same knots
are finite, and agree in a coordinate wherever the support of the basis function contains the parameter, the
computed values agree in this coordinate, up to the sign of a zero. -/
theorem C124_local {c c' : Curve (Ieee F) d} {p n : ℕ} {U : List (Ieee F)} {V : List K}
    {P P' : List (Pt (Ieee F) d)} (hroom : Room F p) (hc : Built c p U P) (hc' : Built c' p U P')
    (hU : List.Forall₂ Is U V) (hV : ClampedKnots 0 1 p n V) (hP : P.length = n + 1) (hP' : P'.length = n + 1)
    {u : Ieee F} {x : K} (hu : Is u x) (h0 : 0 ≤ x) (h1 : x ≤ 1) {h : K} (hh : 0 < h)
    (hgap : ∀ s ∈ V, ∀ t ∈ V, s < t → h ≤ t - s) (hhm : 2 / h ≤ F.max) :
    ∃ v v', c.evaluate u = .ok (.ok v) ∧ c'.evaluate u = .ok (.ok v') ∧
      ∀ r, (∀ q ∈ P, ∃ y, Is (q r) y) → (∀ q ∈ P', ∃ y, Is (q r) y) →
        (∀ (i : ℕ) a b y z, P[i]? = some a → P'[i]? = some b → V[i]? = some y → V[i + p + 1]? = some z →
          y ≤ x → x ≤ z → a r = b r) → SameNum (v r) (v' r) := by
  have hlV := hV.length
  have hle := hV.le
  have hlU : U.length = n + p + 2 := hU.length_eq.trans hlV
  obtain rfl := hc.ieee_eq hlU hle hP
  obtain rfl := hc'.ieee_eq hlU hle hP'
  have hcl := hV.clamp
  have hP0 : P ≠ [] := by rintro rfl; simp at hP
  have hP0' : P' ≠ [] := by rintro rfl; simp at hP'
  obtain ⟨j, hs⟩ := hcl.exists_span h0 h1
  have hpj := hs.p_le hcl
  have hjn := hs.le_n
  have g0 : Cmp.le (0 : Ieee F) u = true := by rw [is_zero.cmp_le hu]; simpa using h0
  have g1 : Cmp.le u (1 : Ieee F) = true := by rw [hu.cmp_le is_one]; simpa using h1
  refine ⟨_, _, evaluateDerivative_ok hlU hP hle (Nat.zero_le p) g0 g1,
    evaluateDerivative_ok hlU hP' hle (Nat.zero_le p) g0 g1, fun r hf hf' hsame => ?_⟩
  rw [evalFold, evalFold, foldl_coord, foldl_coord]
  refine foldl_same _ _ _ (Or.inl rfl) fun i hi => ?_
  rw [List.mem_range'_1] at hi
  have hin : i ≤ n := by omega
  by_cases hact : i + p < j ∨ j < i
  · right
    have hz := Nf_zero_ieee hroom hV hU hu h0 h1 hh hgap hhm hs hact
    obtain ⟨y, hy⟩ := hf _ (fn_mem hP0 i)
    obtain ⟨y', hy'⟩ := hf' _ (fn_mem hP0' i)
    have k1 := hz.mul hy (by rw [zero_mul, abs_zero]; exact F.max_nonneg)
    have k2 := hz.mul hy' (by rw [zero_mul, abs_zero]; exact F.max_nonneg)
    rw [zero_mul, F.rnd_zero] at k1 k2
    exact ⟨k1, k2⟩
  · left
    have e := hsame i (fn P i) (fn P' i) (fn V i) (fn V (i + p + 1))
      (by rw [List.getElem?_eq_getElem (by omega), fn_lt (by omega)])
      (by rw [List.getElem?_eq_getElem (by omega), fn_lt (by omega)])
      (by rw [List.getElem?_eq_getElem (by omega), fn_lt (by omega)])
      (by rw [List.getElem?_eq_getElem (by omega), fn_lt (by omega)])
      ((hcl.mono (show i ≤ j by omega)).trans hs.lo)
      (le_trans (by
        rcases hs.hi with h | ⟨rfl, h⟩
        · exact h.le
        · exact h.le) (hcl.mono (show j + 1 ≤ i + p + 1 by omega)))
    change _ * dpt (fn U) p (fn P) 0 i r = _ * dpt (fn U) p (fn P') 0 i r
    rw [dpt, dpt, e]

/-- exact values depend only on the control points whose basis functions live at the parameter -/
theorem evaluate_local {p n : ℕ} {V : List K} {Q Q' : List (Pt K d)} (hV : ClampedKnots 0 1 p n V)
    (hQ : Q.length = n + 1) (hQ' : Q'.length = n + 1) {x : K} (h0 : 0 ≤ x) (h1 : x ≤ 1)
    (hsame : ∀ i, i ≤ n → fn V i ≤ x → x ≤ fn V (i + p + 1) → fn Q i = fn Q' i) :
    (canon p V Q).evaluate x = (canon p V Q').evaluate x := by
  have hcl := hV.clamp
  obtain ⟨j, hs⟩ := hcl.exists_span h0 h1
  have hpj := hs.p_le hcl
  have hjn := hs.le_n
  rw [Curve.evaluate, Curve.evaluate, evaluateDerivative_eq hV hQ (Nat.zero_le p) h0 h1 hs,
    evaluateDerivative_eq hV hQ' (Nat.zero_le p) h0 h1 hs, ← fullSum_eq_cv hcl hs (Nat.zero_le p),
    ← fullSum_eq_cv hcl hs (Nat.zero_le p)]
  congr 2
  refine sum_congr rfl fun i hi => ?_
  rw [mem_range] at hi
  by_cases hact : i + p < j ∨ j < i
  · rw [Nf_zero_of_span hcl hs (Nat.zero_le p) (by omega), zero_smul, zero_smul]
  · rw [dpt, dpt, hsame i (by omega) ((hcl.mono (show i ≤ j by omega)).trans hs.lo)
      (le_trans (by
        rcases hs.hi with h | ⟨rfl, h⟩
        · exact h.le
        · exact h.le) (hcl.mono (show j + 1 ≤ i + p + 1 by omega)))]

/-- **C124** The error of a computed value depends only on the control points whose basis functions live at the
parameter; the others can be arbitrarily large finite numbers. -/
theorem C124_evaluate {c : Curve (Ieee F) d} {e : Curve K d} {p n : ℕ} {U : List (Ieee F)} {V : List K}
    {P : List (Pt (Ieee F) d)} {Q : List (Pt K d)} (hroom : Room F p) (hc : Built c p U P)
    (he : ValidOn 0 1 e p n V Q) (hU : List.Forall₂ Is U V) (hP : List.Forall₂ PtIs P Q)
    {u : Ieee F} {x : K} (hu : Is u x) (h0 : 0 ≤ x) (h1 : x ≤ 1) {h : K} (hh : 0 < h)
    (hgap : ∀ s ∈ V, ∀ t ∈ V, s < t → h ≤ t - s) (hhm : 2 / h ≤ F.max) :
    ∃ (v : Pt (Ieee F) d) (w : Pt K d), c.evaluate u = .ok (.ok v) ∧ e.evaluate x = .ok (.ok w) ∧
      ∀ (r : Fin d) (M : K), 0 ≤ M → (∀ (i : ℕ) q y z, Q[i]? = some q → V[i]? = some y → V[i + p + 1]? = some z →
        y ≤ x → x ≤ z → |q r| ≤ M) → 4 * (M + 1) ≤ F.max →
      ∃ y, Is (v r) y ∧ |y - w r| ≤ (F.phi ^ (6 * p + 2) - 1) * M +
          (p + 1) * 3 ^ (p + 3) * (M + 1) * F.eta := by
  obtain rfl := he.eq_canon
  obtain ⟨-, hV, hQ⟩ := he
  have hlV := hV.length
  have hle := hV.le
  have hlU : U.length = n + p + 2 := hU.length_eq.trans hlV
  have hlP : P.length = n + 1 := hP.length_eq.trans hQ
  have hQ0 : Q ≠ [] := by rintro rfl; simp at hQ
  -- the curves with zeros instead of the other control points
  let A : ℕ → Prop := fun i => fn V i ≤ x ∧ x ≤ fn V (i + p + 1)
  let P' : List (Pt (Ieee F) d) := (List.range (n + 1)).map fun i => if A i then fn P i else fun _ => 0
  let Q' : List (Pt K d) := (List.range (n + 1)).map fun i => if A i then fn Q i else fun _ => 0
  have hlP' : P'.length = n + 1 := by simp [P']
  have hlQ' : Q'.length = n + 1 := by simp [Q']
  have hPQ' : List.Forall₂ PtIs P' Q' := by
    simp only [P', Q', List.forall₂_map_left_iff, List.forall₂_map_right_iff, List.forall₂_same]
    intro i _
    split
    · exact fn_ptIs hP i
    · exact fun _ => is_zero
  obtain ⟨v', w', e1, e2, e3⟩ := C85_evaluate hroom (mkCurve_ok (U := U) hlP' hle (by omega))
    (validOn_canon hV hlQ') hU hPQ' hu h0 h1 hh hgap hhm
  obtain ⟨v, v'', f1, f2, f3⟩ := C124_local hroom hc (mkCurve_ok (U := U) hlP' hle (by omega)) hU hV hlP hlP' hu h0 h1
    hh hgap hhm
  rw [e1] at f2
  injection f2 with f2; injection f2 with f2
  subst f2
  refine ⟨v, w', f1, ?_, fun r M hM0 hM hmax => ?_⟩
  · rw [← e2]
    refine evaluate_local hV hQ hlQ' h0 h1 fun i hi a b => ?_
    rw [fn_map_range _ (by omega), if_pos ⟨a, b⟩]
  · obtain ⟨y, hy, hb⟩ := e3 r M (by
      intro q hq
      obtain ⟨i, hi, rfl⟩ := List.mem_map.mp hq
      rw [List.mem_range] at hi
      split
      · rename_i hA
        exact hM i (fn Q i) (fn V i) (fn V (i + p + 1))
          (by rw [List.getElem?_eq_getElem (by omega), fn_lt (by omega)])
          (by rw [List.getElem?_eq_getElem (by omega), fn_lt (by omega)])
          (by rw [List.getElem?_eq_getElem (by omega), fn_lt (by omega)]) hA.1 hA.2
      · rw [abs_zero]; exact hM0) hmax
    have hs := f3 r (by
        intro q hq
        obtain ⟨i, hi, rfl⟩ := List.mem_iff_getElem.mp hq
        exact ⟨_, by have := fn_ptIs hP i r; rwa [fn_lt hi] at this⟩) (by
        intro q hq
        obtain ⟨i, hi, rfl⟩ := List.mem_iff_getElem.mp hq
        exact ⟨_, by have := fn_ptIs hPQ' i r; rwa [fn_lt hi] at this⟩) (by
        intro i a b y z ha hb hy hz k1 k2
        have hi : i < n + 1 := by rw [← hlP]; exact (List.getElem?_eq_some_iff.mp ha).1
        rw [List.getElem?_eq_getElem (by omega), ← fn_lt (by omega)] at ha hb hy hz
        injection ha with ha; injection hb with hb; injection hy with hy; injection hz with hz
        subst ha hb hy hz
        rw [fn_map_range _ hi, if_pos ⟨k1, k2⟩])
    have hs' : SameNum (v' r) (v r) := by
      rcases hs with h | ⟨y, a, b⟩
      · exact Or.inl h.symm
      · exact Or.inr ⟨y, b, a⟩
    exact ⟨y, hs'.is hy, hb⟩

theorem nan_add (a : Ieee F) : (nan : Ieee F) + a = nan := by cases a <;> rfl
theorem add_nan (a : Ieee F) : a + (nan : Ieee F) = nan := by cases a <;> rfl

theorem foldl_nan {g : ℕ → Ieee F} : ∀ (l : List ℕ) (v : Ieee F), (v = nan ∨ ∃ i ∈ l, g i = nan) →
    l.foldl (fun y i => y + g i) v = nan := by
  intro l
  induction l with
  | nil => rintro v (h | ⟨i, hi, -⟩); exacts [h, by simp at hi]
  | cons a l ih =>
    intro v h
    rw [List.foldl_cons]
    apply ih
    rcases h with rfl | ⟨i, hi, h⟩
    · exact Or.inl (nan_add _)
    · rcases List.mem_cons.mp hi with rfl | hi
      · exact Or.inl (by rw [h]; exact add_nan _)
      · exact Or.inr ⟨i, hi, h⟩

/-- **C124** The control points must be finite for this: one infinite or NaN coordinate of a control point makes
the coordinate of all values before its knot NaN, however far away they are. -/
theorem C124_poison {c : Curve (Ieee F) d} {p n : ℕ} {U : List (Ieee F)} {V : List K}
    {P : List (Pt (Ieee F) d)} (hroom : Room F p) (hc : Built c p U P)
    (hU : List.Forall₂ Is U V) (hV : ClampedKnots 0 1 p n V) (hP : P.length = n + 1)
    {u : Ieee F} {x : K} (hu : Is u x) (h0 : 0 ≤ x) (h1 : x ≤ 1) {h : K} (hh : 0 < h)
    (hgap : ∀ s ∈ V, ∀ t ∈ V, s < t → h ≤ t - s) (hhm : 2 / h ≤ F.max) {i : ℕ} {q : Pt (Ieee F) d} {y : K}
    (hq : P[i]? = some q) (hy : V[i]? = some y) (hxy : x < y) {r : Fin d} (hr : ¬ ∃ z, Is (q r) z) :
    ∃ v, c.evaluate u = .ok (.ok v) ∧ v r = nan := by
  have hlV := hV.length
  have hle := hV.le
  have hlU : U.length = n + p + 2 := hU.length_eq.trans hlV
  obtain rfl := hc.ieee_eq hlU hle hP
  have hcl := hV.clamp
  obtain ⟨j, hs⟩ := hcl.exists_span h0 h1
  have hpj := hs.p_le hcl
  have hjn := hs.le_n
  have hi : i < n + 1 := by rw [← hP]; exact (List.getElem?_eq_some_iff.mp hq).1
  rw [List.getElem?_eq_getElem (by omega), ← fn_lt (by omega)] at hq hy
  injection hq with hq; injection hy with hy
  subst hq hy
  have hji : j < i := by
    by_contra hn
    exact absurd (hcl.mono (show i ≤ j by omega)) (not_le.mpr (lt_of_le_of_lt hs.lo hxy))
  have g0 : Cmp.le (0 : Ieee F) u = true := by rw [is_zero.cmp_le hu]; simpa using h0
  have g1 : Cmp.le u (1 : Ieee F) = true := by rw [hu.cmp_le is_one]; simpa using h1
  refine ⟨_, evaluateDerivative_ok hlU hP hle (Nat.zero_le p) g0 g1, ?_⟩
  rw [evalFold, foldl_coord]
  refine foldl_nan _ _ (Or.inr ⟨i, ?_, ?_⟩)
  · have hs' := hs.shiftN (k := 0) (by omega)
    have hlo := lleq_le_span hs' (n - p) (p - 0) (by omega) (by omega)
    rw [lleq_is (fun i => fn_is hU (i + 0)) hu, List.mem_range'_1]
    change lleq (shiftN 0 (fn V)) x (n - p) (p - 0) - (p - 0) ≤ i ∧ i < lleq (shiftN 0 (fn V)) x (n - p) (p - 0) - (p - 0) +
      (n - 0 + 1 - (lleq (shiftN 0 (fn V)) x (n - p) (p - 0) - (p - 0)))
    omega
  · obtain ⟨s, k, hz⟩ := Nf_zero_ieee hroom hV hU hu h0 h1 hh hgap hhm hs (Or.inr hji)
    change Nf (fn U) 0 n u p i * fn P i r = nan
    rw [hz]
    cases e : fn P i r with
    | nan => rfl
    | inf t =>
      change Ieee.mul _ _ = _
      rw [Ieee.mul]
      dsimp only
      rw [if_pos rfl]
    | fin t w => exact absurd ⟨w.val, t, w.2, e⟩ hr

/-- **C124** For `f64`. -/
theorem C124_f64 {c : Curve (Ieee binary64) d} {e : Curve ℚ d} {p n : ℕ} {U : List (Ieee binary64)} {V : List ℚ}
    {P : List (Pt (Ieee binary64) d)} {Q : List (Pt ℚ d)} (hp : p ≤ 600) (hc : Built c p U P)
    (he : ValidOn 0 1 e p n V Q) (hU : List.Forall₂ Is U V) (hP : List.Forall₂ PtIs P Q)
    {u : Ieee binary64} {x : ℚ} (hu : Is u x) (h0 : 0 ≤ x) (h1 : x ≤ 1)
    (hgap : ∀ s ∈ V, ∀ t ∈ V, s < t → (1 / 2) ^ 1000 ≤ t - s) :
    ∃ (v : Pt (Ieee binary64) d) (w : Pt ℚ d), c.evaluate u = .ok (.ok v) ∧ e.evaluate x = .ok (.ok w) ∧
      ∀ (r : Fin d) (M : ℚ), 0 ≤ M → (∀ (i : ℕ) q y z, Q[i]? = some q → V[i]? = some y → V[i + p + 1]? = some z →
        y ≤ x → x ≤ z → |q r| ≤ M) → M ≤ 2 ^ 1000 →
      ∃ y, Is (v r) y ∧ |y - w r| ≤ (6 * p + 2) / 2 ^ 52 * M +
          (p + 1) * 3 ^ (p + 3) * (M + 1) * (1 / 2) ^ 1075 := by
  have hmax : (2 : ℚ) ^ 1023 ≤ binary64.max := by
    decide +kernel
  obtain ⟨v, w, hv, hw, hb⟩ := C124_evaluate (room_binary64 hp) hc he hU hP hu h0 h1 (by positivity) hgap (by
    refine le_trans ?_ hmax
    decide +kernel)
  refine ⟨v, w, hv, hw, fun r M hM0 hM hM' => ?_⟩
  obtain ⟨y, hy, hyb⟩ := hb r M hM0 hM (by
    refine le_trans (show _ ≤ 4 * ((2 : ℚ) ^ 1000 + 1) from
      mul_le_mul_of_nonneg_left (add_le_add hM' le_rfl) (by norm_num)) (le_trans ?_ hmax)
    decide +kernel)
  refine ⟨y, hy, hyb.trans (add_le_add ?_ (le_of_eq ?_))⟩
  · refine mul_le_mul_of_nonneg_right ?_ hM0
    have heps : binary64.eps = (1 / 2) ^ 53 := rfl
    have hpq : (p : ℚ) ≤ 600 := by exact_mod_cast hp
    have hp0 : (0 : ℚ) ≤ p := Nat.cast_nonneg _
    have hbern := one_add_mul_le_pow (a := -(1 / 2 : ℚ) ^ 53) (by norm_num) (6 * p + 2)
    rw [← sub_eq_add_neg] at hbern
    push_cast at hbern
    have ht : 0 < 1 + (6 * (p : ℚ) + 2) * -(1 / 2) ^ 53 := by norm_num; linarith
    rw [Format.phi, heps, inv_pow, sub_le_iff_le_add]
    refine (inv_anti₀ ht hbern).trans ?_
    rw [inv_le_iff_one_le_mul₀ ht]
    norm_num
    nlinarith
  · have heta : binary64.eta = (1 / 2) ^ 1075 := by
      change (1 / 2 * 2 ^ ((-1022 : ℤ) - 52) : ℚ) = _
      decide +kernel
    rw [heta]

/-! ### A concrete case -/

/-- a polyline whose last point is the largest number, and the same with an infinite last point: the first
segment is computed correctly, and lost -/
example : (canon 1 [0, 0, eq64 (1 / 2), 1, 1] [![0], ![1], ![eq64 (2 ^ 1024 - 2 ^ 971)]]).evaluate (eq64 (1 / 4)) =
      .ok (.ok ![eq64 (1 / 2)]) ∧
    (canon 1 [0, 0, eq64 (1 / 2), 1, 1] [![0], ![1], ![Ieee.inf false]]).evaluate (eq64 (1 / 4)) =
      .ok (.ok ![Ieee.nan]) ∧
    (canon 1 [0, 0, eq64 (1 / 2), 1, 1] [![Ieee.inf false], ![1], ![0]]).evaluate (eq64 (3 / 4)) =
      .ok (.ok ![eq64 (1 / 2)]) := by decide +kernel

end BSpline
