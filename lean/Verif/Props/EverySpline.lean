import Verif.Props.Reproduce
import Verif.Props.JumpSharp

/-!
# The curves over given knots are all splines over these knots: C137

The theorem of Curry and Schoenberg. A spline is given by one polynomial of degree at most `p` for every knot interval,
such that at an interior knot of multiplicity `m` neighbouring polynomials have equal derivatives of the orders
`0, …, p - m`.
-/

set_option linter.unusedSectionVars false

namespace BSpline

open Finset

variable {K : Type} [Field K] [LinearOrder K] [IsStrictOrderedRing K] {d : ℕ}

/-- the `r`-th derivative at `u` of the polynomial `Σ_k u^k q_k` of degree at most `p` -/
def polyDeriv (p : ℕ) (q : ℕ → Pt K d) (r : ℕ) (u : K) : Pt K d :=
  ∑ k ∈ range (p + 1), ((k.descFactorial r : ℕ) * u ^ (k - r) : K) • q k

/-- `q x` is the polynomial that begins at the knot `x`; at every interior knot `τ` it has as many common derivatives with
the one before it, which begins at `x`, as the multiplicity of `τ` permits -/
def Smooth (p : ℕ) (U : List K) (q : K → ℕ → Pt K d) : Prop :=
  ∀ x τ, x ∈ U → τ ∈ U → x < τ → τ < 1 → (∀ z ∈ U, x < z → τ ≤ z) →
    ∀ r, r + U.count τ ≤ p → polyDeriv p (q x) r τ = polyDeriv p (q τ) r τ

/-- `u` lies in the knot interval that begins at the knot `x` (the last interval is closed) -/
def InPiece (U : List K) (x u : K) : Prop :=
  x ∈ U ∧ x ≤ u ∧ x < 1 ∧ ∀ z ∈ U, x < z → u < z ∨ u = 1 ∧ z = 1

/-- `τ` is the knot after `x`, or lies between `x` and this knot -/
def UpTo (U : List K) (x τ : K) : Prop := x ∈ U ∧ x < τ ∧ ∀ z ∈ U, x < z → τ ≤ z

/-- The curve consists of the pieces `q`: `evaluate_derivative` returns their derivatives of all orders, and after
`reverse` at every `τ` those of the piece which ends at `τ`, with alternating signs. -/
structure HasPieces (c : Curve K d) (p : ℕ) (U : List K) (q : K → ℕ → Pt K d) : Prop where
  right : ∀ x u, InPiece U x u → u ≤ 1 → ∀ r, c.evaluateDerivative u r = .ok (.ok (polyDeriv p (q x) r u))
  left : ∀ x τ c', UpTo U x τ → τ ≤ 1 → c.reverse = .ok c' → ∀ r,
    c'.evaluateDerivative (1 - τ) r = .ok (.ok ((-1 : K) ^ r • polyDeriv p (q x) r τ))

/-! ### Polar forms of polynomials -/

theorem polyDeriv_gt (p : ℕ) (q : ℕ → Pt K d) {r : ℕ} (hr : p < r) (u : K) : polyDeriv p q r u = 0 := by
  refine sum_eq_zero fun k hk => ?_
  rw [Nat.descFactorial_eq_zero_iff_lt.mpr (by have := mem_range.mp hk; omega)]
  simp

theorem polyDeriv_eq (p : ℕ) (q : ℕ → Pt K d) {r : ℕ} (hr : r ≤ p) (u : K) :
    polyDeriv p q r u = polyPolar (p - r) (derivCoeff q r) (List.replicate (p - r) u) := by
  rw [polyPolar_replicate, polyDeriv]
  rw [show range (p + 1) = range (r + (p - r + 1)) by congr 1; omega, sum_range_add _ r (p - r + 1)]
  rw [sum_eq_zero (s := range r), zero_add]
  · apply sum_congr rfl
    intro k _
    rw [derivCoeff, smul_smul, show r + k = k + r by omega, show k + r - r = k by omega, mul_comm]
  · intro k hk
    rw [Nat.descFactorial_eq_zero_iff_lt.mpr (by simpa using hk)]
    simp

theorem polyPolar_sub (p : ℕ) (q q' : ℕ → Pt K d) (ts : List K) :
    polyPolar p (fun k => q k - q' k) ts = polyPolar p q ts - polyPolar p q' ts := by
  rw [polyPolar, polyPolar, polyPolar, ← sum_sub_distrib]
  exact sum_congr rfl fun k _ => by module

theorem derivCoeff_sub (q q' : ℕ → Pt K d) (r : ℕ) :
    derivCoeff (fun k => q k - q' k) r = fun k => derivCoeff q r k - derivCoeff q' r k := by
  funext k
  rw [derivCoeff, derivCoeff, derivCoeff, smul_sub]

theorem derivCoeff_deriv (q : ℕ → Pt K d) (r : ℕ) :
    derivCoeff (fun k => ((k + 1 : ℕ) : K) • q (k + 1)) r = derivCoeff q (r + 1) := by
  funext k
  rw [derivCoeff, derivCoeff, smul_smul, show k + r + 1 = k + (r + 1) by omega]
  congr 1
  rw [show k + (r + 1) = (k + r) + 1 by omega, Nat.succ_descFactorial_succ]
  push_cast; ring

theorem SymAffine.expand {f : List K → Pt K d} (hf : SymAffine f) (t s : K) (ts : List K) :
    f (t :: ts) = f (s :: ts) + (t - s) • (f (1 :: ts) - f (0 :: ts)) := by
  have h1 := hf.affine t (1 - t) 1 0 ts (by ring)
  have h2 := hf.affine s (1 - s) 1 0 ts (by ring)
  rw [mul_one, mul_zero, add_zero] at h1 h2
  rw [h1, h2]
  module

/-- a polynomial whose derivatives up to the order `s` vanish at `τ` has a polar form which vanishes as soon as all but `s`
arguments are `τ` -/
theorem polyPolar_eq_zero (τ : K) (s : ℕ) : ∀ (m : ℕ) (q : ℕ → Pt K d),
    (∀ r, r ≤ s → polyPolar (m + s - r) (derivCoeff q r) (List.replicate (m + s - r) τ) = 0) →
    ∀ ts : List K, ts.length = s → polyPolar (m + s) q (ts ++ List.replicate m τ) = 0 := by
  induction s with
  | zero =>
    intro m q h ts hts
    obtain rfl := List.length_eq_zero_iff.mp hts
    have := h 0 le_rfl
    have e : derivCoeff q 0 = q := by funext k; simp [derivCoeff]
    rwa [e] at this
  | succ s ih =>
    intro m q h ts hts
    obtain ⟨t, ts, rfl⟩ := List.exists_cons_of_length_eq_add_one hts
    have hts : ts.length = s := by simpa using hts
    have hsa := symAffine_polyPolar (m + (s + 1)) q
    rw [List.cons_append, hsa.expand t τ]
    have h1 : polyPolar (m + (s + 1)) q (τ :: (ts ++ List.replicate m τ)) = 0 := by
      have := ih (m + 1) q (fun r hr => by rw [show m + 1 + s = m + (s + 1) by omega]; exact h r (by omega)) ts hts
      rw [show m + 1 + s = m + (s + 1) by omega] at this
      rw [← this, List.replicate_succ]
      exact hsa.perm List.perm_middle.symm
    have h2 : polyPolar (m + (s + 1)) q (1 :: (ts ++ List.replicate m τ)) -
        polyPolar (m + (s + 1)) q (0 :: (ts ++ List.replicate m τ)) = 0 := by
      have h3 := polyPolar_deriv (m + s) q (ts ++ List.replicate m τ)
      rw [ih m _ (fun r hr => ?_) ts hts] at h3
      · exact (smul_eq_zero.mp h3).resolve_left (Nat.cast_ne_zero.mpr (Nat.succ_ne_zero (m + s)))
      · rw [derivCoeff_deriv, show m + s - r = m + (s + 1) - (r + 1) by omega]
        exact h (r + 1) (by omega)
    rw [h1, h2, smul_zero, add_zero]

/-! ### Control points of a spline -/

/-- a knot interval -/
def Step (V : ℕ → K) (j : ℕ) : Prop := V j < V (j + 1)

theorem eq_of_no_step {V : ℕ → K} (hm : Monotone V) {a b : ℕ} (hab : a ≤ b) (h : ∀ i, a ≤ i → i < b → ¬ Step V i) :
    V a = V b := by
  induction b, hab using Nat.le_induction with
  | base => rfl
  | succ b hab ih =>
    rw [ih fun i h1 h2 => h i h1 (by omega)]
    exact le_antisymm (hm (Nat.le_succ b)) (not_lt.mp (h b hab (Nat.lt_succ_self b)))

theorem mem_fn {U : List K} {j : ℕ} (h : j < U.length) : fn U j ∈ U := by
  rw [fn_lt h]; exact List.getElem_mem h

theorem exists_fn {U : List K} {x : K} (h : x ∈ U) : ∃ j, j < U.length ∧ fn U j = x := by
  obtain ⟨j, hj, rfl⟩ := List.mem_iff_getElem.mp h
  exact ⟨j, hj, fn_lt hj⟩

/-- neighbouring pieces have the same polar form at the knots of a control point that influences both -/
theorem polar_step {p n : ℕ} {U : List K} (hU : ClampedKnots 0 1 p n U) {q : K → ℕ → Pt K d} (hq : Smooth p U q)
    {i j j' : ℕ} (hij : i ≤ j) (hjj : j < j') (hj' : j' ≤ i + p) (h1 : Step (fn U) j) (h2 : Step (fn U) j')
    (h3 : ∀ m, j < m → m < j' → ¬ Step (fn U) m) :
    polyPolar p (q (fn U j)) (knotsFrom (fn U) (i + 1) p) = polyPolar p (q (fn U j')) (knotsFrom (fn U) (i + 1) p) := by
  have hc := hU.clamp
  have hl := hU.length
  have hjn' : j' ≤ n := by
    by_contra hcon
    have h2 : fn U j' < fn U (j' + 1) := h2
    rw [hc.right j' (by omega), hc.right (j' + 1) (by omega)] at h2
    exact lt_irrefl _ h2
  have hrun : ∀ m, j < m → m ≤ j' → fn U m = fn U j' := fun m a b =>
    eq_of_no_step hc.mono b fun i' c e => h3 i' (by omega) e
  set τ := fn U j' with hτ
  have hxτ : fn U j < τ := by rw [← hrun (j + 1) (by omega) (by omega)]; exact h1
  have hτ1 : τ < 1 := lt_of_lt_of_le h2 (by
    rw [← hc.right (max (n + 1) (j' + 1)) (le_max_left _ _)]; exact hc.mono (le_max_right _ _))
  have hcount : U.count τ ≤ j' - j :=
    count_le_run hU hτ1 ⟨hjn', le_rfl, Or.inl h2⟩ ⟨by omega, hxτ, (hrun (j + 1) (by omega) (by omega)).ge⟩
  have hsm := hq (fn U j) τ (mem_fn (by omega)) (mem_fn (by omega)) hxτ hτ1 (by
    intro z hz hlt
    obtain ⟨m, hm, rfl⟩ := exists_fn hz
    have : j < m := by
      by_contra hcon
      exact absurd (hc.mono (show m ≤ j by omega)) (not_le.mpr hlt)
    rw [← hrun (j + 1) (by omega) (by omega)]
    exact hc.mono this)
  have hperm : (knotsFrom (fn U) (i + 1) p).Perm
      ((knotsFrom (fn U) (i + 1) (j - i) ++ knotsFrom (fn U) (j' + 1) (i + p - j')) ++ List.replicate (j' - j) τ) := by
    have e : List.replicate (j' - j) τ = knotsFrom (fn U) (j + 1) (j' - j) := by
      rw [knotsFrom]
      symm
      rw [List.eq_replicate_iff]
      refine ⟨by simp, fun b hb => ?_⟩
      obtain ⟨m, hm, rfl⟩ := List.mem_map.mp hb
      have := List.mem_range'_1.mp hm
      exact hrun m (by omega) (by omega)
    have e2 : knotsFrom (fn U) (i + 1) p = knotsFrom (fn U) (i + 1) (j - i) ++
        (knotsFrom (fn U) (j + 1) (j' - j) ++ knotsFrom (fn U) (j' + 1) (i + p - j')) := by
      have a1 := knotsFrom_append (fn U) (i + 1) (j - i) ((j' - j) + (i + p - j'))
      have a2 := knotsFrom_append (fn U) (j + 1) (j' - j) (i + p - j')
      rw [show i + 1 + (j - i) = j + 1 by omega, a2, show j + 1 + (j' - j) = j' + 1 by omega,
        show j - i + ((j' - j) + (i + p - j')) = p by omega] at a1
      exact a1
    rw [e, e2, List.append_assoc]
    exact (List.perm_append_comm).append_left _
  have hz := polyPolar_eq_zero τ (p - (j' - j)) (j' - j) (fun k => q (fn U j) k - q τ k) (fun r hr => by
    rw [derivCoeff_sub, polyPolar_sub, show j' - j + (p - (j' - j)) - r = p - r by omega,
      ← polyDeriv_eq p _ (by omega), ← polyDeriv_eq p _ (by omega), hsm r (by omega), sub_self])
    (knotsFrom (fn U) (i + 1) (j - i) ++ knotsFrom (fn U) (j' + 1) (i + p - j')) (by simp; omega)
  rw [show j' - j + (p - (j' - j)) = p by omega, polyPolar_sub, sub_eq_zero] at hz
  rw [(symAffine_polyPolar p _).perm hperm, (symAffine_polyPolar p _).perm hperm]
  exact hz

theorem polar_chain {p n : ℕ} {U : List K} (hU : ClampedKnots 0 1 p n U) {q : K → ℕ → Pt K d} (hq : Smooth p U q)
    {i : ℕ} (w : ℕ) : ∀ {j j' : ℕ}, j' - j = w → i ≤ j → j ≤ j' → j' ≤ i + p → Step (fn U) j → Step (fn U) j' →
    polyPolar p (q (fn U j)) (knotsFrom (fn U) (i + 1) p) = polyPolar p (q (fn U j')) (knotsFrom (fn U) (i + 1) p) := by
  classical
  induction w using Nat.strong_induction_on with
  | _ w ih =>
    intro j j' hw hij hjj hj' h1 h2
    rcases Nat.eq_or_lt_of_le hjj with rfl | hlt
    · rfl
    have hex : ∃ m, j < m ∧ Step (fn U) m := ⟨j', hlt, h2⟩
    obtain ⟨ha, hb⟩ := Nat.find_spec hex
    have hle : Nat.find hex ≤ j' := Nat.find_min' hex ⟨hlt, h2⟩
    rw [polar_step hU hq hij ha (by omega) h1 hb fun m a b c => Nat.find_min hex b ⟨a, c⟩]
    exact ih (j' - Nat.find hex) (by omega) rfl (by omega) hle hj' hb h2

/-- the control points of a spline -/
theorem exists_points {p n : ℕ} {U : List K} (hU : ClampedKnots 0 1 p n U) {q : K → ℕ → Pt K d} (hq : Smooth p U q) :
    ∃ P : List (Pt K d), P.length = n + 1 ∧ ∀ i j, i ≤ n → i ≤ j → j ≤ i + p → Step (fn U) j →
      fn P i = polyPolar p (q (fn U j)) (knotsFrom (fn U) (i + 1) p) := by
  classical
  have : ∀ i, ∃ v : Pt K d, ∀ j, i ≤ j → j ≤ i + p → Step (fn U) j →
      v = polyPolar p (q (fn U j)) (knotsFrom (fn U) (i + 1) p) := by
    intro i
    by_cases h : ∃ j, i ≤ j ∧ j ≤ i + p ∧ Step (fn U) j
    · obtain ⟨j, h1, h2, h3⟩ := h
      refine ⟨polyPolar p (q (fn U j)) (knotsFrom (fn U) (i + 1) p), fun j' h1' h2' h3' => ?_⟩
      rcases le_total j j' with hjj | hjj
      · exact polar_chain hU hq _ rfl h1 hjj h2' h3 h3'
      · exact (polar_chain hU hq _ rfl h1' hjj h2 h3' h3).symm
    · exact ⟨0, fun j h1 h2 h3 => absurd ⟨j, h1, h2, h3⟩ h⟩
  choose v hv using this
  refine ⟨(List.range (n + 1)).map v, by simp, fun i j hi h1 h2 h3 => ?_⟩
  rw [fn_map_range _ (by omega)]
  exact hv i j h1 h2 h3

/-- derivatives of a piece with a known polar form -/
theorem bl_deriv_of_polar {V : ℕ → K} {p a : ℕ} {P : ℕ → Pt K d} {q : ℕ → Pt K d}
    (h : ∀ ts : List K, ts.length = p → bl V ts P a = polyPolar p q ts) (m : ℕ) : m ≤ p → ∀ ts : List K, ts.length = p - m →
    bl (shiftN m V) ts (dpt V p P m) a = polyPolar (p - m) (derivCoeff q m) ts := by
  induction m with
  | zero =>
    intro _ ts hts
    rw [shiftN_zero, Nat.sub_zero]
    have e : derivCoeff q 0 = q := by funext k; simp [derivCoeff]
    rw [e]
    exact h ts hts
  | succ m ih =>
    intro hm ts hts
    have ih := ih (by omega)
    rw [dpt_succ _ (by omega), ← shift_shiftN, show p - m = ts.length + 1 by omega, bl_Dv,
      ih (1 :: ts) (by simp; omega), ih (0 :: ts) (by simp; omega),
      show p - m = ts.length + 1 by omega, polyPolar_deriv, derivCoeff_succ,
      show p - (m + 1) = ts.length by omega]

/-- the span of a parameter in a knot interval -/
theorem InPiece.span {p n : ℕ} {U : List K} (hU : ClampedKnots 0 1 p n U) {x u : K} (h : InPiece U x u) :
    ∃ j, IsSpan (fn U) n u j ∧ Step (fn U) j ∧ fn U j = x := by
  obtain ⟨hx, hxu, hx1, hz⟩ := h
  have hc := hU.clamp
  have hl := hU.length
  have h0 : 0 ≤ x := by
    obtain ⟨i, hi, rfl⟩ := exists_fn hx
    rw [← hc.left 0 (Nat.zero_le p)]
    exact hc.mono (Nat.zero_le i)
  obtain ⟨j, hj⟩ := hc.exists_span h0 hx1.le
  have hlt := hj.lt hc
  have hjn := hj.le_n
  have hxj : fn U j = x := by
    refine le_antisymm hj.lo ?_
    obtain ⟨i, hi, rfl⟩ := exists_fn hx
    rcases hj.hi with h2 | ⟨-, h2⟩
    · refine hc.mono ?_
      by_contra hcon
      exact absurd (hc.mono (show j + 1 ≤ i by omega)) (not_le.mpr h2)
    · rw [h2, hc.right _ le_rfl] at hx1; exact absurd hx1 (lt_irrefl _)
  refine ⟨j, ⟨hjn, hj.lo.trans hxu, ?_⟩, hlt, hxj⟩
  rcases hz (fn U (j + 1)) (mem_fn (by omega)) (by rw [← hxj]; exact hlt) with h2 | ⟨h2, h3⟩
  · exact Or.inl h2
  · right
    have : j = n := by
      by_contra hcon
      have := hc.lt_b (show j + 1 ≤ n by omega)
      rw [h3] at this
      exact lt_irrefl _ this
    exact ⟨this, by rw [h2, hc.right _ le_rfl]⟩

theorem InPiece.nonneg {p n : ℕ} {U : List K} (hU : ClampedKnots 0 1 p n U) {x : K} (h : x ∈ U) : 0 ≤ x := by
  have hc := hU.clamp
  obtain ⟨i, hi, rfl⟩ := exists_fn h
  rw [← hc.left 0 (Nat.zero_le p)]
  exact hc.mono (Nat.zero_le i)

theorem evaluateDerivative_gt {c : Curve K d} {p n r : ℕ} {U : List K} {P : List (Pt K d)} (hc : ValidOn 0 1 c p n U P)
    (hr : p < r) {u : K} (h0 : 0 ≤ u) (h1 : u ≤ 1) : c.evaluateDerivative u r = .ok (.ok 0) := by
  obtain rfl := hc.eq_canon
  have hk : ¬ r ≤ p := by omega
  have : (Cmp.le 0 u && Cmp.le u 1) = true := by simp [Cmp.le, h0, h1]
  simp [Curve.evaluateDerivative, hk, this]
  rfl

theorem UpTo.leftSpan {p n : ℕ} {U : List K} (hU : ClampedKnots 0 1 p n U) {x τ : K} (h : UpTo U x τ) (h1 : τ ≤ 1) :
    ∃ j, IsLeftSpan (fn U) n τ j ∧ Step (fn U) j ∧ fn U j = x := by
  obtain ⟨hx, hlt, hz⟩ := h
  have hc := hU.clamp
  have hl := hU.length
  obtain ⟨j, hs⟩ := hc.exists_leftSpan (lt_of_le_of_lt (InPiece.nonneg hU hx) hlt) h1
  have hjn := hs.le_n
  refine ⟨j, hs, lt_of_lt_of_le hs.lo hs.hi, ?_⟩
  have h1 : ¬ x < fn U j := fun h => absurd hs.lo (not_lt.mpr (hz _ (mem_fn (by omega)) h))
  refine le_antisymm (not_lt.mp h1) ?_
  obtain ⟨i, hi, rfl⟩ := exists_fn hx
  refine hc.mono ?_
  by_contra hcon
  exact absurd (hs.hi.trans (hc.mono (show j + 1 ≤ i by omega))) (not_le.mpr hlt)

theorem hasPieces_of_cv {p n : ℕ} {U : List K} {P : List (Pt K d)} (hU : ClampedKnots 0 1 p n U) (hP : P.length = n + 1)
    {q : K → ℕ → Pt K d}
    (hval : ∀ j u r, Step (fn U) j → r ≤ p → cv (fn U) p (fn P) r j u = polyDeriv p (q (fn U j)) r u) :
    HasPieces (canon p U P) p U q := by
  refine ⟨fun x u hxu h1 r => ?_, fun x τ c' hx h1 hc' r => ?_⟩
  · have h0 := (InPiece.nonneg hU hxu.1).trans hxu.2.1
    obtain ⟨j, hs, hst, rfl⟩ := hxu.span hU
    by_cases hr : r ≤ p
    · rw [evaluateDerivative_eq hU hP hr h0 h1 hs, hval j u r hst hr]
    · rw [evaluateDerivative_gt (validOn_canon hU hP) (by omega) h0 h1, polyDeriv_gt p _ (by omega)]
  · obtain ⟨j, hs, hst, rfl⟩ := hx.leftSpan hU h1
    have h0 := (InPiece.nonneg hU hx.1).trans hx.2.1.le
    rw [reverse_canon hU.length hP hU.le] at hc'
    injection hc' with hc'
    subst hc'
    have hU' := revU_clamped hU
    simp only [sub_self, sub_zero] at hU'
    by_cases hr : r ≤ p
    · rw [evaluate_reverse hU hP hr (by linarith) (by linarith) (Or.inl (by rw [sub_sub_cancel]; exact hs)),
        sub_sub_cancel, hval j τ r hst hr]
    · rw [evaluateDerivative_gt (validOn_canon hU' (by simpa using hP)) (by omega) (by linarith) (by linarith),
        polyDeriv_gt p _ (by omega), smul_zero]

/-- **C137** Every spline over the knots of a curve is a curve over these knots: there are control points for which
`evaluate_derivative` returns the derivatives of the pieces. -/
theorem C137_every_spline {p n : ℕ} {U : List K} (hU : ClampedKnots 0 1 p n U) {q : K → ℕ → Pt K d} (hq : Smooth p U q) :
    ∃ P c, ValidOn 0 1 c p n U P ∧ HasPieces c p U q := by
  obtain ⟨P, hP, hv⟩ := exists_points hU hq
  refine ⟨P, _, validOn_canon hU hP, hasPieces_of_cv hU hP fun j u r hst hr => ?_⟩
  have hc := hU.clamp
  have hpj := (isSpan_left hc hst).1
  have hjn := (isSpan_left hc hst).2.le_n
  have hw := win_of_span hc.mono hpj hst
  rw [cv, polyDeriv_eq p _ hr]
  refine bl_deriv_of_polar (fun ts hts => ?_) r hr _ (by simp)
  subst hts
  rw [← bl_reproduce ts (symAffine_polyPolar _ _) hw]
  apply bl_congr_pts
  intro m hm
  exact hv _ j (by omega) (by omega) (by omega) hst

/-! ### Pieces of a curve -/

/-- every polar form is the polar form of a polynomial -/
theorem exists_polyPolar (p : ℕ) : ∀ {V : ℕ → K} {P : ℕ → Pt K d} {a : ℕ}, Win V p a →
    ∃ q : ℕ → Pt K d, ∀ ts : List K, ts.length = p → bl V ts P a = polyPolar p q ts := by
  induction p with
  | zero =>
    intro V P a _
    refine ⟨fun _ => P a, fun ts hts => ?_⟩
    obtain rfl := List.length_eq_zero_iff.mp hts
    simp [polyPolar]
  | succ p ih =>
    intro V P a hW
    obtain ⟨q', hq'⟩ := ih (P := Dv V (p + 1) P) hW.shift
    set q : ℕ → Pt K d := fun k => match k with
      | 0 => bl V (List.replicate (p + 1) 0) P a
      | k + 1 => (1 / ((k + 1 : ℕ) : K)) • q' k with hq
    have hqd : (fun k => ((k + 1 : ℕ) : K) • q (k + 1)) = q' := by
      funext k
      have : ((k + 1 : ℕ) : K) ≠ 0 := by exact_mod_cast Nat.succ_ne_zero k
      simp only [hq, smul_smul]
      rw [mul_one_div_cancel this, one_smul]
    have hp0 : ((p + 1 : ℕ) : K) ≠ 0 := by exact_mod_cast Nat.succ_ne_zero p
    -- the difference does not depend on its first argument
    have hstep : ∀ (t : K) (ts : List K), ts.length = p →
        bl V (t :: ts) P a - polyPolar (p + 1) q (t :: ts) = bl V (0 :: ts) P a - polyPolar (p + 1) q (0 :: ts) := by
      intro t ts hts
      have e1 : bl V (t :: ts) P a = bl V (0 :: ts) P a + t • (bl V (1 :: ts) P a - bl V (0 :: ts) P a) :=
        bl_const_arg ts t (by rw [hts]; exact hW)
      have e2 := (symAffine_polyPolar (p + 1) q).expand t 0 ts
      have e3 := bl_Dv V ts P a
      rw [hts, hq' ts hts] at e3
      have e4 := polyPolar_deriv p q ts
      rw [hqd] at e4
      have e5 := smul_right_injective (Pt K d) hp0 (e3.symm.trans e4.symm)
      rw [e1, e2, e5, sub_zero]
      abel
    have hzero : ∀ (s : ℕ) (ts : List K), ts.length + s = p + 1 →
        bl V (ts ++ List.replicate s 0) P a - polyPolar (p + 1) q (ts ++ List.replicate s 0) =
          bl V (List.replicate (p + 1) 0) P a - polyPolar (p + 1) q (List.replicate (p + 1) 0) := by
      intro s ts
      induction ts generalizing s with
      | nil => intro h; obtain rfl : s = p + 1 := by simpa using h
               rfl
      | cons t ts ih2 =>
        intro h
        simp only [List.length_cons] at h
        rw [List.cons_append, hstep t _ (by simp; omega)]
        have hp1 : (0 :: (ts ++ List.replicate s (0 : K))).Perm (ts ++ List.replicate (s + 1) 0) := by
          rw [List.replicate_succ]; exact List.perm_middle.symm
        rw [bl_perm hp1 (by rw [List.length_cons, List.length_append, List.length_replicate,
            show ts.length + s + 1 = p + 1 by omega]; exact hW), (symAffine_polyPolar _ _).perm hp1]
        exact ih2 (s + 1) (by omega)
    refine ⟨q, fun ts hts => ?_⟩
    have h1 := hzero 0 ts (by omega)
    rw [List.replicate_zero, List.append_nil, polyPolar_replicate, sum_range_succ'] at h1
    rw [sum_eq_zero (fun k _ => by rw [zero_pow (Nat.succ_ne_zero k), zero_smul]), zero_add, pow_zero, one_smul] at h1
    rw [show q 0 = bl V (List.replicate (p + 1) 0) P a from rfl, sub_self, sub_eq_zero] at h1
    exact h1

/-- **C137** Conversely every curve is a spline over its knots. -/
theorem C137_every_curve {c : Curve K d} {p n : ℕ} {U : List K} {P : List (Pt K d)} (hc : ValidOn 0 1 c p n U P) :
    ∃ q : K → ℕ → Pt K d, Smooth p U q ∧ HasPieces c p U q := by
  classical
  obtain rfl := hc.eq_canon
  obtain ⟨-, hU, hP⟩ := hc
  have hcl := hU.clamp
  have hl := hU.length
  have : ∀ x, ∃ q : ℕ → Pt K d, ∀ j, Step (fn U) j → fn U j = x → ∀ ts : List K, ts.length = p →
      bl (fn U) ts (fn P) (j - p) = polyPolar p q ts := by
    intro x
    by_cases h : ∃ j, Step (fn U) j ∧ fn U j = x
    · obtain ⟨j, h1, rfl⟩ := h
      obtain ⟨q, hq⟩ := exists_polyPolar (P := fn P) p (win_of_span hcl.mono (isSpan_left hcl h1).1 h1)
      refine ⟨q, fun j' h1' he => ?_⟩
      have : j' = j := by
        rcases lt_trichotomy j' j with hlt | h | hlt
        · have := lt_of_lt_of_le h1' (hcl.mono (show j' + 1 ≤ j by omega))
          rw [he] at this; exact absurd this (lt_irrefl _)
        · exact h
        · have := lt_of_lt_of_le h1 (hcl.mono (show j + 1 ≤ j' by omega))
          rw [he] at this; exact absurd this (lt_irrefl _)
      rw [this]; exact hq
    · exact ⟨0, fun j h1 h2 => absurd ⟨j, h1, h2⟩ h⟩
  choose q hq using this
  have hval : ∀ j u r, Step (fn U) j → r ≤ p → cv (fn U) p (fn P) r j u = polyDeriv p (q (fn U j)) r u := by
    intro j u r hst hr
    rw [cv, polyDeriv_eq p _ hr]
    exact bl_deriv_of_polar (hq _ j hst rfl) r hr _ (by simp)
  refine ⟨q, ?_, hasPieces_of_cv hU hP hval⟩
  intro x τ hx hτ hxτ hτ1 hnext r hr
  obtain ⟨j', hs', hst', ej'⟩ := UpTo.leftSpan hU ⟨hx, hxτ, hnext⟩ hτ1.le
  obtain ⟨j, hs, hst, ej⟩ := InPiece.span hU (x := τ) (u := τ) ⟨hτ, le_rfl, hτ1, fun z _ h => Or.inl h⟩
  have h3 := cv_glue_count hU (show r ≤ p by omega) hs hs' (fun _ _ => by omega) (fn P)
  rw [hval j' τ r hst' (by omega), hval j τ r hst (by omega), ej, ej'] at h3
  exact h3

/-- every parameter of the domain lies in a knot interval -/
theorem exists_inPiece {p n : ℕ} {U : List K} (hU : ClampedKnots 0 1 p n U) {u : K} (h0 : 0 ≤ u) (h1 : u ≤ 1) :
    ∃ x, InPiece U x u := by
  have hc := hU.clamp
  have hl := hU.length
  obtain ⟨j, hs⟩ := hc.exists_span h0 h1
  have hjn := hs.le_n
  refine ⟨fn U j, mem_fn (by omega), hs.lo, hc.lt_b hjn, fun z hz hlt => ?_⟩
  obtain ⟨i, hi, rfl⟩ := exists_fn hz
  have hji : j + 1 ≤ i := by
    by_contra hcon
    exact absurd (hc.mono (show i ≤ j by omega)) (not_le.mpr hlt)
  rcases hs.hi with h2 | ⟨rfl, h2⟩
  · exact Or.inl (lt_of_lt_of_le h2 (hc.mono hji))
  · rw [hc.right _ le_rfl] at h2
    exact Or.inr ⟨h2, hc.right i hji⟩

/-- **C137** The control points of a spline are unique if no interior knot has a multiplicity above `p + 1`. -/
theorem C137_unique {c c' : Curve K d} {p n : ℕ} {U : List K} {P P' : List (Pt K d)} (hc : ValidOn 0 1 c p n U P)
    (hc' : ValidOn 0 1 c' p n U P') (hm : ∀ x, 0 < x → x < 1 → U.count x ≤ p + 1) {q : K → ℕ → Pt K d}
    (h : ∀ x u, InPiece U x u → u ≤ 1 → c.evaluate u = .ok (.ok (polyDeriv p (q x) 0 u)))
    (h' : ∀ x u, InPiece U x u → u ≤ 1 → c'.evaluate u = .ok (.ok (polyDeriv p (q x) 0 u))) : P = P' ∧ c = c' := by
  refine C55_control_points_unique hc hc' hm fun u h0 h1 => ?_
  obtain ⟨x, hx⟩ := exists_inPiece hc.2.1 h0 h1
  rw [h x u hx h1, h' x u hx h1]

/-- the pieces `u²` before `1/2` and `u² + 3 (u - 1/2)²` from there on -/
def examplePieces (x : ℚ) (k : ℕ) : Pt ℚ 1 :=
  if x = 0 then (if k = 2 then ![1] else ![0])
  else (if k = 0 then ![3 / 4] else if k = 1 then ![-3] else ![4])

/-- they meet with one common derivative: a spline over the knots with a single knot `1/2` -/
example : Smooth 2 [0, 0, 0, 1 / 2, 1, 1, 1] examplePieces := by
  intro x τ hx hτ hlt h1 hn r hr
  simp only [List.mem_cons, List.not_mem_nil, or_false] at hx hτ
  obtain rfl : τ = 1 / 2 := by
    rcases hτ with rfl | rfl | rfl | rfl | rfl | rfl | rfl
    all_goals first
      | rfl
      | exact absurd h1 (lt_irrefl _)
      | (rcases hx with rfl | rfl | rfl | rfl | rfl | rfl | rfl <;> norm_num at hlt)
  obtain rfl : x = 0 := by
    rcases hx with rfl | rfl | rfl | rfl | rfl | rfl | rfl <;> first | rfl | (norm_num at hlt)
  have e : List.count (1 / 2 : ℚ) [0, 0, 0, 1 / 2, 1, 1, 1] = 1 := by decide +kernel
  rw [e] at hr
  obtain rfl | rfl : r = 0 ∨ r = 1 := by omega
  · decide +kernel
  · decide +kernel

/-- its control points -/
example : ∃ c, ValidOn 0 1 c 2 3 [(0 : ℚ), 0, 0, 1 / 2, 1, 1, 1] [![0], ![0], ![1 / 2], ![7 / 4]] ∧
    c.evaluate (1 / 4) = .ok (.ok (polyDeriv 2 (examplePieces 0) 0 (1 / 4))) ∧
    c.evaluate (3 / 4) = .ok (.ok (polyDeriv 2 (examplePieces (1 / 2)) 0 (3 / 4))) ∧
    c.evaluateDerivative (3 / 4) 1 = .ok (.ok (polyDeriv 2 (examplePieces (1 / 2)) 1 (3 / 4))) :=
  ⟨_, validOn_canon (by decide +kernel) rfl, by decide +kernel, by decide +kernel, by decide +kernel⟩

/-- the smoothness is needed: a jump of the first derivative at a single knot is impossible for a curve of degree two -/
example : ¬ Smooth 2 [0, 0, 0, 1 / 2, 1, 1, 1]
    (fun (x : ℚ) k => if x = 0 then ![0] else if k = 0 then ![-1 / 2] else if k = 1 then ![1] else (![0] : Pt ℚ 1)) := by
  intro h
  have := h 0 (1 / 2) (by simp) (by simp) (by norm_num) (by norm_num) (by decide +kernel) 1 (by decide +kernel)
  revert this
  decide +kernel

end BSpline
