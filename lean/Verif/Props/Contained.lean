import Mathlib.Algebra.Polynomial.Roots
import Mathlib.Order.Interval.Set.Infinite
import Verif.Props.EverySpline
import Verif.Props.Insert
import Verif.Props.Unique

/-!
# Which curves can be expressed over other knots: C138

Knot insertion, knot removal and raising the degree are the special cases.
-/

set_option linter.unusedSectionVars false

namespace BSpline

open Finset

variable {K : Type} [Field K] [LinearOrder K] [IsStrictOrderedRing K] {d : ℕ}

/-- The `r`-th derivative has the same value from both sides at `τ`: `evaluate_derivative` gives the one from the right,
the reversed curve the one from the left (C22). -/
def SameFromBothSides (c : Curve K d) (r : ℕ) (τ : K) : Prop :=
  ∃ c' v, c.reverse = .ok c' ∧ c.evaluateDerivative τ r = .ok (.ok v) ∧
    c'.evaluateDerivative (1 - τ) r = .ok (.ok ((-1 : K) ^ r • v))

/-! ### Polynomials that agree somewhere -/

/-- the coefficients, continued by zeros -/
def cut (p : ℕ) (q : ℕ → Pt K d) (k : ℕ) : Pt K d := if k ≤ p then q k else 0

theorem polyDeriv_cut {p p' : ℕ} (h : p ≤ p') (q : ℕ → Pt K d) (r : ℕ) (u : K) :
    polyDeriv p' (cut p q) r u = polyDeriv p q r u := by
  rw [polyDeriv, polyDeriv, show p' + 1 = (p + 1) + (p' - p) by omega, sum_range_add, ]
  rw [sum_eq_zero (s := range (p' - p)), add_zero]
  · exact sum_congr rfl fun k hk => by rw [cut, if_pos (by have := mem_range.mp hk; omega)]
  · intro k _
    rw [cut, if_neg (by omega), smul_zero]

theorem cut_eq_of_values {p p' : ℕ} {q q' : ℕ → Pt K d} {a b : K} (hab : a < b)
    (h : ∀ u, a ≤ u → u < b → polyDeriv p q 0 u = polyDeriv p' q' 0 u) : cut p q = cut p' q' := by
  funext k
  funext i
  have hm : ∀ (u : K), a ≤ u → u < b →
      polyDeriv (max p p') (cut p q) 0 u = polyDeriv (max p p') (cut p' q') 0 u := fun u h1 h2 => by
    rw [polyDeriv_cut (le_max_left _ _), polyDeriv_cut (le_max_right _ _), h u h1 h2]
  set N := max p p' with hN
  let F : Polynomial K := ∑ m ∈ range (N + 1), Polynomial.monomial m (cut p q m i - cut p' q' m i)
  have hF : F = 0 := by
    apply Polynomial.eq_zero_of_infinite_isRoot
    refine (Set.Ico_infinite hab).mono fun u hu => ?_
    have e := congrFun (hm u hu.1 hu.2) i
    simp only [polyDeriv, Finset.sum_apply, Pi.smul_apply, Nat.descFactorial_zero, Nat.cast_one, one_mul, Nat.sub_zero,
      smul_eq_mul] at e
    show Polynomial.eval u F = 0
    rw [Polynomial.eval_finsetSum]
    simp only [Polynomial.eval_monomial, sub_mul, sum_sub_distrib]
    rw [sub_eq_zero]
    simpa [mul_comm] using e
  by_cases hk : k ≤ N
  · have h2 : F.coeff k = cut p q k i - cut p' q' k i := by
      simp only [F, Polynomial.finsetSum_coeff, Polynomial.coeff_monomial]
      rw [sum_ite_eq' (range (N + 1)) k, if_pos (mem_range.mpr (by omega))]
    rw [hF, Polynomial.coeff_zero] at h2
    exact sub_eq_zero.mp h2.symm
  · rw [cut, cut, if_neg (by omega), if_neg (by omega)]

theorem polyDeriv_eq_of_cut {p p' : ℕ} {q q' : ℕ → Pt K d} (h : cut p q = cut p' q') (r : ℕ) (u : K) :
    polyDeriv p q r u = polyDeriv p' q' r u := by
  rw [← polyDeriv_cut (le_max_left p p'), h, polyDeriv_cut (le_max_right p p')]

/-- two polynomials with the same derivatives at one point are equal -/
theorem polyDeriv_taylor {p : ℕ} {q q' : ℕ → Pt K d} {τ : K} (h : ∀ r, r ≤ p → polyDeriv p q r τ = polyDeriv p q' r τ)
    (r : ℕ) (u : K) : polyDeriv p q r u = polyDeriv p q' r u := by
  have h1 : ∀ ts : List K, ts.length = p → polyPolar p (fun k => q k - q' k) ts = 0 := by
    intro ts hts
    have := polyPolar_eq_zero τ p 0 (fun k => q k - q' k) (fun r hr => by
      rw [zero_add, derivCoeff_sub, polyPolar_sub, ← polyDeriv_eq p _ hr, ← polyDeriv_eq p _ hr, h r hr, sub_self]) ts hts
    simpa using this
  have h2 : ∀ u, polyDeriv p q 0 u = polyDeriv p q' 0 u := by
    intro u
    have := h1 (List.replicate p u) (by simp)
    rw [polyPolar_sub, sub_eq_zero] at this
    rw [polyDeriv_eq p _ (Nat.zero_le p), polyDeriv_eq p _ (Nat.zero_le p)]
    have e : ∀ q : ℕ → Pt K d, derivCoeff q 0 = q := fun q => by funext k; simp [derivCoeff]
    rw [e, e]
    exact this
  exact polyDeriv_eq_of_cut (cut_eq_of_values (zero_lt_one (α := K)) fun u _ _ => h2 u) r u

/-! ### Knot intervals -/

theorem InPiece.unique {U : List K} {x x' u : K} (h : InPiece U x u) (h' : InPiece U x' u) : x = x' := by
  rcases lt_trichotomy x x' with hlt | h | hlt
  · rcases h.2.2.2 x' h'.1 hlt with h2 | ⟨-, h2⟩
    · exact absurd h'.2.1 (not_le.mpr h2)
    · exact absurd h'.2.2.1 (by rw [h2]; exact lt_irrefl _)
  · exact h
  · rcases h'.2.2.2 x h.1 hlt with h2 | ⟨-, h2⟩
    · exact absurd h.2.1 (not_le.mpr h2)
    · exact absurd h.2.2.1 (by rw [h2]; exact lt_irrefl _)

theorem UpTo.inPiece {U : List K} {x τ u : K} (h : UpTo U x τ) (h1 : τ ≤ 1) (hx : x ≤ u) (hu : u < τ) : InPiece U x u :=
  ⟨h.1, hx, lt_of_lt_of_le h.2.1 h1, fun z hz hlt => Or.inl (lt_of_lt_of_le hu (h.2.2 z hz hlt))⟩

theorem exists_upTo {p n : ℕ} {U : List K} (hU : ClampedKnots 0 1 p n U) {τ : K} (h0 : 0 < τ) (h1 : τ ≤ 1) :
    ∃ x, UpTo U x τ := by
  have hc := hU.clamp
  have hl := hU.length
  obtain ⟨j, hs⟩ := hc.exists_leftSpan h0 h1
  have hjn := hs.le_n
  refine ⟨fn U j, mem_fn (by omega), hs.lo, fun z hz hlt => ?_⟩
  obtain ⟨i, hi, rfl⟩ := exists_fn hz
  refine hs.hi.trans (hc.mono ?_)
  by_contra hcon
  exact absurd (hc.mono (show i ≤ j by omega)) (not_le.mpr hlt)

theorem exists_after (L : List K) {τ : K} (h1 : τ < 1) : ∃ b, τ < b ∧ b ≤ 1 ∧ ∀ z ∈ L, τ < z → b ≤ z := by
  induction L with
  | nil => exact ⟨1, h1, le_rfl, by simp⟩
  | cons y L ih =>
    obtain ⟨b, hb, hb1, h⟩ := ih
    by_cases hy : τ < y
    · refine ⟨min b y, lt_min hb hy, (min_le_left _ _).trans hb1, fun z hz hlt => ?_⟩
      rcases List.mem_cons.mp hz with rfl | hz
      · exact min_le_right _ _
      · exact (min_le_left _ _).trans (h z hz hlt)
    · refine ⟨b, hb, hb1, fun z hz hlt => ?_⟩
      rcases List.mem_cons.mp hz with rfl | hz
      · exact absurd hlt hy
      · exact h z hz hlt

theorem InPiece.extend {U : List K} {x τ b u : K} (h : InPiece U x τ) (hτ : τ < 1) (hb : ∀ z ∈ U, τ < z → b ≤ z)
    (h1 : τ ≤ u) (h2 : u < b) : InPiece U x u := by
  refine ⟨h.1, h.2.1.trans h1, h.2.2.1, fun z hz hlt => ?_⟩
  rcases h.2.2.2 z hz hlt with h3 | ⟨h3, -⟩
  · exact Or.inl (lt_of_lt_of_le h2 (hb z hz h3))
  · exact absurd hτ (by rw [h3]; exact lt_irrefl _)

/-- a knot is the piece that begins there -/
theorem inPiece_self {U : List K} {x : K} (h : x ∈ U) (h1 : x < 1) : InPiece U x x :=
  ⟨h, le_rfl, h1, fun _ _ h => Or.inl h⟩

theorem sameFromBothSides_iff {c : Curve K d} {p n : ℕ} {U : List K} {P : List (Pt K d)} (hc : ValidOn 0 1 c p n U P)
    {q : K → ℕ → Pt K d} (hf : HasPieces c p U q) {x y τ : K} (hx : UpTo U x τ) (hy : InPiece U y τ) (h1 : τ ≤ 1) (r : ℕ) :
    SameFromBothSides c r τ ↔ polyDeriv p (q x) r τ = polyDeriv p (q y) r τ := by
  have hne : ((-1 : K) ^ r) ≠ 0 := pow_ne_zero _ (by norm_num)
  constructor
  · rintro ⟨c', v, hr, h2, h3⟩
    rw [hf.right y τ hy h1 r] at h2
    rw [hf.left x τ c' hx h1 hr r] at h3
    injection h2 with h2; injection h2 with h2
    injection h3 with h3; injection h3 with h3
    rw [← h2] at h3
    exact smul_right_injective _ hne h3
  · intro h
    have hr : ∃ c', c.reverse = .ok c' := by
      obtain rfl := hc.eq_canon
      exact ⟨_, reverse_canon hc.2.1.length hc.2.2 hc.2.1.le⟩
    obtain ⟨c', hr⟩ := hr
    exact ⟨c', _, hr, hf.right y τ hy h1 r, by rw [hf.left x τ c' hx h1 hr r, h]⟩

/-- **C138** The values of a curve determine its derivatives, whatever the knots and the degree are. -/
theorem C138_values_decide {c c' : Curve K d} {p p' n n' : ℕ} {U V : List K} {P P' : List (Pt K d)}
    (hc : ValidOn 0 1 c p n U P) (hc' : ValidOn 0 1 c' p' n' V P')
    (h : ∀ u, 0 ≤ u → u ≤ 1 → c'.evaluate u = c.evaluate u) {u : K} (h0 : 0 ≤ u) (h1 : u ≤ 1) (r : ℕ) :
    c'.evaluateDerivative u r = c.evaluateDerivative u r := by
  have hU := hc.2.1
  have hV := hc'.2.1
  obtain ⟨q, -, hf⟩ := C137_every_curve hc
  obtain ⟨q', -, hf'⟩ := C137_every_curve hc'
  obtain ⟨x, hx⟩ := exists_inPiece hU h0 h1
  obtain ⟨x', hx'⟩ := exists_inPiece hV h0 h1
  have hval : ∀ u, 0 ≤ u → u ≤ 1 → InPiece U x u → InPiece V x' u →
      polyDeriv p (q x) 0 u = polyDeriv p' (q' x') 0 u := by
    intro u hu0 hu1 hz hz'
    have := h u hu0 hu1
    rw [Curve.evaluate, Curve.evaluate, hf.right x u hz hu1 0, hf'.right x' u hz' hu1 0] at this
    injection this with this; injection this with this
    exact this.symm
  have hcut : cut p (q x) = cut p' (q' x') := by
    rcases h1.lt_or_eq with h2 | rfl
    · obtain ⟨b, hb, hb1, hz⟩ := exists_after (U ++ V) h2
      exact cut_eq_of_values hb fun w ha hub => hval w (h0.trans ha) (hub.le.trans hb1)
        (hx.extend h2 (fun z h => hz z (List.mem_append_left _ h)) ha hub)
        (hx'.extend h2 (fun z h => hz z (List.mem_append_right _ h)) ha hub)
    · have up : ∀ {W : List K} {y : K}, InPiece W y 1 → UpTo W y 1 := fun hy =>
        ⟨hy.1, hy.2.2.1, fun z hz hlt => by
          rcases hy.2.2.2 z hz hlt with h2 | ⟨-, h2⟩
          · exact h2.le
          · exact h2.ge⟩
      refine cut_eq_of_values (a := max x x') (b := 1) (max_lt hx.2.2.1 hx'.2.2.1) fun w ha hb => ?_
      have hxw := (le_max_left x x').trans ha
      exact hval w ((InPiece.nonneg hU hx.1).trans hxw) hb.le ((up hx).inPiece le_rfl hxw hb)
        ((up hx').inPiece le_rfl ((le_max_right x x').trans ha) hb)
  rw [hf.right x u hx h1, hf'.right x' u hx' h1, polyDeriv_eq_of_cut hcut]

/-- **C138** A curve can be written over other knots `V` and a degree `p' ≥ p` if and only if at all interior parameters
its derivatives have the same value from both sides as far as the multiplicity of the parameter in `V` demands. -/
theorem C138_expressible_iff {c : Curve K d} {p p' n n' : ℕ} {U V : List K} {P : List (Pt K d)}
    (hc : ValidOn 0 1 c p n U P) (hp : p ≤ p') (hV : ClampedKnots 0 1 p' n' V) :
    (∃ c' P', ValidOn 0 1 c' p' n' V P' ∧ ∀ u, 0 ≤ u → u ≤ 1 → c'.evaluate u = c.evaluate u) ↔
      ∀ τ, 0 < τ → τ < 1 → ∀ r, r + V.count τ ≤ p' → SameFromBothSides c r τ := by
  classical
  have hU := hc.2.1
  obtain ⟨q, hq, hf⟩ := C137_every_curve hc
  constructor
  · rintro ⟨c', P', hc', hv⟩ τ h0 h1 r hr
    obtain ⟨q', hq', hf'⟩ := C137_every_curve hc'
    obtain ⟨x, hx⟩ := exists_upTo hU h0 h1.le
    obtain ⟨x', hx'⟩ := exists_upTo hV h0 h1.le
    obtain ⟨y, hy⟩ := exists_inPiece hU h0.le h1.le
    obtain ⟨y', hy'⟩ := exists_inPiece hV h0.le h1.le
    rw [sameFromBothSides_iff hc hf hx hy h1.le]
    have hval : ∀ {z z' u : K}, InPiece U z u → InPiece V z' u → 0 ≤ u → u ≤ 1 →
        polyDeriv p (q z) 0 u = polyDeriv p' (q' z') 0 u := by
      intro z z' u hz hz' hu0 hu1
      have := hv u hu0 hu1
      rw [Curve.evaluate, Curve.evaluate, hf.right z u hz hu1 0, hf'.right z' u hz' hu1 0] at this
      injection this with this; injection this with this
      exact this.symm
    have hl : cut p (q x) = cut p' (q' x') := by
      refine cut_eq_of_values (a := max x x') (b := τ) (max_lt hx.2.1 hx'.2.1) fun u ha hb => ?_
      have hxu := (le_max_left x x').trans ha
      exact hval (hx.inPiece h1.le hxu hb) (hx'.inPiece h1.le ((le_max_right x x').trans ha) hb)
        ((InPiece.nonneg hU hx.1).trans hxu) (hb.le.trans h1.le)
    have hrt : cut p (q y) = cut p' (q' y') := by
      obtain ⟨b, hb, hb1, hz⟩ := exists_after (U ++ V) h1
      refine cut_eq_of_values hb fun u ha hub => ?_
      exact hval (hy.extend h1 (fun z h => hz z (List.mem_append_left _ h)) ha hub)
        (hy'.extend h1 (fun z h => hz z (List.mem_append_right _ h)) ha hub) (h0.le.trans ha) (hub.le.trans hb1)
    rw [polyDeriv_eq_of_cut hl, polyDeriv_eq_of_cut hrt]
    by_cases hτ : τ ∈ V
    · rw [← (inPiece_self hτ h1).unique hy']
      exact hq' x' τ hx'.1 hτ hx'.2.1 h1 hx'.2.2 r hr
    · have : x' = y' := by
        refine InPiece.unique (U := V) (u := τ) ⟨hx'.1, hx'.2.1.le, hx'.2.1.trans h1, fun z hz hlt => ?_⟩ hy'
        refine Or.inl (lt_of_le_of_ne (hx'.2.2 z hz hlt) ?_)
        rintro rfl
        exact hτ hz
      rw [this]
  · intro h
    have hfl : ∀ u : K, ∃ x, 0 ≤ u → u ≤ 1 → InPiece U x u := fun u => by
      by_cases hu : 0 ≤ u ∧ u ≤ 1
      · obtain ⟨x, hx⟩ := exists_inPiece hU hu.1 hu.2
        exact ⟨x, fun _ _ => hx⟩
      · exact ⟨0, fun h0 h1 => absurd ⟨h0, h1⟩ hu⟩
    choose fl hfl using hfl
    -- between knots of `V` there is a single polynomial
    have key : ∀ (N : ℕ) (w u : K), (U.filter fun z => decide (w < z ∧ z ≤ u)).length = N → 0 ≤ w → w ≤ u → u ≤ 1 →
        (∀ z ∈ V, w < z → z ≤ u → z = 1) → ∀ r t, polyDeriv p (q (fl u)) r t = polyDeriv p (q (fl w)) r t := by
      intro N
      induction N using Nat.strong_induction_on with
      | _ N ih =>
        intro w u hN hw hwu hu hno r t
        have hy := hfl u (hw.trans hwu) hu
        by_cases hyw : fl u ≤ w
        · have : InPiece U (fl u) w := ⟨hy.1, hyw, hy.2.2.1, fun z hz hlt => by
            rcases hy.2.2.2 z hz hlt with h2 | ⟨h2, h3⟩
            · exact Or.inl (lt_of_le_of_lt hwu h2)
            · rcases (hwu.trans hu).lt_or_eq with h4 | h4
              · exact Or.inl (by rw [h3]; exact h4)
              · exact Or.inr ⟨h4, h3⟩⟩
          rw [this.unique (hfl w hw (hwu.trans hu))]
        · push Not at hyw
          have hy1 := hy.2.2.1
          have hy0 : 0 < fl u := lt_of_le_of_lt hw hyw
          have hyV : fl u ∉ V := fun hcon => absurd (hno _ hcon hyw hy.2.1) hy1.ne
          obtain ⟨x, hx⟩ := exists_upTo hU hy0 hy1.le
          have hpoly : ∀ r t, polyDeriv p (q x) r t = polyDeriv p (q (fl u)) r t := by
            refine polyDeriv_taylor (τ := fl u) fun r hr => ?_
            refine (sameFromBothSides_iff hc hf hx (inPiece_self hy.1 hy1) hy1.le r).mp
              (h _ hy0 hy1 r ?_)
            rw [List.count_eq_zero.mpr hyV]; omega
          rw [← hpoly]
          set m := max x w with hm
          have hmy : m < fl u := max_lt hx.2.1 hyw
          have hxm : InPiece U x m := hx.inPiece hy1.le (le_max_left _ _) hmy
          have hwm : w ≤ m := le_max_right _ _
          have hm1 : m ≤ 1 := hmy.le.trans hy1.le
          have e : x = fl m := hxm.unique (hfl m (hw.trans hwm) hm1)
          rw [e]
          refine ih _ ?_ w m rfl hw hwm hm1 (fun z hz h2 h3 => hno z hz h2 (h3.trans (hmy.le.trans hy.2.1))) r t
          rw [← hN]
          have hsub : (U.filter fun z => decide (w < z ∧ z ≤ m)) =
              (U.filter fun z => decide (w < z ∧ z ≤ u)).filter fun z => decide (z ≤ m) := by
            rw [List.filter_filter]
            refine List.filter_congr fun z _ => ?_
            simp only [← Bool.decide_and, decide_eq_decide]
            constructor
            · rintro ⟨h1, h2⟩; exact ⟨h2, h1, h2.trans (hmy.le.trans hy.2.1)⟩
            · rintro ⟨h1, h2, -⟩; exact ⟨h2, h1⟩
          rw [hsub]
          refine List.length_filter_lt_length_iff_exists.mpr ⟨fl u, ?_, ?_⟩
          · exact List.mem_filter.mpr ⟨hy.1, by simpa using ⟨hyw, hy.2.1⟩⟩
          · simpa using hmy
    obtain ⟨P', c', hc', hf'⟩ := C137_every_spline hV (q := fun x => cut p (q (fl x))) (by
      intro x τ hx hτ hlt hτ1 hn r hr
      rw [polyDeriv_cut hp, polyDeriv_cut hp]
      have hx0 := InPiece.nonneg hV hx
      have hτ0 := lt_of_le_of_lt hx0 hlt
      obtain ⟨y, hy⟩ := exists_upTo hU hτ0 hτ1.le
      have h2 := (sameFromBothSides_iff hc hf hy (hfl τ hτ0.le hτ1.le) hτ1.le r).mp (h τ hτ0 hτ1 r hr)
      rw [← h2]
      set m := max x y with hm
      have hmτ : m < τ := max_lt hlt hy.2.1
      have hym : InPiece U y m := hy.inPiece hτ1.le (le_max_right _ _) hmτ
      have hxm : x ≤ m := le_max_left _ _
      have hm1 : m ≤ 1 := hmτ.le.trans hτ1.le
      rw [hym.unique (hfl m (hx0.trans hxm) hm1)]
      exact (key _ x m rfl hx0 hxm hm1 (fun z hz h3 h4 => absurd (hn z hz h3) (not_le.mpr (lt_of_le_of_lt h4 hmτ))) r
        τ).symm)
    refine ⟨c', P', hc', fun u h0 h1 => ?_⟩
    obtain ⟨x, hx⟩ := exists_inPiece hV h0 h1
    rw [Curve.evaluate, Curve.evaluate, hf'.right x u hx h1 0, hf.right _ u (hfl u h0 h1) h1 0]
    congr 2
    show polyDeriv p' (cut p (q (fl x))) 0 u = _
    rw [polyDeriv_cut hp]
    refine (key _ x u rfl (InPiece.nonneg hV hx.1) hx.2.1 h1 (fun z hz h2 h3 => ?_) 0 u).symm
    rcases hx.2.2.2 z hz h2 with h4 | ⟨-, h4⟩
    · exact absurd h3 (not_le.mpr h4)
    · exact h4

theorem sameFromBothSides_of_count {c : Curve K d} {p n r : ℕ} {U : List K} {P : List (Pt K d)} (hc : ValidOn 0 1 c p n U P)
    {τ : K} (h0 : 0 ≤ τ) (h1 : τ ≤ 1) (hm : r ≤ p → U.count τ ≤ p - r) : SameFromBothSides c r τ := by
  have hr : ∃ c', c.reverse = .ok c' := by
    obtain rfl := hc.eq_canon
    exact ⟨_, reverse_canon hc.2.1.length hc.2.2 hc.2.1.le⟩
  obtain ⟨c', hr⟩ := hr
  obtain ⟨v, h2, h3⟩ := C22_reverse_geometry (k := r) hc hr (u := 1 - τ) (by linarith) (by linarith)
    (fun _ _ h => by rw [sub_sub_cancel]; exact hm h)
  rw [sub_sub_cancel] at h2
  exact ⟨c', v, hr, h2, h3⟩

/-- **C138** All curves of degree `p` over the knots `U` are curves of degree `p'` over the knots `V` if and only if
`p ≤ p'` and `V` has every interior knot of `U`, `p' - p` times more often (multiplicities of `U` above `p + 1` count as
`p + 1`). -/
theorem C138_contained_iff {p p' n n' : ℕ} {U V : List K} (hU : ClampedKnots 0 1 p n U) (hV : ClampedKnots 0 1 p' n' V)
    (hd : 0 < d) :
    (∀ (c : Curve K d) P, ValidOn 0 1 c p n U P → ∃ c' P', ValidOn 0 1 c' p' n' V P' ∧
      ∀ u, 0 ≤ u → u ≤ 1 → c'.evaluate u = c.evaluate u) ↔
      p ≤ p' ∧ ∀ τ, 0 < τ → τ < 1 → τ ∈ U → min (U.count τ) (p + 1) + (p' - p) ≤ V.count τ := by
  constructor
  · intro h
    have hp : p ≤ p' := by
      obtain ⟨P, c, hc, hf⟩ := C137_every_spline hU (q := fun _ k => if k = p then fun _ : Fin d => (1 : K) else 0)
        (fun _ _ _ _ _ _ _ _ _ => rfl)
      obtain ⟨c', P', hc', hv⟩ := h c P hc
      obtain ⟨q', -, hf'⟩ := C137_every_curve hc'
      obtain ⟨x, hx⟩ := exists_inPiece hU le_rfl zero_le_one
      obtain ⟨x', hx'⟩ := exists_inPiece hV le_rfl zero_le_one
      obtain ⟨b, hb, hb1, hz⟩ := exists_after (U ++ V) (zero_lt_one (α := K))
      have hcut := cut_eq_of_values (p := p) (p' := p') (q := fun k => if k = p then fun _ : Fin d => (1 : K) else 0)
        (q' := q' x') hb fun u ha hub => by
          have h1 : u ≤ 1 := hub.le.trans hb1
          have := hv u ha h1
          rw [Curve.evaluate, Curve.evaluate,
            hf.right x u (hx.extend zero_lt_one (fun z h => hz z (List.mem_append_left _ h)) ha hub) h1 0,
            hf'.right x' u (hx'.extend zero_lt_one (fun z h => hz z (List.mem_append_right _ h)) ha hub) h1 0] at this
          injection this with this; injection this with this
          exact this.symm
      by_contra hlt
      have := congrFun (congrFun hcut p) ⟨0, hd⟩
      rw [cut, cut, if_pos le_rfl, if_neg hlt, if_pos rfl] at this
      exact one_ne_zero this
    refine ⟨hp, fun τ h0 h1 hτ => ?_⟩
    have hpos := List.count_pos_iff.mpr hτ
    have key : ∀ r, r ≤ p → r + V.count τ ≤ p' → U.count τ ≤ p - r := by
      intro r hr hrV
      have := (C22_reverse_iff_multiplicity (d := d) hU hr hd (u := 1 - τ) (by linarith) (by linarith)).mp (by
        intro c c' P v hc hrev hv
        rw [sub_sub_cancel] at hv
        obtain ⟨c'', v', h2, h3, h4⟩ := (C138_expressible_iff hc hp hV).mp (h c P hc) τ h0 h1 r hrV
        rw [hrev] at h2
        injection h2 with h2
        rw [hv] at h3
        injection h3 with h3; injection h3 with h3
        rw [h2, h3, h4])
      rwa [sub_sub_cancel] at this
    by_cases hb : p' < V.count τ
    · omega
    · have := key (min p (p' - V.count τ)) (min_le_left _ _) (by omega)
      omega
  · rintro ⟨hp, h⟩ c P hc
    refine (C138_expressible_iff hc hp hV).mpr fun τ h0 h1 r hr => ?_
    refine sameFromBothSides_of_count hc h0.le h1.le fun hrp => ?_
    by_cases hτ : τ ∈ U
    · have := h τ h0 h1 hτ
      omega
    · rw [List.count_eq_zero.mpr hτ]; omega

/-- **C138** A knot can be removed: for a curve over `U` and one copy more of `τ` there is a curve over `U` with the same
values if and only if the derivative of order `p` minus the multiplicity that `τ` has in `U` does not jump at `τ`. -/
theorem C138_removable_iff {c' : Curve K d} {p n : ℕ} {U U' : List K} {P' : List (Pt K d)} (hU : ClampedKnots 0 1 p n U)
    {τ : K} (h0 : 0 < τ) (h1 : τ < 1) (hc' : ValidOn 0 1 c' p (n + 1) U' P') (hperm : U'.Perm (τ :: U))
    (hm : U.count τ ≤ p) :
    (∃ c P, ValidOn 0 1 c p n U P ∧ ∀ u, 0 ≤ u → u ≤ 1 → c.evaluate u = c'.evaluate u) ↔
      SameFromBothSides c' (p - U.count τ) τ := by
  rw [C138_expressible_iff hc' le_rfl hU]
  constructor
  · intro h
    exact h τ h0 h1 _ (by omega)
  · intro h σ hσ0 hσ1 r hr
    by_cases hσ : σ = τ
    · subst hσ
      by_cases hr' : r = p - U.count σ
      · rw [hr']; exact h
      · refine sameFromBothSides_of_count hc' h0.le h1.le fun _ => ?_
        rw [hperm.count_eq, List.count_cons_self]
        omega
    · refine sameFromBothSides_of_count hc' hσ0.le hσ1.le fun _ => ?_
      rw [hperm.count_eq, List.count_cons_of_ne (Ne.symm hσ)]
      omega

/-- **C138** The curves that `insert(τ)` returns: exactly those over the knots with one copy more of `τ` whose derivative
of order `p` minus the former multiplicity does not jump at `τ`. -/
theorem C138_inserted_iff {c' : Curve K d} {p n : ℕ} {U U' : List K} {P' : List (Pt K d)} (hU : ClampedKnots 0 1 p n U)
    {τ : K} (h0 : 0 < τ) (h1 : τ < 1) (hs : SimpleBelow U τ) (hc' : ValidOn 0 1 c' p (n + 1) U' P')
    (hperm : U'.Perm (τ :: U)) (hm : U.count τ ≤ p) (hm' : ∀ x, 0 < x → x < 1 → U.count x ≤ p + 1) :
    (∃ c P, ValidOn 0 1 c p n U P ∧ c.insert τ = .ok (c', .ok ())) ↔ SameFromBothSides c' (p - U.count τ) τ := by
  rw [← C138_removable_iff hU h0 h1 hc' hperm hm]
  constructor
  · rintro ⟨c, P, hc, hi⟩
    exact ⟨c, P, hc, fun u _ _ => (C15_insert_preserves_partial hc hs hi u 0).symm⟩
  · rintro ⟨c, P, hc, hv⟩
    obtain ⟨c2, hi⟩ := (C17_insert_errors_exact hc τ).2.2 h0 h1 hm
    refine ⟨c, P, hc, ?_⟩
    obtain ⟨U2, P2, hc2, hperm2⟩ := C16_insert_adds_knot_partial hc hs hi
    have hUU : U2 = U' := (hperm2.trans hperm.symm).eq_of_pairwise (fun _ _ _ _ => le_antisymm) hc2.2.1.sorted hc'.2.1.sorted
    subst hUU
    have : c2 = c' := (C55_control_points_unique hc2 hc' (fun x hx0 hx1 => by
      rw [hperm2.count_eq]
      by_cases hx : x = τ
      · subst hx; rw [List.count_cons_self]; omega
      · rw [List.count_cons_of_ne (Ne.symm hx)]; exact hm' x hx0 hx1) fun u hu0 hu1 => by
        rw [← hv u hu0 hu1]
        exact C15_insert_preserves_partial hc hs hi u 0).2
    rw [hi, this]

/-! ### Examples -/

/-- a polyline is a quadratic curve over doubled knots, but not over simple ones -/
example : (∀ (c : Curve ℚ 2) P, ValidOn 0 1 c 1 2 [0, 0, 1 / 2, 1, 1] P →
      ∃ c' P', ValidOn 0 1 c' 2 4 [0, 0, 0, 1 / 2, 1 / 2, 1, 1, 1] P' ∧
        ∀ u, 0 ≤ u → u ≤ 1 → c'.evaluate u = c.evaluate u) ∧
    ¬ ∀ (c : Curve ℚ 2) P, ValidOn 0 1 c 1 2 [0, 0, 1 / 2, 1, 1] P →
      ∃ c' P', ValidOn 0 1 c' 2 3 [0, 0, 0, 1 / 2, 1, 1, 1] P' ∧
        ∀ u, 0 ≤ u → u ≤ 1 → c'.evaluate u = c.evaluate u := by
  rw [C138_contained_iff (by decide +kernel) (by decide +kernel) (by norm_num),
    C138_contained_iff (by decide +kernel) (by decide +kernel) (by norm_num)]
  constructor
  · refine ⟨by norm_num, fun τ h0 h1 hτ => ?_⟩
    simp only [List.mem_cons, List.not_mem_nil, or_false] at hτ
    rcases hτ with rfl | rfl | rfl | rfl | rfl
    · exact absurd h0 (lt_irrefl _)
    · exact absurd h0 (lt_irrefl _)
    · decide +kernel
    · exact absurd h1 (lt_irrefl _)
    · exact absurd h1 (lt_irrefl _)
  · rintro ⟨-, h⟩
    have := h (1 / 2) (by norm_num) (by norm_num) (by simp)
    revert this
    decide +kernel

/-- `u²` with a superfluous knot, which can be removed, -/
example : SameFromBothSides (canon 2 [(0 : ℚ), 0, 0, 1 / 2, 1, 1, 1] [![0], ![0], ![1 / 2], ![1]]) 2 (1 / 2) :=
  ⟨_, ![2], reverse_canon (n := 3) rfl rfl (by decide), by decide +kernel, by decide +kernel⟩

/-- and a curve whose second derivative jumps: `insert(1/2)` never returns it -/
example : ¬ SameFromBothSides (canon 2 [(0 : ℚ), 0, 0, 1 / 2, 1, 1, 1] [![0], ![0], ![1 / 2], ![7 / 4]]) 2 (1 / 2) := by
  rintro ⟨c', v, h1, h2, h3⟩
  rw [reverse_canon (n := 3) rfl rfl (by decide)] at h1
  injection h1 with h1
  subst h1
  have e2 : (canon 2 [(0 : ℚ), 0, 0, 1 / 2, 1, 1, 1] [![0], ![0], ![1 / 2], ![7 / 4]]).evaluateDerivative (1 / 2) 2 =
    .ok (.ok ![8]) := by decide +kernel
  rw [e2] at h2
  injection h2 with h2; injection h2 with h2
  subst h2
  revert h3
  decide +kernel

end BSpline
