import Verif.Refine.Reverse
import Verif.Props.Ieee

/-!
# Reversal in the arithmetic of `f64`: C88

`V` are the exact values of the knots `U`. The control points are arbitrary, also infinite or NaN.
-/

set_option linter.unusedSectionVars false

namespace BSpline

open Ieee

section LawFree

variable {K : Type} [Add K] [Sub K] [Mul K] [Div K] [Neg K] [Zero K] [One K] [NatCast K] [Cmp K] {d : ℕ}

theorem reverseKnots_cut (U : List K) (k : ℕ) (hk : 2 * k ≤ U.length) :
    reverseKnots ((U.drop k).take (U.length - 2 * k)) =
      ((reverseKnots U).drop k).take ((reverseKnots U).length - 2 * k) := by
  simp only [reverseKnots, swapLoop_eq, List.length_map, List.length_reverse]
  rw [← List.map_drop, ← List.map_take]
  congr 1
  apply List.ext_getElem (by simp)
  intro i h1 h2
  simp only [List.getElem_reverse, List.getElem_take, List.getElem_drop, List.length_take, List.length_drop]
  congr 1
  simp at h1
  omega

/-- reversal without laws of arithmetic -/
theorem reverse_free {p n : ℕ} {U : List K} {cp : ControlPoints K d} (hU : U.length = n + p + 2) (hp : p ≤ n)
    (hcp : cp.Pk.length = cp.kMax + 1) :
    (⟨canonKnots p U, cp⟩ : Curve K d).reverse =
      .ok ⟨canonKnots p (reverseKnots U), ⟨cp.Pk.mapIdx revPts, cp.kMax⟩⟩ := by
  rw [Curve.reverse, controlPoints_reverse_ok hcp]
  simp only [ok_bind, pure_ok]
  congr 2
  simp only [Knots.reverse, canonKnots, List.map_map]
  congr 1
  apply List.map_congr_left
  intro k hk
  rw [List.mem_range] at hk
  simp only [Function.comp]
  exact reverseKnots_cut U k (by omega)

theorem reversed_matrix {cp : ControlPoints K d} (hcp : cp.Pk.length = cp.kMax + 1) {P : List (Pt K d)}
    (h : cp.matrix = .ok P) : (⟨cp.Pk.mapIdx revPts, cp.kMax⟩ : ControlPoints K d).matrix = .ok P.reverse := by
  simp only [ControlPoints.matrix] at h ⊢
  rw [idx_ok' (by omega)] at h
  rw [idx_ok' (by simp; omega)]
  injection h with h
  simp only [List.getElem_mapIdx]
  rw [h]
  rfl

/-- evaluation uses the knots and the control points, not the derivatives -/
theorem evaluate_congr {c c' : Curve K d} (hk : c.knots = c'.knots) (hp : c.points.matrix = c'.points.matrix)
    (u : K) : c.evaluate u = c'.evaluate u := by
  have h0 : ∀ cp : ControlPoints K d, cp.matrixDerivative 0 = cp.matrix := fun cp => by
    rw [ControlPoints.matrixDerivative, if_pos (Nat.zero_le _), ControlPoints.matrix]
  have hs : c.segments = c'.segments := by
    simp only [Curve.segments, ControlPoints.segments, ControlPoints.count, ControlPoints.countDerivative]
    simp only [ControlPoints.matrix] at hp
    rw [hp]
  rw [Curve.evaluate, Curve.evaluate, Curve.evaluateDerivative, Curve.evaluateDerivative, Curve.degree,
    Curve.degree, hk, hs]
  simp only [h0, hp]

end LawFree

variable {K : Type} [Field K] [LinearOrder K] [IsStrictOrderedRing K] {F : Format K} {d : ℕ}

/-- the values of the reversed knots -/
def revR (F : Format K) (V : List K) : List K := V.reverse.map fun x => F.rnd (1 - x)

theorem is_reverseKnot {a : Ieee F} {x : K} (ha : Is a x) (h0 : 0 ≤ x) (h1 : x ≤ 1) :
    Is ((a + -1) * -1) (F.rnd (1 - x)) := by
  have hm := F.one_le_max
  have e : |x + -1| ≤ F.max := by rw [abs_le]; constructor <;> linarith
  have h := ha.add is_one.neg e
  have h2 := h.mul is_one.neg (by rw [mul_neg_one, abs_neg]; exact F.abs_rnd_le e F.rnd_max)
  rwa [mul_neg_one, ← F.neg, F.idem, neg_add, neg_neg, ← sub_eq_neg_add] at h2

theorem is_reverseKnots {U : List (Ieee F)} {V : List K} (h : List.Forall₂ Is U V)
    (h01 : ∀ x ∈ V, 0 ≤ x ∧ x ≤ 1) : List.Forall₂ Is (reverseKnots U) (revR F V) := by
  rw [reverseKnots, swapLoop_eq, revR, List.forall₂_map_left_iff, List.forall₂_map_right_iff]
  have : List.Forall₂ (fun a x => Is a x ∧ x ∈ V.reverse) U.reverse V.reverse := by
    have := (List.forall₂_reverse_iff).mpr h
    rw [List.forall₂_iff_get] at this ⊢
    exact ⟨this.1, fun i h1 h2 => ⟨this.2 i h1 h2, List.get_mem _ _⟩⟩
  exact this.imp fun a x hx => is_reverseKnot hx.1 (h01 x (by simpa using hx.2)).1 (h01 x (by simpa using hx.2)).2

theorem fn_revR {V : List K} {i : ℕ} (h : i < V.length) :
    fn (revR F V) i = F.rnd (1 - fn V (V.length - 1 - i)) := by
  rw [revR, fn_map _ (by simpa using h), fn_reverse h]

theorem Format.rnd_unit (F : Format K) {x : K} (h0 : 0 ≤ x) (h1 : x ≤ 1) : 0 ≤ F.rnd x ∧ F.rnd x ≤ 1 := by
  refine ⟨F.rnd_nonneg h0, ?_⟩
  have := F.mono _ _ h1
  rwa [F.one] at this

theorem ClampedKnots.unit {a b : K} {p n : ℕ} {V : List K} (h : ClampedKnots a b p n V) :
    ∀ x ∈ V, a ≤ x ∧ x ≤ b := by
  intro x hx
  obtain ⟨i, hi, rfl⟩ := List.mem_iff_getElem.mp hx
  have hl := h.length
  have hc := h.clamp
  have e : fn V i = V[i] := fn_lt hi
  rw [← e]
  constructor
  · rw [← hc.left 0 (Nat.zero_le _)]; exact hc.mono (Nat.zero_le _)
  · rw [← hc.right (max i (n + 1)) (le_max_right _ _)]; exact hc.mono (le_max_left _ _)

/-- **C88** Reversal in floating-point arithmetic, for knots that are finite numbers and arbitrary control
points. It does not fail. The control points are exactly the old ones in reverse order. The knots are finite
numbers in ascending order, in `[0, 1]`, with `p + 1` exact zeros and ones at the ends, and each differs from
the exact one by one rounding; equal knots remain equal. Points are computed as by a new curve of these data. -/
theorem C88_reverse {c : Curve (Ieee F) d} {p n : ℕ} {U : List (Ieee F)} {V : List K} {P : List (Pt (Ieee F) d)}
    (hc : Built c p U P) (hU : List.Forall₂ Is U V) (hV : ClampedKnots 0 1 p n V) (hP : P.length = n + 1) :
    ∃ c' U' V', c.reverse = .ok c' ∧ c'.knots.vector = .ok U' ∧ c'.points.matrix = .ok P.reverse ∧
      List.Forall₂ Is U' V' ∧ V'.length = n + p + 2 ∧ V'.Pairwise (· ≤ ·) ∧
      V'.take (p + 1) = List.replicate (p + 1) 0 ∧ V'.drop (n + 1) = List.replicate (p + 1) 1 ∧
      (∀ x ∈ V', 0 ≤ x ∧ x ≤ 1) ∧
      List.Forall₂ (fun y x => |y - (1 - x)| ≤ F.eps * (1 - x)) V' V.reverse ∧
      (∀ i j : ℕ, V.reverse[i]? = V.reverse[j]? → V'[i]? = V'[j]?) ∧
      ∃ c'', Built c'' p U' P.reverse ∧ ∀ u, c'.evaluate u = c''.evaluate u := by
  have hl := hV.length
  have hle := hV.le
  have hcl := hV.clamp
  have hlU : U.length = n + p + 2 := hU.length_eq.trans hl
  obtain rfl := hc.ieee_eq hlU hle hP
  have hlV : (revR F V).length = n + p + 2 := by simp [revR, hl]
  have key : ∀ i, i < n + p + 2 → fn (revR F V) i = F.rnd (1 - fn V (n + p + 1 - i)) := by
    intro i hi; rw [fn_revR (by omega), hl]; rfl
  refine ⟨_, reverseKnots U, revR F V, reverse_free hlU hle (by simp [canonPts]), canonKnots_vector _,
    reversed_matrix (by simp [canonPts]) (canonPts_matrix U P),
    is_reverseKnots hU hV.unit, hlV, ?_, ?_, ?_, ?_, ?_, ?_, canon p (reverseKnots U) P.reverse,
    mkCurve_ok (n := n) (by simpa using hP) hle (by simp [reverseKnots, swapLoop_eq]; omega), ?_⟩
  · rw [revR, List.pairwise_map, List.pairwise_reverse]
    exact hV.sorted.imp fun h => F.mono _ _ (by linarith)
  · refine ext_fn (by simp; omega) fun i hi => ?_
    simp only [List.length_take] at hi
    have := fn_drop_take (l := revR F V) (s := 0) (n := p + 1) (i := i) (by omega) (by omega)
    simp only [List.drop_zero, Nat.zero_add] at this
    rw [this, key i (by omega), hcl.right _ (by omega), sub_self, F.rnd_zero, fn_lt (by simp; omega)]
    simp
  · have e : (revR F V).drop (n + 1) = ((revR F V).drop (n + 1)).take (p + 1) := by
      rw [List.take_of_length_le (by simp; omega)]
    rw [e]
    refine ext_fn (by simp; omega) fun i hi => ?_
    simp only [List.length_take, List.length_drop] at hi
    rw [fn_drop_take (by omega) (by omega), key _ (by omega), hcl.left _ (by omega), sub_zero, F.one,
      fn_lt (by simp; omega)]
    simp
  · intro y hy
    simp only [revR, List.mem_map, List.mem_reverse] at hy
    obtain ⟨x, hx, rfl⟩ := hy
    have := hV.unit x hx
    exact F.rnd_unit (by linarith) (by linarith)
  · rw [revR, List.forall₂_map_left_iff, List.forall₂_same]
    intro x hx
    rw [List.mem_reverse] at hx
    have h1 := hV.unit x hx
    have hr : F.rnd x = x := by
      obtain ⟨i, hi, rfl⟩ := List.mem_iff_getElem.mp hx
      have := (fn_is hU i).rep
      rwa [fn_lt hi] at this
    have := F.sub 1 x F.one hr
    rwa [abs_of_nonneg (show 0 ≤ 1 - x by linarith)] at this
  · intro i j h
    rw [revR, List.getElem?_map, List.getElem?_map, h]
  · intro u
    refine evaluate_congr (c' := canon p (reverseKnots U) P.reverse) (by rfl) ?_ u
    exact (reversed_matrix (by simp [canonPts]) (canonPts_matrix U P)).trans (canonPts_matrix _ _).symm

/-- **C88** If no interior knot is below the rounding error `eps` (`2^-53` for `f64`), the interior knots of the
reversed curve stay inside the domain: the reversed knots are valid. -/
theorem C88_valid {c : Curve (Ieee F) d} {p n : ℕ} {U : List (Ieee F)} {V : List K} {P : List (Pt (Ieee F) d)}
    (hc : Built c p U P) (hU : List.Forall₂ Is U V) (hV : ClampedKnots 0 1 p n V) (hP : P.length = n + 1)
    (hsmall : ∀ x ∈ V, 0 < x → F.eps ≤ x) :
    ∃ c' U' V', c.reverse = .ok c' ∧ c'.knots.vector = .ok U' ∧ List.Forall₂ Is U' V' ∧
      ClampedKnots 0 1 p n V' := by
  obtain ⟨c', U', V', h1, h2, -, h4, h5, h6, h7, h8, h9, h10, -⟩ := C88_reverse hc hU hV hP
  have hl := hV.length
  have hle := hV.le
  have hcl := hV.clamp
  refine ⟨c', U', V', h1, h2, h4, h5, h6, ?_, ?_, ?_, one_pos, hle⟩
  · intro x hx; rw [h7] at hx; exact List.eq_of_mem_replicate hx
  · intro x hx; rw [h8] at hx; exact List.eq_of_mem_replicate hx
  intro y hy
  obtain ⟨i, hi, rfl⟩ := List.mem_iff_getElem.mp hy
  simp only [List.length_take, List.length_drop] at hi
  simp only [List.getElem_take, List.getElem_drop]
  rw [List.forall₂_iff_get] at h10
  have hb := h10.2 (p + 1 + i) (by omega) (by simp; omega)
  simp only [List.get_eq_getElem, List.getElem_reverse] at hb
  have hin := hcl.inner (V.length - 1 - (p + 1 + i)) (by omega) (by omega)
  rw [fn_lt (by omega)] at hin
  have hs := hsmall _ (List.getElem_mem (h := by omega)) hin.1
  generalize V'[p + 1 + i] = y at *
  generalize V[V.length - 1 - (p + 1 + i)] = x at *
  have he := F.eps_nonneg
  have he1 := F.eps_lt_one
  rw [abs_le] at hb
  constructor
  · nlinarith [mul_pos (show 0 < 1 - F.eps by linarith) (show 0 < 1 - x by linarith)]
  · rcases he.eq_or_lt with h0 | h0
    · rw [← h0] at hb; linarith
    · nlinarith [mul_pos h0 hin.1]

/-- **C88** Reversing twice gives exactly the same control points, and moves a knot by at most `2 eps`. -/
theorem C88_twice {c : Curve (Ieee F) d} {p n : ℕ} {U : List (Ieee F)} {V : List K} {P : List (Pt (Ieee F) d)}
    (hc : Built c p U P) (hU : List.Forall₂ Is U V) (hV : ClampedKnots 0 1 p n V) (hP : P.length = n + 1) :
    ∃ c' c'' U'' V'', c.reverse = .ok c' ∧ c'.reverse = .ok c'' ∧ c''.points.matrix = .ok P ∧
      c''.knots.vector = .ok U'' ∧ List.Forall₂ Is U'' V'' ∧ V''.Pairwise (· ≤ ·) ∧
      List.Forall₂ (fun y x => |y - x| ≤ 2 * F.eps) V'' V ∧
      ((∀ x ∈ V, F.rnd (1 - x) = 1 - x) → V'' = V) := by
  have hl := hV.length
  have hle := hV.le
  have hlU : U.length = n + p + 2 := hU.length_eq.trans hl
  obtain rfl := hc.ieee_eq hlU hle hP
  have hcp : (canonPts p U P).Pk.length = (canonPts p U P).kMax + 1 := by simp [canonPts]
  have h01 := hV.unit
  have h01' : ∀ y ∈ revR F V, 0 ≤ y ∧ y ≤ 1 := by
    intro y hy
    simp only [revR, List.mem_map, List.mem_reverse] at hy
    obtain ⟨x, hx, rfl⟩ := hy
    have := h01 x hx
    exact F.rnd_unit (by linarith) (by linarith)
  have hr : ∀ x ∈ V, F.rnd x = x := by
    intro x hx
    obtain ⟨i, hi, rfl⟩ := List.mem_iff_getElem.mp hx
    have := (fn_is hU i).rep
    rwa [fn_lt hi] at this
  have e2 : revR F (revR F V) = V.map fun x => F.rnd (1 - F.rnd (1 - x)) := by
    simp only [revR, ← List.map_reverse, List.reverse_reverse, List.map_map]; rfl
  refine ⟨_, _, reverseKnots (reverseKnots U), revR F (revR F V), reverse_free hlU hle hcp,
    reverse_free (n := n) (by simp [reverseKnots, swapLoop_eq]; omega) hle (by simp [canonPts]), ?_,
    canonKnots_vector _, is_reverseKnots (is_reverseKnots hU h01) h01', ?_, ?_, ?_⟩
  · have := reversed_matrix (cp := ⟨(canonPts p U P).Pk.mapIdx revPts, (canonPts p U P).kMax⟩)
      (by simp [canonPts]) (reversed_matrix hcp (canonPts_matrix U P))
    rwa [List.reverse_reverse] at this
  · rw [e2, List.pairwise_map]
    exact hV.sorted.imp fun h => F.mono _ _ (by linarith [F.mono (1 - _) (1 - _) (sub_le_sub_left h 1)])
  · rw [e2, List.forall₂_map_left_iff, List.forall₂_same]
    intro x hx
    have h1 := h01 x hx
    have h2 := F.rnd_unit (x := 1 - x) (by linarith) (by linarith)
    have b1 := F.sub 1 x F.one (hr x hx)
    have b2 := F.sub 1 (F.rnd (1 - x)) F.one (F.idem _)
    have he := F.eps_nonneg
    rw [abs_of_nonneg (show 0 ≤ 1 - x by linarith)] at b1
    rw [abs_of_nonneg (show 0 ≤ 1 - F.rnd (1 - x) by linarith)] at b2
    have c1 : F.eps * (1 - x) ≤ F.eps := mul_le_of_le_one_right he (by linarith)
    have c2 : F.eps * (1 - F.rnd (1 - x)) ≤ F.eps := mul_le_of_le_one_right he (by linarith)
    rw [abs_le] at b1 b2 ⊢
    constructor <;> linarith
  · intro hex
    rw [e2]
    conv_rhs => rw [← List.map_id V]
    refine List.map_congr_left fun x hx => ?_
    rw [hex x hx, sub_sub_cancel, hr x hx, id]

/-! ### A concrete case, and where reversal in `f64` differs from reversal -/

def irU : List (Ieee binary64) := [0, 0, eq64 (1 / 10), 1, 1]
def irV : List ℚ := irU.map exactOf
def irP : List (Pt (Ieee binary64) 1) := [![0], ![Ieee.inf false], ![eq64 2]]

theorem forall₂_exactOf {U : List (Ieee binary64)}
    (h : ∀ x ∈ U, (match x with | .fin _ _ => true | _ => false) = true) :
    List.Forall₂ Is U (U.map exactOf) := by
  rw [List.forall₂_map_right_iff, List.forall₂_same]
  intro x hx
  have := h x hx
  refine is_exactOf ?_
  cases x with
  | fin s v => exact ⟨s, v, rfl⟩
  | nan => simp at this
  | inf s => simp at this

example : List.Forall₂ Is irU irV := forall₂_exactOf (by decide +kernel)
example : Built (canon 1 irU irP) 1 irU irP := mkCurve_ok (n := 2) rfl (by decide) (by decide)
example : ClampedKnots 0 1 1 2 irV := by decide +kernel
example : ∀ x ∈ irV, 0 < x → binary64.eps ≤ x := by decide +kernel
example : ∀ x ∈ [0, 0, 1 / 4, 1 / 2, 1, (1 : ℚ)], binary64.rnd (1 - x) = 1 - x := by decide +kernel

/-- **C88** Reversing twice is not the identity in `f64`: a knot `0.1` becomes another number. -/
theorem C88_not_involutive : ∃ c c' c'' : Curve (Ieee binary64) 1, Built c 1 irU irP ∧ c.reverse = .ok c' ∧
    c'.reverse = .ok c'' ∧ ∃ U'', c''.knots.vector = .ok U'' ∧ U''.map exactOf ≠ irU.map exactOf := by
  refine ⟨canon 1 irU irP, _, _, mkCurve_ok (n := 2) rfl (by decide) (by decide),
    reverse_free (n := 2) rfl (by decide) rfl, reverse_free (n := 2) rfl (by decide) rfl, _,
    canonKnots_vector _, by decide +kernel⟩

/-- **C88** The condition of `C88_valid` is needed: an interior knot `2^-60` becomes `1`, the end of the
domain, so that the reversed knots are not those of a valid curve. -/
theorem C88_collapse : ∃ (c c' : Curve (Ieee binary64) 1) (U U' : List (Ieee binary64)),
    Built c 1 U irP ∧ ClampedKnots 0 1 1 2 (U.map exactOf) ∧ c.reverse = .ok c' ∧ c'.knots.vector = .ok U' ∧
    U'.map exactOf = [0, 0, 1, 1, 1] := by
  refine ⟨canon 1 [0, 0, eq64 ((1 / 2) ^ 60), 1, 1] irP, _, _, _,
    mkCurve_ok (n := 2) rfl (by decide) (by decide), by decide +kernel,
    reverse_free (n := 2) rfl (by decide) rfl, canonKnots_vector _, by decide +kernel⟩

end BSpline
