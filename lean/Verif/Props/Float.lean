import Verif.Refine.Float
import Verif.Props.Eval

/-!
# Floating-point evaluation: C68 – C69

`R` is a rounding with unit round-off `eps`, `U.map Fl.val` and `flPts P` are the exact values of the
floating-point knots and control points. The *exact* curve is the one the model computes over the
field; the *computed* curve is the one it computes with a rounding error in every operation.
-/

set_option linter.unusedSectionVars false

namespace BSpline

open Finset

variable {K : Type} [Field K] [LinearOrder K] [IsStrictOrderedRing K] {R : Rounding K} {d : ℕ}

/-! ### A concrete case: `f64` -/

/-- the rounding of `f64` on rational numbers -/
abbrev f64 : Rounding ℚ := Rounding.binary ℚ 52

def flU : List (Fl f64) := [0, 0, 0, Fl.of f64 (1 / 3), Fl.of f64 (2 / 3), 1, 1, 1]
def flP : List (Pt (Fl f64) 1) :=
  [![0], ![Fl.of f64 (1 / 10)], ![Fl.of f64 (7 / 10)], ![Fl.of f64 (-1 / 5)], ![1]]

example : ClampedKnots 0 1 2 4 (flU.map Fl.val) := by decide +kernel

example : (Fl.of f64 (1 / 10)).val = 3602879701896397 / 36028797018963968 := by decide +kernel

def flC : Curve (Fl f64) 1 := canon 2 flU flP
def flE : Curve ℚ 1 := canon 2 (flU.map Fl.val) (flPts flP)

example : Built flC 2 flU flP := mkCurve_ok (n := 4) rfl (by decide) (by decide)
example : ValidOn 0 1 flE 2 4 (flU.map Fl.val) (flPts flP) := validOn_canon (by decide +kernel) rfl

/-- the first coordinate of a successful evaluation -/
def coord {X : Type} [Zero X] (x : Exec (Except (CurveError X) (Pt X 1))) : X :=
  match x with
  | .ok (.ok v) => v 0
  | _ => 0

-- the computed value differs from the exact one
example : (coord (flC.evaluate (Fl.of f64 (1 / 10)))).val = 1405123083739595 / 18014398509481984 ∧
    coord (flE.evaluate (Fl.of f64 (1 / 10)).val) =
      115806605929458216017692041377605220957261224951 /
        1484700076018694863181620828955351498847034540032 := by decide +kernel

/-! ### C68 -/

/-- **C68** Every computed basis function value is non-negative and has a relative error of at most
`5 (p - k)` roundings: the exact value times `(1 - eps)^(±5(p-k))`. In particular it is zero exactly
where the exact one is. -/
theorem C68_basis {a b : K} {p n k i : ℕ} {U : List (Fl R)}
    (hU : ClampedKnots a b p n (U.map Fl.val)) {kn : Knots (Fl R)} {kn' : Knots K}
    (hkn : Knots.new p U = .ok kn) (hkn' : Knots.new p (U.map Fl.val) = .ok kn') (hk : k ≤ p)
    (hi : i ≤ n - k) (u : Fl R) :
    ∃ (y : Fl R) (x : K), kn.evaluate k i p u = .ok y ∧ kn'.evaluate k i p u.val = .ok x ∧
      0 ≤ y.val ∧ x * (1 - R.eps) ^ (5 * (p - k)) ≤ y.val ∧
      y.val * (1 - R.eps) ^ (5 * (p - k)) ≤ x := by
  have hl := hU.length
  have hl' : U.length = n + p + 2 := by simpa using hl
  have hle := hU.le
  rw [Knots.new_ok (by omega)] at hkn hkn'
  injection hkn with hkn; subst hkn
  injection hkn' with hkn'; subst hkn'
  have hf : (fun i => fn (U.map Fl.val) (i + k)) = fun i => (fn U (i + k)).val := by
    funext i; exact fn_val U (i + k)
  have hm : Monotone fun i => (fn U (i + k)).val := by
    rw [← hf]
    exact fun x y h => fn_monotone hU.sorted (Nat.add_le_add_right h k)
  obtain ⟨h1, h2⟩ := Nf_near (U := fun i => fn U (i + k)) hm (show k ≤ n by omega) u (p - k) i
  refine ⟨_, _, knots_evaluate_ok hl' hle hk (by omega) u, knots_evaluate_ok hl hle hk (by omega) _,
    h2.nonneg h1, ?_⟩
  rw [hf]
  exact h2

/-- **C68** The computed basis functions of every order sum to one up to `5 (p - k)` roundings. -/
theorem C68_partition {a b : K} {p n k : ℕ} {U : List (Fl R)}
    (hU : ClampedKnots a b p n (U.map Fl.val)) {kn : Knots (Fl R)}
    (hkn : Knots.new p U = .ok kn) (hk : k ≤ p) {u : Fl R} (h0 : a ≤ u.val) (h1 : u.val ≤ b) :
    ∃ N : ℕ → Fl R, (∀ i, i ≤ n - k → kn.evaluate k i p u = .ok (N i)) ∧
      (1 - R.eps) ^ (5 * (p - k)) ≤ ∑ i ∈ range (n - k + 1), (N i).val ∧
      (∑ i ∈ range (n - k + 1), (N i).val) * (1 - R.eps) ^ (5 * (p - k)) ≤ 1 := by
  have hl := hU.length
  have hl' : U.length = n + p + 2 := by simpa using hl
  have hle := hU.le
  have hkn' : Knots.new p (U.map Fl.val) = .ok (canonKnots p (U.map Fl.val)) :=
    Knots.new_ok (by omega)
  obtain ⟨M, hM, hs⟩ := C01_partition_of_unity hU hkn' hk h0 h1
  have hb := fun i (hi : i ≤ n - k) => C68_basis hU hkn hkn' hk hi u
  choose! y x hy hx _ h3 h4 using hb
  have hxM : ∀ i, i ≤ n - k → x i = M i := by
    intro i hi
    have := (hx i hi).symm.trans (hM i hi)
    injection this
  refine ⟨y, hy, ?_, ?_⟩
  · calc (1 - R.eps) ^ (5 * (p - k)) = (∑ i ∈ range (n - k + 1), M i) * (1 - R.eps) ^ (5 * (p - k)) := by
          rw [hs, one_mul]
      _ ≤ _ := ?_
    rw [sum_mul]
    apply sum_le_sum
    intro i hi
    rw [mem_range] at hi
    rw [← hxM i (by omega)]
    exact h3 i (by omega)
  · rw [sum_mul]
    refine le_trans (sum_le_sum ?_) hs.le
    intro i hi
    rw [mem_range] at hi
    rw [← hxM i (by omega)]
    exact h4 i (by omega)

/-! ### C69 -/

theorem absDpt_le {U : ℕ → K} (hm : Monotone U) {p : ℕ} {P : ℕ → Pt K d} {h M : K} (hh : 0 < h)
    (hgap : ∀ i j, U i < U j → h ≤ U j - U i) {r : Fin d} (hP : ∀ i, |P i r| ≤ M) (k : ℕ)
    (hk : k ≤ p) : ∀ i, absDpt U p P k i r ≤ (2 * p / h) ^ k * M := by
  have hM : 0 ≤ M := (abs_nonneg _).trans (hP 0)
  induction k with
  | zero => intro i; simpa [absDpt] using hP i
  | succ k ih =>
    intro i
    have ih := ih (by omega)
    have hB : 0 ≤ (2 * (p : K) / h) ^ k * M := by positivity
    simp only [absDpt]
    split
    · positivity
    · rename_i hne
      have hle : U (i + (k + 1)) ≤ U (i + p + 1) := hm (by omega)
      have hg := hgap _ _ (lt_of_le_of_ne hle (Ne.symm hne))
      have hpos := lt_of_lt_of_le hh hg
      have h1 : ((p - (k + 1) + 1 : ℕ) : K) / (U (i + p + 1) - U (i + (k + 1))) ≤ p / h := by
        apply div_le_div₀ (Nat.cast_nonneg _) _ hh hg
        exact_mod_cast (by omega : p - (k + 1) + 1 ≤ p)
      have h2 : absDpt U p P k (i + 1) r + absDpt U p P k i r ≤ 2 * ((2 * p / h) ^ k * M) := by
        linarith [ih (i + 1), ih i]
      calc _ ≤ ((p - (k + 1) + 1 : ℕ) : K) / (U (i + p + 1) - U (i + (k + 1))) *
            (2 * ((2 * p / h) ^ k * M)) := mul_le_mul_of_nonneg_left h2 (by positivity)
        _ ≤ p / h * (2 * ((2 * p / h) ^ k * M)) := mul_le_mul_of_nonneg_right h1 (by positivity)
        _ = _ := by ring

theorem fn_mem {α : Type} [Zero α] {l : List α} (h : l ≠ []) (i : ℕ) : fn l i ∈ l := by
  have hl := List.length_pos_iff.mpr h
  by_cases hi : i < l.length
  · rw [fn_lt hi]; exact List.getElem_mem hi
  · rw [fn_ge (by omega), fn_last hl, fn_lt (by omega)]; exact List.getElem_mem _

theorem dpt_congr_fl {U : ℕ → Fl R} {p : ℕ} {P P' : ℕ → Pt (Fl R) d} (k : ℕ) : ∀ i,
    (∀ m, i ≤ m → m ≤ i + k → P m = P' m) → dpt U p P k i = dpt U p P' k i := by
  induction k with
  | zero => intro i h; exact h i le_rfl le_rfl
  | succ k ih =>
    intro i h
    simp only [dpt]
    rw [ih i (fun m h1 h2 => h m h1 (by omega)), ih (i + 1) (fun m h1 h2 => h m (by omega)
      (by omega))]

theorem Built.fl_eq {c : Curve (Fl R) d} {p n : ℕ} {U : List (Fl R)} {P : List (Pt (Fl R) d)}
    {a b : K} (hc : Built c p U P) (hU : ClampedKnots a b p n (U.map Fl.val))
    (hP : P.length = n + 1) : c = canon p U P := by
  have hl : U.length = n + p + 2 := by simpa using hU.length
  have hle := hU.le
  rw [Built, mkCurve_ok hP hle (by omega)] at hc
  injection hc with hc; injection hc with hc; exact hc.symm

theorem fl_clamp {a b : K} {p n : ℕ} {U : List (Fl R)} (hU : ClampedKnots a b p n (U.map Fl.val)) :
    Clamp (fun i => (fn U i).val) p n a b := by
  have := hU.clamp
  rwa [show fn (U.map Fl.val) = fun i => (fn U i).val from funext (fn_val U)] at this

/-- the computed value as a sum over the functions that do not vanish -/
theorem fl_evaluate {p n k : ℕ} {U : List (Fl R)}
    (hU : ClampedKnots 0 1 p n (U.map Fl.val)) (hk : k ≤ p) {u : Fl R}
    (h0 : 0 ≤ u.val) (h1 : u.val ≤ 1) : ∃ j lo, IsSpan (fun i => (fn U i).val) n u.val j ∧
      lo ≤ j - p ∧ lo ≤ n - p ∧ (∀ Q : List (Pt (Fl R) d), Q.length = n + 1 →
      (canon p U Q).evaluateDerivative u k =
        .ok (.ok (evalFold (fn U) p n (fn Q) k u lo))) := by
  have hl : U.length = n + p + 2 := by simpa using hU.length
  have hle := hU.le
  have hc := fl_clamp hU
  obtain ⟨j, hs⟩ := hc.exists_span h0 h1
  have hpj := hs.p_le hc
  have hjn := hs.le_n
  have hs' := hs.shiftN (k := k) (by omega)
  have hlo := lleq_le_span hs' (n - p) (p - k) (by omega) (by omega)
  have hb := lleq_bounds (fun i => fn U (i + k)) u (n - p) (p - k)
  refine ⟨j, _, hs, ?_, ?_, fun Q hQ => evaluateDerivative_ok hl hQ hle hk ?_ ?_⟩
  · rw [lleq_val]
    change lleq (shiftN k fun i => (fn U i).val) u.val (n - p) (p - k) - (p - k) ≤ j - p
    omega
  · omega
  · rw [Fl.cmp_le, Fl.val_zero]; simpa [Cmp.le] using h0
  · rw [Fl.cmp_le, Fl.val_one]; simpa [Cmp.le] using h1

/-- the error of the computed value -/
theorem fl_error {p n k : ℕ} {U : List (Fl R)} {P : List (Pt (Fl R) d)}
    (hU : ClampedKnots 0 1 p n (U.map Fl.val)) (hP : P.length = n + 1) (hk : k ≤ p) {u : Fl R}
    (h0 : 0 ≤ u.val) (h1 : u.val ≤ 1) :
    ∃ (v : Pt (Fl R) d) (w : Pt K d), (canon p U P).evaluateDerivative u k = .ok (.ok v) ∧
      (canon p (U.map Fl.val) (flPts P)).evaluateDerivative u.val k = .ok (.ok w) ∧
      ∀ (r : Fin d) (W : K),
      (∀ i, absDpt (fun i => (fn U i).val) p (fun i r => (fn P i r).val) k i r ≤ W) →
      Err R (6 * p - k + 2) (v r).val (w r) W := by
  have hP' : (flPts P).length = n + 1 := by simpa [flPts] using hP
  have hle := hU.le
  have hcl := fl_clamp hU
  obtain ⟨j, lo, hs, hlo, -, hv⟩ := fl_evaluate (d := d) hU hk h0 h1
  have hfU : fn (U.map Fl.val) = fun i => (fn U i).val := funext (fn_val U)
  have hfP : fn (flPts P) = fun i r => (fn P i r).val := by funext i r; exact fn_flPts P i r
  refine ⟨_, _, hv P hP, evaluateDerivative_eq hU hP' hk h0 h1 (by rw [hfU]; exact hs), ?_⟩
  rw [hfU, hfP, ← fullSum_eq_cv hcl hs hk]
  intro r W hW
  have herr := (evalFold_err hcl hs hk (fn P) r hlo)
  have hN : ∑ i ∈ range (n - k + 1), Nf (fun i => (fn U (i + k)).val) k n u.val (p - k) i = 1 := by
    have hp := hs.p_le hcl
    have hjn := hs.le_n
    have hc := hcl.shiftN hk
    have hs' := hs.shiftN (k := k) (by omega)
    have : ∀ i, Nf (fun i => (fn U (i + k)).val) k n u.val (p - k) i =
        Bs (shiftN k fun i => (fn U i).val) u.val (delta (j - k)) (p - k) i := by
      intro i
      rw [Nf_eq_Bs _ (by omega), ← base_eq_delta hc hs']; rfl
    simp only [this]
    exact sum_Bs_one hc.mono (by omega) (by omega) (hs'.lt hc)
  have hw : ∑ i ∈ range (n - k + 1), Nf (fun i => (fn U (i + k)).val) k n u.val (p - k) i *
        absDpt (fun i => (fn U i).val) p (fun i r => (fn P i r).val) k i r ≤ W := by
    rw [← one_mul W, ← hN, sum_mul]
    apply sum_le_sum
    intro i _
    exact mul_le_mul_of_nonneg_left (hW i)
      (Nf_near (U := fun i => fn U (i + k)) (hcl.shiftN hk).mono (by omega) u (p - k) i).1
  have := herr.weight_mono hw
  rw [Finset.sum_apply]
  exact this

/-- **C69** Rounding errors of `evaluate_derivative`: if all control points are at most `M` in a
coordinate and different knots are at least `h` apart, then the computed derivative of order `k`
differs from the exact one by at most `((1 - eps)^-(6p-k+2) - 1) * (2 p / h)^k * M` in that
coordinate. The bound does not depend on the number of control points. -/
theorem C69_derivative {c : Curve (Fl R) d} {e : Curve K d} {p n k : ℕ} {U : List (Fl R)}
    {P : List (Pt (Fl R) d)} (hc : Built c p U P)
    (he : ValidOn 0 1 e p n (U.map Fl.val) (flPts P)) (hk : k ≤ p) {u : Fl R} (h0 : 0 ≤ u.val)
    (h1 : u.val ≤ 1) {h : K} (hh : 0 < h)
    (hgap : ∀ x ∈ U, ∀ y ∈ U, x.val < y.val → h ≤ y.val - x.val) :
    ∃ (v : Pt (Fl R) d) (w : Pt K d), c.evaluateDerivative u k = .ok (.ok v) ∧
      e.evaluateDerivative u.val k = .ok (.ok w) ∧
      ∀ (r : Fin d) (M : K), (∀ q ∈ P, |(q r).val| ≤ M) →
      |(v r).val - w r| ≤ (((1 - R.eps)⁻¹) ^ (6 * p - k + 2) - 1) * ((2 * p / h) ^ k * M) := by
  obtain rfl := he.eq_canon
  obtain ⟨-, hU, hP'⟩ := he
  have hP : P.length = n + 1 := by simpa [flPts] using hP'
  obtain rfl := hc.fl_eq hU hP
  have hl : U.length = n + p + 2 := by simpa using hU.length
  obtain ⟨v, w, hv, hw, herr⟩ := fl_error hU hP hk h0 h1
  refine ⟨v, w, hv, hw, fun r M hM => (herr r _ fun i => ?_).2⟩
  exact absDpt_le (fl_clamp hU).mono hh
    (fun i j hij => hgap _ (fn_mem (by rintro rfl; simp at hl) i) _
      (fn_mem (by rintro rfl; simp at hl) j) hij)
    (fun i => hM _ (fn_mem (by rintro rfl; simp at hP) i)) k hk i

/-- **C69** Rounding errors of `evaluate`: at most `((1 - eps)^-(6p+2) - 1) * M` in every coordinate
in which the control points are at most `M`. -/
theorem C69_evaluate {c : Curve (Fl R) d} {e : Curve K d} {p n : ℕ} {U : List (Fl R)}
    {P : List (Pt (Fl R) d)} (hc : Built c p U P)
    (he : ValidOn 0 1 e p n (U.map Fl.val) (flPts P)) {u : Fl R} (h0 : 0 ≤ u.val)
    (h1 : u.val ≤ 1) :
    ∃ (v : Pt (Fl R) d) (w : Pt K d), c.evaluate u = .ok (.ok v) ∧
      e.evaluate u.val = .ok (.ok w) ∧
      ∀ (r : Fin d) (M : K), (∀ q ∈ P, |(q r).val| ≤ M) →
      |(v r).val - w r| ≤ (((1 - R.eps)⁻¹) ^ (6 * p + 2) - 1) * M := by
  obtain rfl := he.eq_canon
  obtain ⟨-, hU, hP'⟩ := he
  have hP : P.length = n + 1 := by simpa [flPts] using hP'
  obtain rfl := hc.fl_eq hU hP
  obtain ⟨v, w, hv, hw, herr⟩ := fl_error hU hP (Nat.zero_le p) h0 h1
  refine ⟨v, w, hv, hw, fun r M hM => (herr r M fun i => ?_).2⟩
  exact hM _ (fn_mem (by rintro rfl; simp at hP) i)

/-- **C69** For arithmetic with `m` fractional bits (`m = 52` for `f64`): the computed point of a curve
of degree `p` is within `(6p + 2) * 2^-m * M` of the exact one, if `p` is below `2^m / 6`. -/
theorem C69_binary {K : Type} [Field K] [LinearOrder K] [IsStrictOrderedRing K] [FloorRing K]
    {m : ℕ} {c : Curve (Fl (Rounding.binary K m)) d} {e : Curve K d} {p n : ℕ}
    {U : List (Fl (Rounding.binary K m))} {P : List (Pt (Fl (Rounding.binary K m)) d)}
    (hc : Built c p U P) (he : ValidOn 0 1 e p n (U.map Fl.val) (flPts P)) (hp : 6 * p + 2 ≤ 2 ^ m)
    {u : Fl (Rounding.binary K m)} (h0 : 0 ≤ u.val) (h1 : u.val ≤ 1) :
    ∃ (v : Pt (Fl (Rounding.binary K m)) d) (w : Pt K d), c.evaluate u = .ok (.ok v) ∧
      e.evaluate u.val = .ok (.ok w) ∧
      ∀ (r : Fin d) (M : K), (∀ q ∈ P, |(q r).val| ≤ M) →
      |(v r).val - w r| ≤ (6 * p + 2) / 2 ^ m * M := by
  obtain ⟨v, w, hv, hw, hb⟩ := C69_evaluate hc he h0 h1
  refine ⟨v, w, hv, hw, fun r M hM => (hb r M hM).trans ?_⟩
  have hP : P ≠ [] := by
    rintro rfl
    have := he.2.2
    simp [flPts] at this
  obtain ⟨q, hq⟩ := List.exists_mem_of_ne_nil P hP
  have hM0 : 0 ≤ M := (abs_nonneg _).trans (hM q hq)
  have heps : (Rounding.binary K m).eps = (1 / 2) ^ (m + 1) := rfl
  have e2 : 2 * (((6 * p + 2 : ℕ) : K) * (Rounding.binary K m).eps) = (6 * p + 2) / 2 ^ m := by
    rw [heps, pow_succ, one_div, inv_pow]
    push_cast
    field_simp
  have := (Rounding.binary K m).phi_pow_sub_one_le (m := 6 * p + 2) (by
    rw [e2, div_le_one (by positivity)]
    exact_mod_cast hp)
  rw [e2] at this
  exact mul_le_mul_of_nonneg_right this hM0

/-- **C69** At the ends of the domain the computed curve is exact: it returns the first and the last
control point without any rounding error, and the derivatives are the first and the last of the
stored derivative control points. -/
theorem C69_endpoints {c : Curve (Fl R) d} {p n k : ℕ} {U : List (Fl R)}
    {P : List (Pt (Fl R) d)} (hc : Built c p U P) (hU : ClampedKnots 0 1 p n (U.map Fl.val))
    (hP : P.length = n + 1) (hk : k ≤ p) {Q : List (Pt (Fl R) d)}
    (hQ : c.points.matrixDerivative k = .ok Q) {first last : Pt (Fl R) d}
    (hf : Q.head? = some first) (hl : Q.getLast? = some last) :
    c.evaluateDerivative 0 k = .ok (.ok first) ∧ c.evaluateDerivative 1 k = .ok (.ok last) := by
  have hlen : U.length = n + p + 2 := by simpa using hU.length
  have hle := hU.le
  obtain rfl := hc.fl_eq hU hP
  rw [canon_points, canonPts_matrixDerivative hk U P] at hQ
  injection hQ with hQ
  subst hQ
  have hcl := fl_clamp hU
  have hfirst : first = dpt (fn U) p (fn P) k 0 := by
    rw [List.head?_eq_getElem?, List.getElem?_eq_getElem (by simp; omega)] at hf
    injection hf with hf
    rw [← hf]; simp
  have hlast : last = dpt (fn U) p (fn P) k (n - k) := by
    rw [List.getLast?_eq_getElem?, List.getElem?_eq_getElem (by simp; omega)] at hl
    injection hl with hl
    rw [← hl]; simp; congr 1; omega
  constructor
  · obtain ⟨j, lo, hs, hlo, -, hv⟩ := fl_evaluate (d := d) hU hk (u := 0)
      (by rw [Fl.val_zero]) (by rw [Fl.val_zero]; exact zero_le_one)
    rw [hv P hP, hfirst]
    congr 2
    funext r
    have hjp : j = p := by
      have := hs.p_le hcl
      by_contra hne
      have := hcl.a_lt (i := j) (by omega)
      exact absurd (lt_of_lt_of_le this (by simpa [Fl.val_zero] using hs.lo)) (lt_irrefl _)
    rw [evalFold_active hcl hs hk (fn P) r hlo, hjp, Nat.sub_self]
    have hN := Nf_left (U := fun i => fn U (i + k)) (k := k) (n := n) (q := p - k) (u := 0)
      (by omega) (fun i hi => Fl.ext (by
        rw [Fl.val_zero]; exact hcl.left (i + k) (by omega)))
      (fun i hi => by rw [Fl.val_zero]; exact hcl.a_lt (by omega)) (p - k) le_rfl
    rw [foldl_single (i := 0) _ _ List.nodup_range' (by simp)]
    · rw [hN, if_pos (by omega)]
      exact Fl.one_mul' _
    · intro m _ hm
      rw [hN, if_neg (by omega)]
      exact Fl.mul_eq_zero_of_left Fl.val_zero
  · obtain ⟨j, lo, hs, hlo, -, hv⟩ := fl_evaluate (d := d) hU hk (u := 1)
      (by rw [Fl.val_one]; exact zero_le_one) (by rw [Fl.val_one])
    rw [hv P hP, hlast]
    congr 2
    funext r
    have hjn : j = n := by
      rcases hs.hi with h | ⟨h, _⟩
      · rw [Fl.val_one] at h
        exact absurd (lt_of_lt_of_le h (hcl.le_b _)) (lt_irrefl _)
      · exact h
    rw [evalFold_active hcl hs hk (fn P) r hlo, hjn]
    have hN := Nf_right (U := fun i => fn U (i + k)) (k := k) (n := n) (u := 1)
      (by omega) (fun i hi => Fl.ext (by
        rw [Fl.val_one]; exact hcl.right (i + k) (by omega)))
      (fun i hi => by
        rw [Fl.val_one]
        have h1 : (fn U (i + k)).val ≤ (fn U n).val := hcl.mono (by omega)
        exact lt_of_le_of_lt h1 (hcl.lt_b le_rfl)) (p - k)
    rw [foldl_single (i := n - k) _ _ List.nodup_range' (by rw [List.mem_range'_1]; omega)]
    · rw [hN, if_pos rfl]
      exact Fl.one_mul' _
    · intro m _ hm
      rw [hN, if_neg (by omega)]
      exact Fl.mul_eq_zero_of_left Fl.val_zero

/-- **C69** Local control is exact: replacing control point `i` does not change a single bit of the
computed curve (nor of its derivatives) at parameters outside `[U_i, U_{i+p+1}]`. -/
theorem C69_local_control {c c' : Curve (Fl R) d} {p n i : ℕ} {U : List (Fl R)}
    {P : List (Pt (Fl R) d)} (hc : Built c p U P) (hU : ClampedKnots 0 1 p n (U.map Fl.val))
    (hP : P.length = n + 1) {q : Pt (Fl R) d} (hc' : Built c' p U (P.set i q)) {x y : Fl R}
    (hx : U[i]? = some x) (hy : U[i + p + 1]? = some y) {u : Fl R} (h0 : 0 ≤ u.val)
    (h1 : u.val ≤ 1) (hout : u.val < x.val ∨ y.val < u.val) (k : ℕ) :
    c'.evaluateDerivative u k = c.evaluateDerivative u k := by
  have hlen : U.length = n + p + 2 := by simpa using hU.length
  have hle := hU.le
  have hb := hc
  obtain rfl := hc.fl_eq hU hP
  obtain rfl := hc'.fl_eq hU (by simpa using hP)
  have hcl := fl_clamp hU
  have hi : i + p + 1 < U.length := (List.getElem?_eq_some_iff.mp hy).1
  rw [List.getElem?_eq_getElem (by omega), ← fn_lt (by omega)] at hx
  rw [List.getElem?_eq_getElem (by omega), ← fn_lt (by omega)] at hy
  injection hx with hx; injection hy with hy
  have hcmp : (Cmp.le 0 u && Cmp.le u 1) = true := by
    rw [Fl.cmp_le, Fl.cmp_le, Fl.val_zero, Fl.val_one]
    simp [Cmp.le, h0, h1]
  by_cases hk : k ≤ p
  · obtain ⟨j, lo, hs, hlo, -, hv⟩ := fl_evaluate (d := d) hU hk h0 h1
    have hpj := hs.p_le hcl
    have hjn := hs.le_n
    rw [hv P hP, hv _ (by simpa using hP)]
    congr 2
    funext r
    rw [evalFold_active hcl hs hk _ r hlo, evalFold_active hcl hs hk _ r hlo]
    apply List.foldl_ext
    intro s m hm
    rw [List.mem_range'_1] at hm
    congr 1
    simp only [scale]
    congr 1
    have : dpt (fn U) p (fn (P.set i q)) k m = dpt (fn U) p (fn P) k m := by
      apply dpt_congr_fl
      intro l hl1 hl2
      rw [fn_set (by omega), if_neg]
      intro hil
      subst hil
      rcases hout with h | h
      · have h3 : (fn U i).val ≤ (fn U j).val := hcl.mono (by omega)
        rw [hx] at h3
        exact absurd (lt_of_lt_of_le h (h3.trans hs.lo)) (lt_irrefl _)
      · have h3 : (fn U (j + 1)).val ≤ (fn U (i + p + 1)).val := hcl.mono (by omega)
        rw [hy] at h3
        exact absurd (lt_of_le_of_lt (hs.le_hi.trans h3) h) (lt_irrefl _)
    rw [this]
  · rw [(C06_evaluation_total hc' hlen (by simpa using hP) hle u k).2.2 hcmp (by omega),
      (C06_evaluation_total hb hlen hP hle u k).2.2 hcmp (by omega)]

end BSpline
