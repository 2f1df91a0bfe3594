import Verif.Model.Generate
import Verif.Model.Debug
import Mathlib.Algebra.Order.Field.Basic
import Mathlib.Data.Int.Log
import Mathlib.Algebra.Order.Round
import Mathlib.Tactic.Linarith
import Mathlib.Tactic.Ring
import Mathlib.Tactic.FieldSimp
import Mathlib.Tactic.Positivity

/-!
# Floating-point numbers

`Fl R` are the numbers that a rounding `R` leaves unchanged. Every operation is the exact one
followed by rounding, comparisons are exact. This is the standard model of floating-point arithmetic
without overflow and underflow: `Rounding.binary 52` is the rounding of `f64` with an unbounded
exponent range. Running the model over `Fl R` shows what the code computes with rounding errors.
-/

namespace BSpline

/-- A rounding with relative error at most `eps`. -/
structure Rounding (K : Type) [Field K] [LinearOrder K] where
  rnd : K → K
  eps : K
  eps_nonneg : 0 ≤ eps
  eps_lt_one : eps < 1
  rel : ∀ x, |rnd x - x| ≤ eps * |x|
  idem : ∀ x, rnd (rnd x) = rnd x
  mono : ∀ x y, x ≤ y → rnd x ≤ rnd y
  one : rnd 1 = 1

/-- The numbers that are representable. -/
structure Fl {K : Type} [Field K] [LinearOrder K] (R : Rounding K) where
  val : K
  rep : R.rnd val = val

variable {K : Type} [Field K] [LinearOrder K]

namespace Fl

variable {R : Rounding K}

/-- round an exact number -/
def of (R : Rounding K) (x : K) : Fl R := ⟨R.rnd x, R.idem x⟩

instance : Zero (Fl R) := ⟨of R 0⟩
instance : One (Fl R) := ⟨of R 1⟩
instance : NatCast (Fl R) := ⟨fun n => of R n⟩
instance : IntCast (Fl R) := ⟨fun z => of R z⟩
instance : Add (Fl R) := ⟨fun a b => of R (a.val + b.val)⟩
instance : Sub (Fl R) := ⟨fun a b => of R (a.val - b.val)⟩
instance : Mul (Fl R) := ⟨fun a b => of R (a.val * b.val)⟩
instance : Div (Fl R) := ⟨fun a b => of R (a.val / b.val)⟩
instance : Neg (Fl R) := ⟨fun a => of R (-a.val)⟩
instance : Cmp (Fl R) := ⟨fun a b => decide (a.val ≤ b.val), fun a b => decide (a.val < b.val),
  fun a b => decide (a.val = b.val)⟩
instance [Trunc K] : Trunc (Fl R) := ⟨fun a => Trunc.trunc a.val⟩
instance [Sqrt K] : Sqrt (Fl R) := ⟨fun a => of R (Sqrt.sqrt a.val)⟩

theorem ext {a b : Fl R} (h : a.val = b.val) : a = b := by
  cases a; cases b; simp_all

end Fl

/-- the exact values of a list of points -/
def flPts {R : Rounding K} {d : ℕ} (P : List (Pt (Fl R) d)) : List (Pt K d) :=
  P.map fun v r => (v r).val

/-! ### The rounding of `f64` -/

section Binary

variable [IsStrictOrderedRing K] [FloorRing K]

/-- the distance of neighbouring numbers with `m` fractional bits near `x` -/
def ulp (m : ℕ) (x : K) : K := 2 ^ (Int.log 2 |x| - (m : ℤ))

/-- round `x` to the nearest number with `m` fractional bits -/
def roundBinary (m : ℕ) (x : K) : K := if x = 0 then 0 else round (x / ulp m x) * ulp m x

variable {m : ℕ}

theorem ulp_pos (x : K) : 0 < ulp m x := zpow_pos two_pos _

theorem ulp_mul (x : K) : ulp m x * 2 ^ m = 2 ^ (Int.log 2 |x|) := by
  rw [ulp, ← zpow_natCast, ← zpow_add₀ two_ne_zero]
  congr 1; omega

theorem ulp_le {x : K} (hx : x ≠ 0) : ulp m x * 2 ^ m ≤ |x| := by
  rw [ulp_mul]
  have := Int.zpow_log_le_self (b := 2) (r := |x|) (by norm_num) (abs_pos.mpr hx)
  exact_mod_cast this

theorem lt_ulp {x : K} : |x| < ulp m x * 2 ^ (m + 1) := by
  have := Int.lt_zpow_succ_log_self (b := 2) (by norm_num) |x|
  have h : ulp m x * 2 ^ (m + 1) = 2 ^ (Int.log 2 |x| + 1) := by
    rw [pow_succ, ← mul_assoc, ulp_mul, zpow_add_one₀ two_ne_zero]
  rw [h]
  exact_mod_cast this

theorem round_mono' {x y : K} (h : x ≤ y) : round x ≤ round y := by
  rw [round_eq, round_eq]
  exact Int.floor_le_floor (by linarith)

theorem roundBinary_le {x : K} {t : ℤ} (h : x ≤ t * ulp m x) : roundBinary m x ≤ t * ulp m x := by
  rw [roundBinary]
  split
  · rename_i h0; rw [h0] at h; rw [h0]; exact h
  · have hu := ulp_pos (m := m) x
    refine mul_le_mul_of_nonneg_right ?_ hu.le
    have : x / ulp m x ≤ t := by rwa [div_le_iff₀ hu]
    have := round_mono' this
    rw [round_intCast] at this
    exact_mod_cast this

theorem le_roundBinary {x : K} {t : ℤ} (h : t * ulp m x ≤ x) : t * ulp m x ≤ roundBinary m x := by
  rw [roundBinary]
  split
  · rename_i h0; rw [h0] at h; rw [h0]; exact h
  · have hu := ulp_pos (m := m) x
    refine mul_le_mul_of_nonneg_right ?_ hu.le
    have : (t : K) ≤ x / ulp m x := by rwa [le_div_iff₀ hu]
    have := round_mono' this
    rw [round_intCast] at this
    exact_mod_cast this

theorem roundBinary_rel (x : K) : |roundBinary m x - x| ≤ (1 / 2) ^ (m + 1) * |x| := by
  by_cases hx : x = 0
  · rw [hx, roundBinary, if_pos rfl]; simp
  · have hu := ulp_pos (m := m) x
    rw [roundBinary, if_neg hx]
    have e : (round (x / ulp m x) : K) * ulp m x - x =
        -(x / ulp m x - round (x / ulp m x)) * ulp m x := by
      field_simp; ring
    rw [e, abs_mul, abs_neg, abs_of_pos hu]
    have h1 := abs_sub_round (x / ulp m x)
    have h2 := ulp_le (m := m) hx
    calc |x / ulp m x - round (x / ulp m x)| * ulp m x ≤ 1 / 2 * ulp m x :=
          mul_le_mul_of_nonneg_right h1 hu.le
      _ = (1 / 2) ^ (m + 1) * (ulp m x * 2 ^ m) := by
          rw [pow_succ, one_div, inv_pow]; field_simp
      _ ≤ _ := mul_le_mul_of_nonneg_left h2 (by positivity)

/-- integer multiples of a power of two with at most `m + 1` bits are representable -/
theorem roundBinary_rep (t : ℤ) (s : ℤ) (ht : |t| ≤ 2 ^ (m + 1)) :
    roundBinary m ((t : K) * 2 ^ s) = t * 2 ^ s := by
  by_cases h0 : (t : K) * 2 ^ s = 0
  · rw [roundBinary, if_pos h0, h0]
  · set x := (t : K) * 2 ^ s with hx
    have hu := ulp_pos (m := m) x
    -- `x` is an integer multiple of `ulp`
    obtain ⟨k, hk⟩ : ∃ k : ℤ, x = k * ulp m x := by
      have hs : (0 : K) < 2 ^ s := zpow_pos two_pos _
      have habs : |x| = |(t : K)| * 2 ^ s := by rw [hx, abs_mul, abs_of_pos hs]
      have htK : |(t : K)| ≤ 2 ^ (m + 1) := by exact_mod_cast ht
      have hle : (2 : K) ^ (Int.log 2 |x|) ≤ 2 ^ (s + m + 1) := by
        have := ulp_le (m := m) h0
        rw [ulp_mul] at this
        refine this.trans ?_
        rw [habs, show s + m + 1 = ((m + 1 : ℕ) : ℤ) + s by push_cast; ring, zpow_add₀ two_ne_zero,
          zpow_natCast]
        exact mul_le_mul_of_nonneg_right htK hs.le
      have hle' : Int.log 2 |x| ≤ s + m + 1 := (zpow_le_zpow_iff_right₀ one_lt_two).mp hle
      rcases hle'.lt_or_eq with hlt | heq
      · refine ⟨t * 2 ^ (s - (Int.log 2 |x| - m)).toNat, ?_⟩
        rw [hx]
        push_cast
        rw [mul_assoc, ← zpow_natCast (2 : K), ulp, ← hx, ← zpow_add₀ two_ne_zero,
          Int.toNat_of_nonneg (by omega)]
        rw [hx]
        congr 2; ring
      · -- `|x| = 2 ^ (s + m + 1)`
        have hge : (2 : K) ^ (m + 1) ≤ |(t : K)| := by
          have := ulp_le (m := m) h0
          rw [ulp_mul, heq, habs, show s + m + 1 = ((m + 1 : ℕ) : ℤ) + s by push_cast; ring,
            zpow_add₀ two_ne_zero, zpow_natCast] at this
          exact le_of_mul_le_mul_right this hs
        have hge' : (2 : ℤ) ^ (m + 1) ≤ |t| := by exact_mod_cast hge
        have htt : |t| = 2 ^ (m + 1) := le_antisymm ht hge'
        have hul : ulp m x = 2 * 2 ^ s := by
          rw [ulp, heq, ← zpow_one_add₀ two_ne_zero]
          congr 1; ring
        rcases abs_choice t with h | h
        · refine ⟨2 ^ m, ?_⟩
          rw [hul, hx, show t = 2 ^ (m + 1) by rw [← htt, h]]
          push_cast; ring
        · refine ⟨-2 ^ m, ?_⟩
          rw [hul, hx, show t = -2 ^ (m + 1) by rw [← htt, h, neg_neg]]
          push_cast; ring
    refine le_antisymm ?_ ?_
    · have := roundBinary_le (m := m) (x := x) (t := k) (by rw [← hk])
      rwa [← hk] at this
    · have := le_roundBinary (m := m) (x := x) (t := k) (by rw [← hk])
      rwa [← hk] at this

theorem roundBinary_idem (x : K) : roundBinary m (roundBinary m x) = roundBinary m x := by
  by_cases hx : x = 0
  · rw [hx]; simp [roundBinary]
  · have hu := ulp_pos (m := m) x
    have h : roundBinary m x = (round (x / ulp m x) : ℤ) * (2 : K) ^ (Int.log 2 |x| - (m : ℤ)) := by
      rw [roundBinary, if_neg hx]; rfl
    rw [h]
    apply roundBinary_rep
    rw [abs_le]
    have hlt := (lt_ulp (m := m) (x := x)).le
    rw [abs_le] at hlt
    have h1 : x / ulp m x ≤ ((2 ^ (m + 1) : ℤ) : K) := by
      rw [div_le_iff₀ hu]; push_cast; linarith [hlt.2]
    have h2 : ((-2 ^ (m + 1) : ℤ) : K) ≤ x / ulp m x := by
      rw [le_div_iff₀ hu]; push_cast; linarith [hlt.1]
    have h3 := round_mono' h1
    have h4 := round_mono' h2
    rw [round_intCast] at h3 h4
    exact ⟨h4, h3⟩

theorem roundBinary_nonneg {x : K} (h : 0 ≤ x) : 0 ≤ roundBinary m x := by
  have := le_roundBinary (m := m) (x := x) (t := 0) (by simpa using h)
  simpa using this

theorem roundBinary_nonpos {x : K} (h : x ≤ 0) : roundBinary m x ≤ 0 := by
  have := roundBinary_le (m := m) (x := x) (t := 0) (by simpa using h)
  simpa using this

theorem roundBinary_mono {x y : K} (h : x ≤ y) : roundBinary m x ≤ roundBinary m y := by
  rcases le_or_gt x 0 with hx0 | hx0
  · rcases le_or_gt 0 y with hy0 | hy0
    · exact (roundBinary_nonpos hx0).trans (roundBinary_nonneg hy0)
    · -- both negative
      have hxn : x < 0 := lt_of_le_of_lt h hy0
      have habs : |y| ≤ |x| := by rw [abs_of_neg hxn, abs_of_neg hy0]; linarith
      have hlog := Int.log_mono_right (b := 2) (abs_pos.mpr hy0.ne) habs
      rcases hlog.lt_or_eq with hl | hl
      · have h1 : roundBinary m x ≤ -2 ^ (Int.log 2 |x|) := by
          have := roundBinary_le (m := m) (x := x) (t := -2 ^ m) (by
            have := ulp_le (m := m) hxn.ne
            rw [abs_of_neg hxn] at this
            push_cast; linarith)
          push_cast at this
          rw [neg_mul, mul_comm, ulp_mul] at this
          exact this
        have h2 : -2 ^ (Int.log 2 |y| + 1) ≤ roundBinary m y := by
          have := le_roundBinary (m := m) (x := y) (t := -2 ^ (m + 1)) (by
            have := lt_ulp (m := m) (x := y)
            rw [abs_of_neg hy0] at this
            push_cast; linarith)
          push_cast at this
          rw [neg_mul, mul_comm, pow_succ, ← mul_assoc, ulp_mul, ← zpow_add_one₀ two_ne_zero] at this
          exact this
        have h3 : (2 : K) ^ (Int.log 2 |y| + 1) ≤ 2 ^ (Int.log 2 |x|) :=
          zpow_le_zpow_right₀ one_le_two (by omega)
        linarith
      · have hul : ulp m x = ulp m y := by rw [ulp, ulp, hl]
        rw [roundBinary, roundBinary, if_neg hxn.ne, if_neg hy0.ne, hul]
        have hu := ulp_pos (m := m) y
        refine mul_le_mul_of_nonneg_right ?_ hu.le
        have := round_mono' (div_le_div_of_nonneg_right h hu.le)
        exact_mod_cast this
  · have hy0 : 0 < y := lt_of_lt_of_le hx0 h
    have habs : |x| ≤ |y| := by rw [abs_of_pos hx0, abs_of_pos hy0]; exact h
    have hlog := Int.log_mono_right (b := 2) (abs_pos.mpr hx0.ne') habs
    rcases hlog.lt_or_eq with hl | hl
    · have h1 : 2 ^ (Int.log 2 |y|) ≤ roundBinary m y := by
        have := le_roundBinary (m := m) (x := y) (t := 2 ^ m) (by
          have := ulp_le (m := m) hy0.ne'
          rw [abs_of_pos hy0] at this
          push_cast; linarith)
        push_cast at this
        rwa [mul_comm, ulp_mul] at this
      have h2 : roundBinary m x ≤ 2 ^ (Int.log 2 |x| + 1) := by
        have := roundBinary_le (m := m) (x := x) (t := 2 ^ (m + 1)) (by
          have := lt_ulp (m := m) (x := x)
          rw [abs_of_pos hx0] at this
          push_cast; linarith)
        push_cast at this
        rwa [mul_comm, pow_succ, ← mul_assoc, ulp_mul, ← zpow_add_one₀ two_ne_zero] at this
      have h3 : (2 : K) ^ (Int.log 2 |x| + 1) ≤ 2 ^ (Int.log 2 |y|) :=
        zpow_le_zpow_right₀ one_le_two (by omega)
      linarith
    · have hul : ulp m x = ulp m y := by rw [ulp, ulp, hl]
      rw [roundBinary, roundBinary, if_neg hx0.ne', if_neg hy0.ne', hul]
      have hu := ulp_pos (m := m) y
      refine mul_le_mul_of_nonneg_right ?_ hu.le
      have := round_mono' (div_le_div_of_nonneg_right h hu.le)
      exact_mod_cast this

/-- Rounding to nearest with `m` fractional bits; `m = 52` for `f64`. -/
def Rounding.binary (K : Type) [Field K] [LinearOrder K] [IsStrictOrderedRing K] [FloorRing K]
    (m : ℕ) : Rounding K where
  rnd := roundBinary m
  eps := (1 / 2) ^ (m + 1)
  eps_nonneg := by positivity
  eps_lt_one := pow_lt_one₀ (by norm_num) (by norm_num) (by omega)
  rel := roundBinary_rel
  idem := roundBinary_idem
  mono := fun _ _ => roundBinary_mono
  one := by
    have := roundBinary_rep (K := K) (m := m) 1 0 (by simp; exact one_le_pow₀ (by norm_num))
    simpa using this

end Binary

end BSpline
