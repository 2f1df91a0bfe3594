import Verif.Theory.Rounding
import Verif.Refine.Value

/-!
# Evaluation in floating-point arithmetic

The law-free descriptions of what the code computes (`Nf`, `dpt`, `evalFold`), read over `Fl R` and
compared with the exact ones.
-/

set_option linter.unusedSectionVars false

namespace BSpline

open Finset

variable {K : Type} [Field K] [LinearOrder K] [IsStrictOrderedRing K] {R : Rounding K} {d : ℕ}

namespace Fl

theorem val_zero : (0 : Fl R).val = 0 := R.rnd_zero
theorem val_one : (1 : Fl R).val = 1 := R.one
theorem val_add (a b : Fl R) : (a + b).val = R.rnd (a.val + b.val) := rfl
theorem val_sub (a b : Fl R) : (a - b).val = R.rnd (a.val - b.val) := rfl
theorem val_mul (a b : Fl R) : (a * b).val = R.rnd (a.val * b.val) := rfl
theorem val_div (a b : Fl R) : (a / b).val = R.rnd (a.val / b.val) := rfl
theorem val_natCast (n : ℕ) : (n : Fl R).val = R.rnd n := rfl
theorem cmp_le (a b : Fl R) : Cmp.le a b = Cmp.le a.val b.val := rfl
theorem cmp_lt (a b : Fl R) : Cmp.lt a b = Cmp.lt a.val b.val := rfl
theorem cmp_eq (a b : Fl R) : Cmp.eq a b = Cmp.eq a.val b.val := rfl

theorem add_zero' {a b : Fl R} (h : b.val = 0) : a + b = a :=
  Fl.ext (by rw [val_add, h, add_zero, a.rep])

theorem mul_eq_zero_of_left {a b : Fl R} (h : a.val = 0) : (a * b).val = 0 := by
  rw [val_mul, h, zero_mul, R.rnd_zero]

/-- one subtraction in the right order -/
theorem sub_near {a b : Fl R} (h : b.val ≤ a.val) : Near R 1 (a - b).val (a.val - b.val) :=
  (Near.refl _).rnd (sub_nonneg.mpr h)

end Fl

theorem fn_val (U : List (Fl R)) (i : ℕ) : fn (U.map Fl.val) i = (fn U i).val := by
  by_cases h : i < U.length
  · rw [fn_map _ h]
  · rw [fn_ge (by simpa using h), fn_ge (by omega)]
    rcases U.eq_nil_or_concat with rfl | ⟨l, x, rfl⟩
    · exact Fl.val_zero.symm
    · simp

theorem fn_flPts (P : List (Pt (Fl R) d)) (i : ℕ) (r : Fin d) :
    fn (flPts P) i r = (fn P i r).val := by
  by_cases h : i < P.length
  · rw [flPts, fn_map _ h]
  · rw [fn_ge (by simpa [flPts] using h), fn_ge (by omega)]
    rcases P.eq_nil_or_concat with rfl | ⟨l, x, rfl⟩
    · exact Fl.val_zero.symm
    · simp [flPts]

theorem lleq_val (U : ℕ → Fl R) (u : Fl R) (r : ℕ) : ∀ i,
    lleq U u r i = lleq (fun i => (U i).val) u.val r i := by
  induction r with
  | zero => intro i; rfl
  | succ r ih =>
    intro i
    simp only [lleq, ih, Fl.cmp_le, Fl.cmp_eq]

/-! ### Basis functions -/

/-- local support, for any sorted knots -/
theorem Nf_support {U : ℕ → K} (hm : Monotone U) {k n : ℕ} (hk : k ≤ n) (u : K) (q : ℕ) : ∀ i,
    Nf U k n u q i ≠ 0 → U i ≤ u ∧ u ≤ U (i + q + 1) := by
  induction q with
  | zero =>
    intro i h
    simp only [Nf, Cmp.le, Cmp.lt, Cmp.eq, Bool.or_eq_true, Bool.and_eq_true,
      decide_eq_true_eq] at h
    split at h
    · rename_i h1
      rcases h1 with ⟨h1, h2⟩ | ⟨h1, h2⟩
      · exact ⟨h1, h2.le⟩
      · rw [show n + 1 - k = i + 1 by omega] at h2
        rw [h2]
        exact ⟨hm (by omega), le_rfl⟩
    · exact absurd rfl h
  | succ q ih =>
    intro i h
    by_cases h1 : Nf U k n u q i = 0
    · by_cases h2 : Nf U k n u q (i + 1) = 0
      · simp [Nf, h1, h2] at h
      · have := ih (i + 1) h2
        exact ⟨(hm (by omega)).trans this.1, by
          rw [show i + (q + 1) + 1 = i + 1 + q + 1 by omega]; exact this.2⟩
    · have := ih i h1
      exact ⟨this.1, this.2.trans (hm (by omega))⟩

/-- the computed basis functions have a small relative error -/
theorem Nf_near {U : ℕ → Fl R} (hm : Monotone fun i => (U i).val) {k n : ℕ} (hk : k ≤ n) (u : Fl R)
    (q : ℕ) : ∀ i, 0 ≤ Nf (fun i => (U i).val) k n u.val q i ∧
      Near R (5 * q) (Nf U k n u q i).val (Nf (fun i => (U i).val) k n u.val q i) := by
  induction q with
  | zero =>
    intro i
    simp only [Nf, Fl.cmp_le, Fl.cmp_lt, Fl.cmp_eq]
    split
    · rw [Fl.val_one]; exact ⟨zero_le_one, Near.refl _⟩
    · rw [Fl.val_zero]; exact ⟨le_rfl, Near.refl _⟩
  | succ q ih =>
    intro i
    -- one of the two summands
    have key : ∀ (a b s t : Fl R) (y : Fl R) (x : K), 0 ≤ x → Near R (5 * q) y.val x →
        (x ≠ 0 → b.val ≤ a.val) → (Cmp.eq s t = false → t.val ≤ s.val) →
        0 ≤ (if Cmp.eq s.val t.val = true then 0 else (a.val - b.val) / (s.val - t.val) * x) ∧
        Near R (5 * q + 4) (if Cmp.eq s t = true then (0 : Fl R) else (a - b) / (s - t) * y).val
          (if Cmp.eq s.val t.val = true then 0 else (a.val - b.val) / (s.val - t.val) * x) := by
      intro a b s t y x hx hy hab hst
      rw [Fl.cmp_eq]
      by_cases hc : Cmp.eq s.val t.val = true
      · rw [if_pos hc, if_pos hc, Fl.val_zero]
        exact ⟨le_rfl, (Near.refl _).mono le_rfl (by omega)⟩
      · rw [if_neg hc, if_neg hc]
        have hne : s.val ≠ t.val := by simpa [Cmp.eq] using hc
        have hlt : t.val < s.val := lt_of_le_of_ne (hst (by rw [Fl.cmp_eq]; simpa using hc)) hne.symm
        have hpos : 0 < s.val - t.val := sub_pos.mpr hlt
        by_cases h0 : x = 0
        · subst h0
          rw [Fl.val_mul, hy.eq_zero, mul_zero, mul_zero, R.rnd_zero]
          exact ⟨le_rfl, (Near.refl _).mono le_rfl (by omega)⟩
        · have hba := hab h0
          have h1 := Fl.sub_near hba
          have h2 := Fl.sub_near hlt.le
          have hn := sub_nonneg.mpr hba
          have h3 := (h1.div h2 hn hpos).rnd (div_nonneg hn hpos.le)
          have hd := div_nonneg hn hpos.le
          have h4 := (h3.mul hy hd hx).rnd (mul_nonneg hd hx)
          refine ⟨mul_nonneg hd hx, ?_⟩
          rw [show 1 + 1 + 1 + 5 * q + 1 = 5 * q + 4 by omega] at h4
          exact h4
    have hs := Nf_support hm hk u.val q
    have k1 := key u (U i) (U (i + (q + 1))) (U i) _ _ (ih i).1 (ih i).2
      (fun h => (hs i h).1) (fun _ => hm (by omega))
    have k2 := key (U (i + 1 + (q + 1))) u (U (i + 1 + (q + 1))) (U (i + 1)) _ _ (ih (i + 1)).1
      (ih (i + 1)).2 (fun h => by
        have := (hs (i + 1) h).2
        rwa [show i + 1 + q + 1 = i + 1 + (q + 1) by omega] at this) (fun _ => hm (by omega))
    simp only [Nf]
    refine ⟨add_nonneg k1.1 k2.1, ?_⟩
    exact (k1.2.add k2.2).rnd (add_nonneg k1.1 k2.1)

/-! ### Derivative points -/

/-- Size of the derivative control points when all differences are replaced by sums of absolute
values. -/
def absDpt (U : ℕ → K) (p : ℕ) (P : ℕ → Pt K d) : ℕ → ℕ → Pt K d
  | 0, i => fun r => |P i r|
  | k + 1, i => fun r =>
    if U (i + p + 1) = U (i + (k + 1)) then 0
    else ((p - (k + 1) + 1 : ℕ) : K) / (U (i + p + 1) - U (i + (k + 1))) *
      (absDpt U p P k (i + 1) r + absDpt U p P k i r)

theorem dpt_err {U : ℕ → Fl R} (hm : Monotone fun i => (U i).val) {p : ℕ} (P : ℕ → Pt (Fl R) d)
    (k : ℕ) (hk : k ≤ p) : ∀ i r,
    Err R (5 * k) (dpt U p P k i r).val
      (dpt (fun i => (U i).val) p (fun i r => (P i r).val) k i r)
      (absDpt (fun i => (U i).val) p (fun i r => (P i r).val) k i r) := by
  induction k with
  | zero => intro i r; exact Err.refl _
  | succ k ih =>
    intro i r
    simp only [dpt, absDpt, Fl.cmp_eq]
    by_cases hc : (U (i + p + 1)).val = (U (i + (k + 1))).val
    · rw [if_pos (by simpa [Cmp.eq] using hc), if_pos (by simpa [Cmp.eq] using hc), if_pos hc,
        Fl.val_zero]
      simpa using (Err.refl (R := R) (0 : K)).mono (Nat.zero_le (5 * (k + 1)))
    · rw [if_neg (by simpa [Cmp.eq] using hc), if_neg (by simpa [Cmp.eq] using hc), if_neg hc]
      have hle : (U (i + (k + 1))).val ≤ (U (i + p + 1)).val := hm (by omega)
      have hpos : 0 < (U (i + p + 1)).val - (U (i + (k + 1))).val :=
        sub_pos.mpr (lt_of_le_of_ne hle (Ne.symm hc))
      have h1 : Near R 1 ((p - (k + 1) + 1 : ℕ) : Fl R).val ((p - (k + 1) + 1 : ℕ) : K) :=
        (Near.refl _).rnd (Nat.cast_nonneg _)
      have h2 := (h1.div (Fl.sub_near hle) (Nat.cast_nonneg _) hpos).rnd
        (div_nonneg (Nat.cast_nonneg _) hpos.le)
      have h3 := Err.of_near h2 (div_nonneg (Nat.cast_nonneg _) hpos.le)
      have h4 := ((ih (by omega) (i + 1) r).sub (ih (by omega) i r)).rnd
      have h5 := (h3.mul h4).rnd
      rw [show 1 + 1 + 1 + (5 * k + 1) + 1 = 5 * (k + 1) by omega] at h5
      exact h5

/-! ### Sums -/

theorem foldl_zero {α : Type} (g : α → Fl R) : ∀ (l : List α) (v : Fl R), (∀ i ∈ l, (g i).val = 0) →
    l.foldl (fun x i => x + g i) v = v := by
  intro l
  induction l with
  | nil => intro v _; rfl
  | cons a l ih =>
    intro v h
    rw [List.foldl_cons, Fl.add_zero' (h a (by simp)), ih v (fun i hi => h i (by simp [hi]))]

theorem foldl_err {g : ℕ → Fl R} {x w : ℕ → K} {M : ℕ} : ∀ (l : List ℕ) (c : ℕ) (v : Fl R) (s t : K),
    (∀ i ∈ l, Err R M (g i).val (x i) (w i)) → Err R (M + c) v.val s t →
    Err R (M + c + l.length) (l.foldl (fun y i => y + g i) v).val (s + (l.map x).sum)
      (t + (l.map w).sum) := by
  intro l
  induction l with
  | nil => intro c v s t _ h; simpa using h
  | cons a l ih =>
    intro c v s t h hv
    have h1 := ((hv.add ((h a (by simp)).mono (by omega))).rnd)
    have := ih (c + 1) (v + g a) (s + x a) (t + w a) (fun i hi => h i (by simp [hi])) h1
    simp only [List.foldl_cons, List.map_cons, List.sum_cons, List.length_cons]
    rw [← add_assoc s, ← add_assoc t,
      show M + c + (l.length + 1) = M + (c + 1) + l.length by omega]
    exact this

theorem foldl_coord {V : Type} [Add V] (g : ℕ → Fin d → V) (r : Fin d) :
    ∀ (l : List ℕ) (v : Fin d → V),
    l.foldl (fun v i => v + g i) v r = l.foldl (fun x i => x + g i r) (v r) := by
  intro l
  induction l with
  | nil => intro v; rfl
  | cons a l ih => intro v; rw [List.foldl_cons, List.foldl_cons, ih]; rfl

theorem sum_range' (x : ℕ → K) (lo : ℕ) : ∀ m,
    ((List.range' lo m).map x).sum = ∑ i ∈ Ico lo (lo + m), x i := by
  intro m
  induction m with
  | zero => simp
  | succ m ih =>
    rw [List.range'_1_concat, List.map_append, List.sum_append, ih, ← add_assoc lo,
      sum_Ico_succ_top (by omega)]
    simp

/-- the exact sum over the functions that do not vanish -/
theorem Nf_zero_of_span {U : ℕ → K} {p n : ℕ} {a b : K} (h : Clamp U p n a b)
    {u : K} {j k : ℕ} (hs : IsSpan U n u j) (hk : k ≤ p) {i : ℕ} (hi : i + p < j ∨ j < i + k) :
    Nf (fun i => U (i + k)) k n u (p - k) i = 0 := by
  have hp := hs.p_le h
  have hjn := hs.le_n
  have hc := h.shiftN hk
  have hs' := hs.shiftN (k := k) (by omega)
  have e : Nf (fun i => U (i + k)) k n u (p - k) i =
      Bs (shiftN k U) u (delta (j - k)) (p - k) i := by
    rw [Nf_eq_Bs _ (by omega), ← base_eq_delta hc hs']; rfl
  rw [e]
  exact Bs_support _ _ _ _ _ (by omega)

theorem Nf_fl_zero {U : ℕ → Fl R} {p n : ℕ} {a b : K} (h : Clamp (fun i => (U i).val) p n a b)
    {u : Fl R} {j k : ℕ} (hs : IsSpan (fun i => (U i).val) n u.val j) (hk : k ≤ p) {i : ℕ}
    (hi : i + p < j ∨ j < i + k) : (Nf (fun i => U (i + k)) k n u (p - k) i).val = 0 := by
  have hp := hs.p_le h
  have hjn := hs.le_n
  have h1 := (Nf_near (U := fun i => U (i + k)) (h.shiftN hk).mono (show k ≤ n by omega) u (p - k)
    i).2
  have h2 : Nf (fun i => (U (i + k)).val) k n u.val (p - k) i = 0 := Nf_zero_of_span h hs hk hi
  rw [h2] at h1
  exact h1.eq_zero

/-- The computed sum only depends on the functions that do not vanish. -/
theorem evalFold_active {U : ℕ → Fl R} {p n : ℕ} {a b : K}
    (h : Clamp (fun i => (U i).val) p n a b)
    {u : Fl R} {j k : ℕ} (hs : IsSpan (fun i => (U i).val) n u.val j) (hk : k ≤ p)
    (P : ℕ → Pt (Fl R) d) (r : Fin d) {lo : ℕ} (hlo : lo ≤ j - p) :
    evalFold U p n P k u lo r = (List.range' (j - p) (p - k + 1)).foldl (fun x i => x +
      scale (Nf (fun j => U (j + k)) k n u (p - k) i) (dpt U p P k i) r) 0 := by
  have hp := hs.p_le h
  have hjn := hs.le_n
  have hz : ∀ i, i + p < j ∨ j < i + k →
      (scale (Nf (fun j => U (j + k)) k n u (p - k) i) (dpt U p P k i) r).val = 0 :=
    fun i hi => Fl.mul_eq_zero_of_left (Nf_fl_zero h hs hk hi)
  rw [evalFold, foldl_coord]
  have e1 : List.range' lo (n - k + 1 - lo) = List.range' lo (j - p - lo) ++
      (List.range' (j - p) (p - k + 1) ++ List.range' (j - k + 1) (n - j)) := by
    rw [show n - k + 1 - lo = (j - p - lo) + ((p - k + 1) + (n - j)) by omega,
      ← List.range'_append_1, ← List.range'_append_1, show lo + (j - p - lo) = j - p by omega,
      show j - p + (p - k + 1) = j - k + 1 by omega]
  rw [e1, List.foldl_append, List.foldl_append, foldl_zero _ (List.range' lo _) _ (by
    intro i hi
    rw [List.mem_range'_1] at hi
    exact hz i (by omega)), foldl_zero _ (List.range' (j - k + 1) _) _ (by
    intro i hi
    rw [List.mem_range'_1] at hi
    exact hz i (by omega))]

/-- the error of the computed sum -/
theorem evalFold_err {U : ℕ → Fl R} {p n : ℕ} {a b : K} (h : Clamp (fun i => (U i).val) p n a b)
    {u : Fl R} {j k : ℕ} (hs : IsSpan (fun i => (U i).val) n u.val j) (hk : k ≤ p)
    (P : ℕ → Pt (Fl R) d) (r : Fin d) {lo : ℕ} (hlo : lo ≤ j - p) :
    Err R (6 * p - k + 2) (evalFold U p n P k u lo r).val
      (∑ i ∈ range (n - k + 1), Nf (fun i => (U (i + k)).val) k n u.val (p - k) i *
        dpt (fun i => (U i).val) p (fun i r => (P i r).val) k i r)
      (∑ i ∈ range (n - k + 1), Nf (fun i => (U (i + k)).val) k n u.val (p - k) i *
        absDpt (fun i => (U i).val) p (fun i r => (P i r).val) k i r) := by
  have hp := hs.p_le h
  have hjn := hs.le_n
  have hnear := fun i => Nf_near (U := fun i => U (i + k)) (h.shiftN hk).mono
    (show k ≤ n by omega) u (p - k) i
  have hsum : ∀ f : ℕ → K,
      ∑ i ∈ range (n - k + 1), Nf (fun i => (U (i + k)).val) k n u.val (p - k) i * f i =
      ((List.range' (j - p) (p - k + 1)).map fun i =>
        Nf (fun i => (U (i + k)).val) k n u.val (p - k) i * f i).sum := by
    intro f
    rw [sum_range']
    symm
    apply sum_subset
    · intro i hi
      rw [mem_Ico] at hi
      rw [mem_range]
      omega
    · intro i _ hi
      rw [mem_Ico] at hi
      have := Nf_zero_of_span h hs hk (i := i) (by omega)
      rw [this, zero_mul]
  rw [hsum, hsum, evalFold_active h hs hk P r hlo]
  have h0 : Err R (5 * p + 1 + 0) (0 : Fl R).val 0 0 := by
    rw [Fl.val_zero]
    simpa using (Err.refl (R := R) (0 : K)).mono (Nat.zero_le (5 * p + 1 + 0))
  have := foldl_err (R := R) (g := fun i => scale (Nf (fun j => U (j + k)) k n u (p - k) i)
      (dpt U p P k i) r)
    (x := fun i => Nf (fun i => (U (i + k)).val) k n u.val (p - k) i *
        dpt (fun i => (U i).val) p (fun i r => (P i r).val) k i r)
    (w := fun i => Nf (fun i => (U (i + k)).val) k n u.val (p - k) i *
        absDpt (fun i => (U i).val) p (fun i r => (P i r).val) k i r)
    (M := 5 * p + 1) (List.range' (j - p) (p - k + 1)) 0 0 0 0 (by
      intro i _
      have h1 := ((Err.of_near (hnear i).2 (hnear i).1).mul (dpt_err h.mono P k hk i r)).rnd
      rw [show 5 * (p - k) + 5 * k + 1 = 5 * p + 1 by omega] at h1
      exact h1) h0
  rw [zero_add, zero_add, List.length_range'] at this
  exact this.mono (by omega)

/-! ### The ends of the domain -/

namespace Fl

theorem val_ne_zero_of {a b : Fl R} (h : a.val ≠ b.val) : (a - b).val ≠ 0 := by
  rw [val_sub]
  intro h0
  have := R.rel (a.val - b.val)
  rw [h0, zero_sub, abs_neg] at this
  have hp : 0 < |a.val - b.val| := abs_pos.mpr (sub_ne_zero.mpr h)
  have := R.eps_lt_one
  nlinarith

theorem div_self' {a : Fl R} (h : a.val ≠ 0) : a / a = 1 :=
  Fl.ext (by rw [val_div, div_self h, R.one, val_one])

theorem one_mul' (a : Fl R) : 1 * a = a := Fl.ext (by rw [val_mul, val_one, one_mul, a.rep])
theorem mul_one' (a : Fl R) : a * 1 = a := Fl.ext (by rw [val_mul, val_one, mul_one, a.rep])
theorem zero_mul' (a : Fl R) : 0 * a = 0 :=
  Fl.ext (by rw [val_mul, val_zero, zero_mul, R.rnd_zero])
theorem mul_zero' (a : Fl R) : a * 0 = 0 :=
  Fl.ext (by rw [val_mul, val_zero, mul_zero, R.rnd_zero])
theorem zero_add' (a : Fl R) : 0 + a = a := Fl.ext (by rw [val_add, val_zero, zero_add, a.rep])
theorem add_zero'' (a : Fl R) : a + 0 = a := Fl.add_zero' val_zero
theorem sub_self' {a b : Fl R} (h : a.val = b.val) : a - b = 0 :=
  Fl.ext (by rw [val_sub, h, sub_self, R.rnd_zero, val_zero])
theorem zero_div' (a : Fl R) : 0 / a = 0 :=
  Fl.ext (by rw [val_div, val_zero, zero_div, R.rnd_zero])
theorem eq_of_val {a b : Fl R} (h : a.val = b.val) : a = b := Fl.ext h

end Fl

/-- the computed basis functions at the left end -/
theorem Nf_left {U : ℕ → Fl R} {k n q : ℕ} {u : Fl R} (hq : q + k ≤ n)
    (hl : ∀ i ≤ q, U i = u) (hlt : ∀ i, q < i → u.val < (U i).val) :
    ∀ m ≤ q, ∀ i, Nf U k n u m i = if i + m = q then 1 else 0 := by
  intro m
  induction m with
  | zero =>
    intro _ i
    simp only [Nf, Cmp.le, Cmp.lt, Cmp.eq, Bool.or_eq_true, Bool.and_eq_true, decide_eq_true_eq,
      add_zero]
    rcases lt_trichotomy i q with h | h | h
    · rw [if_neg, if_neg (by omega)]
      rintro (⟨-, h2⟩ | ⟨h1, -⟩)
      · rw [hl (i + 1) (by omega)] at h2; exact lt_irrefl _ h2
      · omega
    · rw [if_pos, if_pos h]
      left
      exact ⟨by rw [hl i (by omega)], hlt _ (by omega)⟩
    · rw [if_neg, if_neg (by omega)]
      rintro (⟨h1, -⟩ | ⟨-, h2⟩)
      · exact absurd (hlt i h) (not_lt.mpr h1)
      · exact absurd (hlt (n + 1 - k) (by omega)) (by rw [← h2]; exact lt_irrefl _)
  | succ m ih =>
    intro hm i
    have ih := ih (by omega)
    simp only [Nf, ih, ← add_assoc]
    have e1 : (if Cmp.eq (U (i + m + 1)) (U i) = true then (0 : Fl R) else
        (u - U i) / (U (i + m + 1) - U i) * if i + m = q then 1 else 0) = 0 := by
      split
      · rfl
      · by_cases h : i + m = q
        · rw [Fl.sub_self' (by rw [hl i (by omega)]), Fl.zero_div', Fl.zero_mul']
        · rw [if_neg h, Fl.mul_zero']
    rw [e1, Fl.zero_add']
    by_cases h : i + 1 + m = q
    · rw [if_pos h, if_pos (show i + m + 1 = q by omega), hl (i + 1) (by omega)]
      have hlt' := hlt (i + 1 + m + 1) (by omega)
      rw [if_neg (by
        simp only [Cmp.eq, decide_eq_true_eq]
        exact hlt'.ne'), Fl.div_self' (Fl.val_ne_zero_of hlt'.ne'), Fl.one_mul']
    · rw [if_neg h, if_neg (show ¬ i + m + 1 = q by omega), Fl.mul_zero']
      split <;> rfl

/-- the computed basis functions at the right end -/
theorem Nf_right {U : ℕ → Fl R} {k n : ℕ} {u : Fl R} (hk : k ≤ n)
    (hr : ∀ i, n - k < i → U i = u) (hlt : ∀ i, i ≤ n - k → (U i).val < u.val) :
    ∀ m i, Nf U k n u m i = if i = n - k then 1 else 0 := by
  intro m
  induction m with
  | zero =>
    intro i
    simp only [Nf, Cmp.le, Cmp.lt, Cmp.eq, Bool.or_eq_true, Bool.and_eq_true, decide_eq_true_eq]
    by_cases h : i = n - k
    · rw [if_pos, if_pos h]
      right
      exact ⟨by omega, by rw [hr (n + 1 - k) (by omega)]⟩
    · rw [if_neg, if_neg h]
      rintro (⟨-, h2⟩ | ⟨h1, -⟩)
      · rcases Nat.lt_or_ge i (n - k) with h3 | h3
        · exact absurd (hlt (i + 1) (by omega)) (not_lt.mpr h2.le)
        · rw [hr (i + 1) (by omega)] at h2; exact lt_irrefl _ h2
      · omega
  | succ m ih =>
    intro i
    simp only [Nf, ih, ← add_assoc]
    have e2 : (if Cmp.eq (U (i + 1 + m + 1)) (U (i + 1)) = true then (0 : Fl R) else
        (U (i + 1 + m + 1) - u) / (U (i + 1 + m + 1) - U (i + 1)) *
          if i + 1 = n - k then 1 else 0) = 0 := by
      split
      · rfl
      · by_cases h : i + 1 = n - k
        · rw [Fl.sub_self' (by rw [hr (i + 1 + m + 1) (by omega)]), Fl.zero_div', Fl.zero_mul']
        · rw [if_neg h, Fl.mul_zero']
    rw [e2, Fl.add_zero'']
    by_cases h : i = n - k
    · rw [if_pos h, hr (i + m + 1) (by omega)]
      have hlt' := hlt i (by omega)
      rw [if_neg (by
        simp only [Cmp.eq, decide_eq_true_eq]
        exact hlt'.ne'), Fl.div_self' (Fl.val_ne_zero_of hlt'.ne'), Fl.one_mul']
    · rw [if_neg h, Fl.mul_zero']
      split <;> rfl

theorem foldl_single (g : ℕ → Fl R) {i : ℕ} : ∀ (l : List ℕ), l.Nodup → i ∈ l →
    (∀ m ∈ l, m ≠ i → (g m).val = 0) → l.foldl (fun x m => x + g m) 0 = g i := by
  intro l
  induction l with
  | nil => intro _ h; simp at h
  | cons a l ih =>
    intro hn hi h
    rw [List.nodup_cons] at hn
    rw [List.foldl_cons]
    by_cases ha : a = i
    · subst ha
      rw [Fl.zero_add', foldl_zero]
      intro m hm
      exact h m (by simp [hm]) (by rintro rfl; exact hn.1 hm)
    · rw [Fl.zero_add', show g a = 0 from Fl.ext (by rw [h a (by simp) ha, Fl.val_zero])]
      exact ih hn.2 (by simpa [Ne.symm ha] using hi) (fun m hm => h m (by simp [hm]))

end BSpline
