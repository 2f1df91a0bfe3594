import Verif.Props.Float
import Verif.Props.Params
import Verif.Props.KnotGen

/-!
# Floating-point parameters and knots: C71
-/

set_option linter.unusedSectionVars false

namespace BSpline

open Finset
open Knots (partialCmpUnwrap minBy maxBy optEq sortedScan)

variable {K : Type} [Field K] [LinearOrder K] [IsStrictOrderedRing K] {R : Rounding K} {d : ℕ}

/-- a quotient of integers, as the code computes it -/
theorem ratio_near (R : Rounding K) {g m : ℕ} (hm : 1 ≤ m) :
    Near R 3 ((g : Fl R) / (m : Fl R)).val ((g : K) / (m : K)) := by
  have hm0 : (0 : K) < m := by exact_mod_cast hm
  have h1 : Near R 1 (g : Fl R).val (g : K) := (Near.refl _).rnd (Nat.cast_nonneg _)
  have h2 : Near R 1 (m : Fl R).val (m : K) := (Near.refl _).rnd (Nat.cast_nonneg _)
  exact (h1.div h2 (Nat.cast_nonneg _) hm0).rnd (div_nonneg (Nat.cast_nonneg _) hm0.le)

theorem ratio_mono (R : Rounding K) {a b m : ℕ} (hm : 1 ≤ m) (h : a ≤ b) :
    ((a : Fl R) / (m : Fl R)).val ≤ ((b : Fl R) / (m : Fl R)).val := by
  have hm0 : (0 : K) < m := by exact_mod_cast hm
  have h2 : Near R 1 (m : Fl R).val (m : K) := (Near.refl _).rnd (Nat.cast_nonneg _)
  apply R.mono
  apply div_le_div_of_nonneg_right _ (h2.pos hm0).le
  exact R.mono _ _ (by exact_mod_cast h)

theorem ratio_le_one (R : Rounding K) {a m : ℕ} (hm : 1 ≤ m) (h : a ≤ m) :
    ((a : Fl R) / (m : Fl R)).val ≤ 1 := by
  have hm0 : (0 : K) < m := by exact_mod_cast hm
  have h2 : Near R 1 (m : Fl R).val (m : K) := (Near.refl _).rnd (Nat.cast_nonneg _)
  rw [← R.one]
  apply R.mono
  rw [div_le_one (h2.pos hm0)]
  exact R.mono _ _ (by exact_mod_cast h)

/-- **C71** `equally_spaced(m)` in floating-point arithmetic: `m + 1` parameters from exactly `0` to
exactly `1`, non-decreasing, each with a relative error of at most three roundings. -/
theorem C71_equally_spaced {m : ℕ} (hm : 1 ≤ m) :
    ∃ ps : Parameters (Fl R), equallySpaced m = .ok ps ∧ ps.segments = m ∧
      ps.vector.length = m + 1 ∧ ps.vector[0]? = some 0 ∧ ps.vector[m]? = some 1 ∧
      ps.vector.Pairwise (fun x y => x.val ≤ y.val) ∧ (∀ x ∈ ps.vector, 0 ≤ x.val ∧ x.val ≤ 1) ∧
      ∀ (g : ℕ) (x : Fl R), ps.vector[g]? = some x → (g : K) / m * (1 - R.eps) ^ 3 ≤ x.val ∧
        x.val * (1 - R.eps) ^ 3 ≤ (g : K) / m := by
  have hm0 : (0 : K) < m := by exact_mod_cast hm
  set v : ℕ → Fl R := fun g => if g = m then 1 else if g = 0 then 0 else (g : Fl R) / (m : Fl R)
    with hv
  have hget : ∀ g x, ((List.range (m + 1)).map v)[g]? = some x → g ≤ m ∧ x = v g := by
    intro g x h
    rw [List.getElem?_map, Option.map_eq_some_iff] at h
    obtain ⟨a, h1, h2⟩ := h
    obtain ⟨h3, h4⟩ := List.getElem?_eq_some_iff.mp h1
    simp only [List.length_range] at h3
    rw [List.getElem_range] at h4
    exact ⟨by omega, by rw [← h2, ← h4]⟩
  have hnear : ∀ g, g ≤ m → Near R 3 (v g).val ((g : K) / m) := by
    intro g _
    simp only [hv]
    split
    · rename_i h; rw [h, div_self hm0.ne', Fl.val_one]
      exact (Near.refl _).mono zero_le_one (by omega)
    · split
      · rename_i h; rw [h, Nat.cast_zero, zero_div, Fl.val_zero]
        exact (Near.refl _).mono le_rfl (by omega)
      · exact ratio_near R hm
  have hnn : ∀ g, g ≤ m → 0 ≤ (v g).val := fun g hg =>
    (hnear g hg).nonneg (div_nonneg (Nat.cast_nonneg _) hm0.le)
  have hle : ∀ g, g ≤ m → (v g).val ≤ 1 := by
    intro g hg
    simp only [hv]
    split
    · rw [Fl.val_one]
    · split
      · rw [Fl.val_zero]; exact zero_le_one
      · exact ratio_le_one R hm hg
  refine ⟨_, equallySpaced_ok m, rfl, by simp, ?_, ?_, ?_, ?_, ?_⟩
  · rw [List.getElem?_map, List.getElem?_range (by omega), Option.map_some, if_neg (by omega),
      if_pos rfl]
  · rw [List.getElem?_map, List.getElem?_range (by omega), Option.map_some, if_pos rfl]
  · rw [List.pairwise_map]
    apply List.Pairwise.imp_of_mem _ List.pairwise_lt_range
    intro a b ha hb hab
    rw [List.mem_range] at ha hb
    change (v a).val ≤ (v b).val
    by_cases hbm : b = m
    · have : v b = 1 := by simp only [hv]; rw [if_pos hbm]
      rw [this, Fl.val_one]; exact hle a (by omega)
    · by_cases ha0 : a = 0
      · have : v a = 0 := by simp only [hv]; rw [if_neg (by omega), if_pos ha0]
        rw [this, Fl.val_zero]; exact hnn b (by omega)
      · simp only [hv]
        rw [if_neg (by omega), if_neg ha0, if_neg hbm, if_neg (by omega)]
        exact ratio_mono R hm hab.le
  · intro x hx
    obtain ⟨g, hg, rfl⟩ := List.mem_map.mp hx
    rw [List.mem_range] at hg
    exact ⟨hnn g (by omega), hle g (by omega)⟩
  · intro g x h
    obtain ⟨h1, rfl⟩ := hget g x h
    exact hnear g h1

example : ∃ ps : Parameters (Fl f64), equallySpaced 3 = .ok ps ∧ ps.vector.map Fl.val =
    [0, 6004799503160661 / 18014398509481984, 6004799503160661 / 9007199254740992, 1] :=
  ⟨_, equallySpaced_ok 3, by decide +kernel⟩

/-! ### Chord lengths -/

theorem Near.sqrt [Sqrt K] [LawfulSqrt K] {k : ℕ} {y x : K} (h : Near R k y x) (hx : 0 ≤ x) :
    Near R k (Sqrt.sqrt y) (Sqrt.sqrt x) := by
  have hy := h.nonneg hx
  have hs : ∀ {a b : K}, 0 ≤ a → 0 ≤ b → a * R.del ^ k ≤ b →
      Sqrt.sqrt a * R.del ^ k ≤ Sqrt.sqrt b := by
    intro a b ha hb hab
    have e1 := LawfulSqrt.mul_self a ha
    have e2 := LawfulSqrt.mul_self b hb
    have n1 := LawfulSqrt.nonneg a ha
    have n2 := LawfulSqrt.nonneg b hb
    have hd := R.del_pow_pos k
    have hd1 := R.del_pow_le_one k
    refine abs_le_of_sq_le_sq' (a := Sqrt.sqrt a * R.del ^ k) ?_ n2 |>.2
    have h3 : R.del ^ k * R.del ^ k ≤ R.del ^ k := mul_le_of_le_one_right hd.le hd1
    calc (Sqrt.sqrt a * R.del ^ k) ^ 2 = (Sqrt.sqrt a * Sqrt.sqrt a) * (R.del ^ k * R.del ^ k) := by ring
      _ = a * (R.del ^ k * R.del ^ k) := by rw [e1]
      _ ≤ a * R.del ^ k := mul_le_mul_of_nonneg_left h3 ha
      _ ≤ b := hab
      _ = Sqrt.sqrt b ^ 2 := by rw [sq, e2]
  exact ⟨hs hx hy h.1, hs hy hx h.2⟩

theorem abs_near (x : K) : Near R 1 |R.rnd x| |x| := by
  have h := R.rel x
  have h1 := abs_sub_abs_le_abs_sub (R.rnd x) x
  have h2 := abs_sub_abs_le_abs_sub x (R.rnd x)
  rw [abs_sub_comm] at h2
  have hx := abs_nonneg x
  have he := R.eps_nonneg
  have h4 : |R.rnd x| ≤ (1 + R.eps) * |x| := by linarith
  constructor
  · rw [pow_one, Rounding.del]; linarith
  · rw [pow_one, Rounding.del]
    have := mul_le_mul_of_nonneg_right h4 R.del_pos.le
    rw [Rounding.del] at this
    have h6 : 0 ≤ R.eps * R.eps * |x| := by positivity
    linarith [show (1 + R.eps) * |x| * (1 - R.eps) = |x| - R.eps * R.eps * |x| by ring]

/-- a sum of non-negative floating-point numbers -/
theorem fold_near {α : Type} {g : α → Fl R} {x : α → K} {k : ℕ} (hx : ∀ i, 0 ≤ x i) :
    ∀ (l : List α) (c : ℕ) (v : Fl R) (s : K), (∀ i ∈ l, Near R k (g i).val (x i)) → 0 ≤ s →
    Near R (k + c) v.val s →
    Near R (k + c + l.length) (l.foldl (fun y i => y + g i) v).val (s + (l.map x).sum) := by
  intro l
  induction l with
  | nil => intro c v s _ _ h; simpa using h
  | cons a l ih =>
    intro c v s h hs hv
    have h1 := (hv.add ((h a (by simp)).mono (hx a) (Nat.le_add_right k c))).rnd
      (add_nonneg hs (hx a))
    have := ih (c + 1) (v + g a) (s + x a) (fun i hi => h i (by simp [hi])) (add_nonneg hs (hx a)) h1
    simp only [List.foldl_cons, List.map_cons, List.sum_cons, List.length_cons]
    rw [← add_assoc s, show k + c + (l.length + 1) = k + (c + 1) + l.length by omega]
    exact this

section
variable [Sqrt K] [LawfulSqrt K]

/-- the computed distance of two points has a small relative error -/
theorem norm_near (a b : Pt (Fl R) d) :
    Near R (d + 4) (norm (b - a)).val (dist2 (fun r => (a r).val) fun r => (b r).val) := by
  have hsq : ∀ r, Near R 3 ((b - a) r * (b - a) r).val (((b r).val - (a r).val) ^ 2) := by
    intro r
    have h1 : Near R 1 |((b - a) r).val| |(b r).val - (a r).val| := abs_near _
    have h2 := (h1.mul h1 (abs_nonneg _) (abs_nonneg _)).rnd (mul_nonneg (abs_nonneg _) (abs_nonneg _))
    rw [abs_mul_abs_self, abs_mul_abs_self] at h2
    rw [sq]
    exact h2
  have hs := fold_near (R := R) (g := fun r => (b - a) r * (b - a) r)
    (x := fun r => ((b r).val - (a r).val) ^ 2) (k := 3) (fun r => sq_nonneg _) (List.finRange d) 0 0 0
    (fun r _ => hsq r) le_rfl (by rw [Fl.val_zero]; exact (Near.refl _).mono le_rfl (by omega))
  rw [zero_add, List.length_finRange, ← List.ofFn_eq_map, List.sum_ofFn] at hs
  have hnn : 0 ≤ ∑ r, ((b r).val - (a r).val) ^ 2 := sum_nonneg fun _ _ => sq_nonneg _
  have h4 := (hs.sqrt hnn).rnd (LawfulSqrt.nonneg _ hnn)
  rw [show 3 + 0 + d + 1 = d + 4 by omega] at h4
  exact h4

/-- `v` has `m + 1` entries from exactly `0` to exactly `1`; all are non-negative, they do not
decrease before the last one, and entry `g` is `Σ_{h<g} x h / Σ_{h<m} x h` up to `k` roundings. -/
structure CloseToShares (m k : ℕ) (x : ℕ → K) (v : List (Fl R)) : Prop where
  length : v.length = m + 1
  first : 1 ≤ m → v[0]? = some 0
  last : v[m]? = some 1
  nonneg : ∀ y ∈ v, 0 ≤ y.val
  mono : (v.take m).Pairwise (fun y z => y.val ≤ z.val)
  value : ∀ (g : ℕ) (y : Fl R), v[g]? = some y →
    (∑ h ∈ range g, x h) / (∑ h ∈ range m, x h) * (1 - R.eps) ^ k ≤ y.val ∧
    y.val * (1 - R.eps) ^ k ≤ (∑ h ∈ range g, x h) / (∑ h ∈ range m, x h)

theorem dist2_nonneg' (a b : Pt K d) : 0 ≤ dist2 a b :=
  LawfulSqrt.nonneg _ (sum_nonneg fun _ _ => sq_nonneg _)

theorem getD_flPts {P : List (Pt (Fl R) d)} {m i : ℕ} (hm : P.length = m + 1) (hi : i ≤ m) :
    (flPts P).getD i 0 = fun r => (fn P i r).val := by
  have : i < (flPts P).length := by simp [flPts]; omega
  rw [List.getD_eq_getElem _ _ this, ← fn_lt this]
  funext r
  exact fn_flPts P i r

/-- the cumulated parameters, if every chord is accurate to `k` roundings -/
theorem cum_near {f : Pt (Fl R) d → Fl R} {P : List (Pt (Fl R) d)} {x : ℕ → K} {k m : ℕ}
    (hx : ∀ i, 0 ≤ x i) (hf : ∀ i < m, Near R k (f (fn P (i + 1) - fn P i)).val (x i))
    (hpos : 0 < ∑ h ∈ range m, x h) {g : ℕ} (hg : g ≤ m) :
    Near R (2 * k + 2 * m + 1) (cum f P (cumTotal f P m) g).val
      ((∑ h ∈ range g, x h) / ∑ h ∈ range m, x h) := by
  have hsum : ∀ i, 0 ≤ ∑ h ∈ range i, x h := fun i => sum_nonneg fun h _ => hx h
  have htot : ∀ i ≤ m, Near R (k + i) (cumTotal f P i).val (∑ h ∈ range i, x h) := by
    intro i hi
    induction i with
    | zero => simp only [cumTotal, range_zero, sum_empty, Fl.val_zero]
              exact (Near.refl _).mono le_rfl (by omega)
    | succ i ih =>
      rw [sum_range_succ, cumTotal]
      exact ((ih (by omega)).add ((hf i (by omega)).mono (hx i) (by omega))).rnd (add_nonneg (hsum i) (hx i))
  have key : ∀ i ≤ m, Near R (2 * k + m + 1 + i) (cum f P (cumTotal f P m) i).val
      ((∑ h ∈ range i, x h) / ∑ h ∈ range m, x h) := by
    intro i hi
    induction i with
    | zero => simp only [cum, range_zero, sum_empty, Fl.val_zero, zero_div]
              exact (Near.refl _).mono le_rfl (by omega)
    | succ i ih =>
      rw [sum_range_succ, cum, add_div]
      have h1 := ((hf i (by omega)).div (htot m le_rfl) (hx i) hpos).rnd (div_nonneg (hx i) hpos.le)
      exact ((ih (by omega)).add (h1.mono (div_nonneg (hx i) hpos.le) (by omega))).rnd
        (add_nonneg (div_nonneg (hsum i) hpos.le) (div_nonneg (hx i) hpos.le))
  exact (key g hg).mono (div_nonneg (hsum g) hpos.le) (by omega)

theorem closeToShares_of_cum {f : Pt (Fl R) d → Fl R} {P : List (Pt (Fl R) d)} {x : ℕ → K} {k m : ℕ}
    (hx : ∀ i, 0 ≤ x i)
    (hf : ∀ i < m, Near R k (f (fn P (i + 1) - fn P i)).val (x i))
    (hpos : 0 < ∑ h ∈ range m, x h) :
    CloseToShares m (2 * k + 2 * m + 1) x
      ((List.range (m + 1)).map (fun i => if i = m then 1 else cum f P (cumTotal f P m) i)) := by
  have hnear : ∀ g ≤ m, Near R (2 * k + 2 * m + 1)
      (if g = m then (1 : Fl R) else cum f P (cumTotal f P m) g).val
      ((∑ h ∈ range g, x h) / ∑ h ∈ range m, x h) := by
    intro g hg
    split
    · rename_i h
      rw [h, div_self hpos.ne', Fl.val_one]
      exact (Near.refl _).mono zero_le_one (by omega)
    · exact cum_near hx hf hpos hg
  have hsh : ∀ g, 0 ≤ (∑ h ∈ range g, x h) / ∑ h ∈ range m, x h :=
    fun g => div_nonneg (sum_nonneg fun h _ => hx h) hpos.le
  have htot : 0 ≤ (cumTotal f P m).val := by
    have : ∀ i ≤ m, 0 ≤ (cumTotal f P i).val := by
      intro i hi
      induction i with
      | zero => rw [cumTotal, Fl.val_zero]
      | succ i ih => exact R.rnd_nonneg (add_nonneg (ih (by omega)) ((hf i (by omega)).nonneg (hx i)))
    exact this m le_rfl
  have hstep : ∀ i < m, (cum f P (cumTotal f P m) i).val ≤ (cum f P (cumTotal f P m) (i + 1)).val := by
    intro i hi
    rw [cum, Fl.val_add]
    have h1 : 0 ≤ (f (fn P (i + 1) - fn P i) / cumTotal f P m).val :=
      R.rnd_nonneg (div_nonneg ((hf i hi).nonneg (hx i)) htot)
    calc (cum f P (cumTotal f P m) i).val = R.rnd (cum f P (cumTotal f P m) i).val :=
          (cum f P (cumTotal f P m) i).rep.symm
      _ ≤ _ := R.mono _ _ (by linarith)
  have hmono : ∀ i j, i ≤ j → j ≤ m →
      (cum f P (cumTotal f P m) i).val ≤ (cum f P (cumTotal f P m) j).val := by
    intro i j hij
    induction j, hij using Nat.le_induction with
    | base => intro _; exact le_rfl
    | succ j hj ih => intro h; exact (ih (by omega)).trans (hstep j (by omega))
  constructor
  · simp
  · intro h1
    rw [List.getElem?_map, List.getElem?_range (by omega), Option.map_some, if_neg (by omega), cum]
  · rw [List.getElem?_map, List.getElem?_range (by omega), Option.map_some, if_pos rfl]
  · intro y hy
    obtain ⟨g, hg, rfl⟩ := List.mem_map.mp hy
    rw [List.mem_range] at hg
    exact (hnear g (by omega)).nonneg (hsh g)
  · rw [← List.map_take, List.pairwise_map, List.take_range]
    apply List.Pairwise.imp_of_mem _ List.pairwise_lt_range
    intro a b ha hb hab
    rw [List.mem_range] at ha hb
    rw [if_neg (by omega), if_neg (by omega)]
    exact hmono a b hab.le (by omega)
  · intro g y h
    rw [List.getElem?_map, Option.map_eq_some_iff] at h
    obtain ⟨a, h1, h2⟩ := h
    obtain ⟨h3, h4⟩ := List.getElem?_eq_some_iff.mp h1
    simp only [List.length_range] at h3
    rw [List.getElem_range] at h4
    subst h4; subst h2
    exact hnear g (by omega)

/-- **C71** `chord_length` in floating-point arithmetic: the computed parameters start at exactly `0`
and end at exactly `1`, are non-negative, do not decrease before the last one, and each one is the
exact share of C39 up to `2m + 2d + 9` roundings. -/
theorem C71_chord_length_partial {pts : DataPoints (Fl R) d} {m : ℕ} (hm : List.length pts = m + 1)
    (hpos : 0 < ∑ h ∈ range m, dist2 ((flPts pts).getD h 0) ((flPts pts).getD (h + 1) 0)) :
    ∃ ps : Parameters (Fl R), chordLength pts = .ok ps ∧ ps.segments = m ∧
      CloseToShares m (2 * m + 2 * d + 9)
        (fun h => dist2 ((flPts pts).getD h 0) ((flPts pts).getD (h + 1) 0)) ps.vector := by
  have hseg : DataPoints.segments pts = .ok m := by
    rw [DataPoints.segments, usub_ok (by omega)]; congr 1; omega
  rw [chordLength, hseg, ok_bind, chordSum_ok hm, ok_bind, cumulate_ok hm, ok_bind]
  refine ⟨_, rfl, rfl, ?_⟩
  have := closeToShares_of_cum (R := R) (k := d + 4) (f := norm) (fun i => dist2_nonneg' _ _)
    (fun i hi => by rw [getD_flPts hm (by omega), getD_flPts hm (by omega)]; exact norm_near _ _) hpos
  rwa [show 2 * (d + 4) + 2 * m + 1 = 2 * m + 2 * d + 9 by omega] at this

/-- **C71** `centripetal` in floating-point arithmetic, where the debug assertion holds. -/
theorem C71_centripetal_partial {pts : DataPoints (Fl R) d} {m : ℕ} (hm : List.length pts = m + 1)
    {ps : Parameters (Fl R)} (h : centripetal pts = .ok ps)
    (hpos : 0 < ∑ h ∈ range m,
      Sqrt.sqrt (dist2 ((flPts pts).getD h 0) ((flPts pts).getD (h + 1) 0))) :
    ps.segments = m ∧ CloseToShares m (2 * m + 2 * d + 11)
      (fun h => Sqrt.sqrt (dist2 ((flPts pts).getD h 0) ((flPts pts).getD (h + 1) 0))) ps.vector := by
  have hseg : DataPoints.segments pts = .ok m := by
    rw [DataPoints.segments, usub_ok (by omega)]; congr 1; omega
  rw [centripetal, hseg, ok_bind, chordSum_ok hm, ok_bind] at h
  split at h
  swap
  · rw [cumulate_ok hm, ok_bind] at h
    injection h with h
    subst h
    refine ⟨rfl, ?_⟩
    have := closeToShares_of_cum (R := R) (k := d + 5) (f := fun v => Sqrt.sqrt (norm v))
      (x := fun h => Sqrt.sqrt (dist2 ((flPts pts).getD h 0) ((flPts pts).getD (h + 1) 0)))
      (fun i => LawfulSqrt.nonneg _ (dist2_nonneg' _ _))
      (fun i hi => by
        have h1 : 0 ≤ dist2 ((flPts pts).getD i 0) ((flPts pts).getD (i + 1) 0) := dist2_nonneg' _ _
        have h2 : Near R (d + 4) (norm (fn pts (i + 1) - fn pts i)).val
            (dist2 ((flPts pts).getD i 0) ((flPts pts).getD (i + 1) 0)) := by
          rw [getD_flPts hm (by omega), getD_flPts hm (by omega)]; exact norm_near _ _
        exact (h2.sqrt h1).rnd (LawfulSqrt.nonneg _ h1)) hpos
    rwa [show 2 * (d + 5) + 2 * m + 1 = 2 * m + 2 * d + 11 by omega] at this
  · cases h

end

/-- non-vacuity: three points on a line in `f64`, over the real numbers -/
example : ∃ ps : Parameters (Fl (Rounding.binary ℝ 52)),
    chordLength [![0], ![1], ![0]] = .ok ps ∧ ps.segments = 2 ∧
    CloseToShares 2 15 (fun h => dist2 ((flPts (R := Rounding.binary ℝ 52) [![0], ![1], ![0]]).getD h 0)
      ((flPts (R := Rounding.binary ℝ 52) [![0], ![1], ![0]]).getD (h + 1) 0)) ps.vector := by
  apply C71_chord_length_partial (d := 1) (m := 2) rfl
  have e : ∀ a b : Fl (Rounding.binary ℝ 52), dist2 (fun r : Fin 1 => (![a] r).val)
      (fun r : Fin 1 => (![b] r).val) = |b.val - a.val| := by
    intro a b
    exact dist2_real_one _ _
  rw [sum_range_succ, sum_range_succ, range_zero, sum_empty, zero_add]
  have h1 := e 0 1
  have h2 := e 1 0
  rw [Fl.val_zero, Fl.val_one] at h1 h2
  refine lt_of_lt_of_eq ?_ (congrArg₂ (· + ·) h1.symm h2.symm)
  norm_num

/-! ### Knots -/

theorem map_val_genU (p n : ℕ) (f : ℕ → Fl R) :
    (genU p n f).map Fl.val = genU p n (fun j => (f j).val) := by
  rw [genU, genU, List.map_map]
  apply List.map_congr_left
  intro i _
  simp only [Function.comp]
  split
  · exact Fl.val_zero
  · split
    · rfl
    · exact Fl.val_one

/-! ### The knot predicates only compare, so they agree with the exact ones -/

theorem partialCmpUnwrap_fl (a b : Fl R) :
    partialCmpUnwrap a b = partialCmpUnwrap a.val b.val := rfl

theorem partialCmp_fold_fl (g : Ordering → Bool) (xs : List (Fl R)) (x : Fl R) :
    (xs.foldlM (fun a b => do
      let o ← partialCmpUnwrap a b
      pure (if g o then b else a)) x : Exec (Fl R)).map Fl.val =
    ((xs.map Fl.val).foldlM (fun a b => do
      let o ← partialCmpUnwrap a b
      pure (if g o then b else a)) x.val : Exec K) := by
  induction xs generalizing x with
  | nil => rfl
  | cons y ys ih =>
    rw [List.map_cons, List.foldlM_cons, List.foldlM_cons, ← partialCmpUnwrap_fl]
    rcases h : partialCmpUnwrap x y with e | o
    · rfl
    · simp only [ok_bind]
      have hp : ∀ (X : Type) (z : X), (pure z : Exec X) = .ok z := fun _ _ => rfl
      rw [hp, hp, ok_bind, ok_bind, ih, apply_ite Fl.val]

theorem minBy_fl (v : List (Fl R)) : (minBy v).map (Option.map Fl.val) = minBy (v.map Fl.val) := by
  cases v with
  | nil => rfl
  | cons x xs =>
    have := partialCmp_fold_fl (R := R) (fun o => decide (o = .gt)) xs x
    simp only [decide_eq_true_eq] at this
    rw [List.map_cons, minBy, minBy, ← this]
    cases (xs.foldlM _ x : Exec (Fl R)) <;> rfl

theorem maxBy_fl (v : List (Fl R)) : (maxBy v).map (Option.map Fl.val) = maxBy (v.map Fl.val) := by
  cases v with
  | nil => rfl
  | cons x xs =>
    have := partialCmp_fold_fl (R := R) (fun o => decide (o ≠ .gt)) xs x
    simp only [decide_eq_true_eq, ne_eq, ite_not] at this
    rw [List.map_cons, maxBy, maxBy, ← this]
    cases (xs.foldlM _ x : Exec (Fl R)) <;> rfl

theorem optEq_fl (o : Option (Fl R)) (x : Fl R) : optEq o x = optEq (o.map Fl.val) x.val := by
  cases o <;> rfl

theorem isNormed_fl {kn : Knots (Fl R)} {kn' : Knots K} {U : List (Fl R)} (h : kn.vector = .ok U)
    (h' : kn'.vector = .ok (U.map Fl.val)) : kn.isNormed = kn'.isNormed := by
  rw [Knots.isNormed, Knots.isNormed, h, h', ok_bind, ok_bind, ← minBy_fl, ← maxBy_fl]
  rcases minBy U with e | mn
  · rfl
  · rcases maxBy U with e | mx
    · rfl
    · change Except.ok _ = Except.ok _
      rw [optEq_fl, optEq_fl, Fl.val_zero, Fl.val_one]

theorem sortedScan_fl (x : Fl R) (v : List (Fl R)) :
    sortedScan x v = sortedScan x.val (v.map Fl.val) := by
  induction v generalizing x with
  | nil => rfl
  | cons y ys ih => rw [List.map_cons, sortedScan, sortedScan, ih]; rfl

theorem isSorted_fl {kn : Knots (Fl R)} {kn' : Knots K} {U : List (Fl R)} (h : kn.vector = .ok U)
    (h' : kn'.vector = .ok (U.map Fl.val)) : kn.isSorted = kn'.isSorted := by
  rw [Knots.vector] at h h'
  rw [Knots.isSorted, Knots.isSorted, h, h', ok_bind, ok_bind]
  cases U with
  | nil => rfl
  | cons x xs => rw [List.map_cons]; dsimp only; rw [sortedScan_fl]

theorem isClamped_fl {kn : Knots (Fl R)} {kn' : Knots K} {U : List (Fl R)} (h : kn.vector = .ok U)
    (h' : kn'.vector = .ok (U.map Fl.val)) (hp : kn.p = kn'.p) : kn.isClamped = kn'.isClamped := by
  rw [Knots.isClamped, Knots.isClamped, h, h', ok_bind, ok_bind, hp]
  simp only [← List.map_reverse, ← List.map_take, List.all_map]
  have h0 : (fun u : Fl R => Cmp.eq u 0) = (fun u : K => Cmp.eq u 0) ∘ Fl.val := by
    funext u
    change decide (u.val = (0 : Fl R).val) = decide (u.val = 0)
    rw [Fl.val_zero]
  have h1 : (fun u : Fl R => Cmp.eq u 1) = (fun u : K => Cmp.eq u 1) ∘ Fl.val := by
    funext u
    change decide (u.val = (1 : Fl R).val) = decide (u.val = 1)
    rw [Fl.val_one]
  rw [h0, h1]

/-- **C71** `uniform(p, n)` in floating-point arithmetic, with at most `1 / (6 eps)` domain intervals
(about `1.5 · 10^15` for `f64`): the result is a valid clamped knot vector on exactly `[0, 1]`, its
domain knots are strictly increasing, and the `j`-th one is `j / (n - p + 1)` up to three roundings.
`is_uniform`, `is_clamped`, `is_normed` and `is_sorted` accept it. -/
theorem C71_uniform {p n : ℕ} (h1 : 1 ≤ p) (h2 : p ≤ n)
    (hn : 6 * ((n - p + 1 : ℕ) : K) * R.eps < 1) :
    ∃ (kn : Knots (Fl R)) (U : List (Fl R)), uniform p n = .ok (.ok kn) ∧ kn.vector = .ok U ∧
      ClampedKnots 0 1 p n (U.map Fl.val) ∧
      (∀ (j : ℕ) (x y : Fl R), j ≤ n - p → U[p + j]? = some x → U[p + j + 1]? = some y →
        x.val < y.val) ∧
      (∀ (j : ℕ) (x : Fl R), j ≤ n - p + 1 → U[p + j]? = some x →
        (j : K) / ((n - p + 1 : ℕ) : K) * (1 - R.eps) ^ 3 ≤ x.val ∧
        x.val * (1 - R.eps) ^ 3 ≤ (j : K) / ((n - p + 1 : ℕ) : K)) ∧
      isUniform kn = .ok (.ok true) ∧ kn.isClamped = .ok true ∧ kn.isNormed = .ok true ∧
      kn.isSorted = .ok true := by
  set m := n - p + 1 with hm
  have hm0 : (0 : K) < (m : ℕ) := by exact_mod_cast Nat.succ_pos _
  have hk : ∀ j, Near R 3 (uniK (K := Fl R) p n j).val ((j : K) / (m : K)) := fun j =>
    ratio_near R (by omega)
  have hd0 := R.del_pos
  -- two neighbours stay apart
  have hsep : ∀ j, j + 1 ≤ m → (j : K) / m < ((j + 1 : ℕ) : K) / m * R.del ^ 3 * R.del ^ 3 := by
    intro j hj
    have hb : 1 - 6 * R.eps ≤ R.del ^ 6 := by
      have := one_add_mul_le_pow (a := -R.eps) (by linarith [R.eps_lt_one]) 6
      rw [Rounding.del]
      calc 1 - 6 * R.eps = 1 + ((6 : ℕ) : K) * -R.eps := by push_cast; ring
        _ ≤ _ := this
        _ = _ := by ring
    have hj' : ((j + 1 : ℕ) : K) ≤ (m : K) := by exact_mod_cast hj
    rw [mul_assoc, ← pow_add, div_mul_eq_mul_div, div_lt_div_iff_of_pos_right hm0]
    have hj0 : (0 : K) ≤ ((j + 1 : ℕ) : K) := Nat.cast_nonneg _
    have h3 := mul_le_mul_of_nonneg_left hb hj0
    have h4 := mul_le_mul_of_nonneg_right hj' R.eps_nonneg
    push_cast at h3 h4 ⊢
    linarith
  have hlt : ∀ j, j + 1 ≤ m → ∀ y : K, Near R 3 y (((j + 1 : ℕ) : K) / m) →
      (uniK (K := Fl R) p n j).val < y := by
    intro j hj y hy
    have h3 := (hk j).2
    have h4 := hsep j hj
    have h5 := mul_le_mul_of_nonneg_right hy.1 (pow_pos hd0 3).le
    exact lt_of_mul_lt_mul_right (lt_of_le_of_lt h3 (lt_of_lt_of_le h4 h5)) (pow_pos hd0 3).le
  have hone : Near R 3 1 (((m - 1 + 1 : ℕ) : K) / m) := by
    rw [show m - 1 + 1 = m by omega, div_self hm0.ne']
    exact (Near.refl _).mono zero_le_one (by omega)
  have hin : ∀ j, 1 ≤ j → j ≤ n - p →
      0 < (uniK (K := Fl R) p n j).val ∧ (uniK (K := Fl R) p n j).val < 1 := by
    intro j hj1 hj2
    refine ⟨(hk j).pos (div_pos (by exact_mod_cast hj1) hm0), ?_⟩
    exact lt_of_le_of_lt (ratio_mono R (by omega) (show j ≤ m - 1 by omega))
      (hlt (m - 1) (by omega) 1 hone)
  have hU : ClampedKnots 0 1 p n ((genU p n (uniK (K := Fl R) p n)).map Fl.val) := by
    rw [map_val_genU]
    apply genU_clamped h2 hin
    intro j hj1 hj2
    exact ratio_mono R (by omega) (by omega)
  have hU0 := uniform_ok (K := Fl R) h1 h2
  -- the domain knots
  have hget : ∀ (j : ℕ) (x : Fl R), j ≤ m → (genU p n (uniK (K := Fl R) p n))[p + j]? = some x →
      Near R 3 x.val ((j : K) / m) := by
    intro j x hj hx
    rw [genU, List.getElem?_map, List.getElem?_range (by omega), Option.map_some] at hx
    injection hx with hx
    subst hx
    split
    · rename_i h
      have : j = 0 := by omega
      subst this
      rw [Nat.cast_zero, zero_div, Fl.val_zero]; exact (Near.refl _).mono le_rfl (by omega)
    · split
      · rw [Nat.add_sub_cancel_left]; exact hk j
      · have : j = m := by omega
        subst this
        rw [div_self hm0.ne', Fl.val_one]; exact (Near.refl _).mono zero_le_one (by omega)
  refine ⟨_, _, hU0, canonKnots_vector _, hU, ?_, hget, ?_, ?_, ?_, ?_⟩
  · intro j x y hj hx hy
    have hxj := hget j x (by omega) hx
    have hyj := hget (j + 1) y (by omega) hy
    have h4 := hsep j (by omega)
    have h5 := mul_le_mul_of_nonneg_right hyj.1 (pow_pos hd0 3).le
    exact lt_of_mul_lt_mul_right (lt_of_le_of_lt hxj.2 (lt_of_lt_of_le h4 h5)) (pow_pos hd0 3).le
  · have hl : (genU p n (uniK (K := Fl R) p n)).length = n + p + 2 := genU_length ..
    rw [isUniform, canonKnots_vector, ok_bind, canonKnots_segments hl, ok_bind, canonKnots_degree,
      hU0, ok_bind]
    dsimp only
    rw [canonKnots_vector, ok_bind]
    have : vecEq (genU p n (uniK (K := Fl R) p n)) (genU p n (uniK p n)) = true := by
      rw [vecEq, List.zipWith_self]
      simp only [BEq.rfl, Bool.true_and, List.all_map, List.all_eq_true]
      intro x _
      exact decide_eq_true rfl
    rw [this]; rfl
  · rw [isClamped_fl (canonKnots_vector _) (canonKnots_vector (p := p) _) rfl]
    exact (C50_valid (canonKnots_vector _) rfl hU).2.1
  · rw [isNormed_fl (canonKnots_vector _) (canonKnots_vector (p := p) _)]
    exact (C50_valid (canonKnots_vector _) rfl hU).2.2
  · rw [isSorted_fl (canonKnots_vector _) (canonKnots_vector (p := p) _)]
    exact (C50_valid (canonKnots_vector _) rfl hU).1

/-- non-vacuity: three intervals in `f64`; one third is not representable -/
example : 6 * ((4 - 2 + 1 : ℕ) : ℚ) * f64.eps < 1 ∧ ∃ kn : Knots (Fl f64), uniform 2 4 = .ok (.ok kn) ∧
    (kn.vector.map (List.map Fl.val)) = .ok [0, 0, 0, 6004799503160661 / 18014398509481984,
      6004799503160661 / 9007199254740992, 1, 1, 1] :=
  ⟨by decide +kernel, _, uniform_ok (by omega) (by omega), by decide +kernel⟩

/-! ### The parameters of `chord_length` and `centripetal` need not be sorted -/

section Counterexample

/-- a square root that is right on the squares of rational numbers -/
local instance ratSqrt : Sqrt ℚ := ⟨fun x => (Nat.sqrt x.num.toNat : ℚ) / (Nat.sqrt x.den : ℚ)⟩

/-- five data points on a line, with chords `6`, `23`, `1` and `2^-60` -/
def badPts : DataPoints (Fl f64) 1 :=
  [![Fl.of f64 (-30)], ![Fl.of f64 (-24)], ![Fl.of f64 (-1)], ![0], ![Fl.of f64 ((1 / 2) ^ 60)]]

/-- the same with chords `36`, `529`, `1` and `2^-120` -/
def badPts' : DataPoints (Fl f64) 1 :=
  [![Fl.of f64 (-566)], ![Fl.of f64 (-530)], ![Fl.of f64 (-1)], ![0], ![Fl.of f64 ((1 / 2) ^ 120)]]

theorem ratSqrt_mul_self (x : ℚ) (hx : 0 ≤ x) : Sqrt.sqrt (x * x) = x := by
  change (Nat.sqrt (x * x).num.toNat : ℚ) / (Nat.sqrt (x * x).den : ℚ) = x
  rw [Rat.mul_self_num, Rat.mul_self_den, Nat.sqrt_eq]
  obtain ⟨a, ha⟩ := Int.eq_ofNat_of_zero_le (Rat.num_nonneg.mpr hx)
  rw [ha, show ((a : ℤ) * (a : ℤ)).toNat = a * a by norm_cast, Nat.sqrt_eq]
  conv_rhs => rw [← Rat.num_div_den x, ha]
  rfl

/-- What one expects: in `f64`, `chord_length` and `centripetal` return non-decreasing parameters,
whichever square root is used, if it is right on squares. -/
def C71_full : Prop := ∀ (S : Sqrt ℚ), (∀ x : ℚ, 0 ≤ x → S.sqrt (x * x) = x) →
  ∀ (pts : DataPoints (Fl f64) 1) (ps : Parameters (Fl f64)),
    (chordLength pts = .ok ps ∨ centripetal pts = .ok ps) →
      ps.vector.Pairwise (fun y z => y.val ≤ z.val)

theorem badPts_params : (chordLength badPts).map (fun ps => ps.vector.map Fl.val) =
    .ok [0, 3602879701896397 / 18014398509481984, 544184954973935 / 562949953421312,
      4503599627370497 / 4503599627370496, 1] := by decide +kernel

theorem badPts'_params : (centripetal badPts').map (fun ps => ps.vector.map Fl.val) =
    .ok [0, 3602879701896397 / 18014398509481984, 544184954973935 / 562949953421312,
      4503599627370497 / 4503599627370496, 1] := by decide +kernel

/-- **C71** The parameter before the last one can exceed `1`: the shares `6/30`, `23/30`, `1/30` are
rounded up and add up to `1 + 2^-52`; the last chord `2^-60` has no influence on the sum, and the
last parameter is set to `1`. -/
theorem C71_full_false : ¬ C71_full := by
  intro h
  rcases hc : chordLength badPts with e | ps
  · have := badPts_params; rw [hc] at this; cases this
  · have h1 := h ratSqrt ratSqrt_mul_self badPts ps (.inl hc)
    have h2 := badPts_params
    rw [hc] at h2
    have h3 : ps.vector.map Fl.val = _ := Except.ok.inj h2
    have h4 := (List.pairwise_map (f := Fl.val) (R := fun y z => y ≤ z)).mpr h1
    rw [h3] at h4
    revert h4
    decide +kernel

/-- whether the knots of a generated curve are sorted, and its value at `1` -/
def observe (x : Exec (Except (CurveError (Fl f64)) (Curve (Fl f64) 1))) : Option (Bool × ℚ) :=
  match x with
  | .ok (.ok c) =>
    match c.knots.isSorted, c.evaluate 1 with
    | .ok b, .ok (.ok v) => some (b, (v 0).val)
    | _, _ => none
  | _ => none

theorem observe_ok {x : Exec (Except (CurveError (Fl f64)) (Curve (Fl f64) 1))} {b : Bool} {y : ℚ}
    (h : observe x = some (b, y)) : ∃ (c : Curve (Fl f64) 1) (v : Pt (Fl f64) 1),
      x = .ok (.ok c) ∧ c.knots.isSorted = .ok b ∧ c.evaluate 1 = .ok (.ok v) ∧ (v 0).val = y := by
  unfold observe at h
  split at h
  · rename_i c
    split at h
    · rename_i b' v h1 h2
      injection h with h
      injection h with h3 h4
      exact ⟨c, v, rfl, by rw [h1, h3], h2, h4⟩
    · cases h
  · cases h

/-- **C71** Consequence: `generate` with these control points, degree `1` and the knots of
`chord_length` and `averaging` succeeds and returns a curve whose knots are not sorted; at `1` it
does not reach its last control point, not even up to the sign. -/
theorem C71_generate_unsorted (solver : Solver (Fl f64) 1) :
    ∃ (c : Curve (Fl f64) 1) (v : Pt (Fl f64) 1), generate solver (.manual 1
        (ControlPoints.new badPts) (.method .chordLength .averaging)) = .ok (.ok c) ∧
      c.knots.isSorted = .ok false ∧ c.evaluate 1 = .ok (.ok v) ∧ (v 0).val < 0 ∧
      ∀ w ∈ badPts.getLast?, 0 < (w 0).val := by
  have h : observe (do
      let data ← (ControlPoints.new badPts).matrix
      let knots ← generateManualKnots 1 4 data (.method .chordLength .averaging)
      match knots with
      | .error e => pure (.error e)
      | .ok knots => Curve.new knots (ControlPoints.new badPts)) =
        some (false, -4221574894845939 / 633825300114114700748351602688) := by decide +kernel
  obtain ⟨c, v, h1, h2, h3, h4⟩ := observe_ok h
  exact ⟨c, v, h1, h2, h3, by rw [h4]; norm_num, by decide +kernel⟩

end Counterexample

end BSpline
