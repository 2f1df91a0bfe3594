import Verif.Props.KnotGen
import Mathlib.Algebra.BigOperators.Fin
import Mathlib.Algebra.BigOperators.Field

/-!
# Parameter generation: C39
-/

set_option linter.unusedSectionVars false

namespace BSpline

open Finset

section LawFree
variable {K : Type} [Add K] [Sub K] [Mul K] [Div K] [Neg K] [Zero K] [One K] [NatCast K] [Cmp K]
variable {d : ℕ}

theorem equallySpaced_ok (m : ℕ) : equallySpaced (K := K) m = .ok
    ⟨(List.range (m + 1)).map (fun g => if g = m then 1 else if g = 0 then 0 else (g : K) / (m : K)), m⟩ := by
  have key : forRange 1 m (zeros (m + 1)) (fun u g => setIdx u g ((g : K) / (m : K))) =
      .ok ((List.range (m + 1)).map (fun i : ℕ => if 1 ≤ i ∧ i < m then (i : K) / (m : K) else 0)) := by
    have h0 : (List.range (m + 1)).map (fun i : ℕ => if 1 ≤ i ∧ i < 1 then (i : K) / (m : K) else 0) =
        zeros (m + 1) := by
      apply List.ext_getElem (by simp [zeros])
      intro i _ _
      simp only [List.getElem_map, List.getElem_range, zeros, List.getElem_replicate]
      rw [if_neg (by omega)]
    rw [← h0]
    by_cases hm : 1 ≤ m
    · have := forRange_inv (lo := 1) (hi := m) (f := fun u g => setIdx u g ((g : K) / (m : K)))
        (S := fun j => (List.range (m + 1)).map
          (fun i : ℕ => if 1 ≤ i ∧ i < j then (i : K) / (m : K) else 0)) hm (by
          intro j h1 h2
          rw [setIdx_ok (by simp; omega), set_map_range]
          congr 1
          apply List.map_congr_left
          intro i _
          by_cases e : j = i
          · subst e; rw [if_pos rfl, if_pos ⟨h1, by omega⟩]
          · rw [if_neg e]
            by_cases e2 : 1 ≤ i ∧ i < j
            · rw [if_pos e2, if_pos ⟨e2.1, by omega⟩]
            · rw [if_neg e2, if_neg (by omega)])
      exact this
    · rw [forRange_empty _ (by omega)]
      congr 1
      apply List.map_congr_left
      intro i _
      rw [if_neg (by omega), if_neg (by omega)]
  rw [equallySpaced]
  rw [key, ok_bind, setIdx_ok (by simp), ok_bind, set_map_range]
  simp only [pure_ok]
  congr 2
  apply List.map_congr_left
  intro i hi
  rw [List.mem_range] at hi
  by_cases e : m = i
  · rw [if_pos e, if_pos e.symm]
  · rw [if_neg e, if_neg (Ne.symm e)]
    by_cases e0 : i = 0
    · rw [if_pos e0, if_neg (by omega)]
    · rw [if_neg e0, if_pos ⟨by omega, by omega⟩]

/-- `Σ_{h = 1}^{i} f(chord h) / sum`, in the order of the code -/
def cum (f : Pt K d → K) (pts : List (Pt K d)) (sum : K) : ℕ → K
  | 0 => 0
  | i + 1 => cum f pts sum i + f (fn pts (i + 1) - fn pts i) / sum

theorem chord_ok {pts : DataPoints K d} {g : ℕ} (h : g < List.length pts) (hg : 1 ≤ g) :
    chord pts g = .ok (fn pts g - fn pts (g - 1)) := by
  rw [chord, column_ok h, ok_bind, column_ok (by omega), ok_bind]; rfl

theorem cumulate_ok {pts : DataPoints K d} {m : ℕ} (hm : List.length pts = m + 1) (f : Pt K d → K)
    (sum : K) : cumulate f pts m sum =
      .ok ((List.range (m + 1)).map (fun i => if i = m then 1 else cum f pts sum i)) := by
  rw [cumulate]
  have h0 : (List.range (m + 1)).map (fun i => if i < 1 then cum f pts sum i else 0) =
      zeros (m + 1) := by
    apply List.ext_getElem (by simp [zeros])
    intro i _ _
    simp only [List.getElem_map, List.getElem_range, zeros, List.getElem_replicate]
    split
    · rename_i h; rw [show i = 0 by omega, cum]
    · rfl
  have key : forRange 1 m (zeros (m + 1)) (fun u g => do
      let diff ← chord pts g
      let prev ← idx u (g - 1)
      setIdx u g (prev + f diff / sum)) =
      .ok ((List.range (m + 1)).map (fun i => if i < max 1 m then cum f pts sum i else 0)) := by
    rw [← h0]
    by_cases h1m : 1 ≤ m
    · rw [Nat.max_eq_right h1m]
      exact forRange_inv (lo := 1) (hi := m) (S := fun j => (List.range (m + 1)).map
          (fun i => if i < j then cum f pts sum i else 0)) h1m (by
          intro j h1 h2
          rw [chord_ok (by omega) h1, ok_bind, idx_ok (by simp; omega), ok_bind,
            fn_map_range _ (by omega), if_pos (by omega), setIdx_ok (by simp; omega), set_map_range]
          congr 1
          apply List.map_congr_left
          intro i _
          by_cases e : j = i
          · subst e; rw [if_pos rfl, if_pos (by omega)]
            obtain ⟨k, rfl⟩ : ∃ k, j = k + 1 := ⟨j - 1, by omega⟩
            rfl
          · rw [if_neg e]
            by_cases e2 : i < j
            · rw [if_pos e2, if_pos (by omega)]
            · rw [if_neg e2, if_neg (by omega)])
    · rw [forRange_empty _ (by omega)]
      congr 1
      apply List.map_congr_left
      intro i hi
      rw [Nat.max_eq_left (by omega)]
  rw [key, ok_bind, setIdx_ok (by simp), set_map_range]
  congr 1
  apply List.map_congr_left
  intro i hi
  rw [List.mem_range] at hi
  by_cases e : m = i
  · rw [if_pos e, if_pos e.symm]
  · rw [if_neg e, if_neg (Ne.symm e), if_pos (by omega)]

/-- `Σ_{g = 1}^{m} f(chord g)`, in the order of the code -/
def cumTotal (f : Pt K d → K) (pts : List (Pt K d)) : ℕ → K
  | 0 => 0
  | i + 1 => cumTotal f pts i + f (fn pts (i + 1) - fn pts i)

theorem chordSum_ok {pts : DataPoints K d} {m : ℕ} (hm : List.length pts = m + 1) (f : Pt K d → K) :
    chordSum f pts m = .ok (cumTotal f pts m) := by
  have := forRangeIncl_inv (lo := 1) (hi := m) (S := fun j => cumTotal f pts (j - 1))
    (f := fun sum g => do
      let diff ← chord pts g
      pure (sum + f diff)) (by omega) (by
      intro i h1 h2
      rw [chord_ok (by omega) h1, ok_bind, pure_ok]
      obtain ⟨k, rfl⟩ : ∃ k, i = k + 1 := ⟨i - 1, by omega⟩
      rfl)
  exact this

end LawFree

variable {K : Type} [Field K] [LinearOrder K] [IsStrictOrderedRing K] {d : ℕ}

/-- **C39** `equally_spaced(m)` for `m ≥ 1`: `m + 1` parameters `g / m`, from `0` to `1`, strictly
increasing. -/
theorem C39_equally_spaced {m : ℕ} (hm : 1 ≤ m) :
    ∃ ps : Parameters K, equallySpaced m = .ok ps ∧ ps.segments = m ∧ ps.vector.length = m + 1 ∧
      (∀ g, g ≤ m → ps.vector[g]? = some ((g : K) / (m : K))) ∧
      ps.vector[0]? = some 0 ∧ ps.vector[m]? = some 1 ∧ ps.vector.Pairwise (· < ·) := by
  have hm0 : (0 : K) < (m : K) := by exact_mod_cast hm
  have key : ∀ g, g ≤ m → (if g = m then 1 else if g = 0 then 0 else (g : K) / (m : K)) =
      (g : K) / (m : K) := by
    intro g hg
    split
    · rename_i h; rw [h, div_self hm0.ne']
    · split
      · rename_i h; rw [h]; simp
      · rfl
  have hget : ∀ g (hg : g < m + 1), ((List.range (m + 1)).map (fun g => if g = m then (1 : K) else
      if g = 0 then 0 else (g : K) / (m : K)))[g]? = some ((g : K) / (m : K)) := by
    intro g hg
    rw [List.getElem?_eq_getElem (by simpa using hg), List.getElem_map, List.getElem_range,
      key g (by omega)]
  refine ⟨_, equallySpaced_ok m, rfl, by simp, fun g hg => hget g (by omega), ?_, ?_, ?_⟩
  · rw [hget 0 (by omega)]; simp
  · rw [hget m (by omega), div_self hm0.ne']
  · rw [List.pairwise_map]
    apply List.Pairwise.imp_of_mem _ List.pairwise_lt_range
    intro a b ha hb hab
    rw [List.mem_range] at ha hb
    rw [key a (by omega), key b (by omega)]
    exact div_lt_div_of_pos_right (by exact_mod_cast hab) hm0

/-- non-vacuity -/
example : equallySpaced 4 = .ok (⟨[0, 1 / 4, 1 / 2, 3 / 4, 1], 4⟩ : Parameters ℚ) := by decide +kernel

theorem cum_eq (f : Pt K d → K) (pts : List (Pt K d)) (s : K) (i : ℕ) :
    cum f pts s i = (∑ h ∈ range i, f (fn pts (h + 1) - fn pts h)) / s := by
  induction i with
  | zero => simp [cum]
  | succ i ih => rw [cum, ih, sum_range_succ, add_div]

theorem cumTotal_eq (f : Pt K d → K) (pts : List (Pt K d)) (i : ℕ) :
    cumTotal f pts i = ∑ h ∈ range i, f (fn pts (h + 1) - fn pts h) := by
  induction i with
  | zero => simp [cumTotal]
  | succ i ih => rw [cumTotal, ih, sum_range_succ]

/-- what the caller sees of a cumulated parameter vector: the `g`-th parameter is the share of the
first `g` chords (measured by `w`) in the total -/
structure Proportional (pts : List (Pt K d)) (m : ℕ) (w : Pt K d → Pt K d → K) (v : List K) :
    Prop where
  length : v.length = m + 1
  value : ∀ g, g ≤ m → v[g]? = some ((∑ h ∈ range g, w (pts.getD h 0) (pts.getD (h + 1) 0)) /
    (∑ h ∈ range m, w (pts.getD h 0) (pts.getD (h + 1) 0)))
  first : v[0]? = some 0
  last : v[m]? = some 1
  mono : v.Pairwise (· ≤ ·)
  strict : ∀ g, g < m → pts.getD g 0 ≠ pts.getD (g + 1) 0 → v.getD g 0 < v.getD (g + 1) 0

theorem proportional_of_cum {pts : List (Pt K d)} {m : ℕ} (hm : pts.length = m + 1)
    {f : Pt K d → K} {w : Pt K d → Pt K d → K} (hw : ∀ a b, w a b = f (b - a))
    (hf : ∀ v, 0 ≤ f v) (hf' : ∀ v, v ≠ 0 → 0 < f v) (hpos : 0 < cumTotal f pts m) :
    Proportional pts m w ((List.range (m + 1)).map
      (fun i => if i = m then 1 else cum f pts (cumTotal f pts m) i)) := by
  have hget : ∀ i, i ≤ m → pts.getD i 0 = fn pts i := by
    intro i hi
    rw [List.getD_eq_getElem _ _ (by omega), ← fn_lt]
  set L := cumTotal f pts m with hL
  have hval : ∀ g, g ≤ m → (if g = m then 1 else cum f pts L g) = cumTotal f pts g / L := by
    intro g hg
    split
    · rename_i h; rw [h, ← hL, div_self hpos.ne']
    · rw [cum_eq, cumTotal_eq]
  have hw' : ∀ g, g ≤ m → ∑ h ∈ range g, w (pts.getD h 0) (pts.getD (h + 1) 0) = cumTotal f pts g := by
    intro g hg
    rw [cumTotal_eq]
    apply sum_congr rfl
    intro h hh
    rw [mem_range] at hh
    rw [hw, hget _ (by omega), hget _ (by omega)]
  have hstep : ∀ g, cumTotal f pts g ≤ cumTotal f pts (g + 1) := by
    intro g; rw [cumTotal]; linarith [hf (fn pts (g + 1) - fn pts g)]
  have hmono : Monotone (cumTotal f pts) := monotone_nat_of_le_succ hstep
  have hv : ∀ g, g ≤ m → ((List.range (m + 1)).map
      (fun i => if i = m then 1 else cum f pts L i))[g]? = some (cumTotal f pts g / L) := by
    intro g hg
    rw [List.getElem?_eq_getElem (by simp; omega), List.getElem_map, List.getElem_range, hval g hg]
  constructor
  · simp
  · intro g hg
    rw [hv g hg, hw' g hg, hw' m le_rfl]
  · rw [hv 0 (by omega)]; simp [cumTotal]
  · rw [hv m le_rfl, ← hL, div_self hpos.ne']
  · rw [List.pairwise_map]
    apply List.Pairwise.imp_of_mem _ List.pairwise_lt_range
    intro a b ha hb hab
    rw [List.mem_range] at ha hb
    rw [hval a (by omega), hval b (by omega)]
    exact div_le_div_of_nonneg_right (hmono hab.le) hpos.le
  · intro g hg hne
    rw [List.getD_eq_getElem?_getD, List.getD_eq_getElem?_getD, hv g (by omega), hv (g + 1) (by omega)]
    simp only [Option.getD_some]
    apply div_lt_div_of_pos_right _ hpos
    rw [cumTotal]
    have := hf' (fn pts (g + 1) - fn pts g) (by
      rw [hget g (by omega), hget (g + 1) (by omega)] at hne
      exact sub_ne_zero.mpr (Ne.symm hne))
    linarith

section
variable [Sqrt K] [LawfulSqrt K]

/-- Euclidean distance -/
def dist2 (a b : Pt K d) : K := Sqrt.sqrt (∑ r, (b r - a r) ^ 2)

theorem norm_eq (v : Pt K d) : norm v = Sqrt.sqrt (∑ r, v r ^ 2) := by
  rw [norm]
  congr 1
  have : ∀ (l : List (Fin d)) (s : K), l.foldl (fun s r => s + v r * v r) s =
      s + (l.map (fun r => v r ^ 2)).sum := by
    intro l
    induction l with
    | nil => intro s; simp
    | cons a l ih => intro s; rw [List.foldl_cons, ih, List.map_cons, List.sum_cons]; ring
  rw [this, zero_add, ← List.ofFn_eq_map, List.sum_ofFn]

theorem sqsum_nonneg (v : Pt K d) : 0 ≤ ∑ r, v r ^ 2 := sum_nonneg (fun _ _ => sq_nonneg _)

theorem sqsum_pos {v : Pt K d} (h : v ≠ 0) : 0 < ∑ r, v r ^ 2 := by
  obtain ⟨r, hr⟩ : ∃ r, v r ≠ 0 := by
    by_contra hc
    push Not at hc
    exact h (funext hc)
  exact sum_pos' (fun _ _ => sq_nonneg _) ⟨r, mem_univ _, by positivity⟩

theorem sqrt_pos' {x : K} (h : 0 < x) : 0 < Sqrt.sqrt x := by
  rcases (LawfulSqrt.nonneg x h.le).lt_or_eq with h1 | h1
  · exact h1
  · have := LawfulSqrt.mul_self x h.le
    rw [← h1] at this
    simp at this
    exact absurd this h.ne

theorem norm_nonneg (v : Pt K d) : 0 ≤ norm v := by
  rw [norm_eq]; exact LawfulSqrt.nonneg _ (sqsum_nonneg v)

theorem norm_pos {v : Pt K d} (h : v ≠ 0) : 0 < norm v := by
  rw [norm_eq]; exact sqrt_pos' (sqsum_pos h)

theorem dist2_eq (a b : Pt K d) : dist2 a b = norm (b - a) := by rw [norm_eq]; rfl

/-- **C39** `chord_length`: for a point sequence of positive total length, the increments of the
parameters are proportional to the Euclidean distances of consecutive points. -/
theorem C39_chord_length {pts : DataPoints K d} {m : ℕ} (hm : List.length pts = m + 1)
    (hpos : 0 < ∑ h ∈ range m, dist2 (pts.getD h 0) (pts.getD (h + 1) 0)) :
    ∃ ps : Parameters K, chordLength pts = .ok ps ∧ ps.segments = m ∧
      Proportional pts m dist2 ps.vector := by
  have hseg : DataPoints.segments pts = .ok m := by
    rw [DataPoints.segments, usub_ok (by omega)]; congr 1; omega
  have hget : ∀ i, i ≤ m → pts.getD i 0 = fn pts i := by
    intro i hi
    rw [List.getD_eq_getElem _ _ (by omega), ← fn_lt]
  have hpos' : 0 < cumTotal norm pts m := by
    rw [cumTotal_eq]
    refine lt_of_lt_of_eq hpos (sum_congr rfl ?_)
    intro h hh
    rw [mem_range] at hh
    rw [dist2_eq, hget _ (by omega), hget _ (by omega)]
  rw [chordLength, hseg, ok_bind, chordSum_ok hm, ok_bind, cumulate_ok hm, ok_bind]
  exact ⟨_, rfl, rfl, proportional_of_cum hm dist2_eq norm_nonneg (fun v hv => norm_pos hv) hpos'⟩

/-- The full claim C39 for `centripetal`. -/
def C39_centripetal_full : Prop := ∀ (d m : ℕ) (pts : DataPoints ℝ d), List.length pts = m + 1 →
  0 < ∑ h ∈ range m, dist2 (pts.getD h 0) (pts.getD (h + 1) 0) →
    ∃ ps : Parameters ℝ, centripetal pts = .ok ps

/-- **C39** `centripetal` in any build: the increments are proportional to the square roots of the
distances, for every point sequence of positive length if the debug assertion is not compiled, and
otherwise if the sum of the roots is at least `2^-26`. -/
theorem C39_centripetal_build [Build] {pts : DataPoints K d} {m : ℕ} (hm : List.length pts = m + 1)
    (hpos : 0 < ∑ h ∈ range m, Sqrt.sqrt (dist2 (pts.getD h 0) (pts.getD (h + 1) 0)))
    (hb : Build.assertions = true →
      1 / 2 ^ 26 ≤ ∑ h ∈ range m, Sqrt.sqrt (dist2 (pts.getD h 0) (pts.getD (h + 1) 0))) :
    ∃ ps : Parameters K, centripetal pts = .ok ps ∧ ps.segments = m ∧
      Proportional pts m (fun a b => Sqrt.sqrt (dist2 a b)) ps.vector := by
  have hseg : DataPoints.segments pts = .ok m := by
    rw [DataPoints.segments, usub_ok (by omega)]; congr 1; omega
  have hget : ∀ i, i ≤ m → pts.getD i 0 = fn pts i := by
    intro i hi
    rw [List.getD_eq_getElem _ _ (by omega), ← fn_lt]
  have heps : (epsSqrt : K) = 1 / 2 ^ 26 := by rw [epsSqrt]; norm_num
  have heq : cumTotal (fun v => Sqrt.sqrt (norm v)) pts m =
      ∑ h ∈ range m, Sqrt.sqrt (dist2 (pts.getD h 0) (pts.getD (h + 1) 0)) := by
    rw [cumTotal_eq]
    refine sum_congr rfl ?_
    intro h hh
    rw [mem_range] at hh
    rw [dist2_eq, hget _ (by omega), hget _ (by omega)]
  rw [← heq] at hpos hb
  rw [centripetal, hseg, ok_bind, chordSum_ok hm, ok_bind, if_neg (by
    rw [heps]; simpa [Cmp.le] using hb), cumulate_ok hm, ok_bind]
  exact ⟨_, rfl, rfl, proportional_of_cum hm (f := fun v => Sqrt.sqrt (norm v))
    (fun a b => by rw [dist2_eq]) (fun v => LawfulSqrt.nonneg _ (norm_nonneg v))
    (fun v hv => sqrt_pos' (norm_pos hv)) hpos⟩

/-- **C39** In a release build the claim for `centripetal` holds without restriction. -/
theorem C39_centripetal_release [Build] (hb : Build.assertions = false) {pts : DataPoints K d} {m : ℕ}
    (hm : List.length pts = m + 1)
    (hpos : 0 < ∑ h ∈ range m, Sqrt.sqrt (dist2 (pts.getD h 0) (pts.getD (h + 1) 0))) :
    ∃ ps : Parameters K, centripetal pts = .ok ps ∧ ps.segments = m ∧
      Proportional pts m (fun a b => Sqrt.sqrt (dist2 a b)) ps.vector :=
  C39_centripetal_build hm hpos (fun h => by rw [hb] at h; cases h)

/-- **C39 (partial)** `centripetal`: the increments are proportional to the square roots of the
distances. Missing: sequences where the sum of these roots is below `2^-26`; there the debug
assertion of the code fails (`C39_centripetal_tiny_panics`). -/
theorem C39_centripetal_partial {pts : DataPoints K d} {m : ℕ} (hm : List.length pts = m + 1)
    (hpos : 1 / 2 ^ 26 ≤ ∑ h ∈ range m, Sqrt.sqrt (dist2 (pts.getD h 0) (pts.getD (h + 1) 0))) :
    ∃ ps : Parameters K, centripetal pts = .ok ps ∧ ps.segments = m ∧
      Proportional pts m (fun a b => Sqrt.sqrt (dist2 a b)) ps.vector :=
  C39_centripetal_build hm (lt_of_lt_of_le (by positivity) hpos) (fun _ => hpos)

/-- **C39** The converse: in a debug build `centripetal` panics if the sum is below `2^-26`. -/
theorem C39_centripetal_tiny_panics {pts : DataPoints K d} {m : ℕ} (hm : List.length pts = m + 1)
    (hsm : ∑ h ∈ range m, Sqrt.sqrt (dist2 (pts.getD h 0) (pts.getD (h + 1) 0)) < 1 / 2 ^ 26) :
    centripetal pts = .error .debugAssert := by
  have hseg : DataPoints.segments pts = .ok m := by
    rw [DataPoints.segments, usub_ok (by omega)]; congr 1; omega
  have hget : ∀ i, i ≤ m → pts.getD i 0 = fn pts i := by
    intro i hi
    rw [List.getD_eq_getElem _ _ (by omega), ← fn_lt]
  have heps : (epsSqrt : K) = 1 / 2 ^ 26 := by rw [epsSqrt]; norm_num
  have heq : cumTotal (fun v => Sqrt.sqrt (norm v)) pts m =
      ∑ h ∈ range m, Sqrt.sqrt (dist2 (pts.getD h 0) (pts.getD (h + 1) 0)) := by
    rw [cumTotal_eq]
    refine sum_congr rfl ?_
    intro h hh
    rw [mem_range] at hh
    rw [dist2_eq, hget _ (by omega), hget _ (by omega)]
  rw [← heq] at hsm
  rw [centripetal, hseg, ok_bind, chordSum_ok hm, ok_bind, if_pos (by
    rw [heps]; simpa [Cmp.le] using hsm)]

end

theorem dist2_real_one (a b : ℝ) : dist2 (K := ℝ) ![a] ![b] = |b - a| := by
  simp [dist2, Sqrt.sqrt, Real.sqrt_sq_eq_abs]

theorem C39_centripetal_full_false : ¬ C39_centripetal_full := by
  intro h
  have h1 : dist2 (K := ℝ) ![0] ![1 / 2 ^ 54] = 1 / 2 ^ 54 := by
    rw [dist2_real_one, sub_zero, abs_of_pos (by positivity)]
  obtain ⟨ps, hps⟩ := h 1 1 [![0], ![1 / 2 ^ 54]] rfl (by
    simp only [range_one, sum_singleton]
    show 0 < dist2 (K := ℝ) ![0] ![1 / 2 ^ 54]
    rw [h1]; positivity)
  rw [C39_centripetal_tiny_panics (m := 1) rfl (by
    simp only [range_one, sum_singleton]
    show Real.sqrt (dist2 (K := ℝ) ![0] ![1 / 2 ^ 54]) < _
    rw [h1, show (1 : ℝ) / 2 ^ 54 = (1 / 2 ^ 27) ^ 2 by norm_num, Real.sqrt_sq (by positivity)]
    norm_num)] at hps
  simp at hps

/-- non-vacuity of `C39_chord_length`: three points with distances 1 and 3 -/
example : 0 < ∑ h ∈ range 2, dist2 (K := ℝ) (([![0], ![1], ![4]] : List (Pt ℝ 1)).getD h 0)
    (([![0], ![1], ![4]] : List (Pt ℝ 1)).getD (h + 1) 0) := by
  rw [sum_range_succ, sum_range_one]
  show 0 < dist2 (K := ℝ) ![0] ![1] + dist2 (K := ℝ) ![1] ![4]
  rw [dist2_real_one, dist2_real_one]
  norm_num

end BSpline
