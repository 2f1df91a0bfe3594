import Verif.Props.InsertExact
import Verif.Props.Split
import Verif.Props.Outcome
import Verif.Refine.Joins

/-!
# Curves on other domains than `[0, 1]`: C119

Curves on `[a, b]` arise from `split_and_normalize` without normalization (C27), from manual knots and
from editing the knots. `evaluate`, `insert` and `split` test the parameter against `[0, 1]` and not
against the domain.
-/

set_option linter.unusedSectionVars false

namespace BSpline

open Finset

variable {K : Type} [Field K] [LinearOrder K] [IsStrictOrderedRing K] {d : ℕ}

theorem evalFold_outside {p n k : ℕ} {U : ℕ → K} {a b : K} (h : Clamp U p n a b) (P : ℕ → Pt K d) (hk : k ≤ p)
    {v : K} (hv : v < a ∨ b < v) {lo : ℕ} (hlo : lo ≤ n - k) : evalFold U p n P k v lo = 0 := by
  have hle := h.le
  have hc := h.shiftN hk
  rw [evalFold_eq_sum U (by omega) P v hlo]
  have hb : base (shiftN k U) (n - k) v = fun _ => 0 := by
    funext i
    rw [base, if_neg]
    rintro (⟨h1, h2⟩ | ⟨-, h1⟩)
    · have := hc.a_le i
      have := hc.le_b (i + 1)
      rcases hv with hv | hv <;> linarith
    · rw [hc.right _ le_rfl] at h1
      subst h1
      rcases hv with hv | hv
      · exact absurd (hv.trans h.lt) (lt_irrefl _)
      · exact lt_irrefl _ hv
  rw [hb]
  have : ∀ q i, Bs (shiftN k U) v (fun _ => 0) q i = 0 := by
    intro q
    induction q with
    | zero => intro i; rfl
    | succ q ih => intro i; simp only [Bs, ih, mul_zero, add_zero]
  exact sum_eq_zero fun i _ => by rw [this, zero_smul]

/-- **C119** In the gap between `[0, 1]` and the domain every evaluation silently returns the origin. -/
theorem C119_evaluate_gap {a b : K} {c : Curve K d} {p n : ℕ} {U : List K} {P : List (Pt K d)}
    (hc : ValidOn a b c p n U P) {v : K} (h0 : 0 ≤ v) (h1 : v ≤ 1) (hv : v < a ∨ b < v) (k : ℕ) :
    c.evaluateDerivative v k = .ok (.ok 0) := by
  obtain rfl := hc.eq_canon
  obtain ⟨-, hU, hP⟩ := hc
  by_cases hk : k ≤ p
  · have hle := hU.le
    have hb := lleq_bounds (fun i => fn U (i + k)) v (n - p) (p - k)
    rw [evaluateDerivative_ok hU.length hP hU.le hk (by simpa [Cmp.le] using h0) (by simpa [Cmp.le] using h1),
      evalFold_outside hU.clamp _ hk hv (by omega)]
  · exact evaluateDerivative_high (canon_degree ..) (by omega) h0 h1

/-- **C119** On the domain the curve is, up to the parametrization, the one with the normalized knots:
the derivatives of order `k` differ by `(b - a) ^ k`. -/
theorem C119_evaluate_inside {a b : K} {c : Curve K d} {p n : ℕ} {U : List K} {P : List (Pt K d)}
    (hc : ValidOn a b c p n U P) : ∃ c₀ : Curve K d, ValidOn 0 1 c₀ p n (U.map fun x => (x - a) / (b - a)) P ∧
      ∀ v k, 0 ≤ v → v ≤ 1 → a ≤ v → v ≤ b → ∃ w, c.evaluateDerivative v k = .ok (.ok w) ∧
        c₀.evaluateDerivative ((v - a) / (b - a)) k = .ok (.ok ((b - a) ^ k • w)) := by
  obtain rfl := hc.eq_canon
  obtain ⟨-, hU, hP⟩ := hc
  have hpos : 0 < b - a := sub_pos.mpr hU.lt
  have e : (U.map fun x => (x - a) / (b - a)) = normalizeKnots U := by
    rw [hU.normalize_eq]
    apply List.map_congr_left
    intro x _
    field_simp
    ring
  rw [e]
  refine ⟨_, validOn_canon hU.normalize hP, ?_⟩
  intro v k h0 h1 ha hb
  have t0 : 0 ≤ (v - a) / (b - a) := div_nonneg (sub_nonneg.mpr ha) hpos.le
  have t1 : (v - a) / (b - a) ≤ 1 := (div_le_one hpos).mpr (by linarith)
  by_cases hk : k ≤ p
  · obtain ⟨j, hj⟩ := hU.clamp.exists_span ha hb
    refine ⟨_, evaluateDerivative_eq hU hP hk h0 h1 hj, ?_⟩
    have ev : v = a + (b - a) * ((v - a) / (b - a)) := by field_simp; ring
    have hj' := hj
    rw [ev] at hj'
    rw [evaluate_normalized hU hP hk t0 t1 hj', ← ev]
  · refine ⟨0, evaluateDerivative_high (canon_degree ..) (by omega) h0 h1, ?_⟩
    rw [smul_zero]
    exact evaluateDerivative_high (canon_degree ..) (by omega) t0 t1

/-- **C119** A parameter of the domain outside of `[0, 1]` is rejected. -/
theorem C119_evaluate_rejected (c : Curve K d) {v : K} (hv : v < 0 ∨ 1 < v) (k : ℕ) :
    c.evaluateDerivative v k = .ok (.error (.parameterOutOfBounds v 0 1)) := by
  rw [Curve.evaluateDerivative, if_pos]
  · rfl
  · simp only [Cmp.le, Bool.not_eq_true', Bool.and_eq_false_iff, decide_eq_false_iff_not, not_le]
    exact hv

/-- No interior knot below `u` is repeated, for knots from `a` on. -/
def SimpleFrom (a : K) (U : List K) (u : K) : Prop := ∀ x, a < x → x < u → U.count x ≤ 1

theorem simpleFrom_zero (U : List K) (u : K) : SimpleFrom 0 U u ↔ SimpleBelow U u := Iff.rfl

theorem SimpleFrom.not_eq {a b : K} {p n : ℕ} {U : List K} {u : K} (h : ClampedKnots a b p n U)
    (hr : SimpleFrom a U u) {i : ℕ} (h1 : p < i) (h2 : i ≤ n) (h3 : fn U i < u) :
    fn U (i + 1) ≠ fn U i := by
  intro he
  have := hr (fn U i) (h.clamp.a_lt h1) h3
  have h2' : 2 ≤ U.count (fn U i) := by
    apply run_le_count (lo := i) (by have := h.length; omega)
    intro m hm1 hm2
    rcases Nat.lt_or_ge i m with h4 | h4
    · rw [show m = i + 1 by omega, he]
    · rw [show m = i by omega]
  omega

/-- the search ends at the right place, the end of the domain included -/
theorem lleq_good' {U : ℕ → K} {p n : ℕ} {a b u : K} (hc : Clamp U p n a b) (hub : u ≤ b)
    (hrep : ∀ i, p < i → i ≤ n → U i < u → U (i + 1) ≠ U i) (r : ℕ) : ∀ i, p ≤ i → i + r = n →
    U i ≤ u → U (lleq U u r i) ≤ u ∧ u ≤ U (lleq U u r i + 1) := by
  induction r with
  | zero =>
    intro i _ hr hi
    simp only [lleq]
    refine ⟨hi, ?_⟩
    rw [hc.right _ (by omega)]; exact hub
  | succ r ih =>
    intro i hp hr hi
    simp only [lleq, Cmp.le, Cmp.eq, decide_eq_true_eq]
    split
    · rename_i h1
      split
      · rename_i h2
        refine ⟨h1, ?_⟩
        rcases h1.lt_or_eq with h3 | h3
        · exact absurd h2 (hrep (i + 1) (by omega) (by omega) h3)
        · rw [h2, h3]
      · exact ih (i + 1) (by omega) (by omega) h1
    · rename_i h1
      exact ⟨hi, (not_le.mp h1).le⟩

/-- **C119** After a successful `insert(u)` into a curve on `[a, b]` the knots are sorted if and only
if `u` lies in `[a, b]` and no interior knot below `u` is repeated. -/
theorem C119_sorted_iff {a b : K} {c c' : Curve K d} {p n : ℕ} {U U' : List K} {P : List (Pt K d)}
    (hc : ValidOn a b c p n U P) {u : K} (hi : c.insert u = .ok (c', .ok ()))
    (hU' : c'.knots.vector = .ok U') :
    U'.Pairwise (· ≤ ·) ↔ a ≤ u ∧ u ≤ b ∧ SimpleFrom a U u := by
  obtain rfl := hc.eq_canon
  obtain ⟨-, hU, hP⟩ := hc
  have hlen := hU.length
  have hle := hU.le
  have hcl := hU.clamp
  rw [Curve.insert_eq, insert_ok hU.length hP hU.le] at hi
  split at hi
  · injection hi with hi; injection hi with _ hi; cases hi
  split at hi
  · injection hi with hi; injection hi with _ hi; cases hi
  injection hi with hi; injection hi with hi _
  rw [← hi, canon_knots, canonKnots_vector] at hU'
  injection hU' with hU'
  subst hU'
  have hb := lleq_bounds (fn U) u (n - p) p
  constructor
  · intro hsorted
    have hmono := fn_monotone hsorted
    have hau : a ≤ u := by
      have := hmono (show p ≤ lleq (fn U) u (n - p) p + 1 by omega)
      rwa [fn_insU_eq (by omega), fn_insU_le (by omega) hb.1, hcl.left p le_rfl] at this
    have hub : u ≤ b := by
      have := hmono (show lleq (fn U) u (n - p) p + 1 ≤ lleq (fn U) u (n - p) p + 2 by omega)
      rw [fn_insU_eq (by omega), fn_insU_gt (by omega) le_rfl] at this
      exact this.trans (hcl.le_b _)
    refine ⟨hau, hub, ?_⟩
    intro x hx0 hxu
    by_contra hcon
    have i1 : ∀ {i}, i < U.length → (fn U i < x ↔ i < nlt U x) := fun hi => fn_lt_iff hU.sorted x hi
    have i2 : ∀ {i}, i < U.length → (fn U i ≤ x ↔ i < nlt U x + U.count x) :=
      fun hi => fn_le_iff hU.sorted x hi
    have a1 := (i1 (i := p) (by omega)).mp (by rw [hcl.left p le_rfl]; exact hx0)
    have a2 := (not_congr (i2 (i := n + 1) (by omega))).mp
      (by rw [hcl.right (n + 1) le_rfl]; exact not_le.mpr (hxu.trans_le hub))
    have eqx : ∀ i, nlt U x ≤ i → i < nlt U x + U.count x → fn U i = x := fun i h1 h2 =>
      le_antisymm ((i2 (by omega)).mpr h2) (not_lt.mp ((not_congr (i1 (by omega))).mpr (by omega)))
    have hst := lleq_stops (u := u) hcl.mono (n - p) p (n := n) (by omega) ⟨nlt U x, by omega, by omega,
      by rw [eqx _ (by omega) (by omega), eqx _ le_rfl (by omega)],
      by rw [eqx _ le_rfl (by omega)]; exact hxu⟩
    generalize lleq (fn U) u (n - p) p = l at hst hsorted hmono
    have := hmono (show l + 1 ≤ l + 2 by omega)
    rw [fn_insU_eq (by omega), fn_insU_gt (i := l + 1) (by omega) le_rfl, hst.2.1] at this
    exact absurd (this.trans_lt hst.2.2) (lt_irrefl _)
  · rintro ⟨hau, hub, hr⟩
    have hg := lleq_good' hcl hub (fun i => hr.not_eq hU) (n - p) p le_rfl (by omega)
      (by rw [hcl.left p le_rfl]; exact hau)
    generalize lleq (fn U) u (n - p) p = l at hg hb
    have hm : Monotone (fn (insU U u l)) := by
      apply monotone_nat_of_le_succ
      intro i
      rcases lt_trichotomy i l with h1 | rfl | h1
      · rw [fn_insU_le (by omega) (by omega), fn_insU_le (by omega) (by omega)]; exact hcl.mono (by omega)
      · rw [fn_insU_le (by omega) le_rfl, fn_insU_eq (by omega)]; exact hg.1
      · rcases Nat.lt_or_ge (l + 1) i with h2 | h2
        · obtain ⟨i, rfl⟩ : ∃ m, i = m + 1 := ⟨i - 1, by omega⟩
          rw [fn_insU_gt (by omega) (by omega), fn_insU_gt (by omega) (by omega)]; exact hcl.mono (by omega)
        · obtain rfl : i = l + 1 := by omega
          rw [fn_insU_eq (by omega), fn_insU_gt (by omega) le_rfl]; exact hg.2
    rw [List.pairwise_iff_getElem]
    intro i j hi hj hij
    have := hm hij.le
    rwa [fn_lt hi, fn_lt hj] at this

theorem multF_gap {a b : K} {p n : ℕ} {U : List K} {u : K} (h : ClampedKnots a b p n U) (hu : u < a ∨ b < u) :
    multF p n U u = 0 := by
  rw [multF, List.length_eq_zero_iff, List.filter_eq_nil_iff]
  intro x hx
  have := h.mem_bounds (List.mem_of_mem_drop (List.mem_of_mem_take hx))
  simp only [Cmp.eq, decide_eq_true_eq]
  rintro rfl
  rcases hu with hu | hu
  · exact absurd this.1 (not_le.mpr hu)
  · exact absurd this.2 (not_le.mpr hu)

/-- **C119** In the gap between `[0, 1]` and the domain `insert(u)` reports success and leaves unsorted
knots. -/
theorem C119_insert_gap {a b : K} {c : Curve K d} {p n : ℕ} {U : List K} {P : List (Pt K d)}
    (hc : ValidOn a b c p n U P) {u : K} (h0 : 0 < u) (h1 : u < 1) (hu : u < a ∨ b < u) :
    ∃ c' U', c.insert u = .ok (c', .ok ()) ∧ c'.knots.vector = .ok U' ∧ ¬ U'.Pairwise (· ≤ ·) := by
  have hs := @C119_sorted_iff _ _ _ _ _ a b c
  have hc' := hc
  obtain rfl := hc.eq_canon
  obtain ⟨-, hU, hP⟩ := hc
  have hi := insert_ok (d := d) hU.length hP hU.le u
  rw [if_neg (by simp [Cmp.le, h0, h1]), multF_gap hU hu, if_neg (by omega), ← Curve.insert_eq] at hi
  refine ⟨_, _, hi, by rw [canon_knots, canonKnots_vector], fun h => ?_⟩
  obtain ⟨k1, k2, -⟩ := (hs hc' hi (by rw [canon_knots, canonKnots_vector])).1 h
  rcases hu with hu | hu
  · exact absurd k1 (not_le.mpr hu)
  · exact absurd k2 (not_le.mpr hu)

/-- **C119** Inside of the domain insertion works as on `[0, 1]` (C15, C16): the result is a valid curve on
`[a, b]` with the knot added and with the same values at every parameter, also in the gaps. -/
theorem C119_insert_inside {a b : K} {c c' : Curve K d} {p n : ℕ} {U : List K} {P : List (Pt K d)}
    (hc : ValidOn a b c p n U P) {u : K} (ha : a < u) (hb : u < b) (hr : SimpleFrom a U u)
    (hi : c.insert u = .ok (c', .ok ())) :
    (∃ U' P', ValidOn a b c' p (n + 1) U' P' ∧ U'.Perm (u :: U)) ∧
      ∀ v k, c'.evaluateDerivative v k = c.evaluateDerivative v k := by
  have hc0 := hc
  obtain rfl := hc.eq_canon
  obtain ⟨-, hU, hP⟩ := hc
  have hlen := hU.length
  have hle := hU.le
  have hcl := hU.clamp
  rw [Curve.insert_eq, insert_ok hU.length hP hU.le] at hi
  split at hi
  · injection hi with hi; injection hi with _ hi; cases hi
  split at hi
  · injection hi with hi; injection hi with _ hi; cases hi
  injection hi with hi; injection hi with hi _
  subst hi
  have hbd := lleq_bounds (fn U) u (n - p) p
  have hg := lleq_good' hcl hb.le (fun i => hr.not_eq hU) (n - p) p le_rfl (by omega)
    (by rw [hcl.left p le_rfl]; exact ha.le)
  generalize lleq (fn U) u (n - p) p = l at hg hbd
  have hU' := insU_clamped hU ha hb hbd.1 (by omega) hg.1 hg.2
  have hv' := validOn_canon (P := (List.range (n + 2)).map (insP (fn U) p (fn P) u l)) hU' (by simp)
  refine ⟨⟨_, _, hv', insU_perm U u l⟩, ?_⟩
  intro v k
  by_cases h01 : v < 0 ∨ 1 < v
  · rw [C119_evaluate_rejected _ h01, C119_evaluate_rejected _ h01]
  push Not at h01
  by_cases hab : v < a ∨ b < v
  · rw [C119_evaluate_gap hv' h01.1 h01.2 hab, C119_evaluate_gap hc0 h01.1 h01.2 hab]
  push Not at hab
  by_cases hk : k ≤ p
  · obtain ⟨j, hj⟩ := hcl.exists_span hab.1 hab.2
    obtain ⟨j', hj'⟩ := hU'.clamp.exists_span hab.1 hab.2
    rw [evaluateDerivative_eq hU hP hk h01.1 h01.2 hj, evaluateDerivative_eq hU' (by simp) hk h01.1 h01.2 hj']
    congr 2
    refine cv_congr_of_bl (U := fn U) (P := fn P) ?_ k hk _ (by simp)
    intro ts hts
    rw [← same_insert hcl hU'.clamp (insU_seq (by omega)) hbd.1 (by omega) hg.1 hg.2 (fn P) v j j' hab.1 hab.2 hj hj'
      ts hts]
    apply bl_congr_pts
    intro m hm
    have := hj'.le_n
    have := hj'.p_le hU'.clamp
    exact fn_map_range _ (by omega)
  · rw [evaluateDerivative_high (canon_degree ..) (by omega) h01.1 h01.2,
      evaluateDerivative_high (canon_degree ..) (by omega) h01.1 h01.2]

theorem insertTimes_ok {c : Curve K d} {p n : ℕ} {U : List K} {P : List (Pt K d)} (hc : Built c p U P)
    (hU : U.length = n + p + 2) (hP : P.length = n + 1) (hp : p ≤ n) {u : K} (h0 : 0 < u) (h1 : u < 1) {x : ℕ}
    (hx : multF p n U u + x ≤ p + 1) : ∃ c' U' P', c.insertTimes u x = .ok (c', .ok ()) ∧
      c'.knots.vector = .ok U' ∧ c'.points.matrix = .ok P' ∧ U'.Perm (List.replicate x u ++ U) := by
  obtain ⟨c1, r, y, U', P', k1, k2, k3, k4, k5, k6, k7⟩ := C18_insert_times hc hU hP hp u x
  have hno : ¬ ∃ c' e, c.insertTimes u x = .ok (c', .error e) := by
    rw [C118_insert_times hc hU hP hp (by simp [Cmp.eq]) x, domainCopies_eq hU u hp]
    rintro ⟨-, h | h⟩
    · simp only [Cmp.le, Bool.or_eq_true, decide_eq_true_eq] at h
      rcases h with h | h
      · exact absurd h0 (not_lt.mpr h)
      · exact absurd h1 (not_lt.mpr h)
    · omega
  rcases k7 with ⟨rfl, rfl⟩ | ⟨e, rfl, -⟩
  · have hU' : U'.length = (n + y) + p + 2 := by
      rw [k5.length_eq, List.length_append, List.length_replicate]; omega
    obtain rfl := k4.eq_canon' hU' (by omega : P'.length = (n + y) + 1) (by omega)
    exact ⟨_, _, _, k1, by rw [canon_knots, canonKnots_vector], canon_matrix .., k5⟩
  · exact absurd ⟨_, _, k1⟩ hno

theorem Built.vector {c : Curve K d} {p n : ℕ} {U : List K} {P : List (Pt K d)} (hc : Built c p U P)
    (hU : U.length = n + p + 2) (hP : P.length = n + 1) (hp : p ≤ n) : c.knots.vector = .ok U := by
  obtain rfl := hc.eq_canon' hU hP hp
  rw [canon_knots, canonKnots_vector]

/-- **C119** In the gap between `[0, 1]` and the domain `split_and_normalize(u)` reports success, too, and
one of its parts has unsorted knots: the left one below the domain, the right one above it. -/
theorem C119_split_gap {a b : K} {c : Curve K d} {p n : ℕ} {U : List K} {P : List (Pt K d)}
    (hc : ValidOn a b c p n U P) {u : K} (h0 : 0 < u) (h1 : u < 1) (hu : u < a ∨ b < u) (norm : Bool × Bool) :
    ∃ l r V W, splitAndNormalize c u norm = .ok (.ok (l, r)) ∧ l.knots.vector = .ok V ∧
      r.knots.vector = .ok W ∧ (u < a → norm.1 = false → ¬ V.Pairwise (· ≤ ·)) ∧
      (b < u → norm.2 = false → ¬ W.Pairwise (· ≤ ·)) := by
  obtain ⟨hB, hU, hP⟩ := hc
  have hlen := hU.length
  have hle := hU.le
  have hne : ∀ x ∈ U, x ≠ u := by
    rintro x hx rfl
    have := hU.mem_bounds hx
    rcases hu with hu | hu
    · exact absurd this.1 (not_le.mpr hu)
    · exact absurd this.2 (not_le.mpr hu)
  obtain ⟨l, -, hl1, hl2, hs⟩ := C118_split hB hU.length hP hU.le u norm
  have hm : ((U.drop l).takeWhile (fun x => Cmp.eq x u)).length = 0 := by
    rw [List.drop_eq_getElem_cons (by omega), List.takeWhile_cons_of_neg]
    · rfl
    · simpa [Cmp.eq] using hne _ (List.getElem_mem _)
  dsimp only at hs
  rw [hm, if_neg (by simp [Cmp.le, h0, h1]), if_neg (by omega)] at hs
  obtain ⟨c', U', P', k1, k2, k3, k4⟩ := insertTimes_ok hB hlen hP hle h0 h1 (x := p - 0)
    (by rw [multF_gap hU hu]; omega)
  have hs := hs.2 c' U' P' k1 k2 k3
  simp only [lt_irrefl, false_and, if_false, Nat.sub_zero] at hs k4
  obtain ⟨e, f, e1, e2, e3, e4, e5⟩ := hs
  have hlen' : U'.length = n + p + p + 2 := by
    rw [k4.length_eq, List.length_append, List.length_replicate]; omega
  have hcount : U'.count u = p := by
    rw [k4.count_eq, List.count_append, List.count_replicate_self,
      List.count_eq_zero_of_not_mem (fun h => hne u h rfl), add_zero]
  have hmem : ∀ x ∈ U', x = u ∨ x ∈ U := by
    intro x hx
    have := k4.mem_iff.mp hx
    rw [List.mem_append] at this
    rcases this with h | h
    · exact Or.inl (List.eq_of_mem_replicate h)
    · exact Or.inr h
  have hother : ∀ L : List K, L.Sublist U' → p < L.length → ∃ x ∈ L, x ∈ U := by
    intro L hL hp
    by_contra hcon
    push Not at hcon
    have : L = List.replicate L.length u := by
      rw [List.eq_replicate_iff]
      exact ⟨rfl, fun x hx => (hmem x (hL.subset hx)).resolve_right (hcon x hx)⟩
    have h2 := hL.count_le u
    rw [this, List.count_replicate_self] at h2
    omega
  refine ⟨e, f, _, _, e1, e2.vector (n := l) ?_ (by rw [e4]) hl1,
    e3.vector (n := n + p - l) ?_ (by rw [e5]; omega) (by omega), ?_, ?_⟩
  · rw [normalizeIf_length]; simp; omega
  · rw [normalizeIf_length]; simp; omega
  · intro hua hn hsort
    rw [hn, normalizeIf, if_neg (by simp), List.pairwise_append] at hsort
    obtain ⟨x, hx, hxU⟩ := hother (U'.take (l + 1 + p)) (List.take_sublist _ _) (by simp; omega)
    have h1 := hsort.2.2 x hx u (by simp)
    exact absurd (hua.trans_le (hU.mem_bounds hxU).1) (not_lt.mpr h1)
  · intro hbu hn hsort
    rw [hn, normalizeIf, if_neg (by simp), List.pairwise_cons] at hsort
    obtain ⟨x, hx, hxU⟩ := hother (U'.drop (l + 1)) (List.drop_sublist _ _) (by simp; omega)
    have h1 := hsort.1 x hx
    exact absurd (h1.trans (hU.mem_bounds hxU).2) (not_le.mpr hbu)

/-- **C119** At the first knot of a domain which starts inside of `(0, 1)`, a split is refused with an
error about the degree. -/
theorem C119_split_start {a b : K} {c : Curve K d} {p n : ℕ} {U : List K} {P : List (Pt K d)}
    (hc : ValidOn a b c p n U P) (hp : 1 ≤ p) (h0 : 0 < a) (h1 : a < 1) (norm : Bool × Bool) :
    splitAndNormalize c a norm = .ok (.error (.curveError (.degreeAndSegmentsMismatch p (p - 1)))) := by
  obtain ⟨hB, hU, hP⟩ := hc
  have hlen := hU.length
  have hle := hU.le
  have hcl := hU.clamp
  have hin : ∀ i, p < i → a < fn U i := fun i hi => hcl.a_lt hi
  obtain ⟨l, hf, hl1, hl2, hs⟩ := C118_split hB hU.length hP hU.le a norm
  have hl : l = p := by
    rw [hB.eq_canon' hlen hP hle, canon_knots] at hf
    have hfi := findIdx_leftOrEqual_ok hlen hle (Nat.zero_le p) a
    simp only [Nat.add_zero, Nat.sub_zero] at hfi
    rw [hfi] at hf
    injection hf with hf
    cases hr : n - p with
    | zero => rw [hr] at hf; exact hf.symm
    | succ r =>
      rw [hr] at hf
      simp only [lleq, Cmp.le, decide_eq_true_eq] at hf
      rw [if_neg (not_le.mpr (hin _ (by omega)))] at hf
      exact hf.symm
  subst hl
  have hm : ((U.drop l).takeWhile (fun x => Cmp.eq x a)).length = 1 := by
    rw [List.drop_eq_getElem_cons (by omega), List.takeWhile_cons_of_pos, List.drop_eq_getElem_cons (by omega),
      List.takeWhile_cons_of_neg]
    · rfl
    · rw [← fn_lt]; simpa [Cmp.eq] using (hin (l + 1) (by omega)).ne'
    · rw [← fn_lt, hcl.left l le_rfl]; simp [Cmp.eq]
  dsimp only at hs
  rw [hm, if_neg (by simp [Cmp.le, h0, h1]), if_neg (by omega)] at hs
  have hmult : multF l n U a = 1 := by
    rw [multF, List.drop_eq_getElem_cons (by omega), List.take_succ_cons, List.filter_cons_of_pos
      (by rw [← fn_lt, hcl.left l le_rfl]; simp [Cmp.eq]), List.length_cons]
    rw [Nat.add_eq_right, List.length_eq_zero_iff, List.filter_eq_nil_iff]
    intro x hx
    obtain ⟨i, hi, rfl⟩ := List.getElem_of_mem (List.mem_of_mem_take hx)
    rw [List.getElem_drop, ← fn_lt]
    simpa [Cmp.eq] using (hin (l + 1 + i) (by omega)).ne'
  obtain ⟨c', U', P', k1, k2, k3, -⟩ := insertTimes_ok hB hlen hP hle h0 h1 (x := l - 1) (by omega)
  have hs := hs.2 c' U' P' k1 k2 k3
  rwa [if_pos ⟨by omega, rfl⟩] at hs

theorem lleq_ge {V : ℕ → K} {u : K} {p n : ℕ} (hle : ∀ i, V i ≤ u) (hne : ∀ i, p < i → i ≤ n → V (i + 1) ≠ V i)
    (r : ℕ) : ∀ i, p ≤ i → n ≤ i + r → n ≤ lleq V u r i := by
  induction r with
  | zero => intro i _ h; exact h
  | succ r ih =>
    intro i h1 h2
    simp only [lleq, Cmp.le, Cmp.eq, decide_eq_true_eq]
    rw [if_pos (hle _)]
    split
    · rename_i h3
      by_contra h4
      exact hne (i + 1) (by omega) (by omega) h3
    · exact ih (i + 1) (by omega) (by omega)

/-- inserting the last knot again -/
theorem insertTimes_last {b : K} {p n : ℕ} {U : List K} (hlow : ∀ i, i ≤ n → fn U i < b)
    (hne : ∀ i, p < i → i ≤ n → fn U (i + 1) ≠ fn U i) {c' : Curve K d} {U' : List K} (x : ℕ) :
    ∀ {N : ℕ} {V : List K} {Q : List (Pt K d)}, V.length = N + p + 2 → Q.length = N + 1 → p ≤ N → n ≤ N →
      (∀ i ≤ n, fn V i = fn U i) → (∀ i, n < i → fn V i = b) →
      (canon p V Q).insertTimes b x = .ok (c', .ok ()) → c'.knots.vector = .ok U' →
      ∀ i, n < i → fn U' i = b := by
  induction x with
  | zero =>
    intro N V Q _ _ _ _ _ h2 hi hv
    rw [Curve.insertTimes, pure_ok] at hi
    injection hi with hi; injection hi with hi _
    rw [← hi, canon_knots, canonKnots_vector] at hv
    injection hv with hv
    rw [← hv]; exact h2
  | succ x ih =>
    intro N V Q hV hQ hp hn h1 h2 hi hv
    rw [Curve.insertTimes, insert_ok hV hQ hp] at hi
    split at hi
    · simp [ok_bind, pure_ok] at hi
    split at hi
    · simp [ok_bind, pure_ok] at hi
    rw [ok_bind] at hi
    have hbd := lleq_bounds (fn V) b (N - p) p
    have hge : n ≤ lleq (fn V) b (N - p) p := by
      refine lleq_ge ?_ ?_ (N - p) p le_rfl (by omega)
      · intro i
        rcases Nat.lt_or_ge n i with h | h
        · rw [h2 i h]
        · rw [h1 i h]; exact (hlow i h).le
      · intro i hi1 hi2
        rw [h1 i hi2]
        rcases Nat.lt_or_ge n (i + 1) with h | h
        · rw [h2 _ h]; exact (hlow i hi2).ne'
        · rw [h1 _ h]; exact hne i hi1 hi2
    generalize lleq (fn V) b (N - p) p = l at hge hbd hi
    refine ih (N := N + 1) (by rw [insU_length (by omega)]; omega) (by simp) (by omega) (by omega) ?_ ?_ hi hv
    · intro i hi
      rw [fn_insU_le (by omega) (by omega)]; exact h1 i hi
    · intro i hi
      rcases lt_trichotomy i (l + 1) with h | rfl | h
      · rw [fn_insU_le (by omega) (by omega)]; exact h2 i hi
      · exact fn_insU_eq (by omega)
      · obtain ⟨i, rfl⟩ : ∃ m, i = m + 1 := ⟨i - 1, by omega⟩
        rw [fn_insU_gt (by omega) (by omega)]; exact h2 i (by omega)

/-- **C119** At the last knot of a domain which ends inside of `(0, 1)`, a split succeeds if no interior
knot is repeated, and all knots of the right part coincide. -/
theorem C119_split_end {a b : K} {c : Curve K d} {p n : ℕ} {U : List K} {P : List (Pt K d)}
    (hc : ValidOn a b c p n U P) (h0 : 0 < b) (h1 : b < 1) (hr : SimpleFrom a U b) (f : Bool) :
    ∃ l r, splitAndNormalize c b (f, false) = .ok (.ok (l, r)) ∧
      r.knots.vector = .ok (List.replicate (2 * p + 2) b) := by
  obtain ⟨hB, hU, hP⟩ := hc
  have hlen := hU.length
  have hle := hU.le
  have hcl := hU.clamp
  have hlow : ∀ i, i ≤ n → fn U i < b := fun i hi => hcl.lt_b hi
  obtain ⟨l, hf, hl1, hl2, hs⟩ := C118_split hB hU.length hP hU.le b (f, false)
  have hl : l = n := by
    rw [hB.eq_canon' hlen hP hle, canon_knots] at hf
    have hfi := findIdx_leftOrEqual_ok hlen hle (Nat.zero_le p) b
    simp only [Nat.add_zero, Nat.sub_zero] at hfi
    rw [hfi] at hf
    injection hf with hf
    have hg := lleq_good' hcl le_rfl (fun i => hr.not_eq hU) (n - p) p le_rfl (by omega)
      (by rw [hcl.left p le_rfl]; exact hU.lt.le)
    rw [hf] at hg
    by_contra hne
    exact absurd hg.2 (not_le.mpr (hlow (l + 1) (by omega)))
  subst hl
  have hm : ((U.drop l).takeWhile (fun x => Cmp.eq x b)).length = 0 := by
    rw [List.drop_eq_getElem_cons (by omega), List.takeWhile_cons_of_neg]
    · rfl
    · rw [← fn_lt]; simpa [Cmp.eq] using (hlow l le_rfl).ne
  dsimp only at hs
  rw [hm, if_neg (by simp [Cmp.le, h0, h1]), if_neg (by omega)] at hs
  have hmult : multF p l U b = 1 := by
    have e : (U.drop p).take (l - p + 2) = (U.drop p).take (l - p + 1) ++ [b] := by
      rw [List.take_add_one, List.getElem?_eq_getElem (by simp; omega), List.getElem_drop, ← fn_lt,
        hcl.right _ (by omega)]; rfl
    rw [multF, e, List.filter_append, List.length_append]
    have : ((U.drop p).take (l - p + 1)).filter (fun x => Cmp.eq x b) = [] := by
      rw [List.filter_eq_nil_iff]
      intro x hx
      obtain ⟨i, hi, rfl⟩ := List.getElem_of_mem hx
      simp only [List.length_take] at hi
      rw [List.getElem_take, List.getElem_drop, ← fn_lt]
      simpa [Cmp.eq] using (hlow (p + i) (by omega)).ne
    rw [this]
    simp [Cmp.eq]
  obtain ⟨c', U', P', k1, k2, k3, k4⟩ := insertTimes_ok hB hlen hP hle h0 h1 (x := p - 0) (by omega)
  have hs := hs.2 c' U' P' k1 k2 k3
  simp only [lt_irrefl, false_and, if_false, Nat.sub_zero] at hs k4
  obtain ⟨e, g, e1, e2, e3, e4, e5⟩ := hs
  have hlen' : U'.length = l + p + p + 2 := by
    rw [k4.length_eq, List.length_append, List.length_replicate]; omega
  rw [hB.eq_canon' hlen hP hle] at k1
  have htail := insertTimes_last hlow (fun i h1 h2 => hr.not_eq hU h1 h2 (hlow i h2)) _ hlen hP hle le_rfl
    (fun _ _ => rfl) (fun i hi => hcl.right i hi) k1 k2
  refine ⟨e, g, e1, ?_⟩
  rw [e3.vector (n := p) (by rw [normalizeIf_length]; simp; omega) (by rw [e5]; omega) le_rfl]
  rw [normalizeIf, if_neg (by simp), List.replicate_succ]
  congr 2
  rw [List.eq_replicate_iff]
  refine ⟨by simp; omega, fun x hx => ?_⟩
  obtain ⟨i, hi, rfl⟩ := List.getElem_of_mem hx
  rw [List.getElem_drop, ← fn_lt]
  exact htail _ (by omega)

/-! ### Examples -/

/-- the left half of a parabola, not normalized -/
def leftHalf : Curve ℚ 1 := canon 2 [0, 0, 0, 1/2, 1/2, 1/2] (Tests.c1 [1, 2, 4])

example : ValidOn 0 (1/2) leftHalf 2 2 [0, 0, 0, 1/2, 1/2, 1/2] (Tests.c1 [1, 2, 4]) :=
  validOn_canon (by decide +kernel) rfl
example : ValidOn (1/2) 1 rightHalf 2 2 [1/2, 1/2, 1/2, 1, 1, 1] (Tests.c1 [3/2, 5/2, 4]) :=
  validOn_canon (by decide +kernel) rfl
example : leftHalf.evaluate (3/4) = .ok (.ok 0) := by decide +kernel
example : leftHalf.evaluate (1/2) = .ok (.ok ![4]) := by decide +kernel
/-- `insert` beyond the end -/
example : (do let r ← leftHalf.insert (3/4); r.1.knots.vector : Exec (List ℚ)) =
    .ok [0, 0, 0, 3/4, 1/2, 1/2, 1/2] := by decide +kernel
example : SimpleFrom (1/2) ([1/2, 1/2, 1/2, 1, 1, 1] : List ℚ) (3/4) := by
  intro x h1 h2
  rw [List.count_eq_zero_of_not_mem]
  · omega
  · intro h
    fin_cases h <;> first | exact absurd h1 (lt_irrefl _) | norm_num at h2
example : splitAndNormalize leftHalf (1/2) (false, false) = .ok (.ok (leftHalf,
    canon 2 [1/2, 1/2, 1/2, 1/2, 1/2, 1/2] (Tests.c1 [4, 4, 4]))) := by decide +kernel

end BSpline
