import Verif.Props.IeeeLocal
import Verif.Props.IeeeReverse
import Verif.Props.Merge
import Verif.Props.Predicates

/-!
# Merging in the arithmetic of `f64`: C125

`V` and `W` are the exact values of the knots of the two curves.
-/

set_option linter.unusedSectionVars false

namespace BSpline

section LawFree

variable {K : Type} [Zero K] [One K] [Add K] [Sub K] [Neg K] [Mul K] [Div K] [NatCast K] [Cmp K] {d : ℕ}

/-- The merged knots before the division: the left knots, then the right knots, which are reversed twice. -/
theorem mergedRaw_free {p m o : ℕ} {V W : List K} (hV : V.length = m + p + 2) (hW : W.length = o + p + 2)
    (hpm : p ≤ m) : mergedRaw p m o V W =
      V.take (m + 2) ++ (W.drop (p + 1)).map fun w => (((w + -1) * -1) + -1) * -1 + 1 := by
  rw [mergedRaw, vadj]
  congr 1
  simp only [reverseKnots, swapLoop_eq, List.reverse_append, List.map_append, List.map_map, ← List.map_take,
    ← List.map_drop, ← List.map_reverse]
  rw [List.drop_append]
  simp only [List.length_map, List.length_reverse, List.length_take, List.length_drop]
  rw [List.drop_of_length_le (by simp), List.nil_append,
    show p + 1 - min p (V.length - (p + 1)) = 1 by omega, List.reverse_take, List.length_reverse,
    List.reverse_reverse, ← List.map_drop, List.drop_drop, hW, show o + p + 2 - (o + 2) + 1 = p + 1 by omega]
  rfl

theorem fn_mergedPts_left_free {p m o : ℕ} {V W : List K} {S' T' : List (Pt K d)} (hpm : p ≤ m) (hpo : p ≤ o) {i : ℕ}
    (h : i + p ≤ m + 1) (hi : i < m) : fn (mergedPts p m o V W S' T') i = fn S' i := by
  rw [mergedPts, fn_map_range _ (by omega), mergedP, if_pos hi, sadj, fn_map_range _ (by omega), adjP,
    if_pos (by omega)]

theorem fn_mergedPts_right_free {p m o : ℕ} {V W : List K} {S' T' : List (Pt K d)} (hpm : p ≤ m) (hmo : m ≤ o)
    (hom : o < m + p) (hT' : T'.length = o + 1) {i : ℕ} (h : o ≤ i) (hi : i ≤ m + o + 1 - p) :
    fn (mergedPts p m o V W S' T') i = fn T' (i - (m + 1 - p)) := by
  rw [mergedPts, fn_map_range _ (by omega), mergedP, if_neg (by omega), tadj, fn_reverse (by simp; omega),
    List.length_map, List.length_range, fn_map_range _ (by omega), adjP, if_pos (by omega),
    fn_reverse (by omega), hT']
  congr 1
  omega

end LawFree

open Finset Ieee Knots

variable {K : Type} [Field K] [LinearOrder K] [IsStrictOrderedRing K] {F : Format K} {d : ℕ}

/-! ### The checks -/

theorem partialCmpUnwrap_is {a b : Ieee F} {x y : K} (ha : Is a x) (hb : Is b y) :
    partialCmpUnwrap a b = partialCmpUnwrap x y := by
  rw [partialCmpUnwrap, partialCmpUnwrap, ha.cmp_lt hb, ha.cmp_eq hb, hb.cmp_lt ha]
  rfl

theorem pick_is {f : Ordering → Bool} : ∀ {U : List (Ieee F)} {V : List K}, List.Forall₂ Is U V →
    ∀ {a : Ieee F} {x : K}, Is a x → ∃ r : Exec (Ieee F), ∃ s : Exec K,
      U.foldlM (fun a b => do let o ← partialCmpUnwrap a b; pure (if f o then b else a)) a = r ∧
      V.foldlM (fun a b => do let o ← partialCmpUnwrap a b; pure (if f o then b else a)) x = s ∧
      ((∃ e, r = .error e ∧ s = .error e) ∨ ∃ b y, r = .ok b ∧ s = .ok y ∧ Is b y) := by
  intro U V h
  induction h with
  | nil => intro a x ha; exact ⟨_, _, rfl, rfl, Or.inr ⟨a, x, rfl, rfl, ha⟩⟩
  | cons hb _ ih =>
    rename_i b y U V _
    intro a x ha
    simp only [List.foldlM_cons, partialCmpUnwrap_is ha hb]
    rcases partialCmpUnwrap x y with e | o
    · exact ⟨_, _, rfl, rfl, Or.inl ⟨e, rfl, rfl⟩⟩
    · simp only [ok_bind, pure_ok]
      by_cases ho : f o = true
      · simp only [ho, if_true]; exact ih hb
      · simp only [ho]; exact ih ha

theorem optEq_is {a : Ieee F} {x : K} (ha : Is a x) {b : Ieee F} {y : K} (hb : Is b y) :
    optEq (some a) b = optEq (some x) y := by
  rw [optEq, optEq, ha.cmp_eq hb]; rfl

theorem isNormed_is {p q : ℕ} {U : List (Ieee F)} {V : List K} (h : List.Forall₂ Is U V) :
    (canonKnots p U).isNormed = (canonKnots q V).isNormed := by
  rw [Knots.isNormed, Knots.isNormed, canonKnots_vector, canonKnots_vector, ok_bind, ok_bind]
  cases h with
  | nil => rfl
  | cons ha h =>
    rename_i a x U V
    have h1 := pick_is (f := fun o => decide (o = .gt)) h ha
    have h2 := pick_is (f := fun o => !decide (o = .gt)) h ha
    obtain ⟨r, s, e1, e2, h1⟩ := h1
    obtain ⟨r', s', e3, e4, h2⟩ := h2
    simp only [decide_eq_true_eq] at e1 e2
    simp only [Bool.not_eq_true', decide_eq_false_iff_not, ite_not] at e3 e4
    rw [minBy, minBy, maxBy, maxBy, e1, e2, e3, e4]
    rcases h1 with ⟨e, rfl, rfl⟩ | ⟨b, y, rfl, rfl, hb⟩
    · rfl
    rcases h2 with ⟨e, rfl, rfl⟩ | ⟨b', y', rfl, rfl, hb'⟩
    · rfl
    simp only [ok_bind, pure_ok, optEq_is hb is_zero, optEq_is hb' is_one]

theorem all_eq_is {c : Ieee F} {z : K} (hc : Is c z) {U : List (Ieee F)} {V : List K} (h : List.Forall₂ Is U V) :
    U.all (fun u => Cmp.eq u c) = V.all (fun u => Cmp.eq u z) := by
  induction h with
  | nil => rfl
  | cons ha _ ih => rw [List.all_cons, List.all_cons, ih, ha.cmp_eq hc]; rfl

theorem isClamped_is {p : ℕ} {U : List (Ieee F)} {V : List K} (h : List.Forall₂ Is U V) :
    (canonKnots p U).isClamped = (canonKnots p V).isClamped := by
  rw [Knots.isClamped, Knots.isClamped, canonKnots_vector, canonKnots_vector, ok_bind, ok_bind]
  dsimp only
  rw [all_eq_is is_zero (List.forall₂_take _ h), all_eq_is is_one (List.forall₂_take _ (List.forall₂_reverse_iff.mpr h))]
  rfl

theorem ClampedKnots.checks {p n : ℕ} {V : List K} (h : ClampedKnots 0 1 p n V) :
    (canonKnots p V).isClamped = .ok true ∧ (canonKnots p V).isNormed = .ok true := by
  have hl := h.length
  have hle := h.le
  have hc := h.clamp
  obtain ⟨b, h1, h2⟩ := C50_is_clamped (canonKnots_vector (p := p) V)
  obtain ⟨b', h3, h4⟩ := C50_is_normed (canonKnots_vector (p := p) V)
  have hdeg : (canonKnots p V).degree = p := rfl
  have e : ∀ i (hi : i < V.length), V[i] = fn V i := fun i hi => (fn_lt hi).symm
  refine ⟨h1.trans (congrArg _ (h2.2 ?_)), h3.trans (congrArg _ (h4.2 ⟨?_, ?_, h.unit⟩))⟩
  · intro i hi hip
    rw [hdeg] at hip
    exact ⟨by rw [e, hc.left _ hip], by rw [e, hc.right _ (by omega)]⟩
  · rw [← hc.left 0 (Nat.zero_le _), ← e 0 (by omega)]; exact List.getElem_mem _
  · rw [← hc.right (n + 1) le_rfl, ← e (n + 1) (by omega)]; exact List.getElem_mem _

/-! ### The merged knots -/

/-- what becomes of a right knot before the division -/
def rightR (F : Format K) (w : K) : K := F.rnd (F.rnd (1 - F.rnd (1 - w)) + 1)

/-- the values of the merged knots -/
def mergeR (F : Format K) (p m : ℕ) (V W : List K) : List K :=
  (V.take (m + 2) ++ (W.drop (p + 1)).map (rightR F)).map fun x => F.rnd (x / 2)

theorem rightR_mem (h2 : F.rnd 2 = 2) {w : K} (h0 : 0 ≤ w) (h1 : w ≤ 1) : 1 ≤ rightR F w ∧ rightR F w ≤ 2 := by
  have ha := F.rnd_unit (show 0 ≤ 1 - w by linarith) (by linarith)
  have hb := F.rnd_unit (show 0 ≤ 1 - F.rnd (1 - w) by linarith) (by linarith)
  constructor
  · have := F.mono 1 (F.rnd (1 - F.rnd (1 - w)) + 1) (by linarith)
    rwa [F.one] at this
  · have := F.mono (F.rnd (1 - F.rnd (1 - w)) + 1) 2 (by linarith)
    rwa [h2] at this

theorem rightR_one (h2 : F.rnd 2 = 2) : rightR F 1 = 2 := by
  rw [rightR, sub_self, F.rnd_zero, sub_zero, F.one, one_add_one_eq_two, h2]

theorem rightR_mono {w w' : K} (h : w ≤ w') : rightR F w ≤ rightR F w' := by
  apply F.mono
  have h1 := F.mono (1 - w') (1 - w) (by linarith)
  have h2 := F.mono (1 - F.rnd (1 - w)) (1 - F.rnd (1 - w')) (by linarith)
  linarith

theorem rightR_err {w : K} (hw : F.rnd w = w) (h0 : 0 ≤ w) (h1 : w ≤ 1) : |rightR F w - (w + 1)| ≤ 4 * F.eps := by
  have he := F.eps_nonneg
  have he1 := F.eps_lt_one
  have ha := F.rnd_unit (show 0 ≤ 1 - w by linarith) (by linarith)
  have hb := F.rnd_unit (show 0 ≤ 1 - F.rnd (1 - w) by linarith) (by linarith)
  have e1 := F.sub 1 w F.one hw
  have e2 := F.sub 1 (F.rnd (1 - w)) F.one (F.idem _)
  have e3 := F.add_err (F.idem (1 - F.rnd (1 - w))) F.one
  change |rightR F w - _| ≤ _ at e3
  rw [abs_of_nonneg (show 0 ≤ 1 - w by linarith)] at e1
  rw [abs_of_nonneg (show 0 ≤ 1 - F.rnd (1 - w) by linarith)] at e2
  rw [abs_of_nonneg (show 0 ≤ F.rnd (1 - F.rnd (1 - w)) + 1 by linarith)] at e3
  generalize F.rnd (1 - F.rnd (1 - w)) = b at *
  generalize F.rnd (1 - w) = a at *
  rw [abs_le] at *
  have q1 : F.eps * (b + 1) ≤ F.eps * 2 := mul_le_mul_of_nonneg_left (by linarith) he
  have q2 : F.eps * (1 - a) ≤ F.eps * 1 := mul_le_mul_of_nonneg_left (by linarith) he
  have q3 : F.eps * (1 - w) ≤ F.eps * 1 := mul_le_mul_of_nonneg_left (by linarith) he
  constructor <;> linarith

theorem is_mergedRaw (hm2 : 2 ≤ F.max) {p m o : ℕ} {Ua Ub : List (Ieee F)} {V W : List K}
    (hUa : List.Forall₂ Is Ua V) (hUb : List.Forall₂ Is Ub W) (hV : ClampedKnots 0 1 p m V)
    (hW : ClampedKnots 0 1 p o W) :
    List.Forall₂ Is (mergedRaw p m o Ua Ub) (V.take (m + 2) ++ (W.drop (p + 1)).map (rightR F)) := by
  rw [mergedRaw_free (hUa.length_eq.trans hV.length) (hUb.length_eq.trans hW.length) hV.le]
  refine List.rel_append (List.forall₂_take _ hUa) ?_
  rw [List.forall₂_map_left_iff, List.forall₂_map_right_iff]
  have h01 := hW.unit
  have := List.forall₂_drop (p + 1) hUb
  rw [List.forall₂_iff_get] at this ⊢
  refine ⟨this.1, fun i h h' => ?_⟩
  have hi := this.2 i h h'
  have hw := h01 _ (List.mem_of_mem_drop (List.get_mem _ ⟨i, h'⟩))
  generalize (List.drop (p + 1) W).get ⟨i, h'⟩ = w at *
  have ha := F.rnd_unit (show 0 ≤ 1 - w by linarith) (by linarith)
  have hb := F.rnd_unit (show 0 ≤ 1 - F.rnd (1 - w) by linarith) (by linarith)
  exact (is_reverseKnot (is_reverseKnot hi hw.1 hw.2) ha.1 ha.2).add is_one (by
    rw [abs_of_nonneg (by linarith)]; linarith)

theorem is_mergedU (h2 : F.rnd 2 = 2) (hm2 : 2 ≤ F.max) {p m o : ℕ} {Ua Ub : List (Ieee F)} {V W : List K}
    (hUa : List.Forall₂ Is Ua V) (hUb : List.Forall₂ Is Ub W) (hV : ClampedKnots 0 1 p m V)
    (hW : ClampedKnots 0 1 p o W) : List.Forall₂ Is (mergedU p m o Ua Ub) (mergeR F p m V W) := by
  have hraw := is_mergedRaw hm2 hUa hUb hV hW
  have hlV := hV.length
  have hlW := hW.length
  have hpm := hV.le
  have hpo := hW.le
  have hlast : Is (fn (mergedRaw p m o Ua Ub) (m + o + 2)) 2 := by
    have := fn_is hraw (m + o + 2)
    rw [fn_append_right (by simp) (by simp; omega), fn_map _ (by simp; omega), fn_drop (by simp; omega),
      List.length_take, hlV, show p + 1 + (m + o + 2 - min (m + 2) (m + p + 2)) = o + p + 1 by omega,
      hW.clamp.right _ (by omega), rightR_one h2] at this
    exact this
  rw [mergedU, mergeR, List.forall₂_map_left_iff, List.forall₂_map_right_iff]
  rw [List.forall₂_iff_get] at hraw ⊢
  refine ⟨hraw.1, fun i h h' => ?_⟩
  have hi := hraw.2 i h h'
  exact hi.div hlast two_ne_zero (by
    rw [abs_div, abs_two]
    have := hi.le_max
    have := abs_nonneg ((List.take (m + 2) V ++ List.map (rightR F) (List.drop (p + 1) W)).get ⟨i, h'⟩)
    linarith)

section Shape

variable {p m o : ℕ} {V W : List K}

theorem mergeR_length (hV : V.length = m + p + 2) (hW : W.length = o + p + 2) :
    (mergeR F p m V W).length = m + o + 3 := by
  simp [mergeR]; omega

theorem fn_mergeR_left (hV : V.length = m + p + 2) {i : ℕ} (hi : i ≤ m + 1) :
    fn (mergeR F p m V W) i = F.rnd (fn V i / 2) := by
  rw [mergeR, fn_map _ (by simp; omega), fn_append_left (by simp; omega), fn_take (by omega) (by omega)]

theorem fn_mergeR_right (hV : V.length = m + p + 2) (hW : W.length = o + p + 2) (hpm : p ≤ m) {j : ℕ} (hj : p < j)
    (hj' : j ≤ o + p + 1) : fn (mergeR F p m V W) (j + (m + 1 - p)) = F.rnd (rightR F (fn W j) / 2) := by
  rw [mergeR, fn_map _ (by simp; omega), fn_append_right (by simp; omega) (by simp; omega),
    fn_map _ (by simp; omega), fn_drop (by simp; omega), List.length_take, hV]
  congr 4
  omega

theorem mergeR_sorted (h2 : F.rnd 2 = 2) (hV : ClampedKnots 0 1 p m V) (hW : ClampedKnots 0 1 p o W) :
    (mergeR F p m V W).Pairwise (· ≤ ·) := by
  rw [mergeR, List.pairwise_map, List.pairwise_append, List.pairwise_map]
  have mono : ∀ {x y : K}, x ≤ y → F.rnd (x / 2) ≤ F.rnd (y / 2) := fun h => F.mono _ _ (by linarith)
  refine ⟨(hV.sorted.sublist (List.take_sublist _ _)).imp mono,
    (hW.sorted.sublist (List.drop_sublist _ _)).imp fun h => mono (rightR_mono h), ?_⟩
  intro x hx y hy
  simp only [List.mem_map] at hy
  obtain ⟨w, hw, rfl⟩ := hy
  have h1 := hV.unit x (List.mem_of_mem_take hx)
  have h3 := hW.unit w (List.mem_of_mem_drop hw)
  exact mono (h1.2.trans (rightR_mem h2 h3.1 h3.2).1)

theorem mergeR_first (hV : ClampedKnots 0 1 p m V) {i : ℕ} (hi : i ≤ p) : fn (mergeR F p m V W) i = 0 := by
  have := hV.le
  rw [fn_mergeR_left hV.length (by omega), hV.clamp.left _ hi, zero_div, F.rnd_zero]

theorem mergeR_last (h2 : F.rnd 2 = 2) (hV : ClampedKnots 0 1 p m V) (hW : ClampedKnots 0 1 p o W) {i : ℕ}
    (hi : m + o + 2 - p ≤ i) (hi' : i ≤ m + o + 2) : fn (mergeR F p m V W) i = 1 := by
  have hpm := hV.le
  have hpo := hW.le
  rw [show i = i - (m + 1 - p) + (m + 1 - p) by omega, fn_mergeR_right hV.length hW.length hpm (by omega) (by omega),
    hW.clamp.right _ (by omega), rightR_one h2, div_self two_ne_zero, F.one]

theorem half_err {x : K} (h0 : 0 ≤ x) : |F.rnd (x / 2) - x / 2| ≤ F.eps * (x / 2) + F.eta := by
  have := F.err (x / 2)
  rwa [abs_of_nonneg (show 0 ≤ x / 2 by linarith)] at this

theorem right_err (h2 : F.rnd 2 = 2) {w : K} (hw : F.rnd w = w) (h0 : 0 ≤ w) (h1 : w ≤ 1) :
    |F.rnd (rightR F w / 2) - (1 + w) / 2| ≤ 3 * F.eps + F.eta := by
  have he := F.eps_nonneg
  have hr := rightR_mem h2 h0 h1
  have e1 := rightR_err hw h0 h1
  have e2 := half_err (F := F) (show 0 ≤ rightR F w by linarith)
  have e3 : F.eps * (rightR F w / 2) ≤ F.eps * 1 := mul_le_mul_of_nonneg_left (by linarith) he
  rw [abs_le] at *
  constructor <;> linarith

theorem mergeR_clamped (h2 : F.rnd 2 = 2) (hV : ClampedKnots 0 1 p m V) (hW : ClampedKnots 0 1 p o W)
    (hrW : ∀ w ∈ W, F.rnd w = w)
    (hsV : ∀ x ∈ V, 0 < x → F.eps * (x / 2) + F.eta < x / 2) (hsW : ∀ w ∈ W, w < 1 → 6 * F.eps + 2 * F.eta < 1 - w) :
    ClampedKnots 0 1 p (m + o + 1 - p) (mergeR F p m V W) := by
  have hpm := hV.le
  have hpo := hW.le
  have hlV := hV.length
  have hlW := hW.length
  have hl := mergeR_length (F := F) hlV hlW
  have e : ∀ i (hi : i < (mergeR F p m V W).length), (mergeR F p m V W)[i] = fn (mergeR F p m V W) i :=
    fun i hi => (fn_lt hi).symm
  have hmemV : ∀ i, i < V.length → fn V i ∈ V := fun i hi => by rw [fn_lt hi]; exact List.getElem_mem _
  have hmemW : ∀ i, i < W.length → fn W i ∈ W := fun i hi => by rw [fn_lt hi]; exact List.getElem_mem _
  have hone := hsV 1 (by rw [← hV.clamp.right (m + 1) le_rfl]; exact hmemV _ (by omega)) one_pos
  have hhalf := half_err (F := F) (zero_le_one (α := K))
  rw [abs_le] at hhalf
  refine ⟨by omega, mergeR_sorted h2 hV hW, ?_, ?_, ?_, one_pos, by omega⟩
  · intro x hx
    obtain ⟨i, hi, rfl⟩ := List.mem_iff_getElem.mp hx
    simp only [List.length_take] at hi
    rw [List.getElem_take, e, mergeR_first hV (by omega)]
  · intro x hx
    obtain ⟨i, hi, rfl⟩ := List.mem_iff_getElem.mp hx
    simp only [List.length_drop] at hi
    rw [List.getElem_drop, e, mergeR_last h2 hV hW (by omega) (by omega)]
  · intro x hx
    obtain ⟨i, hi, rfl⟩ := List.mem_iff_getElem.mp hx
    simp only [List.length_take, List.length_drop] at hi
    rw [List.getElem_take, List.getElem_drop, e]
    by_cases hc : p + 1 + i ≤ m + 1
    · rw [fn_mergeR_left hlV hc]
      have hx0 : 0 < fn V (p + 1 + i) := by
        rcases Nat.lt_or_ge (p + 1 + i) (m + 1) with h | h
        · exact (hV.clamp.inner _ (by omega) (by omega)).1
        · rw [hV.clamp.right _ h]; exact one_pos
      have hx1 := (hV.unit _ (hmemV (p + 1 + i) (by omega))).2
      have h3 := half_err (F := F) hx0.le
      have h4 := hsV _ (hmemV (p + 1 + i) (by omega)) hx0
      have h5 := F.mono (fn V (p + 1 + i) / 2) (1 / 2) (by linarith)
      rw [abs_le] at h3
      constructor <;> linarith
    · rw [show p + 1 + i = p + 1 + i - (m + 1 - p) + (m + 1 - p) by omega,
        fn_mergeR_right hlV hlW hpm (by omega) (by omega)]
      have hin := hW.clamp.inner (p + 1 + i - (m + 1 - p)) (by omega) (by omega)
      have hm := hmemW (p + 1 + i - (m + 1 - p)) (by omega)
      have hr := rightR_mem h2 hin.1.le hin.2.le
      have h3 := right_err h2 (hrW _ hm) hin.1.le hin.2.le
      have h4 := hsW _ hm hin.2
      have h5 := F.mono (1 / 2) (rightR F (fn W (p + 1 + i - (m + 1 - p))) / 2) (by linarith)
      rw [abs_le] at h3
      constructor <;> linarith

end Shape

/-! ### Exact values in both halves -/

theorem eval_halfL {p m n : ℕ} {V R : List K} {S Q : List (Pt K d)} (hV : ClampedKnots 0 1 p m V)
    (hR : ClampedKnots 0 1 p n R) (hS : S.length = m + 1) (hQ : Q.length = n + 1) (hmn : m ≤ n)
    (hk : ∀ i, i ≤ m + 1 → fn R i = fn V i / 2) (hP : ∀ i, i + p ≤ m → fn Q i = fn S i) {y : K} (h0 : 0 ≤ y)
    (hy : 2 * y < fn V (m + 1 - p)) :
    (canon p R Q).evaluate y = (canon p V S).evaluate (2 * y) := by
  have hpm := hV.le
  have hc := hV.clamp
  have h1 : 2 * y < 1 := hy.trans_le (by rw [← hc.right (m + 1) le_rfl]; exact hc.mono (by omega))
  obtain ⟨j, hs⟩ := hc.exists_span (show 0 ≤ 2 * y by linarith) h1.le
  have hpj := hs.p_le hc
  have hjm : j + p ≤ m := by
    by_contra hcon
    have := hc.mono (show m + 1 - p ≤ j by omega)
    linarith [hs.lo]
  have hs' : IsSpan (fn R) n y j := by
    refine ⟨by omega, ?_, Or.inl ?_⟩
    · rw [hk _ (by omega)]; linarith [hs.lo]
    · rw [hk _ (by omega)]
      rcases hs.hi with h | ⟨-, h⟩
      · linarith
      · rw [hc.right _ le_rfl] at h; exact absurd h h1.ne
  rw [Curve.evaluate, Curve.evaluate, evaluateDerivative_eq hV hS (Nat.zero_le p) (by linarith) h1.le hs,
    evaluateDerivative_eq hR hQ (Nat.zero_le p) h0 (by linarith) hs']
  congr 2
  have := cv_affine (U := fun i => 2 * fn R i) (U' := fn R) (p := p) (c := 1 / 2) (e := 0) (by norm_num)
    (by intro i; ring) (fn Q) 0 j (2 * y)
  rw [show (1 / 2 : K) * (2 * y) + 0 = y by ring, pow_zero, one_smul] at this
  rw [this, cv, cv]
  apply bl_congr
  · intro i hi
    rw [List.length_replicate] at hi
    rw [shiftN_zero, shiftN_zero, hk _ (by omega)]
    ring
  · intro i hi
    rw [List.length_replicate] at hi
    exact hP _ (by omega)

theorem eval_halfR {p m o n s : ℕ} {W R : List K} {T Q : List (Pt K d)} (hW : ClampedKnots 0 1 p o W)
    (hR : ClampedKnots 0 1 p n R) (hT : T.length = o + 1) (hQ : Q.length = n + 1) (hpm : p ≤ m) (hp1 : 1 ≤ p)
    (hn : n = m + o + 1 - p) (hk : ∀ j, p < j → j ≤ o + p + 1 → fn R (j + (m + 1 - p)) = (fn W j + 1) / 2)
    (hsp : 2 * p ≤ s) (hP : ∀ j, s ≤ j + p → j ≤ o → fn Q (j + (m + 1 - p)) = fn T j) {y : K} (h1 : y ≤ 1)
    (hy0 : 0 ≤ 2 * y - 1) (hy : fn W s < 2 * y - 1) :
    (canon p R Q).evaluate y = (canon p W T).evaluate (2 * y - 1) := by
  have hpo := hW.le
  have hc := hW.clamp
  obtain ⟨j, hs⟩ := hc.exists_span hy0 (show 2 * y - 1 ≤ 1 by linarith)
  have hpj := hs.p_le hc
  have hjo := hs.le_n
  have hso : s ≤ o := by
    by_contra hcon
    rw [hc.right _ (by omega)] at hy
    linarith
  have hsj : s ≤ j := by
    by_contra hcon
    have := hc.mono (show j + 1 ≤ s by omega)
    rcases hs.hi with h | ⟨h, -⟩
    · linarith
    · omega
  have hs' : IsSpan (fn R) n y (j + (m + 1 - p)) := by
    · refine ⟨by omega, ?_, ?_⟩
      · rw [hk _ (by omega) (by omega)]; linarith [hs.lo]
      · rw [show j + (m + 1 - p) + 1 = j + 1 + (m + 1 - p) by omega, hk _ (by omega) (by omega)]
        rcases hs.hi with h | ⟨h, h'⟩
        · left; linarith
        · right
          refine ⟨by omega, ?_⟩
          rw [show n + 1 = o + 1 + (m + 1 - p) by omega, hk _ (by omega) (by omega)]
          linarith
  rw [Curve.evaluate, Curve.evaluate, evaluateDerivative_eq hW hT (Nat.zero_le p) hy0 (by linarith) hs,
    evaluateDerivative_eq hR hQ (Nat.zero_le p) (by linarith) h1 hs']
  congr 2
  have e1 := cv_affine (U := fun i => 2 * fn R i) (U' := fn R) (p := p) (c := 1 / 2) (e := 0) (by norm_num)
    (by intro i; ring) (fn Q) 0 (j + (m + 1 - p)) (2 * y)
  rw [show (1 / 2 : K) * (2 * y) + 0 = y by ring, pow_zero, one_smul] at e1
  have e2 := cv_affine (U := fn W) (U' := fun i => fn W i + 1) (p := p) (c := 1) (e := 1) one_ne_zero
    (by intro i; ring) (fn T) 0 j (2 * y - 1)
  rw [show (1 : K) * (2 * y - 1) + 1 = 2 * y by ring, pow_zero, one_smul] at e2
  rw [e1, ← e2, cv, cv]
  apply bl_congr
  · intro i hi
    rw [List.length_replicate] at hi
    rw [shiftN_zero, shiftN_zero]
    rw [show j + (m + 1 - p) - p + 1 + i = j - p + 1 + i + (m + 1 - p) by omega, hk _ (by omega) (by omega)]
    ring
  · intro i hi
    rw [List.length_replicate] at hi
    change fn Q _ = fn T _
    rw [show j + (m + 1 - p) - p + i = j - p + i + (m + 1 - p) by omega]
    exact hP _ (by omega) (by omega)

/-! ### Merging -/

section Main

variable {p m o : ℕ} {Ua Ub ua ub : List (Ieee F)} {V W : List K} {S T : List (Pt (Ieee F) d)}
  {a b : Curve (Ieee F) d}

theorem merge_core (hUa : List.Forall₂ Is Ua V) (hUb : List.Forall₂ Is Ub W)
    (hV : ClampedKnots 0 1 p m V) (hW : ClampedKnots 0 1 p o W) (hS : S.length = m + 1) (hT : T.length = o + 1)
    (ha : Built a p Ua S) (hb : Built b p Ub T) (hmo : m ≤ o) (hom : o < m + p) (hcon : ua.length + ub.length < p)
    (solver : Solver (Ieee F) d) :
    ∃ Q, mergeWithConstraints solver ⟨a, ⟨ua⟩⟩ ⟨b, ⟨ub⟩⟩ = .ok (.ok (canon p (mergedU p m o Ua Ub) Q)) ∧
      Q.length = m + o + 2 - p ∧ (∀ i, i + p ≤ m → fn Q i = fn S i) ∧
      (∀ i, o ≤ i → m < i → i ≤ m + o + 1 - p → fn Q i = fn T (i - (m + 1 - p))) := by
  have hpm := hV.le
  have hpo := hW.le
  have hlU : Ua.length = m + p + 2 := hUa.length_eq.trans hV.length
  have hlW : Ub.length = o + p + 2 := hUb.length_eq.trans hW.length
  obtain rfl := ha.ieee_eq hlU hpm hS
  obtain rfl := hb.ieee_eq hlW hpo hT
  refine ⟨mergedPts p m o Ua Ub (shiftL p m S (shiftsOf solver p m o Ua Ub ua ub S T))
    (shiftR p o T (shiftsOf solver p m o Ua Ub ua ub S T)), ?_, by simp [mergedPts], fun i hi => ?_, fun i h1 h2 h3 => ?_⟩
  · rw [merge_same solver ⟨canon p Ua S, ⟨ua⟩⟩ ⟨canon p Ub T, ⟨ub⟩⟩ rfl
      ((isClamped_is hUa).trans hV.checks.1) ((isClamped_is hUb).trans hW.checks.1)
      ((isNormed_is hUa).trans hV.checks.2) ((isNormed_is hUb).trans hW.checks.2)]
    simp only [Bool.and_self, Bool.true_eq_false, if_false]
    rw [if_neg (show ¬ (canon p Ua S).degree ≤ (⟨ua⟩ : Constraints (Ieee F)).count +
      (⟨ub⟩ : Constraints (Ieee F)).count from show ¬ p ≤ ua.length + ub.length by omega)]
    exact mergeBody_ok hlU hS hpm hlW hT hpo (by omega) hmo hom solver
  · rw [fn_mergedPts_left_free hpm hpo (by omega) (by omega), shiftL, fn_map_range _ (by omega), if_pos hi]
  · rw [fn_mergedPts_right_free hpm hmo hom (shiftR_length _ _ _ _) h1 h3, shiftR, fn_map_range _ (by omega),
      if_neg (by omega)]

/-- **C125** Merging succeeds exactly for the sizes for which it does in exact arithmetic, and panics otherwise. -/
theorem C125_outcome (hUa : List.Forall₂ Is Ua V) (hUb : List.Forall₂ Is Ub W)
    (hV : ClampedKnots 0 1 p m V) (hW : ClampedKnots 0 1 p o W) (hS : S.length = m + 1) (hT : T.length = o + 1)
    (ha : Built a p Ua S) (hb : Built b p Ub T) (hcon : ua.length + ub.length < p) (solver : Solver (Ieee F) d) :
    if m ≤ o ∧ o < m + p then ∃ c, mergeWithConstraints solver ⟨a, ⟨ua⟩⟩ ⟨b, ⟨ub⟩⟩ = .ok (.ok c)
    else ∃ e, mergeWithConstraints solver ⟨a, ⟨ua⟩⟩ ⟨b, ⟨ub⟩⟩ = .error e := by
  have hlU : Ua.length = m + p + 2 := hUa.length_eq.trans hV.length
  have hlW : Ub.length = o + p + 2 := hUb.length_eq.trans hW.length
  obtain rfl := ha.ieee_eq hlU hV.le hS
  obtain rfl := hb.ieee_eq hlW hW.le hT
  exact C29_outcome_partial ha hb hlU hS hV.le hlW hT hW.le ((isClamped_is hUa).trans hV.checks.1)
    ((isClamped_is hUb).trans hW.checks.1) ((isNormed_is hUa).trans hV.checks.2)
    ((isNormed_is hUb).trans hW.checks.2) hcon solver

/-- **C125** Merging in the arithmetic of a floating-point format succeeds for all pairs of clamped finite knots
on `[0, 1]` for which it succeeds in exact arithmetic, whatever the control points and the solutions of the
linear system are. The merged knots are finite, sorted and exactly clamped to `0` and `1`; the left ones are
rounded halves, the right ones are within `3 eps + eta` of the exact ones; they are valid if no knot is too close
to `0` in the left curve or to `1` in the right one. The outer control points are taken over bit by bit. -/
theorem C125_merge (h2 : F.rnd 2 = 2) (hm2 : 2 ≤ F.max) (hUa : List.Forall₂ Is Ua V) (hUb : List.Forall₂ Is Ub W)
    (hV : ClampedKnots 0 1 p m V) (hW : ClampedKnots 0 1 p o W) (hS : S.length = m + 1) (hT : T.length = o + 1)
    (ha : Built a p Ua S) (hb : Built b p Ub T) (hmo : m ≤ o) (hom : o < m + p) (hcon : ua.length + ub.length < p)
    (solver : Solver (Ieee F) d) :
    ∃ c U' R Q, mergeWithConstraints solver ⟨a, ⟨ua⟩⟩ ⟨b, ⟨ub⟩⟩ = .ok (.ok c) ∧ Built c p U' Q ∧
      List.Forall₂ Is U' R ∧ R.length = m + o + 3 ∧ R.Pairwise (· ≤ ·) ∧
      R.take (p + 1) = List.replicate (p + 1) 0 ∧ R.drop (m + o + 2 - p) = List.replicate (p + 1) 1 ∧
      List.Forall₂ (fun y x => y = F.rnd (x / 2) ∧ |y - x / 2| ≤ F.eps * (x / 2) + F.eta)
        (R.take (m + 2)) (V.take (m + 2)) ∧
      List.Forall₂ (fun y w => |y - (1 + w) / 2| ≤ 3 * F.eps + F.eta) (R.drop (m + 2)) (W.drop (p + 1)) ∧
      ((∀ x ∈ V, 0 < x → F.eps * (x / 2) + F.eta < x / 2) → (∀ w ∈ W, w < 1 → 6 * F.eps + 2 * F.eta < 1 - w) →
        ClampedKnots 0 1 p (m + o + 1 - p) R) ∧
      Q.length = m + o + 2 - p ∧ (∀ i, i + p ≤ m → Q[i]? = S[i]?) ∧
      (∀ i, o ≤ i → m < i → i ≤ m + o + 1 - p → Q[i]? = T[i - (m + 1 - p)]?) := by
  have hpm := hV.le
  have hpo := hW.le
  have hlV := hV.length
  have hlW := hW.length
  have hlR := mergeR_length (F := F) hlV hlW
  obtain ⟨Q, h, hQ, hl, hr⟩ := merge_core hUa hUb hV hW hS hT ha hb hmo hom hcon solver
  have hrepW : ∀ w ∈ W, F.rnd w = w := by
    intro x hx
    obtain ⟨i, hi, rfl⟩ := List.mem_iff_getElem.mp hx
    have := (fn_is hUb i).rep
    rwa [fn_lt hi] at this
  have e : ∀ i (hi : i < (mergeR F p m V W).length), (mergeR F p m V W)[i] = fn (mergeR F p m V W) i :=
    fun i hi => (fn_lt hi).symm
  refine ⟨_, mergedU p m o Ua Ub, mergeR F p m V W, Q, h, mkCurve_ok (n := m + o + 1 - p) (by omega) (by omega)
    (by rw [mergedU_length (hUa.length_eq.trans hlV) (hUb.length_eq.trans hlW) hpm]; omega),
    is_mergedU h2 hm2 hUa hUb hV hW, hlR, mergeR_sorted h2 hV hW, ?_, ?_, ?_, ?_,
    mergeR_clamped h2 hV hW hrepW, hQ, ?_, ?_⟩
  · apply List.ext_getElem (by simp; omega)
    intro i h1 h2
    simp only [List.length_take] at h1
    rw [List.getElem_take, e, mergeR_first hV (by omega), List.getElem_replicate]
  · apply List.ext_getElem (by simp; omega)
    intro i h1 h3
    simp only [List.length_drop] at h1
    rw [List.getElem_drop, e, mergeR_last h2 hV hW (by omega) (by omega), List.getElem_replicate]
  · rw [List.forall₂_iff_get]
    refine ⟨by simp; omega, fun i h1 h3 => ?_⟩
    simp only [List.length_take] at h1 h3
    have hx := hV.unit V[i] (List.getElem_mem (by omega))
    have hg := fn_mergeR_left (F := F) (W := W) hlV (show i ≤ m + 1 by omega)
    rw [fn_lt (by omega), fn_lt (by omega)] at hg
    simp only [List.get_eq_getElem, List.getElem_take, hg]
    exact ⟨trivial, half_err hx.1⟩
  · rw [List.forall₂_iff_get]
    refine ⟨by simp; omega, fun i h1 h3 => ?_⟩
    simp only [List.length_drop] at h1 h3
    have hm : W[p + 1 + i] ∈ W := List.getElem_mem (by omega)
    have hx := hW.unit _ hm
    have hg := fn_mergeR_right (F := F) hlV hlW hpm (show p < p + 1 + i by omega) (by omega)
    rw [fn_lt (by omega), fn_lt (by omega)] at hg
    simp only [List.get_eq_getElem, List.getElem_drop]
    rw [show (mergeR F p m V W)[m + 2 + i]'(by omega) = (mergeR F p m V W)[p + 1 + i + (m + 1 - p)]'(by omega) by
      congr 1; omega, hg]
    exact right_err h2 (hrepW _ hm) hx.1 hx.2
  · intro i hi
    have := hl i hi
    rw [fn_lt (by omega), fn_lt (by omega)] at this
    rw [List.getElem?_eq_getElem (by omega), List.getElem?_eq_getElem (by omega), this]
  · intro i h1 h3 h4
    have := hr i h1 h3 h4
    rw [fn_lt (by omega), fn_lt (by omega)] at this
    rw [List.getElem?_eq_getElem (by omega), List.getElem?_eq_getElem (by omega), this]

theorem mergeR_gap (h2 : F.rnd 2 = 2) (hV : ClampedKnots 0 1 p m V) (hW : ClampedKnots 0 1 p o W)
    (hrW : ∀ w ∈ W, F.rnd w = w) (hx : ∀ x ∈ V, F.rnd (x / 2) = x / 2) {h : K}
    (hgV : ∀ s ∈ V, ∀ t ∈ V, s < t → 2 * h ≤ t - s)
    (hgW : ∀ s ∈ W, ∀ t ∈ W, s < t → 2 * h + 12 * F.eps + 4 * F.eta ≤ t - s) :
    ∀ s ∈ mergeR F p m V W, ∀ t ∈ mergeR F p m V W, s < t → h ≤ t - s := by
  have he := F.eps_nonneg
  have heta := F.eta_nonneg
  have hpo := hW.le
  have hlW := hW.length
  have h0W : (0 : K) ∈ W := by
    rw [← hW.clamp.left 0 (Nat.zero_le _), fn_lt (by omega)]; exact List.getElem_mem _
  have key : ∀ s ∈ mergeR F p m V W, (∃ x ∈ V, x ≤ 1 ∧ s = x / 2) ∨
      ∃ w ∈ W, s = F.rnd (rightR F w / 2) ∧ |s - (1 + w) / 2| ≤ 3 * F.eps + F.eta ∧
        1 / 2 + h + 3 * F.eps ≤ s := by
    intro s hs
    simp only [mergeR, List.mem_map, List.mem_append] at hs
    obtain ⟨x, hxs | ⟨w, hw, rfl⟩, rfl⟩ := hs
    · have hm := List.mem_of_mem_take hxs
      exact Or.inl ⟨x, hm, (hV.unit x hm).2, hx x hm⟩
    · have hm := List.mem_of_mem_drop hw
      have hu := hW.unit w hm
      have herr := right_err h2 (hrW w hm) hu.1 hu.2
      refine Or.inr ⟨w, hm, rfl, herr, ?_⟩
      have hpos : 0 < w := by
        obtain ⟨i, hi, rfl⟩ := List.mem_iff_getElem.mp hw
        simp only [List.length_drop] at hi
        rw [List.getElem_drop, ← fn_lt (by omega)]
        rcases Nat.lt_or_ge o (p + 1 + i) with hlt | hge
        · rw [hW.clamp.right _ (by omega)]; exact one_pos
        · exact (hW.clamp.inner _ (by omega) (by omega)).1
      have := hgW 0 h0W w hm hpos
      rw [abs_le] at herr
      linarith
  intro s hs t ht hst
  rcases key s hs with ⟨x, hxV, hx1, rfl⟩ | ⟨w, hw, hs1, hs2, hs3⟩ <;>
    rcases key t ht with ⟨x', hxV', hx1', rfl⟩ | ⟨w', hw', ht1, ht2, ht3⟩
  · have := hgV x hxV x' hxV' (by linarith)
    linarith
  · linarith
  · by_contra hcon
    have hh : h < 0 ∨ 0 ≤ h := lt_or_ge _ _
    rcases hh with hh | hh <;> linarith
  · have hlt : w < w' := by
      by_contra hcon
      have := F.mono (rightR F w' / 2) (rightR F w / 2)
        (div_le_div_of_nonneg_right (rightR_mono (not_lt.mp hcon)) zero_le_two)
      rw [← hs1, ← ht1] at this
      linarith
    have := hgW w hw w' hw' hlt
    rw [abs_le] at hs2 ht2
    linarith

/-- the merged curve of C125, with valid knots whose gaps are known -/
theorem merge_fine (h2 : F.rnd 2 = 2) (hm2 : 2 ≤ F.max) (hUa : List.Forall₂ Is Ua V) (hUb : List.Forall₂ Is Ub W)
    (hV : ClampedKnots 0 1 p m V) (hW : ClampedKnots 0 1 p o W) (hS : S.length = m + 1) (hT : T.length = o + 1)
    (ha : Built a p Ua S) (hb : Built b p Ub T) (hmo : m ≤ o) (hom : o < m + p) (hcon : ua.length + ub.length < p)
    (solver : Solver (Ieee F) d) (hx : ∀ x ∈ V, F.rnd (x / 2) = x / 2) {h : K} (hh : F.eps * h + F.eta < h)
    (hgV : ∀ s ∈ V, ∀ t ∈ V, s < t → 2 * h ≤ t - s)
    (hgW : ∀ s ∈ W, ∀ t ∈ W, s < t → 2 * h + 12 * F.eps + 4 * F.eta ≤ t - s) {c : Curve (Ieee F) d}
    {Q : List (Pt (Ieee F) d)} (hc : mergeWithConstraints solver ⟨a, ⟨ua⟩⟩ ⟨b, ⟨ub⟩⟩ = .ok (.ok c))
    (hQ : c.points.matrix = .ok Q) :
    c = canon p (mergedU p m o Ua Ub) Q ∧ Q.length = m + o + 2 - p ∧ (∀ i, i + p ≤ m → fn Q i = fn S i) ∧
      (∀ i, o ≤ i → m < i → i ≤ m + o + 1 - p → fn Q i = fn T (i - (m + 1 - p))) ∧
      List.Forall₂ Is (mergedU p m o Ua Ub) (mergeR F p m V W) ∧
      ClampedKnots 0 1 p (m + o + 1 - p) (mergeR F p m V W) ∧
      ∀ s ∈ mergeR F p m V W, ∀ t ∈ mergeR F p m V W, s < t → h ≤ t - s := by
  have he := F.eps_nonneg
  have he1 := F.eps_lt_one
  have heta := F.eta_nonneg
  have hpm := hV.le
  have hpo := hW.le
  have hlV := hV.length
  have hlW := hW.length
  obtain ⟨Q', h', hQ', hl, hr⟩ := merge_core hUa hUb hV hW hS hT ha hb hmo hom hcon solver
  rw [hc] at h'
  injection h' with h'; injection h' with h'
  subst h'
  rw [canon_matrix] at hQ
  injection hQ with hQ
  subst hQ
  have hrepW : ∀ w ∈ W, F.rnd w = w := by
    intro x hx
    obtain ⟨i, hi, rfl⟩ := List.mem_iff_getElem.mp hx
    have := (fn_is hUb i).rep
    rwa [fn_lt hi] at this
  have h0V : (0 : K) ∈ V := by
    rw [← hV.clamp.left 0 (Nat.zero_le _), fn_lt (by omega)]; exact List.getElem_mem _
  have h1W : (1 : K) ∈ W := by
    rw [← hW.clamp.right (o + 1) le_rfl, fn_lt (by omega)]; exact List.getElem_mem _
  have hh0 : 0 < h := by
    by_contra hneg
    have : F.eps * (-h) ≤ 1 * (-h) := mul_le_mul_of_nonneg_right he1.le (by linarith)
    linarith
  refine ⟨rfl, hQ', hl, hr, is_mergedU h2 hm2 hUa hUb hV hW, mergeR_clamped h2 hV hW hrepW ?_ ?_,
    mergeR_gap h2 hV hW hrepW hx hgV hgW⟩
  · intro x hxV hx0
    have := hgV 0 h0V x hxV hx0
    have h3 : (1 - F.eps) * h ≤ (1 - F.eps) * (x / 2) := mul_le_mul_of_nonneg_left (by linarith) (by linarith)
    linarith
  · intro w hw hw1
    have := hgW w hw 1 h1W hw1
    linarith

/-- **C125** In the part of the merged curve that the merging leaves alone, the first curve can be read off: if all
merged control points are finite and the halves of the left knots are exact, the computed value at `y` is within
the rounding error of C124 of the exact value of the first curve at `2 y`, for all `2 y` before the knot
`V[m + 1 - p]`. -/
theorem C125_left (hroom : Room F p) (h2 : F.rnd 2 = 2) (hm2 : 2 ≤ F.max) (hUa : List.Forall₂ Is Ua V)
    (hUb : List.Forall₂ Is Ub W) {e : Curve K d} {Sx : List (Pt K d)} (he : ValidOn 0 1 e p m V Sx)
    (hW : ClampedKnots 0 1 p o W) (hS : List.Forall₂ PtIs S Sx) (hT : T.length = o + 1)
    (ha : Built a p Ua S) (hb : Built b p Ub T) (hmo : m ≤ o) (hom : o < m + p) (hcon : ua.length + ub.length < p)
    (solver : Solver (Ieee F) d) (hx : ∀ x ∈ V, F.rnd (x / 2) = x / 2) {h : K} (hh : F.eps * h + F.eta < h)
    (hgV : ∀ s ∈ V, ∀ t ∈ V, s < t → 2 * h ≤ t - s)
    (hgW : ∀ s ∈ W, ∀ t ∈ W, s < t → 2 * h + 12 * F.eps + 4 * F.eta ≤ t - s) (hhm : 2 / h ≤ F.max)
    {c : Curve (Ieee F) d} {Q : List (Pt (Ieee F) d)}
    (hc : mergeWithConstraints solver ⟨a, ⟨ua⟩⟩ ⟨b, ⟨ub⟩⟩ = .ok (.ok c)) (hQ : c.points.matrix = .ok Q)
    (hfin : ∀ q ∈ Q, ∃ q', PtIs q q') {u : Ieee F} {y z : K} (hu : Is u y) (h0 : 0 ≤ y) (hz : V[m + 1 - p]? = some z)
    (hy : 2 * y < z) :
    ∃ (v : Pt (Ieee F) d) (w : Pt K d), c.evaluate u = .ok (.ok v) ∧ e.evaluate (2 * y) = .ok (.ok w) ∧
      ∀ (r : Fin d) (M : K), 0 ≤ M → (∀ (i : ℕ) q s t, Sx[i]? = some q → V[i]? = some s → V[i + p + 1]? = some t →
        s ≤ 2 * y → 2 * y ≤ t → |q r| ≤ M) → 4 * (M + 1) ≤ F.max →
      ∃ x, Is (v r) x ∧ |x - w r| ≤ (F.phi ^ (6 * p + 2) - 1) * M +
          (p + 1) * 3 ^ (p + 3) * (M + 1) * F.eta := by
  obtain rfl := he.eq_canon
  obtain ⟨-, hV, hSx⟩ := he
  have hpm := hV.le
  have hpo := hW.le
  have hlV := hV.length
  have hlW := hW.length
  obtain ⟨rfl, hlQ, hl, -, hU, hR, hgap⟩ := merge_fine h2 hm2 hUa hUb hV hW (hS.length_eq.trans hSx) hT ha hb hmo hom
    hcon solver hx hh hgV hgW hc hQ
  have hlR := mergeR_length (F := F) hlV hlW
  have hh0 : 0 < h := by
    have he := F.eps_nonneg
    have he1 := F.eps_lt_one
    have heta := F.eta_nonneg
    by_contra hneg
    have : F.eps * (-h) ≤ 1 * (-h) := mul_le_mul_of_nonneg_right he1.le (by linarith)
    linarith
  have hzf : fn V (m + 1 - p) = z := by
    rw [List.getElem?_eq_getElem (by omega)] at hz
    injection hz with hz
    rw [fn_lt (by omega), hz]
  have hkn : ∀ i, i ≤ m + 1 → fn (mergeR F p m V W) i = fn V i / 2 := by
    intro i hi
    rw [fn_mergeR_left hlV hi, hx]
    rw [fn_lt (by omega)]; exact List.getElem_mem _
  have h1 : 2 * y < 1 := hy.trans_le (by
    rw [← hzf, ← hV.clamp.right (m + 1) le_rfl]; exact hV.clamp.mono (by omega))
  choose! g hg using hfin
  have hQx : List.Forall₂ PtIs Q (Q.map g) := by
    rw [List.forall₂_map_right_iff, List.forall₂_same]; exact hg
  have hsame : ∀ i, i + p ≤ m → fn (Q.map g) i = fn Sx i := by
    intro i hi
    funext r
    have e1 := fn_ptIs hQx i r
    rw [hl i hi] at e1
    exact e1.unique (fn_ptIs hS i r)
  obtain ⟨v, w, e1, e2, e3⟩ := C124_evaluate hroom (mkCurve_ok (n := m + o + 1 - p) (by omega) (by omega)
    (by rw [hU.length_eq, hlR]; omega)) (validOn_canon hR (by simp; omega)) hU hQx hu h0 (by linarith) hh0 hgap hhm
  refine ⟨v, w, e1, ?_, fun r M hM0 hM hmax => e3 r M hM0 ?_ hmax⟩
  · rw [← e2]
    exact (eval_halfL hV hR hSx (by simp; omega) (by omega) hkn hsame h0 (by rw [hzf]; exact hy)).symm
  · intro i q s t hq hs ht hsy hyt
    have hiR := (List.getElem?_eq_some_iff.mp hs).1
    rw [List.getElem?_eq_getElem hiR, ← fn_lt hiR] at hs
    injection hs with hs
    have hi : i + p ≤ m := by
      by_contra hcon
      have := hR.clamp.mono (show m + 1 - p ≤ i by omega)
      rw [hkn _ (by omega), hzf, hs] at this
      linarith
    have htR := (List.getElem?_eq_some_iff.mp ht).1
    rw [List.getElem?_eq_getElem htR, ← fn_lt htR] at ht
    injection ht with ht
    rw [hkn _ (by omega)] at hs ht
    have hiQ := (List.getElem?_eq_some_iff.mp hq).1
    rw [List.getElem?_eq_getElem hiQ, ← fn_lt hiQ] at hq
    injection hq with hq
    rw [hsame i hi] at hq
    exact hM i q (fn V i) (fn V (i + p + 1)) (by rw [List.getElem?_eq_getElem (by omega), ← hq, fn_lt (by omega)])
      (by rw [List.getElem?_eq_getElem (by omega), fn_lt (by omega)])
      (by rw [List.getElem?_eq_getElem (by omega), fn_lt (by omega)]) (by linarith) (by linarith)

/-- **C125** The same at the other end, if the right knots can be moved by one and halved without rounding (as
multiples of `2^-52` can in `f64`). -/
theorem C125_right (hroom : Room F p) (h2 : F.rnd 2 = 2) (hm2 : 2 ≤ F.max) (hUa : List.Forall₂ Is Ua V)
    (hUb : List.Forall₂ Is Ub W) {e : Curve K d} {Tx : List (Pt K d)} (he : ValidOn 0 1 e p o W Tx)
    (hV : ClampedKnots 0 1 p m V) (hS : S.length = m + 1) (hT : List.Forall₂ PtIs T Tx)
    (ha : Built a p Ua S) (hb : Built b p Ub T) (hmo : m ≤ o) (hom : o < m + p) (hcon : ua.length + ub.length < p)
    (solver : Solver (Ieee F) d) (hx : ∀ x ∈ V, F.rnd (x / 2) = x / 2)
    (hw : ∀ w ∈ W, F.rnd (1 - w) = 1 - w ∧ F.rnd (w + 1) = w + 1 ∧ F.rnd ((w + 1) / 2) = (w + 1) / 2)
    {h : K} (hh : F.eps * h + F.eta < h) (hgV : ∀ s ∈ V, ∀ t ∈ V, s < t → 2 * h ≤ t - s)
    (hgW : ∀ s ∈ W, ∀ t ∈ W, s < t → 2 * h + 12 * F.eps + 4 * F.eta ≤ t - s) (hhm : 2 / h ≤ F.max)
    {c : Curve (Ieee F) d} {Q : List (Pt (Ieee F) d)}
    (hc : mergeWithConstraints solver ⟨a, ⟨ua⟩⟩ ⟨b, ⟨ub⟩⟩ = .ok (.ok c)) (hQ : c.points.matrix = .ok Q)
    (hfin : ∀ q ∈ Q, ∃ q', PtIs q q') {u : Ieee F} {y z : K} (hu : Is u y) (h1 : y ≤ 1)
    (hz : W[2 * p + (o - 1 - m)]? = some z) (hy : z < 2 * y - 1) :
    ∃ (v : Pt (Ieee F) d) (w : Pt K d), c.evaluate u = .ok (.ok v) ∧ e.evaluate (2 * y - 1) = .ok (.ok w) ∧
      ∀ (r : Fin d) (M : K), 0 ≤ M → (∀ (i : ℕ) q s t, Tx[i]? = some q → W[i]? = some s → W[i + p + 1]? = some t →
        s ≤ 2 * y - 1 → 2 * y - 1 ≤ t → |q r| ≤ M) → 4 * (M + 1) ≤ F.max →
      ∃ x, Is (v r) x ∧ |x - w r| ≤ (F.phi ^ (6 * p + 2) - 1) * M +
          (p + 1) * 3 ^ (p + 3) * (M + 1) * F.eta := by
  obtain rfl := he.eq_canon
  obtain ⟨-, hW, hTx⟩ := he
  have hpm := hV.le
  have hpo := hW.le
  have hlV := hV.length
  have hlW := hW.length
  obtain ⟨rfl, hlQ, -, hr, hU, hR, hgap⟩ := merge_fine h2 hm2 hUa hUb hV hW hS (hT.length_eq.trans hTx) ha hb hmo hom
    hcon solver hx hh hgV hgW hc hQ
  have hlR := mergeR_length (F := F) hlV hlW
  have hh0 : 0 < h := by
    have he := F.eps_nonneg
    have he1 := F.eps_lt_one
    have heta := F.eta_nonneg
    by_contra hneg
    have : F.eps * (-h) ≤ 1 * (-h) := mul_le_mul_of_nonneg_right he1.le (by linarith)
    linarith
  have hzl := (List.getElem?_eq_some_iff.mp hz).1
  have hzf : fn W (2 * p + (o - 1 - m)) = z := by
    rw [List.getElem?_eq_getElem hzl] at hz
    injection hz with hz
    rw [fn_lt hzl, hz]
  have hz0 : 0 ≤ z := (hW.unit z (List.mem_of_getElem? hz)).1
  have hkn : ∀ j, p < j → j ≤ o + p + 1 → fn (mergeR F p m V W) (j + (m + 1 - p)) = (fn W j + 1) / 2 := by
    intro j hj hj'
    have hm : fn W j ∈ W := by rw [fn_lt (by omega)]; exact List.getElem_mem _
    obtain ⟨q1, q2, q3⟩ := hw _ hm
    have hrep := (fn_is hUb j).rep
    rw [fn_mergeR_right hlV hlW hpm hj hj', rightR, q1, sub_sub_cancel, hrep, q2, q3]
  have hkn' : ∀ j, p ≤ j → j ≤ o + p + 1 → fn (mergeR F p m V W) (j + (m + 1 - p)) = (fn W j + 1) / 2 := by
    intro j hj hj'
    rcases hj.eq_or_lt with rfl | hj
    · have h1V : (1 : K) ∈ V := by
        rw [← hV.clamp.right (m + 1) le_rfl, fn_lt (by omega)]; exact List.getElem_mem _
      rw [show p + (m + 1 - p) = m + 1 by omega, fn_mergeR_left hlV le_rfl, hV.clamp.right _ le_rfl, hx 1 h1V,
        hW.clamp.left _ le_rfl, zero_add]
    · exact hkn j hj hj'
  choose! g hg using hfin
  have hQx : List.Forall₂ PtIs Q (Q.map g) := by
    rw [List.forall₂_map_right_iff, List.forall₂_same]; exact hg
  have hsame : ∀ j, 2 * p + (o - 1 - m) ≤ j + p → j ≤ o → fn (Q.map g) (j + (m + 1 - p)) = fn Tx j := by
    intro j hj hj'
    funext r
    have e1 := fn_ptIs hQx (j + (m + 1 - p)) r
    rw [hr _ (by omega) (by omega) (by omega), show j + (m + 1 - p) - (m + 1 - p) = j by omega] at e1
    exact e1.unique (fn_ptIs hT j r)
  obtain ⟨v, w, e1, e2, e3⟩ := C124_evaluate hroom (mkCurve_ok (n := m + o + 1 - p) (by omega) (by omega)
    (by rw [hU.length_eq, hlR]; omega)) (validOn_canon hR (by simp; omega)) hU hQx hu (by linarith) h1 hh0 hgap hhm
  refine ⟨v, w, e1, ?_, fun r M hM0 hM hmax => e3 r M hM0 ?_ hmax⟩
  · rw [← e2]
    exact (eval_halfR hW hR hTx (by simp; omega) hpm (by omega) rfl hkn (by omega) hsame h1 (by linarith)
      (by rw [hzf]; exact hy)).symm
  · intro i q s t hq hs ht hsy hyt
    have hiR := (List.getElem?_eq_some_iff.mp hs).1
    have htR := (List.getElem?_eq_some_iff.mp ht).1
    have hiQ := (List.getElem?_eq_some_iff.mp hq).1
    rw [List.length_map] at hiQ
    rw [List.getElem?_eq_getElem hiR, ← fn_lt hiR] at hs
    injection hs with hs
    rw [List.getElem?_eq_getElem htR, ← fn_lt htR] at ht
    injection ht with ht
    have hi : 2 * p + (o - 1 - m) + (m + 1 - p) < i + p + 1 := by
      by_contra hcon
      have := hR.clamp.mono (show i + p + 1 ≤ 2 * p + (o - 1 - m) + (m + 1 - p) by omega)
      rw [hkn' _ (by omega) (by omega), hzf, ht] at this
      linarith
    obtain ⟨j, rfl⟩ : ∃ j, i = j + (m + 1 - p) := ⟨i - (m + 1 - p), by omega⟩
    rw [hkn' _ (by omega) (by omega)] at hs
    rw [show j + (m + 1 - p) + p + 1 = j + p + 1 + (m + 1 - p) by omega, hkn' _ (by omega) (by omega)] at ht
    rw [List.getElem?_eq_getElem (by simp; omega), ← fn_lt (by simp; omega)] at hq
    injection hq with hq
    rw [hsame j (by omega) (by omega)] at hq
    exact hM j q (fn W j) (fn W (j + p + 1)) (by rw [List.getElem?_eq_getElem (by omega), ← hq, fn_lt (by omega)])
      (by rw [List.getElem?_eq_getElem (by omega), fn_lt (by omega)])
      (by rw [List.getElem?_eq_getElem (by omega), fn_lt (by omega)]) (by linarith) (by linarith)

end Main

/-! ### Double precision -/

theorem two64 : binary64.rnd 2 = 2 ∧ 2 ≤ binary64.max := by decide +kernel

/-- **C125** For `f64`: if no left knot lies in `(0, 2^-1000)` and no right knot in `(1 - 2^-50, 1)`, merging gives
valid knots that deviate by at most `2^-51` from the exact ones. -/
theorem C125_f64 {p m o : ℕ} {Ua Ub ua ub : List (Ieee binary64)} {V W : List ℚ} {S T : List (Pt (Ieee binary64) d)}
    {a b : Curve (Ieee binary64) d} (hUa : List.Forall₂ Is Ua V) (hUb : List.Forall₂ Is Ub W)
    (hV : ClampedKnots 0 1 p m V) (hW : ClampedKnots 0 1 p o W) (hS : S.length = m + 1) (hT : T.length = o + 1)
    (ha : Built a p Ua S) (hb : Built b p Ub T) (hmo : m ≤ o) (hom : o < m + p) (hcon : ua.length + ub.length < p)
    (hsV : ∀ x ∈ V, 0 < x → (1 / 2) ^ 1000 ≤ x) (hsW : ∀ w ∈ W, w < 1 → (1 / 2) ^ 50 ≤ 1 - w)
    (solver : Solver (Ieee binary64) d) :
    ∃ c U' R Q, mergeWithConstraints solver ⟨a, ⟨ua⟩⟩ ⟨b, ⟨ub⟩⟩ = .ok (.ok c) ∧ Built c p U' Q ∧
      List.Forall₂ Is U' R ∧ ClampedKnots 0 1 p (m + o + 1 - p) R ∧ Q.length = m + o + 2 - p ∧
      List.Forall₂ (fun y x => |y - x / 2| ≤ (1 / 2) ^ 51) (R.take (m + 2)) (V.take (m + 2)) ∧
      List.Forall₂ (fun y w => |y - (1 + w) / 2| ≤ (1 / 2) ^ 51) (R.drop (m + 2)) (W.drop (p + 1)) ∧
      (∀ i, i + p ≤ m → Q[i]? = S[i]?) ∧
      (∀ i, o ≤ i → m < i → i ≤ m + o + 1 - p → Q[i]? = T[i - (m + 1 - p)]?) := by
  have heta : binary64.eta = (1 / 2) ^ 1075 := by
    change (1 / 2 * 2 ^ ((-1022 : ℤ) - 52) : ℚ) = _
    decide +kernel
  have heps : binary64.eps = (1 / 2) ^ 53 := rfl
  have c1 : (1 / 2 : ℚ) ^ 1075 < (1 / 2) ^ 1000 * ((1 - (1 / 2) ^ 53) / 2) := by decide +kernel
  have c2 : 6 * (1 / 2 : ℚ) ^ 53 + 2 * (1 / 2) ^ 1075 < (1 / 2) ^ 50 := by decide +kernel
  have c3 : 3 * (1 / 2 : ℚ) ^ 53 + (1 / 2) ^ 1075 ≤ (1 / 2) ^ 51 := by decide +kernel
  obtain ⟨c, U', R, Q, h1, h2, h3, -, -, -, -, h4, h5, h6, h7, h8, h9⟩ :=
    C125_merge two64.1 two64.2 hUa hUb hV hW hS hT ha hb hmo hom hcon solver
  rw [heta, heps] at h4 h5 h6
  have hu := hV.unit
  generalize (1 / 2 : ℚ) ^ 1075 = q at *
  generalize (1 / 2 : ℚ) ^ 1000 = h at *
  have hpos : (0 : ℚ) < (1 - (1 / 2) ^ 53) / 2 := by norm_num
  refine ⟨c, U', R, Q, h1, h2, h3, h6 ?_ ?_, h7, ?_, h5.imp fun _ _ h => h.trans c3, h8, h9⟩
  · intro x hx hx0
    have := mul_le_mul_of_nonneg_right (hsV x hx hx0) hpos.le
    linarith
  · intro w hw hw1
    exact c2.trans_le (hsW w hw hw1)
  · rw [List.forall₂_iff_get] at h4 ⊢
    refine ⟨h4.1, fun i k1 k2 => ((h4.2 i k1 k2).2).trans ?_⟩
    have hx := (hu _ (List.mem_of_mem_take (List.get_mem _ ⟨i, k2⟩))).2
    generalize (List.take (m + 2) V).get ⟨i, k2⟩ = x at *
    refine le_trans ?_ c3
    have : (1 / 2 : ℚ) ^ 53 * (x / 2) ≤ (1 / 2) ^ 53 * 1 := mul_le_mul_of_nonneg_left (by linarith) (by positivity)
    have h53 : (0 : ℚ) < (1 / 2) ^ 53 := by positivity
    linarith

/-- **C125** Without these conditions merging can lose interior knots: the smallest positive number becomes a knot
at `0`, a knot at `2^-54` becomes one at the junction, and the largest number below `1` a knot at `1`. The result
is returned as a success. -/
theorem C125_collapse (solver : Solver (Ieee binary64) d) {S T : List (Pt (Ieee binary64) d)} (hS : S.length = 4)
    (hT : T.length = 4) :
    ∃ (a b c : Curve (Ieee binary64) d) (Ua Ub U' : List (Ieee binary64)) (Q : List (Pt (Ieee binary64) d)),
      Built a 1 Ua S ∧ Built b 1 Ub T ∧ ClampedKnots 0 1 1 3 (Ua.map exactOf) ∧ ClampedKnots 0 1 1 3 (Ub.map exactOf) ∧
      merge solver a b = .ok (.ok c) ∧ Built c 1 U' Q ∧ U'.map exactOf = [0, 0, 0, 1 / 4, 1 / 2, 1 / 2, 1, 1, 1] := by
  let Ua : List (Ieee binary64) := [0, 0, eq64 ((1 / 2) ^ 1074), eq64 (1 / 2), 1, 1]
  let Ub : List (Ieee binary64) := [0, 0, eq64 ((1 / 2) ^ 54), eq64 (1 - (1 / 2) ^ 53), 1, 1]
  have hV : ClampedKnots 0 1 1 3 (Ua.map exactOf) := by decide +kernel
  have hW : ClampedKnots 0 1 1 3 (Ub.map exactOf) := by decide +kernel
  have ha : Built (canon 1 Ua S) 1 Ua S := mkCurve_ok (n := 3) hS (by decide) (by decide)
  have hb : Built (canon 1 Ub T) 1 Ub T := mkCurve_ok (n := 3) hT (by decide) (by decide)
  obtain ⟨Q, h1, h2, -⟩ := merge_core (ua := []) (ub := []) (forall₂_exactOf (by decide +kernel))
    (forall₂_exactOf (by decide +kernel)) hV hW hS hT ha hb le_rfl (by decide) (by decide) solver
  exact ⟨_, _, _, Ua, Ub, _, Q, ha, hb, hV, hW, h1, mkCurve_ok (n := 6) h2 (by decide) (by decide +kernel),
    by decide +kernel⟩

/-! ### A concrete case -/

def mgU : List (Ieee binary64) := [0, 0, 0, eq64 (1 / 10), 1, 1, 1]
def mgU' : List (Ieee binary64) := [0, 0, 0, eq64 (1 / 4), eq64 (7 / 8), 1, 1, 1]

example : List.Forall₂ Is mgU (mgU.map exactOf) ∧ List.Forall₂ Is mgU' (mgU'.map exactOf) :=
  ⟨forall₂_exactOf (by decide +kernel), forall₂_exactOf (by decide +kernel)⟩
example : ClampedKnots 0 1 2 3 (mgU.map exactOf) ∧ ClampedKnots 0 1 2 4 (mgU'.map exactOf) := by decide +kernel
example : (∀ x ∈ mgU.map exactOf, 0 < x → (1 / 2) ^ 1000 ≤ x) ∧ ∀ w ∈ mgU'.map exactOf, w < 1 → (1 / 2) ^ 50 ≤ 1 - w := by
  decide +kernel
example : (∀ x ∈ mgU.map exactOf, binary64.rnd (x / 2) = x / 2) ∧ ∀ w ∈ mgU'.map exactOf, binary64.rnd (1 - w) = 1 - w ∧
    binary64.rnd (w + 1) = w + 1 ∧ binary64.rnd ((w + 1) / 2) = (w + 1) / 2 := by decide +kernel
/-- the right end of the merged knots is exact, `0.1` is halved exactly -/
example : (mergedU 2 3 4 mgU mgU').map exactOf =
    [0, 0, 0, exactOf (eq64 (1 / 10)) / 2, 1 / 2, 5 / 8, 15 / 16, 1, 1, 1] := by decide +kernel
example : binary64.eps * (1 / 64) + binary64.eta < (1 / 64 : ℚ) ∧
    (∀ s ∈ mgU.map exactOf, ∀ t ∈ mgU.map exactOf, s < t → 2 * (1 / 64) ≤ t - s) ∧
    (∀ s ∈ mgU'.map exactOf, ∀ t ∈ mgU'.map exactOf, s < t →
      2 * (1 / 64) + 12 * binary64.eps + 4 * binary64.eta ≤ t - s) ∧ 2 / (1 / 64) ≤ binary64.max := by
  decide +kernel

end BSpline
