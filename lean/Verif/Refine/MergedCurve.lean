import Verif.Refine.Joins
import Verif.Refine.Normalize
import Verif.Theory.Junction

/-!
# The merged curve over an ordered field
-/

set_option linter.unusedSectionVars false

namespace BSpline

open Finset

variable {K : Type} [Field K] [LinearOrder K] [IsStrictOrderedRing K] {d : ℕ}
variable {p m o : ℕ} {V W : List K} {S T S' T' : List (Pt K d)}

/-- knots of both curves one after the other, the right ones moved to `[1, 2]` -/
def mknots (p m : ℕ) (V W : List K) (i : ℕ) : K :=
  if i ≤ m + 1 then fn V i else fn W (i - (m + 1) + p) + 1

theorem mknots_left {i : ℕ} (h : i ≤ m + 1) : mknots p m V W i = fn V i := if_pos h

theorem mknots_right (hV : ClampedKnots 0 1 p m V) (hW : ClampedKnots 0 1 p o W) {x : ℕ} (hx : p ≤ x) :
    mknots p m V W (x + (m + 1 - p)) = fn W x + 1 := by
  have := hV.le
  rw [mknots]
  split
  · obtain rfl : x = p := by omega
    rw [show x + (m + 1 - x) = m + 1 by omega, hV.clamp.right _ le_rfl, hW.clamp.left _ le_rfl, zero_add]
  · congr 2; omega

theorem fn_mergedRaw (hV : ClampedKnots 0 1 p m V) (hW : ClampedKnots 0 1 p o W) {i : ℕ}
    (hi : i ≤ m + o + 2) : fn (mergedRaw p m o V W) i = mknots p m V W i := by
  have hlV := hV.length
  have hlW := hW.length
  have hpm := hV.le
  have hpo := hW.le
  have hv : (vadj p o (reverseKnots W) (reverseKnots V)).length = o + p + 2 :=
    vadj_length (o := m) (by rw [reverseKnots_length]; exact hlW) (by rw [reverseKnots_length]; exact hlV) hpm
  rw [mergedRaw, mknots]
  split
  · rw [fn_append_left (by simp; omega), fn_take (by omega) (by omega)]
  · rw [fn_append_right (by simp; omega)
      (by simp only [List.length_take, List.length_drop, List.length_map, reverseKnots_length, hv]; omega),
      List.length_take, show min (m + 2) V.length = m + 2 by omega,
      fn_drop (by rw [List.length_map, reverseKnots_length, hv]; omega),
      fn_map _ (by rw [reverseKnots_length, hv]; omega)]
    congr 1
    rw [reverseKnots_eq, fn_revU (by rw [hv]; omega), hv, vadj,
      fn_append_left (by rw [List.length_take, reverseKnots_length]; omega),
      fn_take (by omega) (by rw [reverseKnots_length]; omega), reverseKnots_eq, fn_revU (by omega), hlW]
    rw [sub_sub_cancel]
    congr 1; omega

theorem mknots_last (hV : ClampedKnots 0 1 p m V) (hW : ClampedKnots 0 1 p o W) {i : ℕ}
    (hi : m + o + 2 - p ≤ i) : mknots p m V W i = 2 := by
  have := hV.le
  have := hW.le
  rw [show i = (i - (m + 1 - p)) + (m + 1 - p) by omega, mknots_right hV hW (by omega),
    hW.clamp.right _ (by omega)]
  norm_num

theorem fn_mergedU (hV : ClampedKnots 0 1 p m V) (hW : ClampedKnots 0 1 p o W) (i : ℕ) :
    fn (mergedU p m o V W) i = (1 / 2) * mknots p m V W i + 0 := by
  have hl := mergedRaw_length hV.length hW.length hV.le
  have hl' := mergedU_length hV.length hW.length hV.le
  have hlast : fn (mergedRaw p m o V W) (m + o + 2) = 2 := by
    rw [fn_mergedRaw hV hW le_rfl, mknots_last hV hW (by omega)]
  have key : ∀ i, i ≤ m + o + 2 → fn (mergedU p m o V W) i = (1 / 2) * mknots p m V W i + 0 := by
    intro i hi
    rw [mergedU, fn_map _ (by omega), hlast, fn_mergedRaw hV hW hi]
    ring
  by_cases hi : i ≤ m + o + 2
  · exact key i hi
  · rw [fn_ge (by omega), fn_last (by omega), hl', key _ (by omega), mknots_last hV hW (by omega),
      mknots_last hV hW (by omega)]

theorem mknots_clamp (hV : ClampedKnots 0 1 p m V) (hW : ClampedKnots 0 1 p o W) :
    Clamp (mknots p m V W) p (m + o + 1 - p) 0 2 := by
  have hpm := hV.le
  have hpo := hW.le
  have cV := hV.clamp
  have cW := hW.clamp
  have split : ∀ i, m + 1 ≤ i → mknots p m V W i = fn W (i - (m + 1 - p)) + 1 := by
    intro i hi
    have := mknots_right hV hW (x := i - (m + 1 - p)) (by omega)
    rwa [show i - (m + 1 - p) + (m + 1 - p) = i by omega] at this
  refine ⟨?_, ?_, ?_, ?_, by norm_num, by omega⟩
  · intro i j hij
    by_cases hj : j ≤ m + 1
    · rw [mknots_left hj, mknots_left (by omega)]; exact cV.mono hij
    · by_cases hi : i ≤ m + 1
      · rw [mknots_left hi, split j (by omega)]
        have h1 := cV.le_b i
        have h2 := cW.a_le (j - (m + 1 - p))
        linarith
      · rw [split i (by omega), split j (by omega)]
        have := cW.mono (show i - (m + 1 - p) ≤ j - (m + 1 - p) by omega)
        linarith
  · intro i hi
    rw [mknots_left (by omega)]; exact cV.left i hi
  · intro i hi
    exact mknots_last hV hW (by omega)
  · intro i h1 h2
    by_cases hi : i ≤ m + 1
    · rw [mknots_left hi]
      have h3 := cV.a_lt h1
      have h4 := cV.le_b i
      exact ⟨h3, by linarith⟩
    · rw [split i (by omega)]
      have h3 := cW.a_le (i - (m + 1 - p))
      have h4 := cW.lt_b (show i - (m + 1 - p) ≤ o by omega)
      exact ⟨by linarith, by linarith⟩

theorem mergedU_clamped (hV : ClampedKnots 0 1 p m V) (hW : ClampedKnots 0 1 p o W) :
    ClampedKnots 0 1 p (m + o + 1 - p) (mergedU p m o V W) := by
  have hpm := hV.le
  have hpo := hW.le
  have hc := mknots_clamp hV hW
  have hU := fn_mergedU hV hW
  apply ClampedKnots.of_clamp (by rw [mergedU_length hV.length hW.length hpm]; omega)
  refine ⟨?_, ?_, ?_, ?_, one_pos, hc.le⟩
  · intro i j hij
    rw [hU, hU]; have := hc.mono hij; linarith
  · intro i hi; rw [hU, hc.left i hi]; ring
  · intro i hi; rw [hU, hc.right i hi]; ring
  · intro i h1 h2
    obtain ⟨h3, h4⟩ := hc.inner i h1 h2
    rw [hU]
    constructor <;> linarith

theorem span_left (hV : ClampedKnots 0 1 p m V) (hW : ClampedKnots 0 1 p o W) {u : K} {j : ℕ}
    (h1 : u < 1) (hs : IsSpan (fn V) m u j) : IsSpan (mknots p m V W) (m + o + 1 - p) u j := by
  have hpo := hW.le
  have hj := hs.le_n
  refine ⟨by omega, ?_, Or.inl ?_⟩
  · rw [mknots_left (by omega)]; exact hs.lo
  · rw [mknots_left (by omega)]
    rcases hs.hi with h | ⟨-, h⟩
    · exact h
    · rw [hV.clamp.right _ le_rfl] at h; exact absurd h h1.ne

theorem span_right (hV : ClampedKnots 0 1 p m V) (hW : ClampedKnots 0 1 p o W) {u : K} {j : ℕ}
    (hs : IsSpan (fn W) o u j) :
    IsSpan (mknots p m V W) (m + o + 1 - p) (u + 1) (j + (m + 1 - p)) := by
  have hpo := hW.le
  have hpm := hV.le
  have hj := hs.le_n
  have hpj := hs.p_le hW.clamp
  refine ⟨by omega, ?_, ?_⟩
  · rw [mknots_right hV hW hpj]; linarith [hs.lo]
  · rw [show j + (m + 1 - p) + 1 = j + 1 + (m + 1 - p) by omega, mknots_right hV hW (by omega)]
    rcases hs.hi with h | ⟨h, h'⟩
    · left; linarith
    · right
      refine ⟨by omega, ?_⟩
      rw [h', show m + o + 1 - p + 1 = o + 1 + (m + 1 - p) by omega, mknots_right hV hW (by omega)]

/-- evaluation of a curve with the merged knots in its first half -/
theorem eval_left (hV : ClampedKnots 0 1 p m V) (hW : ClampedKnots 0 1 p o W) {Q : List (Pt K d)}
    (hQ : Q.length = m + o + 2 - p) (hS' : S'.length = m + 1) {u : K} {j k : ℕ} (hk : k ≤ p) (h0 : 0 ≤ u)
    (h1 : u < 1) (hs : IsSpan (fn V) m u j)
    (hbl : ∀ ts : List K, ts.length = p → bl (mknots p m V W) ts (fn Q) (j - p) = bl (fn V) ts (fn S') (j - p)) :
    ∃ w, (canon p V S').evaluateDerivative u k = .ok (.ok w) ∧
      (canon p (mergedU p m o V W) Q).evaluateDerivative (u / 2) k = .ok (.ok ((2 : K) ^ k • w)) := by
  have hpm := hV.le
  have hpo := hW.le
  refine ⟨_, evaluateDerivative_eq hV hS' hk h0 h1.le hs, ?_⟩
  have hs' := (isSpan_affine (t := u) (by norm_num : (0 : K) < 1 / 2) (fn_mergedU hV hW)).mpr (span_left hV hW h1 hs)
  have hcv := cv_affine (t := u) (p := p) (by norm_num : (1 / 2 : K) ≠ 0) (fn_mergedU hV hW) (fn Q) k j
  rw [show (1 / 2 : K) * u + 0 = u / 2 by ring] at hs' hcv
  rw [evaluateDerivative_eq (mergedU_clamped hV hW) (by omega) hk (by linarith) (by linarith) hs', hcv]
  congr 3
  · norm_num
  · exact cv_congr_of_bl hbl k hk _ (by simp)

/-- evaluation of a curve with the merged knots in its second half -/
theorem eval_right (hV : ClampedKnots 0 1 p m V) (hW : ClampedKnots 0 1 p o W) {Q : List (Pt K d)}
    (hQ : Q.length = m + o + 2 - p) (hT' : T'.length = o + 1) {u : K} {j k : ℕ} (hk : k ≤ p) (h0 : 0 ≤ u)
    (h1 : u ≤ 1) (hs : IsSpan (fn W) o u j)
    (hbl : ∀ ts : List K, ts.length = p → bl (mknots p m V W) ts (fn Q) (j - p + (m + 1 - p)) =
      bl (fun i => fn W i + 1) ts (fn T') (j - p)) :
    ∃ w, (canon p W T').evaluateDerivative u k = .ok (.ok w) ∧
      (canon p (mergedU p m o V W) Q).evaluateDerivative ((1 + u) / 2) k = .ok (.ok ((2 : K) ^ k • w)) := by
  have hpm := hV.le
  have hpo := hW.le
  have hpj := hs.p_le hW.clamp
  refine ⟨_, evaluateDerivative_eq hW hT' hk h0 h1 hs, ?_⟩
  have hs' := (isSpan_affine (t := u + 1) (by norm_num : (0 : K) < 1 / 2) (fn_mergedU hV hW)).mpr (span_right hV hW hs)
  have hcv := cv_affine (t := u + 1) (p := p) (by norm_num : (1 / 2 : K) ≠ 0) (fn_mergedU hV hW) (fn Q) k
    (j + (m + 1 - p))
  rw [show (1 / 2 : K) * (u + 1) + 0 = (1 + u) / 2 by ring] at hs' hcv
  rw [evaluateDerivative_eq (mergedU_clamped hV hW) (by omega) hk (by linarith) (by linarith) hs', hcv]
  congr 3
  · norm_num
  · have h := cv_affine (U := fn W) (U' := fun i => fn W i + 1) (c := 1) (e := 1) (p := p) (t := u) one_ne_zero
      (by intro i; ring) (fn T') k j
    rw [one_mul, inv_one, one_pow, one_smul] at h
    rw [← h]
    refine cv_congr_of_bl (fun ts hts => ?_) k hk _ (by simp)
    rw [show j + (m + 1 - p) - p = j - p + (m + 1 - p) by omega]
    exact hbl ts hts

/-- the polar forms of the last left and the first right piece agree at the junction -/
theorem junction_bl (hV : ClampedKnots 0 1 p m V) (hW : ClampedKnots 0 1 p o W)
    (h : ∀ k, k < p → dpt (fn V) p (fn S') k (m - k) = dpt (fn W) p (fn T') k 0)
    {l ts : List K} (hl : l.length = p) (hp : l.Perm (1 :: ts)) :
    bl (fn V) l (fn S') (m - p) = bl (fun i => fn W i + 1) l (fn T') 0 := by
  have cV := hV.clamp
  have cW := hW.clamp
  have w1 := win_of_span cV.mono cV.le ((isSpan_end cV).lt cV)
  have w2 := win_of_span cW.mono le_rfl ((isSpan_start cW).lt cW)
  rw [Nat.sub_self] at w2
  have w3 : Win (fun i => fn W i + 1) p 0 := by
    intro i hi k hk e
    exact w2 i hi k hk (by simpa using e)
  rw [bl_perm hp (by rw [hl]; exact w1), bl_perm hp (by rw [hl]; exact w3)]
  have hlen := hp.length_eq
  rw [hl, List.length_cons] at hlen
  refine junction p 1 w1 w3 ?_ ts hlen.symm
  intro k hk
  have e1 := cv_end cV hk.le (fn S')
  have e2 := cv_start cW hk.le (fn T')
  have h3 := cv_affine (U := fn W) (U' := fun i => fn W i + 1) (c := 1) (e := 1) (p := p) (t := 0) one_ne_zero
      (by intro i; ring) (fn T') k p
  rw [mul_zero, zero_add, inv_one, one_pow, one_smul, e2] at h3
  rw [cv] at e1 h3
  rw [Nat.sub_self] at h3
  rw [e1, h3, h k hk]

theorem perm_knots_junction {p m i : ℕ} {M : ℕ → K} (hM : M (m + 1) = 1) (h1 : i ≤ m) (h2 : m + 1 ≤ i + p) :
    ∃ ts, (knotsFrom M (i + 1) p).Perm (1 :: ts) := by
  refine ⟨knotsFrom M (i + 1) (m - i) ++ knotsFrom M (m + 2) (i + p - (m + 1)), ?_⟩
  have e1 := knotsFrom_append M (i + 1) (m - i) (i + p - m)
  rw [show m - i + (i + p - m) = p by omega, show i + 1 + (m - i) = m + 1 by omega,
    show i + p - m = i + p - (m + 1) + 1 by omega, knotsFrom_succ, hM] at e1
  rw [e1]
  exact List.perm_middle

/-- control points that continue both curves -/
structure Continues (p m o : ℕ) (V W : List K) (S' T' : List (Pt K d)) (Q : ℕ → Pt K d) : Prop where
  left : ∀ i, i + p ≤ m + 1 → Q i = fn S' i
  right : ∀ l, p ≤ l + 1 → l ≤ o → Q (l + (m + 1 - p)) = fn T' l
  mid : ∀ i, i < m → m + 1 < i + p → Q i = bl (fn V) (knotsFrom (mknots p m V W) (i + 1) p) (fn S') (m - p)

theorem Continues.bl_left {Q : ℕ → Pt K d} (hQ : Continues p m o V W S' T' Q) (hV : ClampedKnots 0 1 p m V)
    (hW : ClampedKnots 0 1 p o W)
    (h : ∀ k, k < p → dpt (fn V) p (fn S') k (m - k) = dpt (fn W) p (fn T') k 0) {j : ℕ} (hpj : p ≤ j)
    (hjm : j ≤ m) (hj : fn V j < fn V (j + 1)) (ts : List K) (hts : ts.length = p) :
    bl (mknots p m V W) ts Q (j - p) = bl (fn V) ts (fn S') (j - p) := by
  have cV := hV.clamp
  have cW := hW.clamp
  refine glue_left cV.mono (mknots_clamp hV hW).mono (fun x hx => mknots_left hx) hpj hjm hj
    ((isSpan_end cV).lt cV) (fun i _ _ hi => hQ.left i hi) ?_ ts hts
  intro i h1 h2 h3
  by_cases him : i < m
  · exact hQ.mid i him h3
  · obtain rfl : i = m := by omega
    have hM : mknots p i V W (i + 1) = 1 := by rw [mknots_left le_rfl, cV.right _ le_rfl]
    obtain ⟨us, hus⟩ := perm_knots_junction (p := p) hM le_rfl (by omega)
    rw [junction_bl hV hW h (by simp) hus]
    have hr := hQ.right (p - 1) (by omega) (by have := hW.le; omega)
    rw [show p - 1 + (i + 1 - p) = i by omega] at hr
    have w2 := win_of_span cW.mono le_rfl ((isSpan_start cW).lt cW)
    rw [Nat.sub_self] at w2
    have w3 : Win (fun i => fn W i + 1) p 0 := by
      intro i hi k hk e
      exact w2 i hi k hk (by simpa using e)
    have hd := bl_dual (P := fn T') p (p - 1) (by omega) w3
    rw [hr, ← show (0 + (p - 1)) = p - 1 by omega, ← hd]
    congr 1
    apply knotsFrom_congr
    intro x hx
    rw [show 0 + (p - 1) + 1 + x = p + x by omega, show i + 1 + x = p + x + (i + 1 - p) by omega,
      mknots_right hV hW (by omega)]

theorem Continues.bl_right {Q : ℕ → Pt K d} (hQ : Continues p m o V W S' T' Q) (hV : ClampedKnots 0 1 p m V)
    (hW : ClampedKnots 0 1 p o W)
    (h : ∀ k, k < p → dpt (fn V) p (fn S') k (m - k) = dpt (fn W) p (fn T') k 0) {j : ℕ} (hpj : p ≤ j)
    (hjo : j ≤ o) (hj : fn W j < fn W (j + 1)) (ts : List K) (hts : ts.length = p) :
    bl (mknots p m V W) ts Q (j - p + (m + 1 - p)) = bl (fun i => fn W i + 1) ts (fn T') (j - p) := by
  have cV := hV.clamp
  have cW := hW.clamp
  have hpm := hV.le
  refine glue_right (fun x y hxy => by simpa using cW.mono hxy) (mknots_clamp hV hW).mono
    (fun x hx => mknots_right hV hW hx) hpj (by simpa using hj)
    (by simpa using (isSpan_start cW).lt cW) (fun i _ h2 hi => hQ.right i hi (by omega)) ?_ ts hts
  intro i h1 h2 h3
  have hM : mknots p m V W (m + 1) = 1 := by rw [mknots_left le_rfl, cV.right _ le_rfl]
  obtain ⟨us, hus⟩ := perm_knots_junction (p := p) (i := i + (m + 1 - p)) hM (by omega) (by omega)
  rw [← junction_bl hV hW h (by simp) hus]
  by_cases hi : i + (m + 1 - p) + p ≤ m + 1
  · rw [hQ.left _ hi]
    have w1 := win_of_span cV.mono cV.le ((isSpan_end cV).lt cV)
    have hd := bl_dual (P := fn S') p (i + (m + 1 - p) - (m - p)) (by omega) w1
    rw [show m - p + (i + (m + 1 - p) - (m - p)) = i + (m + 1 - p) by omega] at hd
    rw [← hd]
    congr 1
    apply knotsFrom_congr
    intro x hx
    rw [mknots_left (by omega)]
  · exact hQ.mid _ (by omega) (by omega)

/-! ### Control points of the merged curve -/

theorem fn_mergedPts_left (hpm : p ≤ m) (hpo : p ≤ o) {i : ℕ} (h : i + p ≤ m + 1) (hi : i < m) :
    fn (mergedPts p m o V W S' T') i = fn S' i := by
  rw [mergedPts, fn_map_range _ (by omega), mergedP, if_pos hi, sadj, fn_map_range _ (by omega), adjP,
    if_pos (by omega)]

theorem fn_mergedPts_right (hpm : p ≤ m) (hmo : m ≤ o) (hom : o < m + p) (hT' : T'.length = o + 1) {i : ℕ}
    (h : o ≤ i) (hi : i ≤ m + o + 1 - p) :
    fn (mergedPts p m o V W S' T') i = fn T' (i - (m + 1 - p)) := by
  rw [mergedPts, fn_map_range _ (by omega), mergedP, if_neg (by omega), tadj, fn_reverse (by simp; omega),
    List.length_map, List.length_range, fn_map_range _ (by omega), adjP, if_pos (by omega),
    fn_reverse (by omega), hT']
  congr 1
  omega

@[simp] theorem mergedPts_length : (mergedPts p m o V W S' T').length = m + o + 2 - p := by
  simp [mergedPts]

/-- Whatever the control points of a curve with the merged knots are, its halves are curves with the
knots of both inputs that join smoothly. -/
theorem continues_exists (hV : ClampedKnots 0 1 p m V) (hW : ClampedKnots 0 1 p o W) (h1 : 1 ≤ p)
    (Q : ℕ → Pt K d) : ∃ S' T' : List (Pt K d), S'.length = m + 1 ∧ T'.length = o + 1 ∧
      Continues p m o V W S' T' Q ∧
      ∀ k, k < p → dpt (fn V) p (fn S') k (m - k) = dpt (fn W) p (fn T') k 0 := by
  have hpm := hV.le
  have hpo := hW.le
  have cV := hV.clamp
  have cW := hW.clamp
  have cM := mknots_clamp hV hW
  have wV := win_of_span cV.mono cV.le ((isSpan_end cV).lt cV)
  have wW := win_of_span cW.mono le_rfl ((isSpan_start cW).lt cW)
  rw [Nat.sub_self] at wW
  have wW1 : Win (fun i => fn W i + 1) p 0 := by
    intro i hi k hk e
    exact wW i hi k hk (by simpa using e)
  have sM : mknots p m V W m < mknots p m V W (m + 1) := by
    rw [mknots_left (by omega), mknots_left le_rfl]
    exact (isSpan_end cV).lt cV
  have sM' : mknots p m V W (m + 1) < mknots p m V W (m + 1 + 1) := by
    have e1 := mknots_right hV hW (x := p) le_rfl
    have e2 := mknots_right hV hW (x := p + 1) (by omega)
    rw [show p + (m + 1 - p) = m + 1 by omega] at e1
    rw [show p + 1 + (m + 1 - p) = m + 1 + 1 by omega] at e2
    rw [e1, e2]
    have := (isSpan_start cW).lt cW
    linarith
  have wM := win_of_span cM.mono hpm sM
  have wM' := win_of_span cM.mono (show p ≤ m + 1 by omega) sM'
  obtain ⟨S', hS', eS⟩ := exists_list m (fun i => if i + p ≤ m then Q i else
    bl (mknots p m V W) (knotsFrom (fn V) (i + 1) p) Q (m - p))
  obtain ⟨T', hT', eT⟩ := exists_list o (fun l => if p ≤ l then Q (l + (m + 1 - p)) else
    bl (mknots p m V W) (knotsFrom (fun i => fn W i + 1) (l + 1) p) Q (m + 1 - p))
  have left : ∀ i, i + p ≤ m + 1 → Q i = fn S' i := by
    intro i hi
    rw [eS i (by omega)]
    split
    · rfl
    · have := bl_dual (P := Q) p (i - (m - p)) (by omega) wM
      rw [show m - p + (i - (m - p)) = i by omega] at this
      rw [← this]
      congr 1
      exact knotsFrom_congr (fun x hx => mknots_left (by omega))
  have right : ∀ l, p ≤ l + 1 → l ≤ o → Q (l + (m + 1 - p)) = fn T' l := by
    intro l hl hlo
    rw [eT l hlo]
    split
    · rfl
    · have := bl_dual (P := Q) p l (by omega) wM'
      rw [show m + 1 - p + l = l + (m + 1 - p) by omega] at this
      rw [← this]
      congr 1
      apply knotsFrom_congr
      intro x hx
      rw [show l + (m + 1 - p) + 1 + x = l + 1 + x + (m + 1 - p) by omega, mknots_right hV hW (by omega)]
  have blL : ∀ ts : List K, ts.length = p →
      bl (fn V) ts (fn S') (m - p) = bl (mknots p m V W) ts Q (m - p) := by
    refine bl_change p wM wV ?_
    intro i hi
    rw [eS _ (by omega)]
    split
    · have := bl_dual (P := Q) p i hi wM
      rw [← this]
      congr 1
      exact knotsFrom_congr (fun x hx => mknots_left (by omega))
    · rfl
  have blR : ∀ ts : List K, ts.length = p →
      bl (fun i => fn W i + 1) ts (fn T') 0 = bl (mknots p m V W) ts Q (m + 1 - p) := by
    refine bl_change p wM' wW1 ?_
    intro i hi
    rw [Nat.zero_add, eT _ (by omega)]
    split
    · have := bl_dual (P := Q) p i hi wM'
      rw [show i + (m + 1 - p) = m + 1 - p + i by omega, ← this]
      congr 1
      apply knotsFrom_congr
      intro x hx
      rw [show m + 1 - p + i + 1 + x = i + 1 + x + (m + 1 - p) by omega, mknots_right hV hW (by omega)]
    · rfl
  refine ⟨S', T', hS', hT', ⟨left, right, ?_⟩, ?_⟩
  · intro i him hi
    rw [blL _ (by simp)]
    have := bl_dual (P := Q) p (i - (m - p)) (by omega) wM
    rw [show m - p + (i - (m - p)) = i by omega] at this
    exact this.symm
  · intro k hk
    rw [← cv_end cV hk.le, ← cv_start cW hk.le]
    have h3 := cv_affine (U := fn W) (U' := fun i => fn W i + 1) (c := 1) (e := 1) (p := p) (t := 0) one_ne_zero
      (by intro i; ring) (fn T') k p
    rw [mul_zero, zero_add, inv_one, one_pow, one_smul] at h3
    rw [← h3]
    have c1 : cv (fn V) p (fn S') k m 1 = cv (mknots p m V W) p Q k m 1 :=
      cv_congr_of_bl blL k hk.le _ (by simp)
    have c2 : cv (fun i => fn W i + 1) p (fn T') k p 1 = cv (mknots p m V W) p Q k (m + 1) 1 :=
      cv_congr_of_bl (j := m + 1) (j' := p) (by rw [Nat.sub_self]; exact blR) k hk.le _ (by simp)
    rw [c1, c2, cv, cv]
    have hsh : ∀ i, shiftN k (mknots p m V W) i = mknots p m V W (i + k) := fun i => rfl
    have hM : Monotone (shiftN k (mknots p m V W)) := fun x y hxy => cM.mono (by omega)
    have w1 := win_of_span hM (p := p - k) (j := m - k) (by omega) (by
      rw [hsh, hsh, show m - k + k = m by omega, show m - k + 1 + k = m + 1 by omega]; exact sM)
    have w2 := win_of_span hM (p := p - k) (j := m + 1 - k) (by omega) (by
      rw [hsh, hsh, show m + 1 - k + k = m + 1 by omega, show m + 1 - k + 1 + k = m + 1 + 1 by omega]; exact sM')
    rw [show m - k - (p - k) = m - p by omega] at w1
    rw [show m + 1 - k - (p - k) = m - p + 1 by omega] at w2
    have := bl_glue_perm (U := shiftN k (mknots p m V W)) (P := dpt (mknots p m V W) p Q k) (a := m - p) (s := 1)
      (p := p - k) (l := List.replicate (p - k) 1) (ts := List.replicate (p - k - 1) 1) (by simp) (by
        have e : knotsFrom (shiftN k (mknots p m V W)) (m - p + (p - k) + 1) 1 = [1] := by
          rw [knotsFrom_succ, hsh, show m - p + (p - k) + 1 + k = m + 1 by omega, mknots_left le_rfl,
            cV.right _ le_rfl]
          rfl
        rw [e, ← List.replicate_succ', show p - k - 1 + 1 = p - k by omega]) w1 w2
    rw [this, show m - p + 1 = m + 1 - p by omega]

/-- with at most two middle knots nothing is left between the parts taken from both curves -/
theorem continues_small (hV : ClampedKnots 0 1 p m V) (hW : ClampedKnots 0 1 p m W) (hp2 : p ≤ 2)
    (h1 : 1 ≤ p) (hT' : T'.length = m + 1)
    (h : ∀ k, k < p → dpt (fn V) p (fn S') k (m - k) = dpt (fn W) p (fn T') k 0) :
    Continues p m m V W S' T' (fn (mergedPts p m m V W S' T')) := by
  have hpm := hV.le
  refine ⟨?_, ?_, ?_⟩
  · intro i hi
    by_cases him : i < m
    · exact fn_mergedPts_left hpm hpm hi him
    · obtain rfl : i = m := by omega
      obtain rfl : p = 1 := by omega
      rw [fn_mergedPts_right hpm le_rfl (by omega) hT' le_rfl (by omega)]
      have := h 0 (by omega)
      simp only [dpt, Nat.sub_zero] at this
      rw [this]
      congr 1; omega
  · intro l hl hlo
    rw [fn_mergedPts_right hpm le_rfl (by omega) hT' (by omega) (by omega)]
    congr 1; omega
  · intro i h1 h2; omega

end BSpline
