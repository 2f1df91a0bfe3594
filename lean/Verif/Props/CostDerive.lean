import Verif.Model.CostDerive
import Verif.Props.Cost
import Verif.Refine.Shape

/-!
# The number of calls of `derive_single_point`: C136
-/

set_option linter.unusedSectionVars false

namespace BSpline

open Finset

section
variable {K : Type} [Add K] [Sub K] [Mul K] [Div K] [Neg K] [Zero K] [One K] [NatCast K] [Cmp K] {d : ℕ}

/-! ### The counting functions return the results of the model -/

theorem deriveSinglePointT_counts (cp : ControlPoints K d) (kn : Knots K) (k : ℕ) :
    ∀ i, Counts (cp.deriveSinglePointT kn k i) (cp.deriveSinglePoint kn k i) := by
  induction k with
  | zero =>
    intro i
    simp only [ControlPoints.deriveSinglePointT, ControlPoints.deriveSinglePoint]
    refine .bind_same _ fun P => ?_
    cases column P i <;> rfl
  | succ k ih =>
    intro i
    simp only [ControlPoints.deriveSinglePointT, ControlPoints.deriveSinglePoint]
    exact .bind_same _ fun _ => .bind_same _ fun _ => .bind_same _ fun _ => .ite rfl <|
      .bind_same _ fun _ => .bind_same _ fun _ => .bind_same _ fun _ => (ih _).bind fun _ _ =>
      (ih _).bind fun _ _ => rfl

theorem Counts.mapM {α : Type} {f : ℕ → Exec (α × ℕ)} {g : ℕ → Exec α} (h : ∀ i, Counts (f i) (g i)) (l : List ℕ) :
    (l.mapM f).map (List.map Prod.fst) = l.mapM g := by
  induction l with
  | nil => rfl
  | cons i l ih =>
    rw [List.mapM_cons, List.mapM_cons, ← h i, ← ih]
    cases f i with
    | error e => rfl
    | ok a => cases l.mapM f <;> rfl

theorem deriveT_counts (cp : ControlPoints K d) (kn : Knots K) : Counts (cp.deriveT kn) (cp.derive kn) := by
  rw [ControlPoints.deriveT, ControlPoints.derive]
  refine .bind_same _ fun n => .bind ?_ fun _ _ => rfl
  refine Counts.foldlM (fun Pk t k => .bind_same _ fun nk => ?_) _ _ _
  rw [← Counts.mapM (deriveSinglePointT_counts _ kn k)]
  cases (List.range (nk + 1)).mapM (ControlPoints.deriveSinglePointT ⟨Pk, cp.kMax⟩ kn k) <;> rfl

theorem calculateDerivativesT_counts (c : Curve K d) : Counts c.calculateDerivativesT c.calculateDerivatives :=
  .bind_same _ fun _ => (deriveT_counts _ _).bind fun _ _ => rfl

theorem mkCurveT_counts (p : ℕ) (U : List K) (P : List (Pt K d)) : Counts (mkCurveT p U P) (mkCurve p U P) := by
  refine .bind_same _ fun kn => ?_
  rw [Curve.newT, Curve.new]
  exact .bind_same _ fun n => .ite rfl <| (calculateDerivativesT_counts _).bind fun _ _ => rfl

theorem insertT_counts (c : Curve K d) (u : K) : Counts (insertT c u) (insert c u) := by
  rw [insertT, insert]
  refine .ite rfl (.bind_same _ fun m => .ite rfl ?_)
  exact .bind_same _ fun _ => .bind_same _ fun _ => .bind_same _ fun _ => .bind_same _ fun _ => .bind_same _ fun _ =>
    .bind_same _ fun _ => .bind_same _ fun _ => .bind_same _ fun _ => .bind_same _ fun _ => .bind_same _ fun _ =>
    .bind_same _ fun _ => .bind_same _ fun _ => .bind_same _ fun _ => .bind_same _ fun _ => .bind_same _ fun _ =>
    .bind_same _ fun _ => (calculateDerivativesT_counts _).bind fun _ _ => rfl

theorem insertTimesT_counts (u : K) (x : ℕ) : ∀ c : Curve K d, Counts (c.insertTimesT u x) (c.insertTimes u x) := by
  induction x with
  | zero => intro c; rfl
  | succ x ih =>
    intro c
    rw [Curve.insertTimesT, Curve.insertTimes]
    refine (insertT_counts c u).bind fun a t => ?_
    obtain ⟨c', r⟩ := a
    cases r with
    | error e => rfl
    | ok _ =>
      show Counts (c'.insertTimesT u x >>= fun y => pure (y.1, t + y.2)) (c'.insertTimes u x)
      rw [← ih c']
      cases c'.insertTimesT u x <;> rfl

theorem insertUnwrapTimesT_counts (u : K) (x : ℕ) :
    ∀ c : Curve K d, Counts (insertUnwrapTimesT c u x) (insertUnwrapTimes c u x) := by
  induction x with
  | zero => intro c; rfl
  | succ x ih =>
    intro c
    rw [insertUnwrapTimesT, insertUnwrapTimes]
    refine (insertT_counts c u).bind fun a t => .bind_same _ fun _ => ?_
    rw [← ih a.1]
    cases insertUnwrapTimesT a.1 u x <;> rfl

theorem splitLeftT_counts (p : ℕ) (U : List K) (P : List (Pt K d)) (u : K) (len : ℕ) (mp norm : Bool) :
    Counts (splitLeftT p U P u len mp norm) (splitLeft p U P u len mp norm) := by
  rw [splitLeftT, splitLeft]
  exact .bind_same _ fun _ => .bind_same _ fun _ => .bind_same _ fun _ => .ite
    (.bind_same _ fun _ => .bind_same _ fun _ => .bind_same _ fun _ => mkCurveT_counts _ _ _)
    (.bind_same _ fun _ => .bind_same _ fun _ => mkCurveT_counts _ _ _)

theorem splitRightT_counts (p : ℕ) (U : List K) (P : List (Pt K d)) (u : K) (frm : ℕ) (mp norm : Bool) :
    Counts (splitRightT p U P u frm mp norm) (splitRight p U P u frm mp norm) := by
  rw [splitRightT, splitRight]
  exact .bind_same _ fun _ => .bind_same _ fun _ => .bind_same _ fun _ => .bind_same _ fun _ => .bind_same _ fun _ =>
    .ite (.bind_same _ fun _ => .bind_same _ fun _ => .bind_same _ fun _ => .bind_same _ fun _ => mkCurveT_counts _ _ _)
    (.bind_same _ fun _ => .bind_same _ fun _ => .bind_same _ fun _ => mkCurveT_counts _ _ _)

theorem splitT_counts (c : Curve K d) (u : K) (norm : Bool × Bool) :
    Counts (splitAndNormalizeT c u norm) (splitAndNormalize c u norm) := by
  rw [splitAndNormalizeT, splitAndNormalize]
  refine .ite rfl (.bind_same _ fun l => .bind_same _ fun U0 => .ite rfl (.bind_same _ fun times => ?_))
  refine (insertUnwrapTimesT_counts _ _ _).bind fun b t => .bind_same _ fun U => .bind_same _ fun P => ?_
  refine (splitLeftT_counts ..).bind fun left t1 => ?_
  cases left with
  | error e => rfl
  | ok left =>
    refine (splitRightT_counts ..).bind fun right t2 => ?_
    cases right <;> rfl

/-- **C136** The counting functions return the results of the model, in any arithmetic and for any curve, panics
included. -/
theorem C136_faithful (p : ℕ) (U : List K) (P : List (Pt K d)) (c : Curve K d) (u : K) (x : ℕ) (flags : Bool × Bool) :
    (mkCurveT p U P).map Prod.fst = mkCurve p U P ∧ (c.insertTimesT u x).map Prod.fst = c.insertTimes u x ∧
    (splitAndNormalizeT c u flags).map Prod.fst = splitAndNormalize c u flags :=
  ⟨mkCurveT_counts p U P, insertTimesT_counts u x c, splitT_counts c u flags⟩

/-! ### A single point -/

theorem deriveSinglePointT_succ_inv {cp : ControlPoints K d} {kn : Knots K} {k i t : ℕ} {v : Pt K d}
    (h : cp.deriveSinglePointT kn (k + 1) i = .ok (v, t)) :
    ∃ U a b, kn.vector = .ok U ∧ U[i + kn.degree + 1]? = some a ∧ U[i + (k + 1)]? = some b ∧
      (Cmp.eq a b = true ∧ t = 1 ∨ Cmp.eq a b = false ∧ ∃ x y s1 s2, cp.deriveSinglePointT kn k (i + 1) = .ok (x, s1) ∧
        cp.deriveSinglePointT kn k i = .ok (y, s2) ∧ t = 1 + s1 + s2) := by
  simp only [ControlPoints.deriveSinglePointT] at h
  obtain ⟨U, hU, h⟩ := bind_ok_inv' h
  obtain ⟨a, ha, h⟩ := bind_ok_inv' h
  obtain ⟨b, hb, h⟩ := bind_ok_inv' h
  refine ⟨U, a, b, hU, idx_inv ha, idx_inv hb, ?_⟩
  by_cases e : Cmp.eq a b = true
  · rw [if_pos e] at h
    cases h
    exact Or.inl ⟨e, rfl⟩
  · rw [if_neg e] at h
    obtain ⟨_, -, h⟩ := bind_ok_inv' h
    obtain ⟨_, -, h⟩ := bind_ok_inv' h
    obtain ⟨_, -, h⟩ := bind_ok_inv' h
    obtain ⟨⟨x, s1⟩, h1, h⟩ := bind_ok_inv' h
    obtain ⟨⟨y, s2⟩, h2, h⟩ := bind_ok_inv' h
    cases h
    exact Or.inr ⟨by simpa using e, x, y, s1, s2, h1, h2, rfl⟩

theorem deriveSinglePointT_le (cp : ControlPoints K d) (kn : Knots K) (k : ℕ) : ∀ i v t,
    cp.deriveSinglePointT kn k i = .ok (v, t) → 1 ≤ t ∧ t + 1 ≤ 2 ^ (k + 1) := by
  induction k with
  | zero =>
    intro i v t h
    obtain ⟨_, -, h⟩ := bind_ok_inv' h
    obtain ⟨_, -, h⟩ := bind_ok_inv' h
    cases h
    exact ⟨le_rfl, le_rfl⟩
  | succ k ih =>
    intro i v t h
    obtain ⟨U, a, b, -, -, -, ⟨-, rfl⟩ | ⟨-, x, y, s1, s2, h1, h2, rfl⟩⟩ := deriveSinglePointT_succ_inv h
    · exact ⟨le_rfl, Nat.pow_le_pow_right (n := 2) (i := 1) (by norm_num) (by omega)⟩
    · have := ih _ _ _ h1
      have := ih _ _ _ h2
      rw [pow_succ 2 (k + 1)]
      omega

/-- **C136** A control point of the `k`-th derivative costs at most `2^(k + 1) - 1` calls. In any arithmetic. -/
theorem C136_point_bound {cp : ControlPoints K d} {kn : Knots K} {k i t : ℕ} {v : Pt K d}
    (h : cp.deriveSinglePointT kn k i = .ok (v, t)) : 1 ≤ t ∧ t ≤ 2 ^ (k + 1) - 1 := by
  have := deriveSinglePointT_le cp kn k i v t h
  omega

theorem deriveSinglePointT_exact (cp : ControlPoints K d) (kn : Knots K) {U : List K} (hU : kn.vector = .ok U) (k : ℕ) :
    ∀ i v t, cp.deriveSinglePointT kn k i = .ok (v, t) →
    (∀ q j a b, 1 ≤ q → q ≤ k → i ≤ j → j + q ≤ i + k → U[j + kn.degree + 1]? = some a → U[j + q]? = some b →
      Cmp.eq a b = false) → t + 1 = 2 ^ (k + 1) := by
  induction k with
  | zero =>
    intro i v t h _
    obtain ⟨_, -, h⟩ := bind_ok_inv' h
    obtain ⟨_, -, h⟩ := bind_ok_inv' h
    cases h
    rfl
  | succ k ih =>
    intro i v t h hne
    obtain ⟨U', a, b, hU', ha, hb, hcase⟩ := deriveSinglePointT_succ_inv h
    rw [hU] at hU'
    cases hU'
    rcases hcase with ⟨e, -⟩ | ⟨-, x, y, s1, s2, h1, h2, rfl⟩
    · rw [hne (k + 1) i a b (by omega) le_rfl le_rfl le_rfl ha hb] at e; cases e
    · have e1 := ih _ _ _ h1 (fun q j a b p1 p2 p3 p4 => hne q j a b p1 (by omega) (by omega) (by omega))
      have e2 := ih _ _ _ h2 (fun q j a b p1 p2 p3 p4 => hne q j a b p1 (by omega) (by omega) (by omega))
      rw [pow_succ 2 (k + 1)]
      omega

/-! ### All derivatives -/

/-- the calls for all derivatives of a curve of degree `p` with `n` segments and simple knots:
the sum of `(n - k + 1) (2^(k + 1) - 1)` over the orders `k = 1, …, p` -/
def deriveCalls (p n : ℕ) : ℕ := ((List.range' 1 p).map fun k => (n - k + 1) * (2 ^ (k + 1) - 1)).sum

theorem deriveCalls_mono (p : ℕ) {m n : ℕ} (h : m ≤ n) : deriveCalls p m ≤ deriveCalls p n := by
  rw [deriveCalls, deriveCalls]
  exact List.sum_le_sum fun k _ => Nat.mul_le_mul_right _ (by omega)

theorem mapM_inv {α : Type} {f : ℕ → Exec α} (l : List ℕ) : ∀ w, l.mapM f = .ok w → List.Forall₂ (fun i a => f i = .ok a) l w := by
  induction l with
  | nil => intro w h; cases h; exact .nil
  | cons i l ih =>
    intro w h
    rw [List.mapM_cons] at h
    obtain ⟨a, h1, h⟩ := bind_ok_inv' h
    obtain ⟨v, h2, h⟩ := bind_ok_inv' h
    cases h
    exact .cons h1 (ih v h2)

theorem sum_le_of_forall₂ {α β : Type} {R : α → β × ℕ → Prop} {b : ℕ} (hR : ∀ i a, R i a → a.2 ≤ b) {l : List α} {w : List (β × ℕ)}
    (h : List.Forall₂ R l w) : (w.map Prod.snd).sum ≤ l.length * b := by
  induction h with
  | nil => simp
  | cons h _ ih =>
    have := hR _ _ h
    simp only [List.map_cons, List.sum_cons, List.length_cons, Nat.add_mul, Nat.one_mul]
    omega

theorem sum_eq_of_forall₂ {α β : Type} {R : α → β × ℕ → Prop} {b : ℕ} {l : List α} {w : List (β × ℕ)}
    (hR : ∀ i ∈ l, ∀ a, R i a → a.2 = b) (h : List.Forall₂ R l w) : (w.map Prod.snd).sum = l.length * b := by
  induction h with
  | nil => simp
  | cons h _ ih =>
    have h1 := hR _ (by simp) _ h
    have h2 := ih fun i hi => hR i (by simp [hi])
    simp only [List.map_cons, List.sum_cons, List.length_cons, Nat.add_mul, Nat.one_mul]
    omega

theorem deriveT_fold {n kMax : ℕ} {kn : Knots K} (l : List ℕ) : ∀ (s s' : List (List (Pt K d))) (t t' : ℕ),
    l.foldlM (fun (Pk, t) k => do
      let nk ← usub n k
      let cols ← (List.range (nk + 1)).mapM (fun i =>
        ControlPoints.deriveSinglePointT { Pk := Pk, kMax := kMax } kn k i)
      pure (Pk ++ [cols.map Prod.fst], t + (cols.map Prod.snd).sum)) (s, t) = Except.ok (s', t') →
    t' ≤ t + (l.map fun k => (n - k + 1) * (2 ^ (k + 1) - 1)).sum ∧
    ((∀ k ∈ l, k ≤ n → ∀ i, i ≤ n - k → ∀ cp : ControlPoints K d, ∀ v t, cp.deriveSinglePointT kn k i = .ok (v, t) →
      t + 1 = 2 ^ (k + 1)) → t' = t + (l.map fun k => (n - k + 1) * (2 ^ (k + 1) - 1)).sum) ∧ ∃ w, s' = s ++ w := by
  induction l with
  | nil => intro s s' t t' h; cases h; simp
  | cons k l ih =>
    intro s s' t t' h
    rw [List.foldlM_cons] at h
    obtain ⟨⟨s1, t1⟩, h1, h2⟩ := bind_ok_inv' h
    obtain ⟨nk, hnk, h1⟩ := bind_ok_inv' h1
    obtain ⟨cols, hc, h1⟩ := bind_ok_inv' h1
    cases h1
    obtain ⟨hk, rfl⟩ := usub_inv hnk
    have hf := mapM_inv _ _ hc
    obtain ⟨i1, i2, w, hw⟩ := ih _ _ _ _ h2
    simp only [List.map_cons, List.sum_cons]
    refine ⟨?_, fun hex => ?_, _, hw.trans (List.append_assoc _ _ _)⟩
    · have := sum_le_of_forall₂ (b := 2 ^ (k + 1) - 1) (fun i a h => (C136_point_bound h).2) hf
      rw [List.length_range] at this
      omega
    · have := sum_eq_of_forall₂ (b := 2 ^ (k + 1) - 1) (fun i hi a h => by
        have := hex k (by simp) hk i (by have := List.mem_range.mp hi; omega) _ _ _ h
        omega) hf
      rw [List.length_range] at this
      rw [i2 fun k' hk' => hex k' (by simp [hk'])]
      omega

/-- what `calculate_derivatives` costs -/
theorem calculateDerivativesT_le {c c' : Curve K d} {t : ℕ} (h : c.calculateDerivativesT = .ok (c', t)) :
    ∃ n, c.segments = .ok n ∧ c'.segments = .ok n ∧ t ≤ deriveCalls c'.degree n ∧
    ((∀ k, 1 ≤ k → k ≤ c'.degree → k ≤ n → ∀ i, i ≤ n - k → ∀ cp : ControlPoints K d, ∀ v t,
      cp.deriveSinglePointT c'.knots k i = .ok (v, t) → t + 1 = 2 ^ (k + 1)) → t = deriveCalls c'.degree n) := by
  obtain ⟨kn, hk, h⟩ := bind_ok_inv' h
  obtain ⟨⟨pts, t1⟩, hp, h⟩ := bind_ok_inv' h
  cases h
  rw [ControlPoints.deriveT] at hp
  obtain ⟨n, hn, hp⟩ := bind_ok_inv' hp
  obtain ⟨⟨Pk, t2⟩, hf, hp⟩ := bind_ok_inv' hp
  cases hp
  obtain ⟨h1, h2, w, hw⟩ := deriveT_fold _ _ _ _ _ hf
  rw [show kn.degree + 1 - 1 = kn.degree by omega, Nat.zero_add] at h1 h2
  refine ⟨n, hn, ?_, h1, fun hex => h2 fun k hk => ?_⟩
  · rw [Curve.segments]
    rw [← hn]
    rw [ControlPoints.segments, ControlPoints.count, ControlPoints.countDerivative] at hn ⊢
    rw [ControlPoints.segments, ControlPoints.count, ControlPoints.countDerivative]
    have : idx Pk 0 = idx c.points.Pk 0 := by
      cases hP : c.points.Pk with
      | nil => rw [hP] at hn; cases hn
      | cons m l => rw [hw, hP]; rfl
    rw [this]
  · have := List.mem_range'_1.mp hk
    exact hex k this.1 (by change k ≤ kn.degree; omega)

theorem mkCurveT_inv {p t : ℕ} {U : List K} {P : List (Pt K d)} {r : Except (CurveError K) (Curve K d)}
    (h : mkCurveT p U P = .ok (r, t)) : 1 ≤ P.length ∧ (t = 0 ∧ P.length ≤ p ∧ (∃ e, r = .error e) ∨ ∃ c c' : Curve K d, r = .ok c' ∧
      c.calculateDerivativesT = .ok (c', t) ∧ c'.degree = p ∧ c'.segments = .ok (P.length - 1)) := by
  obtain ⟨kn, hk, h⟩ := bind_ok_inv' h
  rw [Curve.newT] at h
  obtain ⟨n', hn', h⟩ := bind_ok_inv' h
  have hn : usub P.length 1 = .ok n' := hn'
  obtain ⟨hn1, rfl⟩ := usub_inv hn
  have hkd : kn.degree = p := by
    obtain ⟨_, -, hk⟩ := bind_ok_inv' hk
    cases hk
    rfl
  refine ⟨hn1, ?_⟩
  split at h
  · rename_i h0; cases h; exact Or.inl ⟨rfl, by rw [hkd] at h0; omega, _, rfl⟩
  obtain ⟨⟨c, t1⟩, hc, h⟩ := bind_ok_inv' h
  cases h
  refine Or.inr ⟨_, _, rfl, hc, ?_, ?_⟩
  · obtain ⟨kn', hk', hc⟩ := bind_ok_inv' hc
    obtain ⟨_, -, hc⟩ := bind_ok_inv' hc
    cases hc
    obtain ⟨_, -, hk'⟩ := bind_ok_inv' hk'
    cases hk'
    exact hkd
  · obtain ⟨n, h1, h2, -⟩ := calculateDerivativesT_le hc
    rw [h2, ← h1]
    exact hn'

/-- **C136** Building a curve of degree `p` with `n` segments makes at most `deriveCalls p n` calls. In any arithmetic. -/
theorem C136_new_bound {p n t : ℕ} {U : List K} {P : List (Pt K d)} {r : Except (CurveError K) (Curve K d)}
    (h : mkCurveT p U P = .ok (r, t)) (hP : P.length ≤ n + 1) : t ≤ deriveCalls p n := by
  obtain ⟨h1, ⟨rfl, -⟩ | ⟨c, c', -, h2, h3, h4⟩⟩ := mkCurveT_inv h
  · exact Nat.zero_le _
  · obtain ⟨n', h5, h6, h7, -⟩ := calculateDerivativesT_le h2
    rw [h4] at h6
    cases h6
    rw [h3] at h7
    exact h7.trans (deriveCalls_mono p (by omega))

/-! ### Insertion and splitting -/

theorem insertT_le {c c' : Curve K d} {p n t : ℕ} {u : K} {r : Except (InsertError K) Unit} (hc : Shaped c p n)
    (h : insertT c u = .ok ((c', r), t)) :
    ((∃ e, r = .error e) ∧ c' = c ∧ t = 0) ∨ r = .ok () ∧ Shaped c' p (n + 1) ∧ t ≤ deriveCalls p (n + 1) := by
  have hf : insert c u = .ok (c', r) := by rw [← insertT_counts c u, h]; rfl
  rw [insertT] at h
  split at h
  · cases h; exact Or.inl ⟨⟨_, rfl⟩, rfl, rfl⟩
  rename_i h0
  dsimp only at h
  obtain ⟨m, hm, h⟩ := bind_ok_inv' h
  split at h
  · cases h; exact Or.inl ⟨⟨_, rfl⟩, rfl, rfl⟩
  rename_i h1
  refine Or.inr ?_
  iterate 16 obtain ⟨_, -, h⟩ := bind_ok_inv' h
  obtain ⟨⟨c2, t2⟩, h2, h⟩ := bind_ok_inv' h
  cases h
  have hs : Shaped c2 p (n + 1) := by
    rw [hc.insert_eq, if_neg h0] at hf
    have hU := hc.lenU 0 (by omega)
    have hp := hc.le
    have hb := lleq_bounds (fn (c.knots.Uk.getD 0 [])) u (n - p) p
    split at hf
    · cases hf
    · cases hf
      exact shaped_canon (by rw [insU]; simp only [List.length_append,
        List.length_take, List.length_cons, List.length_drop]; omega) (by simp) (by omega)
  refine ⟨rfl, hs, ?_⟩
  obtain ⟨n', -, h6, h7, -⟩ := calculateDerivativesT_le h2
  have h8 : c2.segments = .ok (n + 1) := hs.pts_segments
  rw [h8] at h6
  cases h6
  have h9 : c2.degree = p := hs.deg
  rwa [h9] at h7

/-- **C136** `insert_times(u, x)` derives after every single insertion: at most `x deriveCalls p (n + x)` calls. In any
arithmetic, for any curve whose vectors have the right lengths (C51, C78: all curves of a session). -/
theorem C136_insert_times {p : ℕ} (u : K) (x : ℕ) : ∀ {c c' : Curve K d} {n t : ℕ} {r : Except (InsertError K) Unit},
    Shaped c p n → c.insertTimesT u x = .ok ((c', r), t) → t ≤ x * deriveCalls p (n + x) := by
  induction x with
  | zero => intro c c' n t r _ h; cases h; exact Nat.zero_le _
  | succ x ih =>
    intro c c' n t r hc h
    rw [Curve.insertTimesT] at h
    obtain ⟨⟨⟨c1, r1⟩, t1⟩, h1, h⟩ := bind_ok_inv' h
    rcases insertT_le hc h1 with ⟨⟨e, rfl⟩, -, rfl⟩ | ⟨rfl, hs, ht⟩
    · cases h; exact Nat.zero_le _
    · obtain ⟨⟨⟨c2, r2⟩, t2⟩, h2, h⟩ := bind_ok_inv' h
      cases h
      have h3 := ih hs h2
      have h4 := deriveCalls_mono p (show n + 1 ≤ n + (x + 1) by omega)
      rw [show n + 1 + x = n + (x + 1) by omega] at h3
      rw [Nat.add_mul, Nat.one_mul]
      omega

theorem insertUnwrapTimesT_le {p : ℕ} (u : K) (x : ℕ) : ∀ {c c' : Curve K d} {n t : ℕ},
    Shaped c p n → insertUnwrapTimesT c u x = .ok (c', t) → Shaped c' p (n + x) ∧ t ≤ x * deriveCalls p (n + x) := by
  induction x with
  | zero => intro c c' n t hc h; cases h; exact ⟨hc, Nat.zero_le _⟩
  | succ x ih =>
    intro c c' n t hc h
    rw [insertUnwrapTimesT] at h
    obtain ⟨⟨⟨c1, r1⟩, t1⟩, h1, h⟩ := bind_ok_inv' h
    rcases insertT_le hc h1 with ⟨⟨e, rfl⟩, -, rfl⟩ | ⟨rfl, hs, ht⟩
    · cases h
    · obtain ⟨_, -, h⟩ := bind_ok_inv' h
      obtain ⟨⟨c2, t2⟩, h2, h⟩ := bind_ok_inv' h
      cases h
      obtain ⟨h3, h4⟩ := ih hs h2
      have h5 := deriveCalls_mono p (show n + 1 ≤ n + (x + 1) by omega)
      rw [show n + 1 + x = n + (x + 1) by omega] at h3 h4
      refine ⟨h3, ?_⟩
      rw [Nat.add_mul, Nat.one_mul]
      omega

theorem splitLeftT_le {p len t n : ℕ} {U : List K} {P : List (Pt K d)} {u : K} {mp norm : Bool}
    {r : Except (CurveError K) (Curve K d)} (h : splitLeftT p U P u len mp norm = .ok (r, t)) (hP : P.length ≤ n + 1) :
    t ≤ deriveCalls p n := by
  rw [splitLeftT] at h
  iterate 3 obtain ⟨_, -, h⟩ := bind_ok_inv' h
  cases mp
  · obtain ⟨_, -, h⟩ := bind_ok_inv' h
    obtain ⟨_, h1, h⟩ := bind_ok_inv' h
    have := segment_inv h1
    exact C136_new_bound h (by omega)
  · iterate 2 obtain ⟨_, -, h⟩ := bind_ok_inv' h
    obtain ⟨_, h1, h⟩ := bind_ok_inv' h
    have := segment_inv h1
    exact C136_new_bound h (by omega)

theorem splitRightT_le {p frm t n : ℕ} {U : List K} {P : List (Pt K d)} {u : K} {mp norm : Bool}
    {r : Except (CurveError K) (Curve K d)} (h : splitRightT p U P u frm mp norm = .ok (r, t)) (hP : P.length ≤ n + 1) :
    t ≤ deriveCalls p n := by
  rw [splitRightT] at h
  iterate 5 obtain ⟨_, -, h⟩ := bind_ok_inv' h
  cases mp
  · iterate 2 obtain ⟨_, -, h⟩ := bind_ok_inv' h
    obtain ⟨_, h1, h⟩ := bind_ok_inv' h
    have := segment_inv h1
    exact C136_new_bound h (by omega)
  · iterate 3 obtain ⟨_, -, h⟩ := bind_ok_inv' h
    obtain ⟨_, h1, h⟩ := bind_ok_inv' h
    have := segment_inv h1
    exact C136_new_bound h (by omega)

/-- **C136** A split costs at most as much as building `p + 2` curves with `n + p` segments. In any arithmetic, for any
curve whose vectors have the right lengths. -/
theorem C136_split {c : Curve K d} {p n t : ℕ} {u : K} {flags : Bool × Bool}
    {r : Except (SplitError K) (Curve K d × Curve K d)} (hc : Shaped c p n)
    (h : splitAndNormalizeT c u flags = .ok (r, t)) : t ≤ (p + 2) * deriveCalls p (n + p) := by
  have hd : c.degree = p := hc.deg
  rw [splitAndNormalizeT] at h
  split at h
  · cases h; exact Nat.zero_le _
  dsimp only at h
  obtain ⟨l, -, h⟩ := bind_ok_inv' h
  obtain ⟨U0, -, h⟩ := bind_ok_inv' h
  split at h
  · cases h; exact Nat.zero_le _
  obtain ⟨times, ht, h⟩ := bind_ok_inv' h
  obtain ⟨⟨b, t0⟩, hb, h⟩ := bind_ok_inv' h
  obtain ⟨U, -, h⟩ := bind_ok_inv' h
  obtain ⟨P, hP, h⟩ := bind_ok_inv' h
  obtain ⟨⟨left, t1⟩, hl, h⟩ := bind_ok_inv' h
  have hle : times ≤ p := by have := usub_inv ht; omega
  obtain ⟨hs, h0⟩ := insertUnwrapTimesT_le u times hc hb
  have hPl : P.length ≤ n + p + 1 := by
    rw [hs.matrix] at hP
    cases hP
    have := hs.lenP 0 (by omega)
    omega
  rw [hd] at hl
  have h1 := splitLeftT_le hl hPl
  have h0' : t0 ≤ p * deriveCalls p (n + p) :=
    h0.trans (Nat.mul_le_mul hle (deriveCalls_mono p (by omega)))
  have h2 : (p + 2) * deriveCalls p (n + p) = p * deriveCalls p (n + p) + 2 * deriveCalls p (n + p) := Nat.add_mul _ _ _
  cases left with
  | error e => cases h; omega
  | ok left =>
    obtain ⟨⟨right, t2⟩, hr, h⟩ := bind_ok_inv' h
    rw [hd] at hr
    have h3 := splitRightT_le hr hPl
    cases right <;> cases h <;> omega

end

/-! ### Size of the bound, and exactness -/

/-- **C136** The number of calls is at most `n 2^(p + 2)`, and at least `(n - p + 1) (2^(p + 1) - 1)`: linear in the number
of segments, exponential in the degree, although there are at most `n p` points to be computed. -/
theorem C136_size {p n : ℕ} (h1 : 1 ≤ p) (h : p ≤ n) :
    (n - p + 1) * (2 ^ (p + 1) - 1) ≤ deriveCalls p n ∧ deriveCalls p n ≤ n * 2 ^ (p + 2) := by
  have succ : ∀ q, deriveCalls (q + 1) n = deriveCalls q n + (n - (q + 1) + 1) * (2 ^ (q + 2) - 1) := by
    intro q
    rw [deriveCalls, deriveCalls, List.range'_concat, List.map_append, List.sum_append, List.map_singleton, List.sum_singleton,
      Nat.one_mul, Nat.add_comm 1 q]
  constructor
  · obtain ⟨q, rfl⟩ : ∃ q, p = q + 1 := ⟨p - 1, by omega⟩
    rw [succ]
    exact Nat.le_add_left _ _
  · clear h1
    induction p with
    | zero => rw [deriveCalls]; exact Nat.zero_le _
    | succ q ih =>
      rw [succ]
      have h2 := ih (by omega)
      have h3 : (n - (q + 1) + 1) * (2 ^ (q + 2) - 1) ≤ n * 2 ^ (q + 2) := Nat.mul_le_mul (by omega) (Nat.sub_le _ _)
      have h4 : n * 2 ^ (q + 1 + 2) = 2 * (n * 2 ^ (q + 2)) := by rw [show q + 1 + 2 = (q + 2) + 1 by omega, pow_succ]; ring
      omega

section
variable {K : Type} [Field K] [LinearOrder K] [IsStrictOrderedRing K] {d : ℕ}

/-- **C136** Building a curve with simple knots makes exactly `deriveCalls p n` calls. -/
theorem C136_new_exact {p n t : ℕ} {U : List K} {P : List (Pt K d)} {c : Curve K d}
    (h : mkCurveT p U P = .ok (.ok c, t)) (hU : ClampedKnots 0 1 p n U) (hr : SimpleBelow U 1) (hP : P.length = n + 1) :
    t = deriveCalls p n := by
  have hf : mkCurve p U P = .ok (.ok c) := by rw [← mkCurveT_counts p U P, h]; rfl
  have hcl := hU.clamp
  rw [mkCurve_ok hP hU.le (by rw [hU.length]; omega)] at hf
  obtain ⟨h1, ⟨-, -, e, he⟩ | ⟨c0, c', hr', h2, h3, h4⟩⟩ := mkCurveT_inv h
  · cases he
  cases hr'
  obtain ⟨n', -, h6, -, h7⟩ := calculateDerivativesT_le h2
  rw [h4, hP] at h6
  cases h6
  rw [h3] at h7
  have hc : c = canon p U P := by cases hf; rfl
  have hv : c.knots.vector = .ok U := by
    rw [hc, canon_knots, Knots.vector, canonKnots_idx (Nat.zero_le p)]; simp
  have hd : c.knots.degree = p := h3
  refine h7 fun k hk1 hkp hkn i hi cp v t ht => deriveSinglePointT_exact cp _ hv k i v t ht ?_
  intro q j a b q1 q2 q3 q4 ha hb
  rw [hd] at ha
  have hlt : fn U (j + q) < fn U (j + p + 1) :=
    calc fn U (j + q) ≤ fn U (max p (j + q)) := hcl.mono (le_max_right _ _)
      _ < fn U (min (n + 1) (j + p + 1)) := strict_knots hU hr (le_max_left _ _)
        (by have := hU.le; omega) (min_le_left _ _)
      _ ≤ fn U (j + p + 1) := hcl.mono (min_le_right _ _)
  rw [show fn U (j + q) = b by simp [fn, hb], show fn U (j + p + 1) = a by simp [fn, ha]] at hlt
  simpa [Cmp.eq] using hlt.ne'

end

/-! ### Witness -/

example : callsOf (mkCurveT 2 costU costP) = 43 ∧ deriveCalls 2 5 = 43 ∧
    callsOf ((canon 2 costU costP).insertTimesT (1 / 3) 2) = 110 ∧
    callsOf (splitAndNormalizeT (canon 2 costU costP) (1 / 3) (true, true)) = 166 := by decide +kernel

end BSpline
