import Verif.Refine.Canon

/-!
# Evaluation of canonical curves, law-free
-/

namespace BSpline

section
variable {K : Type}

theorem canonKnots_idx {p k : ℕ} (hk : k ≤ p) (U : List K) :
    idx (canonKnots p U).Uk k = .ok ((U.drop k).take (U.length - 2 * k)) := by
  rw [idx_ok' (by simp [canonKnots]; omega)]
  simp [canonKnots]

theorem canonKnots_idx_error {p k : ℕ} (hk : p < k) (U : List K) :
    idx (canonKnots p U).Uk k = .error .index := by
  rw [idx_error (by simp [canonKnots]; omega)]

theorem canonKnots_vector {p : ℕ} (U : List K) : (canonKnots p U).vector = .ok U := by
  rw [Knots.vector, canonKnots_idx (Nat.zero_le p)]; simp

theorem canonKnots_segments {p n : ℕ} {U : List K} (h : U.length = n + p + 2) :
    (canonKnots p U).segments = .ok n := by
  simp only [Knots.segments, Knots.segmentsDerivative, canonKnots_idx (Nat.zero_le p), ok_bind]
  rw [usub_ok (by omega), ok_bind, usub_ok (by simp [canonKnots]; omega)]
  simp [canonKnots]; omega

end

section
variable {K : Type} [Sub K] [Mul K] [Div K] [Zero K] [NatCast K] [Cmp K] {d : ℕ}

theorem canonPts_idx {p k : ℕ} (hk : k ≤ p) (U : List K) (P : List (Pt K d)) :
    idx (canonPts p U P).Pk k =
      .ok ((List.range (P.length - k)).map (fun i => dpt (fn U) p (fn P) k i)) := by
  rw [idx_ok' (by simp [canonPts]; omega)]
  simp [canonPts]

theorem canonPts_idx_zero {p : ℕ} (U : List K) (P : List (Pt K d)) :
    idx (canonPts p U P).Pk 0 = .ok P := by
  rw [canonPts_idx (Nat.zero_le p)]
  congr 1
  exact map_range_fn P

theorem canonPts_matrix {p : ℕ} (U : List K) (P : List (Pt K d)) :
    (canonPts p U P).matrix = .ok P := canonPts_idx_zero U P

theorem canonPts_matrixDerivative {p k : ℕ} (hk : k ≤ p) (U : List K) (P : List (Pt K d)) :
    (canonPts p U P).matrixDerivative k =
      .ok ((List.range (P.length - k)).map (fun i => dpt (fn U) p (fn P) k i)) := by
  rw [ControlPoints.matrixDerivative, if_pos (show k ≤ (canonPts p U P).kMax from hk), canonPts_idx hk]

theorem canonPts_segments {p : ℕ} (U : List K) (P : List (Pt K d)) {n : ℕ} (h : P.length = n + 1) :
    (canonPts p U P).segments = .ok n := by
  simp only [ControlPoints.segments, ControlPoints.count, ControlPoints.countDerivative,
    canonPts_idx_zero, ok_bind, pure_ok]
  rw [usub_ok (by omega)]; congr 1; omega

end

section
variable {K : Type} [Zero K] [Cmp K]

/-- the index returned by the `LeftOrEqual` loop -/
def lleq (U : ℕ → K) (u : K) : ℕ → ℕ → ℕ
  | 0, i => i
  | r + 1, i => if Cmp.le (U (i + 1)) u then
      (if Cmp.eq (U (i + 1 + 1)) (U (i + 1)) then i + 1 else lleq U u r (i + 1)) else i

omit [Zero K] in
theorem lleq_bounds (U : ℕ → K) (u : K) (r : ℕ) : ∀ i, i ≤ lleq U u r i ∧ lleq U u r i ≤ i + r := by
  induction r with
  | zero => intro i; simp [lleq]
  | succ r ih =>
    intro i
    have := ih (i + 1)
    simp only [lleq]
    split
    · split <;> omega
    · omega

omit [Zero K] in
theorem lleq_congr {U U' : ℕ → K} {u : K} (r : ℕ) : ∀ i,
    (∀ m, i < m → m ≤ i + 1 + r → U m = U' m) → lleq U u r i = lleq U' u r i := by
  induction r with
  | zero => intro i _; rfl
  | succ r ih =>
    intro i h
    simp only [lleq]
    rw [h (i + 1) (by omega) (by omega), h (i + 1 + 1) (by omega) (by omega),
      ih (i + 1) (fun m h1 h2 => h m (by omega) (by omega))]

theorem loopLeftOrEqual_ok {U : List K} {u : K} (r : ℕ) : ∀ i, i + 1 + r < U.length →
    Knots.loopLeftOrEqual U u r i = .ok (lleq (fn U) u r i) := by
  induction r with
  | zero =>
    intro i hi
    rw [Knots.loopLeftOrEqual, idx_ok (by omega), ok_bind]
    simp only [lleq, pure_ok]
    split <;> rfl
  | succ r ih =>
    intro i hi
    rw [Knots.loopLeftOrEqual, idx_ok (by omega), ok_bind, lleq]
    simp only [pure_ok]
    split
    · rw [idx_ok (by omega), ok_bind, ok_bind, ih (i + 1) (by omega)]
      split <;> rfl
    · rfl

theorem findIdx_leftOrEqual_ok {p n k : ℕ} {U : List K} (hU : U.length = n + p + 2) (hp : p ≤ n)
    (hk : k ≤ p) (u : K) : (canonKnots p U).findIdx u k .leftOrEqual =
      .ok (lleq (fun i => fn U (i + k)) u (n - p) (p - k)) := by
  simp only [Knots.findIdx, Knots.vectorDerivative, canonKnots_idx hk, ok_bind, Knots.degree,
    canonKnots_segments hU]
  rw [usub_ok (by simpa [canonKnots] using hk), ok_bind, usub_ok (by omega), ok_bind]
  rw [loopLeftOrEqual_ok]
  · simp only [canonKnots]
    rw [show n + 1 - k - (p - k + 1) = n - p by omega]
    congr 1
    apply lleq_congr
    intro m h1 h2
    rw [fn_drop_take (by omega) (by omega)]
    congr 1; omega
  · simp [canonKnots]; omega

end

section
variable {K : Type} [Add K] [Sub K] [Mul K] [Div K] [Zero K] [One K] [Cmp K]

theorem knots_evaluate_ok {p n k i : ℕ} {U : List K} (hU : U.length = n + p + 2) (hp : p ≤ n)
    (hk : k ≤ p) (hi : i + k ≤ n) (u : K) : (canonKnots p U).evaluate k i p u =
      .ok (Nf (fun i => fn U (i + k)) k n u (p - k) i) := by
  simp only [Knots.evaluate, canonKnots_idx hk, ok_bind, canonKnots_segments hU]
  rw [usub_ok hk, ok_bind, basis_ok (by omega) (by simp; omega) _ _ (by simp; omega)]
  congr 1
  apply Nf_congr
  · rw [fn_drop_take (by omega) (by omega)]; congr 1; omega
  · intro m hm
    rw [fn_drop_take (by omega) (by omega)]; congr 1; omega

end

section
variable {K : Type} [Add K] [Sub K] [Mul K] [Div K] [Zero K] [One K] [NatCast K] [Cmp K] {d : ℕ}

/-- the sum accumulated by `evaluate_derivative` from index `lo` on -/
def evalFold (U : ℕ → K) (p n : ℕ) (P : ℕ → Pt K d) (k : ℕ) (u : K) (lo : ℕ) : Pt K d :=
  (List.range' lo (n - k + 1 - lo)).foldl
    (fun v i => v + scale (Nf (fun j => U (j + k)) k n u (p - k) i) (dpt U p P k i)) (fun _ => 0)

theorem foldlM_ok {σ : Type} {f : σ → ℕ → Exec σ} {g : σ → ℕ → σ} : ∀ (l : List ℕ) (s : σ),
    (∀ s, ∀ x ∈ l, f s x = .ok (g s x)) → l.foldlM f s = .ok (l.foldl g s) := by
  intro l
  induction l with
  | nil => intro s _; rfl
  | cons a l ih =>
    intro s h
    rw [List.foldlM_cons, h s a (by simp), ok_bind, ih _ (fun s x hx => h s x (by simp [hx]))]
    rfl

/-- **Evaluation never panics** on a canonical curve, and this is its value. -/
theorem evaluateDerivative_ok {p n k : ℕ} {U : List K} {P : List (Pt K d)}
    (hU : U.length = n + p + 2) (hP : P.length = n + 1) (hp : p ≤ n) (hk : k ≤ p) {u : K}
    (h0 : Cmp.le 0 u = true) (h1 : Cmp.le u 1 = true) :
    (canon p U P).evaluateDerivative u k = .ok (.ok (evalFold (fn U) p n (fn P) k u
      (lleq (fun i => fn U (i + k)) u (n - p) (p - k) - (p - k)))) := by
  have hb := lleq_bounds (fun i => fn U (i + k)) u (n - p) (p - k)
  simp only [Curve.evaluateDerivative, h0, h1, Bool.and_self, Bool.not_true, Bool.false_eq_true,
    if_false, canon_degree, canon_points, canon_knots, Curve.segments, if_pos hk,
    canonPts_segments U P hP, ok_bind, findIdx_leftOrEqual_ok hU hp hk]
  rw [usub_ok hk, ok_bind, usub_ok hb.1, ok_bind, usub_ok (by omega), ok_bind]
  rw [forRangeIncl, foldlM_ok (g := fun v i => v +
    scale (Nf (fun j => fn U (j + k)) k n u (p - k) i) (dpt (fn U) p (fn P) k i))]
  · rfl
  · intro s x hx
    rw [List.mem_range'_1] at hx
    rw [knots_evaluate_ok hU hp hk (by omega), ok_bind, canonPts_matrixDerivative hk, ok_bind]
    rw [column_ok (by simp; omega), ok_bind, fn_map_range _ (by omega)]
    rfl

end

end BSpline
