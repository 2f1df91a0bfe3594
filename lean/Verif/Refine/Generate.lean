import Verif.Refine.Value

/-!
# Knot and parameter generation: shapes
-/

set_option linter.unusedSectionVars false

namespace BSpline

section LawFree
variable {K : Type} [Zero K] [One K]

/-- `p + 1` zeros, the values `f 1, ..., f (n - p)`, `p + 1` ones -/
def genU (p n : ℕ) (f : ℕ → K) : List K :=
  (List.range (p + n + 2)).map (fun i => if i ≤ p then 0 else if i ≤ n then f (i - p) else 1)

theorem genU_length (p n : ℕ) (f : ℕ → K) : (genU p n f).length = n + p + 2 := by
  simp [genU]; omega

theorem set_map_range {α : Type} (f : ℕ → α) (N i : ℕ) (x : α) :
    ((List.range N).map f).set i x = (List.range N).map (fun j => if i = j then x else f j) := by
  apply List.ext_getElem (by simp)
  intro j h1 h2
  rw [List.getElem_set]
  simp

end LawFree

section LawFree
variable {K : Type} [Add K] [Sub K] [Mul K] [Div K] [Neg K] [Zero K] [One K] [NatCast K]
  [Cmp K]

theorem setTailOnes_ok (n N : ℕ) (f : ℕ → K) (h : n + 1 ≤ N) :
    setTailOnes n ((List.range N).map f) =
      .ok ((List.range N).map (fun i => if i ≤ n then f i else 1)) := by
  rw [setTailOnes]
  have key := forRange_inv (lo := n + 1) (hi := ((List.range N).map f).length)
    (f := fun U i => setIdx U i (1 : K))
    (S := fun j => (List.range N).map (fun i => if n < i ∧ i < j then 1 else f i)) (by simpa using h) (by
      intro i h1 h2
      simp only [List.length_map, List.length_range] at h2
      rw [setIdx_ok (by simpa using h2), set_map_range]
      congr 1
      apply List.map_congr_left
      intro j _
      by_cases e : i = j
      · subst e
        rw [if_pos rfl, if_pos ⟨by omega, by omega⟩]
      · rw [if_neg e]
        by_cases e2 : n < j ∧ j < i
        · rw [if_pos e2, if_pos ⟨e2.1, by omega⟩]
        · rw [if_neg e2, if_neg (by omega)])
  have h0 : (List.range N).map (fun i => if n < i ∧ i < n + 1 then 1 else f i) =
      (List.range N).map f := by
    apply List.map_congr_left
    intro i _
    rw [if_neg (by omega)]
  rw [h0] at key
  rw [key]
  congr 1
  apply List.map_congr_left
  intro i hi
  simp only [List.mem_range, List.length_map, List.length_range] at hi ⊢
  by_cases e : i ≤ n
  · rw [if_pos e, if_neg (by omega)]
  · rw [if_neg e, if_pos ⟨by omega, hi⟩]

theorem fill_ok {p n : ℕ} (hp : p ≤ n) {g : ℕ → Exec K} {f : ℕ → K}
    (hg : ∀ j, 1 ≤ j → j ≤ n - p → g j = .ok (f j)) {step : List K → ℕ → Exec (List K)}
    (hstep : ∀ U j, step U j = (g j >>= fun x => setIdx U (p + j) x)) :
    (forRangeIncl 1 (n - p) (zeros (p + n + 2)) step >>= setTailOnes n) = .ok (genU p n f) := by
  have key := forRangeIncl_inv (lo := 1) (hi := n - p) (f := step)
    (S := fun j => (List.range (p + n + 2)).map (fun i => if p < i ∧ i < p + j then f (i - p) else 0))
    (by omega) (by
      intro j h1 h2
      rw [hstep, hg j h1 h2, ok_bind, setIdx_ok (by simp; omega), set_map_range]
      congr 1
      apply List.map_congr_left
      intro i _
      by_cases e : p + j = i
      · subst e
        rw [if_pos rfl, if_pos ⟨by omega, by omega⟩]
        congr 1; omega
      · rw [if_neg e]
        by_cases e2 : p < i ∧ i < p + j
        · rw [if_pos e2, if_pos ⟨e2.1, by omega⟩]
        · rw [if_neg e2, if_neg (by omega)])
  have h0 : (List.range (p + n + 2)).map (fun i => if p < i ∧ i < p + 1 then f (i - p) else (0 : K)) =
      zeros (p + n + 2) := by
    apply List.ext_getElem (by simp [zeros])
    intro i _ _
    simp only [List.getElem_map, List.getElem_range, zeros, List.getElem_replicate]
    rw [if_neg (by omega)]
  rw [h0] at key
  rw [key, ok_bind, setTailOnes_ok _ _ _ (by omega)]
  congr 1
  apply List.map_congr_left
  intro i _
  by_cases e : i ≤ n
  · rw [if_pos e]
    by_cases e2 : i ≤ p
    · rw [if_neg (by omega), if_pos e2]
    · rw [if_pos (by omega), if_neg e2, if_pos e]
  · rw [if_neg e, if_neg (by omega), if_neg e]

theorem inputCheck_ok {p n : ℕ} (h1 : 1 ≤ p) (h2 : p ≤ n) : inputCheck (K := K) p n = .ok () := by
  rw [inputCheck, if_neg (by omega), if_neg (by omega)]

theorem genKnots_new {p n : ℕ} (hp : p ≤ n) (f : ℕ → K) :
    Knots.new p (genU p n f) = .ok (canonKnots p (genU p n f)) :=
  Knots.new_ok (by rw [genU_length]; omega)

/-- the `j`-th interior knot of `uniform` -/
def uniK (p n j : ℕ) : K := (j : K) / ((n - p + 1 : ℕ) : K)

theorem uniform_ok {p n : ℕ} (h1 : 1 ≤ p) (h2 : p ≤ n) :
    uniform (K := K) p n = .ok (.ok (canonKnots p (genU p n (uniK p n)))) := by
  rw [uniform]
  simp only [inputCheck_ok (K := K) h1 h2, usub_ok h2, ok_bind]
  have := fill_ok (K := K) h2 (g := fun j => .ok (uniK p n j)) (f := uniK p n) (fun _ _ _ => rfl)
    (step := fun U i => setIdx U (p + i) ((i : K) / ((n - p + 1 : ℕ) : K))) (fun _ _ => rfl)
  obtain ⟨V, h3, h4⟩ := bind_ok this
  rw [h3, ok_bind, h4, ok_bind, genKnots_new h2, ok_bind]
  rfl
where
  bind_ok {α β : Type} {x : Exec α} {f : α → Exec β} {y : β}
    (h : (x >>= f) = .ok y) : ∃ a, x = .ok a ∧ f a = .ok y := by
    cases x with
    | error e => simp at h
    | ok a => exact ⟨a, rfl, h⟩

/-- sum of `p` consecutive parameters, from the `j`-th on, in the order of the code -/
def winSum (ub : List K) (p j : ℕ) : K := (List.range' j p).foldl (fun s i => s + fn ub i) 0

theorem averaging_ok {p n : ℕ} (h1 : 1 ≤ p) (h2 : p ≤ n) {params : Parameters K}
    (hl : n ≤ params.vector.length) :
    averaging p n params =
      .ok (.ok (canonKnots p (genU p n (fun j => winSum params.vector p j / (p : K))))) := by
  rw [averaging]
  simp only [inputCheck_ok (K := K) h1 h2, usub_ok h2, ok_bind]
  have := fill_ok (K := K) h2 (g := fun j => do
      let lim ← usub (j + p) 1
      let sum ← forRangeIncl j lim 0 (fun s i => do
        let x ← idx params.vector i
        pure (s + x))
      pure (sum / (p : K))) (f := fun j => winSum params.vector p j / (p : K)) (by
      intro j hj1 hj2
      rw [usub_ok (by omega), ok_bind]
      have : forRangeIncl j (j + p - 1) (0 : K) (fun s i => do
          let x ← idx params.vector i
          pure (s + x)) = .ok (winSum params.vector p j) := by
        rw [forRangeIncl, show j + p - 1 + 1 - j = p by omega, winSum]
        have hm : ∀ i ∈ List.range' j p, i < params.vector.length := by
          intro i hi; rw [List.mem_range'_1] at hi; omega
        generalize List.range' j p = l at hm
        generalize (0 : K) = s
        revert s
        induction l with
        | nil => intro s; rfl
        | cons i l ih =>
          intro s
          rw [List.foldlM_cons, idx_ok (hm i (by simp)), ok_bind, pure_ok, ok_bind,
            ih (fun x hx => hm x (by simp [hx]))]
          rfl
      rw [this, ok_bind]; rfl)
    (step := fun U j => do
      let lim ← usub (j + p) 1
      let sum ← forRangeIncl j lim 0 (fun s i => do
        let x ← idx params.vector i
        pure (s + x))
      setIdx U (p + j) (sum / (p : K))) (by
      intro U j
      cases usub (j + p) 1 with
      | error e => rfl
      | ok lim =>
        simp only [ok_bind]
        cases forRangeIncl j lim (0 : K) _ with
        | error e => rfl
        | ok s => rfl)
  obtain ⟨V, h3, h4⟩ := uniform_ok.bind_ok this
  rw [h3, ok_bind, h4, ok_bind, genKnots_new h2, ok_bind]
  rfl

/-- the `j`-th interior knot of `de_boor` -/
def deBoorK [Trunc K] (ub : List K) (p n j : ℕ) : K :=
  let t : K := (j : K) * (((n + 1 : ℕ) : K) / ((n - p + 1 : ℕ) : K))
  let i := Trunc.trunc t
  (1 - (t - (i : K))) * fn ub (i - 1) + (t - (i : K)) * fn ub i

theorem deBoor_ok [Trunc K] {p n : ℕ} (h1 : 1 ≤ p) (h2 : p ≤ n) {params : Parameters K}
    (ht : ∀ j, 1 ≤ j → j ≤ n - p → 1 ≤ Trunc.trunc ((j : K) * (((n + 1 : ℕ) : K) / ((n - p + 1 : ℕ) : K))) ∧
      Trunc.trunc ((j : K) * (((n + 1 : ℕ) : K) / ((n - p + 1 : ℕ) : K))) < params.vector.length) :
    deBoor p n params = .ok (.ok (canonKnots p (genU p n (deBoorK params.vector p n)))) := by
  rw [deBoor]
  simp only [inputCheck_ok (K := K) h1 h2, usub_ok h2, ok_bind]
  have := fill_ok (K := K) h2 (g := fun j => do
      let jd := (j : K) * (((n + 1 : ℕ) : K) / ((n - p + 1 : ℕ) : K))
      let i := Trunc.trunc jd
      let alpha := jd - (i : K)
      let i1 ← usub i 1
      let x ← idx params.vector i1
      let y ← idx params.vector i
      pure ((1 - alpha) * x + alpha * y)) (f := deBoorK params.vector p n) (by
      intro j hj1 hj2
      obtain ⟨a, b⟩ := ht j hj1 hj2
      dsimp only
      rw [usub_ok a, ok_bind, idx_ok (by omega), ok_bind, idx_ok b, ok_bind]
      rfl)
    (step := fun U j => do
      let jd := (j : K) * (((n + 1 : ℕ) : K) / ((n - p + 1 : ℕ) : K))
      let i := Trunc.trunc jd
      let alpha := jd - (i : K)
      let i1 ← usub i 1
      let x ← idx params.vector i1
      let y ← idx params.vector i
      setIdx U (p + j) ((1 - alpha) * x + alpha * y)) (by
      intro U j
      dsimp only
      generalize Trunc.trunc ((j : K) * (((n + 1 : ℕ) : K) / ((n - p + 1 : ℕ) : K))) = i
      cases usub i 1 with
      | error e => rfl
      | ok i1 =>
        simp only [ok_bind]
        cases idx params.vector i1 with
        | error e => rfl
        | ok x =>
          simp only [ok_bind]
          cases idx params.vector i with
          | error e => rfl
          | ok y => rfl)
  obtain ⟨V, h3, h4⟩ := uniform_ok.bind_ok this
  rw [h3, ok_bind, h4, ok_bind, genKnots_new h2, ok_bind]
  rfl

end LawFree

variable {K : Type} [Field K] [LinearOrder K] [IsStrictOrderedRing K]

omit [IsStrictOrderedRing K] in
theorem fn_genU {p n i : ℕ} {f : ℕ → K} (hi : i < n + p + 2) :
    fn (genU p n f) i = if i ≤ p then 0 else if i ≤ n then f (i - p) else 1 :=
  fn_map_range _ (by omega)

/-- a generated vector with strictly increasing interior knots in `(0, 1)` is valid -/
theorem genU_clamped {p n : ℕ} {f : ℕ → K} (hp : p ≤ n)
    (h0 : ∀ j, 1 ≤ j → j ≤ n - p → 0 < f j ∧ f j < 1)
    (hf : ∀ j, 1 ≤ j → j + 1 ≤ n - p → f j ≤ f (j + 1)) : ClampedKnots 0 1 p n (genU p n f) := by
  have hl := genU_length p n f
  have step : ∀ i, i + 1 < n + p + 2 → fn (genU p n f) i ≤ fn (genU p n f) (i + 1) := by
    intro i hi
    rw [fn_genU (by omega), fn_genU hi]
    by_cases e1 : i + 1 ≤ p
    · rw [if_pos (by omega), if_pos e1]
    rw [if_neg e1]
    by_cases e2 : i ≤ p
    · rw [if_pos e2]
      split
      · exact (h0 _ (by omega) (by omega)).1.le
      · exact zero_le_one
    rw [if_neg e2]
    by_cases e3 : i + 1 ≤ n
    · rw [if_pos (by omega), if_pos e3, show i + 1 - p = i - p + 1 by omega]
      exact hf _ (by omega) (by omega)
    · rw [if_neg e3]
      split
      · exact (h0 _ (by omega) (by omega)).2.le
      · exact le_rfl
  have hs : (genU p n f).Pairwise (· ≤ ·) := by
    apply List.isChain_iff_pairwise.mp
    rw [List.isChain_iff_getElem]
    intro i hi
    have := step i (by omega)
    rwa [fn_lt (by omega), fn_lt hi] at this
  apply ClampedKnots.of_clamp hl
  refine ⟨fn_monotone hs, ?_, ?_, ?_, zero_lt_one, hp⟩
  · intro i hi
    rw [fn_genU (by omega), if_pos hi]
  · intro i hi
    by_cases h : i < n + p + 2
    · rw [fn_genU h, if_neg (by omega), if_neg (by omega)]
    · rw [fn_ge (by omega), fn_last (by omega), hl, fn_genU (by omega), if_neg (by omega),
        if_neg (by omega)]
  · intro i hi1 hi2
    rw [fn_genU (by omega), if_neg (by omega), if_pos (by omega)]
    exact h0 _ (by omega) (by omega)

end BSpline
