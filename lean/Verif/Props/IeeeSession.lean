import Verif.Props.IeeeDerivative

/-!
# Refining a curve with many knots in the arithmetic of `f64`: C126
-/

set_option linter.unusedSectionVars false

namespace BSpline

section Session

variable {K : Type} [Zero K] [One K] [Add K] [Sub K] [Mul K] [Div K] [NatCast K] [Cmp K] {d : ℕ}

/-- A caller who inserts the given knots one after another with `Curve::insert`
(`curve/mod.rs:298-301`) and stops at the first error. -/
def insertAll [Build] (c : Curve K d) : List K → Exec (Curve K d × Except (InsertError K) Unit)
  | [] => pure (c, .ok ())
  | u :: us => do
    let (c', r) ← c.insert u
    match r with
    | .error e => pure (c', .error e)
    | .ok () => insertAll c' us

end Session

/-- Knots which can be inserted one after another: each is strictly inside, occurs at most `p` times before, and
there is no repeated knot inside below it at that time. -/
def Refinable {K : Type} [Field K] [LinearOrder K] (p : ℕ) : List K → List K → Prop
  | _, [] => True
  | V, x :: xs => 0 < x ∧ x < 1 ∧ SimpleBelow V x ∧ V.count x ≤ p ∧ Refinable p (x :: V) xs

open Finset Ieee

section Field

variable {K : Type} [Field K] [LinearOrder K] [IsStrictOrderedRing K] {d : ℕ}

theorem Refinable.perm {p : ℕ} {xs : List K} : ∀ {V W : List K}, V.Perm W → Refinable p V xs → Refinable p W xs := by
  induction xs with
  | nil => intros; trivial
  | cons x xs ih =>
    rintro V W h ⟨h0, h1, h2, h3, h4⟩
    exact ⟨h0, h1, fun y a b => by rw [← h.count_eq]; exact h2 y a b, by rwa [← h.count_eq],
      ih (h.cons x) h4⟩

/-- Different new knots can always be inserted, in any order, if the knots inside are simple. -/
theorem refinable_of_nodup {p : ℕ} (hp : 0 < p) {xs : List K} : ∀ {V : List K}, xs.Nodup → (∀ x ∈ xs, 0 < x ∧ x < 1) →
    (∀ x ∈ xs, x ∉ V) → SimpleBelow V 1 → Refinable p V xs := by
  induction xs with
  | nil => intros; trivial
  | cons x xs ih =>
    intro V hn hi hV hs
    obtain ⟨h0, h1⟩ := hi x List.mem_cons_self
    have hx : V.count x = 0 := List.count_eq_zero.mpr (hV x List.mem_cons_self)
    rw [List.nodup_cons] at hn
    refine ⟨h0, h1, fun y a b => hs y a (b.trans h1), by omega,
      ih hn.2 (fun y hy => hi y (List.mem_cons_of_mem _ hy)) (fun y hy => ?_) fun y a b => ?_⟩
    · rw [List.mem_cons, not_or]
      exact ⟨fun h => hn.1 (h ▸ hy), hV y (List.mem_cons_of_mem _ hy)⟩
    · rw [List.count_cons]
      by_cases h : x = y
      · subst h; simp [hx]
      · rw [if_neg (by simpa using h)]; exact hs y a b

variable {F : Format K}

theorem insertAll_ieee {p : ℕ} (hroom : Room F p) {M : K} (hM0 : 0 ≤ M) {us : List (Ieee F)} {xs : List K}
    (hus : List.Forall₂ Is us xs) : ∀ {n : ℕ} {U : List (Ieee F)} {V : List K} {P : List (Pt (Ieee F) d)}
    {Y Q : List (Pt K d)} {D : K}, List.Forall₂ Is U V → List.Forall₂ PtIs P Y → ClampedKnots 0 1 p n V →
    Y.length = n + 1 → Q.length = n + 1 → Refinable p V xs → (∀ i r, |fn Q i r| ≤ M) →
    0 ≤ D → (∀ i r, |fn Y i r - fn Q i r| ≤ D) →
    4 * ((1 + insRel F) ^ xs.length * (M + D + xs.length * (4 * F.eta)) + 1) ≤ F.max →
    ∃ U' V' P' Y' Q', insertAll (canon p U P) us = .ok (canon p U' P', .ok ()) ∧
      insertAll (canon p V Q) xs = .ok (canon p V' Q', .ok ()) ∧ List.Forall₂ Is U' V' ∧
      List.Forall₂ PtIs P' Y' ∧ ClampedKnots 0 1 p (n + xs.length) V' ∧ Y'.length = n + xs.length + 1 ∧
      Q'.length = n + xs.length + 1 ∧ V'.Perm (xs ++ V) ∧ (∀ i r, |fn Q' i r| ≤ M) ∧
      (∀ v k, (canon p V' Q').evaluateDerivative v k = (canon p V Q).evaluateDerivative v k) ∧
      ∀ i r, |fn Y' i r - fn Q' i r| ≤ (1 + insRel F) ^ xs.length * (M + D + xs.length * (4 * F.eta)) - M := by
  have hs0 := insRel_nonneg F
  have heta := F.eta_nonneg
  induction hus with
  | nil =>
    intro n U V P Y Q D hU hP hV hY hQ hr hM hD0 hD hmax
    exact ⟨U, V, P, Y, Q, rfl, rfl, hU, hP, hV, hY, hQ, .refl _, hM, fun _ _ => rfl, fun i r => by simpa using hD i r⟩
  | @cons u x us xs hu hus ih =>
    intro n U V P Y Q D hU hP hV hY hQ hr hM hD0 hD hmax
    obtain ⟨h0, h1, hsb, hc, hr⟩ := hr
    rw [List.length_cons] at hmax
    set t := xs.length with ht
    have ht0 : (0 : K) ≤ t := Nat.cast_nonneg t
    have hg1 : 1 ≤ (1 + insRel F) ^ t := one_le_pow₀ (by linarith)
    have hte : 0 ≤ (t : K) * (4 * F.eta) := mul_nonneg ht0 (by linarith)
    set D1 : K := (1 + insRel F) ^ 1 * (M + D + (1 : ℕ) * (4 * F.eta)) - M with hD1
    have hM1 : M + D + 4 * F.eta ≤ M + D1 := by
      rw [hD1, pow_one, Nat.cast_one, one_mul, add_sub_cancel]
      exact le_mul_of_one_le_left (by linarith) (by linarith)
    have hstep : (1 + insRel F) ^ t * (M + D1 + t * (4 * F.eta)) ≤
        (1 + insRel F) ^ (t + 1) * (M + D + (t + 1 : ℕ) * (4 * F.eta)) := by
      rw [pow_succ, mul_assoc]
      refine mul_le_mul_of_nonneg_left ?_ (by linarith)
      have e : (1 + insRel F) * (M + D + (t + 1 : ℕ) * (4 * F.eta)) =
          M + D1 + t * (4 * F.eta) + insRel F * (t * (4 * F.eta)) := by
        rw [hD1]; push_cast; ring
      rw [e]
      have := mul_nonneg hs0 hte
      linarith
    have hfirst : M + D1 ≤ (1 + insRel F) ^ t * (M + D1 + t * (4 * F.eta)) := by
      have : M + D1 ≤ M + D1 + t * (4 * F.eta) := by linarith
      exact this.trans (le_mul_of_one_le_left (by linarith) hg1)
    obtain ⟨U1, V1, P1, Y1, Q1, a1, a2, a3, a4, a5, a6, a7, a8, a9, a10⟩ := insertTimes_ieee hroom hu h0 h1 hM0 1
      hU hP hV hY hQ hsb (by omega) hM hD0 hD (by
        rw [show (1 + insRel F) ^ 1 * (M + D + (1 : ℕ) * (4 * F.eta)) = M + D1 by rw [hD1]; ring]
        linarith)
    obtain ⟨V2, Q2, b1, b2, b3, -, b4⟩ := insertTimes_valid (d := d) h0 h1 1 hV hQ hsb (by omega)
    have heq : canon p V1 Q1 = canon p V2 Q2 := by
      rw [a2] at b1
      exact (Prod.mk.inj (Except.ok.inj b1)).1
    obtain ⟨U', V', P', Y', Q', i1, i2, i3, i4, i5, i6, i7, i8, i9, i11, i10⟩ := ih (n := n + 1) a3 a4 a5 a6 a7
      (hr.perm a8.symm) a9 (by linarith) a10 (by linarith)
    refine ⟨U', V', P', Y', Q', ?_, ?_, i3, i4, ?_, by simp; omega, by simp; omega, ?_, i9, fun v k => ?_,
      fun i r => (i10 i r).trans ?_⟩
    · rw [insertAll, Curve.insert, a1]; exact i1
    · rw [insertAll, Curve.insert, a2]; exact i2
    · rw [List.length_cons, show n + (xs.length + 1) = n + 1 + xs.length by omega]; exact i5
    · exact i8.trans ((List.Perm.append_left _ a8).trans List.perm_middle)
    · rw [i11, heq]; exact evaluateDerivative_same hV b2 hQ b3 b4 v k
    · rw [List.length_cons]; linarith

/-- **C126** Inserting any number of knots one after another in floating-point arithmetic, as long as each may be
inserted by the rules of exact arithmetic: every call succeeds, the knots are those of exact arithmetic, and the errors
of `t` insertions into control points with coordinates up to `M` add up to at most `(1 + s)^t (M + 4 t eta) - M` with
`s = 2 (phi^6 - 1) + 4 eta`. The exact curve keeps all its values and derivatives. -/
theorem C126_session {c : Curve (Ieee F) d} {e : Curve K d} {p n : ℕ} {U : List (Ieee F)} {V : List K}
    {P : List (Pt (Ieee F) d)} {Q : List (Pt K d)} (hroom : Room F p) (hc : Built c p U P)
    (he : ValidOn 0 1 e p n V Q) (hU : List.Forall₂ Is U V) (hP : List.Forall₂ PtIs P Q)
    {us : List (Ieee F)} {xs : List K} (hus : List.Forall₂ Is us xs) (hr : Refinable p V xs)
    {M : K} (hM0 : 0 ≤ M) (hM : ∀ q ∈ Q, ∀ r, |q r| ≤ M)
    (hmax : 4 * ((1 + insRel F) ^ xs.length * (M + xs.length * (4 * F.eta)) + 1) ≤ F.max) :
    ∃ (c' : Curve (Ieee F) d) (e' : Curve K d) (V' : List K) (Q' : List (Pt K d)),
      insertAll c us = .ok (c', .ok ()) ∧ insertAll e xs = .ok (e', .ok ()) ∧
      ValidOn 0 1 e' p (n + xs.length) V' Q' ∧ V'.Perm (xs ++ V) ∧ (∀ q ∈ Q', ∀ r, |q r| ≤ M) ∧
      (∀ v k, e'.evaluateDerivative v k = e.evaluateDerivative v k) ∧
      Approx 0 1 0 ((1 + insRel F) ^ xs.length * (M + xs.length * (4 * F.eta)) - M) p (n + xs.length) c' e' := by
  obtain rfl := he.eq_canon
  obtain ⟨-, hV, hQ⟩ := he
  have hQ0 : Q ≠ [] := by rintro rfl; simp at hQ
  obtain rfl := hc.ieee_eq (hU.length_eq.trans hV.length) hV.le (hP.length_eq.trans hQ)
  obtain ⟨U', V', P', Y', Q', i1, i2, i3, i4, i5, i6, i7, i8, i9, i11, i10⟩ := insertAll_ieee hroom hM0 hus
    hU hP hV hQ hQ hr (fun i r => hM _ (fn_mem hQ0 i) r) le_rfl (fun i r => by simp) (by rwa [add_zero])
  rw [add_zero] at i10
  refine ⟨_, _, V', Q', i1, i2, validOn_canon i5 i7, i8, fun q hq r => ?_, i11,
    Approx.of_exact i5 i3 i4 i6 i7 (forall₂_of_fn (by omega) i10)⟩
  obtain ⟨i, hi, rfl⟩ := List.mem_iff_getElem.mp hq
  rw [← fn_lt hi]
  exact i9 i r

end Field

/-! ### Double precision -/

variable {d : ℕ}

theorem growMany64 {t : ℕ} (ht : t ≤ 2 ^ 40) {M : ℚ} (hM : 0 ≤ M) :
    (1 + insRel binary64) ^ t * (M + t * (4 * binary64.eta)) - M ≤ t / 2 ^ 48 * M + t / 2 ^ 1072 := by
  have hs := insRel64
  have hs0 := insRel_nonneg binary64
  generalize insRel binary64 = s at hs hs0
  have ht0 : (0 : ℚ) ≤ t := Nat.cast_nonneg t
  have ht1 : (t : ℚ) ≤ 2 ^ 40 := by exact_mod_cast ht
  have hts : (t : ℚ) * s ≤ t * (1 / 2) ^ 49 := mul_le_mul_of_nonneg_left hs ht0
  have hpow : (1 + s) ^ t ≤ 1 + t / 2 ^ 48 := by
    have hb := one_add_mul_le_pow (a := -s) (by linarith [show (1 / 2 : ℚ) ^ 49 ≤ 1 by norm_num]) t
    rw [← sub_eq_add_neg] at hb
    have h1 : (1 + s) ^ t * (1 - s) ^ t ≤ 1 := by
      rw [← mul_pow]
      exact pow_le_one₀ (mul_nonneg (by linarith) (by linarith [show (1 / 2 : ℚ) ^ 49 ≤ 1 by norm_num]))
        (by nlinarith)
    have hp : 0 < (1 + s) ^ t := pow_pos (by linarith) t
    have h2 : (1 + s) ^ t * (1 - t * (1 / 2) ^ 49) ≤ 1 :=
      (mul_le_mul_of_nonneg_left (by linarith) hp.le).trans h1
    have h3 : (0 : ℚ) < 1 - t * (1 / 2) ^ 49 := by norm_num; linarith
    refine le_trans ((le_div_iff₀ h3).mpr h2) ?_
    rw [div_le_iff₀ h3]
    norm_num
    nlinarith
  have heta : 4 * binary64.eta = 1 / 2 ^ 1073 := by
    rw [heta64, one_div, one_div, inv_pow, show (1075 : ℕ) = 1073 + 2 from rfl, pow_add]
    generalize (2 : ℚ) ^ 1073 = a
    rw [mul_inv]
    ring
  rw [heta]
  have ha : (0 : ℚ) < 1 / 2 ^ 1073 := by positivity
  have h2 : (t : ℚ) / 2 ^ 1072 = 2 * (t * (1 / 2 ^ 1073)) := by
    rw [show (2 : ℚ) ^ 1073 = 2 ^ 1072 * 2 from pow_succ 2 1072]
    generalize (2 : ℚ) ^ 1072 = a
    rw [one_div, mul_inv]
    ring
  rw [h2]
  generalize (1 : ℚ) / 2 ^ 1073 = a at ha ⊢
  have h3 : (1 + s) ^ t * (M + t * a) ≤ (1 + t / 2 ^ 48) * (M + t * a) :=
    mul_le_mul_of_nonneg_right hpow (add_nonneg hM (mul_nonneg ht0 ha.le))
  have h4 : (t : ℚ) / 2 ^ 48 ≤ 1 := by rw [div_le_one (by norm_num)]; norm_num; linarith
  have h5 : (t : ℚ) / 2 ^ 48 * (t * a) ≤ 1 * (t * a) := mul_le_mul_of_nonneg_right h4 (mul_nonneg ht0 ha.le)
  linarith

theorem growthMany_le {t : ℕ} (ht : t ≤ 2 ^ 40) {M : ℚ} (hM0 : 0 ≤ M) : t / 2 ^ 48 * M + t / 2 ^ 1072 ≤ M + 1 := by
  have ht1 : (t : ℚ) ≤ 2 ^ 40 := by exact_mod_cast ht
  have h4 : (t : ℚ) / 2 ^ 48 ≤ 1 := by rw [div_le_one (by norm_num)]; norm_num; linarith
  have h5 : (t : ℚ) / 2 ^ 1072 ≤ 1 := by
    rw [div_le_one (by positivity)]
    exact ht1.trans (by decide +kernel)
  have h6 := mul_le_mul_of_nonneg_right h4 hM0
  generalize (t : ℚ) / 2 ^ 1072 = a at h5 ⊢
  linarith

theorem roomMany64 {t : ℕ} (ht : t ≤ 2 ^ 40) {M : ℚ} (hM : 0 ≤ M) (hM' : M ≤ 2 ^ 998) :
    4 * ((1 + insRel binary64) ^ t * (M + t * (4 * binary64.eta)) + 1) ≤ binary64.max := by
  have h := growMany64 ht hM
  have h2 := growthMany_le ht hM
  have hmax : (2 : ℚ) ^ 1023 ≤ binary64.max := by decide +kernel
  refine le_trans ?_ hmax
  have h7 : 4 * (2 * (2 : ℚ) ^ 998 + 2) ≤ 2 ^ 1023 := by decide +kernel
  refine le_trans ?_ h7
  generalize (2 : ℚ) ^ 998 = b at hM' ⊢
  generalize (t : ℚ) / 2 ^ 1072 = a at h h2
  linarith

theorem collectMany64 {p t : ℕ} (hp : p ≤ 600) (ht : t ≤ 2 ^ 40) {M D : ℚ} (hM : 0 ≤ M)
    (hD : D = t / 2 ^ 48 * M + t / 2 ^ 1072) :
    (6 * p + 2) / 2 ^ 52 * (M + D) + (p + 1) * 3 ^ (p + 3) * (M + D + 1) * (1 / 2) ^ 1075 + D ≤
      (6 * p + 2 + 17 * t) / 2 ^ 52 * M + (p + 1 + t) * 3 ^ (p + 4) * (M + 1) * (1 / 2) ^ 1075 := by
  have hp1 : (p : ℚ) ≤ 600 := by exact_mod_cast hp
  have ht0 : (0 : ℚ) ≤ t := Nat.cast_nonneg t
  have hp0 : (0 : ℚ) ≤ p := Nat.cast_nonneg p
  have hDM : D ≤ M + 1 := hD ▸ growthMany_le ht hM
  have hD0 : 0 ≤ D := hD ▸ growth_nonneg hM
  have hz : (t : ℚ) / 2 ^ 1072 = 8 * t * (1 / 2) ^ 1075 := by
    rw [show (1075 : ℕ) = 1072 + 3 from rfl, pow_add, one_div_pow (2 : ℚ) 1072]
    generalize (2 : ℚ) ^ 1072 = g
    ring
  have hz0 : (0 : ℚ) ≤ (1 / 2) ^ 1075 := by positivity
  rw [hz] at hD
  clear hz
  generalize ((1 : ℚ) / 2) ^ 1075 = z at *
  have h3 : (27 : ℚ) ≤ 3 ^ (p + 3) := by
    have : (3 : ℚ) ^ 3 ≤ 3 ^ (p + 3) := pow_le_pow_right₀ (by norm_num) (by omega)
    calc (27 : ℚ) = 3 ^ 3 := by norm_num
      _ ≤ _ := this
  rw [show p + 4 = (p + 3) + 1 from rfl, pow_succ (3 : ℚ) (p + 3)]
  generalize (3 : ℚ) ^ (p + 3) = A at *
  set B : ℚ := (p + 1) * A with hB
  have hB0 : 0 ≤ B := mul_nonneg (by linarith) (by linarith)
  have b1 : (6 * p + 2) / 2 ^ 52 * D ≤ D / 16 := by
    rw [div_eq_mul_inv D, mul_comm D]
    refine mul_le_mul_of_nonneg_right ?_ hD0
    rw [div_le_iff₀ (by norm_num)]
    norm_num
    linarith
  have b2 : B * (M + D + 1) * z ≤ B * (2 * (M + 1)) * z :=
    mul_le_mul_of_nonneg_right (mul_le_mul_of_nonneg_left (by linarith) hB0) hz0
  have b3 : 17 / 16 * (8 * t * z) ≤ t * (A * 3) * (M + 1) * z := by
    have c1 : 17 / 16 * (8 * (t : ℚ)) ≤ t * (A * 3) * (M + 1) := by
      have c2 : t * (A * 3) * 1 ≤ t * (A * 3) * (M + 1) :=
        mul_le_mul_of_nonneg_left (by linarith) (mul_nonneg ht0 (by linarith))
      have c3 : (t : ℚ) * 27 ≤ t * A := mul_le_mul_of_nonneg_left h3 ht0
      linarith
    have := mul_le_mul_of_nonneg_right c1 hz0
    linarith
  have b4 : 17 / 16 * D = 17 * t / 2 ^ 52 * M + 17 / 16 * (8 * t * z) := by
    rw [hD]; ring
  have b6 : (p + 1 + t) * (A * 3) * (M + 1) * z =
      B * (2 * (M + 1)) * z + B * (M + 1) * z + t * (A * 3) * (M + 1) * z := by rw [hB]; ring
  have b8 : 0 ≤ B * (M + 1) * z := mul_nonneg (mul_nonneg hB0 (by linarith)) hz0
  rw [b6]
  have b7 : (6 * p + 2 + 17 * t) / 2 ^ 52 * M = (6 * p + 2) / 2 ^ 52 * M + 17 * t / 2 ^ 52 * M := by ring
  rw [b7, mul_add]
  linarith

/-- **C126** `f64`: refining a curve with up to `2^40` knots, inserted one after another, and evaluating a derivative of
order `k`, all in double precision, gives at every parameter in `[0, 1]` the derivative of the original curve in exact
arithmetic, with an error of at most `(6p + 2 + 17t) / 2^52 · (2p/h)^k M` for `t` insertions and different knots
at least `h` apart, and a term for underflow. -/
theorem C126_derivative {c : Curve (Ieee binary64) d} {e : Curve ℚ d} {p n k : ℕ}
    {U : List (Ieee binary64)} {V : List ℚ} {P : List (Pt (Ieee binary64) d)} {Q : List (Pt ℚ d)} (hp : p ≤ 600)
    (hc : Built c p U P) (he : ValidOn 0 1 e p n V Q) (hU : List.Forall₂ Is U V) (hP : List.Forall₂ PtIs P Q)
    (hk : k ≤ p) {us : List (Ieee binary64)} {xs : List ℚ} (hus : List.Forall₂ Is us xs) (hr : Refinable p V xs)
    (ht : xs.length ≤ 2 ^ 40) {M : ℚ} (hM0 : 0 ≤ M) (hM : ∀ q ∈ Q, ∀ r, |q r| ≤ M)
    {h : ℚ} (hh : (1 / 2) ^ 1000 ≤ h) (hgap : ∀ a ∈ xs ++ V, ∀ b ∈ xs ++ V, a < b → h ≤ b - a)
    (hmax : M ≤ 2 ^ 998) (hmaxk : (4 * p / h) ^ k * (M + 1) ≤ 2 ^ 998) :
    ∃ c', insertAll c us = .ok (c', .ok ()) ∧ ∀ (s : Ieee binary64) (y : ℚ), Is s y → 0 ≤ y → y ≤ 1 →
      ∃ v w, c'.evaluateDerivative s k = .ok (.ok v) ∧ e.evaluateDerivative y k = .ok (.ok w) ∧
        ∀ r, ∃ z, Is (v r) z ∧ |z - w r| ≤ (6 * p + 2 + 17 * xs.length) / 2 ^ 52 * ((2 * p / h) ^ k * M) +
          (p + 1 + xs.length) * 3 ^ (p + 4) * ((4 * p / h) ^ k * (M + 1)) * (1 / 2) ^ 1075 := by
  have hb64 : (2 : ℚ) ^ 1023 ≤ binary64.max := by decide +kernel
  have hhpos : 0 < h := lt_of_lt_of_le (by positivity) hh
  obtain ⟨c', e', V', Q', hi, -, he', hperm, hMQ, hsame, happ⟩ := C126_session (room_binary64 hp) hc he hU hP hus hr
    hM0 hM (roomMany64 ht hM0 hmax)
  have happ := happ.mono le_rfl (growMany64 ht hM0)
  generalize xs.length = t at *
  have hpt : e'.points.matrix = .ok Q' := by rw [he'.eq_canon, canon_points, canonPts_matrix]
  obtain ⟨D, hD⟩ : ∃ D : ℚ, D = t / 2 ^ 48 * M + t / 2 ^ 1072 := ⟨_, rfl⟩
  rw [← hD] at happ
  refine ⟨c', hi, fun s y hs hy0 hy1 => ?_⟩
  obtain ⟨U1, V1, X1, P1, Y1, Q1, hc1, he1, hU1, hP1, -, -, -, hcl1, -, hD1⟩ := happ
  have e1 := he1.eq_canon
  have e2 := he'.eq_canon
  have hQQ : Q1 = Q' := by
    have := hpt
    rw [e1, canon_points, canonPts_matrix] at this
    injection this
  have hXX : X1 = V' := by
    have : e'.knots.vector = .ok V' := by rw [e2, canon_knots, canonKnots_vector]
    rw [e1, canon_knots, canonKnots_vector] at this
    injection this
  subst hQQ hXX
  obtain rfl : V1 = X1 := by
    refine List.ext_getElem hcl1.length_eq fun i h1 h2 => ?_
    have := (List.forall₂_iff_get.mp hcl1).2 i h1 h2
    exact sub_eq_zero.mp (abs_nonpos_iff.mp this)
  have hgap1 : ∀ a ∈ V1, ∀ b ∈ V1, a < b → h ≤ b - a :=
    fun a ha b hb => hgap a (hperm.mem_iff.mp ha) b (hperm.mem_iff.mp hb)
  have hlY : Y1.length = n + t + 1 := by rw [hD1.length_eq, he1.2.2]
  have hf := validOn_canon he1.2.1 hlY
  obtain ⟨v, w', hv, hw', hb⟩ := C85_derivative (room_binary64 hp) hc1 hf hU1 hP1 hk hs hy0 hy1 hhpos hgap1 (by
    refine le_trans ?_ hb64
    rw [div_le_iff₀ hhpos]
    refine le_trans ?_ (mul_le_mul_of_nonneg_left hh (by positivity))
    decide +kernel)
  clear hh hmax
  obtain ⟨r1, w, hr1, hw, hb'⟩ : ∃ r1 w, (canon p V1 Y1).evaluateDerivative y k = .ok (.ok r1) ∧
      e'.evaluateDerivative y k = .ok (.ok w) ∧ ∀ r, |r1 r - w r| ≤ (2 * p / h) ^ k * D := by
    obtain ⟨j, hj⟩ := he1.2.1.clamp.exists_span hy0 hy1
    refine ⟨_, _, evaluateDerivative_eq he1.2.1 hlY hk hy0 hy1 hj,
      e1 ▸ evaluateDerivative_eq he1.2.1 he1.2.2 hk hy0 hy1 hj, fun r => ?_⟩
    obtain ⟨a, b, a1, a2, a3⟩ := C93_points_derivative hf he1 hk hhpos hgap1 (ρ := r) (η := D)
      (fun i a b ha hb => close_get hD1 ha hb r) hy0 hy1
    rw [evaluateDerivative_eq he1.2.1 hlY hk hy0 hy1 hj] at a1
    rw [e1, evaluateDerivative_eq he1.2.1 he1.2.2 hk hy0 hy1 hj] at a2
    rw [← Except.ok.inj (Except.ok.inj a1), ← Except.ok.inj (Except.ok.inj a2)] at a3
    exact a3
  rw [hr1] at hw'
  injection hw' with hw'; injection hw' with hw'
  subst hw'
  refine ⟨v, w, hv, (hsame y k).symm.trans hw, fun r => ?_⟩
  have hA : (2 * (p / h)) ^ k = (2 * p / h) ^ k := by rw [mul_div_assoc]
  have hB : (4 * (p / h)) ^ k = (4 * p / h) ^ k := by rw [mul_div_assoc]
  obtain ⟨hA0, hAB⟩ := order_factor_le (p := p) (k := k) hhpos
  have hD0 : 0 ≤ D := hD ▸ growth_nonneg hM0
  have hDM : D ≤ M + 1 := hD ▸ growthMany_le ht hM0
  obtain ⟨z, hz, hzb⟩ := hb r (M + D) (bound_of_close hD1 fun q hq => hMQ q hq r) (by
    rw [hB]
    refine le_trans ?_ hb64
    exact room_order (hA0.trans hAB) hDM hmaxk)
  refine ⟨z, hz, ?_⟩
  have hphi : binary64.phi ^ (6 * p - k + 2) - 1 ≤ (6 * p + 2) / 2 ^ 52 :=
    (sub_le_sub_right (pow_le_pow_right₀ binary64.one_le_phi (by omega)) 1).trans (phi64_le hp)
  have heta : binary64.eta = (1 / 2) ^ 1075 := by
    change (1 / 2 * 2 ^ ((-1022 : ℤ) - 52) : ℚ) = _
    decide +kernel
  rw [hA, hB, heta] at hzb
  have hcol := collectMany64 hp ht hM0 hD
  have htri : |z - w r| ≤ |z - r1 r| + |r1 r - w r| := abs_sub_le _ _ _
  have hw1 := hb' r
  have hMD : 0 ≤ M + D := by linarith
  have hX := underflow_le (p := p) hM0 hDM
  have hX2 : (p + 1) * 3 ^ (p + 4) * (M + 1) * (1 / 2 : ℚ) ^ 1075 ≤
      (p + 1 + t) * 3 ^ (p + 4) * (M + 1) * (1 / 2 : ℚ) ^ 1075 := by
    refine mul_le_mul_of_nonneg_right (mul_le_mul_of_nonneg_right (mul_le_mul_of_nonneg_right ?_ (by positivity))
      (by linarith)) (by positivity)
    have : (0 : ℚ) ≤ t := Nat.cast_nonneg t
    linarith
  have e3 : (p + 1) * 3 ^ (p + 3) * ((4 * p / h) ^ k * (M + D + 1)) * (1 / 2 : ℚ) ^ 1075 =
    (4 * p / h) ^ k * ((p + 1) * 3 ^ (p + 3) * (M + D + 1) * (1 / 2) ^ 1075) := by
    generalize (4 * p / h) ^ k = B
    generalize (1 / 2 : ℚ) ^ 1075 = z
    ring
  have e4 : (p + 1 + t) * 3 ^ (p + 4) * ((4 * p / h) ^ k * (M + 1)) * (1 / 2 : ℚ) ^ 1075 =
    (4 * p / h) ^ k * ((p + 1 + t) * 3 ^ (p + 4) * (M + 1) * (1 / 2) ^ 1075) := by
    generalize (4 * p / h) ^ k = B
    generalize (1 / 2 : ℚ) ^ 1075 = z
    ring
  rw [e3] at hzb
  rw [e4]
  exact collect_order hA0 hAB hphi hMD hcol (hX.trans hX2) (htri.trans (add_le_add hzb hw1))

/-- **C126** `f64`: the same for values and for different new knots, inserted in any order into simple knots: the error
is at most `(6p + 2 + 17t) / 2^52 · M`, and a term for underflow. -/
theorem C126_refine {c : Curve (Ieee binary64) d} {e : Curve ℚ d} {p n : ℕ}
    {U : List (Ieee binary64)} {V : List ℚ} {P : List (Pt (Ieee binary64) d)} {Q : List (Pt ℚ d)} (hp0 : 0 < p)
    (hp : p ≤ 600) (hc : Built c p U P) (he : ValidOn 0 1 e p n V Q) (hU : List.Forall₂ Is U V)
    (hP : List.Forall₂ PtIs P Q) {us : List (Ieee binary64)} {xs : List ℚ} (hus : List.Forall₂ Is us xs)
    (hx : xs.Nodup) (hxi : ∀ x ∈ xs, 0 < x ∧ x < 1) (hxV : ∀ x ∈ xs, x ∉ V) (hs : SimpleBelow V 1)
    (ht : xs.length ≤ 2 ^ 40) {M : ℚ} (hM0 : 0 ≤ M) (hM : ∀ q ∈ Q, ∀ r, |q r| ≤ M)
    (hgap : ∀ a ∈ xs ++ V, ∀ b ∈ xs ++ V, a < b → (1 / 2) ^ 1000 ≤ b - a) (hmax : M + 1 ≤ 2 ^ 998) :
    ∃ c', insertAll c us = .ok (c', .ok ()) ∧ ∀ (s : Ieee binary64) (y : ℚ), Is s y → 0 ≤ y → y ≤ 1 →
      ∃ v w, c'.evaluate s = .ok (.ok v) ∧ e.evaluate y = .ok (.ok w) ∧
        ∀ r, ∃ z, Is (v r) z ∧ |z - w r| ≤ (6 * p + 2 + 17 * xs.length) / 2 ^ 52 * M +
          (p + 1 + xs.length) * 3 ^ (p + 4) * (M + 1) * (1 / 2) ^ 1075 := by
  obtain ⟨c', hi, hv⟩ := C126_derivative hp hc he hU hP (Nat.zero_le p) hus (refinable_of_nodup hp0 hx hxi hxV hs) ht
    hM0 hM le_rfl hgap (le_trans (le_add_of_nonneg_right zero_le_one) hmax) (by rwa [pow_zero, one_mul])
  refine ⟨c', hi, fun s y hs hy0 hy1 => ?_⟩
  obtain ⟨v, w, h1, h2, h3⟩ := hv s y hs hy0 hy1
  refine ⟨v, w, h1, h2, fun r => ?_⟩
  obtain ⟨z, hz, hb⟩ := h3 r
  refine ⟨z, hz, hb.trans (le_of_eq ?_)⟩
  rw [pow_zero, pow_zero, one_mul, one_mul]

/-! ### A concrete case: the curve of the example in Props/Ieee.lean with two new knots -/

example : List.Forall₂ Is [eq64 (1 / 2), eq64 (1 / 4)] [1 / 2, 1 / 4] ∧ ([1 / 2, 1 / 4] : List ℚ).Nodup ∧
    (∀ x ∈ [1 / 2, 1 / 4], (x : ℚ) ∉ ieV) ∧ SimpleBelow ieV 1 ∧
    (∀ a ∈ [1 / 2, 1 / 4] ++ ieV, ∀ b ∈ [1 / 2, 1 / 4] ++ ieV, a < b → (1 / 2) ^ 1000 ≤ b - a) := by
  refine ⟨?_, by decide +kernel, by decide +kernel, ?_, by decide +kernel⟩
  · refine .cons ?_ (.cons ?_ .nil)
    · have := is_exactOf (x := eq64 (1 / 2)) ⟨false, ⟨1 / 2, by decide +kernel, by decide +kernel⟩, by decide +kernel⟩
      have e : exactOf (eq64 (1 / 2)) = 1 / 2 := by decide +kernel
      rwa [e] at this
    · have := is_exactOf (x := eq64 (1 / 4)) ⟨false, ⟨1 / 4, by decide +kernel, by decide +kernel⟩, by decide +kernel⟩
      have e : exactOf (eq64 (1 / 4)) = 1 / 4 := by decide +kernel
      rwa [e] at this
  · intro x h0 h1
    by_contra hcon
    have hm : x ∈ ieV := List.count_pos_iff.mp (by omega)
    have : ∀ y ∈ ieV, 0 < y → y < 1 → ieV.count y ≤ 1 := by decide +kernel
    have := this x hm h0 h1
    omega

end BSpline
