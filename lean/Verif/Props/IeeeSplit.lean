import Verif.Props.IeeeInsert
import Verif.Props.IeeeReverse
import Verif.Props.Split

/-!
# Repeated insertion and splitting in the arithmetic of `f64`: C89
-/

set_option linter.unusedSectionVars false

namespace BSpline

open Ieee

variable {K : Type} [Field K] [LinearOrder K] [IsStrictOrderedRing K] {F : Format K} {d : ℕ}

/-- The computed curve `c` approximates the exact curve `e` on `[a, b]`: it has the same degree and number of
control points, all its knots and control points are finite, its knots are sorted, with `p + 1` times exactly
`a` and `b` at the ends and with an error of at most `t`, equal knots of `e` remain equal, and the coordinates of
its control points have an error of at most `D`. -/
def Approx (a b t D : K) (p n : ℕ) (c : Curve (Ieee F) d) (e : Curve K d) : Prop :=
  ∃ U V X P Y Q, Built c p U P ∧ ValidOn a b e p n X Q ∧ List.Forall₂ Is U V ∧ List.Forall₂ PtIs P Y ∧
    V.Pairwise (· ≤ ·) ∧ V.take (p + 1) = List.replicate (p + 1) a ∧
    V.drop (n + 1) = List.replicate (p + 1) b ∧ List.Forall₂ (fun v x => |v - x| ≤ t) V X ∧
    (∀ i j : ℕ, X[i]? = X[j]? → V[i]? = V[j]?) ∧ List.Forall₂ (fun (y q : Pt K d) => ∀ r, |y r - q r| ≤ D) Y Q

/-! ### Repeated insertion -/

/-- relative error of an insertion -/
def insRel (F : Format K) : K := 2 * (F.phi ^ 6 - 1) + 4 * F.eta

theorem insRel_nonneg (F : Format K) : 0 ≤ insRel F := by
  have := F.one_le_phi_pow 6
  have := F.eta_nonneg
  rw [insRel]; linarith

/-- an exact insertion forms convex combinations of neighbours -/
theorem insP_convex {p n l i : ℕ} {V : List K} {x : K} (hV : ClampedKnots 0 1 p n V) (hm : V.count x ≤ p)
    (hp : p ≤ l) (hn : l ≤ n) (hl : fn V l ≤ x) (hl' : x ≤ fn V (l + 1)) :
    ∃ a : K, 0 ≤ a ∧ a ≤ 1 ∧ ∀ (Q : ℕ → Pt K d) r,
      insP (fn V) p Q x l i r = (1 - a) * Q (i - 1) r + a * Q i r := by
  have hcl := hV.clamp
  by_cases h1 : i ≤ l - p
  · exact ⟨1, zero_le_one, le_rfl, fun Q r => by simp [insP, h1]⟩
  by_cases h2 : i ≤ l
  swap
  · exact ⟨0, le_rfl, zero_le_one, fun Q r => by simp [insP, h1, h2]⟩
  have hlo : fn V i ≤ x := (hcl.mono (by omega)).trans hl
  have hhi : x ≤ fn V (i + p) := hl'.trans (hcl.mono (by omega))
  have hlt : fn V i < fn V (i + p) := by
    refine lt_of_le_of_ne (hlo.trans hhi) fun he => ?_
    have hr := run_le_count (U := V) (x := x) (lo := i) (s := p + 1) (by
      have := hV.length; omega) (by
        intro m hm1 hm2
        have a1 : fn V i ≤ fn V m := hcl.mono hm1
        have a2 : fn V m ≤ fn V (i + p) := hcl.mono (by omega)
        exact le_antisymm (by linarith) (by linarith))
    omega
  refine ⟨(x - fn V i) / (fn V (i + p) - fn V i), div_nonneg (by linarith) (by linarith),
    (div_le_one (by linarith)).mpr (by linarith), fun Q r => ?_⟩
  simp [insP, h1, h2, scale]

theorem insP_close {p n l i : ℕ} {V : List K} {x : K} (hV : ClampedKnots 0 1 p n V) (hm : V.count x ≤ p)
    (hp : p ≤ l) (hn : l ≤ n) (hl : fn V l ≤ x) (hl' : x ≤ fn V (l + 1)) {Y Q : ℕ → Pt K d} {M D : K} {r : Fin d}
    (hM : ∀ i, |Q i r| ≤ M) (hD : ∀ i, |Y i r - Q i r| ≤ D) :
    |insP (fn V) p Q x l i r| ≤ M ∧ |insP (fn V) p Y x l i r - insP (fn V) p Q x l i r| ≤ D := by
  obtain ⟨a, h0, h1, ha⟩ := insP_convex (d := d) (i := i) hV hm hp hn hl hl'
  have key : ∀ {y z B : K}, |y| ≤ B → |z| ≤ B → |(1 - a) * y + a * z| ≤ B := by
    intro y z B hy hz
    have hb : 0 ≤ 1 - a := by linarith
    rw [abs_le] at hy hz ⊢
    constructor
    · nlinarith [mul_le_mul_of_nonneg_left hy.1 hb, mul_le_mul_of_nonneg_left hz.1 h0]
    · nlinarith [mul_le_mul_of_nonneg_left hy.2 hb, mul_le_mul_of_nonneg_left hz.2 h0]
  rw [ha, ha]
  refine ⟨key (hM _) (hM _), ?_⟩
  rw [show (1 - a) * Y (i - 1) r + a * Y i r - ((1 - a) * Q (i - 1) r + a * Q i r) =
    (1 - a) * (Y (i - 1) r - Q (i - 1) r) + a * (Y i r - Q i r) by ring]
  exact key (hD _) (hD _)

theorem insertTimes_ieee {p : ℕ} (hroom : Room F p) {u : Ieee F} {x M : K} (hu : Is u x) (h0 : 0 < x) (h1 : x < 1)
    (hM0 : 0 ≤ M) (t : ℕ) : ∀ {n : ℕ} {U : List (Ieee F)} {V : List K} {P : List (Pt (Ieee F) d)}
    {Y Q : List (Pt K d)} {D : K}, List.Forall₂ Is U V → List.Forall₂ PtIs P Y → ClampedKnots 0 1 p n V →
    Y.length = n + 1 → Q.length = n + 1 → SimpleBelow V x → V.count x + t ≤ p + 1 → (∀ i r, |fn Q i r| ≤ M) →
    0 ≤ D → (∀ i r, |fn Y i r - fn Q i r| ≤ D) →
    4 * ((1 + insRel F) ^ t * (M + D + t * (4 * F.eta)) + 1) ≤ F.max →
    ∃ U' V' P' Y' Q', (canon p U P).insertTimes u t = .ok (canon p U' P', .ok ()) ∧
      (canon p V Q).insertTimes x t = .ok (canon p V' Q', .ok ()) ∧ List.Forall₂ Is U' V' ∧
      List.Forall₂ PtIs P' Y' ∧ ClampedKnots 0 1 p (n + t) V' ∧ Y'.length = n + t + 1 ∧ Q'.length = n + t + 1 ∧
      V'.Perm (List.replicate t x ++ V) ∧ (∀ i r, |fn Q' i r| ≤ M) ∧
      ∀ i r, |fn Y' i r - fn Q' i r| ≤ (1 + insRel F) ^ t * (M + D + t * (4 * F.eta)) - M := by
  have hs0 := insRel_nonneg F
  have heta := F.eta_nonneg
  induction t with
  | zero =>
    intro n U V P Y Q D hU hP hV hY hQ hr hm hM hD0 hD hmax
    exact ⟨U, V, P, Y, Q, rfl, rfl, hU, hP, hV, hY, hQ, by simp, hM, fun i r => by simpa using hD i r⟩
  | succ t ih =>
    intro n U V P Y Q D hU hP hV hY hQ hr hm hM hD0 hD hmax
    have hlV := hV.length
    have hle := hV.le
    have hlU : U.length = n + p + 2 := hU.length_eq.trans hlV
    have hlP : P.length = n + 1 := hP.length_eq.trans hY
    have hg := lleq_insert hV h0 h1 hr
    have hb := lleq_bounds (fn V) x (n - p) p
    have hins := insert_ok hlU hlP hle u
    have hins' := insert_ok (d := d) hlV hQ hle x
    have hcmp : (Cmp.le x 0 || Cmp.le 1 x) = false := by simp [Cmp.le, h0, h1]
    rw [multF_eq_count hV h0 h1, if_neg (by simp [hcmp]), if_neg (by omega)] at hins'
    rw [multF_is hU hu, multF_eq_count hV h0 h1, if_neg (by
      rw [hu.cmp_le is_zero, is_one.cmp_le hu]; simp [h0, h1]), if_neg (by omega),
      lleq_is (fn_is hU) hu] at hins
    generalize lleq (fn V) x (n - p) p = l at hg hb hins hins'
    have hV' := insU_clamped hV h0 h1 hb.1 (by omega) hg.1 hg.2
    have hMY : ∀ i r, |fn Y i r| ≤ M + D := by
      intro i r
      have := abs_sub_abs_le_abs_sub (fn Y i r) (fn Q i r)
      linarith [hM i r, hD i r]
    -- growth
    have hg1 : 1 ≤ (1 + insRel F) ^ t := one_le_pow₀ (by linarith)
    have ht0 : (0 : K) ≤ t := Nat.cast_nonneg t
    have hte : 0 ≤ (t : K) * (4 * F.eta) := mul_nonneg ht0 (by linarith)
    have hMD : 0 ≤ M + D := by linarith
    set D1 : K := D + (insRel F * (M + D) + 4 * F.eta) with hD1
    have hD10 : 0 ≤ D1 := by
      have := mul_nonneg hs0 hMD
      rw [hD1]; linarith
    have hstep : (1 + insRel F) ^ t * (M + D1 + t * (4 * F.eta)) ≤
        (1 + insRel F) ^ (t + 1) * (M + D + (t + 1 : ℕ) * (4 * F.eta)) := by
      rw [pow_succ, mul_assoc]
      refine mul_le_mul_of_nonneg_left ?_ (by linarith)
      have e : (1 + insRel F) * (M + D + (t + 1 : ℕ) * (4 * F.eta)) =
          M + D1 + t * (4 * F.eta) + insRel F * ((t + 1) * (4 * F.eta)) := by
        rw [hD1]; push_cast; ring
      rw [e]
      have : 0 ≤ insRel F * ((t + 1) * (4 * F.eta)) := mul_nonneg hs0 (mul_nonneg (by linarith) (by linarith))
      linarith
    have hsmall : M + D ≤ (1 + insRel F) ^ (t + 1) * (M + D + (t + 1 : ℕ) * (4 * F.eta)) := by
      have q1 : 1 ≤ (1 + insRel F) ^ (t + 1) := one_le_pow₀ (by linarith)
      have q2 : M + D ≤ M + D + (t + 1 : ℕ) * (4 * F.eta) := by push_cast; linarith
      exact q2.trans (le_mul_of_one_le_left (by linarith) q1)
    have hpt : ∀ i r, ∃ y, Is (insP (fn U) p (fn P) u l i r) y ∧
        |y - insP (fn V) p (fn Y) x l i r| ≤ 2 * (F.phi ^ 6 - 1) * (M + D) + 4 * (M + D + 1) * F.eta :=
      fun i r => insP_ieee hroom hU hP hu hV (by omega) hb.1 (by omega) hg.1 hg.2 (fun i => hMY i r) (by linarith)
    choose y hy hyb using hpt
    have hcl := fun (i : ℕ) (r : Fin d) => insP_close (Y := fn Y) (Q := fn Q) (i := i) (r := r) hV (by omega)
      hb.1 (by omega) hg.1 hg.2 (fun i => hM i r) (fun i => hD i r)
    have hfn : ∀ (f : ℕ → Pt K d) (i : ℕ), ∃ j, fn ((List.range (n + 2)).map f) i = f j := by
      intro f i
      by_cases hi : i < n + 2
      · exact ⟨i, fn_map_range _ hi⟩
      · refine ⟨n + 1, ?_⟩
        rw [fn_ge (by simp; omega), fn_last (by simp)]
        simp only [List.length_map, List.length_range]
        rw [fn_map_range _ (by omega)]; rfl
    have hperm := insU_perm V x l
    obtain ⟨U', V', P', Y', Q', i1, i2, i3, i4, i5, i6, i7, i8, i9, i10⟩ := ih (n := n + 1)
      (P := (List.range (n + 2)).map (insP (fn U) p (fn P) u l)) (Y := (List.range (n + 2)).map y)
      (Q := (List.range (n + 2)).map (insP (fn V) p (fn Q) x l)) (D := D1) (insU_is hU hu l) (by
        rw [List.forall₂_map_left_iff, List.forall₂_map_right_iff, List.forall₂_same]
        exact fun i _ => hy i) hV' (by simp) (by simp) (by
        intro z hz0 hzu
        rw [hperm.count_eq, List.count_cons_of_ne hzu.ne']
        exact hr z hz0 hzu) (by
        rw [hperm.count_eq, List.count_cons_self]; omega) (by
        intro i r
        obtain ⟨j, hj⟩ := hfn (insP (fn V) p (fn Q) x l) i
        rw [hj]; exact (hcl j r).1) hD10 (by
        intro i r
        have e : |y (min i (n + 1)) r - insP (fn V) p (fn Q) x l (min i (n + 1)) r| ≤ D1 := by
          have b1 := hyb (min i (n + 1)) r
          have b2 := (hcl (min i (n + 1)) r).2
          have b3 := abs_sub_le (y (min i (n + 1)) r) (insP (fn V) p (fn Y) x l (min i (n + 1)) r)
            (insP (fn V) p (fn Q) x l (min i (n + 1)) r)
          have e1 : 2 * (F.phi ^ 6 - 1) * (M + D) + 4 * (M + D + 1) * F.eta =
            insRel F * (M + D) + 4 * F.eta := by rw [insRel]; ring
          rw [hD1]; linarith
        by_cases hi : i < n + 2
        · rw [fn_map_range _ hi, fn_map_range _ hi]
          rwa [Nat.min_eq_left (by omega)] at e
        · rw [fn_ge (by simp; omega), fn_ge (by simp; omega), fn_last (by simp), fn_last (by simp)]
          simp only [List.length_map, List.length_range]
          rw [fn_map_range _ (by omega), fn_map_range _ (by omega)]
          rwa [Nat.min_eq_right (by omega)] at e) (le_trans (by linarith) hmax)
    refine ⟨U', V', P', Y', Q', ?_, ?_, i3, i4, ?_, by omega, by omega, ?_, i9, fun i r => (i10 i r).trans ?_⟩
    · rw [Curve.insertTimes, hins]; exact i1
    · rw [Curve.insertTimes, hins']; exact i2
    · rw [show n + (t + 1) = n + 1 + t by omega]; exact i5
    · refine i8.trans ?_
      rw [List.replicate_succ, List.cons_append]
      exact (List.Perm.append_left _ hperm).trans List.perm_middle
    · linarith

theorem forall₂_of_fn {Y Q : List (Pt K d)} (hl : Y.length = Q.length) {D : K}
    (h : ∀ i r, |fn Y i r - fn Q i r| ≤ D) :
    List.Forall₂ (fun (y q : Pt K d) => ∀ r, |y r - q r| ≤ D) Y Q := by
  rw [List.forall₂_iff_get]
  refine ⟨hl, fun i h1 h2 r => ?_⟩
  have := h i r
  rwa [fn_lt h1, fn_lt h2] at this

theorem ClampedKnots.take_eq {a b : K} {p n : ℕ} {V : List K} (h : ClampedKnots a b p n V) :
    V.take (p + 1) = List.replicate (p + 1) a := by
  rw [List.eq_replicate_iff]
  exact ⟨by have := h.length; simp; omega, h.left⟩

theorem ClampedKnots.drop_eq {a b : K} {p n : ℕ} {V : List K} (h : ClampedKnots a b p n V) :
    V.drop (n + 1) = List.replicate (p + 1) b := by
  rw [List.eq_replicate_iff]
  exact ⟨by have := h.length; simp; omega, h.right⟩

/-- a computed curve with exact knots -/
theorem Approx.of_exact {a b D : K} {p n : ℕ} {U : List (Ieee F)} {V : List K} {P : List (Pt (Ieee F) d)}
    {Y Q : List (Pt K d)} (hV : ClampedKnots a b p n V) (hU : List.Forall₂ Is U V) (hP : List.Forall₂ PtIs P Y)
    (hY : Y.length = n + 1) (hQ : Q.length = n + 1)
    (hD : List.Forall₂ (fun (y q : Pt K d) => ∀ r, |y r - q r| ≤ D) Y Q) :
    Approx a b 0 D p n (canon p U P) (canon p V Q) :=
  ⟨U, V, V, P, Y, Q, mkCurve_ok (n := n) (hP.length_eq.trans hY) hV.le (by
    rw [hU.length_eq, hV.length]; omega), validOn_canon hV hQ, hU, hP, hV.sorted, hV.take_eq, hV.drop_eq, by
    rw [List.forall₂_same]; intro x _; simp, fun _ _ h => h, hD⟩

/-- **C89** Repeated insertion in floating-point arithmetic: if there are at most `p + 1` copies of `u` in the
end, `insert_times` succeeds as in exact arithmetic; the knots have no error at all, and the errors of `t`
insertions into control points with coordinates up to `M` add up to at most
`(1 + s)^t (M + 4 t eta) - M` with `s = 2 (phi^6 - 1) + 4 eta`. -/
theorem C89_insert_times {c : Curve (Ieee F) d} {e : Curve K d} {p n : ℕ} {U : List (Ieee F)} {V : List K}
    {P : List (Pt (Ieee F) d)} {Q : List (Pt K d)} (hroom : Room F p) (hc : Built c p U P)
    (he : ValidOn 0 1 e p n V Q) (hU : List.Forall₂ Is U V) (hP : List.Forall₂ PtIs P Q)
    {u : Ieee F} {x : K} (hu : Is u x) (h0 : 0 < x) (h1 : x < 1) (hr : SimpleBelow V x) {t : ℕ}
    (ht : V.count x + t ≤ p + 1) {M : K} (hM0 : 0 ≤ M) (hM : ∀ q ∈ Q, ∀ r, |q r| ≤ M)
    (hmax : 4 * ((1 + insRel F) ^ t * (M + t * (4 * F.eta)) + 1) ≤ F.max) :
    ∃ (c' : Curve (Ieee F) d) (e' : Curve K d), c.insertTimes u t = .ok (c', .ok ()) ∧
      e.insertTimes x t = .ok (e', .ok ()) ∧
      Approx 0 1 0 ((1 + insRel F) ^ t * (M + t * (4 * F.eta)) - M) p (n + t) c' e' := by
  obtain rfl := he.eq_canon
  obtain ⟨-, hV, hQ⟩ := he
  have hQ0 : Q ≠ [] := by rintro rfl; simp at hQ
  obtain rfl := hc.ieee_eq (hU.length_eq.trans hV.length) hV.le (hP.length_eq.trans hQ)
  obtain ⟨U', V', P', Y', Q', i1, i2, i3, i4, i5, i6, i7, -, -, i10⟩ := insertTimes_ieee hroom hu h0 h1 hM0 t
    hU hP hV hQ hQ hr ht (fun i r => hM _ (fn_mem hQ0 i) r) le_rfl (fun i r => by simp) (by rwa [add_zero])
  rw [add_zero] at i10
  exact ⟨_, _, i1, i2, Approx.of_exact i5 i3 i4 i6 i7 (forall₂_of_fn (by omega) i10)⟩

/-! ### Normalisation of knots -/

/-- a normalised knot -/
def normR (F : Format K) (a b x : K) : K := F.rnd (F.rnd (x - a) / F.rnd (b - a))

theorem foldl_sel_is {f : Ieee F → Ieee F → Ieee F} {g : K → K → K}
    (hfg : ∀ {a b : Ieee F} {x y : K}, Is a x → Is b y → Is (f a b) (g x y)) {U : List (Ieee F)} {V : List K}
    (h : List.Forall₂ Is U V) : ∀ {a : Ieee F} {x : K}, Is a x → Is (U.foldl f a) (V.foldl g x) := by
  induction h with
  | nil => intro a x h; exact h
  | cons h1 _ ih => intro a x h; exact ih (hfg h h1)

theorem vmin_is {U : List (Ieee F)} {V : List K} (h : List.Forall₂ Is U V) : Is (vmin U) (vmin V) := by
  cases h with
  | nil => exact is_zero
  | cons h1 h2 =>
    refine foldl_sel_is ?_ h2 h1
    intro a b x y ha hb
    rw [ha.cmp_le hb]
    change Is _ (if decide (x ≤ y) = true then x else y)
    split <;> assumption

theorem vmax_is {U : List (Ieee F)} {V : List K} (h : List.Forall₂ Is U V) : Is (vmax U) (vmax V) := by
  cases h with
  | nil => exact is_zero
  | cons h1 h2 =>
    refine foldl_sel_is ?_ h2 h1
    intro a b x y ha hb
    rw [hb.cmp_le ha]
    change Is _ (if decide (y ≤ x) = true then x else y)
    split <;> assumption

theorem rnd_sub_pos {a b : K} (ha : F.rnd a = a) (hb : F.rnd b = b) (h : a < b) : 0 < F.rnd (b - a) := by
  have hs := F.sub b a hb ha
  rw [abs_of_pos (sub_pos.mpr h)] at hs
  have h1 := (abs_le.mp hs).1
  have := mul_pos (sub_pos.mpr h) F.del_pos
  nlinarith

theorem normR_mem {a b x : K} (ha : F.rnd a = a) (hb : F.rnd b = b) (h : a < b) (h1 : a ≤ x) (h2 : x ≤ b) :
    0 ≤ normR F a b x ∧ normR F a b x ≤ 1 := by
  have hd := rnd_sub_pos ha hb h
  exact F.rnd_unit (div_nonneg (F.rnd_nonneg (by linarith)) hd.le)
    ((div_le_one hd).mpr (F.mono _ _ (by linarith)))

theorem normR_mono {a b x y : K} (ha : F.rnd a = a) (hb : F.rnd b = b) (h : a < b) (hxy : x ≤ y) :
    normR F a b x ≤ normR F a b y :=
  F.mono _ _ (div_le_div_of_nonneg_right (F.mono _ _ (by linarith)) (rnd_sub_pos ha hb h).le)

theorem normR_left {a b : K} : normR F a b a = 0 := by
  rw [normR, sub_self, F.rnd_zero, zero_div, F.rnd_zero]

theorem normR_right {a b : K} (ha : F.rnd a = a) (hb : F.rnd b = b) (h : a < b) : normR F a b b = 1 := by
  rw [normR, div_self (rnd_sub_pos ha hb h).ne', F.one]

theorem normR_err {a b x : K} (ha : F.rnd a = a) (hb : F.rnd b = b) (hx : F.rnd x = x) (h : a < b) (h1 : a ≤ x)
    (h2 : x ≤ b) : |normR F a b x - (x - a) / (b - a)| ≤ F.phi ^ 3 - 1 + F.eta := by
  have hq := (UErr.quotient hx ha hb ha (sub_pos.mpr h) (by linarith)).2.2
  refine hq.trans (add_le_add ?_ le_rfl)
  refine mul_le_of_le_one_right (by linarith [F.one_le_phi_pow 3]) ?_
  exact (div_le_one (by linarith)).mpr (by linarith)

/-- normalisation of finite knots -/
theorem normalizeKnots_is {U : List (Ieee F)} {V : List K} (hU : List.Forall₂ Is U V) {a b : K}
    (hab : ∀ x ∈ V, a ≤ x ∧ x ≤ b) (ha : vmin V = a) (hb : vmax V = b) (h : a < b) (hmax : b - a ≤ F.max) :
    List.Forall₂ Is (normalizeKnots U) (V.map (normR F a b)) := by
  have ia := vmin_is hU
  have ib := vmax_is hU
  rw [ha] at ia
  rw [hb] at ib
  have hd := rnd_sub_pos ia.rep ib.rep h
  rw [normalizeKnots, rescaleKnots, List.forall₂_map_left_iff, List.forall₂_map_right_iff]
  have hmem : List.Forall₂ (fun a x => Is a x ∧ x ∈ V) U V := by
    have := hU
    rw [List.forall₂_iff_get] at this ⊢
    exact ⟨this.1, fun i h1 h2 => ⟨this.2 i h1 h2, List.get_mem _ _⟩⟩
  refine hmem.imp fun y x hx => ?_
  obtain ⟨hy, hx⟩ := hx
  have hx' := hab x hx
  have e1 := hy.sub ia (by rw [abs_of_nonneg (by linarith)]; linarith)
  have e2 := ib.sub ia (by rw [abs_of_pos (by linarith)]; exact hmax)
  have hq0 : 0 ≤ F.rnd (x - a) / F.rnd (b - a) := div_nonneg (F.rnd_nonneg (by linarith)) hd.le
  have hq1 : F.rnd (x - a) / F.rnd (b - a) ≤ 1 := (div_le_one hd).mpr (F.mono _ _ (by linarith))
  have e3 := e1.div e2 hd.ne' (by rw [abs_of_nonneg hq0]; exact hq1.trans F.one_le_max)
  have e4 := is_one.sub (is_zero (F := F)) (by rw [sub_zero, abs_one]; exact F.one_le_max)
  rw [sub_zero, F.one] at e4
  have e5 := e3.mul e4 (by rw [mul_one]; exact e3.le_max)
  rw [mul_one, e3.rep] at e5
  have e6 := e5.add is_zero (by rw [add_zero]; exact e5.le_max)
  rwa [add_zero, e5.rep] at e6

/-- **C89** Normalisation of knots in floating-point arithmetic: for every vector of finite numbers that are
not all equal and whose range does not overflow, the results are finite, in `[0, 1]`, exactly 0 for the
smallest and exactly 1 for the largest knots, in the same order, and have an error of at most
`phi^3 - 1 + eta`. -/
theorem C89_normalize {U : List (Ieee F)} {V : List K} (hU : List.Forall₂ Is U V) {a b : K} (ha : a ∈ V)
    (hb : b ∈ V) (hab : ∀ x ∈ V, a ≤ x ∧ x ≤ b) (h : a < b) (hmax : b - a ≤ F.max) :
    ∃ g : K → K, List.Forall₂ Is (normalizeKnots U) (V.map g) ∧ g a = 0 ∧ g b = 1 ∧
      (∀ x y, x ≤ y → g x ≤ g y) ∧ ∀ x ∈ V, 0 ≤ g x ∧ g x ≤ 1 ∧
        |g x - (x - a) / (b - a)| ≤ F.phi ^ 3 - 1 + F.eta := by
  have hrep : ∀ x ∈ V, F.rnd x = x := by
    intro x hx
    obtain ⟨i, hi, rfl⟩ := List.mem_iff_getElem.mp hx
    have := (fn_is hU i).rep
    rwa [fn_lt hi] at this
  have hne := List.ne_nil_of_mem ha
  refine ⟨normR F a b, normalizeKnots_is hU hab (le_antisymm (vmin_le ha) (hab _ (vmin_mem hne)).1)
    (le_antisymm (hab _ (vmax_mem hne)).2 (le_vmax hb)) h hmax, normR_left, normR_right (hrep a ha) (hrep b hb) h,
    fun x y hxy => normR_mono (hrep a ha) (hrep b hb) h hxy, fun x hx => ?_⟩
  have h1 := hab x hx
  have h2 := normR_mem (hrep a ha) (hrep b hb) h h1.1 h1.2
  exact ⟨h2.1, h2.2, normR_err (hrep a ha) (hrep b hb) (hrep x hx) h h1.1 h1.2⟩

/-! ### Splitting -/

/-- the error of normalised knots -/
def normErr (F : Format K) : K := F.phi ^ 3 - 1 + F.eta

/-- a part of a split curve -/
theorem Approx.normalized {a b D : K} {p n : ℕ} {U : List (Ieee F)} {V : List K} {P : List (Pt (Ieee F) d)}
    {Y Q : List (Pt K d)} (hV : ClampedKnots a b p n V) (hU : List.Forall₂ Is U V) (hP : List.Forall₂ PtIs P Y)
    (hY : Y.length = n + 1) (hQ : Q.length = n + 1) (hmax : b - a ≤ F.max)
    (hD : List.Forall₂ (fun (y q : Pt K d) => ∀ r, |y r - q r| ≤ D) Y Q) :
    Approx 0 1 (normErr F) D p n (canon p (normalizeKnots U) P) (canon p (normalizeKnots V) Q) := by
  have hrep : ∀ x ∈ V, F.rnd x = x := by
    intro x hx
    obtain ⟨i, hi, rfl⟩ := List.mem_iff_getElem.mp hx
    have := (fn_is hU i).rep
    rwa [fn_lt hi] at this
  have hab := hV.unit
  have ra := hrep a hV.a_mem
  have rb := hrep b hV.b_mem
  have hlt := hV.lt
  have hlN : (normalizeKnots U).length = n + p + 2 := by
    simp [normalizeKnots, rescaleKnots, hU.length_eq, hV.length]
  refine ⟨normalizeKnots U, V.map (normR F a b), normalizeKnots V, P, Y, Q,
    mkCurve_ok (n := n) (hP.length_eq.trans hY) hV.le (by omega), validOn_canon hV.normalize hQ,
    normalizeKnots_is hU hab hV.vmin_eq hV.vmax_eq hlt hmax, hP, ?_, ?_, ?_, ?_, ?_, hD⟩
  · rw [List.pairwise_map]
    exact hV.sorted.imp fun h => normR_mono ra rb hlt h
  · rw [← List.map_take, hV.take_eq, List.map_replicate, normR_left]
  · rw [← List.map_drop, hV.drop_eq, List.map_replicate, normR_right ra rb hlt]
  · rw [hV.normalize_eq, List.forall₂_map_left_iff, List.forall₂_map_right_iff, List.forall₂_same]
    intro x hx
    have := normR_err ra rb (hrep x hx) hlt (hab x hx).1 (hab x hx).2
    rwa [show (x - a) / (b - a) = (b - a)⁻¹ * x + -a / (b - a) by
      rw [div_eq_mul_inv, div_eq_mul_inv]; ring] at this
  · intro i j h
    rw [hV.normalize_eq, List.getElem?_map, List.getElem?_map] at h
    rw [List.getElem?_map, List.getElem?_map, Option.map_injective (fun x y h => by
      simpa [sub_ne_zero.mpr hlt.ne'] using h) h]

theorem takeWhile_is {U : List (Ieee F)} {V : List K} (h : List.Forall₂ Is U V) {u : Ieee F} {x : K} (hu : Is u x) :
    (U.takeWhile fun y => Cmp.eq y u).length = (V.takeWhile fun y => Cmp.eq y x).length := by
  induction h with
  | nil => rfl
  | cons h1 _ ih =>
    rw [List.takeWhile_cons, List.takeWhile_cons, h1.cmp_eq hu]
    rename_i a b _ _ _
    rw [show Cmp.eq b x = decide (b = x) from rfl]
    by_cases hbx : b = x
    · simp only [hbx, decide_true, if_true, List.length_cons, ih]
    · simp [hbx]

/-- **C89** Splitting in floating-point arithmetic: `split_and_normalize` succeeds where it does in exact
arithmetic. Both parts are curves with finite knots and control points, with the same degree and number of
control points as the exact parts. Knots that are not normalised have no error, normalised ones an error of at
most `phi^3 - 1 + eta`, and the ends of the domains are exact. The coordinates of the control points have an
error of at most `(1 + s)^t (M + 4 t eta) - M`, where `t` is `p` minus the multiplicity of `u`. -/
theorem C89_split {c : Curve (Ieee F) d} {e : Curve K d} {p n : ℕ} {U : List (Ieee F)} {V : List K}
    {P : List (Pt (Ieee F) d)} {Q : List (Pt K d)} (hroom : Room F p) (hc : Built c p U P)
    (he : ValidOn 0 1 e p n V Q) (hU : List.Forall₂ Is U V) (hP : List.Forall₂ PtIs P Q)
    {u : Ieee F} {x : K} (hu : Is u x) (h0 : 0 < x) (h1 : x < 1) (hr : SimpleBelow V x) (hm : V.count x ≤ p)
    {M : K} (hM0 : 0 ≤ M) (hM : ∀ q ∈ Q, ∀ r, |q r| ≤ M) {t : ℕ} (ht : t = p - V.count x)
    (hmax : 4 * ((1 + insRel F) ^ t * (M + t * (4 * F.eta)) + 1) ≤ F.max) (norm : Bool × Bool) :
    ∃ (l r : Curve (Ieee F) d) (l' r' : Curve K d) (n1 n2 : ℕ),
      splitAndNormalize c u norm = .ok (.ok (l, r)) ∧ splitAndNormalize e x norm = .ok (.ok (l', r')) ∧
      n1 + n2 + V.count x = n + p ∧
      Approx 0 (if norm.1 then 1 else x) (if norm.1 then normErr F else 0)
        ((1 + insRel F) ^ t * (M + t * (4 * F.eta)) - M) p n1 l l' ∧
      Approx (if norm.2 then 0 else x) 1 (if norm.2 then normErr F else 0)
        ((1 + insRel F) ^ t * (M + t * (4 * F.eta)) - M) p n2 r r' := by
  obtain rfl := he.eq_canon
  obtain ⟨-, hV, hQ⟩ := he
  subst ht
  have hQ0 : Q ≠ [] := by rintro rfl; simp at hQ
  have hlU : U.length = n + p + 2 := hU.length_eq.trans hV.length
  obtain rfl := hc.ieee_eq hlU hV.le (hP.length_eq.trans hQ)
  obtain ⟨U', V', P', Y', Q', i1, i2, i3, i4, i5, i6, i7, i8, -, i10⟩ := insertTimes_ieee hroom hu h0 h1 hM0
    (p - V.count x) hU hP hV hQ hQ hr (by omega) (fun i r => hM _ (fn_mem hQ0 i) r) le_rfl (fun i r => by simp)
    (by rwa [add_zero])
  rw [add_zero] at i10
  have hD := forall₂_of_fn (Y := Y') (Q := Q') (by omega) i10
  obtain ⟨W, R, n', q, hins, hcut, hR, hn', -, -, hsplit⟩ := split_valid_inserted hV hQ h0 h1 hm hr
  rw [i2] at hins
  injection hins with hins; injection hins with hins _
  have hk := congrArg (fun c => c.knots.vector) hins
  have hp' := congrArg (fun c => c.points.matrix) hins
  simp only [canon_knots, canonKnots_vector, canon_points, canonPts_matrix] at hk hp'
  injection hk with hk
  injection hp' with hp'
  subst hk; subst hp'
  have a1 := hcut.lo_q
  have a2 := hcut.q_hi
  have hlen := hcut.cl.length
  have hlP' : P'.length = n' + 1 := by rw [i4.length_eq, i6]; omega
  have hlU' : U'.length = n' + p + 2 := i3.length_eq.trans hlen
  have hlY' : Y'.length = n' + 1 := by omega
  -- the split of the computed curve
  have hsp : splitAndNormalize (canon p U P) u norm =
      .ok (.ok (canon p (normalizeIf norm.1 (U'.take (q + p) ++ [u])) (P'.take q),
        canon p (normalizeIf norm.2 (u :: U'.drop q)) (P'.drop (q - 1)))) := by
    obtain ⟨hmult, hl⟩ := split_search hV h0 h1 hr
    have hq : q = nlt V x := by
      have hcount : V'.count x = p := by
        rw [i8.count_eq, List.count_append, List.count_replicate_self]; omega
      have e1 : nlt V' x = nlt V x := by
        rw [nlt_perm i8, nlt, List.countP_append, nlt]
        simp [List.countP_replicate]
      have hc2 := cut_of_count i5 h0 h1 hcount
      rw [e1] at hc2
      have b1 := hc2.lo_q
      have b2 := hc2.q_hi
      rcases Nat.lt_trichotomy q (nlt V x) with h | h | h
      · have c1 := hc2.low q h
        rcases Nat.eq_zero_or_pos p with hp | hp
        · have := hcut.high q (by omega)
          exact absurd c1 (not_lt.mpr this.le)
        · have := hcut.mid q le_rfl (by omega)
          exact absurd this c1.ne
      · exact h
      · have c1 := hcut.low _ h
        rcases Nat.eq_zero_or_pos p with hp | hp
        · have := hc2.high (nlt V x) (by omega)
          exact absurd c1 (not_lt.mpr this.le)
        · have := hc2.mid (nlt V x) le_rfl (by omega)
          exact absurd this c1.ne
    have hfi := findIdx_leftOrEqual_ok hlU hV.le (Nat.zero_le p) u
    simp only [Nat.add_zero, Nat.sub_zero] at hfi
    rw [lleq_is (fn_is hU) hu] at hfi
    rw [splitAndNormalize, if_neg (by rw [hu.cmp_le is_zero, is_one.cmp_le hu]; simp [h0, h1]), canon_degree,
      canon_knots, hfi, ok_bind, canonKnots_vector, ok_bind]
    dsimp only
    rw [takeWhile_is (List.forall₂_drop _ hU) hu, hmult, if_neg (by omega), usub_ok hm, ok_bind,
      insertUnwrapTimes_ok u _ i1, ok_bind]
    rw [canon_knots, canonKnots_vector, ok_bind, canon_points, canonPts_matrix, ok_bind]
    generalize lleq (fn V) x (n - p) p = l at hl ⊢
    have e1 : (if decide (0 < V.count x) = true then l + p else l + p + 1) = q + p := by
      simp only [decide_eq_true_eq]
      split at hl
      · rename_i h; rw [if_pos h]; omega
      · rename_i h; rw [if_neg h]; omega
    have e2 : (if decide (0 < V.count x) = true then l else l + 1) = q := by
      rw [hq]
      simpa only [decide_eq_true_eq] using hl
    rw [e1, e2, splitLeft_ok u _ _ (by omega) (by omega) (by omega), ok_bind]
    dsimp only
    rw [splitRight_ok u _ _ (by omega) (by omega) (by omega), ok_bind]
    rfl
  have hm1 := F.one_le_max
  have hUl : List.Forall₂ Is (U'.take (q + p) ++ [u]) (V'.take (q + p) ++ [x]) :=
    List.rel_append (List.forall₂_take _ i3) (.cons hu .nil)
  have hUr : List.Forall₂ Is (u :: U'.drop q) (x :: V'.drop q) := .cons hu (List.forall₂_drop _ i3)
  refine ⟨_, _, _, _, q - 1, n' + 1 - q, hsp, hsplit norm, by omega, ?_, ?_⟩
  · cases norm.1
    · exact Approx.of_exact hcut.left_clamped hUl (List.forall₂_take _ i4) (by simp; omega) (by simp; omega)
        (List.forall₂_take _ hD)
    · exact Approx.normalized hcut.left_clamped hUl (List.forall₂_take _ i4) (by simp; omega) (by simp; omega)
        (by linarith) (List.forall₂_take _ hD)
  · cases norm.2
    · exact Approx.of_exact hcut.right_clamped hUr (List.forall₂_drop _ i4) (by simp; omega) (by simp; omega)
        (List.forall₂_drop _ hD)
    · exact Approx.normalized hcut.right_clamped hUr (List.forall₂_drop _ i4) (by simp; omega) (by simp; omega)
        (by linarith) (List.forall₂_drop _ hD)

theorem Approx.mono {a b t t' D D' : K} {p n : ℕ} {c : Curve (Ieee F) d} {e : Curve K d}
    (h : Approx a b t D p n c e) (ht : t ≤ t') (hD : D ≤ D') : Approx a b t' D' p n c e := by
  obtain ⟨U, V, X, P, Y, Q, h1, h2, h3, h4, h5, h6, h7, h8, h8', h9⟩ := h
  exact ⟨U, V, X, P, Y, Q, h1, h2, h3, h4, h5, h6, h7, h8.imp fun _ _ h => h.trans ht, h8',
    h9.imp fun _ _ h r => (h r).trans hD⟩

theorem heta64 : binary64.eta = (1 / 2) ^ 1075 := by
  change (1 / 2 * 2 ^ ((-1022 : ℤ) - 52) : ℚ) = _
  decide +kernel

theorem insRel64 : insRel binary64 ≤ (1 / 2) ^ 49 := by
  have h1 : binary64.phi = (1 - (1 / 2) ^ 53)⁻¹ := rfl
  have h2 : 2 * (binary64.phi ^ 6 - 1) ≤ 3 / 2 ^ 51 + 1 / 2 ^ 60 := by
    rw [h1]
    norm_num
  have h3 : 4 * binary64.eta ≤ 1 / 2 ^ 60 := by
    rw [heta64]
    decide +kernel
  rw [insRel]
  refine (add_le_add h2 h3).trans ?_
  norm_num

/-- growth of the error over `t` insertions in `f64` -/
theorem grow64 {t : ℕ} (ht : t ≤ 600) {M : ℚ} (hM : 0 ≤ M) :
    (1 + insRel binary64) ^ t * (M + t * (4 * binary64.eta)) - M ≤ t / 2 ^ 48 * M + t / 2 ^ 1072 := by
  have hs := insRel64
  have hs0 := insRel_nonneg binary64
  generalize insRel binary64 = s at hs hs0
  have ht0 : (0 : ℚ) ≤ t := Nat.cast_nonneg t
  have ht1 : (t : ℚ) ≤ 600 := by exact_mod_cast ht
  have hts : (t : ℚ) * s ≤ t * (1 / 2) ^ 49 := mul_le_mul_of_nonneg_left hs ht0
  have hpow : (1 + s) ^ t ≤ 1 + t / 2 ^ 48 := by
    have hb := one_add_mul_le_pow (a := -s) (by linarith [show (1 / 2 : ℚ) ^ 49 ≤ 1 by norm_num]) t
    rw [← sub_eq_add_neg] at hb
    have h1 : (1 + s) ^ t * (1 - s) ^ t ≤ 1 := by
      rw [← mul_pow]
      exact pow_le_one₀ (mul_nonneg (by linarith) (by linarith [show (1 / 2 : ℚ) ^ 49 ≤ 1 by norm_num]))
        (by nlinarith)
    have hp : 0 < (1 + s) ^ t := pow_pos (by linarith) t
    have h2 : (1 + s) ^ t * (1 - t * (1 / 2) ^ 49) ≤ 1 :=
      (mul_le_mul_of_nonneg_left (by linarith) hp.le).trans h1
    have h3 : (0 : ℚ) < 1 - t * (1 / 2) ^ 49 := by norm_num; linarith
    refine le_trans ((le_div_iff₀ h3).mpr h2) ?_
    rw [div_le_iff₀ h3]
    norm_num
    nlinarith
  have heta : 4 * binary64.eta = 1 / 2 ^ 1073 := by
    rw [heta64, one_div, one_div, inv_pow, show (1075 : ℕ) = 1073 + 2 from rfl, pow_add]
    generalize (2 : ℚ) ^ 1073 = a
    rw [mul_inv]
    ring
  rw [heta]
  have ha : (0 : ℚ) < 1 / 2 ^ 1073 := by positivity
  have h2 : (t : ℚ) / 2 ^ 1072 = 2 * (t * (1 / 2 ^ 1073)) := by
    rw [show (2 : ℚ) ^ 1073 = 2 ^ 1072 * 2 from pow_succ 2 1072]
    generalize (2 : ℚ) ^ 1072 = a
    rw [one_div, mul_inv]
    ring
  rw [h2]
  generalize (1 : ℚ) / 2 ^ 1073 = a at ha ⊢
  have h3 : (1 + s) ^ t * (M + t * a) ≤ (1 + t / 2 ^ 48) * (M + t * a) :=
    mul_le_mul_of_nonneg_right hpow (add_nonneg hM (mul_nonneg ht0 ha.le))
  have h4 : (t : ℚ) / 2 ^ 48 ≤ 1 := by rw [div_le_one (by norm_num)]; norm_num; linarith
  have h5 : (t : ℚ) / 2 ^ 48 * (t * a) ≤ 1 * (t * a) := mul_le_mul_of_nonneg_right h4 (mul_nonneg ht0 ha.le)
  linarith

theorem room64 {t : ℕ} (ht : t ≤ 600) {M : ℚ} (hM : 0 ≤ M) (hM' : M ≤ 2 ^ 1000) :
    4 * ((1 + insRel binary64) ^ t * (M + t * (4 * binary64.eta)) + 1) ≤ binary64.max := by
  have h := grow64 ht hM
  have ht1 : (t : ℚ) ≤ 600 := by exact_mod_cast ht
  have ht0 : (0 : ℚ) ≤ t := Nat.cast_nonneg t
  have hmax : (2 : ℚ) ^ 1023 ≤ binary64.max := by decide +kernel
  have h4 : (t : ℚ) / 2 ^ 48 ≤ 1 := by rw [div_le_one (by norm_num)]; norm_num; linarith
  have h5 : (t : ℚ) / 2 ^ 1072 ≤ 1 := by
    rw [div_le_one (by positivity)]
    exact ht1.trans (by decide +kernel)
  have h6 := mul_le_mul_of_nonneg_right h4 hM
  refine le_trans ?_ hmax
  have h7 : 4 * (2 * (2 : ℚ) ^ 1000 + 2) ≤ 2 ^ 1023 := by decide +kernel
  refine le_trans ?_ h7
  generalize (2 : ℚ) ^ 1000 = b at hM' ⊢
  generalize (t : ℚ) / 2 ^ 1072 = a at h h5
  linarith

/-- **C89** For `f64`: splitting a curve of degree `p ≤ 600` with clamped knots and coordinates up to
`M ≤ 2^1000` gives two curves with finite control points with an error of at most `t 2^-48 M + t 2^-1072`,
where `t ≤ p` knots are inserted, and with knots in `[0, 1]` with an error of at most `2^-51`. -/
theorem C89_f64 {c : Curve (Ieee binary64) d} {e : Curve ℚ d} {p n : ℕ} {U : List (Ieee binary64)} {V : List ℚ}
    {P : List (Pt (Ieee binary64) d)} {Q : List (Pt ℚ d)} (hp : p ≤ 600) (hc : Built c p U P)
    (he : ValidOn 0 1 e p n V Q) (hU : List.Forall₂ Is U V) (hP : List.Forall₂ PtIs P Q)
    {u : Ieee binary64} {x : ℚ} (hu : Is u x) (h0 : 0 < x) (h1 : x < 1) (hr : SimpleBelow V x)
    (hm : V.count x ≤ p) {M : ℚ} (hM0 : 0 ≤ M) (hM : ∀ q ∈ Q, ∀ r, |q r| ≤ M) (hmax : M ≤ 2 ^ 1000) {t : ℕ}
    (ht : t = p - V.count x) :
    ∃ (l r : Curve (Ieee binary64) d) (l' r' : Curve ℚ d) (n1 n2 : ℕ), split c u = .ok (.ok (l, r)) ∧
      split e x = .ok (.ok (l', r')) ∧ n1 + n2 + V.count x = n + p ∧
      Approx 0 1 (1 / 2 ^ 51) (t / 2 ^ 48 * M + t / 2 ^ 1072) p n1 l l' ∧
      Approx 0 1 (1 / 2 ^ 51) (t / 2 ^ 48 * M + t / 2 ^ 1072) p n2 r r' := by
  have hk : normErr binary64 ≤ 1 / 2 ^ 51 := by
    have h1 : binary64.phi = (1 - (1 / 2) ^ 53)⁻¹ := rfl
    have h2 : binary64.phi ^ 3 - 1 ≤ 1 / 2 ^ 51 - 1 / 2 ^ 60 := by
      rw [h1]
      norm_num
    have h3 : binary64.eta ≤ 1 / 2 ^ 60 := by
      rw [heta64]
      decide +kernel
    rw [normErr]
    linarith
  have ht6 : t ≤ 600 := by omega
  obtain ⟨l, r, l', r', n1, n2, g1, g2, g3, g4, g5⟩ := C89_split (room_binary64 hp) hc he hU hP hu h0 h1 hr hm hM0 hM
    ht (room64 ht6 hM0 hmax) (true, true)
  exact ⟨l, r, l', r', n1, n2, g1, g2, g3, g4.mono hk (grow64 ht6 hM0), g5.mono hk (grow64 ht6 hM0)⟩

/-! ### Concrete cases -/

-- two insertions of one half into the curve of `Ieee.lean`, which has degree 2, and a split there
example : ieV.count (1 / 2) + 2 ≤ 2 + 1 ∧ (∀ q ∈ ieQ, ∀ r, |q r| ≤ 1) := by decide +kernel

example : (match split (canon 2 ieU ieP) (eq64 (1 / 2)) with
    | .ok (.ok (l, r)) => match l.knots.vector, r.knots.vector with
      | .ok U, .ok W => (U.map exactOf, W.map exactOf)
      | _, _ => ([], [])
    | _ => ([], [])) =
    ([0, 0, 0, 6004799503160661 / 9007199254740992, 1, 1, 1],
      [0, 0, 0, 3002399751580330 / 9007199254740992, 1, 1, 1]) := by
  decide +kernel

/-- **C89** The interior knots of the parts need not stay inside the domain: a knot `1 - 2^-53` becomes exactly
`1` in the right part of a split at `1/2 - 5 * 2^-54`, so that the part is not a valid curve. -/
theorem C89_collapse : ∃ (c l r : Curve (Ieee binary64) 1) (U W : List (Ieee binary64)) (u : Ieee binary64),
    Built c 1 U [![0], ![1], ![eq64 2]] ∧ ClampedKnots 0 1 1 2 (U.map exactOf) ∧
    split c u = .ok (.ok (l, r)) ∧ r.knots.vector = .ok W ∧ W.map exactOf = [0, 0, 1, 1, 1] := by
  have key : (match split (canon 1 [0, 0, eq64 (1 - (1 / 2) ^ 53), 1, 1] [![0], ![1], ![eq64 2]])
      (eq64 (1 / 2 - 5 * (1 / 2) ^ 54)) with
    | .ok (.ok (_, r)) => match r.knots.vector with
      | .ok W => decide (W.map exactOf = [0, 0, 1, 1, 1])
      | _ => false
    | _ => false) = true := by decide +kernel
  split at key
  · rename_i l r hs
    split at key
    · rename_i W hW
      exact ⟨_, l, r, _, W, _, mkCurve_ok (n := 2) rfl (by decide) (by decide), by decide +kernel, hs, hW,
        of_decide_eq_true key⟩
    · simp at key
  · simp at key

end BSpline
