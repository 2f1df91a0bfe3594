import Verif.Refine.Ieee

/-!
# Derivative points and sums in IEEE 754 arithmetic
-/

set_option linter.unusedSectionVars false

namespace BSpline

open Finset Ieee

variable {K : Type} [Field K] [LinearOrder K] [IsStrictOrderedRing K] {F : Format K} {d : ℕ}

/-- size of the derivative points of order `k`, `g` being the degree divided by the smallest distance of
knots -/
def dSize (g M : K) (k : ℕ) : K := (2 * g) ^ k * M

/-- absolute error of the derivative points of order `k` -/
def dUnder (F : Format K) (g M : K) (k : ℕ) : K := 4 * F.eta * ((4 * g) ^ k * (M + 1))

/-- the absolute error of one step of the differentiation -/
theorem dpt_abs {p k : ℕ} (hroom : Room F p) (hk : k < p) {W T g : K} (hW0 : 0 ≤ W) (hWT : W ≤ T) (hT1 : 1 ≤ T)
    (hg1 : 1 ≤ g) : F.phi * (F.eta * (F.phi ^ (5 * k + 1) * (W + W)) +
      F.phi ^ 3 * g * (F.phi * (4 * (F.eta * T) + 4 * (F.eta * T))) +
      F.eta * (F.phi * (4 * (F.eta * T) + 4 * (F.eta * T)))) ≤ 15 * (g * (F.eta * T)) - F.eta := by
  have heta := F.eta_nonneg
  have heta' := hroom.eta_small
  have heT0 : 0 ≤ F.eta * T := mul_nonneg heta (by linarith)
  have p1 := hroom.pow_le (k := 5 * k + 2) (by omega)
  have p2 := hroom.pow_le (k := 5) (by omega)
  have p3 := hroom.pow_le (k := 2) (by omega)
  have e : F.phi * (F.eta * (F.phi ^ (5 * k + 1) * (W + W)) +
      F.phi ^ 3 * g * (F.phi * (4 * (F.eta * T) + 4 * (F.eta * T))) +
      F.eta * (F.phi * (4 * (F.eta * T) + 4 * (F.eta * T)))) =
      2 * (F.phi ^ (5 * k + 2) * (F.eta * W)) + 8 * (F.phi ^ 5 * (g * (F.eta * T))) +
        8 * (F.phi ^ 2 * (F.eta * (F.eta * T))) := by
    rw [pow_add, pow_add]; ring
  rw [e]
  have q1 : F.phi ^ (5 * k + 2) * (F.eta * W) ≤ 5 / 4 * (F.eta * T) :=
    mul_le_mul p1 (mul_le_mul_of_nonneg_left hWT heta) (mul_nonneg heta hW0) (by norm_num)
  have q2 : F.phi ^ 5 * (g * (F.eta * T)) ≤ 5 / 4 * (g * (F.eta * T)) :=
    mul_le_mul_of_nonneg_right p2 (by positivity)
  have q3 : F.phi ^ 2 * (F.eta * (F.eta * T)) ≤ 5 / 4 * (1 / 36 * (F.eta * T)) :=
    mul_le_mul p3 (mul_le_mul_of_nonneg_right heta' heT0) (by positivity) (by norm_num)
  have q4 : F.eta ≤ F.eta * T := le_mul_of_one_le_right heta hT1
  have q5 : F.eta * T ≤ g * (F.eta * T) := le_mul_of_one_le_left heT0 hg1
  linarith

/-- one step of the differentiation -/
theorem dpt_step {p k m : ℕ} (hroom : Room F p) (hk : k < p) (hm1 : 1 ≤ m) (hmp : m ≤ p) {s t X Y : Ieee F}
    {s' t' x' y' x y h M : K} (hs : Is s s') (ht : Is t t') (hX : Is X x') (hY : Is Y y') (hh : 0 < h)
    (h1 : h ≤ 1) (hst1 : |s' - t'| ≤ 1) (hst : s' ≠ t' → h ≤ s' - t') (hM : 0 ≤ M)
    (hmax : 4 * ((4 * (p / h)) ^ (k + 1) * (M + 1)) ≤ F.max)
    (ex : UErr F (5 * k) (dUnder F (p / h) M k) x' x (dSize (p / h) M k))
    (ey : UErr F (5 * k) (dUnder F (p / h) M k) y' y (dSize (p / h) M k)) :
    ∃ z, Is (if Cmp.eq s t = true then (0 : Ieee F) else (m : Ieee F) / (s - t) * (X - Y)) z ∧
      UErr F (5 * (k + 1)) (dUnder F (p / h) M (k + 1)) z
        (if Cmp.eq s' t' = true then 0 else (m : K) / (s' - t') * (x - y)) (dSize (p / h) M (k + 1)) := by
  have heta := F.eta_nonneg
  have heta' := hroom.eta_small
  have hphi := F.phi_pos
  have hg1 : (1 : K) ≤ p / h := by
    rw [le_div_iff₀ hh, one_mul]
    have : (1 : K) ≤ p := by exact_mod_cast (by omega : 1 ≤ p)
    linarith
  generalize hg : (p : K) / h = g at *
  have hW0 : 0 ≤ dSize g M k := ex.weight_nonneg
  have hA0 : 0 ≤ dUnder F g M k := ex.2.1
  -- sizes
  obtain ⟨T, hT⟩ : ∃ T, T = (4 * g) ^ k * (M + 1) := ⟨_, rfl⟩
  have hT1 : 1 ≤ T := by
    have h3 : (1 : K) ≤ (4 * g) ^ k := one_le_pow₀ (by linarith)
    rw [hT]; nlinarith
  have hWT : dSize g M k ≤ T := by
    rw [dSize, hT]
    exact mul_le_mul (pow_le_pow_left₀ (by linarith) (by linarith) k) (by linarith) hM (by positivity)
  have hA : dUnder F g M k = 4 * (F.eta * T) := by rw [dUnder, hT]; ring
  have hA' : dUnder F g M (k + 1) = 4 * g * (4 * (F.eta * T)) := by rw [dUnder, hT, pow_succ]; ring
  have hW' : dSize g M (k + 1) = g * (dSize g M k + dSize g M k) := by rw [dSize, dSize, pow_succ]; ring
  have hmax' : 16 * (g * T) ≤ F.max := by
    refine le_trans (le_of_eq ?_) hmax
    rw [hT, pow_succ]; ring
  have heT : F.eta * T ≤ 1 / 36 * T := mul_le_mul_of_nonneg_right heta' (by linarith)
  have heT0 : 0 ≤ F.eta * T := mul_nonneg heta (by linarith)
  have hTg : T ≤ g * T := le_mul_of_one_le_left (by linarith) hg1
  rw [hA] at ex ey hA0
  rw [hA', hW']
  generalize dSize g M k = W at *
  have zero_case : UErr F (5 * (k + 1)) (4 * g * (4 * (F.eta * T))) 0 0 (g * (W + W)) :=
    ⟨by rw [abs_zero]; positivity, by positivity, by
      rw [sub_self, abs_zero]
      have := F.one_le_phi_pow (5 * (k + 1))
      exact add_nonneg (mul_nonneg (by linarith) (by positivity)) (by positivity)⟩
  rw [hs.cmp_eq ht]
  simp only [Cmp.eq, decide_eq_true_eq]
  by_cases hc : s' = t'
  · rw [if_pos hc, if_pos hc]
    exact ⟨0, is_zero, zero_case⟩
  rw [if_neg hc, if_neg hc]
  have hgap := hst hc
  have hpos : 0 < s' - t' := hh.trans_le hgap
  -- the quotient
  have hm := hroom.nat m hmp
  have hm0 : (0 : K) ≤ m := Nat.cast_nonneg _
  have hmK : (m : K) ≤ p := by exact_mod_cast hmp
  have hpg : (p : K) ≤ g := by
    rw [← hg, le_div_iff₀ hh]
    exact mul_le_of_le_one_right (Nat.cast_nonneg _) h1
  have hgT : g ≤ g * T := le_mul_of_one_le_right (by linarith) hT1
  have en := is_natCast (F := F) (n := m) (by linarith)
  rw [hm] at en
  have e2 := hs.sub ht (hst1.trans F.one_le_max)
  have hsd := F.sub s' t' hs.rep ht.rep
  rw [abs_of_pos hpos] at hsd
  have hden : (s' - t') * (1 - F.eps) ≤ F.rnd (s' - t') := by have := (abs_le.mp hsd).1; linarith
  have hden0 : 0 < F.rnd (s' - t') := (mul_pos hpos F.del_pos).trans_le hden
  have hphi1 := hroom.pow_le (k := 1) (by omega)
  rw [pow_one] at hphi1
  have hqg : (m : K) / (s' - t') ≤ g := by
    rw [← hg]
    exact div_le_div₀ (Nat.cast_nonneg _) hmK hh hgap
  have hquot : |(m : K) / F.rnd (s' - t')| ≤ F.max := by
    rw [abs_of_nonneg (div_nonneg hm0 hden0.le)]
    have h2 : (m : K) / F.rnd (s' - t') ≤ F.phi * g := by
      rw [div_le_iff₀ hden0]
      rw [div_le_iff₀ hpos] at hqg
      have h3 : g * ((s' - t') * (1 - F.eps)) ≤ g * F.rnd (s' - t') :=
        mul_le_mul_of_nonneg_left hden (by linarith)
      calc (m : K) ≤ g * (s' - t') := hqg
        _ = F.phi * (g * ((s' - t') * (1 - F.eps))) := by
            rw [show F.phi * (g * ((s' - t') * (1 - F.eps))) = F.phi * (1 - F.eps) * (g * (s' - t')) by ring,
              F.phi_del, one_mul]
        _ ≤ F.phi * (g * F.rnd (s' - t')) := mul_le_mul_of_nonneg_left h3 hphi.le
        _ = _ := by ring
    have h4 : F.phi * g ≤ 5 / 4 * g := mul_le_mul_of_nonneg_right hphi1 (by linarith)
    linarith
  have e3 := en.div e2 hden0.ne' hquot
  have hquo := UErr.quotient (F := F) (a := m) (b := 0) hm F.rnd_zero hs.rep ht.rep hpos
    (by rw [sub_zero]; exact hm0)
  rw [sub_zero, hm] at hquo
  have hquo' := hquo.mono le_rfl le_rfl hqg
  -- the difference
  have hdif := ex.sub ey
  have hdb : |x' - y'| ≤ F.max := by
    refine hdif.abs_le.trans ?_
    have p1 := hroom.pow_le (k := 5 * k) (by omega)
    have p2 : F.phi ^ (5 * k) * (W + W) ≤ 5 / 4 * (W + W) := mul_le_mul_of_nonneg_right p1 (by linarith)
    linarith
  have e4 := hX.sub hY hdb
  have hdif' := hdif.rnd_of (F.sub x' y' hX.rep hY.rep)
  -- the product
  have hmul := hquo'.mul hdif'
  have habs : F.phi * (F.eta * (F.phi ^ (5 * k + 1) * (W + W)) +
      F.phi ^ 3 * g * (F.phi * (4 * (F.eta * T) + 4 * (F.eta * T))) +
      F.eta * (F.phi * (4 * (F.eta * T) + 4 * (F.eta * T)))) ≤ 15 * (g * (F.eta * T)) - F.eta := dpt_abs hroom hk hW0 hWT hT1 hg1
  have hb : |F.rnd ((m : K) / F.rnd (s' - t')) * F.rnd (x' - y')| ≤ F.max := by
    refine hmul.abs_le.trans (le_trans ?_ hmax')
    have p1 := hroom.pow_le (k := 3 + (5 * k + 1)) (by omega)
    have p2 : F.phi ^ (3 + (5 * k + 1)) * (g * (W + W)) ≤ 5 / 4 * (g * (T + T)) :=
      mul_le_mul p1 (mul_le_mul_of_nonneg_left (by linarith) (by linarith)) (by positivity) (by norm_num)
    have p3 := le_trans (le_mul_of_one_le_left hmul.2.1 F.one_le_phi) habs
    have p4 : g * (F.eta * T) ≤ g * (1 / 36 * T) := mul_le_mul_of_nonneg_left heT (by linarith)
    have p5 : 0 ≤ g * T := by positivity
    linarith
  refine ⟨_, e3.mul e4 hb, ?_⟩
  refine hmul.rnd.mono (by omega) ?_ le_rfl
  have q5 : 0 ≤ g * (F.eta * T) := by positivity
  linarith

/-- the computed derivative points -/
theorem dpt_ieee {U : ℕ → Ieee F} {V : ℕ → K} (hU : ∀ i, Is (U i) (V i)) (hm : Monotone V)
    (h01 : ∀ i, 0 ≤ V i ∧ V i ≤ 1) {h : K} (hh : 0 < h) (h1 : h ≤ 1)
    (hgap : ∀ i j, V i < V j → h ≤ V j - V i) {p : ℕ} (hroom : Room F p) {P : ℕ → Pt (Ieee F) d}
    {Q : ℕ → Pt K d} (hP : ∀ i, PtIs (P i) (Q i)) {r : Fin d} {M : K} (hM : ∀ i, |Q i r| ≤ M) (k : ℕ)
    (hk : k ≤ p) (hmax : 4 * ((4 * (p / h)) ^ k * (M + 1)) ≤ F.max) : ∀ i,
    ∃ y, Is (dpt U p P k i r) y ∧ UErr F (5 * k) (dUnder F (p / h) M k) y (dpt V p Q k i r) (dSize (p / h) M k) := by
  have hM0 : 0 ≤ M := (abs_nonneg _).trans (hM 0)
  have heta := F.eta_nonneg
  induction k with
  | zero =>
    intro i
    refine ⟨_, hP i r, (UErr.refl (F := F) (Q i r)).mono le_rfl ?_ ?_⟩
    · rw [dUnder]; positivity
    · rw [dSize, pow_zero, one_mul]; exact hM i
  | succ k ih =>
    intro i
    have hp1 : (1 : K) ≤ p := by exact_mod_cast (by omega : 1 ≤ p)
    have hg1 : (1 : K) ≤ p / h := by rw [le_div_iff₀ hh, one_mul]; linarith
    have ih := ih (by omega) (le_trans (by
      have : (4 * ((p : K) / h)) ^ k ≤ (4 * (p / h)) ^ (k + 1) := pow_le_pow_right₀ (by linarith) (by omega)
      have := mul_le_mul_of_nonneg_right this (show 0 ≤ M + 1 by linarith)
      linarith) hmax)
    obtain ⟨x', hx, ex⟩ := ih (i + 1)
    obtain ⟨y', hy, ey⟩ := ih i
    have := dpt_step (m := p - (k + 1) + 1) hroom (by omega) (by omega) (by omega) (hU (i + p + 1))
      (hU (i + (k + 1))) hx hy hh h1
      (abs_le.mpr ⟨by linarith [(h01 (i + p + 1)).1, (h01 (i + (k + 1))).2],
        by linarith [(h01 (i + p + 1)).2, (h01 (i + (k + 1))).1]⟩)
      (fun hne => hgap _ _ (lt_of_le_of_ne (hm (by omega)) (Ne.symm hne))) hM0 hmax ex ey
    obtain ⟨z, hz, ez⟩ := this
    refine ⟨z, ?_, ?_⟩
    · simp only [dpt]
      split
      · rename_i hc; rw [if_pos hc] at hz; exact hz
      · rename_i hc; rw [if_neg hc] at hz; exact hz
    · simp only [dpt]
      split
      · rename_i hc; rw [if_pos hc] at ez; exact ez
      · rename_i hc; rw [if_neg hc] at ez; exact ez

/-- exact basis functions are at most one -/
theorem Nf_le_one {V : ℕ → K} {p n k : ℕ} {a b : K} (h : Clamp V p n a b) {x : K} {j : ℕ}
    (hs : IsSpan V n x j) (hk : k ≤ p) (q : ℕ) (hq : q ≤ p - k) (i : ℕ) :
    Nf (fun i => V (i + k)) k n x q i ≤ 1 := by
  have hp := hs.p_le h
  have hjn := hs.le_n
  have hc := h.shiftN hk
  have hs' := hs.shiftN (k := k) (by omega)
  have e : ∀ i, Nf (fun i => V (i + k)) k n x q i = Bs (shiftN k V) x (delta (j - k)) q i := by
    intro i
    rw [Nf_eq_Bs _ (by omega), ← base_eq_delta hc hs']; rfl
  rw [e]
  have h1 := sum_Bs_one (u := x) hc.mono (show q ≤ j - k by omega) (show j - k ≤ n - k by omega) (hs'.lt hc)
  have h0 := Bs_nonneg hc.mono hs'.lo hs'.le_hi q
  by_cases hi : i ∈ range (n - k + 1)
  · rw [← h1]
    exact single_le_sum (f := fun i => Bs (shiftN k V) x (delta (j - k)) q i) (fun i _ => h0 i) hi
  · rw [mem_range] at hi
    rw [Bs_support _ _ _ _ _ (by omega)]
    exact zero_le_one

/-- the computed sum -/
theorem evalFold_ieee {U : ℕ → Ieee F} {V : ℕ → K} (hU : ∀ i, Is (U i) (V i)) {p n : ℕ} (hcl : Clamp V p n 0 1)
    {u : Ieee F} {x : K} (hu : Is u x) (hx0 : 0 ≤ x) (hx1 : x ≤ 1) {j k : ℕ} (hs : IsSpan V n x j) (hk : k ≤ p)
    {h : K} (hh : 0 < h) (h1 : h ≤ 1) (hgap : ∀ i j, V i < V j → h ≤ V j - V i) (hroom : Room F p)
    (hhm : 2 / h ≤ F.max) {P : ℕ → Pt (Ieee F) d} {Q : ℕ → Pt K d} (hP : ∀ i, PtIs (P i) (Q i)) {r : Fin d}
    {M : K} (hM : ∀ i, |Q i r| ≤ M) (hmax : 4 * ((4 * (p / h)) ^ k * (M + 1)) ≤ F.max) {lo : ℕ} (hlo : lo ≤ j - p) :
    ∃ z, Is (evalFold U p n P k u lo r) z ∧
      |z - ∑ i ∈ range (n - k + 1), Nf (fun i => V (i + k)) k n x (p - k) i * dpt V p Q k i r| ≤
        (F.phi ^ (6 * p - k + 2) - 1) * ((2 * (p / h)) ^ k * M) +
          (p + 1) * 3 ^ (p + 3) * ((4 * (p / h)) ^ k * (M + 1)) * F.eta := by
  have hM0 : 0 ≤ M := (abs_nonneg _).trans (hM 0)
  have hp := hs.p_le hcl
  have hjn := hs.le_n
  have heta := F.eta_nonneg
  have heta' := hroom.eta_small
  have hphi := F.phi_pos
  have h01 : ∀ i, 0 ≤ V i ∧ V i ≤ 1 := fun i =>
    ⟨by rw [← hcl.left 0 (Nat.zero_le _)]; exact hcl.mono (Nat.zero_le i),
      by rw [← hcl.right (max i (n + 1)) (le_max_right _ _)]; exact hcl.mono (le_max_left _ _)⟩
  have hNf := fun i => Nf_ieee (U := fun i => U (i + k)) (V := fun i => V (i + k)) (fun i => hU (i + k))
    (hcl.shiftN hk).mono (fun i => h01 (i + k)) hu hx0 hx1 hh (fun i j => hgap (i + k) (j + k))
    (by
      refine le_trans ?_ hhm
      have := hroom.pow_le (k := 1) (by omega)
      rw [pow_one] at this
      exact div_le_div_of_nonneg_right (by linarith) hh.le) (hroom.mono (show p - k ≤ p by omega))
    (show k ≤ n by omega) (fun q hq i => Nf_le_one hcl hs hk q hq i) (p - k) le_rfl i
  have hN1 := fun i => Nf_le_one hcl hs hk (p - k) le_rfl i
  have hD := dpt_ieee hU hcl.mono h01 hh h1 hgap hroom hP hM k hk hmax
  have hNz : ∀ i, i + p < j ∨ j < i + k → Nf (fun i => V (i + k)) k n x (p - k) i = 0 :=
    fun i hi => Nf_zero_of_span hcl hs hk hi
  have hone : ∑ i ∈ range (n - k + 1), Nf (fun i => V (i + k)) k n x (p - k) i = 1 := by
    have hc := hcl.shiftN hk
    have hs' := hs.shiftN (k := k) (by omega)
    have : ∀ i, Nf (fun i => V (i + k)) k n x (p - k) i = Bs (shiftN k V) x (delta (j - k)) (p - k) i := by
      intro i
      rw [Nf_eq_Bs _ (by omega), ← base_eq_delta hc hs']; rfl
    simp only [this]
    exact sum_Bs_one hc.mono (by omega) (by omega) (hs'.lt hc)
  generalize hNV : Nf (fun i => V (i + k)) k n x (p - k) = N at *
  -- sizes
  have hg0 : (0 : K) ≤ p / h := by positivity
  obtain ⟨T, hT⟩ : ∃ T, T = (4 * ((p : K) / h)) ^ k * (M + 1) := ⟨_, rfl⟩
  obtain ⟨W, hW⟩ : ∃ W, W = dSize ((p : K) / h) M k := ⟨_, rfl⟩
  have hWT : W ≤ T := by
    rw [hW, dSize, hT]
    exact mul_le_mul (pow_le_pow_left₀ (by linarith) (by linarith) k) (by linarith) hM0 (by positivity)
  have hW0 : 0 ≤ W := by rw [hW, dSize]; positivity
  have hT1 : 1 ≤ T := by
    have : (1 : K) ≤ (4 * (p / h)) ^ k := by
      rcases Nat.eq_zero_or_pos k with rfl | hk0
      · simp
      · apply one_le_pow₀
        have : (1 : K) ≤ p := by exact_mod_cast (by omega : 1 ≤ p)
        have : (1 : K) ≤ p / h := by rw [le_div_iff₀ hh, one_mul]; linarith
        linarith
    rw [hT]; nlinarith
  have hA : dUnder F ((p : K) / h) M k = 4 * (F.eta * T) := by rw [dUnder, hT]; ring
  rw [hA, ← hW] at hD
  rw [← hT] at hmax ⊢
  rw [show (2 * ((p : K) / h)) ^ k * M = W by rw [hW, dSize]]
  obtain ⟨ua, hua⟩ : ∃ a, a = under F (p - k) := ⟨_, rfl⟩
  rw [← hua] at hNf
  have ua0 : 0 ≤ ua := hua ▸ under_nonneg _
  have ua1 : ua ≤ 1 / 12 := hua ▸ hroom.under_small (by omega)
  have ua2 : (p + 1) * (3 * ua) ≤ 1 / 4 := by
    refine le_trans ?_ hroom.mul_under_le
    rw [hua]
    exact mul_le_mul_of_nonneg_left (by have := under_mono (F := F) (show p - k ≤ p by omega); linarith) (by positivity)
  have ua3 : ua ≤ 5 / 2 * (3 ^ p * F.eta) := by
    have := under_mono (F := F) (show p - k ≤ p by omega)
    have e : under F p = 5 / 2 * (3 ^ p * F.eta) - 5 / 2 * F.eta := by rw [under]; ring
    rw [hua]; linarith
  have hge := hroom.mul_eta_le
  have heT0 : 0 ≤ F.eta * T := mul_nonneg heta (by linarith)
  have heT : F.eta * T ≤ 1 / 36 * T := mul_le_mul_of_nonneg_right heta' (by linarith)
  -- a term
  have hterm : ∀ i, ∃ y, Is (scale (Nf (fun j => U (j + k)) k n u (p - k) i) (dpt U p P k i) r) y ∧
      (N i = 0 → y = 0) ∧
      UErr F (5 * p + 1) (5 / 4 * (5 / 4 * (ua * W) + 16 / 3 * (F.eta * T)) + F.eta) y (N i * dpt V p Q k i r)
        (N i * W) := by
    intro i
    obtain ⟨y, iy, y0, n0, hz, ey⟩ := hNf i
    obtain ⟨z, iz, ez⟩ := hD i
    have hmul := ey.mul ez
    have habs : ua * (F.phi ^ (5 * k) * W) + F.phi ^ (5 * (p - k)) * N i * (4 * (F.eta * T)) +
        ua * (4 * (F.eta * T)) ≤ 5 / 4 * (ua * W) + 16 / 3 * (F.eta * T) := by
      have p1 := hroom.pow_le (k := 5 * k) (by omega)
      have p2 := hroom.pow_le (k := 5 * (p - k)) (by omega)
      have q1 : ua * (F.phi ^ (5 * k) * W) ≤ ua * (5 / 4 * W) :=
        mul_le_mul_of_nonneg_left (mul_le_mul_of_nonneg_right p1 hW0) ua0
      have q2 : F.phi ^ (5 * (p - k)) * N i ≤ 5 / 4 * 1 := mul_le_mul p2 (hN1 i) n0 (by norm_num)
      have q3 := mul_le_mul_of_nonneg_right q2 (show 0 ≤ 4 * (F.eta * T) by linarith)
      have q4 := mul_le_mul_of_nonneg_right ua1 (show 0 ≤ 4 * (F.eta * T) by linarith)
      linarith
    have hmul' := hmul.mono (show 5 * (p - k) + 5 * k ≤ 5 * p by omega) habs le_rfl
    have hNW : N i * W ≤ W := mul_le_of_le_one_left hW0 (hN1 i)
    have huW : ua * W ≤ 1 / 12 * W := mul_le_mul_of_nonneg_right ua1 hW0
    have hb : |y * z| ≤ F.max := by
      refine hmul'.abs_le.trans (le_trans ?_ hmax)
      have p1 := hroom.pow_le (k := 5 * p) (by omega)
      have q1 : F.phi ^ (5 * p) * (N i * W) ≤ 5 / 4 * W := mul_le_mul p1 hNW (mul_nonneg n0 hW0) (by norm_num)
      linarith
    refine ⟨_, iy.mul iz hb, fun h0 => by rw [hz h0, zero_mul, F.rnd_zero], hmul'.rnd.mono le_rfl ?_ le_rfl⟩
    have p1 := hroom.pow_le (k := 1) (by omega)
    rw [pow_one] at p1
    have := mul_le_mul_of_nonneg_right p1 hmul'.2.1
    linarith
  obtain ⟨B, hB⟩ : ∃ B, B = 5 / 4 * (5 / 4 * (ua * W) + 16 / 3 * (F.eta * T)) + F.eta := ⟨_, rfl⟩
  rw [← hB] at hterm
  have hB0 : 0 ≤ B := by rw [hB]; positivity
  have hzero : ∀ i, i + p < j ∨ j < i + k →
      Is (scale (Nf (fun j => U (j + k)) k n u (p - k) i) (dpt U p P k i) r) 0 := by
    intro i hi
    obtain ⟨y, iy, hy, -⟩ := hterm i
    rwa [hy (hNz i hi)] at iy
  -- the sums
  have hsum : ∀ f : ℕ → K, ∑ i ∈ range (n - k + 1), N i * f i =
      ((List.range' (j - p) (p - k + 1)).map fun i => N i * f i).sum := by
    intro f
    rw [sum_range']
    symm
    apply sum_subset
    · intro i hi
      rw [mem_Ico] at hi
      rw [mem_range]
      omega
    · intro i _ hi
      rw [mem_Ico] at hi
      rw [hNz i (by omega), zero_mul]
  have hWsum : ((List.range' (j - p) (p - k + 1)).map fun i => N i * W).sum = W := by
    rw [← hsum fun _ => W, ← sum_mul, hone, one_mul]
  have hLB : (p - k + 1 : ℕ) * B ≤ (p + 1) * B := by
    apply mul_le_mul_of_nonneg_right _ hB0
    exact_mod_cast (by omega : p - k + 1 ≤ p + 1)
  have hphiL := hroom.pow_le (k := p - k + 1) (by omega)
  have hpB0 : 0 ≤ (p + 1) * B := mul_nonneg (by positivity) hB0
  have habs : F.phi ^ (p - k + 1) * (0 + (p - k + 1 : ℕ) * B) ≤ 5 / 4 * ((p + 1) * B) := by
    rw [zero_add]
    exact mul_le_mul hphiL hLB (mul_nonneg (Nat.cast_nonneg _) hB0) (by norm_num)
  have hpB : (p + 1) * B ≤ T := by
    have e : (p + 1) * B = 25 / 16 * ((p + 1) * ua * W) + 20 / 3 * ((p + 1) * F.eta * T) + (p + 1) * F.eta := by
      rw [hB]; ring
    rw [e]
    have q1 : (p + 1) * ua * W ≤ 1 / 12 * T := mul_le_mul (by linarith) hWT hW0 (by norm_num)
    have q2 : (p + 1) * F.eta * T ≤ 1 / 36 * T := mul_le_mul_of_nonneg_right (by linarith) (by linarith)
    linarith
  have hstart : Is ((0 : Ieee F)) 0 := is_zero
  have h1' := foldl_zero_ieee (fun i => scale (Nf (fun j => U (j + k)) k n u (p - k) i) (dpt U p P k i) r)
    (List.range' lo (j - p - lo)) 0 0 is_zero (by
      intro i hi
      rw [List.mem_range'_1] at hi
      exact hzero i (by omega))
  have h0 : UErr F (5 * p + 1 + 0) 0 (0 : K) 0 0 := by
    simpa using (UErr.refl (F := F) (0 : K)).mono (Nat.zero_le (5 * p + 1 + 0)) le_rfl le_rfl
  obtain ⟨z, hz, hze⟩ := foldl_ieee (F := F)
    (g := fun i => scale (Nf (fun j => U (j + k)) k n u (p - k) i) (dpt U p P k i) r)
    (x := fun i => N i * dpt V p Q k i r) (w := fun i => N i * W) (M := 5 * p + 1) (B := B)
    (List.range' (j - p) (p - k + 1)) 0 _ 0 0 0 0
    (fun i _ => by obtain ⟨y, iy, -, ey⟩ := hterm i; exact ⟨y, iy, ey⟩) h1' h0 hB0 (by
      rw [hWsum, List.length_range', zero_add]
      have p1 := hroom.pow_le (k := 5 * p + 1 + 0 + (p - k + 1)) (by omega)
      have := mul_le_mul p1 hWT hW0 (by norm_num)
      linarith)
  have h2' := foldl_zero_ieee (fun i => scale (Nf (fun j => U (j + k)) k n u (p - k) i) (dpt U p P k i) r)
    (List.range' (j - k + 1) (n - j)) _ z hz (by
      intro i hi
      rw [List.mem_range'_1] at hi
      exact hzero i (by omega))
  refine ⟨z, ?_, ?_⟩
  · have e1 : List.range' lo (n - k + 1 - lo) = List.range' lo (j - p - lo) ++
        (List.range' (j - p) (p - k + 1) ++ List.range' (j - k + 1) (n - j)) := by
      rw [show n - k + 1 - lo = (j - p - lo) + ((p - k + 1) + (n - j)) by omega,
        ← List.range'_append_1, ← List.range'_append_1, show lo + (j - p - lo) = j - p by omega,
        show j - p + (p - k + 1) = j - k + 1 by omega]
    rw [evalFold, foldl_coord, e1, List.foldl_append, List.foldl_append]
    exact h2'
  · rw [hWsum, List.length_range', zero_add, zero_add, zero_add] at hze
    rw [zero_add] at habs
    rw [hsum]
    refine hze.2.2.trans (add_le_add (le_of_eq ?_) (habs.trans ?_))
    · rw [show 5 * p + 1 + 0 + (p - k + 1) = 6 * p - k + 2 by omega]
    · have e : (p + 1 : K) * 3 ^ (p + 3) * T * F.eta = (p + 1) * (27 * (3 ^ p * (F.eta * T))) := by ring
      rw [e, mul_left_comm]
      apply mul_le_mul_of_nonneg_left _ (by positivity)
      rw [hB]
      have p3 : (1 : K) ≤ 3 ^ p := one_le_pow₀ (by norm_num)
      have q1 : ua * W ≤ 5 / 2 * (3 ^ p * F.eta) * T := mul_le_mul ua3 hWT hW0 (by positivity)
      have q2 : F.eta * T ≤ 3 ^ p * (F.eta * T) := le_mul_of_one_le_left heT0 p3
      have q3 : F.eta ≤ F.eta * T := le_mul_of_one_le_right heta hT1
      rw [mul_assoc (5 / 2), mul_assoc (3 ^ p)] at q1
      linarith

end BSpline
