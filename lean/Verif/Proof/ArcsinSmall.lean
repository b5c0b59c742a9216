import Verif.Proof.ArcsinLoop

/-! # The arcsine for outputs of six to ten fraction bits

Here the loop does not compare the angle with a quarter turn. -/

namespace Proof.Arcsin
open Ac Model.Arcsin

variable {p : ℕ}

/-- Signed sums of the angles, the first one positive. -/
inductive SumsP : ℕ → ℤ → Prop
  | two : SumsP 2 (T 1)
  | up {i s} : SumsP i s → SumsP (i + 1) (s + T i)
  | down {i s} : SumsP i s → SumsP (i + 1) (s - T i)

def levP : ℕ → List ℤ
  | 0 | 1 => []
  | 2 => [T 1]
  | i + 3 => (levP (i + 2)).flatMap fun s => [s + T (i + 2), s - T (i + 2)]

theorem sumsP_two {i : ℕ} {s : ℤ} (h : SumsP i s) : 2 ≤ i := by induction h <;> omega

theorem mem_levP {i : ℕ} {s : ℤ} (h : SumsP i s) : s ∈ levP i := by
  induction h with
  | two => simp [levP]
  | @up i s hp ih =>
    obtain ⟨j, rfl⟩ : ∃ j, i = j + 2 := ⟨i - 2, by have := sumsP_two hp; omega⟩
    rw [levP, List.mem_flatMap]
    exact ⟨s, ih, by simp⟩
  | @down i s hp ih =>
    obtain ⟨j, rfl⟩ : ∃ j, i = j + 2 := ⟨i - 2, by have := sumsP_two hp; omega⟩
    rw [levP, List.mem_flatMap]
    exact ⟨s, ih, by simp⟩

/-- The angles of the steps from `i` to 21. -/
def rest (i : ℕ) : ℤ := ((List.range (22 - i)).map fun j => T (i + j)).sum

def u0 : ℤ := 141959667077858189601492594193324532

theorem six {u : ℤ} (h : SumsP 6 u) : u = u0 ∨ T 6 + rest 7 ≤ u := by
  have : ∀ u ∈ levP 6, u = u0 ∨ T 6 + rest 7 ≤ u := by decide +kernel
  exact this u (mem_levP h)

theorem u0_up : rest 7 ≤ u0 + T 6 := by decide +kernel

theorem rest_step {i : ℕ} (hi : i < 22) : rest i = T i + rest (i + 1) := by
  unfold rest
  rw [show 22 - i = (22 - (i + 1)) + 1 by omega, List.range_succ_eq_map, List.map_cons, List.sum_cons, List.map_map, Nat.add_zero]
  congr 2
  refine List.map_congr_left fun j _ => ?_
  simp only [Function.comp]
  congr 1; omega

theorem rest_nonneg {i : ℕ} : 0 ≤ rest i := by
  unfold rest
  refine List.sum_nonneg ?_
  simp only [List.mem_map, List.mem_range]
  rintro x ⟨j, hj, rfl⟩
  exact (T_pos (by omega)).1

/-- The state of the arcsine loop before step `i`. -/
def NInv (p : ℕ) (t : ℚ) (i : ℕ) (s : St) : Prop :=
  ∃ (X Y N Θ u : ℤ) (ψ : ℝ), s = ⟨(dp p).val X, (dp p).val Y, (dp p).val N, (dpTheta p 1).val Θ⟩ ∧
    Vars p (Real.cos (β t)) i Y X N ψ ∧ Sym p (β t) i ψ ∧ |ψ| ≤ 2.9 ∧ |ψ - Real.pi * (u / 2 ^ 128)| ≤ ((aeSum i : ℚ) : ℝ) ∧
    Acc p i Θ (Real.pi / 2 - ψ) ∧ (i = 1 → X = 0 ∧ Y = 2 ^ (p + 3) ∧ N = 2 * ⌊|t| * 2 ^ (p + 2)⌋ ∧ ψ = 0 ∧ u = 0) ∧
    (β t = 0 ∨ i = 1 ∨ (SumsP i u ∧ 2 / 2 ^ (i - 1) - 1 ≤ ψ)) ∧ (i < 7 ∨ rest i ≤ u ∨ β t ≤ 0.00132 + W p)

theorem selSin_small (hp : p ≤ 20) {X Y N Θ : ℤ} : selSin p ⟨(dp p).val X, (dp p).val Y, (dp p).val N, (dpTheta p 1).val Θ⟩ =
    decide (decide (0 ≤ X) = decide (Y ≤ N)) := by
  unfold selSin
  have hz : (0 : ℚ) = (dp p).val 0 := by simp [Fmt.val]
  rw [hz]
  simp only [Fmt.val_le, Fmt.val_lt, if_neg (show ¬ 20 < p by omega)]
  rcases le_or_gt Y N with c | c <;> rcases le_or_gt 0 X with d | d <;> simp [c, d, not_le.2, not_lt.2]

theorem first_small (hp : 12 ≤ p) (hp2 : p ≤ 20) {t : ℚ} (ht : |t| ≤ 1) :
    ∃ s, rotate p 1 0 (selSin p (start p 1 t)) (start p 1 t) = some s ∧ NInv p t 1 s := by
  obtain ⟨e, n0, n1⟩ := start_eq (p := p) (g := 1) (by norm_num) ht
  obtain ⟨b1, b2, b3⟩ := β_facts ht
  rw [e, selSin_small hp2]
  have : decide (decide ((0 : ℤ) ≤ 2 ^ (p + 2)) = decide ((0 : ℤ) ≤ ⌊|t| * 2 ^ (p + 2)⌋)) = true := by
    have q1 : (0 : ℤ) ≤ 2 ^ (p + 2) := by positivity
    simp [n0, q1]
  rw [this, rotate_zero (by omega) (by omega) (by norm_num) n0 n1]
  have h0 : aeSum 1 = 0 := by simp [aeSum, ae]
  refine ⟨_, rfl, 0, _, _, _, 0, 0, rfl, ⟨le_rfl, ?_, ?_⟩, ?_, ?_, ?_, ?_, fun _ => ⟨rfl, rfl, rfl, rfl, rfl⟩, Or.inr (Or.inl rfl), Or.inl (by norm_num)⟩
  · simpa using near_sin
  · rw [b1]; exact arg_one
  · unfold Sym
    rw [Nat.sub_self, a_zero, abs_zero, zero_sub, abs_neg, abs_of_nonneg b2]
    have := W_nonneg p
    simp; linarith
  · simp; norm_num
  · rw [h0]; simp
  · unfold Acc
    have e2 : ((2 ^ (p - 1) : ℤ) : ℝ) / 2 ^ p = 1 / 2 := by
      push_cast
      rw [show p = p - 1 + 1 by omega, Nat.add_sub_cancel, pow_succ]; field_simp
    rw [e2, h0]
    simp
    ring

theorem next_small (hp : 12 ≤ p) (hp2 : p ≤ 20) {t : ℚ} (ht : |t| ≤ 1) {i : ℕ} (hi : i ≤ p + 1) {s : St} (hs : NInv p t i s) :
    ∃ s', rotate p 1 i (selSin p s) s = some s' ∧ NInv p t (i + 1) s' := by
  obtain ⟨X, Y, N, Θ, u, ψ, rfl, hv, hb, hr, hψ, ha, hone, hfst, hK⟩ := hs
  obtain ⟨b1, b2, b3⟩ := β_facts ht
  have i1 := hv.one
  have hpi := Real.pi_lt_d2
  have hpi2 := Real.pi_gt_d2
  have ai := a_nonneg i
  rw [selSin_small hp2]
  set sel := decide (decide (0 ≤ X) = decide (Y ≤ N)) with hsel
  have hσ := sg_cases sel
  have hσ' : -sg sel = 1 ∨ -sg sel = -1 := by rcases hσ with e | e <;> rw [e] <;> simp
  have hv' := hv.step hσ'
  rw [neg_mul, sub_neg_eq_add, neg_mul, ← sub_eq_add_neg] at hv'
  have ha' := ha.step (by omega) (by omega) hσ
  have eψ : ψ + ((-sg sel : ℤ) : ℝ) * a i = ψ - sg sel * a i := by push_cast; ring
  have eφ : Real.pi / 2 - ψ + sg sel * a i = Real.pi / 2 - (ψ - sg sel * a i) := by ring
  rw [eψ] at hv'
  rw [eφ] at ha'
  have hb' := hb.step (by omega) b2 b3 hi hv hr (grow := !decide (Y ≤ N)) (by simp; omega) (by simp)
  have e : ψ + (if decide (0 ≤ X) = (!decide (Y ≤ N)) then a i else -a i) = ψ - (sg sel : ℝ) * a i := by
    rw [hsel]
    rcases le_or_gt Y N with c | c <;> rcases le_or_gt 0 X with d | d <;> simp [c, d, not_le.2, sg] <;> ring
  rw [e] at hb'
  have hr' := hb'.range (by omega) b3 (by omega) (by omega)
  -- the first direction
  have hfst' : β t = 0 ∨ (SumsP (i + 1) (u - sg sel * T i) ∧ 2 / 2 ^ i - 1 ≤ ψ - sg sel * a i) := by
    rcases hfst with h | rfl | ⟨h1, h2⟩
    · exact Or.inl h
    · obtain ⟨rfl, rfl, rfl, rfl, rfl⟩ := hone rfl
      by_cases c : (2 : ℤ) ^ (p + 3) ≤ 2 * ⌊|t| * 2 ^ (p + 2)⌋
      · left
        have c2 : (2 : ℤ) ^ (p + 2) ≤ ⌊|t| * 2 ^ (p + 2)⌋ := by rw [pow_succ 2 (p + 2)] at c; linarith
        have c3 := Int.le_floor.1 c2
        have hq : (0 : ℚ) < 2 ^ (p + 2) := by positivity
        push_cast at c3
        have : |t| = 1 := le_antisymm ht (by nlinarith)
        unfold β; rw [this]; simp
      · right
        have : sel = false := by rw [hsel]; simp [c]
        rw [this]
        simp only [sg, Bool.false_eq_true, if_false, neg_one_mul, sub_neg_eq_add, zero_add, Int.cast_neg, Int.cast_one, zero_sub]
        refine ⟨by simpa using SumsP.two, ?_⟩
        norm_num
        exact a_nonneg 1
    · right
      have al := a_le i
      have e2 : (2 : ℝ) / 2 ^ (i - 1) = 2 * (2 / 2 ^ i) := by
        obtain ⟨j, rfl⟩ : ∃ j, i = j + 1 := ⟨i - 1, by omega⟩
        rw [Nat.add_sub_cancel, pow_succ]; field_simp
      rw [e2] at h2
      rcases hσ with e | e <;> rw [e]
      · rw [one_mul, Int.cast_one, one_mul]; exact ⟨.down h1, by linarith⟩
      · rw [neg_one_mul, sub_neg_eq_add, Int.cast_neg, Int.cast_one, neg_one_mul, sub_neg_eq_add]
        exact ⟨.up h1, by have : (0 : ℝ) < 2 / 2 ^ i := by positivity
                          linarith⟩
  have low : -1.3 ≤ ψ - sg sel * a i := by
    rcases hfst' with h | ⟨-, h⟩
    · unfold Sym at hb'
      rw [h, sub_zero, abs_abs, Nat.add_sub_cancel] at hb'
      have w := W_small (show 10 ≤ p by omega)
      have z := Z_small (show 10 ≤ p by omega)
      have o := a_one
      have o2 := a_le_one i1
      have hη := η_nonneg p
      have hip : (i : ℝ) ≤ p + 1 := by exact_mod_cast hi
      have z2 : (i : ℝ) * (2 * η p) ≤ (p + 1) * (2 * η p) := mul_le_mul_of_nonneg_right hip (by linarith)
      push_cast at hb'
      rw [add_sub_cancel_right, abs_le] at hb'
      linarith [hb'.1]
    · have : (0 : ℝ) < 2 / 2 ^ i := by positivity
      linarith
  have hr3 : |Real.pi / 2 - (ψ - sg sel * a i)| ≤ 3.1 := by
    rw [abs_le] at hr' ⊢
    constructor <;> linarith
  have t0 : 0 ≤ Real.cos (β t) := by rw [b1]; exact_mod_cast abs_nonneg t
  obtain ⟨f1, f2, f3⟩ := hv.fit (by omega) t0 (Real.cos_le_one _) (by omega)
  obtain ⟨g1, g2, g3⟩ := hv'.fit (by omega) t0 (Real.cos_le_one _) (by omega)
  have g4 := ha'.fit (by omega) (by omega) (by omega) hr3
  rw [abs_lt] at g4
  refine ⟨_, rotate_eq (by omega) (by omega) (by norm_num) i1 (by omega) sel f2 f1 f3 g2 g1 g3 (by rw [Nat.add_sub_cancel]; linarith [g4.1])
    (by rw [Nat.add_sub_cancel]; exact g4.2), _, _, _, _, u - sg sel * T i, _, rfl, hv', hb', hr', ?_, ha', by omega, ?_, ?_⟩
  · have te := T_err (show i < 130 by omega)
    rw [show aeSum (i + 1) = aeSum i + ae i from rfl]
    push_cast
    have e3 : ψ - (sg sel : ℝ) * a i - Real.pi * ((u - (sg sel : ℝ) * T i) / 2 ^ 128) =
        (ψ - Real.pi * (u / 2 ^ 128)) + sg sel * ((T i : ℝ) / 2 ^ 128 * Real.pi - a i) := by ring
    rw [e3]
    refine le_trans (abs_add_le _ _) (add_le_add hψ ?_)
    rw [abs_mul]
    have : |((sg sel : ℤ) : ℝ)| = 1 := by rcases hσ with e | e <;> rw [e] <;> norm_num
    rw [this, one_mul]
    exact te
  · rw [Nat.add_sub_cancel]
    exact hfst'.imp_right Or.inr
  · by_cases c6 : i < 6
    · left; omega
    right
    have hW0 := W_nonneg p
    by_cases c : i = 6
    · subst c
      rcases hfst with h | h | ⟨h1, -⟩
      · right; rw [h]; linarith
      · omega
      rcases six h1 with rfl | hlarge
      · by_cases cs : sel = true
        · right
          have hu : Real.pi * ((u0 : ℝ) / 2 ^ 128) ≤ 0.001315 ∧ 0.0013 ≤ Real.pi * ((u0 : ℝ) / 2 ^ 128) := by
            have hpi4 := Real.pi_lt_d4
            have hpi5 := Real.pi_gt_d4
            have e1 : ((u0 : ℝ) / 2 ^ 128) ≤ 0.00041719 := by unfold u0; norm_num
            have e2 : 0.00041718 ≤ ((u0 : ℝ) / 2 ^ 128) := by unfold u0; norm_num
            constructor <;> nlinarith
          have hae := Rat.cast_le (K := ℝ) |>.2 (aeSum_mono (show 6 ≤ 130 by omega))
          have h116 : (1 : ℝ) / 2 ^ 116 ≤ 0.000001 := by norm_num
          push_cast at hae
          rw [abs_le] at hψ
          obtain ⟨c1, c2⟩ := hv.angle (by omega) b2 (by linarith) (by linarith)
          obtain ⟨s1, s2⟩ := hv.sign' (by omega) (by omega) hr
          have hx : 0 ≤ X := by
            by_contra hc
            push Not at hc
            have := s2 hc.le
            have hlim : Real.pi / 2 * (6 / 5 * (((6 : ℕ) : ℝ) - 1) / 2 ^ (p + 2)) ≤ 0.0006 := by
              have : (6 / 5 * (((6 : ℕ) : ℝ) - 1) / 2 ^ (p + 2)) ≤ 6 / 2 ^ 14 := by
                norm_num
                rw [div_le_div_iff₀ (by positivity) (by norm_num)]
                have : (2 : ℝ) ^ 14 ≤ 2 ^ (p + 2) := pow_le_pow_right₀ (by norm_num) (by omega)
                norm_num at this
                linarith
              have m := mul_le_mul_of_nonneg_left this (show 0 ≤ Real.pi / 2 by linarith)
              norm_num at m ⊢
              linarith
            linarith [hψ.1, hu.2]
          have hy : Y ≤ N := by
            rw [hsel] at cs
            simpa [hx] using cs
          have := c2 hy
          rw [abs_of_nonneg (by linarith [hψ.1, hu.2])] at this
          linarith [hψ.2, hu.1]
        · left
          have : sel = false := by simpa using cs
          rw [this]
          have := u0_up
          simp only [sg, Bool.false_eq_true, if_false, neg_one_mul, sub_neg_eq_add]
          exact this
      · left
        have t6 := (T_pos (show 6 < 130 by norm_num)).1
        rcases hσ with e | e <;> rw [e] <;> linarith
    · rcases hK with h | h | h
      · omega
      · left
        rw [rest_step (by omega)] at h
        have ti := (T_pos (show i < 130 by omega)).1
        rcases hσ with e | e <;> rw [e] <;> linarith
      · exact Or.inr h

theorem runSin_small (hp : 12 ≤ p) (hp2 : p ≤ 20) {t : ℚ} (ht : |t| ≤ 1) : ∃ s, runSin p t = some s ∧ NInv p t (p + 2) s := by
  unfold runSin
  have key : ∀ k, k ≤ p + 1 → ∃ s, forUp (fun i s => s.bind fun s => rotate p 1 i (selSin p s) s) (k + 1) (some (start p 1 t)) = some s ∧
      NInv p t (k + 1) s := by
    intro k
    induction k with
    | zero =>
      intro _
      obtain ⟨s, h1, h2⟩ := first_small hp hp2 ht
      exact ⟨s, by simpa [forUp] using h1, h2⟩
    | succ k ih =>
      intro hk
      obtain ⟨s, h3, h4⟩ := ih (by omega)
      obtain ⟨s', h5, h6⟩ := next_small hp hp2 ht (by omega) h4
      refine ⟨s', ?_, h6⟩
      rw [forUp, h3]; exact h5
  exact key (p + 1) le_rfl

/-- Bound of the error, in half turns. -/
noncomputable def errN (p : ℕ) : ℝ := 3 * Real.sqrt (((p : ℝ) + 1) / 2 ^ (p + 2)) + 2 / 5 * ((p + 2) ^ 2 / 2 ^ p) + 1 / 2 ^ 10

theorem NInv.out (hp : 12 ≤ p) (hp2 : p ≤ 20) {t : ℚ} (ht : |t| ≤ 1) {s : St} (hs : NInv p t (p + 2) s) :
    ∃ Θ : ℤ, s.theta = (dpTheta p 1).val Θ ∧ |Θ| < 2 ^ p ∧ |(Θ : ℝ) / 2 ^ p - (1 / 2 - β t / Real.pi)| ≤ errN p := by
  obtain ⟨X, Y, N, Θ, u, ψ, rfl, hv, hb, hr, hψ, ha, hone, hfst, hK⟩ := hs
  obtain ⟨b1, b2, b3⟩ := β_facts ht
  have hpi := Real.pi_pos
  have hpi3 := Real.pi_gt_d2
  have hpi4 := Real.pi_lt_d2
  have hacc := ha.bound (by omega) (by omega) le_rfl
  have hae := Rat.cast_le (K := ℝ) |>.2 (aeSum_mono (show p + 2 ≤ 130 by omega))
  push_cast at hae
  have h116 : (1 : ℝ) / 2 ^ 116 ≤ 0.000001 := by norm_num
  have hW0 := W_nonneg p
  have hW := W_small (show 10 ≤ p by omega)
  unfold Sym at hb
  rw [show p + 2 - 1 = p + 1 by omega] at hb
  push_cast at hb
  rw [show ((p : ℝ) + 2 - 1) = p + 1 by ring] at hb
  have haw := a_nonneg (p + 1)
  have hη := η_nonneg p
  have hz0 : 0 ≤ ((p : ℝ) + 1) * (2 * η p) := by positivity
  have hψβ : |ψ - β t| ≤ a (p + 1) + W p + (p + 1) * (2 * η p) + (0.00264 + 2 * W p) := by
    rcases hK with h | h | h
    · omega
    · have hu : (0 : ℝ) ≤ u := by exact_mod_cast le_trans rest_nonneg h
      have hu2 : 0 ≤ Real.pi * ((u : ℝ) / 2 ^ 128) := by positivity
      rw [abs_le] at hψ hb ⊢
      rcases abs_cases ψ with ⟨e, -⟩ | ⟨e, -⟩ <;> rw [e] at hb <;> constructor <;> linarith [hψ.1]
    · rw [abs_le] at hb ⊢
      have := neg_abs_le ψ
      have := le_abs_self ψ
      constructor <;> linarith
  have low : -1.5 ≤ ψ := by
    rw [abs_le] at hψβ
    rcases hfst with h | h | ⟨-, h⟩
    · have z := Z_small (show 10 ≤ p by omega)
      have o := a_one
      have o2 := a_le_one (show 1 ≤ p + 1 by omega)
      rw [h, sub_zero, abs_abs, abs_le] at hb
      linarith [hb.1]
    · omega
    · have : (0 : ℝ) < 2 / 2 ^ (p + 2 - 1) := by positivity
      linarith
  refine ⟨Θ, rfl, ha.fit (by omega) (by omega) le_rfl ?_, ?_⟩
  · rw [abs_le] at hr ⊢
    constructor <;> linarith
  have e : (Θ : ℝ) / 2 ^ p - (1 / 2 - β t / Real.pi) = (Real.pi * (Θ / 2 ^ p) - (Real.pi / 2 - β t)) / Real.pi := by field_simp
  have h3 := abs_sub_le (Real.pi * ((Θ : ℝ) / 2 ^ p)) (Real.pi / 2 - ψ) (Real.pi / 2 - β t)
  rw [abs_sub_comm (Real.pi * ((Θ : ℝ) / 2 ^ p)) (Real.pi / 2 - ψ), show Real.pi / 2 - ψ - (Real.pi / 2 - β t) = -(ψ - β t) by ring, abs_neg] at h3
  set D := a (p + 1) + W p + (p + 1) * (2 * η p) + (((p : ℝ) + 1) * (Real.pi / 2 ^ p) + 1 / 2 ^ 116) with hD
  have hD0 : 0 ≤ D := by positivity
  have hh := half_turns (show 10 ≤ p by omega) (x := D) (by rw [abs_of_nonneg hD0])
  rw [abs_of_nonneg (by positivity), div_le_iff₀ hpi] at hh
  rw [e, abs_div, abs_of_pos hpi, div_le_iff₀ hpi]
  refine le_trans h3 ?_
  have h117 : (1 : ℝ) / 2 ^ 117 ≤ 0.000001 := by norm_num
  have m117 := mul_le_mul_of_nonneg_right h117 hpi.le
  unfold err at hh
  unfold errN
  have e9 : 2 * W p = 2 * Real.sqrt (((p : ℝ) + 1) / 2 ^ (p + 2)) * Real.pi := by unfold W; ring
  rw [e9] at hψβ
  have : (0.00264 : ℝ) + 0.000001 * Real.pi ≤ 1 / 2 ^ 10 * Real.pi := by norm_num; linarith
  linarith

theorem sin_small {o : Fmt} {h : ℕ} (ho : pF o = 2 * h) (h1 : 6 ≤ h) (h2 : h ≤ 10) {t : ℚ} (ht : |t| ≤ 1) :
    ∃ r : ℚ, arcsin o t = some (o.cvt r) ∧ |r| < 1 ∧ |(r : ℝ) - Real.arcsin (t : ℝ) / Real.pi| ≤ errN (2 * h) := by
  obtain ⟨s, hs, hi⟩ := runSin_small (p := 2 * h) (by omega) (by omega) ht
  obtain ⟨Θ, g1, g2, g3⟩ := hi.out (by omega) (by omega) ht
  unfold arcsin
  rw [ho, hs, Option.map_some, g1]
  have q := quarter ht
  have hle : |(|(Θ : ℝ) / 2 ^ (2 * h)| - (1 / 2 - β t / Real.pi))| ≤ errN (2 * h) := by
    refine le_trans ?_ g3
    have := abs_abs_sub_abs_le ((Θ : ℝ) / 2 ^ (2 * h)) (1 / 2 - β t / Real.pi)
    rwa [abs_of_nonneg q] at this
  obtain ⟨r, r1, r2, r3⟩ := sin_out (o := o) g2 hle
  exact ⟨r, by rw [r1], r2, r3⟩

end Proof.Arcsin
