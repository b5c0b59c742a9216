import Verif.Proof.Reciprocal
import Verif.Model.PwlHa

/-! # The reciprocal by a table of `2^ib` segments, for any table -/

namespace Proof.PwlHa
open Ac Model.Pwl Model.PwlFixed Model.PwlHa Model.Normalize Proof.Pwl Proof.PwlFixed

/-- What is checked of a table: order, range, and the product of the segment with its argument, which is a parabola,
within `E` of `2^(p+ib+1)`: the lower bound at both ends, the upper bound by the discriminant. -/
structure Good (m c : List ℤ) (p ib : ℕ) (E lo hi : ℤ) : Prop where
  lm : m.length = 2 ^ ib
  lc : c.length = 2 ^ ib
  neg : ∀ i < 2 ^ ib, m.getD i 0 < 0
  step : ∀ i < 2 ^ ib - 1, c.getD (i + 1) 0 ≤ c.getD i 0 + m.getD i 0
  bd : ∀ i < 2 ^ ib, lo ≤ c.getD i 0 ∧ lo ≤ c.getD i 0 + m.getD i 0 ∧ c.getD i 0 ≤ hi ∧ c.getD i 0 + m.getD i 0 ≤ hi
  lo0 : 0 < lo
  hilo : hi ≤ 2 * lo
  hi2 : hi < 2 ^ (p + 1)
  dn : ∀ i < 2 ^ ib, 2 ^ (p + ib + 1) - E ≤ c.getD i 0 * (2 ^ ib + i : ℕ) ∧
    2 ^ (p + ib + 1) - E ≤ (c.getD i 0 + m.getD i 0) * (2 ^ ib + i + 1 : ℕ)
  up : ∀ i < 2 ^ ib, (c.getD i 0 + m.getD i 0 * (2 ^ ib + i : ℕ)) ^ 2 ≤
    4 * (-m.getD i 0) * (2 ^ (p + ib + 1) + E - c.getD i 0 * (2 ^ ib + i : ℕ))

variable {m c : List ℤ} {p ib : ℕ} {E lo hi : ℤ}

/-- The value for the normalized input `n`. -/
def g (m c : List ℤ) (p ib : ℕ) (n : ℚ) : ℚ := pw (tab m p) (tab c p) (trunc p ((n - 1 / 2) * 2 ^ (ib + 1)))

theorem scaled_range {n : ℚ} (h0 : 1 / 2 ≤ n) (h1 : n < 1) :
    0 ≤ (n - 1 / 2) * 2 ^ (ib + 1) ∧ (n - 1 / 2) * 2 ^ (ib + 1) < 2 ^ ib := by
  have hp : (0 : ℚ) < 2 ^ ib := by positivity
  rw [pow_succ]
  constructor
  · exact mul_nonneg (by linarith) (by positivity)
  · have : (n - 1 / 2) * 2 * 2 ^ ib < 1 * 2 ^ ib := mul_lt_mul_of_pos_right (by linarith) hp
    linarith

theorem g_anti (G : Good m c p ib E lo hi) {a b : ℚ} (h0 : 1 / 2 ≤ a) (h : a ≤ b) (h1 : b < 1) :
    g m c p ib b ≤ g m c p ib a := by
  have hp : (0 : ℚ) < 2 ^ (ib + 1) := by positivity
  have hP : (0 : ℚ) < 2 ^ p := by positivity
  refine Proof.Reciprocal.pw_anti (n := 2 ^ ib) ?_ ?_ (trunc_nonneg _ (scaled_range h0 (by linarith)).1)
    (trunc_mono _ (mul_le_mul_of_nonneg_right (by linarith) hp.le)) ?_
  · intro i hi
    unfold tab fx
    exact div_nonpos_of_nonpos_of_nonneg (by exact_mod_cast (G.neg i hi).le) hP.le
  · intro i hi
    unfold tab fx
    rw [← add_div]
    exact div_le_div_of_nonneg_right (by exact_mod_cast G.step i (by omega)) hP.le
  · push_cast
    exact lt_of_le_of_lt (trunc_le _ _) (scaled_range (by linarith) h1).2

/-- One segment, at a real argument in its cell. -/
theorem seg_mul {m c a B D : ℚ} (hm : m < 0) (hl1 : B ≤ c * a) (hl2 : B ≤ (c + m) * (a + 1))
    (hu : (c + m * a) ^ 2 ≤ 4 * (-m) * (D - c * a)) {t : ℚ} (t0 : 0 ≤ t) (t1 : t ≤ 1) :
    B ≤ (m * t + c) * (a + t) ∧ (m * t + c) * (a + t) ≤ D := by
  constructor
  · have e : (m * t + c) * (a + t) = (1 - t) * (c * a) + t * ((c + m) * (a + 1)) + (-m) * (t * (1 - t)) := by ring
    have h1 := mul_le_mul_of_nonneg_left hl1 (by linarith : 0 ≤ 1 - t)
    have h2 := mul_le_mul_of_nonneg_left hl2 t0
    have h3 : 0 ≤ (-m) * (t * (1 - t)) := mul_nonneg (by linarith) (mul_nonneg t0 (by linarith))
    rw [e]; linarith
  · have hm' : 0 < 4 * (-m) := by linarith
    have e : 4 * (-m) * ((m * t + c) * (a + t)) = 4 * (-m) * (c * a) + (c + m * a) ^ 2 - (c + m * a + 2 * m * t) ^ 2 := by ring
    have h2 : 4 * (-m) * ((m * t + c) * (a + t)) ≤ 4 * (-m) * D := by
      rw [e]
      have := sq_nonneg (c + m * a + 2 * m * t)
      linarith
    exact le_of_mul_le_mul_left h2 hm'

theorem g_bounds (G : Good m c p ib E lo hi) {n : ℚ} (h0 : 1 / 2 ≤ n) (h1 : n < 1) :
    |g m c p ib n * n - 1| ≤ (E + 2) / 2 ^ (p + ib + 1) ∧ lo / 2 ^ p ≤ g m c p ib n ∧ g m c p ib n ≤ hi / 2 ^ p := by
  obtain ⟨v0, v1⟩ := scaled_range (ib := ib) h0 h1
  obtain ⟨k, hk, ht, l1, l2⟩ := cell (N := p) (ib := ib) v0 v1
  have hlen := G.lc
  have hi' : k / 2 ^ p < 2 ^ ib := Nat.div_lt_of_lt_mul (by rwa [Nat.mul_comm])
  have hP : (0 : ℚ) < 2 ^ p := by positivity
  have hI : (0 : ℚ) < 2 ^ ib := by positivity
  have hE : 0 ≤ E + 2 ^ (p + ib + 1) * 0 := by
    have a1 := (G.dn 0 (by positivity)).1
    have a2 := G.up 0 (by positivity)
    have a3 := sq_nonneg (c.getD 0 0 + m.getD 0 0 * ((2 ^ ib + 0 : ℕ) : ℤ))
    have a4 := G.neg 0 (by positivity)
    by_contra hc
    have : (2 : ℤ) ^ (p + ib + 1) + E - c.getD 0 0 * ((2 ^ ib + 0 : ℕ) : ℤ) < 0 := by linarith
    have := mul_neg_of_pos_of_neg (by linarith : 0 < 4 * (-m.getD 0 0)) this
    linarith
  have hE0 : (0 : ℚ) ≤ E := by exact_mod_cast (by linarith : 0 ≤ E)
  obtain ⟨b1, b2⟩ := segRaw_bounds (m := m) (c := c) (n := p) (k := k) (N := 2 ^ ib) hk G.bd
  -- the segment
  set i := k / 2 ^ p with hid
  set r := k % 2 ^ p with hrd
  have hkr : k = 2 ^ p * i + r := (Nat.div_add_mod k (2 ^ p)).symm
  have hr : r < 2 ^ p := Nat.mod_lt _ (by positivity)
  have hkq : (k : ℚ) = 2 ^ p * i + r := by exact_mod_cast hkr
  set M : ℚ := ((m.getD i 0 : ℤ) : ℚ) with hM
  set C : ℚ := ((c.getD i 0 : ℤ) : ℚ) with hC
  have hg : g m c p ib n = (M * (r / 2 ^ p) + C) / 2 ^ p := by
    unfold g
    rw [ht, pw_tab]
    unfold segRaw
    rw [← hid, ← hrd, pow_add]
    push_cast
    rw [hM, hC]
    field_simp
  have t0 : (0 : ℚ) ≤ (r : ℚ) / 2 ^ p := by positivity
  have t1 : (r : ℚ) / 2 ^ p ≤ 1 := by
    rw [div_le_one hP]; exact_mod_cast hr.le
  have d1 : ((2 : ℚ) ^ (p + ib + 1) - E) ≤ C * (2 ^ ib + i) := by rw [hC]; exact_mod_cast (G.dn i hi').1
  have d2 : ((2 : ℚ) ^ (p + ib + 1) - E) ≤ (C + M) * (2 ^ ib + i + 1) := by rw [hC, hM]; exact_mod_cast (G.dn i hi').2
  have d3 : (C + M * (2 ^ ib + i)) ^ 2 ≤ 4 * (-M) * ((2 : ℚ) ^ (p + ib + 1) + E - C * (2 ^ ib + i)) := by
    rw [hC, hM]; exact_mod_cast G.up i hi'
  have d4 : M < 0 := by rw [hM]; exact_mod_cast G.neg i hi'
  obtain ⟨s1, s2⟩ := seg_mul d4 d1 d2 d3 t0 t1
  set y := M * (r / 2 ^ p) + C with hy
  have hyb : (lo : ℚ) ≤ y ∧ y ≤ hi := by
    obtain ⟨e1, e2, e3, e4⟩ := G.bd i hi'
    have f1 : (lo : ℚ) ≤ C := by rw [hC]; exact_mod_cast e1
    have f2 : (lo : ℚ) ≤ C + M := by rw [hC, hM]; exact_mod_cast e2
    have f3 : C ≤ hi := by rw [hC]; exact_mod_cast e3
    have e : y = (1 - r / 2 ^ p) * C + r / 2 ^ p * (C + M) := by rw [hy]; ring
    constructor
    · have g1 := mul_le_mul_of_nonneg_left f1 (by linarith : 0 ≤ 1 - (r : ℚ) / 2 ^ p)
      have g2 := mul_le_mul_of_nonneg_left f2 t0
      rw [e]; linarith
    · have : M * ((r : ℚ) / 2 ^ p) ≤ 0 := mul_nonpos_of_nonpos_of_nonneg d4.le t0
      linarith
  have hlo : (0 : ℚ) < lo := by exact_mod_cast G.lo0
  have hy0 : 0 < y := lt_of_lt_of_le hlo hyb.1
  have hhi : (hi : ℚ) < 2 * 2 ^ p := by
    have := G.hi2
    rw [pow_succ] at this
    have h : (hi : ℚ) < 2 ^ p * 2 := by exact_mod_cast this
    linarith
  refine ⟨?_, ?_, ?_⟩
  · -- w = n 2^(ib+1), w' = 2^ib + i + r/2^p
    have w1 : (2 : ℚ) ^ ib + i + r / 2 ^ p ≤ n * 2 ^ (ib + 1) := by
      have : (k : ℚ) / 2 ^ p ≤ (n - 1 / 2) * 2 ^ (ib + 1) := by rw [div_le_iff₀ hP]; exact l1
      rw [hkq, add_div, mul_div_assoc, mul_comm, div_mul_cancel₀ _ hP.ne'] at this
      rw [pow_succ] at this ⊢
      linarith
    have w2 : n * 2 ^ (ib + 1) ≤ (2 : ℚ) ^ ib + i + r / 2 ^ p + 1 / 2 ^ p := by
      have : (n - 1 / 2) * 2 ^ (ib + 1) ≤ ((k : ℚ) + 1) / 2 ^ p := by rw [le_div_iff₀ hP]; exact l2.le
      rw [hkq, add_div, add_div, mul_div_assoc, mul_comm ((2 : ℚ) ^ p), div_mul_cancel₀ _ hP.ne'] at this
      rw [pow_succ] at this ⊢
      linarith
    have m1 := mul_le_mul_of_nonneg_left w1 hy0.le
    have m2 := mul_le_mul_of_nonneg_left w2 hy0.le
    have m3 : y * (1 / 2 ^ p) ≤ 2 := by
      rw [mul_one_div, div_le_iff₀ hP]; linarith [hyb.2]
    rw [mul_add] at m2
    have hX : g m c p ib n * n - 1 = (y * (n * 2 ^ (ib + 1)) - 2 ^ (p + ib + 1)) / 2 ^ (p + ib + 1) := by
      rw [hg, eq_div_iff (by positivity), show p + ib + 1 = p + (ib + 1) by ring, pow_add 2 p (ib + 1)]
      field_simp
    rw [hX, abs_div, abs_of_pos (show (0 : ℚ) < 2 ^ (p + ib + 1) by positivity)]
    apply div_le_div_of_nonneg_right _ (by positivity)
    rw [abs_le]
    constructor
    · linarith
    · linarith
  · rw [hg]; exact div_le_div_of_nonneg_right hyb.1 hP.le
  · rw [hg]; exact div_le_div_of_nonneg_right hyb.2 hP.le

/-- The input may be passed without normalization. -/
def Norm (cn : Bool) (f : Fmt) (x : ℚ) : Prop := cn = true ∨ 2 ^ (f.I - (if f.S then 2 else 1)) ≤ |x|

/-- Normalization, called or assumed, is a shift. -/
theorem recNorm_shift {cn : Bool} {f : Fmt} (hW : 1 ≤ f.W) {r : ℤ} (h0 : 0 < r) (h1 : r ≤ maxRaw f.W false)
    (h2 : f.S = true → r ≤ 2 ^ (f.W - 1)) (hc : Norm cn f ((uns f).val r)) :
    1 / 2 ≤ (recNorm cn f ((uns f).val r)).1 ∧ (recNorm cn f ((uns f).val r)).1 < 1 ∧
    ∃ ls : ℕ, (recNorm cn f ((uns f).val r)).1 = ((r * 2 ^ ls : ℤ) : ℚ) / 2 ^ f.W ∧
      (recNorm cn f ((uns f).val r)).2 = f.I - ls := by
  have hF : (nfmt (uns f)).F = f.W := by unfold Fmt.F nfmt nfmt.S uns; simp
  have hv : ∀ k : ℤ, (nfmt (uns f)).val k = (k : ℚ) / 2 ^ f.W := by
    intro k; unfold Fmt.val; rw [hF, zpow_neg, zpow_natCast, div_eq_mul_inv]
  have hp : (2 : ℤ) ^ f.W = 2 * 2 ^ (f.W - 1) := two_pow_succ_pred hW
  have hpq : (2 : ℚ) ^ f.W = 2 * 2 ^ (f.W - 1) := by exact_mod_cast hp
  have hK : (0 : ℤ) < 2 ^ (f.W - 1) := by positivity
  have hrW : r < 2 ^ f.W := by simp [maxRaw] at h1; omega
  have he : (uns f).val r = (r : ℚ) / 2 ^ f.W * 2 ^ f.I := by
    unfold Fmt.val Fmt.F uns
    rw [show -((f.W : ℤ) - f.I) = f.I - f.W by ring, zpow_sub₀ (by norm_num), zpow_natCast]; ring
  have hx0 : 0 < (uns f).val r := by
    rw [he]; exact mul_pos (div_pos (by exact_mod_cast h0) (by positivity)) (Fmt.z_pos _)
  unfold recNorm
  simp only [Fmt.raw_val]
  cases cn
  · have hc' : (2 : ℚ) ^ (f.I - (if f.S then 2 else 1)) ≤ (r : ℚ) / 2 ^ f.W * 2 ^ f.I := by
      rcases hc with hc | hc
      · exact absurd hc (by simp)
      · rw [abs_of_pos hx0, he] at hc; exact hc
    have q := Fmt.z_pos f.I
    have hW0 : (0 : ℚ) < 2 ^ f.W := by positivity
    simp only [Bool.false_eq_true, if_false]
    cases hS : f.S
    · simp only [hS, Bool.false_eq_true, if_false] at hc' ⊢
      rw [zpow_sub₀ (by norm_num), zpow_one] at hc'
      have a : 1 / 2 * (2 : ℚ) ^ f.I ≤ (r : ℚ) / 2 ^ f.W * 2 ^ f.I := by linarith
      simp only [false_and, if_false]
      rw [hv]
      refine ⟨le_of_mul_le_mul_right a q, ?_, 0, by simp, by simp⟩
      rw [div_lt_one hW0]; exact_mod_cast hrW
    · simp only [hS, if_true] at hc' ⊢
      rw [zpow_sub₀ (by norm_num), show (2 : ℚ) ^ (2 : ℤ) = 4 by norm_num] at hc'
      have a : 1 / 4 * (2 : ℚ) ^ f.I ≤ (r : ℚ) / 2 ^ f.W * 2 ^ f.I := by linarith
      have a := le_of_mul_le_mul_right a q
      rcases lt_or_eq_of_le (h2 hS) with hlt | heq
      · have d0 : r / 2 ^ (f.W - 1) = 0 := Int.ediv_eq_zero_of_lt h0.le hlt
        have d1 : r % 2 ^ (f.W - 1) = r := Int.emod_eq_of_lt h0.le hlt
        rw [if_pos (by rw [d0]; simp), d1, hv]
        refine ⟨?_, ?_, 1, by simp, by simp⟩
        · push_cast; rw [mul_div_right_comm]; linarith
        · rw [div_lt_one hW0]
          have : r * 2 < 2 ^ f.W := by omega
          exact_mod_cast this
      · have d0 : r / 2 ^ (f.W - 1) = 1 := by rw [heq]; exact Int.ediv_self hK.ne'
        rw [if_neg (by rw [d0]; simp), hv]
        refine ⟨?_, ?_, 0, by simp, by simp⟩
        · rw [heq, hpq]; push_cast
          have : (2 : ℚ) ^ (f.W - 1) ≠ 0 := by positivity
          field_simp; norm_num
        · rw [div_lt_one hW0]; exact_mod_cast hrW
  · simp only [if_true]
    obtain ⟨a1, a2, a3, a4⟩ := normalize_pos (f := uns f) hW rfl h0 h1
    obtain ⟨ls, b1, b2⟩ := normalize_shift (f := uns f) hW rfl h0 h1
    exact ⟨a2, a3, ls, b1, b2⟩

theorem abs_raw {f : Fmt} (hW : 1 ≤ f.W) {x : ℚ} (hx : f.Rep x) (h : x ≠ 0) :
    ∃ r : ℤ, |x| = (uns f).val r ∧ 0 < r ∧ r ≤ maxRaw f.W false ∧ (f.S = true → r ≤ 2 ^ (f.W - 1)) := by
  obtain ⟨r, r0, r1, rfl⟩ := hx
  have hz := Fmt.z_pos (-f.F)
  have hK : (0 : ℤ) < 2 ^ (f.W - 1) := by positivity
  have hp : (2 : ℤ) ^ f.W = 2 * 2 ^ (f.W - 1) := two_pow_succ_pred hW
  have hr : r ≠ 0 := by rintro rfl; exact h (by simp [Fmt.val])
  refine ⟨|r|, ?_, abs_pos.2 hr, ?_, ?_⟩
  · have e : (uns f).val |r| = f.val |r| := rfl
    rw [e]; unfold Fmt.val; rw [abs_mul, abs_of_pos hz]; push_cast; rfl
  · cases hS : f.S <;> simp [minRaw, maxRaw, hS] at r0 r1 ⊢ <;> rcases abs_cases r with ⟨a, b⟩ | ⟨a, b⟩ <;> omega
  · intro hS
    simp [minRaw, maxRaw, hS] at r0 r1
    rcases abs_cases r with ⟨a, b⟩ | ⟨a, b⟩ <;> omega

/-- Normalization of a nonzero input, and the grid of its scaled value. -/
theorem norm_facts {cn : Bool} {f : Fmt} (hW : 1 ≤ f.W) {x : ℚ} (hx : f.Rep x) (h : x ≠ 0) (hc : Norm cn f x) (j : ℕ) :
    |x| = (recNorm cn f |x|).1 * 2 ^ (recNorm cn f |x|).2 ∧ 1 / 2 ≤ (recNorm cn f |x|).1 ∧ (recNorm cn f |x|).1 < 1 ∧
    ∃ z : ℤ, ((recNorm cn f |x|).1 - 1 / 2) * 2 ^ (j + 1) =
      z / 2 ^ (max 0 ((f.W : ℤ) - (j + 1) - (if f.S then 1 else 0))).toNat := by
  obtain ⟨r, he, r0, r1, r2⟩ := abs_raw hW hx h
  have hc' : Norm cn f ((uns f).val r) := by
    unfold Norm at hc ⊢; rw [← he, abs_abs]; exact hc
  rw [he]
  obtain ⟨a2, a3, ls, b1, b2⟩ := recNorm_shift hW r0 r1 r2 hc'
  refine ⟨?_, a2, a3, ?_⟩
  · rw [b1, b2]
    unfold Fmt.val Fmt.F uns
    push_cast
    rw [show -((f.W : ℤ) - f.I) = f.I - ls + ls - f.W by ring, zpow_sub₀ (by norm_num), zpow_add₀ (by norm_num), zpow_natCast,
      zpow_natCast]
    ring
  rw [b1] at a2 ⊢
  cases hS : f.S
  · obtain ⟨z, hz⟩ := scaled_grid (W := f.W) (j := j) (k := r * 2 ^ ls)
    refine ⟨z, ?_⟩
    rw [hz]; simp
  · rcases Nat.eq_zero_or_pos ls with h0 | h0
    · rw [h0, pow_zero, mul_one] at a2 ⊢
      have hp : (2 : ℚ) ^ f.W = 2 * 2 ^ (f.W - 1) := by exact_mod_cast two_pow_succ_pred hW
      have : r = 2 ^ (f.W - 1) := by
        apply le_antisymm (r2 hS)
        have : ((2 ^ (f.W - 1) : ℤ) : ℚ) ≤ r := by
          rw [le_div_iff₀ (by positivity), hp] at a2
          push_cast; linarith
        exact_mod_cast this
      refine ⟨0, ?_⟩
      rw [this, hp]
      push_cast
      have : (2 : ℚ) ^ (f.W - 1) ≠ 0 := by positivity
      field_simp
      norm_num
    · obtain ⟨z, hz⟩ := scaled_grid (W := f.W - 1) (j := j) (k := r * 2 ^ (ls - 1))
      refine ⟨z, ?_⟩
      have hp : (2 : ℚ) ^ f.W = 2 ^ (f.W - 1) * 2 := by rw [← pow_succ, Nat.sub_add_cancel hW]
      have hl : (2 : ℚ) ^ ls = 2 ^ (ls - 1) * 2 := by rw [← pow_succ, Nat.sub_add_cancel h0]
      have e : ((r * 2 ^ ls : ℤ) : ℚ) / 2 ^ f.W = ((r * 2 ^ (ls - 1) : ℤ) : ℚ) / 2 ^ (f.W - 1) := by
        push_cast
        rw [hp, hl]; field_simp
      rw [e]
      rw [Nat.cast_sub hW] at hz
      rw [show (f.W : ℤ) - (j + 1) - (if true = true then 1 else 0) = (f.W : ℤ) - (1 : ℕ) - (j + 1) by simp; ring, ← hz]

/-- The magnitude of the result before it is converted to the output type. -/
def core (m c : List ℤ) (p ib : ℕ) (cn : Bool) (f : Fmt) (u : ℚ) : ℚ :=
  g m c p ib (recNorm cn f u).1 * 2 ^ (-(recNorm cn f u).2)

theorem core_pos (G : Good m c p ib E lo hi) {cn : Bool} {f : Fmt} (hW : 1 ≤ f.W) {x : ℚ} (hx : f.Rep x) (h : x ≠ 0)
    (hc : Norm cn f x) :
    |core m c p ib cn f |x| * |x| - 1| ≤ (E + 2) / 2 ^ (p + ib + 1) ∧ 0 < core m c p ib cn f |x| := by
  obtain ⟨a1, a2, a3, -⟩ := norm_facts hW hx h hc 0
  unfold core
  set n := (recNorm cn f |x|).1
  set e := (recNorm cn f |x|).2
  obtain ⟨b1, b2, b3⟩ := g_bounds G a2 a3
  have hl : (0 : ℚ) < lo / 2 ^ p := div_pos (by exact_mod_cast G.lo0) (by positivity)
  refine ⟨?_, mul_pos (by linarith) (Fmt.z_pos _)⟩
  have : g m c p ib n * 2 ^ (-e) * |x| = g m c p ib n * n := by
    rw [a1, zpow_neg]
    have := (Fmt.z_pos e).ne'
    field_simp
  rw [this]; exact b1

theorem core_anti (G : Good m c p ib E lo hi) {cn : Bool} {f : Fmt} (hW : 1 ≤ f.W) {x x' : ℚ} (hx : f.Rep x)
    (hx' : f.Rep x') (h : x ≠ 0) (h' : x' ≠ 0) (hc : Norm cn f x) (hc' : Norm cn f x') (hle : |x| ≤ |x'|) :
    core m c p ib cn f |x'| ≤ core m c p ib cn f |x| := by
  obtain ⟨a1, a2, a3, -⟩ := norm_facts hW hx h hc 0
  obtain ⟨b1, b2, b3, -⟩ := norm_facts hW hx' h' hc' 0
  unfold core
  set n := (recNorm cn f |x|).1
  set e := (recNorm cn f |x|).2
  set n' := (recNorm cn f |x'|).1
  set e' := (recNorm cn f |x'|).2
  rw [a1, b1] at hle
  have he := exp_le_of_le a2 b3 hle
  rcases eq_or_lt_of_le he with h1 | h1
  · rw [h1] at hle ⊢
    have : n ≤ n' := le_of_mul_le_mul_right hle (Fmt.z_pos e')
    exact mul_le_mul_of_nonneg_right (g_anti G a2 this b3) (Fmt.z_pos _).le
  · obtain ⟨-, c1, -⟩ := g_bounds G a2 a3
    obtain ⟨-, -, c2⟩ := g_bounds G b2 b3
    have pz := Fmt.z_le (show -e' + 1 ≤ -e by omega)
    rw [zpow_add₀ (by norm_num)] at pz
    have q := Fmt.z_pos (-e')
    have q' := Fmt.z_pos (-e)
    rw [zpow_one] at pz
    have hl : (0 : ℚ) < lo := by exact_mod_cast G.lo0
    have hh : (hi : ℚ) ≤ 2 * lo := by exact_mod_cast G.hilo
    have d1 := mul_le_mul_of_nonneg_right c2 q.le
    have d2 := mul_le_mul_of_nonneg_right c1 q'.le
    refine le_trans d1 (le_trans ?_ d2)
    rw [div_mul_eq_mul_div, div_mul_eq_mul_div]
    apply div_le_div_of_nonneg_right _ (by positivity)
    have e1 := mul_le_mul_of_nonneg_right hh q.le
    have e2 := mul_le_mul_of_nonneg_left pz hl.le
    linarith

theorem recip_eq (G : Good m c p ib E lo hi) (hp1 : 1 ≤ p) {cn : Bool} (q : QMode) {f out : Fmt} (hW : 1 ≤ f.W)
    (ho : 1 ≤ out.W) {x : ℚ} (hx : f.Rep x) (h : x ≠ 0) (hc : Norm cn f x) :
    recip m c p ib cn q f out x =
      some (out.cvt (if out.S ∧ x < 0 then -core m c p ib cn f |x| else core m c p ib cn f |x|)) := by
  obtain ⟨a1, a2, a3, z, hz⟩ := norm_facts hW hx h hc ib
  have hneg : (f.S = true ∧ out.S = true ∧ x < 0) ↔ (out.S = true ∧ x < 0) := by
    constructor
    · exact fun h => h.2
    · intro h2
      refine ⟨?_, h2⟩
      obtain ⟨r, h0, h1, rfl⟩ := hx
      cases hS : f.S
      · simp only [minRaw, hS, Bool.false_eq_true, if_false] at h0
        have : 0 ≤ f.val r := by unfold Fmt.val; exact mul_nonneg (by exact_mod_cast h0) (Fmt.z_pos _).le
        linarith [h2.2]
      · rfl
  unfold recip
  simp only [magnitude_eq hW hx]
  unfold core
  set n := (recNorm cn f |x|).1
  set e := (recNorm cn f |x|).2
  set s := scBits p (f.W - (ib + 1) - (if f.S then 1 else 0)) with hs
  obtain ⟨v0, v1⟩ := scaled_range (ib := ib) a2 a3
  rw [segVal_eq (m := m) (c := c) (ib := ib) G.lm G.lc p s v0 v1]
  simp only [Option.bind_eq_bind, Option.bind_some, h, ne_eq, not_false_eq_true, if_true, hneg]
  obtain ⟨k, hk, ht, -, -⟩ := cell (N := s) (ib := ib) v0 v1
  obtain ⟨b1, b2⟩ := segRaw_bounds (m := m) (c := c) (n := s) (k := k) (N := 2 ^ ib) hk G.bd
  have hg : pw (tab m p) (tab c p) (trunc s ((n - 1 / 2) * 2 ^ (ib + 1))) = g m c p ib n := by
    unfold g; rw [hs, trunc_scBits hp1 hz]
  have hy : g m c p ib n = segRaw m c s k / 2 ^ (p + s) := by rw [← hg, ht, pw_tab]
  rw [hg]
  set K := segRaw m c s k
  have hP : (0 : ℤ) < 2 ^ s := by positivity
  have hK0 : 0 ≤ K := le_trans (mul_nonneg G.lo0.le hP.le) b1
  have hK1 : K < 2 ^ (s + p + 1) := by
    have := mul_lt_mul_of_pos_right G.hi2 hP
    rw [show s + p + 1 = p + 1 + s by ring, pow_add 2 (p + 1) s]
    linarith
  cases hS : out.S
  · set o : Fmt := ⟨s + p + 1 + (if false = true then 1 else 0), 1 + ((if false = true then 1 else 0 : ℕ) : ℤ), false, q, .WRAP⟩ with hod
    have hF : o.F = (p + s : ℕ) := by simp [hod, Fmt.F]; ring
    have lo : minRaw o.W o.S ≤ K := by simp [hod, minRaw]; linarith
    have hi : K ≤ maxRaw o.W o.S := by
      simp only [hod, maxRaw, Bool.false_eq_true, if_false, Nat.add_zero]
      omega
    obtain ⟨w1, w2, w3⟩ := cvt_word (f := o) (by simp [hod]) hF rfl lo hi
    simp only [Bool.false_eq_true, false_and, if_false]
    rw [hy, w1, w2, Proof.Shift.rightUS_eq (fx := o) (fo := out) (by simp [hod]) ho rfl hS ⟨lo, hi⟩, w3]
  · set o : Fmt := ⟨s + p + 1 + (if true = true then 1 else 0), 1 + ((if true = true then 1 else 0 : ℕ) : ℤ), true, q, .WRAP⟩ with hod
    have hF : o.F = (p + s : ℕ) := by simp [hod, Fmt.F]; ring
    have hw : o.W - 1 = s + p + 1 := by simp [hod]
    have hQ : (0 : ℤ) < 2 ^ (s + p + 1) := by positivity
    have lo : minRaw o.W o.S ≤ K := by
      simp only [minRaw, hw]; simp only [hod, if_true]; linarith
    have hi : K ≤ maxRaw o.W o.S := by
      simp only [maxRaw, hw]; simp only [hod, if_true]; omega
    have lo' : minRaw o.W o.S ≤ -K := by
      simp only [minRaw, hw]; simp only [hod, if_true]; linarith
    have hi' : -K ≤ maxRaw o.W o.S := by
      simp only [maxRaw, hw]; simp only [hod, if_true]; omega
    obtain ⟨w1, w2, w3⟩ := cvt_word (f := o) (by simp [hod]) hF rfl lo hi
    obtain ⟨u1, u2, u3⟩ := cvt_word (f := o) (by simp [hod]) hF rfl lo' hi'
    have hn : -((K : ℚ) / 2 ^ (p + s)) = ((-K : ℤ) : ℚ) / 2 ^ (p + s) := by push_cast; ring
    simp only [true_and, if_true]
    by_cases hx0 : x < 0
    · simp only [hx0, if_true]
      rw [hy, w1, hn, u1, u2, Proof.Shift.rightSS_eq (fx := o) (fo := out) (by simp [hod]) ho rfl hS ⟨lo', hi'⟩, u3]
      congr 2
      push_cast; ring
    · simp only [hx0, if_false]
      rw [hy, w1, w2, Proof.Shift.rightSS_eq (fx := o) (fo := out) (by simp [hod]) ho rfl hS ⟨lo, hi⟩, w3]

theorem recip_isSome (hm : m.length = 2 ^ ib) (hc : c.length = 2 ^ ib) (cn : Bool) (q : QMode) (f out : Fmt) (x : ℚ) :
    ∃ y, recip m c p ib cn q f out x = some y ∧ (x = 0 → y = out.maxVal) := by
  unfold recip
  simp only []
  obtain ⟨y, hy⟩ := segVal_isSome (m := m) (c := c) (ib := ib) hm hc p (scBits p (f.W - (ib + 1) - (if f.S then 1 else 0)))
    (((recNorm cn f (magnitude f x)).1 - 1 / 2) * 2 ^ (ib + 1))
  rw [hy]
  by_cases hx : x = 0
  · subst hx; exact ⟨out.maxVal, by simp, fun _ => rfl⟩
  · simp only [Option.bind_eq_bind, Option.bind_some, ne_eq, hx, not_false_eq_true, if_true]
    exact ⟨_, rfl, fun h => h.elim⟩

/-- Error, order and sign, for any table. -/
theorem recip_spec (G : Good m c p ib E lo hi) (hp1 : 1 ≤ p) {cn : Bool} (q : QMode) {f out : Fmt} (hW : 1 ≤ f.W)
    (ho : 1 ≤ out.W) {ε : ℚ} (hε : (E + 2) / 2 ^ (p + ib + 1) ≤ ε) {x x' : ℚ} (hx : f.Rep x) (hx' : f.Rep x')
    (h : x ≠ 0) (h' : x' ≠ 0) (hc : Norm cn f x) (hc' : Norm cn f x') :
    ∃ r r' : ℚ, recip m c p ib cn q f out x = some (out.cvt r) ∧ recip m c p ib cn q f out x' = some (out.cvt r') ∧
    (out.S = true → |r * x - 1| ≤ ε ∧ |r' * x' - 1| ≤ ε) ∧
    (out.S = false → |r * |x| - 1| ≤ ε ∧ |r' * |x'| - 1| ≤ ε) ∧
    (0 < x → x ≤ x' → r' ≤ r) ∧ (x' = -x → out.S = true → r' = -r) ∧ (0 < x → 0 < r) := by
  refine ⟨_, _, recip_eq G hp1 q hW ho hx h hc, recip_eq G hp1 q hW ho hx' h' hc', ?_, ?_, ?_, ?_, ?_⟩
  · intro hS
    have key : ∀ y : ℚ, f.Rep y → y ≠ 0 → Norm cn f y → |(if out.S = true ∧ y < 0 then -core m c p ib cn f |y| else
        core m c p ib cn f |y|) * y - 1| ≤ ε := by
      intro y hy h0 hn
      obtain ⟨c1, -⟩ := core_pos G hW hy h0 hn
      refine le_trans ?_ hε
      by_cases hn : y < 0
      · rw [if_pos ⟨hS, hn⟩]
        rw [abs_of_neg hn] at c1 ⊢
        rwa [mul_neg, ← neg_mul] at c1
      · rw [if_neg (fun c => hn c.2)]
        rw [abs_of_nonneg (not_lt.1 hn)] at c1 ⊢
        exact c1
    exact ⟨key x hx h hc, key x' hx' h' hc'⟩
  · intro hS
    simp only [hS, Bool.false_eq_true, false_and, if_false]
    exact ⟨le_trans (core_pos G hW hx h hc).1 hε, le_trans (core_pos G hW hx' h' hc').1 hε⟩
  · intro h0 hle
    rw [if_neg (fun c => absurd c.2 (by linarith)), if_neg (fun c => absurd c.2 (by linarith))]
    exact core_anti G hW hx hx' h h' hc hc' (by rw [abs_of_pos h0, abs_of_pos (by linarith)]; exact hle)
  · rintro rfl hS
    rw [abs_neg]
    rcases lt_or_gt_of_ne h with h1 | h1
    · rw [if_neg (fun c => absurd c.2 (by linarith)), if_pos ⟨hS, h1⟩, neg_neg]
    · rw [if_pos ⟨hS, by linarith⟩, if_neg (fun c => absurd c.2 (by linarith))]
  · intro h0
    rw [if_neg (fun c => absurd c.2 (by linarith))]
    exact (core_pos G hW hx h hc).2

/-- The output itself, for any table. -/
theorem recip_output (G : Good m c p ib E lo hi) (hp1 : 1 ≤ p) {cn : Bool} (q : QMode) {f out : Fmt} (hW : 1 ≤ f.W)
    (ho : 1 ≤ out.W) {ε : ℚ} (hε : (E + 2) / 2 ^ (p + ib + 1) ≤ ε) {x : ℚ} (hx : f.Rep x) (h : 0 < x)
    (hc : Norm cn f x) (hr : (1 + ε) / x ≤ out.maxVal) :
    ∃ y, recip m c p ib cn q f out x = some y ∧ |y - 1 / x| < ε / x + 2 ^ (-out.F) := by
  refine ⟨_, recip_eq G hp1 q hW ho hx h.ne' hc, ?_⟩
  obtain ⟨c1, c2⟩ := core_pos G hW hx h.ne' hc
  replace c1 := le_trans c1 hε
  rw [if_neg (fun c => absurd c.2 (by linarith))]
  rw [abs_of_pos h] at c1 c2 ⊢
  set r := core m c p ib cn f x
  obtain ⟨d1, d2⟩ := abs_le.1 c1
  have hrm : r ≤ (1 + ε) / x := by rw [le_div_iff₀ h]; linarith
  have hz := Fmt.z_pos out.F
  have hmax : r * 2 ^ out.F ≤ maxRaw out.W out.S := by
    have := mul_le_mul_of_nonneg_right (le_trans hrm hr) hz.le
    unfold Fmt.maxVal at this
    rwa [Fmt.val_mul_pow] at this
  have hlo : ((loRaw out.W out.S out.O : ℤ) : ℚ) ≤ r * 2 ^ out.F := by
    have : ((loRaw out.W out.S out.O : ℤ) : ℚ) ≤ 0 := by exact_mod_cast loRaw_nonpos _ _ _
    have : 0 ≤ r * 2 ^ out.F := by positivity
    linarith
  have e1 := Fmt.cvt_err ho hlo hmax
  have e2 : |r - 1 / x| ≤ ε / x := by
    have : r - 1 / x = (r * x - 1) / x := by field_simp
    rw [this, abs_div, abs_of_pos h]
    exact div_le_div_of_nonneg_right c1 h.le
  calc |out.cvt r - 1 / x| = |(out.cvt r - r) + (r - 1 / x)| := by ring_nf
    _ ≤ |out.cvt r - r| + |r - 1 / x| := abs_add_le _ _
    _ < _ := by
      have : |out.cvt r - r| < 2 ^ (-out.F) := by simpa using e1
      linarith

/-- Order of a saturating output, for any table. -/
theorem recip_mono (G : Good m c p ib E lo hi) (hp1 : 1 ≤ p) {cn : Bool} (q : QMode) {f out : Fmt} (hW : 1 ≤ f.W)
    (ho : 1 ≤ out.W) (hO : out.O = .SAT ∨ out.O = .SAT_SYM) {x x' : ℚ} (hx : f.Rep x) (hx' : f.Rep x') (h0 : 0 ≤ x)
    (h : x ≤ x') (hc : x = 0 ∨ Norm cn f x) (hc' : x' = 0 ∨ Norm cn f x') :
    ∃ y y', recip m c p ib cn q f out x = some y ∧ recip m c p ib cn q f out x' = some y' ∧ y' ≤ y := by
  obtain ⟨z, ez, hz⟩ := recip_isSome (m := m) (c := c) (p := p) G.lm G.lc cn q f out 0
  rw [hz rfl] at ez
  rcases eq_or_lt_of_le h0 with h1 | h1
  · subst h1
    rcases eq_or_lt_of_le h with h2 | h2
    · subst h2
      exact ⟨_, _, ez, ez, le_rfl⟩
    · refine ⟨_, _, ez, recip_eq G hp1 q hW ho hx' h2.ne' (hc'.resolve_left h2.ne'), ?_⟩
      unfold Fmt.maxVal Fmt.cvt
      rw [Fmt.val_le]
      exact (ovf_range ho _ _).2
  · have h2 : x' ≠ 0 := by linarith
    obtain ⟨r, r', e, e', -, -, hm, -⟩ := recip_spec G hp1 q hW ho le_rfl hx hx' h1.ne' h2 (hc.resolve_left h1.ne')
      (hc'.resolve_left h2)
    exact ⟨_, _, e, e', Fmt.cvt_mono hO (hm h1 h)⟩

theorem goodHa : Good haM haC 16 5 504 65534 131057 where
  lm := by decide +kernel
  lc := by decide +kernel
  neg := by decide +kernel
  step := by decide +kernel
  bd := by decide +kernel
  lo0 := by decide
  hilo := by decide
  hi2 := by decide
  dn := by decide +kernel
  up := by decide +kernel

theorem goodVha : Good vhaM vhaC 16 6 272 65536 131068 where
  lm := by decide +kernel
  lc := by decide +kernel
  neg := by decide +kernel
  step := by decide +kernel
  bd := by decide +kernel
  lo0 := by decide
  hilo := by decide
  hi2 := by decide
  dn := by decide +kernel
  up := by decide +kernel

end Proof.PwlHa
