import Verif.Proof.SqrtPwl
import Verif.Proof.PwlHa

/-! # Lemmas for C42 -/

namespace Proof.IsqrtVha
open Ac Model.Pwl Model.PwlFixed Model.PwlHa Model.Normalize Proof.Pwl Proof.PwlFixed Proof.Shift
open Proof.SqrtPwl (half_exp scBits_pos tmod_two)

/-- The value for the normalized input `n`. -/
def g (n : ℚ) : ℚ := pw (tab isqM 16) (tab isqC 16) (trunc 16 ((n - 1 / 2) * 64))

theorem g_anti {a b : ℚ} (h0 : 1 / 2 ≤ a) (h : a ≤ b) (h1 : b < 1) : g b ≤ g a := by
  refine Proof.Reciprocal.pw_anti (n := 32) (by decide +kernel) ?_ (trunc_nonneg _ (by linarith)) (trunc_mono _ (by linarith)) ?_
  · intro i hi
    have : ∀ i < 31, tab isqC 16 (i + 1) ≤ tab isqC 16 i + tab isqM 16 i := by decide +kernel
    exact this i (by omega)
  · have := trunc_le 16 ((b - 1 / 2) * 64)
    norm_num; linarith

/-- What is checked of the table: the square of the segment times its argument is a cubic that lies above its chord and
below its tangent in the middle, and both are within 25918273 of `2^38`. -/
theorem table : ∀ i < 32, isqM.getD i 0 < 0 ∧ 0 ≤ isqM.getD i 0 * (34 + i : ℕ) + 2 * isqC.getD i 0 ∧
    0 ≤ 2 * (2 * isqC.getD i 0 + isqM.getD i 0) + isqM.getD i 0 * (2 * (32 + i) + 1 : ℕ) + isqM.getD i 0 ∧
    2 ^ 38 - 25918273 ≤ isqC.getD i 0 ^ 2 * (32 + i : ℕ) ∧
    2 ^ 38 - 25918273 ≤ (isqC.getD i 0 + isqM.getD i 0) ^ 2 * (33 + i : ℕ) ∧
    (2 * isqC.getD i 0 + isqM.getD i 0) ^ 2 * (2 * (32 + i) + 1 : ℕ) + |(2 * isqC.getD i 0 + isqM.getD i 0) *
      (2 * isqC.getD i 0 + isqM.getD i 0 + 2 * isqM.getD i 0 * (2 * (32 + i) + 1 : ℕ))| ≤ 8 * (2 ^ 38 + 25918273) := by
  decide +kernel

theorem seg_sq {m c a B D : ℚ} (hm : m < 0) (k1 : 0 ≤ m * (a + 2) + 2 * c)
    (k2 : 0 ≤ 2 * (2 * c + m) + m * (2 * a + 1) + m) (hl1 : B ≤ c ^ 2 * a) (hl2 : B ≤ (c + m) ^ 2 * (a + 1))
    (hu : (2 * c + m) ^ 2 * (2 * a + 1) + |(2 * c + m) * (2 * c + m + 2 * m * (2 * a + 1))| ≤ 8 * D) {t : ℚ} (t0 : 0 ≤ t)
    (t1 : t ≤ 1) : B ≤ (m * t + c) ^ 2 * (a + t) ∧ (m * t + c) ^ 2 * (a + t) ≤ D := by
  constructor
  · have e : (m * t + c) ^ 2 * (a + t) = (1 - t) * (c ^ 2 * a) + t * ((c + m) ^ 2 * (a + 1)) +
        t * (1 - t) * ((-m) * (m * (a + 2) + 2 * c + m * (t - 1))) := by ring
    have h1 := mul_le_mul_of_nonneg_left hl1 (by linarith : 0 ≤ 1 - t)
    have h2 := mul_le_mul_of_nonneg_left hl2 t0
    have h4 : 0 ≤ m * (t - 1) := mul_nonneg_of_nonpos_of_nonpos hm.le (by linarith)
    have h3 : 0 ≤ t * (1 - t) * ((-m) * (m * (a + 2) + 2 * c + m * (t - 1))) :=
      mul_nonneg (mul_nonneg t0 (by linarith)) (mul_nonneg (by linarith) (by linarith))
    rw [e]; linarith
  · have e : 8 * ((m * t + c) ^ 2 * (a + t)) = (2 * c + m) ^ 2 * (2 * a + 1) +
        (2 * c + m) * (2 * c + m + 2 * m * (2 * a + 1)) * (2 * t - 1) +
        (2 * t - 1) ^ 2 * (m * (2 * (2 * c + m) + m * (2 * a + 1) + m + 2 * m * (t - 1))) := by ring
    have h1 : (2 * c + m) * (2 * c + m + 2 * m * (2 * a + 1)) * (2 * t - 1) ≤
        |(2 * c + m) * (2 * c + m + 2 * m * (2 * a + 1))| := by
      refine le_trans (le_abs_self _) ?_
      rw [abs_mul]
      have : |2 * t - 1| ≤ 1 := by rw [abs_le]; constructor <;> linarith
      have := mul_le_mul_of_nonneg_left this (abs_nonneg ((2 * c + m) * (2 * c + m + 2 * m * (2 * a + 1))))
      linarith
    have h4 : 0 ≤ m * (t - 1) := mul_nonneg_of_nonpos_of_nonpos hm.le (by linarith)
    have h2 : (2 * t - 1) ^ 2 * (m * (2 * (2 * c + m) + m * (2 * a + 1) + m + 2 * m * (t - 1))) ≤ 0 :=
      mul_nonpos_of_nonneg_of_nonpos (sq_nonneg _) (mul_nonpos_of_nonpos_of_nonneg hm.le (by linarith))
    linarith

theorem g_cell {n : ℚ} (h0 : 1 / 2 ≤ n) (h1 : n < 1) : ∃ k : ℕ, k < 2 ^ 5 * 2 ^ 16 ∧ g n = segRaw isqM isqC 16 k / 2 ^ 32 ∧
    (1 - 1 / 10600) ≤ g n ^ 2 * n ∧ g n ^ 2 * n ≤ 1 + 1 / 10552 ∧ 65535 / 65536 ≤ g n ∧ g n ≤ 92678 / 65536 := by
  obtain ⟨k, hk, ht, l1, l2⟩ := cell (N := 16) (ib := 5) (v := (n - 1 / 2) * 64) (by linarith) (by linarith)
  obtain ⟨b1, b2⟩ := segRaw_bounds (m := isqM) (c := isqC) (n := 16) (k := k) (N := 32) (lo := 65535) (hi := 92678)
    (by norm_num at hk ⊢; exact hk) (by decide +kernel)
  have hg : g n = segRaw isqM isqC 16 k / 2 ^ 32 := by unfold g; rw [ht, pw_tab]
  have g1 : 65535 / 65536 ≤ g n := by
    rw [hg, le_div_iff₀ (by norm_num)]
    have : ((65535 * 2 ^ 16 : ℤ) : ℚ) ≤ (segRaw isqM isqC 16 k : ℚ) := by exact_mod_cast b1
    norm_num at this ⊢; linarith
  have g2 : g n ≤ 92678 / 65536 := by
    rw [hg, div_le_iff₀ (by norm_num)]
    have : (segRaw isqM isqC 16 k : ℚ) ≤ ((92678 * 2 ^ 16 : ℤ) : ℚ) := by exact_mod_cast b2
    norm_num at this ⊢; linarith
  have hi' : k / 2 ^ 16 < 32 := Nat.div_lt_of_lt_mul (by norm_num at hk ⊢; omega)
  obtain ⟨t1, t2, t3, t4, t5, t6⟩ := table _ hi'
  have hS : (segRaw isqM isqC 16 k : ℚ) = (isqM.getD (k / 2 ^ 16) 0 : ℤ) * (k % 2 ^ 16 : ℕ) + (isqC.getD (k / 2 ^ 16) 0 : ℤ) * 2 ^ 16 := by
    unfold segRaw
    rw [Int.cast_add, Int.cast_mul, Int.cast_mul, Int.cast_pow, Int.cast_natCast]; norm_num
  have hkr : ((2 ^ 16 * (k / 2 ^ 16) + k % 2 ^ 16 : ℕ) : ℚ) = k := by exact_mod_cast congrArg (Nat.cast (R := ℚ)) (Nat.div_add_mod k (2 ^ 16))
  have hr : k % 2 ^ 16 < 2 ^ 16 := Nat.mod_lt _ (by positivity)
  generalize k / 2 ^ 16 = i at *
  generalize k % 2 ^ 16 = r at *
  generalize isqM.getD i 0 = M at *
  generalize isqC.getD i 0 = C at *
  have q1 : (M : ℚ) < 0 := by exact_mod_cast t1
  have q2 : (0 : ℚ) ≤ M * ((32 + i : ℚ) + 2) + 2 * C := by
    have : (0 : ℚ) ≤ M * (34 + i : ℕ) + 2 * C := by exact_mod_cast t2
    push_cast at this; linarith
  have q3 : (0 : ℚ) ≤ 2 * (2 * C + M) + M * (2 * (32 + i : ℚ) + 1) + M := by exact_mod_cast t3
  have q4 : (2 ^ 38 - 25918273 : ℚ) ≤ C ^ 2 * (32 + i : ℚ) := by exact_mod_cast t4
  have q5 : (2 ^ 38 - 25918273 : ℚ) ≤ (C + M) ^ 2 * ((32 + i : ℚ) + 1) := by
    have : (2 ^ 38 - 25918273 : ℚ) ≤ (C + M) ^ 2 * (33 + i : ℕ) := by exact_mod_cast t5
    push_cast at this
    rw [show ((32 : ℚ) + i + 1) = 33 + i by ring]; exact this
  have q6 : (2 * C + M : ℚ) ^ 2 * (2 * (32 + i : ℚ) + 1) + |(2 * C + M : ℚ) * (2 * C + M + 2 * M * (2 * (32 + i : ℚ) + 1))| ≤
      8 * (2 ^ 38 + 25918273 : ℚ) := by exact_mod_cast t6
  have u0 : (0 : ℚ) ≤ (r : ℚ) / 2 ^ 16 := by positivity
  have u1 : (r : ℚ) / 2 ^ 16 ≤ 1 := by rw [div_le_one (by positivity)]; exact_mod_cast hr.le
  obtain ⟨s1, s2⟩ := seg_sq q1 q2 q3 q4 q5 q6 u0 u1
  have hy : (M : ℚ) * (r / 2 ^ 16) + C = g n * 2 ^ 16 := by
    rw [hg, hS]; ring
  rw [hy] at s1 s2
  push_cast at hkr
  have w1 : (32 + i : ℚ) + r / 2 ^ 16 ≤ n * 64 := by norm_num at l1 hkr ⊢; linarith
  have w2 : n * 64 ≤ (32 + i : ℚ) + r / 2 ^ 16 + 1 / 2 ^ 16 := by norm_num at l2 hkr ⊢; linarith
  refine ⟨k, hk, hg, ?_, ?_, g1, g2⟩
  · have := mul_le_mul_of_nonneg_left w1 (sq_nonneg (g n * 2 ^ 16))
    have e : (g n * 2 ^ 16) ^ 2 * (n * 64) = g n ^ 2 * n * 2 ^ 38 := by ring
    rw [e] at this
    norm_num at this s1 ⊢; linarith
  · have := mul_le_mul_of_nonneg_left w2 (sq_nonneg (g n * 2 ^ 16))
    have e : (g n * 2 ^ 16) ^ 2 * (n * 64) = g n ^ 2 * n * 2 ^ 38 := by ring
    have h3 : (g n * 2 ^ 16) ^ 2 ≤ 92678 ^ 2 := pow_le_pow_left₀ (by linarith) (by linarith) 2
    rw [e, mul_add] at this
    norm_num at this s2 h3 ⊢; linarith

theorem g_err {n : ℚ} (h0 : 1 / 2 ≤ n) (h1 : n < 1) : |g n ^ 2 * n - 1| ≤ 1 / 10000 ∧
    ∀ h : ℚ, |h - g n * invroot2| ≤ 1 / 2 ^ 32 → |h ^ 2 * (2 * n) - 1| ≤ 1 / 10000 := by
  obtain ⟨k, hk, hg, l1, l2, g1, g2⟩ := g_cell h0 h1
  constructor
  · rw [abs_le]; constructor <;> linarith
  · intro h hh
    clear hg
    generalize g n = G at *
    have e : h ^ 2 * (2 * n) = G ^ 2 * n * (2 * invroot2 ^ 2) + 2 * n * ((h - G * invroot2) * (h + G * invroot2)) := by ring
    have b1 : |2 * n * ((h - G * invroot2) * (h + G * invroot2))| ≤ 1 / 2 ^ 29 := by
      rw [abs_mul (2 * n), abs_mul (h - _)]
      obtain ⟨h1, h2⟩ := abs_le.1 hh
      unfold invroot2 at h1 h2
      norm_num at h1 h2
      have k1 : |2 * n| ≤ 2 := by rw [abs_le]; constructor <;> linarith
      have k2 : |h + G * invroot2| ≤ 4 := by
        unfold invroot2
        rw [abs_le]; constructor <;> linarith
      have k3 : |h - G * invroot2| * |h + G * invroot2| ≤ 1 / 2 ^ 32 * 4 :=
        mul_le_mul hh k2 (abs_nonneg _) (by norm_num)
      have := mul_le_mul k1 k3 (by positivity) (by norm_num)
      refine le_trans this (by norm_num)
    have b2 := abs_le.1 b1
    rw [e]
    unfold invroot2 at b2 ⊢
    norm_num at b2 ⊢
    rw [abs_le]
    constructor <;> linarith

/-- The type of `normalized_output_temp`. -/
def tfmt (q : QMode) : Fmt := ⟨32, 0, false, q, .WRAP⟩

/-- The word that is shifted by half the exponent. -/
def m1 (q : QMode) (n : ℚ) (e : ℤ) : ℚ := if e % 2 = 0 then g n else (tfmt q).cvt (g n * invroot2)

theorem fit {q : QMode} {x : ℚ} (h : x ≤ 99999 / 100000) : x * 2 ^ (tfmt q).F ≤ 2 ^ (tfmt q).W - 1 := by
  have e : (tfmt q).F = 32 := rfl
  have e2 : (tfmt q).W = 32 := rfl
  rw [e, e2]; norm_num; linarith

theorem odd_facts {q : QMode} {n : ℚ} (h0 : 1 / 2 ≤ n) (h1 : n < 1) :
    |(tfmt q).cvt (g n * invroot2) - g n * invroot2| ≤ 1 / 2 ^ 32 := by
  obtain ⟨k, hk, hg, l1, l2, g1, g2⟩ := g_cell h0 h1
  have hr : g n * invroot2 ≤ 99999 / 100000 := by unfold invroot2; linarith
  have hr0 : 0 ≤ g n * invroot2 := by unfold invroot2; linarith
  refine le_trans (cvt_fit (o := tfmt q) (by simp [tfmt]) rfl rfl hr0 (fit hr)).2.2.le ?_
  have e : (tfmt q).F = 32 := rfl
  rw [e]; norm_num

/-- The result before it is converted to the output type. -/
def core (q : QMode) (cn : Bool) (f : Fmt) (x : ℚ) : ℚ :=
  m1 q (norm cn f x).1 (norm cn f x).2 * 2 ^ (-((norm cn f x).2 / 2))

theorem core_err {q : QMode} {cn : Bool} {f : Fmt} (hW : 1 ≤ f.W) (hS : f.S = false) {x : ℚ} (hx : f.Rep x) (h : 0 < x)
    (hc : cn = true ∨ 2 ^ (f.I - 1) ≤ x) : |core q cn f x ^ 2 * x - 1| ≤ 1 / 10000 ∧ 0 < core q cn f x := by
  obtain ⟨a1, a2, a3, -⟩ := norm_pos hW hS hx h hc 5
  unfold core m1
  generalize norm cn f x = ne at *
  obtain ⟨n, e⟩ := ne
  simp only at a1 a2 a3 ⊢
  have hp := Fmt.z_pos (-(e / 2))
  have hinv : (2 : ℚ) ^ (-(e / 2)) * 2 ^ (e / 2) = 1 := by rw [Fmt.z_add]; simp
  obtain ⟨b1, b2⟩ := g_err a2 a3
  obtain ⟨k, hk, hg, l1, l2, g1, g2⟩ := g_cell a2 a3
  rw [a1]
  rcases half_exp e with ⟨e1, e2⟩ | ⟨e1, e2⟩
  · rw [if_pos e1, e2]
    refine ⟨?_, mul_pos (by linarith) hp⟩
    have : (g n * 2 ^ (-(e / 2))) ^ 2 * (n * (2 ^ (e / 2)) ^ 2) = g n ^ 2 * n * (2 ^ (-(e / 2)) * 2 ^ (e / 2)) ^ 2 := by ring
    rw [this, hinv, one_pow, mul_one]; exact b1
  · rw [if_neg (by omega), e2]
    have o := odd_facts (q := q) a2 a3
    have b3 := b2 _ o
    generalize (tfmt q).cvt (g n * invroot2) = r at *
    have hr : 0 < r := by have := (abs_le.1 o).1; unfold invroot2 at this; norm_num at this; linarith
    refine ⟨?_, mul_pos hr hp⟩
    have : (r * 2 ^ (-(e / 2))) ^ 2 * (n * (2 * (2 ^ (e / 2)) ^ 2)) = r ^ 2 * (2 * n) * (2 ^ (-(e / 2)) * 2 ^ (e / 2)) ^ 2 := by ring
    rw [this, hinv, one_pow, mul_one]; exact b3

theorem core_anti {q : QMode} {cn : Bool} {f : Fmt} (hW : 1 ≤ f.W) (hS : f.S = false) {x x' : ℚ} (hx : f.Rep x)
    (hx' : f.Rep x') (h : 0 < x) (hc : cn = true ∨ 2 ^ (f.I - 1) ≤ x) (hle : x ≤ x') :
    core q cn f x' ≤ core q cn f x := by
  obtain ⟨a1, a2, a3, -⟩ := norm_pos hW hS hx h hc 5
  obtain ⟨b1, b2, b3, -⟩ := norm_pos (cn := cn) hW hS hx' (by linarith) (hc.imp_right (fun h => le_trans h hle)) 5
  unfold core m1
  generalize norm cn f x = ne at *
  generalize norm cn f x' = ne' at *
  obtain ⟨n, e⟩ := ne
  obtain ⟨n', e'⟩ := ne'
  simp only at a1 a2 a3 b1 b2 b3 ⊢
  have he : e ≤ e' := exp_le_of_le a2 b3 (by rw [← a1, ← b1]; exact hle)
  obtain ⟨k, hk, hg, l1, l2, g1, g2⟩ := g_cell a2 a3
  obtain ⟨k', hk', hg', l1', l2', g1', g2'⟩ := g_cell b2 b3
  have o := abs_le.1 (odd_facts (q := q) a2 a3)
  have o' := abs_le.1 (odd_facts (q := q) b2 b3)
  have r2 : g n' * invroot2 ≤ 92678 / 65536 * invroot2 := mul_le_mul_of_nonneg_right g2' (by unfold invroot2; norm_num)
  have r1 : 65535 / 65536 * invroot2 ≤ g n * invroot2 := mul_le_mul_of_nonneg_right g1 (by unfold invroot2; norm_num)
  unfold invroot2 at r1 r2
  rcases eq_or_lt_of_le he with h1 | h1
  · subst h1
    have hn : n ≤ n' := by
      rw [a1, b1] at hle
      exact le_of_mul_le_mul_right hle (Fmt.z_pos e)
    have hgm := g_anti a2 hn b3
    refine mul_le_mul_of_nonneg_right ?_ (Fmt.z_pos _).le
    split_ifs
    · exact hgm
    · refine cvt_fit_mono (o := tfmt q) (by simp [tfmt]) rfl rfl (by unfold invroot2; linarith)
        (mul_le_mul_of_nonneg_right hgm (by unfold invroot2; norm_num)) (fit (by unfold invroot2; linarith))
  · have hp := Fmt.z_pos (-(e / 2))
    have hp' := Fmt.z_pos (-(e' / 2))
    generalize hA : (tfmt q).cvt (g n * invroot2) = A at *
    generalize hB : (tfmt q).cvt (g n' * invroot2) = B at *
    unfold invroot2 at o o'
    norm_num at o o'
    have hB1 : B ≤ 65535 / 65536 := by linarith
    have hA1 : 92678 / 131072 ≤ A := by linarith
    have hB2 : (if e' % 2 = 0 then g n' else B) ≤ 92678 / 65536 := by
      split_ifs
      · exact g2'
      · linarith
    rcases Int.emod_two_eq_zero_or_one e with h2 | h2
    · rw [if_pos h2]
      have t2 := mul_le_mul_of_nonneg_right g1 hp.le
      rcases Int.emod_two_eq_zero_or_one e' with h3 | h3
      · rw [if_pos h3]
        have p := Fmt.z_le (show -(e' / 2) + 1 ≤ -(e / 2) by omega)
        rw [Fmt.z_succ] at p
        have t1 := mul_le_mul_of_nonneg_right g2' hp'.le
        linarith
      · rw [if_neg (by omega)]
        have p := Fmt.z_le (show -(e' / 2) ≤ -(e / 2) by omega)
        have t1 := mul_le_mul_of_nonneg_right hB1 hp'.le
        linarith
    · rw [if_neg (show ¬ e % 2 = 0 by omega)]
      have p := Fmt.z_le (show -(e' / 2) + 1 ≤ -(e / 2) by omega)
      rw [Fmt.z_succ] at p
      have t1 := mul_le_mul_of_nonneg_right hB2 hp'.le
      have t2 := mul_le_mul_of_nonneg_right hA1 hp.le
      linarith

theorem inverseSqrtVha_eq (q : QMode) (cn : Bool) {f out : Fmt} (hW : 1 ≤ f.W) (hS : f.S = false) (ho : 1 ≤ out.W)
    (hSo : out.S = false) {x : ℚ} (hx : f.Rep x) (h : 0 < x) (hc : cn = true ∨ 2 ^ (f.I - 1) ≤ x) :
    inverseSqrtVha q cn f out x = some (out.cvt (core q cn f x)) := by
  obtain ⟨a1, a2, a3, z, hz⟩ := norm_pos hW hS hx h hc 5
  unfold inverseSqrtVha core m1
  simp only [tmod_two]
  have hs := scBits_pos 16 ((f.W : ℤ) - 6)
  have hs16 : scBits 16 ((f.W : ℤ) - 6) ≤ 16 := by unfold scBits; omega
  have ht : trunc (scBits 16 ((f.W : ℤ) - 6)) (((norm cn f x).1 - 1 / 2) * 64) = trunc 16 (((norm cn f x).1 - 1 / 2) * 64) := by
    apply trunc_scBits (by norm_num) (z := z)
    rw [show ((f.W : ℤ) - 6) = (f.W : ℤ) - ((5 : ℕ) + 1) by norm_num, ← hz]; norm_num
  generalize norm cn f x = ne at *
  obtain ⟨n, e⟩ := ne
  simp only at a1 a2 a3 ht ⊢
  generalize hsd : scBits 16 ((f.W : ℤ) - 6) = s at *
  have v0 : 0 ≤ (n - 1 / 2) * 64 := by linarith
  have v1 : (n - 1 / 2) * 64 < 2 ^ 5 := by linarith
  rw [segVal_eq (m := isqM) (c := isqC) (ib := 5) rfl rfl 16 s v0 v1]
  simp only [Option.bind_eq_bind, Option.bind_some, h.ne', ne_eq, not_false_eq_true, if_true]
  obtain ⟨k, hk, htk, -, -⟩ := cell (N := s) (ib := 5) v0 v1
  obtain ⟨b1, b2⟩ := segRaw_bounds (m := isqM) (c := isqC) (n := s) (k := k) (N := 32) (lo := 65535) (hi := 92678) hk
    (by decide +kernel)
  have hg : pw (tab isqM 16) (tab isqC 16) (trunc s ((n - 1 / 2) * 64)) = g n := by unfold g; rw [ht]
  have hy : g n = segRaw isqM isqC s k / 2 ^ (16 + s) := by rw [← hg, htk, pw_tab]
  rw [hg]
  obtain ⟨k2, _, hg2, _, _, g1, g2⟩ := g_cell a2 a3
  have hP : (0 : ℤ) < 2 ^ s := by positivity
  have hP2 : (2 : ℤ) ^ (s + 16 + 1) = 131072 * 2 ^ s := by rw [show s + 16 + 1 = s + 17 by ring, pow_add]; norm_num; ring
  set o : Fmt := ⟨s + 16 + 1, 1, false, q, .WRAP⟩ with hod
  have hF : o.F = (16 + s : ℕ) := by simp [hod, Fmt.F]; ring
  have lo : minRaw o.W o.S ≤ segRaw isqM isqC s k := by simp [hod, minRaw]; linarith
  have hi : segRaw isqM isqC s k ≤ maxRaw o.W o.S := by
    simp only [hod, maxRaw, Bool.false_eq_true, if_false]; rw [hP2]; linarith
  obtain ⟨w1, w2, w3⟩ := cvt_word (f := o) (by simp [hod]) hF rfl lo hi
  have hgy : o.cvt (g n) = g n := by rw [hy]; exact w1
  rw [hgy]
  set o1 : Fmt := ⟨33, 1, false, .TRN, .WRAP⟩ with ho1
  have hF1 : o1.F = (32 : ℕ) := by simp [ho1, Fmt.F]
  have hw1 : 1 ≤ o1.W := by simp [ho1]
  have htf : (⟨32, 0, false, q, .WRAP⟩ : Fmt) = tfmt q := rfl
  rw [htf]
  congr 1
  split_ifs with he
  · obtain ⟨c1, c2⟩ := segRaw_bounds (m := isqM) (c := isqC) (n := 16) (k := k2) (N := 32) (lo := 65535) (hi := 92678)
      (by norm_num; omega) (by decide +kernel)
    have lo1 : minRaw o1.W o1.S ≤ segRaw isqM isqC 16 k2 := by simp [ho1, minRaw]; linarith
    have hi1 : segRaw isqM isqC 16 k2 ≤ maxRaw o1.W o1.S := by
      simp only [ho1, maxRaw, Bool.false_eq_true, if_false]; norm_num at c2 ⊢; linarith
    obtain ⟨u1, u2, u3⟩ := cvt_word (f := o1) hw1 hF1 rfl lo1 hi1
    have hgu : o1.cvt (g n) = g n := by rw [hg2]; exact u1
    rw [hgu]
    conv_lhs => rw [hg2, u2]
    rw [rightUS_eq (fx := o1) (fo := out) hw1 ho rfl hSo ⟨lo1, hi1⟩, u3, ← hg2]
  · have hr : g n * invroot2 ≤ 99999 / 100000 := by unfold invroot2; linarith
    have hr0 : 0 ≤ g n * invroot2 := by unfold invroot2; linarith
    obtain ⟨c1, c2, -⟩ := cvt_fit (o := tfmt q) (by simp [tfmt]) rfl rfl hr0 (fit hr)
    set R := quant (tfmt q).Q (g n * invroot2 * 2 ^ (tfmt q).F)
    have hv : (tfmt q).val R = (R : ℚ) / 2 ^ 32 := by
      unfold Fmt.val
      have e : (tfmt q).F = 32 := rfl
      rw [e]; norm_num; ring
    have lo1 : minRaw o1.W o1.S ≤ R := by have := c2.1; simp [tfmt, minRaw] at this; simp [ho1, minRaw]; exact this
    have hi1 : R ≤ maxRaw o1.W o1.S := by
      have := c2.2
      simp only [tfmt, maxRaw, Bool.false_eq_true, if_false] at this
      simp only [ho1, maxRaw, Bool.false_eq_true, if_false]; norm_num at this ⊢; linarith
    obtain ⟨u1, u2, u3⟩ := cvt_word (f := o1) hw1 hF1 rfl lo1 hi1
    rw [c1, hv, u1, u2, rightUS_eq (fx := o1) (fo := out) hw1 ho rfl hSo ⟨lo1, hi1⟩, u3]

theorem inverseSqrtVha_some (q : QMode) (cn : Bool) (f out : Fmt) (x : ℚ) :
    ∃ y, inverseSqrtVha q cn f out x = some y ∧ (x = 0 → y = out.maxVal) := by
  unfold inverseSqrtVha
  obtain ⟨y, hy⟩ := segVal_isSome (m := isqM) (c := isqC) (ib := 5) rfl rfl 16 (scBits 16 (f.W - 6))
    (((norm cn f x).1 - 1 / 2) * 64)
  simp only [hy, Option.bind_eq_bind, Option.bind_some]
  refine ⟨_, rfl, ?_⟩
  intro h; rw [if_neg (by simpa using h)]

end Proof.IsqrtVha
