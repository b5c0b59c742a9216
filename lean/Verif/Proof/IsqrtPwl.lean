import Verif.Proof.SqrtPwl
import Verif.Proof.Reciprocal

/-! # Lemmas for C31 -/

namespace Proof.IsqrtPwl
open Ac Model.Pwl Model.PwlFixed Model.Normalize Proof.Pwl Proof.PwlFixed Proof.Shift
open Proof.SqrtPwl (half_exp scBits_pos tmod_two)

/-- The value for the normalized input `n`. -/
def g (n : ℚ) : ℚ := pw (tab isqrtM 12) (tab isqrtC 12) (trunc 12 ((n - 1 / 2) * 16))

theorem g_anti {a b : ℚ} (h0 : 1 / 2 ≤ a) (h : a ≤ b) (h1 : b < 1) : g b ≤ g a := by
  refine Proof.Reciprocal.pw_anti (n := 8) (by decide +kernel) ?_ (trunc_nonneg _ (by linarith)) (trunc_mono _ (by linarith)) ?_
  · intro i hi
    have : ∀ i < 7, tab isqrtC 12 (i + 1) ≤ tab isqrtC 12 i + tab isqrtM 12 i := by decide +kernel
    exact this i (by omega)
  · have := trunc_le 12 ((b - 1 / 2) * 16)
    norm_num; linarith

/-- The whole table: the square times the input is within 3/2000 of one at both ends of every grid cell, with the exponent
even and odd. -/
def check (k : ℕ) : Bool :=
  let K := segRaw isqrtM isqrtC 12 k
  decide (1997 * 2 ^ 64 ≤ 2000 * (K ^ 2 * (32768 + k : ℕ))) &&
  decide (2000 * (K ^ 2 * (32768 + k + 1 : ℕ)) ≤ 2003 * 2 ^ 64) &&
  decide (1997 * 2 ^ 79 ≤ 2000 * ((K * 181 - 256) ^ 2 * (32768 + k : ℕ))) &&
  decide (2000 * ((K * 181 + 256) ^ 2 * (32768 + k + 1 : ℕ)) ≤ 2003 * 2 ^ 79)

theorem check0 : allLt 4096 (fun k => check (4096 * 0 + k)) = true := by decide +kernel
theorem check1 : allLt 4096 (fun k => check (4096 * 1 + k)) = true := by decide +kernel
theorem check2 : allLt 4096 (fun k => check (4096 * 2 + k)) = true := by decide +kernel
theorem check3 : allLt 4096 (fun k => check (4096 * 3 + k)) = true := by decide +kernel
theorem check4 : allLt 4096 (fun k => check (4096 * 4 + k)) = true := by decide +kernel
theorem check5 : allLt 4096 (fun k => check (4096 * 5 + k)) = true := by decide +kernel
theorem check6 : allLt 4096 (fun k => check (4096 * 6 + k)) = true := by decide +kernel
theorem check7 : allLt 4096 (fun k => check (4096 * 7 + k)) = true := by decide +kernel

theorem check_all : ∀ k < 32768, check k = true := by
  refine chunks 4096 (c := 8) (by norm_num) ?_
  intro j hj
  interval_cases j
  · exact check0
  · exact check1
  · exact check2
  · exact check3
  · exact check4
  · exact check5
  · exact check6
  · exact check7

theorem g_cell {n : ℚ} (h0 : 1 / 2 ≤ n) (h1 : n < 1) : ∃ k : ℕ, k < 32768 ∧ g n = segRaw isqrtM isqrtC 12 k / 2 ^ 24 ∧
    (32768 + k : ℚ) ≤ n * 65536 ∧ n * 65536 ≤ 32768 + k + 1 ∧ 4095 / 4096 ≤ g n ∧ g n ≤ 5789 / 4096 := by
  obtain ⟨k, hk, ht, l1, l2⟩ := cell (N := 12) (ib := 3) (v := (n - 1 / 2) * 16) (by linarith) (by linarith)
  have hk' : k < 32768 := by norm_num at hk; exact hk
  obtain ⟨b1, b2⟩ := segRaw_bounds (m := isqrtM) (c := isqrtC) (n := 12) (k := k) (N := 8) (lo := 4095) (hi := 5789)
    (by norm_num; exact hk') (by decide +kernel)
  have hg : g n = segRaw isqrtM isqrtC 12 k / 2 ^ 24 := by unfold g; rw [ht, pw_tab]
  norm_num at l1 l2
  refine ⟨k, hk', hg, by linarith, by linarith, ?_, ?_⟩
  · rw [hg, le_div_iff₀ (by norm_num)]
    have : ((4095 * 2 ^ 12 : ℤ) : ℚ) ≤ (segRaw isqrtM isqrtC 12 k : ℚ) := by exact_mod_cast b1
    norm_num at this ⊢; linarith
  · rw [hg, div_le_iff₀ (by norm_num)]
    have : (segRaw isqrtM isqrtC 12 k : ℚ) ≤ ((5789 * 2 ^ 12 : ℤ) : ℚ) := by exact_mod_cast b2
    norm_num at this ⊢; linarith

theorem near {A n a b : ℚ} (hA : 0 ≤ A) (h0 : a ≤ n * 65536) (h1 : n * 65536 ≤ b) (c0 : 1997 / 2000 ≤ A * (a / 65536))
    (c1 : A * (b / 65536) ≤ 2003 / 2000) : |A * n - 1| ≤ 3 / 2000 := by
  have d0 : A * (a / 65536) ≤ A * n := mul_le_mul_of_nonneg_left (by linarith) hA
  have d1 : A * n ≤ A * (b / 65536) := mul_le_mul_of_nonneg_left (by linarith) hA
  rw [abs_le]
  constructor <;> linarith

theorem g_err {n : ℚ} (h0 : 1 / 2 ≤ n) (h1 : n < 1) : |g n ^ 2 * n - 1| ≤ 3 / 2000 ∧
    ∀ h : ℚ, |h - g n * inverseroot2| ≤ 1 / 2 ^ 24 → |h ^ 2 * (2 * n) - 1| ≤ 3 / 2000 := by
  obtain ⟨k, hk, hg, l1, l2, g1, g2⟩ := g_cell h0 h1
  have hc := check_all k hk
  unfold check at hc
  simp only [Bool.and_eq_true, decide_eq_true_eq] at hc
  obtain ⟨⟨⟨c1, c2⟩, c3⟩, c4⟩ := hc
  set K := segRaw isqrtM isqrtC 12 k
  have d1 : ((1997 * 2 ^ 64 : ℤ) : ℚ) ≤ ((2000 * (K ^ 2 * (32768 + k : ℕ)) : ℤ) : ℚ) := by exact_mod_cast c1
  have d2 : ((2000 * (K ^ 2 * (32768 + k + 1 : ℕ)) : ℤ) : ℚ) ≤ ((2003 * 2 ^ 64 : ℤ) : ℚ) := by exact_mod_cast c2
  have d3 : ((1997 * 2 ^ 79 : ℤ) : ℚ) ≤ ((2000 * ((K * 181 - 256) ^ 2 * (32768 + k : ℕ)) : ℤ) : ℚ) := by exact_mod_cast c3
  have d4 : ((2000 * ((K * 181 + 256) ^ 2 * (32768 + k + 1 : ℕ)) : ℤ) : ℚ) ≤ ((2003 * 2 ^ 79 : ℤ) : ℚ) := by exact_mod_cast c4
  push_cast at d1 d2 d3 d4
  have hK : (K : ℚ) = g n * 2 ^ 24 := by rw [hg]; norm_num
  rw [hK] at d1 d2 d3 d4
  generalize g n = G at *
  constructor
  · have e1 : (G * 2 ^ 24) ^ 2 * (32768 + (k : ℚ)) = G ^ 2 * ((32768 + (k : ℚ)) / 65536) * 2 ^ 64 := by ring
    have e2 : (G * 2 ^ 24) ^ 2 * (32768 + (k : ℚ) + 1) = G ^ 2 * ((32768 + (k : ℚ) + 1) / 65536) * 2 ^ 64 := by ring
    rw [e1] at d1
    rw [e2] at d2
    refine near (by positivity) l1 l2 ?_ ?_
    · generalize G ^ 2 * ((32768 + (k : ℚ)) / 65536) = A at *
      norm_num at d1 ⊢; linarith
    · generalize G ^ 2 * ((32768 + (k : ℚ) + 1) / 65536) = A at *
      norm_num at d2 ⊢; linarith
  · intro h hh
    unfold inverseroot2 at hh
    obtain ⟨h1, h2⟩ := abs_le.1 hh
    norm_num at h1 h2
    have p1 : (G * (181 / 256) - 1 / 2 ^ 24) ^ 2 ≤ h ^ 2 := pow_le_pow_left₀ (by norm_num; linarith) (by norm_num; linarith) 2
    have p2 : h ^ 2 ≤ (G * (181 / 256) + 1 / 2 ^ 24) ^ 2 := pow_le_pow_left₀ (by linarith) (by norm_num; linarith) 2
    have e1 : (G * 2 ^ 24 * 181 - 256) ^ 2 * (32768 + (k : ℚ)) =
        (G * (181 / 256) - 1 / 2 ^ 24) ^ 2 * 2 * ((32768 + (k : ℚ)) / 65536) * 2 ^ 79 := by ring
    have e2 : (G * 2 ^ 24 * 181 + 256) ^ 2 * (32768 + (k : ℚ) + 1) =
        (G * (181 / 256) + 1 / 2 ^ 24) ^ 2 * 2 * ((32768 + (k : ℚ) + 1) / 65536) * 2 ^ 79 := by ring
    rw [e1] at d3
    rw [e2] at d4
    generalize (G * (181 / 256) - 1 / 2 ^ 24) ^ 2 = A at *
    generalize (G * (181 / 256) + 1 / 2 ^ 24) ^ 2 = B at *
    have q1 : A * 2 * ((32768 + (k : ℚ)) / 65536) ≤ h ^ 2 * 2 * ((32768 + (k : ℚ)) / 65536) :=
      mul_le_mul_of_nonneg_right (by linarith) (by positivity)
    have q2 : h ^ 2 * 2 * ((32768 + (k : ℚ) + 1) / 65536) ≤ B * 2 * ((32768 + (k : ℚ) + 1) / 65536) :=
      mul_le_mul_of_nonneg_right (by linarith) (by positivity)
    rw [← mul_assoc]
    refine near (by positivity) l1 l2 (le_trans ?_ q1) (le_trans q2 ?_)
    · generalize A * 2 * ((32768 + (k : ℚ)) / 65536) = C at *
      norm_num at d3 ⊢; linarith
    · generalize B * 2 * ((32768 + (k : ℚ) + 1) / 65536) = C at *
      norm_num at d4 ⊢; linarith

/-- The type of `normalized_output_temp`. -/
def tfmt (q : QMode) : Fmt := ⟨24, 0, false, q, .WRAP⟩

/-- The word that is shifted by half the exponent. -/
def m1 (q : QMode) (n : ℚ) (e : ℤ) : ℚ := if e % 2 = 0 then g n else (tfmt q).cvt (g n * inverseroot2)

theorem fit {q : QMode} {x : ℚ} (h : x ≤ 9999 / 10000) : x * 2 ^ (tfmt q).F ≤ 2 ^ (tfmt q).W - 1 := by
  have e : (tfmt q).F = 24 := rfl
  have e2 : (tfmt q).W = 24 := rfl
  rw [e, e2]; norm_num; linarith

theorem odd_facts {q : QMode} {n : ℚ} (h0 : 1 / 2 ≤ n) (h1 : n < 1) :
    |(tfmt q).cvt (g n * inverseroot2) - g n * inverseroot2| ≤ 1 / 2 ^ 24 := by
  obtain ⟨k, hk, hg, l1, l2, g1, g2⟩ := g_cell h0 h1
  have hr : g n * inverseroot2 ≤ 9999 / 10000 := by unfold inverseroot2; linarith
  have hr0 : 0 ≤ g n * inverseroot2 := by unfold inverseroot2; linarith
  refine le_trans (cvt_fit (o := tfmt q) (by simp [tfmt]) rfl rfl hr0 (fit hr)).2.2.le ?_
  have e : (tfmt q).F = 24 := rfl
  rw [e]; norm_num

/-- The result before it is converted to the output type. -/
def core (q : QMode) (cn : Bool) (f : Fmt) (x : ℚ) : ℚ :=
  m1 q (norm cn f x).1 (norm cn f x).2 * 2 ^ (-((norm cn f x).2 / 2))

theorem core_err {q : QMode} {cn : Bool} {f : Fmt} (hW : 1 ≤ f.W) (hS : f.S = false) {x : ℚ} (hx : f.Rep x) (h : 0 < x)
    (hc : cn = true ∨ 2 ^ (f.I - 1) ≤ x) : |core q cn f x ^ 2 * x - 1| ≤ 3 / 2000 ∧ 0 < core q cn f x := by
  obtain ⟨a1, a2, a3, -⟩ := norm_pos hW hS hx h hc 3
  unfold core m1
  generalize norm cn f x = ne at *
  obtain ⟨n, e⟩ := ne
  simp only at a1 a2 a3 ⊢
  have hp := Fmt.z_pos (-(e / 2))
  have hinv : (2 : ℚ) ^ (-(e / 2)) * 2 ^ (e / 2) = 1 := by rw [Fmt.z_add]; simp
  obtain ⟨b1, b2⟩ := g_err a2 a3
  obtain ⟨k, hk, hg, l1, l2, g1, g2⟩ := g_cell a2 a3
  rw [a1]
  rcases half_exp e with ⟨e1, e2⟩ | ⟨e1, e2⟩
  · rw [if_pos e1, e2]
    refine ⟨?_, mul_pos (by linarith) hp⟩
    have : (g n * 2 ^ (-(e / 2))) ^ 2 * (n * (2 ^ (e / 2)) ^ 2) = g n ^ 2 * n * (2 ^ (-(e / 2)) * 2 ^ (e / 2)) ^ 2 := by ring
    rw [this, hinv, one_pow, mul_one]; exact b1
  · rw [if_neg (by omega), e2]
    have o := odd_facts (q := q) a2 a3
    have b3 := b2 _ o
    generalize (tfmt q).cvt (g n * inverseroot2) = r at *
    have hr : 0 < r := by have := (abs_le.1 o).1; unfold inverseroot2 at this; norm_num at this; linarith
    refine ⟨?_, mul_pos hr hp⟩
    have : (r * 2 ^ (-(e / 2))) ^ 2 * (n * (2 * (2 ^ (e / 2)) ^ 2)) = r ^ 2 * (2 * n) * (2 ^ (-(e / 2)) * 2 ^ (e / 2)) ^ 2 := by ring
    rw [this, hinv, one_pow, mul_one]; exact b3

theorem core_anti {q : QMode} {cn : Bool} {f : Fmt} (hW : 1 ≤ f.W) (hS : f.S = false) {x x' : ℚ} (hx : f.Rep x)
    (hx' : f.Rep x') (h : 0 < x) (hc : cn = true ∨ 2 ^ (f.I - 1) ≤ x) (hle : x ≤ x') :
    core q cn f x' ≤ core q cn f x := by
  obtain ⟨a1, a2, a3, -⟩ := norm_pos hW hS hx h hc 3
  obtain ⟨b1, b2, b3, -⟩ := norm_pos (cn := cn) hW hS hx' (by linarith) (hc.imp_right (fun h => le_trans h hle)) 3
  unfold core m1
  generalize norm cn f x = ne at *
  generalize norm cn f x' = ne' at *
  obtain ⟨n, e⟩ := ne
  obtain ⟨n', e'⟩ := ne'
  simp only at a1 a2 a3 b1 b2 b3 ⊢
  have he : e ≤ e' := exp_le_of_le a2 b3 (by rw [← a1, ← b1]; exact hle)
  obtain ⟨k, hk, hg, l1, l2, g1, g2⟩ := g_cell a2 a3
  obtain ⟨k', hk', hg', l1', l2', g1', g2'⟩ := g_cell b2 b3
  have o := abs_le.1 (odd_facts (q := q) a2 a3)
  have o' := abs_le.1 (odd_facts (q := q) b2 b3)
  have r2 : g n' * inverseroot2 ≤ 5789 / 4096 * inverseroot2 := mul_le_mul_of_nonneg_right g2' (by unfold inverseroot2; norm_num)
  have r1 : 4095 / 4096 * inverseroot2 ≤ g n * inverseroot2 := mul_le_mul_of_nonneg_right g1 (by unfold inverseroot2; norm_num)
  unfold inverseroot2 at r1 r2
  rcases eq_or_lt_of_le he with h1 | h1
  · subst h1
    have hn : n ≤ n' := by
      rw [a1, b1] at hle
      exact le_of_mul_le_mul_right hle (Fmt.z_pos e)
    have hgm := g_anti a2 hn b3
    refine mul_le_mul_of_nonneg_right ?_ (Fmt.z_pos _).le
    split_ifs
    · exact hgm
    · refine cvt_fit_mono (o := tfmt q) (by simp [tfmt]) rfl rfl (by unfold inverseroot2; linarith)
        (mul_le_mul_of_nonneg_right hgm (by unfold inverseroot2; norm_num)) (fit (by unfold inverseroot2; linarith))
  · have hp := Fmt.z_pos (-(e / 2))
    have hp' := Fmt.z_pos (-(e' / 2))
    generalize hA : (tfmt q).cvt (g n * inverseroot2) = A at *
    generalize hB : (tfmt q).cvt (g n' * inverseroot2) = B at *
    unfold inverseroot2 at o o'
    norm_num at o o'
    have hB1 : B ≤ 4095 / 4096 := by linarith
    have hA1 : 5789 / 8192 ≤ A := by linarith
    have hB2 : (if e' % 2 = 0 then g n' else B) ≤ 5789 / 4096 := by
      split_ifs
      · exact g2'
      · linarith
    rcases Int.emod_two_eq_zero_or_one e with h2 | h2
    · rw [if_pos h2]
      have t2 := mul_le_mul_of_nonneg_right g1 hp.le
      rcases Int.emod_two_eq_zero_or_one e' with h3 | h3
      · rw [if_pos h3]
        have p := Fmt.z_le (show -(e' / 2) + 1 ≤ -(e / 2) by omega)
        rw [Fmt.z_succ] at p
        have t1 := mul_le_mul_of_nonneg_right g2' hp'.le
        linarith
      · rw [if_neg (by omega)]
        have p := Fmt.z_le (show -(e' / 2) ≤ -(e / 2) by omega)
        have t1 := mul_le_mul_of_nonneg_right hB1 hp'.le
        linarith
    · rw [if_neg (show ¬ e % 2 = 0 by omega)]
      have p := Fmt.z_le (show -(e' / 2) + 1 ≤ -(e / 2) by omega)
      rw [Fmt.z_succ] at p
      have t1 := mul_le_mul_of_nonneg_right hB2 hp'.le
      have t2 := mul_le_mul_of_nonneg_right hA1 hp.le
      linarith

theorem inverseSqrt_eq (q : QMode) (cn : Bool) {f out : Fmt} (hW : 1 ≤ f.W) (hS : f.S = false) (ho : 1 ≤ out.W)
    (hSo : out.S = false) {x : ℚ} (hx : f.Rep x) (h : 0 < x) (hc : cn = true ∨ 2 ^ (f.I - 1) ≤ x) :
    inverseSqrt q cn f out x = some (out.cvt (core q cn f x)) := by
  obtain ⟨a1, a2, a3, z, hz⟩ := norm_pos hW hS hx h hc 3
  unfold inverseSqrt core m1
  simp only [tmod_two]
  have hs := scBits_pos 12 ((f.W : ℤ) - 4)
  have hs12 : scBits 12 ((f.W : ℤ) - 4) ≤ 12 := by unfold scBits; omega
  have ht : trunc (scBits 12 ((f.W : ℤ) - 4)) (((norm cn f x).1 - 1 / 2) * 16) = trunc 12 (((norm cn f x).1 - 1 / 2) * 16) := by
    apply trunc_scBits (by norm_num) (z := z)
    rw [show ((f.W : ℤ) - 4) = (f.W : ℤ) - ((3 : ℕ) + 1) by norm_num, ← hz]; norm_num
  generalize norm cn f x = ne at *
  obtain ⟨n, e⟩ := ne
  simp only at a1 a2 a3 ht ⊢
  generalize hsd : scBits 12 ((f.W : ℤ) - 4) = s at *
  have v0 : 0 ≤ (n - 1 / 2) * 16 := by linarith
  have v1 : (n - 1 / 2) * 16 < 2 ^ 3 := by linarith
  rw [segVal_eq (m := isqrtM) (c := isqrtC) (ib := 3) rfl rfl 12 s v0 v1]
  simp only [Option.bind_eq_bind, Option.bind_some, h.ne', ne_eq, not_false_eq_true, if_true]
  obtain ⟨k, hk, htk, -, -⟩ := cell (N := s) (ib := 3) v0 v1
  obtain ⟨b1, b2⟩ := segRaw_bounds (m := isqrtM) (c := isqrtC) (n := s) (k := k) (N := 8) (lo := 4095) (hi := 5789) hk
    (by decide +kernel)
  have hg : pw (tab isqrtM 12) (tab isqrtC 12) (trunc s ((n - 1 / 2) * 16)) = g n := by unfold g; rw [ht]
  have hy : g n = segRaw isqrtM isqrtC s k / 2 ^ (12 + s) := by rw [← hg, htk, pw_tab]
  rw [hg]
  obtain ⟨k2, _, hg2, _, _, g1, g2⟩ := g_cell a2 a3
  have hP : (0 : ℤ) < 2 ^ s := by positivity
  have hP2 : (2 : ℤ) ^ (s + 12 + 1) = 8192 * 2 ^ s := by rw [show s + 12 + 1 = s + 13 by ring, pow_add]; norm_num; ring
  set o : Fmt := ⟨s + 12 + 1, 1, false, q, .WRAP⟩ with hod
  have hF : o.F = (12 + s : ℕ) := by simp [hod, Fmt.F]; ring
  have lo : minRaw o.W o.S ≤ segRaw isqrtM isqrtC s k := by simp [hod, minRaw]; linarith
  have hi : segRaw isqrtM isqrtC s k ≤ maxRaw o.W o.S := by
    simp only [hod, maxRaw, Bool.false_eq_true, if_false]; rw [hP2]; linarith
  obtain ⟨w1, w2, w3⟩ := cvt_word (f := o) (by simp [hod]) hF rfl lo hi
  have hgy : o.cvt (g n) = g n := by rw [hy]; exact w1
  rw [hgy]
  set o1 : Fmt := ⟨25, 1, false, .TRN, .WRAP⟩ with ho1
  have hF1 : o1.F = (24 : ℕ) := by simp [ho1, Fmt.F]
  have hw1 : 1 ≤ o1.W := by simp [ho1]
  have htf : (⟨24, 0, false, q, .WRAP⟩ : Fmt) = tfmt q := rfl
  rw [htf]
  congr 1
  split_ifs with he
  · obtain ⟨c1, c2⟩ := segRaw_bounds (m := isqrtM) (c := isqrtC) (n := 12) (k := k2) (N := 8) (lo := 4095) (hi := 5789)
      (by norm_num; omega) (by decide +kernel)
    have lo1 : minRaw o1.W o1.S ≤ segRaw isqrtM isqrtC 12 k2 := by simp [ho1, minRaw]; linarith
    have hi1 : segRaw isqrtM isqrtC 12 k2 ≤ maxRaw o1.W o1.S := by
      simp only [ho1, maxRaw, Bool.false_eq_true, if_false]; norm_num at c2 ⊢; linarith
    obtain ⟨u1, u2, u3⟩ := cvt_word (f := o1) hw1 hF1 rfl lo1 hi1
    have hgu : o1.cvt (g n) = g n := by rw [hg2]; exact u1
    rw [hgu]
    conv_lhs => rw [hg2, u2]
    rw [rightUS_eq (fx := o1) (fo := out) hw1 ho rfl hSo ⟨lo1, hi1⟩, u3, ← hg2]
  · have hr : g n * inverseroot2 ≤ 9999 / 10000 := by unfold inverseroot2; linarith
    have hr0 : 0 ≤ g n * inverseroot2 := by unfold inverseroot2; linarith
    obtain ⟨c1, c2, -⟩ := cvt_fit (o := tfmt q) (by simp [tfmt]) rfl rfl hr0 (fit hr)
    set R := quant (tfmt q).Q (g n * inverseroot2 * 2 ^ (tfmt q).F)
    have hv : (tfmt q).val R = (R : ℚ) / 2 ^ 24 := by
      unfold Fmt.val
      have e : (tfmt q).F = 24 := rfl
      rw [e]; norm_num; ring
    have lo1 : minRaw o1.W o1.S ≤ R := by have := c2.1; simp [tfmt, minRaw] at this; simp [ho1, minRaw]; exact this
    have hi1 : R ≤ maxRaw o1.W o1.S := by
      have := c2.2
      simp only [tfmt, maxRaw, Bool.false_eq_true, if_false] at this
      simp only [ho1, maxRaw, Bool.false_eq_true, if_false]; norm_num at this ⊢; linarith
    obtain ⟨u1, u2, u3⟩ := cvt_word (f := o1) hw1 hF1 rfl lo1 hi1
    rw [c1, hv, u1, u2, rightUS_eq (fx := o1) (fo := out) hw1 ho rfl hSo ⟨lo1, hi1⟩, u3]

theorem inverseSqrt_some (q : QMode) (cn : Bool) (f out : Fmt) (x : ℚ) :
    ∃ y, inverseSqrt q cn f out x = some y ∧ (x = 0 → y = out.maxVal) := by
  unfold inverseSqrt
  obtain ⟨y, hy⟩ := segVal_isSome (m := isqrtM) (c := isqrtC) (ib := 3) rfl rfl 12 (scBits 12 (f.W - 4))
    (((norm cn f x).1 - 1 / 2) * 16)
  simp only [hy, Option.bind_eq_bind, Option.bind_some]
  refine ⟨_, rfl, ?_⟩
  intro h; rw [if_neg (by simpa using h)]

end Proof.IsqrtPwl
