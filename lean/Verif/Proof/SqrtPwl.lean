import Verif.Proof.PwlNorm

/-! # Lemmas for C30 -/

namespace Proof.SqrtPwl
open Ac Model.Pwl Model.PwlFixed Model.Normalize Proof.Pwl Proof.PwlFixed Proof.Shift

/-- The value for the normalized input `n`. -/
def g (n : ℚ) : ℚ := pw (tab sqrtM 12) (tab sqrtC 12) (trunc 12 ((n - 1 / 2) * 8))

theorem g_mono {a b : ℚ} (h0 : 1 / 2 ≤ a) (h : a ≤ b) (h1 : b < 1) : g a ≤ g b := by
  refine pw_mono (n := 4) (by decide +kernel) ?_ (trunc_nonneg _ (by linarith)) (trunc_mono _ (by linarith)) ?_
  · intro i hi
    have : ∀ i < 3, tab sqrtC 12 i + tab sqrtM 12 i ≤ tab sqrtC 12 (i + 1) := by decide +kernel
    exact this i (by omega)
  · have := trunc_le 12 ((b - 1 / 2) * 8)
    norm_num; linarith

/-- The whole table: the square is within 1/440 at both ends of every grid cell, with the exponent even and odd. -/
def check (k : ℕ) : Bool :=
  let K := segRaw sqrtM sqrtC 12 k
  decide (439 * (16384 + k + 1 : ℕ) * 2 ^ 33 ≤ 440 * K ^ 2) && decide (440 * K ^ 2 ≤ 441 * (16384 + k : ℕ) * 2 ^ 33) &&
  decide (439 * (16384 + k + 1 : ℕ) * 2 ^ 58 ≤ 440 * (K * 5793 - 2 ^ 23) ^ 2) &&
  decide (440 * (K * 5793 + 2 ^ 23) ^ 2 ≤ 441 * (16384 + k : ℕ) * 2 ^ 58)

theorem check0 : allLt 2048 (fun k => check (2048 * 0 + k)) = true := by decide +kernel
theorem check1 : allLt 2048 (fun k => check (2048 * 1 + k)) = true := by decide +kernel
theorem check2 : allLt 2048 (fun k => check (2048 * 2 + k)) = true := by decide +kernel
theorem check3 : allLt 2048 (fun k => check (2048 * 3 + k)) = true := by decide +kernel
theorem check4 : allLt 2048 (fun k => check (2048 * 4 + k)) = true := by decide +kernel
theorem check5 : allLt 2048 (fun k => check (2048 * 5 + k)) = true := by decide +kernel
theorem check6 : allLt 2048 (fun k => check (2048 * 6 + k)) = true := by decide +kernel
theorem check7 : allLt 2048 (fun k => check (2048 * 7 + k)) = true := by decide +kernel

theorem check_all : ∀ k < 16384, check k = true := by
  refine chunks 2048 (c := 8) (by norm_num) ?_
  intro j hj
  interval_cases j
  · exact check0
  · exact check1
  · exact check2
  · exact check3
  · exact check4
  · exact check5
  · exact check6
  · exact check7

theorem g_cell {n : ℚ} (h0 : 1 / 2 ≤ n) (h1 : n < 1) : ∃ k : ℕ, k < 16384 ∧ g n = segRaw sqrtM sqrtC 12 k / 2 ^ 24 ∧
    (16384 + k : ℚ) ≤ n * 32768 ∧ n * 32768 ≤ 16384 + k + 1 ∧ 2899 / 4096 ≤ g n ∧ g n ≤ 4097 / 4096 := by
  obtain ⟨k, hk, ht, l1, l2⟩ := cell (N := 12) (ib := 2) (v := (n - 1 / 2) * 8) (by linarith) (by linarith)
  have hk' : k < 16384 := by norm_num at hk; exact hk
  obtain ⟨b1, b2⟩ := segRaw_bounds (m := sqrtM) (c := sqrtC) (n := 12) (k := k) (N := 4) (lo := 2899) (hi := 4097)
    (by norm_num; exact hk') (by decide +kernel)
  have hg : g n = segRaw sqrtM sqrtC 12 k / 2 ^ 24 := by unfold g; rw [ht, pw_tab]
  norm_num at l1 l2
  refine ⟨k, hk', hg, by linarith, by linarith, ?_, ?_⟩
  · rw [hg, le_div_iff₀ (by norm_num)]
    have : ((2899 * 2 ^ 12 : ℤ) : ℚ) ≤ (segRaw sqrtM sqrtC 12 k : ℚ) := by exact_mod_cast b1
    norm_num at this ⊢; linarith
  · rw [hg, div_le_iff₀ (by norm_num)]
    have : (segRaw sqrtM sqrtC 12 k : ℚ) ≤ ((4097 * 2 ^ 12 : ℤ) : ℚ) := by exact_mod_cast b2
    norm_num at this ⊢; linarith

theorem g_err {n : ℚ} (h0 : 1 / 2 ≤ n) (h1 : n < 1) : |g n ^ 2 - n| ≤ n / 440 ∧
    ∀ h : ℚ, |h - g n * root2| ≤ 1 / 8192 → |h ^ 2 - 2 * n| ≤ 2 * n / 440 := by
  obtain ⟨k, hk, hg, l1, l2, g1, g2⟩ := g_cell h0 h1
  have hc := check_all k hk
  unfold check at hc
  simp only [Bool.and_eq_true, decide_eq_true_eq] at hc
  obtain ⟨⟨⟨c1, c2⟩, c3⟩, c4⟩ := hc
  set K := segRaw sqrtM sqrtC 12 k
  have d1 : ((439 * (16384 + k + 1 : ℕ) * 2 ^ 33 : ℤ) : ℚ) ≤ ((440 * K ^ 2 : ℤ) : ℚ) := by exact_mod_cast c1
  have d2 : ((440 * K ^ 2 : ℤ) : ℚ) ≤ ((441 * (16384 + k : ℕ) * 2 ^ 33 : ℤ) : ℚ) := by exact_mod_cast c2
  have d3 : ((439 * (16384 + k + 1 : ℕ) * 2 ^ 58 : ℤ) : ℚ) ≤ ((440 * (K * 5793 - 2 ^ 23) ^ 2 : ℤ) : ℚ) := by exact_mod_cast c3
  have d4 : ((440 * (K * 5793 + 2 ^ 23) ^ 2 : ℤ) : ℚ) ≤ ((441 * (16384 + k : ℕ) * 2 ^ 58 : ℤ) : ℚ) := by exact_mod_cast c4
  push_cast at d1 d2 d3 d4
  have hK : (K : ℚ) = g n * 2 ^ 24 := by rw [hg]; norm_num
  rw [hK] at d1 d2 d3 d4
  generalize g n = G at *
  constructor
  · rw [abs_le]
    have e : (G * 2 ^ 24) ^ 2 = G ^ 2 * 2 ^ 48 := by ring
    rw [e] at d1 d2
    norm_num at d1 d2
    constructor <;> linarith
  · intro h hh
    unfold root2 at hh
    obtain ⟨h1, h2⟩ := abs_le.1 hh
    have p1 : (G * (5793 / 4096) - 1 / 8192) ^ 2 ≤ h ^ 2 := pow_le_pow_left₀ (by linarith) (by linarith) 2
    have p2 : h ^ 2 ≤ (G * (5793 / 4096) + 1 / 8192) ^ 2 := pow_le_pow_left₀ (by linarith) (by linarith) 2
    have e1 : (G * 2 ^ 24 * 5793 - 8388608) ^ 2 = (G * (5793 / 4096) - 1 / 8192) ^ 2 * 2 ^ 72 := by ring
    have e2 : (G * 2 ^ 24 * 5793 + 8388608) ^ 2 = (G * (5793 / 4096) + 1 / 8192) ^ 2 * 2 ^ 72 := by ring
    rw [e1] at d3
    rw [e2] at d4
    generalize (G * (5793 / 4096) - 1 / 8192) ^ 2 = A at *
    generalize (G * (5793 / 4096) + 1 / 8192) ^ 2 = B at *
    norm_num at d3 d4
    rw [abs_le]
    constructor <;> linarith

/-- The type of `normalized_output`. -/
def ofmt (q : QMode) (s : ℕ) : Fmt := ⟨s + 12 + 1, 1, false, q, .WRAP⟩

theorem ofmt_F (q : QMode) (s : ℕ) : (ofmt q s).F = (12 + s : ℕ) := by simp [ofmt, Fmt.F]; ring

/-- The word that is shifted by half the exponent. -/
def m1 (q : QMode) (s : ℕ) (n : ℚ) (e : ℤ) : ℚ := if e % 2 = 0 then g n else (ofmt q s).cvt (g n * root2)

theorem fit {q : QMode} {s : ℕ} {x : ℚ} (h : x ≤ 3 / 2) : x * 2 ^ (ofmt q s).F ≤ 2 ^ (ofmt q s).W - 1 := by
  rw [ofmt_F, zpow_natCast]
  have e : (2 : ℚ) ^ (ofmt q s).W = 2 * 2 ^ (12 + s) := by
    show (2 : ℚ) ^ (s + 12 + 1) = _
    rw [pow_succ, show s + 12 = 12 + s by ring]; ring
  have p : (2 : ℚ) ≤ 2 ^ (12 + s) := by
    calc (2 : ℚ) = 2 ^ 1 := by norm_num
      _ ≤ _ := pow_le_pow_right₀ (by norm_num) (by omega)
  have := mul_le_mul_of_nonneg_right h (show (0 : ℚ) ≤ 2 ^ (12 + s) by positivity)
  rw [e]; linarith

theorem odd_facts {q : QMode} {s : ℕ} (hs : 1 ≤ s) {n : ℚ} (h0 : 1 / 2 ≤ n) (h1 : n < 1) :
    |(ofmt q s).cvt (g n * root2) - g n * root2| ≤ 1 / 8192 := by
  obtain ⟨k, hk, hg, l1, l2, g1, g2⟩ := g_cell h0 h1
  have hr : g n * root2 ≤ 3 / 2 := by unfold root2; linarith
  have hr0 : 0 ≤ g n * root2 := by unfold root2; linarith
  refine le_trans (cvt_fit (o := ofmt q s) (by simp [ofmt]) rfl rfl hr0 (fit hr)).2.2.le ?_
  rw [ofmt_F, zpow_neg, zpow_natCast]
  calc ((2 : ℚ) ^ (12 + s))⁻¹ ≤ (2 ^ 13)⁻¹ := inv_anti₀ (by norm_num) (pow_le_pow_right₀ (by norm_num) (by omega))
    _ = 1 / 8192 := by norm_num

theorem half_exp (e : ℤ) : (e % 2 = 0 ∧ (2 : ℚ) ^ e = (2 ^ (e / 2)) ^ 2) ∨ (e % 2 = 1 ∧ (2 : ℚ) ^ e = 2 * (2 ^ (e / 2)) ^ 2) := by
  rcases Int.emod_two_eq_zero_or_one e with h | h
  · left; refine ⟨h, ?_⟩
    rw [pow_two, Fmt.z_add]; congr 1; omega
  · right; refine ⟨h, ?_⟩
    rw [pow_two, Fmt.z_add, ← Fmt.z_succ]; congr 1; omega

/-- The result before it is converted to the output type. -/
def core (q : QMode) (cn : Bool) (f : Fmt) (x : ℚ) : ℚ :=
  m1 q (scBits 12 (f.W - 3)) (norm cn f x).1 (norm cn f x).2 * 2 ^ ((norm cn f x).2 / 2)

theorem scBits_pos (n : ℕ) (w : ℤ) : 1 ≤ scBits n w := by unfold scBits; omega

theorem core_err {q : QMode} {cn : Bool} {f : Fmt} (hW : 1 ≤ f.W) (hS : f.S = false) {x : ℚ} (hx : f.Rep x) (h : 0 < x)
    (hc : cn = true ∨ 2 ^ (f.I - 1) ≤ x) : |core q cn f x ^ 2 - x| ≤ x / 440 ∧ 0 < core q cn f x := by
  obtain ⟨a1, a2, a3, -⟩ := norm_pos hW hS hx h hc 2
  unfold core m1
  generalize norm cn f x = ne at *
  obtain ⟨n, e⟩ := ne
  simp only at a1 a2 a3 ⊢
  have hp := Fmt.z_pos (e / 2)
  obtain ⟨b1, b2⟩ := g_err a2 a3
  obtain ⟨k, hk, hg, l1, l2, g1, g2⟩ := g_cell a2 a3
  rw [a1]
  rcases half_exp e with ⟨e1, e2⟩ | ⟨e1, e2⟩
  · rw [if_pos e1, e2]
    refine ⟨?_, mul_pos (by linarith) hp⟩
    have : (g n * 2 ^ (e / 2)) ^ 2 - n * (2 ^ (e / 2)) ^ 2 = (g n ^ 2 - n) * (2 ^ (e / 2)) ^ 2 := by ring
    rw [this, abs_mul, abs_of_pos (by positivity : (0 : ℚ) < (2 ^ (e / 2)) ^ 2)]
    have := mul_le_mul_of_nonneg_right b1 (by positivity : (0 : ℚ) ≤ (2 ^ (e / 2)) ^ 2)
    calc _ ≤ _ := this
      _ = _ := by ring
  · rw [if_neg (by omega), e2]
    have o := odd_facts (q := q) (scBits_pos 12 (f.W - 3)) a2 a3
    have b3 := b2 _ o
    generalize (ofmt q (scBits 12 (f.W - 3))).cvt (g n * root2) = r at *
    have hr : 0 < r := by have := (abs_le.1 o).1; unfold root2 at this; linarith
    refine ⟨?_, mul_pos hr hp⟩
    have : (r * 2 ^ (e / 2)) ^ 2 - n * (2 * (2 ^ (e / 2)) ^ 2) = (r ^ 2 - 2 * n) * (2 ^ (e / 2)) ^ 2 := by ring
    rw [this, abs_mul, abs_of_pos (by positivity : (0 : ℚ) < (2 ^ (e / 2)) ^ 2)]
    have := mul_le_mul_of_nonneg_right b3 (by positivity : (0 : ℚ) ≤ (2 ^ (e / 2)) ^ 2)
    calc _ ≤ _ := this
      _ = _ := by ring

theorem core_mono {q : QMode} {cn : Bool} {f : Fmt} (hW : 1 ≤ f.W) (hS : f.S = false) {x x' : ℚ} (hx : f.Rep x)
    (hx' : f.Rep x') (h : 0 < x) (hc : cn = true ∨ 2 ^ (f.I - 1) ≤ x) (hle : x ≤ x') :
    core q cn f x ≤ core q cn f x' := by
  obtain ⟨a1, a2, a3, -⟩ := norm_pos hW hS hx h hc 2
  obtain ⟨b1, b2, b3, -⟩ := norm_pos (cn := cn) hW hS hx' (by linarith) (hc.imp_right (fun h => le_trans h hle)) 2
  unfold core m1
  have hs := scBits_pos 12 ((f.W : ℤ) - 3)
  generalize scBits 12 ((f.W : ℤ) - 3) = s at *
  generalize norm cn f x = ne at *
  generalize norm cn f x' = ne' at *
  obtain ⟨n, e⟩ := ne
  obtain ⟨n', e'⟩ := ne'
  simp only at a1 a2 a3 b1 b2 b3 ⊢
  have he : e ≤ e' := exp_le_of_le a2 b3 (by rw [← a1, ← b1]; exact hle)
  obtain ⟨k, hk, hg, l1, l2, g1, g2⟩ := g_cell a2 a3
  obtain ⟨k', hk', hg', l1', l2', g1', g2'⟩ := g_cell b2 b3
  have o := abs_le.1 (odd_facts (q := q) hs a2 a3)
  have o' := abs_le.1 (odd_facts (q := q) hs b2 b3)
  have r2 : g n * root2 ≤ 4097 / 4096 * root2 := mul_le_mul_of_nonneg_right g2 (by unfold root2; norm_num)
  have r1 : 2899 / 4096 * root2 ≤ g n' * root2 := mul_le_mul_of_nonneg_right g1' (by unfold root2; norm_num)
  unfold root2 at r1 r2
  rcases eq_or_lt_of_le he with h1 | h1
  · subst h1
    have hn : n ≤ n' := by
      rw [a1, b1] at hle
      exact le_of_mul_le_mul_right hle (Fmt.z_pos e)
    have hgm := g_mono a2 hn b3
    refine mul_le_mul_of_nonneg_right ?_ (Fmt.z_pos _).le
    split_ifs
    · exact hgm
    · refine cvt_fit_mono (o := ofmt q s) (by simp [ofmt]) rfl rfl (by unfold root2; linarith)
        (mul_le_mul_of_nonneg_right hgm (by unfold root2; norm_num)) (fit (by unfold root2; linarith))
  · have hp := Fmt.z_pos (e / 2)
    have hp' := Fmt.z_pos (e' / 2)
    generalize hA : (ofmt q s).cvt (g n * root2) = A at *
    generalize hB : (ofmt q s).cvt (g n' * root2) = B at *
    rcases Int.emod_two_eq_zero_or_one e with h2 | h2
    · rw [if_pos h2]
      rcases Int.emod_two_eq_zero_or_one e' with h3 | h3
      · rw [if_pos h3]
        have p := Fmt.z_le (show e / 2 + 1 ≤ e' / 2 by omega)
        rw [Fmt.z_succ] at p
        have t1 := mul_le_mul_of_nonneg_right g2 hp.le
        have t2 := mul_le_mul_of_nonneg_right g1' hp'.le
        linarith
      · rw [if_neg (by omega)]
        have p := Fmt.z_le (show e / 2 ≤ e' / 2 by omega)
        have t1 := mul_le_mul_of_nonneg_right g2 hp.le
        have hB1 : 4097 / 4096 ≤ B := by unfold root2 at o'; linarith
        have t2 := mul_le_mul_of_nonneg_right hB1 hp'.le
        linarith
    · rw [if_neg (by omega)]
      have p := Fmt.z_le (show e / 2 + 1 ≤ e' / 2 by omega)
      rw [Fmt.z_succ] at p
      have hA1 : A ≤ 2 * (2899 / 4096) := by unfold root2 at o; linarith
      have t1 := mul_le_mul_of_nonneg_right hA1 hp.le
      have hB1 : 2899 / 4096 ≤ (if e' % 2 = 0 then g n' else B) := by
        split_ifs
        · exact g1'
        · unfold root2 at o'; linarith
      have t2 := mul_le_mul_of_nonneg_right hB1 hp'.le
      linarith

theorem tmod_two (e : ℤ) : e.tmod 2 = 0 ↔ e % 2 = 0 := by
  rw [← Int.dvd_iff_tmod_eq_zero, Int.dvd_iff_emod_eq_zero]

theorem sqrt_eq (q : QMode) (cn : Bool) {f out : Fmt} (hW : 1 ≤ f.W) (hS : f.S = false) (ho : 1 ≤ out.W) (hSo : out.S = false)
    {x : ℚ} (hx : f.Rep x) (h : 0 < x) (hc : cn = true ∨ 2 ^ (f.I - 1) ≤ x) :
    sqrt q cn f out x = some (out.cvt (core q cn f x)) := by
  obtain ⟨a1, a2, a3, z, hz⟩ := norm_pos hW hS hx h hc 2
  unfold sqrt core m1
  simp only [tmod_two]
  have hs := scBits_pos 12 ((f.W : ℤ) - 3)
  have ht : trunc (scBits 12 ((f.W : ℤ) - 3)) (((norm cn f x).1 - 1 / 2) * 8) = trunc 12 (((norm cn f x).1 - 1 / 2) * 8) := by
    apply trunc_scBits (by norm_num) (z := z)
    rw [show ((f.W : ℤ) - 3) = (f.W : ℤ) - ((2 : ℕ) + 1) by norm_num, ← hz]; norm_num
  generalize norm cn f x = ne at *
  obtain ⟨n, e⟩ := ne
  simp only at a1 a2 a3 ht ⊢
  generalize hsd : scBits 12 ((f.W : ℤ) - 3) = s at *
  have v0 : 0 ≤ (n - 1 / 2) * 8 := by linarith
  have v1 : (n - 1 / 2) * 8 < 2 ^ 2 := by linarith
  rw [segVal_eq (m := sqrtM) (c := sqrtC) (ib := 2) rfl rfl 12 s v0 v1]
  simp only [Option.bind_eq_bind, Option.bind_some, h.ne', if_false]
  obtain ⟨k, hk, htk, -, -⟩ := cell (N := s) (ib := 2) v0 v1
  obtain ⟨b1, b2⟩ := segRaw_bounds (m := sqrtM) (c := sqrtC) (n := s) (k := k) (N := 4) (lo := 2899) (hi := 4097) hk
    (by decide +kernel)
  have hg : pw (tab sqrtM 12) (tab sqrtC 12) (trunc s ((n - 1 / 2) * 8)) = g n := by unfold g; rw [ht]
  have hy : g n = segRaw sqrtM sqrtC s k / 2 ^ (12 + s) := by rw [← hg, htk, pw_tab]
  rw [hg]
  obtain ⟨_, _, _, _, _, g1, g2⟩ := g_cell a2 a3
  have hP : (0 : ℤ) < 2 ^ s := by positivity
  have hP2 : (2 : ℤ) ^ (s + 12 + 1) = 8192 * 2 ^ s := by rw [show s + 12 + 1 = s + 13 by ring, pow_add]; norm_num; ring
  have lo : minRaw (ofmt q s).W (ofmt q s).S ≤ segRaw sqrtM sqrtC s k := by simp [ofmt, minRaw]; linarith
  have hi : segRaw sqrtM sqrtC s k ≤ maxRaw (ofmt q s).W (ofmt q s).S := by
    simp only [ofmt, maxRaw, Bool.false_eq_true, if_false]; rw [hP2]; linarith
  obtain ⟨w1, w2, w3⟩ := cvt_word (f := ofmt q s) (by simp [ofmt]) (ofmt_F q s) rfl lo hi
  have hofm : (⟨s + 12 + 1, 1, false, q, .WRAP⟩ : Fmt) = ofmt q s := rfl
  rw [hofm]
  have hgy : (ofmt q s).cvt (g n) = g n := by rw [hy]; exact w1
  rw [hgy]
  have hw1 : 1 ≤ (ofmt q s).W := by simp [ofmt]
  congr 1
  split_ifs with he
  · rw [hgy]
    conv_lhs => rw [hy, w2]
    rw [leftUS_eq (fx := ofmt q s) (fo := out) hw1 ho rfl hSo ⟨lo, hi⟩, w3, ← hy]
  · have hr : g n * root2 ≤ 3 / 2 := by unfold root2; linarith
    have hr0 : 0 ≤ g n * root2 := by unfold root2; linarith
    obtain ⟨c1, c2, -⟩ := cvt_fit (o := ofmt q s) hw1 rfl rfl hr0 (fit hr)
    rw [Fmt.cvt_idem hw1, c1, Fmt.raw_val, leftUS_eq (fx := ofmt q s) (fo := out) hw1 ho rfl hSo c2]

theorem sqrt_some (q : QMode) (cn : Bool) (f out : Fmt) (x : ℚ) : ∃ y, sqrt q cn f out x = some y ∧ (x = 0 → y = out.cvt (0 : ℚ)) := by
  unfold sqrt
  obtain ⟨y, hy⟩ := segVal_isSome (m := sqrtM) (c := sqrtC) (ib := 2) rfl rfl 12 (scBits 12 (f.W - 3)) (((norm cn f x).1 - 1 / 2) * 8)
  simp only [hy, Option.bind_eq_bind, Option.bind_some]
  refine ⟨_, rfl, ?_⟩
  intro h; rw [if_pos h]

end Proof.SqrtPwl
