import Verif.Proof.Reciprocal
import Verif.Proof.PwlHa
import Verif.Proof.SqrtPwl
import Verif.Proof.IsqrtPwl
import Verif.Proof.IsqrtVha
import Verif.Proof.LogPwl2
import Verif.Proof.PowPwl
import Verif.Proof.Atan
import Verif.Proof.Sigmoid
import Verif.Proof.Tanh

/-! # The values of the PWL functions as functions of the argument alone -/

namespace Proof.Scaling
open Ac Model.Pwl Model.PwlFixed Model.PwlHa Model.Normalize Proof.Pwl Proof.PwlFixed

/-- The exponent of a positive number. -/
def ex (x : ℚ) : ℤ := Int.log 2 x + 1
/-- The mantissa of a positive number, in `[1/2, 1)`. -/
def mt (x : ℚ) : ℚ := x * 2 ^ (-ex x)

theorem mt_ex (x : ℚ) : x = mt x * 2 ^ ex x := by
  unfold mt
  rw [mul_assoc, ← zpow_add₀ (by norm_num)]
  simp

theorem mt_ge {x : ℚ} (h : 0 < x) : 1 / 2 ≤ mt x := by
  have := Int.zpow_log_le_self (b := 2) (by norm_num) h
  unfold mt ex
  rw [neg_add, zpow_add₀ (by norm_num), zpow_neg]
  have hz := Fmt.z_pos (Int.log 2 x)
  push_cast at this
  have e : 1 ≤ x * ((2 : ℚ) ^ Int.log 2 x)⁻¹ := by
    rw [← div_eq_mul_inv, one_le_div hz]; exact this
  norm_num
  linarith

theorem mt_lt (x : ℚ) : mt x < 1 := by
  have := Int.lt_zpow_succ_log_self (b := 2) (by norm_num) x
  unfold mt ex
  push_cast at this
  rw [zpow_neg, ← div_eq_mul_inv, div_lt_one (Fmt.z_pos _)]
  exact this

theorem uniq {x n : ℚ} {e : ℤ} (h : 0 < x) (hx : x = n * 2 ^ e) (h0 : 1 / 2 ≤ n) (h1 : n < 1) : n = mt x ∧ e = ex x := by
  have he : e = ex x := le_antisymm
    (exp_le_of_le h0 (mt_lt x) (by rw [← hx, ← mt_ex])) (exp_le_of_le (mt_ge h) h1 (by rw [← hx, ← mt_ex]))
  refine ⟨?_, he⟩
  unfold mt
  rw [← he]
  conv_rhs => rw [hx]
  rw [mul_assoc, ← zpow_add₀ (by norm_num)]
  simp

theorem mul_pow {x : ℚ} (h : 0 < x) (k : ℤ) : mt (2 ^ k * x) = mt x ∧ ex (2 ^ k * x) = ex x + k := by
  have hz := Fmt.z_pos k
  obtain ⟨a, b⟩ := uniq (x := 2 ^ k * x) (n := mt x) (e := ex x + k) (mul_pos hz h) (by
    rw [zpow_add₀ (by norm_num), ← mul_assoc, ← mt_ex]; ring) (mt_ge h) (mt_lt x)
  exact ⟨a.symm, b.symm⟩

theorem one : mt 1 = 1 / 2 ∧ ex 1 = 1 := by
  obtain ⟨a, b⟩ := uniq (x := 1) (n := 1 / 2) (e := 1) (by norm_num) (by norm_num) (by norm_num) (by norm_num)
  exact ⟨a.symm, b.symm⟩

theorem two : mt 2 = 1 / 2 ∧ ex 2 = 2 := by
  obtain ⟨a, b⟩ := uniq (x := 2) (n := 1 / 2) (e := 2) (by norm_num) (by norm_num) (by norm_num) (by norm_num)
  exact ⟨a.symm, b.symm⟩

/-- A function of the magnitude, made odd. -/
def odd (g : ℚ → ℚ) (x : ℚ) : ℚ := if x < 0 then -g |x| else g |x|

theorem odd_neg (g : ℚ → ℚ) {x : ℚ} (h : x ≠ 0) : odd g (-x) = -odd g x := by
  unfold odd
  rw [abs_neg]
  rcases lt_or_gt_of_ne h with a | a
  · rw [if_neg (by linarith), if_pos a, neg_neg]
  · rw [if_pos (by linarith), if_neg (by linarith)]

theorem odd_pos (g : ℚ → ℚ) {x : ℚ} (h : 0 < x) : odd g x = g x := by
  unfold odd
  rw [if_neg (by linarith), abs_of_pos h]

theorem odd_scale {g : ℚ → ℚ} {k : ℤ} {c : ℚ} (hg : ∀ x, 0 < x → g (2 ^ k * x) = c * g x) {x : ℚ} (h : x ≠ 0) :
    odd g (2 ^ k * x) = c * odd g x := by
  have hz := Fmt.z_pos k
  unfold odd
  rw [abs_mul, abs_of_pos hz, hg _ (abs_pos.2 h)]
  have e : 2 ^ k * x < 0 ↔ x < 0 := by
    constructor
    · intro a; by_contra hc; have := mul_nonneg hz.le (not_lt.1 hc); linarith
    · exact fun a => mul_neg_of_pos_of_neg hz a
  simp only [e]
  split_ifs <;> ring

/-- The magnitude of the reciprocal. -/
def rec (x : ℚ) : ℚ := Proof.Reciprocal.g (mt x) * 2 ^ (-ex x)

theorem core_rec {f : Fmt} (hW : 1 ≤ f.W) {x : ℚ} (hx : f.Rep x) (h : x ≠ 0) : Proof.Reciprocal.core f |x| = rec |x| := by
  obtain ⟨a1, a2, a3, -⟩ := Proof.Reciprocal.norm_facts hW hx h
  obtain ⟨e1, e2⟩ := uniq (abs_pos.2 h) a1 a2 a3
  unfold Proof.Reciprocal.core rec
  rw [e1, e2]

theorem rec_scale (k : ℤ) {x : ℚ} (h : 0 < x) : rec (2 ^ k * x) = 2 ^ (-k) * rec x := by
  obtain ⟨a, b⟩ := mul_pow h k
  unfold rec
  rw [a, b, neg_add, zpow_add₀ (by norm_num)]
  ring

/-- The magnitude of the reciprocals by the finer tables. -/
def recG (m c : List ℤ) (p ib : ℕ) (x : ℚ) : ℚ := Proof.PwlHa.g m c p ib (mt x) * 2 ^ (-ex x)

theorem core_recG {m c : List ℤ} {p ib : ℕ} {cn : Bool} {f : Fmt} (hW : 1 ≤ f.W) {x : ℚ} (hx : f.Rep x) (h : x ≠ 0)
    (hc : Proof.PwlHa.Norm cn f x) : Proof.PwlHa.core m c p ib cn f |x| = recG m c p ib |x| := by
  obtain ⟨a1, a2, a3, -⟩ := Proof.PwlHa.norm_facts hW hx h hc 0
  obtain ⟨e1, e2⟩ := uniq (abs_pos.2 h) a1 a2 a3
  unfold Proof.PwlHa.core recG
  rw [e1, e2]

theorem recG_scale (m c : List ℤ) (p ib : ℕ) (k : ℤ) {x : ℚ} (h : 0 < x) :
    recG m c p ib (2 ^ k * x) = 2 ^ (-k) * recG m c p ib x := by
  obtain ⟨a, b⟩ := mul_pow h k
  unfold recG
  rw [a, b, neg_add, zpow_add₀ (by norm_num)]
  ring

theorem norm_eq {cn : Bool} {f : Fmt} (hW : 1 ≤ f.W) (hS : f.S = false) {x : ℚ} (hx : f.Rep x) (h : 0 < x)
    (hc : cn = true ∨ 2 ^ (f.I - 1) ≤ x) : norm cn f x = (mt x, ex x) := by
  obtain ⟨a1, a2, a3, -⟩ := norm_pos hW hS hx h hc 0
  obtain ⟨e1, e2⟩ := uniq h a1 a2 a3
  exact Prod.ext e1 e2

/-- The square root, for a table that is read with `s` fraction bits. -/
def sqv (q : QMode) (s : ℕ) (x : ℚ) : ℚ := Proof.SqrtPwl.m1 q s (mt x) (ex x) * 2 ^ (ex x / 2)

theorem four (k : ℤ) : (4 : ℚ) ^ k = 2 ^ (2 * k) := by rw [zpow_mul]; norm_num

theorem sqv_scale (q : QMode) (s : ℕ) (k : ℤ) {x : ℚ} (h : 0 < x) : sqv q s (4 ^ k * x) = 2 ^ k * sqv q s x := by
  rw [four]
  obtain ⟨a, b⟩ := mul_pow h (2 * k)
  unfold sqv Proof.SqrtPwl.m1
  rw [a, b, Int.add_mul_emod_self_left, Int.add_mul_ediv_left _ _ (by norm_num), zpow_add₀ (by norm_num)]
  ring

/-- The inverse square root. -/
def isq (q : QMode) (x : ℚ) : ℚ := Proof.IsqrtPwl.m1 q (mt x) (ex x) * 2 ^ (-(ex x / 2))

theorem isq_scale (q : QMode) (k : ℤ) {x : ℚ} (h : 0 < x) : isq q (4 ^ k * x) = 2 ^ (-k) * isq q x := by
  rw [four]
  obtain ⟨a, b⟩ := mul_pow h (2 * k)
  unfold isq Proof.IsqrtPwl.m1
  rw [a, b, Int.add_mul_emod_self_left, Int.add_mul_ediv_left _ _ (by norm_num), neg_add, zpow_add₀ (by norm_num)]
  ring

/-- The inverse square root by the finer table. -/
def isqV (q : QMode) (x : ℚ) : ℚ := Proof.IsqrtVha.m1 q (mt x) (ex x) * 2 ^ (-(ex x / 2))

theorem isqV_scale (q : QMode) (k : ℤ) {x : ℚ} (h : 0 < x) : isqV q (4 ^ k * x) = 2 ^ (-k) * isqV q x := by
  rw [four]
  obtain ⟨a, b⟩ := mul_pow h (2 * k)
  unfold isqV Proof.IsqrtVha.m1
  rw [a, b, Int.add_mul_emod_self_left, Int.add_mul_ediv_left _ _ (by norm_num), neg_add, zpow_add₀ (by norm_num)]
  ring

/-- The logarithm. -/
def lg (x : ℚ) : ℚ := Proof.LogPwl.g (mt x) + ex x

theorem lg_scale (k : ℤ) {x : ℚ} (h : 0 < x) : lg (2 ^ k * x) = k + lg x := by
  obtain ⟨a, b⟩ := mul_pow h k
  unfold lg
  rw [a, b]
  push_cast
  ring

theorem core_lg {cn : Bool} {f : Fmt} (hW : 1 ≤ f.W) (hS : f.S = false) {x : ℚ} (hx : f.Rep x) (h : 0 < x)
    (hc : cn = true ∨ 2 ^ (f.I - 1) ≤ x) : Proof.LogPwl.core cn f x = lg x := by
  unfold Proof.LogPwl.core lg
  rw [norm_eq hW hS hx h hc]

theorem pow_scale (n : ℤ) (x : ℚ) : Proof.PowPwl.core (x + n) = 2 ^ n * Proof.PowPwl.core x := by
  unfold Proof.PowPwl.core
  rw [Int.fract_add_intCast, Int.floor_add_intCast, zpow_add₀ (by norm_num)]
  ring

theorem trunc12 {y y' : ℚ} (h : ⌊y * 4096⌋ = ⌊y' * 4096⌋) : Proof.PowPwl.core y = Proof.PowPwl.core y' := by
  have fl (z : ℚ) : ⌊z⌋ = ⌊z * 4096⌋ / 4096 := by
    have := Int.floor_div_natCast (z * 4096) 4096
    push_cast at this
    rw [← this, mul_div_assoc]
    norm_num
  have fr (z : ℚ) : ⌊Int.fract z * 4 * 2 ^ 10⌋ = ⌊z * 4096⌋ - 4096 * ⌊z⌋ := by
    have : Int.fract z * 4 * 2 ^ 10 = z * 4096 - ((4096 * ⌊z⌋ : ℤ) : ℚ) := by
      unfold Int.fract; push_cast; ring
    rw [this, Int.floor_sub_intCast]
  have e1 : ⌊y⌋ = ⌊y'⌋ := by rw [fl y, fl y', h]
  unfold Proof.PowPwl.core Proof.PowPwl.g trunc
  rw [fr y, fr y', h, e1]

theorem core_exp {n : ℕ} (hn : 12 ≤ n) (f : Fmt) (x : ℚ) :
    Proof.PowPwl.core (Proof.PowPwl.ex n f x) = Proof.PowPwl.core (x * log2e) := by
  have hF : ∃ d : ℕ, (piiExp n f).F = (12 : ℤ) + d := by
    refine ⟨((piiExp n f).F - 12).toNat, ?_⟩
    have : 12 ≤ (piiExp n f).F := by
      unfold Fmt.F piiExp
      simp only
      split_ifs with h
      · push_cast; omega
      · omega
    omega
  obtain ⟨d, hd⟩ := hF
  apply trunc12
  unfold Proof.PowPwl.ex
  rw [hd]
  generalize x * log2e = y
  have h2 : (2 : ℚ) ^ ((12 : ℤ) + d) = 4096 * 2 ^ d := by
    rw [zpow_add₀ (by norm_num), zpow_natCast]; norm_num
  have hp : (0 : ℚ) < 2 ^ d := by positivity
  rw [zpow_neg, h2]
  have e : (⌊y * (4096 * 2 ^ d)⌋ : ℚ) * (4096 * 2 ^ d)⁻¹ * 4096 = (⌊y * (4096 * 2 ^ d)⌋ : ℚ) / ((2 ^ d : ℕ) : ℚ) := by
    push_cast; field_simp
  rw [e]
  have a := Int.floor_div_natCast (y * (4096 * 2 ^ d)) (2 ^ d)
  have b := Int.floor_div_natCast ((⌊y * (4096 * 2 ^ d)⌋ : ℚ)) (2 ^ d)
  rw [Int.floor_intCast] at b
  rw [b, ← a]
  congr 1
  push_cast; field_simp

end Proof.Scaling
