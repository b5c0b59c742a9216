import Verif.Proof.StdAddTree2
import Verif.Proof.HcordicExp5
import Mathlib.Algebra.BigOperators.Group.Finset.Basic
import Mathlib.Algebra.Order.BigOperators.Group.Finset
import Mathlib.Tactic.FieldSimp

/-! # Values of the IEEE adder tree -/

namespace Proof.StdAddTree
open Ac Model.StdAddTree
open Model.Bits (leadingSignU)

/-- The aligned operand with its sign. -/
def term (nosub : Bool) (M E X em d : ℕ) : ℤ :=
  if sgn M E d then -(addOp M X (mu nosub M E d) (eDifSat M em (expo M E d)) : ℤ)
  else addOp M X (mu nosub M E d) (eDifSat M em (expo M E d))

theorem total_wrap (nosub : Bool) (M E X N : ℕ) (x : ℕ → ℕ) : total nosub M E X N x =
    wrap (1 + opBits M N + X) true (∑ k ∈ Finset.range N, term nosub M E X (emax M E N x) (x k)) := by
  unfold total
  have key : ∀ n, forUp (fun k acc => wrap (1 + opBits M N + X) true (acc + toAdd nosub M E X N x k)) n 0 =
      wrap (1 + opBits M N + X) true (∑ k ∈ Finset.range n, term nosub M E X (emax M E N x) (x k)) := by
    intro n
    induction n with
    | zero =>
      rw [Finset.sum_range_zero, wrapS_of_range (by omega)]
      · rfl
      · have : (0 : ℤ) < 2 ^ (1 + opBits M N + X - 1) := by positivity
        linarith
      · positivity
    | succ n ih =>
      rw [Finset.sum_range_succ]
      simp only [forUp, ih]
      rw [wrap_add_wrap]
      unfold toAdd
      simp only []
      rw [add_comm (Finset.sum _ _), wrap_add_wrap, add_comm _ (Finset.sum _ _)]
      rfl
  exact key N

theorem term_bound {nosub : Bool} {M E X em d : ℕ} (hX : 1 ≤ X) : |term nosub M E X em d| ≤ (2 ^ (M + 1) - 1) * 2 ^ X := by
  have h1 := mu_lt nosub M E d
  obtain ⟨-, -, h3, -⟩ := addOp_spec (d := eDifSat M em (expo M E d)) hX h1
  have h4 : ((addOp M X (mu nosub M E d) (eDifSat M em (expo M E d)) : ℕ) : ℤ) ≤ (2 ^ (M + 1) - 1) * 2 ^ X := by
    have a : ((addOp M X (mu nosub M E d) (eDifSat M em (expo M E d)) : ℕ) : ℤ) ≤ (mu nosub M E d : ℤ) * 2 ^ X := by exact_mod_cast h3
    have b : (mu nosub M E d : ℤ) ≤ 2 ^ (M + 1) - 1 := by
      have : (mu nosub M E d : ℤ) < 2 ^ (M + 1) := by exact_mod_cast h1
      omega
    exact a.trans (mul_le_mul_of_nonneg_right b (by positivity))
  unfold term
  split_ifs
  · rw [abs_neg, abs_of_nonneg (Int.natCast_nonneg _)]; exact h4
  · rw [abs_of_nonneg (Int.natCast_nonneg _)]; exact h4

theorem sum_bound {nosub : Bool} {M E X N em : ℕ} (hX : 1 ≤ X) (x : ℕ → ℕ) :
    |∑ k ∈ Finset.range N, term nosub M E X em (x k)| ≤ N * ((2 ^ (M + 1) - 1) * 2 ^ X) := by
  refine (Finset.abs_sum_le_sum_abs _ _).trans ?_
  refine (Finset.sum_le_card_nsmul _ _ _ (fun k _ => term_bound hX)).trans ?_
  simp

theorem sum_lt {nosub : Bool} {M E X N em : ℕ} (hX : 1 ≤ X) (hN : 1 ≤ N) (x : ℕ → ℕ) :
    |∑ k ∈ Finset.range N, term nosub M E X em (x k)| < 2 ^ (opBits M N + X) := by
  refine lt_of_le_of_lt (sum_bound hX x) ?_
  have h : (N : ℤ) ≤ 2 ^ logN N := by exact_mod_cast le_two_pow_logN hN
  have hp : (0 : ℤ) < 2 ^ X := by positivity
  have h1 : (1 : ℤ) ≤ 2 ^ (M + 1) := one_le_pow₀ (by norm_num)
  unfold opBits
  calc (N : ℤ) * ((2 ^ (M + 1) - 1) * 2 ^ X) ≤ 2 ^ logN N * ((2 ^ (M + 1) - 1) * 2 ^ X) :=
        mul_le_mul_of_nonneg_right h (mul_nonneg (by linarith) hp.le)
    _ < 2 ^ logN N * (2 ^ (M + 1) * 2 ^ X) := by
        refine mul_lt_mul_of_pos_left ?_ (by positivity)
        exact mul_lt_mul_of_pos_right (by linarith) hp
    _ = 2 ^ (M + 1 + logN N + X) := by rw [pow_add, pow_add]; ring

theorem total_sum {nosub : Bool} {M E X N : ℕ} (hX : 1 ≤ X) (hN : 1 ≤ N) (x : ℕ → ℕ) :
    total nosub M E X N x = ∑ k ∈ Finset.range N, term nosub M E X (emax M E N x) (x k) := by
  rw [total_wrap]
  obtain ⟨h0, h1⟩ := abs_lt.1 (sum_lt (nosub := nosub) (M := M) (E := E) (em := emax M E N x) hX hN x)
  refine wrapS_of_range (by omega) ?_ ?_ <;> rw [show 1 + opBits M N + X - 1 = opBits M N + X by omega]
  · exact h0.le
  · exact h1

/-- The rounding error of the result, in units of its last place. -/
def rerr (q : QMode) (X N : ℕ) : ℚ := if q = .TRN ∨ q = .TRN_ZERO then 1 else 1 / 2 + 1 / 2 ^ (X + logN N)

theorem quant_half {q : QMode} (h : ¬ (q = .TRN ∨ q = .TRN_ZERO)) (x : ℚ) : |(quant q x : ℚ) - x| ≤ 1 / 2 := by
  have h0 := Int.floor_le x
  have h1 := Int.lt_floor_add_one x
  cases q
  case TRN => simp at h
  case TRN_ZERO => simp at h
  all_goals unfold quant; simp only []
  case RND =>
    have a := Int.floor_le (x + 1 / 2)
    have b := Int.lt_floor_add_one (x + 1 / 2)
    rw [abs_le]; constructor <;> linarith
  case RND_ZERO =>
    have a := Int.floor_le (x + 1 / 2)
    have b := Int.lt_floor_add_one (x + 1 / 2)
    have c := Int.le_ceil (x - 1 / 2)
    have d := Int.ceil_lt_add_one (x - 1 / 2)
    split_ifs <;> rw [abs_le] <;> constructor <;> linarith
  case RND_INF =>
    have a := Int.floor_le (x + 1 / 2)
    have b := Int.lt_floor_add_one (x + 1 / 2)
    have c := Int.le_ceil (x - 1 / 2)
    have d := Int.ceil_lt_add_one (x - 1 / 2)
    split_ifs <;> rw [abs_le] <;> constructor <;> linarith
  case RND_MIN_INF =>
    have c := Int.le_ceil (x - 1 / 2)
    have d := Int.ceil_lt_add_one (x - 1 / 2)
    rw [abs_le]; constructor <;> linarith
  case RND_CONV =>
    split_ifs <;> push_cast <;> rw [abs_le] <;> constructor <;> linarith
  case RND_CONV_ODD =>
    split_ifs <;> push_cast <;> rw [abs_le] <;> constructor <;> linarith

/-- The shifted magnitude. -/
theorem shifted {W R : ℕ} (hR0 : 0 < R) (hR : R < 2 ^ W) :
    2 ^ (W - 1) ≤ R * 2 ^ leadingSignU W R ∧ R * 2 ^ leadingSignU W R < 2 ^ W := by
  have hW : 1 ≤ W := by
    by_contra h
    have : W = 0 := by omega
    subst this
    omega
  have l1 := Nat.log2_self_le hR0.ne'
  have l2 := Nat.lt_log2_self (n := R)
  have l3 : Nat.log2 R < W := (Nat.log2_lt hR0.ne').2 hR
  unfold leadingSignU
  rw [if_neg hR0.ne']
  constructor
  · calc 2 ^ (W - 1) = 2 ^ Nat.log2 R * 2 ^ (W - 1 - Nat.log2 R) := by rw [← pow_add]; congr 1; omega
      _ ≤ _ := Nat.mul_le_mul_right _ l1
  · calc R * 2 ^ (W - 1 - Nat.log2 R) < 2 ^ (Nat.log2 R + 1) * 2 ^ (W - 1 - Nat.log2 R) := Nat.mul_lt_mul_of_pos_right l2 (by positivity)
      _ = 2 ^ W := by rw [← pow_add]; congr 1; omega

/-- The magnitude in units of the last place of the result. -/
def mag (X N W R : ℕ) : ℚ := (R * 2 ^ leadingSignU W R : ℕ) / 2 ^ (X + logN N)

theorem norm_spec {q : QMode} {M E X N em R : ℕ} (hX : 1 ≤ X) (hR0 : 0 < R) (hR : R < 2 ^ (opBits M N + X)) {p : ℤ}
    (hp : (em : ℤ) - leadingSignU (opBits M N + X) R + logN N = p) (hp1 : 1 ≤ p) :
    ∃ rr : ℕ, 2 ^ M ≤ rr ∧ rr ≤ 2 ^ (M + 1) ∧ (normalize q M E X N em R).normal = true ∧
      ((rr < 2 ^ (M + 1) ∧ (normalize q M E X N em R).rounded' = rr ∧ ((normalize q M E X N em R).eb : ℤ) = p % 2 ^ E) ∨
       (rr = 2 ^ (M + 1) ∧ (normalize q M E X N em R).rounded' = 2 ^ M ∧ ((normalize q M E X N em R).eb : ℤ) = (p + 1) % 2 ^ E)) ∧
      2 ^ M ≤ mag X N (opBits M N + X) R ∧ mag X N (opBits M N + X) R < 2 ^ (M + 1) ∧
      |(rr : ℚ) - mag X N (opBits M N + X) R| ≤ rerr q X N ∧
      (∀ j : ℕ, mag X N (opBits M N + X) R ≤ j → rr ≤ j) ∧ (∀ j : ℕ, mag X N (opBits M N + X) R = j → rr = j) := by
  obtain ⟨s0, s1⟩ := shifted hR0 hR
  obtain ⟨h, hh⟩ : ∃ h, X + logN N = h + 1 := ⟨X + logN N - 1, by omega⟩
  have hW : opBits M N + X = M + 1 + (h + 1) := by unfold opBits; omega
  unfold mag
  rw [hh]
  unfold Model.StdAddTree.normalize
  simp only []
  have hr : ¬ ((em : ℤ) - leadingSignU (opBits M N + X) R + logN N - 1 < 0) := by omega
  rw [decide_eq_false hr]
  simp only [Bool.false_eq_true, if_false, Bool.not_false, Bool.true_or, true_and]
  set A := R * 2 ^ leadingSignU (opBits M N + X) R with hA
  rw [Nat.mod_eq_of_lt s1]
  have hF : ((⟨opBits M N + X, opBits M N, false, q, .WRAP⟩ : Fmt).val ((A / 2 : ℕ) : ℤ)) * 2 ^ (⟨M + 2, opBits M N, false, q, .WRAP⟩ : Fmt).F =
      ((A / 2 : ℕ) : ℚ) / 2 ^ h := by
    unfold Fmt.val
    rw [mul_assoc, ← zpow_add₀ (by norm_num : (2 : ℚ) ≠ 0)]
    have e : -(⟨opBits M N + X, opBits M N, false, q, .WRAP⟩ : Fmt).F + (⟨M + 2, opBits M N, false, q, .WRAP⟩ : Fmt).F = -(h : ℤ) := by
      unfold Fmt.F opBits
      push_cast
      have : (X : ℤ) + logN N = h + 1 := by exact_mod_cast hh
      linarith
    rw [e, zpow_neg, zpow_natCast, div_eq_mul_inv]
    push_cast; rfl
  have hraw : (⟨M + 2, opBits M N, false, q, .WRAP⟩ : Fmt).cvtRaw ((⟨opBits M N + X, opBits M N, false, q, .WRAP⟩ : Fmt).val ((A / 2 : ℕ) : ℤ)) =
      wrap (M + 2) false (quant q (((A / 2 : ℕ) : ℚ) / 2 ^ h)) := by
    unfold Fmt.cvtRaw
    rw [hF]
    rfl
  rw [hraw]
  have hW1 : opBits M N + X - 1 = M + 1 + h := by omega
  rw [hW1] at s0
  rw [hW] at s1
  have y0 : ((2 ^ M : ℕ) : ℚ) ≤ ((A / 2 : ℕ) : ℚ) / 2 ^ h := by
    rw [le_div_iff₀ (by positivity)]
    have : 2 ^ M * 2 ^ h ≤ A / 2 := by
      rw [Nat.le_div_iff_mul_le (by norm_num)]
      refine le_trans (le_of_eq ?_) s0
      ring
    exact_mod_cast this
  have y1 : ((A / 2 : ℕ) : ℚ) / 2 ^ h < ((2 ^ (M + 1) : ℕ) : ℚ) := by
    rw [div_lt_iff₀ (by positivity)]
    have : A / 2 < 2 ^ (M + 1) * 2 ^ h := by
      rw [Nat.div_lt_iff_lt_mul (by norm_num)]
      refine lt_of_lt_of_eq s1 ?_
      ring
    exact_mod_cast this
  have yy : ((A / 2 : ℕ) : ℚ) / 2 ^ h ≤ (A : ℚ) / 2 ^ (h + 1) := by
    have : ((A / 2 : ℕ) : ℚ) ≤ (A : ℚ) / 2 := Nat.cast_div_le
    rw [pow_succ', ← div_div]
    exact div_le_div_of_nonneg_right this (by positivity)
  have yz : (A : ℚ) / 2 ^ (h + 1) ≤ ((A / 2 : ℕ) : ℚ) / 2 ^ h + 1 / 2 ^ (h + 1) := by
    have : (A : ℚ) ≤ 2 * ((A / 2 : ℕ) : ℚ) + 1 := by
      have : A ≤ 2 * (A / 2) + 1 := by omega
      exact_mod_cast this
    rw [pow_succ', show ((A / 2 : ℕ) : ℚ) / 2 ^ h = 2 * ((A / 2 : ℕ) : ℚ) / (2 * 2 ^ h) by field_simp, ← add_div]
    exact div_le_div_of_nonneg_right this (by positivity)
  have q0 : (2 ^ M : ℤ) ≤ quant q (((A / 2 : ℕ) : ℚ) / 2 ^ h) := le_quant (by push_cast at y0 ⊢; exact y0)
  have q1 : quant q (((A / 2 : ℕ) : ℚ) / 2 ^ h) ≤ (2 ^ (M + 1) : ℤ) := quant_le (by push_cast at y1 ⊢; exact y1.le)
  have hpM : (0 : ℤ) < 2 ^ M := by positivity
  rw [wrapU_of_lt (by linarith) (by rw [pow_succ] at q1 ⊢; rw [pow_succ]; linarith)]
  obtain ⟨rr, hrr⟩ := Int.eq_ofNat_of_zero_le (show 0 ≤ quant q (((A / 2 : ℕ) : ℚ) / 2 ^ h) by linarith)
  rw [hrr] at q0 q1
  have r0 : 2 ^ M ≤ rr := by exact_mod_cast q0
  have r1 : rr ≤ 2 ^ (M + 1) := by exact_mod_cast q1
  rw [hrr, Int.toNat_natCast]
  refine ⟨rr, r0, r1, ?_, ?_, ?_, ?_, ?_, ?_⟩
  · have e1 : ((em : ℤ) - leadingSignU (opBits M N + X) R + logN N - 1) = p - 1 := by omega
    rw [e1]
    have ebe : ∀ c : ℤ, ((wrap E false (wrap E false (p - 1) + (c + 1))).toNat : ℤ) = (p + c) % 2 ^ E := by
      intro c
      rw [Int.toNat_of_nonneg (wrapU_nonneg _ _), wrap_add_wrap, wrap_false]
      congr 1; ring
    rcases eq_or_lt_of_le r1 with hr1 | hr1
    · right
      have htb : rr.testBit (M + 1) = true := by rw [hr1]; exact Nat.testBit_two_pow_self
      have hq : q ≠ .TRN_ZERO := by
        rintro rfl
        have hdn := Proof.Hcordic.quant_down (q := .TRN_ZERO) rfl (show 0 ≤ ((A / 2 : ℕ) : ℚ) / 2 ^ h by positivity)
        rw [hrr] at hdn
        have h2 : ((rr : ℤ) : ℚ) ≤ ((A / 2 : ℕ) : ℚ) / 2 ^ h := by
          have := Int.floor_le (((A / 2 : ℕ) : ℚ) / 2 ^ h)
          rw [← hdn] at this
          exact this
        rw [hr1] at h2
        push_cast at h2 y1
        linarith
      rw [htb, decide_eq_true hq]
      simp only [Bool.and_true, if_true]
      refine ⟨hr1, ?_, ebe 1⟩
      rw [hr1, pow_succ]; omega
    · left
      have htb : rr.testBit (M + 1) = false := Nat.testBit_lt_two_pow hr1
      rw [htb]
      simp only [Bool.false_and, Bool.false_eq_true, if_false]
      refine ⟨hr1, trivial, ?_⟩
      have := ebe 0
      rw [add_zero] at this
      exact this
  · push_cast at y0 ⊢; linarith
  · rw [div_lt_iff₀ (by positivity)]
    have : A < 2 ^ (M + 1) * 2 ^ (h + 1) := by rw [← pow_add]; exact s1
    exact_mod_cast this
  · have hz : ((rr : ℤ) : ℚ) = quant q (((A / 2 : ℕ) : ℚ) / 2 ^ h) := by rw [hrr]
    unfold rerr
    rw [hh]
    split_ifs with hq
    · have hd := Proof.Hcordic.quant_down (q := q) (by rcases hq with rfl | rfl <;> rfl) (show 0 ≤ ((A / 2 : ℕ) : ℚ) / 2 ^ h by positivity)
      rw [hrr] at hd
      have hfl : (rr : ℤ) = ((A / 2 ^ (h + 1) : ℕ) : ℤ) := by
        have e : ((A / 2 : ℕ) : ℚ) / 2 ^ h = ((A / 2 : ℕ) : ℚ) / ((2 ^ h : ℕ) : ℚ) := by push_cast; rfl
        rw [e, Int.floor_div_natCast, Int.floor_natCast] at hd
        have : (rr : ℤ) = ((A / 2 / 2 ^ h : ℕ) : ℤ) := by rw [hd]; push_cast; rfl
        rw [this, Nat.div_div_eq_div_mul, pow_succ']
      have hfl' : rr = A / 2 ^ (h + 1) := by exact_mod_cast hfl
      have a1 : (rr : ℚ) ≤ (A : ℚ) / 2 ^ (h + 1) := by
        rw [hfl', le_div_iff₀ (by positivity)]
        exact_mod_cast Nat.div_mul_le_self A (2 ^ (h + 1))
      have a2 : (A : ℚ) / 2 ^ (h + 1) ≤ rr + 1 := by
        rw [hfl', div_le_iff₀ (by positivity)]
        have := (Nat.lt_div_mul_add (a := A) (b := 2 ^ (h + 1)) (by positivity)).le
        have e : (A / 2 ^ (h + 1) + 1) * 2 ^ (h + 1) = A / 2 ^ (h + 1) * 2 ^ (h + 1) + 2 ^ (h + 1) := by ring
        rw [← e] at this
        exact_mod_cast this
      rw [abs_le]; constructor <;> linarith
    · have hf := quant_half hq (((A / 2 : ℕ) : ℚ) / 2 ^ h)
      rw [← hz] at hf
      obtain ⟨f0, f1⟩ := abs_le.1 hf
      push_cast at f0 f1
      rw [abs_le]; constructor <;> linarith
  · intro j hj
    have : quant q (((A / 2 : ℕ) : ℚ) / 2 ^ h) ≤ (j : ℤ) := quant_le (by push_cast; linarith)
    rw [hrr] at this
    exact_mod_cast this
  · intro j hj
    have hA2 : A = j * 2 ^ (h + 1) := by
      rw [div_eq_iff (by positivity)] at hj
      exact_mod_cast hj
    have : ((A / 2 : ℕ) : ℚ) / 2 ^ h = ((j : ℤ) : ℚ) := by
      rw [hA2, pow_succ, ← mul_assoc, Nat.mul_div_cancel _ (by norm_num)]
      push_cast
      field_simp
    rw [this, quant_intCast] at hrr
    exact_mod_cast hrr.symm

end Proof.StdAddTree
