import Verif.Props.DivFixed
import Verif.Ac.Arith

/-! # C90: laws of the fixed-point quotient

What a user of a division relies on besides its precision: the order of the quotients follows the order of the operands, a
change of sign of an operand changes the sign of the quotient, the quotient depends on the values of the operands and not on
their types, and division by one is a conversion. -/

namespace Props.DivLaws
open Ac Model.DivFixed Props.DivFixed

/-- Signed operand and quotient types for which the division is correct: those that do not wrap and compile, and those that
wrap and reach the digits of the quotient. -/
def Types (fn fd fq : Fmt) : Prop :=
  1 ≤ fn.W ∧ 1 ≤ fd.W ∧ 1 ≤ fq.W ∧ fq.S = true ∧ (fq.O ≠ .WRAP ∧ 1 ≤ fn.I + fd.F + fq.F ∨ fq.O = .WRAP ∧ Reaches fn fd fq)

/-- Words of a signed type. -/
def Word (f : Fmt) (r : ℤ) : Prop := -2 ^ (f.W - 1) ≤ r ∧ r < 2 ^ (f.W - 1)

theorem quo (noSat : Bool) {fn fd fq : Fmt} (h : Types fn fd fq) {N D : ℤ} (hN : Word fn N) (hD : Word fd D) (h0 : D ≠ 0) (old : ℚ) :
    (divS noSat fn fd fq N D old).1 = fq.cvt (fn.val N / fd.val D) := by
  obtain ⟨a, b, c, d, e | e⟩ := h
  · exact (C04_signed_sat a b c d e.1 e.2 hN.1 hN.2 hD.1 hD.2 h0 old).1
  · exact (C04_signed_wrap_partial a b c d e.1 e.2 hN.1 hN.2 hD.1 hD.2 h0 old).1

theorem val_pos {f : Fmt} {r : ℤ} : 0 < f.val r ↔ 0 < r := by
  unfold Fmt.val
  rw [mul_pos_iff_of_pos_right (Fmt.z_pos _)]; exact_mod_cast Iff.rfl

theorem val_neg (f : Fmt) (r : ℤ) : f.val (-r) = -f.val r := by unfold Fmt.val; push_cast; ring

theorem val_nonneg {f : Fmt} {r : ℤ} (h : 0 ≤ r) : 0 ≤ f.val r := by
  unfold Fmt.val; exact mul_nonneg (by exact_mod_cast h) (Fmt.z_pos _).le

/-- **C90**, order, unsigned: a larger dividend gives no smaller quotient and a larger divisor no larger one, in types that
saturate. -/
theorem C90_order_unsigned (noSat : Bool) {fn fd fq : Fmt} (hn : 1 ≤ fn.W) (hd : 1 ≤ fd.W) (hq : 1 ≤ fq.W) (hS : fq.S = false)
    (hr : Reaches fn fd fq) (hO : fq.O = .SAT ∨ fq.O = .SAT_SYM) {N N' D D' : ℤ} (h0 : 0 ≤ N) (hN : N ≤ N') (h1 : N' < 2 ^ fn.W)
    (d0 : 0 < D') (hD : D' ≤ D) (d1 : D < 2 ^ fd.W) (old old' : ℚ) :
    (divU noSat fn fd fq N D old).1 ≤ (divU noSat fn fd fq N' D' old').1 := by
  rw [(C04_unsigned_partial hn hd hq hS hr h0 (by omega) (by omega) d1 old).1,
    (C04_unsigned_partial hn hd hq hS hr (by omega) h1 d0 (by omega) old').1]
  apply Fmt.cvt_mono hO
  exact div_le_div₀ (val_nonneg (by omega)) (Fmt.val_le.2 hN) (val_pos.2 d0) (Fmt.val_le.2 hD)

example : (divU false ⟨8, 4, false, .TRN, .WRAP⟩ ⟨6, 3, false, .TRN, .WRAP⟩ ⟨5, 3, false, .TRN, .SAT⟩ 100 13 0).1 = 15 / 4 ∧
    (divU false ⟨8, 4, false, .TRN, .WRAP⟩ ⟨6, 3, false, .TRN, .WRAP⟩ ⟨5, 3, false, .TRN, .SAT⟩ 101 9 0).1 = 11 / 2 ∧
    Reaches ⟨8, 4, false, .TRN, .WRAP⟩ ⟨6, 3, false, .TRN, .WRAP⟩ ⟨5, 3, false, .TRN, .SAT⟩ := by
  refine ⟨by decide +kernel, by decide +kernel, by unfold Reaches; decide⟩

/-- **C90**, order of the dividends, signed: it is kept by a positive divisor and reversed by a negative one. -/
theorem C90_order_dividend (noSat : Bool) {fn fd fq : Fmt} (h : Types fn fd fq) (hO : fq.O = .SAT ∨ fq.O = .SAT_SYM) {N N' D : ℤ}
    (hN : Word fn N) (hN' : Word fn N') (hD : Word fd D) (hle : N ≤ N') (old old' : ℚ) :
    (0 < D → (divS noSat fn fd fq N D old).1 ≤ (divS noSat fn fd fq N' D old').1) ∧
    (D < 0 → (divS noSat fn fd fq N' D old').1 ≤ (divS noSat fn fd fq N D old).1) := by
  refine ⟨fun d => ?_, fun d => ?_⟩
  · rw [quo noSat h hN hD (by omega), quo noSat h hN' hD (by omega)]
    exact Fmt.cvt_mono hO (div_le_div_of_nonneg_right (Fmt.val_le.2 hle) (val_pos.2 d).le)
  · rw [quo noSat h hN hD (by omega), quo noSat h hN' hD (by omega)]
    have : 0 < fd.val (-D) := val_pos.2 (by omega)
    rw [val_neg] at this
    exact Fmt.cvt_mono hO (div_le_div_of_nonpos_of_le (by linarith) (Fmt.val_le.2 hle))

example : Types ⟨8, 4, true, .TRN, .WRAP⟩ ⟨6, 3, true, .TRN, .WRAP⟩ ⟨7, 4, true, .TRN, .SAT⟩ ∧ Word ⟨6, 3, true, .TRN, .WRAP⟩ (-20) ∧
    (divS false ⟨8, 4, true, .TRN, .WRAP⟩ ⟨6, 3, true, .TRN, .WRAP⟩ ⟨7, 4, true, .TRN, .SAT⟩ (-100) (-20) 0).1 = 5 / 2 ∧
    (divS false ⟨8, 4, true, .TRN, .WRAP⟩ ⟨6, 3, true, .TRN, .WRAP⟩ ⟨7, 4, true, .TRN, .SAT⟩ 100 (-20) 0).1 = -5 / 2 := by
  refine ⟨by unfold Types Reaches; decide, by unfold Word; decide, by decide +kernel, by decide +kernel⟩

/-- **C90**, order of the divisors: among divisors of one sign a larger one gives a smaller quotient of a positive dividend and a
larger quotient of a negative one. -/
theorem C90_order_divisor (noSat : Bool) {fn fd fq : Fmt} (h : Types fn fd fq) (hO : fq.O = .SAT ∨ fq.O = .SAT_SYM) {N D D' : ℤ}
    (hN : Word fn N) (hD : Word fd D) (hD' : Word fd D') (hle : D ≤ D') (hs : 0 < D ∨ D' < 0) (old old' : ℚ) :
    (0 ≤ N → (divS noSat fn fd fq N D' old').1 ≤ (divS noSat fn fd fq N D old).1) ∧
    (N ≤ 0 → (divS noSat fn fd fq N D old).1 ≤ (divS noSat fn fd fq N D' old').1) := by
  have inv : (fd.val D')⁻¹ ≤ (fd.val D)⁻¹ := by
    rcases hs with d | d
    · exact inv_anti₀ (val_pos.2 d) (Fmt.val_le.2 hle)
    · have a : 0 < fd.val (-D') := val_pos.2 (by omega)
      have b : fd.val (-D') ≤ fd.val (-D) := Fmt.val_le.2 (by omega)
      have := inv_anti₀ a b
      rw [val_neg, val_neg, inv_neg, inv_neg] at this
      linarith
  rw [quo noSat h hN hD (by omega), quo noSat h hN hD' (by omega)]
  refine ⟨fun n => Fmt.cvt_mono hO ?_, fun n => Fmt.cvt_mono hO ?_⟩ <;> rw [div_eq_mul_inv, div_eq_mul_inv]
  · exact mul_le_mul_of_nonneg_left inv (val_nonneg n)
  · have : 0 ≤ fn.val (-N) := val_nonneg (by omega)
    rw [val_neg] at this
    exact mul_le_mul_of_nonpos_left inv (by linarith)

example : (divS false ⟨8, 4, true, .TRN, .WRAP⟩ ⟨6, 3, true, .TRN, .WRAP⟩ ⟨7, 4, true, .TRN, .SAT⟩ (-100) 20 0).1 = -5 / 2 ∧
    (divS false ⟨8, 4, true, .TRN, .WRAP⟩ ⟨6, 3, true, .TRN, .WRAP⟩ ⟨7, 4, true, .TRN, .SAT⟩ (-100) 25 0).1 = -2 := by
  constructor <;> decide +kernel

/-- A quotient type that wraps does not keep the order. -/
theorem C90_order_wrong : ∃ (fn fd fq : Fmt) (N N' D : ℤ), Types fn fd fq ∧ Word fn N ∧ Word fn N' ∧ Word fd D ∧ N ≤ N' ∧ 0 < D ∧
    (divS false fn fd fq N' D 0).1 < (divS false fn fd fq N D 0).1 :=
  ⟨⟨8, 8, true, .TRN, .WRAP⟩, ⟨4, 4, true, .TRN, .WRAP⟩, ⟨4, 4, true, .TRN, .WRAP⟩, 7, 8, 1, by unfold Types Reaches; decide,
    by unfold Word; decide, by unfold Word; decide, by unfold Word; decide, by decide, by decide, by decide +kernel⟩

/-- Conversion with a rounding mode that treats both signs alike. -/
theorem cvt_neg {fq : Fmt} (c : 1 ≤ fq.W) (d : fq.S = true) (hQ : fq.Q ∈ [QMode.RND_ZERO, .RND_INF, .RND_CONV, .RND_CONV_ODD, .TRN_ZERO])
    {v : ℚ} (hv : fq.O = .SAT_SYM ∨ |v| ≤ fq.maxVal) : fq.cvt (-v) = -fq.cvt v := by
  have hs : Model.DivFixed.symm fq.Q = true := by unfold Model.DivFixed.symm; simpa using hQ
  unfold Fmt.cvt Fmt.cvtRaw
  rw [neg_mul, Proof.DivFixed.quant_neg hs, ← val_neg]
  congr 1
  rcases hv with hv | hv
  · rw [hv, d]
    have : (1 : ℤ) ≤ 2 ^ (fq.W - 1) := one_le_pow₀ (by norm_num)
    simp only [ovf, maxRaw, if_true]
    split_ifs <;> omega
  · have p := Fmt.z_pos fq.F
    have m : (2 : ℚ) ^ (-fq.F) * 2 ^ fq.F = 1 := by rw [Fmt.z_add, neg_add_cancel, zpow_zero]
    have w : fq.maxVal * 2 ^ fq.F = (maxRaw fq.W fq.S : ℤ) := by unfold Fmt.maxVal Fmt.val; rw [mul_assoc, m, mul_one]
    obtain ⟨l, u⟩ := abs_le.1 hv
    have q1 : quant fq.Q (v * 2 ^ fq.F) ≤ maxRaw fq.W fq.S := by
      apply quant_le; rw [← w]; exact mul_le_mul_of_nonneg_right u p.le
    have q0 : -maxRaw fq.W fq.S ≤ quant fq.Q (v * 2 ^ fq.F) := by
      apply le_quant; push_cast; rw [← w, ← neg_mul]; exact mul_le_mul_of_nonneg_right l p.le
    have lo : loRaw fq.W fq.S fq.O ≤ -maxRaw fq.W fq.S := by
      rw [d]; cases fq.O <;> simp [loRaw, minRaw, maxRaw]
    rw [ovf_of_range c (by omega) (by omega), ovf_of_range c (by omega) q1]

/-- **C90**, signs: with a rounding mode that treats both signs alike, changing the sign of the dividend or of the divisor changes
the sign of the quotient, if the type saturates symmetrically or holds the quotient and its opposite after rounding. -/
theorem C90_sign_partial (noSat : Bool) {fn fd fq : Fmt} (h : Types fn fd fq)
    (hQ : fq.Q ∈ [QMode.RND_ZERO, .RND_INF, .RND_CONV, .RND_CONV_ODD, .TRN_ZERO]) {N D : ℤ} (hN : Word fn N) (hD : Word fd D)
    (h0 : D ≠ 0) (hO : fq.O = .SAT_SYM ∨ |fn.val N / fd.val D| ≤ fq.maxVal) (old old' : ℚ) :
    (Word fn (-N) → (divS noSat fn fd fq (-N) D old').1 = -(divS noSat fn fd fq N D old).1) ∧
    (Word fd (-D) → (divS noSat fn fd fq N (-D) old').1 = -(divS noSat fn fd fq N D old).1) := by
  refine ⟨fun hw => ?_, fun hw => ?_⟩
  · rw [quo noSat h hN hD h0, quo noSat h hw hD h0, val_neg, neg_div, cvt_neg h.2.2.1 h.2.2.2.1 hQ hO]
  · rw [quo noSat h hN hD h0, quo noSat h hN hw (by omega), val_neg, div_neg, cvt_neg h.2.2.1 h.2.2.2.1 hQ hO]

example : (divS false ⟨8, 4, true, .TRN, .WRAP⟩ ⟨6, 3, true, .TRN, .WRAP⟩ ⟨7, 4, true, .RND_CONV, .SAT⟩ 100 (-13) 0).1 = -31 / 8 ∧
    (divS false ⟨8, 4, true, .TRN, .WRAP⟩ ⟨6, 3, true, .TRN, .WRAP⟩ ⟨7, 4, true, .RND_CONV, .SAT⟩ 100 13 0).1 = 31 / 8 := by
  constructor <;> decide +kernel

/-- With truncation toward minus infinity, or asymmetric saturation, it does not. -/
theorem C90_sign_wrong :
    (divS false ⟨8, 4, true, .TRN, .WRAP⟩ ⟨6, 3, true, .TRN, .WRAP⟩ ⟨7, 4, true, .TRN, .SAT⟩ 100 (-13) 0).1 ≠
      -(divS false ⟨8, 4, true, .TRN, .WRAP⟩ ⟨6, 3, true, .TRN, .WRAP⟩ ⟨7, 4, true, .TRN, .SAT⟩ 100 13 0).1 ∧
    (divS false ⟨8, 4, true, .TRN, .WRAP⟩ ⟨6, 3, true, .TRN, .WRAP⟩ ⟨4, 2, true, .RND_CONV, .SAT⟩ 100 (-13) 0).1 ≠
      -(divS false ⟨8, 4, true, .TRN, .WRAP⟩ ⟨6, 3, true, .TRN, .WRAP⟩ ⟨4, 2, true, .RND_CONV, .SAT⟩ 100 13 0).1 := by
  constructor <;> decide +kernel

/-- **C90**, values: operands of other types with the same ratio give the same quotient, signed and unsigned. -/
theorem C90_value {noSat noSat' : Bool} {fn fd fn' fd' fq : Fmt} {N D N' D' : ℤ} (h0 : D ≠ 0) (h0' : D' ≠ 0)
    (e : fn.val N * fd'.val D' = fn'.val N' * fd.val D) (old old' : ℚ) :
    (Types fn fd fq → Types fn' fd' fq → Word fn N → Word fd D → Word fn' N' → Word fd' D' →
      (divS noSat fn fd fq N D old).1 = (divS noSat' fn' fd' fq N' D' old').1) ∧
    (1 ≤ fn.W → 1 ≤ fd.W → 1 ≤ fn'.W → 1 ≤ fd'.W → 1 ≤ fq.W → fq.S = false → Reaches fn fd fq → Reaches fn' fd' fq →
      0 ≤ N → N < 2 ^ fn.W → 0 < D → D < 2 ^ fd.W → 0 ≤ N' → N' < 2 ^ fn'.W → 0 < D' → D' < 2 ^ fd'.W →
      (divU noSat fn fd fq N D old).1 = (divU noSat' fn' fd' fq N' D' old').1) := by
  have nz : ∀ (f : Fmt) {r : ℤ}, r ≠ 0 → f.val r ≠ 0 := fun f r hr => by
    unfold Fmt.val; exact mul_ne_zero (by exact_mod_cast hr) (Fmt.z_pos _).ne'
  have v : fn.val N / fd.val D = fn'.val N' / fd'.val D' := by
    rw [div_eq_div_iff (nz _ h0) (nz _ h0'), e]
  refine ⟨fun a b c d c' d' => by rw [quo noSat a c d h0, quo noSat' b c' d' h0', v], ?_⟩
  intro a b a' b' q s r r' n0 n1 d0 d1 n0' n1' d0' d1'
  rw [(C04_unsigned_partial a b q s r n0 n1 d0 d1 old).1, (C04_unsigned_partial a' b' q s r' n0' n1' d0' d1' old').1, v]

example : (⟨8, 4, true, .TRN, .WRAP⟩ : Fmt).val 100 * (⟨9, 5, true, .TRN, .WRAP⟩ : Fmt).val 39 =
      (⟨10, 6, true, .TRN, .WRAP⟩ : Fmt).val 150 * (⟨6, 3, true, .TRN, .WRAP⟩ : Fmt).val 13 ∧
    (divS false ⟨8, 4, true, .TRN, .WRAP⟩ ⟨6, 3, true, .TRN, .WRAP⟩ ⟨9, 4, true, .RND, .SAT⟩ 100 13 0).1 =
      (divS false ⟨10, 6, true, .TRN, .WRAP⟩ ⟨9, 5, true, .TRN, .WRAP⟩ ⟨9, 4, true, .RND, .SAT⟩ 150 39 0).1 := by
  constructor <;> decide +kernel

/-- **C90**, one: dividing by one converts the dividend to the type of the quotient. -/
theorem C90_one (noSat : Bool) {fn fd fq : Fmt} (h : Types fn fd fq) {N D : ℤ} (hN : Word fn N) (hD : Word fd D) (h1 : fd.val D = 1)
    (old : ℚ) : (divS noSat fn fd fq N D old).1 = fq.cvt (fn.val N) := by
  rw [quo noSat h hN hD (fun e => by rw [e] at h1; simp [Fmt.val] at h1), h1, div_one]

example : (divS false ⟨8, 4, true, .TRN, .WRAP⟩ ⟨6, 3, true, .TRN, .WRAP⟩ ⟨7, 4, true, .RND, .SAT⟩ (-99) 8 0).1 = -49 / 8 ∧
    (⟨6, 3, true, .TRN, .WRAP⟩ : Fmt).val 8 = 1 := by constructor <;> decide +kernel

end Props.DivLaws
