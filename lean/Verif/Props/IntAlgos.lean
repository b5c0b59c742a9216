import Verif.Proof.DivV2
import Verif.Proof.Sqrt
import Verif.Proof.Bits

/-! # C05, C06, C08-C11: integer algorithms -/

namespace Props.IntAlgos
open Ac

/-! ## C05: ac_div_v2 -/

/-- **C05**, any output widths. The precondition on the divisor is the one the code asserts. -/
theorem C05_div_v2_any_width {NW DW QW RW PW : ℕ} (hP1 : 1 ≤ PW) (hP : PW ≤ DW) (hW : DW < NW + PW) {N D : ℤ}
    (hN0 : 0 ≤ N) (hN1 : N < 2 ^ NW) (hD0 : 2 ^ (DW - PW) ≤ D) (hD1 : D < 2 ^ DW) :
    Model.DivV2.divV2U NW DW QW RW PW N D = some (N / D % 2 ^ QW, N % D % 2 ^ RW) :=
  Model.DivV2.divV2U_eq hP1 hP hW hN0 hN1 hD0 hD1

/-- **C05.** Euclidean division for outputs wide enough. -/
theorem C05_div_v2 {NW DW QW RW PW : ℕ} (hP1 : 1 ≤ PW) (hP : PW ≤ DW) (hW : DW < NW + PW) {N D : ℤ}
    (hN0 : 0 ≤ N) (hN1 : N < 2 ^ NW) (hD0 : 2 ^ (DW - PW) ≤ D) (hD1 : D < 2 ^ DW)
    (hQ : NW ≤ QW) (hR : DW ≤ RW) :
    ∃ q r, Model.DivV2.divV2U NW DW QW RW PW N D = some (q, r) ∧ q * D + r = N ∧ 0 ≤ r ∧ r < D := by
  have hDp : 0 < D := lt_of_lt_of_le (two_pow_pos' _) hD0
  have h1 : 0 ≤ N / D := Int.ediv_nonneg hN0 hDp.le
  have h2 : 0 ≤ N % D := Int.emod_nonneg _ (ne_of_gt hDp)
  have h3 : N % D < D := Int.emod_lt_of_pos _ hDp
  have hq : N / D < 2 ^ QW := lt_of_le_of_lt (Int.ediv_le_self _ hN0)
    (lt_of_lt_of_le hN1 (pow_le_pow_right₀ (by norm_num) hQ))
  have hr : N % D < 2 ^ RW := lt_trans h3 (lt_of_lt_of_le hD1 (pow_le_pow_right₀ (by norm_num) hR))
  refine ⟨N / D, N % D, ?_, ?_, h2, h3⟩
  · rw [C05_div_v2_any_width hP1 hP hW hN0 hN1 hD0 hD1, Int.emod_eq_of_lt h1 hq, Int.emod_eq_of_lt h2 hr]
  · rw [mul_comm]; exact Int.mul_ediv_add_emod N D

example : ∃ q r, Model.DivV2.divV2U 8 4 8 4 2 200 7 = some (q, r) ∧ q * 7 + r = 200 ∧ 0 ≤ r ∧ r < 7 :=
  C05_div_v2 (by norm_num) (by norm_num) (by norm_num) (by norm_num) (by norm_num) (by norm_num) (by norm_num)
    (by norm_num) (by norm_num)

/-- **C05**, divisors the assertion rejects. -/
theorem C05_div_v2_rejects {NW DW QW RW PW : ℕ} {N D : ℤ} (h : D = 0 ∨ D < 2 ^ (DW - PW)) :
    Model.DivV2.divV2U NW DW QW RW PW N D = none := by
  simp [Model.DivV2.divV2U, h]

example : Model.DivV2.divV2U 8 4 8 4 2 200 3 = none := C05_div_v2_rejects (by norm_num)

/-- **C05**, signed version: truncating division for every divisor whose magnitude the assertion accepts. -/
theorem C05_div_v2_signed {NW DW QW RW PW : ℕ} (hNW : 1 ≤ NW) (hP1 : 1 ≤ PW) (hP : PW ≤ DW) (hW : DW < NW + PW)
    (hR : DW ≤ RW) {N D : ℤ}
    (hN0 : -2 ^ (NW - 1) ≤ N) (hN1 : N < 2 ^ (NW - 1)) (hD0 : -2 ^ (DW - 1) ≤ D) (hD1 : D < 2 ^ (DW - 1))
    (hD : 2 ^ (DW - PW) ≤ |D|) :
    Model.DivV2.divV2S NW DW QW RW PW N D = some (wrap QW true (N.tdiv D), N.tmod D) := by
  have hDW : 1 ≤ DW := le_trans hP1 hP
  have eNW := two_pow_succ_pred hNW
  have eDW := two_pow_succ_pred hDW
  have hpN := two_pow_pos' (NW - 1)
  have hpD := two_pow_pos' (DW - 1)
  have uN : (if N < 0 then wrap NW false (-N) else wrap NW false N) = |N| := by
    split_ifs with h
    · rw [abs_of_neg h]; exact wrapU_of_lt (by linarith) (by linarith)
    · rw [abs_of_nonneg (by linarith)]; exact wrapU_of_lt (by linarith) (by linarith)
  have uD : (if D < 0 then wrap DW false (-D) else wrap DW false D) = |D| := by
    split_ifs with h
    · rw [abs_of_neg h]; exact wrapU_of_lt (by linarith) (by linarith)
    · rw [abs_of_nonneg (by linarith)]; exact wrapU_of_lt (by linarith) (by linarith)
  have aN : |N| ≤ 2 ^ (NW - 1) := abs_le.mpr ⟨hN0, hN1.le⟩
  have aD : |D| ≤ 2 ^ (DW - 1) := abs_le.mpr ⟨hD0, hD1.le⟩
  have aD0 : 0 < |D| := lt_of_lt_of_le (two_pow_pos' _) hD
  have hDne : D ≠ 0 := abs_pos.mp aD0
  have hr0 : 0 ≤ |N| % |D| := Int.emod_nonneg _ (ne_of_gt aD0)
  have hr1 : |N| % |D| < |D| := Int.emod_lt_of_pos _ aD0
  have hrw : (2 : ℤ) ^ DW ≤ 2 ^ RW := pow_le_pow_right₀ (by norm_num) hR
  have hrw1 : (2 : ℤ) ^ (DW - 1) ≤ 2 ^ (RW - 1) := pow_le_pow_right₀ (by norm_num) (by omega)
  simp only [Model.DivV2.divV2S, uN, uD, hDne, if_false]
  rw [C05_div_v2_any_width hP1 hP hW (abs_nonneg N) (by linarith) hD (by linarith)]
  simp only [Option.some.injEq, Prod.mk.injEq]
  constructor
  · have key : N.tdiv D = if (N < 0) = (D < 0) then |N| / |D| else -(|N| / |D|) := by
      rw [← Int.tdiv_eq_ediv_of_nonneg (abs_nonneg N)]
      rcases lt_or_ge N 0 with h | h <;> rcases lt_or_ge D 0 with h' | h'
      · rw [abs_of_neg h, abs_of_neg h']; simp [h, h', Int.neg_tdiv, Int.tdiv_neg]
      · rw [abs_of_neg h, abs_of_nonneg h']; simp [h, not_lt.mpr h', Int.neg_tdiv]
      · rw [abs_of_nonneg h, abs_of_neg h']; simp [not_lt.mpr h, h', Int.tdiv_neg]
      · rw [abs_of_nonneg h, abs_of_nonneg h']; simp [not_lt.mpr h, not_lt.mpr h']
    rw [key]
    split_ifs with h
    · exact wrap_congr (Int.emod_emod_of_dvd _ (dvd_refl _))
    · exact wrap_congr (Int.ModEq.neg (Int.mod_modEq _ _))
  · rw [Int.emod_eq_of_lt hr0 (by linarith)]
    have t : N.tmod D = N.tmod |D| := by
      rcases abs_choice D with h | h <;> rw [h]
      rw [Int.tmod_neg]
    rw [t]
    split_ifs with h
    · rw [wrapS_of_range hDW (by linarith) (by linarith), wrapS_of_range (by omega) (by linarith) (by linarith), abs_of_neg h]
      conv_rhs => rw [← neg_neg N, Int.neg_tmod]
      rw [Int.tmod_eq_emod_of_nonneg (by linarith)]
    · rw [wrapS_of_range hDW (by linarith) (by linarith), wrapS_of_range (by omega) (by linarith) (by linarith), abs_of_nonneg (by linarith),
        Int.tmod_eq_emod_of_nonneg (by linarith)]

example : Model.DivV2.divV2S 8 4 8 4 2 (-100) 7 = some (wrap 8 true ((-100 : ℤ).tdiv 7), (-100 : ℤ).tmod 7) :=
  C05_div_v2_signed (by norm_num) (by norm_num) (by norm_num) (by norm_num) (by norm_num) (by norm_num)
    (by norm_num) (by norm_num) (by norm_num) (by norm_num)

/-! ## C06: integer square root -/

/-- **C06.** The root register (before the final assignment) is the floor square root, and fits in
`ceil(XW/2)` bits: no register of the recurrence loses bits. -/
theorem C06_sqrt_floor {XW x : ℕ} (hXW : 1 ≤ XW) (hx : x < 2 ^ XW) :
    let r := Model.Sqrt.root XW x
    r * r ≤ x ∧ x < (r + 1) * (r + 1) := by
  simp only [Model.Sqrt.root_eq hXW hx]
  exact ⟨Nat.sqrt_le x, Nat.lt_succ_sqrt x⟩

example : let r := Model.Sqrt.root 9 500
    r * r ≤ 500 ∧ 500 < (r + 1) * (r + 1) := C06_sqrt_floor (by norm_num) (by norm_num)

/-- **C06**, the value written: the floor square root, for any output type that can hold it. -/
theorem C06_sqrt_output {XW OW x : ℕ} {OS : Bool} (hXW : 1 ≤ XW) (hx : x < 2 ^ XW)
    (hOW : (XW + 1) / 2 + (if OS then 1 else 0) ≤ OW) :
    Model.Sqrt.sqrtInt XW OW OS x = (Nat.sqrt x : ℤ) := by
  unfold Model.Sqrt.sqrtInt
  rw [Model.Sqrt.root_eq hXW hx]
  have hlt : Nat.sqrt x < 2 ^ ((XW + 1) / 2) := by
    rw [Nat.sqrt_lt']
    refine lt_of_lt_of_le hx ?_
    rw [← pow_mul]
    exact Nat.pow_le_pow_right (by norm_num) (by omega)
  have hlt' : (Nat.sqrt x : ℤ) < 2 ^ ((XW + 1) / 2) := by exact_mod_cast hlt
  cases OS
  · exact wrapU_of_lt (by positivity) (lt_of_lt_of_le hlt' (pow_le_pow_right₀ (by norm_num) (by simpa using hOW)))
  · simp only [if_true] at hOW
    have := two_pow_pos' (OW - 1)
    exact wrapS_of_range (by omega) (by linarith [Int.natCast_nonneg (Nat.sqrt x)])
      (lt_of_lt_of_le hlt' (pow_le_pow_right₀ (by norm_num) (by omega)))

example : Model.Sqrt.sqrtInt 9 5 false 500 = 22 := by
  rw [C06_sqrt_output (by norm_num) (by norm_num) (by norm_num)]; decide +kernel

/-! ## C08: absolute value -/

/-- **C08**, unsigned output at least as wide as the input: exact for every value. -/
theorem C08_abs_unsigned {XW YW : ℕ} (hXW : 1 ≤ XW) (hYW : XW ≤ YW) {x : ℤ}
    (h0 : -2 ^ (XW - 1) ≤ x) (h1 : x < 2 ^ (XW - 1)) : Model.Bits.absInt XW YW false x = |x| := by
  unfold Model.Bits.absInt
  rw [Model.Bits.absMag_eq hXW h0 h1]
  have e := two_pow_succ_pred hXW
  have hp := two_pow_pos' (XW - 1)
  have hle : (2 : ℤ) ^ XW ≤ 2 ^ YW := pow_le_pow_right₀ (by norm_num) hYW
  have : |x| ≤ 2 ^ (XW - 1) := abs_le.mpr ⟨h0, h1.le⟩
  exact wrapU_of_lt (abs_nonneg x) (by linarith)

example : Model.Bits.absInt 8 8 false (-128) = |(-128)| :=
  C08_abs_unsigned (by norm_num) (by norm_num) (by norm_num) (by norm_num)

/-- **C08**, signed output of the same width: exact except at the most negative value, which is returned
unchanged. -/
theorem C08_abs_signed {XW : ℕ} (hXW : 1 ≤ XW) {x : ℤ} (h0 : -2 ^ (XW - 1) ≤ x) (h1 : x < 2 ^ (XW - 1)) :
    Model.Bits.absInt XW XW true x = if x = -2 ^ (XW - 1) then x else |x| := by
  unfold Model.Bits.absInt
  rw [Model.Bits.absMag_eq hXW h0 h1]
  have e := two_pow_succ_pred hXW
  have hp := two_pow_pos' (XW - 1)
  split_ifs with h
  · rw [h, abs_neg, abs_of_pos hp, wrap_true, show (2 : ℤ) ^ (XW - 1) + 2 ^ (XW - 1) = 2 ^ XW by linarith]
    simp
  · have : |x| < 2 ^ (XW - 1) := abs_lt.mpr ⟨lt_of_le_of_ne h0 (Ne.symm h), h1⟩
    exact wrapS_of_range hXW (by linarith [abs_nonneg x]) this

example : Model.Bits.absInt 8 8 true (-100) = 100 ∧ Model.Bits.absInt 8 8 true (-128) = -128 := by decide

/-- **C08**, fixed point: the absolute value of the input, converted once to the output type. -/
theorem C08_abs_fixed {XW : ℕ} {XI : ℤ} (fY : Fmt) (hXW : 1 ≤ XW) {x : ℤ}
    (h0 : -2 ^ (XW - 1) ≤ x) (h1 : x < 2 ^ (XW - 1)) :
    Model.Bits.absFixed XW XI fY x = fY.cvt |(Fmt.mk XW XI true .TRN .WRAP).val x| := by
  unfold Model.Bits.absFixed
  rw [Model.Bits.absMag_eq hXW h0 h1]
  congr 1
  simp only [Fmt.val, Fmt.F]
  rw [abs_mul, abs_of_pos (zpow_pos (by norm_num : (0 : ℚ) < 2) _)]
  push_cast
  rfl

example : Model.Bits.absFixed 8 4 ⟨8, 4, false, .TRN, .SAT⟩ (-128) = 8 := by
  rw [C08_abs_fixed _ (by norm_num) (by norm_num) (by norm_num)]; decide +kernel

/-! ## C09: barrel shift -/

/-- **C09.** `ac_barrel_shift` rotates right, for every width and every shift amount of the shift type. -/
theorem C09_barrel_rotates {N x s : ℕ} (hN : 1 ≤ N) (hx : x < 2 ^ N) (hs : s < 2 ^ nbits (N - 1)) :
    Spec.RotR N x s (Model.Bits.barrelShift N x s) := Model.Bits.barrelShift_rot hN hx hs

example : Spec.RotR 6 0b101101 7 (Model.Bits.barrelShift 6 0b101101 7) :=
  C09_barrel_rotates (by norm_num) (by norm_num) (by decide)

/-- **C09**, composition: rotating by `s` then by `t` is rotating by `(s+t) mod N`. -/
theorem C09_barrel_compose {N x s t : ℕ} (hN : 1 ≤ N) (hx : x < 2 ^ N) (hs : s < 2 ^ nbits (N - 1))
    (ht : t < 2 ^ nbits (N - 1)) :
    Model.Bits.barrelShift N (Model.Bits.barrelShift N x s) t = Model.Bits.barrelShift N x ((s + t) % N) := by
  have h1 := C09_barrel_rotates hN hx hs
  have h2 := C09_barrel_rotates hN h1.1 ht
  have hm : (s + t) % N < 2 ^ nbits (N - 1) :=
    lt_of_le_of_lt (by have := Nat.mod_lt (s + t) hN; omega) (Model.Bits.lt_two_pow_nbits (N - 1))
  have h3 := C09_barrel_rotates hN hx hm
  exact Model.Bits.rot_unique (Model.Bits.rot_comp h1 h2) (Model.Bits.rot_mod.mp h3)

example : Model.Bits.barrelShift 6 (Model.Bits.barrelShift 6 45 5) 4 = Model.Bits.barrelShift 6 45 3 :=
  C09_barrel_compose (by norm_num) (by norm_num) (by decide) (by decide)

/-- **C09**, bijectivity: rotating back by the complementary amount recovers the word. -/
theorem C09_barrel_inverse {N x s : ℕ} (hN : 1 ≤ N) (hx : x < 2 ^ N) (hs : s < 2 ^ nbits (N - 1)) :
    Model.Bits.barrelShift N (Model.Bits.barrelShift N x s) ((N - s % N) % N) = x := by
  have hsm := Nat.mod_lt s hN
  have ht : (N - s % N) % N < 2 ^ nbits (N - 1) :=
    lt_of_le_of_lt (by have := Nat.mod_lt (N - s % N) hN; omega) (Model.Bits.lt_two_pow_nbits (N - 1))
  have h1 := C09_barrel_rotates hN hx hs
  have h2 := Model.Bits.rot_comp h1 (C09_barrel_rotates hN h1.1 ht)
  rw [← Model.Bits.rot_mod] at h2
  have e : (s + (N - s % N) % N) % N = 0 := by
    rw [Nat.add_mod_mod, ← Nat.mod_add_mod, show s % N + (N - s % N) = N by omega, Nat.mod_self]
  rw [e] at h2
  exact Model.Bits.rot_unique h2 ⟨hx, fun j hj => by simp [Nat.mod_eq_of_lt hj]⟩

example : Model.Bits.barrelShift 6 (Model.Bits.barrelShift 6 45 5) 1 = 45 :=
  C09_barrel_inverse (s := 5) (by norm_num) (by norm_num) (by decide)

/-! ## C10: template leading-one detector -/

/-- **C10** (part that holds for every width): the returned flag tells whether some bit is set.
Missing: the index, which is wrong from N = 5 on, see `C10_index_wrong`. -/
theorem C10_flag_partial {N x : ℕ} (hN : 1 ≤ N) (hx : x < 2 ^ N) :
    (Model.Bits.leadingOnes N x).1 = true ↔ ∃ j < N, x.testBit j = true := by
  have h0 : (∃ j < N, x.testBit j = true) ↔ x ≠ 0 := by
    constructor
    · rintro ⟨j, _, h⟩ rfl; simp at h
    · intro h; exact ⟨_, (Nat.log2_lt h).mpr hx, Nat.testBit_log2 h⟩
  rw [h0]
  unfold Model.Bits.leadingOnes
  obtain ⟨n, rfl⟩ : ∃ n, N = n + 1 := ⟨N - 1, by omega⟩
  rw [Model.Bits.leadingOnesAux]
  split_ifs with h
  · have : n = 0 := by omega
    subst this
    simp at hx ⊢
    omega
  · simp

example : (Model.Bits.leadingOnes 9 0b100000).1 = true ↔ ∃ j < 9, (0b100000 : ℕ).testBit j = true :=
  C10_flag_partial (by norm_num) (by norm_num)

/-- **C10** (index, widths up to 4): the index is the highest set bit. -/
theorem C10_index_partial {N x : ℕ} (hN1 : 1 ≤ N) (hN : N ≤ 4) (hx : x < 2 ^ N) (h0 : x ≠ 0) :
    (Model.Bits.leadingOnes N x).2 = Nat.log2 x ∧ Spec.Highest true N x (Model.Bits.leadingOnes N x).2 := by
  have key : ∀ N ≤ 4, 1 ≤ N → ∀ x < 2 ^ N, x ≠ 0 → (Model.Bits.leadingOnes N x).2 = Nat.log2 x := by decide +kernel
  have h := key N hN hN1 x hx h0
  refine ⟨h, ?_⟩
  rw [h]
  refine ⟨(Nat.log2_lt h0).mpr hx, Nat.testBit_log2 h0, fun j hj _ => ?_⟩
  rw [Nat.testBit_lt_two_pow (lt_of_lt_of_le Nat.lt_log2_self (Nat.pow_le_pow_right (by norm_num) hj))]
  simp

example : (Model.Bits.leadingOnes 4 0b0110).2 = Nat.log2 0b0110 ∧
    Spec.Highest true 4 0b0110 (Model.Bits.leadingOnes 4 0b0110).2 :=
  C10_index_partial (by norm_num) (by norm_num) (by norm_num) (by norm_num)

/-- **C10 is false of the code for every width N ≥ 5**: some word with a single set bit `j` gets an index other
than `j` (the code combines the half index with `| P2`, where P2 is a bit count that is in general neither a
power of two nor disjoint from the half index). -/
theorem C10_index_wrong {N : ℕ} (hN : 5 ≤ N) : ∃ j < N, (Model.Bits.leadingOnes N (2 ^ j)).2 ≠ j :=
  Model.Bits.leadingOnes_wrong N hN

/-- **C10**, concrete witnesses: bit 4 of a 5-bit and of an 8-bit word. -/
theorem C10_index_wrong_witness :
    (Model.Bits.leadingOnes 5 0b10000).2 = 2 ∧ (Model.Bits.leadingOnes 8 0b10000).2 = 3 := by decide +kernel

/-! ## C11: leading and trailing searches -/

open Model.Bits in
/-- Which bit value a search looks for. -/
def want : Search → Bool
  | .lead1 => true | .trail1 => true | .lead0 => false | .trail0 => false

open Model.Bits in
/-- What it means for `r` to be the answer of a search. -/
def Answer : Search → ℕ → ℕ → ℕ → Prop
  | .lead1 => Spec.Highest true
  | .trail1 => Spec.Lowest true
  | .lead0 => Spec.Highest false
  | .trail0 => Spec.Lowest false

/-- **C11**, unsigned words (ac_int and ac_fixed): flag and position; without a match the result is 0. -/
theorem C11_search_unsigned (k : Model.Bits.Search) {W x : ℕ} (hW : 1 ≤ W) (hx : x < 2 ^ W) :
    ((Model.Bits.searchU k W x).1 = true ↔ ∃ j < W, x.testBit j = want k) ∧
    ((Model.Bits.searchU k W x).1 = true → Answer k W x (Model.Bits.searchU k W x).2) ∧
    ((Model.Bits.searchU k W x).1 = false → (Model.Bits.searchU k W x).2 = 0) := by
  have hb1 : W - 1 < 2 ^ nbits W := lt_of_le_of_lt (by omega) (Model.Bits.lt_two_pow_nbits W)
  have hb2 := Model.Bits.lt_two_pow_nbits (W - 1)
  cases k
  · exact Model.Bits.lead1_spec hW hx hb1
  · exact Model.Bits.trail1_spec hW hb2
  · exact Model.Bits.lead0_spec hW hx hb2
  · exact Model.Bits.trail0_spec hW hx hb2

example : (Model.Bits.searchU .trail0 5 0b00111).1 = true → Answer .trail0 5 0b00111 (Model.Bits.searchU .trail0 5 0b00111).2 :=
  (C11_search_unsigned .trail0 (by norm_num) (by norm_num)).2.1

/-- **C11**, signed words: the search covers the low W-1 bits (the sign bit is not examined). -/
theorem C11_search_signed (k : Model.Bits.Search) {W : ℕ} {x : ℤ} (hW : 2 ≤ W) :
    let bits := (x % 2 ^ (W - 1)).toNat
    ((Model.Bits.searchS k W x).1 = true ↔ ∃ j < W - 1, bits.testBit j = want k) ∧
    ((Model.Bits.searchS k W x).1 = true → Answer k (W - 1) bits (Model.Bits.searchS k W x).2) ∧
    ((Model.Bits.searchS k W x).1 = false → (Model.Bits.searchS k W x).2 = 0) := by
  have hp := two_pow_pos' (W - 1)
  have hx : (x % 2 ^ (W - 1)).toNat < 2 ^ (W - 1) := by
    have h1 := Int.emod_nonneg x (ne_of_gt hp)
    have h2 := Int.emod_lt_of_pos x hp
    zify
    rw [Int.toNat_of_nonneg h1]; exact h2
  have hb1 : W - 1 - 1 < 2 ^ nbits W := lt_of_le_of_lt (by omega) (Model.Bits.lt_two_pow_nbits W)
  have hb2 : W - 1 - 1 < 2 ^ nbits (W - 1) := lt_of_le_of_lt (by omega) (Model.Bits.lt_two_pow_nbits (W - 1))
  have hW' : 1 ≤ W - 1 := by omega
  cases k
  · exact Model.Bits.lead1_spec hW' hx hb1
  · exact Model.Bits.trail1_spec hW' hb2
  · exact Model.Bits.lead0_spec hW' hx hb2
  · exact Model.Bits.trail0_spec hW' hx hb2

example : ((Model.Bits.searchS .lead1 8 (-4)).1, (Model.Bits.searchS .lead1 8 (-4)).2) = (true, 6) := by decide +kernel

end Props.IntAlgos
