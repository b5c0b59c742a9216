import Verif.Proof.Div
import Verif.Proof.Shift
import Verif.Model.DivFixed

/-! # Proofs about the fixed-point divider -/

namespace Proof.DivFixed
open Ac Model.Div Model.DivFixed Proof.Shift

/-- Position of `A/B` relative to the integer quotient. -/
theorem div_bounds' (A : ℤ) {B : ℤ} (hp : 0 < B) :
    ((A / B : ℤ) : ℚ) ≤ (A : ℚ) / B ∧ (A : ℚ) / B < ((A / B : ℤ) : ℚ) + 1 ∧
      (A % B = 0 ↔ (A : ℚ) / B = ((A / B : ℤ) : ℚ)) := by
  have hpq : (0 : ℚ) < B := by exact_mod_cast hp
  have h := Int.mul_ediv_add_emod A B
  have h0 := Int.emod_nonneg A (ne_of_gt hp)
  have h1 := Int.emod_lt_of_pos A hp
  have hq : (A : ℚ) = B * ((A / B : ℤ) : ℚ) + ((A % B : ℤ) : ℚ) := by
    exact_mod_cast congrArg (Int.cast (R := ℚ)) h.symm
  have e : (A : ℚ) / B = ((A / B : ℤ) : ℚ) + ((A % B : ℤ) : ℚ) / B := by
    rw [hq, add_div, mul_div_cancel_left₀ _ (ne_of_gt hpq)]
  have h0q : (0 : ℚ) ≤ ((A % B : ℤ) : ℚ) / B := div_nonneg (by exact_mod_cast h0) hpq.le
  have h1q : ((A % B : ℤ) : ℚ) / B < 1 := by rw [div_lt_one hpq]; exact_mod_cast h1
  refine ⟨by linarith, by linarith, ?_⟩
  rw [e]
  constructor
  · intro h; rw [h]; simp
  · intro h
    have : ((A % B : ℤ) : ℚ) / B = 0 := by linarith
    rw [div_eq_zero_iff] at this
    rcases this with h | h
    · exact_mod_cast h
    · exact absurd h (ne_of_gt hpq)

theorem toWord_eq {f : Fmt} (hW : 1 ≤ f.W) {X : ℤ} (h0 : 0 ≤ X) (h1 : X < 2 ^ f.W) : toWord f X = X := by
  unfold toWord
  have hX : InRange f.W false X := ⟨by simpa [minRaw] using h0, by simp [maxRaw]; omega⟩
  simp only
  rw [leftUS_eq (fx := { f with S := false }) (fo := ⟨f.W, f.W, false, .TRN, .WRAP⟩) hW hW rfl rfl hX]
  have e : ({ f with S := false } : Fmt).val X * 2 ^ f.F = (⟨f.W, f.W, false, .TRN, .WRAP⟩ : Fmt).val X := by
    unfold Fmt.val Fmt.F
    rw [mul_assoc, zpow_mul_zpow]; simp
  rw [e, Fmt.cvt_val (f := ⟨f.W, f.W, false, .TRN, .WRAP⟩) hW]
  · exact Fmt.raw_val _ _
  · simpa [loRaw, minRaw] using h0
  · simp [maxRaw]; omega

theorem not_early {fn fd fq : Fmt} (h : ¬ early fn fd fq) :
    ZF fn fd fq = QF fq ∧ 1 ≤ ZW fn fd fq ∧ ((ZW fn fd fq : ℕ) : ℤ) = ZI fn fd + QF fq := by
  unfold early at h
  have h1 : ZF fn fd fq = QF fq := by unfold ZF; omega
  have h2 : ((ZW fn fd fq : ℕ) : ℤ) = ZI fn fd + QF fq := by
    unfold ZW; rw [h1, Int.toNat_of_nonneg (by omega)]
  exact ⟨h1, by omega, h2⟩

/-- What the loop computes. -/
theorem loop_facts {NW DW ZW : ℕ} (hNW : 1 ≤ NW) {N D : ℤ} (h0 : 0 ≤ N) (h1 : N < 2 ^ NW) (hD0 : 0 < D)
    (hD1 : D < 2 ^ DW) :
    let s := loop NW DW ZW D ZW { N := N, R := 0, Q := 0 }
    let R := if s.R < 0 then wrap (DW + 1) true (s.R + D) else s.R
    s.Q = N * 2 ^ ZW / (D * 2 ^ NW) ∧ 0 ≤ s.Q ∧ s.Q < 2 ^ ZW ∧
    ((R ≠ 0 ∨ s.N / 2 ^ ZW ≠ 0) ↔ N * 2 ^ ZW % (D * 2 ^ NW) ≠ 0) := by
  intro s R
  obtain ⟨hN, hQ, hlo, hhi, hR⟩ := loop_spec (QW := ZW) hNW h0 h1 hD0 hD1 ZW
  have hpN := two_pow_pos' NW
  have hpZ := two_pow_pos' ZW
  set A := N * 2 ^ ZW with hA
  have hA0 : 0 ≤ A := mul_nonneg h0 hpZ.le
  have hw : (2 : ℤ) ^ (DW + 1 - 1) = 2 ^ DW := by simp
  have hRR : R = A / 2 ^ NW % D := by
    rw [← hR]
    show (if s.R < 0 then wrap (DW + 1) true (s.R + D) else s.R) = _
    split_ifs with hneg
    · exact wrapS_of_range (by omega) (by rw [hw]; linarith) (by rw [hw]; linarith)
    · rfl
  have hB : 0 < D * 2 ^ NW := mul_pos hD0 hpN
  have hT1 : A / 2 ^ NW < 2 ^ ZW := by
    apply Int.ediv_lt_of_lt_mul hpN
    rw [hA, mul_comm]; exact mul_lt_mul_of_pos_left h1 hpZ
  have hT0 : 0 ≤ A / 2 ^ NW := Int.ediv_nonneg hA0 hpN.le
  have hq0 : 0 ≤ A / 2 ^ NW / D := Int.ediv_nonneg hT0 hD0.le
  have hq1 : A / 2 ^ NW / D < 2 ^ ZW := lt_of_le_of_lt (Int.ediv_le_self _ hT0) hT1
  have hQ' : s.Q = A / 2 ^ NW / D := by
    show (loop NW DW ZW D ZW _).Q = _
    rw [hQ, Int.emod_eq_of_lt hq0 hq1]
  have hdiv : A / (D * 2 ^ NW) = A / 2 ^ NW / D := by
    rw [mul_comm, Int.ediv_ediv_of_nonneg hpN.le]
  refine ⟨by rw [hQ', hdiv], by rw [hQ']; exact hq0, by rw [hQ']; exact hq1, ?_⟩
  -- the two remainders
  have d1 := Int.mul_ediv_add_emod A (2 ^ NW)
  have d2 := Int.mul_ediv_add_emod (A / 2 ^ NW) D
  have m0 := Int.emod_nonneg A (ne_of_gt hpN)
  have m1 := Int.emod_lt_of_pos A hpN
  have r0 := Int.emod_nonneg (A / 2 ^ NW) (ne_of_gt hD0)
  have r1 := Int.emod_lt_of_pos (A / 2 ^ NW) hD0
  have hmod : A % (D * 2 ^ NW) = 2 ^ NW * (A / 2 ^ NW % D) + A % 2 ^ NW := by
    rw [Int.emod_def, hdiv]
    have : A / 2 ^ NW % D = A / 2 ^ NW - D * (A / 2 ^ NW / D) := by linarith
    rw [this]; linarith
  have hs : s.N / 2 ^ ZW ≠ 0 ↔ A % 2 ^ NW ≠ 0 := by
    have e : s.N = A % 2 ^ NW := hN
    rw [e]
    rcases le_total NW ZW with h | h
    · have : A % 2 ^ NW = 0 := by
        apply Int.emod_eq_zero_of_dvd
        rw [hA]; exact Dvd.dvd.mul_left (pow_dvd_pow 2 h) N
      rw [this]; simp
    · obtain ⟨k, hk⟩ : (2 : ℤ) ^ ZW ∣ A % 2 ^ NW := by
        rw [Int.emod_def]
        apply dvd_sub
        · rw [hA]; exact Dvd.intro_left N rfl
        · exact Dvd.dvd.mul_right (pow_dvd_pow 2 h) _
      rw [hk, Int.mul_ediv_cancel_left _ (ne_of_gt hpZ)]
      simp [ne_of_gt hpZ]
  rw [hRR, hs, hmod]
  constructor
  · rintro (h | h)
    · have : 0 < A / 2 ^ NW % D := lt_of_le_of_ne r0 (Ne.symm h)
      have := mul_pos hpN this
      omega
    · have := mul_nonneg hpN.le r0
      omega
  · intro h
    by_contra hc
    rw [not_or, not_not, not_not] at hc
    rw [hc.1, hc.2] at h; simp at h

/-- The exact quotient in units of the last computed place. -/
theorem quot_scale {fn fd : Fmt} (N : ℤ) {D : ℤ} (hD : D ≠ 0) {Z : ℕ} {g : ℤ} (hZ : (Z : ℤ) = ZI fn fd + g) :
    fn.val N / fd.val D * 2 ^ g = ((N * 2 ^ Z : ℤ) : ℚ) / ((D * 2 ^ fn.W : ℤ) : ℚ) := by
  unfold Fmt.val
  have hDq : (D : ℚ) ≠ 0 := by exact_mod_cast hD
  have h2 : (2 : ℚ) ≠ 0 := by norm_num
  push_cast
  rw [div_mul_eq_mul_div, div_eq_div_iff (mul_ne_zero hDq (zpow_ne_zero _ h2)) (mul_ne_zero hDq (pow_ne_zero _ h2))]
  rw [← zpow_natCast, ← zpow_natCast]
  have e : (N : ℚ) * 2 ^ (-fn.F) * 2 ^ g * (D * 2 ^ (fn.W : ℤ)) = N * D * (2 ^ (-fn.F) * 2 ^ g * 2 ^ (fn.W : ℤ)) := by ring
  have e' : (N : ℚ) * 2 ^ (Z : ℤ) * (D * 2 ^ (-fd.F)) = N * D * (2 ^ (Z : ℤ) * 2 ^ (-fd.F)) := by ring
  rw [e, e', zpow_mul_zpow, zpow_mul_zpow, zpow_mul_zpow]
  congr 2
  rw [hZ]; unfold ZI Fmt.F; ring

/-- The inexact flag: a bit below the last place of the output is set. -/
theorem flag_iff {f : Fmt} {rb : ℕ} (hr : rb ≤ 1) {w : ℚ} {k : ℤ} (b0 : (k : ℚ) ≤ w * 2 ^ (f.F + rb))
    (b1 : w * 2 ^ (f.F + rb) < k + 1) :
    (w * 2 ^ (f.F + rb) ≠ k ∨ (rb ≠ 0 ∧ k % 2 = 1)) ↔ ∀ m : ℤ, w ≠ f.val m := by
  have hfq : ∀ m : ℤ, w = f.val m ↔ w * 2 ^ (f.F + rb) = m * 2 ^ rb := by
    intro m
    have h1 : f.val m * 2 ^ (f.F + rb) = m * 2 ^ rb := by
      unfold Fmt.val
      rw [mul_assoc, zpow_mul_zpow, show -f.F + (f.F + (rb : ℤ)) = (rb : ℤ) by ring, zpow_natCast]
    rw [← h1]
    exact ⟨fun h => by rw [h], fun h => mul_right_cancel₀ (ne_of_gt (zpow_pos' _)) h⟩
  have hfl : ⌊w * 2 ^ (f.F + rb)⌋ = k := by rw [Int.floor_eq_iff]; exact ⟨b0, b1⟩
  constructor
  · rintro (h | ⟨h1, h2⟩) m hm
    · rw [hfq] at hm
      apply h
      rw [← hfl, hm]
      have : (m : ℚ) * 2 ^ rb = ((m * 2 ^ rb : ℤ) : ℚ) := by push_cast; rfl
      rw [this, Int.floor_intCast]
    · rw [hfq] at hm
      have hr : rb = 1 := by omega
      rw [hr] at hm hfl
      have : (m : ℚ) * 2 ^ 1 = ((m * 2 : ℤ) : ℚ) := by push_cast; ring
      rw [hm, this, Int.floor_intCast] at hfl
      omega
  · intro h
    by_contra hc
    rw [not_or, not_not] at hc
    obtain ⟨c1, c2⟩ := hc
    by_cases hr0 : rb = 0
    · apply h k
      rw [hfq, c1, hr0]; simp
    · have hr1 : rb = 1 := by omega
      have hev : k % 2 = 0 := by
        have : ¬ k % 2 = 1 := fun h' => c2 ⟨hr0, h'⟩
        omega
      apply h (k / 2)
      rw [hfq, c1, hr1]
      have : k = k / 2 * 2 := by omega
      have h' : (k : ℚ) = ((k / 2 : ℤ) : ℚ) * 2 := by exact_mod_cast this
      rw [pow_one]; exact h'

/-- Main lemma: the unsigned divider outside the early exit. -/
theorem divU_eq {noSat : Bool} {fn fd fq : Fmt} (hn : 1 ≤ fn.W) (hd : 1 ≤ fd.W) (hq : 1 ≤ fq.W) (hS : fq.S = false)
    (he : ¬ early fn fd fq) {N D : ℤ} (hN0 : 0 ≤ N) (hN1 : N < 2 ^ fn.W) (hD0 : 0 < D) (hD1 : D < 2 ^ fd.W) (old : ℚ) :
    (Model.DivFixed.divU noSat fn fd fq N D old).1 = fq.cvt (fn.val N / fd.val D) ∧
    ((Model.DivFixed.divU noSat fn fd fq N D old).2 = true ↔ ∀ m : ℤ, fn.val N / fd.val D ≠ fq.val m) := by
  obtain ⟨hZF, hZ1, hZW⟩ := not_early he
  unfold Model.DivFixed.divU
  rw [if_neg he]
  simp only [toWord_eq hn hN0 hN1, toWord_eq hd hD0.le hD1]
  set Z := ZW fn fd fq with hZdef
  obtain ⟨f1, f2, f3, f4⟩ := loop_facts (ZW := Z) hn hN0 hN1 hD0 hD1
  set s := loop fn.W fd.W Z D Z { N := N, R := 0, Q := 0 } with hs
  have hB : 0 < D * 2 ^ fn.W := mul_pos hD0 (two_pow_pos' _)
  obtain ⟨b0, b1, b2⟩ := div_bounds' (N * 2 ^ Z) hB
  set v := fn.val N / fd.val D with hv
  have hscale := quot_scale (fn := fn) (fd := fd) N (ne_of_gt hD0) hZW
  rw [← hscale, ← f1] at b0 b1 b2
  have hz : ¬ (D = 0) := ne_of_gt hD0
  have hv0 : 0 ≤ v := by
    rw [hv]; unfold Fmt.val
    have : (0 : ℚ) ≤ N := by exact_mod_cast hN0
    have : (0 : ℚ) ≤ D := by exact_mod_cast hD0.le
    have := zpow_pos' (-fn.F)
    have := zpow_pos' (-fd.F)
    positivity
  simp only [hz, and_false, if_false]
  have hsh : fn.F - fd.F + ((Z : ℤ) - fn.W) = QF fq := by
    rw [hZW]; unfold ZI Fmt.F; ring
  rw [hsh]
  set rem : Bool := decide ((if s.R < 0 then wrap (fd.W + 1) true (s.R + D) else s.R) ≠ 0 ∨ s.N / 2 ^ Z ≠ 0) with hrem
  have hremiff : rem = true ↔ v * 2 ^ QF fq ≠ s.Q := by
    rw [hrem, decide_eq_true_eq, f4, ne_eq, ne_eq, b2]
  -- value of the word with the sticky bit
  have hval : ∀ y : ℤ, (⟨Z + 1, Z, false, .TRN, .WRAP⟩ : Fmt).val y = (y : ℚ) / 2 := by
    intro y; unfold Fmt.val Fmt.F; push_cast
    rw [show -((Z : ℤ) + 1 - Z) = -1 by ring, zpow_neg_one]; ring
  have hrQ : InRange Z false s.Q := ⟨by simpa [minRaw] using f2, by simp [maxRaw]; omega⟩
  have hpz := two_pow_pos' Z
  have shift : ∀ y : ℤ, 0 ≤ y → y < 2 ^ (Z + 1) →
      Model.Shift.rightUS ⟨Z + 1, Z, false, .TRN, .WRAP⟩ fq y (QF fq) = fq.cvt ((y : ℚ) / 2 * 2 ^ (-QF fq)) := by
    intro y y0 y1
    rw [rightUS_eq (fx := ⟨Z + 1, Z, false, .TRN, .WRAP⟩) (by show 1 ≤ Z + 1; omega) hq rfl hS
      ⟨by simpa [minRaw] using y0, by show y ≤ maxRaw (Z + 1) false; simp [maxRaw]; omega⟩, hval]
  constructor
  · by_cases hst : fq.Q ∈ [QMode.RND_ZERO, .RND_MIN_INF, .RND_CONV, .RND_CONV_ODD]
    · rw [if_pos hst]
      have hg : fq.F + 1 ≤ QF fq := by
        unfold QF rbitU
        have : ¬ (fq.Q = .TRN ∨ fq.Q = .TRN_ZERO) := by
          rintro (h | h) <;> rw [h] at hst <;> simp at hst
        rw [if_neg this]; push_cast; linarith
      have hbit := setBit_low (W := Z + 1) (TW := Z) (S := false) hZ1 le_rfl hrQ rem
      rw [pow_one] at hbit
      rw [hbit]
      have hb : (0 : ℤ) ≤ (if rem then 1 else 0) ∧ (if rem then 1 else 0 : ℤ) ≤ 1 := by cases rem <;> simp
      rw [shift _ (by linarith) (by rw [pow_succ]; linarith)]
      have hmul : ∀ a : ℚ, a / 2 * 2 ^ (-QF fq) * 2 ^ QF fq = a / 2 := fun a => mul_zpow_cancel _ _
      by_cases hr : rem = true
      · rw [if_pos hr]
        have hlt : (s.Q : ℚ) < v * 2 ^ QF fq := lt_of_le_of_ne b0 (Ne.symm (hremiff.mp hr))
        apply Fmt.cvt_cell hg (m := s.Q) _ _ hlt b1
        · rw [hmul]; push_cast; linarith
        · rw [hmul]; push_cast; linarith
      · rw [if_neg hr]
        have heq : v * 2 ^ QF fq = s.Q := by
          by_contra h; exact hr (hremiff.mpr h)
        congr 1
        have : v = v * 2 ^ QF fq * 2 ^ (-QF fq) := by rw [mul_assoc, zpow_mul_zpow]; simp
        rw [this, heq]; push_cast; ring
    · rw [if_neg hst, shift _ (by linarith) (by rw [pow_succ]; linarith)]
      symm
      have e : ((s.Q * 2 : ℤ) : ℚ) / 2 * 2 ^ (-QF fq) * 2 ^ QF fq = s.Q := by
        rw [mul_zpow_cancel]; push_cast; ring
      apply Fmt.cvt_cell_closed (g := QF fq) (m := s.Q) _ b0 b1 (le_of_eq e.symm) (by rw [e]; linarith)
      unfold QF rbitU
      cases hQ : fq.Q <;> simp [hQ] at hst ⊢ <;> exact hv0
  · rw [Bool.or_eq_true, hremiff, decide_eq_true_eq]
    have hr : rbitU fq.Q ≤ 1 := by unfold rbitU; split_ifs <;> omega
    exact flag_iff hr b0 b1

/-! ## Signed -/

/-- The modes of the first branch are symmetric. -/
theorem quant_neg {q : QMode} (hq : Model.DivFixed.symm q = true) (x : ℚ) : quant q (-x) = -quant q x := by
  by_cases hf : Int.fract x = 0
  · have hx : x = ((⌊x⌋ : ℤ) : ℚ) := by have := Int.floor_add_fract x; linarith
    rw [hx]
    have : -((⌊x⌋ : ℤ) : ℚ) = ((-⌊x⌋ : ℤ) : ℚ) := by push_cast; rfl
    rw [this, quant_intCast, quant_intCast]
  · have h0 : 0 < Int.fract x := lt_of_le_of_ne (Int.fract_nonneg x) (Ne.symm hf)
    have h1 := Int.fract_lt_one x
    have hx := Int.floor_add_fract x
    have hfl : ⌊-x⌋ = -⌊x⌋ - 1 := by rw [Int.floor_eq_iff]; push_cast; constructor <;> linarith
    have hfr : Int.fract (-x) = 1 - Int.fract x := by
      unfold Int.fract; rw [hfl]; push_cast; ring
    have hfn : ¬ (1 - Int.fract x = 0) := by linarith [h1]
    rw [quant_eq_up, quant_eq_up, hfl, hfr]
    have c1 : (1 / 2 ≤ 1 - Int.fract x) ↔ ¬ (1 / 2 < Int.fract x) := by
      rw [not_lt]; constructor <;> intro h <;> linarith
    have c2 : (1 / 2 < 1 - Int.fract x) ↔ ¬ (1 / 2 ≤ Int.fract x) := by
      rw [not_le]; constructor <;> intro h <;> linarith
    have c3 : (-⌊x⌋ - 1 < 0) ↔ ¬ (⌊x⌋ < 0) := by omega
    have c4 : ((-⌊x⌋ - 1) % 2 = 1) ↔ ¬ (⌊x⌋ % 2 = 1) := by omega
    have hge : (1 / 2 < Int.fract x) → (1 / 2 ≤ Int.fract x) := le_of_lt
    by_cases p1 : ⌊x⌋ < 0 <;> by_cases p2 : (1 / 2 < Int.fract x) <;> by_cases p3 : (1 / 2 ≤ Int.fract x) <;>
      by_cases p4 : ⌊x⌋ % 2 = 1 <;> cases q <;> simp [Model.DivFixed.symm] at hq <;>
      simp only [up, c1, c2, c3, c4, hf, hfn, p1, p2, p3, p4, not_true_eq_false, not_false_eq_true, and_true, and_false,
        true_and, false_and, decide_true, decide_false, if_true, if_false, Bool.false_eq_true, or_true, or_false,
        true_or, false_or] <;> first | omega | exact absurd (hge p2) p3

theorem hexists_mag {f : Fmt} (hW : 1 ≤ f.W) {X : ℤ} (h0 : -2 ^ (f.W - 1) ≤ X) (h1 : X < 2 ^ (f.W - 1)) :
    mag f X = |X| ∧ |X| ≤ 2 ^ (f.W - 1) ∧ |X| < 2 ^ f.W := by
  have e := two_pow_succ_pred hW
  have hp := two_pow_pos' (f.W - 1)
  have hb : |X| ≤ 2 ^ (f.W - 1) := abs_le.mpr ⟨h0, h1.le⟩
  refine ⟨?_, hb, by linarith⟩
  unfold mag
  split_ifs with h
  · rw [abs_of_neg h] at *
    exact wrapU_of_lt (by linarith) (by linarith)
  · rw [abs_of_nonneg (by linarith)] at *
    exact wrapU_of_lt (by linarith) (by linarith)

/-- The exact quotient in terms of the quotient of the magnitudes. -/
theorem mag_quot (fn fd : Fmt) (N : ℤ) {D : ℤ} (hD : D ≠ 0) :
    0 ≤ fn.val |N| / fd.val |D| ∧
    (((N < 0) = (D < 0)) → fn.val N / fd.val D = fn.val |N| / fd.val |D|) ∧
    (¬ ((N < 0) = (D < 0)) → fn.val N / fd.val D = -(fn.val |N| / fd.val |D|)) := by
  have hp1 := zpow_pos' (-fn.F)
  have hp2 := zpow_pos' (-fd.F)
  have hneg : ∀ (f : Fmt) (x : ℤ), f.val (-x) = -f.val x := by intro f x; unfold Fmt.val; push_cast; ring
  refine ⟨?_, ?_, ?_⟩
  · unfold Fmt.val
    apply div_nonneg <;> apply mul_nonneg <;> first | exact le_of_lt (zpow_pos' _) | skip
    all_goals exact_mod_cast abs_nonneg _
  · intro h
    by_cases hn : N < 0
    · have hd : D < 0 := by rw [← h]; exact hn
      rw [abs_of_neg hn, abs_of_neg hd, hneg, hneg, neg_div_neg_eq]
    · have hd : ¬ D < 0 := by rw [← h]; exact hn
      rw [abs_of_nonneg (not_lt.mp hn), abs_of_nonneg (not_lt.mp hd)]
  · intro h
    by_cases hn : N < 0
    · have hd : ¬ D < 0 := fun hd => h (by simp [hn, hd])
      rw [abs_of_neg hn, abs_of_nonneg (not_lt.mp hd), hneg, neg_div, neg_neg]
    · have hd : D < 0 := by by_contra hd; exact h (by simp [hn, hd])
      rw [abs_of_nonneg (not_lt.mp hn), abs_of_neg hd, hneg, div_neg, neg_neg]

/-- The magnitude of the quotient is at most `2^(NI+DF-1)`. -/
theorem quot_le {fn fd : Fmt} {N D : ℤ} (hn : 1 ≤ fn.W) (hN : |N| ≤ 2 ^ (fn.W - 1)) (hD : D ≠ 0) :
    fn.val |N| / fd.val |D| ≤ 2 ^ (fn.I + fd.F - 1) := by
  have hp1 := zpow_pos' (-fn.F)
  have hp2 := zpow_pos' (-fd.F)
  have hD1 : (1 : ℚ) ≤ ((|D| : ℤ) : ℚ) := by exact_mod_cast Int.one_le_abs hD
  have hdpos : (0 : ℚ) < fd.val |D| := by unfold Fmt.val; exact mul_pos (by linarith) hp2
  rw [div_le_iff₀ hdpos]
  have h1 : fn.val |N| ≤ (2 : ℚ) ^ (fn.I - 1) := by
    have e : (2 : ℚ) ^ (fn.I - 1) = ((2 ^ (fn.W - 1) : ℤ) : ℚ) * 2 ^ (-fn.F) := by
      push_cast
      rw [← zpow_natCast, zpow_mul_zpow]
      congr 1; unfold Fmt.F; push_cast [hn]; ring
    rw [e]
    unfold Fmt.val
    exact mul_le_mul_of_nonneg_right (by exact_mod_cast hN) hp1.le
  have h2 : (2 : ℚ) ^ (fn.I - 1) ≤ 2 ^ (fn.I + fd.F - 1) * fd.val |D| := by
    unfold Fmt.val
    have e : (2 : ℚ) ^ (fn.I + fd.F - 1) * (((|D| : ℤ) : ℚ) * 2 ^ (-fd.F)) = ((|D| : ℤ) : ℚ) * 2 ^ (fn.I - 1) := by
      rw [mul_left_comm, zpow_mul_zpow]; congr 2; ring
    rw [e]
    have := mul_le_mul_of_nonneg_right hD1 (zpow_pos' (fn.I - 1)).le
    linarith
  linarith

/-- What an unsigned wrapping assignment stores. -/
theorem cvt_wrap_unsigned {u : Fmt} (hS : u.S = false) (hO : u.O = .WRAP) {w : ℚ} :
    ∃ r : ℤ, u.cvt w = u.val r ∧ 0 ≤ r ∧ r < 2 ^ u.W ∧ r ≡ quant u.Q (w * 2 ^ u.F) [ZMOD 2 ^ u.W] ∧
      (0 ≤ quant u.Q (w * 2 ^ u.F) → quant u.Q (w * 2 ^ u.F) < 2 ^ u.W → r = quant u.Q (w * 2 ^ u.F)) := by
  refine ⟨wrap u.W false (quant u.Q (w * 2 ^ u.F)), ?_, wrapU_nonneg _ _, wrapU_lt _ _, ?_, ?_⟩
  · unfold Fmt.cvt Fmt.cvtRaw ovf; rw [hS, hO]
  · exact wrap_modEq _ _ _
  · intro h0 h1; exact wrapU_of_lt h0 h1

/-- Conversion between two formats with the same number of fraction bits only applies the overflow mode. -/
theorem cvt_same_F {f g : Fmt} (h : f.F = g.F) (r : ℤ) : f.cvt (g.val r) = f.val (ovf f.W f.S f.O r) := by
  have : g.val r = f.val r := by unfold Fmt.val; rw [h]
  rw [this]
  unfold Fmt.cvt Fmt.cvtRaw
  rw [Fmt.val_mul_pow, quant_intCast]

/-- In a wrapping assignment with a sign-independent rounding mode, multiples of the modulus disappear. -/
theorem cvt_drop {f : Fmt} (hW : 1 ≤ f.W) (ho : f.O = .WRAP) (hs : f.Q.signFree = true) {rb : ℕ} {x y c : ℤ}
    (h : y = x + 2 * (c * 2 ^ (f.W + rb))) :
    f.cvt ((x : ℚ) * 2 ^ (-(f.F + rb + 1))) = f.cvt ((y : ℚ) * 2 ^ (-(f.F + rb + 1))) := by
  apply Fmt.cvt_wrap_add hW ho c _ (Or.inl hs)
  rw [h]
  push_cast
  have e : (2 : ℚ) * (c * 2 ^ (f.W + rb)) * 2 ^ (-(f.F + rb + 1)) * 2 ^ f.F = c * 2 ^ f.W := by
    have : (2 : ℚ) * 2 ^ (f.W + rb) * 2 ^ (-(f.F + rb + 1)) * 2 ^ f.F = 2 ^ f.W := by
      rw [← pow_succ', ← zpow_natCast, zpow_mul_zpow, zpow_mul_zpow, ← zpow_natCast]
      congr 1; push_cast; ring
    rw [← this]; ring
  rw [add_mul, add_mul, e]

theorem ceil_half {x : ℚ} {k : ℤ} (h0 : -(k : ℚ) - 1 < 2 * x) (h1 : 2 * x ≤ -(k : ℚ)) :
    ⌈x - 1 / 2⌉ = ⌈(-(k : ℚ)) / 2 - 1 / 2⌉ := by
  rw [Int.ceil_eq_iff]
  set c := ⌈(-(k : ℚ)) / 2 - 1 / 2⌉ with hc
  have c1 := Int.le_ceil ((-(k : ℚ)) / 2 - 1 / 2)
  have c2 := Int.ceil_lt_add_one ((-(k : ℚ)) / 2 - 1 / 2)
  rw [← hc] at c1 c2
  constructor
  · have : (2 * c - 2 : ℤ) < -k - 1 := by
      have : ((2 * c - 2 : ℤ) : ℚ) < ((-k - 1 : ℤ) : ℚ) := by push_cast; linarith
      exact_mod_cast this
    have h : (2 * c - 2 : ℤ) ≤ -k - 2 := by omega
    have h' : ((2 * c - 2 : ℤ) : ℚ) ≤ ((-k - 2 : ℤ) : ℚ) := by exact_mod_cast h
    push_cast at h'
    linarith
  · linarith

/-- Same signs: the truncated magnitude, with the sticky bit for `RND_MIN_INF`, converts like the exact quotient. -/
theorem same_sign {f : Fmt} (hq : f.Q = .TRN ∨ f.Q = .RND ∨ f.Q = .RND_MIN_INF) {w : ℚ} {k : ℤ}
    (b0 : (k : ℚ) ≤ w * 2 ^ (f.F + rbitS f.Q)) (b1 : w * 2 ^ (f.F + rbitS f.Q) < k + 1) :
    f.cvt (((2 * k + (if f.Q = .RND_MIN_INF ∧ w * 2 ^ (f.F + rbitS f.Q) ≠ k then 1 else 0) : ℤ) : ℚ) *
      2 ^ (-(f.F + rbitS f.Q + 1))) = f.cvt w := by
  have hz : (2 : ℚ) ^ (-(f.F + (rbitS f.Q : ℤ) + 1)) * 2 ^ (f.F + (rbitS f.Q : ℤ)) = 1 / 2 := by
    rw [zpow_mul_zpow, show -(f.F + (rbitS f.Q : ℤ) + 1) + (f.F + (rbitS f.Q : ℤ)) = -1 by ring]; norm_num
  by_cases hm : f.Q = .RND_MIN_INF
  · have hr : rbitS f.Q = 1 := by simp [rbitS, hm]
    by_cases he : w * 2 ^ (f.F + rbitS f.Q) = k
    · rw [if_neg (by simp [he])]
      congr 1
      apply mul_right_cancel₀ (ne_of_gt (zpow_pos' (f.F + rbitS f.Q)))
      rw [he, mul_assoc, hz]; push_cast; ring
    · rw [if_pos ⟨hm, he⟩]
      apply Fmt.cvt_cell (g := f.F + rbitS f.Q) (m := k) (by rw [hr]; push_cast; linarith)
      · rw [mul_assoc, hz]; push_cast; linarith
      · rw [mul_assoc, hz]; push_cast; linarith
      · exact lt_of_le_of_ne b0 (Ne.symm he)
      · exact b1
  · rw [if_neg (by simp [hm])]
    apply Fmt.cvt_cell_closed (g := f.F + rbitS f.Q) (m := k)
    · rcases hq with h | h | h
      · left; exact ⟨h, by omega⟩
      · right; left; exact ⟨h, by simp [rbitS, h]⟩
      · exact absurd h hm
    · rw [mul_assoc, hz]; push_cast; linarith
    · rw [mul_assoc, hz]; push_cast; linarith
    · exact b0
    · exact b1

/-- Different signs: the negated magnitude, moved down one unit when inexact (not for `RND_MIN_INF`), converts like the
exact quotient. -/
theorem diff_sign {f : Fmt} (hq : f.Q = .TRN ∨ f.Q = .RND ∨ f.Q = .RND_MIN_INF) {w : ℚ} {k : ℤ}
    (b0 : (k : ℚ) ≤ w * 2 ^ (f.F + rbitS f.Q)) (b1 : w * 2 ^ (f.F + rbitS f.Q) < k + 1) :
    f.cvt (((-(2 * (k + (if w * 2 ^ (f.F + rbitS f.Q) ≠ k ∧ f.Q ≠ .RND_MIN_INF then 1 else 0))) : ℤ) : ℚ) *
      2 ^ (-(f.F + rbitS f.Q + 1))) = f.cvt (-w) := by
  have hz : (2 : ℚ) ^ (-(f.F + (rbitS f.Q : ℤ) + 1)) * 2 ^ (f.F + (rbitS f.Q : ℤ)) = 1 / 2 := by
    rw [zpow_mul_zpow, show -(f.F + (rbitS f.Q : ℤ) + 1) + (f.F + (rbitS f.Q : ℤ)) = -1 by ring]; norm_num
  by_cases hm : f.Q = .RND_MIN_INF
  · have hr : rbitS f.Q = 1 := by simp [rbitS, hm]
    rw [if_neg (by simp [hm])]
    rw [hr] at b0 b1 ⊢
    have e1 : ∀ z : ℚ, z * 2 ^ (f.F + ((1 : ℕ) : ℤ)) = 2 * (z * 2 ^ f.F) := by
      intro z; rw [zpow_add₀ (by norm_num)]; push_cast; ring
    rw [e1] at b0 b1
    unfold Fmt.cvt Fmt.cvtRaw
    rw [hm]
    simp only [quant]
    have e2 : ((-(2 * (k + 0)) : ℤ) : ℚ) * 2 ^ (-(f.F + ((1 : ℕ) : ℤ) + 1)) * 2 ^ f.F = -(k : ℚ) / 2 := by
      rw [mul_assoc, zpow_mul_zpow, show -(f.F + ((1 : ℕ) : ℤ) + 1) + f.F = -2 by push_cast; ring]
      push_cast; norm_num; ring
    rw [e2, ← ceil_half (x := -w * 2 ^ f.F) (by linarith) (by linarith)]
  · have hc : (f.Q = .TRN ∧ f.F ≤ f.F + rbitS f.Q) ∨ (f.Q = .RND ∧ f.F + 1 ≤ f.F + rbitS f.Q) := by
      rcases hq with h | h | h
      · left; exact ⟨h, by omega⟩
      · right; exact ⟨h, by simp [rbitS, h]⟩
      · exact absurd h hm
    by_cases he : w * 2 ^ (f.F + rbitS f.Q) = k
    · rw [if_neg (by simp [he])]
      congr 1
      apply mul_right_cancel₀ (ne_of_gt (zpow_pos' (f.F + rbitS f.Q)))
      rw [neg_mul, he, mul_assoc, hz]; push_cast; ring
    · rw [if_pos ⟨he, hm⟩]
      have b0' := lt_of_le_of_ne b0 (Ne.symm he)
      apply Fmt.cvt_cell_closed (g := f.F + rbitS f.Q) (m := -(k + 1))
      · rcases hc with h | h
        · left; exact h
        · right; left; exact h
      · rw [mul_assoc, hz]; push_cast; linarith
      · rw [mul_assoc, hz]; push_cast; linarith
      · push_cast; linarith
      · push_cast; linarith

/-- Facts about the intermediate magnitude quotient `uQ` in the signed divider. -/
theorem uq_facts {noSat : Bool} {fn fd fq : Fmt} (hn : 1 ≤ fn.W) (hd : 1 ≤ fd.W) (hq : 1 ≤ fq.W)
    {rb : ℕ} {u : Fmt} (huW : u.W = (sZW fn fd fq).toNat + rb) (huI : u.I = sZI fn fd fq) (huS : u.S = false)
    (huO : u.O = .WRAP) (hz : 1 ≤ sZW fn fd fq)
    (he : ¬ early ⟨fn.W, fn.I, false, .TRN, .WRAP⟩ ⟨fd.W, fd.I, false, .TRN, .WRAP⟩ u)
    {N D : ℤ} (hN0 : -2 ^ (fn.W - 1) ≤ N) (hN1 : N < 2 ^ (fn.W - 1)) (hD0 : -2 ^ (fd.W - 1) ≤ D)
    (hD1 : D < 2 ^ (fd.W - 1)) (hD : D ≠ 0) (junk : ℚ) :
    u.F = fq.F + rb ∧ ∃ r : ℤ,
      (Model.DivFixed.divU noSat ⟨fn.W, fn.I, false, .TRN, .WRAP⟩ ⟨fd.W, fd.I, false, .TRN, .WRAP⟩ u (mag fn N)
        (mag fd D) junk).1 = u.val r ∧
      0 ≤ r ∧ r < 2 ^ u.W ∧ r ≡ quant u.Q (fn.val |N| / fd.val |D| * 2 ^ u.F) [ZMOD 2 ^ u.W] ∧
      (fq.O ≠ .WRAP → r = quant u.Q (fn.val |N| / fd.val |D| * 2 ^ u.F)) ∧
      (fq.O = .WRAP → u.W = fq.W + rb) ∧
      ((Model.DivFixed.divU noSat ⟨fn.W, fn.I, false, .TRN, .WRAP⟩ ⟨fd.W, fd.I, false, .TRN, .WRAP⟩ u (mag fn N)
        (mag fd D) junk).2 = true ↔ ∀ m : ℤ, fn.val |N| / fd.val |D| ≠ u.val m) := by
  obtain ⟨m1, m2, m3⟩ := hexists_mag hn hN0 hN1
  obtain ⟨d1, d2, d3⟩ := hexists_mag hd hD0 hD1
  have hF : u.F = fq.F + rb := by
    unfold Fmt.F; rw [huW, huI]; unfold sZW at *; unfold Fmt.F at *; omega
  refine ⟨hF, ?_⟩
  rw [m1, d1]
  have huW1 : 1 ≤ u.W := by omega
  obtain ⟨q1, q2⟩ := divU_eq (noSat := noSat) (fn := ⟨fn.W, fn.I, false, .TRN, .WRAP⟩)
    (fd := ⟨fd.W, fd.I, false, .TRN, .WRAP⟩) (fq := u) hn hd huW1 huS he (abs_nonneg N) m3 (abs_pos.mpr hD) d3 junk
  have hv : ∀ (f : Fmt) (x : ℤ), (⟨f.W, f.I, false, .TRN, .WRAP⟩ : Fmt).val x = f.val x := by
    intro f x; unfold Fmt.val Fmt.F; rfl
  rw [hv, hv] at q1 q2
  obtain ⟨r, r1, r2, r3, r4, r5⟩ := cvt_wrap_unsigned huS huO (w := fn.val |N| / fd.val |D|)
  refine ⟨r, by rw [q1, r1], r2, r3, r4, ?_, ?_, q2⟩
  · intro hO
    have hw0 := (mag_quot fn fd N hD).1
    have hw1 := quot_le (fd := fd) hn m2 hD
    apply r5
    · exact le_quant (by push_cast; exact mul_nonneg hw0 (zpow_pos' _).le)
    · have hp := two_pow_pos' (u.W - 1)
      have hpe := two_pow_succ_pred huW1
      have : quant u.Q (fn.val |N| / fd.val |D| * 2 ^ u.F) ≤ 2 ^ (u.W - 1) := by
        apply quant_le
        have h1 := mul_le_mul_of_nonneg_right hw1 (zpow_pos' u.F).le
        have h2 : (2 : ℚ) ^ (fn.I + fd.F - 1) * 2 ^ u.F = ((2 ^ (u.W - 1) : ℤ) : ℚ) := by
          push_cast
          rw [← zpow_natCast, zpow_mul_zpow]
          congr 1
          have : u.I = fn.I + fd.F := by rw [huI]; unfold sZI; rw [if_neg hO]
          unfold Fmt.F at *; push_cast [huW1]; rw [this]; ring
        rw [h2] at h1; exact h1
      linarith
  · intro hO
    rw [huW]; unfold sZW sZI Fmt.F; rw [if_pos hO]; omega

theorem ovf_congr {f : Fmt} {r k : ℤ} (h : f.O ≠ .WRAP → r = k) (h' : f.O = .WRAP → r ≡ k [ZMOD 2 ^ f.W]) :
    ovf f.W f.S f.O r = ovf f.W f.S f.O k := by
  by_cases ho : f.O = .WRAP
  · rw [ho]; exact ovf_wrap_congr (h' ho)
  · rw [h ho]

theorem forall_ne_neg {f : Fmt} {v w : ℚ} (h : v = w ∨ v = -w) :
    (∀ m : ℤ, w ≠ f.val m) ↔ ∀ m : ℤ, v ≠ f.val m := by
  rcases h with h | h
  · rw [h]
  · have hneg : ∀ x : ℤ, f.val (-x) = -f.val x := by intro x; unfold Fmt.val; push_cast; ring
    constructor
    · intro hw m hm
      apply hw (-m); rw [hneg]; linarith
    · intro hw m hm
      apply hw (-m); rw [hneg]; linarith

/-- Main lemma: the signed divider returns the correctly rounded quotient. -/
theorem divS_eq {noSat : Bool} {fn fd fq : Fmt} (hn : 1 ≤ fn.W) (hd : 1 ≤ fd.W) (hq : 1 ≤ fq.W) (hS : fq.S = true)
    (hz : 1 ≤ sZW fn fd fq)
    (he : ¬ early ⟨fn.W, fn.I, false, .TRN, .WRAP⟩ ⟨fd.W, fd.I, false, .TRN, .WRAP⟩ (uqFmt fn fd fq))
    {N D : ℤ} (hN0 : -2 ^ (fn.W - 1) ≤ N) (hN1 : N < 2 ^ (fn.W - 1)) (hD0 : -2 ^ (fd.W - 1) ≤ D)
    (hD1 : D < 2 ^ (fd.W - 1)) (hD : D ≠ 0) (junk : ℚ) :
    (Model.DivFixed.divS noSat fn fd fq N D junk).1 = fq.cvt (fn.val N / fd.val D) ∧
    ((Model.DivFixed.divS noSat fn fd fq N D junk).2 = true ↔ ∀ m : ℤ, fn.val N / fd.val D ≠ fq.val m) := by
  obtain ⟨v0, v1, v2⟩ := mag_quot fn fd N hD
  set v := fn.val N / fd.val D with hvdef
  set w := fn.val |N| / fd.val |D| with hwdef
  have hvw : v = w ∨ v = -w := by
    by_cases h : (N < 0) = (D < 0)
    · exact Or.inl (v1 h)
    · exact Or.inr (v2 h)
  unfold Model.DivFixed.divS
  simp only []
  rw [if_neg (show ¬ ((!noSat) = true ∧ D = 0) from fun h => hD h.2)]
  by_cases hs : Model.DivFixed.symm fq.Q = true
  · rw [if_pos hs]
    have hu : uqFmt fn fd fq = ⟨(sZW fn fd fq).toNat, sZI fn fd fq, false, fq.Q, .WRAP⟩ := by
      unfold uqFmt; rw [if_pos hs]
    have hsq : sqFmt fn fd fq = ⟨(sZW fn fd fq).toNat + 1, sZI fn fd fq + 1, true, fq.Q, .WRAP⟩ := by
      unfold sqFmt; rw [if_pos hs]
    rw [hu] at he
    rw [hu, hsq]
    obtain ⟨hF, r, r1, r2, r3, r4, r5, r6, r7⟩ := uq_facts (noSat := noSat) (fq := fq) hn hd hq (rb := 0)
      (u := ⟨(sZW fn fd fq).toNat, sZI fn fd fq, false, fq.Q, .WRAP⟩) rfl rfl rfl rfl hz he hN0 hN1 hD0 hD1 hD junk
    set u : Fmt := ⟨(sZW fn fd fq).toNat, sZI fn fd fq, false, fq.Q, .WRAP⟩ with hudef
    set q : Fmt := ⟨(sZW fn fd fq).toNat + 1, sZI fn fd fq + 1, true, fq.Q, .WRAP⟩ with hqdef
    have hqF : q.F = u.F := by rw [hudef, hqdef]; unfold Fmt.F; push_cast; ring
    have hF0 : u.F = fq.F := by rw [hF]; push_cast; ring
    rw [r1]
    have hrange : ∀ x : ℤ, -r ≤ x → x ≤ r → q.cvt (u.val x) = q.val x := by
      intro x h0 h1
      rw [cvt_same_F hqF]
      congr 1
      have r3' : r < 2 ^ (sZW fn fd fq).toNat := r3
      apply ovf_of_range (by rw [hqdef]; simp)
      · rw [hqdef]; simp [loRaw, minRaw]; linarith
      · rw [hqdef]; simp [maxRaw]; omega
    have hneg : -u.val r = u.val (-r) := by unfold Fmt.val; push_cast; ring
    have hqfq : fq.F = q.F := by rw [hqF, hF0]
    have hmain : ∀ x : ℤ, fq.cvt (q.val x) = fq.val (ovf fq.W fq.S fq.O x) := fun x => cvt_same_F hqfq x
    have hcv : ∀ z : ℚ, fq.cvt z = fq.val (ovf fq.W fq.S fq.O (quant fq.Q (z * 2 ^ fq.F))) := fun z => rfl
    rw [hF0] at r4 r5
    change fq.O ≠ .WRAP → r = quant fq.Q (w * 2 ^ fq.F) at r5
    change r ≡ quant fq.Q (w * 2 ^ fq.F) [ZMOD 2 ^ u.W] at r4
    constructor
    · simp only []
      split_ifs with hsg
      · rw [hrange r (by linarith) le_rfl, hmain, v1 hsg, hcv]
        congr 1
        exact ovf_congr r5 (fun h => by have := r6 h; rw [← Nat.add_zero fq.W, ← this]; exact r4)
      · rw [hneg, hrange (-r) le_rfl (by linarith), hmain, v2 hsg, hcv, neg_mul, quant_neg hs]
        congr 1
        exact ovf_congr (fun h => by rw [r5 h])
          (fun h => by have := r6 h; rw [← Nat.add_zero fq.W, ← this]; exact r4.neg)
    · rw [r7, ← forall_ne_neg hvw]
      have : ∀ m : ℤ, u.val m = fq.val m := by intro m; unfold Fmt.val; rw [hF0]
      simp only [this]
      exact Iff.rfl
  · rw [if_neg hs]
    have hmode : fq.Q = .TRN ∨ fq.Q = .RND ∨ fq.Q = .RND_MIN_INF := by
      revert hs; cases fq.Q <;> simp [Model.DivFixed.symm]
    have hfree : fq.Q.signFree = true := by rcases hmode with h | h | h <;> rw [h] <;> rfl
    have hu : uqFmt fn fd fq = ⟨(sZW fn fd fq).toNat + rbitS fq.Q, sZI fn fd fq, false, .TRN, .WRAP⟩ := by
      unfold uqFmt; rw [if_neg hs]
    have hsq : sqFmt fn fd fq = ⟨(sZW fn fd fq).toNat + rbitS fq.Q + 2, sZI fn fd fq + 1, true, .TRN, .WRAP⟩ := by
      unfold sqFmt; rw [if_neg hs]
    rw [hu] at he
    rw [hu, hsq]
    obtain ⟨hF, r, r1, r2, r3, r4, r5, r6, r7⟩ := uq_facts (noSat := noSat) (fq := fq) hn hd hq (rb := rbitS fq.Q)
      (u := ⟨(sZW fn fd fq).toNat + rbitS fq.Q, sZI fn fd fq, false, .TRN, .WRAP⟩) rfl rfl rfl rfl hz he
      hN0 hN1 hD0 hD1 hD junk
    set rb := rbitS fq.Q with hrb
    set u : Fmt := ⟨(sZW fn fd fq).toNat + rb, sZI fn fd fq, false, .TRN, .WRAP⟩ with hudef
    set q : Fmt := ⟨(sZW fn fd fq).toNat + rb + 2, sZI fn fd fq + 1, true, .TRN, .WRAP⟩ with hqdef
    have hqF : q.F = fq.F + rb + 1 := by rw [← hF, hudef, hqdef]; unfold Fmt.F; push_cast; ring
    rw [hF] at r4 r5
    set k := ⌊w * 2 ^ (fq.F + (rb : ℤ))⌋ with hk
    change fq.O ≠ .WRAP → r = k at r5
    change r ≡ k [ZMOD 2 ^ u.W] at r4
    have b0 : (k : ℚ) ≤ w * 2 ^ (fq.F + (rb : ℤ)) := Int.floor_le _
    have b1 : w * 2 ^ (fq.F + (rb : ℤ)) < k + 1 := Int.lt_floor_add_one _
    have huval : ∀ m : ℤ, w = u.val m ↔ w * 2 ^ (fq.F + (rb : ℤ)) = m := by
      intro m
      rw [← hF, ← Fmt.val_mul_pow u m]
      exact ⟨fun h => by rw [h], fun h => mul_right_cancel₀ (ne_of_gt (zpow_pos' _)) h⟩
    have hrem : (Model.DivFixed.divU noSat ⟨fn.W, fn.I, false, .TRN, .WRAP⟩ ⟨fd.W, fd.I, false, .TRN, .WRAP⟩ u
        (mag fn N) (mag fd D) junk).2 = true ↔ w * 2 ^ (fq.F + (rb : ℤ)) ≠ k := by
      rw [r7]
      constructor
      · intro h h'; exact h k ((huval k).mpr h')
      · intro h m hm
        apply h
        rw [huval] at hm
        rw [hk, hm, Int.floor_intCast]
    rw [r1]
    set hr := (Model.DivFixed.divU noSat ⟨fn.W, fn.I, false, .TRN, .WRAP⟩ ⟨fd.W, fd.I, false, .TRN, .WRAP⟩ u
        (mag fn N) (mag fd D) junk).2 with hhr
    have hqW : (2 : ℤ) ^ (q.W - 1) = 2 * 2 ^ u.W := by
      rw [hqdef, hudef]; simp only
      rw [show (sZW fn fd fq).toNat + rb + 2 - 1 = ((sZW fn fd fq).toNat + rb) + 1 by omega, pow_succ]; ring
    have huq : ∀ x : ℤ, u.val x = q.val (2 * x) := by
      intro x; unfold Fmt.val
      rw [hqF, hF, show -(fq.F + (rb : ℤ)) = -(fq.F + rb + 1) + 1 by ring, zpow_add₀ (by norm_num)]; push_cast; ring
    have hqrange : ∀ y : ℤ, -2 ^ (q.W - 1) ≤ y → y < 2 ^ (q.W - 1) → q.cvt (q.val y) = q.val y := by
      intro y h0 h1
      apply Fmt.cvt_val
      · rw [hqdef]; simp
      · rw [hqdef] at h0 ⊢; simpa [loRaw, minRaw] using h0
      · rw [hqdef] at h1 ⊢; simp [maxRaw] at h1 ⊢; omega
    have hfin : ∀ y z : ℤ, ((∃ c : ℤ, z = y + 2 * (c * 2 ^ (fq.W + rb))) ∧ fq.O = .WRAP ∨ y = z) →
        fq.cvt (q.val y) = fq.cvt ((z : ℚ) * 2 ^ (-(fq.F + rb + 1))) := by
      intro y z h
      have e : q.val y = (y : ℚ) * 2 ^ (-(fq.F + rb + 1)) := by unfold Fmt.val; rw [hqF]
      rw [e]
      rcases h with ⟨⟨c, h⟩, ho⟩ | h
      · exact cvt_drop hq ho hfree h
      · rw [h]
    have hrk : ∃ c : ℤ, k = r + c * 2 ^ (fq.W + rb) ∧ (fq.O ≠ .WRAP → c = 0) := by
      by_cases ho : fq.O = .WRAP
      · obtain ⟨c, hc⟩ := r4.dvd
        refine ⟨c, ?_, fun h => absurd ho h⟩
        rw [← r6 ho]; linarith [mul_comm c ((2 : ℤ) ^ u.W)]
      · exact ⟨0, by rw [r5 ho]; ring, fun _ => rfl⟩
    obtain ⟨c, hc, hc0⟩ := hrk
    have hcond : ∀ y z : ℤ, (z = y + 2 * (c * 2 ^ (fq.W + rb)) ∨ z = y + 2 * (-c * 2 ^ (fq.W + rb))) →
        ((∃ c : ℤ, z = y + 2 * (c * 2 ^ (fq.W + rb))) ∧ fq.O = .WRAP ∨ y = z) := by
      intro y z h
      by_cases ho : fq.O = .WRAP
      · left
        rcases h with h | h
        · exact ⟨⟨c, h⟩, ho⟩
        · exact ⟨⟨-c, h⟩, ho⟩
      · right
        rw [hc0 ho] at h
        rcases h with h | h <;> rw [h] <;> ring
    constructor
    · simp only []
      split_ifs with hsg hmi hl
      · -- same sign, sticky
        rw [huq, hqrange (2 * r) (by linarith) (by linarith), Fmt.raw_val, show 2 * r = r * 2 ^ 1 by ring,
          setBit_low (TW := q.W - 1) (by rw [hqdef]; simp) (by rw [hqdef]; simp)
            ⟨by rw [hqdef]; simp [minRaw]; have := two_pow_pos' ((sZW fn fd fq).toNat + rb); linarith, by
              rw [hqdef]; simp [maxRaw]
              have : r < 2 ^ ((sZW fn fd fq).toNat + rb) := r3
              omega⟩]
        rw [v1 hsg, ← same_sign hmode b0 b1]
        have : (if fq.Q = .RND_MIN_INF ∧ w * 2 ^ (fq.F + (rb : ℤ)) ≠ k then 1 else 0) =
            (if hr = true then (1 : ℤ) else 0) := by
          by_cases h : hr = true
          · rw [if_pos h, if_pos ⟨hmi, hrem.mp h⟩]
          · rw [if_neg h, if_neg (fun h' => h (hrem.mpr h'.2))]
        rw [this]
        apply hfin; apply hcond; left; rw [hc]; ring
      · rw [huq, hqrange (2 * r) (by linarith) (by linarith)]
        rw [v1 hsg, ← same_sign hmode b0 b1, if_neg (by simp [hmi])]
        apply hfin; apply hcond; left; rw [hc]; ring
      all_goals
        have e : ∀ l : ℤ, -(u.val r + u.val l) = q.val (-(2 * (r + l))) := by
          intro l; rw [huq, huq]; unfold Fmt.val; push_cast; ring
        rw [e, hqrange _ (by linarith) (by linarith), v2 hsg, ← diff_sign hmode b0 b1]
      · rw [if_pos (show w * 2 ^ (fq.F + (rbitS fq.Q : ℤ)) ≠ k ∧ fq.Q ≠ .RND_MIN_INF from ⟨hrem.mp hl.1, hl.2⟩)]
        apply hfin; apply hcond; right; rw [hc]; ring
      · rw [if_neg (show ¬ (w * 2 ^ (fq.F + (rbitS fq.Q : ℤ)) ≠ k ∧ fq.Q ≠ .RND_MIN_INF) from
          fun h => hl ⟨hrem.mpr h.1, h.2⟩)]
        apply hfin; apply hcond; right; rw [hc]; ring
    · have hraw : u.raw (u.val r) = r := Fmt.raw_val _ _
      rw [hraw, Bool.or_eq_true, hrem, decide_eq_true_eq]
      have hpar : r % 2 = k % 2 := by
        rw [hc]
        obtain ⟨n, hn⟩ : ∃ n, fq.W + rb = n + 1 := ⟨fq.W + rb - 1, by omega⟩
        rw [hn, pow_succ, ← mul_assoc]; omega
      rw [hpar, ← forall_ne_neg hvw]
      have hr1 : rb ≤ 1 := by rw [hrb]; unfold rbitS; split_ifs <;> omega
      exact flag_iff hr1 b0 b1

end Proof.DivFixed
