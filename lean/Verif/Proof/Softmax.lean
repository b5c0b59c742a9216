import Verif.Model.Softmax
import Verif.Proof.PowPwl
import Verif.Proof.Reciprocal
import Verif.Proof.PwlNorm
import Verif.Proof.Bits

namespace Proof.Softmax
open Ac Model.Softmax Proof.Pwl

/-- The number in `b2_pow`. -/
def T (l : ℕ) (x : ℚ) : ℚ := x * log2e l

/-- The exponential of one element before any truncation; 2 to an integer when there are no fraction bits. -/
def H (l : ℕ) (f : Fmt) (x : ℚ) : ℚ :=
  if (powFmt l f).I < (powFmt l f).W then Proof.PowPwl.core (T l x) else 2 ^ ⌊T l x⌋

theorem log2e_rep (l : ℕ) : (log2eFmt l).Rep (log2e l) := Fmt.rep_cvt (by simp [log2eFmt]) _

theorem log2e_eq (l : ℕ) : log2e l = trunc l fullLog2e := by
  unfold log2e log2eFmt
  rw [Nat.add_comm]
  have := cvt_trunc (I := 1) (n := l) (x := fullLog2e) (by unfold fullLog2e; norm_num) (by unfold fullLog2e; norm_num)
  exact_mod_cast this

theorem log2e_nonneg (l : ℕ) : 0 ≤ log2e l := by
  rw [log2e_eq]; exact trunc_nonneg _ (by unfold fullLog2e; norm_num)

theorem pow_rep {l : ℕ} {f : Fmt} (hW : 1 ≤ f.W) {x : ℚ} (hx : f.Rep x) : (powFmt l f).Rep (T l x) := by
  unfold powFmt T
  rw [mul_comm]
  exact Fmt.rep_mult (by simp [log2eFmt]) hW (log2e_rep l) hx

theorem pow_W {l : ℕ} {f : Fmt} : 1 ≤ (powFmt l f).W := by simp [powFmt, log2eFmt, Fmt.mult]; omega

theorem b2pow_eq {l : ℕ} {f : Fmt} (hW : 1 ≤ f.W) {x : ℚ} (hx : f.Rep x) : b2pow l f x = T l x :=
  Fmt.cvt_rep pow_W (by simp [powFmt, Fmt.mult]) (pow_rep hW hx)

/-- The integer parts fit their type. -/
theorem floor_range {l : ℕ} {f : Fmt} (hW : 1 ≤ f.W) (hI : 0 ≤ f.I) {x : ℚ} (hx : f.Rep x) :
    minRaw (powFmt l f).I.toNat (powFmt l f).S ≤ ⌊T l x⌋ ∧ ⌊T l x⌋ ≤ maxRaw (powFmt l f).I.toNat (powFmt l f).S := by
  have h := ((Fmt.rep_iff pow_W _).1 (pow_rep (l := l) hW hx)).1
  have hI' : 1 ≤ (powFmt l f).I := by simp [powFmt, log2eFmt, Fmt.mult]; omega
  obtain ⟨n, hn⟩ : ∃ n : ℕ, (powFmt l f).I = n + 1 := ⟨((powFmt l f).I - 1).toNat, by omega⟩
  have e1 : (powFmt l f).I.toNat = n + 1 := by omega
  unfold Fmt.Bnd at h
  rw [e1]
  unfold minRaw maxRaw
  by_cases hS : (powFmt l f).S = true
  · rw [if_pos hS, hn] at h
    rw [if_pos hS, if_pos hS]
    rw [add_sub_cancel_right, zpow_natCast] at h
    simp only [Nat.add_sub_cancel]
    constructor
    · rw [Int.le_floor]; push_cast; exact h.1
    · have : ⌊T l x⌋ < 2 ^ n := by rw [Int.floor_lt]; push_cast; exact h.2
      omega
  · rw [if_neg hS, hn] at h
    rw [if_neg hS, if_neg hS]
    constructor
    · exact Int.floor_nonneg.2 h.1
    · have : ⌊T l x⌋ < 2 ^ (n + 1) := by
        rw [Int.floor_lt]; push_cast
        have := h.2
        rw [show ((n : ℤ) + 1) = ((n + 1 : ℕ) : ℤ) by push_cast; rfl, zpow_natCast] at this
        exact this
      omega

theorem intPart_eq {l : ℕ} {f : Fmt} (hW : 1 ≤ f.W) (hI : 0 ≤ f.I) {x : ℚ} (hx : f.Rep x) : intPart l f x = ⌊T l x⌋ := by
  obtain ⟨a, b⟩ := floor_range (l := l) hW hI hx
  unfold intPart
  rw [b2pow_eq hW hx, wrap_of_range _ a b]
  simp [powFmt, log2eFmt, Fmt.mult]; omega

/-- The exponential of the fraction, before truncation. -/
def G (l : ℕ) (f : Fmt) (x : ℚ) : ℚ :=
  if (powFmt l f).I < (powFmt l f).W then Proof.PowPwl.g (Int.fract (T l x)) else 1

theorem G_bounds (l : ℕ) (f : Fmt) (x : ℚ) : 511 / 512 ≤ G l f x ∧ G l f x ≤ 511 / 256 := by
  unfold G
  split_ifs
  · exact Proof.PowPwl.g_bounds (Int.fract_nonneg _) (Int.fract_lt_one _)
  · norm_num

theorem H_eq (l : ℕ) (f : Fmt) (x : ℚ) : H l f x = G l f x * 2 ^ ⌊T l x⌋ := by
  unfold H G Proof.PowPwl.core
  split_ifs <;> simp

theorem exp_cvt (e : ℕ) {x : ℚ} (h0 : 0 ≤ x) (h1 : x < 2) : (expFmt e).cvt x = trunc e x := by
  unfold expFmt
  rw [Nat.add_comm]
  have := cvt_trunc (I := 1) (n := e) h0 (by linarith)
  exact_mod_cast this

theorem expFrac_eq (e : ℕ) {l : ℕ} (q : QMode) {f : Fmt} (hW : 1 ≤ f.W) {x : ℚ} (hx : f.Rep x) :
    expFrac e l q f x = some (trunc e (G l f x)) := by
  have hb := G_bounds l f x
  have hr := pow_rep (l := l) hW hx
  unfold expFrac
  rw [b2pow_eq hW hx]
  unfold G at hb ⊢
  by_cases h : (powFmt l f).I < (powFmt l f).W
  · rw [if_pos h] at hb
    rw [if_pos h, if_pos h]
    have h1 := (Proof.PowPwl.fracPart_eq hr).1
    unfold Model.PwlFixed.fracPart at h1
    rw [if_pos h] at h1
    simp only
    have hp : (0 : ℤ) < 2 ^ ((powFmt l f).W - (powFmt l f).I).toNat := by positivity
    rw [Proof.PowPwl.pow2_eq q (by simp [expFmt]) rfl
      ⟨_, by simpa [minRaw] using Int.emod_nonneg _ hp.ne', by
        have := Int.emod_lt_of_pos ((powFmt l f).raw (T l x)) hp
        simp only [maxRaw, Bool.false_eq_true, if_false]; omega, rfl⟩]
    rw [h1]
    unfold Proof.PowPwl.core
    rw [Int.fract_fract, Int.floor_fract, zpow_zero, mul_one, exp_cvt e (by linarith [hb.1]) (by linarith [hb.2])]
  · rw [if_neg h, if_neg h, exp_cvt e (by norm_num) (by norm_num)]

/-- The greatest integer part. -/
theorem maxInt_eq {l : ℕ} {f : Fmt} {K : ℕ} {x : ℕ → ℚ} (hW : 1 ≤ f.W) (hI : 0 ≤ f.I) (hx : ∀ i < K, f.Rep (x i))
    (hK : 1 ≤ K) (junk : ℤ) :
    (∀ i < K, ⌊T l (x i)⌋ ≤ maxInt l f K x junk) ∧ ∃ i < K, maxInt l f K x junk = ⌊T l (x i)⌋ := by
  unfold maxInt
  have := forUp_inv (f := fun i m => if i = 0 then intPart l f (x i) else if intPart l f (x i) > m then intPart l f (x i) else m)
    (P := fun k m => 1 ≤ k → (∀ i < k, ⌊T l (x i)⌋ ≤ m) ∧ ∃ i < k, m = ⌊T l (x i)⌋) (s := junk) (by omega) (n := K) ?_
  · exact this hK
  · intro i m hi ih _
    simp only [intPart_eq hW hI (hx i hi)]
    by_cases h0 : i = 0
    · subst h0
      simp only [if_true]
      exact ⟨fun j hj => by rw [show j = 0 by omega], 0, by omega, rfl⟩
    · rw [if_neg h0]
      obtain ⟨a, j, hj, b⟩ := ih (by omega)
      split_ifs with hc
      · refine ⟨fun k hk => ?_, i, by omega, rfl⟩
        rcases Nat.lt_succ_iff_lt_or_eq.1 hk with h | h
        · exact le_trans (a k h) hc.le
        · rw [h]
      · refine ⟨fun k hk => ?_, j, by omega, b⟩
        rcases Nat.lt_succ_iff_lt_or_eq.1 hk with h | h
        · exact a k h
        · rw [h]; omega

theorem trunc_trunc_div (e d : ℕ) (y : ℚ) : (⌊y * 2 ^ e⌋ / 2 ^ d : ℤ) = ⌊y / 2 ^ d * 2 ^ e⌋ := by
  rw [show y / 2 ^ d * 2 ^ e = y * 2 ^ e / ((2 ^ d : ℕ) : ℚ) by push_cast; ring, Int.floor_div_natCast]
  push_cast; rfl

theorem prod_eq (e : ℕ) {l : ℕ} {f : Fmt} (hW : 1 ≤ f.W) (hI : 0 ≤ f.I) {x xm : ℚ} (hx : f.Rep x) (hm : f.Rep xm)
    (h : ⌊T l x⌋ ≤ ⌊T l xm⌋) :
    prod e l f ⌊T l xm⌋ x (trunc e (G l f x)) = trunc e (H l f x * 2 ^ (-⌊T l xm⌋)) := by
  obtain ⟨a1, b1⟩ := floor_range (l := l) hW hI hx
  obtain ⟨a2, b2⟩ := floor_range (l := l) hW hI hm
  have hn : 1 ≤ (powFmt l f).I.toNat := by simp [powFmt, log2eFmt, Fmt.mult]; omega
  have hd : wrap (powFmt l f).I.toNat false (⌊T l xm⌋ - ⌊T l x⌋) = ⌊T l xm⌋ - ⌊T l x⌋ := by
    refine wrapU_of_lt (by omega) ?_
    have := two_pow_succ_pred hn
    unfold minRaw at a1
    unfold maxRaw at b2
    split_ifs at a1 b2 <;> omega
  unfold prod
  rw [intPart_eq hW hI hx, hd]
  obtain ⟨d, hdd⟩ : ∃ d : ℕ, ⌊T l xm⌋ - ⌊T l x⌋ = d := ⟨_, (Int.toNat_of_nonneg (by omega)).symm⟩
  rw [hdd, Int.toNat_natCast]
  have hF : (expFmt e).F = (e : ℕ) := by simp [expFmt, Fmt.F]
  have hr : (expFmt e).raw (trunc e (G l f x)) = ⌊G l f x * 2 ^ e⌋ := by
    unfold Fmt.raw trunc
    rw [hF, zpow_natCast, div_mul_cancel₀ _ (by positivity), Int.floor_intCast]
  rw [hr, trunc_trunc_div, H_eq]
  have : G l f x * 2 ^ ⌊T l x⌋ * 2 ^ (-⌊T l xm⌋) = G l f x / 2 ^ d := by
    rw [mul_assoc, Fmt.z_add, show ⌊T l x⌋ + -⌊T l xm⌋ = -(d : ℤ) by omega, zpow_neg, zpow_natCast]; rfl
  rw [this]
  unfold Fmt.val trunc
  rw [hF, zpow_neg, zpow_natCast]; rfl

theorem H_mono {l : ℕ} {f : Fmt} {x y : ℚ} (h : x ≤ y) : H l f x ≤ H l f y := by
  have ht : T l x ≤ T l y := mul_le_mul_of_nonneg_right h (log2e_nonneg l)
  unfold H
  split_ifs
  · exact Proof.PowPwl.core_mono ht
  · exact Fmt.z_le (Int.floor_le_floor ht)

theorem H_pos (l : ℕ) (f : Fmt) (x : ℚ) : 0 < H l f x := by
  rw [H_eq]; exact mul_pos (by linarith [(G_bounds l f x).1]) (Fmt.z_pos _)

/-- Two integer powers of two: bounds of the exponentials relative to the greatest one. -/
theorem H_le (l : ℕ) (f : Fmt) {x xm : ℚ} (h : ⌊T l x⌋ ≤ ⌊T l xm⌋) : H l f x * 2 ^ (-⌊T l xm⌋) ≤ 511 / 256 := by
  rw [H_eq, mul_assoc, Fmt.z_add]
  have h1 := Fmt.z_le (show ⌊T l x⌋ + -⌊T l xm⌋ ≤ 0 by omega)
  rw [zpow_zero] at h1
  have := mul_le_mul (G_bounds l f x).2 h1 (Fmt.z_pos _).le (by norm_num)
  linarith

theorem le_H (l : ℕ) (f : Fmt) {xm : ℚ} : 511 / 512 ≤ H l f xm * 2 ^ (-⌊T l xm⌋) := by
  rw [H_eq, mul_assoc, Fmt.z_add, add_neg_cancel, zpow_zero, mul_one]
  exact (G_bounds l f xm).1

theorem two_K {K : ℕ} (hK : 1 ≤ K) : 2 * K ≤ 2 ^ sumI K := by
  have := Model.Bits.lt_two_pow_nbits (2 * K - 1)
  unfold sumI; omega

/-- The sum of the products is exact. -/
theorem prodSum_eq (e : ℕ) {K : ℕ} (hK : 1 ≤ K) (y : ℕ → ℚ) (hy : ∀ i < K, 0 ≤ y i ∧ y i ≤ 511 / 256) :
    prodSum e K (fun i => trunc e (y i)) = ∑ i ∈ Finset.range K, trunc e (y i) ∧
    (sumFmt K e).Rep (∑ i ∈ Finset.range K, trunc e (y i)) := by
  have hF : (sumFmt K e).F = (e : ℕ) := by simp [sumFmt, Fmt.F]
  have hI1 : 1 ≤ sumI K := by unfold sumI nbits; split_ifs <;> omega
  have hWs : 1 ≤ (sumFmt K e).W := by simp [sumFmt]; omega
  have key : ∀ k ≤ K, (sumFmt K e).Rep (∑ i ∈ Finset.range k, trunc e (y i)) := by
    intro k hk
    refine ⟨∑ i ∈ Finset.range k, ⌊y i * 2 ^ e⌋, ?_, ?_, ?_⟩
    · simp only [sumFmt, minRaw, Bool.false_eq_true, if_false]
      exact Finset.sum_nonneg fun i hi => Int.floor_nonneg.2 (mul_nonneg (hy i (by rw [Finset.mem_range] at hi; omega)).1 (by positivity))
    · simp only [sumFmt, maxRaw, Bool.false_eq_true, if_false]
      have hle : ∀ i ∈ Finset.range k, ⌊y i * 2 ^ e⌋ ≤ 2 * 2 ^ e - 1 := by
        intro i hi
        have h1 := (hy i (by rw [Finset.mem_range] at hi; omega)).2
        have : ⌊y i * 2 ^ e⌋ < 2 * 2 ^ e := by
          rw [Int.floor_lt]; push_cast
          have : (0 : ℚ) < 2 ^ e := by positivity
          exact mul_lt_mul_of_pos_right (by linarith) this
        omega
      have h1 := Finset.sum_le_card_nsmul _ _ _ hle
      rw [Finset.card_range, nsmul_eq_mul] at h1
      have h2 : (2 * K : ℤ) ≤ 2 ^ sumI K := by exact_mod_cast two_K hK
      have h3 : (k : ℤ) * (2 * 2 ^ e - 1) ≤ K * (2 * 2 ^ e - 1) :=
        mul_le_mul_of_nonneg_right (by exact_mod_cast hk) (by have : (0 : ℤ) < 2 ^ e := by positivity
                                                              omega)
      have h4 := mul_le_mul_of_nonneg_right h2 (show (0 : ℤ) ≤ 2 ^ e by positivity)
      rw [pow_add]
      have : (1 : ℤ) ≤ K := by exact_mod_cast hK
      nlinarith
    · unfold Fmt.val trunc
      rw [hF, zpow_neg, zpow_natCast]; push_cast
      rw [Finset.sum_mul]; rfl
  refine ⟨?_, key K le_rfl⟩
  unfold prodSum
  have := forUp_inv (f := fun i s => (sumFmt K e).cvt (s + trunc e (y i)))
    (P := fun k s => s = ∑ i ∈ Finset.range k, trunc e (y i)) (s := (sumFmt K e).cvt (0 : ℚ)) (by
      rw [Fmt.cvt_rep hWs (by simp [sumFmt])]
      · simp
      · simpa using key 0 (by omega)) (n := K) ?_
  · exact this
  · intro i s hi hs
    rw [hs, ← Finset.sum_range_succ, Fmt.cvt_rep hWs (by simp [sumFmt]) (key (i + 1) (by omega))]

theorem mapM_some {α β : Type} (f : α → Option β) (g : α → β) (L : List α) (h : ∀ a ∈ L, f a = some (g a)) :
    L.mapM f = some (L.map g) := by
  induction L with
  | nil => rfl
  | cons a t ih =>
    rw [List.mapM_cons, h a (by simp), ih fun b hb => h b (by simp [hb])]
    rfl

set_option maxHeartbeats 1000000 in
/-- The whole function, with the reciprocal of the sum it uses. -/
theorem softmax_full (e : ℕ) (he : 1 ≤ e) (l : ℕ) (q : QMode) {f : Fmt} (hW : 1 ≤ f.W) (hI : 0 ≤ f.I) (out : Fmt) {K : ℕ}
    (hK : 1 ≤ K) {x : ℕ → ℚ} (hx : ∀ i < K, f.Rep (x i)) (junk : ℤ) :
    ∃ m < K, ∃ R : ℚ, (∀ i < K, ⌊T l (x i)⌋ ≤ ⌊T l (x m)⌋) ∧
      softmaxNew e l q f out K x junk =
        some ((List.range K).map fun i => out.cvt (trunc e (H l f (x i) * 2 ^ (-⌊T l (x m)⌋)) * R)) ∧
      0 < R ∧ |(∑ i ∈ Finset.range K, trunc e (H l f (x i) * 2 ^ (-⌊T l (x m)⌋))) * R - 1| ≤ 1 / 500 ∧
      Model.PwlFixed.reciprocal q (sumFmt K e) (recFmt K e)
        (∑ i ∈ Finset.range K, trunc e (H l f (x i) * 2 ^ (-⌊T l (x m)⌋))) = some R := by
  obtain ⟨hle, m, hm, hmm⟩ := maxInt_eq (l := l) hW hI hx hK junk
  rw [hmm] at hle
  set y : ℕ → ℚ := fun i => H l f (x i) * 2 ^ (-⌊T l (x m)⌋) with hyd
  have y0 : ∀ i, 0 ≤ y i := fun i => mul_nonneg (H_pos _ _ _).le (Fmt.z_pos _).le
  have hy : ∀ i < K, 0 ≤ y i ∧ y i ≤ 511 / 256 := fun i hi => ⟨y0 i, H_le l f (hle i hi)⟩
  obtain ⟨hsum, hrep⟩ := prodSum_eq e hK y hy
  set s : ℚ := ∑ i ∈ Finset.range K, trunc e (y i) with hsd
  have hs1 : 1 / 2 ≤ s := by
    have h1 : trunc e (y m) ≤ s :=
      Finset.single_le_sum (f := fun i => trunc e (y i)) (fun i _ => trunc_nonneg e (y0 i)) (Finset.mem_range.2 hm)
    have h2 : (1 / 2 : ℚ) ≤ trunc e (y m) := by
      unfold trunc
      obtain ⟨k, rfl⟩ : ∃ k, e = k + 1 := ⟨e - 1, by omega⟩
      have hk : (0 : ℚ) < 2 ^ k := by positivity
      rw [le_div_iff₀ (by positivity)]
      have : (2 ^ k : ℤ) ≤ ⌊y m * 2 ^ (k + 1)⌋ := by
        rw [Int.le_floor]; push_cast
        have h3 : 511 / 512 ≤ y m := le_H l f
        have := mul_le_mul_of_nonneg_right h3 (show (0 : ℚ) ≤ 2 ^ (k + 1) by positivity)
        rw [pow_succ] at this ⊢
        linarith
      have : ((2 ^ k : ℤ) : ℚ) ≤ ⌊y m * 2 ^ (k + 1)⌋ := by exact_mod_cast this
      push_cast at this
      rw [pow_succ] at this ⊢
      linarith
    linarith
  have hs2 : s ≤ 2 ^ sumI K := by
    have h1 : s ≤ ∑ i ∈ Finset.range K, (2 : ℚ) :=
      Finset.sum_le_sum fun i hi => le_trans (trunc_le e (y i)) (by linarith [(hy i (Finset.mem_range.1 hi)).2])
    rw [Finset.sum_const, Finset.card_range, nsmul_eq_mul] at h1
    have : ((2 * K : ℕ) : ℚ) ≤ ((2 ^ sumI K : ℕ) : ℚ) := by exact_mod_cast two_K hK
    push_cast at this
    linarith
  have hI1 : 1 ≤ sumI K := by unfold sumI nbits; split_ifs <;> omega
  have hWs : 1 ≤ (sumFmt K e).W := by simp [sumFmt]; omega
  have hWr : 1 ≤ (recFmt K e).W := by simp [recFmt]
  have hs0 : s ≠ 0 := by linarith
  have hrec := Proof.Reciprocal.reciprocal_eq q (out := recFmt K e) hWs hWr hrep hs0
  rw [if_neg (by simp [recFmt])] at hrec
  have habs : |s| = s := abs_of_pos (by linarith)
  obtain ⟨c1, c2⟩ := Proof.Reciprocal.core_pos hWs hrep hs0
  rw [habs] at hrec c1 c2
  set c := Proof.Reciprocal.core (sumFmt K e) s with hcd
  have c1' := abs_le.1 c1
  have hc3 : c ≤ 513 / 256 := by
    have h1 := mul_le_mul_of_nonneg_left hs1 c2.le
    linarith [c1'.2]
  have hF : (recFmt K e).F = (sumI K + 19 : ℕ) := by simp [recFmt, sumFmt, Fmt.F]; ring
  have hP : (0 : ℚ) < 2 ^ (sumI K + 19) := by positivity
  have hfit := Proof.PwlFixed.cvt_fit (o := recFmt K e) hWr rfl rfl c2.le (by
    rw [hF, zpow_natCast]
    obtain ⟨k, rfl⟩ : ∃ k, e = k + 1 := ⟨e - 1, by omega⟩
    have : (recFmt K (k + 1)).W = (sumI K + 19) + (k + 2) := by simp [recFmt, sumFmt]; ring
    rw [this, pow_add 2 (sumI K + 19) (k + 2)]
    have h4 : (4 : ℚ) ≤ 2 ^ (k + 2) := by
      rw [pow_add]; have : (1 : ℚ) ≤ 2 ^ k := one_le_pow₀ (by norm_num)
      linarith
    have h5 := mul_le_mul_of_nonneg_left h4 hP.le
    have h6 := mul_le_mul_of_nonneg_right hc3 hP.le
    have h7 : (1 : ℚ) ≤ 2 ^ (sumI K + 19) := one_le_pow₀ (by norm_num)
    linarith)
  have hR := hfit.2.2
  rw [hF, zpow_neg, zpow_natCast] at hR
  set R := (recFmt K e).cvt c with hRd
  have hR' := abs_lt.1 hR
  have hsR : s * (2 ^ (sumI K + 19))⁻¹ ≤ 1 / 2 ^ 19 := by
    have := mul_le_mul_of_nonneg_right hs2 (inv_pos.2 hP).le
    refine le_trans this (le_of_eq ?_)
    rw [pow_add]
    have : (2 : ℚ) ^ sumI K ≠ 0 := by positivity
    field_simp
  have ha := mul_lt_mul_of_pos_left hR'.1 (show 0 < s by linarith)
  have hb := mul_lt_mul_of_pos_left hR'.2 (show 0 < s by linarith)
  refine ⟨m, hm, R, hle, ?_, ?_, ?_, hrec⟩
  · unfold softmaxNew
    rw [mapM_some _ (fun i => trunc e (G l f (x i))) _ fun i hi => expFrac_eq e q hW (hx i (List.mem_range.1 hi))]
    have hp : ∀ i < K, prod e l f (maxInt l f K x junk) (x i)
        (((List.range K).map fun i => trunc e (G l f (x i))).getD i 0) = trunc e (y i) := by
      intro i hi
      rw [hmm, List.getD_eq_getElem _ _ (by simpa using hi), List.getElem_map, List.getElem_range,
        prod_eq e hW hI (hx i hi) (hx m hm) (hle i hi)]
    have hps : prodSum e K (fun i => prod e l f (maxInt l f K x junk) (x i)
        (((List.range K).map fun i => trunc e (G l f (x i))).getD i 0)) = s := by
      rw [← hsum]
      unfold prodSum
      have : ∀ k ≤ K, ∀ s0 : ℚ, forUp (fun i s => (sumFmt K e).cvt (s + prod e l f (maxInt l f K x junk) (x i)
        (((List.range K).map fun i => trunc e (G l f (x i))).getD i 0))) k s0 =
        forUp (fun i s => (sumFmt K e).cvt (s + trunc e (y i))) k s0 := by
        intro k hk s0
        induction k with
        | zero => rfl
        | succ k ih => rw [forUp, forUp, ih (by omega), hp k (by omega)]
      exact this K le_rfl _
    simp only [Option.bind_eq_bind, Option.bind_some, hps, hrec]
    refine congrArg some (List.map_congr_left fun i hi => ?_)
    rw [hp i (List.mem_range.1 hi)]
  · by_contra hn
    have h1 := mul_le_mul_of_nonneg_left (not_lt.1 hn) (show 0 ≤ s by linarith)
    rw [mul_zero] at h1
    have : (1 : ℚ) / 2 ^ 19 ≤ 1 / 4 := by norm_num
    linarith [c1'.1]
  · have : (1 : ℚ) / 2 ^ 19 ≤ 1 / 500 - 1 / 512 := by norm_num
    rw [abs_le]
    constructor <;> linarith [c1'.1, c1'.2]

/-- The whole function. -/
theorem softmax_eq (e : ℕ) (he : 1 ≤ e) (l : ℕ) (q : QMode) {f : Fmt} (hW : 1 ≤ f.W) (hI : 0 ≤ f.I) (out : Fmt) {K : ℕ}
    (hK : 1 ≤ K) {x : ℕ → ℚ} (hx : ∀ i < K, f.Rep (x i)) (junk : ℤ) :
    ∃ m < K, ∃ R : ℚ, (∀ i < K, ⌊T l (x i)⌋ ≤ ⌊T l (x m)⌋) ∧
      softmaxNew e l q f out K x junk =
        some ((List.range K).map fun i => out.cvt (trunc e (H l f (x i) * 2 ^ (-⌊T l (x m)⌋)) * R)) ∧
      0 < R ∧ |(∑ i ∈ Finset.range K, trunc e (H l f (x i) * 2 ^ (-⌊T l (x m)⌋))) * R - 1| ≤ 1 / 500 := by
  obtain ⟨m, hm, R, h1, h2, h3, h4, -⟩ := softmax_full e he l q hW hI out hK hx junk
  exact ⟨m, hm, R, h1, h2, h3, h4⟩

end Proof.Softmax
