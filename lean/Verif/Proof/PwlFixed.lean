import Verif.Proof.Pwl
import Verif.Model.PwlFixed
import Verif.Props.Normalize

/-! # Lemmas shared by the PWL functions that normalize their input -/

namespace Proof.PwlFixed
open Ac Model.Pwl Model.PwlFixed Model.Normalize Proof.Pwl

theorem segVal_isSome {m c : List ℤ} {ib : ℕ} (hm : m.length = 2 ^ ib) (hc : c.length = 2 ^ ib) (p s : ℕ) (v : ℚ) :
    ∃ y, segVal m c p ib s v = some y := by
  have hi := index_lt ib ((⟨ib + s, ib, false, .TRN, .WRAP⟩ : Fmt).cvt v)
  unfold segVal
  simp only [rd_lt (t := m) (by rw [hm]; exact hi), rd_lt (t := c) (by rw [hc]; exact hi), Option.bind_eq_bind,
    Option.bind_some]
  exact ⟨_, rfl⟩

theorem segVal_eq {m c : List ℤ} {ib : ℕ} (hm : m.length = 2 ^ ib) (hc : c.length = 2 ^ ib) (p s : ℕ) {v : ℚ}
    (h0 : 0 ≤ v) (h1 : v < 2 ^ ib) : segVal m c p ib s v = some (pw (tab m p) (tab c p) (trunc s v)) := by
  have ht0 := trunc_nonneg s h0
  have ht1 : trunc s v < 2 ^ ib := lt_of_le_of_lt (trunc_le s v) h1
  have hi := index_lt ib (trunc s v)
  unfold segVal
  simp only [cvt_trunc h0 h1]
  simp only [rd_lt (t := m) (by rw [hm]; exact hi), rd_lt (t := c) (by rw [hc]; exact hi), Option.bind_eq_bind,
    Option.bind_some]
  congr 1
  rw [index_eq ht0 ht1]
  have e : fracBits (⟨ib + s, ib, false, .TRN, .WRAP⟩ : Fmt) s (trunc s v) = Int.fract (trunc s v) := fracBits_eq
  rw [e]
  rfl

/-- A number on the grid of `n` fraction bits is its own truncation. -/
theorem trunc_grid {n : ℕ} {x : ℚ} {z : ℤ} (h : x = z / 2 ^ n) : trunc n x = x := by
  unfold trunc
  rw [h, div_mul_cancel₀ _ (by positivity), Int.floor_intCast]

theorem trunc_grid_le {n s : ℕ} (hs : n ≤ s) {x : ℚ} {z : ℤ} (h : x = z / 2 ^ n) : trunc s x = x := by
  apply trunc_grid (z := z * 2 ^ (s - n))
  rw [h, div_eq_div_iff (by positivity) (by positivity)]
  push_cast
  rw [mul_assoc, ← pow_add, Nat.sub_add_cancel hs]

/-- The number of fraction bits of the scaled input does not matter: it drops bits only when it has all `N` of them. -/
theorem trunc_scBits {N : ℕ} (hN : 1 ≤ N) {w : ℤ} {v : ℚ} {z : ℤ} (h : v = z / 2 ^ (max 0 w).toNat) :
    trunc (scBits N w) v = trunc N v := by
  unfold scBits
  rcases le_or_gt (N : ℤ) w with hw | hw
  · rw [show (max 1 (min (N : ℤ) w)).toNat = N by omega]
  · rw [trunc_grid_le (show (max 0 w).toNat ≤ N by omega) h]
    exact trunc_grid_le (by omega) h

/-- The scaled input of a word with `W` fraction bits. -/
theorem scaled_grid {W j : ℕ} {k : ℤ} : ∃ z : ℤ, ((k : ℚ) / 2 ^ W - 1 / 2) * 2 ^ (j + 1) = z / 2 ^ (max 0 ((W : ℤ) - (j + 1))).toNat := by
  rcases le_total W (j + 1) with h | h
  · refine ⟨k * 2 ^ (j + 1 - W) - 2 ^ j, ?_⟩
    rw [show (max 0 ((W : ℤ) - (j + 1))).toNat = 0 by omega]
    push_cast
    rw [sub_mul, pow_zero, div_one, div_mul_eq_mul_div, show ((2 : ℚ) ^ (j + 1)) = 2 ^ (j + 1 - W) * 2 ^ W by
      rw [← pow_add, Nat.sub_add_cancel h]]
    rw [← mul_assoc, mul_div_assoc, div_self (by positivity), mul_one]
    congr 1
    rw [← pow_add, Nat.sub_add_cancel h, pow_succ]; ring
  · refine ⟨k - 2 ^ (W - 1), ?_⟩
    have e : (max 0 ((W : ℤ) - (j + 1))).toNat = W - (j + 1) := by omega
    have e2 : (2 : ℚ) ^ W = 2 ^ (W - (j + 1)) * 2 ^ (j + 1) := by rw [← pow_add, Nat.sub_add_cancel h]
    have e3 : (2 : ℚ) ^ W = 2 ^ (W - 1) * 2 := by rw [← pow_succ, Nat.sub_add_cancel (by omega)]
    rw [e]
    push_cast
    have h1 : (1 : ℚ) / 2 = 2 ^ (W - 1) / 2 ^ W := by rw [e3]; field_simp
    rw [h1, ← sub_div, e2]
    field_simp

/-- Between the two ends of each segment. -/
theorem segRaw_bounds {m c : List ℤ} {n k N : ℕ} {lo hi : ℤ} (hk : k < N * 2 ^ n)
    (h : ∀ i < N, lo ≤ c.getD i 0 ∧ lo ≤ c.getD i 0 + m.getD i 0 ∧ c.getD i 0 ≤ hi ∧ c.getD i 0 + m.getD i 0 ≤ hi) :
    lo * 2 ^ n ≤ segRaw m c n k ∧ segRaw m c n k ≤ hi * 2 ^ n := by
  have hi' : k / 2 ^ n < N := Nat.div_lt_of_lt_mul (by rwa [Nat.mul_comm])
  obtain ⟨h1, h2, h3, h4⟩ := h _ hi'
  have hr : ((k % 2 ^ n : ℕ) : ℤ) < 2 ^ n := by exact_mod_cast Nat.mod_lt k (by positivity)
  have hr0 : (0 : ℤ) ≤ (k % 2 ^ n : ℕ) := by positivity
  unfold segRaw
  set a := m.getD (k / 2 ^ n) 0
  set b := c.getD (k / 2 ^ n) 0
  set r := ((k % 2 ^ n : ℕ) : ℤ)
  set P : ℤ := 2 ^ n
  have e : a * r + b * P = (b + a) * r + b * (P - r) := by ring
  rw [e]
  have p1 := mul_le_mul_of_nonneg_right h1 (by linarith : 0 ≤ P - r)
  have p2 := mul_le_mul_of_nonneg_right h2 hr0
  have p3 := mul_le_mul_of_nonneg_right h3 (by linarith : 0 ≤ P - r)
  have p4 := mul_le_mul_of_nonneg_right h4 hr0
  constructor <;> linarith

/-- A word holds every multiple of its resolution in its range. -/
theorem cvt_word {f : Fmt} (hW : 1 ≤ f.W) {n : ℕ} (hF : f.F = n) (hO : f.O = .WRAP) {k : ℤ} (h0 : minRaw f.W f.S ≤ k)
    (h1 : k ≤ maxRaw f.W f.S) :
    f.cvt ((k : ℚ) / 2 ^ n) = k / 2 ^ n ∧ f.raw ((k : ℚ) / 2 ^ n) = k ∧ f.val k = k / 2 ^ n := by
  have hv : f.val k = (k : ℚ) / 2 ^ n := by unfold Fmt.val; rw [hF, zpow_neg, zpow_natCast, div_eq_mul_inv]
  refine ⟨?_, ?_, hv⟩
  · rw [← hv]; exact Fmt.cvt_val hW (by rw [hO]; simpa [loRaw] using h0) h1
  · rw [← hv]; exact Fmt.raw_val f k

/-- The cell of the grid that a scaled input falls into. -/
theorem cell {N ib : ℕ} {v : ℚ} (h0 : 0 ≤ v) (h1 : v < 2 ^ ib) : ∃ k : ℕ, k < 2 ^ ib * 2 ^ N ∧ trunc N v = ((k : ℕ) : ℤ) / 2 ^ N ∧
    (k : ℚ) ≤ v * 2 ^ N ∧ v * 2 ^ N < k + 1 := by
  have hp : (0 : ℚ) < 2 ^ N := by positivity
  have hf : 0 ≤ ⌊v * 2 ^ N⌋ := Int.floor_nonneg.2 (by positivity)
  have hz : ((⌊v * 2 ^ N⌋.toNat : ℕ) : ℤ) = ⌊v * 2 ^ N⌋ := Int.toNat_of_nonneg hf
  have hq : ((⌊v * 2 ^ N⌋.toNat : ℕ) : ℚ) = (⌊v * 2 ^ N⌋ : ℚ) := by exact_mod_cast congrArg (Int.cast (R := ℚ)) hz
  refine ⟨⌊v * 2 ^ N⌋.toNat, ?_, trunc_nat h0, ?_, ?_⟩
  · have : ⌊v * 2 ^ N⌋ < 2 ^ ib * 2 ^ N := by
      rw [Int.floor_lt]; push_cast; exact mul_lt_mul_of_pos_right h1 hp
    zify; rw [hz]; exact this
  · rw [hq]; exact Int.floor_le _
  · rw [hq]; exact Int.lt_floor_add_one _

/-- Normalization of a positive unsigned word. -/
theorem normalize_pos {f : Fmt} (hW : 1 ≤ f.W) (hS : f.S = false) {X : ℤ} (h0 : 0 < X) (h1 : X ≤ maxRaw f.W f.S) :
    f.val X = (normalize f X).1 * 2 ^ (normalize f X).2 ∧ 1 / 2 ≤ (normalize f X).1 ∧ (normalize f X).1 < 1 ∧
    ∃ k : ℤ, (normalize f X).1 = k / 2 ^ f.W := by
  have hX : minRaw f.W f.S ≤ X ∧ X ≤ maxRaw f.W f.S := ⟨le_trans (minRaw_nonpos _ _) h0.le, h1⟩
  have hs : Props.Normalize.NotSymPow f X := by
    intro _ h; rw [hS] at h; exact absurd h (by simp)
  refine ⟨Props.Normalize.C12_lossless_partial hW hX hs, ((Props.Normalize.C12_range_partial hW hX hs).1 h0).1,
    ((Props.Normalize.C12_range_partial hW hX hs).1 h0).2, ?_⟩
  obtain ⟨r, -, -, hr⟩ := Fmt.rep_cvt (f := nfmt f) hW ((nfmt f).val (wrap f.W f.S (X * 2 ^ leadingSign f.W f.S X)))
  refine ⟨r, ?_⟩
  have hF : (nfmt f).F = f.W := by unfold Fmt.F nfmt nfmt.S; simp [hS]
  have : (normalize f X).1 = (nfmt f).val r := by rw [← hr]; rfl
  rw [this]; unfold Fmt.val; rw [hF, zpow_neg, zpow_natCast, div_eq_mul_inv]

end Proof.PwlFixed

namespace Proof.PwlFixed
open Ac Model.Pwl Model.PwlFixed Model.Normalize Proof.Pwl

/-- The normalized word is the input shifted left. -/
theorem normalize_shift {f : Fmt} (hW : 1 ≤ f.W) (hS : f.S = false) {X : ℤ} (h0 : 0 < X) (h1 : X ≤ maxRaw f.W f.S) :
    ∃ ls : ℕ, (normalize f X).1 = ((X * 2 ^ ls : ℤ) : ℚ) / 2 ^ f.W ∧ (normalize f X).2 = f.I - ls := by
  refine ⟨leadingSign f.W f.S X, ?_, ?_⟩
  · obtain ⟨e, -, -, -⟩ := normalize_pos hW hS h0 h1
    have e2 : (normalize f X).2 = f.I - leadingSign f.W f.S X := by simp [normalize, h0.ne', nfmt.S, hS]
    rw [e2] at e
    generalize leadingSign f.W f.S X = ls at e
    have h2 : ((2 : ℚ) ^ (f.I - ls : ℤ)) ≠ 0 := (Fmt.z_pos _).ne'
    rw [← mul_left_inj' h2, ← e]
    unfold Fmt.val Fmt.F
    push_cast
    rw [show -((f.W : ℤ) - f.I) = f.I - ls + ls - f.W by ring, zpow_sub₀ (by norm_num), zpow_add₀ (by norm_num), zpow_natCast,
      zpow_natCast]
    ring
  · simp [normalize, h0.ne', nfmt.S, hS]

theorem exp_le_of_le {n n' : ℚ} {e e' : ℤ} (h0 : 1 / 2 ≤ n) (h1 : n' < 1) (h : n * 2 ^ e ≤ n' * 2 ^ e') : e ≤ e' := by
  by_contra hc
  have hlt : e' + 1 ≤ e := by omega
  have p := Fmt.z_le hlt
  have p1 : (2 : ℚ) ^ (e' + 1) = 2 ^ e' * 2 := by rw [zpow_add₀ (by norm_num)]; norm_num
  have q := Fmt.z_pos e'
  have a : n' * 2 ^ e' < 1 * 2 ^ e' := mul_lt_mul_of_pos_right h1 q
  have b : 1 / 2 * (2 : ℚ) ^ e ≤ n * 2 ^ e := mul_le_mul_of_nonneg_right h0 (Fmt.z_pos e).le
  linarith

end Proof.PwlFixed
