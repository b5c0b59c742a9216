import Verif.Proof.SoftmaxErr
import Verif.Proof.AddTree

namespace Proof.SoftmaxOld
open Ac Model.Softmax Proof.Pwl Proof.Softmax

/-- The exponential of an element before it is truncated. -/
def E (f : Fmt) (x : ℚ) : ℚ := Proof.PowPwl.core (Proof.PowPwl.ex 12 f x)

theorem E_pos (f : Fmt) (x : ℚ) : 0 < E f x := Proof.PowPwl.core_pos _

theorem E_mono {f : Fmt} {x y : ℚ} (h : x ≤ y) : E f x ≤ E f y := Proof.PowPwl.core_mono (Proof.PowPwl.ex_mono h)

/-- The magnitude of the inputs. -/
theorem lt_of_rep {f : Fmt} (hW : 1 ≤ f.W) (hI : 0 ≤ f.I - (if f.S then 1 else 0 : ℤ)) {x : ℚ} (hx : f.Rep x) :
    |x| ≤ 2 ^ (f.I - (if f.S then 1 else 0 : ℤ)).toNat ∧ x < 2 ^ (f.I - (if f.S then 1 else 0 : ℤ)).toNat := by
  have h := ((Fmt.rep_iff hW x).1 hx).1
  unfold Fmt.Bnd at h
  by_cases hS : f.S = true
  · rw [if_pos hS] at h hI ⊢
    obtain ⟨n, hn⟩ : ∃ n : ℕ, f.I - 1 = n := ⟨(f.I - 1).toNat, by omega⟩
    rw [hn, zpow_natCast] at h
    rw [hn, Int.toNat_natCast]
    exact ⟨abs_le.2 ⟨h.1, h.2.le⟩, h.2⟩
  · rw [if_neg hS] at h hI ⊢
    obtain ⟨n, hn⟩ : ∃ n : ℕ, f.I - 0 = n := ⟨(f.I - 0).toNat, by omega⟩
    rw [show f.I = n by omega, zpow_natCast] at h
    rw [hn, Int.toNat_natCast]
    exact ⟨abs_le.2 ⟨by have : (0 : ℚ) < 2 ^ n := by positivity
                        linarith [h.1], h.2.le⟩, h.2⟩

/-- The exponentials fit their type. -/
theorem E_lt {f : Fmt} (hW : 1 ≤ f.W) (hI : 0 ≤ f.I - (if f.S then 1 else 0 : ℤ)) {x : ℚ} (hx : f.Rep x) :
    E f x < 2 ^ expIntBits f := by
  have h := (lt_of_rep hW hI hx).2
  have hb := (Proof.PowPwl.ex_bounds 12 f x).2
  rw [Proof.PowPwl.log2e_val] at hb
  unfold expIntBits
  set k := (f.I - (if f.S then 1 else 0 : ℤ)).toNat with hk
  have hP : (0 : ℚ) < 2 ^ k := by positivity
  have hle : Proof.PowPwl.ex 12 f x ≤ (1443 / 1000 : ℚ) * 2 ^ k := by
    by_cases h0 : 0 ≤ x
    · linarith
    · linarith
  have hfl := Int.floor_le_floor hle
  unfold E Proof.PowPwl.core
  have hg := (Proof.PowPwl.g_bounds (Int.fract_nonneg (Proof.PowPwl.ex 12 f x)) (Int.fract_lt_one _)).2
  set t := ⌊Proof.PowPwl.ex 12 f x⌋ with ht
  have n0 : 0 ≤ ⌊(1443 / 1000 : ℚ) * 2 ^ k⌋ := Int.floor_nonneg.2 (by positivity)
  obtain ⟨n, hn⟩ : ∃ n : ℕ, ⌊(1443 / 1000 : ℚ) * 2 ^ k⌋ = n := ⟨_, (Int.toNat_of_nonneg n0).symm⟩
  rw [hn, Int.toNat_natCast]
  rw [hn] at hfl
  have h2 := Fmt.z_le hfl
  rw [zpow_natCast] at h2
  have hz := Fmt.z_pos t
  calc _ ≤ 511 / 256 * (2 : ℚ) ^ t := mul_le_mul_of_nonneg_right hg hz.le
    _ < 2 * 2 ^ t := by linarith
    _ ≤ 2 * 2 ^ n := by linarith
    _ = 2 ^ (n + 1) := by rw [pow_succ]; ring

theorem exp_eq (q : QMode) {f : Fmt} (hW : 1 ≤ f.W) (hI : 0 ≤ f.I - (if f.S then 1 else 0 : ℤ)) {x : ℚ} (hx : f.Rep x) :
    Model.PwlFixed.exp 12 q f (expT f) x = some (trunc (defaultE f) (E f x)) := by
  rw [Proof.PowPwl.exp_eq 12 q hW (by simp [expT, defaultE]; omega) rfl hx]
  have h := cvt_trunc (I := expIntBits f) (n := defaultE f) (E_pos f x).le (E_lt hW hI hx)
  unfold expT
  rw [Nat.add_comm]
  exact congrArg some h

/-- A sum of truncated numbers in a type with room for it. -/
theorem sum_eq (e n c : ℕ) (hc : 1 ≤ e + n + c) {K : ℕ} (hK : K ≤ 2 ^ c) (y : ℕ → ℚ) (hy : ∀ i < K, 0 ≤ y i ∧ y i < 2 ^ n) (F : Fmt)
    (hFd : F = ⟨e + n + c, n + c, false, .TRN, .WRAP⟩) :
    forUp (fun i s => F.cvt (s + trunc e (y i))) K (F.cvt (0 : ℚ)) = ∑ i ∈ Finset.range K, trunc e (y i) ∧
    F.Rep (∑ i ∈ Finset.range K, trunc e (y i)) := by
  have hF : F.F = (e : ℕ) := by rw [hFd]; simp [Fmt.F]
  have hWs : 1 ≤ F.W := by rw [hFd]; exact hc
  have hO : F.O ≠ .SAT_SYM := by rw [hFd]; simp
  have key : ∀ k ≤ K, F.Rep (∑ i ∈ Finset.range k, trunc e (y i)) := by
    intro k hk
    refine ⟨∑ i ∈ Finset.range k, ⌊y i * 2 ^ e⌋, ?_, ?_, ?_⟩
    · simp only [hFd, minRaw, Bool.false_eq_true, if_false]
      exact Finset.sum_nonneg fun i hi => Int.floor_nonneg.2 (mul_nonneg (hy i (by rw [Finset.mem_range] at hi; omega)).1 (by positivity))
    · simp only [hFd, maxRaw, Bool.false_eq_true, if_false]
      have hle : ∀ i ∈ Finset.range k, ⌊y i * 2 ^ e⌋ ≤ 2 ^ n * 2 ^ e - 1 := by
        intro i hi
        have h1 := (hy i (by rw [Finset.mem_range] at hi; omega)).2
        have : ⌊y i * 2 ^ e⌋ < 2 ^ n * 2 ^ e := by
          rw [Int.floor_lt]; push_cast
          have : (0 : ℚ) < 2 ^ e := by positivity
          exact mul_lt_mul_of_pos_right h1 this
        omega
      have h1 := Finset.sum_le_card_nsmul _ _ _ hle
      rw [Finset.card_range, nsmul_eq_mul] at h1
      rcases Nat.eq_zero_or_pos k with h0 | h0
      · subst h0
        have : (0 : ℤ) < 2 ^ (e + n + c) := by positivity
        simp only [Finset.range_zero, Finset.sum_empty]; omega
      have hp : (0 : ℤ) < 2 ^ n * 2 ^ e := by positivity
      have h2 : (k : ℤ) ≤ 2 ^ c := by exact_mod_cast le_trans hk hK
      have h3 : (k : ℤ) * (2 ^ n * 2 ^ e) ≤ 2 ^ c * (2 ^ n * 2 ^ e) := mul_le_mul_of_nonneg_right h2 hp.le
      have h4 : (1 : ℤ) ≤ k := by exact_mod_cast h0
      have h5 : (2 : ℤ) ^ (e + n + c) = 2 ^ c * (2 ^ n * 2 ^ e) := by rw [pow_add, pow_add]; ring
      rw [h5]
      rw [mul_sub, mul_one] at h1
      linarith
    · unfold Fmt.val trunc
      rw [hF, zpow_neg, zpow_natCast]; push_cast
      rw [Finset.sum_mul]; rfl
  refine ⟨?_, key K le_rfl⟩
  have := forUp_inv (f := fun i s => F.cvt (s + trunc e (y i)))
    (P := fun k s => s = ∑ i ∈ Finset.range k, trunc e (y i)) (s := F.cvt (0 : ℚ)) (by
      rw [Fmt.cvt_rep hWs hO]
      · simp
      · simpa using key 0 (by omega)) (n := K) ?_
  · exact this
  · intro i s hi hs
    rw [hs, ← Finset.sum_range_succ, Fmt.cvt_rep hWs hO (key (i + 1) (by omega))]

/-- The reciprocal of a sum in a type with room for it. -/
theorem recip_eq (q : QMode) {n c e : ℕ} {F G : Fmt} (hFd : F = ⟨e + n + c, n + c, false, .TRN, .WRAP⟩)
    (hGd : G = ⟨e + n + c + 20, e + 1, false, .TRN, .WRAP⟩) (hc : 1 ≤ e + n + c) {s : ℚ} (hs : F.Rep s) (h0 : s ≠ 0) :
    ∃ R, Model.PwlFixed.reciprocal q F G s = some R ∧ 0 < R ∧ |s * R - 1| ≤ 1 / 500 := by
  have hWs : 1 ≤ F.W := by rw [hFd]; exact hc
  have hWr : 1 ≤ G.W := by rw [hGd]; simp
  have hrec := Proof.Reciprocal.reciprocal_eq q (out := G) hWs hWr hs h0
  rw [if_neg (by simp [hGd])] at hrec
  obtain ⟨c1, c2⟩ := Proof.Reciprocal.core_pos hWs hs h0
  obtain ⟨r, hr0, hr1, hr⟩ := hs
  have hFF : F.F = (e : ℕ) := by rw [hFd]; simp [Fmt.F]
  have hFG : G.F = (n + c + 19 : ℕ) := by rw [hGd]; simp [Fmt.F]; ring
  simp only [hFd, minRaw, maxRaw, Bool.false_eq_true, if_false] at hr0 hr1
  have hsv : s * 2 ^ e = r := by
    rw [hr]; unfold Fmt.val; rw [hFF, zpow_neg, zpow_natCast, inv_mul_cancel_right₀ (by positivity)]
  have r1 : 1 ≤ r := by
    rcases lt_or_eq_of_le hr0 with h | h
    · omega
    · exfalso; apply h0; rw [hr, ← h]; simp [Fmt.val]
  have hE : (0 : ℚ) < 2 ^ e := by positivity
  have hs1 : 1 ≤ s * 2 ^ e := by rw [hsv]; exact_mod_cast r1
  have s0 : 0 < s := by
    by_contra hn
    have := mul_le_mul_of_nonneg_right (not_lt.1 hn) hE.le
    linarith
  have hs2 : s ≤ 2 ^ (n + c) := by
    have h1 : s * 2 ^ e ≤ 2 ^ (n + c) * 2 ^ e := by
      rw [hsv, ← pow_add]
      have : r ≤ 2 ^ (n + c + e) := by rw [show n + c + e = e + n + c by ring]; omega
      exact_mod_cast this
    exact le_of_mul_le_mul_right h1 hE
  rw [abs_of_pos s0] at hrec c1 c2
  set C := Proof.Reciprocal.core F s with hC
  have c1' := abs_le.1 c1
  have hP : (0 : ℚ) < 2 ^ (n + c + 19) := by positivity
  have hc3 : C ≤ 513 / 512 * 2 ^ e := by
    have h1 : C * 1 ≤ C * (s * 2 ^ e) := mul_le_mul_of_nonneg_left hs1 c2.le
    have h2 : C * s * 2 ^ e ≤ 513 / 512 * 2 ^ e := mul_le_mul_of_nonneg_right (by linarith [c1'.2]) hE.le
    linarith
  have hfit := Proof.PwlFixed.cvt_fit (o := G) hWr (by rw [hGd]) (by rw [hGd]) c2.le (by
    rw [hFG, zpow_natCast, show G.W = e + (n + c + 19) + 1 by rw [hGd]; ring, pow_succ 2 (e + (n + c + 19)), pow_add 2 e]
    have h6 := mul_le_mul_of_nonneg_right hc3 hP.le
    have h7 : (1 : ℚ) ≤ 2 ^ e * 2 ^ (n + c + 19) := by rw [← pow_add]; exact one_le_pow₀ (by norm_num)
    have h8 : (2 : ℚ) ≤ 2 ^ e * 2 ^ (n + c + 19) := by
      rw [← pow_add, show e + (n + c + 19) = (e + n + c + 18) + 1 by ring, pow_succ]
      have : (1 : ℚ) ≤ 2 ^ (e + n + c + 18) := one_le_pow₀ (by norm_num)
      linarith
    linarith)
  have hR := hfit.2.2
  rw [hFG, zpow_neg, zpow_natCast] at hR
  set R := G.cvt C with hRd
  have hR' := abs_lt.1 hR
  have hsR : s * (2 ^ (n + c + 19))⁻¹ ≤ 1 / 2 ^ 19 := by
    have := mul_le_mul_of_nonneg_right hs2 (inv_pos.2 hP).le
    refine le_trans this (le_of_eq ?_)
    rw [pow_add 2 (n + c)]
    have : (2 : ℚ) ^ (n + c) ≠ 0 := by positivity
    field_simp
  have ha := mul_lt_mul_of_pos_left hR'.1 s0
  have hb := mul_lt_mul_of_pos_left hR'.2 s0
  refine ⟨R, hrec, ?_, ?_⟩
  · by_contra hn
    have h1 := mul_le_mul_of_nonneg_left (not_lt.1 hn) s0.le
    rw [mul_zero] at h1
    have : (1 : ℚ) / 2 ^ 19 ≤ 1 / 4 := by norm_num
    linarith [c1'.1]
  · have : (1 : ℚ) / 2 ^ 19 ≤ 1 / 500 - 1 / 512 := by norm_num
    rw [abs_le]
    constructor <;> linarith [c1'.1, c1'.2]

set_option maxHeartbeats 1000000 in
/-- The whole function. -/
theorem softmax_full (q : QMode) {f : Fmt} (hW : 1 ≤ f.W) (hI : 0 ≤ f.I - (if f.S then 1 else 0 : ℤ)) (out : Fmt) {K : ℕ}
    {x : ℕ → ℚ} (hx : ∀ i < K, f.Rep (x i)) :
    ∃ R : ℚ, softmax q f out K x = some ((List.range K).map fun i => out.cvt (R * trunc (defaultE f) (E f (x i)))) ∧
      0 ≤ R ∧ ((∑ i ∈ Finset.range K, trunc (defaultE f) (E f (x i))) ≠ 0 →
        0 < R ∧ |(∑ i ∈ Finset.range K, trunc (defaultE f) (E f (x i))) * R - 1| ≤ 1 / 500) ∧
      Model.PwlFixed.reciprocal q (sumT K f) (recT K f) (∑ i ∈ Finset.range K, trunc (defaultE f) (E f (x i))) = some R := by
  have hFd : sumT K f = ⟨defaultE f + expIntBits f + log2Ceil K, expIntBits f + log2Ceil K, false, .TRN, .WRAP⟩ := by
    simp [sumT, expT]
  have hGd : recT K f = ⟨defaultE f + expIntBits f + log2Ceil K + 20, defaultE f + 1, false, .TRN, .WRAP⟩ := by
    simp only [recT, sumT, expT]; congr 1; push_cast; ring
  have hc : 1 ≤ defaultE f + expIntBits f + log2Ceil K := by unfold expIntBits; omega
  obtain ⟨hsum, hrep⟩ := sum_eq (defaultE f) (expIntBits f) (log2Ceil K) hc (Proof.AddTree.two_pow_log2Ceil K) (fun i => E f (x i))
    (fun i hi => ⟨(E_pos _ _).le, E_lt hW hI (hx i hi)⟩) (sumT K f) hFd
  set s := ∑ i ∈ Finset.range K, trunc (defaultE f) (E f (x i)) with hs
  have hfin : ∀ R, Model.PwlFixed.reciprocal q (sumT K f) (recT K f) s = some R →
      softmax q f out K x = some ((List.range K).map fun i => out.cvt (R * trunc (defaultE f) (E f (x i)))) := by
    intro R hrec
    unfold softmax
    rw [mapM_some _ (fun i => trunc (defaultE f) (E f (x i))) _ fun i hi => exp_eq q hW hI (hx i (List.mem_range.1 hi))]
    have hp : ∀ i < K, ((List.range K).map fun i => trunc (defaultE f) (E f (x i))).getD i 0 = trunc (defaultE f) (E f (x i)) := by
      intro i hi
      rw [List.getD_eq_getElem _ _ (by simpa using hi), List.getElem_map, List.getElem_range]
    have hps : forUp (fun i s => (sumT K f).cvt (s + ((List.range K).map fun i => trunc (defaultE f) (E f (x i))).getD i 0)) K
        ((sumT K f).cvt (0 : ℚ)) = s := by
      rw [← hsum]
      have : ∀ k ≤ K, ∀ s0 : ℚ, forUp (fun i s => (sumT K f).cvt (s + ((List.range K).map fun i => trunc (defaultE f) (E f (x i))).getD i 0)) k s0 =
        forUp (fun i s => (sumT K f).cvt (s + trunc (defaultE f) (E f (x i)))) k s0 := by
        intro k hk s0
        induction k with
        | zero => rfl
        | succ k ih => rw [forUp, forUp, ih (by omega), hp k (by omega)]
      exact this K le_rfl _
    simp only [Option.bind_eq_bind, Option.bind_some, hps, hrec]
    refine congrArg some (List.map_congr_left fun i hi => ?_)
    rw [hp i (List.mem_range.1 hi)]
  by_cases h0 : s = 0
  · refine ⟨_, hfin (recT K f).maxVal (by rw [h0]; exact Proof.Reciprocal.reciprocal_zero q), ?_, fun h => absurd h0 h,
      by rw [h0]; exact Proof.Reciprocal.reciprocal_zero q⟩
    rw [hGd]
    simp only [Fmt.maxVal, Fmt.val, maxRaw, Bool.false_eq_true, if_false]
    refine mul_nonneg ?_ (Fmt.z_pos _).le
    have : (1 : ℤ) ≤ 2 ^ (defaultE f + expIntBits f + log2Ceil K + 20) := one_le_pow₀ (by norm_num)
    exact_mod_cast (by omega : (0 : ℤ) ≤ 2 ^ (defaultE f + expIntBits f + log2Ceil K + 20) - 1)
  · obtain ⟨R, h1, h2, h3⟩ := recip_eq q hFd hGd hc hrep h0
    exact ⟨R, hfin R h1, h2.le, fun _ => ⟨h2, h3⟩, h1⟩

theorem softmax_eq (q : QMode) {f : Fmt} (hW : 1 ≤ f.W) (hI : 0 ≤ f.I - (if f.S then 1 else 0 : ℤ)) (out : Fmt) {K : ℕ}
    {x : ℕ → ℚ} (hx : ∀ i < K, f.Rep (x i)) :
    ∃ R : ℚ, softmax q f out K x = some ((List.range K).map fun i => out.cvt (R * trunc (defaultE f) (E f (x i)))) ∧
      0 ≤ R ∧ ((∑ i ∈ Finset.range K, trunc (defaultE f) (E f (x i))) ≠ 0 →
        0 < R ∧ |(∑ i ∈ Finset.range K, trunc (defaultE f) (E f (x i))) * R - 1| ≤ 1 / 500) := by
  obtain ⟨R, h1, h2, h3, -⟩ := softmax_full q hW hI out hx
  exact ⟨R, h1, h2, h3⟩

theorem E_seven {f : Fmt} (hW : 1 ≤ f.W) (hI : 0 ≤ f.I - (if f.S then 1 else 0 : ℤ)) {x : ℚ} (hx : f.Rep x) (h : -7 ≤ x) :
    1 / 2048 ≤ E f x := by
  obtain ⟨-, hF, -, -⟩ := Proof.PowPwl.pii_facts (n := 12) hW hx
  have hb := (Proof.PowPwl.ex_bounds 12 f x).1
  have hz : (2 : ℚ) ^ (-(Model.PwlFixed.piiExp 12 f).F) ≤ 1 / 4096 := by
    refine le_trans (Fmt.z_le (show -(Model.PwlFixed.piiExp 12 f).F ≤ -12 by omega)) (le_of_eq ?_)
    norm_num
  rw [Proof.PowPwl.log2e_val] at hb
  have h2 : (-(101 / 10) : ℚ) ≤ Proof.PowPwl.ex 12 f x := by linarith
  refine le_trans ?_ (Proof.PowPwl.core_mono h2)
  decide +kernel

/-- One exponential that is not truncated to zero is enough. -/
theorem sum_ne_zero {f : Fmt} (hW : 1 ≤ f.W) (hI : 0 ≤ f.I - (if f.S then 1 else 0 : ℤ)) {K : ℕ}
    {x : ℕ → ℚ} (hx : ∀ i < K, f.Rep (x i)) (h : ∃ i < K, -7 ≤ x i) :
    (∑ i ∈ Finset.range K, trunc (defaultE f) (E f (x i))) ≠ 0 := by
  obtain ⟨m, hm, h7⟩ := h
  have h1 : trunc (defaultE f) (E f (x m)) ≤ ∑ i ∈ Finset.range K, trunc (defaultE f) (E f (x i)) :=
    Finset.single_le_sum (f := fun i => trunc (defaultE f) (E f (x i))) (fun i _ => trunc_nonneg _ (E_pos _ _).le) (Finset.mem_range.2 hm)
  have h2 : 0 < trunc (defaultE f) (E f (x m)) := by
    unfold trunc
    refine div_pos ?_ (by positivity)
    have : 1 ≤ ⌊E f (x m) * 2 ^ defaultE f⌋ := by
      rw [Int.le_floor]; push_cast
      have h3 := E_seven hW hI (hx m hm) h7
      have h4 : (2048 : ℚ) ≤ 2 ^ defaultE f := by
        have : (2 : ℚ) ^ 11 ≤ 2 ^ defaultE f := pow_le_pow_right₀ (by norm_num) (by unfold defaultE; omega)
        linarith
      have := mul_le_mul h3 h4 (by norm_num) (E_pos _ _).le
      linarith
    exact_mod_cast (by omega : 0 < ⌊E f (x m) * 2 ^ defaultE f⌋)
  linarith

/-- The quotient of numbers known to a relative error. -/
theorem quotient_err {p P s S R w : ℝ} (hP : 0 ≤ P) (hPS : P ≤ S) (hS : 1 ≤ S) (hw : w ≤ 1 / 400)
    (p0 : 0 ≤ p) (p1 : p ≤ P * (257 / 256)) (p2 : P * (255 / 256) - w ≤ p)
    (s1 : s ≤ S * (257 / 256)) (s2 : S * (255 / 256 - 1 / 400) ≤ s) (hR : 0 < R) (hsR : |s * R - 1| ≤ 1 / 500) :
    |p * R - P / S| ≤ 1 / 75 := by
  have hs := abs_le.1 hsR
  have hS0 : 0 < S := by linarith
  have hr0 : 0 ≤ p * R := mul_nonneg p0 hR.le
  set Q := P / S with hQ
  have hQS : P = Q * S := by rw [hQ]; field_simp
  have Q0 : 0 ≤ Q := div_nonneg hP hS0.le
  have Q1 : Q ≤ 1 := by rw [hQ, div_le_one hS0]; exact hPS
  have u1 : p * (s * R) ≤ p * (501 / 500) := mul_le_mul_of_nonneg_left (by linarith) p0
  have u2 : p * (499 / 500) ≤ p * (s * R) := mul_le_mul_of_nonneg_left (by linarith) p0
  have v1 : p * R * (S * (255 / 256 - 1 / 400)) ≤ p * R * s := mul_le_mul_of_nonneg_left s2 hr0
  have v2 : p * R * s ≤ p * R * (S * (257 / 256)) := mul_le_mul_of_nonneg_left s1 hr0
  have e : p * R * s = p * (s * R) := by ring
  rw [abs_le]
  constructor
  · have h1 : (Q * S * (255 / 256) - w) * (499 / 500) ≤ p * R * S * (257 / 256) := by
      have : (Q * S * (255 / 256) - w) * (499 / 500) ≤ p * (499 / 500) :=
        mul_le_mul_of_nonneg_right (by rw [← hQS]; exact p2) (by norm_num)
      linarith
    by_contra hc
    have h2 : p * R < Q - 1 / 75 := by linarith
    have h3 := mul_lt_mul_of_pos_right h2 hS0
    have h4 := mul_le_mul_of_nonneg_right Q1 hS0.le
    linarith
  · have h1 : p * R * S * (255 / 256 - 1 / 400) ≤ Q * S * (257 / 256) * (501 / 500) := by
      have : p * (501 / 500) ≤ Q * S * (257 / 256) * (501 / 500) :=
        mul_le_mul_of_nonneg_right (by rw [← hQS]; exact p1) (by norm_num)
      linarith
    by_contra hc
    have h2 : Q + 1 / 75 < p * R := by linarith
    have h3 := mul_lt_mul_of_pos_right h2 hS0
    have h4 := mul_le_mul_of_nonneg_right Q1 hS0.le
    linarith

set_option maxHeartbeats 1000000 in
theorem softmax_err {f : Fmt} (hW : 1 ≤ f.W) (hI : 0 ≤ f.I - (if f.S then 1 else 0 : ℤ)) (hIu : f.I - (if f.S then 1 else 0 : ℤ) ≤ 6)
    {K : ℕ} (hKe : 400 * K ≤ 2 ^ defaultE f)
    {x : ℕ → ℚ} (hx : ∀ i < K, f.Rep (x i)) (h0 : ∃ i < K, 0 ≤ x i) {R : ℚ} (hR : 0 < R)
    (hs : |(∑ i ∈ Finset.range K, trunc (defaultE f) (E f (x i))) * R - 1| ≤ 1 / 500) {i : ℕ} (hi : i < K) :
    |((R * trunc (defaultE f) (E f (x i)) : ℚ) : ℝ) -
      Real.exp (x i) / ∑ j ∈ Finset.range K, Real.exp (x j)| ≤ 1 / 75 := by
  obtain ⟨m, hm, hm0⟩ := h0
  set P : ℕ → ℝ := fun j => Real.exp (x j) with hP
  set p : ℕ → ℚ := fun j => trunc (defaultE f) (E f (x j)) with hp
  have w0 : (0 : ℝ) < 1 / 2 ^ defaultE f := by positivity
  have P0 : ∀ j, 0 ≤ P j := fun j => (Real.exp_pos _).le
  have hb : ∀ j < K, (0 : ℝ) ≤ p j ∧ (p j : ℝ) ≤ P j * (257 / 256) ∧ P j * (255 / 256) - 1 / 2 ^ defaultE f ≤ p j := by
    intro j hj
    have h64 : |x j| ≤ 64 := by
      refine le_trans (lt_of_rep hW hI (hx j hj)).1 ?_
      have : (2 : ℚ) ^ (f.I - (if f.S then 1 else 0 : ℤ)).toNat ≤ 2 ^ 6 := pow_le_pow_right₀ (by norm_num) (by omega)
      linarith
    have h1 := abs_le.1 (Proof.PowPwl.exp_err (n := 12) le_rfl hW (hx j hj) h64)
    have h2 := trunc_le (defaultE f) (E f (x j))
    have h3 := (lt_trunc (defaultE f) (E f (x j))).le
    have h2' : (p j : ℝ) ≤ ((E f (x j) : ℚ) : ℝ) := by exact_mod_cast h2
    have h3' : ((E f (x j) : ℚ) : ℝ) ≤ ((p j + 1 / 2 ^ defaultE f : ℚ) : ℝ) := by exact_mod_cast h3
    push_cast at h2' h3'
    unfold E at h2' h3'
    refine ⟨by exact_mod_cast trunc_nonneg _ (E_pos f (x j)).le, ?_, ?_⟩
    · simp only [hP]; linarith [h1.2]
    · simp only [hP]; linarith [h1.1]
  have hKw : (K : ℝ) * (1 / 2 ^ defaultE f) ≤ 1 / 400 := by
    have : ((400 * K : ℕ) : ℝ) ≤ ((2 ^ defaultE f : ℕ) : ℝ) := by exact_mod_cast hKe
    push_cast at this
    rw [mul_one_div, div_le_iff₀ (by positivity)]
    linarith
  have hK1 : (1 : ℝ) ≤ K := by exact_mod_cast (by omega : 1 ≤ K)
  have hw : (1 / 2 ^ defaultE f : ℝ) ≤ 1 / 400 := by
    have := mul_le_mul_of_nonneg_right hK1 w0.le
    linarith
  set S : ℝ := ∑ j ∈ Finset.range K, P j with hS
  have hPS : ∀ j < K, P j ≤ S := fun j hj => Finset.single_le_sum (fun i _ => P0 i) (Finset.mem_range.2 hj)
  have hPm : 1 ≤ P m := Real.one_le_exp (by exact_mod_cast hm0)
  have hS1 : 1 ≤ S := le_trans hPm (hPS m hm)
  have hsum : ((∑ j ∈ Finset.range K, p j : ℚ) : ℝ) = ∑ j ∈ Finset.range K, (p j : ℝ) := by push_cast; rfl
  have s1 : ((∑ j ∈ Finset.range K, p j : ℚ) : ℝ) ≤ S * (257 / 256) := by
    rw [hsum, hS, Finset.sum_mul]
    exact Finset.sum_le_sum fun j hj => (hb j (Finset.mem_range.1 hj)).2.1
  have s2 : S * (255 / 256 - 1 / 400) ≤ ((∑ j ∈ Finset.range K, p j : ℚ) : ℝ) := by
    have h1 : ∑ j ∈ Finset.range K, (P j * (255 / 256) - 1 / 2 ^ defaultE f) ≤ ∑ j ∈ Finset.range K, (p j : ℝ) :=
      Finset.sum_le_sum fun j hj => (hb j (Finset.mem_range.1 hj)).2.2
    rw [Finset.sum_sub_distrib, ← Finset.sum_mul, Finset.sum_const, Finset.card_range, nsmul_eq_mul] at h1
    rw [hsum]
    linarith
  have hs' : |((∑ j ∈ Finset.range K, p j : ℚ) : ℝ) * R - 1| ≤ 1 / 500 := by
    have : ((|(∑ j ∈ Finset.range K, p j) * R - 1| : ℚ) : ℝ) ≤ ((1 / 500 : ℚ) : ℝ) := by exact_mod_cast hs
    push_cast at this ⊢
    exact this
  have key := quotient_err (P0 i) (hPS i hi) hS1 hw (hb i hi).1 (hb i hi).2.1 (hb i hi).2.2 s1 s2
    (show (0 : ℝ) < (R : ℝ) by exact_mod_cast hR) hs'
  rw [mul_comm R]
  push_cast
  exact key

end Proof.SoftmaxOld
