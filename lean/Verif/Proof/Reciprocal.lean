import Verif.Proof.PwlFixed

/-! # Lemmas for C29 -/

namespace Proof.Reciprocal
open Ac Model.Pwl Model.PwlFixed Model.Normalize Proof.Pwl Proof.PwlFixed

/-- The value for the normalized input `n`. -/
def g (n : ℚ) : ℚ := pw (tab recM 10) (tab recC 10) (trunc 10 ((n - 1 / 2) * 16))

theorem tab_neg (t : List ℤ) (p i : ℕ) : tab (t.map (- ·)) p i = -tab t p i := by
  unfold tab fx
  rw [show ((t.map (- ·)).getD i 0 : ℤ) = -(t.getD i 0) by
    simp [List.getD, List.getElem?_map]; cases t[i]? <;> simp]
  push_cast; ring

theorem pw_neg (m c : ℕ → ℚ) (s : ℚ) : pw (fun i => -m i) (fun i => -c i) s = -pw m c s := by
  unfold pw; ring

theorem pw_anti {m c : ℕ → ℚ} {n : ℕ} (hm : ∀ i < n, m i ≤ 0) (hc : ∀ i, i + 1 < n → c (i + 1) ≤ c i + m i) {s t : ℚ}
    (h0 : 0 ≤ s) (hst : s ≤ t) (ht : t < n) : pw m c t ≤ pw m c s := by
  have := pw_mono (m := fun i => -m i) (c := fun i => -c i) (n := n) (fun i hi => by have := hm i hi; linarith)
    (fun i hi => by have := hc i hi; linarith) h0 hst ht
  rw [pw_neg, pw_neg] at this
  linarith

theorem g_anti {a b : ℚ} (h0 : 1 / 2 ≤ a) (h : a ≤ b) (h1 : b < 1) : g b ≤ g a := by
  refine pw_anti (n := 8) (by decide +kernel) ?_ (trunc_nonneg _ (by linarith)) (trunc_mono _ (by linarith)) ?_
  · intro i hi
    have : ∀ i < 7, tab recC 10 (i + 1) ≤ tab recC 10 i + tab recM 10 i := by decide +kernel
    exact this i (by omega)
  · have := trunc_le 10 ((b - 1 / 2) * 16)
    norm_num; linarith

/-- The whole table: relative error below 1/512 at both ends of every grid cell. -/
def check (k : ℕ) : Bool :=
  decide ((2 ^ 34 - 2 ^ 25 : ℤ) ≤ segRaw recM recC 10 k * (8192 + k : ℕ)) &&
  decide (segRaw recM recC 10 k * (8192 + k + 1 : ℕ) ≤ (2 ^ 34 + 2 ^ 25 : ℤ))

theorem check0 : allLt 2048 (fun k => check (2048 * 0 + k)) = true := by decide +kernel
theorem check1 : allLt 2048 (fun k => check (2048 * 1 + k)) = true := by decide +kernel
theorem check2 : allLt 2048 (fun k => check (2048 * 2 + k)) = true := by decide +kernel
theorem check3 : allLt 2048 (fun k => check (2048 * 3 + k)) = true := by decide +kernel

theorem check_all : ∀ k < 8192, check k = true := by
  refine chunks 2048 (c := 4) (by norm_num) ?_
  intro j hj
  interval_cases j
  · exact check0
  · exact check1
  · exact check2
  · exact check3

theorem g_bounds {n : ℚ} (h0 : 1 / 2 ≤ n) (h1 : n < 1) : |g n * n - 1| ≤ 1 / 512 ∧ 1 ≤ g n ∧ g n < 2 := by
  obtain ⟨k, hk, ht, l1, l2⟩ := cell (N := 10) (ib := 3) (v := (n - 1 / 2) * 16) (by linarith) (by linarith)
  have hk' : k < 8192 := by norm_num at hk; exact hk
  unfold g
  rw [ht, pw_tab]
  obtain ⟨b1, b2⟩ := segRaw_bounds (m := recM) (c := recC) (n := 10) (k := k) (N := 8) (lo := 1024) (hi := 2045)
    (by norm_num; exact hk') (by decide +kernel)
  have hc := check_all k hk'
  unfold check at hc
  rw [Bool.and_eq_true, decide_eq_true_eq, decide_eq_true_eq] at hc
  obtain ⟨c1, c2⟩ := hc
  set K := segRaw recM recC 10 k
  have d1 : ((2 ^ 34 - 2 ^ 25 : ℤ) : ℚ) ≤ ((K * (8192 + k : ℕ) : ℤ) : ℚ) := by exact_mod_cast c1
  have d2 : ((K * (8192 + k + 1 : ℕ) : ℤ) : ℚ) ≤ ((2 ^ 34 + 2 ^ 25 : ℤ) : ℚ) := by exact_mod_cast c2
  have d3 : ((1024 * 2 ^ 10 : ℤ) : ℚ) ≤ (K : ℚ) := by exact_mod_cast b1
  have d4 : (K : ℚ) ≤ ((2045 * 2 ^ 10 : ℤ) : ℚ) := by exact_mod_cast b2
  push_cast at d1 d2 d3 d4
  norm_num at d1 d2 d3 d4 l1 l2
  have hK : (0 : ℚ) ≤ K := by linarith
  have e1 : (K : ℚ) * (8192 + k) ≤ K * (n * 16384) := mul_le_mul_of_nonneg_left (by linarith) hK
  have e2 : (K : ℚ) * (n * 16384) ≤ K * (8192 + k + 1) := mul_le_mul_of_nonneg_left (by linarith) hK
  have e3 : (K : ℚ) / 2 ^ (10 + 10) * n = K * (n * 16384) / 2 ^ 34 := by ring
  refine ⟨?_, ?_, ?_⟩
  · rw [e3, abs_le]
    constructor
    · have : (1 : ℚ) - 1 / 512 ≤ K * (n * 16384) / 2 ^ 34 := by rw [le_div_iff₀ (by norm_num)]; norm_num; linarith
      linarith
    · have : (K : ℚ) * (n * 16384) / 2 ^ 34 ≤ 1 + 1 / 512 := by rw [div_le_iff₀ (by norm_num)]; norm_num; linarith
      linarith
  · rw [le_div_iff₀ (by norm_num)]; norm_num; linarith
  · rw [div_lt_iff₀ (by norm_num)]; norm_num; linarith

end Proof.Reciprocal

namespace Proof.Reciprocal
open Ac Model.Pwl Model.PwlFixed Model.Normalize Proof.Pwl Proof.PwlFixed

/-- The magnitude of the result before it is converted to the output type. -/
def core (f : Fmt) (u : ℚ) : ℚ :=
  g (normalize (uns f) ((uns f).raw u)).1 * 2 ^ (-(normalize (uns f) ((uns f).raw u)).2)

/-- Normalization of a nonzero input, and the grid of its scaled value. -/
theorem norm_facts {f : Fmt} (hW : 1 ≤ f.W) {x : ℚ} (hx : f.Rep x) (h : x ≠ 0) :
    |x| = (normalize (uns f) ((uns f).raw |x|)).1 * 2 ^ (normalize (uns f) ((uns f).raw |x|)).2 ∧
    1 / 2 ≤ (normalize (uns f) ((uns f).raw |x|)).1 ∧ (normalize (uns f) ((uns f).raw |x|)).1 < 1 ∧
    ∃ z : ℤ, ((normalize (uns f) ((uns f).raw |x|)).1 - 1 / 2) * 16 =
      z / 2 ^ (max 0 ((f.W : ℤ) - 4 - (if f.S then 1 else 0))).toNat := by
  have hr : ∃ r : ℤ, |x| = (uns f).val r ∧ 0 < r ∧ r ≤ maxRaw f.W false ∧ (f.S = true → r ≤ 2 ^ (f.W - 1)) := by
    obtain ⟨r, r0, r1, rfl⟩ := hx
    have hz := Fmt.z_pos (-f.F)
    have hK : (0 : ℤ) < 2 ^ (f.W - 1) := by positivity
    have hp : (2 : ℤ) ^ f.W = 2 * 2 ^ (f.W - 1) := two_pow_succ_pred hW
    have hr : r ≠ 0 := by rintro rfl; exact h (by simp [Fmt.val])
    refine ⟨|r|, ?_, abs_pos.2 hr, ?_, ?_⟩
    · have e : (uns f).val |r| = f.val |r| := rfl
      rw [e]; unfold Fmt.val; rw [abs_mul, abs_of_pos hz]; push_cast; rfl
    · cases hS : f.S <;> simp [minRaw, maxRaw, hS] at r0 r1 ⊢ <;> rcases abs_cases r with ⟨a, b⟩ | ⟨a, b⟩ <;> omega
    · intro hS
      simp [minRaw, maxRaw, hS] at r0 r1
      rcases abs_cases r with ⟨a, b⟩ | ⟨a, b⟩ <;> omega
  obtain ⟨r, he, r0, r1, r2⟩ := hr
  rw [he, Fmt.raw_val]
  obtain ⟨a1, a2, a3, a4⟩ := normalize_pos (f := uns f) hW rfl r0 r1
  refine ⟨a1, a2, a3, ?_⟩
  obtain ⟨ls, b1, -⟩ := normalize_shift (f := uns f) hW rfl r0 r1
  rw [b1] at a2 ⊢
  have hw : (uns f).W = f.W := rfl
  rw [hw] at a2 ⊢
  cases hS : f.S
  · obtain ⟨z, hz⟩ := scaled_grid (W := f.W) (j := 3) (k := r * 2 ^ ls)
    norm_num at hz
    refine ⟨z, ?_⟩
    norm_num
    exact hz
  · rcases Nat.eq_zero_or_pos ls with h0 | h0
    · rw [h0, pow_zero, mul_one] at a2 ⊢
      have hp : (2 : ℚ) ^ f.W = 2 * 2 ^ (f.W - 1) := by exact_mod_cast two_pow_succ_pred hW
      have : r = 2 ^ (f.W - 1) := by
        apply le_antisymm (r2 hS)
        have : ((2 ^ (f.W - 1) : ℤ) : ℚ) ≤ r := by
          rw [le_div_iff₀ (by positivity), hp] at a2
          push_cast; linarith
        exact_mod_cast this
      refine ⟨0, ?_⟩
      rw [this, hp]
      push_cast
      have : (2 : ℚ) ^ (f.W - 1) ≠ 0 := by positivity
      field_simp
      norm_num
    · obtain ⟨z, hz⟩ := scaled_grid (W := f.W - 1) (j := 3) (k := r * 2 ^ (ls - 1))
      refine ⟨z, ?_⟩
      have hp : (2 : ℚ) ^ f.W = 2 ^ (f.W - 1) * 2 := by rw [← pow_succ, Nat.sub_add_cancel hW]
      have hl : (2 : ℚ) ^ ls = 2 ^ (ls - 1) * 2 := by rw [← pow_succ, Nat.sub_add_cancel h0]
      have e : ((r * 2 ^ ls : ℤ) : ℚ) / 2 ^ f.W = ((r * 2 ^ (ls - 1) : ℤ) : ℚ) / 2 ^ (f.W - 1) := by
        push_cast
        rw [hp, hl]; field_simp
      rw [e]
      rw [Nat.cast_sub hW] at hz
      rw [show (f.W : ℤ) - 4 - (if true = true then 1 else 0) = (f.W : ℤ) - (1 : ℕ) - ((3 : ℕ) + 1) by simp; ring, ← hz]
      norm_num

theorem core_pos {f : Fmt} (hW : 1 ≤ f.W) {x : ℚ} (hx : f.Rep x) (h : x ≠ 0) : |core f |x| * |x| - 1| ≤ 1 / 512 ∧ 0 < core f |x| := by
  obtain ⟨a1, a2, a3, -⟩ := norm_facts hW hx h
  unfold core
  set n := (normalize (uns f) ((uns f).raw |x|)).1
  set e := (normalize (uns f) ((uns f).raw |x|)).2
  obtain ⟨b1, b2, b3⟩ := g_bounds a2 a3
  refine ⟨?_, mul_pos (by linarith) (Fmt.z_pos _)⟩
  have : g n * 2 ^ (-e) * |x| = g n * n := by
    rw [a1, zpow_neg]
    have := (Fmt.z_pos e).ne'
    field_simp
  rw [this]; exact b1

theorem core_anti {f : Fmt} (hW : 1 ≤ f.W) {x x' : ℚ} (hx : f.Rep x) (hx' : f.Rep x') (h : x ≠ 0) (h' : x' ≠ 0)
    (hle : |x| ≤ |x'|) : core f |x'| ≤ core f |x| := by
  obtain ⟨a1, a2, a3, -⟩ := norm_facts hW hx h
  obtain ⟨b1, b2, b3, -⟩ := norm_facts hW hx' h'
  unfold core
  set n := (normalize (uns f) ((uns f).raw |x|)).1
  set e := (normalize (uns f) ((uns f).raw |x|)).2
  set n' := (normalize (uns f) ((uns f).raw |x'|)).1
  set e' := (normalize (uns f) ((uns f).raw |x'|)).2
  rw [a1, b1] at hle
  have he := exp_le_of_le a2 b3 hle
  rcases eq_or_lt_of_le he with h1 | h1
  · rw [h1] at hle ⊢
    have : n ≤ n' := le_of_mul_le_mul_right hle (Fmt.z_pos e')
    exact mul_le_mul_of_nonneg_right (g_anti a2 this b3) (Fmt.z_pos _).le
  · obtain ⟨-, c1, -⟩ := g_bounds a2 a3
    obtain ⟨-, -, c2⟩ := g_bounds b2 b3
    have p := Fmt.z_le (show -e' + 1 ≤ -e by omega)
    rw [zpow_add₀ (by norm_num)] at p
    have q := Fmt.z_pos (-e')
    have q' := Fmt.z_pos (-e)
    have d1 : g n' * 2 ^ (-e') ≤ 2 * 2 ^ (-e') := mul_le_mul_of_nonneg_right c2.le q.le
    have d2 : 1 * 2 ^ (-e) ≤ g n * 2 ^ (-e) := mul_le_mul_of_nonneg_right c1 q'.le
    rw [zpow_one] at p
    linarith

theorem reciprocal_eq (q : QMode) {f out : Fmt} (hW : 1 ≤ f.W) (ho : 1 ≤ out.W) {x : ℚ} (hx : f.Rep x) (h : x ≠ 0) :
    reciprocal q f out x = some (out.cvt (if out.S ∧ x < 0 then -core f |x| else core f |x|)) := by
  obtain ⟨a1, a2, a3, z, hz⟩ := norm_facts hW hx h
  have hneg : (f.S = true ∧ out.S = true ∧ x < 0) ↔ (out.S = true ∧ x < 0) := by
    constructor
    · exact fun h => h.2
    · intro h2
      refine ⟨?_, h2⟩
      obtain ⟨r, h0, h1, rfl⟩ := hx
      cases hS : f.S
      · simp only [minRaw, hS, Bool.false_eq_true, if_false] at h0
        have : 0 ≤ f.val r := by unfold Fmt.val; exact mul_nonneg (by exact_mod_cast h0) (Fmt.z_pos _).le
        linarith [h2.2]
      · rfl
  unfold reciprocal
  simp only [magnitude_eq hW hx]
  unfold core
  set n := (normalize (uns f) ((uns f).raw |x|)).1
  set e := (normalize (uns f) ((uns f).raw |x|)).2
  set s := scBits 10 (f.W - 4 - (if f.S then 1 else 0)) with hs
  have v0 : 0 ≤ (n - 1 / 2) * 16 := by linarith
  have v1 : (n - 1 / 2) * 16 < 2 ^ 3 := by linarith
  rw [segVal_eq (m := recM) (c := recC) (ib := 3) rfl rfl 10 s v0 v1]
  simp only [Option.bind_eq_bind, Option.bind_some, h, ne_eq, not_false_eq_true, if_true, hneg]
  obtain ⟨k, hk, ht, -, -⟩ := cell (N := s) (ib := 3) v0 v1
  obtain ⟨b1, b2⟩ := segRaw_bounds (m := recM) (c := recC) (n := s) (k := k) (N := 8) (lo := 1024) (hi := 2045) hk
    (by decide +kernel)
  have hg : pw (tab recM 10) (tab recC 10) (trunc s ((n - 1 / 2) * 16)) = g n := by
    unfold g; rw [hs, trunc_scBits (by norm_num) hz]
  have hy : g n = segRaw recM recC s k / 2 ^ (10 + s) := by rw [← hg, ht, pw_tab]
  rw [hg]
  set K := segRaw recM recC s k
  have hP : (0 : ℤ) < 2 ^ s := by positivity
  have hP2 : (2 : ℤ) ^ (s + 11) = 2048 * 2 ^ s := by rw [pow_add]; norm_num; ring
  cases hS : out.S
  · set o : Fmt := ⟨s + 10 + 1 + (if false = true then 1 else 0), 1 + ((if false = true then 1 else 0 : ℕ) : ℤ), false, q, .WRAP⟩ with hod
    have hF : o.F = (10 + s : ℕ) := by simp [hod, Fmt.F]; ring
    have lo : minRaw o.W o.S ≤ K := by simp [hod, minRaw]; linarith
    have hi : K ≤ maxRaw o.W o.S := by
      simp only [hod, maxRaw, Bool.false_eq_true, if_false, Nat.add_zero]
      rw [show s + 10 + 1 = s + 11 by ring, hP2]; linarith
    obtain ⟨w1, w2, w3⟩ := cvt_word (f := o) (by simp [hod]) hF rfl lo hi
    simp only [Bool.false_eq_true, false_and, if_false]
    rw [hy, w1, w2, Proof.Shift.rightUS_eq (fx := o) (fo := out) (by simp [hod]) ho rfl hS ⟨lo, hi⟩, w3]
  · set o : Fmt := ⟨s + 10 + 1 + (if true = true then 1 else 0), 1 + ((if true = true then 1 else 0 : ℕ) : ℤ), true, q, .WRAP⟩ with hod
    have hF : o.F = (10 + s : ℕ) := by simp [hod, Fmt.F]; ring
    have hw : o.W - 1 = s + 11 := by simp [hod]
    have lo : minRaw o.W o.S ≤ K := by
      simp only [minRaw, hw]; simp only [hod, if_true]; linarith
    have hi : K ≤ maxRaw o.W o.S := by
      simp only [maxRaw, hw]; simp only [hod, if_true]; rw [hP2]; linarith
    have lo' : minRaw o.W o.S ≤ -K := by
      simp only [minRaw, hw]; simp only [hod, if_true]; rw [hP2]; linarith
    have hi' : -K ≤ maxRaw o.W o.S := by
      simp only [maxRaw, hw]; simp only [hod, if_true]; rw [hP2]; linarith
    obtain ⟨w1, w2, w3⟩ := cvt_word (f := o) (by simp [hod]) hF rfl lo hi
    obtain ⟨u1, u2, u3⟩ := cvt_word (f := o) (by simp [hod]) hF rfl lo' hi'
    have hn : -((K : ℚ) / 2 ^ (10 + s)) = ((-K : ℤ) : ℚ) / 2 ^ (10 + s) := by push_cast; ring
    simp only [true_and, if_true]
    by_cases hx0 : x < 0
    · simp only [hx0, if_true]
      rw [hy, w1, hn, u1, u2, Proof.Shift.rightSS_eq (fx := o) (fo := out) (by simp [hod]) ho rfl hS ⟨lo', hi'⟩, u3]
      congr 2
      push_cast; ring
    · simp only [hx0, if_false]
      rw [hy, w1, w2, Proof.Shift.rightSS_eq (fx := o) (fo := out) (by simp [hod]) ho rfl hS ⟨lo, hi⟩, w3]

theorem reciprocal_zero (q : QMode) {f out : Fmt} : reciprocal q f out 0 = some out.maxVal := by
  unfold reciprocal
  simp only []
  obtain ⟨y, hy⟩ := segVal_isSome (m := recM) (c := recC) (ib := 3) rfl rfl 10 (scBits 10 (f.W - 4 - (if f.S then 1 else 0)))
    (((normalize (uns f) ((uns f).raw (magnitude f 0))).1 - 1 / 2) * 16)
  rw [hy]
  simp

end Proof.Reciprocal
