import Verif.Proof.Chol
import Verif.Proof.SqrtFixed
import Verif.Proof.DivFixed
import Mathlib.Algebra.Order.Chebyshev

/-! # Rounding errors of the Cholesky recurrences in fixed-point arithmetic -/

namespace Proof.CholRound
open Ac Finset

/-- Conversion to a signed type without overflow. -/
theorem cvt_near {f : Fmt} (hW : 1 ≤ f.W) (hS : f.S = true) {x : ℚ} (h : |x| ≤ f.maxVal) : |f.cvt x - x| ≤ 2 ^ (-f.F) := by
  obtain ⟨h0, h1⟩ := abs_le.1 h
  have hp : (0 : ℚ) < 2 ^ f.F := Fmt.z_pos _
  have e : f.maxVal * 2 ^ f.F = maxRaw f.W f.S := Fmt.val_mul_pow f _
  have := Fmt.cvt_err (f := f) (R := ℚ) (x := x) hW ?_ ?_
  · have h2 : |f.cvt x - x| < 2 ^ (-f.F) := by simpa using this
    exact h2.le
  · have hl : (loRaw f.W f.S f.O : ℚ) ≤ -(maxRaw f.W f.S : ℚ) := by
      have : loRaw f.W f.S f.O ≤ -maxRaw f.W f.S := by
        rw [hS]; unfold loRaw minRaw maxRaw; split_ifs <;> simp_all
      exact_mod_cast this
    have := mul_le_mul_of_nonneg_right h0 hp.le
    linarith
  · have := mul_le_mul_of_nonneg_right h1 hp.le
    linarith

/-- A sum with a rounding after each step. -/
theorem sum_err {f : Fmt} (hW : 1 ≤ f.W) (hS : f.S = true) (x : ℕ → ℚ) (a : ℚ) (n : ℕ)
    (h : ∀ m ≤ n, |a - ∑ k ∈ range m, x k| + m * 2 ^ (-f.F) ≤ f.maxVal) :
    |forUp (fun k s => f.cvt (s - x k)) n (f.cvt a) - (a - ∑ k ∈ range n, x k)| ≤ (n + 1) * 2 ^ (-f.F) := by
  have hu : (0 : ℚ) < 2 ^ (-f.F) := Fmt.z_pos _
  induction n with
  | zero =>
    have := h 0 le_rfl
    simp only [range_zero, sum_empty, sub_zero, Nat.cast_zero, zero_mul, add_zero, zero_add, one_mul] at this ⊢
    exact cvt_near hW hS this
  | succ n ih =>
    have i1 := ih fun m hm => h m (by omega)
    have hN : ∀ y, |y| ≤ f.maxVal → |f.cvt y - y| ≤ 2 ^ (-f.F) := fun y hy => cvt_near hW hS hy
    have h1 := h (n + 1) le_rfl
    rw [sum_range_succ] at h1 ⊢
    change |f.cvt (forUp (fun k s => f.cvt (s - x k)) n (f.cvt a) - x n) - _| ≤ _
    generalize forUp (fun k s => f.cvt (s - x k)) n (f.cvt a) = s at *
    generalize (2 : ℚ) ^ (-f.F) = u at *
    push_cast at h1 ⊢
    have e1 : |s - x n - (a - (∑ k ∈ range n, x k + x n))| ≤ (n + 1) * u := by
      have : s - x n - (a - (∑ k ∈ range n, x k + x n)) = s - (a - ∑ k ∈ range n, x k) := by ring
      rw [this]; exact i1
    have e2 : |s - x n| ≤ f.maxVal := by
      have := abs_add_le (s - x n - (a - (∑ k ∈ range n, x k + x n))) (a - (∑ k ∈ range n, x k + x n))
      rw [sub_add_cancel] at this
      linarith
    have e3 : |f.cvt (s - x n) - (s - x n)| ≤ u := by
      exact hN _ e2
    have := abs_add_le (f.cvt (s - x n) - (s - x n)) (s - x n - (a - (∑ k ∈ range n, x k + x n)))
    rw [sub_add_sub_cancel] at this
    linarith

/-- Solving a triangular system. -/
theorem backsolve (T : ℕ → ℕ → ℚ) (c : ℕ) (hT : ∀ k < c, T k k ≠ 0) (w : ℕ → ℚ) :
    ∃ x : ℕ → ℚ, ∀ k < c, ∑ a ∈ range c, x a * (if k ≤ a then T a k else 0) = -w k := by
  induction c generalizing w with
  | zero => exact ⟨fun _ => 0, fun k hk => absurd hk (by omega)⟩
  | succ c ih =>
    obtain ⟨x, hx⟩ := ih (fun k hk => hT k (by omega)) fun k => w k + -w c / T c c * T c k
    refine ⟨fun a => if a = c then -w c / T c c else x a, fun k hk => ?_⟩
    beta_reduce
    rw [sum_range_succ, if_pos rfl, if_pos (show k ≤ c by omega)]
    have e : ∑ a ∈ range c, (if a = c then -w c / T c c else x a) * (if k ≤ a then T a k else 0) =
        ∑ a ∈ range c, x a * (if k ≤ a then T a k else 0) := by
      refine sum_congr rfl fun a ha => ?_
      rw [if_neg (by have := mem_range.1 ha; omega)]
    rw [e]
    rcases Nat.lt_or_ge k c with h | h
    · rw [hx k h]; ring
    · obtain rfl : k = c := by omega
      have : ∑ a ∈ range k, x a * (if k ≤ a then T a k else 0) = 0 := by
        refine sum_eq_zero fun a ha => ?_
        rw [if_neg (by have := mem_range.1 ha; omega), mul_zero]
      rw [this, zero_add, div_mul_cancel₀ _ (hT k (by omega))]

/-- A quadratic form with small coefficients. -/
theorem form_le {ι : Type} (s : Finset ι) (x : ι → ℚ) (E : ι → ι → ℚ) (e : ℚ) (h : ∀ a ∈ s, ∀ b ∈ s, |E a b| ≤ e) :
    |∑ a ∈ s, ∑ b ∈ s, x a * E a b * x b| ≤ e * s.card * ∑ a ∈ s, x a ^ 2 := by
  rcases s.eq_empty_or_nonempty with rfl | ⟨a₀, ha₀⟩
  · simp
  have he : 0 ≤ e := (abs_nonneg _).trans (h a₀ ha₀ a₀ ha₀)
  have h1 : |∑ a ∈ s, ∑ b ∈ s, x a * E a b * x b| ≤ ∑ a ∈ s, ∑ b ∈ s, |x a| * e * |x b| := by
    refine (abs_sum_le_sum_abs _ _).trans (sum_le_sum fun a ha => (abs_sum_le_sum_abs _ _).trans (sum_le_sum fun b hb => ?_))
    rw [abs_mul, abs_mul]
    exact mul_le_mul_of_nonneg_right (mul_le_mul_of_nonneg_left (h a ha b hb) (abs_nonneg _)) (abs_nonneg _)
  have h2 : ∑ a ∈ s, ∑ b ∈ s, |x a| * e * |x b| = e * (∑ a ∈ s, |x a|) ^ 2 := by
    rw [pow_two, sum_mul_sum, mul_sum]
    refine sum_congr rfl fun a _ => ?_
    rw [mul_sum]
    exact sum_congr rfl fun b _ => by ring
  have h3 : (∑ a ∈ s, |x a|) ^ 2 ≤ s.card * ∑ a ∈ s, x a ^ 2 := by
    have := sq_sum_le_card_mul_sum_sq (s := s) (f := fun a => |x a|)
    simpa only [sq_abs] using this
  have := mul_le_mul_of_nonneg_left h3 he
  rw [h2] at h1
  linarith

/-- The remaining pivots of a positive definite matrix whose first columns are nearly factored. -/
theorem schur {M c i : ℕ} {A F : ℕ → ℕ → ℚ} {lam e : ℚ} (hi : i < M) (hc : c ≤ i)
    (hdiag : ∀ l < c, F l l ≠ 0)
    (hsym : ∀ a < M, ∀ b < M, A a b = A b a)
    (hres : ∀ l < c, ∀ m < M, l ≤ m → |A m l - ∑ k ∈ range (l + 1), F m k * F l k| ≤ e)
    (hpd : ∀ x : ℕ → ℚ, lam * ∑ a ∈ range M, x a ^ 2 ≤ ∑ a ∈ range M, ∑ b ∈ range M, x a * A a b * x b)
    (he0 : 0 ≤ e) (he : e * (c + 1) ≤ lam) :
    lam - e * (c + 1) ≤ A i i - ∑ k ∈ range c, F i k ^ 2 := by
  obtain ⟨x, hx⟩ := backsolve F c hdiag fun k => F i k
  have hic : i ∉ range c := fun h => absurd (mem_range.1 h) (by omega)
  set s := insert i (range c) with hs
  have hsM : s ⊆ range M := by
    intro a ha
    rcases mem_insert.1 ha with rfl | h
    · exact mem_range.2 hi
    · exact mem_range.2 (by have := mem_range.1 h; omega)
  let y : ℕ → ℚ := fun a => if a = i then 1 else if a < c then x a else 0
  have y0 : ∀ a ∉ s, y a = 0 := by
    intro a ha
    have h1 : a ≠ i := fun h => ha (h ▸ mem_insert_self _ _)
    have h2 : ¬ a < c := fun h => ha (mem_insert_of_mem (mem_range.2 h))
    simp [y, h1, h2]
  have yi : y i = 1 := by simp [y]
  let G : ℕ → ℕ → ℚ := fun a k => if k ≤ a then F a k else 0
  have hG : ∀ k ∈ range c, ∑ a ∈ s, y a * G a k = 0 := by
    intro k hk
    have hkc := mem_range.1 hk
    rw [hs, sum_insert hic, yi]
    have : ∑ a ∈ range c, y a * G a k = ∑ a ∈ range c, x a * (if k ≤ a then F a k else 0) := by
      refine sum_congr rfl fun a ha => ?_
      have := mem_range.1 ha
      have h1 : a ≠ i := by omega
      simp [y, G, h1, this]
    rw [this, hx k hkc]
    simp only [G]
    rw [if_pos (by omega)]; ring
  have hsq : ∑ a ∈ s, ∑ b ∈ s, y a * (∑ k ∈ range c, G a k * G b k) * y b = 0 := by
    have : ∑ a ∈ s, ∑ b ∈ s, y a * (∑ k ∈ range c, G a k * G b k) * y b =
        ∑ k ∈ range c, (∑ a ∈ s, y a * G a k) * (∑ b ∈ s, y b * G b k) := by
      simp only [sum_mul_sum]
      rw [sum_comm (s := range c)]
      refine sum_congr rfl fun a _ => ?_
      rw [sum_comm (s := range c)]
      refine sum_congr rfl fun b _ => ?_
      rw [mul_sum, sum_mul]
      exact sum_congr rfl fun k _ => by ring
    rw [this]
    exact sum_eq_zero fun k hk => by rw [hG k hk, zero_mul]
  let E : ℕ → ℕ → ℚ := fun a b => A a b - ∑ k ∈ range c, G a k * G b k
  let E' : ℕ → ℕ → ℚ := fun a b => if a = i ∧ b = i then 0 else E a b
  have hlow : ∀ a ∈ s, ∀ b < c, b ≤ a → |E a b| ≤ e := by
    intro a ha b hb hba
    have haM := mem_range.1 (hsM ha)
    have : ∑ k ∈ range c, G a k * G b k = ∑ k ∈ range (b + 1), F a k * F b k := by
      rw [← sum_subset (range_subset_range.2 (show b + 1 ≤ c by omega))]
      · refine sum_congr rfl fun k hk => ?_
        have := mem_range.1 hk
        simp only [G]
        rw [if_pos (by omega), if_pos (by omega)]
      · intro k _ hk
        have : ¬ k < b + 1 := fun h => hk (mem_range.2 h)
        simp only [G]
        rw [if_neg (show ¬ k ≤ b by omega), mul_zero]
    simp only [E, this]
    exact hres b hb a haM hba
  have hEs : ∀ a ∈ s, ∀ b ∈ s, E a b = E b a := by
    intro a ha b hb
    simp only [E]
    rw [hsym a (mem_range.1 (hsM ha)) b (mem_range.1 (hsM hb))]
    congr 1
    exact sum_congr rfl fun k _ => mul_comm _ _
  have hE' : ∀ a ∈ s, ∀ b ∈ s, |E' a b| ≤ e := by
    intro a ha b hb
    simp only [E']
    split_ifs with h
    · simpa using he0
    · rcases mem_insert.1 ha with rfl | ha'
      · rcases mem_insert.1 hb with rfl | hb'
        · exact absurd ⟨rfl, rfl⟩ h
        · have := mem_range.1 hb'
          exact hlow _ ha _ this (by omega)
      · have hac := mem_range.1 ha'
        rcases Nat.lt_or_ge b c with hbc | hbc
        · rcases le_total b a with h' | h'
          · exact hlow _ ha _ hbc h'
          · rw [hEs a ha b hb]; exact hlow _ hb _ hac h'
        · rw [hEs a ha b hb]; exact hlow _ hb _ hac (by omega)
  have hform := form_le s y E' e hE'
  have hcard : (s.card : ℚ) = c + 1 := by
    rw [hs, card_insert_of_notMem hic, card_range]; push_cast; rfl
  rw [hcard] at hform
  have hp := hpd y
  have e1 : ∑ a ∈ range M, y a ^ 2 = ∑ a ∈ s, y a ^ 2 :=
    (sum_subset hsM fun a _ ha => by rw [y0 a ha]; ring).symm
  have e2 : ∑ a ∈ range M, ∑ b ∈ range M, y a * A a b * y b = ∑ a ∈ s, ∑ b ∈ s, y a * A a b * y b := by
    rw [← sum_subset hsM fun a _ ha => sum_eq_zero fun b _ => by rw [y0 a ha]; ring]
    refine sum_congr rfl fun a _ => (sum_subset hsM fun b _ hb => by rw [y0 b hb]; ring).symm
  have e3 : ∑ a ∈ s, ∑ b ∈ s, y a * A a b * y b = ∑ a ∈ s, ∑ b ∈ s, y a * E a b * y b := by
    have : ∑ a ∈ s, ∑ b ∈ s, y a * E a b * y b = ∑ a ∈ s, ∑ b ∈ s, y a * A a b * y b -
        ∑ a ∈ s, ∑ b ∈ s, y a * (∑ k ∈ range c, G a k * G b k) * y b := by
      rw [← sum_sub_distrib]
      refine sum_congr rfl fun a _ => ?_
      rw [← sum_sub_distrib]
      exact sum_congr rfl fun b _ => by simp only [E]; ring
    rw [this, hsq, sub_zero]
  have his : i ∈ s := mem_insert_self _ _
  have e4 : ∑ a ∈ s, ∑ b ∈ s, y a * E a b * y b = E i i + ∑ a ∈ s, ∑ b ∈ s, y a * E' a b * y b := by
    have : E i i = ∑ a ∈ s, ∑ b ∈ s, if a = i ∧ b = i then E i i else 0 := by
      rw [sum_eq_single_of_mem i his fun a _ ha => sum_eq_zero fun b _ => if_neg fun h => ha h.1,
        sum_eq_single_of_mem i his fun b _ hb => if_neg fun h => hb h.2, if_pos ⟨rfl, rfl⟩]
    rw [this, ← sum_add_distrib]
    refine sum_congr rfl fun a _ => ?_
    rw [← sum_add_distrib]
    refine sum_congr rfl fun b _ => ?_
    simp only [E']
    split_ifs with h
    · rw [h.1, h.2, yi]; ring
    · ring
  have e5 : E i i = A i i - ∑ k ∈ range c, F i k ^ 2 := by
    simp only [E]
    congr 1
    refine sum_congr rfl fun k hk => ?_
    have := mem_range.1 hk
    simp only [G]
    rw [if_pos (by omega), pow_two]
  have hy1 : 1 ≤ ∑ a ∈ s, y a ^ 2 := by
    have := single_le_sum (f := fun a => y a ^ 2) (fun a _ => sq_nonneg _) his
    simpa [yi] using this
  rw [e1, e2, e3, e4, e5] at hp
  have h1 := (abs_le.1 hform).2
  have h2 : (lam - e * (c + 1)) * 1 ≤ (lam - e * (c + 1)) * ∑ a ∈ s, y a ^ 2 :=
    mul_le_mul_of_nonneg_left hy1 (by linarith)
  linarith

/-- Products of two rows. -/
theorem row_mul (a b : ℕ → ℚ) (n : ℕ) {P Q : ℚ} (ha : ∑ k ∈ range n, a k ^ 2 ≤ P) (hb : ∑ k ∈ range n, b k ^ 2 ≤ Q) :
    |∑ k ∈ range n, a k * b k| ≤ (P + Q) / 2 := by
  have h : ∑ k ∈ range n, |a k * b k| ≤ ∑ k ∈ range n, (a k ^ 2 + b k ^ 2) * (1 / 2) := by
    refine sum_le_sum fun k _ => abs_le.2 ⟨?_, ?_⟩
    · nlinarith [sq_nonneg (a k + b k)]
    · nlinarith [sq_nonneg (a k - b k)]
  rw [← sum_mul, sum_add_distrib] at h
  have := abs_sum_le_sum_abs (fun k => a k * b k) (range n)
  linarith

/-- The sums computed by the factorization, rounded to `f` after each step. -/
structure Rec (f : Fmt) (M : ℕ) (A F S : ℕ → ℕ → ℚ) (p : ℕ → ℚ) : Prop where
  pivot : ∀ j < M, p j = forUp (fun k s => f.cvt (s - F j k * F j k)) j (f.cvt (A j j))
  sum : ∀ j < M, ∀ i < M, j < i → S i j = forUp (fun k s => f.cvt (s - F i k * F j k)) j (f.cvt (A i j))

/-- The square root and the division by it: `κ` and `B` bound the diagonal elements. -/
def Col (M : ℕ) (F S : ℕ → ℕ → ℚ) (p : ℕ → ℚ) (lo hi σ κ B ed eo : ℚ) : Prop :=
  ∀ j < M, lo ≤ p j → p j ≤ hi → κ ≤ F j j ∧ F j j ≤ B ∧ |F j j ^ 2 - p j| ≤ ed ∧
    ∀ i < M, j < i → |S i j| ≤ σ → |F i j * F j j - S i j| ≤ eo

theorem apriori {f : Fmt} (hW : 1 ≤ f.W) (hS : f.S = true) {M : ℕ} {A F S : ℕ → ℕ → ℚ} {p : ℕ → ℚ} (hr : Rec f M A F S p)
    {D lam κ B ed eo e : ℚ} (hD : ∀ i < M, ∀ j < M, |A i j| ≤ D)
    (hsym : ∀ a < M, ∀ b < M, A a b = A b a)
    (hpd : ∀ x : ℕ → ℚ, lam * ∑ a ∈ range M, x a ^ 2 ≤ ∑ a ∈ range M, ∑ b ∈ range M, x a * A a b * x b)
    (hmax : 2 * D + M * 2 ^ (-f.F) ≤ f.maxVal)
    (hcol : Col M F S p (lam - e * M - M * 2 ^ (-f.F)) (D + M * 2 ^ (-f.F)) (2 * D + M * 2 ^ (-f.F)) κ B ed eo)
    (hκ : 0 < κ) (he0 : 0 ≤ e) (hed : M * 2 ^ (-f.F) + ed ≤ e) (heo : M * 2 ^ (-f.F) + eo ≤ e)
    (hlam : e * M + M * 2 ^ (-f.F) ≤ lam) :
    (∀ j < M, lam - e * M - M * 2 ^ (-f.F) ≤ p j ∧ p j ≤ D + M * 2 ^ (-f.F) ∧ κ ≤ F j j ∧ F j j ≤ B) ∧
    ∀ j < M, ∀ i < M, j ≤ i → |A i j - ∑ k ∈ range (j + 1), F i k * F j k| ≤ e := by
  have hu : (0 : ℚ) < 2 ^ (-f.F) := Fmt.z_pos _
  suffices H : ∀ c ≤ M, ∀ j < c, (lam - e * M - M * 2 ^ (-f.F) ≤ p j ∧ p j ≤ D + M * 2 ^ (-f.F) ∧ κ ≤ F j j ∧ F j j ≤ B) ∧
      ∀ i < M, j ≤ i → |A i j - ∑ k ∈ range (j + 1), F i k * F j k| ≤ e from
    ⟨fun j hj => (H M le_rfl j hj).1, fun j hj => (H M le_rfl j hj).2⟩
  intro c
  induction c with
  | zero => intro _ j hj; omega
  | succ c ih =>
    intro hc j hj
    have ih := ih (by omega)
    rcases Nat.lt_succ_iff_lt_or_eq.1 hj with hj | rfl
    · exact ih j hj
    have hjM : (j : ℚ) + 1 ≤ M := by exact_mod_cast hc
    have hju : ((j : ℚ) + 1) * 2 ^ (-f.F) ≤ M * 2 ^ (-f.F) := mul_le_mul_of_nonneg_right hjM hu.le
    have hje : e * ((j : ℚ) + 1) ≤ e * M := mul_le_mul_of_nonneg_left hjM he0
    have hM0 : 0 ≤ (M : ℚ) * 2 ^ (-f.F) := by
      have : (0 : ℚ) ≤ M := Nat.cast_nonneg _
      exact mul_nonneg this hu.le
    have hq : ∀ i < M, j ≤ i → lam - e * M ≤ A i i - ∑ k ∈ range j, F i k ^ 2 := by
      intro i hi hji
      have := schur (M := M) (c := j) (i := i) (A := A) (F := F) (lam := lam) (e := e) hi hji
        (fun l hl => ne_of_gt (lt_of_lt_of_le hκ (ih l hl).1.2.2.1)) hsym
        (fun l hl m hm hlm => (ih l hl).2 m hm hlm) hpd he0 (by linarith)
      linarith
    have hmono : ∀ i, ∀ m ≤ j, ∑ k ∈ range m, F i k ^ 2 ≤ ∑ k ∈ range j, F i k ^ 2 := fun i m hm =>
      sum_le_sum_of_subset_of_nonneg (range_subset_range.2 hm) fun k _ _ => sq_nonneg _
    have hnn : ∀ i m, 0 ≤ ∑ k ∈ range m, F i k ^ 2 := fun i m => sum_nonneg fun k _ => sq_nonneg _
    have hrow : ∀ i < M, j ≤ i → ∀ m ≤ j, ∑ k ∈ range m, F i k ^ 2 ≤ D := by
      intro i hi hji m hm
      have h1 := hq i hi hji
      have h2 := hmono i m hm
      have h3 := (abs_le.1 (hD i hi i hi)).2
      linarith
    have hmu : ∀ m ≤ j, (m : ℚ) * 2 ^ (-f.F) ≤ M * 2 ^ (-f.F) := fun m hm =>
      mul_le_mul_of_nonneg_right (by exact_mod_cast (show m ≤ M by omega)) hu.le
    have hD0 : 0 ≤ D := (abs_nonneg _).trans (hD j hc j hc)
    -- the pivot
    have hp := hr.pivot j hc
    have hsq : ∀ m, ∑ k ∈ range m, F j k * F j k = ∑ k ∈ range m, F j k ^ 2 := fun m =>
      sum_congr rfl fun k _ => (pow_two _).symm
    have hpe := sum_err hW hS (fun k => F j k * F j k) (A j j) j (by
      intro m hm
      rw [hsq]
      have h1 := hq j hc le_rfl
      have h2 := hmono j m hm
      have h3 := (abs_le.1 (hD j hc j hc)).2
      have h4 := hnn j m
      have h5 := hmu m hm
      rw [abs_of_nonneg (by linarith)]
      linarith)
    beta_reduce at hpe
    rw [← hp, hsq] at hpe
    have hpe' := abs_le.1 (hpe.trans hju)
    have h1 := hq j hc le_rfl
    have h3 := (abs_le.1 (hD j hc j hc)).2
    have h4 := hnn j j
    have plo : lam - e * M - M * 2 ^ (-f.F) ≤ p j := by linarith
    have phi : p j ≤ D + M * 2 ^ (-f.F) := by linarith
    obtain ⟨c1, c2, c3, c4⟩ := hcol j hc plo phi
    refine ⟨⟨plo, phi, c1, c2⟩, fun i hi hji => ?_⟩
    rw [sum_range_succ]
    rcases Nat.lt_or_ge j i with hlt | hge
    · have hx : ∀ m ≤ j, |A i j - ∑ k ∈ range m, F i k * F j k| ≤ 2 * D := by
        intro m hm
        have h5 := row_mul (F i) (F j) m (hrow i hi hji m hm) (hrow j hc le_rfl m hm)
        have := abs_sub (A i j) (∑ k ∈ range m, F i k * F j k)
        have := hD i hi j hc
        linarith
      have hse := sum_err hW hS (fun k => F i k * F j k) (A i j) j (by
        intro m hm
        have := hx m hm
        have := hmu m hm
        linarith)
      beta_reduce at hse
      rw [← hr.sum j hc i hi hlt] at hse
      have hse' := hse.trans hju
      have hb : |S i j| ≤ 2 * D + M * 2 ^ (-f.F) := by
        have := hx j le_rfl
        have h7 := abs_add_le (S i j - (A i j - ∑ k ∈ range j, F i k * F j k)) (A i j - ∑ k ∈ range j, F i k * F j k)
        rw [sub_add_cancel] at h7
        linarith
      have h8 := c4 i hi hlt hb
      obtain ⟨a1, a2⟩ := abs_le.1 h8
      obtain ⟨b1, b2⟩ := abs_le.1 hse'
      rw [abs_le]
      constructor <;> linarith
    · obtain rfl : i = j := by omega
      obtain ⟨a1, a2⟩ := abs_le.1 c3
      rw [hsq, ← pow_two, abs_le]
      constructor <;> linarith

/-! ## The square root and the reciprocal -/

open Model.Chol

theorem unsigned_near {R : Type*} [Field R] [LinearOrder R] [IsStrictOrderedRing R] [FloorRing R] {f : Fmt} (hW : 1 ≤ f.W)
    (hS : f.S = false) {x : R} (h0 : 0 ≤ x) (h1 : x ≤ ((f.maxVal : ℚ) : R)) : |((f.cvt x : ℚ) : R) - x| ≤ 2 ^ (-f.F) := by
  have hp : (0 : R) < 2 ^ f.F := zpow_pos (by norm_num) _
  have e : ((f.maxVal : ℚ) : R) * 2 ^ f.F = maxRaw f.W f.S := by
    have := Fmt.val_mul_pow f (maxRaw f.W f.S)
    have := congrArg (Rat.cast (K := R)) this
    push_cast at this
    exact this
  refine (Fmt.cvt_err hW ?_ ?_).le
  · have : loRaw f.W f.S f.O = 0 := by rw [hS]; simp [loRaw, minRaw]
    rw [this, Int.cast_zero]; exact mul_nonneg h0 hp.le
  · rw [← e]; exact mul_le_mul_of_nonneg_right h1 hp.le

theorem maxRaw_le (W : ℕ) : maxRaw W true ≤ maxRaw W false := by
  unfold maxRaw
  have : (2 : ℤ) ^ (W - 1) ≤ 2 ^ W := pow_le_pow_right₀ (by norm_num) (by omega)
  simpa using this

theorem maxVal_unsigned {f : Fmt} (hS : f.S = true) : f.maxVal ≤ (unsignedFmt f).maxVal := by
  change f.val (maxRaw f.W f.S) ≤ f.val (maxRaw f.W false)
  rw [Fmt.val_le, hS]; exact maxRaw_le _

theorem cvt_unsigned {f : Fmt} (hW : 1 ≤ f.W) (hS : f.S = true) {s : ℚ} (hs : f.Rep s) (h0 : 0 ≤ s) : (unsignedFmt f).cvt s = s := by
  obtain ⟨r, -, h2, rfl⟩ := hs
  have hr : 0 ≤ r := by
    have : f.val 0 ≤ f.val r := by simpa [Fmt.val] using h0
    exact Fmt.val_le.1 this
  change (unsignedFmt f).cvt ((unsignedFmt f).val r) = (unsignedFmt f).val r
  refine Fmt.cvt_val (f := unsignedFmt f) hW ?_ ?_
  · simpa [unsignedFmt, loRaw, minRaw] using hr
  · rw [hS] at h2; exact h2.trans (maxRaw_le _)

theorem diag_ok {t : Types} (hWo : 1 ≤ t.out.W) (hWi : 1 ≤ t.imd.W) (hSo : t.out.S = true) (hSi : t.imd.S = true)
    {s B : ℚ} (hs : t.imd.Rep s) (h0 : 0 < s) (hv : 2 ^ (-t.out.F) ≤ B) (hB : B ≤ t.out.maxVal)
    (h1 : s ≤ (B - 2 ^ (-t.out.F)) ^ 2) :
    t.out.cvt (imdLjj t s) = imdLjj t s ∧ (unsignedFmt t.out).Rep (imdLjj t s) ∧ 0 ≤ imdLjj t s ∧ imdLjj t s ≤ B ∧
      |imdLjj t s ^ 2 - s| ≤ 2 * B * 2 ^ (-t.out.F) ∧ ∀ κ, 0 ≤ κ → (κ + 2 ^ (-t.out.F)) ^ 2 ≤ s → κ ≤ imdLjj t s := by
  have hvp : (0 : ℚ) < 2 ^ (-t.out.F) := Fmt.z_pos _
  have e1 : (unsignedFmt t.imd).val ((unsignedFmt t.imd).cvtRaw s) = s := cvt_unsigned hWi hSi hs h0.le
  have hr := ovf_range (S := false) (W := t.imd.W) hWi (unsignedFmt t.imd).O (quant (unsignedFmt t.imd).Q (s * 2 ^ (unsignedFmt t.imd).F))
  have hX0 : 0 ≤ (unsignedFmt t.imd).cvtRaw s := hr.1
  have hX1 : (unsignedFmt t.imd).cvtRaw s < 2 ^ t.imd.W := by
    have : (unsignedFmt t.imd).cvtRaw s ≤ 2 ^ t.imd.W - 1 := hr.2
    omega
  have e2 : imdLjj t s = (unsignedFmt t.out).cvt (Real.sqrt (s : ℝ)) := by
    have := Proof.SqrtFixed.sqrtFixed_eq (fx := unsignedFmt t.imd) (fo := unsignedFmt t.out) hWi hWo rfl rfl hX0 hX1
    rw [e1] at this
    exact this
  have hsq : (Real.sqrt (s : ℝ)) ^ 2 = (s : ℝ) := Real.sq_sqrt (by exact_mod_cast h0.le)
  have hsn := Real.sqrt_nonneg (s : ℝ)
  have vcast : (((2 : ℚ) ^ (-t.out.F) : ℚ) : ℝ) = 2 ^ (-t.out.F) := by push_cast; rfl
  have hvp' : (0 : ℝ) < 2 ^ (-t.out.F) := zpow_pos (by norm_num) _
  have hs1 : Real.sqrt (s : ℝ) ≤ B - 2 ^ (-t.out.F) := by
    rw [← vcast]
    have hn : (0 : ℝ) ≤ (B : ℝ) - (((2 : ℚ) ^ (-t.out.F) : ℚ) : ℝ) := by
      have : (0 : ℚ) ≤ B - 2 ^ (-t.out.F) := by linarith
      have := (Rat.cast_le (K := ℝ)).2 this
      push_cast at this ⊢
      exact this
    rw [Real.sqrt_le_left hn]
    have := (Rat.cast_le (K := ℝ)).2 h1
    push_cast at this ⊢
    exact this
  have hB' : (B : ℝ) ≤ ((unsignedFmt t.out).maxVal : ℚ) := Rat.cast_le.2 (hB.trans (maxVal_unsigned hSo))
  have near := unsigned_near (f := unsignedFmt t.out) (x := Real.sqrt (s : ℝ)) hWo rfl hsn (by linarith)
  rw [← e2] at near
  have near' : |((imdLjj t s : ℚ) : ℝ) - Real.sqrt s| ≤ 2 ^ (-t.out.F) := near
  have rep : (unsignedFmt t.out).Rep (imdLjj t s) := by rw [e2]; exact Fmt.rep_cvt (f := unsignedFmt t.out) hWo _
  obtain ⟨n1, n2⟩ := abs_le.1 near'
  have nn : 0 ≤ imdLjj t s := by
    obtain ⟨r, r0, -, r1⟩ := rep
    have : 0 ≤ r := by simpa [unsignedFmt, minRaw] using r0
    rw [r1]
    have h2 : (unsignedFmt t.out).val 0 ≤ (unsignedFmt t.out).val r := Fmt.val_le.2 this
    simpa [Fmt.val] using h2
  have le : imdLjj t s ≤ B := by
    have : ((imdLjj t s : ℚ) : ℝ) ≤ B := by linarith
    exact_mod_cast this
  refine ⟨?_, rep, nn, le, ?_, ?_⟩
  · obtain ⟨r, r0, -, r1⟩ := rep
    have r0 : 0 ≤ r := by simpa [unsignedFmt, minRaw] using r0
    have r2 : r ≤ maxRaw t.out.W t.out.S := by
      have : t.out.val r ≤ t.out.val (maxRaw t.out.W t.out.S) := by
        have h3 : imdLjj t s = t.out.val r := r1
        rw [← h3]; exact le.trans hB
      exact Fmt.val_le.1 this
    rw [r1]
    exact Fmt.cvt_val (f := t.out) hWo ((loRaw_nonpos _ _ _).trans r0) r2
  · have h2 : |((imdLjj t s : ℚ) : ℝ) ^ 2 - s| ≤ 2 * B * 2 ^ (-t.out.F) := by
      rw [← hsq, show ((imdLjj t s : ℚ) : ℝ) ^ 2 - Real.sqrt s ^ 2 =
        (((imdLjj t s : ℚ) : ℝ) - Real.sqrt s) * (((imdLjj t s : ℚ) : ℝ) + Real.sqrt s) by ring, abs_mul]
      have n0 : (0 : ℝ) ≤ imdLjj t s := by exact_mod_cast nn
      have l0 : ((imdLjj t s : ℚ) : ℝ) ≤ B := by exact_mod_cast le
      rw [abs_of_nonneg (by linarith : 0 ≤ ((imdLjj t s : ℚ) : ℝ) + Real.sqrt s)]
      have := mul_le_mul near' (by linarith : ((imdLjj t s : ℚ) : ℝ) + Real.sqrt s ≤ 2 * B) (by linarith) hvp'.le
      linarith
    rw [← vcast] at h2
    have h3 : (((|imdLjj t s ^ 2 - s| : ℚ)) : ℝ) ≤ ((2 * B * 2 ^ (-t.out.F) : ℚ) : ℝ) := by
      push_cast at h2 ⊢
      exact h2
    exact Rat.cast_le.1 h3
  · intro κ hκ hle
    have h2 : (κ : ℝ) + 2 ^ (-t.out.F) ≤ Real.sqrt s := by
      apply Real.le_sqrt_of_sq_le
      have := (Rat.cast_le (K := ℝ)).2 hle
      push_cast at this
      exact this
    have : (κ : ℝ) ≤ ((imdLjj t s : ℚ) : ℝ) := by linarith
    exact_mod_cast this

theorem recip_ok {t : Types} (hWo : 1 ≤ t.out.W) (hWi : 1 ≤ t.imd.W) (hF : 0 ≤ t.out.F + t.imd.F) (junk : ℚ)
    {s : ℚ} (hd : (unsignedFmt t.out).Rep (imdLjj t s)) (h0 : 0 < imdLjj t s)
    (h1 : 1 ≤ imdLjj t s * (unsignedFmt t.imd).maxVal) :
    |(fixedOps t junk).recip s - 1 / imdLjj t s| ≤ 2 ^ (-t.imd.F) := by
  obtain ⟨r, r0, r1, r2⟩ := hd
  have hr0 : 0 < r := by
    rw [r2] at h0
    have : (unsignedFmt t.out).val 0 < (unsignedFmt t.out).val r := by simpa [Fmt.val] using h0
    exact Fmt.val_lt.1 this
  have hr1 : r < 2 ^ (unsignedFmt t.out).W := by
    have : r ≤ 2 ^ t.out.W - 1 := by simpa [unsignedFmt, maxRaw] using r1
    change r < 2 ^ t.out.W
    omega
  have hdiv := Proof.DivFixed.divU_eq (noSat := false) (fn := ⟨1, 1, false, .TRN, .WRAP⟩) (fd := unsignedFmt t.out)
    (fq := unsignedFmt t.imd) (by decide) hWo hWi rfl (by
      unfold Model.DivFixed.early Model.DivFixed.ZI Model.DivFixed.QF Model.DivFixed.rbitU
      have e1 : (unsignedFmt t.out).F = t.out.F := rfl
      have e2 : (unsignedFmt t.imd).F = t.imd.F := rfl
      have e3 : (unsignedFmt t.out).W - (unsignedFmt t.out).I = t.out.F := rfl
      split_ifs <;> simp only [Fmt.F, unsignedFmt] at * <;> push_cast <;> omega)
    (N := 1) (D := r) (by norm_num) (by norm_num) hr0 hr1 junk
  have e3 : (⟨1, 1, false, .TRN, .WRAP⟩ : Fmt).val 1 = 1 := by norm_num [Fmt.val, Fmt.F]
  have e : (fixedOps t junk).recip s = (unsignedFmt t.imd).cvt (1 / imdLjj t s) := by
    change (Model.DivFixed.divU false ⟨1, 1, false, .TRN, .WRAP⟩ (unsignedFmt t.out) (unsignedFmt t.imd)
      1 ((unsignedFmt t.out).raw (imdLjj t s)) junk).1 = _
    rw [r2, Fmt.raw_val, hdiv.1, e3]
  rw [e]
  have := unsigned_near (R := ℚ) (f := unsignedFmt t.imd) (x := 1 / imdLjj t s) hWi rfl (one_div_nonneg.2 h0.le) (by
    rw [div_le_iff₀ h0]
    simpa [mul_comm] using h1)
  rw [Rat.cast_id] at this
  exact this

/-- An element below the diagonal, once its conversion to the output type is known not to overflow. -/
theorem off_ok {r d S y u v σ B : ℚ} (h0 : 0 < d) (hB : d ≤ B) (hr : |r - 1 / d| ≤ u) (hS : |S| ≤ σ) (hy : |y - r * S| ≤ v) :
    |y * d - S| ≤ B * (v + u * σ) := by
  have e : y * d - S = (y - r * S) * d + (r - 1 / d) * S * d := by
    have h' : 1 / d * d = 1 := by rw [one_div, inv_mul_cancel₀ h0.ne']
    have : y * d - S * (1 / d * d) = (y - r * S) * d + (r - 1 / d) * S * d := by ring
    rwa [h', mul_one] at this
  have h1 : |(y - r * S) * d| ≤ v * d := by
    rw [abs_mul, abs_of_pos h0]; exact mul_le_mul_of_nonneg_right hy h0.le
  have h2 : |(r - 1 / d) * S * d| ≤ u * σ * d := by
    rw [abs_mul, abs_mul, abs_of_pos h0]
    exact mul_le_mul_of_nonneg_right (mul_le_mul hr hS (abs_nonneg _) ((abs_nonneg _).trans hr)) h0.le
  have h3 : (v + u * σ) * d ≤ (v + u * σ) * B := by
    refine mul_le_mul_of_nonneg_left hB ?_
    have a := (abs_nonneg _).trans hr
    have b := (abs_nonneg _).trans hS
    have c := (abs_nonneg _).trans hy
    have := mul_nonneg a b
    linarith
  rw [e]
  have := abs_add_le ((y - r * S) * d) ((r - 1 / d) * S * d)
  linarith

/-- A product of the reciprocal that fits the output type. -/
theorem off_range {r d κ S u σ m : ℚ} (hκ : 0 < κ) (hd : κ ≤ d) (hr : |r - 1 / d| ≤ u) (hS : |S| ≤ σ)
    (h : σ * (1 / κ + u) ≤ m) : |r * S| ≤ m := by
  have h1 : |r| ≤ 1 / κ + u := by
    have a := abs_add_le (r - 1 / d) (1 / d)
    rw [sub_add_cancel] at a
    have b : |1 / d| ≤ 1 / κ := by
      rw [abs_of_pos (one_div_pos.2 (by linarith))]
      exact one_div_le_one_div_of_le hκ hd
    linarith
  rw [abs_mul, mul_comm]
  exact (mul_le_mul hS h1 (abs_nonneg _) ((abs_nonneg _).trans hS)).trans h

/-- A saturating conversion that returned neither limit did not saturate. -/
theorem sat_near {f : Fmt} (hW : 1 ≤ f.W) (hS : f.S = true) (hO : f.O = .SAT ∨ f.O = .SAT_SYM) {y : ℚ}
    (h : |f.cvt y| < f.maxVal) : |f.cvt y - y| ≤ 2 ^ (-f.F) := by
  apply cvt_near hW hS
  have hl : loRaw f.W f.S f.O ≤ -maxRaw f.W f.S := by
    rw [hS]; unfold loRaw minRaw maxRaw; split_ifs <;> simp_all
  have hmx := maxRaw_nonneg f.W f.S
  obtain ⟨h0, h1⟩ := abs_lt.1 h
  have c1 : f.cvt f.maxVal = f.maxVal := Fmt.cvt_val hW (by have := loRaw_nonpos f.W f.S f.O; omega) le_rfl
  have c2 : f.cvt (-f.maxVal) = -f.maxVal := by
    have e : -f.maxVal = f.val (-maxRaw f.W f.S) := by simp [Fmt.maxVal, Fmt.val]
    rw [e]; exact Fmt.cvt_val hW hl (by omega)
  rw [abs_le]
  constructor
  · by_contra hc
    have := Fmt.cvt_mono (f := f) hO (not_le.1 hc).le
    rw [c2] at this
    linarith
  · by_contra hc
    have := Fmt.cvt_mono (f := f) hO (not_le.1 hc).le
    rw [c1] at this
    linarith

/-- A positive pivot computed with saturating sums was computed without overflow. -/
theorem sum_pos {f : Fmt} (hW : 1 ≤ f.W) (hS : f.S = true) (hO : f.O = .SAT ∨ f.O = .SAT_SYM) (x : ℕ → ℚ) (hx : ∀ k, 0 ≤ x k)
    (a : ℚ) (n : ℕ) (ha : |a| ≤ f.maxVal) (h : 0 < forUp (fun k s => f.cvt (s - x k)) n (f.cvt a)) :
    ∀ m ≤ n, 0 < forUp (fun k s => f.cvt (s - x k)) m (f.cvt a) ∧
      |forUp (fun k s => f.cvt (s - x k)) m (f.cvt a) - (a - ∑ k ∈ range m, x k)| ≤ (m + 1) * 2 ^ (-f.F) := by
  have hN : ∀ y, |y| ≤ f.maxVal → |f.cvt y - y| ≤ 2 ^ (-f.F) := fun y hy => cvt_near hW hS hy
  have hmaxv : ∀ y, f.cvt y ≤ f.maxVal := fun y => by
    obtain ⟨r, -, h2, h3⟩ := Fmt.rep_cvt (R := ℚ) hW y
    rw [h3]; exact Fmt.val_le.2 h2
  have hrepall : ∀ m, f.cvt (forUp (fun k s => f.cvt (s - x k)) m (f.cvt a)) = forUp (fun k s => f.cvt (s - x k)) m (f.cvt a) := by
    intro m; cases m <;> exact Fmt.cvt_idem hW _
  induction n with
  | zero =>
    intro m hm
    obtain rfl : m = 0 := by omega
    refine ⟨h, ?_⟩
    simp only [range_zero, sum_empty, sub_zero, Nat.cast_zero, zero_add, one_mul]
    exact hN a ha
  | succ n ih =>
    have hr := hrepall n
    have hpos : 0 < forUp (fun k s => f.cvt (s - x k)) n (f.cvt a) := by
      by_contra hc
      have h1 : forUp (fun k s => f.cvt (s - x k)) n (f.cvt a) - x n ≤ forUp (fun k s => f.cvt (s - x k)) n (f.cvt a) := by
        linarith [hx n]
      have := Fmt.cvt_mono (f := f) hO h1
      rw [hr] at this
      change 0 < f.cvt (forUp (fun k s => f.cvt (s - x k)) n (f.cvt a) - x n) at h
      linarith
    have ih := ih hpos
    intro m hm
    rcases Nat.lt_or_ge n m with hlt | hge
    · obtain rfl : m = n + 1 := by omega
      refine ⟨h, ?_⟩
      have i1 := (ih n le_rfl).2
      rw [sum_range_succ]
      change 0 < f.cvt (forUp (fun k s => f.cvt (s - x k)) n (f.cvt a) - x n) at h
      change |f.cvt (forUp (fun k s => f.cvt (s - x k)) n (f.cvt a) - x n) - _| ≤ _
      have hle : forUp (fun k s => f.cvt (s - x k)) n (f.cvt a) ≤ f.maxVal := by rw [← hr]; exact hmaxv _
      have hxn := hx n
      generalize forUp (fun k s => f.cvt (s - x k)) n (f.cvt a) = s at *
      have hy : 0 < s - x n := by
        by_contra hc
        have := Fmt.cvt_mono (f := f) hO (not_lt.1 hc)
        rw [Fmt.cvt_zero' hW] at this
        linarith
      have e3 := hN (s - x n) (by rw [abs_of_pos hy]; linarith)
      generalize (2 : ℚ) ^ (-f.F) = u at *
      have e1 : |s - x n - (a - (∑ k ∈ range n, x k + x n))| ≤ (n + 1) * u := by
        have : s - x n - (a - (∑ k ∈ range n, x k + x n)) = s - (a - ∑ k ∈ range n, x k) := by ring
        rw [this]; exact i1
      have := abs_add_le (f.cvt (s - x n) - (s - x n)) (s - x n - (a - (∑ k ∈ range n, x k + x n)))
      rw [sub_add_sub_cancel] at this
      push_cast
      linarith
    · exact ih m hge

theorem aposteriori {f : Fmt} (hW : 1 ≤ f.W) (hS : f.S = true) (hO : f.O = .SAT ∨ f.O = .SAT_SYM) {M : ℕ}
    {A F S : ℕ → ℕ → ℚ} {p : ℕ → ℚ} (hr : Rec f M A F S p) {D ed eo e : ℚ} (hD : ∀ i < M, ∀ j < M, |A i j| ≤ D)
    (hmax : 2 * D + 2 * M * 2 ^ (-f.F) ≤ f.maxVal) (hpos : ∀ j < M, 0 < p j)
    (hcol : ∀ j < M, p j ≤ D + M * 2 ^ (-f.F) → |F j j ^ 2 - p j| ≤ ed ∧
      ∀ i < M, j < i → |S i j| ≤ 2 * D + 2 * M * 2 ^ (-f.F) → F i j ^ 2 ≤ D + M * 2 ^ (-f.F) → |F i j * F j j - S i j| ≤ eo)
    (hed : M * 2 ^ (-f.F) + ed ≤ e) (heo : M * 2 ^ (-f.F) + eo ≤ e) :
    ∀ j < M, ∀ i < M, j ≤ i → |A i j - ∑ k ∈ range (j + 1), F i k * F j k| ≤ e := by
  have hu : (0 : ℚ) < 2 ^ (-f.F) := Fmt.z_pos _
  have hnn : ∀ i m, 0 ≤ ∑ k ∈ range m, F i k ^ 2 := fun i m => sum_nonneg fun k _ => sq_nonneg _
  have hsq : ∀ i m, ∑ k ∈ range m, F i k * F i k = ∑ k ∈ range m, F i k ^ 2 := fun i m =>
    sum_congr rfl fun k _ => (pow_two _).symm
  have hmu : ∀ m : ℕ, m + 1 ≤ M → ((m : ℚ) + 1) * 2 ^ (-f.F) ≤ M * 2 ^ (-f.F) := fun m hm =>
    mul_le_mul_of_nonneg_right (by exact_mod_cast hm) hu.le
  have hM0 : 0 ≤ (M : ℚ) * 2 ^ (-f.F) := mul_nonneg (Nat.cast_nonneg _) hu.le
  have hpiv : ∀ i < M, ∀ m ≤ i, ∃ s, 0 < s ∧ |s - (A i i - ∑ k ∈ range m, F i k ^ 2)| ≤ M * 2 ^ (-f.F) ∧ (m = i → s = p i) := by
    intro i hi m hm
    have h1 := hpos i hi
    have hD1 := hD i hi i hi
    have hD0 : 0 ≤ D := (abs_nonneg _).trans hD1
    rw [hr.pivot i hi] at h1
    have := sum_pos hW hS hO (fun k => F i k * F i k) (fun k => mul_self_nonneg _) (A i i) i (by linarith) h1 m hm
    rw [hsq] at this
    exact ⟨_, this.1, this.2.trans (hmu m (by omega)), fun h => by rw [h, hr.pivot i hi]⟩
  have hrow : ∀ i < M, ∀ m ≤ i, ∑ k ∈ range m, F i k ^ 2 ≤ D + M * 2 ^ (-f.F) := by
    intro i hi m hm
    obtain ⟨s, s0, s1, -⟩ := hpiv i hi m hm
    obtain ⟨a, b⟩ := abs_le.1 s1
    have := (abs_le.1 (hD i hi i hi)).2
    linarith
  intro j hj i hi hji
  obtain ⟨s, s0, s1, s2⟩ := hpiv j hj j le_rfl
  rw [s2 rfl] at s1
  have phi : p j ≤ D + M * 2 ^ (-f.F) := by
    have := (abs_le.1 s1).2
    have := (abs_le.1 (hD j hj j hj)).2
    have := hnn j j
    linarith
  obtain ⟨c3, c4⟩ := hcol j hj phi
  rw [sum_range_succ]
  rcases Nat.lt_or_ge j i with hlt | hge
  · have hx : ∀ m ≤ j, |A i j - ∑ k ∈ range m, F i k * F j k| ≤ 2 * D + M * 2 ^ (-f.F) := by
      intro m hm
      have h5 := row_mul (F i) (F j) m (hrow i hi m (by omega)) (hrow j hj m hm)
      have := abs_sub (A i j) (∑ k ∈ range m, F i k * F j k)
      have := hD i hi j hj
      linarith
    have hse := sum_err hW hS (fun k => F i k * F j k) (A i j) j (by
      intro m hm
      have := hx m hm
      have := hmu m (by omega)
      linarith)
    beta_reduce at hse
    rw [← hr.sum j hj i hi hlt] at hse
    have hse' := hse.trans (hmu j (by omega))
    have hb : |S i j| ≤ 2 * D + 2 * M * 2 ^ (-f.F) := by
      have := hx j le_rfl
      have h7 := abs_add_le (S i j - (A i j - ∑ k ∈ range j, F i k * F j k)) (A i j - ∑ k ∈ range j, F i k * F j k)
      rw [sub_add_cancel] at h7
      linarith
    have hF : F i j ^ 2 ≤ D + M * 2 ^ (-f.F) := by
      have h1 := hrow i hi (j + 1) hlt
      have h2 := hnn i j
      rw [sum_range_succ] at h1
      linarith
    have h8 := c4 i hi hlt hb hF
    obtain ⟨a1, a2⟩ := abs_le.1 h8
    obtain ⟨b1, b2⟩ := abs_le.1 hse'
    rw [abs_le]
    constructor <;> linarith
  · obtain rfl : i = j := by omega
    obtain ⟨a1, a2⟩ := abs_le.1 c3
    obtain ⟨b1, b2⟩ := abs_le.1 s1
    rw [hsq, ← pow_two, abs_le]
    constructor <;> linarith

/-! ## The fixed-point version with the exact functions -/

/-- The bound on the elements of the residual. -/
def bound (t : Types) (M : ℕ) (D B : ℚ) : ℚ :=
  M * 2 ^ (-t.imd.F) + B * (2 * 2 ^ (-t.out.F) + 2 ^ (-t.imd.F) * (2 * D + 2 * M * 2 ^ (-t.imd.F)))

/-- The sums of the recurrences. -/
def offSum (t : Types) (A F : ℕ → ℕ → ℚ) (i j : ℕ) : ℚ :=
  forUp (fun k s => t.imd.cvt (s - F i k * F j k)) j (t.imd.cvt (A i j))

theorem rec_of_crout {t : Types} {junk : ℚ} {M : ℕ} {A F : ℕ → ℕ → ℚ} {p : ℕ → ℚ}
    (h : Proof.Chol.Crout (fixedOps t junk) M A F p M) : Rec t.imd M A F (offSum t A F) p where
  pivot := h.pivot
  sum _ _ _ _ _ := rfl

theorem rep_pivot {t : Types} (hW : 1 ≤ t.imd.W) {junk : ℚ} {M : ℕ} {A F : ℕ → ℕ → ℚ} {p : ℕ → ℚ}
    (h : Proof.Chol.Crout (fixedOps t junk) M A F p M) {j : ℕ} (hj : j < M) : t.imd.Rep (p j) := by
  rw [h.pivot j hj]
  cases j <;> exact Fmt.rep_cvt hW _

theorem factor {t : Types} (hWo : 1 ≤ t.out.W) (hWi : 1 ≤ t.imd.W) (hSo : t.out.S = true) (hSi : t.imd.S = true)
    (hF : 0 ≤ t.out.F + t.imd.F) {junk : ℚ} {M : ℕ} {A F : ℕ → ℕ → ℚ} {p : ℕ → ℚ}
    (h : Proof.Chol.Crout (fixedOps t junk) M A F p M) {D lam κ B : ℚ} (hD : ∀ i < M, ∀ j < M, |A i j| ≤ D)
    (hsym : ∀ a < M, ∀ b < M, A a b = A b a)
    (hpd : ∀ x : ℕ → ℚ, lam * ∑ a ∈ range M, x a ^ 2 ≤ ∑ a ∈ range M, ∑ b ∈ range M, x a * A a b * x b)
    (hmax : 2 * D + M * 2 ^ (-t.imd.F) ≤ t.imd.maxVal)
    (hv : 2 ^ (-t.out.F) ≤ B) (hB : B ≤ t.out.maxVal) (hDB : D + M * 2 ^ (-t.imd.F) ≤ (B - 2 ^ (-t.out.F)) ^ 2)
    (hκ : 0 < κ) (hκr : 1 ≤ κ * (unsignedFmt t.imd).maxVal)
    (hκo : (2 * D + M * 2 ^ (-t.imd.F)) * (1 / κ + 2 ^ (-t.imd.F)) ≤ t.out.maxVal)
    (hlam : (κ + 2 ^ (-t.out.F)) ^ 2 + M * (bound t M D B + 2 ^ (-t.imd.F)) ≤ lam) :
    (∀ j < M, 0 < p j ∧ κ ≤ F j j ∧ F j j ≤ B) ∧
    ∀ j < M, ∀ i < M, j ≤ i → |A i j - ∑ k ∈ range (j + 1), F i k * F j k| ≤ bound t M D B := by
  rcases Nat.eq_zero_or_pos M with rfl | hM
  · exact ⟨fun j hj => absurd hj (by omega), fun j hj => absurd hj (by omega)⟩
  have hu : (0 : ℚ) < 2 ^ (-t.imd.F) := Fmt.z_pos _
  have hvp : (0 : ℚ) < 2 ^ (-t.out.F) := Fmt.z_pos _
  have hB0 : 0 < B := by linarith
  have hD0 : 0 ≤ D := (abs_nonneg _).trans (hD 0 hM 0 hM)
  have hM0 : 0 ≤ (M : ℚ) * 2 ^ (-t.imd.F) := mul_nonneg (Nat.cast_nonneg _) hu.le
  have hσ : 0 ≤ 2 ^ (-t.imd.F) * (2 * D + 2 * M * 2 ^ (-t.imd.F)) := mul_nonneg hu.le (by linarith)
  have hm1 : 0 ≤ B * 2 ^ (-t.out.F) := mul_nonneg hB0.le hvp.le
  have hm2 : 0 ≤ B * (2 ^ (-t.imd.F) * (2 * D + 2 * M * 2 ^ (-t.imd.F))) := mul_nonneg hB0.le hσ
  have hm3 : 0 ≤ B * (2 ^ (-t.imd.F) * (M * 2 ^ (-t.imd.F))) := mul_nonneg hB0.le (mul_nonneg hu.le hM0)
  have he : bound t M D B = M * 2 ^ (-t.imd.F) + 2 * (B * 2 ^ (-t.out.F)) +
      B * (2 ^ (-t.imd.F) * (2 * D + 2 * M * 2 ^ (-t.imd.F))) := by unfold bound; ring
  have he0 : 0 ≤ bound t M D B := by rw [he]; linarith
  have hlo : (κ + 2 ^ (-t.out.F)) ^ 2 ≤ lam - bound t M D B * M - M * 2 ^ (-t.imd.F) := by
    have : (M : ℚ) * (bound t M D B + 2 ^ (-t.imd.F)) = bound t M D B * M + M * 2 ^ (-t.imd.F) := by ring
    linarith
  have hk2 : 0 < (κ + 2 ^ (-t.out.F)) ^ 2 := pow_pos (by linarith) 2
  have key := apriori (f := t.imd) hWi hSi (rec_of_crout h) (D := D) (lam := lam) (κ := κ) (B := B)
    (ed := 2 * B * 2 ^ (-t.out.F)) (eo := B * (2 ^ (-t.out.F) + 2 ^ (-t.imd.F) * (2 * D + M * 2 ^ (-t.imd.F))))
    (e := bound t M D B) hD hsym hpd hmax (by
      intro j hj p0 p1
      obtain ⟨d1, d2, d3, d4, d5, d6⟩ := diag_ok hWo hWi hSo hSi (rep_pivot hWi h hj) (by linarith) hv hB (p1.trans hDB)
      have d7 := d6 κ hκ.le (by linarith)
      have e1 : F j j = imdLjj t (p j) := (h.diag j hj).trans d1
      rw [e1]
      refine ⟨d7, d4, d5, fun i hi hji hs => ?_⟩
      have hr := recip_ok hWo hWi hF junk d2 (by linarith) (hκr.trans (mul_le_mul_of_nonneg_right d7 (by
        by_contra hc
        have := mul_neg_of_pos_of_neg hκ (not_le.1 hc)
        linarith)))
      have e2 : F i j = t.out.cvt ((fixedOps t junk).recip (p j) * offSum t A F i j) := h.below j hj i hi hji
      rw [e2]
      exact off_ok (by linarith) d4 hr hs (cvt_near hWo hSo (off_range hκ d7 hr hs hκo)))
    hκ he0 (by rw [he]; linarith) (by
      rw [he]
      have : B * (2 ^ (-t.out.F) + 2 ^ (-t.imd.F) * (2 * D + M * 2 ^ (-t.imd.F))) = B * 2 ^ (-t.out.F) +
          B * (2 ^ (-t.imd.F) * (2 * D + 2 * M * 2 ^ (-t.imd.F))) - B * (2 ^ (-t.imd.F) * (M * 2 ^ (-t.imd.F))) := by ring
      linarith) (by linarith)
  refine ⟨fun j hj => ?_, key.2⟩
  obtain ⟨k1, -, k2, k3⟩ := key.1 j hj
  exact ⟨by linarith, k2, k3⟩

theorem residual {t : Types} (hWo : 1 ≤ t.out.W) (hWi : 1 ≤ t.imd.W) (hSo : t.out.S = true) (hSi : t.imd.S = true)
    (hF : 0 ≤ t.out.F + t.imd.F) (hOi : t.imd.O = .SAT ∨ t.imd.O = .SAT_SYM) {junk : ℚ} {M : ℕ} {A F : ℕ → ℕ → ℚ}
    {p : ℕ → ℚ} (h : Proof.Chol.Crout (fixedOps t junk) M A F p M) {D B : ℚ} (hD : ∀ i < M, ∀ j < M, |A i j| ≤ D)
    (hmax : 2 * D + 2 * M * 2 ^ (-t.imd.F) ≤ t.imd.maxVal)
    (hv : 2 ^ (-t.out.F) ≤ B) (hB : B ≤ t.out.maxVal) (hDB : D + M * 2 ^ (-t.imd.F) ≤ (B - 2 ^ (-t.out.F)) ^ 2)
    (hpos : ∀ j < M, 0 < p j) (hdiag : ∀ j < M, 1 ≤ F j j * (unsignedFmt t.imd).maxVal)
    (hout : (t.out.O = .SAT ∨ t.out.O = .SAT_SYM) ∨
      ∀ j < M, (2 * D + 2 * M * 2 ^ (-t.imd.F)) * (1 / F j j + 2 ^ (-t.imd.F)) ≤ t.out.maxVal) :
    ∀ j < M, ∀ i < M, j ≤ i → |A i j - ∑ k ∈ range (j + 1), F i k * F j k| ≤ bound t M D B := by
  rcases Nat.eq_zero_or_pos M with rfl | hM
  · exact fun j hj => absurd hj (by omega)
  have hu : (0 : ℚ) < 2 ^ (-t.imd.F) := Fmt.z_pos _
  have hvp : (0 : ℚ) < 2 ^ (-t.out.F) := Fmt.z_pos _
  have hB0 : 0 < B := by linarith
  have hD0 : 0 ≤ D := (abs_nonneg _).trans (hD 0 hM 0 hM)
  have hM0 : 0 ≤ (M : ℚ) * 2 ^ (-t.imd.F) := mul_nonneg (Nat.cast_nonneg _) hu.le
  have hσ : 0 ≤ 2 ^ (-t.imd.F) * (2 * D + 2 * M * 2 ^ (-t.imd.F)) := mul_nonneg hu.le (by linarith)
  have hm1 : 0 ≤ B * 2 ^ (-t.out.F) := mul_nonneg hB0.le hvp.le
  have hm2 : 0 ≤ B * (2 ^ (-t.imd.F) * (2 * D + 2 * M * 2 ^ (-t.imd.F))) := mul_nonneg hB0.le hσ
  have he : bound t M D B = M * 2 ^ (-t.imd.F) + 2 * (B * 2 ^ (-t.out.F)) +
      B * (2 ^ (-t.imd.F) * (2 * D + 2 * M * 2 ^ (-t.imd.F))) := by unfold bound; ring
  refine aposteriori (f := t.imd) hWi hSi hOi (rec_of_crout h) (D := D) (ed := 2 * B * 2 ^ (-t.out.F))
    (eo := B * (2 ^ (-t.out.F) + 2 ^ (-t.imd.F) * (2 * D + 2 * M * 2 ^ (-t.imd.F)))) hD hmax hpos ?_
    (by rw [he]; linarith) (by rw [he]; linarith)
  intro j hj p1
  obtain ⟨d1, d2, d3, d4, d5, -⟩ := diag_ok hWo hWi hSo hSi (rep_pivot hWi h hj) (hpos j hj) hv hB (p1.trans hDB)
  have e1 : F j j = imdLjj t (p j) := (h.diag j hj).trans d1
  have hdj := hdiag j hj
  have d0 : 0 < F j j := by
    rw [e1] at hdj ⊢
    rcases d3.lt_or_eq with hlt | heq
    · exact hlt
    · rw [← heq, zero_mul] at hdj; linarith
  rw [e1] at hdj d0 ⊢
  refine ⟨d5, fun i hi hji hs hf => ?_⟩
  have hr := recip_ok hWo hWi hF junk d2 d0 hdj
  have e2 : F i j = t.out.cvt ((fixedOps t junk).recip (p j) * offSum t A F i j) := h.below j hj i hi hji
  rw [e2] at hf ⊢
  refine off_ok d0 d4 hr hs ?_
  rcases hout with hO | hO
  · refine sat_near hWo hSo hO (abs_lt_of_sq_lt_sq ?_ (hB0.le.trans hB))
    have h1 : (B - 2 ^ (-t.out.F)) ^ 2 < B ^ 2 := by
      apply pow_lt_pow_left₀ <;> linarith
    have h2 : B ^ 2 ≤ t.out.maxVal ^ 2 := pow_le_pow_left₀ hB0.le hB 2
    linarith
  · have := hO j hj
    rw [e1] at this
    exact cvt_near hWo hSo (off_range d0 le_rfl hr hs this)

end Proof.CholRound
