import Verif.Proof.Chol
import Verif.Spec.CholArith
import Mathlib.Algebra.Order.Chebyshev
import Mathlib.Tactic.Linarith

/-! # Errors of the Cholesky decomposition in any arithmetic with bounded errors -/

namespace Proof.CholAny
open Ac Model.Chol Finset Spec.CholArith

/-- Sums of real or complex numbers with an error after each step. -/
theorem sum_err {E β : Type*} [NormedAddCommGroup E] {X u : ℝ} (v : β → E) (st : ℕ → β → β) (x : ℕ → E) (s₀ : β) (a : E)
    (h0 : ‖a‖ ≤ X → ‖v s₀ - a‖ ≤ u) (hs : ∀ k s, ‖v s‖ ≤ X + u → ‖v s - x k‖ ≤ X → ‖v (st k s) - (v s - x k)‖ ≤ u) (n : ℕ)
    (h : ∀ m ≤ n, ‖a - ∑ k ∈ range m, x k‖ + m * u ≤ X) :
    ‖v (forUp st n s₀) - (a - ∑ k ∈ range n, x k)‖ ≤ (n + 1) * u := by
  induction n with
  | zero =>
    have := h 0 le_rfl
    simp only [range_zero, sum_empty, sub_zero, Nat.cast_zero, zero_mul, add_zero, zero_add, one_mul] at this ⊢
    exact h0 this
  | succ n ih =>
    have i1 := ih fun m hm => h m (by omega)
    have h1 := h (n + 1) le_rfl
    rw [sum_range_succ] at h1 ⊢
    change ‖v (st n (forUp st n s₀)) - _‖ ≤ _
    generalize forUp st n s₀ = s at *
    push_cast at h1 ⊢
    have e1 : ‖v s - x n - (a - (∑ k ∈ range n, x k + x n))‖ ≤ (n + 1) * u := by
      have : v s - x n - (a - (∑ k ∈ range n, x k + x n)) = v s - (a - ∑ k ∈ range n, x k) := by abel
      rw [this]; exact i1
    have e2 : ‖v s - x n‖ ≤ X := by
      have := norm_add_le (v s - x n - (a - (∑ k ∈ range n, x k + x n))) (a - (∑ k ∈ range n, x k + x n))
      rw [sub_add_cancel] at this
      linarith
    have e0 : ‖v s‖ ≤ X + u := by
      have := norm_add_le (v s - (a - ∑ k ∈ range n, x k)) (a - ∑ k ∈ range n, x k)
      rw [sub_add_cancel] at this
      have := h n (Nat.le_succ n)
      linarith
    have e3 := hs n s e0 e2
    have := norm_add_le (v (st n s) - (v s - x n)) (v s - x n - (a - (∑ k ∈ range n, x k + x n)))
    rw [sub_add_sub_cancel] at this
    linarith

/-- Solving a triangular system. -/
theorem backsolve (T : ℕ → ℕ → ℂ) (c : ℕ) (hT : ∀ k < c, T k k ≠ 0) (w : ℕ → ℂ) :
    ∃ x : ℕ → ℂ, ∀ k < c, ∑ a ∈ range c, x a * (if k ≤ a then T a k else 0) = -w k := by
  induction c generalizing w with
  | zero => exact ⟨fun _ => 0, fun k hk => absurd hk (by omega)⟩
  | succ c ih =>
    obtain ⟨x, hx⟩ := ih (fun k hk => hT k (by omega)) fun k => w k + -w c / T c c * T c k
    refine ⟨fun a => if a = c then -w c / T c c else x a, fun k hk => ?_⟩
    beta_reduce
    rw [sum_range_succ, if_pos rfl, if_pos (show k ≤ c by omega)]
    have e : ∑ a ∈ range c, (if a = c then -w c / T c c else x a) * (if k ≤ a then T a k else 0) =
        ∑ a ∈ range c, x a * (if k ≤ a then T a k else 0) := by
      refine sum_congr rfl fun a ha => ?_
      rw [if_neg (by have := mem_range.1 ha; omega)]
    rw [e]
    rcases Nat.lt_or_ge k c with h | h
    · rw [hx k h]; ring
    · obtain rfl : k = c := by omega
      have : ∑ a ∈ range k, x a * (if k ≤ a then T a k else 0) = 0 := by
        refine sum_eq_zero fun a ha => ?_
        rw [if_neg (by have := mem_range.1 ha; omega), mul_zero]
      rw [this, zero_add, div_mul_cancel₀ _ (hT k (by omega))]

/-- A sesquilinear form with small coefficients. -/
theorem form_le {ι : Type} (s : Finset ι) (x : ι → ℂ) (E : ι → ι → ℂ) (e : ℝ) (h : ∀ a ∈ s, ∀ b ∈ s, ‖E a b‖ ≤ e) :
    ‖∑ a ∈ s, ∑ b ∈ s, star (x a) * E a b * x b‖ ≤ e * s.card * ∑ a ∈ s, ‖x a‖ ^ 2 := by
  rcases s.eq_empty_or_nonempty with rfl | ⟨a₀, ha₀⟩
  · simp
  have he : 0 ≤ e := (norm_nonneg _).trans (h a₀ ha₀ a₀ ha₀)
  have h1 : ‖∑ a ∈ s, ∑ b ∈ s, star (x a) * E a b * x b‖ ≤ ∑ a ∈ s, ∑ b ∈ s, ‖x a‖ * e * ‖x b‖ := by
    refine (norm_sum_le _ _).trans (sum_le_sum fun a ha => (norm_sum_le _ _).trans (sum_le_sum fun b hb => ?_))
    rw [norm_mul, norm_mul, norm_star]
    exact mul_le_mul_of_nonneg_right (mul_le_mul_of_nonneg_left (h a ha b hb) (norm_nonneg _)) (norm_nonneg _)
  have h2 : ∑ a ∈ s, ∑ b ∈ s, ‖x a‖ * e * ‖x b‖ = e * (∑ a ∈ s, ‖x a‖) ^ 2 := by
    rw [pow_two, sum_mul_sum, mul_sum]
    refine sum_congr rfl fun a _ => ?_
    rw [mul_sum]
    exact sum_congr rfl fun b _ => by ring
  have h3 : (∑ a ∈ s, ‖x a‖) ^ 2 ≤ s.card * ∑ a ∈ s, ‖x a‖ ^ 2 := sq_sum_le_card_mul_sum_sq
  have := mul_le_mul_of_nonneg_left h3 he
  rw [h2] at h1
  linarith

/-- The remaining pivots of a positive definite matrix whose first columns are nearly factored. -/
theorem schur {M c i : ℕ} {A F : ℕ → ℕ → ℂ} {lam e : ℝ} (hi : i < M) (hc : c ≤ i)
    (hdiag : ∀ l < c, F l l ≠ 0)
    (hsym : ∀ a < M, ∀ b < M, A a b = star (A b a))
    (hres : ∀ l < c, ∀ m < M, l ≤ m → ‖A m l - ∑ k ∈ range (l + 1), F m k * star (F l k)‖ ≤ e)
    (hpd : ∀ x : ℕ → ℂ, lam * ∑ a ∈ range M, ‖x a‖ ^ 2 ≤ (∑ a ∈ range M, ∑ b ∈ range M, star (x a) * A a b * x b).re)
    (he0 : 0 ≤ e) (he : e * (c + 1) ≤ lam) :
    lam - e * (c + 1) ≤ (A i i).re - ∑ k ∈ range c, ‖F i k‖ ^ 2 := by
  obtain ⟨x, hx⟩ := backsolve F c hdiag fun k => F i k
  have hic : i ∉ range c := fun h => absurd (mem_range.1 h) (by omega)
  set s := insert i (range c) with hs
  have hsM : s ⊆ range M := by
    intro a ha
    rcases mem_insert.1 ha with rfl | h
    · exact mem_range.2 hi
    · exact mem_range.2 (by have := mem_range.1 h; omega)
  let y : ℕ → ℂ := fun a => if a = i then 1 else if a < c then star (x a) else 0
  have y0 : ∀ a ∉ s, y a = 0 := by
    intro a ha
    have h1 : a ≠ i := fun h => ha (h ▸ mem_insert_self _ _)
    have h2 : ¬ a < c := fun h => ha (mem_insert_of_mem (mem_range.2 h))
    simp [y, h1, h2]
  have yi : y i = 1 := by simp [y]
  let G : ℕ → ℕ → ℂ := fun a k => if k ≤ a then F a k else 0
  have hG : ∀ k ∈ range c, ∑ a ∈ s, star (y a) * G a k = 0 := by
    intro k hk
    have hkc := mem_range.1 hk
    rw [hs, sum_insert hic, yi]
    have : ∑ a ∈ range c, star (y a) * G a k = ∑ a ∈ range c, x a * (if k ≤ a then F a k else 0) := by
      refine sum_congr rfl fun a ha => ?_
      have := mem_range.1 ha
      have h1 : a ≠ i := by omega
      simp [y, G, h1, this]
    rw [this, hx k hkc]
    simp only [G]
    rw [if_pos (by omega), star_one]; ring
  have hsq : ∑ a ∈ s, ∑ b ∈ s, star (y a) * (∑ k ∈ range c, G a k * star (G b k)) * y b = 0 := by
    have : ∑ a ∈ s, ∑ b ∈ s, star (y a) * (∑ k ∈ range c, G a k * star (G b k)) * y b =
        ∑ k ∈ range c, (∑ a ∈ s, star (y a) * G a k) * (∑ b ∈ s, star (G b k) * y b) := by
      simp only [sum_mul_sum]
      rw [sum_comm (s := range c)]
      refine sum_congr rfl fun a _ => ?_
      rw [sum_comm (s := range c)]
      refine sum_congr rfl fun b _ => ?_
      rw [mul_sum, sum_mul]
      exact sum_congr rfl fun k _ => by ring
    rw [this]
    exact sum_eq_zero fun k hk => by rw [hG k hk, zero_mul]
  let E : ℕ → ℕ → ℂ := fun a b => A a b - ∑ k ∈ range c, G a k * star (G b k)
  let E' : ℕ → ℕ → ℂ := fun a b => if a = i ∧ b = i then 0 else E a b
  have hlow : ∀ a ∈ s, ∀ b < c, b ≤ a → ‖E a b‖ ≤ e := by
    intro a ha b hb hba
    have haM := mem_range.1 (hsM ha)
    have : ∑ k ∈ range c, G a k * star (G b k) = ∑ k ∈ range (b + 1), F a k * star (F b k) := by
      rw [← sum_subset (range_subset_range.2 (show b + 1 ≤ c by omega))]
      · refine sum_congr rfl fun k hk => ?_
        have := mem_range.1 hk
        simp only [G]
        rw [if_pos (by omega), if_pos (by omega)]
      · intro k _ hk
        have : ¬ k < b + 1 := fun h => hk (mem_range.2 h)
        simp only [G]
        rw [if_neg (show ¬ k ≤ b by omega), star_zero, mul_zero]
    simp only [E, this]
    exact hres b hb a haM hba
  have hEs : ∀ a ∈ s, ∀ b ∈ s, E a b = star (E b a) := by
    intro a ha b hb
    simp only [E]
    rw [hsym a (mem_range.1 (hsM ha)) b (mem_range.1 (hsM hb)), star_sub, star_sum]
    congr 1
    exact sum_congr rfl fun k _ => by rw [star_mul, star_star]
  have hE' : ∀ a ∈ s, ∀ b ∈ s, ‖E' a b‖ ≤ e := by
    intro a ha b hb
    simp only [E']
    split_ifs with h
    · simpa using he0
    · rcases mem_insert.1 ha with rfl | ha'
      · rcases mem_insert.1 hb with rfl | hb'
        · exact absurd ⟨rfl, rfl⟩ h
        · have := mem_range.1 hb'
          exact hlow _ ha _ this (by omega)
      · have hac := mem_range.1 ha'
        rcases Nat.lt_or_ge b c with hbc | hbc
        · rcases le_total b a with h' | h'
          · exact hlow _ ha _ hbc h'
          · rw [hEs a ha b hb, norm_star]; exact hlow _ hb _ hac h'
        · rw [hEs a ha b hb, norm_star]; exact hlow _ hb _ hac (by omega)
  have hform := form_le s y E' e hE'
  have hcard : (s.card : ℝ) = c + 1 := by
    rw [hs, card_insert_of_notMem hic, card_range]; push_cast; rfl
  rw [hcard] at hform
  have hp := hpd y
  have e1 : ∑ a ∈ range M, ‖y a‖ ^ 2 = ∑ a ∈ s, ‖y a‖ ^ 2 :=
    (sum_subset hsM fun a _ ha => by rw [y0 a ha]; simp).symm
  have e2 : ∑ a ∈ range M, ∑ b ∈ range M, star (y a) * A a b * y b = ∑ a ∈ s, ∑ b ∈ s, star (y a) * A a b * y b := by
    rw [← sum_subset hsM fun a _ ha => sum_eq_zero fun b _ => by rw [y0 a ha]; simp]
    refine sum_congr rfl fun a _ => (sum_subset hsM fun b _ hb => by rw [y0 b hb]; simp).symm
  have e3 : ∑ a ∈ s, ∑ b ∈ s, star (y a) * A a b * y b = ∑ a ∈ s, ∑ b ∈ s, star (y a) * E a b * y b := by
    have : ∑ a ∈ s, ∑ b ∈ s, star (y a) * E a b * y b = ∑ a ∈ s, ∑ b ∈ s, star (y a) * A a b * y b -
        ∑ a ∈ s, ∑ b ∈ s, star (y a) * (∑ k ∈ range c, G a k * star (G b k)) * y b := by
      rw [← sum_sub_distrib]
      refine sum_congr rfl fun a _ => ?_
      rw [← sum_sub_distrib]
      exact sum_congr rfl fun b _ => by simp only [E]; ring
    rw [this, hsq, sub_zero]
  have his : i ∈ s := mem_insert_self _ _
  have e4 : ∑ a ∈ s, ∑ b ∈ s, star (y a) * E a b * y b = E i i + ∑ a ∈ s, ∑ b ∈ s, star (y a) * E' a b * y b := by
    have : E i i = ∑ a ∈ s, ∑ b ∈ s, if a = i ∧ b = i then E i i else 0 := by
      rw [sum_eq_single_of_mem i his fun a _ ha => sum_eq_zero fun b _ => if_neg fun h => ha h.1,
        sum_eq_single_of_mem i his fun b _ hb => if_neg fun h => hb h.2, if_pos ⟨rfl, rfl⟩]
    rw [this, ← sum_add_distrib]
    refine sum_congr rfl fun a _ => ?_
    rw [← sum_add_distrib]
    refine sum_congr rfl fun b _ => ?_
    simp only [E']
    split_ifs with h
    · rw [h.1, h.2, yi]; simp
    · ring
  have e5 : (E i i).re = (A i i).re - ∑ k ∈ range c, ‖F i k‖ ^ 2 := by
    have : ∑ k ∈ range c, G i k * star (G i k) = ((∑ k ∈ range c, ‖F i k‖ ^ 2 : ℝ) : ℂ) := by
      rw [Complex.ofReal_sum]
      refine sum_congr rfl fun k hk => ?_
      have := mem_range.1 hk
      simp only [G]
      rw [if_pos (by omega)]
      have h2 := Complex.mul_conj' (F i k)
      push_cast
      exact h2
    simp only [E]
    rw [this, Complex.sub_re, Complex.ofReal_re]
  have hy1 : 1 ≤ ∑ a ∈ s, ‖y a‖ ^ 2 := by
    have := single_le_sum (f := fun a => ‖y a‖ ^ 2) (fun a _ => sq_nonneg _) his
    simpa [yi] using this
  rw [e1, e2, e3, e4, Complex.add_re, e5] at hp
  have h1 := (Complex.re_le_norm _).trans hform
  have h2 : (lam - e * (c + 1)) * 1 ≤ (lam - e * (c + 1)) * ∑ a ∈ s, ‖y a‖ ^ 2 :=
    mul_le_mul_of_nonneg_left hy1 (by linarith)
  linarith

/-- Products of two rows. -/
theorem row_mul (a b : ℕ → ℂ) (n : ℕ) {P Q : ℝ} (ha : ∑ k ∈ range n, ‖a k‖ ^ 2 ≤ P) (hb : ∑ k ∈ range n, ‖b k‖ ^ 2 ≤ Q) :
    ‖∑ k ∈ range n, a k * star (b k)‖ ≤ (P + Q) / 2 := by
  have h : ∑ k ∈ range n, ‖a k * star (b k)‖ ≤ ∑ k ∈ range n, (‖a k‖ ^ 2 + ‖b k‖ ^ 2) * (1 / 2) := by
    refine sum_le_sum fun k _ => ?_
    rw [norm_mul, norm_star]
    nlinarith [sq_nonneg (‖a k‖ - ‖b k‖)]
  rw [← sum_mul, sum_add_distrib] at h
  have := norm_sum_le (range n) (fun k => a k * star (b k))
  linarith

variable {α τ σd σ ρ : Type}

theorem apriori {o : Ops α τ σd σ ρ} {M : ℕ} {A : Mem α} {F : Mem τ} {p : ℕ → σd} (hr : Proof.Chol.Crout o M A F p M)
    {va : α → ℂ} {vt : τ → ℂ} {vd : σd → ℝ} {vs : σ → ℂ} {ok : σd → Prop} {X u D lam κ B ed eo e : ℝ}
    (ha : Accurate o va vt vd vs ok X u (lam - e * M - M * u) (D + M * u) (2 * D + M * u) κ B ed eo)
    (hD : ∀ i < M, ∀ j < M, ‖va (A i j)‖ ≤ D)
    (hsym : ∀ a < M, ∀ b < M, va (A a b) = star (va (A b a)))
    (hpd : ∀ x : ℕ → ℂ, lam * ∑ a ∈ range M, ‖x a‖ ^ 2 ≤
      (∑ a ∈ range M, ∑ b ∈ range M, star (x a) * va (A a b) * x b).re)
    (hu : 0 ≤ u) (hmax : 2 * D + M * u ≤ X)
    (hκ : 0 < κ) (he0 : 0 ≤ e) (hed : M * u + ed ≤ e) (heo : M * u + eo ≤ e)
    (hlam : e * M + M * u ≤ lam) :
    (∀ j < M, lam - e * M - M * u ≤ vd (p j) ∧ vd (p j) ≤ D + M * u ∧ ∃ d : ℝ, vt (F j j) = d ∧ κ ≤ d ∧ d ≤ B) ∧
    ∀ j < M, ∀ i < M, j ≤ i → ‖va (A i j) - ∑ k ∈ range (j + 1), vt (F i k) * star (vt (F j k))‖ ≤ e := by
  suffices H : ∀ c ≤ M, ∀ j < c,
      (lam - e * M - M * u ≤ vd (p j) ∧ vd (p j) ≤ D + M * u ∧ ∃ d : ℝ, vt (F j j) = d ∧ κ ≤ d ∧ d ≤ B) ∧
      ∀ i < M, j ≤ i → ‖va (A i j) - ∑ k ∈ range (j + 1), vt (F i k) * star (vt (F j k))‖ ≤ e from
    ⟨fun j hj => (H M le_rfl j hj).1, fun j hj => (H M le_rfl j hj).2⟩
  intro c
  induction c with
  | zero => intro _ j hj; omega
  | succ c ih =>
    intro hc j hj
    have ih := ih (by omega)
    rcases Nat.lt_succ_iff_lt_or_eq.1 hj with hj | rfl
    · exact ih j hj
    have hjM : (j : ℝ) + 1 ≤ M := by exact_mod_cast hc
    have hju : ((j : ℝ) + 1) * u ≤ M * u := mul_le_mul_of_nonneg_right hjM hu
    have hje : e * ((j : ℝ) + 1) ≤ e * M := mul_le_mul_of_nonneg_left hjM he0
    have hM0 : 0 ≤ (M : ℝ) * u := mul_nonneg (Nat.cast_nonneg _) hu
    have hq : ∀ i < M, j ≤ i → lam - e * M ≤ (va (A i i)).re - ∑ k ∈ range j, ‖vt (F i k)‖ ^ 2 := by
      intro i hi hji
      have := schur (M := M) (c := j) (i := i) (A := fun a b => va (A a b)) (F := fun a b => vt (F a b)) (lam := lam) (e := e)
        hi hji
        (fun l hl => by
          obtain ⟨d, h1, h2, -⟩ := (ih l hl).1.2.2
          rw [h1]
          exact Complex.ofReal_ne_zero.2 (by linarith)) hsym
        (fun l hl m hm hlm => (ih l hl).2 m hm hlm) hpd he0 (by linarith)
      linarith
    have hmono : ∀ i, ∀ m ≤ j, ∑ k ∈ range m, ‖vt (F i k)‖ ^ 2 ≤ ∑ k ∈ range j, ‖vt (F i k)‖ ^ 2 := fun i m hm =>
      sum_le_sum_of_subset_of_nonneg (range_subset_range.2 hm) fun k _ _ => sq_nonneg _
    have hnn : ∀ i m, 0 ≤ ∑ k ∈ range m, ‖vt (F i k)‖ ^ 2 := fun i m => sum_nonneg fun k _ => sq_nonneg _
    have hre : ∀ i < M, (va (A i i)).re ≤ D := fun i hi => (Complex.re_le_norm _).trans (hD i hi i hi)
    have hrow : ∀ i < M, j ≤ i → ∀ m ≤ j, ∑ k ∈ range m, ‖vt (F i k)‖ ^ 2 ≤ D := by
      intro i hi hji m hm
      have h1 := hq i hi hji
      have h2 := hmono i m hm
      have h3 := hre i hi
      linarith
    have hmu : ∀ m ≤ j, (m : ℝ) * u ≤ M * u := fun m hm =>
      mul_le_mul_of_nonneg_right (by exact_mod_cast (show m ≤ M by omega)) hu
    have hD0 : 0 ≤ D := (norm_nonneg _).trans (hD j hc j hc)
    -- the pivot
    have hpe := sum_err (E := ℝ) (X := X) (u := u) vd (fun k s => o.dStep s (F j k)) (fun k => ‖vt (F j k)‖ ^ 2)
      (o.dInit (A j j)) (va (A j j)).re (fun _ => ha.dInit _ (by have := hD j hc j hc; linarith))
      (fun k s hs' hs => ha.dStep s (F j k) hs' hs) j (by
        intro m hm
        have h1 := hq j hc le_rfl
        have h2 := hmono j m hm
        have h3 := hre j hc
        have h4 := hnn j m
        have h5 := hmu m hm
        rw [Real.norm_eq_abs, abs_of_nonneg (by linarith)]
        linarith)
    rw [← hr.pivot j hc, Real.norm_eq_abs] at hpe
    have hpe' := abs_le.1 (hpe.trans hju)
    have h1 := hq j hc le_rfl
    have h3 := hre j hc
    have h4 := hnn j j
    have plo : lam - e * M - M * u ≤ vd (p j) := by linarith
    have phi : vd (p j) ≤ D + M * u := by linarith
    have hok : ok (p j) := by
      rw [hr.pivot j hc]
      cases j
      · exact ha.okInit _
      · exact ha.okStep _ _
    obtain ⟨d, c0, c1, c2, c3⟩ := ha.diag _ hok plo phi
    have hdj : vt (F j j) = d := by rw [hr.diag j hc, c0]
    refine ⟨⟨plo, phi, d, hdj, c1, c2⟩, fun i hi hji => ?_⟩
    rw [sum_range_succ]
    rcases Nat.lt_or_ge j i with hlt | hge
    · have hx : ∀ m ≤ j, ‖va (A i j) - ∑ k ∈ range m, vt (F i k) * star (vt (F j k))‖ ≤ 2 * D := by
        intro m hm
        have h5 := row_mul (fun k => vt (F i k)) (fun k => vt (F j k)) m (hrow i hi hji m hm) (hrow j hc le_rfl m hm)
        have := norm_sub_le (va (A i j)) (∑ k ∈ range m, vt (F i k) * star (vt (F j k)))
        have := hD i hi j hc
        linarith
      have hse := sum_err (E := ℂ) (X := X) (u := u) vs (fun k s => o.oStep s (F i k) (F j k))
        (fun k => vt (F i k) * star (vt (F j k))) (o.oInit (A i j)) (va (A i j))
        (fun h => ha.oInit _ h) (fun k s hs' hs => ha.oStep s (F i k) (F j k) hs' hs) j (by
          intro m hm
          have := hx m hm
          have := hmu m hm
          linarith)
      have hse' := hse.trans hju
      have hFij := hr.below j hc i hi hlt
      generalize forUp (fun k s => o.oStep s (F i k) (F j k)) j (o.oInit (A i j)) = S at *
      have hb : ‖vs S‖ ≤ 2 * D + M * u := by
        have := hx j le_rfl
        have h7 := norm_add_le (vs S - (va (A i j) - ∑ k ∈ range j, vt (F i k) * star (vt (F j k))))
          (va (A i j) - ∑ k ∈ range j, vt (F i k) * star (vt (F j k)))
        rw [sub_add_cancel] at h7
        linarith
      have h8 := ha.off _ S hok plo phi hb
      rw [← hFij, ← hr.diag j hc, hdj] at h8
      rw [hdj]
      have e1 : star ((d : ℝ) : ℂ) = d := Complex.conj_ofReal d
      rw [e1]
      have h9 := norm_add_le (vs S - (va (A i j) - ∑ k ∈ range j, vt (F i k) * star (vt (F j k)))) (vt (F i j) * d - vs S)
      rw [← norm_neg]
      have : -(va (A i j) - (∑ k ∈ range j, vt (F i k) * star (vt (F j k)) + vt (F i j) * d)) =
          vs S - (va (A i j) - ∑ k ∈ range j, vt (F i k) * star (vt (F j k))) + (vt (F i j) * d - vs S) := by ring
      rw [this]
      linarith
    · obtain rfl : i = j := by omega
      have him : va (A i i) = ((va (A i i)).re : ℂ) := by
        have := hsym i hi i hi
        have h2 := (Complex.conj_eq_iff_re.1 this.symm)
        exact h2.symm
      have e1 : ∑ k ∈ range i, vt (F i k) * star (vt (F i k)) = ((∑ k ∈ range i, ‖vt (F i k)‖ ^ 2 : ℝ) : ℂ) := by
        rw [Complex.ofReal_sum]
        refine sum_congr rfl fun k _ => ?_
        have h2 := Complex.mul_conj' (vt (F i k))
        push_cast
        exact h2
      have e2 : star ((d : ℝ) : ℂ) = d := Complex.conj_ofReal d
      rw [hdj, e1, e2, him, ← Complex.ofReal_mul, ← Complex.ofReal_add, ← Complex.ofReal_sub, Complex.norm_real,
        Real.norm_eq_abs, ← pow_two, abs_le]
      obtain ⟨a1, a2⟩ := abs_le.1 c3
      constructor <;> linarith

end Proof.CholAny
