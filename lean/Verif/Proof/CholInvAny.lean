import Verif.Spec.CholInvArith
import Verif.Proof.CholInv
import Verif.Proof.CholAny

/-! # Rounding errors of ac_cholinv for any accurate arithmetic -/

namespace Proof.CholInvAny
open Ac Model.CholInv Finset Spec.CholInvArith Proof.CholInv

theorem cauchy (s : Finset ℕ) (a b : ℕ → ℂ) {P Q : ℝ} (hP : 0 ≤ P) (hQ : 0 ≤ Q) (ha : ∑ k ∈ s, ‖a k‖ ^ 2 ≤ P ^ 2)
    (hb : ∑ k ∈ s, ‖b k‖ ^ 2 ≤ Q ^ 2) : ‖∑ k ∈ s, a k * b k‖ ≤ P * Q := by
  have h1 : ‖∑ k ∈ s, a k * b k‖ ≤ ∑ k ∈ s, ‖a k‖ * ‖b k‖ :=
    (norm_sum_le _ _).trans (le_of_eq (sum_congr rfl fun k _ => norm_mul _ _))
  have h2 := sum_mul_sq_le_sq_mul_sq s (fun k => ‖a k‖) (fun k => ‖b k‖)
  have h3 := mul_le_mul ha hb (sum_nonneg fun k _ => sq_nonneg _) (sq_nonneg P)
  refine h1.trans (le_of_sq_le_sq ?_ (mul_nonneg hP hQ))
  rw [mul_pow]; exact h2.trans h3

theorem norm_add {s : Finset ℕ} {a b : ℕ → ℂ} {P Q : ℝ} (hP : 0 ≤ P) (hQ : 0 ≤ Q) (ha : ∑ k ∈ s, ‖a k‖ ^ 2 ≤ P ^ 2)
    (hb : ∑ k ∈ s, ‖b k‖ ^ 2 ≤ Q ^ 2) : ∑ k ∈ s, ‖a k + b k‖ ^ 2 ≤ (P + Q) ^ 2 := by
  have h1 : ∑ k ∈ s, ‖a k + b k‖ ^ 2 ≤ ∑ k ∈ s, (‖a k‖ ^ 2 + ‖b k‖ ^ 2 + 2 * (‖a k‖ * ‖b k‖)) := by
    refine sum_le_sum fun k _ => ?_
    have := pow_le_pow_left₀ (norm_nonneg _) (norm_add_le (a k) (b k)) 2
    refine this.trans (le_of_eq ?_)
    ring
  rw [sum_add_distrib, sum_add_distrib, ← mul_sum] at h1
  have h2 := sum_mul_sq_le_sq_mul_sq s (fun k => ‖a k‖) (fun k => ‖b k‖)
  have h3 := mul_le_mul ha hb (sum_nonneg fun k _ => sq_nonneg _) (sq_nonneg P)
  have h4 : ∑ k ∈ s, ‖a k‖ * ‖b k‖ ≤ P * Q := le_of_sq_le_sq (by rw [mul_pow]; exact h2.trans h3) (mul_nonneg hP hQ)
  have e : (P + Q) ^ 2 = P ^ 2 + Q ^ 2 + 2 * (P * Q) := by ring
  rw [e]
  linarith

theorem norm_small {M : ℕ} {a : ℕ → ℂ} {f : ℝ} (hf : 0 ≤ f) (h : ∀ k < M, ‖a k‖ ≤ f) : ∑ k ∈ range M, ‖a k‖ ^ 2 ≤ (M * f) ^ 2 := by
  have h1 : ∑ k ∈ range M, ‖a k‖ ^ 2 ≤ ∑ _k ∈ range M, f ^ 2 :=
    sum_le_sum fun k hk => pow_le_pow_left₀ (norm_nonneg _) (h k (mem_range.1 hk)) 2
  rw [sum_const, card_range, nsmul_eq_mul] at h1
  refine h1.trans ?_
  rw [mul_pow]
  refine mul_le_mul_of_nonneg_right ?_ (sq_nonneg f)
  have : M ≤ M ^ 2 := by rw [pow_two]; exact Nat.le_mul_self M
  exact_mod_cast this

theorem norm_unit {M i : ℕ} : ∑ k ∈ range M, ‖(if k = i then 1 else 0 : ℂ)‖ ^ 2 ≤ (1 : ℝ) ^ 2 := by
  have : ∀ k ∈ range M, ‖(if k = i then 1 else 0 : ℂ)‖ ^ 2 = if k = i then (1 : ℝ) else 0 := by
    intro k _
    split_ifs <;> simp
  rw [sum_congr rfl this, sum_ite_eq']
  split_ifs <;> norm_num

/-- A lower triangular matrix without zeros on the diagonal. -/
structure Low (M : ℕ) (L : ℕ → ℕ → ℂ) : Prop where
  tri : ∀ a < M, ∀ k < M, a < k → L a k = 0
  diag : ∀ a < M, L a a ≠ 0

/-- Forward substitution. -/
theorem Low.solve {M : ℕ} {L : ℕ → ℕ → ℂ} (h : Low M L) (w : ℕ → ℂ) :
    ∃ y : ℕ → ℂ, ∀ a < M, ∑ k ∈ range M, L a k * y k = w a := by
  have key : ∀ c ≤ M, ∃ y : ℕ → ℂ, ∀ a < c, ∑ k ∈ range c, L a k * y k = w a := by
    intro c
    induction c with
    | zero => intro _; exact ⟨fun _ => 0, fun a ha => absurd ha (by omega)⟩
    | succ c ih =>
      intro hc
      obtain ⟨y, hy⟩ := ih (by omega)
      refine ⟨fun k => if k = c then (w c - ∑ k ∈ range c, L c k * y k) / L c c else y k, fun a ha => ?_⟩
      rw [sum_range_succ]
      have e : ∑ k ∈ range c, L a k * (if k = c then (w c - ∑ k ∈ range c, L c k * y k) / L c c else y k) =
          ∑ k ∈ range c, L a k * y k := by
        refine sum_congr rfl fun k hk => ?_
        rw [if_neg (by have := mem_range.1 hk; omega)]
      rw [e]
      beta_reduce
      rw [if_pos rfl]
      rcases Nat.lt_or_ge a c with h1 | h1
      · rw [h.tri a (by omega) c (by omega) h1, zero_mul, add_zero, hy a h1]
      · obtain rfl : a = c := by omega
        rw [mul_div_cancel₀ _ (h.diag a (by omega))]
        ring
  exact key M le_rfl

/-- A bound on the inverse of the transpose bounds the inverse. -/
theorem Low.bound {M : ℕ} {L : ℕ → ℕ → ℂ} (h : Low M L) {g : ℝ} (hg : 0 ≤ g)
    (hx : ∀ x : ℕ → ℂ, ∑ a ∈ range M, ‖x a‖ ^ 2 ≤ g ^ 2 * ∑ k ∈ range M, ‖∑ a ∈ range M, x a * L a k‖ ^ 2) (z : ℕ → ℂ)
    {Y : ℝ} (hY : 0 ≤ Y) (hz : ∑ a ∈ range M, ‖∑ k ∈ range M, L a k * z k‖ ^ 2 ≤ Y ^ 2) :
    ∑ k ∈ range M, ‖z k‖ ^ 2 ≤ (g * Y) ^ 2 := by
  obtain ⟨x, hx'⟩ := Proof.CholAny.backsolve L M h.diag fun k => -star (z k)
  have hx2 : ∀ k < M, ∑ a ∈ range M, x a * L a k = star (z k) := by
    intro k hk
    rw [← neg_neg (star (z k)), ← hx' k hk]
    refine sum_congr rfl fun a ha => ?_
    split_ifs with h1
    · rfl
    · rw [h.tri a (mem_range.1 ha) k hk (by omega)]
  set Z := Real.sqrt (∑ k ∈ range M, ‖z k‖ ^ 2) with hZ
  have Z0 : 0 ≤ Z := Real.sqrt_nonneg _
  have Z2 : Z ^ 2 = ∑ k ∈ range M, ‖z k‖ ^ 2 := Real.sq_sqrt (sum_nonneg fun k _ => sq_nonneg _)
  have n1 : ∑ a ∈ range M, ‖x a‖ ^ 2 ≤ (g * Z) ^ 2 := by
    refine (hx x).trans (le_of_eq ?_)
    rw [mul_pow, Z2]
    congr 1
    refine sum_congr rfl fun k hk => ?_
    rw [hx2 k (mem_range.1 hk), norm_star]
  have e : ((∑ k ∈ range M, ‖z k‖ ^ 2 : ℝ) : ℂ) = ∑ a ∈ range M, x a * ∑ k ∈ range M, L a k * z k := by
    have e1 : ∑ a ∈ range M, x a * ∑ k ∈ range M, L a k * z k = ∑ k ∈ range M, star (z k) * z k := by
      simp only [mul_sum]
      rw [sum_comm]
      refine sum_congr rfl fun k hk => ?_
      rw [← hx2 k (mem_range.1 hk), sum_mul]
      exact sum_congr rfl fun a _ => by ring
    rw [e1]
    push_cast
    refine sum_congr rfl fun k _ => ?_
    exact (Complex.conj_mul' _).symm
  have n2 := cauchy (range M) x _ (mul_nonneg hg Z0) hY n1 hz
  rw [← e, Complex.norm_real, Real.norm_eq_abs, abs_of_nonneg (sum_nonneg fun k _ => sq_nonneg _), ← Z2] at n2
  rw [← Z2]
  refine pow_le_pow_left₀ Z0 ?_ 2
  rcases eq_or_lt_of_le Z0 with h0 | h0
  · rw [← h0]; exact mul_nonneg hg hY
  · have : Z * Z ≤ Z * (g * Y) := by rw [← pow_two]; linarith
    exact le_of_mul_le_mul_left this h0

/-- The norm of a column of the inverse, as far as it has been computed. -/
theorem Low.lead {M : ℕ} {L : ℕ → ℕ → ℂ} (h : Low M L) {g : ℝ} (hg : 0 ≤ g)
    (hx : ∀ x : ℕ → ℂ, ∑ a ∈ range M, ‖x a‖ ^ 2 ≤ g ^ 2 * ∑ k ∈ range M, ‖∑ a ∈ range M, x a * L a k‖ ^ 2)
    {i j : ℕ} (hj : j ≤ M) {f : ℝ} (hf : 0 ≤ f) {n : ℕ → ℂ} (hn : ∀ a < j, ‖∑ k ∈ range j, L a k * n k - (if a = i then 1 else 0)‖ ≤ f) :
    ∑ k ∈ range j, ‖n k‖ ^ 2 ≤ (g * (1 + M * f)) ^ 2 := by
  obtain ⟨y, hy⟩ := h.solve fun a => if a < j then ∑ k ∈ range j, L a k * n k else 0
  have sub : range j ⊆ range M := range_subset_range.2 hj
  have same : ∀ k < j, y k = n k := by
    intro k
    induction k using Nat.strong_induction_on with
    | _ k ih =>
      intro hk
      have h1 := hy k (by omega)
      rw [if_pos hk] at h1
      have cut : ∀ (m : ℕ) (z : ℕ → ℂ), k < m → m ≤ M → ∑ l ∈ range m, L k l * z l = ∑ l ∈ range (k + 1), L k l * z l := by
        intro m z hm hm'
        rw [← sum_subset (range_subset_range.2 (show k + 1 ≤ m by omega))]
        intro l hl hl'
        have h2 := mem_range.1 hl
        have h3 : ¬ l < k + 1 := fun h => hl' (mem_range.2 h)
        rw [h.tri k (by omega) l (by omega) (by omega), zero_mul]
      rw [cut M y (by omega) le_rfl, cut j n hk hj, sum_range_succ, sum_range_succ] at h1
      have h2 : ∑ l ∈ range k, L k l * y l = ∑ l ∈ range k, L k l * n l :=
        sum_congr rfl fun l hl => by have := mem_range.1 hl; rw [ih l this (by omega)]
      rw [h2] at h1
      exact mul_left_cancel₀ (h.diag k (by omega)) (add_left_cancel h1)
  have h1 : ∑ k ∈ range j, ‖n k‖ ^ 2 ≤ ∑ k ∈ range M, ‖y k‖ ^ 2 := by
    have : ∑ k ∈ range j, ‖n k‖ ^ 2 = ∑ k ∈ range j, ‖y k‖ ^ 2 :=
      sum_congr rfl fun k hk => by rw [same k (mem_range.1 hk)]
    rw [this]
    exact sum_le_sum_of_subset_of_nonneg sub fun k _ _ => sq_nonneg _
  have mf : 0 ≤ (M : ℝ) * f := mul_nonneg (Nat.cast_nonneg _) hf
  refine h1.trans (h.bound hg hx y (show 0 ≤ 1 + (M : ℝ) * f by linarith) ?_)
  have h2 := norm_add (s := range M) (a := fun a => if a = i ∧ a < j then (1 : ℂ) else 0)
    (b := fun a => if a < j then ∑ k ∈ range j, L a k * n k - (if a = i then 1 else 0) else 0) zero_le_one mf ?_ ?_
  · refine le_trans (le_of_eq (sum_congr rfl fun a ha => ?_)) h2
    rw [hy a (mem_range.1 ha)]
    congr 2
    by_cases h3 : a < j
    · simp only [h3, and_true, if_true]
      ring
    · simp only [h3, and_false, if_false, add_zero]
  · refine le_trans (sum_le_sum fun a _ => ?_) (norm_unit (M := M) (i := i))
    by_cases h3 : a = i
    · simp only [h3, true_and, if_true]
      split_ifs <;> simp
    · simp [h3]
  · refine norm_small hf fun a _ => ?_
    split_ifs with h3 h4
    · have := hn a h3; rwa [if_pos h4] at this
    · have := hn a h3; rwa [if_neg h4] at this
    · rw [norm_zero]; exact hf

variable {τ ω : Type}

/-- The sum for an element of the inverse. -/
theorem sum_near {o : Ops τ ω} {vt : τ → ℂ} {vo : ω → ℂ} {ok : τ → Prop} {X Xo u uo κ B θ : ℝ}
    (ha : Accurate o vt vo ok X Xo u uo κ B θ) (hu : 0 ≤ u) (L N : Mem τ) {i j M : ℕ} (hj : j < M) {Y : ℝ}
    (hY : ∀ m ≤ j, ‖∑ k ∈ range m, vt (L j k) * (if i ≤ k then vt (N k i) else 0)‖ ≤ Y) (hX : Y + (M + 1) * u ≤ X) :
    ‖vt (sumOf o L N i j) - ∑ k ∈ range j, vt (L j k) * (if i ≤ k then vt (N k i) else 0)‖ ≤ (M + 1) * u := by
  have hM : (j : ℝ) + 1 ≤ M := by exact_mod_cast hj
  have hm : ∀ m ≤ j, (m : ℝ) * u ≤ (M + 1) * u := fun m hm =>
    mul_le_mul_of_nonneg_right (by have : (m : ℝ) ≤ j := by exact_mod_cast hm
                                   linarith) hu
  have h1 := Proof.CholAny.sum_err (X := X) (u := u) vt (fun k s => if i ≤ k then o.acc s (L j k) (N k i) else o.acc0 s)
    (fun k => -(vt (L j k) * (if i ≤ k then vt (N k i) else 0))) o.zero 0 (fun _ => by rw [ha.zero, sub_zero, norm_zero]; exact hu)
    (fun k s _ h => by
      beta_reduce at h ⊢
      by_cases hik : i ≤ k
      · simp only [if_pos hik, sub_neg_eq_add] at h ⊢
        exact ha.acc _ _ _ h
      · simp only [if_neg hik, mul_zero, neg_zero, sub_zero] at h ⊢
        exact ha.acc0 _ h) j (fun m h => by
      rw [zero_sub, norm_neg, sum_neg_distrib, norm_neg]
      have := hY m h
      have := hm m h
      linarith)
  rw [zero_sub, sum_neg_distrib, neg_neg] at h1
  unfold sumOf
  generalize forUp (fun k s => if i ≤ k then o.acc s (L j k) (N k i) else o.acc0 s) j o.zero = s at h1 ⊢
  have hY' := hY j le_rfl
  generalize ∑ k ∈ range j, vt (L j k) * (if i ≤ k then vt (N k i) else 0) = S at h1 hY' ⊢
  have h3 : ((j : ℝ) + 1) * u ≤ M * u := mul_le_mul_of_nonneg_right hM hu
  have e : ((M : ℝ) + 1) * u = M * u + u := by ring
  have h4 : ‖vt s‖ ≤ X := by
    have : ‖vt s‖ ≤ ‖vt s - S‖ + ‖S‖ := by simpa using norm_add_le (vt s - S) S
    linarith
  have h5 := ha.acc0 s h4
  have h6 : ‖vt (o.acc0 s) - S‖ ≤ ‖vt (o.acc0 s) - vt s‖ + ‖vt s - S‖ := by
    simpa using norm_add_le (vt (o.acc0 s) - vt s) (vt s - S)
  linarith

/-- What is known of the triangular factor. -/
structure Factor (M : ℕ) (L : ℕ → ℕ → ℂ) (g R κ B : ℝ) : Prop where
  tri : ∀ a < M, ∀ k < M, a < k → L a k = 0
  diag : ∀ a < M, ∃ d : ℝ, L a a = d ∧ κ ≤ d ∧ d ≤ B
  pos : 0 < κ
  g0 : 0 ≤ g
  R0 : 0 ≤ R
  inv : ∀ x : ℕ → ℂ, ∑ a ∈ range M, ‖x a‖ ^ 2 ≤ g ^ 2 * ∑ k ∈ range M, ‖∑ a ∈ range M, x a * L a k‖ ^ 2
  row : ∀ a < M, ∑ k ∈ range M, ‖L a k‖ ^ 2 ≤ R ^ 2

theorem Factor.low {M : ℕ} {L : ℕ → ℕ → ℂ} {g R κ B : ℝ} (h : Factor M L g R κ B) : Low M L :=
  ⟨h.tri, fun a ha => by
    obtain ⟨d, h1, h2, -⟩ := h.diag a ha
    have := h.pos
    rw [h1]
    exact_mod_cast (show d ≠ 0 by linarith)⟩

/-- Rows of `L*N` up to row `j`. -/
theorem residual {o : Ops τ ω} {vt : τ → ℂ} {vo : ω → ℂ} {ok : τ → Prop} {X Xo u uo κ B θ : ℝ}
    (ha : Accurate o vt vo ok X Xo u uo κ B θ) (hu : 0 ≤ u) {L N : Mem τ} {i M : ℕ} (hi : i < M) {g R f ν : ℝ}
    (hL : Factor M (fun a k => vt (L a k)) g R κ B) (hok : ∀ a < M, ok (L a a)) (hθ : 0 ≤ θ)
    (hf : (M + 1) * u + θ * (R * ν + (M + 1) * u) + B * u ≤ f) (hf' : θ ≤ f) (hν : g * (1 + M * f) ≤ ν)
    (hX : R * ν + (M + 1) * u ≤ X) (hX' : ν ≤ X) (hN : Col o L N i M) :
    ∀ j, i < j → j ≤ M → ∀ a < j,
      ‖∑ k ∈ range j, vt (L a k) * (if i ≤ k then vt (N k i) else 0) - (if a = i then 1 else 0)‖ ≤ f := by
  have hf0 : 0 ≤ f := hθ.trans hf'
  have hg := hL.g0
  have hR := hL.R0
  have mf : 0 ≤ (M : ℝ) * f := mul_nonneg (Nat.cast_nonneg _) hf0
  have hν0 : 0 ≤ ν := (mul_nonneg hg (by linarith)).trans hν
  have hB0 : 0 ≤ B := by
    obtain ⟨d, -, h2, h3⟩ := hL.diag i hi
    have := hL.pos
    linarith
  have M0 : (0 : ℝ) ≤ M := Nat.cast_nonneg _
  have Mu : 0 ≤ ((M : ℝ) + 1) * u := mul_nonneg (by linarith) hu
  intro j
  induction j with
  | zero => intro h; omega
  | succ j ih =>
    intro hij hj a haj
    rcases Nat.eq_or_lt_of_le (show i ≤ j by omega) with rfl | hlt
    · -- the first element of the column
      have e : ∑ k ∈ range (i + 1), vt (L a k) * (if i ≤ k then vt (N k i) else 0) = vt (L a i) * vt (N i i) := by
        rw [sum_range_succ, if_pos le_rfl, sum_eq_zero, zero_add]
        intro k hk
        rw [if_neg (by have := mem_range.1 hk; omega), mul_zero]
      rw [e]
      rcases Nat.eq_or_lt_of_le (show a ≤ i by omega) with rfl | h1
      · obtain ⟨d, h2, h3, h4⟩ := hL.diag a hi
        have h5 := ha.recip (L a a) d (hok a hi) h2 h3 h4
        rw [if_pos rfl, hN.1, mul_comm]
        beta_reduce at h2
        rw [h2]
        exact h5.trans hf'
      · have := hL.tri a (by omega) i hi h1
        beta_reduce at this
        rw [this, zero_mul, if_neg (by omega), sub_zero, norm_zero]
        exact hf0
    · have ih' := ih hlt (by omega)
      rw [sum_range_succ, if_pos hlt.le]
      rcases Nat.lt_or_ge a j with h1 | h1
      · have := hL.tri a (by omega) j (by omega) h1
        beta_reduce at this
        rw [this, zero_mul, add_zero]
        exact ih' a h1
      · obtain rfl : a = j := by omega
        rw [if_neg (by omega), sub_zero]
        have n1 : ∑ k ∈ range a, ‖(if i ≤ k then vt (N k i) else 0 : ℂ)‖ ^ 2 ≤ ν ^ 2 :=
          (hL.low.lead hg hL.inv (show a ≤ M by omega) hf0 ih').trans
            (pow_le_pow_left₀ (mul_nonneg hg (by linarith)) hν 2)
        have hY : ∀ m ≤ a, ‖∑ k ∈ range m, vt (L a k) * (if i ≤ k then vt (N k i) else 0)‖ ≤ R * ν := by
          intro m hm
          refine cauchy (range m) _ _ hR hν0 ?_ ?_
          · exact (sum_le_sum_of_subset_of_nonneg (range_subset_range.2 (show m ≤ M by omega)) fun k _ _ => sq_nonneg _).trans
              (hL.row a (by omega))
          · exact (sum_le_sum_of_subset_of_nonneg (range_subset_range.2 hm) fun k _ _ => sq_nonneg _).trans n1
        have n2 := sum_near ha hu L N (show a < M by omega) hY hX
        have n3 := hY a le_rfl
        obtain ⟨d, h2, h3, h4⟩ := hL.diag a (by omega)
        have h5 := ha.recip (L a a) d (hok a (by omega)) h2 h3 h4
        have d0 : 0 ≤ d := hL.pos.le.trans h3
        rw [hN.2 a (by omega) hlt]
        beta_reduce at h2
        generalize hs : sumOf o L N i a = s at n2 ⊢
        generalize hr : o.recip (L a a) = r at h5 ⊢
        -- the residual before the product is rounded
        have n4 : ‖∑ k ∈ range a, vt (L a k) * (if i ≤ k then vt (N k i) else 0) + vt (L a a) * -(vt s * vt r)‖ ≤
            (M + 1) * u + θ * (R * ν + (M + 1) * u) := by
          rw [h2]
          generalize ∑ k ∈ range a, vt (L a k) * (if i ≤ k then vt (N k i) else 0) = S at n2 n3 ⊢
          have e : S + (d : ℂ) * -(vt s * vt r) = -(vt s - S) + -(vt s * (vt r * d - 1)) := by ring
          rw [e]
          refine (norm_add_le _ _).trans ?_
          rw [norm_neg, norm_neg, norm_mul]
          have h7 : ‖vt s‖ ≤ R * ν + (M + 1) * u := by
            have : ‖vt s‖ ≤ ‖vt s - S‖ + ‖S‖ := by simpa using norm_add_le (vt s - S) S
            linarith
          have h8 := mul_le_mul h7 h5 (norm_nonneg _) ((norm_nonneg _).trans h7)
          linarith
        have Bu : 0 ≤ B * u := mul_nonneg hB0 hu
        -- so the product is bounded
        have n5 : ‖vt s * vt r‖ ≤ ν := by
          have h7 := hL.low.lead hg hL.inv (show a + 1 ≤ M by omega) (i := i) hf0
            (n := fun k => if k = a then -(vt s * vt r) else if i ≤ k then vt (N k i) else 0) (fun b hb => by
              rw [sum_range_succ]
              beta_reduce
              rw [if_pos rfl]
              have e : ∑ k ∈ range a, vt (L b k) * (if k = a then -(vt s * vt r) else if i ≤ k then vt (N k i) else 0) =
                  ∑ k ∈ range a, vt (L b k) * (if i ≤ k then vt (N k i) else 0) :=
                sum_congr rfl fun k hk => by rw [if_neg (by have := mem_range.1 hk; omega)]
              rw [e]
              rcases Nat.lt_or_ge b a with h1 | h1
              · have := hL.tri b (by omega) a (by omega) h1
                beta_reduce at this
                rw [this, zero_mul, add_zero]
                exact ih' b h1
              · obtain rfl : b = a := by omega
                rw [if_neg (by omega), sub_zero]
                linarith)
          rw [sum_range_succ] at h7
          have h8 : 0 ≤ ∑ k ∈ range a, ‖(if k = a then -(vt s * vt r) else if i ≤ k then vt (N k i) else 0 : ℂ)‖ ^ 2 :=
            sum_nonneg fun k _ => sq_nonneg _
          beta_reduce at h7
          rw [if_pos rfl, norm_neg] at h7
          have h9 : ‖vt s * vt r‖ ^ 2 ≤ (g * (1 + M * f)) ^ 2 := by linarith
          exact (le_of_sq_le_sq h9 (mul_nonneg hg (by linarith))).trans hν
        have n6 := ha.negMul s r (n5.trans hX')
        have e : ∑ k ∈ range a, vt (L a k) * (if i ≤ k then vt (N k i) else 0) + vt (L a a) * vt (o.negMul s r) =
            (∑ k ∈ range a, vt (L a k) * (if i ≤ k then vt (N k i) else 0) + vt (L a a) * -(vt s * vt r)) +
              vt (L a a) * (vt (o.negMul s r) + vt s * vt r) := by ring
        rw [e]
        refine (norm_add_le _ _).trans ?_
        rw [norm_mul]
        have h7 : ‖vt (L a a)‖ ≤ B := by rw [h2, Complex.norm_real, Real.norm_eq_abs, abs_of_nonneg d0]; exact h4
        have h8 := mul_le_mul h7 n6 (norm_nonneg _) hB0
        linarith

/-- The factor of a positive definite matrix. -/
theorem factor {M : ℕ} {A L : ℕ → ℕ → ℂ} {D lam e g R κ B : ℝ} (tri : ∀ a < M, ∀ k < M, a < k → L a k = 0)
    (diag : ∀ a < M, ∃ d : ℝ, L a a = d ∧ κ ≤ d ∧ d ≤ B) (hκ : 0 < κ) (hg : 0 ≤ g) (hR : 0 ≤ R)
    (hA : ∀ i < M, ∀ j < M, ‖A i j - ∑ k ∈ range M, L i k * star (L j k)‖ ≤ e) (hD : ∀ i < M, ‖A i i‖ ≤ D)
    (hpd : ∀ x : ℕ → ℂ, lam * ∑ i ∈ range M, ‖x i‖ ^ 2 ≤ (∑ i ∈ range M, ∑ j ∈ range M, star (x i) * A i j * x j).re)
    (hlam : 1 ≤ g ^ 2 * (lam - e * M)) (hR' : D + e ≤ R ^ 2) : Factor M L g R κ B := by
  refine ⟨tri, diag, hκ, hg, hR, fun x => ?_, fun a ha => ?_⟩
  · have h1 := hpd fun a => star (x a)
    have h2 := Proof.CholAny.form_le (range M) (fun a => star (x a)) (fun i j => A i j - ∑ k ∈ range M, L i k * star (L j k)) e
      fun a ha b hb => hA a (mem_range.1 ha) b (mem_range.1 hb)
    have e1 : (∑ i ∈ range M, ∑ j ∈ range M, star (star (x i)) * A i j * star (x j)) =
        (∑ i ∈ range M, ∑ j ∈ range M, star (star (x i)) * (A i j - ∑ k ∈ range M, L i k * star (L j k)) * star (x j)) +
          ((∑ k ∈ range M, ‖∑ a ∈ range M, x a * L a k‖ ^ 2 : ℝ) : ℂ) := by
      have e2 : ((∑ k ∈ range M, ‖∑ a ∈ range M, x a * L a k‖ ^ 2 : ℝ) : ℂ) =
          ∑ i ∈ range M, ∑ j ∈ range M, star (star (x i)) * (∑ k ∈ range M, L i k * star (L j k)) * star (x j) := by
        have e3 : ((∑ k ∈ range M, ‖∑ a ∈ range M, x a * L a k‖ ^ 2 : ℝ) : ℂ) =
            ∑ k ∈ range M, ∑ i ∈ range M, ∑ j ∈ range M, x i * L i k * star (x j * L j k) := by
          push_cast
          refine sum_congr rfl fun k _ => ?_
          rw [← Complex.mul_conj', map_sum, sum_mul_sum]
          rfl
        rw [e3, sum_comm]
        refine sum_congr rfl fun i _ => ?_
        rw [sum_comm]
        refine sum_congr rfl fun j _ => ?_
        rw [mul_sum, sum_mul]
        refine sum_congr rfl fun k _ => ?_
        simp only [star_mul', star_star]
        ring
      rw [e2, ← sum_add_distrib]
      refine sum_congr rfl fun i _ => ?_
      rw [← sum_add_distrib]
      exact sum_congr rfl fun j _ => by ring
    beta_reduce at h1 h2
    rw [e1, Complex.add_re, Complex.ofReal_re] at h1
    have h3 := (Complex.re_le_norm _).trans h2
    rw [card_range] at h3
    simp only [norm_star] at h1 h3
    have h4 : (lam - e * M) * ∑ a ∈ range M, ‖x a‖ ^ 2 ≤ ∑ k ∈ range M, ‖∑ a ∈ range M, x a * L a k‖ ^ 2 := by
      rw [sub_mul]
      linarith
    have h5 := mul_le_mul_of_nonneg_left h4 (sq_nonneg g)
    have h6 := mul_le_mul_of_nonneg_right hlam (sum_nonneg fun a (_ : a ∈ range M) => sq_nonneg ‖x a‖)
    rw [one_mul, mul_assoc] at h6
    exact h6.trans h5
  · have h1 := hA a ha a ha
    have e1 : ((∑ k ∈ range M, ‖L a k‖ ^ 2 : ℝ) : ℂ) = ∑ k ∈ range M, L a k * star (L a k) := by
      push_cast
      exact sum_congr rfl fun k _ => (Complex.mul_conj' _).symm
    rw [← e1] at h1
    have h2 : ‖((∑ k ∈ range M, ‖L a k‖ ^ 2 : ℝ) : ℂ)‖ ≤ ‖A a a‖ + ‖A a a - ((∑ k ∈ range M, ‖L a k‖ ^ 2 : ℝ) : ℂ)‖ := by
      have := norm_sub_le (A a a) (A a a - ((∑ k ∈ range M, ‖L a k‖ ^ 2 : ℝ) : ℂ))
      rwa [sub_sub_cancel] at this
    rw [Complex.norm_real, Real.norm_eq_abs, abs_of_nonneg (sum_nonneg fun k _ => sq_nonneg _)] at h2
    have := hD a ha
    linarith

theorem inner_star {s : Finset ℕ} {a b : ℕ → ℂ} {P Q : ℝ} (hP : 0 ≤ P) (hQ : 0 ≤ Q) (ha : ∑ k ∈ s, ‖a k‖ ^ 2 ≤ P ^ 2)
    (hb : ∑ k ∈ s, ‖b k‖ ^ 2 ≤ Q ^ 2) : ‖∑ k ∈ s, star (a k) * b k‖ ≤ P * Q :=
  cauchy s (fun k => star (a k)) b hP hQ (by simpa only [norm_star] using ha) hb

/-- Approximate columns of the inverse of the factor give the inverse of the matrix. -/
theorem inverse {M : ℕ} {A L N Z : ℕ → ℕ → ℂ} {lam e g R κ B f : ℝ} (hL : Factor M L g R κ B) (hf : 0 ≤ f)
    (hl : 0 < lam) (he : 0 ≤ e)
    (hA : ∀ i < M, ∀ j < M, ‖A i j - ∑ k ∈ range M, L i k * star (L j k)‖ ≤ e)
    (hpd : ∀ x : ℕ → ℂ, lam * ∑ i ∈ range M, ‖x i‖ ^ 2 ≤ (∑ i ∈ range M, ∑ j ∈ range M, star (x i) * A i j * x j).re)
    (hZ : ∀ i < M, ∀ j < M, ∑ k ∈ range M, A i k * Z k j = if i = j then 1 else 0)
    (hN : ∀ i < M, ∀ a < M, ‖∑ k ∈ range M, L a k * N k i - (if a = i then 1 else 0)‖ ≤ f) {i j : ℕ} (hi : i < M) (hj : j < M) :
    ‖∑ k ∈ range M, star (N k i) * N k j - Z i j‖ ≤ g ^ 2 * (2 * (M * f) + (M * f) ^ 2) + g ^ 2 * (M * e / lam) := by
  have hg := hL.g0
  have mf : 0 ≤ (M : ℝ) * f := mul_nonneg (Nat.cast_nonneg _) hf
  have gmf := mul_nonneg hg mf
  have low := hL.low
  have sol : ∀ c, ∃ y : ℕ → ℂ, ∀ a < M, ∑ k ∈ range M, L a k * y k = if a = c then 1 else 0 := fun c => low.solve _
  have gn : ∀ {c : ℕ} {y : ℕ → ℂ}, (∀ a < M, ∑ k ∈ range M, L a k * y k = if a = c then 1 else 0) →
      ∑ k ∈ range M, ‖y k‖ ^ 2 ≤ g ^ 2 := by
    intro c y hy
    have := low.bound hg hL.inv y zero_le_one (le_trans (le_of_eq (sum_congr rfl fun a ha => by rw [hy a (mem_range.1 ha)])) norm_unit)
    rwa [mul_one] at this
  have hn : ∀ {c : ℕ} {y : ℕ → ℂ}, c < M → (∀ a < M, ∑ k ∈ range M, L a k * y k = if a = c then 1 else 0) →
      ∑ k ∈ range M, ‖N k c - y k‖ ^ 2 ≤ (g * (M * f)) ^ 2 := by
    intro c y hc hy
    refine low.bound hg hL.inv (fun k => N k c - y k) mf (norm_small hf fun a ha => ?_)
    have : ∑ k ∈ range M, L a k * (N k c - y k) = ∑ k ∈ range M, L a k * N k c - ∑ k ∈ range M, L a k * y k := by
      rw [← sum_sub_distrib]
      exact sum_congr rfl fun k _ => by ring
    rw [this, hy a ha]
    exact hN c hc a ha
  obtain ⟨y, hy⟩ := sol i
  obtain ⟨z, hz⟩ := sol j
  -- the column of the inverse
  have xn : ∑ k ∈ range M, ‖Z k j‖ ^ 2 ≤ (1 / lam) ^ 2 := by
    have h1 := hpd fun k => Z k j
    have h2 : ∑ a ∈ range M, ∑ b ∈ range M, star (Z a j) * A a b * Z b j = star (Z j j) := by
      have : ∀ a ∈ range M, ∑ b ∈ range M, star (Z a j) * A a b * Z b j = if a = j then star (Z a j) else 0 := by
        intro a ha
        have e : ∑ b ∈ range M, star (Z a j) * A a b * Z b j = star (Z a j) * ∑ b ∈ range M, A a b * Z b j := by
          rw [mul_sum]
          exact sum_congr rfl fun b _ => by ring
        rw [e, hZ a (mem_range.1 ha) j hj]
        split_ifs
        · rw [mul_one]
        · rw [mul_zero]
      rw [sum_congr rfl this, sum_ite_eq', if_pos (mem_range.2 hj)]
    rw [h2] at h1
    have h3 := h1.trans (Complex.re_le_norm _)
    rw [norm_star] at h3
    set S := Real.sqrt (∑ k ∈ range M, ‖Z k j‖ ^ 2) with hS
    have S0 : 0 ≤ S := Real.sqrt_nonneg _
    have S2 : S ^ 2 = ∑ k ∈ range M, ‖Z k j‖ ^ 2 := Real.sq_sqrt (sum_nonneg fun k _ => sq_nonneg _)
    have h4 : ‖Z j j‖ ≤ S := by
      refine le_of_sq_le_sq ?_ S0
      rw [S2]
      exact single_le_sum (f := fun k => ‖Z k j‖ ^ 2) (fun k _ => sq_nonneg _) (mem_range.2 hj)
    rw [← S2] at h3 ⊢
    refine pow_le_pow_left₀ S0 ?_ 2
    rw [le_div_iff₀ hl]
    rcases eq_or_lt_of_le S0 with h0 | h0
    · rw [← h0, zero_mul]; exact zero_le_one
    · have h5 : S * (S * lam) ≤ S * 1 := by
        have : S * (S * lam) = lam * S ^ 2 := by ring
        rw [this, mul_one]
        exact h3.trans h4
      exact le_of_mul_le_mul_left h5 h0
  -- Lᴴ times it
  have il : 0 ≤ 1 / lam := by rw [one_div]; exact (inv_pos.2 hl).le
  let q : ℕ → ℂ := fun k => ∑ a ∈ range M, star (L a k) * Z a j
  have hq : ∀ a < M, ‖∑ k ∈ range M, L a k * (q k - z k)‖ ≤ e * ∑ b ∈ range M, ‖Z b j‖ := by
    intro a ha
    have e1 : ∑ k ∈ range M, L a k * (q k - z k) = ∑ b ∈ range M, (∑ k ∈ range M, L a k * star (L b k) - A a b) * Z b j := by
      have e2 : ∑ k ∈ range M, L a k * (q k - z k) = ∑ k ∈ range M, L a k * q k - ∑ k ∈ range M, L a k * z k := by
        rw [← sum_sub_distrib]
        exact sum_congr rfl fun k _ => by ring
      have e3 : ∑ k ∈ range M, L a k * q k = ∑ b ∈ range M, (∑ k ∈ range M, L a k * star (L b k)) * Z b j := by
        simp only [q, mul_sum, sum_mul]
        rw [sum_comm]
        exact sum_congr rfl fun b _ => sum_congr rfl fun k _ => by ring
      rw [e2, e3, hz a ha, ← hZ a ha j hj, ← sum_sub_distrib]
      exact sum_congr rfl fun b _ => by ring
    rw [e1, mul_sum]
    refine (norm_sum_le _ _).trans (sum_le_sum fun b hb => ?_)
    rw [norm_mul]
    refine mul_le_mul_of_nonneg_right ?_ (norm_nonneg _)
    rw [norm_sub_rev]
    exact hA a ha b (mem_range.1 hb)
  have l1 : ∑ b ∈ range M, ‖Z b j‖ ≤ Real.sqrt M * (1 / lam) := by
    have h1 := sum_mul_sq_le_sq_mul_sq (range M) (fun _ => (1 : ℝ)) (fun k => ‖Z k j‖)
    simp only [one_mul, one_pow, sum_const, card_range, nsmul_eq_mul, mul_one] at h1
    refine le_of_sq_le_sq ?_ (mul_nonneg (Real.sqrt_nonneg _) il)
    rw [mul_pow, Real.sq_sqrt (Nat.cast_nonneg _)]
    exact h1.trans (mul_le_mul_of_nonneg_left xn (Nat.cast_nonneg _))
  have kn : ∑ k ∈ range M, ‖q k - z k‖ ^ 2 ≤ (g * (M * e / lam)) ^ 2 := by
    refine low.bound hg hL.inv (fun k => q k - z k) (div_nonneg (mul_nonneg (Nat.cast_nonneg _) he) hl.le) ?_
    have h1 : ∑ a ∈ range M, ‖∑ k ∈ range M, L a k * (q k - z k)‖ ^ 2 ≤ ∑ _a ∈ range M, (e * (Real.sqrt M * (1 / lam))) ^ 2 :=
      sum_le_sum fun a ha => pow_le_pow_left₀ (norm_nonneg _) ((hq a (mem_range.1 ha)).trans (mul_le_mul_of_nonneg_left l1 he)) 2
    rw [sum_const, card_range, nsmul_eq_mul] at h1
    refine h1.trans (le_of_eq ?_)
    rw [mul_pow, mul_pow, Real.sq_sqrt (Nat.cast_nonneg _)]
    ring
  -- the element of the inverse
  have eZ : Z i j = ∑ k ∈ range M, star (y k) * q k := by
    have : ∑ k ∈ range M, star (y k) * q k = ∑ a ∈ range M, star (∑ k ∈ range M, L a k * y k) * Z a j := by
      simp only [q, mul_sum, star_sum, sum_mul]
      rw [sum_comm]
      refine sum_congr rfl fun a _ => sum_congr rfl fun k _ => ?_
      simp only [star_mul']
      ring
    rw [this]
    have h1 : ∀ a ∈ range M, star (∑ k ∈ range M, L a k * y k) * Z a j = if a = i then Z a j else 0 := by
      intro a ha
      rw [hy a (mem_range.1 ha)]
      split_ifs
      · rw [star_one, one_mul]
      · rw [star_zero, zero_mul]
    rw [sum_congr rfl h1, sum_ite_eq', if_pos (mem_range.2 hi)]
  have eN : ∑ k ∈ range M, star (N k i) * N k j - Z i j =
      ∑ k ∈ range M, star (N k i - y k) * z k + ∑ k ∈ range M, star (y k) * (N k j - z k) +
        ∑ k ∈ range M, star (N k i - y k) * (N k j - z k) - ∑ k ∈ range M, star (y k) * (q k - z k) := by
    rw [eZ, ← sum_sub_distrib, ← sum_add_distrib, ← sum_add_distrib, ← sum_sub_distrib]
    refine sum_congr rfl fun k _ => ?_
    simp only [star_sub]
    ring
  have c1 := inner_star gmf hg (hn hi hy) (gn hz)
  have c2 := inner_star hg gmf (gn hy) (hn hj hz)
  have c3 := inner_star gmf gmf (hn hi hy) (hn hj hz)
  have c4 := inner_star hg (mul_nonneg hg (div_nonneg (mul_nonneg (Nat.cast_nonneg _) he) hl.le)) (gn hy) kn
  rw [eN]
  refine (norm_sub_le _ _).trans ?_
  have c5 := norm_add_le (∑ k ∈ range M, star (N k i - y k) * z k + ∑ k ∈ range M, star (y k) * (N k j - z k))
    (∑ k ∈ range M, star (N k i - y k) * (N k j - z k))
  have c6 := norm_add_le (∑ k ∈ range M, star (N k i - y k) * z k) (∑ k ∈ range M, star (y k) * (N k j - z k))
  have e1 : g ^ 2 * (2 * (M * f) + (M * f) ^ 2) + g ^ 2 * (M * e / lam) = g * (M * f) * g + g * (g * (M * f)) +
    g * (M * f) * (g * (M * f)) + g * (g * (M * e / lam)) := by ring
  rw [e1]
  linarith

/-- The sum for an element of the result. -/
theorem prod_near {o : Ops τ ω} {vt : τ → ℂ} {vo : ω → ℂ} {ok : τ → Prop} {X Xo u uo κ B θ : ℝ}
    (ha : Accurate o vt vo ok X Xo u uo κ B θ) (hu : 0 ≤ u) {N : Mem τ} {i j M : ℕ} {ν : ℝ} (hν : 0 ≤ ν)
    (hi : ∑ k ∈ range M, ‖(if i ≤ k then vt (N k i) else 0 : ℂ)‖ ^ 2 ≤ ν ^ 2)
    (hj : ∑ k ∈ range M, ‖(if j ≤ k then vt (N k j) else 0 : ℂ)‖ ^ 2 ≤ ν ^ 2) (hX : ν * ν + M * u ≤ X) :
    ‖vt (prodOf o M N i j) - ∑ k ∈ range M, star (if i ≤ k then vt (N k i) else 0) * (if j ≤ k then vt (N k j) else 0)‖ ≤ (M + 1) * u := by
  have h1 := Proof.CholAny.sum_err (X := X) (u := u) vt
    (fun k s => if k < j ∨ k < i then o.acc0 s else o.accC s (N k i) (N k j))
    (fun k => -(star (if i ≤ k then vt (N k i) else 0) * (if j ≤ k then vt (N k j) else 0))) o.zero 0
    (fun _ => by rw [ha.zero, sub_zero, norm_zero]; exact hu)
    (fun k s _ h => by
      beta_reduce at h ⊢
      by_cases hk : k < j ∨ k < i
      · have e : star (if i ≤ k then vt (N k i) else 0) * (if j ≤ k then vt (N k j) else 0) = 0 := by
          rcases hk with h' | h'
          · rw [if_neg (c := j ≤ k) (by omega), mul_zero]
          · rw [if_neg (c := i ≤ k) (by omega), star_zero, zero_mul]
        rw [if_pos hk]
        rw [e, neg_zero, sub_zero] at h ⊢
        exact ha.acc0 _ h
      · rw [if_neg hk]
        rw [if_pos (show i ≤ k by omega), if_pos (show j ≤ k by omega), sub_neg_eq_add] at h ⊢
        exact ha.accC _ _ _ h) M (fun m hm => by
      rw [zero_sub, norm_neg, sum_neg_distrib, norm_neg]
      have h2 : (m : ℝ) * u ≤ M * u := mul_le_mul_of_nonneg_right (by exact_mod_cast hm) hu
      have sub : range m ⊆ range M := range_subset_range.2 hm
      have := inner_star hν hν ((sum_le_sum_of_subset_of_nonneg sub fun k _ _ => sq_nonneg _).trans hi)
        ((sum_le_sum_of_subset_of_nonneg sub fun k _ _ => sq_nonneg _).trans hj)
      linarith)
  rw [zero_sub, sum_neg_distrib, neg_neg] at h1
  exact h1

/-- The inverse and the final product, for a given factor. -/
theorem run {o : Ops τ ω} {vt : τ → ℂ} {vo : ω → ℂ} {ok : τ → Prop} {X Xo u uo κ B θ : ℝ}
    (ha : Accurate o vt vo ok X Xo u uo κ B θ) (hu : 0 ≤ u) {L : Mem τ} {M : ℕ} {A Z : ℕ → ℕ → ℂ} {lam e g R f ν : ℝ}
    (hL : Factor M (fun a k => vt (L a k)) g R κ B) (hok : ∀ a < M, ok (L a a)) (hθ : 0 ≤ θ)
    (hf : (M + 1) * u + θ * (R * ν + (M + 1) * u) + B * u ≤ f) (hf' : θ ≤ f) (hν : g * (1 + M * f) ≤ ν)
    (hX : R * ν + (M + 1) * u ≤ X) (hX' : ν ≤ X) (hX2 : ν * ν + M * u ≤ X) (hXo : ν * ν + (M + 1) * u ≤ Xo)
    (hl : 0 < lam) (he : 0 ≤ e)
    (hA : ∀ i < M, ∀ j < M, ‖A i j - ∑ k ∈ range M, vt (L i k) * star (vt (L j k))‖ ≤ e)
    (hpd : ∀ x : ℕ → ℂ, lam * ∑ i ∈ range M, ‖x i‖ ^ 2 ≤ (∑ i ∈ range M, ∑ j ∈ range M, star (x i) * A i j * x j).re)
    (hZ : ∀ i < M, ∀ j < M, ∑ k ∈ range M, A i k * Z k j = if i = j then 1 else 0) (V : Mem ω) :
    ∃ W, ((columns o M L).bind fun N => product o M N V) = some W ∧ (∀ i < M, ∀ j < M, ‖vo (W i j) - Z i j‖ ≤
        uo + (M + 1) * u + g ^ 2 * (2 * (M * f) + (M * f) ^ 2) + g ^ 2 * (M * e / lam)) ∧
      ∀ i j, ¬ (i < M ∧ j < M) → W i j = V i j := by
  obtain ⟨N, F, h1, h2, h3⟩ := columns_eq o M L
  refine ⟨_, by rw [h1, Option.bind_some, product_eq o h3], fun i hi j hj => ?_, fun i j h => if_neg h⟩
  beta_reduce
  rw [if_pos ⟨hi, hj⟩]
  have hf0 : 0 ≤ f := hθ.trans hf'
  have mf : 0 ≤ (M : ℝ) * f := mul_nonneg (Nat.cast_nonneg _) hf0
  have gmf : 0 ≤ g * (1 + M * f) := mul_nonneg hL.g0 (by linarith)
  have hν0 : 0 ≤ ν := gmf.trans hν
  have hres : ∀ c < M, ∀ a < M,
      ‖∑ k ∈ range M, vt (L a k) * (if c ≤ k then vt (F k c) else 0) - (if a = c then 1 else 0)‖ ≤ f := fun c hc =>
    residual ha hu hc hL hok hθ hf hf' hν hX hX' (h2 c hc) M hc le_rfl
  have hcol : ∀ c < M, ∑ k ∈ range M, ‖(if c ≤ k then vt (F k c) else 0 : ℂ)‖ ^ 2 ≤ ν ^ 2 := fun c hc =>
    (hL.low.lead hL.g0 hL.inv le_rfl hf0 (hres c hc)).trans (pow_le_pow_left₀ gmf hν 2)
  have p1 := prod_near ha hu hν0 (hcol i hi) (hcol j hj) hX2
  have p2 := inverse (N := fun k c => if c ≤ k then vt (F k c) else 0) hL hf0 hl he hA hpd hZ hres hi hj
  have p3 := inner_star hν0 hν0 (hcol i hi) (hcol j hj)
  beta_reduce at p2
  generalize ∑ k ∈ range M, star (if i ≤ k then vt (F k i) else 0) * (if j ≤ k then vt (F k j) else 0) = P at p1 p2 p3
  generalize prodOf o M F i j = s at p1 ⊢
  have p4 : ‖vt s‖ ≤ ‖vt s - P‖ + ‖P‖ := by simpa using norm_add_le (vt s - P) P
  have p5 := ha.out s (by linarith)
  have p6 : ‖vo (o.out s) - Z i j‖ ≤ ‖vo (o.out s) - vt s‖ + ‖vt s - P‖ + ‖P - Z i j‖ := by
    have e : vo (o.out s) - Z i j = (vo (o.out s) - vt s) + (vt s - P) + (P - Z i j) := by ring
    rw [e]
    have := norm_add_le ((vo (o.out s) - vt s) + (vt s - P)) (P - Z i j)
    have := norm_add_le (vo (o.out s) - vt s) (vt s - P)
    linarith
  linarith

end Proof.CholInvAny
