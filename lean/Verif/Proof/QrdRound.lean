import Verif.Spec.QrdArith
import Mathlib.Tactic.Linarith
import Mathlib.Tactic.LinearCombination
import Mathlib.Algebra.Order.BigOperators.Group.Finset

/-! # Errors of the QR decomposition in any arithmetic with bounded errors -/

namespace Proof.QrdRound
open Ac Model.QrdFixed Finset Spec.QrdArith

/-- Change of an inner product in one step. -/
noncomputable def drift (ε u a b : ℝ) : ℝ := ε * (a * b) + 2 * u * (a + b) + 2 * u ^ 2

theorem cs_two {a b c d P Q : ℝ} (hP : 0 ≤ P) (hQ : 0 ≤ Q) (h1 : a ^ 2 + b ^ 2 ≤ P ^ 2) (h2 : c ^ 2 + d ^ 2 ≤ Q ^ 2) :
    a * c + b * d ≤ P * Q := by
  have h : (a * c + b * d) ^ 2 ≤ (P * Q) ^ 2 := by
    have e : (a * c + b * d) ^ 2 = (a ^ 2 + b ^ 2) * (c ^ 2 + d ^ 2) - (a * d - b * c) ^ 2 := by ring
    have := mul_le_mul h1 h2 (by positivity) (by positivity)
    have := sq_nonneg (a * d - b * c)
    rw [mul_pow]
    linarith
  exact le_of_sq_le_sq h (mul_nonneg hP hQ)

theorem nsq (z : ℂ) : star z * z = ((‖z‖ ^ 2 : ℝ) : ℂ) := by
  have := Complex.conj_mul' z
  rw [Complex.ofReal_pow]; exact this

theorem gram_two {c s x0 x1 y0 y1 d0 d1 e0 e1 : ℂ} {ε u P Q : ℝ} (hcs : |‖c‖ ^ 2 + ‖s‖ ^ 2 - 1| ≤ ε) (hε : ε ≤ 1)
    (hP : 0 ≤ P) (hQ : 0 ≤ Q) (hx : ‖x0‖ ^ 2 + ‖x1‖ ^ 2 ≤ P ^ 2) (hy : ‖y0‖ ^ 2 + ‖y1‖ ^ 2 ≤ Q ^ 2)
    (hd0 : ‖d0‖ ≤ u) (hd1 : ‖d1‖ ≤ u) (he0 : ‖e0‖ ≤ u) (he1 : ‖e1‖ ≤ u) :
    ‖(star (star c * x0 - star s * x1 + d0) * (star c * y0 - star s * y1 + e0) +
      star (c * x1 + s * x0 + d1) * (c * y1 + s * y0 + e1)) - (star x0 * y0 + star x1 * y1)‖ ≤ drift ε u P Q := by
  have hu : 0 ≤ u := (norm_nonneg _).trans hd0
  obtain ⟨-, hc2⟩ := abs_le.1 hcs
  have size : ∀ x0 x1 : ℂ, ∀ P : ℝ, 0 ≤ P → ‖x0‖ ^ 2 + ‖x1‖ ^ 2 ≤ P ^ 2 →
      ‖star c * x0 - star s * x1‖ + ‖c * x1 + s * x0‖ ≤ 2 * P := by
    intro x0 x1 P hP hx
    have e : ‖star c * x0 - star s * x1‖ ^ 2 + ‖c * x1 + s * x0‖ ^ 2 = (‖c‖ ^ 2 + ‖s‖ ^ 2) * (‖x0‖ ^ 2 + ‖x1‖ ^ 2) := by
      have : ((‖star c * x0 - star s * x1‖ ^ 2 + ‖c * x1 + s * x0‖ ^ 2 : ℝ) : ℂ) =
          ((‖c‖ ^ 2 + ‖s‖ ^ 2) * (‖x0‖ ^ 2 + ‖x1‖ ^ 2) : ℝ) := by
        rw [Complex.ofReal_add, Complex.ofReal_mul, Complex.ofReal_add, Complex.ofReal_add, ← nsq, ← nsq, ← nsq, ← nsq, ← nsq, ← nsq]
        simp only [star_sub, star_add, star_mul', star_star]
        ring
      exact_mod_cast this
    have h2 : (‖c‖ ^ 2 + ‖s‖ ^ 2) * (‖x0‖ ^ 2 + ‖x1‖ ^ 2) ≤ 2 * P ^ 2 :=
      mul_le_mul (by linarith) hx (by positivity) (by norm_num)
    refine le_of_sq_le_sq ?_ (by linarith)
    have := sq_nonneg (‖star c * x0 - star s * x1‖ - ‖c * x1 + s * x0‖)
    generalize ‖star c * x0 - star s * x1‖ = p at *
    generalize ‖c * x1 + s * x0‖ = q at *
    nlinarith
  have sx := size x0 x1 P hP hx
  have sy := size y0 y1 Q hQ hy
  have e : (star (star c * x0 - star s * x1 + d0) * (star c * y0 - star s * y1 + e0) +
      star (c * x1 + s * x0 + d1) * (c * y1 + s * y0 + e1)) - (star x0 * y0 + star x1 * y1) =
      ((‖c‖ ^ 2 + ‖s‖ ^ 2 - 1 : ℝ) : ℂ) * (star x0 * y0 + star x1 * y1) +
      (star (star c * x0 - star s * x1) * e0 + star (c * x1 + s * x0) * e1) +
      (star d0 * (star c * y0 - star s * y1) + star d1 * (c * y1 + s * y0)) + (star d0 * e0 + star d1 * e1) := by
    rw [Complex.ofReal_sub, Complex.ofReal_add, ← nsq, ← nsq, Complex.ofReal_one]
    simp only [star_sub, star_add, star_mul', star_star]
    ring
  have n1 : ‖((‖c‖ ^ 2 + ‖s‖ ^ 2 - 1 : ℝ) : ℂ) * (star x0 * y0 + star x1 * y1)‖ ≤ ε * (P * Q) := by
    rw [norm_mul, Complex.norm_real, Real.norm_eq_abs]
    refine mul_le_mul hcs ?_ (norm_nonneg _) ((abs_nonneg _).trans hcs)
    refine (norm_add_le _ _).trans ?_
    rw [norm_mul, norm_mul, norm_star, norm_star]
    exact cs_two hP hQ hx hy
  have two : ∀ a b c d : ℂ, ∀ S : ℝ, ‖a‖ + ‖b‖ ≤ S → ‖c‖ ≤ u → ‖d‖ ≤ u → ‖star a * c + star b * d‖ ≤ S * u := by
    intro a b c d S h1 h2 h3
    refine (norm_add_le _ _).trans ?_
    rw [norm_mul, norm_mul, norm_star, norm_star]
    have h4 := mul_le_mul_of_nonneg_left h2 (norm_nonneg a)
    have h5 := mul_le_mul_of_nonneg_left h3 (norm_nonneg b)
    have h6 := mul_le_mul_of_nonneg_right h1 hu
    linarith
  have two' : ∀ a b c d : ℂ, ∀ S : ℝ, ‖a‖ + ‖b‖ ≤ S → ‖c‖ ≤ u → ‖d‖ ≤ u → ‖star c * a + star d * b‖ ≤ S * u := by
    intro a b c d S h1 h2 h3
    have := two a b c d S h1 h2 h3
    rw [← norm_star] at this
    simpa [star_add, star_mul', mul_comm] using this
  have n2 := two _ _ e0 e1 _ sx he0 he1
  have n3 := two' _ _ d0 d1 _ sy hd0 hd1
  have n4 := two d0 d1 e0 e1 (u + u) (by linarith) he0 he1
  rw [e]
  refine (norm_add_le _ _).trans ?_
  have m1 := norm_add₃_le (a := ((‖c‖ ^ 2 + ‖s‖ ^ 2 - 1 : ℝ) : ℂ) * (star x0 * y0 + star x1 * y1))
    (b := star (star c * x0 - star s * x1) * e0 + star (c * x1 + s * x0) * e1)
    (c := star d0 * (star c * y0 - star s * y1) + star d1 * (c * y1 + s * y0))
  unfold drift
  linarith

/-- One rotation of the rows `r` and `r+1` with errors up to `u`. -/
structure Turn (n r : ℕ) (c s : ℂ) (u : ℝ) (z z' : ℕ → ℕ → ℂ) : Prop where
  same : ∀ i j, i ≠ r → i ≠ r + 1 → z' i j = z i j
  row0 : ∀ j < n, ‖z' r j - (star c * z r j - star s * z (r + 1) j)‖ ≤ u
  row1 : ∀ j < n, ‖z' (r + 1) j - (c * z (r + 1) j + s * z r j)‖ ≤ u

theorem split_two {E : Type*} [AddCommMonoid E] {t : Finset ℕ} {r : ℕ} (h0 : r ∈ t) (h1 : r + 1 ∈ t) (f : ℕ → E) :
    ∑ i ∈ t, f i = ∑ i ∈ (t.erase (r + 1)).erase r, f i + f r + f (r + 1) := by
  rw [← sum_erase_add t f h1, ← sum_erase_add (t.erase (r + 1)) f (mem_erase.2 ⟨by omega, h0⟩)]

theorem gram_step {n r : ℕ} {c s : ℂ} {u ε P Q : ℝ} {z z' : ℕ → ℕ → ℂ} (ht : Turn n r c s u z z')
    (hcs : |‖c‖ ^ 2 + ‖s‖ ^ 2 - 1| ≤ ε) (hε : ε ≤ 1) (hP : 0 ≤ P) (hQ : 0 ≤ Q) {t : Finset ℕ} (h0 : r ∈ t) (h1 : r + 1 ∈ t)
    {j k : ℕ} (hj : j < n) (hk : k < n) (hx : ∑ i ∈ t, ‖z i j‖ ^ 2 ≤ P ^ 2) (hy : ∑ i ∈ t, ‖z i k‖ ^ 2 ≤ Q ^ 2) :
    ‖∑ i ∈ t, star (z' i j) * z' i k - ∑ i ∈ t, star (z i j) * z i k‖ ≤ drift ε u P Q := by
  have two : ∀ j P, ∑ i ∈ t, ‖z i j‖ ^ 2 ≤ P ^ 2 → ‖z r j‖ ^ 2 + ‖z (r + 1) j‖ ^ 2 ≤ P ^ 2 := by
    intro j P h
    rw [split_two h0 h1] at h
    have : 0 ≤ ∑ i ∈ (t.erase (r + 1)).erase r, ‖z i j‖ ^ 2 := sum_nonneg fun i _ => by positivity
    linarith
  have key := gram_two hcs hε hP hQ (two j P hx) (two k Q hy) (ht.row0 j hj) (ht.row1 j hj) (ht.row0 k hk) (ht.row1 k hk)
  rw [split_two h0 h1, split_two h0 h1 fun i => star (z i j) * z i k]
  have e : ∑ i ∈ (t.erase (r + 1)).erase r, star (z' i j) * z' i k = ∑ i ∈ (t.erase (r + 1)).erase r, star (z i j) * z i k := by
    refine sum_congr rfl fun i hi => ?_
    obtain ⟨h2, h3⟩ := mem_erase.1 hi
    have h4 := (mem_erase.1 h3).1
    rw [ht.same i j h2 h4, ht.same i k h2 h4]
  rw [e]
  simp only [add_sub_cancel] at key
  refine le_of_eq_of_le (congrArg norm ?_) key
  ring

theorem gram_self (t : Finset ℕ) (z : ℕ → ℂ) : ∑ i ∈ t, star (z i) * z i = ((∑ i ∈ t, ‖z i‖ ^ 2 : ℝ) : ℂ) := by
  rw [Complex.ofReal_sum]
  exact sum_congr rfl fun i _ => nsq _

theorem norm_step {n r : ℕ} {c s : ℂ} {u ε P : ℝ} {z z' : ℕ → ℕ → ℂ} (ht : Turn n r c s u z z')
    (hcs : |‖c‖ ^ 2 + ‖s‖ ^ 2 - 1| ≤ ε) (hε : ε ≤ 1) (hP : 0 ≤ P) {t : Finset ℕ} (h0 : r ∈ t) (h1 : r + 1 ∈ t)
    {j : ℕ} (hj : j < n) (hx : ∑ i ∈ t, ‖z i j‖ ^ 2 ≤ P ^ 2) :
    ∑ i ∈ t, ‖z' i j‖ ^ 2 ≤ ∑ i ∈ t, ‖z i j‖ ^ 2 + drift ε u P P := by
  have := gram_step ht hcs hε hP hP h0 h1 hj hj hx hx
  rw [gram_self, gram_self, ← Complex.ofReal_sub, Complex.norm_real, Real.norm_eq_abs] at this
  have := (abs_le.1 this).2
  linarith

variable {β α κ ω : Type}

theorem initMat_eq (o : Ops β α κ ω) {M : ℕ} (hM : 2 * M < 2 ^ 32) (A : Mem β) (junk : Mem α) {i j : ℕ} (hi : i < M) (hj : j < M) :
    initMat o M A junk i j = o.load (A i j) ∧ initMat o M A junk i (j + M) = if j = i then o.one else o.zero := by
  have tst : ∀ i j, i < M → j < M → ((((j + M : ℕ) : ℤ) - i) % 2 ^ 32 = M % 2 ^ 32 ↔ j = i) := by
    intro i j hi hj
    norm_num at hM ⊢
    push_cast
    omega
  have inner : ∀ (r n : ℕ) (m : Mem α) (i j : ℕ), n ≤ M → j < 2 * M →
      forUp (fun j m => (Mem.put m r j (o.load (A r j))).put r (j + M)
        (if (((j + M : ℕ) : ℤ) - r) % 2 ^ 32 = M % 2 ^ 32 then o.one else o.zero)) n m i j =
      if i = r ∧ j < n then o.load (A r j) else if i = r ∧ M ≤ j ∧ j < n + M then
        (if (((j : ℕ) : ℤ) - r) % 2 ^ 32 = M % 2 ^ 32 then o.one else o.zero) else m i j := by
    intro r n m i j hn hj
    induction n with
    | zero => rw [if_neg (by omega), if_neg (by omega)]; rfl
    | succ n ih =>
      rw [forUp]
      unfold Mem.put; beta_reduce
      by_cases h1 : i = r
      · by_cases h2 : j = n + M
        · rw [if_pos ⟨h1, h2⟩, if_neg (show ¬ (i = r ∧ j < n + 1) by omega),
            if_pos (show i = r ∧ M ≤ j ∧ j < n + 1 + M from ⟨h1, by omega⟩), h2]
        · rw [if_neg (by tauto)]
          by_cases h3 : j = n
          · rw [if_pos ⟨h1, h3⟩, if_pos ⟨h1, by omega⟩, h3]
          · rw [if_neg (by tauto)]
            have := ih (by omega)
            unfold Mem.put at this
            rw [this]
            have e1 : (i = r ∧ j < n) ↔ (i = r ∧ j < n + 1) := by omega
            have e2 : (i = r ∧ M ≤ j ∧ j < n + M) ↔ (i = r ∧ M ≤ j ∧ j < n + 1 + M) := by omega
            simp only [e1, e2]
      · have := ih (by omega)
        unfold Mem.put at this
        rw [if_neg (by tauto), if_neg (by tauto), this, if_neg (by tauto), if_neg (by tauto), if_neg (by tauto),
          if_neg (by tauto)]
  have outer : ∀ n ≤ M, ∀ i < n, ∀ j < 2 * M, forUp (fun i m => forUp (fun j m => (Mem.put m i j (o.load (A i j))).put i (j + M)
      (if (((j + M : ℕ) : ℤ) - i) % 2 ^ 32 = M % 2 ^ 32 then o.one else o.zero)) M m) n junk i j =
      if j < M then o.load (A i j) else (if (((j : ℕ) : ℤ) - i) % 2 ^ 32 = M % 2 ^ 32 then o.one else o.zero) := by
    intro n
    induction n with
    | zero => intro _ i hi; omega
    | succ n ih =>
      intro hn i hi j hj
      rw [forUp, inner n M _ i j le_rfl hj]
      by_cases h1 : i = n
      · subst h1
        by_cases h2 : j < M
        · rw [if_pos ⟨rfl, h2⟩, if_pos h2]
        · rw [if_neg (by tauto), if_pos ⟨rfl, by omega⟩, if_neg h2]
      · rw [if_neg (by tauto), if_neg (by tauto), ih (by omega) i (by omega) j hj]
  unfold initMat
  constructor
  · rw [outer M le_rfl i hi j (by omega), if_pos hj]
  · rw [outer M le_rfl i hi (j + M) (by omega), if_neg (by omega)]
    have := tst i j hi hj
    by_cases h : j = i
    · rw [if_pos h, if_pos (this.mpr h)]
    · rw [if_neg h, if_neg (fun h' => h (this.mp h'))]

theorem offdiagonal_eq (o : Ops β α κ ω) (M : ℕ) {pivot : ℕ} (hp : 0 < pivot) (c s : κ) (A1 : Mem α) (k i : ℕ) :
    offdiagonalPE o M pivot c s A1 k i = if i < 2 * M then
      (if k = pivot - 1 then (rotate o M i (A1 (pivot - 1) i) (A1 pivot i) c s).1
        else if k = pivot then (rotate o M i (A1 (pivot - 1) i) (A1 pivot i) c s).2 else A1 k i) else A1 k i := by
  unfold offdiagonalPE
  have key : ∀ n k i, forUp (fun i A1 =>
      let r := rotate o M i (A1 (pivot - 1) i) (A1 pivot i) c s
      (Mem.put A1 (pivot - 1) i r.1).put pivot i r.2) n A1 k i = if i < n then
      (if k = pivot - 1 then (rotate o M i (A1 (pivot - 1) i) (A1 pivot i) c s).1
        else if k = pivot then (rotate o M i (A1 (pivot - 1) i) (A1 pivot i) c s).2 else A1 k i) else A1 k i := by
    intro n
    induction n with
    | zero => intro k i; rw [if_neg (by omega)]; rfl
    | succ n ih =>
      intro k i
      rw [forUp]
      simp only []
      rw [ih (pivot - 1) n, ih pivot n, if_neg (lt_irrefl n), if_neg (lt_irrefl n)]
      unfold Mem.put at ih ⊢; beta_reduce
      by_cases h1 : i = n
      · subst h1
        by_cases h2 : k = pivot
        · rw [if_pos ⟨h2, rfl⟩, if_pos (by omega), if_neg (by omega), if_pos h2]
        · rw [if_neg (by tauto)]
          by_cases h3 : k = pivot - 1
          · rw [if_pos ⟨h3, rfl⟩, if_pos (by omega), if_pos h3]
          · rw [if_neg (by tauto), ih, if_neg (by omega), if_pos (by omega), if_neg h3, if_neg h2]
      · rw [if_neg (by tauto), if_neg (by tauto), ih]
        have : i < n ↔ i < n + 1 := by omega
        simp only [this]
  exact key (2 * M) k i

/-- The columns of A1, the right half conjugated. -/
noncomputable def zc (v : α → ℂ) (M : ℕ) (A1 : Mem α) (i j : ℕ) : ℂ := if j < M then v (A1 i j) else star (v (A1 i j))

theorem norm_zc (v : α → ℂ) (M : ℕ) (A1 : Mem α) (i j : ℕ) : ‖zc v M A1 i j‖ = ‖v (A1 i j)‖ := by
  unfold zc
  split_ifs
  · rfl
  · rw [norm_star]

variable {o : Ops β α κ ω} {vb : β → ℂ} {v : α → ℂ} {w : κ → ℂ} {vo : ω → ℂ} {ok : κ → Prop} {D X ρ u uL uS ε ζ : ℝ}

theorem turn (ha : Accurate o vb v w vo ok D X ρ u uL uS ε ζ) {M r : ℕ} {c s : κ} (hc : ok c) (hs : ok s)
    (hcs : ‖w c‖ ^ 2 + ‖w s‖ ^ 2 ≤ 1 + ε) (A1 : Mem α)
    (hX : ∀ j < 2 * M, ‖zc v M A1 r j‖ ^ 2 + ‖zc v M A1 (r + 1) j‖ ^ 2 ≤ X ^ 2) :
    Turn (2 * M) r (w c) (w s) u (zc v M A1) (zc v M (offdiagonalPE o M (r + 1) c s A1)) := by
  have e := fun k i => offdiagonal_eq o M (Nat.succ_pos r) c s A1 k i
  simp only [Nat.succ_eq_add_one, Nat.add_sub_cancel] at e
  refine ⟨fun i j h1 h2 => ?_, fun j hj => ?_, fun j hj => ?_⟩
  · unfold zc
    rw [e, if_neg h1, if_neg h2, ite_self]
  · have hx := hX j hj
    rw [norm_zc, norm_zc] at hx
    unfold zc
    rw [e, if_pos hj, if_pos rfl]
    unfold rotate
    by_cases hjM : j < M
    · simp only [if_pos hjM]
      exact (ha.rotR _ _ c s hc hs hcs hx).1
    · simp only [if_neg hjM]
      rw [← norm_star]
      simp only [star_sub, star_mul', star_star]
      exact (ha.rotQ _ _ c s hc hs hcs hx).1
  · have hx := hX j hj
    rw [norm_zc, norm_zc] at hx
    unfold zc
    rw [e, if_pos hj, if_neg (show ¬ r + 1 = r by omega), if_pos rfl]
    unfold rotate
    by_cases hjM : j < M
    · simp only [if_pos hjM]
      exact (ha.rotR _ _ c s hc hs hcs hx).2
    · simp only [if_neg hjM]
      rw [← norm_star]
      simp only [star_sub, star_add, star_mul', star_star]
      exact (ha.rotQ _ _ c s hc hs hcs hx).2

/-- Bounds on the columns that the rotations cannot leave: `H` for the left half of A1, `V` for the right half, `B` for what is
left below the diagonal; `n` is the number of rotations. -/
structure Room (M n : ℕ) (ε u ζ X E H V B : ℝ) : Prop where
  ε0 : 0 ≤ ε
  ε1 : ε ≤ 1
  u0 : 0 ≤ u
  H0 : 0 ≤ H
  V0 : 0 ≤ V
  B0 : 0 ≤ B
  left : M * E ^ 2 + n * drift ε u H H ≤ H ^ 2
  right : 1 + n * drift ε u V V ≤ V ^ 2
  low : M * (ζ + u) ^ 2 + n * drift ε u B B ≤ B ^ 2
  HX : H ≤ X
  VX : V ≤ X

/-- The bound for column `j`. -/
def bnd (M : ℕ) (H V : ℝ) (j : ℕ) : ℝ := if j < M then H else V

/-- After `t` rotations: inner products of columns against those of the initial array `z0`. -/
def Inv (M : ℕ) (ε u H V : ℝ) (t : ℕ) (z0 z : ℕ → ℕ → ℂ) : Prop :=
  ∀ j < 2 * M, ∀ k < 2 * M, ‖∑ i ∈ range M, star (z i j) * z i k - ∑ i ∈ range M, star (z0 i j) * z0 i k‖ ≤
    t * drift ε u (bnd M H V j) (bnd M H V k)

/-- What is left below the diagonal of the first `c` columns. -/
def Tri (M : ℕ) (ε u ζ B : ℝ) (c t : ℕ) (z : ℕ → ℕ → ℂ) : Prop :=
  ∀ j < c, ∑ i ∈ Ico (j + 1) M, ‖z i j‖ ^ 2 ≤ M * (ζ + u) ^ 2 + t * drift ε u B B

variable {M n : ℕ} {E H V B : ℝ}

theorem drift_nonneg {a b : ℝ} (h : 0 ≤ ε) (hu : 0 ≤ u) (ha : 0 ≤ a) (hb : 0 ≤ b) : 0 ≤ drift ε u a b := by
  unfold drift
  positivity

theorem Room.bnd0 (hR : Room M n ε u ζ X E H V B) (j : ℕ) : 0 ≤ bnd M H V j := by
  unfold bnd; split_ifs
  · exact hR.H0
  · exact hR.V0

theorem Room.bndX (hR : Room M n ε u ζ X E H V B) (j : ℕ) : bnd M H V j ≤ X := by
  unfold bnd; split_ifs
  · exact hR.HX
  · exact hR.VX

/-- The initial array: columns of the input up to `E` and unit columns. -/
structure Start (M : ℕ) (E : ℝ) (z0 : ℕ → ℕ → ℂ) : Prop where
  left : ∀ j < M, ∀ i < M, ‖z0 i j‖ ≤ E
  right : ∀ j < M, ∀ i < M, z0 i (j + M) = if j = i then 1 else 0

theorem Start.norm {z0 : ℕ → ℕ → ℂ} (h : Start M E z0) (hR : Room M n ε u ζ X E H V B) {j : ℕ} (hj : j < 2 * M) :
    ∑ i ∈ range M, ‖z0 i j‖ ^ 2 + n * drift ε u (bnd M H V j) (bnd M H V j) ≤ bnd M H V j ^ 2 := by
  unfold bnd
  by_cases hjM : j < M
  · simp only [if_pos hjM]
    have : ∑ i ∈ range M, ‖z0 i j‖ ^ 2 ≤ ∑ _i ∈ range M, E ^ 2 :=
      sum_le_sum fun i hi => pow_le_pow_left₀ (norm_nonneg _) (h.left j hjM i (mem_range.1 hi)) 2
    rw [sum_const, card_range, nsmul_eq_mul] at this
    have := hR.left
    linarith
  · simp only [if_neg hjM]
    obtain ⟨l, rfl⟩ : ∃ l, j = l + M := ⟨j - M, by omega⟩
    have hl : l < M := by omega
    have e : ∑ i ∈ range M, ‖z0 i (l + M)‖ ^ 2 = 1 := by
      rw [sum_eq_single l]
      · rw [h.right l hl l hl, if_pos rfl]; norm_num
      · intro i hi hil
        rw [h.right l hl i (mem_range.1 hi), if_neg (Ne.symm hil)]; norm_num
      · intro h'; exact absurd (mem_range.2 hl) h'
    rw [e]
    exact hR.right

/-- Column norms from the invariant. -/
theorem Inv.norm {t : ℕ} {z0 z : ℕ → ℕ → ℂ} (hI : Inv M ε u H V t z0 z) (hs : Start M E z0) (hR : Room M n ε u ζ X E H V B)
    (ht : t ≤ n) {j : ℕ} (hj : j < 2 * M) : ∑ i ∈ range M, ‖z i j‖ ^ 2 ≤ bnd M H V j ^ 2 := by
  have h1 := hI j hj j hj
  rw [gram_self, gram_self, ← Complex.ofReal_sub, Complex.norm_real, Real.norm_eq_abs] at h1
  have h2 := hs.norm hR hj
  have h3 : (t : ℝ) * drift ε u (bnd M H V j) (bnd M H V j) ≤ n * drift ε u (bnd M H V j) (bnd M H V j) :=
    mul_le_mul_of_nonneg_right (by exact_mod_cast ht) (drift_nonneg hR.ε0 hR.u0 (hR.bnd0 j) (hR.bnd0 j))
  have := (abs_le.1 h1).2
  linarith

theorem pair_le {z : ℕ → ℂ} {P : ℝ} {r : ℕ} (hr : r + 1 < M) (h : ∑ i ∈ range M, ‖z i‖ ^ 2 ≤ P) :
    ‖z r‖ ^ 2 + ‖z (r + 1)‖ ^ 2 ≤ P := by
  rw [split_two (r := r) (mem_range.2 (by omega)) (mem_range.2 hr)] at h
  have : 0 ≤ ∑ i ∈ ((range M).erase (r + 1)).erase r, ‖z i‖ ^ 2 := sum_nonneg fun i _ => by positivity
  linarith

theorem _root_.Spec.QrdArith.Posi.near {e d : ℝ} {x y : ℂ} (h : Posi e y) (hxy : ‖x - y‖ ≤ d) : Posi (e + d) x := by
  have h1 := (Complex.abs_im_le_norm (x - y)).trans hxy
  have h2 := (Complex.abs_re_le_norm (x - y)).trans hxy
  rw [Complex.sub_im] at h1
  rw [Complex.sub_re] at h2
  obtain ⟨h3, h4⟩ := h
  have h5 := abs_le.1 h1
  have h6 := abs_le.1 h2
  have h7 := abs_le.1 h3
  exact ⟨abs_le.2 ⟨by linarith [h5.1, h7.1], by linarith [h5.2, h7.2]⟩, by linarith [h6.1]⟩

theorem one_step (ha : Accurate o vb v w vo ok D X ρ u uL uS ε ζ) (hR : Room M n ε u ζ X E H V B) {z0 : ℕ → ℕ → ℂ}
    (hs : Start M E z0) {col r t : ℕ} (hc : col ≤ r) (hr : r + 1 < M) (ht : t + 1 ≤ n) {st : Mem α × List (α × α)}
    (hI : Inv M ε u H V t z0 (zc v M st.1)) (hT : Tri M ε u ζ B col t (zc v M st.1))
    (hρ : ρ ^ 2 ≤ ‖v (st.1 (r + 1) col)‖ ^ 2 + ‖v (st.1 r col)‖ ^ 2) :
    Inv M ε u H V (t + 1) z0 (zc v M (step o M col (r + 1) st).1) ∧
    Tri M ε u ζ B col (t + 1) (zc v M (step o M col (r + 1) st).1) ∧
    ‖zc v M (step o M col (r + 1) st).1 (r + 1) col‖ ≤ ζ + u ∧
    Posi (ζ + u) (zc v M (step o M col (r + 1) st).1 r col) ∧
    ∀ i j, i ≠ r → i ≠ r + 1 → zc v M (step o M col (r + 1) st).1 i j = zc v M st.1 i j := by
  have hpair : ∀ j < 2 * M, ‖zc v M st.1 r j‖ ^ 2 + ‖zc v M st.1 (r + 1) j‖ ^ 2 ≤ X ^ 2 := fun j hj =>
    (pair_le hr (hI.norm hs hR (by omega) hj)).trans (pow_le_pow_left₀ (hR.bnd0 j) (hR.bndX j) 2)
  have hcM : col < M := by omega
  have hp := hpair col (by omega)
  rw [norm_zc, norm_zc, add_comm] at hp
  have hun := ha.unit _ _ hρ hp
  obtain ⟨ok1, ok2⟩ := ha.okc _ _ hρ hp
  have hann := ha.annih _ _ hρ hp
  have hup := ha.upper _ _ hρ hp
  have hst : (step o M col (r + 1) st).1 = offdiagonalPE o M (r + 1) (o.pe (st.1 (r + 1) col) (st.1 r col)).1
      (o.pe (st.1 (r + 1) col) (st.1 r col)).2 st.1 := rfl
  rw [hst]
  generalize o.pe (st.1 (r + 1) col) (st.1 r col) = cs at *
  have hT' := turn ha ok1 ok2 (by have := (abs_le.1 hun).2; linarith) st.1 hpair
  generalize zc v M (offdiagonalPE o M (r + 1) cs.1 cs.2 st.1) = z' at *
  have zcol : ∀ i, zc v M st.1 i col = v (st.1 i col) := fun i => by unfold zc; rw [if_pos hcM]
  rw [← zcol, ← zcol] at hann hup
  generalize zc v M st.1 = z at *
  refine ⟨fun j hj k hk => ?_, fun j hj => ?_, ?_, ?_, hT'.same⟩
  · have h1 := gram_step hT' hun hR.ε1 (hR.bnd0 j) (hR.bnd0 k) (t := range M) (mem_range.2 (by omega)) (mem_range.2 hr) hj hk
      (hI.norm hs hR (by omega) hj) (hI.norm hs hR (by omega) hk)
    have h2 := hI j hj k hk
    have h3 := norm_add_le (∑ i ∈ range M, star (z' i j) * z' i k - ∑ i ∈ range M, star (z i j) * z i k)
      (∑ i ∈ range M, star (z i j) * z i k - ∑ i ∈ range M, star (z0 i j) * z0 i k)
    rw [sub_add_sub_cancel] at h3
    push_cast
    linarith
  · have h0 := hT j hj
    have h1 : ∑ i ∈ Ico (j + 1) M, ‖z i j‖ ^ 2 ≤ B ^ 2 := by
      have h2 : (t : ℝ) * drift ε u B B ≤ n * drift ε u B B :=
        mul_le_mul_of_nonneg_right (by exact_mod_cast (show t ≤ n by omega)) (drift_nonneg hR.ε0 hR.u0 hR.B0 hR.B0)
      have := hR.low
      linarith
    have h3 := norm_step hT' hun hR.ε1 hR.B0 (t := Ico (j + 1) M) (mem_Ico.2 (by omega)) (mem_Ico.2 (by omega))
      (show j < 2 * M by omega) h1
    push_cast
    linarith
  · have h1 := hT'.row1 col (by omega)
    have h2 := norm_add_le (z' (r + 1) col - (w cs.1 * z (r + 1) col + w cs.2 * z r col))
      (w cs.1 * z (r + 1) col + w cs.2 * z r col)
    rw [sub_add_cancel] at h2
    linarith
  · exact hup.near (hT'.row0 col (by omega))

theorem rowLoop_suffix (o : Ops β α κ ω) (M col : ℕ) : ∀ (row : ℕ) (st : Mem α × List (α × α)),
    ∀ p ∈ st.2, p ∈ (rowLoop o M col row st).2
  | 0, st, p, hp => hp
  | row + 1, st, p, hp => by
    unfold rowLoop
    split_ifs
    · exact hp
    · exact rowLoop_suffix o M col row _ p (List.mem_cons_of_mem _ hp)

theorem rowLoop_self (o : Ops β α κ ω) (M col : ℕ) (st : Mem α × List (α × α)) : rowLoop o M col col st = st := by
  cases col with
  | zero => rfl
  | succ c => unfold rowLoop; rw [if_pos rfl]

/-- The pairs of pivots are not too small. -/
def Apart (v : α → ℂ) (ρ : ℝ) (l : List (α × α)) : Prop := ∀ p ∈ l, ρ ^ 2 ≤ ‖v p.1‖ ^ 2 + ‖v p.2‖ ^ 2

theorem rowLoop_ok (ha : Accurate o vb v w vo ok D X ρ u uL uS ε ζ) (hR : Room M n ε u ζ X E H V B) {z0 : ℕ → ℕ → ℂ}
    (hs : Start M E z0) {col : ℕ} : ∀ (row t : ℕ) (st : Mem α × List (α × α)), row < M → col ≤ row → t + (row - col) ≤ n →
    Apart v ρ (rowLoop o M col row st).2 → Inv M ε u H V t z0 (zc v M st.1) → Tri M ε u ζ B col t (zc v M st.1) →
    (∀ i < M, row < i → ‖zc v M st.1 i col‖ ≤ ζ + u) →
    Inv M ε u H V (t + (row - col)) z0 (zc v M (rowLoop o M col row st).1) ∧
    Tri M ε u ζ B col (t + (row - col)) (zc v M (rowLoop o M col row st).1) ∧
    (∀ i < M, col < i → ‖zc v M (rowLoop o M col row st).1 i col‖ ≤ ζ + u) ∧
    (∀ i < col, ∀ j, zc v M (rowLoop o M col row st).1 i j = zc v M st.1 i j) ∧
    (col < row → Posi (ζ + u) (zc v M (rowLoop o M col row st).1 col col))
  | 0, t, st, hr, hc, ht, hp, hI, hT, hz => by
    obtain rfl : col = 0 := by omega
    exact ⟨hI, hT, hz, fun _ _ _ => rfl, fun h => absurd h (by omega)⟩
  | row + 1, t, st, hr, hc, ht, hp, hI, hT, hz => by
    unfold rowLoop at hp ⊢
    by_cases h : row + 1 = col
    · rw [if_pos h] at hp ⊢
      subst h
      rw [Nat.sub_self, Nat.add_zero]
      exact ⟨hI, hT, hz, fun _ _ _ => rfl, fun h => absurd h (by omega)⟩
    · rw [if_neg h] at hp ⊢
      have hρ : ρ ^ 2 ≤ ‖v (st.1 (row + 1) col)‖ ^ 2 + ‖v (st.1 row col)‖ ^ 2 :=
        hp _ (rowLoop_suffix o M col row (step o M col (row + 1) st) (st.1 (row + 1) col, st.1 row col) (List.mem_cons_self ..))
      obtain ⟨s1, s2, s3, s5, s4⟩ := one_step ha hR hs (show col ≤ row by omega) hr (by omega) hI hT hρ
      have := rowLoop_ok ha hR hs row (t + 1) (step o M col (row + 1) st) (by omega) (by omega) (by omega) hp s1 s2
        (fun i hi hri => by
          rcases Nat.lt_or_ge (row + 1) i with h' | h'
          · rw [s4 i col (by omega) (by omega)]
            exact hz i hi h'
          · obtain rfl : i = row + 1 := by omega
            exact s3)
      rw [show t + (row + 1 - col) = t + 1 + (row - col) by omega]
      obtain ⟨r1, r2, r3, r4, r5⟩ := this
      refine ⟨r1, r2, r3, fun i hi j => ?_, fun _ => ?_⟩
      · rw [r4 i hi j, s4 i j (by omega) (by omega)]
      · rcases Nat.lt_or_ge col row with h' | h'
        · exact r5 h'
        · obtain rfl : col = row := by omega
          rw [rowLoop_self]; exact s5

/-- The number of rotations for the first `c` columns. -/
def cnt (M c : ℕ) : ℕ := ∑ x ∈ range c, (M - 1 - x)

theorem cnt_total (M : ℕ) : cnt M M = M * (M - 1) / 2 := by
  unfold cnt
  rw [sum_range_reflect (fun x => x), sum_range_id]

theorem cnt_le {c : ℕ} (h : c ≤ M) : cnt M c ≤ cnt M M :=
  sum_le_sum_of_subset (range_subset_range.2 h)

theorem forUp_suffix (o : Ops β α κ ω) (M c : ℕ) (st : Mem α × List (α × α)) :
    ∀ p ∈ (forUp (fun col st => rowLoop o M col (M - 1) st) c st).2,
      p ∈ (forUp (fun col st => rowLoop o M col (M - 1) st) (c + 1) st).2 := by
  intro p hp
  exact rowLoop_suffix o M c (M - 1) _ p hp

theorem colLoop_ok (ha : Accurate o vb v w vo ok D X ρ u uL uS ε ζ) (hR : Room M (cnt M M) ε u ζ X E H V B) {A1 : Mem α}
    (hs : Start M E (zc v M A1)) (hp : Apart v ρ (colLoop o M A1).2) :
    Inv M ε u H V (cnt M M) (zc v M A1) (zc v M (colLoop o M A1).1) ∧
    Tri M ε u ζ B M (cnt M M) (zc v M (colLoop o M A1).1) ∧
    ∀ j, j + 1 < M → Posi (ζ + u) (zc v M (colLoop o M A1).1 j j) := by
  have key : ∀ c ≤ M, Apart v ρ (forUp (fun col st => rowLoop o M col (M - 1) st) c (A1, [])).2 →
      Inv M ε u H V (cnt M c) (zc v M A1) (zc v M (forUp (fun col st => rowLoop o M col (M - 1) st) c (A1, [])).1) ∧
      Tri M ε u ζ B c (cnt M c) (zc v M (forUp (fun col st => rowLoop o M col (M - 1) st) c (A1, [])).1) ∧
      ∀ j < c, j + 1 < M → Posi (ζ + u) (zc v M (forUp (fun col st => rowLoop o M col (M - 1) st) c (A1, [])).1 j j) := by
    intro c
    induction c with
    | zero =>
      intro _ _
      refine ⟨fun j _ k _ => ?_, fun j hj => absurd hj (by omega), fun j hj => absurd hj (by omega)⟩
      simp [forUp, cnt]
    | succ c ih =>
      intro hc hp
      obtain ⟨i1, i2, i3⟩ := ih (by omega) fun p h => hp p (forUp_suffix o M c _ p h)
      have hcnt : cnt M (c + 1) = cnt M c + (M - 1 - c) := sum_range_succ _ _
      have hle := cnt_le hc
      rw [hcnt] at hle ⊢
      obtain ⟨r1, r2, r3, r4, r5⟩ := rowLoop_ok ha hR hs (M - 1) (cnt M c) _ (by omega) (by omega) hle hp i1 i2
        (fun i hi h => absurd hi (by omega))
      refine ⟨r1, fun j hj => ?_, fun j hj hjM => ?_⟩
      swap
      · rcases Nat.lt_or_ge j c with h | h
        · have := i3 j h hjM
          rw [← r4 j h j] at this
          exact this
        · obtain rfl : j = c := by omega
          exact r5 (by omega)
      rcases Nat.lt_or_ge j c with h | h
      · exact r2 j h
      · obtain rfl : j = c := by omega
        have h1 : ∑ i ∈ Ico (j + 1) M, ‖zc v M (forUp (fun col st => rowLoop o M col (M - 1) st) (j + 1) (A1, [])).1 i j‖ ^ 2 ≤
            ∑ _i ∈ Ico (j + 1) M, (ζ + u) ^ 2 := sum_le_sum fun i hi => by
          have := mem_Ico.1 hi
          exact pow_le_pow_left₀ (norm_nonneg _) (r3 i this.2 (by omega)) 2
        rw [sum_const, Nat.card_Ico, nsmul_eq_mul] at h1
        have h2 : ((M - (j + 1) : ℕ) : ℝ) * (ζ + u) ^ 2 ≤ M * (ζ + u) ^ 2 :=
          mul_le_mul_of_nonneg_right (by exact_mod_cast (by omega)) (by positivity)
        have h3 : 0 ≤ ((cnt M j + (M - 1 - j) : ℕ) : ℝ) * drift ε u B B :=
          mul_nonneg (Nat.cast_nonneg _) (drift_nonneg hR.ε0 hR.u0 hR.B0 hR.B0)
        linarith
  obtain ⟨k1, k2, k3⟩ := key M le_rfl hp
  exact ⟨k1, k2, fun j hj => k3 j (by omega) hj⟩

theorem separate_eq (o : Ops β α κ ω) (M : ℕ) (A1 : Mem α) (Q R : Mem ω) {i j : ℕ} (hi : i < M) (hj : j < M) :
    (separate o M A1 Q R).1 i j = o.store (A1 j (i + M)) ∧ (separate o M A1 Q R).2 i j = o.store (A1 i j) := by
  have inner : ∀ (r n : ℕ) (QR : Mem ω × Mem ω), forUp (fun j (QR : Mem ω × Mem ω) =>
      (Mem.put QR.1 j r (o.store (A1 r (j + M))), Mem.put QR.2 r j (o.store (A1 r j)))) n QR =
      (forUp (fun j m => Mem.put m j r (o.store (A1 r (j + M)))) n QR.1, forUp (fun j m => Mem.put m r j (o.store (A1 r j))) n QR.2) := by
    intro r n QR
    induction n with
    | zero => rfl
    | succ n ih => rw [forUp, ih]; rfl
  have outer : ∀ n, forUp (fun i QR => forUp (fun j (QR : Mem ω × Mem ω) =>
      (Mem.put QR.1 j i (o.store (A1 i (j + M))), Mem.put QR.2 i j (o.store (A1 i j)))) M QR) n (Q, R) =
      (forUp (fun i m => forUp (fun j m => Mem.put m j i (o.store (A1 i (j + M)))) M m) n Q,
        forUp (fun i m => forUp (fun j m => Mem.put m i j (o.store (A1 i j))) M m) n R) := by
    intro n
    induction n with
    | zero => rfl
    | succ n ih => rw [forUp, ih, inner]; rfl
  have : separate o M A1 Q R = (forUp (fun i m => forUp (fun j m => Mem.put m j i (o.store (A1 i (j + M)))) M m) M Q,
        forUp (fun i m => forUp (fun j m => Mem.put m i j (o.store (A1 i j))) M m) M R) := outer M
  rw [this]
  constructor
  · simp only []
    rw [fillT_eq M M (fun i j => o.store (A1 i (j + M))), if_pos ⟨hj, hi⟩]
  · simp only []
    rw [fill_eq M M (fun i j => o.store (A1 i j)), if_pos ⟨hi, hj⟩]

theorem sum_store {a a' b b' : ℕ → ℂ} {P Q e : ℝ} (hP : 0 ≤ P) (he : 0 ≤ e) (ha' : ∀ k < M, ‖a' k‖ ≤ P)
    (hb' : ∀ k < M, ‖b' k‖ ≤ Q) (ha : ∀ k < M, ‖a k - a' k‖ ≤ e) (hb : ∀ k < M, ‖b k - b' k‖ ≤ e) :
    ‖∑ k ∈ range M, a k * b k - ∑ k ∈ range M, a' k * b' k‖ ≤ M * (e * (P + Q + e)) := by
  rw [← sum_sub_distrib]
  have : ∑ k ∈ range M, ‖a k * b k - a' k * b' k‖ ≤ ∑ _k ∈ range M, e * (P + Q + e) := sum_le_sum fun k hk => by
    have hk := mem_range.1 hk
    have e1 : a k * b k - a' k * b' k = (a k - a' k) * b' k + a' k * (b k - b' k) + (a k - a' k) * (b k - b' k) := by ring
    rw [e1]
    refine (norm_add₃_le).trans ?_
    rw [norm_mul, norm_mul, norm_mul]
    have h1 := mul_le_mul (ha k hk) (hb' k hk) (norm_nonneg _) he
    have h2 := mul_le_mul (ha' k hk) (hb k hk) (norm_nonneg _) hP
    have h3 := mul_le_mul (ha k hk) (hb k hk) (norm_nonneg _) he
    linarith
  rw [sum_const, card_range, nsmul_eq_mul] at this
  exact (norm_sum_le _ _).trans this

theorem elem_le {z : ℕ → ℂ} {P : ℝ} (hP : 0 ≤ P) {t : Finset ℕ} (h : ∑ i ∈ t, ‖z i‖ ^ 2 ≤ P ^ 2) {i : ℕ} (hi : i ∈ t) : ‖z i‖ ≤ P := by
  have := single_le_sum (f := fun i => ‖z i‖ ^ 2) (fun i _ => by positivity) hi
  exact le_of_sq_le_sq (this.trans h) hP

/-- The array at the end of the rotations. -/
structure Arr (o : Ops β α κ ω) (vb : β → ℂ) (v : α → ℂ) (M : ℕ) (A : Mem β) (A1 : Mem α) (H V B rb qb e : ℝ) : Prop where
  nR : ∀ i < M, ∀ j < M, ‖v (A1 i j)‖ ≤ H
  nQ : ∀ i < M, ∀ j < M, ‖v (A1 i (j + M))‖ ≤ V
  res : ∀ i < M, ∀ j < M, ‖∑ k ∈ range M, v (A1 k (i + M)) * v (A1 k j) - vb (A i j)‖ ≤ rb
  orth : ∀ i < M, ∀ j < M, ‖∑ k ∈ range M, v (A1 k (i + M)) * star (v (A1 k (j + M))) - (if i = j then 1 else 0)‖ ≤ qb
  low : ∀ i < M, ∀ j < i, ‖v (A1 i j)‖ ≤ B
  diag : ∀ j, j + 1 < M → Posi e (v (A1 j j))

theorem rotated_ok (ha : Accurate o vb v w vo ok D X ρ u uL uS ε ζ) (hR : Room M (cnt M M) ε u ζ X (D + uL) H V B)
    (hM : 2 * M < 2 ^ 32) (A : Mem β) (junk : Mem α) (hD : ∀ i < M, ∀ j < M, ‖vb (A i j)‖ ≤ D)
    (hp : Apart v ρ (pairs o M A junk)) :
    Arr o vb v M A (rotated o M A junk) H V B (uL + cnt M M * drift ε u V H) (cnt M M * drift ε u V V) (ζ + u) := by
  have z0R : ∀ i < M, ∀ j < M, zc v M (initMat o M A junk) i j = v (o.load (A i j)) := fun i hi j hj => by
    unfold zc; rw [if_pos hj, (initMat_eq o hM A junk hi hj).1]
  have z0Q : ∀ i < M, ∀ j < M, zc v M (initMat o M A junk) i (j + M) = if j = i then 1 else 0 := fun i hi j hj => by
    unfold zc; rw [if_neg (by omega), (initMat_eq o hM A junk hi hj).2]
    split_ifs
    · rw [ha.one, star_one]
    · rw [ha.zero, star_zero]
  have hs : Start M (D + uL) (zc v M (initMat o M A junk)) := by
    refine ⟨fun j hj i hi => ?_, fun j hj i hi => z0Q i hi j hj⟩
    rw [z0R i hi j hj]
    have h1 := ha.load _ (hD i hi j hj)
    have h2 := hD i hi j hj
    have h3 := norm_add_le (v (o.load (A i j)) - vb (A i j)) (vb (A i j))
    rw [sub_add_cancel] at h3
    linarith
  obtain ⟨hI, hT, hP⟩ := colLoop_ok ha hR hs hp
  unfold rotated
  generalize (colLoop o M (initMat o M A junk)).1 = A1 at *
  have nR : ∀ i < M, ∀ j < M, ‖v (A1 i j)‖ ≤ H := fun i hi j hj => by
    have := elem_le (hR.bnd0 j) (hI.norm hs hR le_rfl (show j < 2 * M by omega)) (mem_range.2 hi)
    rw [norm_zc] at this
    unfold bnd at this
    rwa [if_pos hj] at this
  have nQ : ∀ i < M, ∀ j < M, ‖v (A1 i (j + M))‖ ≤ V := fun i hi j hj => by
    have := elem_le (hR.bnd0 (j + M)) (hI.norm hs hR le_rfl (show j + M < 2 * M by omega)) (mem_range.2 hi)
    rw [norm_zc] at this
    unfold bnd at this
    rwa [if_neg (by omega)] at this
  refine ⟨nR, nQ, fun i hi j hj => ?_, fun i hi j hj => ?_, fun i hi j hj => ?_, fun j hj => ?_⟩
  · have h1 := hI (i + M) (by omega) j (by omega)
    have e1 : ∑ k ∈ range M, star (zc v M A1 k (i + M)) * zc v M A1 k j = ∑ k ∈ range M, v (A1 k (i + M)) * v (A1 k j) := by
      refine sum_congr rfl fun k _ => ?_
      unfold zc
      rw [if_neg (by omega), if_pos hj, star_star]
    have e2 : ∑ k ∈ range M, star (zc v M (initMat o M A junk) k (i + M)) * zc v M (initMat o M A junk) k j = v (o.load (A i j)) := by
      rw [sum_eq_single i]
      · rw [z0Q i hi i hi, if_pos rfl, star_one, one_mul, z0R i hi j hj]
      · intro k hk hki
        rw [z0Q k (mem_range.1 hk) i hi, if_neg (Ne.symm hki), star_zero, zero_mul]
      · intro h; exact absurd (mem_range.2 hi) h
    have e3 : bnd M H V (i + M) = V := by unfold bnd; rw [if_neg (by omega)]
    have e4 : bnd M H V j = H := by unfold bnd; rw [if_pos hj]
    rw [e1, e2, e3, e4] at h1
    have h3 := ha.load _ (hD i hi j hj)
    have h2 := norm_add_le (∑ k ∈ range M, v (A1 k (i + M)) * v (A1 k j) - v (o.load (A i j))) (v (o.load (A i j)) - vb (A i j))
    rw [sub_add_sub_cancel] at h2
    linarith
  · have h1 := hI (i + M) (by omega) (j + M) (by omega)
    have e1 : ∑ k ∈ range M, star (zc v M A1 k (i + M)) * zc v M A1 k (j + M) =
        ∑ k ∈ range M, v (A1 k (i + M)) * star (v (A1 k (j + M))) := by
      refine sum_congr rfl fun k _ => ?_
      unfold zc
      rw [if_neg (by omega), if_neg (by omega), star_star]
    have e2 : ∑ k ∈ range M, star (zc v M (initMat o M A junk) k (i + M)) * zc v M (initMat o M A junk) k (j + M) =
        if i = j then 1 else 0 := by
      rw [sum_eq_single i]
      · rw [z0Q i hi i hi, if_pos rfl, star_one, one_mul, z0Q i hi j hj]
        simp only [eq_comm]
      · intro k hk hki
        rw [z0Q k (mem_range.1 hk) i hi, if_neg (Ne.symm hki), star_zero, zero_mul]
      · intro h; exact absurd (mem_range.2 hi) h
    have e3 : ∀ i, bnd M H V (i + M) = V := fun i => by unfold bnd; rw [if_neg (by omega)]
    rw [e1, e2, e3, e3] at h1
    exact h1
  · have := elem_le hR.B0 ((hT j (by omega)).trans hR.low) (mem_Ico.2 ⟨hj, hi⟩)
    rwa [norm_zc] at this
  · have := hP j hj
    unfold zc at this
    rwa [if_pos (by omega)] at this

theorem outputs (ha : Accurate o vb v w vo ok D X ρ u uL uS ε ζ) (hR : Room M (cnt M M) ε u ζ X (D + uL) H V B)
    (hM : 2 * M < 2 ^ 32) (A : Mem β) (junk : Mem α) (Q0 R0 : Mem ω) (hD : ∀ i < M, ∀ j < M, ‖vb (A i j)‖ ≤ D)
    (hp : Apart v ρ (pairs o M A junk)) :
    (∀ i < M, ∀ j < M, ‖vb (A i j) - ∑ k ∈ range M, vo ((qrd o M A junk Q0 R0).1 i k) * vo ((qrd o M A junk Q0 R0).2 k j)‖ ≤
      uL + cnt M M * drift ε u V H + M * (uS * (V + H + uS))) ∧
    (∀ i < M, ∀ j < M, ‖∑ k ∈ range M, vo ((qrd o M A junk Q0 R0).1 i k) * star (vo ((qrd o M A junk Q0 R0).1 j k)) -
      (if i = j then 1 else 0)‖ ≤ cnt M M * drift ε u V V + M * (uS * (V + V + uS))) ∧
    (∀ i < M, ∀ j < i, ‖vo ((qrd o M A junk Q0 R0).2 i j)‖ ≤ B + uS) ∧
    ∀ i, i + 1 < M → Posi (ζ + u + uS) (vo ((qrd o M A junk Q0 R0).2 i i)) := by
  obtain ⟨nR, nQ, res, orth, low, dia⟩ := rotated_ok ha hR hM A junk hD hp
  have sep := fun {i j : ℕ} (hi : i < M) (hj : j < M) => separate_eq o M (rotated o M A junk) Q0 R0 hi hj
  change ∀ {i j : ℕ}, i < M → j < M → (qrd o M A junk Q0 R0).1 i j = _ ∧ (qrd o M A junk Q0 R0).2 i j = _ at sep
  generalize qrd o M A junk Q0 R0 = QR at *
  generalize rotated o M A junk = A1 at *
  have sR : ∀ i < M, ∀ j < M, ‖vo (QR.2 i j) - v (A1 i j)‖ ≤ uS := fun i hi j hj => by
    rw [(sep hi hj).2]; exact ha.store _ ((nR i hi j hj).trans hR.HX)
  have sQ : ∀ i < M, ∀ j < M, ‖vo (QR.1 i j) - v (A1 j (i + M))‖ ≤ uS := fun i hi j hj => by
    rw [(sep hi hj).1]; exact ha.store _ ((nQ j hj i hi).trans hR.VX)
  refine ⟨fun i hi j hj => ?_, fun i hi j hj => ?_, fun i hi j hj => ?_, fun i hi => ?_⟩
  · have he : 0 ≤ uS := (norm_nonneg _).trans (sR i hi j hj)
    have h1 := res i hi j hj
    have h2 := sum_store (M := M) (a := fun k => vo (QR.1 i k)) (a' := fun k => v (A1 k (i + M))) (b := fun k => vo (QR.2 k j))
      (b' := fun k => v (A1 k j)) hR.V0 he (fun k hk => nQ k hk i hi) (fun k hk => nR k hk j hj) (fun k hk => sQ i hi k hk)
      (fun k hk => sR k hk j hj)
    have h3 := norm_add_le (∑ k ∈ range M, vo (QR.1 i k) * vo (QR.2 k j) - ∑ k ∈ range M, v (A1 k (i + M)) * v (A1 k j))
      (∑ k ∈ range M, v (A1 k (i + M)) * v (A1 k j) - vb (A i j))
    rw [sub_add_sub_cancel] at h3
    rw [norm_sub_rev]
    linarith
  · have he : 0 ≤ uS := (norm_nonneg _).trans (sR i hi j hj)
    have h1 := orth i hi j hj
    have h2 := sum_store (M := M) (a := fun k => vo (QR.1 i k)) (a' := fun k => v (A1 k (i + M))) (b := fun k => star (vo (QR.1 j k)))
      (b' := fun k => star (v (A1 k (j + M)))) (Q := V) hR.V0 he (fun k hk => nQ k hk i hi)
      (fun k hk => by rw [norm_star]; exact nQ k hk j hj) (fun k hk => sQ i hi k hk)
      (fun k hk => by rw [← star_sub, norm_star]; exact sQ j hj k hk)
    have h3 := norm_add_le (∑ k ∈ range M, vo (QR.1 i k) * star (vo (QR.1 j k)) - ∑ k ∈ range M, v (A1 k (i + M)) * star (v (A1 k (j + M))))
      (∑ k ∈ range M, v (A1 k (i + M)) * star (v (A1 k (j + M))) - if i = j then 1 else 0)
    rw [sub_add_sub_cancel] at h3
    linarith
  · have h1 := low i hi j hj
    have h2 := sR i hi j (by omega)
    have h3 := norm_add_le (vo (QR.2 i j) - v (A1 i j)) (v (A1 i j))
    rw [sub_add_cancel] at h3
    linarith
  · exact (dia i hi).near (sR i (by omega) i (by omega))

theorem separateDiag_eq (o : Ops β α κ ω) {κ' : Type} (d : DiagOps α κ' ω) (M : ℕ) (A1 : Mem α) (e : κ') (Q R : Mem ω) {i j : ℕ}
    (hi : i < M) (hj : j < M) :
    (separateDiag o d M A1 e Q R).1 i j = (if j = M - 1 then d.storeMul (A1 j (i + M)) e else o.store (A1 j (i + M))) ∧
    (separateDiag o d M A1 e Q R).2 i j = o.store (A1 i j) := by
  have inner : ∀ (f : ℕ → ℕ → ω) (r n : ℕ) (QR : Mem ω × Mem ω), forUp (fun j (QR : Mem ω × Mem ω) =>
      (Mem.put QR.1 j r (f r j), Mem.put QR.2 r j (o.store (A1 r j)))) n QR =
      (forUp (fun j m => Mem.put m j r (f r j)) n QR.1, forUp (fun j m => Mem.put m r j (o.store (A1 r j))) n QR.2) := by
    intro f r n QR
    induction n with
    | zero => rfl
    | succ n ih => rw [forUp, ih]; rfl
  have outer : ∀ (f : ℕ → ℕ → ω) n, forUp (fun i QR => forUp (fun j (QR : Mem ω × Mem ω) =>
      (Mem.put QR.1 j i (f i j), Mem.put QR.2 i j (o.store (A1 i j)))) M QR) n (Q, R) =
      (forUp (fun i m => forUp (fun j m => Mem.put m j i (f i j)) M m) n Q,
        forUp (fun i m => forUp (fun j m => Mem.put m i j (o.store (A1 i j))) M m) n R) := by
    intro f n
    induction n with
    | zero => rfl
    | succ n ih => rw [forUp, ih, inner]; rfl
  have := outer (fun i j => if i = M - 1 then d.storeMul (A1 i (j + M)) e else o.store (A1 i (j + M))) M
  unfold separateDiag
  rw [this]
  constructor
  · simp only []
    rw [fillT_eq M M (fun i j => if i = M - 1 then d.storeMul (A1 i (j + M)) e else o.store (A1 i (j + M))), if_pos ⟨hj, hi⟩]
  · simp only []
    rw [fill_eq M M (fun i j => o.store (A1 i j)), if_pos ⟨hi, hj⟩]

theorem sum_last {n : ℕ} {f g : ℕ → ℂ} {e : ℝ} (h : ∀ k < n, f k = g k) (he : ‖f n - g n‖ ≤ e) :
    ‖∑ k ∈ range (n + 1), f k - ∑ k ∈ range (n + 1), g k‖ ≤ e := by
  rw [sum_range_succ, sum_range_succ, sum_congr rfl fun k hk => h k (mem_range.1 hk)]
  rwa [add_sub_add_left_eq_sub]

/-- What holds of all results holds of the elements of the array. -/
theorem rotated_all {κ' : Type} {d : DiagOps α κ' ω} {wd : κ' → ℂ} {P : α → Prop} {ρd Y δ η : ℝ}
    (hd : DiagAccurate o d v wd vo P X ρd Y uS δ η) (hM : 2 * M < 2 ^ 32) (A : Mem β) (junk : Mem α) :
    ∀ i < M, ∀ j < 2 * M, P (rotated o M A junk i j) := by
  have h0 : ∀ i < M, ∀ j < 2 * M, P (initMat o M A junk i j) := fun i hi j hj => by
    rcases Nat.lt_or_ge j M with h | h
    · rw [(initMat_eq o hM A junk hi h).1]; exact hd.load _
    · obtain ⟨l, rfl⟩ : ∃ l, j = l + M := ⟨j - M, by omega⟩
      rw [(initMat_eq o hM A junk hi (show l < M by omega)).2]
      split_ifs
      · exact hd.one
      · exact hd.zero
  have hrot : ∀ i x y c s, P (rotate o M i x y c s).1 ∧ P (rotate o M i x y c s).2 := fun i x y c s => by
    unfold rotate
    split_ifs
    · exact hd.rotR x y c s
    · exact hd.rotQ x y c s
  have row : ∀ (col row : ℕ) (st : Mem α × List (α × α)), (∀ i < M, ∀ j < 2 * M, P (st.1 i j)) →
      ∀ i < M, ∀ j < 2 * M, P ((rowLoop o M col row st).1 i j) := by
    intro col row
    induction row with
    | zero => intro st h; exact h
    | succ r ih =>
      intro st h
      unfold rowLoop
      split_ifs
      · exact h
      · refine ih _ fun i hi j hj => ?_
        unfold step
        simp only []
        rw [offdiagonal_eq o M (Nat.succ_pos r), if_pos hj]
        split_ifs
        · exact (hrot _ _ _ _ _).1
        · exact (hrot _ _ _ _ _).2
        · exact h i hi j hj
  have col : ∀ c, ∀ i < M, ∀ j < 2 * M,
      P ((forUp (fun col st => rowLoop o M col (M - 1) st) c (initMat o M A junk, ([] : List (α × α)))).1 i j) := by
    intro c
    induction c with
    | zero => exact h0
    | succ c ih => exact row c (M - 1) _ ih
  exact col M

theorem outputsDiag {κ' : Type} {d : DiagOps α κ' ω} {wd : κ' → ℂ} {P : α → Prop} {ρd Y δ η : ℝ}
    (ha : Accurate o vb v w vo ok D X ρ u uL uS ε ζ) (hd : DiagAccurate o d v wd vo P X ρd Y uS δ η) (hHY : H ≤ Y)
    (hR : Room M (cnt M M) ε u ζ X (D + uL) H V B) (hM0 : 1 ≤ M)
    (hM : 2 * M < 2 ^ 32) (A : Mem β) (junk : Mem α) (Q0 R0 : Mem ω) (hD : ∀ i < M, ∀ j < M, ‖vb (A i j)‖ ≤ D)
    (hp : Apart v ρ (pairs o M A junk)) (hb : ρd ≤ ‖v (rotated o M A junk (M - 1) (M - 1))‖) :
    (∀ i < M, ∀ j < M, ‖vb (A i j) - ∑ k ∈ range M, vo ((qrdDiag o d M A junk Q0 R0).1 i k) * vo ((qrdDiag o d M A junk Q0 R0).2 k j)‖ ≤
      uL + cnt M M * drift ε u V H + V * (η + (2 + δ) * B) + M * (uS * ((1 + δ) * V + Y + uS))) ∧
    (∀ i < M, ∀ j < M, ‖∑ k ∈ range M, vo ((qrdDiag o d M A junk Q0 R0).1 i k) * star (vo ((qrdDiag o d M A junk Q0 R0).1 j k)) -
      (if i = j then 1 else 0)‖ ≤ cnt M M * drift ε u V V + δ * V ^ 2 + M * (uS * ((1 + δ) * V + (1 + δ) * V + uS))) ∧
    (∀ i < M, ∀ j < i, ‖vo ((qrdDiag o d M A junk Q0 R0).2 i j)‖ ≤ B + uS) ∧
    (∀ i, i + 1 < M → Posi (ζ + u + uS) (vo ((qrdDiag o d M A junk Q0 R0).2 i i))) ∧
    Posi 0 (vo ((qrdDiag o d M A junk Q0 R0).2 (M - 1) (M - 1))) := by
  obtain ⟨nR, nQ, res, orth, low, dia⟩ := rotated_ok ha hR hM A junk hD hp
  obtain ⟨n, rfl⟩ : ∃ n, M = n + 1 := ⟨M - 1, by omega⟩
  rw [Nat.add_sub_cancel] at hb ⊢
  have hbX : ‖v (rotated o (n + 1) A junk n n)‖ ≤ X := (nR n (by omega) n (by omega)).trans hR.HX
  have hP := rotated_all hd hM A junk n (by omega) n (by omega)
  have d1 := hd.unit _ hP hb hbX
  have d2 := hd.polar _ hP hb hbX
  have d3 := hd.size _ hP hb hbX
  have d4 := hd.store _ hP hb hbX
  have d5 := hd.real _ hP hb hbX
  have sep := fun {i j : ℕ} (hi : i < n + 1) (hj : j < n + 1) => separateDiag_eq o d (n + 1)
    ((rotated o (n + 1) A junk).put n n (d.diag (rotated o (n + 1) A junk n n)).1) (d.diag (rotated o (n + 1) A junk n n)).2 Q0 R0 hi hj
  change ∀ {i j : ℕ}, i < n + 1 → j < n + 1 → (qrdDiag o d (n + 1) A junk Q0 R0).1 i j = _ ∧
    (qrdDiag o d (n + 1) A junk Q0 R0).2 i j = _ at sep
  generalize qrdDiag o d (n + 1) A junk Q0 R0 = QR at *
  generalize rotated o (n + 1) A junk = A1 at *
  generalize d.diag (A1 n n) = r at *
  simp only [Nat.add_sub_cancel] at sep
  have δ0 : 0 ≤ δ := (abs_nonneg _).trans d1
  have p1 : ‖wd r.2‖ ≤ 1 + δ := by
    refine le_of_sq_le_sq ?_ (by linarith)
    have := (abs_le.1 d1).2
    have := mul_nonneg δ0 δ0
    have e : (1 + δ) ^ 2 = 1 + 2 * δ + δ * δ := by ring
    linarith
  have he : 0 ≤ uS := (norm_nonneg _).trans d4
  -- the elements before the outputs are stored
  have putR : ∀ i j, A1.put n n r.1 i j = if i = n ∧ j = n then r.1 else A1 i j := fun i j => by unfold Mem.put; rfl
  have putQ : ∀ i j, A1.put n n r.1 i (j + (n + 1)) = A1 i (j + (n + 1)) := fun i j => by
    rw [putR, if_neg (by omega)]
  set R' : ℕ → ℕ → ℂ := fun i j => if i = n ∧ j = n then v r.1 else v (A1 i j) with hR'
  set Q' : ℕ → ℕ → ℂ := fun i j => if j = n then v (A1 j (i + (n + 1))) * wd r.2 else v (A1 j (i + (n + 1))) with hQ'
  have nR' : ∀ i < n + 1, ∀ j < n + 1, ‖R' i j‖ ≤ Y := fun i hi j hj => by
    simp only [hR']
    split_ifs
    · exact d3
    · exact (nR i hi j hj).trans hHY
  have nQ' : ∀ i < n + 1, ∀ j < n + 1, ‖Q' i j‖ ≤ (1 + δ) * V := fun i hi j hj => by
    simp only [hQ']
    have := nQ j hj i hi
    split_ifs
    · rw [norm_mul, mul_comm]
      exact mul_le_mul p1 this (norm_nonneg _) (by linarith)
    · have := mul_nonneg δ0 hR.V0
      linarith
  have sR : ∀ i < n + 1, ∀ j < n + 1, ‖vo (QR.2 i j) - R' i j‖ ≤ uS := fun i hi j hj => by
    rw [(sep hi hj).2, putR]
    simp only [hR']
    split_ifs
    · exact d4
    · exact ha.store _ ((nR i hi j hj).trans hR.HX)
  have sQ : ∀ i < n + 1, ∀ j < n + 1, ‖vo (QR.1 i j) - Q' i j‖ ≤ uS := fun i hi j hj => by
    rw [(sep hi hj).1, putQ]
    simp only [hQ']
    split_ifs
    · exact hd.storeMul _ _ ((nQ j hj i hi).trans hR.VX) d1
    · exact ha.store _ ((nQ j hj i hi).trans hR.VX)
  have V1 : 0 ≤ (1 + δ) * V := mul_nonneg (by linarith) hR.V0
  refine ⟨fun i hi j hj => ?_, fun i hi j hj => ?_, fun i hi j hj => ?_, fun i hi => ?_, ?_⟩
  · have h1 := res i hi j hj
    have h2 := sum_store (M := n + 1) (a := fun k => vo (QR.1 i k)) (a' := fun k => Q' i k) (b := fun k => vo (QR.2 k j))
      (b' := fun k => R' k j) V1 he (fun k hk => nQ' i hi k hk) (fun k hk => nR' k hk j hj) (fun k hk => sQ i hi k hk)
      (fun k hk => sR k hk j hj)
    have η0 : 0 ≤ η := (norm_nonneg _).trans d2
    have h4 : ‖∑ k ∈ range (n + 1), Q' i k * R' k j - ∑ k ∈ range (n + 1), v (A1 k (i + (n + 1))) * v (A1 k j)‖ ≤
        V * (η + (2 + δ) * B) := by
      refine sum_last (fun k hk => ?_) ?_
      · simp only [hQ', hR']
        rw [if_neg (by omega), if_neg (by omega)]
      · simp only [hQ', hR']
        have nq := nQ n (by omega) i hi
        by_cases hjn : j = n
        · subst hjn
          simp only [and_self, if_true]
          have e : v (A1 j (i + (j + 1))) * wd r.2 * v r.1 - v (A1 j (i + (j + 1))) * v (A1 j j) =
            v (A1 j (i + (j + 1))) * -(v (A1 j j) - wd r.2 * v r.1) := by ring
          rw [e, norm_mul, norm_neg]
          refine mul_le_mul nq ?_ (norm_nonneg _) hR.V0
          have := mul_nonneg (show 0 ≤ 2 + δ by linarith) hR.B0
          linarith
        · simp only [hjn, and_false, if_false, if_true]
          have e : v (A1 n (i + (n + 1))) * wd r.2 * v (A1 n j) - v (A1 n (i + (n + 1))) * v (A1 n j) =
            v (A1 n (i + (n + 1))) * ((wd r.2 - 1) * v (A1 n j)) := by ring
          rw [e, norm_mul, norm_mul]
          refine mul_le_mul nq ?_ (by positivity) hR.V0
          have h5 : ‖wd r.2 - 1‖ ≤ 2 + δ := by
            have := norm_sub_le (wd r.2) 1
            rw [norm_one] at this
            linarith
          have := mul_le_mul h5 (low n (by omega) j (by omega)) (norm_nonneg _) (by linarith)
          linarith
    have h3 := norm_add₃_le (a := ∑ k ∈ range (n + 1), vo (QR.1 i k) * vo (QR.2 k j) - ∑ k ∈ range (n + 1), Q' i k * R' k j)
      (b := ∑ k ∈ range (n + 1), Q' i k * R' k j - ∑ k ∈ range (n + 1), v (A1 k (i + (n + 1))) * v (A1 k j))
      (c := ∑ k ∈ range (n + 1), v (A1 k (i + (n + 1))) * v (A1 k j) - vb (A i j))
    rw [sub_add_sub_cancel, sub_add_sub_cancel] at h3
    rw [norm_sub_rev]
    linarith
  · have h1 := orth i hi j hj
    have h2 := sum_store (M := n + 1) (a := fun k => vo (QR.1 i k)) (a' := fun k => Q' i k) (b := fun k => star (vo (QR.1 j k)))
      (b' := fun k => star (Q' j k)) (Q := (1 + δ) * V) V1 he (fun k hk => nQ' i hi k hk)
      (fun k hk => by rw [norm_star]; exact nQ' j hj k hk) (fun k hk => sQ i hi k hk)
      (fun k hk => by rw [← star_sub, norm_star]; exact sQ j hj k hk)
    have h4 : ‖∑ k ∈ range (n + 1), Q' i k * star (Q' j k) -
        ∑ k ∈ range (n + 1), v (A1 k (i + (n + 1))) * star (v (A1 k (j + (n + 1))))‖ ≤ δ * V ^ 2 := by
      refine sum_last (fun k hk => ?_) ?_
      · simp only [hQ']
        rw [if_neg (by omega), if_neg (by omega)]
      · simp only [hQ', if_true, star_mul']
        have e : v (A1 n (i + (n + 1))) * wd r.2 * (star (v (A1 n (j + (n + 1)))) * star (wd r.2)) -
            v (A1 n (i + (n + 1))) * star (v (A1 n (j + (n + 1)))) =
            (star (wd r.2) * wd r.2 - 1) * (v (A1 n (i + (n + 1))) * star (v (A1 n (j + (n + 1))))) := by ring
        rw [e, nsq, norm_mul, norm_mul, norm_star]
        have e2 : ((‖wd r.2‖ ^ 2 : ℝ) : ℂ) - 1 = ((‖wd r.2‖ ^ 2 - 1 : ℝ) : ℂ) := by push_cast; rfl
        rw [e2, Complex.norm_real, Real.norm_eq_abs, pow_two V]
        exact mul_le_mul d1 (mul_le_mul (nQ n (by omega) i hi) (nQ n (by omega) j hj) (norm_nonneg _) hR.V0) (by positivity) δ0
    have h3 := norm_add₃_le (a := ∑ k ∈ range (n + 1), vo (QR.1 i k) * star (vo (QR.1 j k)) - ∑ k ∈ range (n + 1), Q' i k * star (Q' j k))
      (b := ∑ k ∈ range (n + 1), Q' i k * star (Q' j k) - ∑ k ∈ range (n + 1), v (A1 k (i + (n + 1))) * star (v (A1 k (j + (n + 1)))))
      (c := ∑ k ∈ range (n + 1), v (A1 k (i + (n + 1))) * star (v (A1 k (j + (n + 1)))) - if i = j then 1 else 0)
    rw [sub_add_sub_cancel, sub_add_sub_cancel] at h3
    linarith
  · have h1 := low i hi j hj
    have h2 := sR i hi j (by omega)
    simp only [hR'] at h2
    rw [if_neg (by omega)] at h2
    have h3 := norm_add_le (vo (QR.2 i j) - v (A1 i j)) (v (A1 i j))
    rw [sub_add_cancel] at h3
    linarith
  · have h2 := sR i (by omega) i (by omega)
    simp only [hR'] at h2
    rw [if_neg (by omega)] at h2
    exact (dia i hi).near h2
  · rw [(sep (by omega) (by omega)).2, putR, if_pos ⟨rfl, rfl⟩]
    exact ⟨by rw [d5.1, abs_zero], by rw [neg_zero]; exact d5.2⟩

end Proof.QrdRound
