import Verif.Model.Qrd
import Mathlib.LinearAlgebra.Matrix.ToLinearEquiv
import Mathlib.LinearAlgebra.Matrix.ConjTranspose
import Mathlib.Analysis.Complex.Order
import Mathlib.Tactic.LinearCombination

/-! # Proofs about ac_qrd -/

namespace Proof.Qrd
open Ac Model.Qrd Matrix
open scoped ComplexConjugate ComplexOrder

variable {𝕜 : Type} [RCLike 𝕜]

theorem initMat_eq {M : ℕ} (hM : 2 * M < 2 ^ 32) (A junk : Mem 𝕜) {i j : ℕ} (hi : i < M) (hj : j < M) :
    initMat M A junk i j = A i j ∧ initMat M A junk i (j + M) = if j = i then 1 else 0 := by
  have tst : ∀ i j, i < M → j < M → ((((j + M : ℕ) : ℤ) - i) % 2 ^ 32 = M % 2 ^ 32 ↔ j = i) := by
    intro i j hi hj
    norm_num at hM ⊢
    push_cast
    omega
  have inner : ∀ (r n : ℕ) (m : Mem 𝕜) (i j : ℕ), n ≤ M → j < 2 * M →
      forUp (fun j m => (Mem.put m r j (A r j)).put r (j + M)
        (if (((j + M : ℕ) : ℤ) - r) % 2 ^ 32 = M % 2 ^ 32 then 1 else 0)) n m i j =
      if i = r ∧ j < n then A r j else if i = r ∧ M ≤ j ∧ j < n + M then
        (if (((j : ℕ) : ℤ) - r) % 2 ^ 32 = M % 2 ^ 32 then 1 else 0) else m i j := by
    intro r n m i j hn hj
    induction n with
    | zero => rw [if_neg (by omega), if_neg (by omega)]; rfl
    | succ n ih =>
      rw [forUp]
      unfold Mem.put; beta_reduce
      by_cases h1 : i = r
      · by_cases h2 : j = n + M
        · rw [if_pos ⟨h1, h2⟩, if_neg (show ¬ (i = r ∧ j < n + 1) by omega),
            if_pos (show i = r ∧ M ≤ j ∧ j < n + 1 + M from ⟨h1, by omega⟩), h2]
        · rw [if_neg (by tauto)]
          by_cases h3 : j = n
          · rw [if_pos ⟨h1, h3⟩, if_pos ⟨h1, by omega⟩, h3]
          · rw [if_neg (by tauto)]
            have := ih (by omega)
            unfold Mem.put at this
            rw [this]
            have e1 : (i = r ∧ j < n) ↔ (i = r ∧ j < n + 1) := by omega
            have e2 : (i = r ∧ M ≤ j ∧ j < n + M) ↔ (i = r ∧ M ≤ j ∧ j < n + 1 + M) := by omega
            simp only [e1, e2]
      · have := ih (by omega)
        unfold Mem.put at this
        rw [if_neg (by tauto), if_neg (by tauto), this, if_neg (by tauto), if_neg (by tauto), if_neg (by tauto),
          if_neg (by tauto)]
  have outer : ∀ n ≤ M, ∀ i < n, ∀ j < 2 * M, forUp (fun i m => forUp (fun j m => (Mem.put m i j (A i j)).put i (j + M)
      (if (((j + M : ℕ) : ℤ) - i) % 2 ^ 32 = M % 2 ^ 32 then 1 else 0)) M m) n junk i j =
      if j < M then A i j else (if (((j : ℕ) : ℤ) - i) % 2 ^ 32 = M % 2 ^ 32 then 1 else 0) := by
    intro n
    induction n with
    | zero => intro _ i hi; omega
    | succ n ih =>
      intro hn i hi j hj
      rw [forUp, inner n M _ i j le_rfl hj]
      by_cases h1 : i = n
      · subst h1
        by_cases h2 : j < M
        · rw [if_pos ⟨rfl, h2⟩, if_pos h2]
        · rw [if_neg (by tauto), if_pos ⟨rfl, by omega⟩, if_neg h2]
      · rw [if_neg (by tauto), if_neg (by tauto), ih (by omega) i (by omega) j hj]
  unfold initMat
  constructor
  · rw [outer M le_rfl i hi j (by omega), if_pos hj]
  · rw [outer M le_rfl i hi (j + M) (by omega), if_neg (by omega)]
    have := tst i j hi hj
    by_cases h : j = i
    · rw [if_pos h, if_pos (this.mpr h)]
    · rw [if_neg h, if_neg (fun h' => h (this.mp h'))]

theorem offdiagonal_eq (M : ℕ) {pivot : ℕ} (hp : 0 < pivot) (c s : 𝕜) (A1 : Mem 𝕜) (k i : ℕ) :
    offdiagonalPE M pivot c s A1 k i = if i < 2 * M then
      (if k = pivot - 1 then (rotate M i (A1 (pivot - 1) i) (A1 pivot i) c s).1
        else if k = pivot then (rotate M i (A1 (pivot - 1) i) (A1 pivot i) c s).2 else A1 k i) else A1 k i := by
  unfold offdiagonalPE
  have key : ∀ n k i, forUp (fun i A1 =>
      let r := rotate M i (A1 (pivot - 1) i) (A1 pivot i) c s
      (Mem.put A1 (pivot - 1) i r.1).put pivot i r.2) n A1 k i = if i < n then
      (if k = pivot - 1 then (rotate M i (A1 (pivot - 1) i) (A1 pivot i) c s).1
        else if k = pivot then (rotate M i (A1 (pivot - 1) i) (A1 pivot i) c s).2 else A1 k i) else A1 k i := by
    intro n
    induction n with
    | zero => intro k i; rw [if_neg (by omega)]; rfl
    | succ n ih =>
      intro k i
      rw [forUp]
      simp only []
      rw [ih (pivot - 1) n, ih pivot n, if_neg (lt_irrefl n), if_neg (lt_irrefl n)]
      unfold Mem.put at ih ⊢; beta_reduce
      by_cases h1 : i = n
      · subst h1
        by_cases h2 : k = pivot
        · rw [if_pos ⟨h2, rfl⟩, if_pos (by omega), if_neg (by omega), if_pos h2]
        · rw [if_neg (by tauto)]
          by_cases h3 : k = pivot - 1
          · rw [if_pos ⟨h3, rfl⟩, if_pos (by omega), if_pos h3]
          · rw [if_neg (by tauto), ih, if_neg (by omega), if_pos (by omega), if_neg h3, if_neg h2]
      · rw [if_neg (by tauto), if_neg (by tauto), ih]
        have : i < n ↔ i < n + 1 := by omega
        simp only [this]
  exact key (2 * M) k i

theorem sum_two_rows {M : ℕ} {f g : ℕ → 𝕜} {r : ℕ} (hr : r + 1 < M) (h : ∀ k, k ≠ r → k ≠ r + 1 → f k = g k)
    (h2 : f r + f (r + 1) = g r + g (r + 1)) : ∑ k ∈ Finset.range M, f k = ∑ k ∈ Finset.range M, g k := by
  have split : ∀ f : ℕ → 𝕜, ∑ k ∈ Finset.range M, f k =
      ∑ k ∈ (Finset.range M).filter (fun k => ¬ (k = r ∨ k = r + 1)), f k + (f r + f (r + 1)) := by
    intro f
    rw [← Finset.sum_filter_not_add_sum_filter (Finset.range M) (fun k => k = r ∨ k = r + 1)]
    congr 1
    have : (Finset.range M).filter (fun k => k = r ∨ k = r + 1) = {r, r + 1} := by
      ext k; simp only [Finset.mem_filter, Finset.mem_range, Finset.mem_insert, Finset.mem_singleton]; omega
    rw [this, Finset.sum_pair (by omega)]
  rw [split f, split g, h2]
  congr 1
  apply Finset.sum_congr rfl
  intro k hk
  have := (Finset.mem_filter.mp hk).2
  exact h k (fun h' => this (Or.inl h')) (fun h' => this (Or.inr h'))

/-- The product QR and the inner products of the columns of Q. -/
structure Good (M : ℕ) (A A1 : Mem 𝕜) : Prop where
  prod : ∀ j < M, ∀ l < M, ∑ i ∈ Finset.range M, A1 i (j + M) * A1 i l = A j l
  orth : ∀ j < M, ∀ l < M, ∑ i ∈ Finset.range M, conj (A1 i (j + M)) * A1 i (l + M) = if j = l then 1 else 0

theorem good_init {M : ℕ} (hM : 2 * M < 2 ^ 32) (A junk : Mem 𝕜) : Good M A (initMat M A junk) := by
  constructor
  · intro j hj l hl
    rw [Finset.sum_eq_single j]
    · rw [(initMat_eq hM A junk hj hl).1, (initMat_eq hM A junk hj hj).2, if_pos rfl, one_mul]
    · intro i hi hij
      rw [(initMat_eq hM A junk (Finset.mem_range.mp hi) hj).2, if_neg (Ne.symm hij), zero_mul]
    · intro h; exact absurd (Finset.mem_range.mpr hj) h
  · intro j hj l hl
    rw [Finset.sum_eq_single j]
    · rw [(initMat_eq hM A junk hj hj).2, (initMat_eq hM A junk hj hl).2, if_pos rfl, map_one, one_mul]
      by_cases h : j = l
      · rw [if_pos h, if_pos h.symm]
      · rw [if_neg h, if_neg (Ne.symm h)]
    · intro i hi hij
      rw [(initMat_eq hM A junk (Finset.mem_range.mp hi) hj).2, if_neg (Ne.symm hij), map_zero, zero_mul]
    · intro h; exact absurd (Finset.mem_range.mpr hj) h

/-- A rotation with |c|²+|s|²=1 keeps both. -/
theorem good_rotate {M : ℕ} {A A1 : Mem 𝕜} (h : Good M A A1) {r : ℕ} (hr : r + 1 < M) {c s : 𝕜}
    (hcs : conj c * c + conj s * s = 1) : Good M A (offdiagonalPE M (r + 1) c s A1) := by
  have e := fun k i => offdiagonal_eq M (Nat.succ_pos r) c s A1 k i
  simp only [Nat.succ_eq_add_one, Nat.add_sub_cancel] at e
  have eo : ∀ k i, k ≠ r → k ≠ r + 1 → offdiagonalPE M (r + 1) c s A1 k i = A1 k i := by
    intro k i h1 h2
    rw [e, if_neg h1, if_neg h2, ite_self]
  have eR : ∀ l < M, offdiagonalPE M (r + 1) c s A1 r l = conj c * A1 r l + -(conj s) * A1 (r + 1) l ∧
      offdiagonalPE M (r + 1) c s A1 (r + 1) l = c * A1 (r + 1) l + s * A1 r l := by
    intro l hl
    constructor
    · rw [e, if_pos (by omega), if_pos rfl, rotate, if_pos hl]
    · rw [e, if_pos (by omega), if_neg (by omega), if_pos rfl, rotate, if_pos hl]
  have eQ : ∀ j < M, offdiagonalPE M (r + 1) c s A1 r (j + M) = c * A1 r (j + M) + -s * A1 (r + 1) (j + M) ∧
      offdiagonalPE M (r + 1) c s A1 (r + 1) (j + M) = conj c * A1 (r + 1) (j + M) + conj s * A1 r (j + M) := by
    intro j hj
    constructor
    · rw [e, if_pos (by omega), if_pos rfl, rotate, if_neg (by omega)]
    · rw [e, if_pos (by omega), if_neg (by omega), if_pos rfl, rotate, if_neg (by omega)]
  constructor
  · intro j hj l hl
    rw [← h.prod j hj l hl]
    apply sum_two_rows hr
    · intro k h1 h2
      rw [eo k _ h1 h2, eo k _ h1 h2]
    · rw [(eR l hl).1, (eR l hl).2, (eQ j hj).1, (eQ j hj).2]
      linear_combination (A1 r (j + M) * A1 r l + A1 (r + 1) (j + M) * A1 (r + 1) l) * hcs
  · intro j hj l hl
    rw [← h.orth j hj l hl]
    apply sum_two_rows hr
    · intro k h1 h2
      rw [eo k _ h1 h2, eo k _ h1 h2]
    · rw [(eQ l hl).1, (eQ l hl).2, (eQ j hj).1, (eQ j hj).2]
      simp only [map_add, map_mul, map_neg, RCLike.conj_conj]
      linear_combination (conj (A1 r (j + M)) * A1 r (l + M) + conj (A1 (r + 1) (j + M)) * A1 (r + 1) (l + M)) * hcs

theorem cs_norm {a b : 𝕜} {r : ℝ} (hr : r = 1 / Real.sqrt (RCLike.normSq b + RCLike.normSq a))
    (h0 : Real.sqrt (RCLike.normSq b + RCLike.normSq a) ≠ 0) :
    conj (a * (r : 𝕜)) * (a * (r : 𝕜)) + conj (-b * (r : 𝕜)) * (-b * (r : 𝕜)) = 1 := by
  have hn : ∀ x : 𝕜, conj x * x = ((RCLike.normSq x : ℝ) : 𝕜) := fun x => by
    rw [RCLike.conj_mul, RCLike.normSq_eq_def']; simp
  have hnn : 0 ≤ RCLike.normSq b + RCLike.normSq a := add_nonneg (RCLike.normSq_nonneg _) (RCLike.normSq_nonneg _)
  have e : conj (a * (r : 𝕜)) * (a * (r : 𝕜)) + conj (-b * (r : 𝕜)) * (-b * (r : 𝕜)) =
      (conj a * a + conj b * b) * ((r * r : ℝ) : 𝕜) := by
    simp only [map_mul, map_neg, RCLike.conj_ofReal, RCLike.ofReal_mul]; ring
  rw [e, hn, hn, ← RCLike.ofReal_add, ← RCLike.ofReal_mul, hr, add_comm (RCLike.normSq a)]
  have : (RCLike.normSq b + RCLike.normSq a) * (1 / Real.sqrt (RCLike.normSq b + RCLike.normSq a) *
      (1 / Real.sqrt (RCLike.normSq b + RCLike.normSq a))) = 1 := by
    have h2 := Real.mul_self_sqrt hnn
    field_simp
    rw [sq, h2]
  rw [this, RCLike.ofReal_one]

/-- Zeros below the diagonal: in the columns before `col`, and in column `col` below row `row`; nonnegative diagonal. -/
structure Tri (M : ℕ) (A1 : Mem 𝕜) (col row : ℕ) : Prop where
  left : ∀ c < col, ∀ i < M, c < i → A1 i c = 0
  here : ∀ i < M, row < i → A1 i col = 0
  diag : ∀ c < col, c + 1 < M → 0 ≤ A1 c c
  top : row + 1 < M → 0 ≤ A1 row col

theorem step_some {sat : ℝ} {chk : Bool} {M col r : ℕ} {A A1 A2 : Mem 𝕜} (hr : r + 1 < M)
    (hc : col ≤ r) (hG : Good M A A1) (hT : Tri M A1 col (r + 1)) (h : step true sat M col (r + 1) A1 = some A2) :
    Good M A A2 ∧ Tri M A2 col r ∧ step chk sat M col (r + 1) A1 = some A2 := by
  unfold step diagonalPE recip at h ⊢
  rw [Nat.add_sub_cancel] at h ⊢
  set b := A1 (r + 1) col with hb
  set a := A1 r col with ha
  by_cases h0 : Real.sqrt (RCLike.normSq b + RCLike.normSq a) = 0
  · rw [if_pos h0, if_pos rfl] at h; simp at h
  · rw [if_neg h0] at h ⊢
    simp only [Option.map_some, Option.some.injEq] at h ⊢
    refine ⟨?_, ?_, h⟩
    · rw [← h]
      exact good_rotate hG hr (cs_norm rfl h0)
    · set q : ℝ := 1 / Real.sqrt (RCLike.normSq b + RCLike.normSq a) with hq
      have e := fun k i => offdiagonal_eq M (Nat.succ_pos r) (a * (q : 𝕜)) (-b * (q : 𝕜)) A1 k i
      simp only [Nat.succ_eq_add_one, Nat.add_sub_cancel, h] at e
      have hn : ∀ x : 𝕜, conj x * x = ((RCLike.normSq x : ℝ) : 𝕜) := fun x => by
        rw [RCLike.conj_mul, RCLike.normSq_eq_def']; simp
      constructor
      · intro c hcc i hi hci
        rw [e, if_pos (by omega)]
        by_cases h1 : i = r
        · rw [if_pos h1, rotate, if_pos (by omega), hT.left c hcc r (by omega) (by omega),
            hT.left c hcc (r + 1) (by omega) (by omega)]
          simp
        · rw [if_neg h1]
          by_cases h2 : i = r + 1
          · rw [if_pos h2, rotate, if_pos (by omega), hT.left c hcc r (by omega) (by omega),
              hT.left c hcc (r + 1) (by omega) (by omega)]
            simp
          · rw [if_neg h2]; exact hT.left c hcc i hi hci
      · intro i hi hri
        rw [e, if_pos (by omega), if_neg (by omega)]
        by_cases h2 : i = r + 1
        · rw [if_pos h2, rotate, if_pos (by omega), ← hb, ← ha]
          ring
        · rw [if_neg h2]; exact hT.here i hi (by omega)
      · intro c hcc hcM
        rw [e, if_pos (by omega), if_neg (by omega), if_neg (by omega)]
        exact hT.diag c hcc hcM
      · intro _
        rw [e, if_pos (by omega), if_pos rfl, rotate, if_pos (by omega), ← hb, ← ha]
        have : conj (a * (q : 𝕜)) * a + -conj (-b * (q : 𝕜)) * b =
            (((RCLike.normSq b + RCLike.normSq a) * q : ℝ) : 𝕜) := by
          rw [RCLike.ofReal_mul, RCLike.ofReal_add, ← hn, ← hn]
          simp only [map_mul, map_neg, RCLike.conj_ofReal]
          ring
        simp only [this]
        rw [RCLike.ofReal_nonneg]
        exact mul_nonneg (add_nonneg (RCLike.normSq_nonneg _) (RCLike.normSq_nonneg _))
          (div_nonneg zero_le_one (Real.sqrt_nonneg _))

theorem rowLoop_some {sat : ℝ} {chk : Bool} {M col : ℕ} {A : Mem 𝕜} :
    ∀ (row : ℕ) (A1 A2 : Mem 𝕜), row < M → col ≤ row → Good M A A1 → Tri M A1 col row →
      rowLoop true sat M col row A1 = some A2 →
      Good M A A2 ∧ Tri M A2 col col ∧ rowLoop chk sat M col row A1 = some A2 := by
  intro row
  induction row with
  | zero =>
    intro A1 A2 _ hc hG hT h
    obtain rfl : col = 0 := by omega
    rw [rowLoop] at h ⊢
    obtain rfl := Option.some.inj h
    exact ⟨hG, hT, rfl⟩
  | succ row ih =>
    intro A1 A2 hr hc hG hT h
    rw [rowLoop] at h ⊢
    by_cases hrc : row + 1 = col
    · rw [if_pos hrc] at h ⊢
      obtain rfl := Option.some.inj h
      exact ⟨hG, by rw [hrc] at hT; exact hT, rfl⟩
    · rw [if_neg hrc] at h ⊢
      cases hs : step true sat M col (row + 1) A1 with
      | none => rw [hs] at h; simp at h
      | some A3 =>
        rw [hs, Option.bind_some] at h
        obtain ⟨g1, g2, g3⟩ := step_some (chk := chk) hr (by omega) hG hT hs
        rw [g3, Option.bind_some]
        exact ih A3 A2 (by omega) (by omega) g1 g2 h

theorem colLoop_some {sat : ℝ} {chk : Bool} {M : ℕ} {A A1 A2 : Mem 𝕜} (hG : Good M A A1)
    (h : colLoop true sat M A1 = some A2) :
    Good M A A2 ∧ (∀ c < M, ∀ i < M, c < i → A2 i c = 0) ∧ (∀ c, c + 1 < M → 0 ≤ A2 c c) ∧
      colLoop chk sat M A1 = some A2 := by
  have key : ∀ n ≤ M, ∀ A2, forUp (fun col (A1 : Option (Mem 𝕜)) => A1.bind fun A1 => rowLoop true sat M col (M - 1) A1) n
      (some A1) = some A2 → Good M A A2 ∧ (∀ c < n, ∀ i < M, c < i → A2 i c = 0) ∧
      (∀ c < n, c + 1 < M → 0 ≤ A2 c c) ∧
      forUp (fun col (A1 : Option (Mem 𝕜)) => A1.bind fun A1 => rowLoop chk sat M col (M - 1) A1) n
      (some A1) = some A2 := by
    intro n
    induction n with
    | zero =>
      intro _ A2 h
      obtain rfl := Option.some.inj h
      exact ⟨hG, fun c hc => by omega, fun c hc => by omega, rfl⟩
    | succ n ih =>
      intro hn A2 h
      rw [forUp] at h ⊢
      cases hs : forUp (fun col (A1 : Option (Mem 𝕜)) => A1.bind fun A1 => rowLoop true sat M col (M - 1) A1) n
        (some A1) with
      | none => rw [hs] at h; simp at h
      | some A3 =>
        rw [hs, Option.bind_some] at h
        obtain ⟨g1, g2, g3, g4⟩ := ih (by omega) A3 hs
        rw [g4, Option.bind_some]
        have hT : Tri M A3 n (M - 1) := ⟨g2, fun i hi h => by omega, g3, fun h => by omega⟩
        obtain ⟨k1, k2, k3⟩ := rowLoop_some (chk := chk) (M - 1) A3 A2 (by omega) (by omega) g1 hT h
        refine ⟨k1, ?_, ?_, k3⟩
        · intro c hc i hi hci
          rcases Nat.lt_or_ge c n with hlt | hge
          · exact k2.left c hlt i hi hci
          · obtain rfl : c = n := by omega
            exact k2.here i hi hci
        · intro c hc hcM
          rcases Nat.lt_or_ge c n with hlt | hge
          · exact k2.diag c hlt hcM
          · obtain rfl : c = n := by omega
            exact k2.top hcM
  obtain ⟨g1, g2, g3, g4⟩ := key M le_rfl A2 h
  exact ⟨g1, g2, fun c hc => g3 c (by omega) hc, g4⟩

/-! ## A zero pair makes Q singular -/

/-- Some nonzero combination of the columns of the Q part vanishes. -/
def Sing (M : ℕ) (A1 : Mem 𝕜) : Prop := ∃ v : ℕ → 𝕜, (∃ j < M, v j ≠ 0) ∧
  ∀ i < M, ∑ j ∈ Finset.range M, A1 i (j + M) * v j = 0

theorem sing_of_zero_row {M : ℕ} {A1 : Mem 𝕜} {r : ℕ} (hr : r < M) (h : ∀ j < M, A1 r (j + M) = 0) : Sing M A1 := by
  have hdet : (Matrix.of fun i j : Fin M => A1 i (j + M)).det = 0 :=
    Matrix.det_eq_zero_of_row_eq_zero ⟨r, hr⟩ fun j => h j j.2
  obtain ⟨v, hv, hv0⟩ := Matrix.exists_mulVec_eq_zero_iff.mpr hdet
  obtain ⟨j, hj⟩ : ∃ j, v j ≠ 0 := by
    by_contra hcon
    push Not at hcon
    exact hv (funext hcon)
  refine ⟨fun k => if hk : k < M then v ⟨k, hk⟩ else 0, ⟨j, j.2, by simpa using hj⟩, ?_⟩
  intro i hi
  have := congrFun hv0 ⟨i, hi⟩
  rw [← Fin.sum_univ_eq_sum_range (fun k => A1 i (k + M) * (if hk : k < M then v ⟨k, hk⟩ else 0))]
  simpa [Matrix.mulVec, dotProduct] using this

theorem sing_rotate {M : ℕ} {A1 : Mem 𝕜} (h : Sing M A1) {r : ℕ} (hr : r + 1 < M) (c s : 𝕜) :
    Sing M (offdiagonalPE M (r + 1) c s A1) := by
  obtain ⟨v, hv, h0⟩ := h
  have e := fun k i => offdiagonal_eq M (Nat.succ_pos r) c s A1 k i
  simp only [Nat.succ_eq_add_one, Nat.add_sub_cancel] at e
  refine ⟨v, hv, ?_⟩
  have lin : ∀ x y : 𝕜, ∑ j ∈ Finset.range M, (x * A1 r (j + M) + y * A1 (r + 1) (j + M)) * v j = 0 := by
    intro x y
    have : ∀ j, (x * A1 r (j + M) + y * A1 (r + 1) (j + M)) * v j =
        x * (A1 r (j + M) * v j) + y * (A1 (r + 1) (j + M) * v j) := fun j => by ring
    simp only [this]
    rw [Finset.sum_add_distrib, ← Finset.mul_sum, ← Finset.mul_sum, h0 r (by omega), h0 (r + 1) hr]
    simp
  intro i hi
  by_cases h1 : i = r
  · rw [← lin c (-s)]
    apply Finset.sum_congr rfl
    intro j hj
    have := Finset.mem_range.mp hj
    rw [e, if_pos (by omega), if_pos h1, rotate, if_neg (by omega)]
  · by_cases h2 : i = r + 1
    · rw [← lin (conj s) (conj c)]
      apply Finset.sum_congr rfl
      intro j hj
      have := Finset.mem_range.mp hj
      rw [e, if_pos (by omega), if_neg h1, if_pos h2, rotate, if_neg (by omega)]
      ring
    · rw [← h0 i hi]
      apply Finset.sum_congr rfl
      intro j hj
      have := Finset.mem_range.mp hj
      rw [e, if_pos (by omega), if_neg h1, if_neg h2]

theorem step_false (sat : ℝ) (M col row : ℕ) (A1 : Mem 𝕜) : ∃ c s,
    step false sat M col row A1 = some (offdiagonalPE M row c s A1) := by
  unfold step diagonalPE recip
  by_cases h0 : Real.sqrt (RCLike.normSq (A1 row col) + RCLike.normSq (A1 (row - 1) col)) = 0
  · rw [if_pos h0]; exact ⟨_, _, rfl⟩
  · rw [if_neg h0]; exact ⟨_, _, rfl⟩

/-- A failed division gives a singular matrix. -/
theorem step_none {sat : ℝ} {M col r : ℕ} {A1 : Mem 𝕜} (hr : r + 1 < M)
    (h : step true sat M col (r + 1) A1 = none) : ∃ A2, step false sat M col (r + 1) A1 = some A2 ∧ Sing M A2 := by
  unfold step diagonalPE recip at h ⊢
  rw [Nat.add_sub_cancel] at h ⊢
  set b := A1 (r + 1) col with hb
  set a := A1 r col with ha
  by_cases h0 : Real.sqrt (RCLike.normSq b + RCLike.normSq a) = 0
  · rw [if_pos h0]
    have hle := (Real.sqrt_eq_zero'.mp h0)
    have hb0 : b = 0 := by
      apply RCLike.normSq_eq_zero.mp
      have h1 := RCLike.normSq_nonneg b
      have h2 := RCLike.normSq_nonneg a
      linarith
    have ha0 : a = 0 := by
      apply RCLike.normSq_eq_zero.mp
      have h1 := RCLike.normSq_nonneg b
      have h2 := RCLike.normSq_nonneg a
      linarith
    refine ⟨_, rfl, ?_⟩
    have e := fun k i => offdiagonal_eq M (Nat.succ_pos r) (a * (sat : 𝕜)) (-b * (sat : 𝕜)) A1 k i
    simp only [Nat.succ_eq_add_one, Nat.add_sub_cancel] at e
    apply sing_of_zero_row (r := r) (by omega)
    intro j hj
    refine (e r (j + M)).trans ?_
    rw [if_pos (by omega), if_pos rfl, rotate, if_neg (by omega), ha0, hb0]
    simp
  · rw [if_neg h0] at h; simp at h

theorem rowLoop_sing {sat : ℝ} {M col : ℕ} : ∀ (row : ℕ) (A1 : Mem 𝕜), row < M → Sing M A1 →
    ∃ A2, rowLoop false sat M col row A1 = some A2 ∧ Sing M A2 := by
  intro row
  induction row with
  | zero => intro A1 _ h; exact ⟨A1, rfl, h⟩
  | succ row ih =>
    intro A1 hr h
    rw [rowLoop]
    split_ifs with hrc
    · exact ⟨A1, rfl, h⟩
    · obtain ⟨c, s, hs⟩ := step_false sat M col (row + 1) A1
      rw [hs, Option.bind_some]
      exact ih _ (by omega) (sing_rotate h hr c s)

theorem rowLoop_none {sat : ℝ} {M col : ℕ} {A : Mem 𝕜} : ∀ (row : ℕ) (A1 : Mem 𝕜), row < M → col ≤ row → Good M A A1 →
    Tri M A1 col row → rowLoop true sat M col row A1 = none →
    ∃ A2, rowLoop false sat M col row A1 = some A2 ∧ Sing M A2 := by
  intro row
  induction row with
  | zero => intro A1 _ _ _ _ h; simp [rowLoop] at h
  | succ row ih =>
    intro A1 hr hc hG hT h
    rw [rowLoop] at h ⊢
    by_cases hrc : row + 1 = col
    · rw [if_pos hrc] at h; simp at h
    · rw [if_neg hrc] at h ⊢
      cases hs : step true sat M col (row + 1) A1 with
      | none =>
        obtain ⟨A2, e1, e2⟩ := step_none hr hs
        rw [e1, Option.bind_some]
        exact rowLoop_sing row A2 (by omega) e2
      | some A3 =>
        rw [hs, Option.bind_some] at h
        obtain ⟨g1, g2, g3⟩ := step_some (chk := false) hr (by omega) hG hT hs
        rw [g3, Option.bind_some]
        exact ih A3 (by omega) (by omega) g1 g2 h

theorem colLoop_none {sat : ℝ} {M : ℕ} {A A1 : Mem 𝕜} (hG : Good M A A1) (h : colLoop true sat M A1 = none) :
    ∃ A2, colLoop false sat M A1 = some A2 ∧ Sing M A2 := by
  let f (chk : Bool) (n : ℕ) := forUp (fun col (A1 : Option (Mem 𝕜)) => A1.bind fun A1 => rowLoop chk sat M col (M - 1) A1)
    n (some A1)
  have key : ∀ n ≤ M, (∃ A2, f true n = some A2 ∧ f false n = some A2 ∧ Good M A A2 ∧
      (∀ c < n, ∀ i < M, c < i → A2 i c = 0) ∧ (∀ c < n, c + 1 < M → 0 ≤ A2 c c)) ∨
      (∃ A2, f false n = some A2 ∧ Sing M A2) := by
    intro n
    induction n with
    | zero => intro _; exact Or.inl ⟨A1, rfl, rfl, hG, fun c hc => by omega, fun c hc => by omega⟩
    | succ n ih =>
      intro hn
      have fs : ∀ chk, f chk (n + 1) = (f chk n).bind fun A1 => rowLoop chk sat M n (M - 1) A1 := fun _ => rfl
      rcases ih (by omega) with ⟨A2, e1, e2, e3, e4, e5⟩ | ⟨A2, e1, e2⟩
      · have hT : Tri M A2 n (M - 1) := ⟨e4, fun i hi h => by omega, e5, fun h => by omega⟩
        rw [fs, fs, e1, e2, Option.bind_some, Option.bind_some]
        cases hs : rowLoop true sat M n (M - 1) A2 with
        | none => exact Or.inr (rowLoop_none (M - 1) A2 (by omega) (by omega) e3 hT hs)
        | some A3 =>
          obtain ⟨k1, k2, k3⟩ := rowLoop_some (chk := false) (M - 1) A2 A3 (by omega) (by omega) e3 hT hs
          refine Or.inl ⟨A3, rfl, k3, k1, ?_, ?_⟩
          · intro c hc i hi hci
            rcases Nat.lt_or_ge c n with hlt | hge
            · exact k2.left c hlt i hi hci
            · obtain rfl : c = n := by omega
              exact k2.here i hi hci
          · intro c hc hcM
            rcases Nat.lt_or_ge c n with hlt | hge
            · exact k2.diag c hlt hcM
            · obtain rfl : c = n := by omega
              exact k2.top hcM
      · rw [fs false, e1, Option.bind_some]
        exact Or.inr (rowLoop_sing (M - 1) A2 (by omega) e2)
  rcases key M le_rfl with ⟨A2, e1, -⟩ | h'
  · exact absurd (h.symm.trans e1) (by simp)
  · exact h'

theorem separate_eq (rd : Bool) (M : ℕ) (A1 : Mem 𝕜) (e : 𝕜) (Q R : Mem 𝕜) (i j : ℕ) :
    (separate rd M A1 e Q R).1 i j = (if i < M ∧ j < M then
      (if rd ∧ j = M - 1 then A1 j (i + M) * e else A1 j (i + M)) else Q i j) ∧
    (separate rd M A1 e Q R).2 i j = if i < M ∧ j < M then A1 i j else R i j := by
  let g (i j : ℕ) : 𝕜 := if rd ∧ i = M - 1 then A1 i (j + M) * e else A1 i (j + M)
  have inner : ∀ (r n : ℕ) (QR : Mem 𝕜 × Mem 𝕜), forUp (fun j (QR : Mem 𝕜 × Mem 𝕜) =>
      (Mem.put QR.1 j r (g r j), Mem.put QR.2 r j (A1 r j))) n QR =
      (forUp (fun j m => Mem.put m j r (g r j)) n QR.1, forUp (fun j m => Mem.put m r j (A1 r j)) n QR.2) := by
    intro r n QR
    induction n with
    | zero => rfl
    | succ n ih => rw [forUp, ih]; rfl
  have outer : ∀ n, forUp (fun i QR => forUp (fun j (QR : Mem 𝕜 × Mem 𝕜) =>
      (Mem.put QR.1 j i (g i j), Mem.put QR.2 i j (A1 i j))) M QR) n (Q, R) =
      (forUp (fun i m => forUp (fun j m => Mem.put m j i (g i j)) M m) n Q,
        forUp (fun i m => forUp (fun j m => Mem.put m i j (A1 i j)) M m) n R) := by
    intro n
    induction n with
    | zero => rfl
    | succ n ih => rw [forUp, ih, inner]; rfl
  have : separate rd M A1 e Q R = (forUp (fun i m => forUp (fun j m => Mem.put m j i (g i j)) M m) M Q,
        forUp (fun i m => forUp (fun j m => Mem.put m i j (A1 i j)) M m) M R) := outer M
  rw [this]
  constructor
  · simp only []
    rw [fillT_eq]
    have : (j < M ∧ i < M) ↔ (i < M ∧ j < M) := and_comm
    simp only [this, g]
  · exact fill_eq M M A1 R i j

end Proof.Qrd
