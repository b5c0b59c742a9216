import Verif.Model.InPlace
import Verif.Proof.Matmul
import Verif.Proof.MatrixComplex
import Verif.Proof.Chol
import Verif.Proof.CholInv
import Verif.Proof.QrdRound

namespace Proof.InPlace
open Ac

/-- A double loop that writes every element once, from the array as it is then: what the element is computed from has the new
values at the positions already passed and the old ones elsewhere. -/
theorem sweep {α : Type*} (M P : ℕ) (G : ℕ → ℕ → Mem α → α) (m : Mem α) : ∃ R : Mem α,
    forUp (fun i m => forUp (fun j m => m.put i j (G i j m)) P m) M m = R ∧
    (∀ i j, ¬ (i < M ∧ j < P) → R i j = m i j) ∧
    ∀ i < M, ∀ j < P, R i j = G i j (fun a b => if (a < i ∨ a = i ∧ b < j) ∧ b < P then R a b else m a b) := by
  have inner : ∀ (r n : ℕ) (m : Mem α), ∃ R : Mem α, forUp (fun j m => m.put r j (G r j m)) n m = R ∧
      (∀ i j, ¬ (i = r ∧ j < n) → R i j = m i j) ∧
      ∀ j < n, R r j = G r j (fun a b => if a = r ∧ b < j then R a b else m a b) := by
    intro r n m
    induction n with
    | zero => exact ⟨m, rfl, fun _ _ _ => rfl, fun j h => absurd h (by omega)⟩
    | succ n ih =>
      obtain ⟨R, e, h1, h2⟩ := ih
      refine ⟨R.put r n (G r n R), by rw [forUp, e], ?_, ?_⟩
      · intro i j h
        rw [Mem.put, if_neg (by rintro ⟨rfl, rfl⟩; exact h ⟨rfl, by omega⟩)]
        exact h1 i j (by rintro ⟨rfl, h3⟩; exact h ⟨rfl, by omega⟩)
      · intro j hj
        rcases Nat.lt_succ_iff_lt_or_eq.1 hj with hj | rfl
        · rw [Mem.put, if_neg (by omega), h2 j hj]
          congr 1
          funext a b
          split_ifs with h
          · rw [Mem.put, if_neg (by omega)]
          · rfl
        · rw [Mem.put, if_pos ⟨rfl, rfl⟩]
          congr 1
          funext a b
          split_ifs with h
          · rw [Mem.put, if_neg (by omega)]
          · exact h1 a b h
  induction M with
  | zero => exact ⟨m, rfl, fun _ _ _ => rfl, fun i h => absurd h (by omega)⟩
  | succ M ih =>
    obtain ⟨R, e, h1, h2⟩ := ih
    obtain ⟨T, e', h3, h4⟩ := inner M P R
    refine ⟨T, by rw [forUp, e, e'], ?_, ?_⟩
    · intro i j h
      rw [h3 i j (by rintro ⟨rfl, h'⟩; exact h ⟨by omega, h'⟩)]
      exact h1 i j (by rintro ⟨h', h''⟩; exact h ⟨by omega, h''⟩)
    · intro i hi j hj
      rcases Nat.lt_succ_iff_lt_or_eq.1 hi with hi | rfl
      · rw [h3 i j (by omega), h2 i hi j hj]
        congr 1
        funext a b
        split_ifs with h
        · rw [h3 a b (by omega)]
        · rfl
      · rw [h4 j hj]
        congr 1
        funext a b
        by_cases ha : a = i ∧ b < j
        · rw [if_pos ha, if_pos ⟨Or.inr ha, by omega⟩]
        · rw [if_neg ha]
          by_cases hb : a < i ∧ b < P
          · rw [if_pos ⟨Or.inl hb.1, hb.2⟩, h3 a b (by omega)]
          · rw [if_neg (by tauto)]
            exact h1 a b hb

/-- `forUp` looks at the function below the bound only. -/
theorem forUp_congr {σ : Type*} {f g : ℕ → σ → σ} {n : ℕ} (h : ∀ k < n, f k = g k) (s : σ) : forUp f n s = forUp g n s := by
  induction n with
  | zero => rfl
  | succ n ih => rw [forUp, forUp, ih fun k hk => h k (by omega), h n (by omega)]

theorem acc_congr (fa fb : Fmt) {N : ℕ} {A A' B B' : Mem ℚ} {i j : ℕ} (hA : ∀ k < N, A i k = A' i k) (hB : ∀ k < N, B k j = B' k j) :
    Model.Matmul.acc fa fb N A B i j = Model.Matmul.acc fa fb N A' B' i j := by
  unfold Model.Matmul.acc
  exact forUp_congr (fun k hk => by rw [hA k hk, hB k hk]) _

theorem accC_congr (fp : Fmt) {N : ℕ} {A A' B B' : Mem Model.DetComplex.Cx} {i j : ℕ} (hA : ∀ k < N, A i k = A' i k)
    (hB : ∀ k < N, B k j = B' k j) : Model.MatrixComplex.acc fp N A B i j = Model.MatrixComplex.acc fp N A' B' i j := by
  unfold Model.MatrixComplex.acc
  exact forUp_congr (fun k hk => by rw [hA k hk, hB k hk]) _

open Model.Chol in
/-- `ac_chol_d` reads its input before it writes its output: what the output held before the call does not matter. -/
theorem chol_old {α τ σd σ ρ : Type} (o : Ops α τ σd σ ρ) (M : ℕ) (A : Mem α) (L L' : Mem τ) (p0 : σd) :
    ∃ R R', chol o M A L = some R ∧ chol o M A L' = some R' ∧ ∀ i < M, ∀ j < M, R i j = R' i j := by
  obtain ⟨m, b, K, p, e, -, hm, -⟩ := Proof.Chol.columns_eq o M A L (fun _ => p0) M le_rfl
  obtain ⟨R, e1, e2⟩ := Proof.Chol.outputLoop_eq o M b L hm
  obtain ⟨R', e3, e4⟩ := Proof.Chol.outputLoop_eq o M b L' hm
  refine ⟨R, R', by unfold chol columns; rw [e, Option.bind_some, e1], by unfold chol columns; rw [e, Option.bind_some, e3], ?_⟩
  intro i hi j hj
  rw [e2, e4]
  simp only [hi, hj, and_self, if_true]

open Model.CholInv in
theorem cholinv_old {α τ σd σ ρ ω : Type} (c : Model.Chol.Ops α τ σd σ ρ) (o : Ops τ ω) (M : ℕ) (A : Mem α) (L0 : Mem τ) (R0 R1 : Mem ω)
    (p0 : σd) : ∃ R R', cholinv c o M A L0 R0 = some R ∧ cholinv c o M A L0 R1 = some R' ∧ ∀ i < M, ∀ j < M, R i j = R' i j := by
  obtain ⟨L, -, e1, -, -⟩ := chol_old c M A L0 L0 p0
  obtain ⟨N, F, e2, -, hN⟩ := Proof.CholInv.columns_eq o M L
  refine ⟨_, _, by rw [cholinv, e1, Option.bind_some, e2, Option.bind_some, Proof.CholInv.product_eq o hN],
    by rw [cholinv, e1, Option.bind_some, e2, Option.bind_some, Proof.CholInv.product_eq o hN], ?_⟩
  intro i hi j hj
  simp only [hi, hj, and_self, if_true]

end Proof.InPlace
