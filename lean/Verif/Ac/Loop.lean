import Mathlib.Tactic.Ring
import Mathlib.Tactic.Linarith
import Mathlib.Algebra.BigOperators.Fin
import Mathlib.Data.Matrix.Basic

/-! # Counting loops and two-dimensional arrays -/

namespace Ac

/-- `for (i = 0; i < n; i++) s = f(i, s)`. -/
def forUp {σ : Type*} (f : ℕ → σ → σ) : ℕ → σ → σ
  | 0, s => s
  | n + 1, s => f n (forUp f n s)

/-- Contents of a two-dimensional array. -/
abbrev Mem (α : Type*) := ℕ → ℕ → α

/-- `m[r][c] = v`. -/
def Mem.put {α : Type*} (m : Mem α) (r c : ℕ) (v : α) : Mem α :=
  fun i j => if i = r ∧ j = c then v else m i j

/-- The `M` by `N` array as a matrix. -/
def Mem.mat {α : Type*} (M N : ℕ) (m : Mem α) : Matrix (Fin M) (Fin N) α := fun i j => m i j

theorem forUp_inv {σ : Type*} {f : ℕ → σ → σ} {P : ℕ → σ → Prop} {s : σ} (h0 : P 0 s) {n : ℕ}
    (hs : ∀ i t, i < n → P i t → P (i + 1) (f i t)) : P n (forUp f n s) := by
  induction n with
  | zero => exact h0
  | succ n ih => exact hs n _ (Nat.lt_succ_self n) (ih fun i t hi => hs i t (by omega))

/-- A double loop that updates every element once from its own old value. -/
theorem update_eq {α : Type*} (M N : ℕ) (g : ℕ → ℕ → α → α) (m : Mem α) (i j : ℕ) :
    forUp (fun i m => forUp (fun j m => Mem.put m i j (g i j (m i j))) N m) M m i j =
      if i < M ∧ j < N then g i j (m i j) else m i j := by
  have inner : ∀ (r n : ℕ) (m : Mem α) (i j : ℕ), forUp (fun j m => Mem.put m r j (g r j (m r j))) n m i j =
      if i = r ∧ j < n then g i j (m i j) else m i j := by
    intro r n m i j
    induction n generalizing i j with
    | zero => simp [forUp]
    | succ n ih =>
      simp only [forUp, Mem.put, ih]
      by_cases h1 : i = r
      · by_cases h2 : j = n
        · simp [h1, h2]
        · have : j < n ↔ j < n + 1 := by omega
          simp [h1, h2, this]
      · simp [h1]
  induction M generalizing i j with
  | zero => simp [forUp]
  | succ M ih =>
    simp only [forUp, inner, ih]
    by_cases h1 : i = M
    · by_cases h2 : j < N <;> simp [h1, h2]
    · have : i < M ↔ i < M + 1 := by omega
      simp [h1, this]

/-- A double loop that writes every element once. -/
theorem fill_eq {α : Type*} (M N : ℕ) (g : ℕ → ℕ → α) (m : Mem α) (i j : ℕ) :
    forUp (fun i m => forUp (fun j m => Mem.put m i j (g i j)) N m) M m i j =
      if i < M ∧ j < N then g i j else m i j :=
  update_eq M N (fun i j _ => g i j) m i j

/-- A double loop that writes the transposed positions. -/
theorem fillT_eq {α : Type*} (M N : ℕ) (g : ℕ → ℕ → α) (m : Mem α) (i j : ℕ) :
    forUp (fun i m => forUp (fun j m => Mem.put m j i (g i j)) N m) M m i j =
      if j < M ∧ i < N then g j i else m i j := by
  have inner : ∀ (r n : ℕ) (m : Mem α) (i j : ℕ), forUp (fun j m => Mem.put m j r (g r j)) n m i j =
      if j = r ∧ i < n then g r i else m i j := by
    intro r n m i j
    induction n with
    | zero => simp [forUp]
    | succ n ih =>
      simp only [forUp, Mem.put, ih]
      by_cases h1 : j = r
      · by_cases h2 : i = n
        · simp [h1, h2]
        · have : i < n ↔ i < n + 1 := by omega
          simp [h1, h2, this]
      · simp [h1]
  induction M with
  | zero => simp [forUp]
  | succ M ih =>
    simp only [forUp, inner, ih]
    by_cases h1 : j = M
    · by_cases h2 : i < N <;> simp [h1, h2]
    · have : j < M ↔ j < M + 1 := by omega
      simp [h1, this]

/-- An accumulation loop computes a sum. -/
theorem forUp_sum {α : Type*} [AddCommMonoid α] (g : ℕ → α) (n : ℕ) (s : α) :
    forUp (fun k t => t + g k) n s = s + ∑ k : Fin n, g k := by
  induction n with
  | zero => simp [forUp]
  | succ n ih => rw [forUp, ih, Fin.sum_univ_castSucc, add_assoc]; rfl

end Ac
