import Verif.Proof.HcordicLog

/-! # The reduced logarithm to base 2 with at most 12 bits keeps the order: every input -/

namespace Proof.Hcordic
open Ac Model.Hcordic

/-- Neighbours in order, from `a` on. -/
def steps (ew a : ℕ) : ℕ → ℤ → Bool
  | 0, _ => true
  | n + 1, l => let l' := lo .ln2 ew ((a + 1 : ℕ) : ℤ); decide (l ≤ l') && steps ew (a + 1) n l'

theorem steps_ok {ew n a : ℕ} (h : steps ew a n (lo .ln2 ew a) = true) : ∀ i ≤ n, ∀ k ≤ i, lo .ln2 ew ((a + k : ℕ) : ℤ) ≤ lo .ln2 ew ((a + i : ℕ) : ℤ) := by
  induction n generalizing a with
  | zero => intro i hi k hk; rw [show k = i by omega]
  | succ n ih =>
    simp only [steps, Bool.and_eq_true] at h
    intro i hi k hk
    have h1 := of_decide_eq_true h.1
    have h2 := ih h.2
    rcases i with _ | i
    · rw [show k = 0 by omega]
    · rcases k with _ | k
      · have := h2 i (by omega) 0 (by omega)
        rw [show a + 1 + 0 = a + 1 by omega, show a + 1 + i = a + (i + 1) by omega] at this
        exact h1.trans this
      · have := h2 i (by omega) k (by omega)
        rwa [show a + 1 + k = a + (k + 1) by omega, show a + 1 + i = a + (i + 1) by omega] at this

theorem steps_small : Proof.Pwl.allLt 11 (fun ew => decide (ew < 3) || steps ew (2 ^ (ew - 1)) (2 ^ (ew - 1) - 1) (lo .ln2 ew ((2 ^ (ew - 1) : ℕ) : ℤ))) = true := by
  decide +kernel

theorem steps_11 : steps 11 (2 ^ 10) (2 ^ 10 - 1) (lo .ln2 11 ((2 ^ 10 : ℕ) : ℤ)) = true := by
  decide +kernel

theorem steps_12 : steps 12 (2 ^ 11) (2 ^ 11 - 1) (lo .ln2 12 ((2 ^ 11 : ℕ) : ℤ)) = true := by
  decide +kernel

end Proof.Hcordic
