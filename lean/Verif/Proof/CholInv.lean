import Verif.Model.CholInv
import Verif.Proof.CholExact

/-! # Proofs about ac_cholinv -/

namespace Proof.CholInv
open Ac Model.CholInv

variable {τ ω : Type}

/-- The sum computed for the element `(j, i)` of the inverse. -/
def sumOf (o : Ops τ ω) (L N : Mem τ) (i j : ℕ) : τ :=
  o.acc0 (forUp (fun k s => if i ≤ k then o.acc s (L j k) (N k i) else o.acc0 s) j o.zero)

/-- `N` satisfies the recurrences of forward substitution in column `i` up to row `n`. -/
def Col (o : Ops τ ω) (L N : Mem τ) (i n : ℕ) : Prop :=
  N i i = o.recip (L i i) ∧ ∀ j < n, i < j → N j i = o.negMul (sumOf o L N i j) (o.recip (L j j))

theorem sumLoop_eq (o : Ops τ ω) {M : ℕ} (L : Mem τ) {N : Mem (Option τ)} {N' : Mem τ} {i j : ℕ} (hj : j < M)
    (hN : ∀ k, i ≤ k → k < j → N k i = some (N' k i)) : sumLoop o L N i j M 0 o.zero = some (sumOf o L N' i j) := by
  have key : ∀ n k, k + n = M → k ≤ j →
      sumLoop o L N i j n k (forUp (fun k s => if i ≤ k then o.acc s (L j k) (N' k i) else o.acc0 s) k o.zero) =
        some (sumOf o L N' i j) := by
    intro n
    induction n with
    | zero => intro k h1 h2; omega
    | succ n ih =>
      intro k h1 h2
      rw [sumLoop]
      rcases Nat.eq_or_lt_of_le h2 with rfl | hlt
      · rw [if_neg (by omega), Option.bind_some, if_pos le_rfl]; rfl
      · have : (if k < j ∧ i ≤ k then (N k i).map fun y => o.acc (forUp (fun k s => if i ≤ k then
            o.acc s (L j k) (N' k i) else o.acc0 s) k o.zero) (L j k) y else some (o.acc0 (forUp (fun k s => if i ≤ k
            then o.acc s (L j k) (N' k i) else o.acc0 s) k o.zero))) =
            some (forUp (fun k s => if i ≤ k then o.acc s (L j k) (N' k i) else o.acc0 s) (k + 1) o.zero) := by
          rw [forUp]
          by_cases h : i ≤ k
          · rw [if_pos ⟨hlt, h⟩, if_pos h, hN k h hlt]; rfl
          · rw [if_neg (by omega), if_neg h]
        rw [this, Option.bind_some, if_neg (by omega)]
        exact ih (k + 1) (by omega) hlt
  exact key M 0 (by omega) (Nat.zero_le _)

theorem sumOf_congr (o : Ops τ ω) (L : Mem τ) {N N' : Mem τ} {i j : ℕ} (h : ∀ k, i ≤ k → k < j → N k i = N' k i) :
    sumOf o L N i j = sumOf o L N' i j := by
  unfold sumOf
  congr 1
  apply Proof.Chol.forUp_congr
  intro k hk s
  by_cases hik : i ≤ k
  · rw [if_pos hik, if_pos hik, h k hik hk]
  · rw [if_neg hik, if_neg hik]

theorem column_eq (o : Ops τ ω) {M : ℕ} (L : Mem τ) {i : ℕ} (hi : i < M) (N : Mem (Option τ)) :
    ∃ N' F, column o M L i N = some N' ∧ Col o L F i M ∧ (∀ k, i ≤ k → k < M → N' k i = some (F k i)) ∧
      ∀ k c, c ≠ i → N' k c = N k c := by
  have key : ∀ n ≤ M, ∃ N' F, forUp (fun j (N : Option (Mem (Option τ))) => N.bind fun N => if i + 1 ≤ j then
      (sumLoop o L N i j M 0 o.zero).map fun s => N.put j i (some (o.negMul s (o.recip (L j j))))
      else some N) n (some (N.put i i (some (o.recip (L i i))))) = some N' ∧ Col o L F i n ∧
      (∀ k, i ≤ k → (k < n ∨ k = i) → N' k i = some (F k i)) ∧ ∀ k c, c ≠ i → N' k c = N k c := by
    intro n
    induction n with
    | zero =>
      intro _
      refine ⟨_, fun _ _ => o.recip (L i i), rfl, ⟨rfl, fun j h => by omega⟩, ?_, ?_⟩
      · intro k h1 h2
        obtain rfl : k = i := by omega
        simp [Mem.put]
      · intro k c hc
        simp [Mem.put, hc]
    | succ n ih =>
      intro hn
      obtain ⟨N', F, e1, e2, e3, e4⟩ := ih (by omega)
      rw [forUp, e1, Option.bind_some]
      by_cases h : i + 1 ≤ n
      · rw [if_pos h, sumLoop_eq o L (by omega) (N' := F) fun k h1 h2 => e3 k h1 (Or.inl h2)]
        let v := o.negMul (sumOf o L F i n) (o.recip (L n n))
        let F' : Mem τ := fun k c => if k = n then v else F k c
        have hF : ∀ k c, k ≠ n → F' k c = F k c := fun k c hk => by simp [F', hk]
        refine ⟨_, F', rfl, ⟨?_, ?_⟩, ?_, ?_⟩
        · rw [hF i i (by omega)]; exact e2.1
        · intro j hj hij
          rw [sumOf_congr o L (N := F') (N' := F) fun k h1 h2 => hF k i (by omega)]
          rcases Nat.lt_or_ge j n with hlt | hge
          · rw [hF j i (by omega)]; exact e2.2 j hlt hij
          · obtain rfl : j = n := by omega
            simp [F', v]
        · intro k h1 h2
          unfold Mem.put; beta_reduce
          by_cases hkn : k = n
          · rw [if_pos ⟨hkn, rfl⟩]; simp [F', hkn, v]
          · rw [if_neg (by tauto), hF k i hkn]
            exact e3 k h1 (by omega)
        · intro k c hc
          unfold Mem.put; beta_reduce
          rw [if_neg (by tauto)]
          exact e4 k c hc
      · rw [if_neg h]
        refine ⟨N', F, rfl, ⟨e2.1, fun j hj hij => by omega⟩, ?_, e4⟩
        intro k h1 h2
        exact e3 k h1 (by omega)
  obtain ⟨N', F, e1, e2, e3, e4⟩ := key M le_rfl
  exact ⟨N', F, e1, e2, fun k h1 h2 => e3 k h1 (Or.inl h2), e4⟩

theorem columns_eq (o : Ops τ ω) (M : ℕ) (L : Mem τ) : ∃ N F, columns o M L = some N ∧
    (∀ i < M, Col o L F i M) ∧ ∀ k < M, ∀ i ≤ k, N k i = some (F k i) := by
  have key : ∀ n ≤ M, ∃ N F, forUp (fun i (N : Option (Mem (Option τ))) => N.bind (column o M L i)) n
      (some fun _ _ => none) = some N ∧ (∀ i < n, Col o L F i M) ∧ ∀ k < M, ∀ i ≤ k, i < n → N k i = some (F k i) := by
    intro n
    induction n with
    | zero =>
      intro _
      exact ⟨_, fun i _ => o.recip (L i i), rfl, fun i h => by omega, fun k _ i _ h => by omega⟩
    | succ n ih =>
      intro hn
      obtain ⟨N, F, e1, e2, e3⟩ := ih (by omega)
      obtain ⟨N', G, f1, f2, f3, f4⟩ := column_eq o L (show n < M by omega) N
      let F' : Mem τ := fun k c => if c = n then G k c else F k c
      refine ⟨N', F', by rw [forUp, e1, Option.bind_some, f1], ?_, ?_⟩
      · intro i hi
        rcases Nat.lt_or_ge i n with hlt | hge
        · have hF : ∀ k, F' k i = F k i := fun k => by simp only [F']; rw [if_neg (by omega)]
          refine ⟨by rw [hF]; exact (e2 i hlt).1, fun j hj hij => ?_⟩
          rw [hF, sumOf_congr o L (N := F') (N' := F) fun k _ _ => hF k]
          exact (e2 i hlt).2 j hj hij
        · obtain rfl : i = n := by omega
          have hF : ∀ k, F' k i = G k i := fun k => by simp only [F', if_true]
          refine ⟨by rw [hF]; exact f2.1, fun j hj hij => ?_⟩
          rw [hF, sumOf_congr o L (N := F') (N' := G) fun k _ _ => hF k]
          exact f2.2 j hj hij
      · intro k hk i hik hi
        rcases Nat.lt_or_ge i n with hlt | hge
        · rw [f4 k i (by omega), e3 k hk i hik hlt]; simp only [F']; rw [if_neg (by omega)]
        · obtain rfl : i = n := by omega
          rw [f3 k hik hk]; simp only [F', if_true]
  obtain ⟨N, F, e1, e2, e3⟩ := key M le_rfl
  exact ⟨N, F, e1, e2, fun k hk i hik => e3 k hk i hik (by omega)⟩

/-- Element of the final product. -/
def prodOf (o : Ops τ ω) (M : ℕ) (F : Mem τ) (i j : ℕ) : τ :=
  forUp (fun k s => if k < j ∨ k < i then o.acc0 s else o.accC s (F k i) (F k j)) M o.zero

theorem element_eq (o : Ops τ ω) {M : ℕ} {N : Mem (Option τ)} {F : Mem τ}
    (hN : ∀ k < M, ∀ i ≤ k, N k i = some (F k i)) (i j : ℕ) : element o M N i j = some (prodOf o M F i j) := by
  have key : ∀ n ≤ M, forUp (fun k (s : Option τ) => s.bind fun s => if k < j ∨ k < i then some (o.acc0 s)
      else (N k i).bind fun x => (N k j).map fun y => o.accC s x y) n (some o.zero) =
      some (forUp (fun k s => if k < j ∨ k < i then o.acc0 s else o.accC s (F k i) (F k j)) n o.zero) := by
    intro n
    induction n with
    | zero => intro _; rfl
    | succ n ih =>
      intro hn
      rw [forUp, forUp, ih (by omega), Option.bind_some]
      split_ifs with h
      · rfl
      · rw [hN n (by omega) i (by omega), hN n (by omega) j (by omega)]; rfl
  exact key M le_rfl

theorem product_eq (o : Ops τ ω) {M : ℕ} {N : Mem (Option τ)} {F : Mem τ}
    (hN : ∀ k < M, ∀ i ≤ k, N k i = some (F k i)) (R : Mem ω) :
    product o M N R = some fun i j => if i < M ∧ j < M then o.out (prodOf o M F i j) else R i j := by
  have inner : ∀ (r n : ℕ) (R : Mem ω), forUp (fun j (R : Option (Mem ω)) => R.bind fun R =>
      (element o M N r j).map fun s => R.put r j (o.out s)) n (some R) =
      some (forUp (fun j R => Mem.put R r j (o.out (prodOf o M F r j))) n R) := by
    intro r n R
    induction n with
    | zero => rfl
    | succ n ih => rw [forUp, forUp, ih, Option.bind_some, element_eq o hN]; rfl
  have outer : ∀ n, forUp (fun i R => forUp (fun j (R : Option (Mem ω)) => R.bind fun R =>
      (element o M N i j).map fun s => R.put i j (o.out s)) M R) n (some R) =
      some (forUp (fun i R => forUp (fun j R => Mem.put R i j (o.out (prodOf o M F i j))) M R) n R) := by
    intro n
    induction n with
    | zero => rfl
    | succ n ih => rw [forUp, forUp, ih, inner]
  rw [product, outer]
  congr 1
  funext i j
  exact fill_eq M M _ R i j

/-! ## Exact arithmetic -/

section
open Matrix
open scoped ComplexOrder ComplexConjugate
variable {𝕜 : Type} [RCLike 𝕜]

theorem forUp_add {β : Type*} [AddCommMonoid β] (g : ℕ → β) (n : ℕ) (s : β) :
    forUp (fun k s => s + g k) n s = s + ∑ k ∈ Finset.range n, g k := by
  induction n with
  | zero => simp [forUp]
  | succ n ih => rw [forUp, ih, Finset.sum_range_succ, add_assoc]

theorem sumOf_exact (sat : 𝕜) (L N : Mem 𝕜) (i j : ℕ) :
    sumOf (exactOps 𝕜 sat) L N i j = ∑ k ∈ Finset.range j, if i ≤ k then L j k * N k i else 0 := by
  have : (fun (k : ℕ) (s : 𝕜) => if i ≤ k then (exactOps 𝕜 sat).acc s (L j k) (N k i) else (exactOps 𝕜 sat).acc0 s) =
      fun k s => s + (if i ≤ k then L j k * N k i else 0) := by
    funext k s
    split_ifs <;> rfl
  unfold sumOf
  rw [this, forUp_add]
  change (0 + _) + 0 = _
  rw [zero_add, add_zero]

theorem prodOf_exact (sat : 𝕜) (M : ℕ) (F : Mem 𝕜) (i j : ℕ) :
    prodOf (exactOps 𝕜 sat) M F i j = ∑ k ∈ Finset.range M, if k < j ∨ k < i then 0 else conj (F k i) * F k j := by
  have : (fun (k : ℕ) (s : 𝕜) => if k < j ∨ k < i then (exactOps 𝕜 sat).acc0 s
      else (exactOps 𝕜 sat).accC s (F k i) (F k j)) =
      fun k s => s + (if k < j ∨ k < i then 0 else conj (F k i) * F k j) := by
    funext k s
    split_ifs <;> rfl
  unfold prodOf
  rw [this, forUp_add]
  exact zero_add _

theorem col_inverse (sat : 𝕜) {M : ℕ} {L F : Mem 𝕜} (hL : ∀ i < M, ∀ j < M, i < j → L i j = 0) (hd : ∀ i < M, L i i ≠ 0)
    (h : ∀ i < M, Col (exactOps 𝕜 sat) L F i M) : L.mat M M * Proof.Chol.low M M F = 1 := by
  ext j i
  rw [Matrix.mul_apply]
  have e : ∀ k : Fin M, L.mat M M j k * Proof.Chol.low M M F k i =
      (fun k : ℕ => if k < j.1 + 1 ∧ i.1 ≤ k then L j k * F k i else 0) k := by
    intro k
    simp only [Mem.mat, Proof.Chol.low]
    by_cases h1 : i.1 ≤ k.1
    · rw [if_pos ⟨h1, i.2⟩]
      by_cases h2 : k.1 < j.1 + 1
      · rw [if_pos ⟨h2, h1⟩]
      · rw [if_neg (by omega), hL j j.2 k k.2 (by omega), zero_mul]
    · rw [if_neg (by omega), if_neg (by omega), mul_zero]
  rw [Finset.sum_congr rfl fun k _ => e k,
    Fin.sum_univ_eq_sum_range (fun k : ℕ => if k < j.1 + 1 ∧ i.1 ≤ k then L j k * F k i else 0)]
  have e2 : ∑ k ∈ Finset.range M, (if k < j.1 + 1 ∧ i.1 ≤ k then L j k * F k i else 0) =
      ∑ k ∈ Finset.range (j.1 + 1), if i.1 ≤ k then L j k * F k i else 0 := by
    have hsub : Finset.range (j.1 + 1) ⊆ Finset.range M := by
      intro k; simp only [Finset.mem_range]; have := j.2; omega
    rw [← Finset.sum_subset hsub (f := fun k => if k < j.1 + 1 ∧ i.1 ≤ k then L j k * F k i else 0)]
    · apply Finset.sum_congr rfl
      intro k hk
      have hk' := Finset.mem_range.mp hk
      simp [hk']
    · intro k _ hk
      rw [Finset.mem_range] at hk
      rw [if_neg (by tauto)]
  rw [e2, Finset.sum_range_succ]
  have hr : ∀ k < M, (exactOps 𝕜 sat).recip (L k k) = 1 / L k k := fun k hk => if_neg (hd k hk)
  rcases lt_trichotomy i.1 j.1 with hlt | heq | hgt
  · rw [if_pos hlt.le, (h i i.2).2 j j.2 hlt, hr j j.2, sumOf_exact]
    have hij : j ≠ i := fun h => by rw [h] at hlt; exact lt_irrefl _ hlt
    rw [Matrix.one_apply_ne hij]
    change _ + L j j * -((∑ k ∈ Finset.range j.1, if i.1 ≤ k then L j k * F k i else 0) * (1 / L j j)) = 0
    have := hd j j.2
    field_simp
    ring
  · obtain rfl : i = j := Fin.ext heq
    rw [if_pos le_rfl, (h i i.2).1, hr i i.2, Matrix.one_apply_eq, Finset.sum_eq_zero, zero_add,
      mul_one_div_cancel (hd i i.2)]
    intro k hk
    rw [if_neg (by have := Finset.mem_range.mp hk; omega)]
  · have hij : j ≠ i := fun h => by rw [h] at hgt; exact lt_irrefl _ hgt
    rw [Matrix.one_apply_ne hij, if_neg (by omega), add_zero]
    apply Finset.sum_eq_zero
    intro k hk
    rw [if_neg (by have := Finset.mem_range.mp hk; omega)]

theorem prod_matrix (sat : 𝕜) (M : ℕ) (F : Mem 𝕜) (i j : Fin M) :
    prodOf (exactOps 𝕜 sat) M F i j = ((Proof.Chol.low M M F)ᴴ * Proof.Chol.low M M F) i j := by
  rw [prodOf_exact, Matrix.mul_apply,
    ← Fin.sum_univ_eq_sum_range (fun k : ℕ => if k < j.1 ∨ k < i.1 then 0 else conj (F k i) * F k j)]
  apply Finset.sum_congr rfl
  intro k _
  rw [Matrix.conjTranspose_apply]
  simp only [Proof.Chol.low]
  by_cases h1 : i.1 ≤ k.1
  · by_cases h2 : j.1 ≤ k.1
    · rw [if_neg (by omega), if_pos ⟨h1, i.2⟩, if_pos ⟨h2, j.2⟩]; rfl
    · rw [if_pos (by omega), if_neg (c := j.1 ≤ k.1 ∧ j.1 < M) (by omega), mul_zero]
  · rw [if_pos (by omega), if_neg (c := i.1 ≤ k.1 ∧ i.1 < M) (by omega), star_zero, zero_mul]

end

end Proof.CholInv
