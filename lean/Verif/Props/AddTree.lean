import Verif.Proof.AddTree

/-! # C25: float adder trees

An operand is a raw mantissa `m` of `WE` bits and an exponent `e` of `EE` bits; its value, in units of the mantissa's
least significant bit, is `m * 2^e`.  The accumulator has `X` more fractional bits (`AccExtraLSBs`), so in its units the
operand is `m * 2^X * 2^e`. -/

namespace Props.AddTree
open Ac Model.AddTree

/-- The operands have a `WE`-bit signed mantissa and an `EE`-bit signed exponent. -/
def Valid (WE EE N : ℕ) (x : ℕ → Flt) : Prop :=
  (∀ k < N, minRaw WE true ≤ (x k).m ∧ (x k).m ≤ maxRaw WE true) ∧
  ∀ k < N, minRaw EE true ≤ (x k).e ∧ (x k).e ≤ maxRaw EE true

/-- The exact sum of the operands, in units of the accumulator's least significant bit. -/
def exactSum (X N : ℕ) (x : ℕ → Flt) : ℚ := ∑ k ∈ Finset.range N, ((x k).m : ℚ) * 2 ^ X * 2 ^ (x k).e

/-- Three operands used in the examples: 5·2^1, a zero with a large exponent, -3·2^-1. -/
def ops : ℕ → Flt
  | 0 => ⟨5, 1⟩
  | 1 => ⟨0, 3⟩
  | _ => ⟨-3, -1⟩

theorem ops_valid : Valid 4 3 3 ops := by
  constructor
  · intro k hk
    have : k = 0 ∨ k = 1 ∨ k = 2 := by omega
    rcases this with rfl | rfl | rfl <;> decide
  · intro k hk
    have : k = 0 ∨ k = 1 ∨ k = 2 := by omega
    rcases this with rfl | rfl | rfl <;> decide

/-- **C25**, block_add_tree.  The common exponent is the largest exponent of the operands with a non-zero mantissa, and
the mantissa is the exact integer sum of the mantissas aligned (rounded down) to it, whatever the number of operands:
nothing overflows. -/
theorem C25_block {WE EE X N : ℕ} (hW : 1 ≤ WE) (hE : 1 ≤ EE) {x : ℕ → Flt} (hv : Valid WE EE N x)
    (hne : ∃ k < N, (x k).m ≠ 0) :
    IsGreatest {e | ∃ k < N, (x k).m ≠ 0 ∧ e = (x k).e} (blockCore true EE WE X N x).e ∧
    (blockCore true EE WE X N x).m =
      ∑ k ∈ Finset.range N, ⌊((x k).m : ℚ) * 2 ^ X * 2 ^ ((x k).e - (blockCore true EE WE X N x).e)⌋ := by
  have hN : 1 ≤ N := by obtain ⟨k, hk, -⟩ := hne; omega
  obtain ⟨h1, -, -, h2⟩ := Proof.AddTree.commonExp_true hE hN hv.2
  refine ⟨⟨h2 hne, ?_⟩, (Proof.AddTree.block_mant hW hE hN hv.1 hv.2).1⟩
  rintro e ⟨k, hk, h3, rfl⟩
  exact h1 k hk h3

example : Valid 4 3 3 ops ∧ (∃ k < 3, (ops k).m ≠ 0) ∧ blockCore true 3 4 1 3 ops = ⟨8, 1⟩ :=
  ⟨ops_valid, ⟨0, by decide, by decide⟩, by decide +kernel⟩

/-- **C25**, block_add_tree on zeros only: the sum is zero and the exponent is the smallest one. -/
theorem C25_block_zero {WE EE X N : ℕ} (hW : 1 ≤ WE) (hE : 1 ≤ EE) (hN : 1 ≤ N) {x : ℕ → Flt} (hv : Valid WE EE N x)
    (hz : ∀ k < N, (x k).m = 0) : blockCore true EE WE X N x = ⟨0, minRaw EE true⟩ := by
  have h1 := (Proof.AddTree.block_mant (X := X) (zh := true) hW hE hN hv.1 hv.2).1
  have h2 : (blockCore true EE WE X N x).m = 0 := by
    rw [h1]
    apply Finset.sum_eq_zero
    intro k hk
    simp [hz k (Finset.mem_range.1 hk)]
  have h3 : (blockCore true EE WE X N x).e = minRaw EE true := by
    obtain ⟨⟨k, hk, e⟩, -⟩ := Proof.AddTree.maxAux_spec N N (fun k => zeroHandleExp true EE (x k).e (x k).m) hN le_rfl
    show commonExp true EE N x = _
    unfold commonExp
    rw [e, Proof.AddTree.zeroHandleExp_eq hE (hv.2 k hk), if_pos (hz k hk)]
  cases h : blockCore true EE WE X N x
  rw [h] at h2 h3
  simp_all

example : Valid 4 3 2 (fun k => ⟨0, k⟩) ∧ blockCore true 3 4 1 2 (fun k => ⟨0, k⟩) = ⟨0, -4⟩ :=
  ⟨⟨fun k hk => by simp [minRaw, maxRaw], fun k hk => by
    have : k = 0 ∨ k = 1 := by omega
    rcases this with rfl | rfl <;> decide⟩, by decide +kernel⟩

/-- **C25**, block_add_tree without zero handling: the common exponent is the largest exponent of all operands. -/
theorem C25_block_plain {WE EE X N : ℕ} (hW : 1 ≤ WE) (hE : 1 ≤ EE) (hN : 1 ≤ N) {x : ℕ → Flt} (hv : Valid WE EE N x) :
    IsGreatest {e | ∃ k < N, e = (x k).e} (blockCore false EE WE X N x).e ∧
    (blockCore false EE WE X N x).m =
      ∑ k ∈ Finset.range N, ⌊((x k).m : ℚ) * 2 ^ X * 2 ^ ((x k).e - (blockCore false EE WE X N x).e)⌋ := by
  obtain ⟨h1, h2⟩ := Proof.AddTree.commonExp_false (EE := EE) hN x
  refine ⟨⟨h2, ?_⟩, (Proof.AddTree.block_mant hW hE hN hv.1 hv.2).1⟩
  rintro e ⟨k, hk, rfl⟩
  exact h1 k hk

example : Valid 4 3 3 ops ∧ blockCore false 3 4 1 3 ops = ⟨1, 3⟩ := ⟨ops_valid, by decide +kernel⟩

/-- **C25**, block_add_tree does not depend on the order of its operands. -/
theorem C25_block_order {WE EE X N : ℕ} (zh : Bool) (hW : 1 ≤ WE) (hE : 1 ≤ EE) (hN : 1 ≤ N) {x y : ℕ → Flt}
    (hv : Valid WE EE N x) (σ : Equiv.Perm (Fin N)) (hy : ∀ k : Fin N, y k = x (σ k)) :
    blockCore zh EE WE X N y = blockCore zh EE WE X N x := by
  have hyv : Valid WE EE N y :=
    ⟨fun k hk => by have := hy ⟨k, hk⟩; simp only at this; rw [this]; exact hv.1 _ (σ ⟨k, hk⟩).2,
     fun k hk => by have := hy ⟨k, hk⟩; simp only at this; rw [this]; exact hv.2 _ (σ ⟨k, hk⟩).2⟩
  have hex : ∀ P : Flt → Prop, (∃ k < N, P (y k)) ↔ ∃ k < N, P (x k) := by
    intro P
    constructor
    · rintro ⟨k, hk, h⟩
      have := hy ⟨k, hk⟩
      simp only at this
      exact ⟨_, (σ ⟨k, hk⟩).2, this ▸ h⟩
    · rintro ⟨k, hk, h⟩
      refine ⟨_, (σ.symm ⟨k, hk⟩).2, ?_⟩
      rw [hy]; simpa using h
  have he : commonExp zh EE N y = commonExp zh EE N x := by
    cases zh
    · have h1 := (C25_block_plain (X := X) hW hE hN hv).1
      have h2 := (C25_block_plain (X := X) hW hE hN hyv).1
      have : {e | ∃ k < N, e = (y k).e} = {e | ∃ k < N, e = (x k).e} := by
        ext e; exact hex fun t => e = t.e
      rw [this] at h2
      exact h2.unique h1
    · by_cases hne : ∃ k < N, (x k).m ≠ 0
      · have h1 := (C25_block (X := X) hW hE hv hne).1
        have h2 := (C25_block (X := X) hW hE hyv ((hex fun t => t.m ≠ 0).2 hne)).1
        have : {e | ∃ k < N, (y k).m ≠ 0 ∧ e = (y k).e} = {e | ∃ k < N, (x k).m ≠ 0 ∧ e = (x k).e} := by
          ext e; exact hex fun t => t.m ≠ 0 ∧ e = t.e
        rw [this] at h2
        exact h2.unique h1
      · have hz : ∀ k < N, (x k).m = 0 := fun k hk => by by_contra h; exact hne ⟨k, hk, h⟩
        have hz' : ∀ k < N, (y k).m = 0 := fun k hk => by
          by_contra h; exact hne ((hex fun t => t.m ≠ 0).1 ⟨k, hk, h⟩)
        have h1 := congrArg Flt.e (C25_block_zero (X := X) hW hE hN hv hz)
        have h2 := congrArg Flt.e (C25_block_zero (X := X) hW hE hN hyv hz')
        exact h2.trans h1.symm
  have hm : (blockCore zh EE WE X N y).m = (blockCore zh EE WE X N x).m := by
    rw [(Proof.AddTree.block_mant (X := X) (zh := zh) hW hE hN hyv.1 hyv.2).1,
      (Proof.AddTree.block_mant (X := X) (zh := zh) hW hE hN hv.1 hv.2).1, he,
      ← Fin.sum_univ_eq_sum_range (fun k : ℕ => ⌊((y k).m : ℚ) * 2 ^ X * 2 ^ ((y k).e - commonExp zh EE N x)⌋),
      ← Fin.sum_univ_eq_sum_range (fun k : ℕ => ⌊((x k).m : ℚ) * 2 ^ X * 2 ^ ((x k).e - commonExp zh EE N x)⌋),
      ← Equiv.sum_comp σ fun k : Fin N => ⌊((x k).m : ℚ) * 2 ^ X * 2 ^ ((x k).e - commonExp zh EE N x)⌋]
    apply Finset.sum_congr rfl
    intro k _
    rw [hy]
  have h1 : (blockCore zh EE WE X N y).e = (blockCore zh EE WE X N x).e := he
  cases h : blockCore zh EE WE X N y
  cases h' : blockCore zh EE WE X N x
  rw [h, h'] at hm h1
  simp_all

example : blockCore true 3 4 1 3 (fun k => ops (2 - k)) = blockCore true 3 4 1 3 ops :=
  C25_block_order true (by decide) (by decide) (by decide) ops_valid Fin.revPerm (by decide)

/-- **C25**, accuracy of block_add_tree: the result is at most the exact sum and less than `N` units of the common
exponent below it. -/
theorem C25_block_bound {WE EE X N : ℕ} (zh : Bool) (hW : 1 ≤ WE) (hE : 1 ≤ EE) (hN : 1 ≤ N) {x : ℕ → Flt}
    (hv : Valid WE EE N x) :
    let r := blockCore zh EE WE X N x
    (r.m : ℚ) * 2 ^ r.e ≤ exactSum X N x ∧ exactSum X N x < (r.m : ℚ) * 2 ^ r.e + N * 2 ^ r.e := by
  have h := (Proof.AddTree.block_mant (X := X) (zh := zh) hW hE hN hv.1 hv.2).1
  have he : (blockCore zh EE WE X N x).e = commonExp zh EE N x := rfl
  simp only
  rw [h, he]
  set E := commonExp zh EE N x
  have hp := Fmt.z_pos E
  have hs : exactSum X N x = (∑ k ∈ Finset.range N, ((x k).m : ℚ) * 2 ^ X * 2 ^ ((x k).e - E)) * 2 ^ E := by
    unfold exactSum
    rw [Finset.sum_mul]
    apply Finset.sum_congr rfl
    intro k _
    rw [mul_assoc _ _ ((2 : ℚ) ^ E), Fmt.z_add, sub_add_cancel]
  rw [hs]
  push_cast
  constructor
  · apply mul_le_mul_of_nonneg_right _ hp.le
    exact Finset.sum_le_sum fun k _ => Int.floor_le _
  · rw [← add_mul]
    apply mul_lt_mul_of_pos_right _ hp
    have : ∑ k ∈ Finset.range N, ((x k).m : ℚ) * 2 ^ X * 2 ^ ((x k).e - E) <
        ∑ k ∈ Finset.range N, ((⌊((x k).m : ℚ) * 2 ^ X * 2 ^ ((x k).e - E)⌋ : ℚ) + 1) :=
      Finset.sum_lt_sum_of_nonempty (Finset.nonempty_range_iff.2 (by omega)) fun k _ => Int.lt_floor_add_one _
    simpa [Finset.sum_add_distrib] using this

example : let r := blockCore true 3 4 1 3 ops
    (r.m : ℚ) * 2 ^ r.e ≤ exactSum 1 3 ops ∧ exactSum 1 3 ops < (r.m : ℚ) * 2 ^ r.e + (3 : ℕ) * 2 ^ r.e :=
  C25_block_bound true (by decide) (by decide) (by decide) ops_valid

/-- **C25**, add_tree (pairwise alignment).  For any number of operands: a non-zero result carries the exponent of some
non-zero operand (zero mantissas never raise it); the result is at most the exact sum, and the `N-1` truncations cost at
most one unit each at any exponent `E` that bounds the exponents of the non-zero operands. -/
theorem C25_tree {WE EE X N : ℕ} (hW : 1 ≤ WE) (hN : 1 ≤ N) {x : ℕ → Flt} (hv : Valid WE EE N x) :
    let r := addTree WE X N x
    (r.m ≠ 0 → ∃ k < N, (x k).m ≠ 0 ∧ r.e = (x k).e) ∧
    ∀ E : ℤ, (∀ k < N, (x k).m ≠ 0 → (x k).e ≤ E) →
      (r.m : ℚ) * 2 ^ r.e ≤ exactSum X N x ∧ exactSum X N x ≤ (r.m : ℚ) * 2 ^ r.e + (N - 1) * 2 ^ E := by
  have s := Proof.AddTree.addTree_spec (X := X) hW hN hv.1
  exact ⟨s.exp, s.bound⟩

example : Valid 4 3 3 ops ∧ addTree 4 1 3 ops = ⟨8, 1⟩ := ⟨ops_valid, by decide +kernel⟩

/-- **C25**, add_tree is exact when the exponents of the non-zero operands differ by at most `AccExtraLSBs`. -/
theorem C25_tree_exact {WE EE X N : ℕ} (hW : 1 ≤ WE) (hN : 1 ≤ N) {x : ℕ → Flt} (hv : Valid WE EE N x)
    (hd : ∀ k < N, ∀ l < N, (x k).m ≠ 0 → (x l).m ≠ 0 → (x k).e - (x l).e ≤ X) :
    let r := addTree WE X N x
    (r.m : ℚ) * 2 ^ r.e = exactSum X N x := by
  have s := Proof.AddTree.addTree_spec (X := X) hW hN hv.1
  by_cases hne : ∃ k < N, (x k).m ≠ 0
  · -- the smallest exponent of the non-zero operands
    have hS : ((Finset.range N).filter fun k => (x k).m ≠ 0).Nonempty := by
      obtain ⟨k, hk, h⟩ := hne
      exact ⟨k, by simp [hk, h]⟩
    obtain ⟨l, hl, hmin⟩ := Finset.exists_min_image _ (fun k => (x k).e) hS
    simp only [Finset.mem_filter, Finset.mem_range] at hl hmin
    exact (s.exact (x l).e fun k hk h => ⟨hmin k ⟨hk, h⟩, by have := hd k hk l hl.1 h hl.2; omega⟩).1
  · exact (s.exact 0 fun k hk h => absurd ⟨k, hk, h⟩ hne).1

example : (((addTree 4 2 3 ops).m : ℤ) : ℚ) * 2 ^ (addTree 4 2 3 ops).e = exactSum 2 3 ops :=
  C25_tree_exact (EE := 3) (by decide) (by decide) ops_valid (by
    intro k hk l hl
    have : k = 0 ∨ k = 1 ∨ k = 2 := by omega
    have : l = 0 ∨ l = 1 ∨ l = 2 := by omega
    rcases ‹k = 0 ∨ k = 1 ∨ k = 2› with rfl | rfl | rfl <;>
      rcases ‹l = 0 ∨ l = 1 ∨ l = 2› with rfl | rfl | rfl <;> decide)

/-- **C25 fails for add_tree** in one respect: with pairwise alignment the order of the operands changes the result.
The same three operands 1, 1 and 1·2^1 give 2 in one order and 4 (the exact sum) in another. -/
theorem C25_tree_order_matters :
    let x : ℕ → Flt := fun k => if k = 2 then ⟨1, 1⟩ else ⟨1, 0⟩
    let y : ℕ → Flt := fun k => if k = 0 then ⟨1, 1⟩ else ⟨1, 0⟩
    (∀ k : Fin 3, y k = x (Fin.revPerm k)) ∧ addTree 4 0 3 x = ⟨1, 1⟩ ∧ addTree 4 0 3 y = ⟨2, 1⟩ := by
  decide +kernel

/-- **C25**, ac_fixed output: the sum is converted once, exactly, to the output type, with either setting of
`use_ac_sl`, for add_tree and for block_add_tree. -/
theorem C25_fixed_output {WE EE X N : ℕ} (useSl zh : Bool) (IE : ℤ) {fo : Fmt} (hfo : 1 ≤ fo.W) (hW : 1 ≤ WE)
    (hE : 1 ≤ EE) (hN : 1 ≤ N) {x : ℕ → Flt} (hv : Valid WE EE N x) :
    (let r := addTree WE X N x
     addTreeFixed useSl EE WE X N IE fo x = fo.cvt ((r.m : ℚ) * 2 ^ r.e * 2 ^ (IE - WE - X))) ∧
    (let r := blockCore zh EE WE X N x
     blockFixed useSl zh EE WE X N IE fo x = fo.cvt ((r.m : ℚ) * 2 ^ r.e * 2 ^ (IE - WE - X))) := by
  have hF : (accFmt WE X N IE).F = -(IE - WE - X) := by
    unfold accFmt Fmt.F; simp only; push_cast; ring
  have hval : ∀ m : ℤ, (accFmt WE X N IE).val m = m * 2 ^ (IE - WE - X) := by
    intro m; unfold Fmt.val; rw [hF, neg_neg]
  have hcv : ∀ r : Flt, Proof.AddTree.Rng (WE + X) N r.m → minRaw EE true ≤ r.e ∧ r.e ≤ maxRaw EE true →
      conv useSl (accFmt WE X N IE) fo EE r = fo.cvt ((r.m : ℚ) * 2 ^ r.e * 2 ^ (IE - WE - X)) := by
    intro r h1 h2
    have hw := h1.word (by omega) (Proof.AddTree.two_pow_log2Ceil N)
    have := Proof.AddTree.conv_eq (useSl := useSl) (fm := accFmt WE X N IE) (fo := fo) (E := EE) (r := r)
      (by unfold accFmt; simp only; omega) rfl hfo hE
      (by unfold accFmt; simp only; rwa [show WE + log2Ceil N + X = WE + X + log2Ceil N by omega]) h2
    rw [this, hval]
    congr 1; ring
  constructor
  · have s := Proof.AddTree.addTree_spec (X := X) hW hN hv.1
    obtain ⟨k, hk, h⟩ := s.some
    exact hcv _ s.rng (h ▸ hv.2 k hk)
  · obtain ⟨-, h2, h3⟩ := Proof.AddTree.commonExp_bounds (zh := zh) hE hN hv.2
    exact hcv _ (Proof.AddTree.block_mant hW hE hN hv.1 hv.2).2 ⟨h3, h2⟩

example : blockFixed true true 3 4 1 3 2 ⟨6, 3, false, .RND, .SAT⟩ ops =
    (⟨6, 3, false, .RND, .SAT⟩ : Fmt).cvt ((8 : ℚ) * 2 ^ (1 : ℤ) * 2 ^ (2 - ((4 : ℕ) : ℤ) - ((1 : ℕ) : ℤ))) := by
  have := (C25_fixed_output (X := 1) true true 2 (fo := ⟨6, 3, false, .RND, .SAT⟩) (by decide) (by decide)
    (by decide) (by decide) ops_valid).2
  have h : blockCore true 3 4 1 3 ops = ⟨8, 1⟩ := by decide +kernel
  simp only [h] at this
  exact_mod_cast this

end Props.AddTree
