import Verif.Proof.AddTreeCut
import Verif.Props.AddTree

/-! # C25: float adder trees with a negative `AccExtraLSBs`, and with an ac_float output

With `AccExtraLSBs = -Y` the accumulator has `Y` fewer fractional bits than the operands.  In its units an operand is
`m * 2^-Y * 2^e`. -/

namespace Props.AddTreeCut
open Ac Model.AddTree Props.AddTree

/-- The exact sum of the operands, in units of the accumulator's least significant bit. -/
def exactSum (Y N : ℕ) (x : ℕ → Flt) : ℚ := ∑ k ∈ Finset.range N, ((x k).m : ℚ) * 2 ^ (-(Y : ℤ)) * 2 ^ (x k).e

/-- **C25**, block_add_tree: the common exponent is the largest one of the non-zero operands, even of those whose mantissa is
lost, and the mantissa is the exact integer sum of the aligned mantissas. -/
theorem C25_cut_block {WE EE Y N : ℕ} (hY : Y < WE) (hE : 1 ≤ EE) {x : ℕ → Flt} (hv : Valid WE EE N x)
    (hne : ∃ k < N, (x k).m ≠ 0) :
    IsGreatest {e | ∃ k < N, (x k).m ≠ 0 ∧ e = (x k).e} (blockCoreCut true EE WE Y N x).e ∧
    (blockCoreCut true EE WE Y N x).m =
      ∑ k ∈ Finset.range N, ⌊((x k).m : ℚ) * 2 ^ (-(Y : ℤ)) * 2 ^ ((x k).e - (blockCoreCut true EE WE Y N x).e)⌋ := by
  have hN : 1 ≤ N := by obtain ⟨k, hk, -⟩ := hne; omega
  obtain ⟨h1, -, -, h2⟩ := Proof.AddTree.commonExp_true hE hN hv.2
  refine ⟨⟨h2 hne, ?_⟩, (Proof.AddTree.blockCut_mant hY hE hN hv.1 hv.2).1⟩
  rintro e ⟨k, hk, h3, rfl⟩
  exact h1 k hk h3

example : Valid 4 3 3 ops ∧ blockCoreCut true 3 4 1 3 ops = ⟨1, 1⟩ := ⟨ops_valid, by decide +kernel⟩

/-- **C25**, the order of the operands of block_add_tree does not matter. -/
theorem C25_cut_block_order {WE EE Y N : ℕ} (zh : Bool) (hY : Y < WE) (hE : 1 ≤ EE) (hN : 1 ≤ N) {x y : ℕ → Flt}
    (hv : Valid WE EE N x) (σ : Equiv.Perm (Fin N)) (hy : ∀ k : Fin N, y k = x (σ k)) :
    blockCoreCut zh EE WE Y N y = blockCoreCut zh EE WE Y N x := by
  have hyv : Valid WE EE N y :=
    ⟨fun k hk => by have := hy ⟨k, hk⟩; simp only at this; rw [this]; exact hv.1 _ (σ ⟨k, hk⟩).2,
     fun k hk => by have := hy ⟨k, hk⟩; simp only at this; rw [this]; exact hv.2 _ (σ ⟨k, hk⟩).2⟩
  have he : commonExp zh EE N y = commonExp zh EE N x :=
    congrArg Flt.e (C25_block_order (X := 0) zh (by omega : 1 ≤ WE) hE hN hv σ hy)
  have hm : (blockCoreCut zh EE WE Y N y).m = (blockCoreCut zh EE WE Y N x).m := by
    rw [(Proof.AddTree.blockCut_mant hY hE hN hyv.1 hyv.2).1, (Proof.AddTree.blockCut_mant hY hE hN hv.1 hv.2).1, he,
      Finset.sum_range, Finset.sum_range,
      ← Equiv.sum_comp σ fun k : Fin N => ⌊((x k).m : ℚ) * 2 ^ (-(Y : ℤ)) * 2 ^ ((x k).e - commonExp zh EE N x)⌋]
    exact Finset.sum_congr rfl fun k _ => by rw [hy]
  have h1 : (blockCoreCut zh EE WE Y N y).e = (blockCoreCut zh EE WE Y N x).e := he
  cases h : blockCoreCut zh EE WE Y N y
  cases h' : blockCoreCut zh EE WE Y N x
  rw [h, h'] at hm h1
  simp_all

example : blockCoreCut true 3 4 1 3 (fun k => ops (2 - k)) = blockCoreCut true 3 4 1 3 ops :=
  C25_cut_block_order true (by decide) (by decide) (by decide) ops_valid Fin.revPerm (by decide)

/-- **C25**, accuracy of block_add_tree: at most the exact sum and less than `N` units of the common exponent below it. -/
theorem C25_cut_block_bound {WE EE Y N : ℕ} (zh : Bool) (hY : Y < WE) (hE : 1 ≤ EE) (hN : 1 ≤ N) {x : ℕ → Flt}
    (hv : Valid WE EE N x) :
    let r := blockCoreCut zh EE WE Y N x
    (r.m : ℚ) * 2 ^ r.e ≤ exactSum Y N x ∧ exactSum Y N x < (r.m : ℚ) * 2 ^ r.e + N * 2 ^ r.e := by
  have h := (Proof.AddTree.blockCut_mant (Y := Y) (zh := zh) hY hE hN hv.1 hv.2).1
  have he : (blockCoreCut zh EE WE Y N x).e = commonExp zh EE N x := rfl
  simp only
  rw [h, he]
  set E := commonExp zh EE N x
  have hp := Fmt.z_pos E
  have hs : exactSum Y N x = (∑ k ∈ Finset.range N, ((x k).m : ℚ) * 2 ^ (-(Y : ℤ)) * 2 ^ ((x k).e - E)) * 2 ^ E := by
    rw [Finset.sum_mul]
    refine Finset.sum_congr rfl fun k _ => ?_
    rw [mul_assoc _ _ ((2 : ℚ) ^ E), Fmt.z_add, sub_add_cancel]
  rw [hs, ← add_mul]
  push_cast
  constructor
  · apply mul_le_mul_of_nonneg_right _ hp.le
    exact Finset.sum_le_sum fun k _ => Int.floor_le _
  · apply mul_lt_mul_of_pos_right _ hp
    have h1 : (N : ℚ) = ∑ k ∈ Finset.range N, (1 : ℚ) := by simp
    conv_rhs => rw [h1]
    rw [← Finset.sum_add_distrib]
    exact Finset.sum_lt_sum_of_nonempty ⟨0, Finset.mem_range.2 hN⟩ fun k _ => Int.lt_floor_add_one _

example : blockCoreCut false 3 4 1 3 ops = ⟨-1, 3⟩ ∧ exactSum 1 3 ops = 17 / 4 := by
  constructor <;> decide +kernel

/-- **C25**, add_tree: the exponent is that of a non-zero operand, and the result is at most the exact sum and no more than
`2N - 1` units of the largest exponent below it: each operand may lose one unit, and so may each addition. -/
theorem C25_cut_tree {WE EE Y N : ℕ} (hY : Y < WE) (hN : 1 ≤ N) {x : ℕ → Flt} (hv : Valid WE EE N x) :
    let r := addTreeCut WE Y N x
    (r.m ≠ 0 → ∃ k < N, (x k).m ≠ 0 ∧ r.e = (x k).e) ∧
    ∀ E : ℤ, (∀ k < N, (x k).m ≠ 0 → (x k).e ≤ E) →
      (r.m : ℚ) * 2 ^ r.e ≤ exactSum Y N x ∧ exactSum Y N x ≤ (r.m : ℚ) * 2 ^ r.e + (2 * N - 1) * 2 ^ E := by
  have s := Proof.AddTree.addTreeCut_spec (Y := Y) hY hN hv.1
  refine ⟨fun h => ?_, fun E hE => ?_⟩
  · obtain ⟨k, hk, h1, h2⟩ := s.exp h
    exact ⟨k, hk, fun h0 => h1 (by simp [Proof.AddTree.cut, h0]), h2⟩
  · obtain ⟨b1, b2⟩ := s.bound E fun k hk h => hE k hk fun h0 => h (by simp [Proof.AddTree.cut, h0])
    obtain ⟨c1, c2⟩ := Proof.AddTree.cut_exact (Y := Y) hE
    unfold Proof.AddTree.value at b1 b2
    unfold exactSum
    constructor
    · linarith
    · linarith

example : addTreeCut 4 1 3 ops = ⟨1, 1⟩ ∧ exactSum 1 3 ops = 17 / 4 := by constructor <;> decide +kernel

/-- **C25**, ac_float output of block_add_tree, for every constructor `d` from a mantissa and an exponent: it is given a number
that is at most the sum of the operands and less than `N` units of the accumulator below it.  The operands have `IE` integer
bits. -/
theorem C25_float_block {WE EE N : ℕ} (d : ℚ → ℤ → ℚ) (IE : ℤ) (zh : Bool) (hW : 1 ≤ WE) (hE : 1 ≤ EE) (hN : 1 ≤ N) {x : ℕ → Flt}
    (hv : Valid WE EE N x) :
    (∀ X : ℕ, ∃ a e, floatOut d WE IE X (blockCore zh EE WE X N x) = d a e ∧
      a * 2 ^ e ≤ ∑ k ∈ Finset.range N, ((x k).m : ℚ) * 2 ^ (IE - WE) * 2 ^ (x k).e ∧
      ∑ k ∈ Finset.range N, ((x k).m : ℚ) * 2 ^ (IE - WE) * 2 ^ (x k).e < a * 2 ^ e + N * 2 ^ (IE - WE - X + (blockCore zh EE WE X N x).e)) ∧
    ∀ Y : ℕ, Y < WE → ∃ a e, floatOut d WE IE (-(Y : ℤ)) (blockCoreCut zh EE WE Y N x) = d a e ∧
      a * 2 ^ e ≤ ∑ k ∈ Finset.range N, ((x k).m : ℚ) * 2 ^ (IE - WE) * 2 ^ (x k).e ∧
      ∑ k ∈ Finset.range N, ((x k).m : ℚ) * 2 ^ (IE - WE) * 2 ^ (x k).e < a * 2 ^ e + N * 2 ^ (IE - WE + Y + (blockCoreCut zh EE WE Y N x).e) := by
  constructor
  · intro X
    refine ⟨_, _, rfl, ?_⟩
    have h := C25_block_bound (X := X) zh hW hE hN hv
    simp only at h
    generalize blockCore zh EE WE X N x = r at h
    have hp := Fmt.z_pos (IE - WE - X)
    have e1 : ∑ k ∈ Finset.range N, ((x k).m : ℚ) * 2 ^ (IE - WE) * 2 ^ (x k).e = 2 ^ (IE - WE - X) * Props.AddTree.exactSum X N x := by
      unfold Props.AddTree.exactSum
      rw [Finset.mul_sum]
      refine Finset.sum_congr rfl fun k _ => ?_
      have : (2 : ℚ) ^ (IE - WE) = 2 ^ (IE - WE - X) * 2 ^ X := by rw [← zpow_natCast, Fmt.z_add, sub_add_cancel]
      rw [this]; ring
    have e2 : (2 : ℚ) ^ (IE - WE - X + r.e) = 2 ^ (IE - WE - X) * 2 ^ r.e := (Fmt.z_add _ _).symm
    have k1 := mul_le_mul_of_nonneg_left h.1 hp.le
    have k2 := mul_lt_mul_of_pos_left h.2 hp
    rw [e1, e2]
    constructor <;> linarith
  · intro Y hY
    refine ⟨_, _, rfl, ?_⟩
    have h := C25_cut_block_bound (Y := Y) zh hY hE hN hv
    simp only at h
    generalize blockCoreCut zh EE WE Y N x = r at h
    rw [sub_neg_eq_add]
    have hp := Fmt.z_pos (IE - WE + Y)
    have e1 : ∑ k ∈ Finset.range N, ((x k).m : ℚ) * 2 ^ (IE - WE) * 2 ^ (x k).e = 2 ^ (IE - WE + Y) * exactSum Y N x := by
      unfold exactSum
      rw [Finset.mul_sum]
      refine Finset.sum_congr rfl fun k _ => ?_
      have : (2 : ℚ) ^ (IE - WE) = 2 ^ (IE - WE + Y) * 2 ^ (-(Y : ℤ)) := by rw [Fmt.z_add]; congr 1; ring
      rw [this]; ring
    have e2 : (2 : ℚ) ^ (IE - WE + Y + r.e) = 2 ^ (IE - WE + Y) * 2 ^ r.e := (Fmt.z_add _ _).symm
    have k1 := mul_le_mul_of_nonneg_left h.1 hp.le
    have k2 := mul_lt_mul_of_pos_left h.2 hp
    rw [e1, e2]
    constructor <;> linarith

example : floatOut (fun a e => a * 2 ^ e) 4 2 1 (blockCore true 3 4 1 3 ops) = 2 ∧ floatOut (fun a e => a * 2 ^ e) 4 2 (-1) (blockCoreCut true 3 4 1 3 ops) = 1 := by
  constructor <;> decide +kernel

/-- **C25**, ac_float output of add_tree: the constructor is given a number that is at most the sum of the operands and no
more than `N - 1` units of the accumulator at the largest exponent below it, or `2N - 1` with fewer fractional bits. -/
theorem C25_float_tree {WE EE N : ℕ} (d : ℚ → ℤ → ℚ) (IE : ℤ) (hW : 1 ≤ WE) (hN : 1 ≤ N) {x : ℕ → Flt} (hv : Valid WE EE N x)
    {E : ℤ} (hE : ∀ k < N, (x k).m ≠ 0 → (x k).e ≤ E) :
    (∀ X : ℕ, ∃ a e, floatOut d WE IE X (addTree WE X N x) = d a e ∧
      a * 2 ^ e ≤ ∑ k ∈ Finset.range N, ((x k).m : ℚ) * 2 ^ (IE - WE) * 2 ^ (x k).e ∧
      ∑ k ∈ Finset.range N, ((x k).m : ℚ) * 2 ^ (IE - WE) * 2 ^ (x k).e ≤ a * 2 ^ e + (N - 1) * 2 ^ (IE - WE - X + E)) ∧
    ∀ Y : ℕ, Y < WE → ∃ a e, floatOut d WE IE (-(Y : ℤ)) (addTreeCut WE Y N x) = d a e ∧
      a * 2 ^ e ≤ ∑ k ∈ Finset.range N, ((x k).m : ℚ) * 2 ^ (IE - WE) * 2 ^ (x k).e ∧
      ∑ k ∈ Finset.range N, ((x k).m : ℚ) * 2 ^ (IE - WE) * 2 ^ (x k).e ≤ a * 2 ^ e + (2 * N - 1) * 2 ^ (IE - WE + Y + E) := by
  constructor
  · intro X
    refine ⟨_, _, rfl, ?_⟩
    have h := (C25_tree (X := X) hW hN hv).2 E hE
    generalize addTree WE X N x = r at h
    have hp := Fmt.z_pos (IE - WE - X)
    have e1 : ∑ k ∈ Finset.range N, ((x k).m : ℚ) * 2 ^ (IE - WE) * 2 ^ (x k).e = 2 ^ (IE - WE - X) * Props.AddTree.exactSum X N x := by
      unfold Props.AddTree.exactSum
      rw [Finset.mul_sum]
      refine Finset.sum_congr rfl fun k _ => ?_
      have : (2 : ℚ) ^ (IE - WE) = 2 ^ (IE - WE - X) * 2 ^ X := by rw [← zpow_natCast, Fmt.z_add, sub_add_cancel]
      rw [this]; ring
    have e2 : (2 : ℚ) ^ (IE - WE - X + E) = 2 ^ (IE - WE - X) * 2 ^ E := (Fmt.z_add _ _).symm
    have k1 := mul_le_mul_of_nonneg_left h.1 hp.le
    have k2 := mul_le_mul_of_nonneg_left h.2 hp.le
    rw [e1, e2]
    constructor <;> linarith
  · intro Y hY
    refine ⟨_, _, rfl, ?_⟩
    have h := (C25_cut_tree (Y := Y) hY hN hv).2 E hE
    generalize addTreeCut WE Y N x = r at h
    rw [sub_neg_eq_add]
    have hp := Fmt.z_pos (IE - WE + Y)
    have e1 : ∑ k ∈ Finset.range N, ((x k).m : ℚ) * 2 ^ (IE - WE) * 2 ^ (x k).e = 2 ^ (IE - WE + Y) * exactSum Y N x := by
      unfold exactSum
      rw [Finset.mul_sum]
      refine Finset.sum_congr rfl fun k _ => ?_
      have : (2 : ℚ) ^ (IE - WE) = 2 ^ (IE - WE + Y) * 2 ^ (-(Y : ℤ)) := by rw [Fmt.z_add]; congr 1; ring
      rw [this]; ring
    have e2 : (2 : ℚ) ^ (IE - WE + Y + E) = 2 ^ (IE - WE + Y) * 2 ^ E := (Fmt.z_add _ _).symm
    have k1 := mul_le_mul_of_nonneg_left h.1 hp.le
    have k2 := mul_le_mul_of_nonneg_left h.2 hp.le
    rw [e1, e2]
    constructor <;> linarith

example : floatOut (fun a e => a * 2 ^ e) 4 2 1 (addTree 4 1 3 ops) = 2 ∧ floatOut (fun a e => a * 2 ^ e) 4 2 (-1) (addTreeCut 4 1 3 ops) = 1 := by
  constructor <;> decide +kernel

end Props.AddTreeCut
