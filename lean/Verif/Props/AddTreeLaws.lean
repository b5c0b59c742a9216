import Verif.Props.AddTreeCut

/-! # C102: laws of the adder trees of ac_float numbers

`addTree` is the tree, `blockCore` the block adder; the definitions ending in `Cut` have fewer fractional bits than the
operands. A result is a mantissa and an exponent. -/

namespace Props.AddTreeLaws
open Ac Model.AddTree Props.AddTree

/-- The number times `2^c`. -/
def shift (c : ℤ) (a : Flt) : Flt := ⟨a.m, a.e + c⟩

theorem sum2_shift (WR : ℕ) (c : ℤ) (a b : Flt) : sum2 WR (shift c a) (shift c b) = shift c (sum2 WR a b) := by
  unfold sum2 shift
  simp only [add_sub_add_right_eq_sub]
  split_ifs <;> rfl

/-- **C102**, scaling: multiplying all operands of the tree by a power of two multiplies the sum by it; the mantissa is the same
bit for bit, whatever is lost by alignment. (The exponents of the products must fit the type; the tree only compares and
subtracts exponents.) -/
theorem C102_tree_scale (WE X N : ℕ) (c : ℤ) (x : ℕ → Flt) :
    addTree WE X N (fun k => shift c (x k)) = shift c (addTree WE X N x) := by
  have key : ∀ fuel N x, addAux WE X fuel N (fun k => shift c (x k)) = shift c (addAux WE X fuel N x) := by
    intro fuel
    induction fuel with
    | zero => intro N x; rfl
    | succ n ih =>
      intro N x
      rw [addAux, addAux]
      split_ifs
      · rfl
      · rw [ih, ih _ fun k => x (k + N / 2), sum2_shift]
  exact key N N x

/-- The same with fewer fractional bits. -/
theorem C102_tree_scale_cut (WE Y N : ℕ) (c : ℤ) (x : ℕ → Flt) :
    addTreeCut WE Y N (fun k => shift c (x k)) = shift c (addTreeCut WE Y N x) := by
  have key : ∀ fuel N x, addAuxCut WE Y fuel N (fun k => shift c (x k)) = shift c (addAuxCut WE Y fuel N x) := by
    intro fuel
    induction fuel with
    | zero => intro N x; rfl
    | succ n ih =>
      intro N x
      rw [addAuxCut, addAuxCut]
      split_ifs
      · rfl
      · rw [ih, ih _ fun k => x (k + N / 2), sum2_shift]
  exact key N N x

theorem maxAux_shift (c : ℤ) : ∀ fuel N x, maxAux fuel N (fun k => x k + c) = maxAux fuel N x + c := by
  intro fuel
  induction fuel with
  | zero => intro N x; rfl
  | succ n ih =>
    intro N x
    rw [maxAux, maxAux]
    split_ifs with h
    · rfl
    · simp only [ih, ih _ fun k => x (k + N / 2)]
      split_ifs <;> omega

/-- **C102**, scaling for the block adder, without the treatment of zeros, and with it if there is a nonzero operand and the
operands times the power of two are numbers of the type. -/
theorem C102_block_scale (EE WE X N : ℕ) (c : ℤ) (x : ℕ → Flt) :
    blockCore false EE WE X N (fun k => shift c (x k)) = shift c (blockCore false EE WE X N x) ∧
    (1 ≤ WE → 1 ≤ EE → Valid WE EE N x → Valid WE EE N (fun k => shift c (x k)) → (∃ k < N, (x k).m ≠ 0) →
      blockCore true EE WE X N (fun k => shift c (x k)) = shift c (blockCore true EE WE X N x)) := by
  refine ⟨?_, fun hW hE hv hv' hne => ?_⟩
  · have h : commonExp false EE N (fun k => shift c (x k)) = commonExp false EE N x + c := by
      unfold commonExp zeroHandleExp shift
      exact maxAux_shift c N N fun k => (x k).e
    unfold blockCore
    rw [h]
    unfold aligned shift
    simp only [add_sub_add_right_eq_sub]
  · obtain ⟨⟨k, hk, hm, he⟩, h1⟩ := (C25_block (X := X) hW hE hv hne).1
    have s := (C25_block (X := X) hW hE hv hne).2
    obtain ⟨⟨g, s'⟩⟩ := (⟨C25_block (X := X) hW hE hv' hne⟩ : Nonempty _)
    have e : (blockCore true EE WE X N fun k => shift c (x k)).e = (blockCore true EE WE X N x).e + c := by
      refine g.unique ⟨⟨k, hk, hm, ?_⟩, ?_⟩
      · rw [he]; rfl
      · rintro e ⟨j, hj, hm', rfl⟩
        have := h1 ⟨j, hj, hm', rfl⟩
        change (x j).e + c ≤ _
        omega
    have m : (blockCore true EE WE X N fun k => shift c (x k)).m = (blockCore true EE WE X N x).m := by
      rw [s, s', e]
      refine Finset.sum_congr rfl fun j _ => ?_
      change ⌊((x j).m : ℚ) * 2 ^ X * 2 ^ ((x j).e + c - _)⌋ = _
      rw [add_sub_add_right_eq_sub]
    generalize blockCore true EE WE X N (fun k => shift c (x k)) = a at *
    cases a
    simp only at e m
    rw [e, m]; rfl

/-- Two results with the same value: the exponent of zero does not matter. -/
def Same (a b : Flt) : Prop := a.m = b.m ∧ (a.m ≠ 0 → a.e = b.e)

theorem wrap_zero {WR : ℕ} (h : 1 ≤ WR) : wrap WR true 0 = 0 := by
  have : (1 : ℤ) ≤ 2 ^ (WR - 1) := one_le_pow₀ (by norm_num)
  exact wrap_of_range h (by simp only [minRaw, if_true]; omega) (by simp only [maxRaw, if_true]; omega)

theorem sum2_zero_left {WR : ℕ} (h : 1 ≤ WR) (e : ℤ) (b : Flt) :
    sum2 WR ⟨0, e⟩ b = ⟨wrap WR true (wrap WR true b.m), if b.m = 0 then e else b.e⟩ := by
  unfold sum2
  by_cases lt : e - b.e < 0 <;> by_cases z : b.m = 0 <;> simp [lt, z, wrap_zero h]

theorem sum2_zero_right {WR : ℕ} (h : 1 ≤ WR) (e : ℤ) (a : Flt) :
    sum2 WR a ⟨0, e⟩ = ⟨wrap WR true (wrap WR true a.m), a.e⟩ := by
  unfold sum2
  by_cases lt : a.e - e < 0 <;> by_cases z : a.m = 0 <;> simp [lt, z, wrap_zero h]

theorem sum2_same {WR : ℕ} (h : 1 ≤ WR) {a b a' b' : Flt} (ha : Same a a') (hb : Same b b') :
    Same (sum2 WR a b) (sum2 WR a' b') := by
  obtain ⟨am, ae⟩ := a; obtain ⟨bm, be⟩ := b; obtain ⟨am', ae'⟩ := a'; obtain ⟨bm', be'⟩ := b'
  obtain ⟨h1, h2⟩ := ha; obtain ⟨h3, h4⟩ := hb
  simp only at h1 h2 h3 h4
  subst h1 h3
  by_cases z1 : am = 0
  · subst z1
    rw [sum2_zero_left h, sum2_zero_left h]
    refine ⟨rfl, fun hm => ?_⟩
    by_cases z2 : bm = 0
    · subst z2; simp [wrap_zero h] at hm
    · simp only [z2, if_false, h4 z2]
  · by_cases z2 : bm = 0
    · subst z2
      rw [sum2_zero_right h, sum2_zero_right h]
      exact ⟨rfl, fun _ => h2 z1⟩
    · rw [h2 z1, h4 z2]; exact ⟨rfl, fun _ => rfl⟩

theorem sum2_comm {WR : ℕ} (h : 1 ≤ WR) (a b : Flt) : Same (sum2 WR a b) (sum2 WR b a) := by
  obtain ⟨am, ae⟩ := a; obtain ⟨bm, be⟩ := b
  by_cases z1 : am = 0
  · subst z1
    rw [sum2_zero_left h, sum2_zero_right h]
    refine ⟨rfl, fun hm => ?_⟩
    by_cases z2 : bm = 0
    · subst z2; simp [wrap_zero h] at hm
    · simp only [z2, if_false]
  · by_cases z2 : bm = 0
    · subst z2
      rw [sum2_zero_left h, sum2_zero_right h]
      exact ⟨rfl, fun _ => by simp only [z1, if_false]⟩
    · unfold sum2 Same
      simp only [z1, z2, decide_false, Bool.or_false, Bool.false_or, Bool.false_eq_true, if_false, Bool.not_false, Bool.true_and]
      rcases lt_trichotomy ae be with l | rfl | l
      · have l1 : ae - be < 0 := by omega
        have l2 : ¬ be - ae < 0 := by omega
        simp only [l1, l2, decide_true, decide_false, if_true, Bool.false_eq_true, if_false, neg_sub]
        exact ⟨trivial, fun _ => trivial⟩
      · simp [add_comm]
      · have l1 : be - ae < 0 := by omega
        have l2 : ¬ ae - be < 0 := by omega
        simp only [l1, l2, decide_true, decide_false, if_true, Bool.false_eq_true, if_false, neg_sub]
        exact ⟨trivial, fun _ => trivial⟩

/-- **C102**, mirror: for a power of two of operands the tree of the operands in the opposite order has the same sum (the
exponent of a zero sum may differ). For three operands this is false: `C25_tree_order_matters`. -/
theorem C102_tree_mirror {WE : ℕ} (hW : 1 ≤ WE) (X n : ℕ) (x : ℕ → Flt) :
    Same (addTree WE X (2 ^ n) fun k => x (2 ^ n - 1 - k)) (addTree WE X (2 ^ n) x) := by
  have congr : ∀ fuel N (x y : ℕ → Flt), 1 ≤ N → (∀ k < N, x k = y k) → addAux WE X fuel N x = addAux WE X fuel N y := by
    intro fuel
    induction fuel with
    | zero => intro N x y hN h; rw [addAux, addAux, h 0 (by omega)]
    | succ f ih =>
      intro N x y hN h
      rw [addAux, addAux, h 0 (by omega)]
      split_ifs with h1
      · rfl
      · rw [ih (N / 2) x y (by omega) fun k hk => h k (by omega), ih (N - N / 2) (fun k => x (k + N / 2)) (fun k => y (k + N / 2)) (by omega)
          fun k hk => h _ (by omega)]
  have key : ∀ n fuel (x : ℕ → Flt), n ≤ fuel →
      Same (addAux WE X fuel (2 ^ n) fun k => x (2 ^ n - 1 - k)) (addAux WE X fuel (2 ^ n) x) := by
    intro n
    induction n with
    | zero =>
      intro fuel x _
      cases fuel with
      | zero => exact ⟨rfl, fun _ => rfl⟩
      | succ f => rw [addAux, addAux]; exact ⟨rfl, fun _ => rfl⟩
    | succ n ih =>
      intro fuel x hf
      obtain ⟨f, rfl⟩ : ∃ f, fuel = f + 1 := ⟨fuel - 1, by omega⟩
      have p : 1 ≤ 2 ^ n := Nat.one_le_two_pow
      have d : 2 ^ (n + 1) / 2 = 2 ^ n := by rw [pow_succ]; omega
      have d' : 2 ^ (n + 1) - 2 ^ n = 2 ^ n := by rw [pow_succ]; omega
      rw [addAux, addAux, if_neg (show ¬ 2 ^ (n + 1) ≤ 1 by rw [pow_succ]; omega), if_neg (show ¬ 2 ^ (n + 1) ≤ 1 by rw [pow_succ]; omega), d, d']
      have e1 : addAux WE X f (2 ^ n) (fun k => x (2 ^ (n + 1) - 1 - k)) = addAux WE X f (2 ^ n) (fun k => (fun j => x (j + 2 ^ n)) (2 ^ n - 1 - k)) :=
        congr _ _ _ _ p fun k hk => by change x _ = x _; congr 1; rw [pow_succ]; omega
      have e2 : addAux WE X f (2 ^ n) (fun k => x (2 ^ (n + 1) - 1 - (k + 2 ^ n))) = addAux WE X f (2 ^ n) (fun k => x (2 ^ n - 1 - k)) :=
        congr _ _ _ _ p fun k hk => by congr 1; rw [pow_succ]; omega
      rw [e1, e2]
      have s := sum2_same (WR := WE + log2Ceil (2 ^ (n + 1)) + X) (by omega) (ih f (fun j => x (j + 2 ^ n)) (by omega)) (ih f x (by omega))
      have t := sum2_comm (WR := WE + log2Ceil (2 ^ (n + 1)) + X) (by omega) (addAux WE X f (2 ^ n) fun j => x (j + 2 ^ n)) (addAux WE X f (2 ^ n) x)
      exact ⟨s.1.trans t.1, fun hm => (s.2 hm).trans (t.2 (s.1 ▸ hm))⟩
  exact key n (2 ^ n) x Nat.lt_two_pow_self.le

/-- Four operands whose alignment loses bits, in both orders: 1 + 1 + 1 + 2. -/
example : addTree 4 0 4 (fun k => if k = 3 then ⟨1, 1⟩ else ⟨1, 0⟩) = ⟨2, 1⟩ ∧
    addTree 4 0 4 (fun k => if k = 0 then ⟨1, 1⟩ else ⟨1, 0⟩) = ⟨2, 1⟩ := by
  decide +kernel

/-- **C102**, two operands may be exchanged. -/
theorem C102_tree_comm {WE : ℕ} (hW : 1 ≤ WE) (X : ℕ) (a b : Flt) :
    Same (addTree WE X 2 fun k => if k = 0 then a else b) (addTree WE X 2 fun k => if k = 0 then b else a) := by
  have h := C102_tree_mirror hW X 1 fun k => if k = 0 then b else a
  have : (addTree WE X 2 fun k => if k = 0 then a else b) = addTree WE X (2 ^ 1) fun k => (fun k => if k = 0 then b else a) (2 ^ 1 - 1 - k) := by
    unfold addTree; simp [addAux]
  rw [this]; exact h

/-- **C102**, agreement: the block adder and the tree differ by less than one unit in the last place of the largest exponent for each operand. -/
theorem C102_agree {WE EE X N : ℕ} (hW : 1 ≤ WE) (hE : 1 ≤ EE) {x : ℕ → Flt} (hv : Valid WE EE N x) (hne : ∃ k < N, (x k).m ≠ 0) :
    let t := addTree WE X N x
    let b := blockCore true EE WE X N x
    |(t.m : ℚ) * 2 ^ t.e - (b.m : ℚ) * 2 ^ b.e| < N * 2 ^ b.e := by
  intro t b
  have hN : 1 ≤ N := by obtain ⟨k, hk, -⟩ := hne; omega
  obtain ⟨⟨-, h1⟩, -⟩ := C25_block (X := X) hW hE hv hne
  obtain ⟨b1, b2⟩ := C25_block_bound (X := X) true hW hE hN hv
  obtain ⟨t1, t2⟩ := (C25_tree (X := X) hW hN hv).2 b.e fun k hk hm => h1 ⟨k, hk, hm, rfl⟩
  have p : (0 : ℚ) < 2 ^ b.e := zpow_pos (by norm_num) _
  change (b.m : ℚ) * 2 ^ b.e ≤ _ at b1
  change _ < (b.m : ℚ) * 2 ^ b.e + N * 2 ^ b.e at b2
  change (t.m : ℚ) * 2 ^ t.e ≤ _ at t1
  change _ ≤ (t.m : ℚ) * 2 ^ t.e + (N - 1) * 2 ^ b.e at t2
  rw [abs_lt]
  constructor <;> nlinarith

/-- The three operands of C25: 5·2, 0 and -3/2 and the same times 2. -/
example : Valid 4 3 3 ops ∧ Valid 4 3 3 (fun k => shift (-1) (ops k)) ∧ (∃ k < 3, (ops k).m ≠ 0) ∧
    addTree 4 1 3 ops = ⟨8, 1⟩ ∧ addTree 4 1 3 (fun k => shift 1 (ops k)) = ⟨8, 2⟩ ∧
    blockCore true 3 4 1 3 ops = ⟨8, 1⟩ ∧ blockCore true 3 4 1 3 (fun k => shift (-1) (ops k)) = ⟨8, 0⟩ := by
  refine ⟨ops_valid, ?_, ⟨0, by decide, by decide⟩, by decide +kernel, by decide +kernel, by decide +kernel, by decide +kernel⟩
  constructor <;>
  · intro k hk
    have : k = 0 ∨ k = 1 ∨ k = 2 := by omega
    rcases this with rfl | rfl | rfl <;> decide

end Props.AddTreeLaws
