import Verif.Proof.Random

/-! # C55: random values

`ac W old r k` are the bits `ac_random` generates for a variable of `W` bits of type `ac_int` or `ac_fixed` from the results
`r k, r (k+1), …` of `rand()`, together with the number of the first result that is not used; `old` is what the static variable of the
function holds from an earlier call. `builtin N` is the same for the C types of `N` bits, `systemc W` for the SystemC types.
`wrap W S n` is the value with the bits `n` of a type of `W` bits, signed if `S` is true. -/

namespace Props.Random
open Ac Model.Random Proof.Random

/-- The number of calls of `rand()` for `W` bits. -/
def calls (W : ℕ) : ℕ := (W + 15) / 16

/-- The results of `rand()` that start with the numbers `c`. -/
def results {n : ℕ} (c : Fin n → Fin (2 ^ 16)) (i : ℕ) : ℕ := if h : i < n then c ⟨i, h⟩ else 0

theorem results_eq {n : ℕ} (c : Fin n → Fin (2 ^ 16)) : results c = seq c := rfl

/-- **C55**, uniform: for every value of the type, the number of sequences of 16 bit results of `rand()` that give this value is the
same. So the value is uniformly distributed if the low 16 bits of the results of `rand()` are, and are independent. -/
theorem C55_ac_uniform {W : ℕ} {S : Bool} (hW : 1 ≤ W) {old : ℕ} (ho : old < 2 ^ W) {v : ℤ} (h0 : minRaw W S ≤ v) (h1 : v ≤ maxRaw W S) :
    (Finset.univ.filter fun c : Fin (calls W) → Fin (2 ^ 16) => wrap W S (ac W old (results c) 0).1 = v).card = 2 ^ (16 * calls W - W) := by
  refine card_val hW h0 h1 (fun c => down (seq c) (calls W)) _ (fun c => ?_) (down_card (by unfold calls; omega) (toNat_lt v))
  rw [ac_eq hW ho, results_eq, seq_zero]
  rfl

/-- **C55**, uniform, for C types of `16 n` bits. -/
theorem C55_builtin_uniform {n : ℕ} {S : Bool} (hn : 1 ≤ n) {v : ℤ} (h0 : minRaw (16 * n) S ≤ v) (h1 : v ≤ maxRaw (16 * n) S) :
    (Finset.univ.filter fun c : Fin n → Fin (2 ^ 16) => wrap (16 * n) S (builtin (16 * n) (results c) 0).1 = v).card = 1 := by
  have e : 2 ^ (16 * n - 16 * n) = 1 := by rw [Nat.sub_self, pow_zero]
  rw [← e]
  refine card_val (by omega) h0 h1 (fun c => down (seq c) n) _ (fun c => ?_) (down_card (by omega) (toNat_lt v))
  rcases Nat.lt_or_ge n 2 with h | h
  · obtain rfl : n = 1 := by omega
    rw [builtin_small (by norm_num), results_eq]
    simp only [down, Nat.zero_mul, Nat.zero_add, Nat.mul_one, Nat.mod_mod]
  · rw [builtin_eq h, results_eq, seq_zero]
    exact (Nat.mod_eq_of_lt (down_lt _ _)).symm

/-- **C55**, uniform, for SystemC types of `W` bits. -/
theorem C55_systemc_uniform {W : ℕ} {S : Bool} (hW : 1 ≤ W) {old : ℕ} (ho : old < 2 ^ W) {v : ℤ} (h0 : minRaw W S ≤ v) (h1 : v ≤ maxRaw W S) :
    (Finset.univ.filter fun c : Fin (calls W) → Fin (2 ^ 16) => wrap W S (systemc W old (results c) 0).1 = v).card =
      2 ^ (16 * calls W - W) := by
  refine card_val hW h0 h1 (fun c => up (seq c) (calls W)) _ (fun c => ?_) (up_card (by unfold calls; omega) (toNat_lt v))
  rw [systemc_eq ho, results_eq, seq_zero]
  rfl

/-- Some sequence of three results gives the value -5 of a signed type of 40 bits: there are `2^8` of them. -/
example : (Finset.univ.filter fun c : Fin (calls 40) → Fin (2 ^ 16) => wrap 40 true (ac 40 7 (results c) 0).1 = -5).card = 2 ^ 8 :=
  C55_ac_uniform (by norm_num) (by norm_num) (by decide) (by decide)
example : wrap 40 true (ac 40 7 (fun i => if i = 2 then 0xfffb else 0x1ffff) 0).1 = -5 := by decide +kernel
example : (Finset.univ.filter fun c : Fin 4 → Fin (2 ^ 16) => wrap (16 * 4) true (builtin (16 * 4) (results c) 0).1 = -5).card = 1 :=
  C55_builtin_uniform (by norm_num) (by decide) (by decide)
example : wrap 64 true (builtin 64 (fun i => if i = 3 then 0xfffb else 0x1ffff) 0).1 = -5 := by decide +kernel
example : (Finset.univ.filter fun c : Fin (calls 20) → Fin (2 ^ 16) => wrap 20 false (systemc 20 7 (results c) 0).1 = 5).card = 2 ^ 12 :=
  C55_systemc_uniform (by norm_num) (by norm_num) (by decide) (by decide)
example : wrap 20 false (systemc 20 7 (fun i => if i = 0 then 0x10005 else 0xfff0) 0).1 = 5 := by decide +kernel

/-- **C55**, no memory: the value does not depend on what the variables held before the call nor on results of `rand()` other than the
next `calls W`, and of these only on the low 16 bits; the call uses exactly that many. -/
theorem C55_no_memory {W : ℕ} (hW : 1 ≤ W) {old old' : ℕ} (ho : old < 2 ^ W) (ho' : old' < 2 ^ W) {r r' : ℕ → ℕ} {k k' : ℕ}
    (h : ∀ i < calls W, r (k + i) % 2 ^ 16 = r' (k' + i) % 2 ^ 16) :
    (ac W old r k).1 = (ac W old' r' k').1 ∧ (systemc W old r k).1 = (systemc W old' r' k').1 ∧
      (ac W old r k).2 = k + calls W ∧ (systemc W old r k).2 = k + calls W := by
  rw [ac_eq hW ho, ac_eq hW ho', systemc_eq ho, systemc_eq ho']
  refine ⟨?_, ?_, rfl, rfl⟩
  · show down (fun i => r (k + i)) (calls W) % _ = down (fun i => r' (k' + i)) (calls W) % _
    rw [down_congr (c := fun i => r (k + i)) (d := fun i => r' (k' + i)) _ h]
  · show up (fun i => r (k + i)) (calls W) % _ = up (fun i => r' (k' + i)) (calls W) % _
    rw [up_congr (c := fun i => r (k + i)) (d := fun i => r' (k' + i)) _ h]

example : (ac 40 7 (fun i => 3 * i) 2).1 = (ac 40 9 (fun i => 3 * i + 6 + 65536) 0).1 :=
  (C55_no_memory (W := 40) (old := 7) (old' := 9) (r := fun i => 3 * i) (r' := fun i => 3 * i + 6 + 65536) (k := 2) (k' := 0) (by norm_num)
    (by norm_num) (by norm_num) fun i _ => by omega).1

/-- **C55**, floating point: every pair of mantissa and exponent bits is generated by some results of `rand()` below `2^16`. -/
theorem C55_float_reach {W E : ℕ} (hW : 1 ≤ W) (hE : 1 ≤ E) {om oe m e : ℕ} (hom : om < 2 ^ W) (hoe : oe < 2 ^ E) (hm : m < 2 ^ W)
    (he : e < 2 ^ E) (k : ℕ) : ∃ r : ℕ → ℕ, (∀ i, r i < 2 ^ 16) ∧ acFloat W E om oe r k = ((m, e), k + calls W + calls E) := by
  refine ⟨fun i => (if i < k + calls W then m / 2 ^ (16 * (calls W - 1 - (i - k)))
    else e / 2 ^ (16 * (calls E - 1 - (i - (k + calls W))))) % 2 ^ 16, fun i => Nat.mod_lt _ (Nat.two_pow_pos 16), ?_⟩
  have fit : ∀ {V x : ℕ}, x < 2 ^ V → x % 2 ^ (16 * calls V) % 2 ^ V = x := by
    intro V x hx
    have h : 2 ^ V ≤ 2 ^ (16 * calls V) := Nat.pow_le_pow_right (by norm_num) (by unfold calls; omega)
    rw [Nat.mod_eq_of_lt (a := x) (by omega), Nat.mod_eq_of_lt hx]
  unfold acFloat
  simp only [ac_eq hW hom, ac_eq hE hoe]
  rw [show (W + 15) / 16 = calls W from rfl, show (E + 15) / 16 = calls E from rfl]
  congr 2
  · rw [down_congr (d := fun i => m / 2 ^ (16 * (calls W - 1 - i))) (calls W) (fun i hi => by
      simp only [Nat.mod_mod]
      rw [if_pos (by omega), show k + i - k = i by omega]), down_digits]
    exact fit hm
  · rw [down_congr (d := fun i => e / 2 ^ (16 * (calls E - 1 - i))) (calls E) (fun i hi => by
      simp only [Nat.mod_mod]
      rw [if_neg (by omega), show k + calls W + i - (k + calls W) = i by omega]), down_digits]
    exact fit he

example : acFloat 24 8 0 0 (fun i => [0x0012, 0x3456, 0x00ff].getD i 0) 0 = ((0x123456, 0xff), 3) := by decide +kernel

/-- If `RAND_MAX` is 32767, the least the C standard allows, every sixteenth bit of the generated bits is zero: so no negative value of
type `short`, and no value of more than 16 bits with bit 15 set, is ever generated. -/
theorem C55_short_rand_wrong {W : ℕ} (hW : 16 ≤ W) {old : ℕ} (ho : old < 2 ^ W) {r : ℕ → ℕ} (hr : ∀ i, r i < 2 ^ 15) (k : ℕ) :
    (ac W old r k).1.testBit 15 = false ∧ (systemc W old r k).1.testBit 15 = false ∧ (builtin 16 r k).1.testBit 15 = false := by
  have hb : ∀ i, (r i).testBit 15 = false := fun i => Nat.testBit_lt_two_pow (hr i)
  rw [ac_eq (by omega) ho, systemc_eq ho, builtin_small (by norm_num)]
  simp only [Nat.testBit_mod_two_pow]
  rw [down_testBit _ _ _ (by omega), up_testBit _ _ _ (by omega)]
  simp only [hb, Bool.and_false, and_self]

example : (ac 32 0 (fun _ => 32767) 0).1 = 0x7fff7fff := by decide +kernel

end Props.Random
