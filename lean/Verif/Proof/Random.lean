import Verif.Model.Random
import Verif.Ac.Lemmas
import Mathlib.Algebra.BigOperators.Fin
import Mathlib.Data.Fintype.Card
import Mathlib.Data.Nat.Bitwise
import Mathlib.Tactic.Ring

namespace Proof.Random
open Ac Model.Random

/-- Base `2^16` number with the low 16 bits of `c 0, …, c (n-1)` as digits, the first one on top. -/
def down (c : ℕ → ℕ) : ℕ → ℕ
  | 0 => 0
  | n + 1 => down c n * 2 ^ 16 + c n % 2 ^ 16

/-- The same with the first one at the bottom. -/
def up (c : ℕ → ℕ) : ℕ → ℕ
  | 0 => 0
  | n + 1 => up c n + c n % 2 ^ 16 * 2 ^ (16 * n)

theorem up_lt (c : ℕ → ℕ) (n : ℕ) : up c n < 2 ^ (16 * n) := by
  induction n with
  | zero => simp [up]
  | succ n ih =>
    unfold up
    have h := Nat.mod_lt (c n) (show 0 < 2 ^ 16 by norm_num)
    have : c n % 2 ^ 16 * 2 ^ (16 * n) ≤ (2 ^ 16 - 1) * 2 ^ (16 * n) := Nat.mul_le_mul_right _ (by omega)
    have e : 2 ^ (16 * (n + 1)) = 2 ^ 16 * 2 ^ (16 * n) := by rw [← pow_add]; congr 1; ring
    rw [e]
    omega

theorem forUp_succ {σ : Type*} (f : ℕ → σ → σ) (n : ℕ) (s : σ) : forUp f (n + 1) s = f n (forUp f n s) := rfl

theorem forUp_snd {f : ℕ → ℕ × ℕ → ℕ × ℕ} (hf : ∀ i s, (f i s).2 = s.2 + 1) (s : ℕ × ℕ) (n : ℕ) : (forUp f n s).2 = s.2 + n := by
  induction n with
  | zero => rfl
  | succ n ih =>
    show (f n (forUp f n s)).2 = _
    rw [hf, ih]; ring

theorem mod_aux (a b c : ℕ) : a % (c * b) * c % (c * b) = a % b * c := by
  rw [Nat.mul_comm c b, Nat.mul_mod_mul_right, Nat.mod_mul_right_mod]

theorem up_succ (c : ℕ → ℕ) (n : ℕ) : up c (n + 1) = up c n + c n % 2 ^ 16 * 2 ^ (16 * n) := rfl

/-- Shifting a word of more than 16 bits and inserting 16 new bits. -/
theorem shift_in {W a x : ℕ} (h : 16 ≤ W) : setSlc 16 (a % 2 ^ W * 2 ^ 16 % 2 ^ W) x = (a * 2 ^ 16 + x % 2 ^ 16) % 2 ^ W := by
  unfold setSlc
  have hx := Nat.mod_lt x (show 0 < 2 ^ 16 by norm_num)
  obtain ⟨d, rfl⟩ := Nat.exists_eq_add_of_le h
  have e : a % 2 ^ (16 + d) * 2 ^ 16 % 2 ^ (16 + d) = a % 2 ^ d * 2 ^ 16 := by
    rw [pow_add]
    exact mod_aux _ _ _
  rw [e, Nat.mul_div_cancel _ (Nat.two_pow_pos 16)]
  have h1 : (a * 2 ^ 16 + x % 2 ^ 16) / 2 ^ 16 = a := by
    rw [Nat.add_comm, Nat.add_mul_div_right _ _ (Nat.two_pow_pos 16), Nat.div_eq_of_lt hx, Nat.zero_add]
  have h2 : (a * 2 ^ 16 + x % 2 ^ 16) % 2 ^ 16 = x % 2 ^ 16 := by
    rw [Nat.mul_add_mod_self_right, Nat.mod_mod]
  rw [pow_add, Nat.mod_mul, h1, h2]
  ring

theorem acBig_eq {W : ℕ} (h : 16 < W) (r : ℕ → ℕ) (k : ℕ) :
    acBig W r k = (down (fun i => r (k + i)) ((W + 15) / 16) % 2 ^ W, k + (W + 15) / 16) := by
  unfold acBig
  have key : ∀ n, forUp (fun _ s => (setSlc 16 (s.1 * 2 ^ 16 % 2 ^ W) (r s.2), s.2 + 1)) n (setSlc 16 0 (r k), k + 1) =
      (down (fun i => r (k + i)) (n + 1) % 2 ^ W, k + (n + 1)) := by
    intro n
    induction n with
    | zero =>
      have hx := Nat.mod_lt (r k) (show 0 < 2 ^ 16 by norm_num)
      have hW : 2 ^ 16 ≤ 2 ^ W := Nat.pow_le_pow_right (by norm_num) h.le
      simp only [forUp, setSlc, down, Nat.zero_div, Nat.zero_mul, Nat.zero_add, Nat.add_zero]
      rw [Nat.mod_eq_of_lt (by omega : r k % 2 ^ 16 < 2 ^ W)]
    | succ n ih =>
      rw [forUp_succ, ih]
      simp only []
      rw [shift_in h.le]
      rfl
  rw [key, show (W - 1) / 16 + 1 = (W + 15) / 16 by omega]

theorem ac_eq {W : ℕ} (h : 1 ≤ W) {old : ℕ} (ho : old < 2 ^ W) (r : ℕ → ℕ) (k : ℕ) :
    ac W old r k = (down (fun i => r (k + i)) ((W + 15) / 16) % 2 ^ W, k + (W + 15) / 16) := by
  unfold ac
  split_ifs with h16
  · rw [show (W + 15) / 16 = 1 by omega]
    unfold acSmall setSlc
    rw [Nat.div_eq_of_lt ho]
    simp only [down, Nat.zero_mul, Nat.zero_add, Nat.add_zero]
    rw [Nat.mod_mod_of_dvd _ (pow_dvd_pow 2 h16)]
  · exact acBig_eq (by omega) r k

theorem and_mask (x : ℕ) : x &&& 0xffff = x % 2 ^ 16 := Nat.and_two_pow_sub_one_eq_mod x 16

theorem or_add {a x : ℕ} (hx : x < 2 ^ 16) : a * 2 ^ 16 ||| x = a * 2 ^ 16 + x := by
  rw [Nat.mul_comm]
  exact (Nat.two_pow_add_eq_or_of_lt hx a).symm

theorem down_lt (c : ℕ → ℕ) (n : ℕ) : down c n < 2 ^ (16 * n) := by
  induction n with
  | zero => simp [down]
  | succ n ih =>
    unfold down
    have h := Nat.mod_lt (c n) (show 0 < 2 ^ 16 by norm_num)
    have e : 2 ^ (16 * (n + 1)) = 2 ^ 16 * 2 ^ (16 * n) := by rw [← pow_add]; congr 1; ring
    rw [e]
    omega

theorem builtin_eq {n : ℕ} (h : 2 ≤ n) (r : ℕ → ℕ) (k : ℕ) : builtin (16 * n) r k = (down (fun i => r (k + i)) n, k + n) := by
  unfold builtin
  rw [show 16 * n / 16 = n by omega]
  simp only []
  rw [if_neg (by omega)]
  have key : ∀ m, m < n → forUp (fun _ s => ((s.1 * 2 ^ 16 % 2 ^ (16 * n)) ||| (r s.2 &&& 0xffff), s.2 + 1)) m (r k &&& 0xffff, k + 1) =
      (down (fun i => r (k + i)) (m + 1), k + (m + 1)) := by
    intro m
    induction m with
    | zero =>
      intro _
      simp only [forUp, down, and_mask, Nat.zero_mul, Nat.zero_add, Nat.add_zero]
    | succ m ih =>
      intro hm
      rw [forUp_succ, ih (by omega)]
      simp only []
      have h1 := down_lt (fun i => r (k + i)) (m + 1)
      have h2 : down (fun i => r (k + i)) (m + 1) * 2 ^ 16 < 2 ^ (16 * n) := by
        calc _ < 2 ^ (16 * (m + 1)) * 2 ^ 16 := by omega
          _ = 2 ^ (16 * (m + 1) + 16) := by rw [pow_add]
          _ ≤ _ := Nat.pow_le_pow_right (by norm_num) (by omega)
      rw [Nat.mod_eq_of_lt h2, and_mask, or_add (Nat.mod_lt _ (by norm_num))]
      rfl
  rw [key (n - 1) (by omega), show n - 1 + 1 = n by omega]

theorem builtin_small {N : ℕ} (h : N / 16 ≤ 1) (r : ℕ → ℕ) (k : ℕ) : builtin N r k = (r k % 2 ^ N, k + 1) := by
  unfold builtin
  simp only []
  rw [if_pos h]

theorem systemc_eq {W : ℕ} {old : ℕ} (ho : old < 2 ^ W) (r : ℕ → ℕ) (k : ℕ) :
    systemc W old r k = (up (fun i => r (k + i)) ((W + 15) / 16) % 2 ^ W, k + (W + 15) / 16) := by
  have key : ∀ n, forUp (fun j s => (setRange (16 * j) 16 s.1 (r s.2 &&& 0xffff), s.2 + 1)) n (old, k) =
      (up (fun i => r (k + i)) n + old / 2 ^ (16 * n) * 2 ^ (16 * n), k + n) := by
    intro n
    induction n with
    | zero => simp [forUp, up]
    | succ n ih =>
      rw [forUp_succ, ih]
      simp only []
      unfold setRange
      have hu := up_lt (fun i => r (k + i)) n
      have hp : 0 < 2 ^ (16 * n) := Nat.two_pow_pos _
      rw [Nat.add_mul_mod_self_right, Nat.mod_eq_of_lt hu, pow_add, ← Nat.div_div_eq_div_mul, Nat.add_mul_div_right _ _ hp,
        Nat.div_eq_of_lt hu, Nat.zero_add, Nat.div_div_eq_div_mul, ← pow_add, and_mask, Nat.mod_mod, show 16 * n + 16 = 16 * (n + 1) by ring]
      rfl
  unfold systemc
  simp only [key]
  have hp : 0 < 2 ^ (16 * (W / 16)) := Nat.two_pow_pos _
  have hu := up_lt (fun i => r (k + i)) (W / 16)
  split_ifs with h
  · rw [show (W + 15) / 16 = W / 16 + 1 by omega]
    unfold setRange
    rw [Nat.add_mul_mod_self_right, Nat.mod_eq_of_lt hu, show 16 * (W / 16) + (W - 16 * (W / 16)) = W by omega]
    have e0 : (up (fun i => r (k + i)) (W / 16) + old / 2 ^ (16 * (W / 16)) * 2 ^ (16 * (W / 16))) / 2 ^ W = 0 := by
      refine Nat.div_eq_of_lt ?_
      obtain ⟨d, hd⟩ : ∃ d, W = 16 * (W / 16) + d := ⟨W - 16 * (W / 16), by omega⟩
      have hq : old / 2 ^ (16 * (W / 16)) < 2 ^ d := by
        rw [Nat.div_lt_iff_lt_mul hp, ← pow_add, Nat.add_comm d, ← hd]
        exact ho
      calc _ < 2 ^ (16 * (W / 16)) + old / 2 ^ (16 * (W / 16)) * 2 ^ (16 * (W / 16)) := by omega
        _ = (old / 2 ^ (16 * (W / 16)) + 1) * 2 ^ (16 * (W / 16)) := by ring
        _ ≤ 2 ^ d * 2 ^ (16 * (W / 16)) := Nat.mul_le_mul_right _ hq
        _ = 2 ^ W := by rw [← pow_add, Nat.add_comm d, ← hd]
    rw [e0, Nat.zero_mul, Nat.add_zero, and_mask, up_succ]
    obtain ⟨d, hd⟩ : ∃ d, W - 16 * (W / 16) = d := ⟨_, rfl⟩
    have hW : 2 ^ W = 2 ^ (16 * (W / 16)) * 2 ^ d := by rw [← pow_add]; congr 1; omega
    rw [hd, hW, Nat.mod_mul, Nat.add_mul_mod_self_right, Nat.mod_eq_of_lt hu, Nat.add_mul_div_right _ _ hp, Nat.div_eq_of_lt hu,
      Nat.zero_add, Nat.mul_comm (2 ^ (16 * (W / 16)))]
    simp only [Nat.add_assoc]
  · have hW : W = 16 * (W / 16) := by omega
    rw [show (W + 15) / 16 = W / 16 by omega, ← hW, Nat.div_eq_of_lt ho, Nat.zero_mul, Nat.add_zero, Nat.mod_eq_of_lt (by rwa [← hW] at hu)]

/-! ## Counting -/

/-- The sequence that starts with the numbers `c`. -/
def seq {n : ℕ} (c : Fin n → Fin (2 ^ 16)) (i : ℕ) : ℕ := if h : i < n then c ⟨i, h⟩ else 0

theorem up_sum (c : ℕ → ℕ) (n : ℕ) : up c n = ∑ i : Fin n, c i % 2 ^ 16 * (2 ^ 16) ^ (i : ℕ) := by
  induction n with
  | zero => rfl
  | succ n ih =>
    rw [Fin.sum_univ_castSucc]
    unfold up
    rw [ih, pow_mul]
    rfl

theorem down_sum (c : ℕ → ℕ) (n : ℕ) : down c n = ∑ i : Fin n, c i % 2 ^ 16 * (2 ^ 16) ^ (n - 1 - (i : ℕ)) := by
  induction n with
  | zero => rfl
  | succ n ih =>
    rw [Fin.sum_univ_castSucc]
    unfold down
    rw [ih, Finset.sum_mul]
    congr 1
    · refine Finset.sum_congr rfl fun i _ => ?_
      have := i.2
      rw [mul_assoc, ← pow_succ]
      congr 2
      simp only [Fin.val_castSucc]
      omega
    · simp

theorem up_seq {n : ℕ} (c : Fin n → Fin (2 ^ 16)) : up (seq c) n = finFunctionFinEquiv c := by
  rw [up_sum, finFunctionFinEquiv_apply]
  refine Finset.sum_congr rfl fun i _ => ?_
  unfold seq
  rw [dif_pos i.2, Nat.mod_eq_of_lt (c _).2]

theorem down_seq {n : ℕ} (c : Fin n → Fin (2 ^ 16)) : down (seq c) n = finFunctionFinEquiv (fun i => c i.rev) := by
  rw [down_sum, finFunctionFinEquiv_apply, ← Equiv.sum_comp Fin.revPerm]
  refine Finset.sum_congr rfl fun i _ => ?_
  unfold seq
  rw [dif_pos (Fin.revPerm i).2, Nat.mod_eq_of_lt (c _).2]
  simp only [Fin.revPerm_apply, Fin.val_rev]
  congr 2
  have := i.2
  omega

theorem card_mod {n W t : ℕ} (h : W ≤ 16 * n) (ht : t < 2 ^ W) :
    (Finset.univ.filter fun x : Fin ((2 ^ 16) ^ n) => (x : ℕ) % 2 ^ W = t).card = 2 ^ (16 * n - W) := by
  have hp : 0 < 2 ^ W := Nat.two_pow_pos _
  have hM : (2 ^ 16) ^ n = 2 ^ (16 * n - W) * 2 ^ W := by rw [← pow_mul, ← pow_add]; congr 1; omega
  rw [← Finset.card_range (2 ^ (16 * n - W))]
  refine (Finset.card_bij (fun y hy => (⟨y * 2 ^ W + t, ?_⟩ : Fin ((2 ^ 16) ^ n))) ?_ ?_ ?_).symm
  · rw [hM]
    have hy := Finset.mem_range.1 hy
    calc _ < (y + 1) * 2 ^ W := by rw [Nat.add_mul, Nat.one_mul]; omega
      _ ≤ _ := Nat.mul_le_mul_right _ hy
  · intro y hy
    rw [Finset.mem_filter]
    refine ⟨Finset.mem_univ _, ?_⟩
    show (y * 2 ^ W + t) % 2 ^ W = t
    rw [Nat.mul_add_mod_self_right, Nat.mod_eq_of_lt ht]
  · intro y _ z _ hyz
    have := congrArg Fin.val hyz
    simp only [] at this
    have : y * 2 ^ W = z * 2 ^ W := by omega
    exact Nat.eq_of_mul_eq_mul_right hp this
  · intro x hx
    rw [Finset.mem_filter] at hx
    have hx2 := x.2
    refine ⟨(x : ℕ) / 2 ^ W, ?_, ?_⟩
    · rw [Finset.mem_range, Nat.div_lt_iff_lt_mul hp, ← hM]
      exact hx2
    · apply Fin.ext
      show (x : ℕ) / 2 ^ W * 2 ^ W + t = x
      rw [← hx.2]
      exact Nat.div_add_mod' _ _

theorem card_equiv {n W t : ℕ} (h : W ≤ 16 * n) (ht : t < 2 ^ W) (e : (Fin n → Fin (2 ^ 16)) ≃ Fin ((2 ^ 16) ^ n))
    (f : (Fin n → Fin (2 ^ 16)) → ℕ) (hf : ∀ c, f c = e c % 2 ^ W) :
    (Finset.univ.filter fun c => f c = t).card = 2 ^ (16 * n - W) := by
  rw [← card_mod h ht]
  refine Finset.card_equiv e fun c => ?_
  simp only [Finset.mem_filter, Finset.mem_univ, true_and, hf]

theorem down_card {n W t : ℕ} (h : W ≤ 16 * n) (ht : t < 2 ^ W) :
    (Finset.univ.filter fun c : Fin n → Fin (2 ^ 16) => down (seq c) n % 2 ^ W = t).card = 2 ^ (16 * n - W) := by
  refine card_equiv h ht ((Equiv.arrowCongr Fin.revPerm (Equiv.refl _)).trans finFunctionFinEquiv) _ fun c => ?_
  rw [down_seq]
  rfl

theorem up_card {n W t : ℕ} (h : W ≤ 16 * n) (ht : t < 2 ^ W) :
    (Finset.univ.filter fun c : Fin n → Fin (2 ^ 16) => up (seq c) n % 2 ^ W = t).card = 2 ^ (16 * n - W) := by
  refine card_equiv h ht finFunctionFinEquiv _ fun c => ?_
  rw [up_seq]

/-- A bit of the generated number. -/
theorem up_testBit (c : ℕ → ℕ) (n i : ℕ) (hi : i < 16 * n) : (up c n).testBit i = (c (i / 16)).testBit (i % 16) := by
  induction n with
  | zero => omega
  | succ n ih =>
    unfold up
    rw [Nat.add_comm, Nat.mul_comm, Nat.testBit_two_pow_mul_add _ (up_lt c n)]
    split_ifs with h
    · exact ih h
    · rw [Nat.testBit_mod_two_pow, show i / 16 = n by omega, show i - 16 * n = i % 16 by omega]
      simp only [show i % 16 < 16 by omega, decide_true, Bool.true_and]

theorem down_testBit (c : ℕ → ℕ) (n i : ℕ) (hi : i < 16 * n) : (down c n).testBit i = (c (n - 1 - i / 16)).testBit (i % 16) := by
  induction n generalizing i with
  | zero => omega
  | succ n ih =>
    unfold down
    rw [Nat.mul_comm, Nat.testBit_two_pow_mul_add _ (Nat.mod_lt _ (by norm_num))]
    split_ifs with h
    · rw [Nat.testBit_mod_two_pow, show i / 16 = 0 by omega, show i % 16 = i by omega]
      simp [h]
    · rw [ih (i - 16) (by omega), show (i - 16) % 16 = i % 16 by omega, show n - 1 - (i - 16) / 16 = n + 1 - 1 - i / 16 by omega]

/-- A value and its bits. -/
theorem wrap_iff {W : ℕ} {S : Bool} (hW : 1 ≤ W) {v : ℤ} (h0 : minRaw W S ≤ v) (h1 : v ≤ maxRaw W S) {n : ℕ} (hn : n < 2 ^ W) :
    wrap W S n = v ↔ n = (v % 2 ^ W).toNat := by
  rw [← wrap_of_range hW h0 h1, wrap_eq_iff, wrap_of_range hW h0 h1]
  have hp : (0 : ℤ) < 2 ^ W := by positivity
  have h := Int.emod_nonneg v hp.ne'
  have e : (n : ℤ) % 2 ^ W = n := Int.emod_eq_of_lt (by positivity) (by exact_mod_cast hn)
  unfold Int.ModEq
  rw [e]
  omega

theorem toNat_lt {W : ℕ} (v : ℤ) : (v % 2 ^ W).toNat < 2 ^ W := by
  have hp : (0 : ℤ) < 2 ^ W := by positivity
  have h := Int.emod_nonneg v hp.ne'
  have h1 := Int.emod_lt_of_pos v hp
  have : ((v % 2 ^ W).toNat : ℤ) < ((2 ^ W : ℕ) : ℤ) := by push_cast; omega
  exact_mod_cast this

theorem seq_zero {n : ℕ} (c : Fin n → Fin (2 ^ 16)) : (fun i => seq c (0 + i)) = seq c := by funext i; rw [Nat.zero_add]

/-- From the count of the bits to the count of the values. -/
theorem card_val {W n : ℕ} {S : Bool} (hW : 1 ≤ W) {v : ℤ} (h0 : minRaw W S ≤ v) (h1 : v ≤ maxRaw W S) (g f : (Fin n → Fin (2 ^ 16)) → ℕ)
    (hg : ∀ c, f c = g c % 2 ^ W) {m : ℕ} (hf : (Finset.univ.filter fun c => g c % 2 ^ W = (v % 2 ^ W).toNat).card = m) :
    (Finset.univ.filter fun c => wrap W S (f c) = v).card = m := by
  rw [← hf]
  congr 1
  ext c
  simp only [Finset.mem_filter, Finset.mem_univ, true_and]
  rw [hg, wrap_iff hW h0 h1 (Nat.mod_lt _ (Nat.two_pow_pos W))]

/-- The low 16 bits decide. -/
theorem down_congr {c d : ℕ → ℕ} (n : ℕ) (h : ∀ i < n, c i % 2 ^ 16 = d i % 2 ^ 16) : down c n = down d n := by
  induction n with
  | zero => rfl
  | succ n ih =>
    unfold down
    rw [ih fun i hi => h i (by omega), h n (by omega)]

theorem up_congr {c d : ℕ → ℕ} (n : ℕ) (h : ∀ i < n, c i % 2 ^ 16 = d i % 2 ^ 16) : up c n = up d n := by
  induction n with
  | zero => rfl
  | succ n ih =>
    unfold up
    rw [ih fun i hi => h i (by omega), h n (by omega)]

/-- Digits that give a number. -/
theorem down_digits (t n : ℕ) : down (fun i => t / 2 ^ (16 * (n - 1 - i))) n = t % 2 ^ (16 * n) := by
  induction n generalizing t with
  | zero => simp [down, Nat.mod_one]
  | succ n ih =>
    have e : down (fun i => t / 2 ^ (16 * (n + 1 - 1 - i))) n = down (fun i => t / 2 ^ 16 / 2 ^ (16 * (n - 1 - i))) n := by
      refine down_congr n fun i hi => ?_
      simp only [Nat.div_div_eq_div_mul, ← pow_add]
      congr 3
      omega
    unfold down
    rw [e, ih, show 16 * (n + 1) = 16 + 16 * n by ring, pow_add, Nat.mod_mul]
    simp only [Nat.add_sub_cancel, Nat.sub_self, Nat.mul_zero, pow_zero, Nat.div_one]
    ring

end Proof.Random
