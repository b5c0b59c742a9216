import Verif.Model.AddTree
import Verif.Proof.Shift
import Verif.Ac.Arith
import Mathlib.Tactic.Positivity

/-! # Proofs about the float adder trees -/

namespace Proof.AddTree
open Ac Model.AddTree

theorem floor_shift (m : ℤ) (k : ℕ) : ⌊(m : ℚ) * 2 ^ (-(k : ℤ))⌋ = m / 2 ^ k := by
  rw [zpow_neg, zpow_natCast, ← div_eq_mul_inv]
  have := Rat.floor_intCast_div_natCast m (2 ^ k)
  push_cast at this
  exact_mod_cast this

theorem two_pow_log2Ceil (N : ℕ) : N ≤ 2 ^ log2Ceil N := by
  unfold log2Ceil
  split_ifs with h
  · simpa using h
  · have := Nat.lt_log2_self (n := N - 1)
    omega

theorem log2Ceil_le_of {N k : ℕ} (h : N ≤ 2 ^ k) : log2Ceil N ≤ k := by
  unfold log2Ceil
  split_ifs with h1
  · omega
  · have : Nat.log2 (N - 1) < k := (Nat.log2_lt (by omega)).2 (by omega)
    omega

theorem log2Ceil_half {N n : ℕ} (hN : 2 ≤ N) (hn : n ≤ N - N / 2) : log2Ceil n + 1 ≤ log2Ceil N := by
  have h1 := two_pow_log2Ceil N
  have h2 : log2Ceil N ≠ 0 := by
    intro h; rw [h] at h1; omega
  obtain ⟨g, hg⟩ := Nat.exists_eq_succ_of_ne_zero h2
  rw [hg, Nat.succ_eq_add_one, pow_succ] at h1
  have := log2Ceil_le_of (N := n) (k := g) (by omega)
  omega

/-- Range of a mantissa that is the sum of `n` words of `W` bits. -/
def Rng (W n : ℕ) (m : ℤ) : Prop := -(n * 2 ^ (W - 1)) ≤ m ∧ m ≤ n * 2 ^ (W - 1) - 1

theorem Rng.wrap {W n g : ℕ} {m : ℤ} (hW : 1 ≤ W) (hg : n ≤ 2 ^ g) (h : Rng W n m) : wrap (W + g) true m = m := by
  have h2 : (n : ℤ) * 2 ^ (W - 1) ≤ 2 ^ (W + g - 1) := by
    rw [show W + g - 1 = g + (W - 1) by omega, pow_add]
    exact mul_le_mul_of_nonneg_right (by exact_mod_cast hg) (by positivity)
  exact wrapS_of_range (by omega) (by have := h.1; linarith) (by have := h.2; linarith)

theorem ediv_rng {W n k : ℕ} {m : ℤ} (hn : 1 ≤ n) (h : Rng W n m) : Rng W n (m / 2 ^ k) := by
  have hk : (0 : ℤ) < 2 ^ k := by positivity
  have hB : (0 : ℤ) < n * 2 ^ (W - 1) := by positivity
  have hk1 : (1 : ℤ) ≤ 2 ^ k := hk
  constructor
  · rw [Int.le_ediv_iff_mul_le hk]
    nlinarith [h.1]
  · have : m / 2 ^ k < n * 2 ^ (W - 1) := by
      rw [Int.ediv_lt_iff_lt_mul hk]
      nlinarith [h.2]
    omega

theorem rng_add {W a b : ℕ} {m n : ℤ} (hm : Rng W a m) (hn : Rng W b n) : Rng W (a + b) (m + n) := by
  obtain ⟨h1, h2⟩ := hm
  obtain ⟨h3, h4⟩ := hn
  constructor
  · push_cast; linarith
  · push_cast; linarith

theorem rng_zero (W n : ℕ) (hn : 1 ≤ n) : Rng W n 0 := by
  have : (1 : ℤ) ≤ n * 2 ^ (W - 1) := by
    have : 0 < n * 2 ^ (W - 1) := by positivity
    exact_mod_cast this
  constructor <;> linarith

theorem rng_mono {W a b : ℕ} {m : ℤ} (hab : a ≤ b) (hm : Rng W a m) : Rng W b m := by
  obtain ⟨h1, h2⟩ := hm
  have : (a : ℤ) * 2 ^ (W - 1) ≤ b * 2 ^ (W - 1) :=
    mul_le_mul_of_nonneg_right (by exact_mod_cast hab) (by positivity)
  constructor <;> linarith

theorem sum2_cases {W na nb g : ℕ} {a b : Flt} (hW : 1 ≤ W) (ha1 : 1 ≤ na) (hb1 : 1 ≤ nb) (hg : na + nb ≤ 2 ^ g)
    (ha : Rng W na a.m) (hb : Rng W nb b.m) :
    Rng W (na + nb) (sum2 (W + g) a b).m ∧
    ((a.m = 0 ∧ (sum2 (W + g) a b).m = b.m ∧ (b.m ≠ 0 → (sum2 (W + g) a b).e = b.e)) ∨
     (b.m = 0 ∧ (sum2 (W + g) a b).m = a.m ∧ (sum2 (W + g) a b).e = a.e) ∨
     (a.m ≠ 0 ∧ b.m ≠ 0 ∧ (sum2 (W + g) a b).e = max a.e b.e ∧
      (sum2 (W + g) a b).m = ⌊(a.m : ℚ) * 2 ^ (a.e - max a.e b.e)⌋ + ⌊(b.m : ℚ) * 2 ^ (b.e - max a.e b.e)⌋)) := by
  have wa := ha.wrap hW (g := g) (by omega)
  have wb := hb.wrap hW (g := g) (by omega)
  have rab := rng_add ha hb
  by_cases za : a.m = 0
  · have e1 : (sum2 (W + g) a b).m = b.m := by
      have w0 : wrap (W + g) true 0 = 0 := (rng_zero W na ha1).wrap hW (g := g) (by omega)
      unfold sum2
      by_cases hlt : a.e - b.e < 0 <;> simp [za, hlt, wb, w0]
    refine ⟨?_, Or.inl ⟨za, e1, ?_⟩⟩
    · rw [e1]; exact rng_mono (by omega) hb
    · intro zb
      unfold sum2
      simp [za, zb]
  · by_cases zb : b.m = 0
    · have e1 : (sum2 (W + g) a b).m = a.m := by
        have w0 : wrap (W + g) true 0 = 0 := (rng_zero W na ha1).wrap hW (g := g) (by omega)
        unfold sum2
        by_cases hlt : a.e - b.e < 0 <;> simp [zb, hlt, wa, w0]
      refine ⟨?_, Or.inr (Or.inl ⟨zb, e1, ?_⟩)⟩
      · rw [e1]; exact rng_mono (by omega) ha
      · unfold sum2
        simp [zb]
    · by_cases hlt : a.e - b.e < 0
      · obtain ⟨k, hk⟩ := Int.eq_ofNat_of_zero_le (show 0 ≤ -(a.e - b.e) by omega)
        have r := rng_add (ediv_rng (k := k) ha1 ha) hb
        have hmax : max a.e b.e = b.e := max_eq_right (by omega)
        have e1 : (sum2 (W + g) a b).m = a.m / 2 ^ k + b.m := by
          have := r.wrap hW (g := g) hg
          unfold sum2
          simp only [za, zb, hlt, decide_true, decide_false, Bool.or_self, wa, wb, if_true, hk, Int.toNat_natCast]
          simp only [Bool.false_eq_true, if_false, hk, Int.toNat_natCast]
          rw [add_comm b.m, this]
        refine ⟨by rw [e1]; exact r, Or.inr (Or.inr ⟨za, zb, ?_, ?_⟩)⟩
        · unfold sum2
          simp [zb, hlt, hmax]
        · rw [e1, hmax, sub_self, show a.e - b.e = -(k : ℤ) by omega, floor_shift]
          simp
      · obtain ⟨k, hk⟩ := Int.eq_ofNat_of_zero_le (show 0 ≤ a.e - b.e by omega)
        have r := rng_add ha (ediv_rng (k := k) hb1 hb)
        have hmax : max a.e b.e = a.e := max_eq_left (by omega)
        have e1 : (sum2 (W + g) a b).m = a.m + b.m / 2 ^ k := by
          have := r.wrap hW (g := g) hg
          unfold sum2
          simp only [za, zb, hlt, decide_false, Bool.or_self, wa, wb]
          simp only [Bool.false_eq_true, if_false, hk, Int.toNat_natCast]
          rw [this]
        refine ⟨by rw [e1]; exact r, Or.inr (Or.inr ⟨za, zb, ?_, ?_⟩)⟩
        · unfold sum2
          simp [za, hlt, hmax]
        · rw [e1, hmax, sub_self, show b.e - a.e = -(k : ℤ) by omega, floor_shift]
          simp

theorem leaf_eq {WE X : ℕ} (hW : 1 ≤ WE) {x : Flt} (hx : minRaw WE true ≤ x.m ∧ x.m ≤ maxRaw WE true) :
    leaf WE X x = ⟨x.m * 2 ^ X, x.e⟩ ∧ Rng (WE + X) 1 (x.m * 2 ^ X) := by
  have r : Rng (WE + X) 1 (x.m * 2 ^ X) := by
    have h1 : -2 ^ (WE - 1) ≤ x.m := by simpa [minRaw] using hx.1
    have h2 : x.m ≤ 2 ^ (WE - 1) - 1 := by simpa [maxRaw] using hx.2
    have hX : (1 : ℤ) ≤ 2 ^ X := one_le_pow₀ (by norm_num)
    unfold Rng
    rw [show WE + X - 1 = (WE - 1) + X by omega, pow_add]
    constructor <;> push_cast <;> nlinarith
  refine ⟨?_, r⟩
  unfold leaf
  have := r.wrap (by omega) (g := 0) (by norm_num)
  rw [add_zero] at this
  rw [this]

/-- Exact value of the first `N` operands, in units of the accumulator's least significant bit. -/
def exact (X N : ℕ) (x : ℕ → Flt) : ℚ := ∑ k ∈ Finset.range N, ((x k).m : ℚ) * 2 ^ X * 2 ^ (x k).e

theorem exact_split (X a b : ℕ) (x : ℕ → Flt) :
    exact X (a + b) x = exact X a x + exact X b (fun k => x (k + a)) := by
  unfold exact
  rw [Finset.sum_range_add]
  simp only [add_comm]

/-- Value of a mantissa and exponent. -/
def value (r : Flt) : ℚ := r.m * 2 ^ r.e

theorem floor_scale (m e E : ℤ) (h : e ≤ E) :
    (⌊(m : ℚ) * 2 ^ (e - E)⌋ : ℚ) * 2 ^ E ≤ m * 2 ^ e ∧
    (m : ℚ) * 2 ^ e ≤ ⌊(m : ℚ) * 2 ^ (e - E)⌋ * 2 ^ E + 2 ^ E := by
  have hp := Fmt.z_pos E
  have e1 : (m : ℚ) * 2 ^ e = (m * 2 ^ (e - E)) * 2 ^ E := by
    rw [mul_assoc, Fmt.z_add, sub_add_cancel]
  rw [e1]
  have h1 := Int.floor_le ((m : ℚ) * 2 ^ (e - E))
  have h2 := (Int.lt_floor_add_one ((m : ℚ) * 2 ^ (e - E))).le
  constructor
  · exact mul_le_mul_of_nonneg_right h1 hp.le
  · calc _ ≤ ((⌊(m : ℚ) * 2 ^ (e - E)⌋ : ℚ) + 1) * 2 ^ E := mul_le_mul_of_nonneg_right h2 hp.le
      _ = _ := by ring

theorem floor_same (m E : ℤ) : (⌊(m : ℚ) * 2 ^ (E - E)⌋ : ℤ) = m := by simp

theorem floor_exact {m e E : ℤ} {q c : ℤ} (hc : E ≤ c) (h : (m : ℚ) * 2 ^ e = q * 2 ^ c) :
    (⌊(m : ℚ) * 2 ^ (e - E)⌋ : ℚ) * 2 ^ E = m * 2 ^ e := by
  obtain ⟨k, hk⟩ := Int.eq_ofNat_of_zero_le (show 0 ≤ c - E by omega)
  have e1 : (m : ℚ) * 2 ^ (e - E) = ((q * 2 ^ k : ℤ) : ℚ) := by
    rw [sub_eq_add_neg, ← Fmt.z_add, ← mul_assoc, h, mul_assoc, Fmt.z_add, ← sub_eq_add_neg, hk]
    push_cast
    rfl
  rw [e1, Int.floor_intCast, ← e1, mul_assoc, Fmt.z_add, sub_add_cancel]

/-- What a subtree with `N` leaves computes. -/
structure Spec (WE X N : ℕ) (x : ℕ → Flt) (r : Flt) : Prop where
  rng : Rng (WE + X) N r.m
  some : ∃ k < N, r.e = (x k).e
  exp : r.m ≠ 0 → ∃ k < N, (x k).m ≠ 0 ∧ r.e = (x k).e
  bound : ∀ E : ℤ, (∀ k < N, (x k).m ≠ 0 → (x k).e ≤ E) →
    value r ≤ exact X N x ∧ exact X N x ≤ value r + (N - 1) * 2 ^ E
  exact : ∀ e0 : ℤ, (∀ k < N, (x k).m ≠ 0 → e0 ≤ (x k).e ∧ (x k).e ≤ e0 + X) →
    value r = exact X N x ∧ ∃ q : ℤ, value r = q * 2 ^ (X + e0)

theorem value_zero {r : Flt} (h : r.m = 0) : value r = 0 := by simp [value, h]

theorem leaf_spec {WE X : ℕ} (hW : 1 ≤ WE) {x : ℕ → Flt}
    (hx : minRaw WE true ≤ (x 0).m ∧ (x 0).m ≤ maxRaw WE true) : Spec WE X 1 x (leaf WE X (x 0)) := by
  obtain ⟨h1, h2⟩ := leaf_eq (X := X) hW hx
  rw [h1]
  have hv : value ⟨(x 0).m * 2 ^ X, (x 0).e⟩ = exact X 1 x := by
    simp [value, exact]
  refine ⟨h2, ⟨0, by omega, rfl⟩, ?_, ?_, ?_⟩
  · intro hne
    refine ⟨0, by omega, ?_, rfl⟩
    intro h0; apply hne; simp [h0]
  · intro E _
    rw [hv]; simp
  · intro e0 he
    refine ⟨hv, ?_⟩
    by_cases h0 : (x 0).m = 0
    · exact ⟨0, by simp [value, h0]⟩
    · obtain ⟨k, hk⟩ := Int.eq_ofNat_of_zero_le (show 0 ≤ (x 0).e - e0 by have := (he 0 (by omega) h0).1; omega)
      refine ⟨(x 0).m * 2 ^ k, ?_⟩
      unfold value
      push_cast
      rw [show (x 0).e = k + e0 by omega, ← Fmt.z_add, ← Fmt.z_add, zpow_natCast, zpow_natCast]
      ring

theorem node_spec {WE X g na nb : ℕ} (hW : 1 ≤ WE) (ha1 : 1 ≤ na) (hb1 : 1 ≤ nb) (hg : na + nb ≤ 2 ^ g)
    {x : ℕ → Flt} {a b : Flt} (ha : Spec WE X na x a) (hb : Spec WE X nb (fun k => x (k + na)) b) :
    Spec WE X (na + nb) x (sum2 (WE + X + g) a b) := by
  obtain ⟨hr, hc⟩ := sum2_cases (show 1 ≤ WE + X by omega) ha1 hb1 hg ha.rng hb.rng
  set r := sum2 (WE + X + g) a b with hrdef
  have exa : a.m ≠ 0 → ∃ k < na + nb, (x k).m ≠ 0 ∧ a.e = (x k).e := fun h => by
    obtain ⟨k, hk, h1, h2⟩ := ha.exp h
    exact ⟨k, by omega, h1, h2⟩
  have exb : b.m ≠ 0 → ∃ k < na + nb, (x k).m ≠ 0 ∧ b.e = (x k).e := fun h => by
    obtain ⟨k, hk, h1, h2⟩ := hb.exp h
    exact ⟨k + na, by omega, h1, h2⟩
  have vr : value r = value a + value b ∨
      (a.m ≠ 0 ∧ b.m ≠ 0 ∧ r.e = max a.e b.e ∧ value r = (⌊(a.m : ℚ) * 2 ^ (a.e - max a.e b.e)⌋ : ℚ) * 2 ^ max a.e b.e +
        (⌊(b.m : ℚ) * 2 ^ (b.e - max a.e b.e)⌋ : ℚ) * 2 ^ max a.e b.e) := by
    rcases hc with ⟨h1, h2, h3⟩ | ⟨h1, h2, h3⟩ | ⟨h1, h2, h3, h4⟩
    · left
      rw [value_zero h1, zero_add]
      by_cases hb0 : b.m = 0
      · rw [value_zero hb0, value_zero (h2.trans hb0)]
      · unfold value; rw [h2, h3 hb0]
    · left
      rw [value_zero h1, add_zero]
      unfold value; rw [h2, h3]
    · right
      refine ⟨h1, h2, h3, ?_⟩
      unfold value
      rw [h3, h4]; push_cast; ring
  refine ⟨hr, ?_, ?_, ?_, ?_⟩
  · have : r.e = a.e ∨ r.e = b.e := by
      rw [hrdef]; unfold sum2; simp only; split_ifs
      · exact Or.inr rfl
      · exact Or.inl rfl
    obtain ⟨k, hk, h1⟩ := ha.some
    obtain ⟨l, hl, h2⟩ := hb.some
    rcases this with h | h
    · exact ⟨k, by omega, h.trans h1⟩
    · exact ⟨l + na, by omega, h.trans h2⟩
  · intro hne
    rcases hc with ⟨h1, h2, h3⟩ | ⟨h1, h2, h3⟩ | ⟨h1, h2, h3, h4⟩
    · rw [h2] at hne
      rw [h3 hne]; exact exb hne
    · rw [h2] at hne
      rw [h3]; exact exa hne
    · rw [h3]
      rcases max_choice a.e b.e with h | h
      · rw [h]; exact exa h1
      · rw [h]; exact exb h2
  · intro E hE
    obtain ⟨a1, a2⟩ := ha.bound E fun k hk => hE k (by omega)
    obtain ⟨b1, b2⟩ := hb.bound E fun k hk => hE (k + na) (by omega)
    have hpE := Fmt.z_pos E
    rw [exact_split]
    push_cast
    rcases vr with h | ⟨ha0, hb0, -, h⟩
    · rw [h]
      exact ⟨by linarith, by nlinarith⟩
    · have hle : max a.e b.e ≤ E := by
        obtain ⟨k, hk, h1, h2⟩ := exa ha0
        obtain ⟨l, hl, h3, h4⟩ := exb hb0
        exact max_le (h2 ▸ hE k hk h1) (h4 ▸ hE l hl h3)
      have hp := Fmt.z_le hle
      rcases le_total a.e b.e with hab | hab
      · rw [max_eq_right hab] at h hp
        rw [floor_same] at h
        obtain ⟨c1, c2⟩ := floor_scale a.m a.e b.e hab
        unfold value at a1 a2 b1 b2
        rw [h]
        exact ⟨by linarith, by nlinarith⟩
      · rw [max_eq_left hab] at h hp
        rw [floor_same] at h
        obtain ⟨c1, c2⟩ := floor_scale b.m b.e a.e hab
        unfold value at a1 a2 b1 b2
        rw [h]
        exact ⟨by linarith, by nlinarith⟩
  · intro e0 he
    obtain ⟨a1, qa, a2⟩ := ha.exact e0 fun k hk => he k (by omega)
    obtain ⟨b1, qb, b2⟩ := hb.exact e0 fun k hk => he (k + na) (by omega)
    have hv : value r = value a + value b := by
      rcases vr with h | ⟨ha0, hb0, -, h⟩
      · exact h
      · have hle : max a.e b.e ≤ X + e0 := by
          obtain ⟨k, hk, h1, h2⟩ := exa ha0
          obtain ⟨l, hl, h3, h4⟩ := exb hb0
          have := (he k hk h1).2
          have := (he l hl h3).2
          exact max_le (by omega) (by omega)
        rw [h, floor_exact hle a2, floor_exact hle b2]; rfl
    refine ⟨by rw [hv, exact_split, a1, b1], qa + qb, ?_⟩
    rw [hv, a2, b2]; push_cast; ring

theorem addAux_spec {WE X : ℕ} (hW : 1 ≤ WE) : ∀ (fuel N : ℕ) (x : ℕ → Flt), 1 ≤ N → N ≤ fuel →
    (∀ k < N, minRaw WE true ≤ (x k).m ∧ (x k).m ≤ maxRaw WE true) → Spec WE X N x (addAux WE X fuel N x) := by
  intro fuel
  induction fuel with
  | zero => intro N x h1 h2; omega
  | succ f ih =>
    intro N x h1 h2 hx
    unfold addAux
    split_ifs with hN
    · obtain rfl : N = 1 := by omega
      exact leaf_spec hW (hx 0 (by omega))
    · have s1 := ih (N / 2) x (by omega) (by omega) fun k hk => hx k (by omega)
      have s2 := ih (N - N / 2) (fun k => x (k + N / 2)) (by omega) (by omega) fun k hk => hx (k + N / 2) (by omega)
      have := node_spec (g := log2Ceil N) hW (by omega) (by omega)
        (by have := two_pow_log2Ceil N; omega) s1 s2
      rw [show N / 2 + (N - N / 2) = N by omega] at this
      rwa [show WE + log2Ceil N + X = WE + X + log2Ceil N by omega]

theorem addTree_spec {WE X N : ℕ} (hW : 1 ≤ WE) (hN : 1 ≤ N) {x : ℕ → Flt}
    (hx : ∀ k < N, minRaw WE true ≤ (x k).m ∧ (x k).m ≤ maxRaw WE true) : Spec WE X N x (addTree WE X N x) :=
  addAux_spec hW N N x hN le_rfl hx

/-! ## block version -/

theorem maxAux_spec : ∀ (fuel N : ℕ) (x : ℕ → ℤ), 1 ≤ N → N ≤ fuel →
    (∃ k < N, maxAux fuel N x = x k) ∧ ∀ k < N, x k ≤ maxAux fuel N x := by
  intro fuel
  induction fuel with
  | zero => intro N x h1 h2; omega
  | succ f ih =>
    intro N x h1 h2
    unfold maxAux
    by_cases hN : N ≤ 1
    · rw [if_pos hN]
      obtain rfl : N = 1 := by omega
      refine ⟨⟨0, by omega, rfl⟩, fun k hk => ?_⟩
      rw [show k = 0 by omega]
    · rw [if_neg hN]
      obtain ⟨⟨k1, hk1, e1⟩, m1⟩ := ih (N / 2) x (by omega) (by omega)
      obtain ⟨⟨k2, hk2, e2⟩, m2⟩ := ih (N - N / 2) (fun k => x (k + N / 2)) (by omega) (by omega)
      have hall : ∀ k < N, x k ≤ maxAux f (N / 2) x ∨ x k ≤ maxAux f (N - N / 2) fun k => x (k + N / 2) := by
        intro k hk
        by_cases h : k < N / 2
        · exact Or.inl (m1 k h)
        · have := m2 (k - N / 2) (by omega)
          rw [show k - N / 2 + N / 2 = k by omega] at this
          exact Or.inr this
      simp only
      split_ifs with h
      · refine ⟨⟨k2 + N / 2, by omega, e2⟩, fun k hk => ?_⟩
        rcases hall k hk with h' | h' <;> omega
      · refine ⟨⟨k1, by omega, e1⟩, fun k hk => ?_⟩
        rcases hall k hk with h' | h' <;> omega

theorem zeroHandleExp_eq {EE : ℕ} (hE : 1 ≤ EE) {e m : ℤ} (h : minRaw EE true ≤ e ∧ e ≤ maxRaw EE true) :
    zeroHandleExp true EE e m = if m = 0 then minRaw EE true else e := by
  have h1 : -2 ^ (EE - 1) ≤ e := by simpa [minRaw] using h.1
  have h2 : e ≤ 2 ^ (EE - 1) - 1 := by simpa [maxRaw] using h.2
  have hp : (2 : ℤ) ^ EE = 2 * 2 ^ (EE - 1) := two_pow_succ_pred hE
  have hpos : (0 : ℤ) < 2 ^ (EE - 1) := by positivity
  unfold zeroHandleExp
  by_cases hm : m = 0
  · simp only [hm, if_true, true_or]
    rw [wrap_true, hp]
    simp only [minRaw, if_true]
    rw [show (0 : ℤ) + 2 ^ (EE - 1) + 2 ^ (EE - 1) = 2 * 2 ^ (EE - 1) by ring, Int.emod_self]
    ring
  · simp only [hm, if_true, false_or, if_false]
    by_cases he : e < 0
    · rw [if_pos he, Int.emod_eq_add_self_emod, Int.emod_eq_of_lt (by omega) (by omega)]
      rw [wrap_congr (y := e) (Int.modEq_iff_dvd.2 ⟨-1, by rw [hp]; ring⟩)]
      exact wrapS_of_range hE h1 (by omega)
    · rw [if_neg he, Int.emod_eq_of_lt (by omega) (by omega), add_zero]
      exact wrapS_of_range hE h1 (by omega)

theorem aligned_eq {EE WE X : ℕ} (hW : 1 ≤ WE) (hE : 1 ≤ EE) {E : ℤ} {x : Flt}
    (hx : minRaw WE true ≤ x.m ∧ x.m ≤ maxRaw WE true) (he : minRaw EE true ≤ x.e)
    (hE2 : E ≤ maxRaw EE true) (hle : x.m ≠ 0 → x.e ≤ E) :
    aligned EE WE X E x = ⌊(x.m : ℚ) * 2 ^ X * 2 ^ (x.e - E)⌋ ∧ Rng (WE + X) 1 (aligned EE WE X E x) := by
  obtain ⟨h1, h2⟩ := leaf_eq (X := X) hW hx
  have h1' : wrap (WE + X) true (x.m * 2 ^ X) = x.m * 2 ^ X := congrArg Flt.m h1
  have r : Rng (WE + X) 1 (aligned EE WE X E x) := by
    unfold aligned; rw [h1']; exact ediv_rng le_rfl h2
  refine ⟨?_, r⟩
  unfold aligned
  rw [h1']
  by_cases hm : x.m = 0
  · simp [hm]
  · have := hle hm
    have ha : -2 ^ (EE - 1) ≤ x.e := by simpa [minRaw] using he
    have hb : E ≤ 2 ^ (EE - 1) - 1 := by simpa [maxRaw] using hE2
    have hp : (2 : ℤ) ^ EE = 2 * 2 ^ (EE - 1) := two_pow_succ_pred hE
    rw [wrapU_of_lt (by omega) (by omega)]
    have := floor_shift (x.m * 2 ^ X) (E - x.e).toNat
    rw [Int.toNat_of_nonneg (by omega)] at this
    rw [← this]
    push_cast
    rw [neg_sub]

theorem commonExp_true {EE N : ℕ} (hE : 1 ≤ EE) (hN : 1 ≤ N) {x : ℕ → Flt}
    (he : ∀ k < N, minRaw EE true ≤ (x k).e ∧ (x k).e ≤ maxRaw EE true) :
    (∀ k < N, (x k).m ≠ 0 → (x k).e ≤ commonExp true EE N x) ∧ commonExp true EE N x ≤ maxRaw EE true ∧
    minRaw EE true ≤ commonExp true EE N x ∧
    ((∃ k < N, (x k).m ≠ 0) → ∃ k < N, (x k).m ≠ 0 ∧ commonExp true EE N x = (x k).e) := by
  obtain ⟨⟨k0, hk0, e0⟩, hm⟩ := maxAux_spec N N (fun k => zeroHandleExp true EE (x k).e (x k).m) hN le_rfl
  have hmm : minRaw EE true ≤ maxRaw EE true := minRaw_le_maxRaw
  have hle : ∀ k < N, (x k).m ≠ 0 → (x k).e ≤ commonExp true EE N x := by
    intro k hk h
    have := hm k hk
    rw [zeroHandleExp_eq hE (he k hk), if_neg h] at this
    exact this
  refine ⟨hle, ?_, ?_, ?_⟩
  · unfold commonExp
    rw [e0, zeroHandleExp_eq hE (he k0 hk0)]
    split_ifs
    · exact hmm
    · exact (he k0 hk0).2
  · unfold commonExp
    rw [e0, zeroHandleExp_eq hE (he k0 hk0)]
    split_ifs
    · exact le_rfl
    · exact (he k0 hk0).1
  · rintro ⟨k, hk, h⟩
    by_cases h0 : (x k0).m = 0
    · have h1 := hle k hk h
      have h2 : commonExp true EE N x = minRaw EE true := by
        unfold commonExp; rw [e0, zeroHandleExp_eq hE (he k0 hk0), if_pos h0]
      refine ⟨k, hk, h, le_antisymm ?_ h1⟩
      rw [h2]; exact (he k hk).1
    · refine ⟨k0, hk0, h0, ?_⟩
      unfold commonExp; rw [e0, zeroHandleExp_eq hE (he k0 hk0), if_neg h0]

theorem commonExp_false {EE N : ℕ} (hN : 1 ≤ N) (x : ℕ → Flt) :
    (∀ k < N, (x k).e ≤ commonExp false EE N x) ∧ ∃ k < N, commonExp false EE N x = (x k).e := by
  obtain ⟨⟨k0, hk0, e0⟩, hm⟩ := maxAux_spec N N (fun k => zeroHandleExp false EE (x k).e (x k).m) hN le_rfl
  refine ⟨fun k hk => ?_, k0, hk0, ?_⟩
  · have := hm k hk
    simpa [zeroHandleExp, commonExp] using this
  · simpa [commonExp, zeroHandleExp] using e0

theorem commonExp_bounds {zh : Bool} {EE N : ℕ} (hE : 1 ≤ EE) (hN : 1 ≤ N) {x : ℕ → Flt}
    (he : ∀ k < N, minRaw EE true ≤ (x k).e ∧ (x k).e ≤ maxRaw EE true) :
    (∀ k < N, (x k).m ≠ 0 → (x k).e ≤ commonExp zh EE N x) ∧ commonExp zh EE N x ≤ maxRaw EE true ∧
    minRaw EE true ≤ commonExp zh EE N x := by
  cases zh
  · obtain ⟨h1, k, hk, h2⟩ := commonExp_false (EE := EE) hN x
    exact ⟨fun k hk _ => h1 k hk, h2 ▸ (he k hk).2, h2 ▸ (he k hk).1⟩
  · obtain ⟨h1, h2, h3, -⟩ := commonExp_true hE hN he
    exact ⟨h1, h2, h3⟩

theorem block_mant {zh : Bool} {EE WE X N : ℕ} (hW : 1 ≤ WE) (hE : 1 ≤ EE) (hN : 1 ≤ N) {x : ℕ → Flt}
    (hx : ∀ k < N, minRaw WE true ≤ (x k).m ∧ (x k).m ≤ maxRaw WE true)
    (he : ∀ k < N, minRaw EE true ≤ (x k).e ∧ (x k).e ≤ maxRaw EE true) :
    (blockCore zh EE WE X N x).m =
      ∑ k ∈ Finset.range N, ⌊((x k).m : ℚ) * 2 ^ X * 2 ^ ((x k).e - commonExp zh EE N x)⌋ ∧
    Rng (WE + X) N (blockCore zh EE WE X N x).m := by
  obtain ⟨h1, h2, -⟩ := commonExp_bounds (zh := zh) hE hN he
  unfold blockCore
  simp only
  have key : ∀ n ≤ N, forUp (fun k acc => wrap (WE + log2Ceil N + X) true
      (acc + aligned EE WE X (commonExp zh EE N x) (x k))) n 0 =
      ∑ k ∈ Finset.range n, ⌊((x k).m : ℚ) * 2 ^ X * 2 ^ ((x k).e - commonExp zh EE N x)⌋ ∧
      Rng (WE + X) (max n 1) (forUp (fun k acc => wrap (WE + log2Ceil N + X) true
      (acc + aligned EE WE X (commonExp zh EE N x) (x k))) n 0) := by
    intro n hn
    induction n with
    | zero => exact ⟨by simp [forUp], rng_zero _ _ (by simp)⟩
    | succ n ih =>
      obtain ⟨i1, i2⟩ := ih (by omega)
      obtain ⟨a1, a2⟩ := aligned_eq (X := X) hW hE (hx n (by omega)) (he n (by omega)).1 h2 (h1 n (by omega))
      rw [Finset.sum_range_succ, ← i1, ← a1]
      simp only [forUp]
      generalize forUp (fun k acc => wrap (WE + log2Ceil N + X) true
        (acc + aligned EE WE X (commonExp zh EE N x) (x k))) n 0 = acc at i1 i2
      have hsum : Rng (WE + X) (n + 1) (acc + aligned EE WE X (commonExp zh EE N x) (x n)) := by
        rcases Nat.eq_zero_or_pos n with rfl | hpos
        · have : acc = 0 := by rw [i1]; simp
          rw [this, zero_add, zero_add]; exact a2
        · rw [max_eq_left (by omega)] at i2
          exact rng_add i2 a2
      have hw := hsum.wrap (by omega) (g := log2Ceil N) (le_trans hn (two_pow_log2Ceil N))
      rw [show WE + log2Ceil N + X = WE + X + log2Ceil N by omega, hw]
      exact ⟨rfl, by rw [max_eq_left (by omega)]; exact hsum⟩
  obtain ⟨k1, k2⟩ := key N le_rfl
  exact ⟨k1, by rwa [max_eq_left hN] at k2⟩

/-! ## output conversion -/

theorem ovf_unsigned {W : ℕ} (hW : 1 ≤ W) (o : OMode) (n : ℤ) :
    ovf W false o (ovf (W + 1) true o n) = ovf W false o n := by
  have h2 : (2 : ℤ) ^ (W + 1) = 2 * 2 ^ W := by ring
  have hp : (0 : ℤ) < 2 ^ W := by positivity
  cases o <;> simp only [ovf, maxRaw, minRaw, Nat.add_sub_cancel]
  · apply wrap_congr
    exact Int.ModEq.of_dvd ⟨2, by ring⟩ (wrap_modEq (W + 1) true n)
  all_goals (simp only [if_true, Bool.false_eq_true, if_false]; split_ifs <;> omega)

theorem cvt_unsigned {fo : Fmt} (hW : 1 ≤ fo.W) (hS : fo.S = false) (v : ℚ) :
    fo.cvt ((⟨fo.W + 1, fo.I + 1, true, fo.Q, fo.O⟩ : Fmt).cvt v) = fo.cvt v := by
  have hF : (⟨fo.W + 1, fo.I + 1, true, fo.Q, fo.O⟩ : Fmt).F = fo.F := by
    unfold Fmt.F; simp only; push_cast; ring
  unfold Fmt.cvt
  congr 1
  unfold Fmt.cvtRaw
  have : (⟨fo.W + 1, fo.I + 1, true, fo.Q, fo.O⟩ : Fmt).val
      (ovf (fo.W + 1) true fo.O (quant fo.Q (v * 2 ^ fo.F))) * 2 ^ fo.F =
      ((ovf (fo.W + 1) true fo.O (quant fo.Q (v * 2 ^ fo.F)) : ℤ) : ℚ) := by
    conv_lhs => rw [← hF]
    rw [hF]
    have := Fmt.val_mul_pow (⟨fo.W + 1, fo.I + 1, true, fo.Q, fo.O⟩ : Fmt)
      (ovf (fo.W + 1) true fo.O (quant fo.Q (v * 2 ^ fo.F)))
    rwa [hF] at this
  simp only [hF]
  rw [this, quant_intCast, hS, ovf_unsigned hW]

theorem conv_eq {useSl : Bool} {fm fo : Fmt} {E : ℕ} {r : Flt} (hfm : 1 ≤ fm.W) (hS : fm.S = true) (hfo : 1 ≤ fo.W)
    (hE : 1 ≤ E) (hm : minRaw fm.W true ≤ r.m ∧ r.m ≤ maxRaw fm.W true)
    (he : minRaw E true ≤ r.e ∧ r.e ≤ maxRaw E true) :
    conv useSl fm fo E r = fo.cvt (fm.val r.m * 2 ^ r.e) := by
  cases useSl
  · unfold conv
    simp only [Bool.false_eq_true, if_false]
    have he1 : -2 ^ (E - 1) ≤ r.e := by simpa [minRaw] using he.1
    have he2 : r.e ≤ 2 ^ (E - 1) - 1 := by simpa [maxRaw] using he.2
    have hm1 : -2 ^ (fm.W - 1) ≤ r.m := by simpa [minRaw] using hm.1
    have hm2 : r.m ≤ 2 ^ (fm.W - 1) - 1 := by simpa [maxRaw] using hm.2
    have hpE : 2 ^ E = 2 * 2 ^ (E - 1) := by
      conv_lhs => rw [show E = (E - 1) + 1 by omega, pow_succ]
      ring
    set p := 2 ^ (E - 1) with hp
    have hp1 : 1 ≤ p := Nat.one_le_two_pow
    have hpz : ((2 : ℤ) ^ (E - 1)) = (p : ℤ) := by rw [hp]; push_cast; rfl
    rw [hpz] at he1 he2
    have hWt : fm.W + (2 ^ E - 1) = fm.W + (2 * p - 1) := by rw [hpE]
    set ft : Fmt := ⟨fm.W + (2 ^ E - 1), fm.I + (2 ^ (E - 1) - 1), true, .TRN, .WRAP⟩ with hft
    have hF : ft.F = fm.F + p := by
      unfold Fmt.F; rw [hft]; simp only; rw [hWt, hpz]; push_cast [show 1 ≤ 2 * p by omega]; ring
    have in_range : ∀ k : ℕ, k ≤ 2 * p - 1 → minRaw ft.W ft.S ≤ r.m * 2 ^ k ∧ r.m * 2 ^ k ≤ maxRaw ft.W ft.S := by
      intro k hk
      have hpow : (2 : ℤ) ^ (fm.W - 1) * 2 ^ k ≤ 2 ^ (ft.W - 1) := by
        rw [← pow_add]
        apply pow_le_pow_right₀ (by norm_num)
        rw [hft]; simp only; rw [hWt]; omega
      have hk1 : (1 : ℤ) ≤ 2 ^ k := one_le_pow₀ (by norm_num)
      simp only [minRaw, maxRaw, hft, if_true]
      rw [hft] at hpow
      simp only at hpow
      constructor
      · nlinarith
      · nlinarith
    have hv : fm.val r.m = ft.val (r.m * 2 ^ p) := by
      unfold Fmt.val
      rw [hF]
      push_cast
      rw [mul_assoc, ← zpow_natCast, Fmt.z_add]
      congr 2; ring
    obtain ⟨k, hk⟩ := Int.eq_ofNat_of_zero_le (show 0 ≤ (p : ℤ) + r.e by omega)
    have hcv : ft.cvt (fm.val r.m) = ft.val (r.m * 2 ^ p) := by
      rw [hv]
      obtain ⟨i1, i2⟩ := in_range p (by omega)
      exact Fmt.cvt_val (by rw [hft]; simp only; omega) i1 i2
    have e1 : ft.shl (ft.cvt (fm.val r.m)) r.e = fm.val r.m * 2 ^ r.e := by
      rw [hcv]
      unfold Fmt.shl Fmt.shr
      rw [Fmt.raw_val, neg_neg]
      have e2 : (((r.m * 2 ^ p : ℤ) : ℚ)) * 2 ^ r.e = ((r.m * 2 ^ k : ℤ) : ℚ) := by
        push_cast
        rw [mul_assoc, ← zpow_natCast, Fmt.z_add, hk]
        simp
      rw [e2, Int.floor_intCast]
      obtain ⟨i1, i2⟩ := in_range k (by omega)
      rw [wrap_of_range (by rw [hft]; simp only; omega) i1 i2]
      unfold Fmt.val
      rw [hF]
      push_cast
      rw [← zpow_natCast, mul_assoc, mul_assoc, Fmt.z_add, Fmt.z_add]
      congr 2; omega
    rw [e1]
  · unfold conv
    simp only [if_true]
    rw [Proof.Shift.leftSS_eq hfm (by simp only; omega) hS rfl (by rw [hS]; exact hm)]
    cases hSo : fo.S
    · simp only [Bool.false_eq_true, if_false]
      have := cvt_unsigned hfo hSo (fm.val r.m * 2 ^ r.e)
      simpa using this
    · have : (⟨fo.W + 0, fo.I + 0, true, fo.Q, fo.O⟩ : Fmt) = fo := by
        cases fo; simp_all
      simp only [if_true]
      rw [this, Fmt.cvt_idem hfo]

theorem Rng.word {W n g : ℕ} {m : ℤ} (hW : 1 ≤ W) (hg : n ≤ 2 ^ g) (h : Rng W n m) :
    minRaw (W + g) true ≤ m ∧ m ≤ maxRaw (W + g) true := by
  have h2 : (n : ℤ) * 2 ^ (W - 1) ≤ 2 ^ (W + g - 1) := by
    rw [show W + g - 1 = g + (W - 1) by omega, pow_add]
    exact mul_le_mul_of_nonneg_right (by exact_mod_cast hg) (by positivity)
  simp only [minRaw, maxRaw, if_true]
  obtain ⟨h3, h4⟩ := h
  constructor <;> linarith

end Proof.AddTree
