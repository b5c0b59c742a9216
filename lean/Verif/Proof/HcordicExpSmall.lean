import Verif.Proof.HcordicExp2

/-! # The error of the reduced exponential with 3 to 13 bits: every input -/

namespace Proof.Hcordic
open Ac Model.Hcordic

/-! ## Comparing a number with a power of two with a fractional exponent -/

/-- `n` squarings of `v / 2^p`, dividing by two where `X` has a one; rounded down. -/
def lowPow (p X n v : ℕ) : ℕ :=
  Nat.rec (motive := fun _ => ℕ → ℕ) (fun v => v) (fun n ih v => ih ((v * v) >>> (p + X / 2 ^ n % 2))) n v

/-- The same, rounded up. -/
def upPow (p X n v : ℕ) : ℕ :=
  Nat.rec (motive := fun _ => ℕ → ℕ) (fun v => v) (fun n ih v => ih ((v * v) >>> (p + X / 2 ^ n % 2) + 1)) n v

theorem bit_split (X n : ℕ) : X % 2 ^ (n + 1) = X / 2 ^ n % 2 * 2 ^ n + X % 2 ^ n := by
  rw [pow_succ, Nat.mod_mul]; ring

theorem sq_shift (p b : ℕ) {c : ℝ} : (c * 2 ^ p) * (c * 2 ^ p) / 2 ^ (p + b) = c ^ 2 / 2 ^ b * 2 ^ p := by
  rw [pow_add]; field_simp

theorem nat_shift (a k : ℕ) : ((a >>> k : ℕ) : ℝ) ≤ (a : ℝ) / 2 ^ k ∧ (a : ℝ) / 2 ^ k ≤ ((a >>> k : ℕ) : ℝ) + 1 := by
  rw [Nat.shiftRight_eq_div_pow]
  constructor
  · have := Nat.cast_div_le (m := a) (n := 2 ^ k) (α := ℝ)
    push_cast at this; exact this
  · have h : a < (a / 2 ^ k + 1) * 2 ^ k := by
      have := Nat.lt_div_mul_add (a := a) (show 0 < 2 ^ k by positivity)
      rw [add_mul]; omega
    rw [div_le_iff₀ (by positivity)]
    exact_mod_cast h.le

theorem pow_step {c : ℝ} (X n : ℕ) :
    (c ^ 2 / 2 ^ (X / 2 ^ n % 2)) ^ 2 ^ n / 2 ^ (X % 2 ^ n) = c ^ 2 ^ (n + 1) / 2 ^ (X % 2 ^ (n + 1)) := by
  rw [bit_split X n, div_pow, ← pow_mul, ← pow_mul, pow_add (2 : ℝ), div_div, pow_succ 2 n, mul_comm (2 ^ n) 2]

theorem lowPow_le (p X n : ℕ) : ∀ (v : ℕ) (c : ℝ), 0 ≤ c → (v : ℝ) ≤ c * 2 ^ p →
    (lowPow p X n v : ℝ) ≤ c ^ 2 ^ n / 2 ^ (X % 2 ^ n) * 2 ^ p := by
  induction n with
  | zero => intro v c _ h; simpa [lowPow, Nat.mod_one] using h
  | succ n ih =>
    intro v c hc h
    have h1 : (((v * v) >>> (p + X / 2 ^ n % 2) : ℕ) : ℝ) ≤ c ^ 2 / 2 ^ (X / 2 ^ n % 2) * 2 ^ p := by
      refine (nat_shift _ _).1.trans ?_
      rw [← sq_shift]
      push_cast
      gcongr
    have := ih _ _ (by positivity) h1
    rw [pow_step] at this
    exact this

theorem le_upPow (p X n : ℕ) : ∀ (v : ℕ) (c : ℝ), 0 ≤ c → c * 2 ^ p ≤ (v : ℝ) →
    c ^ 2 ^ n / 2 ^ (X % 2 ^ n) * 2 ^ p ≤ (upPow p X n v : ℝ) := by
  induction n with
  | zero => intro v c _ h; simpa [upPow, Nat.mod_one] using h
  | succ n ih =>
    intro v c hc h
    have h1 : c ^ 2 / 2 ^ (X / 2 ^ n % 2) * 2 ^ p ≤ (((v * v) >>> (p + X / 2 ^ n % 2) + 1 : ℕ) : ℝ) := by
      push_cast
      refine le_trans ?_ (nat_shift _ _).2
      rw [← sq_shift]
      push_cast
      gcongr
    have := ih _ _ (by positivity) h1
    rw [pow_step] at this
    exact this

theorem rpow_frac (X n : ℕ) : ((2 : ℝ) ^ ((X : ℝ) / 2 ^ n)) ^ 2 ^ n = 2 ^ X := by
  rw [← Real.rpow_natCast, ← Real.rpow_mul (by norm_num)]
  have : (X : ℝ) / 2 ^ n * ((2 ^ n : ℕ) : ℝ) = X := by
    rw [Nat.cast_pow, Nat.cast_ofNat, div_mul_cancel₀ _ (by positivity)]
  rw [this, Real.rpow_natCast]

theorem low_ok {p X n v : ℕ} {c : ℝ} (hX : X < 2 ^ n) (hc : 0 ≤ c) (hv : (v : ℝ) ≤ c * 2 ^ p) (h : 2 ^ p ≤ lowPow p X n v) :
    (2 : ℝ) ^ ((X : ℝ) / 2 ^ n) ≤ c := by
  have h1 := lowPow_le p X n v c hc hv
  have h2 : (2 : ℝ) ^ p ≤ (lowPow p X n v : ℝ) := by exact_mod_cast h
  rw [Nat.mod_eq_of_lt hX] at h1
  have h3 : 1 * (2 : ℝ) ^ p ≤ c ^ 2 ^ n / 2 ^ X * 2 ^ p := by linarith
  have h4 := le_of_mul_le_mul_right h3 (by positivity)
  rw [le_div_iff₀ (by positivity), one_mul, ← rpow_frac X n] at h4
  exact le_of_pow_le_pow_left₀ (by positivity) hc h4

theorem up_ok {p X n v : ℕ} {c : ℝ} (hX : X < 2 ^ n) (hc : 0 ≤ c) (hv : c * 2 ^ p ≤ (v : ℝ)) (h : upPow p X n v ≤ 2 ^ p) :
    c ≤ (2 : ℝ) ^ ((X : ℝ) / 2 ^ n) := by
  have h1 := le_upPow p X n v c hc hv
  have h2 : (upPow p X n v : ℝ) ≤ (2 : ℝ) ^ p := by exact_mod_cast h
  rw [Nat.mod_eq_of_lt hX] at h1
  have h3 : c ^ 2 ^ n / 2 ^ X * 2 ^ p ≤ 1 * (2 : ℝ) ^ p := by linarith
  have h4 := le_of_mul_le_mul_right h3 (by positivity)
  rw [div_le_iff₀ (by positivity), one_mul, ← rpow_frac X n] at h4
  exact le_of_pow_le_pow_left₀ (by positivity) (by positivity) h4

/-! ## The check -/

/-- The loop with `z` offset by `b`. -/
def fastZ (b : ℕ) (l : List (ℕ × ℕ)) (y w : ℕ) : ℕ :=
  l.rec (motive := fun _ => ℕ → ℕ → ℕ) (fun y _ => y)
    (fun a _ ih y w => bif Nat.ble b w then ih (y + y >>> a.1) (w - a.2) else ih (y - y >>> a.1) (w + a.2)) y w

/-- The result. -/
def fastE (f F k lf : ℕ) (l : List (ℕ × ℕ)) (X : ℕ) : ℕ :=
  fastZ (2 ^ (F + 2)) l (2 ^ F) (X * lf / 2 ^ f * 2 ^ (F - f) + 2 ^ (F + 2)) / 2 ^ (F - f) * k / 2 ^ f

/-- `n` inputs from `X` on; `lo` and `hi` enclose `2^(X / 2^f + 40)`, `cl` and `ch` enclose `2^(1 / 2^f + 40)`. -/
def checkE (f : ℕ) (o : ℕ → ℕ) (cl ch : ℕ) (n X lo hi : ℕ) : Bool :=
  Nat.rec (motive := fun _ => ℕ → ℕ → ℕ → Bool) (fun _ _ _ => true) (fun _ ih X lo hi =>
    bif Nat.ble (o X + 1) (2 ^ (f + 1)) then
    bif Nat.ble hi ((o X + 11) <<< (40 - f)) then
    bif Nat.ble ((2 * o X - 5) <<< (40 - f - 1)) lo then ih (X + 1) ((lo * cl) >>> 40) ((hi * ch) >>> 40 + 1)
    else false else false else false) n X lo hi

theorem fastZ_nil (b y w : ℕ) : fastZ b [] y w = y := rfl

theorem fastZ_cons (b : ℕ) (a : ℕ × ℕ) (l : List (ℕ × ℕ)) (y w : ℕ) :
    fastZ b (a :: l) y w = bif Nat.ble b w then fastZ b l (y + y >>> a.1) (w - a.2) else fastZ b l (y - y >>> a.1) (w + a.2) := rfl

/-- The steps from `j` on. -/
def stepsL (F j n : ℕ) : List (ℕ × ℕ) := (List.range' j n).map fun i => (Sj i, (ent .one F i).toNat)

theorem fast_run {f : ℕ} (h3 : 3 ≤ f) (h45 : f ≤ 45) {Z : ℤ} (hZ : |Z| ≤ 2 ^ f) (n : ℕ) : ∀ (j y w : ℕ), j + n = iters f →
    (zrun f Z j).y = y → (zrun f Z j).z + 2 ^ (fz f + 2) = w →
    (zrun f Z (iters f)).y = fastZ (2 ^ (fz f + 2)) (stepsL (fz f) j n) y w := by
  obtain ⟨a, b, c, d, e, g, -⟩ := z_facts h3 h45
  induction n with
  | zero => intro j y w hj hy hw; rw [← hj, add_zero, hy]; rfl
  | succ n ih =>
    intro j y w hj hy hw
    obtain ⟨A, hA⟩ := zrun_inv h3 h45 hZ (show j ≤ iters f by omega)
    obtain ⟨A', hA'⟩ := zrun_inv h3 h45 hZ (show j + 1 ≤ iters f by omega)
    have hs : zrun f Z (j + 1) = istep .rotZ .one (fz f) j (zrun f Z j) := rfl
    have hm : rz (fz f) (iters f) (cz f) (j + 1) ≤ rz (fz f) (iters f) (cz f) 0 := by
      have := dsum_mono (F := fz f) (by omega) (show j + 1 ≤ 60 by omega)
      simp only [rz, dsum]; simp only [dsum] at this; linarith
    have hz' := abs_le.1 (hA'.z.trans (hm.trans g))
    have hp : (2 : ℤ) ^ (fz f + 2) = 4 * 2 ^ fz f := by rw [pow_add]; norm_num; ring
    have hp0 : (0 : ℤ) < 2 ^ fz f := by positivity
    have hpN : ((2 ^ (fz f + 2) : ℕ) : ℤ) = 2 ^ (fz f + 2) := by push_cast; rfl
    obtain ⟨t0, t1⟩ := ent_range .one (F := fz f) (by omega) (show j < 60 by omega)
    have hsh : ((y >>> Sj j : ℕ) : ℤ) = (y : ℤ) / 2 ^ Sj j := by rw [Nat.shiftRight_eq_div_pow]; push_cast; rfl
    have hle : y >>> Sj j ≤ y := Nat.shiftRight_le _ _
    have hl : stepsL (fz f) j (n + 1) = (Sj j, (ent .one (fz f) j).toNat) :: stepsL (fz f) (j + 1) n := rfl
    rw [hl, fastZ_cons]
    have hxy := hA.xy
    rw [hs] at hz'
    unfold istep at hs hz'
    simp only [reduceCtorEq, if_false] at hs hz'
    by_cases hc : 0 ≤ (zrun f Z j).z
    · rw [if_pos hc] at hs hz'
      have hb : Nat.ble (2 ^ (fz f + 2)) w = true := Nat.ble_eq_true_of_le (by zify; linarith)
      rw [hb, cond_true]
      refine ih (j + 1) _ _ (by omega) ?_ ?_
      · rw [hs, Nat.cast_add, hsh, ← hy, ← hxy]
      · have hz1 := hz'.1
        simp only [] at hz1
        rw [hs, Nat.cast_sub (by zify; rw [Int.toNat_of_nonneg t0]; linarith), Int.toNat_of_nonneg t0, ← hw]; simp only []; ring
    · rw [if_neg hc] at hs hz'
      have hb : Nat.ble (2 ^ (fz f + 2)) w = false := by
        rw [Bool.eq_false_iff]
        intro h
        have := Nat.le_of_ble_eq_true h
        zify at this; linarith
      rw [hb, cond_false]
      refine ih (j + 1) _ _ (by omega) ?_ ?_
      · rw [hs, Nat.cast_sub hle, hxy, hy, hsh]
      · rw [hs, Nat.cast_add, Int.toNat_of_nonneg t0, ← hw]; simp only []; ring

/-- `zc` for the input `X / 2^f`. -/
def zIn (f : ℕ) (X : ℤ) : ℤ := X * (ln2Raw / 2 ^ (159 - f)) / 2 ^ f

theorem fast_eo {f F k lf X : ℕ} {l : List (ℕ × ℕ)} (h3 : 3 ≤ f) (h13 : f ≤ 13) (hX : X < 2 ^ f) (hF : fz f = F) (hk : kk f = k)
    (hlf : ln2Raw / 2 ^ (159 - f) = lf) (hlf1 : lf ≤ 2 ^ f) (hl : stepsL (fz f) 0 (iters f) = l) :
    eo f (zIn f X) = fastE f F k lf l X ∧ |zIn f X| ≤ 2 ^ f := by
  obtain ⟨a, b, c, d, e, g, -⟩ := z_facts h3 (show f ≤ 45 by omega)
  have hz : zIn f X = ((X * lf / 2 ^ f : ℕ) : ℤ) := by unfold zIn; rw [hlf]; push_cast; rfl
  have hb : X * lf / 2 ^ f ≤ 2 ^ f := by
    apply Nat.div_le_of_le_mul
    exact Nat.mul_le_mul hX.le hlf1
  have hZ : |zIn f X| ≤ 2 ^ f := by rw [hz, Nat.abs_cast]; exact_mod_cast hb
  refine ⟨?_, hZ⟩
  have := fast_run h3 (by omega) hZ (iters f) 0 (2 ^ fz f) (X * lf / 2 ^ f * 2 ^ (fz f - f) + 2 ^ (fz f + 2)) (by omega)
    (by simp [zrun, iloop]) (by rw [hz]; simp [zrun, iloop])
  unfold eo fastE
  rw [this, hk, hl, hF]
  push_cast
  rfl

/-- What is checked for the input `X / 2^f` and the result `o`. -/
def Good (f o X : ℕ) : Prop := o + 1 ≤ 2 ^ (f + 1) ∧ (2 : ℝ) ^ ((X : ℝ) / 2 ^ f) ≤ ((o : ℝ) + 11) / 2 ^ f ∧
  ((o : ℝ) - 5 / 2) / 2 ^ f ≤ (2 : ℝ) ^ ((X : ℝ) / 2 ^ f)

theorem checkE_ok {f : ℕ} (hf : f ≤ 39) {o : ℕ → ℕ} {cl ch : ℕ} (hcl : (cl : ℝ) ≤ (2 : ℝ) ^ ((1 : ℝ) / 2 ^ f) * 2 ^ 40)
    (hch : (2 : ℝ) ^ ((1 : ℝ) / 2 ^ f) * 2 ^ 40 ≤ (ch : ℝ)) (n : ℕ) : ∀ X lo hi : ℕ, (lo : ℝ) ≤ (2 : ℝ) ^ ((X : ℝ) / 2 ^ f) * 2 ^ 40 →
    (2 : ℝ) ^ ((X : ℝ) / 2 ^ f) * 2 ^ 40 ≤ (hi : ℝ) → checkE f o cl ch n X lo hi = true → ∀ i < n, Good f (o (X + i)) (X + i) := by
  induction n with
  | zero => intro X lo hi _ _ _ i hi; omega
  | succ n ih =>
    intro X lo hi hlo hhi h i hin
    have e : checkE f o cl ch (n + 1) X lo hi = (bif Nat.ble (o X + 1) (2 ^ (f + 1)) then
      bif Nat.ble hi ((o X + 11) <<< (40 - f)) then
      bif Nat.ble ((2 * o X - 5) <<< (40 - f - 1)) lo then checkE f o cl ch n (X + 1) ((lo * cl) >>> 40) ((hi * ch) >>> 40 + 1)
      else false else false else false) := rfl
    rw [e] at h
    cases h1 : Nat.ble (o X + 1) (2 ^ (f + 1))
    · rw [h1] at h; exact absurd h (by simp)
    cases h2 : Nat.ble hi ((o X + 11) <<< (40 - f))
    · rw [h1, h2] at h; exact absurd h (by simp)
    cases h3 : Nat.ble ((2 * o X - 5) <<< (40 - f - 1)) lo
    · rw [h1, h2, h3] at h; exact absurd h (by simp)
    rw [h1, h2, h3, cond_true, cond_true, cond_true] at h
    have h1 := Nat.le_of_ble_eq_true h1
    have h2 := Nat.le_of_ble_eq_true h2
    have h3 := Nat.le_of_ble_eq_true h3
    have hp : (2 : ℝ) ^ 40 = 2 ^ f * 2 ^ (40 - f) := by rw [← pow_add]; congr 1; omega
    have hp' : (2 : ℝ) ^ (40 - f) = 2 * 2 ^ (40 - f - 1) := by rw [← pow_succ']; congr 1; omega
    have hq : (0 : ℝ) < 2 ^ (40 - f) := by positivity
    have hpf : (0 : ℝ) < 2 ^ f := by positivity
    set E := (2 : ℝ) ^ ((X : ℝ) / 2 ^ f) with hE
    have hE0 : 0 ≤ E := by positivity
    have g2 : (hi : ℝ) ≤ ((o X : ℝ) + 11) * 2 ^ (40 - f) := by
      rw [Nat.shiftLeft_eq] at h2
      exact_mod_cast h2
    have g3 : (2 * (o X : ℝ) - 5) * 2 ^ (40 - f - 1) ≤ lo := by
      rw [Nat.shiftLeft_eq] at h3
      have h4 : (((2 * o X - 5 : ℕ) : ℝ)) * 2 ^ (40 - f - 1) ≤ lo := by exact_mod_cast h3
      have h5 : 2 * (o X : ℝ) - 5 ≤ ((2 * o X - 5 : ℕ) : ℝ) := by
        have : 2 * o X ≤ (2 * o X - 5) + 5 := by omega
        have : ((2 * o X : ℕ) : ℝ) ≤ (((2 * o X - 5) + 5 : ℕ) : ℝ) := Nat.cast_le.2 this
        rw [Nat.cast_add] at this; push_cast at this ⊢; linarith
      have := mul_le_mul_of_nonneg_right h5 (show (0 : ℝ) ≤ 2 ^ (40 - f - 1) by positivity)
      linarith
    have good : Good f (o X) X := by
      refine ⟨h1, ?_, ?_⟩
      · rw [le_div_iff₀ hpf]
        have : E * 2 ^ f * 2 ^ (40 - f) ≤ ((o X : ℝ) + 11) * 2 ^ (40 - f) := by rw [mul_assoc, ← hp]; linarith
        exact le_of_mul_le_mul_right this hq
      · rw [div_le_iff₀ hpf]
        have : ((o X : ℝ) - 5 / 2) * 2 ^ (40 - f) ≤ E * 2 ^ f * 2 ^ (40 - f) := by rw [mul_assoc, ← hp, hp']; linarith
        exact le_of_mul_le_mul_right this hq
    have hE1 : (2 : ℝ) ^ (((X + 1 : ℕ) : ℝ) / 2 ^ f) = E * (2 : ℝ) ^ ((1 : ℝ) / 2 ^ f) := by
      rw [hE, ← Real.rpow_add (by norm_num)]; congr 1; push_cast; ring
    set D := (2 : ℝ) ^ ((1 : ℝ) / 2 ^ f) with hD
    have hD0 : 0 ≤ D := by positivity
    have e40 : ∀ a b : ℝ, a * 2 ^ 40 * (b * 2 ^ 40) / 2 ^ 40 = a * b * 2 ^ 40 := by intro a b; field_simp
    have n1 : (((lo * cl) >>> 40 : ℕ) : ℝ) ≤ (2 : ℝ) ^ (((X + 1 : ℕ) : ℝ) / 2 ^ f) * 2 ^ 40 := by
      refine (nat_shift _ _).1.trans ?_
      rw [hE1, ← e40]
      push_cast
      gcongr
    have n2 : (2 : ℝ) ^ (((X + 1 : ℕ) : ℝ) / 2 ^ f) * 2 ^ 40 ≤ (((hi * ch) >>> 40 + 1 : ℕ) : ℝ) := by
      push_cast
      refine le_trans ?_ (nat_shift _ _).2
      push_cast at hE1
      rw [hE1, ← e40]
      push_cast
      gcongr
    rcases Nat.eq_zero_or_pos i with rfl | hi0
    · exact good
    · have := ih (X + 1) _ _ n1 n2 h (i - 1) (by omega)
      rwa [show X + 1 + (i - 1) = X + i by omega] at this

theorem encl {f X lo hi : ℕ} (hX : X < 2 ^ f)
    (h : (decide (upPow 80 X f (lo <<< 40) ≤ 2 ^ 80) && decide (2 ^ 80 ≤ lowPow 80 X f (hi <<< 40))) = true) :
    (lo : ℝ) ≤ (2 : ℝ) ^ ((X : ℝ) / 2 ^ f) * 2 ^ 40 ∧ (2 : ℝ) ^ ((X : ℝ) / 2 ^ f) * 2 ^ 40 ≤ (hi : ℝ) := by
  rw [Bool.and_eq_true] at h
  have h1 := of_decide_eq_true h.1
  have h2 := of_decide_eq_true h.2
  have e : ∀ a : ℕ, ((a <<< 40 : ℕ) : ℝ) = (a : ℝ) / 2 ^ 40 * 2 ^ 80 := by
    intro a; rw [Nat.shiftLeft_eq]; push_cast; ring
  constructor
  · have := up_ok (c := (lo : ℝ) / 2 ^ 40) hX (by positivity) (e lo).ge h1
    rwa [div_le_iff₀ (by positivity)] at this
  · have := low_ok (c := (hi : ℝ) / 2 ^ 40) hX (by positivity) (e hi).le h2
    rwa [le_div_iff₀ (by positivity)] at this

theorem chunkE {f : ℕ} (hf : f ≤ 39) (hf1 : 1 ≤ f) {o : ℕ → ℕ} {cl ch n X lo hi : ℕ} (hX : X < 2 ^ f)
    (hc : (decide (upPow 80 1 f (cl <<< 40) ≤ 2 ^ 80) && decide (2 ^ 80 ≤ lowPow 80 1 f (ch <<< 40))) = true)
    (h : (decide (upPow 80 X f (lo <<< 40) ≤ 2 ^ 80) && decide (2 ^ 80 ≤ lowPow 80 X f (hi <<< 40))) = true)
    (ho : checkE f o cl ch n X lo hi = true) : ∀ i < n, Good f (o (X + i)) (X + i) := by
  have h1 := encl (Nat.one_lt_two_pow (by omega : f ≠ 0)) hc
  have h2 := encl hX h
  rw [Nat.cast_one] at h1
  exact checkE_ok hf h1.1 h1.2 n X lo hi h2.1 h2.2 ho

/-- What is proved for the input `X / 2^f`. -/
def GoodZ (f X : ℕ) : Prop := |zIn f X| ≤ 2 ^ f ∧ 0 ≤ eo f (zIn f X) ∧ eo f (zIn f X) + 1 ≤ 2 ^ (f + 1) ∧
  (2 : ℝ) ^ ((X : ℝ) / 2 ^ f) ≤ ((eo f (zIn f X) : ℝ) + 11) / 2 ^ f ∧
  ((eo f (zIn f X) : ℝ) - 5 / 2) / 2 ^ f ≤ (2 : ℝ) ^ ((X : ℝ) / 2 ^ f)

theorem goodZ {f F k lf X : ℕ} {l : List (ℕ × ℕ)} (h3 : 3 ≤ f) (h13 : f ≤ 13) (hX : X < 2 ^ f)
    (hp : (decide (fz f = F ∧ kk f = k ∧ ln2Raw / 2 ^ (159 - f) = lf ∧ lf ≤ 2 ^ f ∧ stepsL (fz f) 0 (iters f) = l)) = true)
    (h : Good f (fastE f F k lf l X) X) : GoodZ f X := by
  obtain ⟨a, b, c, d, e⟩ := of_decide_eq_true hp
  obtain ⟨h1, h2⟩ := fast_eo h3 h13 hX a b c d e
  obtain ⟨g1, g2, g3⟩ := h
  refine ⟨h2, by rw [h1]; positivity, by rw [h1]; exact_mod_cast g1, ?_, ?_⟩
  · rw [h1, Int.cast_natCast]; exact g2
  · rw [h1, Int.cast_natCast]; exact g3


def stepsE3 : List (ℕ × ℕ) := [(1, 4), (2, 2), (3, 1), (4, 0)]

theorem small3_0 : ∀ i < 8, Good 3 (fastE 3 3 9 5 stepsE3 (0 + i)) (0 + i) :=
  chunkE (cl := 1199025932245) (ch := 1199025932246) (lo := 1099511627726) (hi := 1099511627826) (by norm_num) (by norm_num) (by norm_num) (by decide +kernel) (by decide +kernel)
    (by decide +kernel)

theorem small3 {X : ℕ} (h : X < 8) : GoodZ 3 X := by
  refine goodZ (F := 3) (k := 9) (lf := 5) (l := stepsE3) (by norm_num) (by norm_num) (by norm_num; exact h) (by decide +kernel) ?_
  have := small3_0 X h
  rwa [zero_add] at this

def stepsE4 : List (ℕ × ℕ) := [(1, 17), (2, 8), (3, 4), (4, 2), (4, 2), (5, 1)]

theorem small4_0 : ∀ i < 16, Good 4 (fastE 4 5 19 11 stepsE4 (0 + i)) (0 + i) :=
  chunkE (cl := 1148191166360) (ch := 1148191166361) (lo := 1099511627726) (hi := 1099511627826) (by norm_num) (by norm_num) (by norm_num) (by decide +kernel) (by decide +kernel)
    (by decide +kernel)

theorem small4 {X : ℕ} (h : X < 16) : GoodZ 4 X := by
  refine goodZ (F := 5) (k := 19) (lf := 11) (l := stepsE4) (by norm_num) (by norm_num) (by norm_num; exact h) (by decide +kernel) ?_
  have := small4_0 X h
  rwa [zero_add] at this

def stepsE5 : List (ℕ × ℕ) := [(1, 35), (2, 16), (3, 8), (4, 4), (4, 4), (5, 2), (6, 1)]

theorem small5_0 : ∀ i < 32, Good 5 (fastE 5 6 38 22 stepsE5 (0 + i)) (0 + i) :=
  chunkE (cl := 1123587797336) (ch := 1123587797337) (lo := 1099511627726) (hi := 1099511627826) (by norm_num) (by norm_num) (by norm_num) (by decide +kernel) (by decide +kernel)
    (by decide +kernel)

theorem small5 {X : ℕ} (h : X < 32) : GoodZ 5 X := by
  refine goodZ (F := 6) (k := 38) (lf := 22) (l := stepsE5) (by norm_num) (by norm_num) (by norm_num; exact h) (by decide +kernel) ?_
  have := small5_0 X h
  rwa [zero_add] at this

def stepsE6 : List (ℕ × ℕ) := [(1, 140), (2, 65), (3, 32), (4, 16), (4, 16), (5, 8), (6, 4), (7, 2)]

theorem small6_0 : ∀ i < 64, Good 6 (fastE 6 8 77 44 stepsE6 (0 + i)) (0 + i) :=
  chunkE (cl := 1111484524408) (ch := 1111484524409) (lo := 1099511627726) (hi := 1099511627826) (by norm_num) (by norm_num) (by norm_num) (by decide +kernel) (by decide +kernel)
    (by decide +kernel)

theorem small6 {X : ℕ} (h : X < 64) : GoodZ 6 X := by
  refine goodZ (F := 8) (k := 77) (lf := 44) (l := stepsE6) (by norm_num) (by norm_num) (by norm_num; exact h) (by decide +kernel) ?_
  have := small6_0 X h
  rwa [zero_add] at this

def stepsE7 : List (ℕ × ℕ) := [(1, 281), (2, 130), (3, 64), (4, 32), (4, 32), (5, 16), (6, 8), (7, 4), (8, 2)]

theorem small7_0 : ∀ i < 128, Good 7 (fastE 7 9 154 88 stepsE7 (0 + i)) (0 + i) :=
  chunkE (cl := 1105481867187) (ch := 1105481867188) (lo := 1099511627726) (hi := 1099511627826) (by norm_num) (by norm_num) (by norm_num) (by decide +kernel) (by decide +kernel)
    (by decide +kernel)

theorem small7 {X : ℕ} (h : X < 128) : GoodZ 7 X := by
  refine goodZ (F := 9) (k := 154) (lf := 88) (l := stepsE7) (by norm_num) (by norm_num) (by norm_num; exact h) (by decide +kernel) ?_
  have := small7_0 X h
  rwa [zero_add] at this

def stepsE8 : List (ℕ × ℕ) := [(1, 562), (2, 261), (3, 128), (4, 64), (4, 64), (5, 32), (6, 16), (7, 8), (8, 4), (9, 2)]

theorem small8_0 : ∀ i < 256, Good 8 (fastE 8 10 309 177 stepsE8 (0 + i)) (0 + i) :=
  chunkE (cl := 1102492706219) (ch := 1102492706220) (lo := 1099511627726) (hi := 1099511627826) (by norm_num) (by norm_num) (by norm_num) (by decide +kernel) (by decide +kernel)
    (by decide +kernel)

theorem small8 {X : ℕ} (h : X < 256) : GoodZ 8 X := by
  refine goodZ (F := 10) (k := 309) (lf := 177) (l := stepsE8) (by norm_num) (by norm_num) (by norm_num; exact h) (by decide +kernel) ?_
  have := small8_0 X h
  rwa [zero_add] at this

def stepsE9 : List (ℕ × ℕ) := [(1, 1124), (2, 523), (3, 257), (4, 128), (4, 128), (5, 64), (6, 32), (7, 16), (8, 8), (9, 4), (10, 2)]

theorem small9_0 : ∀ i < 512, Good 9 (fastE 9 11 618 354 stepsE9 (0 + i)) (0 + i) :=
  chunkE (cl := 1101001158049) (ch := 1101001158050) (lo := 1099511627726) (hi := 1099511627826) (by norm_num) (by norm_num) (by norm_num) (by decide +kernel) (by decide +kernel)
    (by decide +kernel)

theorem small9 {X : ℕ} (h : X < 512) : GoodZ 9 X := by
  refine goodZ (F := 11) (k := 618) (lf := 354) (l := stepsE9) (by norm_num) (by norm_num) (by norm_num; exact h) (by decide +kernel) ?_
  have := small9_0 X h
  rwa [zero_add] at this

def stepsE10 : List (ℕ × ℕ) := [(1, 2249), (2, 1046), (3, 514), (4, 256), (4, 256), (5, 128), (6, 64), (7, 32), (8, 16), (9, 8), (10, 4), (11, 2)]

theorem small10_0 : ∀ i < 1024, Good 10 (fastE 10 12 1236 709 stepsE10 (0 + i)) (0 + i) :=
  chunkE (cl := 1100256140846) (ch := 1100256140847) (lo := 1099511627726) (hi := 1099511627826) (by norm_num) (by norm_num) (by norm_num) (by decide +kernel) (by decide +kernel)
    (by decide +kernel)

theorem small10 {X : ℕ} (h : X < 1024) : GoodZ 10 X := by
  refine goodZ (F := 12) (k := 1236) (lf := 709) (l := stepsE10) (by norm_num) (by norm_num) (by norm_num; exact h) (by decide +kernel) ?_
  have := small10_0 X h
  rwa [zero_add] at this

def stepsE11 : List (ℕ × ℕ) := [(1, 4499), (2, 2092), (3, 1029), (4, 512), (4, 512), (5, 256), (6, 128), (7, 64), (8, 32), (9, 16), (10, 8), (11, 4), (12, 2)]

theorem small11_0 : ∀ i < 1024, Good 11 (fastE 11 13 2472 1419 stepsE11 (0 + i)) (0 + i) :=
  chunkE (cl := 1099883821316) (ch := 1099883821317) (lo := 1099511627726) (hi := 1099511627826) (by norm_num) (by norm_num) (by norm_num) (by decide +kernel) (by decide +kernel)
    (by decide +kernel)

theorem small11_1 : ∀ i < 1024, Good 11 (fastE 11 13 2472 1419 stepsE11 (1024 + i)) (1024 + i) :=
  chunkE (cl := 1099883821316) (ch := 1099883821317) (lo := 1554944255937) (hi := 1554944256037) (by norm_num) (by norm_num) (by norm_num) (by decide +kernel) (by decide +kernel)
    (by decide +kernel)

theorem small11 {X : ℕ} (h : X < 2048) : GoodZ 11 X := by
  refine goodZ (F := 13) (k := 2472) (lf := 1419) (l := stepsE11) (by norm_num) (by norm_num) (by norm_num; exact h) (by decide +kernel) ?_
  by_cases h0 : X < 1024
  · have := small11_0 (X - 0) (by omega)
    rwa [show 0 + (X - 0) = X by omega] at this
  have := small11_1 (X - 1024) (by omega)
  rwa [show 1024 + (X - 1024) = X by omega] at this

def stepsE12 : List (ℕ × ℕ) := [(1, 8999), (2, 4184), (3, 2058), (4, 1025), (4, 1025), (5, 512), (6, 256), (7, 128), (8, 64), (9, 32), (10, 16), (11, 8), (12, 4), (13, 2)]

theorem small12_0 : ∀ i < 1024, Good 12 (fastE 12 14 4945 2839 stepsE12 (0 + i)) (0 + i) :=
  chunkE (cl := 1099697708799) (ch := 1099697708800) (lo := 1099511627726) (hi := 1099511627826) (by norm_num) (by norm_num) (by norm_num) (by decide +kernel) (by decide +kernel)
    (by decide +kernel)

theorem small12_1 : ∀ i < 1024, Good 12 (fastE 12 14 4945 2839 stepsE12 (1024 + i)) (1024 + i) :=
  chunkE (cl := 1099697708799) (ch := 1099697708800) (lo := 1307547050729) (hi := 1307547050829) (by norm_num) (by norm_num) (by norm_num) (by decide +kernel) (by decide +kernel)
    (by decide +kernel)

theorem small12_2 : ∀ i < 1024, Good 12 (fastE 12 14 4945 2839 stepsE12 (2048 + i)) (2048 + i) :=
  chunkE (cl := 1099697708799) (ch := 1099697708800) (lo := 1554944255937) (hi := 1554944256037) (by norm_num) (by norm_num) (by norm_num) (by decide +kernel) (by decide +kernel)
    (by decide +kernel)

theorem small12_3 : ∀ i < 1024, Good 12 (fastE 12 14 4945 2839 stepsE12 (3072 + i)) (3072 + i) :=
  chunkE (cl := 1099697708799) (ch := 1099697708800) (lo := 1849150772603) (hi := 1849150772703) (by norm_num) (by norm_num) (by norm_num) (by decide +kernel) (by decide +kernel)
    (by decide +kernel)

theorem small12 {X : ℕ} (h : X < 4096) : GoodZ 12 X := by
  refine goodZ (F := 14) (k := 4945) (lf := 2839) (l := stepsE12) (by norm_num) (by norm_num) (by norm_num; exact h) (by decide +kernel) ?_
  by_cases h0 : X < 1024
  · have := small12_0 (X - 0) (by omega)
    rwa [show 0 + (X - 0) = X by omega] at this
  by_cases h1 : X < 2048
  · have := small12_1 (X - 1024) (by omega)
    rwa [show 1024 + (X - 1024) = X by omega] at this
  by_cases h2 : X < 3072
  · have := small12_2 (X - 2048) (by omega)
    rwa [show 2048 + (X - 2048) = X by omega] at this
  have := small12_3 (X - 3072) (by omega)
  rwa [show 3072 + (X - 3072) = X by omega] at this

def stepsE13 : List (ℕ × ℕ) := [(1, 17999), (2, 8369), (3, 4117), (4, 2050), (4, 2050), (5, 1024), (6, 512), (7, 256), (8, 128), (9, 64), (10, 32), (11, 16), (12, 8), (13, 4), (13, 4)]

theorem small13_0 : ∀ i < 1024, Good 13 (fastE 13 15 9891 5678 stepsE13 (0 + i)) (0 + i) :=
  chunkE (cl := 1099604664351) (ch := 1099604664352) (lo := 1099511627726) (hi := 1099511627826) (by norm_num) (by norm_num) (by norm_num) (by decide +kernel) (by decide +kernel)
    (by decide +kernel)

theorem small13_1 : ∀ i < 1024, Good 13 (fastE 13 15 9891 5678 stepsE13 (1024 + i)) (1024 + i) :=
  chunkE (cl := 1099604664351) (ch := 1099604664352) (lo := 1199025932195) (hi := 1199025932295) (by norm_num) (by norm_num) (by norm_num) (by decide +kernel) (by decide +kernel)
    (by decide +kernel)

theorem small13_2 : ∀ i < 1024, Good 13 (fastE 13 15 9891 5678 stepsE13 (2048 + i)) (2048 + i) :=
  chunkE (cl := 1099604664351) (ch := 1099604664352) (lo := 1307547050729) (hi := 1307547050829) (by norm_num) (by norm_num) (by norm_num) (by decide +kernel) (by decide +kernel)
    (by decide +kernel)

theorem small13_3 : ∀ i < 1024, Good 13 (fastE 13 15 9891 5678 stepsE13 (3072 + i)) (3072 + i) :=
  chunkE (cl := 1099604664351) (ch := 1099604664352) (lo := 1425890169648) (hi := 1425890169748) (by norm_num) (by norm_num) (by norm_num) (by decide +kernel) (by decide +kernel)
    (by decide +kernel)

theorem small13_4 : ∀ i < 1024, Good 13 (fastE 13 15 9891 5678 stepsE13 (4096 + i)) (4096 + i) :=
  chunkE (cl := 1099604664351) (ch := 1099604664352) (lo := 1554944255937) (hi := 1554944256037) (by norm_num) (by norm_num) (by norm_num) (by decide +kernel) (by decide +kernel)
    (by decide +kernel)

theorem small13_5 : ∀ i < 1024, Good 13 (fastE 13 15 9891 5678 stepsE13 (5120 + i)) (5120 + i) :=
  chunkE (cl := 1099604664351) (ch := 1099604664352) (lo := 1695678734968) (hi := 1695678735068) (by norm_num) (by norm_num) (by norm_num) (by decide +kernel) (by decide +kernel)
    (by decide +kernel)

theorem small13_6 : ∀ i < 1024, Good 13 (fastE 13 15 9891 5678 stepsE13 (6144 + i)) (6144 + i) :=
  chunkE (cl := 1099604664351) (ch := 1099604664352) (lo := 1849150772603) (hi := 1849150772703) (by norm_num) (by norm_num) (by norm_num) (by decide +kernel) (by decide +kernel)
    (by decide +kernel)

theorem small13_7 : ∀ i < 1024, Good 13 (fastE 13 15 9891 5678 stepsE13 (7168 + i)) (7168 + i) :=
  chunkE (cl := 1099604664351) (ch := 1099604664352) (lo := 2016513216392) (hi := 2016513216492) (by norm_num) (by norm_num) (by norm_num) (by decide +kernel) (by decide +kernel)
    (by decide +kernel)

theorem small13 {X : ℕ} (h : X < 8192) : GoodZ 13 X := by
  refine goodZ (F := 15) (k := 9891) (lf := 5678) (l := stepsE13) (by norm_num) (by norm_num) (by norm_num; exact h) (by decide +kernel) ?_
  by_cases h0 : X < 1024
  · have := small13_0 (X - 0) (by omega)
    rwa [show 0 + (X - 0) = X by omega] at this
  by_cases h1 : X < 2048
  · have := small13_1 (X - 1024) (by omega)
    rwa [show 1024 + (X - 1024) = X by omega] at this
  by_cases h2 : X < 3072
  · have := small13_2 (X - 2048) (by omega)
    rwa [show 2048 + (X - 2048) = X by omega] at this
  by_cases h3 : X < 4096
  · have := small13_3 (X - 3072) (by omega)
    rwa [show 3072 + (X - 3072) = X by omega] at this
  by_cases h4 : X < 5120
  · have := small13_4 (X - 4096) (by omega)
    rwa [show 4096 + (X - 4096) = X by omega] at this
  by_cases h5 : X < 6144
  · have := small13_5 (X - 5120) (by omega)
    rwa [show 5120 + (X - 5120) = X by omega] at this
  by_cases h6 : X < 7168
  · have := small13_6 (X - 6144) (by omega)
    rwa [show 6144 + (X - 6144) = X by omega] at this
  have := small13_7 (X - 7168) (by omega)
  rwa [show 7168 + (X - 7168) = X by omega] at this

theorem small_all {f X : ℕ} (h3 : 3 ≤ f) (h13 : f ≤ 13) (h : X < 2 ^ f) : GoodZ f X := by
  interval_cases f
  · exact small3 (by norm_num at h; exact h)
  · exact small4 (by norm_num at h; exact h)
  · exact small5 (by norm_num at h; exact h)
  · exact small6 (by norm_num at h; exact h)
  · exact small7 (by norm_num at h; exact h)
  · exact small8 (by norm_num at h; exact h)
  · exact small9 (by norm_num at h; exact h)
  · exact small10 (by norm_num at h; exact h)
  · exact small11 (by norm_num at h; exact h)
  · exact small12 (by norm_num at h; exact h)
  · exact small13 (by norm_num at h; exact h)

end Proof.Hcordic
