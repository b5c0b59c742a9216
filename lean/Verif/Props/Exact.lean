import Verif.Proof.SincosOrder
import Verif.Props.Scaling
import Verif.Props.DivFixed
import Verif.Props.Softsign
import Verif.Props.Tan
import Verif.Props.Elu
import Verif.Props.Gelu
import Verif.Props.Arcsin
import Verif.Props.Arccos
import Verif.Props.HcordicLog
import Verif.Props.HcordicExp
import Verif.Props.Cordic
import Verif.Proof.HcordicExact

/-! # C89: results at the arguments where the function has a representable value

Where the value of the function is a number of the output type, a user expects that number. The table lookup, the division and
the activations of zero give it. The piecewise linear functions give a fixed number beside it, which a coarse output type that
rounds to nearest takes to the right value and a fine one does not. -/

namespace Props.Exact
open Ac Model.Pwl Model.PwlFixed Model.PwlHa Model.Atan Model.Tan Model.Activations Model.Sincos

/-- Rounding to the nearest number, whichever way ties go. -/
def Nearest (q : QMode) : Prop := q ∈ [QMode.RND, .RND_ZERO, .RND_INF, .RND_MIN_INF, .RND_CONV, .RND_CONV_ODD]

theorem quant_nearest {q : QMode} (hq : Nearest q) {x : ℚ} {n : ℤ} (h : |x - n| < 1 / 2) : quant q x = n := by
  obtain ⟨h0, h1⟩ := abs_lt.1 h
  have a : ⌊x + 1 / 2⌋ = n := Int.floor_eq_iff.2 ⟨by linarith, by linarith⟩
  have b : ⌈x - 1 / 2⌉ = n := Int.ceil_eq_iff.2 ⟨by linarith, by linarith⟩
  have c : (n : ℚ) ≤ x ∧ ⌊x⌋ = n ∨ x < n ∧ ⌊x⌋ = n - 1 := by
    rcases le_or_gt (n : ℚ) x with g | g
    · exact Or.inl ⟨g, Int.floor_eq_iff.2 ⟨g, by linarith⟩⟩
    · exact Or.inr ⟨g, Int.floor_eq_iff.2 ⟨by push_cast; linarith, by push_cast; linarith⟩⟩
  have d : (if x - ⌊x⌋ < 1 / 2 then ⌊x⌋ else if 1 / 2 < x - ⌊x⌋ then ⌊x⌋ + 1 else if ⌊x⌋ % 2 = 0 then ⌊x⌋ else ⌊x⌋ + 1) = n ∧
      (if x - ⌊x⌋ < 1 / 2 then ⌊x⌋ else if 1 / 2 < x - ⌊x⌋ then ⌊x⌋ + 1 else if ⌊x⌋ % 2 = 0 then ⌊x⌋ + 1 else ⌊x⌋) = n := by
    rcases c with ⟨g, e⟩ | ⟨g, e⟩
    · rw [e, if_pos (by linarith), if_pos (by linarith)]; exact ⟨rfl, rfl⟩
    · rw [e, if_neg (by push_cast; linarith), if_pos (by push_cast; linarith), if_neg (by push_cast; linarith),
        if_pos (by push_cast; linarith)]
      constructor <;> ring
  unfold Nearest at hq
  cases q
  · simp at hq
  · exact a
  · simp at hq
  · unfold quant; simp only [a, b, ite_self]
  · unfold quant; simp only [a, b, ite_self]
  · exact b
  · exact d.1
  · exact d.2

/-- A number less than half a unit away from a number of the type becomes that number. -/
theorem cvt_nearest {t : Fmt} (hW : 1 ≤ t.W) (hq : Nearest t.Q) (hO : t.O ≠ .SAT_SYM) {a v : ℚ} (ha : t.Rep a)
    (h : |v - a| < 2 ^ (-t.F) / 2) : t.cvt v = a := by
  obtain ⟨r, h0, h1, rfl⟩ := ha
  have e : quant t.Q (v * 2 ^ t.F) = quant t.Q (t.val r * 2 ^ t.F) := by
    have p : (0 : ℚ) < 2 ^ t.F := Fmt.z_pos _
    have m : (2 : ℚ) ^ (-t.F) * 2 ^ t.F = 1 := by rw [Fmt.z_add, neg_add_cancel, zpow_zero]
    have w : t.val r * 2 ^ t.F = r := by unfold Fmt.val; rw [mul_assoc, m, mul_one]
    rw [w, quant_intCast]
    apply quant_nearest hq
    rw [← w, ← sub_mul, abs_mul, abs_of_pos p]
    calc _ < 2 ^ (-t.F) / 2 * 2 ^ t.F := mul_lt_mul_of_pos_right h p
      _ = 1 / 2 := by rw [div_mul_eq_mul_div, m]
  have : t.cvt v = t.cvt (t.val r) := by unfold Fmt.cvt Fmt.cvtRaw; rw [e]
  rw [this]
  exact Fmt.cvt_rep hW hO ⟨r, h0, h1, rfl⟩

/-- The cosine and the sine of a whole number of quarter turns. -/
def quarter (k : ℤ) : ℚ × ℚ :=
  if k % 4 = 0 then (1, 0) else if k % 4 = 1 then (0, 1) else if k % 4 = 2 then (-1, 0) else (0, -1)

/-- **C89**, sine and cosine by table lookup: at every quarter of a turn both are exact, for every signed output type that has
room for ±1. -/
theorem C89_lut {f t : Fmt} (hf : f.I < f.W) (hS : t.S = true) (hW : t.I ≤ t.W) (hI : 2 ≤ t.I) {k : ℤ} (hx : f.Rep ((k : ℚ) / 4)) :
    sincos f t ((k : ℚ) / 4) = some (quarter k) := by
  have h1 : 1 ≤ t.I := by omega
  have hW1 : 1 ≤ t.W := by omega
  have r1 : ∀ s : ℤ, (s = 1 ∨ s = -1) → t.cvt (s : ℚ) = s := by
    intro s hs
    have p : (2 : ℤ) ^ t.F.toNat * 2 ≤ 2 ^ (t.W - 1) := by
      rw [← pow_succ]; exact pow_le_pow_right₀ (by norm_num) (by unfold Fmt.F; omega)
    have p0 : (1 : ℤ) ≤ 2 ^ t.F.toNat := one_le_pow₀ (by norm_num)
    have e : (s : ℚ) = t.val (s * 2 ^ t.F.toNat) := by
      unfold Fmt.val
      obtain ⟨n, hn⟩ : ∃ n : ℕ, t.F = n := ⟨t.F.toNat, by unfold Fmt.F; omega⟩
      rw [hn, zpow_neg, zpow_natCast, Int.toNat_natCast]; push_cast; field_simp
    rw [e]
    apply Fmt.cvt_val hW1 <;> rw [hS] <;> [cases t.O <;> simp only [loRaw, minRaw, maxRaw, if_true]; simp only [maxRaw, if_true]] <;>
      rcases hs with rfl | rfl <;> omega
  obtain ⟨p0, -, p2⟩ := Proof.SincosOrder.place hf hx hx (j := k) (l := k) le_rfl le_rfl le_rfl
  rw [Proof.SincosOrder.sincos_idx hf h1 hW, show Proof.SincosOrder.idx (f.W - f.I).toNat (f.raw ((k : ℚ) / 4)) = 1024 * k by omega]
  unfold Proof.SincosOrder.oc Proof.SincosOrder.os
  have e : (1024 * k % 4096).toNat = 1024 * (k % 4).toNat := by omega
  rw [e]
  unfold quarter
  have z : t.cvt (0 : ℚ) = 0 := Fmt.cvt_zero' hW1
  have z' : t.cvt (-0 : ℚ) = 0 := by rw [neg_zero, z]
  have o : t.cvt (1 : ℚ) = 1 := by simpa using r1 1 (Or.inl rfl)
  have o' : t.cvt (-1 : ℚ) = -1 := by simpa using r1 (-1) (Or.inr rfl)
  have : k % 4 = 0 ∨ k % 4 = 1 ∨ k % 4 = 2 ∨ k % 4 = 3 := by omega
  have kv1 : ∀ b, Proof.Sincos.kv t (b, 0, 0) = if b then -1 else 1 := fun b => by
    unfold Proof.Sincos.kv; rw [Proof.Sincos.kb_one h1 hW]
  have kv0 : ∀ b, Proof.Sincos.kv t (b, 1, 0) = if b then -0 else 0 := fun b => by
    unfold Proof.Sincos.kv; rw [Proof.Sincos.kb_zero hW1]
  rcases this with h | h | h | h <;> rw [h]
  · rw [show Proof.Sincos.keyC' (1024 * (0 : ℤ).toNat) = (false, 0, 0) by decide +kernel,
      show Proof.Sincos.keyS' (1024 * (0 : ℤ).toNat) = (false, 1, 0) by decide +kernel, kv1, kv0]
    simp [z, o]
  · rw [show Proof.Sincos.keyC' (1024 * (1 : ℤ).toNat) = (true, 1, 0) by decide +kernel,
      show Proof.Sincos.keyS' (1024 * (1 : ℤ).toNat) = (false, 0, 0) by decide +kernel, kv1, kv0]
    simp [z, o]
  · rw [show Proof.Sincos.keyC' (1024 * (2 : ℤ).toNat) = (true, 0, 0) by decide +kernel,
      show Proof.Sincos.keyS' (1024 * (2 : ℤ).toNat) = (true, 1, 0) by decide +kernel, kv1, kv0]
    simp [z, o']
  · rw [show Proof.Sincos.keyC' (1024 * (3 : ℤ).toNat) = (false, 1, 0) by decide +kernel,
      show Proof.Sincos.keyS' (1024 * (3 : ℤ).toNat) = (true, 0, 0) by decide +kernel, kv1, kv0]
    simp [z, o']

example : sincos ⟨5, 3, true, .TRN, .WRAP⟩ ⟨3, 2, true, .RND, .SAT_SYM⟩ (-7 / 4) = some (0, 1) ∧
    sincos ⟨5, 3, true, .TRN, .WRAP⟩ ⟨3, 2, true, .RND, .SAT_SYM⟩ (-3 / 2) = some (-1, 0) ∧ quarter (-7) = (0, 1) := by
  refine ⟨?_, ?_, ?_⟩ <;> decide +kernel

/-- **C89**, division: a quotient that the type can hold is exact and the remainder flag is false, for all signed types that
do not wrap and for the unsigned types that reach the digits of the quotient. -/
theorem C89_div {noSat : Bool} {fn fd fq : Fmt} (hn : 1 ≤ fn.W) (hd : 1 ≤ fd.W) (hq : 1 ≤ fq.W) (hO' : fq.O ≠ .SAT_SYM) {N D : ℤ}
    (hQ : fq.Rep (fn.val N / fd.val D)) (old : ℚ) :
    (fq.S = false → Props.DivFixed.Reaches fn fd fq → 0 ≤ N → N < 2 ^ fn.W → 0 < D → D < 2 ^ fd.W →
      Model.DivFixed.divU noSat fn fd fq N D old = (fn.val N / fd.val D, false)) ∧
    (fq.S = true → (fq.O ≠ .WRAP ∧ 1 ≤ fn.I + fd.F + fq.F ∨ fq.O = .WRAP ∧ Props.DivFixed.Reaches fn fd fq) →
      -2 ^ (fn.W - 1) ≤ N → N < 2 ^ (fn.W - 1) → -2 ^ (fd.W - 1) ≤ D → D < 2 ^ (fd.W - 1) → D ≠ 0 →
      Model.DivFixed.divS noSat fn fd fq N D old = (fn.val N / fd.val D, false)) := by
  have hc := Fmt.cvt_rep hq hO' hQ
  obtain ⟨r, -, -, hr⟩ := hQ
  have fin : ∀ p : ℚ × Bool, (p.1 = fq.cvt (fn.val N / fd.val D) ∧ (p.2 = true ↔ ∀ m : ℤ, fn.val N / fd.val D ≠ fq.val m)) →
      p = (fn.val N / fd.val D, false) := by
    rintro ⟨a, b⟩ ⟨h1, h2⟩
    simp only at h1 h2
    rw [hc] at h1
    cases b
    · rw [h1]
    · exact absurd hr (h2.1 rfl r)
  refine ⟨fun hS hr' a b c d => fin _ (Props.DivFixed.C04_unsigned_partial hn hd hq hS hr' a b c d old), fun hS hr' a b c d e => fin _ ?_⟩
  rcases hr' with ⟨h, h'⟩ | ⟨h, h'⟩
  · exact Props.DivFixed.C04_signed_sat hn hd hq hS h h' a b c d e old
  · exact Props.DivFixed.C04_signed_wrap_partial hn hd hq hS h h' a b c d e old

example : Model.DivFixed.divS false ⟨8, 4, true, .TRN, .WRAP⟩ ⟨6, 3, true, .TRN, .WRAP⟩ ⟨7, 4, true, .TRN, .SAT⟩ (-100) 20 0 = (-5 / 2, false) ∧
    (⟨8, 4, true, .TRN, .WRAP⟩ : Fmt).val (-100) / (⟨6, 3, true, .TRN, .WRAP⟩ : Fmt).val 20 = -5 / 2 := by
  constructor <;> decide +kernel

/-- What the three reciprocals give for a power of two: the factor times the right value. -/
theorem C89_reciprocal (q : QMode) {f out : Fmt} (hW : 1 ≤ f.W) (ho : 1 ≤ out.W) {k : ℤ} (hx : f.Rep (2 ^ k)) :
    reciprocal q f out (2 ^ k) = some (out.cvt (2045 / 2048 * 2 ^ (-k) : ℚ)) ∧
    reciprocalHa q f out (2 ^ k) = some (out.cvt (131057 / 131072 * 2 ^ (-k) : ℚ)) ∧
    reciprocalVha q true f out (2 ^ k) = some (out.cvt (32767 / 32768 * 2 ^ (-k) : ℚ)) := by
  have h0 : (2 : ℚ) ^ k ≠ 0 := (Fmt.z_pos k).ne'
  have ab : |(2 : ℚ) ^ k| = 2 ^ k := abs_of_pos (Fmt.z_pos k)
  obtain ⟨g1, a1, -, b1, c1⟩ := Props.Scaling.C85_reciprocal
  obtain ⟨g2, a2, -, b2, c2⟩ := Props.Scaling.C85_reciprocalHa
  obtain ⟨g3, a3, -, b3, c3⟩ := Props.Scaling.C85_reciprocalVha
  have e : ∀ g : ℚ → ℚ, (∀ (x : ℚ) (k : ℤ), x ≠ 0 → g (2 ^ k * x) = 2 ^ (-k) * g x) → g (2 ^ k) = g 1 * 2 ^ (-k) := by
    intro g h
    have := h 1 k one_ne_zero
    rw [mul_one] at this
    rw [this, mul_comm]
  rw [a1 q f out _ hW ho hx h0, a2 q f out _ hW ho hx h0, a3 q true f out _ hW ho hx h0 (Or.inl rfl), ab, e g1 b1, e g2 b2, e g3 b3,
    c1, c2, c3]
  simp

/-- They are exact when the output rounds to nearest and its unit is more than 6/2048, 30/131072 or 2/32768 of the value. -/
theorem C89_reciprocal_partial (q : QMode) {f out : Fmt} (hW : 1 ≤ f.W) (ho : 1 ≤ out.W) (hq : Nearest out.Q) (hO : out.O ≠ .SAT_SYM)
    {k : ℤ} (hx : f.Rep (2 ^ k)) (hr : out.Rep (2 ^ (-k))) :
    (2 ^ (-k) * (6 / 2048) < (2 : ℚ) ^ (-out.F) → reciprocal q f out (2 ^ k) = some (2 ^ (-k))) ∧
    (2 ^ (-k) * (30 / 131072) < (2 : ℚ) ^ (-out.F) → reciprocalHa q f out (2 ^ k) = some (2 ^ (-k))) ∧
    (2 ^ (-k) * (2 / 32768) < (2 : ℚ) ^ (-out.F) → reciprocalVha q true f out (2 ^ k) = some (2 ^ (-k))) := by
  obtain ⟨h1, h2, h3⟩ := C89_reciprocal q hW ho hx (out := out)
  rw [h1, h2, h3]
  have p := Fmt.z_pos (-k)
  generalize (2 : ℚ) ^ (-k) = v at *
  refine ⟨fun h => ?_, fun h => ?_, fun h => ?_⟩ <;>
    rw [cvt_nearest ho hq hO hr (abs_lt.2 ⟨by linarith, by linarith⟩)]

example : reciprocal .TRN ⟨8, 4, false, .TRN, .WRAP⟩ ⟨8, 4, false, .RND, .WRAP⟩ 4 = some (1 / 4) ∧
    reciprocal .TRN ⟨8, 4, false, .TRN, .WRAP⟩ ⟨8, 4, false, .TRN, .WRAP⟩ 4 = some (3 / 16) ∧
    (2 : ℚ) ^ (-2 : ℤ) * (6 / 2048) < (2 : ℚ) ^ (-(⟨8, 4, false, .RND, .WRAP⟩ : Fmt).F) := by
  refine ⟨?_, ?_, ?_⟩ <;> decide +kernel

/-- With an output type that holds the number they compute they are wrong, at every power of two. -/
theorem C89_reciprocal_wrong (q : QMode) {f out : Fmt} (hW : 1 ≤ f.W) (ho : 1 ≤ out.W) (hO : out.O ≠ .SAT_SYM)
    {k : ℤ} (hx : f.Rep (2 ^ k)) :
    (out.Rep (2045 / 2048 * 2 ^ (-k)) → reciprocal q f out (2 ^ k) ≠ some (2 ^ (-k))) ∧
    (out.Rep (131057 / 131072 * 2 ^ (-k)) → reciprocalHa q f out (2 ^ k) ≠ some (2 ^ (-k))) ∧
    (out.Rep (32767 / 32768 * 2 ^ (-k)) → reciprocalVha q true f out (2 ^ k) ≠ some (2 ^ (-k))) := by
  obtain ⟨h1, h2, h3⟩ := C89_reciprocal q hW ho hx (out := out)
  rw [h1, h2, h3]
  have p := Fmt.z_pos (-k)
  generalize (2 : ℚ) ^ (-k) = v at *
  refine ⟨fun h e => ?_, fun h e => ?_, fun h e => ?_⟩ <;> rw [Fmt.cvt_rep ho hO h, Option.some.injEq] at e <;> linarith

example : reciprocal .TRN ⟨8, 4, false, .TRN, .WRAP⟩ ⟨20, 4, false, .RND, .WRAP⟩ 4 = some (2045 / 8192) := by decide +kernel

/-- Square roots: the inverse square root of a power of four. -/
theorem C89_inverseSqrt (q : QMode) (cn : Bool) {f out : Fmt} (hW : 1 ≤ f.W) (hS : f.S = false) (ho : 1 ≤ out.W) (hSo : out.S = false) {k : ℤ}
    (hx : f.Rep (4 ^ k)) (hc : cn = true ∨ (2 : ℚ) ^ (f.I - 1) ≤ 4 ^ k) :
    inverseSqrt q cn f out (4 ^ k) = some (out.cvt (1047809 / 1048576 * 2 ^ (-k) : ℚ)) := by
  obtain ⟨g, a, b, c, -⟩ := Props.Scaling.C85_inverseSqrt q
  have h4 : (0 : ℚ) < 4 ^ k := zpow_pos (by norm_num) k
  have := b 1 k one_pos
  rw [mul_one] at this
  rw [a cn f out _ hW hS ho hSo hx h4 hc, this, c, mul_comm]

example : inverseSqrt .TRN true ⟨8, 4, false, .TRN, .WRAP⟩ ⟨30, 4, false, .TRN, .WRAP⟩ 4 = some (1047809 / 2097152) := by decide +kernel

/-- It is exact when the output rounds to nearest and its unit is more than 1534/1048576 of the value, and wrong when the output
holds the number computed. -/
theorem C89_inverseSqrt_partial (q : QMode) (cn : Bool) {f out : Fmt} (hW : 1 ≤ f.W) (hS : f.S = false) (ho : 1 ≤ out.W)
    (hSo : out.S = false) (hO : out.O ≠ .SAT_SYM) {k : ℤ} (hx : f.Rep (4 ^ k)) (hc : cn = true ∨ (2 : ℚ) ^ (f.I - 1) ≤ 4 ^ k) :
    (Nearest out.Q → out.Rep (2 ^ (-k)) → 2 ^ (-k) * (1534 / 1048576) < (2 : ℚ) ^ (-out.F) →
      inverseSqrt q cn f out (4 ^ k) = some (2 ^ (-k))) ∧
    (out.Rep (1047809 / 1048576 * 2 ^ (-k)) → inverseSqrt q cn f out (4 ^ k) ≠ some (2 ^ (-k))) := by
  rw [C89_inverseSqrt q cn hW hS ho hSo hx hc]
  have p := Fmt.z_pos (-k)
  generalize (2 : ℚ) ^ (-k) = v at *
  refine ⟨fun hq hr h => ?_, fun h e => ?_⟩
  · rw [cvt_nearest ho hq hO hr (abs_lt.2 ⟨by linarith, by linarith⟩)]
  · rw [Fmt.cvt_rep ho hO h, Option.some.injEq] at e
    linarith

example : inverseSqrt .TRN true ⟨8, 4, false, .TRN, .WRAP⟩ ⟨10, 2, false, .RND, .WRAP⟩ 4 = some (1 / 2) := by decide +kernel

/-- Logarithms: base two of a power of two, and the natural logarithm of one. -/
theorem C89_log (q : QMode) {f out : Fmt} (hW : 1 ≤ f.W) (hS : f.S = false) :
    (∀ (cn : Bool) (k : ℤ), f.Rep (2 ^ k) → (cn = true ∨ (2 : ℚ) ^ (f.I - 1) ≤ 2 ^ k) →
      log2 q cn f out (2 ^ k) = some (out.cvt (k + 3 / 2048 : ℚ))) ∧
    (f.Rep 1 → log q f out 1 = some (out.cvt (8517 / 8388608 : ℚ))) := by
  obtain ⟨g, a, b, c⟩ := Props.Scaling.C85_log2
  obtain ⟨g', a', -, c'⟩ := Props.Scaling.C85_log
  refine ⟨fun cn k hx hc => ?_, fun hx => by rw [a' q f out 1 hW hS hx one_pos, c']⟩
  have := b 1 k one_pos
  rw [mul_one] at this
  rw [a q cn f out _ hW hS hx (Fmt.z_pos k) hc, this, c]

example : log2 .TRN true ⟨8, 4, false, .TRN, .WRAP⟩ ⟨30, 4, true, .TRN, .WRAP⟩ (1 / 4) = some (-2 + 3 / 2048) := by decide +kernel

/-- They are exact when the output rounds to nearest and has at most 8 fraction bits, and wrong when the output holds the number
computed. -/
theorem C89_log_partial (q : QMode) {f out : Fmt} (hW : 1 ≤ f.W) (hS : f.S = false) (ho : 1 ≤ out.W) (hO : out.O ≠ .SAT_SYM) :
    (∀ (cn : Bool) (k : ℤ), f.Rep (2 ^ k) → (cn = true ∨ (2 : ℚ) ^ (f.I - 1) ≤ 2 ^ k) →
      (Nearest out.Q → out.Rep k → out.F ≤ 8 → log2 q cn f out (2 ^ k) = some (k : ℚ)) ∧
      (out.Rep (k + 3 / 2048) → log2 q cn f out (2 ^ k) ≠ some (k : ℚ))) ∧
    (f.Rep 1 → (Nearest out.Q → out.F ≤ 8 → log q f out 1 = some 0) ∧ (out.Rep (8517 / 8388608) → log q f out 1 ≠ some 0)) := by
  obtain ⟨h1, h2⟩ := C89_log q hW hS (f := f) (out := out)
  have u : out.F ≤ 8 → (1 : ℚ) / 256 ≤ 2 ^ (-out.F) := fun h => by
    have := Fmt.z_le (show (-8 : ℤ) ≤ -out.F by omega)
    norm_num at this ⊢; exact this
  have z : out.Rep 0 := by
    have := Fmt.rep_cvt (f := out) ho (0 : ℚ)
    rwa [Fmt.cvt_zero' ho] at this
  refine ⟨fun cn k hx hc => ⟨fun hq hr hF => ?_, fun h e => ?_⟩, fun hx => ⟨fun hq hF => ?_, fun h e => ?_⟩⟩
  · have := u hF
    rw [h1 cn k hx hc, cvt_nearest ho hq hO hr (abs_lt.2 ⟨by linarith, by linarith⟩)]
  · rw [h1 cn k hx hc, Fmt.cvt_rep ho hO h, Option.some.injEq] at e
    linarith
  · have := u hF
    rw [h2 hx, cvt_nearest ho hq hO z (abs_lt.2 ⟨by linarith, by linarith⟩)]
  · rw [h2 hx, Fmt.cvt_rep ho hO h, Option.some.injEq] at e
    linarith

example : log2 .TRN true ⟨8, 4, false, .TRN, .WRAP⟩ ⟨12, 4, true, .RND, .WRAP⟩ (1 / 4) = some (-2) ∧
    log .TRN ⟨8, 4, false, .TRN, .WRAP⟩ ⟨12, 4, true, .RND, .WRAP⟩ 1 = some 0 := by constructor <;> decide +kernel

/-- Powers: of two to a whole number, and of e to zero with 12 or more bits for the product with log2(e). -/
theorem C89_pow (q : QMode) {f out : Fmt} (ho : 1 ≤ out.W) (hSo : out.S = false) :
    (∀ k : ℤ, f.Rep k → pow2 q f out k = some (out.cvt (511 / 512 * 2 ^ k : ℚ))) ∧
    (∀ n : ℕ, 12 ≤ n → 1 ≤ f.W → exp n q f out 0 = some (out.cvt (511 / 512 : ℚ))) := by
  obtain ⟨g, a, b, c⟩ := Props.Scaling.C85_pow2
  obtain ⟨g', a', c'⟩ := Props.Scaling.C85_exp_partial
  refine ⟨fun k hx => ?_, fun n hn hW => ?_⟩
  · have := b 0 k
    rw [zero_add] at this
    rw [a q f out _ ho hSo hx, this, c, mul_comm]
  · have z : f.Rep 0 := by
      have := Fmt.rep_cvt (f := f) hW (0 : ℚ)
      rwa [Fmt.cvt_zero' hW] at this
    rw [a' n q f out 0 hn hW ho hSo z, c']

example : pow2 .TRN ⟨8, 4, true, .TRN, .WRAP⟩ ⟨30, 4, false, .TRN, .WRAP⟩ (-2) = some (511 / 2048) := by decide +kernel

/-- They are exact when the output rounds to nearest and its unit is more than 2/512 of the value, and wrong when the output holds
the number computed. -/
theorem C89_pow_partial (q : QMode) {f out : Fmt} (ho : 1 ≤ out.W) (hSo : out.S = false) (hO : out.O ≠ .SAT_SYM) :
    (∀ k : ℤ, f.Rep k →
      (Nearest out.Q → out.Rep (2 ^ k) → 2 ^ k * (2 / 512) < (2 : ℚ) ^ (-out.F) → pow2 q f out k = some (2 ^ k)) ∧
      (out.Rep (511 / 512 * 2 ^ k) → pow2 q f out k ≠ some (2 ^ k))) ∧
    (∀ n : ℕ, 12 ≤ n → 1 ≤ f.W →
      (Nearest out.Q → out.Rep 1 → out.F ≤ 7 → exp n q f out 0 = some 1) ∧ (out.Rep (511 / 512) → exp n q f out 0 ≠ some 1)) := by
  obtain ⟨h1, h2⟩ := C89_pow q ho hSo (f := f) (out := out)
  refine ⟨fun k hx => ?_, fun n hn hW => ⟨fun hq hr hF => ?_, fun h e => ?_⟩⟩
  · rw [h1 k hx]
    have p := Fmt.z_pos k
    generalize (2 : ℚ) ^ k = v at *
    refine ⟨fun hq hr h => ?_, fun h e => ?_⟩
    · rw [cvt_nearest ho hq hO hr (abs_lt.2 ⟨by linarith, by linarith⟩)]
    · rw [Fmt.cvt_rep ho hO h, Option.some.injEq] at e
      linarith
  · have : (1 : ℚ) / 128 ≤ 2 ^ (-out.F) := by
      have := Fmt.z_le (show (-7 : ℤ) ≤ -out.F by omega)
      norm_num at this ⊢; exact this
    rw [h2 n hn hW, cvt_nearest ho hq hO hr (abs_lt.2 ⟨by linarith, by linarith⟩)]
  · rw [h2 n hn hW, Fmt.cvt_rep ho hO h, Option.some.injEq] at e
    linarith

example : pow2 .TRN ⟨8, 4, true, .TRN, .WRAP⟩ ⟨11, 4, false, .RND, .WRAP⟩ (-2) = some (1 / 4) ∧
    exp 12 .TRN ⟨8, 4, true, .TRN, .WRAP⟩ ⟨11, 4, false, .RND, .WRAP⟩ 0 = some 1 := by constructor <;> decide +kernel

/-- **C89**, zero: the functions that pass through zero and give exactly zero there, for all types. -/
theorem C89_zero (q : QMode) {f out : Fmt} (hW : 1 ≤ f.W) (ho : 1 ≤ out.W) (alpha : ℚ) :
    elu f out alpha 0 = some 0 ∧ selu f out 0 = some 0 ∧ softsign q f out 0 = some 0 ∧
    (f.S = false → atanHa q f out 0 = some 0 ∧ atanVha q f out 0 = some 0) := by
  have z : out.cvt (0 : ℚ) = 0 := Fmt.cvt_zero' ho
  have zr : f.Rep 0 := by
    have := Fmt.rep_cvt (f := f) hW (0 : ℚ)
    rwa [Fmt.cvt_zero' hW] at this
  refine ⟨?_, ?_, ?_, fun hS => ?_⟩
  · obtain ⟨y, hy⟩ := Proof.Elu.exp_some f (outPow f) 0
    unfold elu
    rw [hy]
    simp [z]
  · unfold selu
    simp [z]
  · rw [Proof.Softsign.softsign_eq q out hW zr, zero_mul, z]
  · obtain ⟨g1, g2, g3, a, -, b2, b3⟩ := Props.Scaling.C85_atan q
    obtain ⟨-, a2, a3⟩ := a f out 0 hW hS zr
    rw [a2, a3, b2, b3, z]
    exact ⟨rfl, rfl⟩

example : softsign .TRN ⟨16, 5, true, .TRN, .WRAP⟩ ⟨16, 1, true, .TRN, .WRAP⟩ 0 = some 0 ∧
    atanHa .TRN ⟨16, 5, false, .TRN, .WRAP⟩ ⟨16, 1, false, .TRN, .WRAP⟩ 0 = some 0 := by constructor <;> decide +kernel

/-- GELU of zero is zero: whatever is beside the table when the read is outside it, the product is zero. -/
theorem C89_gelu (oob : ℕ → ℤ × ℤ) (q : QMode) {f out : Fmt} (ho : 1 ≤ out.W) (hf : Props.Gelu.Supported f out) :
    gelu (fun i => some (oob i)) q f out 0 = some 0 := by
  rw [Proof.Gelu.gelu_eq oob q hf]
  simp [Fmt.cvt_zero' ho]

example : gelu (fun _ => none) .TRN ⟨16, 4, true, .TRN, .WRAP⟩ ⟨16, 4, true, .TRN, .WRAP⟩ 0 = some 0 ∧
    Props.Gelu.Supported ⟨16, 4, true, .TRN, .WRAP⟩ ⟨16, 4, true, .TRN, .WRAP⟩ := ⟨by decide +kernel, by unfold Props.Gelu.Supported; decide⟩

/-- Tangent of zero is zero. -/
theorem C89_tan (q : QMode) {f out : Fmt} (hw : Props.Tan.Compiles f) (ho : 1 ≤ out.W) : tan q f out 0 = some 0 := by
  have ex : ¬exceeds f 0 := by unfold exceeds; norm_num
  have ti : (tInt 0 f).cvt (0 : ℚ) = 0 := Fmt.cvt_zero' (by unfold Props.Tan.Compiles at hw; unfold tInt widthInt fbInt; simp only; omega)
  have s : segVal tanM tanC 10 3 10 ((0 : ℚ) * (10433 / 1024)) = some 0 := by decide +kernel
  unfold tan inputInt
  rw [if_neg ex, ti, s]
  simp only [Option.bind_eq_bind, Option.bind_some, if_neg ex]
  rw [Fmt.cvt_zero' (f := ⟨20, 0, false, q, .WRAP⟩) (by norm_num), Fmt.cvt_zero' ho]
  norm_num

example : tan .TRN ⟨16, 2, false, .TRN, .WRAP⟩ ⟨20, 8, false, .TRN, .WRAP⟩ 0 = some 0 ∧ Props.Tan.Compiles ⟨16, 2, false, .TRN, .WRAP⟩ :=
  ⟨by decide +kernel, by unfold Props.Tan.Compiles; decide +kernel⟩

/-- The values at zero of the arctangent, the hyperbolic tangent and the sigmoid, which should be 0, 0 and 1/2. -/
theorem C89_zero_wrong (q : QMode) (oob : ℕ → ℤ × ℤ) {f out : Fmt} (hW : 1 ≤ f.W) (ho : 1 ≤ out.W) (hO : out.O ≠ .SAT_SYM) :
    (f.S = false → atanPwl q f out 0 = some (out.cvt (1 / 1024 : ℚ))) ∧
    tanh (fun i => some (oob i)) q f out 0 = some (out.cvt (1 / 1024 : ℚ)) ∧ sigmoid q f out 0 = some (out.cvt (513 / 1024 : ℚ)) ∧
    (out.Rep (1 / 1024) → (f.S = false → atanPwl q f out 0 ≠ some 0) ∧ tanh (fun i => some (oob i)) q f out 0 ≠ some 0) ∧
    (out.Rep (513 / 1024) → sigmoid q f out 0 ≠ some (1 / 2)) := by
  have zr : f.Rep 0 := by
    have := Fmt.rep_cvt (f := f) hW (0 : ℚ)
    rwa [Fmt.cvt_zero' hW] at this
  obtain ⟨g1, g2, g3, a, b1, -⟩ := Props.Scaling.C85_atan q
  obtain ⟨gs, as, -, bs⟩ := Props.Scaling.C85_sigmoid
  obtain ⟨gt, at', -, bt⟩ := Props.Scaling.C85_tanh
  have e1 : f.S = false → atanPwl q f out 0 = some (out.cvt (1 / 1024 : ℚ)) := fun hS => by rw [(a f out 0 hW hS zr).1, b1]
  have e2 := at' oob q f out 0 hW zr
  have e3 := as q f out 0 hW zr
  rw [bt] at e2
  rw [bs] at e3
  refine ⟨e1, e2, e3, fun h => ⟨fun hS => ?_, ?_⟩, fun h => ?_⟩
  · rw [e1 hS, Fmt.cvt_rep ho hO h]; norm_num
  · rw [e2, Fmt.cvt_rep ho hO h]; norm_num
  · rw [e3, Fmt.cvt_rep ho hO h]; norm_num

example : sigmoid .TRN ⟨8, 4, true, .TRN, .WRAP⟩ ⟨16, 2, false, .TRN, .WRAP⟩ 0 = some (513 / 1024) ∧
    (⟨16, 2, false, .TRN, .WRAP⟩ : Fmt).Rep (513 / 1024) := ⟨by decide +kernel, 8208, by decide, by decide, by decide +kernel⟩

/-- The iterative functions miss exact values too. Sine and cosine by CORDIC are exact at the quarter turns for the first type below
and go beyond -1 for the second, which only truncates instead of rounding. -/
theorem C89_cordic_wrong :
    Model.Cordic.cos ⟨8, 4, true, .TRN, .WRAP⟩ ⟨16, 4, true, .RND, .SAT⟩ 1 = some (-1) ∧
    Model.Cordic.sin ⟨8, 4, true, .TRN, .WRAP⟩ ⟨16, 4, true, .RND, .SAT⟩ (-1 / 2) = some (-1) ∧
    Model.Cordic.cos ⟨8, 4, true, .TRN, .WRAP⟩ ⟨16, 4, true, .TRN, .SAT⟩ 1 = some (-1 - 1 / 4096) ∧
    Model.Cordic.sin ⟨8, 4, true, .TRN, .WRAP⟩ ⟨16, 4, true, .TRN, .SAT⟩ (-1 / 2) = some (-1 - 1 / 4096) := by
  refine ⟨?_, ?_, ?_, ?_⟩ <;> decide +kernel

/-- With 22 fraction bits the sine of zero is negative. -/
theorem C89_cordic_zero_wrong : Model.Cordic.sin ⟨8, 4, true, .TRN, .WRAP⟩ ⟨24, 2, true, .TRN, .SAT⟩ 0 = some (-1 / 4194304) := by
  decide +kernel

/-- Arcsine and arccosine of one, zero and minus one, in half turns: exact in the rounding type, short by a unit in the other. -/
theorem C89_arc_wrong :
    Model.Arcsin.arcsin ⟨16, 4, true, .RND, .SAT⟩ 1 = some (1 / 2) ∧ Model.Arcsin.arccos ⟨16, 4, false, .RND, .SAT⟩ (-1) = some 1 ∧
    Model.Arcsin.arcsin ⟨16, 4, true, .TRN, .SAT⟩ 1 = some (1 / 2 - 1 / 4096) ∧
    Model.Arcsin.arccos ⟨16, 4, false, .TRN, .SAT⟩ (-1) = some (1 - 1 / 4096) ∧
    Model.Arcsin.arccos ⟨16, 4, false, .TRN, .SAT⟩ 0 = some (1 / 2 - 1 / 4096) := by
  refine ⟨?_, ?_, ?_, ?_, ?_⟩ <;> decide +kernel

/-- Hyperbolic CORDIC: the logarithm of one is negative and the powers with exponent zero are below one, with rounding as well. -/
theorem C89_hcordic_wrong :
    Model.Hcordic.log2 none .TRN ⟨8, 4, false, .TRN, .WRAP⟩ ⟨16, 4, true, .RND, .SAT⟩ 1 = some (-1 / 4096) ∧
    Model.Hcordic.log2 none .TRN ⟨8, 4, false, .TRN, .WRAP⟩ ⟨16, 4, true, .RND, .SAT⟩ 4 = some (2 - 1 / 4096) ∧
    Model.Hcordic.log none .TRN ⟨8, 4, false, .TRN, .WRAP⟩ ⟨16, 4, true, .RND, .SAT⟩ 1 = some (-1 / 4096) ∧
    Model.Hcordic.exp2 none .TRN ⟨8, 4, true, .TRN, .WRAP⟩ ⟨16, 4, false, .RND, .SAT⟩ 0 = some (1 - 1 / 2048) ∧
    Model.Hcordic.exp2 none .TRN ⟨8, 4, true, .TRN, .WRAP⟩ ⟨16, 4, false, .RND, .SAT⟩ 2 = some (4 - 1 / 512) ∧
    Model.Hcordic.exp none .TRN ⟨8, 4, true, .TRN, .WRAP⟩ ⟨16, 4, false, .RND, .SAT⟩ 0 = some (1 - 1 / 2048) := by
  refine ⟨?_, ?_, ?_, ?_, ?_, ?_⟩ <;> decide +kernel

/-- The widths of the hyperbolic CORDIC temporaries, out of 3 to 44, for which the logarithm of a power of two comes out one unit short. -/
def Short (w : ℕ) : Prop := w ∈ [7, 9, 12, 13, 15, 17, 18, 19, 20, 21, 25, 26, 30, 32, 35, 36, 38, 39, 43, 44]

instance (w : ℕ) : Decidable (Short w) := by unfold Short; infer_instance

/-- **C89**, `ac_log2_cordic` with the default widths: the logarithm of a power of two is exact if and only if the larger of the
width of the argument and the number of fraction bits of the output is not in the list. -/
theorem C89_hcordic_log2 (tq : QMode) {f out : Fmt} (hW : 1 ≤ f.W) (hS : f.S = false) (ho : 1 ≤ out.W) (hSo : out.S = true)
    (hO : out.O ≠ .SAT_SYM) (hF : 0 ≤ out.F) (h3 : 3 ≤ max (f.W : ℤ) out.F) (h44 : max (f.W : ℤ) out.F ≤ 44) {k : ℤ} (hx : f.Rep (2 ^ k))
    (hr : out.Rep k) (hr' : out.Rep (k - 2 ^ (-out.F))) :
    Model.Hcordic.log2 none tq f out (2 ^ k) = some (if Short (max f.W out.F.toNat) then (k : ℚ) - 2 ^ (-out.F) else k) := by
  rw [Proof.Hcordic.log2_pow (t := out.F.toNat) hW hS rfl (by simp only [Model.Hcordic.fbits, Option.getD]; omega)
    (by simp only [Model.Hcordic.fbits, Option.getD]; omega) (by simpa [Model.Hcordic.fbits] using hW) (Or.inr rfl) hx]
  have e : (1 : ℚ) / 2 ^ out.F.toNat = 2 ^ (-out.F) := by
    obtain ⟨n, hn⟩ : ∃ n : ℕ, out.F = n := ⟨out.F.toNat, by omega⟩
    rw [hn, zpow_neg, zpow_natCast, Int.toNat_natCast, one_div]
  have c : ∀ v : ℚ, out.Rep v → out.cvt ((Model.Hcordic.interFmt out).cvt v) = v := by
    intro v hv
    have hI : Model.Hcordic.interFmt out = { out with O := .WRAP } := by unfold Model.Hcordic.interFmt; rw [if_pos hSo]
    rw [hI, Fmt.cvt_rep (f := { out with O := .WRAP }) ho (by simp) hv, Fmt.cvt_rep ho hO hv]
  rw [e]
  simp only [Model.Hcordic.fbits, Option.getD]
  by_cases hs : Short (max f.W out.F.toNat)
  · have hs' : max f.W out.F.toNat ∈ Proof.Hcordic.short := hs
    simp only [hs, hs', if_true, c _ hr']
  · have hs' : max f.W out.F.toNat ∉ Proof.Hcordic.short := hs
    simp only [hs, hs', if_false, sub_zero, c _ hr]

example : Model.Hcordic.log2 none .TRN ⟨8, 4, false, .TRN, .WRAP⟩ ⟨16, 4, true, .RND, .SAT⟩ 4 = some (2 - 1 / 4096) ∧
    Model.Hcordic.log2 none .TRN ⟨14, 4, false, .TRN, .WRAP⟩ ⟨16, 4, true, .RND, .SAT⟩ 4 = some 2 ∧ Short 12 ∧ ¬Short 14 := by
  refine ⟨by decide +kernel, by decide +kernel, by unfold Short; decide, by unfold Short; decide⟩

/-- **C89**, `ac_exp2_cordic` with the default widths and 9 or more fraction bits: for every whole exponent from 0 on, a power of two
that the output type holds comes out too small, by one or two units of the temporaries. -/
theorem C89_hcordic_exp2_wrong {tq : QMode} (hq : tq = .TRN ∨ tq = .TRN_ZERO) {f out : Fmt} (ho : 1 ≤ out.W) (hSo : out.S = false)
    (hf : (f.W : ℤ) - f.I ≤ 45) (h9 : 9 ≤ out.F) (h44 : out.F ≤ 44) {n : ℕ} (hx : f.Rep n) (hr : out.Rep (2 ^ n)) :
    ∃ d : ℚ, (d = 1 ∨ d = 2) ∧ Model.Hcordic.exp2 none tq f out n = some (2 ^ n - d * 2 ^ (-out.F) * 2 ^ n) ∧
      Model.Hcordic.exp2 none tq f out n ≠ some (2 ^ n) := by
  obtain ⟨m, hm⟩ : ∃ m : ℕ, out.F = m := ⟨out.F.toNat, by omega⟩
  obtain ⟨d, hd, e⟩ := Proof.Hcordic.exp2_whole (tf := none) (tq := tq) (n := (n : ℤ)) ho hSo (by push_cast; exact hx) hf (t := m)
    (by simp [Model.Hcordic.fbits, hm]) (by omega) (by omega) (Props.HcordicExp.down_of hq)
  push_cast at e
  have p : (0 : ℚ) < 2 ^ n := by positivity
  have pm : (0 : ℚ) < 2 ^ m := by positivity
  have v : (1 - (d : ℚ) / 2 ^ m) * 2 ^ (n : ℤ) = 2 ^ n - d * 2 ^ (-out.F) * 2 ^ n := by
    rw [hm, zpow_neg, zpow_natCast, zpow_natCast]; field_simp
  have rp : out.Rep (2 ^ n - d * 2 ^ (-out.F) * 2 ^ n) ∧ (2 : ℚ) ^ n - d * 2 ^ (-out.F) * 2 ^ n = out.val (2 ^ n * 2 ^ m - d * 2 ^ n) := by
    have ev : (2 : ℚ) ^ n - d * 2 ^ (-out.F) * 2 ^ n = out.val (2 ^ n * 2 ^ m - d * 2 ^ n) := by
      unfold Fmt.val
      rw [hm, zpow_neg, zpow_natCast]; push_cast; field_simp
    refine ⟨⟨_, ?_, ?_, ev⟩, ev⟩
    · rw [hSo]
      simp only [minRaw, Bool.false_eq_true, if_false]
      have a : (2 : ℤ) ≤ 2 ^ m := by
        calc (2 : ℤ) = 2 ^ 1 := by norm_num
          _ ≤ 2 ^ m := pow_le_pow_right₀ (by norm_num) (by omega)
      have b : (0 : ℤ) < 2 ^ n := by positivity
      have := mul_le_mul_of_nonneg_left a b.le
      rcases hd with rfl | rfl <;> linarith
    · obtain ⟨r, -, r1, r2⟩ := hr
      have : r = 2 ^ n * 2 ^ m := by
        unfold Fmt.val at r2
        rw [hm, zpow_neg, zpow_natCast] at r2
        have : (r : ℚ) = 2 ^ n * 2 ^ m := by rw [r2]; field_simp
        exact_mod_cast this
      have b : (0 : ℤ) < 2 ^ n := by positivity
      rcases hd with rfl | rfl <;> linarith
  have lo : ∀ w : ℚ, out.Rep w → out.cvt w = w := by
    rintro w ⟨r, r0, r1, rfl⟩
    apply Fmt.cvt_val ho _ r1
    revert r0
    rw [hSo]
    cases out.O <;> simp [loRaw, minRaw]
  rw [v, lo _ rp.1] at e
  refine ⟨d, by rcases hd with rfl | rfl <;> simp, e, ?_⟩
  rw [e]
  intro h
  rw [Option.some.injEq] at h
  have : (0 : ℚ) < d * 2 ^ (-out.F) * 2 ^ n := by
    have := Fmt.z_pos (-out.F)
    rcases hd with rfl | rfl <;> push_cast <;> positivity
  linarith

example : Model.Hcordic.exp2 none .TRN ⟨8, 4, true, .TRN, .WRAP⟩ ⟨16, 4, false, .RND, .SAT⟩ 2 = some (4 - 2 / 4096 * 4) ∧
    Model.Hcordic.exp2 none .TRN ⟨8, 4, true, .TRN, .WRAP⟩ ⟨24, 4, false, .RND, .SAT⟩ 2 = some (4 - 1 / 2 ^ 20 * 4) := by
  constructor <;> decide +kernel

end Props.Exact
