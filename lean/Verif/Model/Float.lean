import Mathlib.Data.Int.Log
import Verif.Num
import Mathlib.Data.EReal.Basic
import Mathlib.Data.Int.Interval
import Mathlib.Data.Finset.Max

/-!
# Floating point arithmetic

The third instance of the numeric layer: numbers of a floating point format.  A `Format` is a rounding function with the
properties every IEEE rounding mode has; each arithmetic operation is the exact operation (with the IEEE rules for special
values, `XReal`) followed by rounding, which may overflow to an infinity.  `+ - * /` and `sqrt` are correctly rounded, as IEEE
requires; of the elementary functions, which no backend rounds correctly, only the listed sign and range facts are assumed.

Simplifications: zero is unsigned (so `1/(-0)` is `+∞`); sums are evaluated in one fixed order (the theorems below do not depend
on the order); no fused multiply-add and no excess precision.
-/

namespace Optax

namespace XReal

/-- position on the extended real line (NaN is put at 0; all uses exclude it) -/
noncomputable def toE : XReal → EReal
  | fin r => (r : EReal)
  | pinf => ⊤
  | ninf => ⊥
  | nan => 0

end XReal

/-- A floating point format. -/
structure Format where
  /-- correctly rounded value of a real; may overflow to an infinity -/
  rnd : ℝ → XReal
  /-- rounding a number is never NaN -/
  rnd_ne_nan : ∀ x, rnd x ≠ .nan
  /-- rounding is monotone -/
  rnd_mono : ∀ x y, x ≤ y → (rnd x).toE ≤ (rnd y).toE
  /-- representable numbers are rounded to themselves -/
  rnd_idem : ∀ x r, rnd x = .fin r → rnd r = .fin r
  /-- 0 and 1 are representable -/
  rnd_zero : rnd 0 = .fin 0
  rnd_one : rnd 1 = .fin 1
  /-- there is a sign bit -/
  rnd_neg : ∀ r, rnd r = .fin r → rnd (-r) = .fin (-r)
  /-- the exponential the backend computes, before rounding -/
  exp : ℝ → ℝ
  exp_zero : exp 0 = 1
  exp_nonneg : ∀ x, 0 ≤ exp x
  exp_le_one : ∀ x, x ≤ 0 → exp x ≤ 1
  /-- … logarithm of positive numbers -/
  log : ℝ → ℝ
  log_nonneg : ∀ x, 1 ≤ x → 0 ≤ log x
  /-- … reciprocal square root of positive numbers -/
  rsqrt : ℝ → ℝ
  rsqrt_nonneg : ∀ x, 0 < x → 0 ≤ rsqrt x
  rsqrt_anti : ∀ x y, 0 < x → x ≤ y → rsqrt y ≤ rsqrt x
  /-- … cosine -/
  cos : ℝ → ℝ
  cos_zero : cos 0 = 1
  cos_le_one : ∀ x, cos x ≤ 1
  cos_ge_neg_one : ∀ x, -1 ≤ cos x
  /-- … power -/
  pow : ℝ → ℝ → ℝ
  pow_nonneg : ∀ x y, 0 ≤ x → 0 ≤ pow x y
  pow_mono : ∀ x x' y, 0 ≤ x → x ≤ x' → 0 ≤ y → pow x y ≤ pow x' y
  pow_one_base : ∀ y, pow 1 y = 1
  pow_zero_base : ∀ y, 0 < y → pow 0 y = 0

namespace Format
open Classical

/-- round the finite values, keep the special ones -/
def round (F : Format) : XReal → XReal
  | .fin r => F.rnd r
  | x => x

/-- the numbers of the format (and the special values) -/
def Rep (F : Format) (x : XReal) : Prop := F.round x = x

theorem rep_round (F : Format) (x : XReal) : F.Rep (F.round x) := by
  unfold Rep
  cases x with
  | fin r =>
    show F.round (F.rnd r) = F.rnd r
    cases h : F.rnd r with
    | fin q => exact F.rnd_idem r q h
    | _ => rfl
  | _ => rfl

end Format

/-- Numbers of the format `F`, infinities and NaN. -/
def FP (F : Format) : Type := { x : XReal // F.Rep x }

namespace FP
variable {F : Format}

noncomputable section
open Classical

/-- the floating point number nearest to an exact result -/
def of (F : Format) (x : XReal) : FP F := ⟨F.round x, F.rep_round x⟩

instance : Zero (FP F) := ⟨of F (.fin 0)⟩
instance : One (FP F) := ⟨of F (.fin 1)⟩
instance : Neg (FP F) := ⟨fun a => of F (-a.1)⟩
instance : Add (FP F) := ⟨fun a b => of F (a.1 + b.1)⟩
instance : Sub (FP F) := ⟨fun a b => of F (a.1 - b.1)⟩
instance : Mul (FP F) := ⟨fun a b => of F (a.1 * b.1)⟩
instance : Div (FP F) := ⟨fun a b => of F (a.1 / b.1)⟩

/-- Operations of jax on floating point numbers. -/
instance : JOps (FP F) where
  lt a b := JOps.lt a.1 b.1
  le a b := JOps.le a.1 b.1
  eqb a b := JOps.eqb a.1 b.1
  isnan a := JOps.isnan a.1
  isfinite a := JOps.isfinite a.1
  sqrt a := of F (JOps.sqrt a.1)
  rsqrt a := of F (XReal.lift (fun r => if r < 0 then .nan else if r = 0 then .pinf else .fin (F.rsqrt r)) (.fin 0) .nan a.1)
  exp a := of F (XReal.lift (fun r => .fin (F.exp r)) .pinf (.fin 0) a.1)
  log a := of F (XReal.lift (fun r => if r < 0 then .nan else if r = 0 then .ninf else .fin (F.log r)) .pinf .nan a.1)
  cos a := of F (XReal.lift (fun r => .fin (F.cos r)) .nan .nan a.1)
  floor a := of F (JOps.floor a.1)
  abs a := of F (JOps.abs a.1)
  sign a := of F (JOps.sign a.1)
  pow a b := of F (match a.1, b.1 with
    | .fin x, .fin y => .fin (F.pow x y)
    | _, _ => .nan)
  max a b := of F (JOps.max a.1 b.1)
  min a b := of F (JOps.min a.1 b.1)
  pi := of F (.fin Real.pi)
  ofRat q := of F (.fin q)
  ofInt z := of F (.fin z)

end

end FP

/-! ## IEEE formats

Rounding to nearest, with any rule for ties, onto any finite symmetric set of numbers containing 0 and 1, with overflow from a
threshold on, is a `Format`.  `float32` and `bfloat16` are such sets, with ties to even as IEEE 754 prescribes. -/

namespace Format
open Classical

/-- Round to nearest in the finite set `S`; results of absolute value at least `T` overflow.  `near` picks a nearest element
(the rule for ties is free). -/
noncomputable def nearest (S : Finset ℝ) (T : ℝ) (near : ℝ → ℝ) (hS : ∀ x, near x ∈ S) (hnear : ∀ x, ∀ s ∈ S, |x - near x| ≤ |x - s|)
    (h0 : (0 : ℝ) ∈ S) (h1 : (1 : ℝ) ∈ S) (hneg : ∀ s ∈ S, -s ∈ S) (hT : ∀ s ∈ S, s < T) : Format :=
  have near_self : ∀ s ∈ S, near s = s := fun s hs => by
    have h := hnear s s hs
    rw [sub_self, abs_zero] at h
    have := abs_nonpos_iff.1 h
    linarith
  have fin_self : ∀ s ∈ S, (if T ≤ s then XReal.pinf else if s ≤ -T then .ninf else .fin (near s)) = .fin s := fun s hs => by
    have h3 := hT s hs
    have h4 := hT (-s) (hneg s hs)
    rw [if_neg (by linarith), if_neg (by linarith), near_self s hs]
  { rnd := fun x => if T ≤ x then .pinf else if x ≤ -T then .ninf else .fin (near x)
    rnd_ne_nan := fun x => by split_ifs <;> simp
    rnd_mono := fun x y hxy => by
      by_cases hy : T ≤ y
      · rw [if_pos hy]; exact le_top
      · by_cases hx : x ≤ -T
        · have hT0 := hT 0 h0
          rw [if_neg (show ¬ T ≤ x by linarith), if_pos hx]; exact bot_le
        · rw [if_neg hy, if_neg (show ¬ y ≤ -T by linarith), if_neg (show ¬ T ≤ x by linarith), if_neg hx]
          show ((near x : ℝ) : EReal) ≤ ((near y : ℝ) : EReal)
          rw [EReal.coe_le_coe_iff]
          by_contra hlt
          rw [not_le] at hlt
          have a1 := hnear x (near y) (hS y)
          have a2 := hnear y (near x) (hS x)
          have c1 := sq_le_sq.2 a1
          have c2 := sq_le_sq.2 a2
          have b1 : near x + near y ≤ 2 * x := by
            by_contra hc
            nlinarith
          have b2 : 2 * y ≤ near x + near y := by
            by_contra hc
            nlinarith
          have hxy' : x = y := by linarith
          subst hxy'
          exact lt_irrefl _ hlt
    rnd_idem := fun x r h => by
      split_ifs at h
      cases h
      exact fin_self _ (hS x)
    rnd_zero := fin_self 0 h0
    rnd_one := fin_self 1 h1
    rnd_neg := fun r h => by
      split_ifs at h
      have h2 : near r = r := by injection h
      exact fin_self (-r) (hneg r (h2 ▸ hS r))
    exp := Real.exp
    exp_zero := Real.exp_zero
    exp_nonneg := fun x => (Real.exp_pos x).le
    exp_le_one := fun x hx => Real.exp_le_one_iff.2 hx
    log := Real.log
    log_nonneg := fun x hx => Real.log_nonneg hx
    rsqrt := fun x => 1 / Real.sqrt x
    rsqrt_nonneg := fun x _ => by positivity
    rsqrt_anti := fun x y hx hxy => one_div_le_one_div_of_le (Real.sqrt_pos.2 hx) (Real.sqrt_le_sqrt hxy)
    cos := Real.cos
    cos_zero := Real.cos_zero
    cos_le_one := Real.cos_le_one
    cos_ge_neg_one := Real.neg_one_le_cos
    pow := fun x y => x ^ y
    pow_nonneg := fun x y hx => Real.rpow_nonneg hx y
    pow_mono := fun x x' y hx hxx hy => Real.rpow_le_rpow hx hxx hy
    pow_one_base := fun y => Real.one_rpow y
    pow_zero_base := fun y hy => Real.zero_rpow hy.ne' }

/-- the numbers `m · 2^e` with `|m| < 2^p`, `emin ≤ e ≤ emax`: normal and subnormal binary floating point numbers -/
noncomputable def binarySet (p : ℕ) (emin emax : ℤ) : Finset ℝ :=
  (Finset.Ioo (-(2 : ℤ) ^ p) (2 ^ p) ×ˢ Finset.Icc emin emax).image fun me => (me.1 : ℝ) * 2 ^ me.2

theorem mem_binarySet {p : ℕ} {emin emax : ℤ} {x : ℝ} :
    x ∈ binarySet p emin emax ↔ ∃ m e : ℤ, |m| < 2 ^ p ∧ emin ≤ e ∧ e ≤ emax ∧ x = (m : ℝ) * 2 ^ e := by
  simp only [binarySet, Finset.mem_image, Finset.mem_product, Finset.mem_Ioo, Finset.mem_Icc, Prod.exists, abs_lt]
  constructor
  · rintro ⟨m, e, ⟨⟨h1, h2⟩, h3, h4⟩, rfl⟩; exact ⟨m, e, ⟨h1, h2⟩, h3, h4, rfl⟩
  · rintro ⟨m, e, ⟨h1, h2⟩, h3, h4, rfl⟩; exact ⟨m, e, ⟨⟨h1, h2⟩, h3, h4⟩, rfl⟩

/-- the nearest integer, ties to even -/
noncomputable def halfEven (y : ℝ) : ℤ :=
  if Int.fract y < 1 / 2 then ⌊y⌋ else if 1 / 2 < Int.fract y then ⌊y⌋ + 1 else if Even ⌊y⌋ then ⌊y⌋ else ⌊y⌋ + 1

theorem halfEven_half (y : ℝ) : |y - halfEven y| ≤ 1 / 2 := by
  have h1 := Int.fract_nonneg y
  have h2 := Int.fract_lt_one y
  have h3 : y = ⌊y⌋ + Int.fract y := (Int.floor_add_fract y).symm
  unfold halfEven
  rw [abs_le]
  split_ifs <;> push_cast <;> constructor <;> linarith

theorem halfEven_le (y : ℝ) (k : ℤ) : |y - halfEven y| ≤ |y - k| := by
  by_cases hk : k = halfEven y
  · rw [hk]
  · have h := halfEven_half y
    have h1 : (1 : ℝ) ≤ |((halfEven y - k : ℤ) : ℝ)| := by
      have : 1 ≤ |halfEven y - k| := Int.one_le_abs (by omega)
      exact_mod_cast this
    have h2 : |((halfEven y - k : ℤ) : ℝ)| ≤ |y - halfEven y| + |y - k| := by
      have e : ((halfEven y - k : ℤ) : ℝ) = -(y - halfEven y) + (y - k) := by push_cast; ring
      rw [e]
      refine (abs_add_le _ _).trans ?_
      rw [abs_neg]
    linarith

/-- the exponent of the last digit kept when rounding `x` to `p` digits -/
noncomputable def lastDigit (p : ℕ) (emin : ℤ) (x : ℝ) : ℤ := max emin (Int.log 2 |x| + 1 - p)

/-- `x` rounded to `p` binary digits (fewer below the normal range), ties to even -/
noncomputable def toEven (p : ℕ) (emin : ℤ) (x : ℝ) : ℝ := (halfEven (x / 2 ^ lastDigit p emin x) : ℝ) * 2 ^ lastDigit p emin x

theorem abs_lt_lastDigit (p : ℕ) (emin : ℤ) (x : ℝ) : |x| < 2 ^ (lastDigit p emin x + p) := by
  have h : |x| < (2 : ℝ) ^ (Int.log 2 |x| + 1) := by exact_mod_cast Int.lt_zpow_succ_log_self (b := 2) (by norm_num) |x|
  refine lt_of_lt_of_le h (zpow_le_zpow_right₀ (by norm_num) ?_)
  have := le_max_right emin (Int.log 2 |x| + 1 - p)
  unfold lastDigit
  omega

theorem toEven_le (p : ℕ) (emin emax : ℤ) (hp : 1 ≤ p) (x : ℝ) (s : ℝ) (hs : s ∈ binarySet p emin emax) : |x - toEven p emin x| ≤ |x - s| := by
  set e := lastDigit p emin x with he
  have hpos : (0 : ℝ) < 2 ^ e := by positivity
  have mult : ∀ k : ℤ, |x - toEven p emin x| ≤ |x - k * 2 ^ e| := by
    intro k
    have h := mul_le_mul_of_nonneg_right (halfEven_le (x / 2 ^ e) k) hpos.le
    rw [← abs_of_pos hpos, ← abs_mul, ← abs_mul, abs_of_pos hpos, sub_mul, sub_mul, div_mul_cancel₀ _ hpos.ne'] at h
    exact h
  obtain ⟨m, e', h1, h2, h3, rfl⟩ := mem_binarySet.1 hs
  rcases le_or_gt e e' with h | h
  · have := mult (m * 2 ^ (e' - e).toNat)
    refine this.trans (le_of_eq ?_)
    congr 2
    push_cast
    rw [mul_assoc, ← zpow_natCast, Int.toNat_of_nonneg (by omega), ← zpow_add₀ (by norm_num : (2 : ℝ) ≠ 0)]
    congr 2; ring
  · have hx0 : x ≠ 0 ∨ x = 0 := ne_or_eq x 0
    have hcl : Int.log 2 |x| + 1 - p = e := by
      rw [he]; unfold lastDigit
      rw [max_eq_right]
      by_contra hc
      have : e = emin := by rw [he]; unfold lastDigit; exact max_eq_left (by omega)
      omega
    rcases hx0 with hx0 | hx0
    · have hlow : (2 : ℝ) ^ (e + p - 1) ≤ |x| := by
        have : (2 : ℝ) ^ (Int.log 2 |x|) ≤ |x| := by exact_mod_cast Int.zpow_log_le_self (b := 2) (by norm_num) (abs_pos.2 hx0)
        rwa [show Int.log 2 |x| = e + p - 1 by omega] at this
      have hsmall : |(m : ℝ) * 2 ^ e'| ≤ 2 ^ (e + p - 1) := by
        rw [abs_mul, abs_of_pos (by positivity : (0 : ℝ) < 2 ^ e')]
        have hm : |(m : ℝ)| ≤ 2 ^ (p : ℤ) := by rw [zpow_natCast]; exact_mod_cast h1.le
        calc |(m : ℝ)| * 2 ^ e' ≤ 2 ^ (p : ℤ) * 2 ^ e' := mul_le_mul_of_nonneg_right hm (by positivity)
          _ = 2 ^ ((p : ℤ) + e') := (zpow_add₀ (by norm_num) _ _).symm
          _ ≤ 2 ^ (e + p - 1) := zpow_le_zpow_right₀ (by norm_num) (by omega)
      have e2 : ((2 : ℤ) ^ (p - 1) : ℝ) * 2 ^ e = 2 ^ (e + p - 1) := by
        rw [Int.cast_ofNat, ← zpow_natCast, ← zpow_add₀ (by norm_num : (2 : ℝ) ≠ 0)]
        congr 1; push_cast [hp]; ring
      obtain ⟨s1, s2⟩ := abs_le.1 hsmall
      rcases le_total 0 x with hx | hx
      · have h := mult (2 ^ (p - 1))
        rw [abs_of_nonneg hx] at hlow
        rw [Int.cast_pow, e2, abs_of_nonneg (a := x - 2 ^ (e + p - 1)) (by linarith)] at h
        refine h.trans (le_trans ?_ (le_abs_self _))
        linarith
      · have h := mult (-2 ^ (p - 1))
        rw [abs_of_nonpos hx] at hlow
        rw [Int.cast_neg, Int.cast_pow, neg_mul, e2, abs_of_nonpos (a := x - -2 ^ (e + p - 1)) (by linarith)] at h
        refine h.trans (le_trans ?_ (neg_le_abs _))
        linarith
    · have h := mult 0
      rw [Int.cast_zero, zero_mul, hx0, sub_zero, abs_zero] at h
      rw [hx0]
      exact h.trans (abs_nonneg _)

theorem toEven_mem (p : ℕ) (emin emax : ℤ) (hp : 1 ≤ p) (he : emin ≤ 0) (he' : 0 ≤ emax) (x : ℝ) (hx : |x| < (2 ^ p - 1 / 2) * 2 ^ emax) :
    toEven p emin x ∈ binarySet p emin emax := by
  set e := lastDigit p emin x with hle
  have hpos : (0 : ℝ) < 2 ^ e := by positivity
  have hmin : emin ≤ e := le_max_left _ _
  have hmax : e ≤ emax := by
    refine max_le (by omega) ?_
    by_cases hx0 : x = 0
    · rw [hx0, abs_zero, Int.log_of_right_le_zero 2 le_rfl]
      omega
    · have h1 : (2 : ℝ) ^ (Int.log 2 |x|) ≤ |x| := by exact_mod_cast Int.zpow_log_le_self (b := 2) (by norm_num) (abs_pos.2 hx0)
      have h2 : (2 : ℝ) ^ (Int.log 2 |x|) < 2 ^ ((p : ℤ) + emax) := by
        rw [zpow_add₀ (by norm_num : (2 : ℝ) ≠ 0), zpow_natCast]
        have : (0 : ℝ) < 2 ^ emax := by positivity
        nlinarith
      have := (zpow_lt_zpow_iff_right₀ (by norm_num : (1 : ℝ) < 2)).1 h2
      omega
  set m := halfEven (x / 2 ^ e) with hm
  have hy : |x / 2 ^ e| < 2 ^ p := by
    rw [abs_div, abs_of_pos hpos, div_lt_iff₀ hpos, ← zpow_natCast, ← zpow_add₀ (by norm_num : (2 : ℝ) ≠ 0), add_comm]
    exact abs_lt_lastDigit p emin x
  have hmle : |m| ≤ 2 ^ p := by
    have h1 := halfEven_half (x / 2 ^ e)
    by_contra hc
    have hc : (2 : ℤ) ^ p + 1 ≤ |m| := by omega
    have hc : (2 : ℝ) ^ p + 1 ≤ |(m : ℝ)| := by exact_mod_cast hc
    have h2 : |(m : ℝ)| ≤ |x / 2 ^ e| + |x / 2 ^ e - m| := by
      have := abs_sub_abs_le_abs_sub (m : ℝ) (x / 2 ^ e)
      rw [abs_sub_comm] at this
      linarith
    linarith
  rcases hmle.lt_or_eq with h | h
  · exact mem_binarySet.2 ⟨m, e, h, hmin, hmax, rfl⟩
  · have hlt : e < emax := by
      by_contra hc
      have hc : e = emax := by omega
      have hy2 : |x / 2 ^ e| < 2 ^ p - 1 / 2 := by
        rw [abs_div, abs_of_pos hpos, div_lt_iff₀ hpos, hc]; exact hx
      have h1 := halfEven_half (x / 2 ^ e)
      have h2 : |(m : ℝ)| ≤ |x / 2 ^ e| + |x / 2 ^ e - m| := by
        have := abs_sub_abs_le_abs_sub (m : ℝ) (x / 2 ^ e)
        rw [abs_sub_comm] at this
        linarith
      have h3 : |(m : ℝ)| = 2 ^ p := by exact_mod_cast h
      linarith
    have two : ∀ n : ℤ, m = 2 * n → |n| < 2 ^ p → toEven p emin x ∈ binarySet p emin emax := by
      intro n hn hlt'
      refine mem_binarySet.2 ⟨n, e + 1, hlt', by omega, by omega, ?_⟩
      show (m : ℝ) * 2 ^ e = _
      rw [hn, zpow_add_one₀ (by norm_num : (2 : ℝ) ≠ 0)]
      push_cast; ring
    obtain ⟨q, rfl⟩ : ∃ q, p = q + 1 := ⟨p - 1, by omega⟩
    have hq : (2 : ℤ) ^ q < 2 ^ (q + 1) := by rw [pow_succ]; have : (0 : ℤ) < 2 ^ q := by positivity
                                              omega
    have habs : |(2 : ℤ) ^ q| = 2 ^ q := abs_of_pos (by positivity)
    rcases abs_choice m with hc | hc
    · exact two (2 ^ q) (by rw [← hc, h, pow_succ]; ring) (by rwa [habs])
    · exact two (-2 ^ q) (by have : m = -|m| := by rw [hc]; ring
                             rw [this, h, pow_succ]; ring) (by rwa [abs_neg, habs])

/-- the binary number nearest to `x`, ties to even; beyond the largest number, that number -/
noncomputable def nearEven (p : ℕ) (emin emax : ℤ) (x : ℝ) : ℝ :=
  if |x| < (2 ^ p - 1 / 2) * 2 ^ emax then toEven p emin x else if 0 ≤ x then (2 ^ p - 1) * 2 ^ emax else -((2 ^ p - 1) * 2 ^ emax)

theorem binarySet_le {p : ℕ} {emin emax : ℤ} {s : ℝ} (hs : s ∈ binarySet p emin emax) : |s| ≤ (2 ^ p - 1) * 2 ^ emax := by
  obtain ⟨m, e, h1, h2, h3, rfl⟩ := mem_binarySet.1 hs
  have hm : |(m : ℝ)| ≤ 2 ^ p - 1 := by
    have : |m| ≤ 2 ^ p - 1 := by omega
    exact_mod_cast this
  rw [abs_mul, abs_of_pos (by positivity : (0 : ℝ) < 2 ^ e)]
  exact mul_le_mul hm (zpow_le_zpow_right₀ (by norm_num) h3) (by positivity) ((abs_nonneg _).trans hm)

theorem nearEven_mem (p : ℕ) (emin emax : ℤ) (hp : 1 ≤ p) (he : emin ≤ 0) (he' : 0 ≤ emax) (x : ℝ) : nearEven p emin emax x ∈ binarySet p emin emax := by
  have hpow : (1 : ℤ) ≤ 2 ^ p := one_le_pow₀ (by norm_num)
  unfold nearEven
  split_ifs with h h'
  · exact toEven_mem p emin emax hp he he' x h
  · exact mem_binarySet.2 ⟨2 ^ p - 1, emax, by rw [abs_of_nonneg (by omega)]; omega, by omega, le_rfl, by push_cast; ring⟩
  · exact mem_binarySet.2 ⟨-(2 ^ p - 1), emax, by rw [abs_neg, abs_of_nonneg (by omega)]; omega, by omega, le_rfl, by push_cast; ring⟩

theorem nearEven_le (p : ℕ) (emin emax : ℤ) (hp : 1 ≤ p) (x s : ℝ) (hs : s ∈ binarySet p emin emax) : |x - nearEven p emin emax x| ≤ |x - s| := by
  unfold nearEven
  have hb := abs_le.1 (binarySet_le hs)
  have hpos : (0 : ℝ) < 2 ^ emax := by positivity
  split_ifs with h h'
  · exact toEven_le p emin emax hp x s hs
  · rw [not_lt, abs_of_nonneg h'] at h
    rw [abs_of_nonneg (by linarith), abs_of_nonneg (by linarith)]
    linarith
  · rw [not_lt, abs_of_neg (not_le.1 h')] at h
    rw [abs_of_nonpos (by linarith), abs_of_nonpos (by linarith)]
    linarith

/-- binary floating point with precision `p` and exponents of the last digit `emin … emax`, rounding to nearest with ties to even; results from halfway between the
largest number and the next power of two on overflow -/
noncomputable def binary (p : ℕ) (emin emax : ℤ) (hp : 1 ≤ p) (he : emin ≤ 0) (he' : 0 ≤ emax) : Format :=
  have h0 : (0 : ℝ) ∈ binarySet p emin emax := mem_binarySet.2 ⟨0, 0, by simp, he, he', by simp⟩
  nearest (binarySet p emin emax) ((2 ^ p - 1 / 2) * 2 ^ emax)
    (nearEven p emin emax) (nearEven_mem p emin emax hp he he') (nearEven_le p emin emax hp) h0
    (mem_binarySet.2 ⟨1, 0, by
      rw [abs_one]; exact one_lt_pow₀ (by norm_num) (by omega), he, he', by simp⟩)
    (fun s hs => by
      obtain ⟨m, e, h1, h2, h3, rfl⟩ := mem_binarySet.1 hs
      exact mem_binarySet.2 ⟨-m, e, by rwa [abs_neg], h2, h3, by push_cast; ring⟩)
    (fun s hs => by
      obtain ⟨m, e, h1, h2, h3, rfl⟩ := mem_binarySet.1 hs
      have hm : (m : ℝ) ≤ 2 ^ p - 1 := by
        have : m ≤ 2 ^ p - 1 := by have := (abs_lt.1 h1).2; omega
        exact_mod_cast this
      have hp1 : (1 : ℝ) ≤ 2 ^ p := one_le_pow₀ (by norm_num)
      have he2 : (2 : ℝ) ^ e ≤ 2 ^ emax := zpow_le_zpow_right₀ (by norm_num) h3
      have hpos : (0 : ℝ) < 2 ^ e := by positivity
      have hpos' : (0 : ℝ) < 2 ^ emax := by positivity
      calc (m : ℝ) * 2 ^ e ≤ (2 ^ p - 1) * 2 ^ e := mul_le_mul_of_nonneg_right hm hpos.le
        _ ≤ (2 ^ p - 1) * 2 ^ emax := mul_le_mul_of_nonneg_left he2 (by linarith)
        _ < (2 ^ p - 1 / 2) * 2 ^ emax := mul_lt_mul_of_pos_right (by linarith) hpos')

/-- IEEE single precision -/
noncomputable def float32 : Format := binary 24 (-149) 104 (by norm_num) (by norm_num) (by norm_num)
/-- bfloat16 -/
noncomputable def bfloat16 : Format := binary 8 (-133) 120 (by norm_num) (by norm_num) (by norm_num)

end Format

end Optax
