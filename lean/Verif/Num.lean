import Mathlib.Analysis.SpecialFunctions.Pow.Real
import Mathlib.Analysis.SpecialFunctions.Trigonometric.Basic
import Mathlib.Analysis.Real.Sqrt

/-!
# Numeric layer

The model is polymorphic in the type `α` of array entries.  Ring-like operations come from the
standard classes (`Zero One Add Sub Mul Div Neg`); everything else the code takes from
`jax.numpy` / `jax.lax` is collected in `JOps`.

Instances:
* `ℝ` - exact arithmetic (no rounding, nothing is ever NaN or infinite);
* `XReal` - the reals extended with `+∞`, `-∞`, `NaN`, with the IEEE rules for the special values
  (no signed zero, no rounding, no overflow of finite values).
-/

namespace Optax

/-- The operations of `jax.numpy`/`jax.lax` on array entries that the modelled code uses, besides
`+ - * / neg 0 1`.  Comparisons return `Bool` as jax comparisons return boolean arrays. -/
class JOps (α : Type) where
  /-- `a < b` -/
  lt : α → α → Bool
  /-- `a <= b` -/
  le : α → α → Bool
  /-- `a == b` -/
  eqb : α → α → Bool
  /-- `jnp.isnan` -/
  isnan : α → Bool
  /-- `jnp.isfinite` -/
  isfinite : α → Bool
  /-- `jnp.sqrt` -/
  sqrt : α → α
  /-- `jax.lax.rsqrt`, `1/sqrt(x)` -/
  rsqrt : α → α
  /-- `jnp.exp` -/
  exp : α → α
  /-- `jnp.log` -/
  log : α → α
  /-- `jnp.cos` -/
  cos : α → α
  /-- `jnp.floor` -/
  floor : α → α
  /-- `jnp.abs` -/
  abs : α → α
  /-- `jnp.sign` -/
  sign : α → α
  /-- `jnp.power` -/
  pow : α → α → α
  /-- `jnp.maximum` -/
  max : α → α → α
  /-- `jnp.minimum` -/
  min : α → α → α
  /-- `jnp.pi` -/
  pi : α
  /-- a numeric literal of the source, e.g. `1e-6` -/
  ofRat : ℚ → α
  /-- conversion of an integer (array) to the float type -/
  ofInt : ℤ → α

/-- Integer power `x ** n` for a literal non-negative integer `n`
(jax lowers `g ** order` with python int to `lax.integer_pow`). -/
def ipow {α : Type} [One α] [Mul α] (x : α) : ℕ → α
  | 0 => 1
  | 1 => x
  | n + 2 => ipow x (n + 1) * x

/-! ## The exact instance -/

open Classical in
noncomputable instance instJOpsReal : JOps ℝ where
  lt a b := decide (a < b)
  le a b := decide (a ≤ b)
  eqb a b := decide (a = b)
  isnan _ := false
  isfinite _ := true
  sqrt := Real.sqrt
  rsqrt x := 1 / Real.sqrt x
  exp := Real.exp
  log := Real.log
  cos := Real.cos
  floor x := (⌊x⌋ : ℤ)
  abs x := |x|
  sign x := if x < 0 then -1 else if 0 < x then 1 else 0
  pow := fun x y => x ^ y
  max := fun a b => Max.max a b
  min := fun a b => Min.min a b
  pi := Real.pi
  ofRat q := (q : ℝ)
  ofInt z := (z : ℝ)

section RealSimp

@[simp] theorem jlt_real (a b : ℝ) : (JOps.lt a b = true) ↔ a < b := by simp [JOps.lt]
@[simp] theorem jle_real (a b : ℝ) : (JOps.le a b = true) ↔ a ≤ b := by simp [JOps.le]
@[simp] theorem jeqb_real (a b : ℝ) : (JOps.eqb a b = true) ↔ a = b := by simp [JOps.eqb]
@[simp] theorem jisnan_real (a : ℝ) : JOps.isnan a = false := rfl
@[simp] theorem jisfinite_real (a : ℝ) : JOps.isfinite a = true := rfl
@[simp] theorem jsqrt_real (a : ℝ) : JOps.sqrt a = Real.sqrt a := rfl
@[simp] theorem jrsqrt_real (a : ℝ) : JOps.rsqrt a = 1 / Real.sqrt a := rfl
@[simp] theorem jexp_real (a : ℝ) : JOps.exp a = Real.exp a := rfl
@[simp] theorem jlog_real (a : ℝ) : JOps.log a = Real.log a := rfl
@[simp] theorem jcos_real (a : ℝ) : JOps.cos a = Real.cos a := rfl
@[simp] theorem jfloor_real (a : ℝ) : JOps.floor a = (⌊a⌋ : ℤ) := rfl
@[simp] theorem jabs_real (a : ℝ) : JOps.abs a = |a| := rfl
@[simp] theorem jpow_real (a b : ℝ) : JOps.pow a b = a ^ b := rfl
@[simp] theorem jmax_real (a b : ℝ) : JOps.max a b = Max.max a b := rfl
@[simp] theorem jmin_real (a b : ℝ) : JOps.min a b = Min.min a b := rfl
@[simp] theorem jpi_real : (JOps.pi : ℝ) = Real.pi := rfl
@[simp] theorem jofRat_real (q : ℚ) : (JOps.ofRat q : ℝ) = (q : ℝ) := rfl
@[simp] theorem jofInt_real (z : ℤ) : (JOps.ofInt z : ℝ) = (z : ℝ) := rfl

theorem jsign_real (a : ℝ) :
    JOps.sign a = if a < 0 then -1 else if 0 < a then (1 : ℝ) else 0 := by
  simp only [JOps.sign]

@[simp] theorem ipow_eq_pow {α : Type} [Monoid α] (x : α) : ∀ n : ℕ, ipow x n = x ^ n
  | 0 => by simp [ipow]
  | 1 => by simp [ipow]
  | n + 2 => by rw [ipow, ipow_eq_pow x (n + 1), ← pow_succ]

end RealSimp

/-! ## Reals with IEEE special values -/

/-- Reals extended with the IEEE special values. -/
inductive XReal where
  | fin (r : ℝ)
  | pinf
  | ninf
  | nan

namespace XReal

noncomputable section
open Classical

/-- IEEE negation. -/
protected def neg : XReal → XReal
  | fin r => fin (-r)
  | pinf => ninf
  | ninf => pinf
  | nan => nan

/-- IEEE addition (`∞ + (-∞) = NaN`). -/
protected def add : XReal → XReal → XReal
  | nan, _ => nan
  | _, nan => nan
  | fin a, fin b => fin (a + b)
  | pinf, ninf => nan
  | ninf, pinf => nan
  | pinf, _ => pinf
  | ninf, _ => ninf
  | fin _, pinf => pinf
  | fin _, ninf => ninf

/-- an infinity of the sign of `r`; `0 * ∞ = NaN`. -/
def infOf (r : ℝ) : XReal := if 0 < r then pinf else if r < 0 then ninf else nan

/-- IEEE multiplication (`0 * ∞ = NaN`). -/
protected def mul : XReal → XReal → XReal
  | nan, _ => nan
  | _, nan => nan
  | fin a, fin b => fin (a * b)
  | fin a, pinf => infOf a
  | fin a, ninf => infOf (-a)
  | pinf, fin a => infOf a
  | ninf, fin a => infOf (-a)
  | pinf, pinf => pinf
  | ninf, ninf => pinf
  | pinf, ninf => ninf
  | ninf, pinf => ninf

/-- IEEE division (`x / 0 = ±∞`, `0 / 0 = NaN`; zero is unsigned, i.e. treated as `+0`). -/
protected def div : XReal → XReal → XReal
  | nan, _ => nan
  | _, nan => nan
  | fin a, fin b => if b = 0 then infOf a else fin (a / b)
  | fin _, pinf => fin 0
  | fin _, ninf => fin 0
  | pinf, fin b => if 0 ≤ b then pinf else ninf
  | ninf, fin b => if 0 ≤ b then ninf else pinf
  | pinf, pinf => nan
  | ninf, ninf => nan
  | pinf, ninf => nan
  | ninf, pinf => nan

instance : Zero XReal := ⟨fin 0⟩
instance : One XReal := ⟨fin 1⟩
instance : Neg XReal := ⟨XReal.neg⟩
instance : Add XReal := ⟨XReal.add⟩
instance : Sub XReal := ⟨fun a b => XReal.add a (XReal.neg b)⟩
instance : Mul XReal := ⟨XReal.mul⟩
instance : Div XReal := ⟨XReal.div⟩

/-- IEEE `<`: false whenever an operand is NaN. -/
def lt : XReal → XReal → Bool
  | nan, _ => false
  | _, nan => false
  | fin a, fin b => decide (a < b)
  | fin _, pinf => true
  | fin _, ninf => false
  | pinf, _ => false
  | ninf, ninf => false
  | ninf, _ => true

/-- IEEE `==`: NaN is different from everything. -/
def eqb : XReal → XReal → Bool
  | fin a, fin b => decide (a = b)
  | pinf, pinf => true
  | ninf, ninf => true
  | _, _ => false

/-- is NaN -/
def isnan : XReal → Bool
  | nan => true
  | _ => false

/-- is neither NaN nor infinite -/
def isfinite : XReal → Bool
  | fin _ => true
  | _ => false

/-- lift a real function, with given values at the two infinities; NaN propagates. -/
def lift (f : ℝ → XReal) (atP atN : XReal) : XReal → XReal
  | fin r => f r
  | pinf => atP
  | ninf => atN
  | nan => nan

/-- Special values.  `pow` is specified on finite arguments only (non-finite arguments give NaN,
which is *not* faithful to IEEE `pow`; no theorem uses `pow` at infinities). -/
noncomputable instance : JOps XReal where
  lt := lt
  le a b := lt a b || eqb a b
  eqb := eqb
  isnan := isnan
  isfinite := isfinite
  sqrt := lift (fun r => if r < 0 then nan else fin (Real.sqrt r)) pinf nan
  rsqrt := lift (fun r => if r < 0 then nan else if r = 0 then pinf else fin (1 / Real.sqrt r))
    (fin 0) nan
  exp := lift (fun r => fin (Real.exp r)) pinf (fin 0)
  log := lift (fun r => if r < 0 then nan else if r = 0 then ninf else fin (Real.log r)) pinf nan
  cos := lift (fun r => fin (Real.cos r)) nan nan
  floor := lift (fun r => fin (⌊r⌋ : ℤ)) pinf ninf
  abs := lift (fun r => fin |r|) pinf pinf
  sign := lift (fun r => fin (JOps.sign r)) (fin 1) (fin (-1))
  pow a b := match a, b with
    | fin x, fin y => fin (x ^ y)
    | _, _ => nan
  max a b := if isnan a then nan else if isnan b then nan else if lt a b then b else a
  min a b := if isnan a then nan else if isnan b then nan else if lt b a then b else a
  pi := fin Real.pi
  ofRat q := fin q
  ofInt z := fin z

@[simp] theorem zero_def : (0 : XReal) = fin 0 := rfl
@[simp] theorem one_def : (1 : XReal) = fin 1 := rfl
@[simp] theorem fin_add (a b : ℝ) : fin a + fin b = fin (a + b) := rfl
@[simp] theorem fin_mul (a b : ℝ) : fin a * fin b = fin (a * b) := rfl
@[simp] theorem fin_sub (a b : ℝ) : fin a - fin b = fin (a - b) := by
  show fin (a + -b) = _; rw [sub_eq_add_neg]
@[simp] theorem fin_neg (a : ℝ) : -fin a = fin (-a) := rfl
theorem fin_div (a b : ℝ) (hb : b ≠ 0) : fin a / fin b = fin (a / b) := by
  show (if b = 0 then infOf a else fin (a / b)) = _
  simp [hb]
@[simp] theorem nan_mul (a : XReal) : nan * a = nan := by cases a <;> rfl
@[simp] theorem mul_nan (a : XReal) : a * nan = nan := by cases a <;> rfl
@[simp] theorem nan_add (a : XReal) : nan + a = nan := by cases a <;> rfl
@[simp] theorem add_nan (a : XReal) : a + nan = nan := by cases a <;> rfl
@[simp] theorem isnan_def (a : XReal) : JOps.isnan a = isnan a := rfl
@[simp] theorem isfinite_def (a : XReal) : JOps.isfinite a = isfinite a := rfl

end

end XReal

end Optax
