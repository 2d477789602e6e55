import Verif.Model.Transform

/-!
# Automatic differentiation of `safe_norm` and of optimiser updates

* Forward mode: dual numbers over `XReal`, one rule per primitive as in `jax` (`jax/_src/lax/lax.py`, not part of the
  repository).  The model functions are polymorphic in the entry type, so `safeNorm` can be run on dual
  numbers as it stands.
* Reverse mode: the transposed program of `safe_norm`, written out by hand.
-/

namespace Optax

/-- A value with its tangent. -/
structure Dual where
  val : XReal
  tan : XReal

namespace Dual
noncomputable section

instance : Zero Dual := ⟨⟨0, 0⟩⟩
instance : One Dual := ⟨⟨1, 0⟩⟩
instance : Add Dual := ⟨fun a b => ⟨a.val + b.val, a.tan + b.tan⟩⟩
instance : Neg Dual := ⟨fun a => ⟨-a.val, -a.tan⟩⟩
instance : Sub Dual := ⟨fun a b => ⟨a.val - b.val, a.tan - b.tan⟩⟩
instance : Mul Dual := ⟨fun a b => ⟨a.val * b.val, a.tan * b.val + a.val * b.tan⟩⟩
/-- jax: `d(x/y) = dx / y - dy * (x/y) / y` -/
instance : Div Dual := ⟨fun a b => ⟨a.val / b.val, a.tan / b.val - b.tan * (a.val / b.val) / b.val⟩⟩

/-- jax's `_balanced_eq(x, ans, y)`: which argument a maximum or minimum `ans` of `x` and `y` equals, one half at ties -/
def balancedEq (x ans y : XReal) : XReal := (if JOps.eqb x ans then 1 else 0) / (if JOps.eqb y ans then JOps.ofRat 2 else 1)

/-- jax's rule for `pow`: `gx * (y * x ** (y - 1 or 1 if y == 0)) + gy * (log(x or 1 if x == 0) * ans)` -/
def powTan (a b : Dual) : XReal :=
  a.tan * (b.val * JOps.pow a.val (if JOps.eqb b.val 0 then 1 else b.val - 1)) +
    b.tan * (JOps.log (if JOps.eqb a.val 0 then 1 else a.val) * JOps.pow a.val b.val)

/-- Comparisons look at the primal value only.  `sqrt`: jax's rule `g * (0.5 / ans)`; `rsqrt`: `g * (-0.5 * (ans / x))`.  The tangent
of `cos`, used only for schedules of the step count, is left unspecified (NaN). -/
instance : JOps Dual where
  lt a b := JOps.lt a.val b.val
  le a b := JOps.le a.val b.val
  eqb a b := JOps.eqb a.val b.val
  isnan a := JOps.isnan a.val
  isfinite a := JOps.isfinite a.val
  sqrt a := ⟨JOps.sqrt a.val, a.tan * (JOps.ofRat (1 / 2) / JOps.sqrt a.val)⟩
  rsqrt a := ⟨JOps.rsqrt a.val, a.tan * (JOps.ofRat (-1 / 2) * (JOps.rsqrt a.val / a.val))⟩
  exp a := ⟨JOps.exp a.val, a.tan * JOps.exp a.val⟩
  log a := ⟨JOps.log a.val, a.tan / a.val⟩
  cos a := ⟨JOps.cos a.val, .nan⟩
  floor a := ⟨JOps.floor a.val, 0⟩
  abs a := ⟨JOps.abs a.val, a.tan * JOps.sign a.val⟩
  sign a := ⟨JOps.sign a.val, 0⟩
  pow a b := ⟨JOps.pow a.val b.val, powTan a b⟩
  max a b := ⟨JOps.max a.val b.val, a.tan * balancedEq a.val (JOps.max a.val b.val) b.val +
    b.tan * balancedEq b.val (JOps.max a.val b.val) a.val⟩
  min a b := ⟨JOps.min a.val b.val, a.tan * balancedEq a.val (JOps.min a.val b.val) b.val +
    b.tan * balancedEq b.val (JOps.min a.val b.val) a.val⟩
  pi := ⟨JOps.pi, 0⟩
  ofRat q := ⟨JOps.ofRat q, 0⟩
  ofInt z := ⟨JOps.ofInt z, 0⟩

end
end Dual

section
variable {α : Type} [Zero α] [One α] [Add α] [Sub α] [Mul α] [Div α] [Neg α] [JOps α]

/-- Reverse mode of `jnp.linalg.norm(x) = sqrt(sum(x * x))`: the cotangent of `x` for the
cotangent `ct` of the result. -/
def normVjp (x : Tensor α) (ct : α) : Tensor α :=
  let cs := ct * (JOps.ofRat (1 / 2) / x.norm)
  x.map (fun a => cs * a + cs * a)

/-- Reverse mode of `safe_norm` (`numerics.py:21-34`): transpose of the two `jnp.where`s (zero cotangent
to the branch not selected) around the reverse mode of `norm`.  The first `norm` only feeds comparisons. -/
def safeNormVjp (x : Tensor α) (minNorm : α) (ct : α) : Tensor α :=
  let c := JOps.le x.norm minNorm
  let x' := if c then Tensor.fullLike x (1 : α) else x
  let ctNorm := if c then 0 else ct
  let ctX' := normVjp x' ctNorm
  if c then Tensor.fullLike x (0 : α) else ctX'

/-- For contrast: reverse mode of `jnp.where(norm <= m, m, norm)` *without* replacing `x` in
the untaken branch. -/
def naiveNormVjp (x : Tensor α) (minNorm : α) (ct : α) : Tensor α :=
  normVjp x (if JOps.le x.norm minNorm then 0 else ct)

end
end Optax
