import Verif.Lemmas.Tree

/-!
# Model of `optax/_src/base.py`, `optax/_src/combine.py`, and shared array/tree helpers
-/

namespace Optax

variable {α β γ δ : Type}

/-! ## Tree-of-arrays helpers (jax) -/

/-- `jax.tree_map(f, t)` for an entrywise `f`. -/
def tmap (f : α → β) (t : Params α) : Params β := PyTree.map (Tensor.map f) t

/-- `jax.tree_multimap(f, t, u)` for an entrywise binary `f` (numpy broadcasting on leaves). -/
def tzip (f : α → β → γ) (t : Params α) (u : Params β) : Res (Params γ) :=
  PyTree.zipM (Tensor.bop f) t u

/-- `jax.tree_map(jnp.zeros_like, t)`; also `_zeros_tree_like` (`wrappers.py:159-160`). -/
def zerosLike [Zero α] (t : Params α) : Params α := t.map (fun x => Tensor.fullLike x (0 : α))

/-- `jax.tree_map(lambda t: jnp.full_like(t, c), t)`. -/
def fullLike (t : Params α) (c : α) : Params α := t.map (fun x => Tensor.fullLike x c)

@[simp] theorem tmap_mk (f : α → β) (σ : Spec) (v : ℕ → ℕ → α) :
    tmap f (mk σ v) = mk σ (fun k i => f (v k i)) := by simp [tmap, mk]

@[simp] theorem tzip_mk (f : α → β → γ) (σ : Spec) (v : ℕ → ℕ → α) (w : ℕ → ℕ → β) :
    tzip f (mk σ v) (mk σ w) = .ok (mk σ (fun k i => f (v k i) (w k i))) := by
  unfold tzip mk
  exact PyTree.zipM_mapIdx _ _ _ _ σ (fun _ _ _ => by simp)

@[simp] theorem zerosLike_mk [Zero α] (σ : Spec) (v : ℕ → ℕ → α) :
    zerosLike (mk σ v) = mk σ (fun _ _ => 0) := by simp [zerosLike, mk, Tensor.fullLike]

@[simp] theorem fullLike_mk (σ : Spec) (v : ℕ → ℕ → α) (c : α) :
    fullLike (mk σ v) c = mk σ (fun _ _ => c) := by simp [fullLike, mk, Tensor.fullLike]

/-! ## `base.py` -/

/-- `GradientTransformation` (`base.py:43-46`): a pair `(init, update)`.  The type of states is part of
the model (python states are untyped).  `init` and `update` may raise.  `params=None` is `none`. -/
structure GT (α : Type) where
  State : Type
  init : Params α → Res State
  update : Params α → State → Option (Params α) → Res (Params α × State)

/-- One call of `update`: gradients and optional params. -/
abbrev Call (α : Type) := Params α × Option (Params α)

/-- Run `update` on a history of calls; collects all returned updates and the final state. -/
def GT.run (t : GT α) : t.State → List (Call α) → Res (List (Params α) × t.State)
  | s, [] => .ok ([], s)
  | s, c :: h => do
    let r ← t.update c.1 s c.2
    let rs ← t.run r.2 h
    return (r.1 :: rs.1, rs.2)

/-- `init` followed by `run`: everything a user observes, including the final state. -/
def GT.exec (t : GT α) (p : Params α) (h : List (Call α)) : Res (List (Params α) × t.State) := do
  let s ← t.init p
  t.run s h

/-- The returned updates of a history started from `init`. -/
def GT.outs (t : GT α) (p : Params α) (h : List (Call α)) : Res (List (Params α)) := do
  let r ← t.exec p h
  return r.1

/-- `EmptyState` (`base.py:49-50`). -/
structure EmptyState where
  deriving DecidableEq

/-- `identity()` (`base.py:54-67`). -/
@[reducible] def identity : GT α where
  State := EmptyState
  init _ := .ok ⟨⟩
  update g s _ := .ok (g, s)

/-- A stateless transformation from a function of gradients and params.  (Model helper: the
pattern `init_fn` returns an empty state, `update_fn` returns the state unchanged.) -/
@[reducible] def stateless (f : Params α → Option (Params α) → Res (Params α)) : GT α where
  State := EmptyState
  init _ := .ok ⟨⟩
  update g s p := do return (← f g p, s)

/-! ## `combine.py` -/

/-- States a user can hand to `chain(*ts).update`: a python list of any length.  After the last
transformation there may be surplus entries (only their number matters, `chain` never looks at
them); a too short list is `none` at the position where it ends. -/
@[reducible] def ChainState : List (GT α) → Type
  | [] => ℕ
  | t :: ts => Option (t.State × ChainState ts)

/-- `len(state)` -/
def ChainState.length : (ts : List (GT α)) → ChainState ts → ℕ
  | [], n => n
  | _ :: _, none => 0
  | _ :: ts, some (_, r) => 1 + ChainState.length ts r

/-- `chain`'s `init_fn` (`combine.py:39-40`). -/
def chainInit : (ts : List (GT α)) → Params α → Res (ChainState ts)
  | [], _ => .ok (0 : ℕ)
  | t :: ts, p => do
    let s ← t.init p
    let r ← chainInit ts p
    return some (s, r)

/-- The loop of `chain`'s `update_fn` (`combine.py:47-51`): `zip` stops at the shorter list. -/
def chainLoop : (ts : List (GT α)) → Params α → ChainState ts → Option (Params α) →
    Res (Params α × ChainState ts)
  | [], g, _, _ => .ok (g, (0 : ℕ))
  | _ :: _, g, none, _ => .ok (g, none)
  | t :: ts, g, some (s, r), p => do
    let u ← t.update g s p
    let us ← chainLoop ts u.1 r p
    return (us.1, some (u.2, us.2))

/-- `chain(*ts)` (`combine.py:20-53`) for at least one transformation: `update_fn` first compares
the lengths (`combine.py:43-45`). -/
@[reducible] def chain (ts : List (GT α)) : GT α where
  State := ChainState ts
  init := chainInit ts
  update g s p := if ChainState.length ts s ≠ ts.length then valueError else chainLoop ts g s p

/-- The `chain(*args)` call itself: `init_fns, update_fns = zip(*args)` (`combine.py:37`) cannot be
unpacked when there are no arguments (ValueError). -/
def chainCall : List (GT α) → Except Err (GT α)
  | [] => .error .value
  | t :: ts => .ok (chain (t :: ts))

end Optax
