import Verif.Num

/-!
# Errors, pytrees, tensors

Model of the parts of `jax.tree_util` and of numpy array semantics that optax relies on.
-/

namespace Optax

/-- Python exceptions raised by the modelled code, by class. -/
inductive Err where
  | value      -- ValueError
  | type       -- TypeError
  | index      -- IndexError
  | key        -- KeyError
  | assertion  -- AssertionError
  | zeroDiv    -- ZeroDivisionError
  | attribute  -- AttributeError
  | stopIteration -- StopIteration
  deriving DecidableEq, Repr

/-- A python computation that may raise. -/
abbrev Res (β : Type) := Except Err β

/-- `raise ValueError(...)`. -/
def valueError {β : Type} : Res β := .error .value

/-- Pytree container kinds (jax's registered containers).  Dicts carry their sorted keys; `none_`
is `None`, which jax treats as a container without children. -/
inductive Tag where
  | tuple
  | list
  | dict (keys : List String)
  | named (name : String)
  | none_
  deriving DecidableEq, Repr

/-- A pytree with leaves in `β`. -/
inductive PyTree (β : Type) where
  | leaf (b : β)
  | node (tag : Tag) (cs : List (PyTree β))

namespace PyTree

variable {β γ δ ε : Type}

mutual
/-- `jax.tree_map(f, t)`. -/
def map (f : β → γ) : PyTree β → PyTree γ
  | leaf b => leaf (f b)
  | node t cs => node t (mapL f cs)
/-- `map` on a list of children. -/
def mapL (f : β → γ) : List (PyTree β) → List (PyTree γ)
  | [] => []
  | c :: cs => map f c :: mapL f cs
end

mutual
/-- `jax.tree_map(f, t)` for an `f` that may raise. -/
def mapM (f : β → Res γ) : PyTree β → Res (PyTree γ)
  | leaf b => do return leaf (← f b)
  | node t cs => do return node t (← mapML f cs)
/-- `mapM` on a list of children. -/
def mapML (f : β → Res γ) : List (PyTree β) → Res (List (PyTree γ))
  | [] => .ok []
  | c :: cs => do
    let c' ← mapM f c
    let cs' ← mapML f cs
    return c' :: cs'
end

mutual
/-- `jax.tree_leaves(t)`: leaves from left to right. -/
def leaves : PyTree β → List β
  | leaf b => [b]
  | node _ cs => leavesL cs
/-- `leaves` on a list of children. -/
def leavesL : List (PyTree β) → List β
  | [] => []
  | c :: cs => leaves c ++ leavesL cs
end

mutual
/-- number of leaves -/
def numLeaves : PyTree β → ℕ
  | leaf _ => 1
  | node _ cs => numLeavesL cs
/-- number of leaves of a list of children -/
def numLeavesL : List (PyTree β) → ℕ
  | [] => 0
  | c :: cs => numLeaves c + numLeavesL cs
end

mutual
/-- `jax.tree_multimap(f, t, u)`: the structures must agree (jax raises ValueError otherwise).
jax also accepts a `u` with a container where `t` has a leaf, and hands the container to `f`; all
uses in optax modelled with this function then do array arithmetic on a container, modelled as
TypeError. -/
def zipM (f : β → γ → Res δ) : PyTree β → PyTree γ → Res (PyTree δ)
  | leaf b, leaf c => do return leaf (← f b c)
  | leaf _, node _ _ => .error .type
  | node _ _, leaf _ => .error .value
  | node t cs, node t' cs' =>
    if t = t' then do return node t (← zipML f cs cs') else .error .value
/-- `zipM` on lists of children. -/
def zipML (f : β → γ → Res δ) : List (PyTree β) → List (PyTree γ) → Res (List (PyTree δ))
  | [], [] => .ok []
  | [], _ :: _ => .error .value
  | _ :: _, [] => .error .value
  | c :: cs, d :: ds => do
    let e ← zipM f c d
    let es ← zipML f cs ds
    return e :: es
end

/-- `jax.tree_multimap(f, t, u, w)` with three trees. -/
def zipM3 (f : β → γ → δ → Res ε) (t : PyTree β) (u : PyTree γ) (w : PyTree δ) :
    Res (PyTree ε) := do
  let tu ← zipM (fun b c => .ok (b, c)) t u
  zipM (fun bc d => f bc.1 bc.2 d) tu w

mutual
/-- `treedef.flatten_up_to(u)` for the structure of `t`: the list of subtrees of `u` at the leaf
positions of `t`; raises ValueError if the structure of `t` is not a prefix of that of `u`. -/
def flattenUpTo : PyTree β → PyTree γ → Res (List (PyTree γ))
  | leaf _, u => .ok [u]
  | node _ _, leaf _ => .error .value
  | node t cs, node t' cs' =>
    if t = t' then flattenUpToL cs cs' else .error .value
/-- `flattenUpTo` on lists of children. -/
def flattenUpToL : List (PyTree β) → List (PyTree γ) → Res (List (PyTree γ))
  | [], [] => .ok []
  | [], _ :: _ => .error .value
  | _ :: _, [] => .error .value
  | c :: cs, d :: ds => do
    let e ← flattenUpTo c d
    let es ← flattenUpToL cs ds
    return e ++ es
end

mutual
/-- `map` with the (left-to-right) number of the leaf, starting at `off`. -/
def mapIdxFrom (f : ℕ → β → γ) (off : ℕ) : PyTree β → PyTree γ
  | leaf b => leaf (f off b)
  | node t cs => node t (mapIdxFromL f off cs)
/-- `mapIdxFrom` on a list of children. -/
def mapIdxFromL (f : ℕ → β → γ) (off : ℕ) : List (PyTree β) → List (PyTree γ)
  | [] => []
  | c :: cs => mapIdxFrom f off c :: mapIdxFromL f (off + numLeaves c) cs
end

/-- `map` with the number of the leaf in left-to-right order. -/
def mapIdx (f : ℕ → β → γ) (t : PyTree β) : PyTree γ := mapIdxFrom f 0 t

mutual
/-- Take leaves from a list, in order, for the structure of `t`. -/
def fill : PyTree β → List γ → Res (PyTree γ × List γ)
  | leaf _, [] => .error .value
  | leaf _, x :: xs => .ok (leaf x, xs)
  | node t cs, xs => do
    let r ← fillL cs xs
    return (node t r.1, r.2)
/-- `fill` on a list of children. -/
def fillL : List (PyTree β) → List γ → Res (List (PyTree γ) × List γ)
  | [], xs => .ok ([], xs)
  | c :: cs, xs => do
    let r ← fill c xs
    let rs ← fillL cs r.2
    return (r.1 :: rs.1, rs.2)
end

/-- `treedef.unflatten(xs)` / `jax.tree_unflatten`: ValueError on too few or too many leaves. -/
def unflatten (t : PyTree β) (xs : List γ) : Res (PyTree γ) := do
  let r ← fill t xs
  match r.2 with
  | [] => return r.1
  | _ :: _ => .error .value

mutual
/-- Replace every leaf by a tree (used when `unflatten`ing subtrees). -/
def join : PyTree (PyTree β) → PyTree β
  | leaf t => t
  | node t cs => node t (joinL cs)
/-- `join` on a list of children. -/
def joinL : List (PyTree (PyTree β)) → List (PyTree β)
  | [] => []
  | c :: cs => join c :: joinL cs
end

mutual
/-- boolean equality of trees -/
def beq [DecidableEq β] : PyTree β → PyTree β → Bool
  | leaf a, leaf b => decide (a = b)
  | node t cs, node t' cs' => decide (t = t') && beqL cs cs'
  | leaf _, node _ _ => false
  | node _ _, leaf _ => false
/-- boolean equality of lists of trees -/
def beqL [DecidableEq β] : List (PyTree β) → List (PyTree β) → Bool
  | [], [] => true
  | c :: cs, d :: ds => beq c d && beqL cs ds
  | [], _ :: _ => false
  | _ :: _, [] => false
end

mutual
theorem beq_iff [DecidableEq β] : ∀ (t u : PyTree β), beq t u = true ↔ t = u
  | leaf a, leaf b => by simp [beq]
  | node t cs, node t' cs' => by simp [beq, beqL_iff cs cs']
  | leaf _, node _ _ => by simp [beq]
  | node _ _, leaf _ => by simp [beq]
theorem beqL_iff [DecidableEq β] : ∀ (t u : List (PyTree β)), beqL t u = true ↔ t = u
  | [], [] => by simp [beqL]
  | c :: cs, d :: ds => by simp [beqL, beq_iff c d, beqL_iff cs ds]
  | [], _ :: _ => by simp [beqL]
  | _ :: _, [] => by simp [beqL]
end

instance [DecidableEq β] : DecidableEq (PyTree β) := fun t u =>
  decidable_of_iff _ (beq_iff t u)

end PyTree

/-! ## Tensors -/

/-- An array: shape and row-major entries.  dtypes are not modelled. -/
structure Tensor (α : Type) where
  shape : List ℕ
  data : List α
  deriving DecidableEq

/-- A tree of arrays: parameters, gradients, updates (`base.py:29-30`, `Params = Any`, "arbitrary nests of
`jnp.ndarrays`"). -/
abbrev Params (α : Type) := PyTree (Tensor α)

/-- Structure and shapes of a tree of arrays. -/
abbrev Spec := PyTree (List ℕ)

namespace Tensor

variable {α β γ : Type}

/-- number of entries equals the product of the dimensions -/
def WF (t : Tensor α) : Prop := t.data.length = t.shape.prod

/-- the array of shape `s` whose `i`-th entry (row-major) is `v i` -/
def tens (s : List ℕ) (v : ℕ → α) : Tensor α := ⟨s, (List.range s.prod).map v⟩

/-- entrywise map -/
def map (f : α → β) (t : Tensor α) : Tensor β := ⟨t.shape, t.data.map f⟩

/-- `jnp.full_like(t, c)` -/
def fullLike (t : Tensor β) (c : α) : Tensor α := tens t.shape (fun _ => c)

/-- a rank-0 array -/
def scalar (a : α) : Tensor α := ⟨[], [a]⟩

/-- row-major flat index to multi-index -/
def unravel : List ℕ → ℕ → List ℕ
  | [], _ => []
  | _ :: ds, i => (i / ds.prod) :: unravel ds (i % ds.prod)

/-- multi-index to row-major flat index -/
def ravel : List ℕ → List ℕ → ℕ
  | _ :: ds, k :: ks => k * ds.prod + ravel ds ks
  | _, _ => 0

/-- numpy broadcasting of reversed shapes -/
def bshapeRev : List ℕ → List ℕ → Option (List ℕ)
  | [], ys => some ys
  | xs, [] => some xs
  | x :: xs, y :: ys =>
    if x = y then (bshapeRev xs ys).map (x :: ·)
    else if x = 1 then (bshapeRev xs ys).map (y :: ·)
    else if y = 1 then (bshapeRev xs ys).map (x :: ·)
    else none

/-- numpy broadcasting: the shape of the result of a binary operation, if compatible -/
def bshape (s s' : List ℕ) : Option (List ℕ) :=
  (bshapeRev s.reverse s'.reverse).map List.reverse

/-- the flat index in an operand of shape `s` used for the flat index `i` of the broadcast result
of shape `out`: drop the leading dimensions `s` does not have, and use 0 in dimensions of size 1 -/
def bproj (out s : List ℕ) (i : ℕ) : ℕ :=
  ravel s (List.zipWith (fun d k => if d = 1 then 0 else k) s
    ((unravel out i).drop (out.length - s.length)))

/-- a binary array operation with numpy broadcasting (ValueError/TypeError on incompatible
shapes, here TypeError as raised by jax) -/
def bop (f : α → β → γ) (a : Tensor α) (b : Tensor β) : Res (Tensor γ) :=
  if a.shape = b.shape then .ok ⟨a.shape, List.zipWith f a.data b.data⟩
  else match bshape a.shape b.shape with
    | none => .error .type
    | some out => do
      let xs ← (List.range out.prod).mapM (fun i =>
        match a.data[bproj out a.shape i]?, b.data[bproj out b.shape i]? with
        | some x, some y => .ok (f x y)
        | _, _ => .error .index)
      return ⟨out, xs⟩

end Tensor

/-! ## Representation of well-formed trees of arrays

Every well-formed tree with structure and shapes `σ` is `mk σ v` for the function `v` giving the
`i`-th entry (row-major) of the `k`-th leaf (left to right): see `exists_mk`. -/

/-- the tree of structure and shapes `σ` whose `k`-th leaf has `i`-th entry `v k i` -/
def mk {α : Type} (σ : Spec) (v : ℕ → ℕ → α) : Params α :=
  σ.mapIdx (fun k s => Tensor.tens s (v k))

/-- structure and shapes of a tree of arrays -/
def spec {α : Type} (t : Params α) : Spec := t.map Tensor.shape

/-- all leaves are well-formed arrays -/
def WF {α : Type} (t : Params α) : Prop := ∀ x ∈ t.leaves, x.WF

/-- the `i`-th entry of the `k`-th leaf (0 out of range) -/
def coord {α : Type} [Zero α] (t : Params α) (k i : ℕ) : α :=
  ((t.leaves[k]?).bind (fun x => x.data[i]?)).getD 0

/-- shapes of the leaves, left to right -/
def Spec.shapes (σ : Spec) : List (List ℕ) := σ.leaves

/-- number of entries of the `k`-th leaf -/
def Spec.size (σ : Spec) (k : ℕ) : ℕ := ((σ.leaves[k]?).map List.prod).getD 0

end Optax
