import Verif.Model.Wrappers
import Verif.Lemmas.Norm

/-! `unflatten` of a list of leaves, and the flat layout used by `flatten`. -/

set_option linter.unusedSectionVars false
set_option linter.unusedSimpArgs false

namespace Optax

namespace PyTree
variable {β γ δ : Type}

mutual
theorem fill_mapIdxFrom (a : ℕ → β → γ) (f : ℕ → β → δ) : ∀ (t : PyTree β) (off : ℕ) (rest : List δ),
    fill (mapIdxFrom a off t) ((t.leaves.mapIdx (fun i b => f (off + i) b)) ++ rest) =
      .ok (mapIdxFrom f off t, rest)
  | leaf b, off, rest => by simp [mapIdxFrom, leaves, fill]
  | node t cs, off, rest => by
    simp [mapIdxFrom, leaves, fill, fillL_mapIdxFromL a f cs off rest]
theorem fillL_mapIdxFromL (a : ℕ → β → γ) (f : ℕ → β → δ) : ∀ (ts : List (PyTree β)) (off : ℕ) (rest : List δ),
    fillL (mapIdxFromL a off ts) (((leavesL ts).mapIdx (fun i b => f (off + i) b)) ++ rest) =
      .ok (mapIdxFromL f off ts, rest)
  | [], off, rest => by simp [mapIdxFromL, leavesL, fillL]
  | c :: cs, off, rest => by
    have h : (fun (i : ℕ) b => f (off + (i + c.leaves.length)) b) =
        fun i b => f (off + c.numLeaves + i) b := by
      funext i b; rw [leaves_length]; congr 1; omega
    simp only [mapIdxFromL, leavesL, fillL, List.mapIdx_append, List.append_assoc]
    rw [fill_mapIdxFrom a f c off, Res.ok_bind, h]
    simp only [fillL_mapIdxFromL a f cs (off + c.numLeaves) rest, Res.ok_bind, Res.pure_eq]
end

/-- `unflatten` puts the list of leaves back in place. -/
theorem unflatten_mapIdx (a : ℕ → β → γ) (f : ℕ → β → δ) (t : PyTree β) :
    unflatten (t.mapIdx a) (t.leaves.mapIdx f) = .ok (t.mapIdx f) := by
  have h := fill_mapIdxFrom a f t 0 []
  simp only [Nat.zero_add, List.append_nil] at h
  unfold unflatten mapIdx
  rw [h]
  rfl

end PyTree

variable {α : Type} [Zero α]

/-- position of the first entry of leaf `k` in the concatenation of the leaves with shapes `L` -/
def offset (L : List (List ℕ)) (k : ℕ) : ℕ := ((L.take k).map List.prod).sum

/-- total number of entries -/
def totalSize (L : List (List ℕ)) : ℕ := (L.map List.prod).sum

theorem offset_zero (L : List (List ℕ)) : offset L 0 = 0 := by simp [offset]
theorem offset_succ (s : List ℕ) (L : List (List ℕ)) (k : ℕ) :
    offset (s :: L) (k + 1) = s.prod + offset L k := by simp [offset]

/-- the concatenation of the leaves of `mk σ w` -/
def concatData (L : List (List ℕ)) (w : ℕ → ℕ → α) : List α :=
  (L.mapIdx (fun k s => (List.range s.prod).map (w k))).flatten

theorem concatData_cons (s : List ℕ) (L : List (List ℕ)) (w : ℕ → ℕ → α) :
    concatData (s :: L) w = (List.range s.prod).map (w 0) ++ concatData L (fun k => w (k + 1)) := by
  simp [concatData, List.mapIdx_cons]

theorem concatData_length (L : List (List ℕ)) (w : ℕ → ℕ → α) : (concatData L w).length = totalSize L := by
  induction L generalizing w with
  | nil => simp [concatData, totalSize]
  | cons s L ih => rw [concatData_cons]; simp [ih, totalSize]

theorem concatData_get (L : List (List ℕ)) (w : ℕ → ℕ → α) (k i : ℕ) (s : List ℕ) (hk : L[k]? = some s)
    (hi : i < s.prod) : (concatData L w)[offset L k + i]? = some (w k i) := by
  induction L generalizing w k with
  | nil => simp at hk
  | cons s' L ih =>
    rw [concatData_cons]
    cases k with
    | zero =>
      simp only [List.getElem?_cons_zero, Option.some.injEq] at hk
      subst hk
      rw [offset_zero, Nat.zero_add, List.getElem?_append_left (by simpa using hi)]
      simp [hi]
    | succ k =>
      simp only [List.getElem?_cons_succ] at hk
      rw [offset_succ, List.getElem?_append_right (by simp; omega)]
      have := ih (fun k => w (k + 1)) k hk
      simp only [List.length_map, List.length_range]
      rw [← this]
      congr 1; omega

/-- the flat index space -/
def flatSpec (σ : Spec) : Spec := .leaf [totalSize σ.leaves]

/-- view of a flat vector `v` as entries of the leaves of `σ` -/
def pull {β : Type} (σ : Spec) (v : ℕ → ℕ → β) : ℕ → ℕ → β := fun k i => v 0 (offset σ.leaves k + i)

/-- the flat vector of a tree -/
def flatOf (σ : Spec) (w : ℕ → ℕ → α) : ℕ → ℕ → α := fun _ j => ((concatData σ.leaves w)[j]?).getD 0

theorem mk_pull_flatOf (σ : Spec) (w : ℕ → ℕ → α) : mk σ (pull σ (flatOf σ w)) = mk σ w := by
  apply mk_congr
  intro k s hk i hi
  simp [pull, flatOf, concatData_get _ w k i s hk hi]

theorem mk_flatSpec {β : Type} (σ : Spec) (v : ℕ → ℕ → β) :
    mk (flatSpec σ) v = .leaf ⟨[totalSize σ.leaves], (List.range (totalSize σ.leaves)).map (v 0)⟩ := by
  simp [mk, flatSpec, PyTree.mapIdx, PyTree.mapIdxFrom, Tensor.tens]

theorem mk_data (σ : Spec) (w : ℕ → ℕ → α) :
    ((mk σ w).leaves.map Tensor.data).flatten = concatData σ.leaves w := by
  rw [mk_leaves, map_mapIdx_list]; rfl

/-- `_flatten` of a tree with at least one leaf is the concatenation -/
theorem flattenVec_mk (σ : Spec) (w : ℕ → ℕ → α) (hσ : σ.leaves ≠ []) :
    flattenVec (mk σ w) = .ok (mk (flatSpec σ) (flatOf σ w)) := by
  unfold flattenVec
  have hne : (mk σ w).leaves ≠ [] := by
    intro h
    rw [mk_leaves] at h
    apply hσ
    rw [← List.length_eq_zero_iff, ← List.length_mapIdx (f := fun k s => Tensor.tens s (w k)), h]; rfl
  have hd := mk_data σ w
  cases hl : (mk σ w).leaves with
  | nil => exact absurd hl hne
  | cons x xs =>
    rw [hl] at hd
    simp only
    rw [hd, mk_flatSpec, concatData_length]
    congr 3
    apply List.ext_getElem
    · simp [concatData_length]
    · intro j h1 h2
      simp [flatOf, List.getElem?_eq_getElem h1]

theorem flattenVec_nil {β : Type} (σ : Spec) (w : ℕ → ℕ → β) [Zero β] (hσ : σ.leaves = []) :
    flattenVec (mk σ w) = .error .value := by
  unfold flattenVec
  rw [mk_leaves, hσ]; rfl

theorem splitSizes_range {β : Type} (L : List (List ℕ)) (f : ℕ → β) (b : ℕ) :
    splitSizes (L.map List.prod) ((List.range (totalSize L)).map (fun j => f (b + j))) =
      L.mapIdx (fun k s => (List.range s.prod).map (fun i => f (b + offset L k + i))) := by
  induction L generalizing b with
  | nil => rfl
  | cons s L ih =>
    cases L with
    | nil => simp [splitSizes, totalSize, offset]
    | cons s' L =>
      have hT : totalSize (s :: s' :: L) = s.prod + totalSize (s' :: L) := by simp [totalSize]
      have hr : (List.range (totalSize (s :: s' :: L))).map (fun j => f (b + j)) =
          (List.range s.prod).map (fun j => f (b + j)) ++
          (List.range (totalSize (s' :: L))).map (fun j => f (b + s.prod + j)) := by
        rw [hT, List.range_add, List.map_append, List.map_map]
        congr 1
        apply List.map_congr_left
        intro j _
        simp [Nat.add_assoc]
      rw [hr]
      simp only [List.map_cons, splitSizes]
      rw [List.take_left' (by simp), List.drop_left' (by simp)]
      have := ih (b + s.prod)
      rw [List.map_cons] at this
      rw [this]
      conv_rhs => rw [List.mapIdx_cons]
      congr 1
      apply List.ext_getElem
      · simp
      · intro k h1 h2
        simp only [List.getElem_mapIdx, offset_succ]
        apply List.map_congr_left
        intro i _
        congr 1; omega

theorem mapM_zip_reshape {β : Type} (L : List (List ℕ)) (F : ℕ → ℕ → β) (X : ℕ → List ℕ → Tensor β)
    (hX : ∀ k s, (X k s).shape = s) :
    (List.zip (L.mapIdx (fun k s => (List.range s.prod).map (F k))) (L.mapIdx X)).mapM
      (fun pu => (Tensor.mk [pu.1.length] pu.1).reshape pu.2.shape) =
    (Except.ok (L.mapIdx (fun k s => Tensor.tens s (F k))) : Res _) := by
  induction L generalizing F X with
  | nil => rfl
  | cons s L ih =>
    simp only [List.mapIdx_cons, List.zip_cons_cons, List.mapM_cons]
    have : (Tensor.mk [((List.range s.prod).map (F 0)).length] ((List.range s.prod).map (F 0))).reshape
        (X 0 s).shape = .ok (Tensor.tens s (F 0)) := by
      simp [Tensor.reshape, hX, Tensor.tens]
    rw [this, Res.ok_bind, ih (fun k => F (k + 1)) (fun k => X (k + 1)) (fun k s => hX _ s)]
    rfl

/-- `_unflatten` splits a flat vector into the leaves -/
theorem unflattenVec_mk (σ : Spec) (w v : ℕ → ℕ → α) :
    unflattenVec (mk σ w) (mk (flatSpec σ) v) = .ok (mk σ (pull σ v)) := by
  rw [mk_flatSpec]
  simp only [unflattenVec]
  have h1 : (mk σ w).leaves.map (fun x => x.shape.prod) = σ.leaves.map List.prod := by
    rw [mk_leaves, map_mapIdx_list]
    apply List.ext_getElem <;> simp
  rw [h1]
  have h2 := splitSizes_range σ.leaves (v 0) 0
  simp only [Nat.zero_add] at h2
  replace h2 : splitSizes (σ.leaves.map List.prod) ((List.range (totalSize σ.leaves)).map (v 0)) =
      σ.leaves.mapIdx (fun k s => (List.range s.prod).map (pull σ v k)) := h2
  rw [h2, mk_leaves, mapM_zip_reshape σ.leaves (pull σ v) (fun k s => Tensor.tens s (w k)) (fun _ _ => rfl),
    Res.ok_bind]
  exact PyTree.unflatten_mapIdx _ _ σ

end Optax
