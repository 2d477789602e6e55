import Verif.Lemmas.Axes
import Verif.Lemmas.Norm
import Verif.Props.Structure

/-!
# C34: `centralize`

An array of shape `d :: ds` is stored row-major: entry `i` of slice `r` along axis 0 is at flat
position `r * ds.prod + i`.
-/

set_option linter.unusedSectionVars false
set_option linter.unusedSimpArgs false

namespace Optax
open Finset

/-! ## lemmas -/

theorem Tensor.fiber_sum {α : Type} [AddCommMonoid α] (s s' : List ℕ) (i' : ℕ) (v : ℕ → α) :
    ((Tensor.fiber s s' i').map v).sum =
      ∑ j ∈ (range s.prod).filter (fun j => Tensor.bproj s s' j = i'), v j := by
  unfold Tensor.fiber
  rw [Finset.sum_filter, ← sum_map_range]
  generalize List.range s.prod = l
  induction l with
  | nil => rfl
  | cons x l ih =>
    by_cases h : Tensor.bproj s s' x = i'
    · simp [List.filter_cons, h, ih]
    · simp [List.filter_cons, h, ih]

/-- a sum over all entries is the sum over slices of the sums over entries of a slice -/
theorem sum_rows {α : Type} [AddCommMonoid α] (d P : ℕ) (F : ℕ → α) :
    ∑ j ∈ range (d * P), F j = ∑ r ∈ range d, ∑ i ∈ range P, F (r * P + i) := by
  induction d with
  | zero => simp
  | succ d ih => rw [Nat.succ_mul, Finset.sum_range_add, ih, Finset.sum_range_succ]

theorem row_lt {d P r i : ℕ} (hr : r < d) (hi : i < P) : r * P + i < d * P := by
  calc r * P + i < r * P + P := by omega
    _ = (r + 1) * P := by ring
    _ ≤ d * P := Nat.mul_le_mul_right _ hr

theorem keepShape_tail (d : ℕ) (ds : List ℕ) :
    Tensor.keepShape (fun a => decide (a ≥ 1)) (d :: ds) = d :: List.replicate ds.length 1 := by
  rw [Tensor.keepShape_cons, Tensor.keepShape_all _ (by intro a; simp)]
  simp

theorem redSize_tail (d : ℕ) (ds : List ℕ) :
    Tensor.redSize (fun a => decide (a ≥ 1)) (d :: ds) = ds.prod := by
  have h : ∀ l : List ℕ, List.mapIdx (fun _ d => d) l = l := by
    intro l; apply List.ext_getElem <;> simp
  simp [Tensor.redSize, List.mapIdx_cons, h]

/-- the entries of a slice -/
theorem fiber_row {α : Type} [AddCommMonoid α] (d : ℕ) (ds : List ℕ) (r : ℕ) (hr : r < d) (v : ℕ → α) :
    ((Tensor.fiber (d :: ds) (d :: List.replicate ds.length 1) r).map v).sum =
      ∑ i ∈ range ds.prod, v (r * ds.prod + i) := by
  rw [Tensor.fiber_sum]
  symm
  have hE : ∀ j, j < d * ds.prod →
      Tensor.bproj (d :: ds) (d :: List.replicate ds.length 1) j = j / ds.prod := by
    intro j hj
    rw [Tensor.bproj_eq _ _ (by simp), Tensor.bprojE_rows _ _ _ hj]
  apply Finset.sum_bij (fun i _ => r * ds.prod + i)
  · intro i hi
    rw [mem_range] at hi
    rw [mem_filter, mem_range, List.prod_cons]
    refine ⟨row_lt hr hi, ?_⟩
    rw [hE _ (row_lt hr hi), Nat.mul_comm, Nat.mul_add_div (by omega), Nat.div_eq_of_lt hi, Nat.add_zero]
  · intro a _ b _ h; omega
  · intro j hj
    rw [mem_filter, mem_range, List.prod_cons] at hj
    obtain ⟨h1, h2⟩ := hj
    rw [hE _ h1] at h2
    have hP : 0 < ds.prod := by
      rcases Nat.eq_zero_or_pos ds.prod with h | h
      · rw [h] at h1; omega
      · exact h
    refine ⟨j % ds.prod, by rw [mem_range]; exact Nat.mod_lt _ hP, ?_⟩
    show r * ds.prod + j % ds.prod = j
    rw [← h2]
    exact Nat.div_add_mod' j ds.prod
  · intro _ _; rfl

/-! ## structure preservation -/

section
variable {α : Type} [Add α] [Sub α] [Neg α] [Mul α] [Div α] [Zero α] [One α] [JOps α]

theorem subtractMean_tens (s : List ℕ) (v : ℕ → α) : ∃ w, subtractMean (Tensor.tens s v) = .ok (Tensor.tens s w) := by
  unfold subtractMean
  split
  · refine ⟨fun j => v j - (((Tensor.fiber s (Tensor.keepShape (fun a => decide (a ≥ 1)) s)
        (Tensor.bprojE s (Tensor.keepShape (fun a => decide (a ≥ 1)) s) j)).map v).sum /
          JOps.ofInt (Tensor.redSize (fun a => decide (a ≥ 1)) s : ℤ)), ?_⟩
    unfold Tensor.meanKeep
    rw [Tensor.sumKeep_tens, Tensor.map_tens, Tensor.bop_sub_right _ (Tensor.keepShape_sub _ _)]
    rfl
  · exact ⟨v, rfl⟩

theorem preserves_centralize : Preserves (α := α) AnyParams centralize :=
  preserves_stateless (by
    intro σ g _ _
    choose w hw using fun (s : List ℕ) (v : ℕ → α) => subtractMean_tens s v
    refine ⟨fun k => w ((σ.leaves[k]?).getD []) (g k), ?_⟩
    unfold mk
    apply PyTree.mapM_mapIdx
    intro k s hk
    rw [hw]; simp only [hk, Option.getD_some])

/-- **C05** `centralize` -/
theorem C05_centralize : ShapeSafe (α := α) centralize ∧ ShapeSafeNoParams (α := α) centralize :=
  ⟨preserves_centralize.any.shapeSafe, preserves_centralize.shapeSafeNoParams⟩

end

/-! ## Specification -/

/-- mean of slice `r` along axis 0 of an array of shape `d :: ds` -/
noncomputable def sliceMean (ds : List ℕ) (v : ℕ → ℝ) (r : ℕ) : ℝ :=
  (∑ i ∈ range ds.prod, v (r * ds.prod + i)) / ds.prod

/-- the centralized array: rank 0/1 unchanged, else every slice along axis 0 minus its mean -/
noncomputable def centralized : List ℕ → (ℕ → ℝ) → ℕ → ℝ
  | [], v, j => v j
  | [_], v, j => v j
  | _ :: d' :: ds, v, j => v j - sliceMean (d' :: ds) v (j / (d' :: ds).prod)

theorem subtractMean_real (s : List ℕ) (v : ℕ → ℝ) :
    subtractMean (Tensor.tens s v) = .ok (Tensor.tens s (centralized s v)) := by
  match s with
  | [] => rfl
  | [d] => rfl
  | d :: d' :: ds =>
    unfold subtractMean
    rw [if_pos (by simp)]
    unfold Tensor.meanKeep
    rw [Tensor.sumKeep_tens, Tensor.map_tens, Tensor.tens_shape, keepShape_tail, redSize_tail,
      Tensor.bop_sub_right _ (by rw [← keepShape_tail]; exact Tensor.keepShape_sub _ _)]
    congr 1
    apply Tensor.tens_congr
    intro j hj
    rw [List.prod_cons] at hj
    rw [Tensor.bprojE_rows _ _ _ hj, fiber_row _ _ _ (Nat.div_lt_of_lt_mul (by rwa [Nat.mul_comm]))]
    simp only [centralized, sliceMean, jofInt_real, Int.cast_natCast]

theorem centralize_update_mk (σ : Spec) (g : ℕ → ℕ → ℝ) (pp : Option (Params ℝ)) :
    (centralize (α := ℝ)).update (mk σ g) ⟨⟩ pp =
      .ok (mk σ (fun k => centralized ((σ.leaves[k]?).getD []) (g k)), ⟨⟩) := by
  have h : PyTree.mapM subtractMean (mk σ g) =
      .ok (mk σ (fun k => centralized ((σ.leaves[k]?).getD []) (g k))) := by
    unfold mk
    apply PyTree.mapM_mapIdx
    intro k s hk
    rw [subtractMean_real]; simp only [hk, Option.getD_some]
  show (PyTree.mapM subtractMean (mk σ g) >>= fun _ => _) = _
  rw [h]; rfl

theorem centralized_row (d : ℕ) (ds : List ℕ) (v : ℕ → ℝ) (hds : ds ≠ []) (r i : ℕ) (hi : i < ds.prod) :
    centralized (d :: ds) v (r * ds.prod + i) = v (r * ds.prod + i) - sliceMean ds v r := by
  cases ds with
  | nil => exact absurd rfl hds
  | cons d' ds =>
    have h : (r * (d' :: ds).prod + i) / (d' :: ds).prod = r := by
      rw [Nat.mul_comm, Nat.mul_add_div (by omega), Nat.div_eq_of_lt hi, Nat.add_zero]
    simp only [centralized, h]

theorem centralized_sum (d : ℕ) (ds : List ℕ) (v : ℕ → ℝ) (hds : ds ≠ []) (r : ℕ) :
    ∑ i ∈ range ds.prod, centralized (d :: ds) v (r * ds.prod + i) = 0 := by
  rw [Finset.sum_congr rfl (fun i hi => centralized_row d ds v hds r i (mem_range.mp hi)),
    Finset.sum_sub_distrib, Finset.sum_const, card_range, nsmul_eq_mul]
  unfold sliceMean
  by_cases hP : ds.prod = 0
  · rw [hP]; simp
  · have : (ds.prod : ℝ) ≠ 0 := by exact_mod_cast hP
    rw [mul_div_cancel₀ _ this, sub_self]

/-- **C34.** On every tree, `centralize` returns a tree of the same structure whose leaves are:
unchanged for rank 0 and 1; for rank ≥ 2 (shape `d :: ds`, `ds ≠ []`), each slice `r` along axis 0 is
the gradient's slice minus one constant, namely the slice's mean, and sums (so averages) to zero. -/
theorem C34_centralize (σ : Spec) (g : ℕ → ℕ → ℝ) (pp : Option (Params ℝ)) :
    ∃ u : ℕ → ℕ → ℝ, (centralize (α := ℝ)).update (mk σ g) ⟨⟩ pp = .ok (mk σ u, ⟨⟩) ∧
      ∀ k s, σ.leaves[k]? = some s →
        (s.length ≤ 1 → ∀ j, u k j = g k j) ∧
        (∀ d ds, s = d :: ds → ds ≠ [] → ∀ r,
          (∑ i ∈ range ds.prod, u k (r * ds.prod + i) = 0) ∧
          ∀ i < ds.prod, u k (r * ds.prod + i) = g k (r * ds.prod + i) -
            (∑ i ∈ range ds.prod, g k (r * ds.prod + i)) / ds.prod) := by
  refine ⟨_, centralize_update_mk σ g pp, ?_⟩
  intro k s hk
  simp only [hk, Option.getD_some]
  constructor
  · intro hs j
    match s, hs with
    | [], _ => rfl
    | [_], _ => rfl
  · rintro d ds rfl hds r
    exact ⟨centralized_sum d ds _ hds r, fun i hi => centralized_row d ds _ hds r i hi⟩

theorem centralized_idem (s : List ℕ) (v : ℕ → ℝ) (j : ℕ) (hj : j < s.prod) :
    centralized s (centralized s v) j = centralized s v j := by
  match s with
  | [] => rfl
  | [d] => rfl
  | d :: d' :: ds =>
    have h : sliceMean (d' :: ds) (centralized (d :: d' :: ds) v) (j / (d' :: ds).prod) = 0 := by
      unfold sliceMean
      rw [centralized_sum _ _ _ (by simp)]; simp
    show centralized (d :: d' :: ds) v j - _ = _
    rw [h, sub_zero]

/-- **C34.** Idempotent: `chain(centralize(), centralize())` and `centralize()` return the same
updates from any gradients. -/
theorem C34_idempotent (σ : Spec) (g : ℕ → ℕ → ℝ) (pp pp' : Option (Params ℝ)) (u : Params ℝ) (s)
    (h : (centralize (α := ℝ)).update (mk σ g) ⟨⟩ pp = .ok (u, s)) :
    (centralize (α := ℝ)).update u s pp' = .ok (u, s) := by
  rw [centralize_update_mk] at h
  cases h
  rw [centralize_update_mk]
  congr 2
  apply mk_congr
  intro k s hk i hi
  simp only [hk, Option.getD_some]
  exact centralized_idem s _ i hi

theorem centralized_sq_le (s : List ℕ) (v : ℕ → ℝ) :
    ∑ j ∈ range s.prod, centralized s v j ^ 2 ≤ ∑ j ∈ range s.prod, v j ^ 2 := by
  match s with
  | [] => exact le_rfl
  | [d] => exact le_rfl
  | d :: d' :: ds =>
    rw [List.prod_cons, sum_rows, sum_rows]
    apply Finset.sum_le_sum
    intro r hr
    have h1 := centralized_sum d (d' :: ds) v (by simp) r
    set P := (d' :: ds).prod
    have h2 : ∀ i ∈ range P, v (r * P + i) ^ 2 =
        centralized (d :: d' :: ds) v (r * P + i) ^ 2 +
        (2 * sliceMean (d' :: ds) v r * centralized (d :: d' :: ds) v (r * P + i) +
          sliceMean (d' :: ds) v r ^ 2) := by
      intro i hi
      have h3 := centralized_row d (d' :: ds) v (by simp) r i (mem_range.mp hi)
      have : v (r * P + i) = centralized (d :: d' :: ds) v (r * P + i) + sliceMean (d' :: ds) v r := by
        rw [h3]; ring
      rw [this]; ring
    rw [Finset.sum_congr rfl h2, Finset.sum_add_distrib, Finset.sum_add_distrib, ← Finset.mul_sum, h1,
      mul_zero, zero_add]
    exact le_add_of_nonneg_right (Finset.sum_nonneg (fun _ _ => sq_nonneg _))

/-- **C34.** It never increases the (global) norm. -/
theorem C34_norm (σ : Spec) (g : ℕ → ℕ → ℝ) (pp : Option (Params ℝ)) (u : Params ℝ) (s)
    (h : (centralize (α := ℝ)).update (mk σ g) ⟨⟩ pp = .ok (u, s)) :
    globalNorm u ≤ globalNorm (mk σ g) := by
  rw [centralize_update_mk] at h
  cases h
  rw [globalNorm_mk, globalNorm_mk]
  unfold entryNorm l2 idx
  apply Real.sqrt_le_sqrt
  rw [Finset.sum_sigma, Finset.sum_sigma]
  apply Finset.sum_le_sum
  intro k hk
  rw [Finset.mem_range, ← PyTree.leaves_length] at hk
  simp only [Spec.size, List.getElem?_eq_getElem hk, Option.getD_some, Option.map_some]
  exact centralized_sq_le _ _

/-- a 2×2 example: `[[1, 3], [5, 9]]` becomes `[[-1, 1], [-2, 2]]` -/
example : centralized [2, 2] (fun j => [1, 3, 5, 9].getD j 0) 3 = 2 := by
  norm_num [centralized, sliceMean, Finset.sum_range_succ]

end Optax
