import Verif.Model.Privacy
import Verif.Lemmas.Norm
import Verif.Lemmas.Axes
import Verif.Props.Noise

/-!
# C49, C50: differentially private aggregation
-/

set_option linter.unusedSectionVars false
set_option linter.unusedSimpArgs false

namespace Optax

/-! ## Specification -/

/-- `B` per-example gradients `x 0, …, x (B-1)`, each of structure and shapes `σ`, stacked along a new leading axis (what
`jax.vmap(jax.grad(...))` produces). -/
def stacked {α : Type} (σ : Spec) (B : ℕ) (x : ℕ → ℕ → ℕ → α) : Params α :=
  σ.mapIdx (fun k s => Tensor.tens (B :: s) (fun j => x (j / s.prod) k (j % s.prod)))

/-- one example scaled to norm at most `C` -/
noncomputable def clippedTo (σ : Spec) (C : ℝ) (x : ℕ → ℕ → ℝ) : ℕ → ℕ → ℝ :=
  fun k i => x k i / max (entryNorm σ x / C) 1

section
variable {α : Type} [Zero α] [One α] [Add α] [Sub α] [Mul α] [Div α] [Neg α] [JOps α]

theorem leavesL_map_leaf {β : Type} (l : List β) : PyTree.leavesL (l.map PyTree.leaf) = l := by
  induction l with
  | nil => rfl
  | cons a l ih => simp [PyTree.leavesL, PyTree.leaves, ih]

theorem stacked_leaves (σ : Spec) (B : ℕ) (x : ℕ → ℕ → ℕ → α) :
    (stacked σ B x).leaves = σ.leaves.mapIdx (fun k s => Tensor.tens (B :: s) (fun j => x (j / s.prod) k (j % s.prod))) :=
  PyTree.leaves_mapIdx _ _

theorem stacked_entry (s : List ℕ) (B b i : ℕ) (f : ℕ → ℕ → α) (hb : b < B) (hi : i < s.prod) :
    (Tensor.tens (B :: s) (fun j => f (j / s.prod) (j % s.prod))).data.getD (b * s.prod + i) 0 = f b i := by
  have hlt : b * s.prod + i < (B :: s).prod := by
    rw [List.prod_cons]
    calc b * s.prod + i < b * s.prod + s.prod := by omega
      _ = (b + 1) * s.prod := by ring
      _ ≤ B * s.prod := Nat.mul_le_mul_right _ hb
  have hd : (b * s.prod + i) / s.prod = b := by
    rw [Nat.add_comm, Nat.add_mul_div_right _ _ (by omega), Nat.div_eq_of_lt hi]; simp
  have hm : (b * s.prod + i) % s.prod = i := by
    rw [Nat.add_comm, Nat.add_mul_mod_self_right, Nat.mod_eq_of_lt hi]
  unfold Tensor.tens
  simp only [List.getD_eq_getElem?_getD, List.getElem?_map, List.getElem?_range hlt, Option.map_some, Option.getD_some]
  rw [hd, hm]

theorem stacked_row (s : List ℕ) (B b : ℕ) (f : ℕ → ℕ → α) (hb : b < B) :
    (Tensor.tens (B :: s) (fun j => f (j / s.prod) (j % s.prod))).row b = Tensor.tens s (f b) := by
  unfold Tensor.row
  apply Tensor.tens_congr
  intro i hi
  exact stacked_entry s B b i f hb hi

theorem globalNorm_leaves (t u : Params α) (h : t.leaves = u.leaves) : globalNorm t = globalNorm u := by
  unfold globalNorm
  rw [h]

theorem dpDivisor_stacked (C : α) (σ : Spec) (B b : ℕ) (x : ℕ → ℕ → ℕ → α) (hb : b < B) :
    dpDivisor C (stacked σ B x).leaves b = JOps.max (globalNorm (mk σ (x b)) / C) 1 := by
  unfold dpDivisor
  rw [globalNorm_leaves _ (mk σ (x b))]
  show PyTree.leavesL _ = _
  have : (stacked σ B x).leaves.map (fun t => PyTree.leaf (t.row b)) =
      ((stacked σ B x).leaves.map (fun t => t.row b)).map PyTree.leaf := by rw [List.map_map]; rfl
  rw [this, leavesL_map_leaf, stacked_leaves, map_mapIdx_list, mk_leaves]
  congr 1
  funext k s
  exact stacked_row s B b (fun b i => x b k i) hb

theorem leadingDim_stacked (σ : Spec) (B : ℕ) (x : ℕ → ℕ → ℕ → α) (hσ : σ.leaves ≠ []) :
    leadingDim (stacked σ B x).leaves = .ok B := by
  rw [stacked_leaves]
  cases h : σ.leaves with
  | nil => exact absurd h hσ
  | cons s l => rw [List.mapIdx_cons]; rfl

theorem dpCheck_stacked (σ : Spec) (B : ℕ) (x : ℕ → ℕ → ℕ → α) : dpCheck (stacked σ B x).leaves B = .ok () := by
  unfold dpCheck
  rw [if_neg]
  rw [Bool.not_eq_true, List.any_eq_false]
  intro t ht
  rw [stacked_leaves, List.mem_mapIdx] at ht
  obtain ⟨k, hk, rfl⟩ := ht
  simp [Tensor.tens]

/-- One update on stacked per-example gradients. -/
theorem dp_update_stacked (normal : Normal α) (C m : α) (seed : ℤ) (σ : Spec) (hσ : σ.leaves ≠ []) (B : ℕ)
    (x : ℕ → ℕ → ℕ → α) (key : Key) (pp : Option (Params α)) :
    (dpAggregate normal C m seed).update (stacked σ B x) ⟨key⟩ pp =
      .ok (mk σ (fun k i => (((List.range B).map (fun b => x b k i / JOps.max (globalNorm (mk σ (x b)) / C) 1)).sum +
          C * m * normal (Key.child key (σ.numLeaves + 1) (k + 1)) ((σ.leaves[k]?).getD []) i) / JOps.ofInt B),
        ⟨Key.child key (σ.numLeaves + 1) 0⟩) := by
  show (leadingDim (stacked σ B x).leaves >>= fun bsize => dpCheck (stacked σ B x).leaves bsize >>= fun _ =>
    PyTree.unflatten (stacked σ B x) (List.zipWith (dpNoised normal (C * m) bsize)
      ((stacked σ B x).leaves.map (dpClipped (dpDivisor C (stacked σ B x).leaves) bsize))
      (key.split ((stacked σ B x).leaves.length + 1)).tail) >>= fun u =>
    headKey (key.split ((stacked σ B x).leaves.length + 1)) >>= fun k0 => Except.ok (u, (⟨k0⟩ : DPState))) = _
  have hlen : (stacked σ B x).leaves.length = σ.numLeaves := by
    rw [stacked_leaves, List.length_mapIdx, PyTree.leaves_length]
  rw [leadingDim_stacked σ B x hσ, Res.ok_bind, dpCheck_stacked, Res.ok_bind, hlen, split_succ, List.tail_cons]
  have hl : List.zipWith (dpNoised normal (C * m) B)
      ((stacked σ B x).leaves.map (dpClipped (dpDivisor C (stacked σ B x).leaves) B))
      ((List.range σ.numLeaves).map (fun i => Key.child key (σ.numLeaves + 1) (i + 1))) =
      σ.leaves.mapIdx (fun k s => Tensor.tens s (fun i =>
        (((List.range B).map (fun b => x b k i / JOps.max (globalNorm (mk σ (x b)) / C) 1)).sum +
          C * m * normal (Key.child key (σ.numLeaves + 1) (k + 1)) ((σ.leaves[k]?).getD []) i) / JOps.ofInt B)) := by
    apply List.ext_getElem
    · simp [stacked_leaves, PyTree.leaves_length]
    · intro k h1 h2
      rw [List.length_mapIdx] at h2
      have hg : (stacked σ B x).leaves[k]'(by rw [hlen, ← PyTree.leaves_length]; exact h2) =
          Tensor.tens (B :: σ.leaves[k]) (fun j => x (j / (σ.leaves[k]).prod) k (j % (σ.leaves[k]).prod)) := by
        simp [stacked_leaves]
      simp only [List.getElem_zipWith, List.getElem_map, List.getElem_range, List.getElem_mapIdx, hg]
      unfold dpNoised
      show Tensor.tens σ.leaves[k] _ = Tensor.tens σ.leaves[k] _
      apply Tensor.tens_congr
      intro i hi
      have hgetD : ((σ.leaves[k]?).getD []) = σ.leaves[k] := by simp [h2]
      rw [hgetD]
      congr 1
      congr 1
      unfold dpClipped
      show (Tensor.tens σ.leaves[k] _).data.getD i 0 = _
      rw [List.getD_eq_getElem?_getD, Tensor.getD_tens _ _ _ hi]
      congr 1
      apply List.map_congr_left
      intro b hb
      rw [dpDivisor_stacked C σ B b x (List.mem_range.mp hb)]
      congr 1
      exact stacked_entry σ.leaves[k] B b i (fun b i => x b k i) (List.mem_range.mp hb) hi
  rw [hl]
  have h3 := PyTree.unflatten_mapIdx (fun k s => Tensor.tens (B :: s) (fun j => x (j / s.prod) k (j % s.prod)))
    (fun k s => Tensor.tens s (fun i =>
        (((List.range B).map (fun b => x b k i / JOps.max (globalNorm (mk σ (x b)) / C) 1)).sum +
          C * m * normal (Key.child key (σ.numLeaves + 1) (k + 1)) ((σ.leaves[k]?).getD []) i) / JOps.ofInt B)) σ
  rw [show stacked σ B x = σ.mapIdx (fun k s => Tensor.tens (B :: s) (fun j => x (j / s.prod) k (j % s.prod))) from rfl,
    h3, Res.ok_bind]
  rfl

end

/-! ## C49 -/

/-- the sum of the clipped examples -/
noncomputable def clippedSum (σ : Spec) (C : ℝ) (B : ℕ) (x : ℕ → ℕ → ℕ → ℝ) : ℕ → ℕ → ℝ :=
  fun k i => ∑ b ∈ Finset.range B, clippedTo σ C (x b) k i

/-- **C49.** One update on `B` stacked examples: the sum of the clipped examples, plus `l2_norm_clip *
noise_multiplier` times normal draws, divided by the batch size; the noise does not depend on the examples. -/
theorem C49_update (normal : Normal ℝ) (C m : ℝ) (seed : ℤ) (σ : Spec) (hσ : σ.leaves ≠ []) (B : ℕ)
    (x : ℕ → ℕ → ℕ → ℝ) (key : Key) (pp : Option (Params ℝ)) :
    (dpAggregate normal C m seed).update (stacked σ B x) ⟨key⟩ pp =
      .ok (mk σ (fun k i => (clippedSum σ C B x k i +
          C * m * normal (Key.child key (σ.numLeaves + 1) (k + 1)) ((σ.leaves[k]?).getD []) i) / B),
        ⟨Key.child key (σ.numLeaves + 1) 0⟩) := by
  rw [dp_update_stacked normal C m seed σ hσ B x key pp]
  have : ∀ k i, ((List.range B).map (fun b => x b k i / JOps.max (globalNorm (mk σ (x b)) / C) 1)).sum =
      clippedSum σ C B x k i := by
    intro k i
    rw [sum_map_range]
    unfold clippedSum clippedTo
    apply Finset.sum_congr rfl
    intro b _
    rw [globalNorm_mk, jmax_real]
  simp only [this, jofInt_real, Int.cast_natCast]

/-- **C49.** A clipped example has global norm at most `C`; an example within the bound is unchanged; otherwise its
norm is exactly `C`. -/
theorem C49_contribution (σ : Spec) (C : ℝ) (hC : 0 < C) (x : ℕ → ℕ → ℝ) :
    entryNorm σ (clippedTo σ C x) ≤ C ∧
    (entryNorm σ x ≤ C → clippedTo σ C x = x) ∧
    (C ≤ entryNorm σ x → entryNorm σ (clippedTo σ C x) = C) := by
  have hmax : 0 < max (entryNorm σ x / C) 1 := lt_max_of_lt_right one_pos
  have hn : entryNorm σ (clippedTo σ C x) = entryNorm σ x / max (entryNorm σ x / C) 1 := by
    unfold entryNorm clippedTo
    have : ∀ y : Σ _ : ℕ, ℕ, x y.1 y.2 / max (entryNorm σ x / C) 1 = (max (entryNorm σ x / C) 1)⁻¹ * x y.1 y.2 :=
      fun y => by rw [div_eq_inv_mul]
    simp only [this]
    rw [l2_smul, abs_of_pos (inv_pos.mpr hmax), ← div_eq_inv_mul]
    rfl
  refine ⟨?_, ?_, ?_⟩
  · rw [hn, div_le_iff₀ hmax]
    calc entryNorm σ x = C * (entryNorm σ x / C) := by field_simp
      _ ≤ C * max (entryNorm σ x / C) 1 := mul_le_mul_of_nonneg_left (le_max_left _ _) hC.le
  · intro h
    have : max (entryNorm σ x / C) 1 = 1 := max_eq_right (by rw [div_le_one hC]; exact h)
    unfold clippedTo
    simp [this]
  · intro h
    have h0 : 0 < entryNorm σ x := lt_of_lt_of_le hC h
    rw [hn, max_eq_left (by rw [one_le_div hC]; exact h)]
    field_simp

theorem entryNorm_congr {σ : Spec} {v w : ℕ → ℕ → ℝ}
    (h : ∀ k s, σ.leaves[k]? = some s → ∀ i < s.prod, v k i = w k i) : entryNorm σ v = entryNorm σ w := by
  unfold entryNorm
  apply l2_congr
  intro y hy
  obtain ⟨s, h1, h2⟩ := mem_idx.mp hy
  exact h y.1 s h1 y.2 h2

/-- **C49 (replace one).** From the same state, two batches of `B ≥ 1` examples that differ in one example give summed
(un-averaged) updates at global distance at most `2 * l2_norm_clip`. -/
theorem C49_replace_one (normal : Normal ℝ) (C m : ℝ) (hC : 0 < C) (seed : ℤ) (σ : Spec) (hσ : σ.leaves ≠ []) (B : ℕ)
    (x x' : ℕ → ℕ → ℕ → ℝ) (b0 : ℕ) (hb : b0 < B) (hx : ∀ b < B, b ≠ b0 → x b = x' b)
    (key : Key) (pp pp' : Option (Params ℝ)) :
    ∃ u u' s', (dpAggregate normal C m seed).update (stacked σ B x) ⟨key⟩ pp = .ok (u, s') ∧
      (dpAggregate normal C m seed).update (stacked σ B x') ⟨key⟩ pp' = .ok (u', s') ∧
      spec u = σ ∧ spec u' = σ ∧
      entryNorm σ (fun k i => B * coord u k i - B * coord u' k i) ≤ 2 * C := by
  refine ⟨_, _, _, C49_update normal C m seed σ hσ B x key pp, C49_update normal C m seed σ hσ B x' key pp',
    spec_mk _ _, spec_mk _ _, ?_⟩
  have hB : (B : ℝ) ≠ 0 := by
    have : 0 < B := by omega
    exact_mod_cast this.ne'
  have : entryNorm σ (fun k i => B * coord (mk σ (fun k i => (clippedSum σ C B x k i +
          C * m * normal (Key.child key (σ.numLeaves + 1) (k + 1)) ((σ.leaves[k]?).getD []) i) / B)) k i -
        B * coord (mk σ (fun k i => (clippedSum σ C B x' k i +
          C * m * normal (Key.child key (σ.numLeaves + 1) (k + 1)) ((σ.leaves[k]?).getD []) i) / B)) k i) =
      entryNorm σ (fun k i => clippedTo σ C (x b0) k i - clippedTo σ C (x' b0) k i) := by
    apply entryNorm_congr
    intro k s hk i hi
    rw [coord_mk _ _ k i s hk hi, coord_mk _ _ k i s hk hi]
    have e1 : clippedSum σ C B x k i - clippedSum σ C B x' k i =
        clippedTo σ C (x b0) k i - clippedTo σ C (x' b0) k i := by
      unfold clippedSum
      rw [← Finset.sum_sub_distrib]
      rw [Finset.sum_eq_single b0]
      · intro b hbm hne
        rw [hx b (Finset.mem_range.mp hbm) hne, sub_self]
      · intro h; exact absurd (Finset.mem_range.mpr hb) h
    rw [← e1]
    field_simp
    ring
  rw [this]
  unfold entryNorm
  refine (l2_sub_le _ _ _).trans ?_
  have h1 := (C49_contribution σ C hC (x b0)).1
  have h2 := (C49_contribution σ C hC (x' b0)).1
  unfold entryNorm at h1 h2
  linarith

/-- the batch without example `b0` -/
def dropExample {β : Type} (x : ℕ → β) (b0 : ℕ) : ℕ → β := fun b => if b < b0 then x b else x (b + 1)

theorem sum_dropExample (B : ℕ) (f : ℕ → ℝ) (b0 : ℕ) (hb : b0 < B + 1) :
    ∑ b ∈ Finset.range (B + 1), f b = f b0 + ∑ b ∈ Finset.range B, dropExample f b0 b := by
  rw [Finset.sum_range, Finset.sum_range, Fin.sum_univ_succAbove _ ⟨b0, hb⟩]
  congr 1
  apply Finset.sum_congr rfl
  intro i _
  unfold dropExample Fin.succAbove
  by_cases h : (i : ℕ) < b0
  · simp [h, Fin.lt_def]
  · simp [h, Fin.lt_def]

/-- **C49 (add or remove one).** From the same state, a batch of `B + 1` examples and the batch without one of them
(`B ≥ 1` left) give summed updates at global distance at most `l2_norm_clip`. -/
theorem C49_add_remove_one (normal : Normal ℝ) (C m : ℝ) (hC : 0 < C) (seed : ℤ) (σ : Spec) (hσ : σ.leaves ≠ [])
    (B : ℕ) (hB : 0 < B) (x : ℕ → ℕ → ℕ → ℝ) (b0 : ℕ) (hb : b0 < B + 1) (key : Key) (pp pp' : Option (Params ℝ)) :
    ∃ u u' s', (dpAggregate normal C m seed).update (stacked σ (B + 1) x) ⟨key⟩ pp = .ok (u, s') ∧
      (dpAggregate normal C m seed).update (stacked σ B (dropExample x b0)) ⟨key⟩ pp' = .ok (u', s') ∧
      spec u = σ ∧ spec u' = σ ∧
      entryNorm σ (fun k i => (B + 1 : ℕ) * coord u k i - B * coord u' k i) ≤ C := by
  refine ⟨_, _, _, C49_update normal C m seed σ hσ (B + 1) x key pp,
    C49_update normal C m seed σ hσ B (dropExample x b0) key pp', spec_mk _ _, spec_mk _ _, ?_⟩
  have hB' : (B : ℝ) ≠ 0 := by exact_mod_cast hB.ne'
  have hB1 : ((B + 1 : ℕ) : ℝ) ≠ 0 := by exact_mod_cast (Nat.succ_pos B).ne'
  refine le_trans (le_of_eq ?_) (C49_contribution σ C hC (x b0)).1
  apply entryNorm_congr
  intro k s hk i hi
  rw [coord_mk _ _ k i s hk hi, coord_mk _ _ k i s hk hi]
  have e1 : clippedSum σ C (B + 1) x k i =
      clippedTo σ C (x b0) k i + clippedSum σ C B (dropExample x b0) k i := by
    unfold clippedSum
    rw [sum_dropExample B (fun b => clippedTo σ C (x b) k i) b0 hb]
    congr 1
    apply Finset.sum_congr rfl
    intro b _
    unfold dropExample
    split <;> rfl
  rw [e1]
  field_simp
  ring

/-- **C49.** Without noise and with all examples within the bound, the result is the mean gradient. -/
theorem C49_mean (normal : Normal ℝ) (C : ℝ) (hC : 0 < C) (seed : ℤ) (σ : Spec) (hσ : σ.leaves ≠ []) (B : ℕ)
    (x : ℕ → ℕ → ℕ → ℝ) (hx : ∀ b < B, entryNorm σ (x b) ≤ C) (key : Key) (pp : Option (Params ℝ)) :
    ∃ s', (dpAggregate normal C 0 seed).update (stacked σ B x) ⟨key⟩ pp =
      .ok (mk σ (fun k i => (∑ b ∈ Finset.range B, x b k i) / B), s') := by
  refine ⟨⟨Key.child key (σ.numLeaves + 1) 0⟩, (C49_update normal C 0 seed σ hσ B x key pp).trans ?_⟩
  congr 2
  apply mk_congr
  intro k s _ i _
  rw [mul_zero, zero_mul, add_zero]
  congr 1
  unfold clippedSum
  apply Finset.sum_congr rfl
  intro b hb
  rw [(C49_contribution σ C hC (x b)).2.1 (hx b (Finset.mem_range.mp hb))]

/-- e.g. two examples of one leaf of two entries, one of norm 5 clipped to norm 1: the mean of (3/5,4/5) and (0,1/2) -/
example :
    entryNorm (.leaf [2]) (fun _ i => if i = 0 then 3 else 4) = 5 := by
  have : entryNorm (.leaf [2]) (fun _ i => if i = 0 then 3 else 4) = Real.sqrt (3 ^ 2 + 4 ^ 2) := by
    unfold entryNorm l2 idx
    congr 1
    simp [Finset.sum_sigma, PyTree.numLeaves, Spec.size, PyTree.leaves, Finset.sum_range_succ]
  rw [this, show (3:ℝ) ^ 2 + 4 ^ 2 = 5 ^ 2 by norm_num]
  exact Real.sqrt_sq (by norm_num)

/-! ## C50 -/

section
variable {α : Type} [Zero α] [One α] [Add α] [Sub α] [Mul α] [Div α] [Neg α] [JOps α]

/-- the calls of a run on batches of possibly different structures and sizes -/
def dpCalls (σ : ℕ → Spec) (B : ℕ → ℕ) (x : ℕ → ℕ → ℕ → ℕ → α) (pp : ℕ → Option (Params α)) (N : ℕ) : List (Call α) :=
  (List.range N).map (fun t => (stacked (σ t) (B t) (x t), pp t))

/-- **C50.** Over a run of any length, update `t` draws the noise of leaf `k` with the key `drawKey seed n t k` and the
state holds `stateKey seed n N` after `N` steps: keys depend on the seed and on the numbers of leaves only, not on
gradient values or batch sizes.  By `C36_keys_distinct` all these keys are pairwise different. -/
theorem C50_run (normal : Normal α) (C m : α) (seed : ℤ) (σ : ℕ → Spec) (hσ : ∀ t, (σ t).leaves ≠ []) (B : ℕ → ℕ)
    (p0 : Params α) (x : ℕ → ℕ → ℕ → ℕ → α) (pp : ℕ → Option (Params α)) (N : ℕ) :
    (dpAggregate normal C m seed).exec p0 (dpCalls σ B x pp N) =
      .ok ((List.range N).map (fun t => mk (σ t) (fun k i =>
          (((List.range (B t)).map (fun b => x t b k i / JOps.max (globalNorm (mk (σ t) (x t b)) / C) 1)).sum +
          C * m * normal (drawKey seed (fun t => (σ t).numLeaves) t k) (((σ t).leaves[k]?).getD []) i) / JOps.ofInt (B t))),
        ⟨stateKey seed (fun t => (σ t).numLeaves) N⟩) := by
  unfold GT.exec
  show (Except.ok _ >>= _) = _
  rw [Res.ok_bind]
  induction N with
  | zero => rfl
  | succ N ih =>
    have e : dpCalls σ B x pp (N + 1) = dpCalls σ B x pp N ++ [(stacked (σ N) (B N) (x N), pp N)] := by
      simp [dpCalls, List.range_succ]
    rw [e, GT.run_append, ih, Res.ok_bind,
      GT.run_cons_ok _ _ _ _ (dp_update_stacked normal C m seed (σ N) (hσ N) (B N) (x N) _ (pp N)),
      GT.run_nil, Res.ok_bind, Res.ok_bind]
    rw [List.range_succ, List.map_append]
    rfl

/-- **C50.** Two runs of `differentially_private_aggregate` use pairwise distinct keys, none of which is ever in the
state. -/
theorem C50_keys_distinct (seed : ℤ) (n : ℕ → ℕ) :
    (∀ t k t' k', drawKey seed n t k = drawKey seed n t' k' → t = t' ∧ k = k') ∧
    (∀ t k t', drawKey seed n t k ≠ stateKey seed n t') := ⟨(C36_keys_distinct seed n).1, (C36_keys_distinct seed n).2.1⟩

/-- **C50 (rejection).** Whatever the state: without leaves, or if some leaf has rank 0 or a leading dimension different
from another leaf's, the update raises: IndexError if there are no leaves or the first one has rank 0, ValueError
otherwise. -/
theorem C50_rejects (normal : Normal α) (C m : α) (seed : ℤ) (g : Params α) (s : DPState) (pp : Option (Params α)) :
    (g.leaves = [] → (dpAggregate normal C m seed).update g s pp = .error .index) ∧
    (∀ t l, g.leaves = t :: l → t.shape = [] → (dpAggregate normal C m seed).update g s pp = .error .index) ∧
    (∀ t l b sh, g.leaves = t :: l → t.shape = b :: sh → (∃ t' ∈ l, ∀ sh', t'.shape ≠ b :: sh') →
      (dpAggregate normal C m seed).update g s pp = .error .value) := by
  refine ⟨?_, ?_, ?_⟩
  · intro h
    show (leadingDim g.leaves >>= _) = _
    rw [h]; rfl
  · intro t l h hs
    have h1 : leadingDim g.leaves = .error .index := by rw [h]; simp only [leadingDim, hs]
    show (leadingDim g.leaves >>= _) = _
    rw [h1]; rfl
  · rintro t l b sh h hs ⟨t', ht', hne⟩
    show (leadingDim g.leaves >>= fun bsize => dpCheck g.leaves bsize >>= _) = _
    have h1 : leadingDim g.leaves = .ok b := by rw [h]; simp only [leadingDim, hs]
    have h2 : dpCheck g.leaves b = .error .value := by
      unfold dpCheck
      rw [if_pos]
      · rfl
      · rw [List.any_eq_true]
        refine ⟨t', by rw [h]; exact List.mem_cons_of_mem _ ht', ?_⟩
        cases hs' : t'.shape with
        | nil => simp
        | cons b' sh' =>
          simp only [List.isEmpty_cons, List.head?_cons, Bool.false_or]
          refine decide_eq_true ?_
          intro e
          simp only [Option.some.injEq] at e
          exact hne sh' (by rw [hs', e])
    rw [h1, Res.ok_bind, h2]
    rfl

/-- **C50.** Conversely an update succeeds only on batched input: every leaf has the same leading dimension. -/
theorem C50_accepts_only_batched (normal : Normal α) (C m : α) (seed : ℤ) (g : Params α) (s : DPState)
    (pp : Option (Params α)) (r) (h : (dpAggregate normal C m seed).update g s pp = .ok r) :
    g.leaves ≠ [] ∧ ∃ b, ∀ t ∈ g.leaves, ∃ sh, t.shape = b :: sh := by
  obtain ⟨h1, h2, h3⟩ := C50_rejects normal C m seed g s pp
  cases hl : g.leaves with
  | nil => rw [h1 hl] at h; cases h
  | cons t l =>
    refine ⟨by simp, ?_⟩
    cases hs : t.shape with
    | nil => rw [h2 t l hl hs] at h; cases h
    | cons b sh =>
      refine ⟨b, ?_⟩
      by_contra hcon
      push Not at hcon
      obtain ⟨t', ht', hne⟩ := hcon
      rcases List.mem_cons.mp ht' with rfl | ht'
      · exact hne sh hs
      · rw [h3 t l b sh hl hs ⟨t', ht', hne⟩] at h; cases h

end
end Optax
