import Verif.Props.Locality
import Verif.Props.Structure
import Verif.Props.Constrain

/-!
# C137: ensembles

Many models stacked along a leading axis, with the sum of their losses, can be trained by one entrywise optimizer: it trains every member as it would be trained alone.
-/

set_option linter.unusedSectionVars false
set_option linter.unusedSimpArgs false

namespace Optax

/-- **Specification.** The shapes of `M` stacked copies: a leading axis of length `M` on every leaf. -/
def stackSpec (M : ℕ) (τ : Spec) : Spec := τ.map (fun s => M :: s)

/-- **Specification.** Entry `(m, i)` of leaf `k` of the stacked tree, in row-major order at position `m * size + i`, is entry `i` of leaf `k` of member `m`. -/
def interleaved {α : Type} (τ : Spec) (W : ℕ → ℕ → ℕ → α) : ℕ → ℕ → α := fun k j =>
  W (j / (τ.leaves.getD k []).prod) k (j % (τ.leaves.getD k []).prod)

variable {α : Type} [Zero α] [One α] [Add α] [Sub α] [Mul α] [Div α] [Neg α] [JOps α]

/-- where member `m` lives -/
def memberAt (τ : Spec) (m : ℕ) : ℕ → ℕ → ℕ × ℕ := fun k i => (k, m * (τ.leaves.getD k []).prod + i)

theorem getD_leaf {τ : Spec} {k : ℕ} {s : List ℕ} (h : τ.leaves[k]? = some s) : τ.leaves.getD k [] = s := by
  rw [List.getD_eq_getElem?_getD, h]; rfl

/-- a member of the stacked tree -/
theorem mk_member (τ : Spec) (m : ℕ) (W : ℕ → ℕ → ℕ → α) : mk τ (reindex (memberAt τ m) (interleaved τ W)) = mk τ (W m) := by
  refine mk_congr fun k s hk i hi => ?_
  simp only [reindex, memberAt, interleaved, getD_leaf hk]
  have hs : 0 < s.prod := by omega
  rw [Nat.mul_comm, Nat.mul_add_div hs, Nat.div_eq_of_lt hi, Nat.add_zero, Nat.mul_add_mod, Nat.mod_eq_of_lt hi]

/-- every tree of stacked shapes is stacked from its members -/
theorem mk_stack (τ : Spec) (M : ℕ) (w : ℕ → ℕ → α) :
    mk (stackSpec M τ) (interleaved τ (fun m => reindex (memberAt τ m) w)) = mk (stackSpec M τ) w := by
  refine mk_congr fun k s hk j hj => ?_
  simp only [stackSpec, PyTree.leaves_map, List.getElem?_map, Option.map_eq_some_iff] at hk
  obtain ⟨s, hk, rfl⟩ := hk
  simp only [reindex, memberAt, interleaved, getD_leaf hk]
  rw [Nat.div_add_mod' j s.prod]

theorem EntrywiseT.preserves {t : GT α} (h : EntrywiseT t) : Preserves WithParams t := by
  induction h with
  | identity => exact preserves_identity.any
  | trace d nes acc => exact (preserves_trace d nes acc).any
  | ema d deb acc => exact (preserves_ema d deb acc).any
  | rss a eps => exact (preserves_rss a eps).any
  | rms d eps a => exact (preserves_rms d eps a).any
  | stddev d eps a => exact (preserves_stddev d eps a).any
  | adam b1 b2 eps er => exact (preserves_adam b1 b2 eps er).any
  | belief b1 b2 eps er => exact (preserves_belief b1 b2 eps er).any
  | yogi b1 b2 eps er a => exact (preserves_yogi b1 b2 eps er a).any
  | radam b1 b2 eps er th => exact (preserves_radam b1 b2 eps er th).any
  | scale c => exact (preserves_scale c).any
  | schedule f => exact (preserves_schedule f).any
  | applyEvery k => exact (preserves_applyEvery k).any
  | clip d => exact (preserves_clip d).any
  | addDecayedWeights w => exact preserves_addDecayedWeights w
  | keepParamsNonnegative => exact preserves_keepParamsNonnegative
  | zeroNans => exact preserves_zeroNans.any
  | chain ts _ ih => exact Preserves.chain ts ih

/-- **C137.** An ensemble of `M` models in one stacked tree, each with its own gradient field `F m` (the gradient of the sum of the members' losses, stacked), trained by any
entrywise transformation: for every number of steps, the stacked parameters are those of the members trained separately, in every arithmetic. -/
theorem C137_ensemble {t : GT α} (ht : EntrywiseT t) (τ : Spec) (M : ℕ) (F : ℕ → ℕ → (ℕ → ℕ → α) → (ℕ → ℕ → α))
    (grad : ℕ → Params α → Params α)
    (hgrad : ∀ n W, grad n (mk (stackSpec M τ) (interleaved τ W)) = mk (stackSpec M τ) (interleaved τ (fun m => F m n (W m))))
    (gradm : ℕ → ℕ → Params α → Params α) (hgradm : ∀ m n w, gradm m n (mk τ w) = mk τ (F m n w))
    (W0 : ℕ → ℕ → ℕ → α) (n : ℕ) :
    ∃ W s0 s, t.init (mk (stackSpec M τ) (interleaved τ W0)) = .ok s0 ∧
      trainLoop t grad n s0 (mk (stackSpec M τ) (interleaved τ W0)) = .ok (mk (stackSpec M τ) (interleaved τ W), s) ∧
      ∀ m < M, ∃ s0' s', t.init (mk τ (W0 m)) = .ok s0' ∧ trainLoop t (gradm m) n s0' (mk τ (W0 m)) = .ok (mk τ (W m), s') := by
  have hR := fun m => ht.reindexable τ (stackSpec M τ) (memberAt τ m)
  choose R hR1 hR2 using hR
  obtain ⟨I, hI1, hI2⟩ := ht.preserves (stackSpec M τ)
  obtain ⟨s0, h0, hs0⟩ := hI1 (interleaved τ W0)
  have hinit : ∀ m, ∃ s0', t.init (mk τ (W0 m)) = .ok s0' ∧ R m s0' s0 := fun m => by
    have := hR1 m (interleaved τ W0)
    rw [mk_member, h0] at this
    rcases Res.rel_ok this with ⟨x, y, hx, hy, hxy⟩ | ⟨e, _, hy⟩
    · injection hy with hy; subst hy
      exact ⟨x, hx, hxy⟩
    · cases hy
  choose s0' hs0' hR0 using hinit
  suffices H : ∃ W s, trainLoop t grad n s0 (mk (stackSpec M τ) (interleaved τ W0)) = .ok (mk (stackSpec M τ) (interleaved τ W), s) ∧ I s ∧
      ∀ m < M, ∃ s', trainLoop t (gradm m) n (s0' m) (mk τ (W0 m)) = .ok (mk τ (W m), s') ∧ R m s' s by
    obtain ⟨W, s, h1, _, h2⟩ := H
    exact ⟨W, s0, s, h0, h1, fun m hm => ⟨s0' m, (h2 m hm).choose, hs0' m, (h2 m hm).choose_spec.1⟩⟩
  induction n with
  | zero => exact ⟨W0, s0, rfl, hs0, fun m _ => ⟨s0' m, rfl, hR0 m⟩⟩
  | succ n ih =>
    obtain ⟨W, s, h1, hs, h2⟩ := ih
    obtain ⟨u, s1, hu, hs1⟩ := hI2 (interleaved τ (fun m => F m n (W m))) s (some (mk (stackSpec M τ) (interleaved τ W))) hs ⟨_, rfl⟩
    refine ⟨fun m k i => W m k i + reindex (memberAt τ m) u k i, s1, ?_, hs1, fun m hm => ?_⟩
    · rw [show interleaved τ (fun m k i => W m k i + reindex (memberAt τ m) u k i) =
        (fun k j => interleaved τ W k j + interleaved τ (fun m => reindex (memberAt τ m) u) k j) from rfl]
      refine trainLoop_succ t grad n _ s s1 _ _ _ _ h1 (by rw [hgrad]; exact hu) ?_
      rw [← mk_stack τ M u]
      exact C06_apply_updates (stackSpec M τ) (interleaved τ W) (interleaved τ (fun m => reindex (memberAt τ m) u))
    · obtain ⟨s', h3, h4⟩ := h2 m hm
      have h5 := hR2 m (interleaved τ (fun m => F m n (W m))) s' s (some (interleaved τ W)) h4
      simp only [Option.map_some] at h5
      rw [mk_member, mk_member, hu] at h5
      rcases Res.rel_ok h5 with ⟨x, y, hx, hy, ⟨u', hu1, hu2⟩, hxy⟩ | ⟨e, _, hy⟩
      · injection hy with hy; subst hy
        refine ⟨x.2, ?_, hxy⟩
        refine trainLoop_succ t (gradm m) n _ s' x.2 _ _ _ (mk τ (reindex (memberAt τ m) u)) h3 ?_ (C06_apply_updates τ (W m) _)
        rw [hgradm]
        refine hx.trans ?_
        have e : x.1 = mk τ (reindex (memberAt τ m) u) := by
          rw [hu1]
          refine mk_congr fun k sh hk i hi => ?_
          have h6 := mk_inj hu2 k (M :: sh) (by simp [stackSpec, PyTree.leaves_map, hk]) (m * sh.prod + i) (by
            rw [List.prod_cons]; nlinarith)
          simp only [reindex, memberAt, getD_leaf hk]
          exact h6.symm
        rw [← e]
      · cases hy

/-- Not so when entries interact: `clip_by_global_norm(1)` on two stacked scalar models with gradients 3 and 4 returns 3/5 and 4/5, and 1 for either model alone. -/
theorem C137_not_global_norm :
    (clipByGlobalNorm (1 : ℝ)).update (mk (stackSpec 2 (.leaf [])) (interleaved (.leaf []) (fun m _ _ => if m = 0 then 3 else 4))) ⟨⟩ none =
      .ok (mk (stackSpec 2 (.leaf [])) (interleaved (.leaf []) (fun m _ _ => if m = 0 then 3 / 5 else 4 / 5)), ⟨⟩) ∧
    ∀ m, (clipByGlobalNorm (1 : ℝ)).update (mk (.leaf []) (fun _ _ => if m = 0 then 3 else 4)) ⟨⟩ none = .ok (mk (.leaf []) (fun _ _ => (1 : ℝ)), ⟨⟩) := by
  constructor
  · refine (clipByGlobalNorm_update_mk _ _ _ _ _).trans ?_
    have h : globalNorm (mk (stackSpec 2 (.leaf [])) (interleaved (.leaf []) (fun m _ _ => if m = 0 then (3 : ℝ) else 4))) = 5 := by
      simp [globalNorm, mk, stackSpec, PyTree.map, PyTree.mapIdx, PyTree.mapIdxFrom, PyTree.leaves, Tensor.tens, interleaved, Tensor.sum, Tensor.map, List.range_succ]
      rw [show (3 * 3 + 4 * 4 : ℝ) = 5 ^ 2 by norm_num, Real.sqrt_sq (by norm_num)]
    rw [h]
    refine congrArg Except.ok (Prod.ext (mk_congr fun k s _ i _ => ?_) rfl)
    simp only [interleaved, jlt_real]
    rw [if_neg (by norm_num)]
    split <;> norm_num
  · intro m
    refine (clipByGlobalNorm_update_mk _ _ _ _ _).trans ?_
    have h : ∀ x : ℝ, 0 ≤ x → globalNorm (mk (.leaf []) (fun _ _ => x)) = x := fun x hx => by
      simp [globalNorm, mk, PyTree.mapIdx, PyTree.mapIdxFrom, PyTree.leaves, Tensor.tens, Tensor.sum, Tensor.map, List.range_succ, hx]
    rw [h _ (by split <;> norm_num)]
    have e : (fun (_ _ : ℕ) => if JOps.lt (if m = 0 then (3 : ℝ) else 4) 1 = true then (if m = 0 then (3 : ℝ) else 4) else
        (if m = 0 then (3 : ℝ) else 4) / (if m = 0 then (3 : ℝ) else 4) * 1) = fun _ _ => 1 := by
      funext k i
      by_cases hm : m = 0 <;> simp [hm]
    exact congrArg (fun f => Except.ok (mk (.leaf []) f, (⟨⟩ : EmptyState))) e

/-- a case: two scalar models with gradients `w - 1` and `w + 2` (over the reals), trained by Adam -/
example : ∃ grad : ℕ → Params ℝ → Params ℝ, ∀ n W, grad n (mk (stackSpec 2 (.leaf [])) (interleaved (.leaf []) W)) =
    mk (stackSpec 2 (.leaf [])) (interleaved (.leaf []) (fun m => (fun (m : ℕ) (w : ℕ → ℕ → ℝ) k i => w k i - (if m = 0 then 1 else -2)) m (W m))) :=
  ⟨fun _ p => mk (stackSpec 2 (.leaf [])) (fun k j => coord p k j - (if j = 0 then 1 else -2)), fun n W => by
    refine mk_congr fun k s hk j hj => ?_
    rw [coord_mk _ _ _ _ s hk hj]
    have hk0 : k = 0 := by
      rcases k with _ | k
      · rfl
      · simp [stackSpec, PyTree.map, PyTree.leaves] at hk
    subst hk0
    simp [interleaved, PyTree.leaves]⟩

end Optax
