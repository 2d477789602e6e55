import Verif.Lemmas.Flat
import Verif.Lemmas.Counter
import Verif.Props.Structure

/-!
# C36: `add_noise` never reuses a key and anneals the noise
-/

set_option linter.unusedSectionVars false
set_option linter.unusedSimpArgs false

namespace Optax

theorem split_succ (k : Key) (n : ℕ) :
    k.split (n + 1) = Key.child k (n + 1) 0 :: (List.range n).map (fun i => Key.child k (n + 1) (i + 1)) := by
  unfold Key.split
  rw [List.range_succ_eq_map, List.map_cons, List.map_map]
  rfl

section
variable {α : Type} [Zero α] [One α] [Add α] [Sub α] [Mul α] [Div α] [Neg α] [JOps α]

theorem addNoise_update_mk (normal : Normal α) (eta gamma : α) (seed : ℤ) (σ : Spec) (g : ℕ → ℕ → α)
    (c : BitVec 32) (key : Key) (pp : Option (Params α)) :
    (addNoise normal eta gamma seed).update (mk σ g) ⟨c, key⟩ pp =
      .ok (mk σ (fun k i => g k i + noiseScale eta gamma (safeInt32Increment c) *
          normal (Key.child key (σ.numLeaves + 1) (k + 1)) ((σ.leaves[k]?).getD []) i),
        ⟨safeInt32Increment c, Key.child key (σ.numLeaves + 1) 0⟩) := by
  have hn : (mk σ g).numLeaves = σ.numLeaves := by unfold mk; simp
  have hl : (List.range σ.numLeaves).map (fun i => Key.child key (σ.numLeaves + 1) (i + 1)) =
      σ.leaves.mapIdx (fun k _ => Key.child key (σ.numLeaves + 1) (k + 1)) := by
    apply List.ext_getElem
    · simp [PyTree.leaves_length]
    · intro i h1 h2; simp
  show (PyTree.unflatten (mk σ g) (key.split ((mk σ g).numLeaves + 1)).tail >>= fun keyTree =>
    PyTree.zipM (fun (x : Tensor α) k => .ok (Tensor.tens x.shape (normal k x.shape))) (mk σ g) keyTree >>=
    fun noise => tzip (fun g n => g + noiseScale eta gamma (safeInt32Increment c) * n) (mk σ g) noise >>= fun u =>
    headKey (key.split ((mk σ g).numLeaves + 1)) >>= fun k0 =>
    Except.ok (u, (⟨safeInt32Increment c, k0⟩ : NoiseState))) = _
  rw [hn, split_succ, List.tail_cons, hl]
  have h1 : PyTree.unflatten (mk σ g) (σ.leaves.mapIdx (fun k _ => Key.child key (σ.numLeaves + 1) (k + 1))) =
      .ok (σ.mapIdx (fun k _ => Key.child key (σ.numLeaves + 1) (k + 1))) := PyTree.unflatten_mapIdx _ _ σ
  rw [h1, Res.ok_bind]
  have h2 : PyTree.zipM (fun (x : Tensor α) k => Except.ok (Tensor.tens x.shape (normal k x.shape))) (mk σ g)
      (σ.mapIdx (fun k _ => Key.child key (σ.numLeaves + 1) (k + 1))) =
      .ok (mk σ (fun k i => normal (Key.child key (σ.numLeaves + 1) (k + 1)) ((σ.leaves[k]?).getD []) i)) := by
    unfold mk
    apply PyTree.zipM_mapIdx
    intro k s hk
    simp [hk]
  rw [h2, Res.ok_bind, tzip_mk, Res.ok_bind]
  rfl

theorem preserves_addNoise (normal : Normal α) (eta gamma : α) (seed : ℤ) :
    Preserves AnyParams (addNoise normal eta gamma seed) := fun σ =>
  ⟨fun _ => True, fun p => ⟨_, rfl, trivial⟩, by
    rintro g ⟨c, k⟩ pp _ _
    exact ⟨_, _, addNoise_update_mk normal eta gamma seed σ g c k pp, trivial⟩⟩

/-- **C05** `add_noise` -/
theorem C05_add_noise (normal : Normal α) (eta gamma : α) (seed : ℤ) :
    ShapeSafe (addNoise normal eta gamma seed) ∧ ShapeSafeNoParams (addNoise normal eta gamma seed) :=
  ⟨(preserves_addNoise normal eta gamma seed).any.shapeSafe,
    (preserves_addNoise normal eta gamma seed).shapeSafeNoParams⟩

end

/-! ## Specification: which keys a run uses

`n t` is the number of leaves of the gradients at step `t`. -/

/-- the key in the state before step `t` -/
def stateKey (seed : ℤ) (n : ℕ → ℕ) : ℕ → Key
  | 0 => .seed seed
  | t + 1 => .child (stateKey seed n t) (n t + 1) 0

/-- the key of the draw for leaf `k` at step `t` -/
def drawKey (seed : ℤ) (n : ℕ → ℕ) (t k : ℕ) : Key := .child (stateKey seed n t) (n t + 1) (k + 1)

/-- nesting depth of a key -/
def Key.depth : Key → ℕ
  | .seed _ => 0
  | .child k _ _ => k.depth + 1

theorem stateKey_depth (seed : ℤ) (n : ℕ → ℕ) (t : ℕ) : (stateKey seed n t).depth = t := by
  induction t with
  | zero => rfl
  | succ t ih => simp [stateKey, Key.depth, ih]

/-- the calls of a run whose gradients may change structure from step to step -/
def callsOf {α : Type} (σ : ℕ → Spec) (g : ℕ → ℕ → ℕ → α) (pp : ℕ → Option (Params α)) (N : ℕ) : List (Call α) :=
  (List.range N).map (fun t => (mk (σ t) (g t), pp t))

section
variable {α : Type} [Zero α] [One α] [Add α] [Sub α] [Mul α] [Div α] [Neg α] [JOps α]

/-- **C36** (every arithmetic).  The run of `add_noise` on any gradients `g` (any structures `σ t`): update `t` is
`g t` plus the multiplier of count `t+1` times `normal` at the keys `drawKey seed n t k`, which do not depend on the gradient
values; the state afterwards holds `stateKey seed n N`. -/
theorem C36_run (normal : Normal α) (eta gamma : α) (seed : ℤ) (σ : ℕ → Spec) (p0 : Params α)
    (g : ℕ → ℕ → ℕ → α) (pp : ℕ → Option (Params α)) (N : ℕ) :
    (addNoise normal eta gamma seed).exec p0 (callsOf σ g pp N) =
      .ok ((List.range N).map (fun t => mk (σ t) (fun k i => g t k i + noiseScale eta gamma (cntAt (t + 1)) *
          normal (drawKey seed (fun t => (σ t).numLeaves) t k) (((σ t).leaves[k]?).getD []) i)),
        ⟨cntAt N, stateKey seed (fun t => (σ t).numLeaves) N⟩) := by
  unfold GT.exec
  show (Except.ok _ >>= _) = _
  rw [Res.ok_bind]
  induction N with
  | zero => rfl
  | succ N ih =>
    have e : callsOf σ g pp (N + 1) = callsOf σ g pp N ++ [(mk (σ N) (g N), pp N)] := by
      simp [callsOf, List.range_succ]
    rw [e, GT.run_append, ih, Res.ok_bind,
      GT.run_cons_ok _ _ _ _ (addNoise_update_mk normal eta gamma seed (σ N) (g N) _ _ (pp N)),
      GT.run_nil, Res.ok_bind, Res.ok_bind, safeInt32Increment_cntAt]
    rw [List.range_succ, List.map_append]
    rfl

end

/-- **C36**: no key is used twice: the draw keys of different (step, leaf) pairs differ, and no draw uses a key the state
ever holds (in particular none that is split later). -/
theorem C36_keys_distinct (seed : ℤ) (n : ℕ → ℕ) :
    (∀ t k t' k', drawKey seed n t k = drawKey seed n t' k' → t = t' ∧ k = k') ∧
    (∀ t k t', drawKey seed n t k ≠ stateKey seed n t') ∧
    (∀ t t', stateKey seed n t = stateKey seed n t' → t = t') := by
  have hs : ∀ t t', stateKey seed n t = stateKey seed n t' → t = t' := by
    intro t t' h
    have := congrArg Key.depth h
    rwa [stateKey_depth, stateKey_depth] at this
  refine ⟨?_, ?_, hs⟩
  · intro t k t' k' h
    simp only [drawKey, Key.child.injEq] at h
    exact ⟨hs _ _ h.1, by omega⟩
  · intro t k t' h
    cases t' with
    | zero => simp [drawKey, stateKey] at h
    | succ t' => simp [drawKey, stateKey] at h

/-- **C36**: the noise added (update minus gradient) at step `n` (counting from 1) is `eta / n^gamma` times standard normal
draws; it is the same for any two runs with the same seed and structures, whatever the gradients. -/
theorem C36_noise (normal : Normal ℝ) (eta gamma : ℝ) (seed : ℤ) (σ : ℕ → Spec)
    (g : ℕ → ℕ → ℕ → ℝ) (pp : ℕ → Option (Params ℝ)) (p0 : Params ℝ) (N : ℕ) (hN : N ≤ 2147483647) :
    ∃ us s, (addNoise normal eta gamma seed).exec p0 (callsOf σ g pp N) = .ok (us, s) ∧ us.length = N ∧
      ∀ t < N, ∃ u, us[t]? = some u ∧ spec u = σ t ∧
        ∀ k sh, (σ t).leaves[k]? = some sh → ∀ i < sh.prod,
          coord u k i - g t k i = eta / ((t + 1 : ℕ) : ℝ) ^ gamma *
            normal (drawKey seed (fun t => (σ t).numLeaves) t k) sh i := by
  refine ⟨_, _, C36_run normal eta gamma seed σ p0 g pp N, by simp, ?_⟩
  intro t ht
  refine ⟨_, by rw [List.getElem?_map, List.getElem?_range ht]; rfl, spec_mk _ _, ?_⟩
  intro k sh hk i hi
  rw [coord_mk _ _ k i sh hk hi, hk]
  simp only [Option.getD_some, noiseScale, jpow_real, cnt_cntAt (t + 1) (by omega)]
  ring

/-- Non-vacuity: two leaves, two steps, four different keys. -/
example : drawKey 3 (fun _ => 2) 0 0 ≠ drawKey 3 (fun _ => 2) 0 1 ∧
    drawKey 3 (fun _ => 2) 0 0 ≠ drawKey 3 (fun _ => 2) 1 0 := by
  constructor <;> intro h <;> have := (C36_keys_distinct 3 (fun _ => 2)).1 _ _ _ _ h <;> omega

end Optax
