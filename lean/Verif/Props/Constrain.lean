import Verif.Props.Structure
import Verif.Props.Update

/-!
# C09, C10: `constrain.py`
-/

set_option linter.unusedSectionVars false
set_option linter.unusedSimpArgs false

namespace Optax

/-- **C09.** One step: after `apply_updates` with the constrained update every parameter entry is
`max(p + u, 0)`; the constrained update is `u` where `p + u ≥ 0` and `-p` otherwise. -/
theorem C09_step (σ : Spec) (p u : ℕ → ℕ → ℝ) (s : EmptyState) :
    ∃ u', keepParamsNonnegative.update (mk σ u) s (some (mk σ p)) = .ok (mk σ u', s) ∧
      applyUpdates (mk σ p) (mk σ u') = .ok (mk σ (fun k i => max (p k i + u k i) 0)) ∧
      (∀ k i, 0 ≤ p k i + u k i → u' k i = u k i) ∧
      (∀ k i, p k i + u k i < 0 → u' k i = - p k i) := by
  refine ⟨fun k i => if p k i + u k i < 0 then -p k i else u k i, ?_, ?_, ?_, ?_⟩
  · rw [keepParamsNonnegative_update_mk]
    simp only [jlt_real]
  · rw [C06_apply_updates]
    congr 2
    funext k i
    by_cases h : p k i + u k i < 0
    · simp [h, max_eq_right h.le]
    · simp [h, max_eq_left (not_lt.mp h)]
  · intro k i h
    simp [not_lt.mpr h]
  · intro k i h
    simp [h]

/-- A training loop: `n` times compute a gradient (which may depend on step and params in any way), call `update`
with the current params, apply the update. -/
def trainLoop {α : Type} [Add α] (t : GT α) (grad : ℕ → Params α → Params α) :
    ℕ → t.State → Params α → Res (Params α × t.State)
  | 0, s, p => .ok (p, s)
  | n + 1, s, p => do
    let r ← trainLoop t grad n s p
    let us ← t.update (grad n r.1) r.2 (some r.1)
    let p'' ← applyUpdates r.1 us.1
    return (p'', us.2)

theorem trainLoop_succ {α : Type} [Add α] (t : GT α) (grad : ℕ → Params α → Params α) (n : ℕ)
    (s s' s'' : t.State) (p p' p'' u : Params α) (h1 : trainLoop t grad n s p = .ok (p', s'))
    (h2 : t.update (grad n p') s' (some p') = .ok (u, s'')) (h3 : applyUpdates p' u = .ok p'') :
    trainLoop t grad (n + 1) s p = .ok (p'', s'') := by
  simp only [trainLoop, h1, Res.ok_bind, h2, h3, Res.pure_eq]

/-- **C09.** Training with any transformation followed by `keep_params_nonnegative` in a chain: from the
first step on, at every step, every parameter is `≥ 0`, whatever the initial parameters and gradients.  (`t` is any
transformation that keeps structure, e.g. all those of C05 and their chains.) -/
theorem C09_training (t : GT ℝ) (ht : Preserves WithParams t) (σ : Spec)
    (grad : ℕ → Params ℝ → Params ℝ) (hg : ∀ n p, ∃ g, grad n (mk σ p) = mk σ g)
    (p0 : ℕ → ℕ → ℝ) (N : ℕ) :
    ∃ s0, (chain [t, keepParamsNonnegative]).init (mk σ p0) = .ok s0 ∧
      ∃ p s, trainLoop (chain [t, keepParamsNonnegative]) grad (N + 1) s0 (mk σ p0) = .ok (mk σ p, s) ∧
        ∀ k i, 0 ≤ p k i := by
  obtain ⟨I, h1, h2⟩ := ht σ
  obtain ⟨a0, ha0, hI0⟩ := h1 p0
  refine ⟨some (a0, some (⟨⟩, (0 : ℕ))), ?_, ?_⟩
  · simp only [chain, chainInit, ha0, Res.ok_bind]; rfl
  have step : ∀ (g : ℕ → ℕ → ℝ) a (p : ℕ → ℕ → ℝ), I a → ∃ u a',
      (chain [t, keepParamsNonnegative]).update (mk σ g) (some (a, some (⟨⟩, (0 : ℕ)))) (some (mk σ p)) =
        .ok (mk σ u, some (a', some (⟨⟩, (0 : ℕ)))) ∧ I a' ∧ ∀ k i, 0 ≤ p k i + u k i := by
    intro g a p hI
    obtain ⟨u, a', hu, hI'⟩ := h2 g a (some (mk σ p)) hI ⟨p, rfl⟩
    refine ⟨fun k i => if p k i + u k i < 0 then -p k i else u k i, a', ?_, hI', ?_⟩
    · have hk := keepParamsNonnegative_update_mk σ u p ⟨⟩
      have e : (fun k i => if p k i + u k i < 0 then -p k i else u k i) =
        (fun k i => if JOps.lt (p k i + u k i) 0 then -p k i else u k i) := by simp only [jlt_real]
      rw [e]
      exact chain_update_ok rfl (chainLoop_cons_ok hu (chainLoop_cons_ok hk chainLoop_nil_ok))
    · intro k i
      by_cases h : p k i + u k i < 0 <;> simp [h]
      exact not_lt.mp h
  have main : ∀ n, ∃ p a, trainLoop (chain [t, keepParamsNonnegative]) grad n
      (some (a0, some (⟨⟩, (0 : ℕ)))) (mk σ p0) = .ok (mk σ p, some (a, some (⟨⟩, (0 : ℕ)))) ∧ I a ∧
      (1 ≤ n → ∀ k i, 0 ≤ p k i) := by
    intro n
    induction n with
    | zero => exact ⟨p0, a0, rfl, hI0, by omega⟩
    | succ n ih =>
      obtain ⟨p, a, h3, h4, _⟩ := ih
      obtain ⟨g, hg'⟩ := hg n p
      obtain ⟨u, a', h5, h6, h7⟩ := step g a p h4
      refine ⟨fun k i => p k i + u k i, a', ?_, h6, fun _ => h7⟩
      exact trainLoop_succ _ grad n _ _ _ _ _ _ _ h3 (by rw [hg']; exact h5) (C06_apply_updates σ p u)
  obtain ⟨p, a, h3, _, h5⟩ := main (N + 1)
  exact ⟨p, _, h3, h5 (by omega)⟩

/-- hypotheses of `C09_training` are met e.g. by `sgd`-style scaling and a constant gradient field -/
example : Preserves WithParams (scale (-1 : ℝ)) ∧
    ∀ (n : ℕ) (p : ℕ → ℕ → ℝ), ∃ g, (fun _ t => t : ℕ → Params ℝ → Params ℝ) n (mk (.leaf [2]) p) =
      mk (.leaf [2]) g :=
  ⟨(preserves_scale _).any, fun _ p => ⟨p, rfl⟩⟩

/-- **C09** under any rounding: let `α` be any number type with a total order, *any* addition and negation with
`p + (-p) = 0` (true of every IEEE format for finite `p`).  Then one step still leaves every entry `≥ 0`. -/
theorem C09_any_rounding {α : Type} [LinearOrder α] [Zero α] [Add α] [Neg α]
    [JOps α] (hlt : ∀ a b : α, JOps.lt a b = decide (a < b)) (hneg : ∀ a : α, a + -a = 0)
    (σ : Spec) (p u : ℕ → ℕ → α) (s : EmptyState) :
    ∃ u' q, keepParamsNonnegative.update (mk σ u) s (some (mk σ p)) = .ok (mk σ u', s) ∧
      applyUpdates (mk σ p) (mk σ u') = .ok (mk σ q) ∧ ∀ k i, 0 ≤ q k i := by
  refine ⟨fun k i => if p k i + u k i < 0 then -p k i else u k i, _, ?_,
    by simp only [applyUpdates, tzip_mk]; rfl, ?_⟩
  · simp [keepParamsNonnegative, stateless, hlt]
  · intro k i
    by_cases h : p k i + u k i < 0
    · simp [h, hneg]
    · simp only [h, if_false]; exact not_lt.mp h

/-- **C09.** Missing params raise ValueError. -/
theorem C09_requires_params {α : Type} [Zero α] [Add α] [Neg α] [JOps α] (g : Params α)
    (s : EmptyState) : (keepParamsNonnegative (α := α)).update g s none = .error .value := rfl

/-! ## C10 -/

section
variable {α : Type} [Zero α] [JOps α]

/-- **C10.** For any arithmetic in which `0` is not NaN, any gradients and *any previous state*:
the result contains no NaN, entries that were not NaN are unchanged, entries that were NaN are 0;
and the state has the structure of the gradients with `true` exactly at the leaves containing a NaN. -/
theorem C10_zero_nans (h0 : JOps.isnan (0 : α) = false) (σ : Spec) (g : ℕ → ℕ → α)
    (s : ZeroNansState) (pp : Option (Params α)) :
    ∃ (u : ℕ → ℕ → α) (found : ℕ → Bool),
      zeroNans.update (mk σ g) s pp = .ok (mk σ u, ⟨σ.mapIdx (fun k _ => found k)⟩) ∧
      (∀ k i, JOps.isnan (u k i) = false) ∧
      (∀ k i, JOps.isnan (g k i) = false → u k i = g k i) ∧
      (∀ k i, JOps.isnan (g k i) = true → u k i = 0) ∧
      (∀ k sh, σ.leaves[k]? = some sh →
        (found k = true ↔ ∃ i < sh.prod, JOps.isnan (g k i) = true)) := by
  refine ⟨fun k i => if JOps.isnan (g k i) then 0 else g k i,
    fun k => ((σ.leaves[k]?).map (fun sh => (Tensor.tens sh (g k)).data.any JOps.isnan)).getD false,
    ?_, ?_, ?_, ?_, ?_⟩
  · simp only [zeroNans, tmap_mk, Except.ok.injEq, Prod.mk.injEq, true_and, ZeroNansState.mk.injEq]
    simp only [mk, PyTree.map_mapIdx]
    apply PyTree.mapIdx_congr
    intro k sh hk
    simp [hk]
  · intro k i
    by_cases h : JOps.isnan (g k i) = true
    · simp [h, h0]
    · simp [h]
  · intro k i h; simp [h]
  · intro k i h; simp [h]
  · intro k sh hk
    simp [hk, Tensor.tens]

/-- **C10.** Initially no NaN is reported. -/
theorem C10_init (p : Params α) :
    ∃ s, zeroNans.init p = .ok s ∧ s.foundNan.struct = p.struct ∧ ∀ b ∈ s.foundNan.leaves, b = false := by
  refine ⟨_, rfl, ?_, ?_⟩
  · simp [PyTree.struct, PyTree.map_map]
  · intro b hb
    simp only [PyTree.leaves_map, List.mem_map] at hb
    obtain ⟨_, _, rfl⟩ := hb
    rfl
end

/-- **C10.** IEEE values: an infinity is kept, a NaN is zeroed and reported; finite values are kept. -/
theorem C10_xreal (σ : Spec) (g : ℕ → ℕ → XReal) (s : ZeroNansState) (pp : Option (Params XReal)) :
    ∃ (u : ℕ → ℕ → XReal) (st : ZeroNansState), zeroNans.update (mk σ g) s pp = .ok (mk σ u, st) ∧
      ∀ k i, u k i = match g k i with
        | .nan => .fin 0
        | x => x := by
  obtain ⟨u, found, h1, _, h3, h4, _⟩ := C10_zero_nans (α := XReal) rfl σ g s pp
  refine ⟨u, _, h1, ?_⟩
  intro k i
  cases h : g k i with
  | nan => have := h4 k i (by rw [h]; rfl); simpa using this
  | fin r => have := h3 k i (by rw [h]; rfl); rw [this, h]
  | pinf => have := h3 k i (by rw [h]; rfl); rw [this, h]
  | ninf => have := h3 k i (by rw [h]; rfl); rw [this, h]

end Optax
