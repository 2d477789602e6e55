import Verif.Lemmas.Norm

/-!
# C06, C07, C08: `update.py`
-/

set_option linter.unusedSectionVars false
set_option linter.unusedSimpArgs false

namespace Optax
open Finset

section
variable {α : Type} [Zero α] [One α] [Add α] [Sub α] [Mul α] [Div α] [Neg α] [JOps α]

/-- **C06.** `apply_updates` adds entry by entry and keeps structure and shapes (any arithmetic). -/
theorem C06_apply_updates (σ : Spec) (p u : ℕ → ℕ → α) :
    applyUpdates (mk σ p) (mk σ u) = .ok (mk σ (fun k i => p k i + u k i)) := by
  simp [applyUpdates]

/-- **C06.** Trees of different structure are rejected: a successful `apply_updates` had equal structures,
and returns that structure. -/
theorem C06_rejects_structure_mismatch (p u r : Params α) (h : applyUpdates p u = .ok r) :
    p.struct = u.struct ∧ r.struct = p.struct :=
  PyTree.zipM_struct _ p u r h

/-- a structure mismatch that is rejected (a pair against a single leaf) -/
example (x y z : Tensor ℝ) :
    applyUpdates (.node .tuple [.leaf x, .leaf y]) (.leaf z) = .error .value := rfl

/-- **C06.** For arbitrary well-formed trees. -/
theorem C06_trees (p u : Params α) (hp : WF p) (hu : WF u) (hs : spec u = spec p) :
    ∃ r, applyUpdates p u = .ok r ∧ spec r = spec p ∧ WF r ∧
      ∀ k s i, (spec p).leaves[k]? = some s → i < s.prod →
        coord r k i = coord p k i + coord u k i := by
  refine ⟨mk (spec p) (fun k i => coord p k i + coord u k i), ?_, spec_mk _ _, WF_mk _ _, ?_⟩
  · conv_lhs => rw [eq_mk_of_WF p hp, eq_mk_of_WF u hu, hs]
    exact C06_apply_updates _ _ _
  · intro k s i hk hi
    exact coord_mk _ _ k i s hk hi

/-- **C08.** One call: the new tensors iff `steps` is a multiple of the period. -/
theorem C08_periodic_update (new old : Params α) (hs : spec new = spec old) (steps period : ℤ) :
    periodicUpdate new old steps period = .ok (if period ∣ steps then new else old) := by
  unfold periodicUpdate condTree
  simp only [Res.ok_bind, hs, if_true, Res.pure_eq]
  by_cases h : period ∣ steps
  · have : steps.fmod period = 0 := (Int.dvd_iff_fmod_eq_zero ..).mp h
    simp [h, this]
  · have : steps.fmod period ≠ 0 := fun e => h ((Int.dvd_iff_fmod_eq_zero ..).mpr e)
    simp [h, this]

/-- **C08 (rejects).** If the two trees differ in structure or in a shape, the call raises `TypeError` (the branches of
`lax.cond` have different types), whatever the step. -/
theorem C08_rejects (new old : Params α) (hs : spec new ≠ spec old) (steps period : ℤ) :
    periodicUpdate new old steps period = .error .type := by
  unfold periodicUpdate condTree
  simp only [Res.ok_bind, hs, if_false]

example : spec (mk (.leaf [2]) (fun _ _ => (0 : ℝ))) ≠ spec (mk (.leaf [3]) (fun _ _ => (0 : ℝ))) := by
  simp [spec_mk]

/-- **C08.** The loop `for n in 1..N: slow = periodic_update(new_n, slow, n, period)` yields the tensors of
the last multiple of the period not exceeding `N`, or the initial copy if there is none. -/
theorem C08_periodic_loop (σ : Spec) (new : ℕ → ℕ → ℕ → α) (slow0 : ℕ → ℕ → α) (period : ℕ)
    (hp : 0 < period) (N : ℕ) :
    (List.range N).foldlM (fun slow n => periodicUpdate (mk σ (new (n + 1))) slow ((n : ℤ) + 1) period)
        (mk σ slow0) =
      .ok (if N < period then mk σ slow0 else mk σ (new (N / period * period))) := by
  induction N with
  | zero => simp [hp]
  | succ N ih =>
    rw [List.range_succ, List.foldlM_append, ih]
    simp only [Res.ok_bind, List.foldlM_cons, List.foldlM_nil]
    rw [C08_periodic_update _ _ (by split <;> simp)]
    simp only [Res.ok_bind, Res.pure_eq]
    have hdvd : ((period : ℤ) ∣ (N : ℤ) + 1) ↔ period ∣ N + 1 := by
      rw [← Int.natCast_dvd_natCast]; push_cast; rfl
    by_cases h : period ∣ N + 1
    · have h1 : period ≤ N + 1 := Nat.le_of_dvd (by omega) h
      rw [if_pos (hdvd.mpr h), if_neg (by omega), Nat.div_mul_cancel h]
    · rw [if_neg (fun e => h (hdvd.mp e))]
      have h2 : (N + 1) / period = N / period := Nat.succ_div_of_not_dvd h
      rw [h2]
      by_cases h3 : N < period
      · have : N + 1 ≠ period := fun e => h (e ▸ dvd_refl _)
        rw [if_pos h3, if_pos (by omega)]
      · rw [if_neg h3, if_neg (by omega)]

end

/-- **C06.** Applying updates one after another equals applying their sum. -/
theorem C06_apply_updates_seq (σ : Spec) (p : ℕ → ℕ → ℝ) (u : ℕ → ℕ → ℕ → ℝ) (N : ℕ) :
    (List.range N).foldlM (fun p n => applyUpdates p (mk σ (u n))) (mk σ p) =
      applyUpdates (mk σ p) (mk σ (fun k i => ∑ n ∈ range N, u n k i)) := by
  rw [C06_apply_updates]
  induction N with
  | zero => simp
  | succ N ih =>
    rw [List.range_succ, List.foldlM_append, ih]
    simp only [Res.ok_bind, List.foldlM_cons, List.foldlM_nil, C06_apply_updates, Res.pure_eq,
      Finset.sum_range_succ, add_assoc]

/-! ## C07 -/

/-- **C07.** Closed form of iterated `incremental_update`. -/
theorem C07_closed_form (σ : Spec) (new : ℕ → ℕ → ℕ → ℝ) (old0 : ℕ → ℕ → ℝ) (s : ℝ) (N : ℕ) :
    (List.range N).foldlM (fun old n => incrementalUpdate (mk σ (new n)) old s) (mk σ old0) =
      .ok (mk σ (fun k i => (1 - s) ^ N * old0 k i +
        ∑ t ∈ range N, s * (1 - s) ^ (N - 1 - t) * new t k i)) := by
  induction N with
  | zero => simp
  | succ N ih =>
    rw [List.range_succ, List.foldlM_append, ih]
    simp only [Res.ok_bind, List.foldlM_cons, List.foldlM_nil, incrementalUpdate, tzip_mk,
      Res.pure_eq]
    congr 2
    funext k i
    rw [Finset.sum_range_succ]
    have : ∑ t ∈ range N, s * (1 - s) ^ (N + 1 - 1 - t) * new t k i =
        (1 - s) * ∑ t ∈ range N, s * (1 - s) ^ (N - 1 - t) * new t k i := by
      rw [Finset.mul_sum]
      apply Finset.sum_congr rfl
      intro t ht
      rw [Finset.mem_range] at ht
      have : N + 1 - 1 - t = (N - 1 - t) + 1 := by omega
      rw [this, pow_succ]; ring
    rw [this]
    simp only [Nat.add_sub_cancel, Nat.sub_self, pow_zero]
    ring

/-- **C07.** With `0 ≤ s ≤ 1` every entry of the average stays between any bounds `lo`, `hi` on all values
seen, at every step. -/
theorem C07_bounds (σ : Spec) (new : ℕ → ℕ → ℕ → ℝ) (old0 : ℕ → ℕ → ℝ) (s : ℝ) (hs0 : 0 ≤ s)
    (hs1 : s ≤ 1) (N : ℕ) :
    ∃ avg : ℕ → ℕ → ℝ,
      (List.range N).foldlM (fun old n => incrementalUpdate (mk σ (new n)) old s) (mk σ old0) =
        .ok (mk σ avg) ∧
      ∀ k i lo hi, lo ≤ old0 k i → old0 k i ≤ hi → (∀ n < N, lo ≤ new n k i ∧ new n k i ≤ hi) →
        lo ≤ avg k i ∧ avg k i ≤ hi := by
  induction N with
  | zero => exact ⟨old0, by simp, fun k i lo hi h1 h2 _ => ⟨h1, h2⟩⟩
  | succ N ih =>
    obtain ⟨avg, h1, h2⟩ := ih
    refine ⟨fun k i => s * new N k i + (1 - s) * avg k i, ?_, ?_⟩
    · rw [List.range_succ, List.foldlM_append, h1]
      simp only [Res.ok_bind, List.foldlM_cons, List.foldlM_nil, incrementalUpdate, tzip_mk,
        Res.pure_eq]
    · intro k i lo hi hl hh hn
      have h3 := h2 k i lo hi hl hh (fun n hn' => hn n (by omega))
      have h4 := hn N (by omega)
      constructor <;> nlinarith [h3.1, h3.2, h4.1, h4.2]

/-- **C07.** `s = 1` copies the new tensors, `s = 0` keeps the old ones, and a constant is a fixed point. -/
theorem C07_special (σ : Spec) (new old : ℕ → ℕ → ℝ) (s : ℝ) :
    incrementalUpdate (mk σ new) (mk σ old) 1 = .ok (mk σ new) ∧
    incrementalUpdate (mk σ new) (mk σ old) 0 = .ok (mk σ old) ∧
    incrementalUpdate (mk σ new) (mk σ new) s = .ok (mk σ new) := by
  simp only [incrementalUpdate, tzip_mk]
  refine ⟨?_, ?_, ?_⟩ <;> congr 2 <;> funext k i <;> ring

end Optax
