import Verif.Lemmas.Run

/-!
# Histories

A history of well-formed gradients of one structure-and-shapes `σ` is a function
`g : ℕ → ℕ → ℕ → α`: `g n k i` is the `i`-th entry of the `k`-th leaf of the gradient given at call
number `n` (from 0).  `exists_hist`: every finite list of calls with gradients of structure and
shapes `σ` is such a history.
-/

namespace Optax
variable {α : Type}

/-- The first `N` calls of a history: gradients `mk σ (g n)`, params `pp n`. -/
def hist (σ : Spec) (g : ℕ → ℕ → ℕ → α) (pp : ℕ → Option (Params α)) (N : ℕ) : List (Call α) :=
  (List.range N).map (fun n => (mk σ (g n), pp n))

@[simp] theorem hist_length (σ : Spec) (g : ℕ → ℕ → ℕ → α) (pp : ℕ → Option (Params α)) (N : ℕ) :
    (hist σ g pp N).length = N := by simp [hist]

theorem hist_succ (σ : Spec) (g : ℕ → ℕ → ℕ → α) (pp : ℕ → Option (Params α)) (N : ℕ) :
    hist σ g pp (N + 1) = hist σ g pp N ++ [(mk σ (g N), pp N)] := by
  simp [hist, List.range_succ]

/-- Every list of calls with well-formed gradients of structure and shapes `σ` is a `hist`. -/
theorem exists_hist [Zero α] (σ : Spec) (h : List (Call α))
    (hw : ∀ c ∈ h, WF c.1 ∧ spec c.1 = σ) : ∃ g pp, h = hist σ g pp h.length := by
  refine ⟨fun n => coord ((h[n]?.map Prod.fst).getD (.node .none_ [])),
    fun n => (h[n]?.map Prod.snd).getD none, ?_⟩
  apply List.ext_getElem
  · simp
  · intro n h1 h2
    have hc := hw h[n] (List.getElem_mem h1)
    simp only [hist, List.getElem_map, List.getElem_range, List.getElem?_eq_getElem h1,
      Option.map_some, Option.getD_some]
    rw [← hc.2, ← eq_mk_of_WF _ hc.1]

/-- Run rule for histories: it suffices to give the states `S n` before call `n` and the outputs
`U n` of call `n`. -/
theorem exec_hist (t : GT α) (p : Params α) (σ : Spec) (g : ℕ → ℕ → ℕ → α)
    (pp : ℕ → Option (Params α)) (N : ℕ) (S : ℕ → t.State) (U : ℕ → Params α)
    (h0 : t.init p = .ok (S 0))
    (hs : ∀ n < N, t.update (mk σ (g n)) (S n) (pp n) = .ok (U n, S (n + 1))) :
    t.exec p (hist σ g pp N) = .ok ((List.range N).map U, S N) := by
  unfold GT.exec
  rw [h0, Res.ok_bind]
  induction N with
  | zero => simp [hist]
  | succ N ih =>
    rw [hist_succ, GT.run_append, ih (fun n hn => hs n (by omega))]
    simp only [Res.ok_bind]
    rw [GT.run_cons]
    have := hs N (by omega)
    simp only [this, Res.ok_bind, GT.run_nil, List.range_succ, List.map_append, List.map_cons,
      List.map_nil]

theorem outs_hist (t : GT α) (p : Params α) (σ : Spec) (g : ℕ → ℕ → ℕ → α)
    (pp : ℕ → Option (Params α)) (N : ℕ) (S : ℕ → t.State) (U : ℕ → Params α)
    (h0 : t.init p = .ok (S 0))
    (hs : ∀ n < N, t.update (mk σ (g n)) (S n) (pp n) = .ok (U n, S (n + 1))) :
    t.outs p (hist σ g pp N) = .ok ((List.range N).map U) := by
  unfold GT.outs
  rw [exec_hist t p σ g pp N S U h0 hs]
  rfl

end Optax
