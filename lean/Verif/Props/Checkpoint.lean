import Verif.Props.Constrain
import Verif.Model.Wrappers

/-!
# C72: saving the state and resuming

All the memory of an optimiser is in the state the user holds: stopping after any number of steps, saving `(params, state)`, and
resuming from the saved values in a new process gives the trajectory of the uninterrupted run. For every
transformation (any `init`/`update` pair), every history and every crash point.
-/

namespace Optax

variable {α : Type}

/-- **C72 (histories).** For every split of a history: the updates of the whole run are those before the crash followed by those
of the resumed run, and the final states agree; an exception occurs in the resumed run iff it occurs in the
uninterrupted one. `restore (save s)` is any serialisation that gives back the state. -/
theorem C72_resume (t : GT α) {B : Type} (save : t.State → B) (restore : B → t.State) (hsr : ∀ s, restore (save s) = s)
    (p : Params α) (h₁ h₂ : List (Call α)) (us : List (Params α)) (s : t.State) (hx : t.exec p h₁ = .ok (us, s)) :
    t.exec p (h₁ ++ h₂) = (t.run (restore (save s)) h₂ >>= fun r => .ok (us ++ r.1, r.2)) := by
  rw [hsr]
  unfold GT.exec at hx ⊢
  rw [Res.bind_eq_ok] at hx
  obtain ⟨s0, h0, hr⟩ := hx
  rw [h0, Res.ok_bind, GT.run_append, hr]
  rfl

/-- a run that fails before the crash point fails -/
theorem C72_prefix_error (t : GT α) (p : Params α) (h₁ h₂ : List (Call α)) (e : Err) (hx : t.exec p h₁ = .error e) :
    t.exec p (h₁ ++ h₂) = .error e := by
  unfold GT.exec at hx ⊢
  cases h0 : t.init p with
  | error e' => rw [h0] at hx; exact hx
  | ok s0 =>
    rw [h0, Res.ok_bind] at hx
    rw [Res.ok_bind, GT.run_append, hx]
    rfl

variable [Add α]

/-- **C72 (training loop).** A training loop whose gradients depend in any way on the step number and the current params,
interrupted after `n` steps and resumed from the saved params and state, ends where the uninterrupted loop of `n + m`
steps ends. -/
theorem C72_training (t : GT α) {B : Type} (save : Params α × t.State → B) (restore : B → Params α × t.State)
    (hsr : ∀ x, restore (save x) = x) (grad : ℕ → Params α → Params α) (n m : ℕ) (s : t.State) (p : Params α)
    (x : Params α × t.State) (hx : trainLoop t grad n s p = .ok x) :
    trainLoop t grad (n + m) s p =
      trainLoop t (fun j => grad (n + j)) m (restore (save x)).2 (restore (save x)).1 := by
  rw [hsr]
  induction m with
  | zero => simpa [trainLoop] using hx
  | succ m ih =>
    show trainLoop t grad (n + m + 1) s p = _
    simp only [trainLoop]
    rw [ih]

/-- e.g. saving as a pair -/
example (t : GT ℝ) : ∃ (save : Params ℝ × t.State → t.State × Params ℝ) (restore : t.State × Params ℝ → Params ℝ × t.State),
    ∀ x, restore (save x) = x := ⟨fun x => (x.2, x.1), fun x => (x.2, x.1), fun _ => rfl⟩

end Optax
