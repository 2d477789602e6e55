import Mathlib.Data.List.Induction
import Mathlib.Tactic.Ring

/-! Selecting a sub-history by a list of flags. -/

namespace Optax
variable {β γ : Type}

/-- the entries of `l` whose flag is true -/
def keep (b : List Bool) (l : List β) : List β := ((l.zip b).filter Prod.snd).map Prod.fst

@[simp] theorem keep_nil (b : List Bool) : keep b ([] : List β) = [] := by simp [keep]

theorem keep_snoc (b : List Bool) (l : List β) (x : Bool) (y : β) (h : b.length = l.length) :
    keep (b ++ [x]) (l ++ [y]) = keep b l ++ (if x then [y] else []) := by
  unfold keep
  rw [List.zip_append h.symm]
  cases x <;> simp

theorem keep_cons (b : List Bool) (l : List β) (x : Bool) (y : β) :
    keep (x :: b) (y :: l) = (if x then y :: keep b l else keep b l) := by
  unfold keep
  cases x <;> simp

/-- length of the run of `false` at the end -/
def streak (fl : List Bool) : ℕ := (fl.reverse.takeWhile (fun b => !b)).length

@[simp] theorem streak_nil : streak [] = 0 := rfl
theorem streak_snoc (fl : List Bool) (b : Bool) :
    streak (fl ++ [b]) = if b then 0 else streak fl + 1 := by
  unfold streak
  rw [List.reverse_append]
  cases b <;> simp [List.takeWhile_cons]

theorem streak_le (fl : List Bool) : streak fl ≤ fl.length := by
  unfold streak
  have := (List.takeWhile_sublist (fun b => !b) (l := fl.reverse)).length_le
  simpa using this

/-- `streak` is characterised by: the last `streak` flags are false, and the one before is true -/
theorem streak_spec (fl : List Bool) :
    (∀ i, fl.length - streak fl ≤ i → (h : i < fl.length) → fl[i] = false) ∧
    (∀ h : fl.length - streak fl - 1 < fl.length, streak fl < fl.length →
      fl[fl.length - streak fl - 1] = true) := by
  induction fl using List.reverseRecOn with
  | nil => simp
  | append_singleton fl b ih =>
    have hle := streak_le fl
    rw [streak_snoc]
    cases b with
    | true =>
      simp only [if_true, List.length_append, List.length_singleton, Nat.sub_zero]
      constructor
      · intro i h1 h2; omega
      · intro h h2
        simp
    | false =>
      simp only [List.length_append, List.length_singleton, Bool.false_eq_true, if_false]
      constructor
      · intro i h1 h2
        by_cases hi : i < fl.length
        · rw [List.getElem_append_left hi]
          exact ih.1 i (by omega) hi
        · rw [List.getElem_append_right (by omega)]
          simp
      · intro h h2
        have hlt : fl.length + 1 - (streak fl + 1) - 1 < fl.length := by omega
        rw [List.getElem_append_left hlt]
        have := ih.2 (by omega) (by omega)
        rw [← this]
        congr 1
        omega

end Optax
