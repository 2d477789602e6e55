import Verif.Props.AdagradRegret
import Verif.Props.Ensemble
import Verif.Props.Equilibrium

/-!
# C171: symmetric units never separate

Two parameter entries that start equal and receive equal gradients whenever they are equal stay equal for ever.
-/

set_option linter.unusedSectionVars false
set_option linter.unusedSimpArgs false

namespace Optax
open Finset

variable (σ : Spec)

/-- **C171.** Let `R` relate entries of the parameters, and let the gradients at related entries agree wherever all related entries of the parameters
do (as for the weights of interchangeable hidden units).  Trained by any entrywise optimiser from parameters where they agree, they agree at every
step. -/
theorem C171_tied {t : GT ℝ} (ht : EntrywiseT t) (R : ℕ × ℕ → ℕ × ℕ → Prop)
    (hR : ∀ a b, R a b → (⟨a.1, a.2⟩ : Σ _ : ℕ, ℕ) ∈ idx σ ∧ (⟨b.1, b.2⟩ : Σ _ : ℕ, ℕ) ∈ idx σ)
    (grad : ℕ → Params ℝ → Params ℝ) (G : ℕ → (ℕ → ℕ → ℝ) → ℕ → ℕ → ℝ) (hg : ∀ n p, grad n (mk σ p) = mk σ (G n p))
    (hs : ∀ n p, (∀ a b, R a b → p a.1 a.2 = p b.1 b.2) → ∀ a b, R a b → G n p a.1 a.2 = G n p b.1 b.2)
    (p0 : ℕ → ℕ → ℝ) (h0 : ∀ a b, R a b → p0 a.1 a.2 = p0 b.1 b.2) :
    ∃ P, P 0 = p0 ∧ Visits t grad σ P ∧ ∀ n a b, R a b → P n a.1 a.2 = P n b.1 b.2 := by
  obtain ⟨P, U, hP0, hP, hvP, hU⟩ := exists_visits_of σ t ht.preserves (fun p => ⟨p, rfl⟩) grad G hg p0
  refine ⟨P, hP0, hvP, fun n => ?_⟩
  induction n using Nat.strong_induction_on with
  | _ n ih =>
    cases n with
    | zero => intro a b hab; rw [hP0]; exact h0 a b hab
    | succ n =>
      intro a b hab
      obtain ⟨ha, hb⟩ := hR a b hab
      obtain ⟨s, hs1, hi⟩ := mem_idx.mp ha
      obtain ⟨s', hs1', hi'⟩ := mem_idx.mp hb
      set h : List ((ℕ → ℕ → ℝ) × Option (ℕ → ℕ → ℝ)) := (List.range (n + 1)).map (fun j => (G j (P j), some (P j))) with hh
      have hc : calls σ h = hist σ (fun n => G n (P n)) (fun n => some (mk σ (P n))) (n + 1) := by
        simp [calls, hist, hh, List.map_map, Function.comp_def]
      have hu := hU (n + 1)
      rw [← hc] at hu
      have e1 := C73_scalar ht σ p0 h _ hu a.1 a.2 s hs1 hi
      have e2 := C73_scalar ht σ p0 h _ hu b.1 b.2 s' hs1' hi'
      have eh : h.map (fun c => ((.leaf ⟨[], [c.1 a.1 a.2]⟩ : Params ℝ), c.2.map (fun p => (.leaf ⟨[], [p a.1 a.2]⟩ : Params ℝ)))) =
          h.map (fun c => ((.leaf ⟨[], [c.1 b.1 b.2]⟩ : Params ℝ), c.2.map (fun p => (.leaf ⟨[], [p b.1 b.2]⟩ : Params ℝ)))) := by
        rw [hh, List.map_map, List.map_map]
        refine List.map_congr_left fun j hj => ?_
        have hj' : j < n + 1 := List.mem_range.mp hj
        have t1 := ih j hj'
        simp only [Function.comp, Option.map_some]
        rw [t1 a b hab, hs j (P j) t1 a b hab]
      rw [eh, h0 a b hab, e2] at e1
      have e3 := Except.ok.inj e1
      have e4 := congrArg (fun l => l[n]?) e3
      simp only [List.map_map, List.getElem?_map, List.getElem?_range (Nat.lt_succ_self n), Option.map_some, Function.comp,
        Option.some.injEq, PyTree.leaf.injEq, Tensor.mk.injEq, List.cons.injEq, true_and, and_true] at e4
      rw [coord_mk σ _ _ _ s' hs1' hi', coord_mk σ _ _ _ s hs1 hi] at e4
      rw [hP, hP, e4, ih n (Nat.lt_succ_self n) a b hab]

/-- `φ` maps every entry to an entry with the same value -/
def Folded {α : Type} (φ : ℕ → ℕ → ℕ × ℕ) (p : ℕ → ℕ → α) : Prop :=
  ∀ l s, σ.leaves[l]? = some s → ∀ i < s.prod, p (φ l i).1 (φ l i).2 = p l i

theorem folded_iff {α : Type} (φ : ℕ → ℕ → ℕ × ℕ) (p : ℕ → ℕ → α) : Folded σ φ p ↔ mk σ (reindex φ p) = mk σ p :=
  ⟨fun h => mk_congr fun l s hl i hi => h l s hl i hi, fun h l s hl i hi => mk_inj h l s hl i hi⟩

section any
variable {α : Type} [Zero α] [One α] [Add α] [Sub α] [Mul α] [Div α] [Neg α] [JOps α]

/-- **C171 (in every arithmetic).** The same in any arithmetic, floating point with NaN and infinities included: let `φ` map every entry to one that must
keep the same value, and let the gradients respect this wherever the parameters do.  Then training with any entrywise optimiser runs, and the
parameters respect it after every number of steps. -/
theorem C171_any_arithmetic {t : GT α} (ht : EntrywiseT t) (φ : ℕ → ℕ → ℕ × ℕ) (grad : ℕ → Params α → Params α)
    (G : ℕ → (ℕ → ℕ → α) → ℕ → ℕ → α) (hg : ∀ n p, grad n (mk σ p) = mk σ (G n p))
    (hs : ∀ n p, Folded σ φ p → Folded σ φ (G n p)) (p0 : ℕ → ℕ → α) (h0 : Folded σ φ p0) (n : ℕ) :
    ∃ p s0 s, t.init (mk σ p0) = .ok s0 ∧ trainLoop t grad n s0 (mk σ p0) = .ok (mk σ p, s) ∧ Folded σ φ p := by
  obtain ⟨R, hR1, hR2⟩ := ht.reindexable σ σ φ
  obtain ⟨I, hI1, hI2⟩ := ht.preserves σ
  obtain ⟨s0, hi0, hs0⟩ := hI1 p0
  have hR0 : R s0 s0 := by
    have := hR1 p0
    rw [(folded_iff σ φ p0).mp h0, hi0] at this
    exact this
  suffices H : ∃ p s, trainLoop t grad n s0 (mk σ p0) = .ok (mk σ p, s) ∧ I s ∧ R s s ∧ Folded σ φ p by
    obtain ⟨p, s, a, _, _, b⟩ := H
    exact ⟨p, s0, s, hi0, a, b⟩
  induction n with
  | zero => exact ⟨p0, s0, rfl, hs0, hR0, h0⟩
  | succ n ih =>
    obtain ⟨p, s, h1, hIs, hRs, hF⟩ := ih
    obtain ⟨u, s1, hu, hs1⟩ := hI2 (G n p) s (some (mk σ p)) hIs ⟨_, rfl⟩
    have h2 := hR2 (G n p) s s (some p) hRs
    simp only [Option.map_some] at h2
    rw [(folded_iff σ φ p).mp hF, (folded_iff σ φ (G n p)).mp (hs n p hF), hu] at h2
    rcases Res.rel_ok h2 with ⟨x, y, hx, hy, ⟨u', hu1, hu2⟩, hxy⟩ | ⟨e, hx, _⟩
    · injection hx with hx
      injection hy with hy
      subst hx hy
      simp only at hu1 hu2 hxy
      have hF' : Folded σ φ u' := (folded_iff σ φ u').mpr (hu1.symm.trans hu2)
      refine ⟨fun k i => p k i + u' k i, s1, ?_, hs1, hxy, fun l sh hl i hi => ?_⟩
      · refine trainLoop_succ t grad n _ s s1 _ _ _ (mk σ u') h1 (by rw [hg, ← hu2]; exact hu) (C06_apply_updates σ p u')
      · show p _ _ + u' _ _ = p l i + u' l i
        rw [hF l sh hl i hi, hF' l sh hl i hi]
    · cases hx

end any

/-- The optimisers of the library it applies to. -/
theorem C171_optimisers (lr : LR ℝ) (b1 b2 eps er wd : ℝ) (m : Option ℝ) (nes cen : Bool) (t : GT ℝ)
    (h : t = sgd lr m nes ∨ t = adagrad lr b1 eps ∨ t = rmsprop lr b1 eps b2 cen m nes ∨ t = adam lr b1 b2 eps er ∨
      t = adamw lr b1 b2 eps er wd ∨ t = adabelief lr b1 b2 eps ∨ t = radam lr b1 b2 eps er wd ∨ t = yogi lr b1 b2 eps) :
    EntrywiseT t := by
  obtain ⟨h1, h2, h3, h4, h5, h6, h7, h8⟩ := C73_aliases lr b1 b2 eps er wd m nes cen
  rcases h with rfl | rfl | rfl | rfl | rfl | rfl | rfl | rfl <;> assumption

/-- Two interchangeable parameters: gradients `f'(a² + b²) (a, b)` meet the hypotheses. -/
example (f' : ℝ → ℝ) : let R : ℕ × ℕ → ℕ × ℕ → Prop := fun a b => a = (0, 0) ∧ b = (0, 1)
    (∀ a b, R a b → (⟨a.1, a.2⟩ : Σ _ : ℕ, ℕ) ∈ idx (.leaf [2]) ∧ (⟨b.1, b.2⟩ : Σ _ : ℕ, ℕ) ∈ idx (.leaf [2])) ∧
    ∀ p : ℕ → ℕ → ℝ, (∀ a b, R a b → p a.1 a.2 = p b.1 b.2) → ∀ a b, R a b →
      (fun _ i => f' (p 0 0 ^ 2 + p 0 1 ^ 2) * p 0 i : ℕ → ℕ → ℝ) a.1 a.2 = (fun _ i => f' (p 0 0 ^ 2 + p 0 1 ^ 2) * p 0 i : ℕ → ℕ → ℝ) b.1 b.2 := by
  intro R
  refine ⟨?_, ?_⟩
  · rintro a b ⟨rfl, rfl⟩
    decide
  · rintro p hp a b ⟨rfl, rfl⟩
    have := hp _ _ ⟨rfl, rfl⟩
    simp only at this ⊢
    rw [this]

/-- Exchanging the two entries of a constant parameter vector keeps every value. -/
example (c : ℝ) : Folded (.leaf [2]) (fun _ i => (0, 1 - i)) (fun _ _ => c) := fun _ _ _ _ _ => rfl

end Optax
