import Verif.Model.LinAlg
import Mathlib.Analysis.Matrix.Spectrum
import Mathlib.Analysis.InnerProductSpace.PiL2

/-!
# While loops and an elementary form of the spectral theorem
-/

set_option linter.unusedSectionVars false

namespace Optax
open Matrix

/-! ## `while_loop` -/

theorem whileSteps_eq_some {σ : Type} (c : σ → Prop) (b : σ → σ) (s : σ) (n : ℕ) :
    whileSteps c b s = some n ↔ (∀ k < n, c (b^[k] s)) ∧ ¬c (b^[n] s) := by
  classical
  unfold whileSteps
  constructor
  · intro h
    split at h
    · rename_i hex
      have hn : n = Nat.find hex := by simpa using h.symm
      refine ⟨fun k hk => ?_, ?_⟩
      · rw [hn] at hk
        have := Nat.find_min hex hk
        simpa using this
      · rw [hn]; convert Nat.find_spec hex
    · simp at h
  · rintro ⟨h1, h2⟩
    have hex : ∃ n, ¬c (b^[n] s) := ⟨n, h2⟩
    rw [dif_pos hex]
    congr 1
    have h3 : ∀ m, m < n → ¬¬c (b^[m] s) := fun m hm => not_not.mpr (h1 m hm)
    have h4 := (Nat.find_eq_iff hex (m := n)).mpr ⟨h2, fun m hm => h3 m hm⟩
    convert h4

/-- a loop whose condition bounds a counter that every iteration increments stops in time -/
theorem whileSteps_bounded {σ : Type} (c : σ → Prop) (b : σ → σ) (s : σ) (ctr : σ → ℤ) (N : ℤ) (h0 : ctr s = 0)
    (hb : ∀ s, ctr (b s) = ctr s + 1) (hc : ∀ s, c s → ctr s < N) :
    ∃ n : ℕ, whileSteps c b s = some n ∧ (n : ℤ) ≤ max N 0 := by
  classical
  have hctr : ∀ n : ℕ, ctr (b^[n] s) = n := by
    intro n
    induction n with
    | zero => simpa using h0
    | succ n ih => rw [Function.iterate_succ_apply', hb, ih]; push_cast; ring
  have hex : ∃ n, ¬c (b^[n] s) := by
    refine ⟨N.toNat, fun h => ?_⟩
    have := hc _ h
    rw [hctr] at this
    omega
  obtain ⟨n, hn⟩ : ∃ n, whileSteps c b s = some n := by
    unfold whileSteps; rw [dif_pos hex]; exact ⟨_, rfl⟩
  refine ⟨n, hn, ?_⟩
  rcases Nat.eq_zero_or_pos n with h | h
  · subst h; simp
  · have h1 := ((whileSteps_eq_some c b s n).mp hn).1 (n - 1) (by omega)
    have := hc _ h1
    rw [hctr] at this
    omega

/-! ## The spectral theorem, in coordinates -/

/-- Every symmetric real matrix has an orthonormal basis of eigenvectors. -/
theorem spectral_basis {n : ℕ} (A : Matrix (Fin n) (Fin n) ℝ) (hA : Aᵀ = A) :
    ∃ (lam : Fin n → ℝ) (U : Fin n → Fin n → ℝ), (∀ i, A *ᵥ U i = lam i • U i) ∧
      (∀ i j, U i ⬝ᵥ U j = if i = j then 1 else 0) ∧ ∀ v, v = ∑ i, (U i ⬝ᵥ v) • U i := by
  have hH : A.IsHermitian := by
    rw [Matrix.IsHermitian, Matrix.conjTranspose]
    ext i j
    have := congrFun (congrFun hA i) j
    simpa using this
  have hin : ∀ (x y : EuclideanSpace ℝ (Fin n)), inner ℝ x y = x.ofLp ⬝ᵥ y.ofLp := by
    intro x y
    rw [EuclideanSpace.inner_eq_star_dotProduct, dotProduct_comm]
    simp
  refine ⟨hH.eigenvalues, fun i => (hH.eigenvectorBasis i).ofLp, ?_, ?_, ?_⟩
  · intro i; exact hH.mulVec_eigenvectorBasis i
  · intro i j
    rw [← hin]
    have := orthonormal_iff_ite.mp hH.eigenvectorBasis.orthonormal i j
    exact this
  · intro v
    have h := hH.eigenvectorBasis.sum_repr' (WithLp.toLp 2 v)
    have h2 := congrArg WithLp.ofLp h
    have h3 : v = (∑ i, inner ℝ (hH.eigenvectorBasis i) (WithLp.toLp 2 v) • hH.eigenvectorBasis i).ofLp := h2.symm
    refine h3.trans ?_
    simp [hin]

end Optax
