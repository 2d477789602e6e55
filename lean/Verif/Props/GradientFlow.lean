import Verif.Props.Stability
import Verif.Props.AdamStationary
import Verif.Props.EffectiveRate
import Mathlib.Analysis.Calculus.MeanValue
import Mathlib.Analysis.Calculus.Deriv.Prod
import Mathlib.Analysis.SpecialFunctions.Trigonometric.ArctanDeriv
import Mathlib.Analysis.InnerProductSpace.Calculus

/-!
# C156: `sgd` follows the gradient flow
-/

set_option linter.unusedSectionVars false
set_option linter.unusedSimpArgs false

namespace Optax
open Finset Filter Topology
variable (σ : Spec)

/-- `x` is a solution, for all times `t ≥ 0`, of the gradient flow `x' = -G(x)`: every entry `(k, i)` of the tree has at time `t` the derivative `-G (x t) k i` -/
def GradientFlow (G : (ℕ → ℕ → ℝ) → ℕ → ℕ → ℝ) (x : ℝ → ℕ → ℕ → ℝ) : Prop :=
  ∀ t, 0 ≤ t → ∀ y ∈ idx σ, HasDerivWithinAt (fun s => x s y.1 y.2) (-G (x t) y.1 y.2) (Set.Ici 0) t

/-- training time: the sum of the learning rates of the first `N` steps -/
noncomputable def trainTime (lr : LR ℝ) (N : ℕ) : ℝ := ∑ n ∈ range N, lr.at n

section local_error

/-- the entries as a vector -/
noncomputable def vec (f : ℕ → ℕ → ℝ) : EuclideanSpace ℝ (idx σ) := WithLp.toLp 2 fun y => f y.1.1 y.1.2

theorem vec_norm (f : ℕ → ℕ → ℝ) : ‖vec σ f‖ = l2 (idx σ) (fun y => f y.1 y.2) := by
  rw [EuclideanSpace.norm_eq]
  unfold l2 vec
  congr 1
  simp only [Real.norm_eq_abs, sq_abs]
  exact Finset.sum_coe_sort (idx σ) (fun x => f x.1 x.2 ^ 2)

theorem vec_deriv {x : ℝ → ℕ → ℕ → ℝ} {x' : ℕ → ℕ → ℝ} {s : Set ℝ} {t : ℝ} (h : ∀ y ∈ idx σ, HasDerivWithinAt (fun s => x s y.1 y.2) (x' y.1 y.2) s t) :
    HasDerivWithinAt (fun s => vec σ (x s)) (vec σ x') s t := by
  have h1 : HasDerivWithinAt (fun s (y : idx σ) => x s y.1.1 y.1.2) (fun y => x' y.1.1 y.1.2) s t :=
    hasDerivWithinAt_pi.2 fun y => h y.1 y.2
  have h2 := (PiLp.continuousLinearEquiv 2 ℝ (fun _ : idx σ => ℝ)).symm.toContinuousLinearMap.hasFDerivAt (x := fun y : idx σ => x t y.1.1 y.1.2)
  exact h2.comp_hasDerivWithinAt t h1

variable {σ} {G : (ℕ → ℕ → ℝ) → ℕ → ℕ → ℝ} {x : ℝ → ℕ → ℕ → ℝ} {L B t η : ℝ}

theorem flow_moves (hx : GradientFlow σ G x) (ht : 0 ≤ t) (hB : ∀ s, t ≤ s → s ≤ t + η → globalNorm (mk σ (G (x s))) ≤ B) {s : ℝ} (h1 : t ≤ s) (h2 : s ≤ t + η) :
    treeDist σ (x s) (x t) ≤ B * (s - t) := by
  have hd : ∀ s, t ≤ s → HasDerivWithinAt (fun s => vec σ (x s)) (vec σ fun k i => -G (x s) k i) (Set.Ici 0) s :=
    fun s h => vec_deriv σ (hx s (ht.trans h))
  have h3 := norm_image_sub_le_of_norm_deriv_right_le_segment (f := fun s => vec σ (x s)) (f' := fun s => vec σ fun k i => -G (x s) k i) (a := t) (b := t + η) (C := B)
    (fun s hs => (hd s hs.1).continuousWithinAt.mono fun r hr => ht.trans hr.1)
    (fun s hs => (hd s hs.1).mono fun r hr => (ht.trans hs.1).trans hr) (fun s hs => by
      rw [vec_norm]
      have h := hB s hs.1 hs.2.le
      rw [globalNorm_mk] at h
      have e := l2_smul (idx σ) (fun y => G (x s) y.1 y.2) (-1)
      rw [abs_neg, abs_one, one_mul] at e
      simp only [neg_one_mul] at e
      rw [e]
      exact h) s ⟨h1, h2⟩
  have e : vec σ (x s) - vec σ (x t) = vec σ (fun k i => x s k i - x t k i) := rfl
  rw [e, vec_norm] at h3
  rw [treeDist_l2]
  exact h3

/-- one step of length `η` against the flow -/
theorem flow_step (hL : 0 ≤ L) (hlip : LipschitzGrad σ L G) (hx : GradientFlow σ G x) (ht : 0 ≤ t) (hη : 0 ≤ η)
    (hB : ∀ s, t ≤ s → s ≤ t + η → globalNorm (mk σ (G (x s))) ≤ B) :
    treeDist σ (fun k i => x t k i - η * G (x t) k i) (x (t + η)) ≤ L * B * η ^ 2 / 2 := by
  have hd : ∀ s, t ≤ s → HasDerivWithinAt (fun s => vec σ (fun k i => x t k i - (s - t) * G (x t) k i - x s k i))
      (vec σ fun k i => G (x s) k i - G (x t) k i) (Set.Ici 0) s := fun s h => by
    refine vec_deriv σ fun y hy => ?_
    have h1 := hx s (ht.trans h) y hy
    have h2 : HasDerivWithinAt (fun s => x t y.1 y.2 - (s - t) * G (x t) y.1 y.2) (-G (x t) y.1 y.2) (Set.Ici 0) s := by
      have := ((((hasDerivAt_id s).sub_const t).mul_const (G (x t) y.1 y.2)).const_sub (x t y.1 y.2)).hasDerivWithinAt (s := Set.Ici 0)
      simpa using this
    exact (h2.sub h1).congr_deriv (by ring)
  have h3 := image_norm_le_of_norm_deriv_right_le_deriv_boundary (a := t) (b := t + η) (f := fun s => vec σ (fun k i => x t k i - (s - t) * G (x t) k i - x s k i))
    (f' := fun s => vec σ fun k i => G (x s) k i - G (x t) k i) (B := fun s => L * B * (s - t) ^ 2 / 2) (B' := fun s => L * (B * (s - t)))
    (fun s hs => (hd s hs.1).continuousWithinAt.mono fun r hr => ht.trans hr.1)
    (fun s hs => (hd s hs.1).mono fun r hr => (ht.trans hs.1).trans hr)
    (by rw [vec_norm]; simp [l2])
    (fun s => by
      have := ((((hasDerivAt_id s).sub_const t).pow 2).const_mul (L * B)).div_const 2
      exact this.congr_deriv (by simp; ring))
    (fun s hs => by
      rw [vec_norm]
      have h1 := hlip (x s) (x t)
      rw [treeDist_l2] at h1
      exact h1.trans (mul_le_mul_of_nonneg_left (flow_moves hx ht hB hs.1 hs.2.le) hL)) ⟨by linarith, le_rfl⟩
  rw [vec_norm] at h3
  rw [treeDist_l2]
  simpa using h3

end local_error

theorem treeDist_triangle (a b c : ℕ → ℕ → ℝ) : treeDist σ a c ≤ treeDist σ a b + treeDist σ b c := by
  simp only [treeDist_l2]
  refine le_trans (le_of_eq ?_) (l2_add_le (idx σ) (fun x => a x.1 x.2 - b x.1 x.2) (fun x => b x.1 x.2 - c x.1 x.2))
  exact l2_congr _ fun x _ => by ring

theorem trainTime_mono {lr : LR ℝ} (hlr : ∀ n, 0 ≤ lr.at n) {m n : ℕ} (h : m ≤ n) : trainTime lr m ≤ trainTime lr n :=
  Finset.sum_le_sum_of_subset_of_nonneg (Finset.range_mono h) fun _ _ _ => hlr _

theorem trainTime_nonneg {lr : LR ℝ} (hlr : ∀ n, 0 ≤ lr.at n) (n : ℕ) : 0 ≤ trainTime lr n := Finset.sum_nonneg fun _ _ => hlr _

section main
variable {σ} (lr : LR ℝ) (nes : Bool) {h : ℝ} {grad : ℕ → Params ℝ → Params ℝ} {G : (ℕ → ℕ → ℝ) → ℕ → ℕ → ℝ} {x : ℝ → ℕ → ℕ → ℝ} {L B : ℝ}

/-- **C156 (finite horizon).** Train with `sgd(lr)`, any schedule with rates in `[0, h]`, on a loss with `L`-Lipschitz gradients, and compare with the gradient flow `x' = -∇loss(x)` started at the same point.
As long as the gradient along the flow is at most `B`, the parameters after `N` steps are within `h B (e^(L t) - 1)/2` of the flow at time `t`, `t` being the sum of the learning rates used. -/
theorem C156_flow (hlr : ∀ n, 0 ≤ lr.at n ∧ lr.at n ≤ h) (hg : ∀ n p, grad n (mk σ p) = mk σ (G p)) (hL : 0 ≤ L) (hlip : LipschitzGrad σ L G)
    (hx : GradientFlow σ G x) :
    ∃ P, P 0 = x 0 ∧ Visits (sgd lr none nes) grad σ P ∧
      ∀ N : ℕ, (∀ s, 0 ≤ s → s ≤ trainTime lr N → globalNorm (mk σ (G (x s))) ≤ B) →
        treeDist σ (P N) (x (trainTime lr N)) ≤ h * B * (Real.exp (L * trainTime lr N) - 1) / 2 := by
  refine ⟨_, rfl, sgd_visits σ lr nes grad (fun _ => G) hg (x 0), fun N hB => ?_⟩
  set P := plainSgd lr.at (fun _ => G) (x 0) with hP
  have hB0 : 0 ≤ B := by
    refine le_trans ?_ (hB 0 le_rfl (trainTime_nonneg (fun n => (hlr n).1) N))
    rw [globalNorm_mk]; exact l2_nonneg _ _
  suffices H : ∀ n ≤ N, treeDist σ (P n) (x (trainTime lr n)) ≤ h * B * (Real.exp (L * trainTime lr n) - 1) / 2 from H N le_rfl
  intro n
  induction n with
  | zero =>
    intro _
    have : treeDist σ (P 0) (x (trainTime lr 0)) = 0 := by
      rw [treeDist_l2]; simp [hP, plainSgd, trainTime, l2]
    rw [this]
    simp [trainTime]
  | succ n ih =>
    intro hn
    have ih := ih (by omega)
    obtain ⟨hη, hηh⟩ := hlr n
    have ht := trainTime_nonneg (fun n => (hlr n).1) n
    have hs : trainTime lr (n + 1) = trainTime lr n + lr.at n := Finset.sum_range_succ _ _
    have h1 := flow_step hL hlip hx ht hη (B := B) (fun s h1 h2 => hB s (ht.trans h1) (h2.trans (hs ▸ trainTime_mono (fun n => (hlr n).1) hn)))
    rw [← hs] at h1
    have h2 : treeDist σ (P (n + 1)) (fun k i => x (trainTime lr n) k i - lr.at n * G (x (trainTime lr n)) k i) ≤ (1 + lr.at n * L) * treeDist σ (P n) (x (trainTime lr n)) := by
      have e : treeDist σ (P (n + 1)) (fun k i => x (trainTime lr n) k i - lr.at n * G (x (trainTime lr n)) k i) ≤
          treeDist σ (P n) (x (trainTime lr n)) + lr.at n * treeDist σ (G (P n)) (G (x (trainTime lr n))) := by
        simp only [treeDist_l2]
        rw [← abs_of_nonneg hη, ← l2_smul]
        refine le_trans (le_of_eq ?_) (l2_sub_le (idx σ) _ _)
        refine l2_congr _ fun y _ => ?_
        rw [abs_of_nonneg hη]
        simp only [hP, plainSgd]
        ring
      have := mul_le_mul_of_nonneg_left (hlip (P n) (x (trainTime lr n))) hη
      linarith
    have h3 := treeDist_triangle σ (P (n + 1)) (fun k i => x (trainTime lr n) k i - lr.at n * G (x (trainTime lr n)) k i) (x (trainTime lr (n + 1)))
    have hηL := mul_nonneg hη hL
    have h4 := mul_le_mul_of_nonneg_left ih (show 0 ≤ 1 + lr.at n * L by linarith)
    have h5 : 1 + lr.at n * L ≤ Real.exp (L * lr.at n) := by
      have := Real.add_one_le_exp (L * lr.at n)
      linarith
    set E := Real.exp (L * trainTime lr n) with hE
    have hE0 : 0 < E := Real.exp_pos _
    have h6 : Real.exp (L * trainTime lr (n + 1)) = E * Real.exp (L * lr.at n) := by rw [hs, mul_add, Real.exp_add]
    have h7 : L * B * lr.at n ^ 2 ≤ h * B * (lr.at n * L) := by
      have := mul_le_mul_of_nonneg_right hηh (mul_nonneg (mul_nonneg hL hB0) hη)
      nlinarith
    have h8 := mul_le_mul_of_nonneg_left h5 (mul_nonneg (mul_nonneg (hη.trans hηh) hB0) hE0.le)
    rw [h6]
    nlinarith

/-- **C156 (convex).** If moreover the loss is convex and the rates are at most `2/L` the error does not build up: it is at most `h L B t/2`. -/
theorem C156_convex {loss : Params ℝ → ℝ} (hlr : ∀ n, 0 ≤ lr.at n ∧ lr.at n ≤ h ∧ lr.at n * L ≤ 2) (hg : ∀ n p, grad n (mk σ p) = mk σ (G p)) (hL : 0 ≤ L) (hlip : LipschitzGrad σ L G)
    (hs : Smooth σ L loss G) (hc : StronglyConvex σ 0 loss G) (hx : GradientFlow σ G x) :
    ∃ P, P 0 = x 0 ∧ Visits (sgd lr none nes) grad σ P ∧
      ∀ N : ℕ, (∀ s, 0 ≤ s → s ≤ trainTime lr N → globalNorm (mk σ (G (x s))) ≤ B) →
        treeDist σ (P N) (x (trainTime lr N)) ≤ h * L * B * trainTime lr N / 2 := by
  refine ⟨_, rfl, sgd_visits σ lr nes grad (fun _ => G) hg (x 0), fun N hB => ?_⟩
  set P := plainSgd lr.at (fun _ => G) (x 0) with hP
  have hB0 : 0 ≤ B := by
    refine le_trans ?_ (hB 0 le_rfl (trainTime_nonneg (fun n => (hlr n).1) N))
    rw [globalNorm_mk]; exact l2_nonneg _ _
  suffices H : ∀ n ≤ N, treeDist σ (P n) (x (trainTime lr n)) ≤ h * L * B * trainTime lr n / 2 from H N le_rfl
  intro n
  induction n with
  | zero =>
    intro _
    rw [treeDist_l2]; simp [hP, plainSgd, trainTime, l2]
  | succ n ih =>
    intro hn
    have ih := ih (by omega)
    obtain ⟨hη, hηh, hη2⟩ := hlr n
    have ht := trainTime_nonneg (fun n => (hlr n).1) n
    have hs' : trainTime lr (n + 1) = trainTime lr n + lr.at n := Finset.sum_range_succ _ _
    have h1 := flow_step hL hlip hx ht hη (B := B) (fun s h1 h2 => hB s (ht.trans h1) (h2.trans (hs' ▸ trainTime_mono (fun n => (hlr n).1) hn)))
    rw [← hs'] at h1
    have h2 := step_contract σ hL hη (by linarith) hs hc (P n) (x (trainTime lr n))
    have h3 := treeDist_triangle σ (P (n + 1)) (fun k i => x (trainTime lr n) k i - lr.at n * G (x (trainTime lr n)) k i) (x (trainTime lr (n + 1)))
    have e : (fun k i => P n k i - lr.at n * G (P n) k i) = P (n + 1) := rfl
    rw [e] at h2
    have h7 : L * B * lr.at n ^ 2 ≤ h * B * (lr.at n * L) := by
      have := mul_le_mul_of_nonneg_right hηh (mul_nonneg (mul_nonneg hL hB0) hη)
      nlinarith
    rw [hs']
    rw [hs'] at h3 h1
    nlinarith

/-- **C156 (strongly convex).** On a `μ`-strongly convex loss the error stays below `h L B/(2 μ)` for ever. -/
theorem C156_strong {loss : Params ℝ → ℝ} {μ : ℝ} (hμ : 0 < μ) (hμL : μ ≤ L) (hlr : ∀ n, 0 ≤ lr.at n ∧ lr.at n ≤ h ∧ lr.at n * (L + μ) ≤ 2)
    (hg : ∀ n p, grad n (mk σ p) = mk σ (G p)) (hlip : LipschitzGrad σ L G)
    (hs : Smooth σ L loss G) (hc : StronglyConvex σ μ loss G) (hx : GradientFlow σ G x) (hB : ∀ s, 0 ≤ s → globalNorm (mk σ (G (x s))) ≤ B) :
    ∃ P, P 0 = x 0 ∧ Visits (sgd lr none nes) grad σ P ∧
      ∀ N : ℕ, treeDist σ (P N) (x (trainTime lr N)) ≤ h * L * B / (2 * μ) := by
  refine ⟨_, rfl, sgd_visits σ lr nes grad (fun _ => G) hg (x 0), fun N => ?_⟩
  set P := plainSgd lr.at (fun _ => G) (x 0) with hP
  have hL : 0 ≤ L := by linarith
  have hB0 : 0 ≤ B := by
    refine le_trans ?_ (hB 0 le_rfl)
    rw [globalNorm_mk]; exact l2_nonneg _ _
  have hh : 0 ≤ h := (hlr 0).1.trans (hlr 0).2.1
  set K := h * L * B / (2 * μ) with hK
  have hK2 : K * μ = h * L * B / 2 := by rw [hK]; field_simp
  induction N with
  | zero =>
    have : 0 ≤ K := by rw [hK]; positivity
    rw [treeDist_l2]; simpa [hP, plainSgd, trainTime, l2] using this
  | succ n ih =>
    obtain ⟨hη, hηh, hη2⟩ := hlr n
    have ht := trainTime_nonneg (fun n => (hlr n).1) n
    have hs' : trainTime lr (n + 1) = trainTime lr n + lr.at n := Finset.sum_range_succ _ _
    have h1 := flow_step hL hlip hx ht hη (B := B) (fun s h1 h2 => hB s (ht.trans h1))
    rw [← hs'] at h1
    have h2 := step_contract σ hμL hη (by linarith) hs hc (P n) (x (trainTime lr n))
    have h3 := treeDist_triangle σ (P (n + 1)) (fun k i => x (trainTime lr n) k i - lr.at n * G (x (trainTime lr n)) k i) (x (trainTime lr (n + 1)))
    have e : (fun k i => P n k i - lr.at n * G (P n) k i) = P (n + 1) := rfl
    rw [e] at h2
    have h7 : L * B * lr.at n ^ 2 ≤ h * L * B * lr.at n := by
      have := mul_le_mul_of_nonneg_right hηh (mul_nonneg (mul_nonneg hL hB0) hη)
      nlinarith
    have hημ : lr.at n * μ ≤ 1 := by nlinarith
    have h8 := mul_le_mul_of_nonneg_left ih (show 0 ≤ 1 - lr.at n * μ by linarith)
    have h9 : lr.at n * (K * μ) = lr.at n * (h * L * B / 2) := by rw [hK2]
    nlinarith

/-- **C156 (only the total counts).** Two runs of `sgd` from the same start with different schedules (and numbers of steps) but the same sum of the learning rates end within `(h + h') B (e^(L t) - 1)/2` of each other. -/
theorem C156_total (lr' : LR ℝ) {h' : ℝ} (hlr : ∀ n, 0 ≤ lr.at n ∧ lr.at n ≤ h) (hlr' : ∀ n, 0 ≤ lr'.at n ∧ lr'.at n ≤ h') (hg : ∀ n p, grad n (mk σ p) = mk σ (G p)) (hL : 0 ≤ L)
    (hlip : LipschitzGrad σ L G) (hx : GradientFlow σ G x) :
    ∃ P P', P 0 = x 0 ∧ P' 0 = x 0 ∧ Visits (sgd lr none nes) grad σ P ∧ Visits (sgd lr' none nes) grad σ P' ∧
      ∀ N M : ℕ, trainTime lr N = trainTime lr' M → (∀ s, 0 ≤ s → s ≤ trainTime lr N → globalNorm (mk σ (G (x s))) ≤ B) →
        treeDist σ (P N) (P' M) ≤ (h + h') * B * (Real.exp (L * trainTime lr N) - 1) / 2 := by
  obtain ⟨P, h0, hv, H⟩ := C156_flow (B := B) lr nes hlr hg hL hlip hx
  obtain ⟨P', h0', hv', H'⟩ := C156_flow (B := B) lr' nes hlr' hg hL hlip hx
  refine ⟨P, P', h0, h0', hv, hv', fun N M e hB => ?_⟩
  have h1 := H N hB
  have h2 := H' M (e ▸ hB)
  rw [← e] at h2
  have h3 := treeDist_triangle σ (P N) (x (trainTime lr N)) (P' M)
  have h4 : treeDist σ (x (trainTime lr N)) (P' M) = treeDist σ (P' M) (x (trainTime lr N)) := by
    rw [treeDist_l2, treeDist_l2]
    unfold l2
    congr 1
    exact Finset.sum_congr rfl fun y _ => by ring
  rw [h4] at h3
  linarith

/-- **C156 (momentum).** `sgd(η, momentum=β)` follows the flow with the rate `h = η/(1-β)` per step: with all gradients at most `B`, after `N` steps the parameters are within
`h B (β/(1-β) e^(L h N) + (e^(L h N) - 1)/2)` of the flow at time `h N`. -/
theorem C156_momentum (η β : ℝ) (hη : 0 ≤ η) (h0 : 0 ≤ β) (h1 : β < 1) (hg : ∀ n p, grad n (mk σ p) = mk σ (G p)) (hL : 0 ≤ L) (hlip : LipschitzGrad σ L G)
    (hB : ∀ p : ℕ → ℕ → ℝ, globalNorm (mk σ (G p)) ≤ B) (hx : GradientFlow σ G x) (hh : h = η / (1 - β)) :
    ∃ P, P 0 = x 0 ∧ Visits (sgd (.scalar η) (some β) nes) grad σ P ∧
      ∀ N : ℕ, treeDist σ (P N) (x (h * N)) ≤ h * B * (β / (1 - β) * Real.exp (L * (h * N)) + (Real.exp (L * (h * N)) - 1) / 2) := by
  obtain ⟨P, q0, q1, q2, -⟩ := C150_effective_rate σ η β h1.ne nes grad (fun _ => G) hg (x 0)
  refine ⟨P, q0, q1, fun N => ?_⟩
  have hb : 0 < 1 - β := by linarith
  have hh0 : 0 ≤ h := by rw [hh]; positivity
  have hG : ∀ p : ℕ → ℕ → ℝ, l2 (idx σ) (fun y => G p y.1 y.2) ≤ B := fun p => by have := hB p; rwa [globalNorm_mk] at this
  have hB0 : 0 ≤ B := (l2_nonneg _ _).trans (hG (x 0))
  set δ := h * B * (β / (1 - β)) with hδ
  have hδ0 : 0 ≤ δ := by rw [hδ]; positivity
  let z : ℕ → ℕ → ℕ → ℝ := fun N k i => x 0 k i - h * ∑ j ∈ range N, G (P j) k i
  have hPz : ∀ N, treeDist σ (P N) (z N) ≤ δ := by
    intro N
    rw [treeDist_l2]
    have e : ∀ y ∈ idx σ, P N y.1 y.2 - z N y.1 y.2 = ∑ j ∈ range N, (h * β ^ (if nes then N - j + 1 else N - j)) * G (P j) y.1 y.2 := fun y _ => by
      rw [q2, ← hh, Finset.mul_sum]
      simp only [z]
      rw [Finset.mul_sum, sub_sub_sub_cancel_left, ← Finset.sum_sub_distrib]
      exact Finset.sum_congr rfl fun j _ => by ring
    rw [l2_congr _ e]
    refine (l2_sum_le (idx σ) (range N) _).trans ?_
    have e2 : ∀ j ∈ range N, l2 (idx σ) (fun y => (h * β ^ (if nes then N - j + 1 else N - j)) * G (P j) y.1 y.2) ≤ h * B * (β * β ^ (N - 1 - j)) := by
      intro j hj
      have hj := Finset.mem_range.1 hj
      rw [l2_smul, abs_of_nonneg (by positivity)]
      have h3 : β ^ (if nes then N - j + 1 else N - j) ≤ β * β ^ (N - 1 - j) := by
        rw [← pow_succ']
        refine pow_le_pow_of_le_one h0 h1.le ?_
        split_ifs <;> omega
      have h4 := mul_le_mul h3 (hG (P j)) (l2_nonneg _ _) (by positivity)
      have h5 := mul_le_mul_of_nonneg_left h4 hh0
      linarith
    refine (Finset.sum_le_sum e2).trans ?_
    rw [← Finset.mul_sum, ← Finset.mul_sum, Finset.sum_range_reflect (fun j => β ^ j) N, hδ, div_eq_mul_inv]
    refine mul_le_mul_of_nonneg_left (mul_le_mul_of_nonneg_left ?_ h0) (by positivity)
    rw [geom_sum_eq h1.ne, ← neg_div_neg_eq, neg_sub, neg_sub, ← one_div]
    exact div_le_div_of_nonneg_right (by have := pow_nonneg h0 N; linarith) hb.le
  have H : ∀ n : ℕ, treeDist σ (z n) (x (h * n)) ≤ (δ + h * B / 2) * (Real.exp (L * (h * n)) - 1) := by
    intro n
    induction n with
    | zero => rw [treeDist_l2]; simp [z, l2]
    | succ n ih =>
      have ht : 0 ≤ h * (n : ℝ) := by positivity
      have h3 := flow_step hL hlip hx ht hh0 (B := B) (fun s _ _ => hB _)
      have es : h * ((n + 1 : ℕ) : ℝ) = h * n + h := by push_cast; ring
      rw [← es] at h3
      have h4 : treeDist σ (z (n + 1)) (fun k i => x (h * n) k i - h * G (x (h * n)) k i) ≤
          treeDist σ (z n) (x (h * n)) + h * treeDist σ (G (P n)) (G (x (h * n))) := by
        simp only [treeDist_l2]
        rw [← abs_of_nonneg hh0, ← l2_smul]
        refine le_trans (le_of_eq ?_) (l2_sub_le (idx σ) _ _)
        refine l2_congr _ fun y _ => ?_
        simp only [z, Finset.sum_range_succ, abs_of_nonneg hh0]
        ring
      have h5 := hlip (P n) (x (h * n))
      have h6 := treeDist_triangle σ (P n) (z n) (x (h * n))
      have h7 := treeDist_triangle σ (z (n + 1)) (fun k i => x (h * n) k i - h * G (x (h * n)) k i) (x (h * (n + 1 : ℕ)))
      have h8 : treeDist σ (G (P n)) (G (x (h * n))) ≤ L * (δ + treeDist σ (z n) (x (h * n))) :=
        h5.trans (mul_le_mul_of_nonneg_left (h6.trans (by linarith [hPz n])) hL)
      have h9 := mul_le_mul_of_nonneg_left h8 hh0
      have hhL := mul_nonneg hh0 hL
      have h10 := mul_le_mul_of_nonneg_left ih (show 0 ≤ 1 + h * L by linarith)
      have h11 : 1 + h * L ≤ Real.exp (L * h) := by
        have := Real.add_one_le_exp (L * h)
        linarith
      set E := Real.exp (L * (h * n)) with hE
      have hE0 : 0 < E := Real.exp_pos _
      have h12 : Real.exp (L * (h * (n + 1 : ℕ))) = E * Real.exp (L * h) := by rw [es, mul_add, Real.exp_add]
      have hK : 0 ≤ δ + h * B / 2 := by positivity
      have h13 := mul_le_mul_of_nonneg_left h11 (mul_nonneg hK hE0.le)
      rw [h12]
      nlinarith
  have h3 := treeDist_triangle σ (P N) (z N) (x (h * N))
  have h4 := H N
  have h5 := hPz N
  have e : h * B * (β / (1 - β) * Real.exp (L * (h * N)) + (Real.exp (L * (h * N)) - 1) / 2) = δ + (δ + h * B / 2) * (Real.exp (L * (h * N)) - 1) := by
    rw [hδ]; ring
  rw [e]
  linarith

/-- the hypotheses of `C156_flow`, `C156_convex`, `C156_strong` and `C156_total` are met by the loss `‖p‖²/2`, whose flow is `e^(-t) q`, with `L = μ = 1` and `B = ‖q‖` -/
example (q : ℕ → ℕ → ℝ) : LipschitzGrad σ 1 (fun p => p) ∧ GradientFlow σ (fun p => p) (fun t k i => Real.exp (-t) * q k i) ∧
    Smooth σ 1 (fun t => (∑ y ∈ idx σ, coord t y.1 y.2 ^ 2) / 2) (fun p => p) ∧ StronglyConvex σ 1 (fun t => (∑ y ∈ idx σ, coord t y.1 y.2 ^ 2) / 2) (fun p => p) ∧
    ∀ s, 0 ≤ s → globalNorm (mk σ (fun k i => Real.exp (-s) * q k i)) ≤ globalNorm (mk σ q) := by
  have e : ∀ p : ℕ → ℕ → ℝ, ∑ y ∈ idx σ, coord (mk σ p) y.1 y.2 ^ 2 = ∑ y ∈ idx σ, p y.1 y.2 ^ 2 := fun p => by
    refine Finset.sum_congr rfl fun x hx => ?_
    obtain ⟨s, h1, h2⟩ := mem_idx.mp hx
    rw [coord_mk _ _ _ _ s h1 h2]
  have e2 : ∀ p q : ℕ → ℕ → ℝ, (∑ y ∈ idx σ, p y.1 y.2 ^ 2) / 2 + treeInner σ p (fun k i => q k i - p k i) + 1 / 2 * sqDist σ q p = (∑ y ∈ idx σ, q y.1 y.2 ^ 2) / 2 := fun p q => by
    unfold treeInner sqDist
    rw [Finset.sum_div, Finset.sum_div, Finset.mul_sum, ← Finset.sum_add_distrib, ← Finset.sum_add_distrib]
    exact Finset.sum_congr rfl fun y _ => by ring
  refine ⟨fun p q => (one_mul _).ge, fun t ht y hy => ?_, fun p q => ?_, fun p q => ?_, fun s hs => ?_⟩
  · have := ((hasDerivAt_neg t).exp.mul_const (q y.1 y.2)).hasDerivWithinAt (s := Set.Ici 0)
    exact this.congr_deriv (by ring)
  · beta_reduce
    rw [e, e, e2]
  · beta_reduce
    rw [e, e, e2]
  · rw [globalNorm_mk, globalNorm_mk]
    unfold entryNorm
    rw [l2_smul, abs_of_pos (Real.exp_pos _)]
    exact mul_le_of_le_one_left (l2_nonneg _ _) (Real.exp_le_one_iff.2 (by linarith))

/-- the hypotheses of `C156_momentum` are met by the loss `∑ cos`, every entry of whose flow is `2 arctan (e^t)` -/
example : LipschitzGrad σ 1 (fun p k i => -Real.sin (p k i)) ∧ (∀ p : ℕ → ℕ → ℝ, globalNorm (mk σ (fun k i => -Real.sin (p k i))) ≤ √((idx σ).card : ℕ)) ∧
    GradientFlow σ (fun p k i => -Real.sin (p k i)) (fun t _ _ => 2 * Real.arctan (Real.exp t)) := by
  refine ⟨fun p q => ?_, fun p => ?_, fun t ht y hy => ?_⟩
  · rw [treeDist_l2, treeDist_l2, one_mul]
    refine l2_mono_abs _ fun y _ => ?_
    rw [neg_sub_neg, abs_sub_comm]
    exact Real.abs_sin_sub_sin_le _ _
  · rw [globalNorm_mk]
    have := l2_mono_abs (idx σ) (f := fun y => -Real.sin (p y.1 y.2)) (h := fun _ => (1 : ℝ)) fun y _ => by
      rw [abs_neg, abs_one]; exact Real.abs_sin_le_one _
    refine this.trans ?_
    rw [l2_const _ zero_le_one, one_mul]
  · have h1 := ((Real.hasDerivAt_exp t).arctan.const_mul 2).hasDerivWithinAt (s := Set.Ici 0)
    refine h1.congr_deriv ?_
    rw [neg_neg, Real.sin_two_mul, Real.sin_arctan, Real.cos_arctan]
    have h2 : √(1 + Real.exp t ^ 2) * √(1 + Real.exp t ^ 2) = 1 + Real.exp t ^ 2 := Real.mul_self_sqrt (by positivity)
    have h3 : 0 < √(1 + Real.exp t ^ 2) := Real.sqrt_pos.2 (by positivity)
    rw [show 2 * (Real.exp t / √(1 + Real.exp t ^ 2)) * (1 / √(1 + Real.exp t ^ 2)) = 2 * Real.exp t / (√(1 + Real.exp t ^ 2) * √(1 + Real.exp t ^ 2)) by field_simp, h2]
    ring

end main
end Optax
