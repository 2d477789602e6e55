import Verif.Props.Stochastic
import Verif.Props.LookaheadConv
import Verif.Props.Loss

/-!
# C127: sgd is stable, so it generalises

Two training runs of `sgd` on data sets that differ in one example stay close together (convex smooth losses, rates at most `2/L`), and therefore the expected difference between
test loss and training loss is at most `2 C²/n` times the sum of the learning rates.
-/

set_option linter.unusedSectionVars false
set_option linter.unusedSimpArgs false

namespace Optax
open Finset

variable (σ : Spec)

theorem smooth_mono {L L' : ℝ} (h : L ≤ L') {loss : Params ℝ → ℝ} {g : (ℕ → ℕ → ℝ) → ℕ → ℕ → ℝ} (hs : Smooth σ L loss g) :
    Smooth σ L' loss g := fun p q => (hs p q).trans (by
  have := mul_le_mul_of_nonneg_right (show L / 2 ≤ L' / 2 by linarith) (sqDist_nonneg σ q p)
  linarith)

/-- a smooth convex function lies above its tangents by the squared change of the gradient -/
theorem coco_half {L : ℝ} (hL : 0 < L) {loss : Params ℝ → ℝ} {g : (ℕ → ℕ → ℝ) → ℕ → ℕ → ℝ} (hs : Smooth σ L loss g)
    (hc : StronglyConvex σ 0 loss g) (p q : ℕ → ℕ → ℝ) :
    loss (mk σ p) + treeInner σ (g p) (fun k i => q k i - p k i) + sqDist σ (g q) (g p) / (2 * L) ≤ loss (mk σ q) := by
  set z : ℕ → ℕ → ℝ := fun k i => q k i - 1 / L * (g q k i - g p k i) with hz
  have h1 := hc p z
  have h2 := hs q z
  have e1 : treeInner σ (g p) (fun k i => z k i - p k i) =
      treeInner σ (g p) (fun k i => q k i - p k i) - 1 / L * treeInner σ (g p) (fun k i => g q k i - g p k i) := by
    unfold treeInner
    rw [Finset.mul_sum, ← Finset.sum_sub_distrib]
    exact Finset.sum_congr rfl fun x _ => by simp only [hz]; ring
  have e2 : treeInner σ (g q) (fun k i => z k i - q k i) = -(1 / L) * treeInner σ (g q) (fun k i => g q k i - g p k i) := by
    unfold treeInner
    rw [Finset.mul_sum]
    exact Finset.sum_congr rfl fun x _ => by simp only [hz]; ring
  have e3 : sqDist σ z q = (1 / L) ^ 2 * sqDist σ (g q) (g p) := by
    unfold sqDist
    rw [Finset.mul_sum]
    exact Finset.sum_congr rfl fun x _ => by simp only [hz]; ring
  have e4 : treeInner σ (g q) (fun k i => g q k i - g p k i) - treeInner σ (g p) (fun k i => g q k i - g p k i) =
      sqDist σ (g q) (g p) := by
    unfold treeInner sqDist
    rw [← Finset.sum_sub_distrib]
    exact Finset.sum_congr rfl fun x _ => by ring
  rw [e1] at h1
  rw [e2, e3] at h2
  have e5 : L / 2 * ((1 / L) ^ 2 * sqDist σ (g q) (g p)) = sqDist σ (g q) (g p) / (2 * L) := by field_simp
  have e6 : 1 / L * sqDist σ (g q) (g p) = 2 * (sqDist σ (g q) (g p) / (2 * L)) := by field_simp
  rw [e5] at h2
  rw [← e4, mul_sub] at e6
  rw [← e4] at h2 ⊢
  rw [zero_div, zero_mul, add_zero] at h1
  linarith

/-- the gradient of a smooth convex function is co-coercive (Baillon–Haddad) -/
theorem grad_cocoercive {L : ℝ} (hL : 0 ≤ L) {loss : Params ℝ → ℝ} {g : (ℕ → ℕ → ℝ) → ℕ → ℕ → ℝ} (hs : Smooth σ L loss g)
    (hc : StronglyConvex σ 0 loss g) (p q : ℕ → ℕ → ℝ) :
    sqDist σ (g q) (g p) ≤ L * treeInner σ (fun k i => g q k i - g p k i) (fun k i => q k i - p k i) := by
  have pos : ∀ L' : ℝ, 0 < L' → L ≤ L' →
      sqDist σ (g q) (g p) ≤ L' * treeInner σ (fun k i => g q k i - g p k i) (fun k i => q k i - p k i) := by
    intro L' h0 hle
    have h1 := coco_half σ h0 (smooth_mono σ hle hs) hc p q
    have h2 := coco_half σ h0 (smooth_mono σ hle hs) hc q p
    have e1 : sqDist σ (g p) (g q) = sqDist σ (g q) (g p) := by
      unfold sqDist; exact Finset.sum_congr rfl fun x _ => by ring
    have e2 : treeInner σ (fun k i => g q k i - g p k i) (fun k i => q k i - p k i) =
        -treeInner σ (g p) (fun k i => q k i - p k i) - treeInner σ (g q) (fun k i => p k i - q k i) := by
      unfold treeInner
      rw [← Finset.sum_neg_distrib, ← Finset.sum_sub_distrib]
      exact Finset.sum_congr rfl fun x _ => by ring
    rw [e1] at h2
    have h3 : 2 * (sqDist σ (g q) (g p) / (2 * L')) ≤ treeInner σ (fun k i => g q k i - g p k i) (fun k i => q k i - p k i) := by
      rw [e2]; linarith
    have h4 := mul_le_mul_of_nonneg_left h3 h0.le
    have e3 : L' * (2 * (sqDist σ (g q) (g p) / (2 * L'))) = sqDist σ (g q) (g p) := by field_simp
    linarith
  rcases eq_or_lt_of_le hL with h | h
  · have ht : 0 ≤ treeInner σ (fun k i => g q k i - g p k i) (fun k i => q k i - p k i) := by
      have := pos 1 one_pos (by linarith)
      have := sqDist_nonneg σ (g q) (g p)
      linarith
    set t := treeInner σ (fun k i => g q k i - g p k i) (fun k i => q k i - p k i) with htd
    rw [← h, zero_mul]
    refine le_of_forall_pos_le_add fun ε hε => ?_
    rcases eq_or_lt_of_le ht with h0 | h0
    · have := pos 1 one_pos (by linarith)
      rw [← h0] at this
      linarith
    · have := pos (ε / t) (by positivity) (by rw [← h]; positivity)
      rw [div_mul_cancel₀ _ h0.ne'] at this
      linarith
  · exact pos L h le_rfl

/-- subtracting the quadratic leaves a convex function -/
theorem strong_to_convex {L μ : ℝ} {loss : Params ℝ → ℝ} {g : (ℕ → ℕ → ℝ) → ℕ → ℕ → ℝ} (hs : Smooth σ L loss g)
    (hc : StronglyConvex σ μ loss g) :
    ∃ loss' : Params ℝ → ℝ, Smooth σ (L - μ) loss' (fun p k i => g p k i - μ * p k i) ∧
      StronglyConvex σ 0 loss' (fun p k i => g p k i - μ * p k i) := by
  refine ⟨fun t => loss t - μ / 2 * sqNorm σ (coord t), fun p q => ?_, fun p q => ?_⟩
  all_goals
    have ep : ∀ p : ℕ → ℕ → ℝ, sqNorm σ (coord (mk σ p)) = sqNorm σ p := fun p => by
      unfold sqNorm
      exact Finset.sum_congr rfl fun x hx => by
        obtain ⟨s, h1, h2⟩ := mem_idx.mp hx
        rw [coord_mk _ _ _ _ s h1 h2]
    have e1 : treeInner σ (fun k i => g p k i - μ * p k i) (fun k i => q k i - p k i) =
        treeInner σ (g p) (fun k i => q k i - p k i) + μ / 2 * (sqDist σ q p + sqNorm σ p - sqNorm σ q) := by
      unfold treeInner sqDist sqNorm
      rw [← Finset.sum_add_distrib, ← Finset.sum_sub_distrib, Finset.mul_sum, ← Finset.sum_add_distrib]
      exact Finset.sum_congr rfl fun x _ => by ring
    simp only [ep]
    rw [e1]
  · have := hs p q
    linarith
  · have := hc p q
    linarith

/-- one gradient step brings two parameter vectors closer together by `1 - η μ` -/
theorem step_contract {L μ η : ℝ} (hμL : μ ≤ L) (hη : 0 ≤ η) (hL : η * (L + μ) ≤ 2) {loss : Params ℝ → ℝ}
    {g : (ℕ → ℕ → ℝ) → ℕ → ℕ → ℝ} (hs : Smooth σ L loss g) (hc : StronglyConvex σ μ loss g) (p q : ℕ → ℕ → ℝ) :
    treeDist σ (fun k i => p k i - η * g p k i) (fun k i => q k i - η * g q k i) ≤ (1 - η * μ) * treeDist σ p q := by
  obtain ⟨loss', hs', hc'⟩ := strong_to_convex σ hs hc
  have h1 := grad_cocoercive σ (by linarith) hs' hc' q p
  have hημ : η * μ ≤ 1 := by nlinarith
  refine abs_le_of_sq_le_sq' ?_ (mul_nonneg (by linarith) (treeDist_nonneg σ p q)) |>.2
  rw [mul_pow, ← sqDist_eq, ← sqDist_eq]
  set H : (ℕ → ℕ → ℝ) → ℕ → ℕ → ℝ := fun p k i => g p k i - μ * p k i with hH
  have e : sqDist σ (fun k i => p k i - η * g p k i) (fun k i => q k i - η * g q k i) =
      (1 - η * μ) ^ 2 * sqDist σ p q - 2 * η * (1 - η * μ) *
        treeInner σ (fun k i => H p k i - H q k i) (fun k i => p k i - q k i) + η ^ 2 * sqDist σ (H p) (H q) := by
    unfold sqDist treeInner
    rw [Finset.mul_sum, Finset.mul_sum, Finset.mul_sum, ← Finset.sum_sub_distrib, ← Finset.sum_add_distrib]
    exact Finset.sum_congr rfl fun x _ => by simp only [hH]; ring
  rw [e]
  set T := treeInner σ (fun k i => H p k i - H q k i) (fun k i => p k i - q k i) with hT
  have hTnn : 0 ≤ T := by
    rcases eq_or_lt_of_le (show 0 ≤ L - μ by linarith) with h | h
    · have h2 := grad_cocoercive σ zero_le_one (smooth_mono σ (show L - μ ≤ 1 by linarith) hs') hc' q p
      have h3 := sqDist_nonneg σ (H p) (H q)
      rw [one_mul] at h2
      exact h3.trans h2
    · have h3 := sqDist_nonneg σ (H p) (H q)
      exact nonneg_of_mul_nonneg_right (h3.trans h1) h
  have h4 := mul_le_mul_of_nonneg_left h1 (sq_nonneg η)
  have h5 : η * T * (η * (L - μ)) ≤ η * T * (2 * (1 - η * μ)) :=
    mul_le_mul_of_nonneg_left (by nlinarith) (mul_nonneg hη hTnn)
  nlinarith

theorem l2_sum_le {ι κ : Type} (s : Finset ι) (t : Finset κ) (f : κ → ι → ℝ) :
    l2 s (fun x => ∑ m ∈ t, f m x) ≤ ∑ m ∈ t, l2 s (f m) := by
  classical
  induction t using Finset.induction_on with
  | empty =>
    simp only [Finset.sum_empty]
    exact ((l2_eq_zero s _).2 fun _ _ => rfl).le
  | insert a t ha ih =>
    simp only [Finset.sum_insert ha]
    exact (l2_add_le s _ _).trans (by linarith)


/-- how often the example number `j` occurs in batch number `n` -/
def uses {ι : Type} [DecidableEq ι] {b : ℕ} (B : ℕ → Fin b → ι) (j : ι) (n : ℕ) : ℕ := (univ.filter fun m => B n m = j).card

/-- the mean of the per-example gradients `g` over batch number `n` of the data set `D`; `B n m` is the index of the `m`-th example of the
batch -/
noncomputable def batchGrad {ι Z : Type} {b : ℕ} (g : Z → (ℕ → ℕ → ℝ) → ℕ → ℕ → ℝ) (D : ι → Z) (B : ℕ → Fin b → ι) (n : ℕ)
    (p : ℕ → ℕ → ℝ) (k i : ℕ) : ℝ := (∑ m, g (D (B n m)) p k i) / b

section
variable {ι Z : Type} [DecidableEq ι] {b : ℕ} {L μ V : ℝ} {loss : Z → Params ℝ → ℝ} {g : Z → (ℕ → ℕ → ℝ) → ℕ → ℕ → ℝ}

/-- one step on two data sets that differ in one example -/
theorem stability_step (hb : 0 < b) (hμL : μ ≤ L) {η : ℝ} (hη : 0 ≤ η) (hL : η * (L + μ) ≤ 2)
    (hs : ∀ z, Smooth σ L (loss z) (g z)) (hc : ∀ z, StronglyConvex σ μ (loss z) (g z))
    (hV : ∀ z z' p, treeDist σ (g z p) (g z' p) ≤ V) (D D' : ι → Z) (j : ι) (hD : ∀ i, i ≠ j → D i = D' i) (B : ℕ → Fin b → ι)
    (n : ℕ) (p q : ℕ → ℕ → ℝ) :
    treeDist σ (fun k i => p k i - η * batchGrad g D B n p k i) (fun k i => q k i - η * batchGrad g D' B n q k i) ≤
      (1 - η * μ) * treeDist σ p q + V / b * (η * uses B j n) := by
  have hb' : (0 : ℝ) < b := by exact_mod_cast hb
  have one : ∀ m : Fin b, l2 (idx σ) (fun x => (p x.1 x.2 - η * g (D (B n m)) p x.1 x.2) - (q x.1 x.2 - η * g (D' (B n m)) q x.1 x.2)) ≤
      (1 - η * μ) * treeDist σ p q + (if B n m = j then η * V else 0) := by
    intro m
    have h1 := step_contract σ hμL hη hL (hs (D (B n m))) (hc (D (B n m))) p q
    rw [treeDist_l2] at h1
    by_cases hm : B n m = j
    · rw [if_pos hm]
      have h2 := hV (D' (B n m)) (D (B n m)) q
      rw [treeDist_l2] at h2
      have h3 := l2_add_le (idx σ) (fun x => (p x.1 x.2 - η * g (D (B n m)) p x.1 x.2) - (q x.1 x.2 - η * g (D (B n m)) q x.1 x.2))
        (fun x => η * (g (D' (B n m)) q x.1 x.2 - g (D (B n m)) q x.1 x.2))
      rw [l2_smul, abs_of_nonneg hη] at h3
      have h4 := mul_le_mul_of_nonneg_left h2 hη
      refine le_trans (le_of_eq ?_) (h3.trans (add_le_add h1 h4))
      exact l2_congr _ fun x _ => by ring
    · rw [if_neg hm, add_zero, ← hD _ hm]
      exact h1
  rw [treeDist_l2]
  have e : l2 (idx σ) (fun x => (p x.1 x.2 - η * batchGrad g D B n p x.1 x.2) - (q x.1 x.2 - η * batchGrad g D' B n q x.1 x.2)) =
      l2 (idx σ) (fun x => (1 / (b : ℝ)) * ∑ m, ((p x.1 x.2 - η * g (D (B n m)) p x.1 x.2) - (q x.1 x.2 - η * g (D' (B n m)) q x.1 x.2))) := by
    refine l2_congr _ fun x _ => ?_
    simp only [Finset.sum_sub_distrib, Finset.sum_const, Finset.card_univ, Fintype.card_fin, nsmul_eq_mul, ← Finset.mul_sum, batchGrad]
    field_simp
  rw [e, l2_smul, abs_of_pos (by positivity)]
  have h5 := (l2_sum_le (idx σ) univ fun m x =>
    (p x.1 x.2 - η * g (D (B n m)) p x.1 x.2) - (q x.1 x.2 - η * g (D' (B n m)) q x.1 x.2)).trans
      (Finset.sum_le_sum fun m _ => one m)
  rw [Finset.sum_add_distrib, Finset.sum_const, Finset.card_univ, Fintype.card_fin, nsmul_eq_mul, ← Finset.sum_filter,
    Finset.sum_const, nsmul_eq_mul] at h5
  refine (mul_le_mul_of_nonneg_left h5 (by positivity)).trans (le_of_eq ?_)
  unfold uses
  field_simp

/-- **C127 (stability, convex).** Train with `sgd` on two data sets `D` and `D'` that differ only in example number `j`, with the same
schedule and the same batches (`B n m` is the index of the `m`-th example of batch `n`).  If the per-example losses are convex and
`L`-smooth, the learning rates are at most `2/L`, and the gradients of two examples at the same parameters differ by at most `V`, then
after `N` steps the two parameter vectors differ by at most `V/b · Σ ηₙ · (occurrences of j in batch n)`. -/
theorem C127_stability (hb : 0 < b) (hL0 : 0 ≤ L) (lr : LR ℝ) (nes : Bool) (hlr : ∀ n, 0 ≤ lr.at n ∧ L * lr.at n ≤ 2)
    (hs : ∀ z, Smooth σ L (loss z) (g z)) (hc : ∀ z, StronglyConvex σ 0 (loss z) (g z))
    (hV : ∀ z z' p, treeDist σ (g z p) (g z' p) ≤ V) (B : ℕ → Fin b → ι) (grad : (ι → Z) → ℕ → Params ℝ → Params ℝ)
    (hg : ∀ D n p, grad D n (mk σ p) = mk σ (batchGrad g D B n p)) (p0 : ℕ → ℕ → ℝ) :
    ∃ P : (ι → Z) → ℕ → ℕ → ℕ → ℝ, (∀ D, P D 0 = p0 ∧ Visits (sgd lr none nes) (grad D) σ (P D)) ∧
      ∀ D D' j, (∀ i, i ≠ j → D i = D' i) → ∀ N,
        treeDist σ (P D N) (P D' N) ≤ V / b * ∑ n ∈ range N, lr.at n * uses B j n := by
  refine ⟨fun D => plainSgd lr.at (batchGrad g D B) p0, fun D => ⟨rfl, sgd_visits σ lr nes (grad D) _ (hg D) p0⟩, ?_⟩
  intro D D' j hD N
  induction N with
  | zero =>
    rw [treeDist_l2]
    simp only [plainSgd, sub_self, Finset.range_zero, Finset.sum_empty, mul_zero]
    exact ((l2_eq_zero _ _).2 fun _ _ => rfl).le
  | succ N ih =>
    rw [Finset.sum_range_succ, mul_add]
    have h := stability_step σ hb hL0 (hlr N).1 (by have := (hlr N).2; linarith) hs hc hV D D' j hD B N
      (plainSgd lr.at (batchGrad g D B) p0 N) (plainSgd lr.at (batchGrad g D' B) p0 N)
    refine h.trans ?_
    rw [mul_zero, sub_zero, one_mul]
    linarith

/-- **C127 (stability, strongly convex).** For `μ`-strongly convex losses the difference stays bounded for ever: if every batch of `b` examples
contains example `j` at most `c` times, the two parameter vectors differ by at most `c V / (b μ)` after any number of steps. -/
theorem C127_strong (hb : 0 < b) (hμ : 0 < μ) (hμL : μ ≤ L) (lr : LR ℝ) (nes : Bool) (hlr : ∀ n, 0 ≤ lr.at n ∧ lr.at n * (L + μ) ≤ 2)
    (hs : ∀ z, Smooth σ L (loss z) (g z)) (hc : ∀ z, StronglyConvex σ μ (loss z) (g z))
    (hV : ∀ z z' p, treeDist σ (g z p) (g z' p) ≤ V) (B : ℕ → Fin b → ι) (grad : (ι → Z) → ℕ → Params ℝ → Params ℝ)
    (hg : ∀ D n p, grad D n (mk σ p) = mk σ (batchGrad g D B n p)) (p0 : ℕ → ℕ → ℝ) :
    ∃ P : (ι → Z) → ℕ → ℕ → ℕ → ℝ, (∀ D, P D 0 = p0 ∧ Visits (sgd lr none nes) (grad D) σ (P D)) ∧
      ∀ D D' j, (∀ i, i ≠ j → D i = D' i) → ∀ c : ℕ, (∀ n, uses B j n ≤ c) → ∀ N,
        treeDist σ (P D N) (P D' N) ≤ c * V / (b * μ) := by
  refine ⟨fun D => plainSgd lr.at (batchGrad g D B) p0, fun D => ⟨rfl, sgd_visits σ lr nes (grad D) _ (hg D) p0⟩, ?_⟩
  intro D D' j hD c hcj N
  have hb' : (0 : ℝ) < b := by exact_mod_cast hb
  have hV0 : 0 ≤ V := (treeDist_nonneg σ _ _).trans (hV (D j) (D j) p0)
  induction N with
  | zero =>
    rw [treeDist_l2]
    simp only [plainSgd, sub_self]
    rw [(l2_eq_zero _ _).2 fun _ _ => rfl]
    positivity
  | succ N ih =>
    have h := stability_step σ hb hμL (hlr N).1 (hlr N).2 hs hc hV D D' j hD B N
      (plainSgd lr.at (batchGrad g D B) p0 N) (plainSgd lr.at (batchGrad g D' B) p0 N)
    refine h.trans ?_
    have h0 := (hlr N).1
    have h1 : 0 ≤ 1 - lr.at N * μ := by have := (hlr N).2; nlinarith
    have h2 := mul_le_mul_of_nonneg_left ih h1
    have h3 : V / b * (lr.at N * uses B j N) ≤ V / b * (lr.at N * c) := by
      have : (uses B j N : ℝ) ≤ c := by exact_mod_cast hcj N
      gcongr
    have e : (1 - lr.at N * μ) * (c * V / (b * μ)) + V / b * (lr.at N * c) = c * V / (b * μ) := by
      field_simp; ring
    linarith

end


/-! ## Generalisation -/

open MeasureTheory

section
variable {Z : Type} [MeasurableSpace Z] {n b : ℕ} {L C : ℝ} {loss : Z → Params ℝ → ℝ} {g : Z → (ℕ → ℕ → ℝ) → ℕ → ℕ → ℝ}

/-- convex with gradients of norm at most `C` implies `C`-Lipschitz -/
theorem convex_lipschitz {loss : Params ℝ → ℝ} {g : (ℕ → ℕ → ℝ) → ℕ → ℕ → ℝ} (hc : StronglyConvex σ 0 loss g)
    (hC : ∀ p, globalNorm (mk σ (g p)) ≤ C) (p q : ℕ → ℕ → ℝ) : |loss (mk σ p) - loss (mk σ q)| ≤ C * treeDist σ p q := by
  have one : ∀ p q : ℕ → ℕ → ℝ, loss (mk σ p) - loss (mk σ q) ≤ C * treeDist σ q p := by
    intro p q
    have h := hc p q
    have h1 : -treeInner σ (g p) (fun k i => q k i - p k i) ≤ C * treeDist σ q p := by
      rw [treeDist_l2]
      refine (neg_le_abs _).trans ((abs_inner_le_l2 (idx σ) (fun x => g p x.1 x.2) (fun x => q x.1 x.2 - p x.1 x.2)).trans ?_)
      have := hC p
      rw [globalNorm_mk] at this
      exact mul_le_mul_of_nonneg_right this (l2_nonneg _ _)
    rw [zero_div, zero_mul, add_zero] at h
    linarith
  have e : treeDist σ q p = treeDist σ p q := by
    rw [treeDist_l2, treeDist_l2]
    unfold l2
    congr 1
    exact Finset.sum_congr rfl fun x _ => by ring
  rw [abs_le]
  have h1 := one p q
  have h2 := one q p
  rw [e] at h1
  constructor <;> linarith

theorem plainSgd_measurable (lr : ℕ → ℝ) (hg : ∀ k i, Measurable fun x : (ℕ → ℕ → ℝ) × Z => g x.2 x.1 k i) (B : ℕ → Fin b → Fin n)
    (p0 : ℕ → ℕ → ℝ) (N : ℕ) : Measurable fun S : Fin n → Z => plainSgd lr (batchGrad g S B) p0 N := by
  induction N with
  | zero => exact measurable_const
  | succ N ih =>
    refine measurable_pi_lambda _ fun k => measurable_pi_lambda _ fun i => ?_
    simp only [plainSgd, batchGrad]
    refine ((measurable_pi_apply i).comp ((measurable_pi_apply k).comp ih)).sub ((Measurable.div_const ?_ _).const_mul _)
    exact Finset.measurable_fun_sum _ fun m _ => (hg k i).comp (ih.prodMk (measurable_pi_apply _))

/-- the parameters move by at most the sum of the learning rates times the gradient bound -/
theorem plainSgd_moves (hb : 0 < b) (hC : ∀ z p, globalNorm (mk σ (g z p)) ≤ C) (lr : ℕ → ℝ) (hlr : ∀ n, 0 ≤ lr n)
    (S : Fin n → Z) (B : ℕ → Fin b → Fin n) (p0 : ℕ → ℕ → ℝ) (N : ℕ) :
    treeDist σ (plainSgd lr (batchGrad g S B) p0 N) p0 ≤ C * ∑ m ∈ range N, lr m := by
  have hb' : (0 : ℝ) < b := by exact_mod_cast hb
  induction N with
  | zero =>
    rw [treeDist_l2]
    simp only [plainSgd, sub_self, Finset.range_zero, Finset.sum_empty, mul_zero]
    exact ((l2_eq_zero _ _).2 fun _ _ => rfl).le
  | succ N ih =>
    set P := plainSgd lr (batchGrad g S B) p0 N with hP
    have h1 : l2 (idx σ) (fun x => batchGrad g S B N P x.1 x.2) ≤ C := by
      have e : l2 (idx σ) (fun x => batchGrad g S B N P x.1 x.2) = l2 (idx σ) (fun x => (1 / (b : ℝ)) * ∑ m, g (S (B N m)) P x.1 x.2) :=
        l2_congr _ fun x _ => by unfold batchGrad; ring
      rw [e, l2_smul, abs_of_pos (by positivity)]
      have h2 := (l2_sum_le (idx σ) univ fun m x => g (S (B N m)) P x.1 x.2).trans (Finset.sum_le_sum (g := fun _ => C) fun m _ => by
        have := hC (S (B N m)) P
        rwa [globalNorm_mk] at this)
      rw [Finset.sum_const, Finset.card_univ, Fintype.card_fin, nsmul_eq_mul] at h2
      refine (mul_le_mul_of_nonneg_left h2 (by positivity)).trans (le_of_eq ?_)
      field_simp
    have h3 := l2_add_le (idx σ) (fun x => P x.1 x.2 - p0 x.1 x.2) (fun x => -lr N * batchGrad g S B N P x.1 x.2)
    rw [l2_smul, abs_neg, abs_of_nonneg (hlr N)] at h3
    rw [treeDist_l2] at ih ⊢
    rw [Finset.sum_range_succ, mul_add]
    have h4 := mul_le_mul_of_nonneg_left h1 (hlr N)
    refine le_trans (le_of_eq (l2_congr _ fun x _ => ?_)) (h3.trans (by linarith))
    simp only [plainSgd, ← hP]; ring

/-- replacing an example of an i.i.d. sample by a fresh one: the expected loss on example `j` of the model trained on the sample is the expected loss on a
fresh example of the model trained on the sample with that fresh example at position `j` -/
theorem resample (ν : Measure Z) [IsProbabilityMeasure ν] (j : Fin (n + 1)) (h : (Fin (n + 1) → Z) → ℝ)
    (hi : Integrable h (Measure.pi fun _ => ν)) :
    ∫ S, h S ∂(Measure.pi fun _ => ν) = ∫ S, ∫ z, h (Function.update S j z) ∂ν ∂(Measure.pi fun _ : Fin (n + 1) => ν) := by
  have mp := measurePreserving_piFinSuccAbove (fun _ : Fin (n + 1) => ν) j
  have mps := mp.symm
  set e := MeasurableEquiv.piFinSuccAbove (fun _ : Fin (n + 1) => Z) j with he
  have e1 : ∫ S, h S ∂(Measure.pi fun _ => ν) = ∫ x, h (e.symm x) ∂(ν.prod (Measure.pi fun _ : Fin n => ν)) :=
    (mps.integral_comp e.symm.measurableEmbedding h).symm
  have e2 : ∫ S, ∫ z, h (Function.update S j z) ∂ν ∂(Measure.pi fun _ : Fin (n + 1) => ν) =
      ∫ x, ∫ z, h (Function.update (e.symm x) j z) ∂ν ∂(ν.prod (Measure.pi fun _ : Fin n => ν)) :=
    (mps.integral_comp e.symm.measurableEmbedding fun S => ∫ z, h (Function.update S j z) ∂ν).symm
  have e3 : ∀ (a z : Z) (r : Fin n → Z), Function.update (e.symm (a, r)) j z = e.symm (z, r) := by
    intro a z r
    exact Fin.update_insertNth (α := fun _ => Z) j a z r
  have hi' : Integrable (fun x => h (e.symm x)) (ν.prod (Measure.pi fun _ : Fin n => ν)) :=
    (mps.integrable_comp_emb e.symm.measurableEmbedding).2 hi
  rw [e1, e2, integral_prod_symm _ hi']
  have e4 : ∀ x : Z × (Fin n → Z), ∫ z, h (Function.update (e.symm x) j z) ∂ν = ∫ z, h (e.symm (z, x.2)) ∂ν := by
    rintro ⟨a, r⟩
    simp only [e3]
  simp only [e4]
  rw [integral_fun_snd (fun r => ∫ z, h (e.symm (z, r)) ∂ν)]
  simp

theorem integrable_loss (ν : Measure Z) [IsProbabilityMeasure ν] (hl : Measurable fun x : (ℕ → ℕ → ℝ) × Z => loss x.2 (mk σ x.1))
    (hc : ∀ z, StronglyConvex σ 0 (loss z) (g z)) (hC : ∀ z p, globalNorm (mk σ (g z p)) ≤ C) (p0 : ℕ → ℕ → ℝ)
    (h0 : Integrable (fun z => loss z (mk σ p0)) ν) {A : Type} [MeasurableSpace A] (ρ : Measure A) [IsProbabilityMeasure ρ]
    (Q : A × Z → ℕ → ℕ → ℝ) (hQ : Measurable Q) (R : ℝ) (hR : ∀ x, treeDist σ (Q x) p0 ≤ R) :
    Integrable (fun x : A × Z => loss x.2 (mk σ (Q x))) (ρ.prod ν) := by
  have hC0 : 0 ≤ C := by
    have hne : Nonempty Z := ν.nonempty_of_neZero
    exact (C61_nonneg _).trans (hC hne.some p0)
  have h1 : Integrable (fun x : A × Z => |loss x.2 (mk σ p0)| + C * R) (ρ.prod ν) :=
    (h0.abs.comp_snd ρ).add (integrable_const _)
  refine h1.mono' ?_ (Filter.Eventually.of_forall fun x => ?_)
  · exact (hl.comp (hQ.prodMk measurable_snd)).aestronglyMeasurable
  · rw [Real.norm_eq_abs]
    have h2 := convex_lipschitz σ (hc x.2) (hC x.2) (Q x) p0
    have h3 := mul_le_mul_of_nonneg_left (hR x) hC0
    have h4 := abs_sub_abs_le_abs_sub (loss x.2 (mk σ (Q x))) (loss x.2 (mk σ p0))
    linarith

theorem sum_uses {ι : Type} [DecidableEq ι] [Fintype ι] (B : ℕ → Fin b → ι) (m : ℕ) : ∑ j, uses B j m = b := by
  unfold uses
  have := Finset.card_eq_sum_card_fiberwise (f := B m) (s := univ) (t := univ) (fun _ _ => Finset.mem_coe.2 (mem_univ _))
  rw [Finset.card_univ, Fintype.card_fin] at this
  exact this.symm

/-- **C127 (generalisation).** Draw a training set of `n+1` independent examples from a distribution `ν` and train with `sgd`, with any schedule and
any order of the batches that does not depend on the data.  If the losses are convex and `L`-smooth with gradients of norm at most `C`, and the rates are at most `2/L`,
then the expected difference between the loss on a fresh example and the mean loss on the training set is at most `2 C²/(n+1) · Σ ηₙ`, whatever the
number of parameters. -/
theorem C127_generalisation (hb : 0 < b) (hL0 : 0 ≤ L) (lr : LR ℝ) (nes : Bool) (hlr : ∀ n, 0 ≤ lr.at n ∧ L * lr.at n ≤ 2)
    (hs : ∀ z, Smooth σ L (loss z) (g z)) (hc : ∀ z, StronglyConvex σ 0 (loss z) (g z))
    (hC : ∀ z p, globalNorm (mk σ (g z p)) ≤ C) (hgm : ∀ k i, Measurable fun x : (ℕ → ℕ → ℝ) × Z => g x.2 x.1 k i)
    (hl : Measurable fun x : (ℕ → ℕ → ℝ) × Z => loss x.2 (mk σ x.1)) (ν : Measure Z) [IsProbabilityMeasure ν] (p0 : ℕ → ℕ → ℝ)
    (h0 : Integrable (fun z => loss z (mk σ p0)) ν) (B : ℕ → Fin b → Fin (n + 1))
    (grad : (Fin (n + 1) → Z) → ℕ → Params ℝ → Params ℝ) (hg : ∀ D n p, grad D n (mk σ p) = mk σ (batchGrad g D B n p)) :
    ∃ P : (Fin (n + 1) → Z) → ℕ → ℕ → ℕ → ℝ, (∀ S, P S 0 = p0 ∧ Visits (sgd lr none nes) (grad S) σ (P S)) ∧ ∀ N,
      Integrable (fun S => (∫ z, loss z (mk σ (P S N)) ∂ν) - (∑ j, loss (S j) (mk σ (P S N))) / (n + 1)) (Measure.pi fun _ => ν) ∧
      |∫ S, ((∫ z, loss z (mk σ (P S N)) ∂ν) - (∑ j, loss (S j) (mk σ (P S N))) / (n + 1)) ∂(Measure.pi fun _ => ν)| ≤
        2 * C ^ 2 / (n + 1) * ∑ m ∈ range N, lr.at m := by
  have hV : ∀ z z' p, treeDist σ (g z p) (g z' p) ≤ 2 * C := by
    intro z z' p
    rw [treeDist_l2]
    have h1 := hC z p
    have h2 := hC z' p
    rw [globalNorm_mk] at h1 h2
    exact (l2_sub_le (idx σ) (fun x => g z p x.1 x.2) (fun x => g z' p x.1 x.2)).trans (by
      change l2 (idx σ) (fun x => g z p x.1 x.2) ≤ C at h1
      change l2 (idx σ) (fun x => g z' p x.1 x.2) ≤ C at h2
      linarith)
  have hC0 : 0 ≤ C := by
    have hne : Nonempty Z := ν.nonempty_of_neZero
    exact (C61_nonneg _).trans (hC hne.some p0)
  set P : (Fin (n + 1) → Z) → ℕ → ℕ → ℕ → ℝ := fun S => plainSgd lr.at (batchGrad g S B) p0 with hP
  have hstab : ∀ D D' j, (∀ i, i ≠ j → D i = D' i) → ∀ N,
      treeDist σ (P D N) (P D' N) ≤ 2 * C / b * ∑ m ∈ range N, lr.at m * uses B j m := by
    intro D D' j hD N
    induction N with
    | zero =>
      rw [treeDist_l2]
      simp only [hP, plainSgd, sub_self, Finset.range_zero, Finset.sum_empty, mul_zero]
      exact ((l2_eq_zero _ _).2 fun _ _ => rfl).le
    | succ N ih =>
      rw [Finset.sum_range_succ, mul_add]
      have h := stability_step σ hb hL0 (hlr N).1 (by have := (hlr N).2; linarith) hs hc hV D D' j hD B N (P D N) (P D' N)
      refine h.trans ?_
      rw [mul_zero, sub_zero, one_mul]
      linarith
  refine ⟨P, fun S => ⟨rfl, sgd_visits σ lr nes (grad S) _ (hg S) p0⟩, fun N => ?_⟩
  have hPm : Measurable fun S => P S N := plainSgd_measurable lr.at hgm B p0 N
  have hPR : ∀ S, treeDist σ (P S N) p0 ≤ C * ∑ m ∈ range N, lr.at m := fun S =>
    plainSgd_moves σ hb hC lr.at (fun n => (hlr n).1) S B p0 N
  let ρ : Measure (Fin (n + 1) → Z) := Measure.pi fun _ => ν
  -- the two integrands on the product
  have i1 : Integrable (fun x : (Fin (n + 1) → Z) × Z => loss x.2 (mk σ (P x.1 N))) (ρ.prod ν) :=
    integrable_loss σ ν hl hc hC p0 h0 ρ (fun x => P x.1 N) (hPm.comp measurable_fst) _ fun x => hPR x.1
  have mup : ∀ j : Fin (n + 1), Measurable fun x : (Fin (n + 1) → Z) × Z => Function.update x.1 j x.2 := fun j => by
    refine measurable_pi_lambda _ fun i => ?_
    by_cases hij : i = j
    · subst hij; simpa using measurable_snd
    · simp only [Function.update_of_ne hij]
      exact (measurable_pi_apply i).comp measurable_fst
  have i2 : ∀ j, Integrable (fun x : (Fin (n + 1) → Z) × Z => loss x.2 (mk σ (P (Function.update x.1 j x.2) N))) (ρ.prod ν) := fun j =>
    integrable_loss σ ν hl hc hC p0 h0 ρ (fun x => P (Function.update x.1 j x.2) N) (hPm.comp (mup j)) _ fun x => hPR _
  have i3 : ∀ j, Integrable (fun S : Fin (n + 1) → Z => loss (S j) (mk σ (P S N))) ρ := fun j => by
    have h1 : Integrable (fun S : Fin (n + 1) → Z => |loss (S j) (mk σ p0)| + C * (C * ∑ m ∈ range N, lr.at m)) ρ :=
      ((measurePreserving_eval (fun _ : Fin (n + 1) => ν) j).integrable_comp_of_integrable h0).abs.add (integrable_const _)
    refine h1.mono' (hl.comp (hPm.prodMk (measurable_pi_apply j))).aestronglyMeasurable (Filter.Eventually.of_forall fun S => ?_)
    rw [Real.norm_eq_abs]
    have h2 := convex_lipschitz σ (hc (S j)) (hC (S j)) (P S N) p0
    have h3 := mul_le_mul_of_nonneg_left (hPR S) hC0
    have h4 := abs_sub_abs_le_abs_sub (loss (S j) (mk σ (P S N))) (loss (S j) (mk σ p0))
    linarith
  have i4 : Integrable (fun S => ∫ z, loss z (mk σ (P S N)) ∂ν) ρ := i1.integral_prod_left
  have i5 : Integrable (fun S : Fin (n + 1) → Z => (∑ j, loss (S j) (mk σ (P S N))) / (n + 1)) ρ :=
    (integrable_finsetSum _ fun j _ => i3 j).div_const _
  refine ⟨i4.sub i5, ?_⟩
  change |∫ S, ((∫ z, loss z (mk σ (P S N)) ∂ν) - (∑ j, loss (S j) (mk σ (P S N))) / (n + 1)) ∂ρ| ≤ _
  rw [integral_sub i4 i5, integral_div, integral_finsetSum _ fun j _ => i3 j, ← integral_prod _ i1]
  have e1 : ∀ j, ∫ S, loss (S j) (mk σ (P S N)) ∂ρ =
      ∫ x, loss x.2 (mk σ (P (Function.update x.1 j x.2) N)) ∂(ρ.prod ν) := fun j => by
    rw [integral_prod _ (i2 j)]
    have := resample ν j (fun S => loss (S j) (mk σ (P S N))) (i3 j)
    simp only [Function.update_self] at this
    exact this
  simp only [e1]
  have hn : (0 : ℝ) < n + 1 := by positivity
  have hb' : (0 : ℝ) < b := by exact_mod_cast hb
  have e2 : (∫ x, loss x.2 (mk σ (P x.1 N)) ∂(ρ.prod ν)) -
      (∑ j, ∫ x, loss x.2 (mk σ (P (Function.update x.1 j x.2) N)) ∂(ρ.prod ν)) / (n + 1) =
      (∑ j : Fin (n + 1), ∫ x, (loss x.2 (mk σ (P x.1 N)) - loss x.2 (mk σ (P (Function.update x.1 j x.2) N))) ∂(ρ.prod ν)) / (n + 1) := by
    have : ∀ j : Fin (n + 1), ∫ x, (loss x.2 (mk σ (P x.1 N)) - loss x.2 (mk σ (P (Function.update x.1 j x.2) N))) ∂(ρ.prod ν) =
        (∫ x, loss x.2 (mk σ (P x.1 N)) ∂(ρ.prod ν)) - ∫ x, loss x.2 (mk σ (P (Function.update x.1 j x.2) N)) ∂(ρ.prod ν) := fun j =>
      integral_sub i1 (i2 j)
    simp only [this, Finset.sum_sub_distrib, Finset.sum_const, Finset.card_univ, Fintype.card_fin, nsmul_eq_mul]
    push_cast
    field_simp
  rw [e2, abs_div, abs_of_pos hn]
  have h1 : ∀ j : Fin (n + 1), |∫ x, (loss x.2 (mk σ (P x.1 N)) - loss x.2 (mk σ (P (Function.update x.1 j x.2) N))) ∂(ρ.prod ν)| ≤
      C * (2 * C / b * ∑ m ∈ range N, lr.at m * uses B j m) := by
    intro j
    rw [← Real.norm_eq_abs]
    refine (norm_integral_le_of_norm_le_const (C := C * (2 * C / b * ∑ m ∈ range N, lr.at m * uses B j m))
      (Filter.Eventually.of_forall fun x => ?_)).trans (by simp)
    rw [Real.norm_eq_abs]
    refine (convex_lipschitz σ (hc x.2) (hC x.2) _ _).trans (mul_le_mul_of_nonneg_left ?_ hC0)
    exact hstab x.1 (Function.update x.1 j x.2) j (fun i hi => (Function.update_of_ne hi _ _).symm) N
  have h2 := (Finset.abs_sum_le_sum_abs _ _).trans (Finset.sum_le_sum fun (j : Fin (n + 1)) (_ : j ∈ univ) => h1 j)
  refine (div_le_div_of_nonneg_right h2 hn.le).trans (le_of_eq ?_)
  rw [← Finset.mul_sum, ← Finset.mul_sum, Finset.sum_comm]
  simp only [← Finset.mul_sum, ← Nat.cast_sum, sum_uses]
  rw [← Finset.sum_mul]
  field_simp

end


/-! ## An instance: linear regression with the Huber loss -/

/-- an example of linear regression: features of norm at most `R`, and a target -/
def RegData (R : ℝ) : Type := {z : (ℕ → ℕ → ℝ) × ℝ // l2 (idx σ) (fun x => z.1 x.1 x.2) ≤ R}

instance (R : ℝ) : MeasurableSpace (RegData σ R) := inferInstanceAs (MeasurableSpace {z : (ℕ → ℕ → ℝ) × ℝ // l2 (idx σ) (fun x => z.1 x.1 x.2) ≤ R})

/-- the Huber loss (`C56_huber`) of the prediction `⟨features, params⟩` -/
noncomputable def huberReg {R : ℝ} (d : ℝ) (z : RegData σ R) (t : Params ℝ) : ℝ := huber d (treeInner σ z.1.1 (coord t) - z.1.2)

/-- its gradient -/
noncomputable def huberRegGrad {R : ℝ} (d : ℝ) (z : RegData σ R) (p : ℕ → ℕ → ℝ) (k i : ℕ) : ℝ :=
  clipTo d (treeInner σ z.1.1 p - z.1.2) * z.1.1 k i

theorem treeInner_coord (a p : ℕ → ℕ → ℝ) : treeInner σ a (coord (mk σ p)) = treeInner σ a p := by
  unfold treeInner
  refine Finset.sum_congr rfl fun x hx => ?_
  obtain ⟨s, h1, h2⟩ := mem_idx.mp hx
  rw [coord_mk _ _ _ _ s h1 h2]

theorem clipTo_abs {d : ℝ} (hd : 0 < d) (e : ℝ) : |clipTo d e| ≤ d := by
  unfold clipTo
  rw [abs_le]
  exact ⟨le_max_left _ _, max_le (by linarith) (min_le_right _ _)⟩

theorem huberReg_facts {R d : ℝ} (hd : 0 < d) (z : RegData σ R) :
    Smooth σ (R ^ 2) (huberReg σ d z) (huberRegGrad σ d z) ∧ StronglyConvex σ 0 (huberReg σ d z) (huberRegGrad σ d z) ∧
      ∀ p, globalNorm (mk σ (huberRegGrad σ d z p)) ≤ d * R := by
  have hR : 0 ≤ R := (l2_nonneg _ _).trans z.2
  have e : ∀ p q : ℕ → ℕ → ℝ, treeInner σ (huberRegGrad σ d z p) (fun k i => q k i - p k i) =
      clipTo d (treeInner σ z.1.1 p - z.1.2) * ((treeInner σ z.1.1 q - z.1.2) - (treeInner σ z.1.1 p - z.1.2)) := by
    intro p q
    unfold huberRegGrad
    generalize clipTo d (treeInner σ z.1.1 p - z.1.2) = c
    unfold treeInner
    rw [sub_sub_sub_cancel_right, ← Finset.sum_sub_distrib, Finset.mul_sum]
    exact Finset.sum_congr rfl fun x _ => by ring
  refine ⟨fun p q => ?_, fun p q => ?_, fun p => ?_⟩
  · have h := (huber_tangent hd (treeInner σ z.1.1 p - z.1.2) (treeInner σ z.1.1 q - z.1.2)).2
    rw [e p q]
    unfold huberReg
    rw [treeInner_coord, treeInner_coord]
    have h1 : ((treeInner σ z.1.1 q - z.1.2) - (treeInner σ z.1.1 p - z.1.2)) ^ 2 ≤ R ^ 2 * sqDist σ q p := by
      have e1 : (treeInner σ z.1.1 q - z.1.2) - (treeInner σ z.1.1 p - z.1.2) =
          ∑ x ∈ idx σ, z.1.1 x.1 x.2 * (q x.1 x.2 - p x.1 x.2) := by
        unfold treeInner
        rw [sub_sub_sub_cancel_right, ← Finset.sum_sub_distrib]
        exact Finset.sum_congr rfl fun x _ => by ring
      have h2 := abs_inner_le_l2 (idx σ) (fun x => z.1.1 x.1 x.2) (fun x => q x.1 x.2 - p x.1 x.2)
      have h3 := h2.trans (mul_le_mul_of_nonneg_right z.2 (l2_nonneg (idx σ) fun x => q x.1 x.2 - p x.1 x.2))
      rw [e1, sqDist_eq, treeDist_l2, ← mul_pow, ← sq_abs]
      exact pow_le_pow_left₀ (abs_nonneg _) h3 2
    linarith
  · have h := (huber_tangent hd (treeInner σ z.1.1 p - z.1.2) (treeInner σ z.1.1 q - z.1.2)).1
    rw [e p q]
    unfold huberReg
    rw [treeInner_coord, treeInner_coord, zero_div, zero_mul, add_zero]
    linarith
  · rw [globalNorm_mk]
    change l2 (idx σ) (fun x => clipTo d (treeInner σ z.1.1 p - z.1.2) * z.1.1 x.1 x.2) ≤ d * R
    rw [l2_smul]
    exact mul_le_mul (clipTo_abs hd _) z.2 (l2_nonneg _ _) hd.le

theorem huber_measurable (d : ℝ) : Measurable (huber d) := by
  unfold huber
  refine Measurable.ite (measurableSet_le (by fun_prop) measurable_const) (by fun_prop) (by fun_prop)

theorem treeInner_measurable {R : ℝ} : Measurable fun x : (ℕ → ℕ → ℝ) × RegData σ R => treeInner σ x.2.1.1 x.1 - x.2.1.2 := by
  have hz : Measurable fun z : RegData σ R => z.1 := measurable_subtype_coe
  refine Measurable.sub ?_ (measurable_snd.comp (hz.comp measurable_snd))
  unfold treeInner
  refine Finset.measurable_fun_sum _ fun y _ => Measurable.mul ?_ ?_
  · exact (measurable_pi_apply _).comp ((measurable_pi_apply _).comp (measurable_fst.comp (hz.comp measurable_snd)))
  · exact (measurable_pi_apply _).comp ((measurable_pi_apply _).comp measurable_fst)

/-- **C127 (regression with the Huber loss).** Linear regression with Huber loss of width `d` on features of norm at most `R`, trained by `sgd` with rates at most
`2/R²` on `n+1` i.i.d. examples with integrable loss at the initial parameters: the expected generalisation gap is at most `2 d² R²/(n+1) · Σ ηₙ`. -/
theorem C127_huber {R d : ℝ} (hd : 0 < d) {n b : ℕ} (hb : 0 < b) (lr : LR ℝ) (nes : Bool) (hlr : ∀ n, 0 ≤ lr.at n ∧ R ^ 2 * lr.at n ≤ 2)
    (ν : Measure (RegData σ R)) [IsProbabilityMeasure ν] (p0 : ℕ → ℕ → ℝ) (h0 : Integrable (fun z => huberReg σ d z (mk σ p0)) ν)
    (B : ℕ → Fin b → Fin (n + 1)) :
    ∃ P : (Fin (n + 1) → RegData σ R) → ℕ → ℕ → ℕ → ℝ,
      (∀ S, P S 0 = p0 ∧ Visits (sgd lr none nes) (fun n p => mk σ (batchGrad (huberRegGrad σ d) S B n (coord p))) σ (P S)) ∧ ∀ N,
      |∫ S, ((∫ z, huberReg σ d z (mk σ (P S N)) ∂ν) - (∑ j, huberReg σ d (S j) (mk σ (P S N))) / (n + 1)) ∂(Measure.pi fun _ => ν)| ≤
        2 * (d * R) ^ 2 / (n + 1) * ∑ m ∈ range N, lr.at m := by
  have hz : Measurable fun z : RegData σ R => z.1 := measurable_subtype_coe
  obtain ⟨P, h1, h2⟩ := C127_generalisation σ (loss := huberReg σ d) (g := huberRegGrad σ d) (L := R ^ 2) (C := d * R) hb (sq_nonneg R) lr nes hlr
    (fun z => (huberReg_facts σ hd z).1) (fun z => (huberReg_facts σ hd z).2.1) (fun z => (huberReg_facts σ hd z).2.2)
    (fun k i => by
      unfold huberRegGrad clipTo
      refine Measurable.mul (measurable_const.max ((treeInner_measurable σ).min measurable_const)) ?_
      exact (measurable_pi_apply _).comp ((measurable_pi_apply _).comp (measurable_fst.comp (hz.comp measurable_snd))))
    (by
      unfold huberReg
      simp only [treeInner_coord]
      exact (huber_measurable d).comp (treeInner_measurable σ))
    ν p0 h0 B (fun D n p => mk σ (batchGrad (huberRegGrad σ d) D B n (coord p))) (by
      intro D n p
      unfold batchGrad huberRegGrad
      simp only [treeInner_coord])
  exact ⟨P, h1, fun N => (h2 N).2⟩

/-- Non-vacuity of `C127_stability` and of `C127_huber`: regression with features of norm at most 1, one batch of two of three examples per step, and the
constant rate `1/10`. -/
example (p0 : ℕ → ℕ → ℝ) := C127_stability σ (ι := Fin 3) (b := 2) (L := 1) (V := 2) (loss := fun z : RegData σ 1 => huberReg σ 1 z)
  (g := huberRegGrad σ 1) (by norm_num) zero_le_one (.scalar (1 / 10)) false (fun _ => by norm_num [LR.at])
  (fun z => by have := (huberReg_facts σ one_pos z).1; rwa [one_pow] at this) (fun z => (huberReg_facts σ one_pos z).2.1)
  (fun z z' p => by
    have h1 := (huberReg_facts σ one_pos z).2.2 p
    have h2 := (huberReg_facts σ one_pos z').2.2 p
    rw [globalNorm_mk] at h1 h2
    rw [treeDist_l2]
    refine (l2_sub_le (idx σ) (fun x => huberRegGrad σ 1 z p x.1 x.2) (fun x => huberRegGrad σ 1 z' p x.1 x.2)).trans ?_
    change l2 (idx σ) (fun x => huberRegGrad σ 1 z p x.1 x.2) ≤ _ at h1
    change l2 (idx σ) (fun x => huberRegGrad σ 1 z' p x.1 x.2) ≤ _ at h2
    linarith)
  (fun n m => if n % 2 = 0 then m.castSucc else m.succ) (fun D n p => mk σ (batchGrad (huberRegGrad σ 1) D (fun (n : ℕ) (m : Fin 2) => if n % 2 = 0 then m.castSucc else m.succ) n (coord p)))
  (fun D n p => by unfold batchGrad huberRegGrad; simp only [treeInner_coord]) p0

/-- the data of a mean estimation problem: points of norm at most 1 -/
def BallData : Type := {z : ℕ → ℕ → ℝ // l2 (idx σ) (fun x => z x.1 x.2) ≤ 1}

/-- Non-vacuity of `C127_strong`: least squares on points of the unit ball, all `m+1` examples in every batch, rate `1/2`: replacing one of the points moves the
parameters by at most `2/(m+1)`, for ever. -/
theorem C127_mean (m : ℕ) (p0 : ℕ → ℕ → ℝ) :
    ∃ P : (Fin (m + 1) → BallData σ) → ℕ → ℕ → ℕ → ℝ,
      (∀ D, P D 0 = p0 ∧ Visits (sgd (.scalar (1 / 2)) none false) (fun _ p => mk σ (fun k i => (∑ j, (coord p k i - (D j).1 k i)) / (m + 1 : ℕ))) σ (P D)) ∧
      ∀ D D' j, (∀ i, i ≠ j → D i = D' i) → ∀ N, treeDist σ (P D N) (P D' N) ≤ 2 / (m + 1) := by
  obtain ⟨P, h1, h2⟩ := C127_strong σ (ι := Fin (m + 1)) (Z := BallData σ) (b := m + 1) (L := 1) (μ := 1) (V := 2) (loss := fun z => leastSquares σ z.1)
    (g := fun z p k i => p k i - z.1 k i) (Nat.succ_pos m) one_pos le_rfl (.scalar (1 / 2)) false (fun _ => by norm_num [LR.at])
    (fun z => leastSquares_smooth σ z.1) (fun z => leastSquares_convex σ z.1)
    (fun z z' p => by
      rw [treeDist_l2]
      have h := l2_sub_le (idx σ) (fun x => z'.1 x.1 x.2) (fun x => z.1 x.1 x.2)
      have h1 := z.2
      have h2 := z'.2
      refine le_trans (le_of_eq (l2_congr _ fun x _ => ?_)) (h.trans (by linarith))
      ring)
    (fun _ i => i) (fun D _ p => mk σ (fun k i => (∑ j, (coord p k i - (D j).1 k i)) / (m + 1 : ℕ)))
    (fun D n p => by
      refine mk_congr fun k s hk i hi => ?_
      rw [coord_mk _ _ _ _ s hk hi]
      rfl) p0
  refine ⟨P, h1, fun D D' j hD N => ?_⟩
  have h3 := h2 D D' j hD 1 (fun n => by
    unfold uses
    rw [Finset.filter_eq' univ j]
    simp) N
  push_cast at h3
  rw [one_mul, mul_one] at h3
  exact h3

/-- **C127 (the bound on the rate is needed).** Beyond `2/L` a single changed example moves the parameters without bound: least squares (`L = 1`), one example per data set,
rate 3. -/
theorem C127_large_rate :
    ∃ P : (Unit → ℝ) → ℕ → ℕ → ℕ → ℝ,
      (∀ D, P D 0 = (fun _ _ => 0) ∧
        Visits (sgd (.scalar 3) none false) (fun _ p => mk (.leaf []) (fun k i => coord p k i - D ())) (.leaf []) (P D)) ∧
      ∀ D D' : Unit → ℝ, D () ≠ D' () → ∀ M : ℝ, ∃ N, M ≤ treeDist (.leaf []) (P D N) (P D' N) := by
  let G : (Unit → ℝ) → ℕ → (ℕ → ℕ → ℝ) → ℕ → ℕ → ℝ := fun D _ p k i => p k i - D ()
  refine ⟨fun D => plainSgd (fun _ => 3) (G D) fun _ _ => 0, fun D => ⟨rfl, ?_⟩, fun D D' hne M => ?_⟩
  · refine sgd_visits (.leaf []) (.scalar 3) false _ (G D) (fun n p => ?_) _
    refine mk_congr fun k s hk i hi => ?_
    rw [coord_mk _ _ _ _ s hk hi]
  · have hcl : ∀ (D : Unit → ℝ) n k i, plainSgd (fun _ => 3) (G D) (fun _ _ => 0) n k i = D () * (1 - (-2) ^ n) := by
      intro D n k i
      induction n with
      | zero => simp [plainSgd]
      | succ n ih =>
        simp only [plainSgd, G]
        rw [ih]; ring
    have hpos : 0 < |D () - D' ()| := abs_pos.2 (sub_ne_zero.2 hne)
    obtain ⟨N, hN⟩ := pow_unbounded_of_one_lt (M / |D () - D' ()| + 1) (one_lt_two : (1 : ℝ) < 2)
    refine ⟨N, ?_⟩
    rw [treeDist_l2]
    have hmem : (⟨0, 0⟩ : (_ : ℕ) × ℕ) ∈ idx (.leaf []) := mem_idx.2 ⟨[], rfl, by norm_num⟩
    refine le_trans ?_ (abs_le_l2 _ _ hmem)
    dsimp only
    rw [hcl, hcl, ← sub_mul, abs_mul]
    have h1 : 2 ^ N - 1 ≤ |1 - (-2 : ℝ) ^ N| := by
      have h2 := abs_sub_abs_le_abs_sub ((-2 : ℝ) ^ N) 1
      rw [abs_pow, abs_neg, abs_two, abs_one, abs_sub_comm] at h2
      exact h2
    have h3 : M / |D () - D' ()| ≤ |1 - (-2 : ℝ) ^ N| := by linarith
    calc M = |D () - D' ()| * (M / |D () - D' ()|) := by field_simp
      _ ≤ _ := mul_le_mul_of_nonneg_left h3 hpos.le

end Optax
