import Verif.Lemmas.FloatErr
import Verif.Props.Convergence
import Verif.Props.FloatStationary
import Verif.Props.Bind

/-!
# C113: gradient descent in floating point

`sgd` with a constant learning rate on a smooth strongly convex loss, every operation of the optimiser and of
`apply_updates` rounded, and a gradient that is itself computed with an error.  The parameters never overflow and never become
NaN; the distance to the minimiser decreases geometrically down to a floor proportional to the unit roundoff.
-/

set_option linter.unusedSectionVars false

namespace Optax
open FP Classical
variable (σ : Spec) {F : Format}

/-- the entries of the tree are finite and have the real values `x` -/
def Reads (P : ℕ → ℕ → FP F) (x : ℕ → ℕ → ℝ) : Prop := ∀ y ∈ idx σ, (P y.1 y.2).1 = .fin (x y.1 y.2)

/-- `grad` computes the gradient `G` up to an error: on every tree of finite numbers within `R` of `q` the result is finite, and
its distance to the exact gradient is at most `δ + κ · distance to q`. -/
def ComputesGrad (grad : ℕ → Params (FP F) → Params (FP F)) (G : (ℕ → ℕ → ℝ) → ℕ → ℕ → ℝ) (q : ℕ → ℕ → ℝ) (R δ κ : ℝ) : Prop :=
  ∀ n P x, Reads σ P x → treeDist σ x q ≤ R →
    ∃ H h, grad n (mk σ P) = mk σ H ∧ Reads σ H h ∧ treeDist σ h (G x) ≤ δ + κ * treeDist σ x q

/-- number of entries -/
def numEntries : ℕ := (idx σ).card

theorem abs_le_l2 {ι : Type} (s : Finset ι) (f : ι → ℝ) {x : ι} (hx : x ∈ s) : |f x| ≤ l2 s f := by
  unfold l2
  rw [← Real.sqrt_sq_eq_abs]
  exact Real.sqrt_le_sqrt (Finset.single_le_sum (f := fun x => f x ^ 2) (fun _ _ => sq_nonneg _) hx)

theorem l2_const {ι : Type} (s : Finset ι) {c : ℝ} (hc : 0 ≤ c) : l2 s (fun _ => c) = c * Real.sqrt ((s.card : ℕ) : ℝ) := by
  unfold l2
  rw [Finset.sum_const, nsmul_eq_mul, mul_comm, Real.sqrt_mul (sq_nonneg c), Real.sqrt_sq hc]

theorem treeDist_l2 (a b : ℕ → ℕ → ℝ) : treeDist σ a b = l2 (idx σ) (fun x => a x.1 x.2 - b x.1 x.2) := by
  unfold treeDist; rw [globalNorm_mk]; rfl

/-- one exact step contracts the distance to the minimiser -/
theorem exact_contract {L μ a : ℝ} {loss : Params ℝ → ℝ} {G : (ℕ → ℕ → ℝ) → ℕ → ℕ → ℝ} (ha : 0 ≤ a) (hL : L * a ≤ 1)
    (hμ : a * μ ≤ 1) (hs : Smooth σ L loss G) (hc : StronglyConvex σ μ loss G) (q : ℕ → ℕ → ℝ) (hq : ∀ t, loss (mk σ q) ≤ loss t)
    (x : ℕ → ℕ → ℝ) :
    treeDist σ (fun k i => x k i - a * G x k i) q ≤ Real.sqrt (1 - a * μ) * treeDist σ x q := by
  have h1 := convex_step σ hs hc x q a ha hL
  have h2 : 0 ≤ 2 * a * (loss (mk σ (fun k i => x k i - a * G x k i)) - loss (mk σ q)) :=
    _root_.mul_nonneg (by linarith) (by have := hq (mk σ (fun k i => x k i - a * G x k i)); linarith)
  rw [sqDist_eq, sqDist_eq] at h1
  have h0 : 0 ≤ treeDist σ x q := by rw [treeDist_l2]; exact l2_nonneg _ _
  have h3 : 0 ≤ Real.sqrt (1 - a * μ) * treeDist σ x q := _root_.mul_nonneg (Real.sqrt_nonneg _) h0
  refine abs_le_of_sq_le_sq' ?_ h3 |>.2
  rw [mul_pow, Real.sq_sqrt (by linarith)]
  linarith

/-- one rounded step -/
theorem float_step {u η M : ℝ} (hF : ErrModel F u η M) (hu : 0 ≤ u) (hu4 : u ≤ 1 / 4) (hη : 0 ≤ η) (lr : FP F) {a : ℝ}
    (hlr : lr.1 = .fin a) (ha : 0 ≤ a) {ρ : ℝ} (hρ1 : ρ ≤ 1) (x q g h : ℕ → ℕ → ℝ)
    (hstep : treeDist σ (fun k i => x k i - a * g k i) q ≤ ρ * treeDist σ x q) {B : ℝ} (hB : treeDist σ h g ≤ B)
    (P H : ℕ → ℕ → FP F) (hP : Reads σ P x) (hH : Reads σ H h)
    (hM : globalNorm (mk σ q) + 2 * treeDist σ x q + 2 * a * B + η * Real.sqrt (numEntries σ) ≤ M) :
    ∃ y, Reads σ (fun k i => P k i + -lr * H k i) y ∧
      treeDist σ y q ≤ (ρ + 4 * u) * treeDist σ x q + 2 * a * B + u * globalNorm (mk σ q) + 3 * η * Real.sqrt (numEntries σ) := by
  simp only [treeDist_l2, globalNorm_mk, entryNorm] at hstep hB hM ⊢
  unfold Reads at hP hH ⊢
  have hcard : ((numEntries σ : ℕ) : ℝ) = (((idx σ).card : ℕ) : ℝ) := rfl
  rw [hcard] at hM ⊢
  generalize idx σ = s at *
  set D := l2 s (fun y => x y.1 y.2 - q y.1 y.2) with hD
  set Q := l2 s (fun y => q y.1 y.2) with hQ
  set w := Real.sqrt ((s.card : ℕ) : ℝ) with hw
  have hD0 : 0 ≤ D := l2_nonneg _ _
  have hQ0 : 0 ≤ Q := l2_nonneg _ _
  have hw0 : 0 ≤ w := Real.sqrt_nonneg _
  have hB0 : 0 ≤ B := _root_.le_trans (l2_nonneg _ _) hB
  have haB : 0 ≤ a * B := _root_.mul_nonneg ha hB0
  have hηw : 0 ≤ η * w := _root_.mul_nonneg hη hw0
  -- exact step with the computed gradient
  have s1 : l2 s (fun y => x y.1 y.2 - a * h y.1 y.2 - q y.1 y.2) ≤ ρ * D + a * B := by
    have e : ∀ y ∈ s, x y.1 y.2 - a * h y.1 y.2 - q y.1 y.2 =
        (x y.1 y.2 - a * g y.1 y.2 - q y.1 y.2) + -a * (h y.1 y.2 - g y.1 y.2) := fun y _ => by ring
    rw [l2_congr s e]
    refine (l2_add_le s _ _).trans ?_
    rw [l2_smul s _ (-a), abs_neg, abs_of_nonneg ha]
    exact add_le_add hstep (mul_le_mul_of_nonneg_left hB ha)
  -- size of the update
  have s2 : l2 s (fun y => a * h y.1 y.2) ≤ 2 * D + a * B := by
    have e : ∀ y ∈ s, a * h y.1 y.2 = (x y.1 y.2 - q y.1 y.2) - (x y.1 y.2 - a * h y.1 y.2 - q y.1 y.2) := fun y _ => by ring
    rw [l2_congr s e]
    refine (l2_sub_le s _ _).trans ?_
    have : ρ * D ≤ 1 * D := mul_le_mul_of_nonneg_right hρ1 hD0
    linarith
  -- the rounded product
  have r1 : ∀ y ∈ s, ∃ v, (-lr * H y.1 y.2).1 = .fin v ∧ |v + a * h y.1 y.2| ≤ u * |a * h y.1 y.2| + η := by
    intro y hy
    have hb : |(-a) * h y.1 y.2| ≤ M := by
      rw [neg_mul, abs_neg]
      refine (abs_le_l2 s (fun y => a * h y.1 y.2) hy).trans ?_
      linarith
    obtain ⟨v, hv, he⟩ := hF _ hb
    refine ⟨v, ?_, ?_⟩
    · rw [mul_val, neg_val, hlr, hH y hy, XReal.fin_neg, XReal.fin_mul]; exact hv
    · rw [neg_mul, abs_neg] at he
      rwa [show v + a * h y.1 y.2 = v - -(a * h y.1 y.2) by ring]
  choose! v hv hve using r1
  -- exact sum of the parameters and the rounded update
  have s3 : l2 s (fun y => v y + a * h y.1 y.2) ≤ u * (2 * D + a * B) + η * w := by
    have : l2 s (fun y => v y + a * h y.1 y.2) ≤ l2 s (fun y => u * |a * h y.1 y.2| + η) :=
      l2_mono_abs s fun y hy => (hve y hy).trans (le_abs_self _)
    refine this.trans ((l2_add_le s _ _).trans ?_)
    rw [l2_smul, abs_of_nonneg hu, l2_const s hη]
    have e : l2 s (fun y => |a * h y.1 y.2|) = l2 s (fun y => a * h y.1 y.2) := by
      unfold l2; simp only [sq_abs]
    rw [e]
    exact add_le_add_left (mul_le_mul_of_nonneg_left s2 hu) _
  have s4 : l2 s (fun y => x y.1 y.2 + v y - q y.1 y.2) ≤ ρ * D + a * B + (u * (2 * D + a * B) + η * w) := by
    have e : ∀ y ∈ s, x y.1 y.2 + v y - q y.1 y.2 =
        (x y.1 y.2 - a * h y.1 y.2 - q y.1 y.2) + (v y + a * h y.1 y.2) := fun y _ => by ring
    rw [l2_congr s e]
    exact (l2_add_le s _ _).trans (add_le_add s1 s3)
  have s5 : l2 s (fun y => x y.1 y.2 + v y) ≤ Q + (ρ * D + a * B + (u * (2 * D + a * B) + η * w)) := by
    have e : ∀ y ∈ s, x y.1 y.2 + v y = q y.1 y.2 + (x y.1 y.2 + v y - q y.1 y.2) := fun y _ => by ring
    rw [l2_congr s e]
    exact (l2_add_le s _ _).trans (add_le_add_right s4 _)
  have uD : u * D ≤ D / 4 := by nlinarith
  have uaB : u * (a * B) ≤ a * B / 4 := by nlinarith
  have ρD : ρ * D ≤ D := by nlinarith
  have hsum : Q + (ρ * D + a * B + (u * (2 * D + a * B) + η * w)) ≤ Q + 2 * D + 2 * a * B + η * w := by nlinarith
  have r2 : ∀ y ∈ s, ∃ z, (P y.1 y.2 + -lr * H y.1 y.2).1 = .fin z ∧
      |z - (x y.1 y.2 + v y)| ≤ u * |x y.1 y.2 + v y| + η := by
    intro y hy
    obtain ⟨z, hz, he⟩ := hF (x y.1 y.2 + v y) ((abs_le_l2 s (fun y => x y.1 y.2 + v y) hy).trans (by linarith))
    refine ⟨z, ?_, he⟩
    rw [add_val, hP y hy, hv y hy, XReal.fin_add]; exact hz
  choose! z hz hze using r2
  refine ⟨fun k i => z ⟨k, i⟩, fun y hy => hz y hy, ?_⟩
  have s6 : l2 s (fun y => z y - (x y.1 y.2 + v y)) ≤ u * (Q + 2 * D + 2 * a * B + η * w) + η * w := by
    have : l2 s (fun y => z y - (x y.1 y.2 + v y)) ≤ l2 s (fun y => u * |x y.1 y.2 + v y| + η) :=
      l2_mono_abs s fun y hy => (hze y hy).trans (le_abs_self _)
    refine this.trans ((l2_add_le s _ _).trans ?_)
    rw [l2_smul, abs_of_nonneg hu, l2_const s hη]
    have e : l2 s (fun y => |x y.1 y.2 + v y|) = l2 s (fun y => x y.1 y.2 + v y) := by
      unfold l2; simp only [sq_abs]
    rw [e]
    exact add_le_add_left (mul_le_mul_of_nonneg_left (s5.trans hsum) hu) _
  have e : ∀ y ∈ s, z ⟨y.1, y.2⟩ - q y.1 y.2 = (z y - (x y.1 y.2 + v y)) + (x y.1 y.2 + v y - q y.1 y.2) := fun y _ => by ring
  rw [l2_congr s e]
  refine ((l2_add_le s _ _).trans (add_le_add s6 s4)).trans ?_
  have uη : u * (η * w) ≤ η * w / 4 := by nlinarith
  nlinarith

/-- state of plain `sgd` with a constant rate -/
theorem sgd_plain_init (lr : FP F) (nes : Bool) (p : Params (FP F)) :
    (sgd (.scalar lr) none nes).init p = .ok (some ((⟨⟩ : EmptyState), some ((⟨⟩ : EmptyState), (0 : ℕ)))) := rfl

theorem sgd_plain_update (lr : FP F) (nes : Bool) (g : ℕ → ℕ → FP F) (pp : Option (Params (FP F))) :
    (sgd (.scalar lr) none nes).update (mk σ g) (some ((⟨⟩ : EmptyState), some ((⟨⟩ : EmptyState), (0 : ℕ)))) pp =
      .ok (mk σ fun k i => -lr * g k i, some ((⟨⟩ : EmptyState), some ((⟨⟩ : EmptyState), (0 : ℕ)))) := by
  refine (chain_two_update identity (scale (-lr)) (mk σ g) ⟨⟩ ⟨⟩ pp).trans ?_
  have h1 : (identity (α := FP F)).update (mk σ g) ⟨⟩ pp = .ok (mk σ g, ⟨⟩) := rfl
  rw [h1, Res.ok_bind, scale_update_mk, Res.ok_bind]
  rfl

/-- **C113.** Let every result of absolute value at most `M` be rounded with relative error at most `u ≤ 1/4` and absolute error at
most `η`; let the learning rate `a` be a number of the format with `aL ≤ 1` on an `L`-smooth `μ`-strongly convex loss with
minimiser `q`; let the gradient be computed with error at most `δ + κ‖p - q‖`.  With `ρ = √(1 - aμ) + 4u + 2aκ < 1` and
`E = 2aδ + u‖q‖ + 3η√d`, training from any finite `p₀` never fails, all parameters remain finite numbers, and
`‖p_N - q‖ ≤ ρ^N ‖p₀ - q‖ + E/(1 - ρ)` for every `N`, provided the format is wide enough (`hR0`, `hR`, `hM`). -/
theorem C113_sgd {u η M : ℝ} (hF : ErrModel F u η M) (hu : 0 ≤ u) (hu4 : u ≤ 1 / 4) (hη : 0 ≤ η) (lr : FP F) (nes : Bool) (a : ℝ)
    (hlr : lr.1 = .fin a) (ha : 0 ≤ a) (L μ : ℝ) (hL : L * a ≤ 1) (hμ : a * μ ≤ 1) (loss : Params ℝ → ℝ)
    (G : (ℕ → ℕ → ℝ) → ℕ → ℕ → ℝ) (hs : Smooth σ L loss G) (hc : StronglyConvex σ μ loss G)
    (q : ℕ → ℕ → ℝ) (hq : ∀ t, loss (mk σ q) ≤ loss t)
    (grad : ℕ → Params (FP F) → Params (FP F)) (R δ κ : ℝ) (hδ : 0 ≤ δ) (hκ : 0 ≤ κ) (hg : ComputesGrad σ grad G q R δ κ)
    (ρ E : ℝ) (hρ : ρ = Real.sqrt (1 - a * μ) + 4 * u + 2 * a * κ) (hρ1 : ρ < 1)
    (hE : E = 2 * a * δ + u * globalNorm (mk σ q) + 3 * η * Real.sqrt (numEntries σ))
    (hR : E ≤ (1 - ρ) * R) (hM : globalNorm (mk σ q) + 2 * R + 2 * a * (δ + κ * R) + η * Real.sqrt (numEntries σ) ≤ M)
    (P0 : ℕ → ℕ → FP F) (x0 : ℕ → ℕ → ℝ) (h0 : Reads σ P0 x0) (hR0 : treeDist σ x0 q ≤ R) :
    ∃ s0, (sgd (.scalar lr) none nes).init (mk σ P0) = .ok s0 ∧ ∀ N : ℕ, ∃ P x s,
      trainLoop (sgd (.scalar lr) none nes) grad N s0 (mk σ P0) = .ok (mk σ P, s) ∧ Reads σ P x ∧
      treeDist σ x q ≤ ρ ^ N * treeDist σ x0 q + E / (1 - ρ) := by
  have hD : ∀ x : ℕ → ℕ → ℝ, 0 ≤ treeDist σ x q := fun x => by rw [treeDist_l2]; exact l2_nonneg _ _
  have hr0 : 0 ≤ Real.sqrt (1 - a * μ) := Real.sqrt_nonneg _
  have haκ : 0 ≤ a * κ := _root_.mul_nonneg ha hκ
  have hr1 : Real.sqrt (1 - a * μ) ≤ 1 := by linarith
  have hρ0 : 0 ≤ ρ := by rw [hρ]; linarith
  have hE0 : 0 ≤ E := by
    rw [hE, globalNorm_mk]
    have := _root_.mul_nonneg hu (show 0 ≤ entryNorm σ q from l2_nonneg _ _)
    have := _root_.mul_nonneg ha hδ
    have := _root_.mul_nonneg hη (Real.sqrt_nonneg (numEntries σ))
    linarith
  refine ⟨_, sgd_plain_init lr nes _, ?_⟩
  have main : ∀ N : ℕ, ∃ P x,
      trainLoop (sgd (.scalar lr) none nes) grad N (some ((⟨⟩ : EmptyState), some ((⟨⟩ : EmptyState), (0 : ℕ)))) (mk σ P0) =
        .ok (mk σ P, (some ((⟨⟩ : EmptyState), some ((⟨⟩ : EmptyState), (0 : ℕ))))) ∧ Reads σ P x ∧
      treeDist σ x q ≤ ρ ^ N * treeDist σ x0 q + E / (1 - ρ) ∧ treeDist σ x q ≤ R := by
    intro N
    induction N with
    | zero =>
      refine ⟨P0, x0, rfl, h0, ?_, hR0⟩
      rw [pow_zero, _root_.one_mul]
      have : 0 ≤ E / (1 - ρ) := div_nonneg hE0 (by linarith)
      linarith
    | succ N ih =>
      obtain ⟨P, x, h1, h2, h3, h4⟩ := ih
      obtain ⟨H, h, e1, e2, e3⟩ := hg N P x h2 h4
      have hκD : κ * treeDist σ x q ≤ κ * R := mul_le_mul_of_nonneg_left h4 hκ
      have hMx : globalNorm (mk σ q) + 2 * treeDist σ x q + 2 * a * (δ + κ * treeDist σ x q) +
          η * Real.sqrt (numEntries σ) ≤ M := by
        have := mul_le_mul_of_nonneg_left hκD ha
        linarith
      obtain ⟨y, f1, f2⟩ := float_step σ hF hu hu4 hη lr hlr ha hr1 x q (G x) h
        (exact_contract σ ha hL hμ hs hc q hq x) e3 P H h2 e2 hMx
      have f3 : treeDist σ y q ≤ ρ * treeDist σ x q + E := by
        rw [hρ, hE]; linarith
      refine ⟨_, y, ?_, f1, ?_, ?_⟩
      · refine trainLoop_succ _ grad N _ _ _ _ _ _ (mk σ fun k i => -lr * H k i) h1 ?_ ?_
        · rw [e1]
          exact sgd_plain_update σ lr nes H _
        · rw [C06_apply_updates]
      · have g1 : ρ * treeDist σ x q ≤ ρ * (ρ ^ N * treeDist σ x0 q + E / (1 - ρ)) := mul_le_mul_of_nonneg_left h3 hρ0
        have g2 : ρ * (E / (1 - ρ)) + E = E / (1 - ρ) := by
          have : 1 - ρ ≠ 0 := by linarith
          field_simp; ring
        rw [pow_succ']
        linarith
      · have g1 : ρ * treeDist σ x q ≤ ρ * R := mul_le_mul_of_nonneg_left h4 hρ0
        linarith
  intro N
  obtain ⟨P, x, h1, h2, h3, _⟩ := main N
  exact ⟨P, x, _, h1, h2, h3⟩

/-- the loss `½‖p - c‖²` -/
noncomputable def leastSquares (c : ℕ → ℕ → ℝ) (t : Params ℝ) : ℝ := sqDist σ (coord t) c / 2

theorem leastSquares_mk (c p : ℕ → ℕ → ℝ) : leastSquares σ c (mk σ p) = sqDist σ p c / 2 := by
  unfold leastSquares sqDist
  congr 1
  refine Finset.sum_congr rfl fun x hx => ?_
  obtain ⟨s, h1, h2⟩ := mem_idx.mp hx
  rw [coord_mk _ _ _ _ s h1 h2]

theorem leastSquares_expand (c p r : ℕ → ℕ → ℝ) :
    sqDist σ r c / 2 = sqDist σ p c / 2 + treeInner σ (fun k i => p k i - c k i) (fun k i => r k i - p k i) + 1 / 2 * sqDist σ r p := by
  unfold treeInner sqDist
  rw [Finset.sum_div, Finset.sum_div, Finset.mul_sum, ← Finset.sum_add_distrib, ← Finset.sum_add_distrib]
  exact Finset.sum_congr rfl fun x _ => by ring

theorem leastSquares_smooth (c : ℕ → ℕ → ℝ) : Smooth σ 1 (leastSquares σ c) (fun p k i => p k i - c k i) := fun p r => by
  simp only [leastSquares_mk]; exact (leastSquares_expand σ c p r).le

theorem leastSquares_convex (c : ℕ → ℕ → ℝ) : StronglyConvex σ 1 (leastSquares σ c) (fun p k i => p k i - c k i) := fun p r => by
  simp only [leastSquares_mk]; exact (leastSquares_expand σ c p r).ge

theorem leastSquares_min (c : ℕ → ℕ → ℝ) (t : Params ℝ) : leastSquares σ c (mk σ c) ≤ leastSquares σ c t := by
  rw [leastSquares_mk]
  have : sqDist σ c c = 0 := by simp [sqDist]
  rw [this]
  unfold leastSquares
  have := sqDist_nonneg σ (coord t) c
  linarith

/-- the rounded difference `p - c` computes the gradient of `½‖p - c‖²` -/
theorem leastSquares_computes {u η M : ℝ} (hF : ErrModel F u η M) (hu : 0 ≤ u) (hη : 0 ≤ η) (C : ℕ → ℕ → FP F) (c : ℕ → ℕ → ℝ)
    (hC : Reads σ C c) (grad : ℕ → Params (FP F) → Params (FP F))
    (hg : ∀ n P, grad n (mk σ P) = mk σ fun k i => P k i - C k i) (R : ℝ) (hR : R ≤ M) :
    ComputesGrad σ grad (fun p k i => p k i - c k i) c R (η * Real.sqrt (numEntries σ)) u := by
  intro n P x hP hx
  rw [treeDist_l2] at hx
  have r : ∀ y ∈ idx σ, ∃ z, (P y.1 y.2 - C y.1 y.2).1 = .fin z ∧ |z - (x y.1 y.2 - c y.1 y.2)| ≤ u * |x y.1 y.2 - c y.1 y.2| + η := by
    intro y hy
    obtain ⟨z, hz, he⟩ := hF (x y.1 y.2 - c y.1 y.2)
      (((abs_le_l2 (idx σ) (fun y => x y.1 y.2 - c y.1 y.2) hy).trans hx).trans hR)
    refine ⟨z, ?_, he⟩
    rw [sub_val, hP y hy, hC y hy, XReal.fin_sub]; exact hz
  choose! z hz hze using r
  refine ⟨_, fun k i => z ⟨k, i⟩, hg n P, fun y hy => hz y hy, ?_⟩
  rw [treeDist_l2, treeDist_l2]
  have : l2 (idx σ) (fun y => z ⟨y.1, y.2⟩ - (x y.1 y.2 - c y.1 y.2)) ≤
      l2 (idx σ) (fun y => u * |x y.1 y.2 - c y.1 y.2| + η) :=
    l2_mono_abs _ fun y hy => (hze y hy).trans (le_abs_self _)
  refine this.trans ((l2_add_le _ _ _).trans ?_)
  rw [l2_smul, abs_of_nonneg hu, l2_const _ hη]
  have e : l2 (idx σ) (fun y => |x y.1 y.2 - c y.1 y.2|) = l2 (idx σ) (fun y => x y.1 y.2 - c y.1 y.2) := by
    unfold l2; simp only [sq_abs]
  rw [e, add_comm]
  exact le_rfl

/-- **C113 (single precision).** `sgd(1/2)` on `½‖p - c‖²` in single precision, with the gradient computed as `p - c`: for every
tree of at most `2^100` entries and all finite `p₀`, `c` with `‖p₀ - c‖, ‖c‖ ≤ 2^100`, the parameters stay finite for ever and
`‖p_N - c‖ ≤ (3/4)^N ‖p₀ - c‖ + 2^-22 ‖c‖ + 2^-145 √d`. -/
theorem C113_float32 (nes : Bool) (C P0 : ℕ → ℕ → FP Format.float32) (c x0 : ℕ → ℕ → ℝ) (hC : Reads σ C c) (h0 : Reads σ P0 x0)
    (grad : ℕ → Params (FP Format.float32) → Params (FP Format.float32))
    (hg : ∀ n P, grad n (mk σ P) = mk σ fun k i => P k i - C k i) (hd : numEntries σ ≤ 2 ^ 100)
    (hc : globalNorm (mk σ c) ≤ 2 ^ 100) (hD : treeDist σ x0 c ≤ 2 ^ 100) :
    ∃ s0, (sgd (.scalar (of Format.float32 (.fin (1 / 2)))) none nes).init (mk σ P0) = .ok s0 ∧ ∀ N : ℕ, ∃ P x s,
      trainLoop (sgd (.scalar (of Format.float32 (.fin (1 / 2)))) none nes) grad N s0 (mk σ P0) = .ok (mk σ P, s) ∧ Reads σ P x ∧
      treeDist σ x c ≤ (3 / 4) ^ N * treeDist σ x0 c + (2 ^ (-22 : ℤ) * globalNorm (mk σ c) +
        2 ^ (-145 : ℤ) * Real.sqrt (numEntries σ)) := by
  have hD0 : 0 ≤ treeDist σ x0 c := by rw [treeDist_l2]; exact l2_nonneg _ _
  have hc0 : 0 ≤ globalNorm (mk σ c) := by rw [globalNorm_mk]; exact l2_nonneg _ _
  have hw0 : 0 ≤ Real.sqrt (numEntries σ) := Real.sqrt_nonneg _
  have hw1 : Real.sqrt (numEntries σ) ≤ 2 ^ 50 := by
    rw [show (2 : ℝ) ^ 50 = Real.sqrt (2 ^ 100) by
      rw [show (2 : ℝ) ^ 100 = (2 ^ 50) ^ 2 by norm_num, Real.sqrt_sq (by positivity)]]
    exact Real.sqrt_le_sqrt (by exact_mod_cast hd)
  have hr : Real.sqrt (1 - 1 / 2 * 1) ≤ 71 / 100 := by
    rw [show (71 / 100 : ℝ) = Real.sqrt ((71 / 100) ^ 2) by rw [Real.sqrt_sq (by norm_num)]]
    exact Real.sqrt_le_sqrt (by norm_num)
  obtain ⟨E, hE⟩ : ∃ E : ℝ, E = 2 * (1 / 2) * (2 ^ (-150 : ℤ) * Real.sqrt (numEntries σ)) + 2 ^ (-24 : ℤ) * globalNorm (mk σ c) +
      3 * 2 ^ (-150 : ℤ) * Real.sqrt (numEntries σ) := ⟨_, rfl⟩
  obtain ⟨ρ, hρ⟩ : ∃ ρ : ℝ, ρ = Real.sqrt (1 - 1 / 2 * 1) + 4 * 2 ^ (-24 : ℤ) + 2 * (1 / 2) * 2 ^ (-24 : ℤ) := ⟨_, rfl⟩
  have hρ1 : ρ ≤ 3 / 4 := by
    rw [hρ]
    have : (4 * 2 ^ (-24 : ℤ) + 2 * (1 / 2) * 2 ^ (-24 : ℤ) : ℝ) ≤ 4 / 100 := by norm_num
    linarith
  have hρ0 : 0 ≤ ρ := by rw [hρ]; positivity
  have hE0 : 0 ≤ E := by rw [hE]; positivity
  have hE1 : E ≤ 2 ^ 80 := by
    have a1 : (2 : ℝ) ^ (-24 : ℤ) * globalNorm (mk σ c) ≤ 2 ^ (-24 : ℤ) * 2 ^ 100 := mul_le_mul_of_nonneg_left hc (by positivity)
    have a2 : (2 : ℝ) ^ (-150 : ℤ) * Real.sqrt (numEntries σ) ≤ 2 ^ (-150 : ℤ) * 2 ^ 50 := mul_le_mul_of_nonneg_left hw1 (by positivity)
    have a3 : (2 : ℝ) ^ (-24 : ℤ) * 2 ^ 100 + 4 * (2 ^ (-150 : ℤ) * 2 ^ 50) ≤ 2 ^ 80 := by norm_num
    linarith
  have hM : treeDist σ x0 c + 4 * E ≤ 2 ^ 101 := by
    have : (4 * 2 ^ 80 + 2 ^ 100 : ℝ) ≤ 2 ^ 101 := by norm_num
    linarith
  obtain ⟨s0, h1, h2⟩ := C113_sgd σ Format.float32_err (by positivity) (by norm_num) (by positivity)
    (of Format.float32 (.fin (1 / 2))) nes (1 / 2) Format.float32_half (by norm_num) 1 1 (by norm_num) (by norm_num)
    (leastSquares σ c) _ (leastSquares_smooth σ c) (leastSquares_convex σ c) c (leastSquares_min σ c) grad
    (treeDist σ x0 c + 4 * E) (2 ^ (-150 : ℤ) * Real.sqrt (numEntries σ)) (2 ^ (-24 : ℤ)) (by positivity) (by positivity)
    (leastSquares_computes σ Format.float32_err (by positivity) (by positivity) C c hC grad hg _
      (hM.trans (by norm_num))) ρ E hρ (by linarith) hE
    (by nlinarith) (by
      have a2 : (2 : ℝ) ^ (-150 : ℤ) * Real.sqrt (numEntries σ) ≤ 2 ^ (-150 : ℤ) * 2 ^ 50 := mul_le_mul_of_nonneg_left hw1 (by positivity)
      have a3 : (2 : ℝ) ^ (-24 : ℤ) * (treeDist σ x0 c + 4 * E) ≤ 2 ^ (-24 : ℤ) * 2 ^ 101 := mul_le_mul_of_nonneg_left hM (by positivity)
      have a4 : (2 ^ 100 + 2 * 2 ^ 101 + 2 * (1 / 2) * (2 ^ (-150 : ℤ) * 2 ^ 50 + 2 ^ (-24 : ℤ) * 2 ^ 101) + 2 ^ (-150 : ℤ) * 2 ^ 50 : ℝ)
        ≤ (2 ^ 24 - 1) * 2 ^ 104 := by norm_num
      linarith)
    P0 x0 h0 (by linarith)
  refine ⟨s0, h1, fun N => ?_⟩
  obtain ⟨P, x, s, e1, e2, e3⟩ := h2 N
  refine ⟨P, x, s, e1, e2, e3.trans (add_le_add ?_ ?_)⟩
  · exact mul_le_mul_of_nonneg_right (pow_le_pow_left₀ hρ0 hρ1 N) hD0
  · have : E / (1 - ρ) ≤ 4 * E := by
      rw [div_le_iff₀ (by linarith)]
      nlinarith
    refine this.trans ?_
    rw [hE, show (2 : ℝ) ^ (-22 : ℤ) = 4 * 2 ^ (-24 : ℤ) by norm_num, show (2 : ℝ) ^ (-145 : ℤ) = 32 * 2 ^ (-150 : ℤ) by norm_num]
    have := _root_.mul_nonneg (show (0 : ℝ) ≤ 2 ^ (-150 : ℤ) by positivity) hw0
    linarith

/-- **C113 (stagnation).** The floor is real: with a constant gradient `-1` and learning rate `2^-26`, parameters equal to `-1`
never move in single precision, although each exact update is positive. -/
theorem C113_stagnation (nes : Bool) (grad : ℕ → Params (FP Format.float32) → Params (FP Format.float32))
    (hg : ∀ n P, grad n (mk σ P) = mk σ fun _ _ => -1) (N : ℕ) :
    ∃ s0, (sgd (.scalar (p32 (-26))) none nes).init (mk σ fun _ _ => -1) = .ok s0 ∧ ∃ s,
      trainLoop (sgd (.scalar (p32 (-26))) none nes) grad N s0 (mk σ fun _ _ => -1) = .ok (mk σ fun _ _ => -1, s) := by
  refine ⟨_, sgd_plain_init _ nes _, some ((⟨⟩ : EmptyState), some ((⟨⟩ : EmptyState), (0 : ℕ))), ?_⟩
  have hr : Format.float32.rnd (2 ^ (-26 : ℤ)) = .fin (2 ^ (-26 : ℤ)) := p32_rep (by norm_num) (by norm_num)
  have hm1 : (-1 : FP Format.float32).1 = .fin (-1) := by rw [neg_val, one_val, XReal.fin_neg]
  have hv : (p32 (-26)).1 = .fin (2 ^ (-26 : ℤ)) := hr
  have e1 : (-p32 (-26) * -1 : FP Format.float32) = p32 (-26) := by
    refine FP.ext ?_
    rw [mul_val, neg_val, hv, hm1, XReal.fin_neg, XReal.fin_mul, neg_mul_neg, _root_.mul_one]
    exact hr
  have e2 : (-1 + p32 (-26) : FP Format.float32) = -1 := by
    refine FP.ext ?_
    rw [add_val, hm1, hv, XReal.fin_add]
    refine (Format.float32_near_neg_one (by norm_num) (by norm_num)).trans ?_
    exact Format.float32.rnd_neg 1 Format.float32.rnd_one
  induction N with
  | zero => rfl
  | succ N ih =>
    refine trainLoop_succ _ grad N _ _ _ _ _ _ (mk σ fun _ _ => p32 (-26)) ih ?_ ?_
    · rw [hg]
      refine (sgd_plain_update σ (p32 (-26)) nes (fun _ _ => -1) _).trans ?_
      simp only [e1]
    · rw [C06_apply_updates]
      simp only [e2]

/-- **C113 (the formats).** Single precision and bfloat16 with rounding to nearest meet the error model, with unit roundoff
`2^-24` and `2^-8`. -/
theorem C113_formats : ErrModel Format.float32 (2 ^ (-24 : ℤ)) (2 ^ (-150 : ℤ)) ((2 ^ 24 - 1) * 2 ^ 104) ∧
    ErrModel Format.bfloat16 (2 ^ (-8 : ℤ)) (2 ^ (-134 : ℤ)) ((2 ^ 8 - 1) * 2 ^ 120) :=
  ⟨Format.float32_err, Format.bfloat16_err⟩

/-- Non-vacuity of `C113_float32` (which is itself an instance of `C113_sgd`): three parameters starting at 0, target 1. -/
example : let σ : Spec := .node .list [.leaf [3]]
    Reads σ (fun _ _ => (1 : FP Format.float32)) (fun _ _ => 1) ∧ Reads σ (fun _ _ => (0 : FP Format.float32)) (fun _ _ => 0) ∧
    numEntries σ ≤ 2 ^ 100 ∧ globalNorm (mk σ fun _ _ => (1 : ℝ)) ≤ 2 ^ 100 ∧ treeDist σ (fun _ _ => 0) (fun _ _ => 1) ≤ 2 ^ 100 := by
  intro σ
  have hcard : (idx σ).card = 3 := by decide
  have e3 : Real.sqrt 3 ≤ 2 ^ 100 := (Real.sqrt_le_sqrt (show (3 : ℝ) ≤ 2 ^ 2 by norm_num)).trans (by
    rw [Real.sqrt_sq (by norm_num)]; norm_num)
  refine ⟨fun _ _ => one_val, fun _ _ => zero_val, ?_, ?_, ?_⟩
  · unfold numEntries; rw [hcard]; norm_num
  · rw [globalNorm_mk]; unfold entryNorm; rw [l2_const _ zero_le_one, hcard]; norm_num at e3 ⊢; exact e3
  · rw [treeDist_l2]
    have : l2 (idx σ) (fun _ => (0 : ℝ) - 1) = l2 (idx σ) (fun _ => (1 : ℝ)) := by unfold l2; norm_num
    rw [this, l2_const _ zero_le_one, hcard]; norm_num at e3 ⊢; exact e3

end Optax
