import Verif.Props.LossScaling
import Verif.Props.AliasReal
import Verif.Props.ApplyEvery
import Verif.Props.Congruence
import Verif.Props.LinearModels
import Verif.Props.Convergence

/-!
# C154: changing the unit of the parameters, and scale-invariant losses
-/

set_option linter.unusedSectionVars false
set_option linter.unusedSimpArgs false

namespace Optax
open Finset

section sim
variable {α : Type} [Zero α] [One α] [Add α] [Sub α] [Mul α] [Div α] [Neg α] [JOps α]
variable (sc : ℤ → α → α) (σ : Spec)

/-- proof principle: on parameters times `c^m` and gradients times `c^j` the transformation `t'` returns the updates of `t` times `c^k` -/
def Reunits (m j k : ℤ) (t t' : GT α) : Prop :=
  ∃ R : t.State → t'.State → Prop,
    (∀ v, Res.Rel R (t.init (mk σ v)) (t'.init (mk σ (scw sc m v)))) ∧
    ∀ g s s' (pp : Option (ℕ → ℕ → α)), R s s' →
      ScStep sc σ k R (t.update (mk σ g) s (pp.map (mk σ))) (t'.update (mk σ (scw sc j g)) s' (pp.map (fun p => mk σ (scw sc m p))))

inductive ReunitsL (m : ℤ) : ℤ → ℤ → List (GT α) → List (GT α) → Prop
  | nil (j : ℤ) : ReunitsL m j j [] []
  | cons {j k l : ℤ} {t t' : GT α} {ts ts' : List (GT α)} : Reunits sc σ m j k t t' → ReunitsL m k l ts ts' → ReunitsL m j l (t :: ts) (t' :: ts')

variable {sc σ}

theorem Reunits.chain {m j k : ℤ} {ts ts' : List (GT α)} (h : ReunitsL sc σ m j k ts ts') : Reunits sc σ m j k (chain ts) (chain ts') := by
  suffices H : ∃ R : ChainState ts → ChainState ts' → Prop,
      (∀ v, Res.Rel R (chainInit ts (mk σ v)) (chainInit ts' (mk σ (scw sc m v)))) ∧
      (∀ s s', R s s' → ChainState.length ts s = ts.length ∧ ChainState.length ts' s' = ts'.length) ∧
      ∀ g s s' (pp : Option (ℕ → ℕ → α)), R s s' →
        ScStep sc σ k R (chainLoop ts (mk σ g) s (pp.map (mk σ))) (chainLoop ts' (mk σ (scw sc j g)) s' (pp.map (fun p => mk σ (scw sc m p)))) by
    obtain ⟨R, h1, h2, h3⟩ := H
    refine ⟨R, h1, ?_⟩
    intro g s s' pp hs
    obtain ⟨l1, l2⟩ := h2 s s' hs
    show ScStep sc σ k R (if ChainState.length ts s ≠ ts.length then valueError else _)
      (if ChainState.length ts' s' ≠ ts'.length then valueError else _)
    rw [if_neg (by simp [l1]), if_neg (by simp [l2])]
    exact h3 g s s' pp hs
  induction h with
  | nil j =>
    refine ⟨fun s s' => s = (0 : ℕ) ∧ s' = (0 : ℕ), fun v => ⟨rfl, rfl⟩, ?_, ?_⟩
    · rintro s s' ⟨rfl, rfl⟩; exact ⟨rfl, rfl⟩
    · rintro g s s' pp ⟨rfl, rfl⟩; exact ⟨⟨g, rfl, rfl⟩, rfl, rfl⟩
  | @cons j k l t t' ts ts' h _ ih =>
    obtain ⟨R, a1, a2⟩ := h
    obtain ⟨Q, b1, b2, b3⟩ := ih
    refine ⟨fun s s' => ∃ x r x' r', s = some (x, r) ∧ s' = some (x', r') ∧ R x x' ∧ Q r r', ?_, ?_, ?_⟩
    · intro v
      simp only [chainInit]
      rcases Res.rel_ok (a1 v) with ⟨x, y, hx, hy, hxy⟩ | ⟨e, hx, hy⟩
      · rw [hx, hy]
        simp only [Res.ok_bind]
        rcases Res.rel_ok (b1 v) with ⟨x', y', hx', hy', hxy'⟩ | ⟨e, hx', hy'⟩
        · rw [hx', hy']
          exact ⟨x, x', y, y', rfl, rfl, hxy, hxy'⟩
        · rw [hx', hy']; rfl
      · rw [hx, hy]; rfl
    · rintro s s' ⟨x, r, x', r', rfl, rfl, _, hq⟩
      obtain ⟨l1, l2⟩ := b2 r r' hq
      exact ⟨by simp [ChainState.length, l1, Nat.add_comm], by simp [ChainState.length, l2, Nat.add_comm]⟩
    · rintro g s s' pp ⟨x, r, x', r', rfl, rfl, hx, hq⟩
      simp only [chainLoop]
      rcases Res.rel_ok (a2 g x x' pp hx) with ⟨⟨a1, a2⟩, ⟨b1, b2⟩, ha, hb, ⟨u, hu1, hu2⟩, hr⟩ | ⟨e, ha, hb⟩
      · rw [ha, hb]
        simp only at hu1 hu2 hr
        subst hu1 hu2
        simp only [Res.ok_bind]
        rcases Res.rel_ok (b3 u r r' pp hq) with ⟨y, y', hy, hy', h3, h4⟩ | ⟨e, hy, hy'⟩
        · rw [hy, hy']
          exact ⟨h3, a2, y.2, b2, y'.2, rfl, rfl, hr, h4⟩
        · rw [hy, hy']; rfl
      · rw [ha, hb]; rfl

/-- a transformation that looks neither at the parameters nor at their initial values -/
theorem Reunits.of_rescales {m j k : ℤ} {t t' : GT α} (h : Rescales sc σ j k t t') (hi : IgnoresParams t') (h0 : ∀ v v', t'.init (mk σ v) = t'.init (mk σ v')) :
    Reunits sc σ m j k t t' := by
  obtain ⟨R, h1, h2⟩ := h
  refine ⟨R, fun v => ?_, fun g s s' pp hs => ?_⟩
  · rw [h0 _ v]; exact h1 v
  · rw [hi _ _ _ (pp.map (mk σ))]; exact h2 g s s' pp hs

/-- training, step by step -/
theorem Reunits.trained (hadd : ∀ k a b, sc k a + sc k b = sc k (a + b)) {m j : ℤ} {t t' : GT α} (h : Reunits sc σ m j m t t')
    (grad grad' : ℕ → Params α → Params α) (G : ℕ → (ℕ → ℕ → α) → ℕ → ℕ → α) (hg : ∀ n p, grad n (mk σ p) = mk σ (G n p))
    (hg' : ∀ n p, grad' n (mk σ (scw sc m p)) = mk σ (scw sc j (G n p))) (p0 : ℕ → ℕ → α) (N : ℕ) :
    trainParams t' grad' N (mk σ (scw sc m p0)) = (trainParams t grad N (mk σ p0)).map (tmap (sc m)) := by
  obtain ⟨R, h1, h2⟩ := h
  unfold trainParams
  rcases Res.rel_ok (h1 p0) with ⟨s0, s0', hs0, hs0', hr0⟩ | ⟨e, hx, hy⟩
  swap
  · rw [hx, hy]; rfl
  rw [hs0, hs0']
  simp only [Res.ok_bind]
  have key : (∃ p s s', trainLoop t grad N s0 (mk σ p0) = .ok (mk σ p, s) ∧ trainLoop t' grad' N s0' (mk σ (scw sc m p0)) = .ok (mk σ (scw sc m p), s') ∧ R s s') ∨
      ∃ e, trainLoop t grad N s0 (mk σ p0) = .error e ∧ trainLoop t' grad' N s0' (mk σ (scw sc m p0)) = .error e := by
    induction N with
    | zero => exact .inl ⟨p0, s0, s0', rfl, rfl, hr0⟩
    | succ N ih =>
      rcases ih with ⟨p, s, s', e1, e2, hs⟩ | ⟨e, e1, e2⟩
      · have hu := h2 (G N p) s s' (some p) hs
        rw [← hg, ← hg'] at hu
        have hu' : ScStep sc σ m R (t.update (grad N (mk σ p)) s (some (mk σ p))) (t'.update (grad' N (mk σ (scw sc m p))) s' (some (mk σ (scw sc m p)))) := hu
        rcases Res.rel_ok hu' with ⟨⟨a1, a2⟩, ⟨b1, b2⟩, ha, hb, ⟨u, hu1, hu2⟩, hr⟩ | ⟨e, ha, hb⟩
        · refine .inl ⟨fun k i => p k i + u k i, a2, b2, ?_, ?_, hr⟩
          · refine trainLoop_succ t grad N _ s a2 _ _ _ a1 e1 ha ?_
            simp only at hu1
            rw [hu1]
            exact tzip_mk _ σ p u
          · refine trainLoop_succ t' grad' N _ s' b2 _ _ _ b1 e2 hb ?_
            simp only at hu2
            rw [hu2]
            refine (tzip_mk _ σ _ _).trans ?_
            congr 1
            exact congrArg (mk σ) (funext fun k => funext fun i => hadd m _ _)
        · refine .inr ⟨e, ?_, ?_⟩
          · simp only [trainLoop, e1, Res.ok_bind, ha, Res.error_bind]
          · simp only [trainLoop, e2, Res.ok_bind, hb, Res.error_bind]
      · refine .inr ⟨e, ?_, ?_⟩
        · simp only [trainLoop, e1, Res.error_bind]
        · simp only [trainLoop, e2, Res.error_bind]
  rcases key with ⟨p, s, s', e1, e2, -⟩ | ⟨e, e1, e2⟩
  · rw [e1, e2]
    show Except.ok (mk σ (scw sc m p)) = Except.ok (tmap (sc m) (mk σ p))
    rw [tmap_mk]; rfl
  · rw [e1, e2]; rfl

variable (G : Graded sc)
include G

theorem ru_weights (m j : ℤ) (w : α) : Reunits sc σ m j j (addDecayedWeights w) (addDecayedWeights (sc (j - m) w)) :=
  ⟨fun _ _ => True, fun _ => trivial, fun g s s' pp _ => by
    cases pp with
    | none => exact rfl
    | some p =>
      refine sc_intro (addDecayedWeights_update_mk σ g p w s) (addDecayedWeights_update_mk σ (scw sc j g) (scw sc m p) _ s') (fun l i => ?_) trivial
      have h2 := G.mul (j - m) m w (p l i)
      rw [Int.sub_add_cancel] at h2
      simp only [scw, h2, G.add]⟩

theorem ru_lr (m j k : ℤ) (lr : LR α) : Reunits sc σ m j (k + j) (scaleByLearningRate lr) (scaleByLearningRate (lr.times sc k)) :=
  .of_rescales (rs_lr G j k lr) (by cases lr <;> intro _ _ _ _ <;> rfl) (by cases lr <;> intro _ _ <;> rfl)

theorem ru_momentum (m j : ℤ) (mu : Option α) (nes : Bool) : Reunits sc σ m j j (momentumOrIdentity mu nes) (momentumOrIdentity mu nes) := by
  refine .of_rescales (rs_momentum G j mu nes) ?_ ?_
  · cases mu <;> intro _ _ _ _ <;> rfl
  · cases mu with
    | none => intro _ _; rfl
    | some mu => intro v v'; exact (trace_init_mk σ v mu nes none).trans (trace_init_mk σ v' mu nes none).symm

theorem ru_sgd (m j k : ℤ) (lr : LR α) (mu : Option α) (nes : Bool) : Reunits sc σ m j (k + j) (sgd lr mu nes) (sgd (lr.times sc k) mu nes) :=
  .chain (.cons (ru_momentum G m j mu nes) (.cons (ru_lr G m j k lr) (.nil _)))

theorem ru_adam (m j : ℤ) (b1 b2 eps er : α) : Reunits sc σ m j 0 (scaleByAdam b1 b2 eps er) (scaleByAdam b1 b2 (sc j eps) (sc (2 * j) er)) :=
  .of_rescales (rs_adam G j b1 b2 eps er) (by intro _ _ _ _; rfl) (fun v v' => (adam_init_mk σ v _ _ _ _).trans (adam_init_mk σ v' _ _ _ _).symm)

theorem ru_rms (m j : ℤ) (d eps a : α) (cen : Bool) :
    Reunits sc σ m j 0 (if cen then scaleByStddev d eps a else scaleByRms d eps a)
      (if cen then scaleByStddev d (sc (2 * j) eps) (sc (2 * j) a) else scaleByRms d (sc (2 * j) eps) (sc (2 * j) a)) := by
  cases cen with
  | true => exact .of_rescales (rs_stddev G j d eps a) (by intro _ _ _ _; rfl) (fun v v' => (stddev_init_mk σ v _ _ _).trans (stddev_init_mk σ v' _ _ _).symm)
  | false => exact .of_rescales (rs_rms G j d eps a) (by intro _ _ _ _; rfl) (fun v v' => (rms_init_mk σ v _ _ _).trans (rms_init_mk σ v' _ _ _).symm)

theorem ru_rss (m j : ℤ) (a eps : α) : Reunits sc σ m j 0 (scaleByRss a eps) (scaleByRss (sc (2 * j) a) (sc (2 * j) eps)) :=
  .of_rescales (rs_rss G j a eps) (by intro _ _ _ _; rfl) (fun v v' => (rss_init_mk σ v _ _).trans (rss_init_mk σ v' _ _).symm)

theorem ru_clipNorm (m j : ℤ) (d : α) : Reunits sc σ m j j (clipByGlobalNorm d) (clipByGlobalNorm (sc j d)) :=
  .of_rescales (rs_clipNorm G j d) (by intro _ _ _ _; rfl) (fun _ _ => rfl)

end sim

/-! ## real arithmetic -/

theorem real_graded {c : ℝ} (hc : 0 < c) : Graded (fun k x => c ^ k * x : ℤ → ℝ → ℝ) where
  id x := by simp
  zero k := by simp
  add k a b := by ring
  sub k a b := by ring
  mul j k a b := by rw [zpow_add₀ hc.ne']; ring
  div j k a b := by
    have := zpow_pos hc k
    rw [zpow_sub₀ hc.ne']
    by_cases hb : b = 0
    · simp [hb]
    · field_simp
  neg k a := by ring
  sqrt k a := by
    have hk := zpow_pos hc k
    rw [jsqrt_real, jsqrt_real, Int.two_mul, zpow_add₀ hc.ne', Real.sqrt_mul (mul_pos hk hk).le, Real.sqrt_mul_self hk.le]
  rsqrt k a := by
    have hk := zpow_pos hc k
    rw [jrsqrt_real, jrsqrt_real, Int.two_mul, zpow_add₀ hc.ne', Real.sqrt_mul (mul_pos hk hk).le, Real.sqrt_mul_self hk.le, zpow_neg, one_div, one_div, mul_inv]
  lt k a b := by
    have hk := zpow_pos hc k
    show decide _ = decide _
    exact decide_eq_decide.2 (mul_lt_mul_iff_right₀ hk)
  isnan k a := rfl
  max k a b := by
    have hk := zpow_pos hc k
    exact (mul_max_of_nonneg a b hk.le).symm
  min k a b := by
    have hk := zpow_pos hc k
    exact (mul_min_of_nonneg a b hk.le).symm

/-- **Specification.** `grad'` are the gradients of the problem in which every parameter is expressed in a unit `c` times smaller: at the parameters `c p` they are `1/c` times the gradients at `p`. -/
def InUnits (σ : Spec) (c : ℝ) (grad grad' : ℕ → Params ℝ → Params ℝ) : Prop :=
  ∀ n, ∃ G : (ℕ → ℕ → ℝ) → ℕ → ℕ → ℝ, ∀ p,
    grad n (mk σ p) = mk σ (G p) ∧ grad' n (mk σ (fun k i => c * p k i)) = mk σ (fun k i => G p k i / c)

/-- **Specification.** a learning rate times `c` -/
def LR.scaled (c : ℝ) : LR ℝ → LR ℝ
  | .scalar x => .scalar (c * x)
  | .schedule f => .schedule (fun n => c * f n)

theorem LR.scaled_eq (c : ℝ) (k : ℤ) (lr : LR ℝ) : lr.scaled (c ^ k) = lr.times (fun k x => c ^ k * x) k := by cases lr <;> rfl

variable (σ : Spec)

theorem units_trained {c : ℝ} (hc : 0 < c) {t t' : GT ℝ} (h : Reunits (fun k x => c ^ k * x) σ 1 (-1) 1 t t') (grad grad' : ℕ → Params ℝ → Params ℝ)
    (hu : InUnits σ c grad grad') (p0 : ℕ → ℕ → ℝ) (N : ℕ) :
    trainParams t' grad' N (mk σ (fun k i => c * p0 k i)) = (trainParams t grad N (mk σ p0)).map (tmap (c * ·)) := by
  choose G hG using hu
  have e : ∀ p : ℕ → ℕ → ℝ, scw (fun k x => c ^ k * x) 1 p = fun k i => c * p k i := fun p => by
    funext k i; simp [scw]
  have h1 := h.trained (real_graded hc).add grad grad' G (fun n p => (hG n p).1) (fun n p => by
    rw [e, (hG n p).2]
    congr 1; funext k i
    simp [scw, div_eq_inv_mul]) p0 N
  rw [e] at h1
  simpa using h1

variable {c : ℝ} (hc : 0 < c) (grad grad' : ℕ → Params ℝ → Params ℝ) (hu : InUnits σ c grad grad') (lr : LR ℝ) (p0 : ℕ → ℕ → ℝ) (N : ℕ)
include hc hu

/-- **C154 (sgd).** In the new units sgd, with any momentum, needs `c²` times the learning rate, a clipping threshold on the global norm divided by `c` and a weight decay in front of it divided by `c²`: it then visits `c` times the parameters. -/
theorem C154_sgd (momentum : Option ℝ) (nesterov : Bool) (d w : ℝ) :
    trainParams (sgd (lr.scaled (c ^ 2)) momentum nesterov) grad' N (mk σ (fun k i => c * p0 k i)) =
      (trainParams (sgd lr momentum nesterov) grad N (mk σ p0)).map (tmap (c * ·)) ∧
    trainParams (chain [clipByGlobalNorm (d / c), addDecayedWeights (w / c ^ 2), sgd (lr.scaled (c ^ 2)) momentum nesterov]) grad' N (mk σ (fun k i => c * p0 k i)) =
      (trainParams (chain [clipByGlobalNorm d, addDecayedWeights w, sgd lr momentum nesterov]) grad N (mk σ p0)).map (tmap (c * ·)) := by
  have G := real_graded hc
  have e1 : c ^ 2 = c ^ (2 : ℤ) := rfl
  have h1 := ru_sgd (σ := σ) G 1 (-1) 2 lr momentum nesterov
  have h2 := ru_weights (σ := σ) G 1 (-1) w
  have h3 := ru_clipNorm (σ := σ) G 1 (-1) d
  rw [← LR.scaled_eq] at h1
  have e2 : c ^ ((-1 : ℤ) - 1) * w = w / c ^ 2 := by
    rw [show ((-1 : ℤ) - 1) = -(2 : ℕ) by norm_num, zpow_neg, zpow_natCast]; ring
  have e3 : c ^ (-1 : ℤ) * d = d / c := by rw [zpow_neg_one]; ring
  simp only [e2] at h2
  simp only [e3] at h3
  exact ⟨units_trained σ hc h1 grad grad' hu p0 N, units_trained σ hc (.chain (.cons h3 (.cons h2 (.cons h1 (.nil _))))) grad grad' hu p0 N⟩

/-- **C154 (adam, adamw).** They need `c` times the learning rate, `eps / c`, `eps_root / c²`, and a weight decay divided by `c`. -/
theorem C154_adam (b1 b2 eps er w : ℝ) :
    trainParams (adam (lr.scaled c) b1 b2 (eps / c) (er / c ^ 2)) grad' N (mk σ (fun k i => c * p0 k i)) =
      (trainParams (adam lr b1 b2 eps er) grad N (mk σ p0)).map (tmap (c * ·)) ∧
    trainParams (adamw (lr.scaled c) b1 b2 (eps / c) (er / c ^ 2) (w / c)) grad' N (mk σ (fun k i => c * p0 k i)) =
      (trainParams (adamw lr b1 b2 eps er w) grad N (mk σ p0)).map (tmap (c * ·)) := by
  have G := real_graded hc
  have h1 := ru_adam (σ := σ) G 1 (-1) b1 b2 eps er
  have h2 := ru_weights (σ := σ) G 1 0 w
  have h3 := ru_lr (σ := σ) G 1 0 1 lr
  rw [← LR.scaled_eq, zpow_one] at h3
  have e1 : c ^ (-1 : ℤ) * eps = eps / c := by rw [zpow_neg_one]; ring
  have e2 : c ^ (2 * (-1) : ℤ) * er = er / c ^ 2 := by
    rw [show (2 * (-1) : ℤ) = -(2 : ℕ) by norm_num, zpow_neg, zpow_natCast]; ring
  have e3 : c ^ ((0 : ℤ) - 1) * w = w / c := by rw [zero_sub, zpow_neg_one]; ring
  simp only [e1, e2] at h1
  simp only [e3] at h2
  exact ⟨units_trained σ hc (.chain (.cons h1 (.cons h3 (.nil _)))) grad grad' hu p0 N,
    units_trained σ hc (.chain (.cons h1 (.cons h2 (.cons h3 (.nil _))))) grad grad' hu p0 N⟩

/-- **C154 (rmsprop, adagrad).** `c` times the learning rate, `eps` and the initial accumulator divided by `c²`. -/
theorem C154_rmsprop (d eps a : ℝ) (centered : Bool) (momentum : Option ℝ) (nesterov : Bool) :
    trainParams (rmsprop (lr.scaled c) d (eps / c ^ 2) (a / c ^ 2) centered momentum nesterov) grad' N (mk σ (fun k i => c * p0 k i)) =
      (trainParams (rmsprop lr d eps a centered momentum nesterov) grad N (mk σ p0)).map (tmap (c * ·)) ∧
    trainParams (adagrad (lr.scaled c) (a / c ^ 2) (eps / c ^ 2)) grad' N (mk σ (fun k i => c * p0 k i)) =
      (trainParams (adagrad lr a eps) grad N (mk σ p0)).map (tmap (c * ·)) := by
  have G := real_graded hc
  have h0 := ru_rss (σ := σ) G 1 (-1) a eps
  have h1 := ru_rms (σ := σ) G 1 (-1) d eps a centered
  have h2 := ru_momentum (σ := σ) G 1 1 momentum nesterov
  have h3 := ru_lr (σ := σ) G 1 0 1 lr
  rw [← LR.scaled_eq, zpow_one] at h3
  have e2 : ∀ x : ℝ, c ^ (2 * (-1) : ℤ) * x = x / c ^ 2 := fun x => by
    rw [show (2 * (-1) : ℤ) = -(2 : ℕ) by norm_num, zpow_neg, zpow_natCast]; ring
  simp only [e2] at h0 h1
  refine ⟨?_, units_trained σ hc (.chain (.cons h0 (.cons h3 (.nil _)))) grad grad' hu p0 N⟩
  cases centered with
  | true => exact units_trained σ hc (.chain (.cons h1 (.cons h3 (.cons h2 (.nil _))))) grad grad' hu p0 N
  | false => exact units_trained σ hc (.chain (.cons h1 (.cons h3 (.cons h2 (.nil _))))) grad grad' hu p0 N


omit hc hu

/-! ## where such pairs of problems come from -/

/-- the gradient is determined by the loss -/
theorem gradient_unique {loss : Params ℝ → ℝ} {p v' w' : ℕ → ℕ → ℝ} (h : ∀ v : ℕ → ℕ → ℝ, HasDerivAt (fun t : ℝ => loss (mk σ (fun k i => p k i + t * v k i))) (treeInner σ w' v) 0)
    (h' : ∀ v : ℕ → ℕ → ℝ, HasDerivAt (fun t : ℝ => loss (mk σ (fun k i => p k i + t * v k i))) (treeInner σ v' v) 0) : mk σ w' = mk σ v' := by
  apply mk_congr
  intro k s hk i hi
  have hx : (⟨k, i⟩ : Σ _ : ℕ, ℕ) ∈ idx σ := mem_idx.mpr ⟨s, hk, hi⟩
  have e : ∀ w : ℕ → ℕ → ℝ, treeInner σ w (fun k' i' => if k' = k ∧ i' = i then 1 else 0) = w k i := by
    intro w
    unfold treeInner
    rw [Finset.sum_eq_single (⟨k, i⟩ : Σ _ : ℕ, ℕ)]
    · simp
    · rintro ⟨k', i'⟩ _ hne
      beta_reduce
      rw [if_neg (by rintro ⟨rfl, rfl⟩; exact hne rfl), mul_zero]
    · exact fun h => absurd hx h
  have := (h _).unique (h' (fun k' i' => if k' = k ∧ i' = i then 1 else 0))
  rwa [e, e] at this

theorem treeInner_smul_right (a : ℝ) (u v : ℕ → ℕ → ℝ) : treeInner σ u (fun k i => a * v k i) = a * treeInner σ u v := by
  unfold treeInner
  rw [Finset.mul_sum]
  exact Finset.sum_congr rfl fun x _ => by ring

/-- the derivative of a loss along a direction at parameters in other units -/
theorem units_deriv {c : ℝ} (hc : 0 < c) {loss loss' : Params ℝ → ℝ} {p g : ℕ → ℕ → ℝ} (h : ∀ v : ℕ → ℕ → ℝ, HasDerivAt (fun t : ℝ => loss (mk σ (fun k i => p k i + t * v k i))) (treeInner σ g v) 0)
    (hl : ∀ p : ℕ → ℕ → ℝ, loss' (mk σ (fun k i => c * p k i)) = loss (mk σ p)) (v : ℕ → ℕ → ℝ) :
    HasDerivAt (fun t : ℝ => loss' (mk σ (fun k i => c * p k i + t * v k i))) (treeInner σ (fun k i => g k i / c) v) 0 := by
  have h1 := h (fun k i => c⁻¹ * v k i)
  have e : (fun t : ℝ => loss' (mk σ (fun k i => c * p k i + t * v k i))) = fun t : ℝ => loss (mk σ (fun k i => p k i + t * (c⁻¹ * v k i))) := by
    funext t
    rw [← hl]
    congr 2
    funext k i
    field_simp
  rw [e]
  refine h1.congr_deriv ?_
  unfold treeInner
  exact Finset.sum_congr rfl fun x _ => by ring

/-- **C154 (change of units).** If `loss'` is `loss` as a function of the parameters expressed in the other unit, `loss'(c p) = loss(p)`, their gradients are related as required. -/
theorem C154_units {c : ℝ} (hc : 0 < c) {loss loss' : ℕ → Params ℝ → ℝ} {G G' : ℕ → (ℕ → ℕ → ℝ) → ℕ → ℕ → ℝ} (h : ∀ n, IsGradient σ (loss n) (G n)) (h' : ∀ n, IsGradient σ (loss' n) (G' n))
    (hl : ∀ n (p : ℕ → ℕ → ℝ), loss' n (mk σ (fun k i => c * p k i)) = loss n (mk σ p)) (hg : ∀ n p, grad n (mk σ p) = mk σ (G n p)) (hg' : ∀ n p, grad' n (mk σ p) = mk σ (G' n p)) :
    InUnits σ c grad grad' :=
  fun n => ⟨G n, fun p => ⟨hg n p, (hg' n _).trans (gradient_unique σ (h' n _) (units_deriv σ hc (h n p) (hl n)))⟩⟩

/-- **Specification.** a loss that does not change when all parameters are multiplied by the same positive number (as with the weights in front of a normalisation layer) -/
def ScaleInvariant (loss : Params ℝ → ℝ) : Prop := ∀ (c : ℝ), 0 < c → ∀ p : ℕ → ℕ → ℝ, loss (mk σ (fun k i => c * p k i)) = loss (mk σ p)

/-- **Specification.** `G` is the gradient of `loss` wherever not all parameters are zero (where a scale-invariant loss has none, unless it is constant); there the oracle returns zeros. -/
def GradientOffZero (loss : Params ℝ → ℝ) (G : (ℕ → ℕ → ℝ) → ℕ → ℕ → ℝ) : Prop :=
  (∀ p : ℕ → ℕ → ℝ, sqNorm σ p ≠ 0 → ∀ v : ℕ → ℕ → ℝ, HasDerivAt (fun t : ℝ => loss (mk σ (fun k i => p k i + t * v k i))) (treeInner σ (G p) v) 0) ∧
    ∀ p : ℕ → ℕ → ℝ, sqNorm σ p = 0 → mk σ (G p) = mk σ (fun _ _ => 0)

/-- **C154 (scale-invariant losses).** For these the *same* problem is related to itself: so a larger start or a larger learning rate are interchangeable, in the way `C154_sgd`, `C154_adam` and `C154_rmsprop` say. -/
theorem C154_scale_invariant {c : ℝ} (hc : 0 < c) {loss : ℕ → Params ℝ → ℝ} {G : ℕ → (ℕ → ℕ → ℝ) → ℕ → ℕ → ℝ} (h : ∀ n, GradientOffZero σ (loss n) (G n))
    (hl : ∀ n, ScaleInvariant σ (loss n)) (hg : ∀ n p, grad n (mk σ p) = mk σ (G n p)) : InUnits σ c grad grad := by
  refine fun n => ⟨G n, fun p => ⟨hg n p, (hg n _).trans ?_⟩⟩
  have e : sqNorm σ (fun k i => c * p k i) = c ^ 2 * sqNorm σ p := by
    unfold sqNorm
    rw [Finset.mul_sum]
    exact Finset.sum_congr rfl fun x _ => by ring
  by_cases h0 : sqNorm σ p = 0
  · rw [(h n).2 _ (by rw [e, h0, mul_zero])]
    have h1 := congrArg (tmap (fun x : ℝ => x / c)) ((h n).2 p h0)
    rw [tmap_mk, tmap_mk] at h1
    simp only [zero_div] at h1
    exact h1.symm
  · exact gradient_unique σ ((h n).1 _ (by rw [e]; exact mul_ne_zero (pow_ne_zero 2 hc.ne') h0)) (units_deriv σ hc ((h n).1 p h0) (hl n c hc))

/-- the gradient of a scale-invariant loss is orthogonal to the parameters -/
theorem scale_invariant_orthogonal {loss : Params ℝ → ℝ} {G : (ℕ → ℕ → ℝ) → ℕ → ℕ → ℝ} (h : GradientOffZero σ loss G) (hl : ScaleInvariant σ loss) (p : ℕ → ℕ → ℝ) :
    treeInner σ (G p) p = 0 := by
  by_cases h0 : sqNorm σ p = 0
  · have h1 := (Finset.sum_eq_zero_iff_of_nonneg (fun x _ => sq_nonneg (p x.1 x.2))).mp h0
    exact Finset.sum_eq_zero fun x hx => by rw [pow_eq_zero_iff (two_ne_zero) |>.mp (h1 x hx), mul_zero]
  refine (h.1 p h0 p).unique ?_
  refine (hasDerivAt_const (0 : ℝ) (loss (mk σ p))).congr_of_eventuallyEq ?_
  filter_upwards [Ioo_mem_nhds (show (-1 : ℝ) < 0 by norm_num) (show (0 : ℝ) < 1 by norm_num)] with t ht
  rw [← hl (1 + t) (by linarith [ht.1]) p]
  congr 2
  funext k i
  ring

/-- **C154 (the norm grows).** On scale-invariant losses (a new one in every step, if you like) the squared norm of the parameters trained by plain `sgd` grows in every step by exactly the squared norm of the step: it never decreases, whatever the learning rates. -/
theorem C154_norm_grows (nes : Bool) {loss : ℕ → Params ℝ → ℝ} {G : ℕ → (ℕ → ℕ → ℝ) → ℕ → ℕ → ℝ} (h : ∀ n, GradientOffZero σ (loss n) (G n))
    (hl : ∀ n, ScaleInvariant σ (loss n)) (hg : ∀ n p, grad n (mk σ p) = mk σ (G n p)) :
    ∃ P, P 0 = p0 ∧ Visits (sgd lr none nes) grad σ P ∧
      ∀ n, sqNorm σ (P (n + 1)) = sqNorm σ (P n) + lr.at n ^ 2 * sqNorm σ (G n (P n)) := by
  refine ⟨plainSgd lr.at G p0, rfl, sgd_visits σ lr nes grad G hg p0, fun n => ?_⟩
  have ho := scale_invariant_orthogonal σ (h n) (hl n) (plainSgd lr.at G p0 n)
  unfold treeInner at ho
  unfold sqNorm
  rw [Finset.mul_sum, ← Finset.sum_add_distrib, ← sub_eq_zero, ← Finset.sum_sub_distrib]
  have e : ∀ x : Σ _ : ℕ, ℕ, plainSgd lr.at G p0 (n + 1) x.1 x.2 ^ 2 - (plainSgd lr.at G p0 n x.1 x.2 ^ 2 + lr.at n ^ 2 * G n (plainSgd lr.at G p0 n) x.1 x.2 ^ 2) =
      (-2 * lr.at n) * (G n (plainSgd lr.at G p0 n) x.1 x.2 * plainSgd lr.at G p0 n x.1 x.2) := fun x => by
    simp only [plainSgd]; ring
  simp only [e]
  rw [← Finset.mul_sum, ho, mul_zero]

/-- a scale-invariant loss with its gradient on two parameters: `x² / (x² + y²)` -/
theorem ratio_gradient :
    ScaleInvariant (.leaf [2]) (fun t => coord t 0 0 ^ 2 / (coord t 0 0 ^ 2 + coord t 0 1 ^ 2)) ∧
    GradientOffZero (.leaf [2]) (fun t => coord t 0 0 ^ 2 / (coord t 0 0 ^ 2 + coord t 0 1 ^ 2)) (fun p _ i =>
      if i = 0 then 2 * p 0 0 * p 0 1 ^ 2 / (p 0 0 ^ 2 + p 0 1 ^ 2) ^ 2 else -(2 * p 0 0 ^ 2 * p 0 1) / (p 0 0 ^ 2 + p 0 1 ^ 2) ^ 2) := by
  have hidx : idx (.leaf [2]) = {⟨0, 0⟩, ⟨0, 1⟩} := by decide
  have hc0 : ∀ p : ℕ → ℕ → ℝ, coord (mk (.leaf [2]) p) 0 0 = p 0 0 := fun p => rfl
  have hc1 : ∀ p : ℕ → ℕ → ℝ, coord (mk (.leaf [2]) p) 0 1 = p 0 1 := fun p => rfl
  have hn : ∀ p : ℕ → ℕ → ℝ, sqNorm (.leaf [2]) p = p 0 0 ^ 2 + p 0 1 ^ 2 := fun p => by
    unfold sqNorm; rw [hidx]; simp
  have ht : ∀ u v : ℕ → ℕ → ℝ, treeInner (.leaf [2]) u v = u 0 0 * v 0 0 + u 0 1 * v 0 1 := fun u v => by
    unfold treeInner; rw [hidx]; simp
  refine ⟨fun c hc p => ?_, fun p hp v => ?_, fun p hp => ?_⟩
  · simp only [hc0, hc1]
    rw [mul_pow, mul_pow, ← mul_add, mul_div_mul_left _ _ (pow_ne_zero 2 hc.ne')]
  · rw [hn] at hp
    simp only [hc0, hc1, ht]
    have hx : HasDerivAt (fun t : ℝ => (p 0 0 + t * v 0 0) ^ 2) (2 * p 0 0 * v 0 0) 0 := by
      have h1 := (((hasDerivAt_id (0 : ℝ)).mul_const (v 0 0)).const_add (p 0 0)).pow 2
      exact h1.congr_deriv (by simp)
    have hy : HasDerivAt (fun t : ℝ => (p 0 1 + t * v 0 1) ^ 2) (2 * p 0 1 * v 0 1) 0 := by
      have h1 := (((hasDerivAt_id (0 : ℝ)).mul_const (v 0 1)).const_add (p 0 1)).pow 2
      exact h1.congr_deriv (by simp)
    have h := hx.div (hx.add hy) (by simpa using hp)
    refine h.congr_deriv ?_
    simp only [Pi.add_apply, zero_mul, add_zero, if_true, one_ne_zero, if_false]
    field_simp
    ring
  · rw [hn] at hp
    have h0 : p 0 0 = 0 := by nlinarith [sq_nonneg (p 0 0), sq_nonneg (p 0 1)]
    congr 1
    funext k i
    simp [h0]

/-- the hypotheses of `C154_sgd` … are met by the quadratic `x²` and `(x/3)²` -/
example : InUnits (.leaf [1]) 3 (fun _ t => tmap (fun x => 2 * x) t) (fun _ t => tmap (fun x => 2 * x / 9) t) :=
  fun _ => ⟨fun p k i => 2 * p k i, fun p => ⟨by simp only [tmap_mk], by
    simp only [tmap_mk]; congr 1; funext k i; ring⟩⟩

/-! ## floating point, up to overflow and underflow -/

section float
open FP
variable {q : ℕ} {hq : 1 ≤ q}

/-- **C154 (floating point).** For units that are powers of two all this holds bit for bit in floating-point arithmetic with any number `q` of digits, as long as nothing overflows or underflows. -/
theorem C154_float (k : ℤ) (lr : LR (FP (Format.unbounded q hq))) (momentum : Option (FP (Format.unbounded q hq))) (nesterov : Bool) (b1 b2 eps er w : FP (Format.unbounded q hq))
    (grad grad' : ℕ → Params (FP (Format.unbounded q hq)) → Params (FP (Format.unbounded q hq)))
    (hu : ∀ n, ∃ G : (ℕ → ℕ → FP (Format.unbounded q hq)) → ℕ → ℕ → FP (Format.unbounded q hq), ∀ p,
      grad n (mk σ p) = mk σ (G p) ∧ grad' n (mk σ (fun l i => pow2 k * p l i)) = mk σ (fun l i => pow2 (-k) * G p l i))
    (p0 : ℕ → ℕ → FP (Format.unbounded q hq)) (N : ℕ) :
    trainParams (sgd (lrTimes (2 * k) lr) momentum nesterov) grad' N (mk σ (fun l i => pow2 k * p0 l i)) =
      (trainParams (sgd lr momentum nesterov) grad N (mk σ p0)).map (tmap (pow2 k * ·)) ∧
    trainParams (adamw (lrTimes k lr) b1 b2 (pow2 (-k) * eps) (pow2 (2 * -k) * er) (pow2 (-k) * w)) grad' N (mk σ (fun l i => pow2 k * p0 l i)) =
      (trainParams (adamw lr b1 b2 eps er w) grad N (mk σ p0)).map (tmap (pow2 k * ·)) := by
  choose G hG using hu
  have S := shift_graded (p := q) (hp := hq)
  have e : ∀ (j : ℤ) (p : ℕ → ℕ → FP (Format.unbounded q hq)), (fun l i => pow2 j * p l i) = scw shift j p := fun j p => by
    funext l i; exact (shift_eq_mul _ _).symm
  have em : (fun x : FP (Format.unbounded q hq) => pow2 k * x) = shift k := by funext x; exact (shift_eq_mul _ _).symm
  have gen : ∀ t t' : GT (FP (Format.unbounded q hq)), Reunits shift σ k (-k) k t t' →
      trainParams t' grad' N (mk σ (fun l i => pow2 k * p0 l i)) = (trainParams t grad N (mk σ p0)).map (tmap (pow2 k * ·)) := by
    intro t t' h
    rw [em, e]
    exact h.trained S.add grad grad' G (fun n p => (hG n p).1) (fun n p => by rw [← e, (hG n p).2, e]) p0 N
  constructor
  · refine gen _ _ ?_
    rw [lrTimes_eq]
    have h := ru_sgd (σ := σ) S k (-k) (2 * k) lr momentum nesterov
    rwa [show 2 * k + -k = k by ring] at h
  · refine gen _ _ ?_
    rw [lrTimes_eq, ← shift_eq_mul, ← shift_eq_mul, ← shift_eq_mul]
    have h1 := ru_adam (σ := σ) S k (-k) b1 b2 eps er
    have h2 := ru_weights (σ := σ) S k 0 w
    have h3 := ru_lr (σ := σ) S k 0 k lr
    rw [zero_sub] at h2
    rw [_root_.add_zero] at h3
    exact .chain (.cons h1 (.cons h2 (.cons h3 (.nil _))))

end float

end Optax
