import Verif.Props.Alias
import Verif.Props.Constrain
import Verif.Props.Moments
import Verif.Props.Adam
import Verif.Props.Norms

/-!
# C51 (sgd), C52 (adamw), C53 (lamb), C54 (fromage)
-/

set_option linter.unusedSectionVars false
set_option linter.unusedSimpArgs false

namespace Optax
open Finset

/-! ## Training runs and histories -/

/-- If on the gradients and params met along a trajectory `P` the transformation returns the updates
`U`, and `P` moves by `U`, then the training loop follows `P`. -/
theorem trainLoop_of_outs {t : GT ℝ} {σ : Spec} {grad : ℕ → Params ℝ → Params ℝ} {G : ℕ → (ℕ → ℕ → ℝ) → ℕ → ℕ → ℝ}
    (hg : ∀ n p, grad n (mk σ p) = mk σ (G n p)) (P U : ℕ → ℕ → ℕ → ℝ)
    (hP : ∀ n k i, P (n + 1) k i = P n k i + U n k i)
    (hU : ∀ N, t.outs (mk σ (P 0)) (hist σ (fun n => G n (P n)) (fun n => some (mk σ (P n))) N) =
      .ok ((List.range N).map (fun n => mk σ (U n)))) (N : ℕ) :
    ∃ s0 s, t.init (mk σ (P 0)) = .ok s0 ∧ trainLoop t grad N s0 (mk σ (P 0)) = .ok (mk σ (P N), s) := by
  obtain ⟨s0, hs0⟩ : ∃ s0, t.init (mk σ (P 0)) = .ok s0 := by
    have := hU 0
    unfold GT.outs GT.exec at this
    rw [Res.bind_eq_ok] at this
    obtain ⟨x, hx, _⟩ := this
    rw [Res.bind_eq_ok] at hx
    obtain ⟨s0, h, _⟩ := hx
    exact ⟨s0, h⟩
  have hrun : ∀ N, ∃ s, t.run s0 (hist σ (fun n => G n (P n)) (fun n => some (mk σ (P n))) N) =
      .ok ((List.range N).map (fun n => mk σ (U n)), s) := by
    intro N
    have := hU N
    unfold GT.outs GT.exec at this
    rw [hs0, Res.ok_bind, Res.bind_eq_ok] at this
    obtain ⟨x, hx, h⟩ := this
    refine ⟨x.2, ?_⟩
    rw [hx]
    simp only [Res.pure_eq, Except.ok.injEq] at h
    rw [← h]
  have main : ∀ N, ∃ s, t.run s0 (hist σ (fun n => G n (P n)) (fun n => some (mk σ (P n))) N) =
      .ok ((List.range N).map (fun n => mk σ (U n)), s) ∧
      trainLoop t grad N s0 (mk σ (P 0)) = .ok (mk σ (P N), s) := by
    intro N
    induction N with
    | zero => exact ⟨s0, rfl, rfl⟩
    | succ N ih =>
      obtain ⟨s, h1, h2⟩ := ih
      obtain ⟨s', h3⟩ := hrun (N + 1)
      refine ⟨s', h3, ?_⟩
      rw [hist_succ, GT.run_append, h1, Res.ok_bind, GT.run_cons] at h3
      simp only [Res.bind_eq_ok, GT.run_nil, Except.ok.injEq, Prod.mk.injEq] at h3
      obtain ⟨y, ⟨z, hz, w, rfl, rfl⟩, h4, h5⟩ := h3
      rw [List.range_succ, List.map_append, List.append_cancel_left_eq] at h4
      simp only [List.map_cons, List.map_nil, List.cons.injEq, and_true] at h4
      refine trainLoop_succ t grad N s0 s s' (mk σ (P 0)) (mk σ (P N)) _ (mk σ (U N)) h2 ?_
        ((C06_apply_updates σ (P N) (U N)).trans ?_)
      · rw [hg, ← h4, ← h5]; exact hz
      · congr 2; funext k i; exact (hP N k i).symm
  obtain ⟨s, _, h⟩ := main N
  exact ⟨s0, s, hs0, h⟩

/-! ## C51 -/

/-- Textbook momentum: velocity `v ← μ v + g(p)`, then `p ← p - lr v` (or `p ← p - lr (g + μ v)` with Nesterov momentum).
Component 1 are the parameters, component 2 the velocity, after `n` steps; `G n p` is the gradient met at step
`n` at parameters `p`. -/
noncomputable def momentumSgd (lr : ℕ → ℝ) (mu : ℝ) (nesterov : Bool) (G : ℕ → (ℕ → ℕ → ℝ) → ℕ → ℕ → ℝ)
    (p0 : ℕ → ℕ → ℝ) : ℕ → (ℕ → ℕ → ℝ) × (ℕ → ℕ → ℝ)
  | 0 => (p0, fun _ _ => 0)
  | n + 1 =>
    let p := (momentumSgd lr mu nesterov G p0 n).1
    let v := fun k i => mu * (momentumSgd lr mu nesterov G p0 n).2 k i + G n p k i
    (fun k i => p k i - lr n * (if nesterov then G n p k i + mu * v k i else v k i), v)

/-- Textbook gradient descent. -/
noncomputable def plainSgd (lr : ℕ → ℝ) (G : ℕ → (ℕ → ℕ → ℝ) → ℕ → ℕ → ℝ) (p0 : ℕ → ℕ → ℝ) : ℕ → ℕ → ℕ → ℝ
  | 0 => p0
  | n + 1 => fun k i => plainSgd lr G p0 n k i - lr n * G n (plainSgd lr G p0 n) k i

/-- **C51.** Training with `sgd(lr, momentum=mu, nesterov)` follows the textbook recurrence at every
step, for every gradient oracle `G`, step sizes constant or scheduled (`lr.at n` is the learning rate at step `n`). -/
theorem C51_sgd_momentum (lr : LR ℝ) (mu : ℝ) (nes : Bool) (σ : Spec) (grad : ℕ → Params ℝ → Params ℝ)
    (G : ℕ → (ℕ → ℕ → ℝ) → ℕ → ℕ → ℝ) (hg : ∀ n p, grad n (mk σ p) = mk σ (G n p)) (p0 : ℕ → ℕ → ℝ) (N : ℕ) :
    ∃ s0 s, (sgd lr (some mu) nes).init (mk σ p0) = .ok s0 ∧
      trainLoop (sgd lr (some mu) nes) grad N s0 (mk σ p0) = .ok (mk σ (momentumSgd lr.at mu nes G p0 N).1, s) := by
  have hv : ∀ n k i, (momentumSgd lr.at mu nes G p0 n).2 k i =
      geoSum mu (fun j => G j (momentumSgd lr.at mu nes G p0 j).1 k i) n := by
    intro n
    induction n with
    | zero => intro k i; simp [momentumSgd]
    | succ n ih =>
      intro k i
      rw [geoSum_succ, ← ih]
      simp only [momentumSgd]
      ring
  refine trainLoop_of_outs (t := sgd lr (some mu) nes) hg (fun n => (momentumSgd lr.at mu nes G p0 n).1)
    (fun n k i => -(lr.at n) * (if nes then G n (momentumSgd lr.at mu nes G p0 n).1 k i +
        mu * (momentumSgd lr.at mu nes G p0 (n + 1)).2 k i else (momentumSgd lr.at mu nes G p0 (n + 1)).2 k i)) ?_ ?_ N
  · intro n k i
    simp only [momentumSgd]
    ring
  · intro N
    refine outs_chain_hist_lr (trace mu nes none) lr _ σ _ _ _ N ?_
    unfold GT.outs
    rw [C21_trace]
    simp only [hv]
    rfl

/-- **C51.** `momentum=None`: plain gradient descent. -/
theorem C51_sgd_plain (lr : LR ℝ) (nes : Bool) (σ : Spec) (grad : ℕ → Params ℝ → Params ℝ)
    (G : ℕ → (ℕ → ℕ → ℝ) → ℕ → ℕ → ℝ) (hg : ∀ n p, grad n (mk σ p) = mk σ (G n p)) (p0 : ℕ → ℕ → ℝ) (N : ℕ) :
    ∃ s0 s, (sgd lr none nes).init (mk σ p0) = .ok s0 ∧
      trainLoop (sgd lr none nes) grad N s0 (mk σ p0) = .ok (mk σ (plainSgd lr.at G p0 N), s) := by
  refine trainLoop_of_outs (t := sgd lr none nes) hg (plainSgd lr.at G p0)
    (fun n k i => -(lr.at n) * G n (plainSgd lr.at G p0 n) k i) ?_ ?_ N
  · intro n k i
    simp only [plainSgd]
    ring
  · intro N
    refine outs_chain_hist_lr identity lr _ σ _ _ _ N ?_
    rw [zip_hist]
    exact identity_outs _ _ _ (by simp)

/-- e.g. minimising `x²/2` with `lr = 1/2` halves `x` at every step -/
example (x : ℝ) (N : ℕ) :
    ∃ s0 s, (sgd (.scalar (1/2)) none false).init (mk (.leaf []) (fun _ _ => x)) = .ok s0 ∧
      trainLoop (sgd (.scalar (1/2)) none false) (fun _ p => p) N s0 (mk (.leaf []) (fun _ _ => x)) =
        .ok (mk (.leaf []) (fun _ _ => x * (1/2) ^ N), s) := by
  obtain ⟨s0, s, h1, h2⟩ := C51_sgd_plain (.scalar (1/2)) false (.leaf []) (fun _ p => p) (fun _ p => p)
    (fun _ _ => rfl) (fun _ _ => x) N
  refine ⟨s0, s, h1, ?_⟩
  rw [h2]
  congr 3
  clear h1 h2 s0 s
  induction N with
  | zero => funext k i; simp [plainSgd]
  | succ N ih => funext k i; simp only [plainSgd, ih, LR.at]; ring

/-! ## C52 -/

variable (σ : Spec) (p0 : ℕ → ℕ → ℝ) (g p : ℕ → ℕ → ℕ → ℝ) (N : ℕ)

/-- **C52.** At every step of every history of gradients `g` and params `p`, the `adamw` update is the `adam` update on
the same gradients plus `-lr · weight_decay · p`. -/
theorem C52_adamw (lr : LR ℝ) (b1 b2 eps er wd : ℝ) :
    ∃ A : ℕ → ℕ → ℕ → ℝ,
      (adam lr b1 b2 eps er).outs (mk σ p0) (hist σ g (fun n => some (mk σ (p n))) N) =
        .ok ((List.range N).map (fun n => mk σ (A n))) ∧
      (adamw lr b1 b2 eps er wd).outs (mk σ p0) (hist σ g (fun n => some (mk σ (p n))) N) =
        .ok ((List.range N).map (fun n => mk σ (fun k i => A n k i + -(lr.at n) * wd * p n k i))) := by
  obtain ⟨a, ha⟩ := (preserves_adam b1 b2 eps er).outs σ N p0 g (fun n => some (mk σ (p n))) (fun _ => trivial)
  refine ⟨fun n k i => -(lr.at n) * a n k i, outs_chain_hist_lr _ lr _ σ g a _ N ha, ?_⟩
  have hd : (addDecayedWeights wd).outs (mk σ p0) (hist σ a (fun n => some (mk σ (p n))) N) =
      .ok ((List.range N).map (fun n => mk σ (fun k i => a n k i + wd * p n k i))) :=
    outs_hist (addDecayedWeights wd) _ σ a _ N (fun _ => ⟨⟩) _ rfl
      (fun n _ => addDecayedWeights_update_mk σ (a n) (p n) wd ⟨⟩)
  have e := outs_chain_hist_lr (addDecayedWeights wd) lr _ σ a _ _ N hd
  have e' := outs_chain_hist (scaleByAdam b1 b2 eps er) [addDecayedWeights wd, scaleByLearningRate lr] _ σ g a _ N ha _ e
  refine e'.trans ?_
  congr 2
  funext n
  congr 1
  funext k i
  ring

/-- **C52.** `weight_decay = 0` is exactly `adam`. -/
theorem C52_no_decay (lr : LR ℝ) (b1 b2 eps er : ℝ) :
    (adamw lr b1 b2 eps er 0).outs (mk σ p0) (hist σ g (fun n => some (mk σ (p n))) N) =
      (adam lr b1 b2 eps er).outs (mk σ p0) (hist σ g (fun n => some (mk σ (p n))) N) := by
  obtain ⟨A, h1, h2⟩ := C52_adamw σ p0 g p N lr b1 b2 eps er 0
  rw [h1, h2]
  congr 2
  funext n
  congr 1
  funext k i
  ring

/-- **C52.** The Adam moments never see the decay: the moments in the `adamw` state after any history are those of
`scale_by_adam` on the gradients alone. -/
theorem C52_moments (lr : LR ℝ) (b1 b2 eps er wd : ℝ) :
    ∃ us vs s r, (adamw lr b1 b2 eps er wd).exec (mk σ p0) (hist σ g (fun n => some (mk σ (p n))) N) =
        .ok (us, some (s, r)) ∧
      (scaleByAdam b1 b2 eps er).exec (mk σ p0) (hist σ g (fun _ => none) N) = .ok (vs, s) := by
  obtain ⟨A, _, h⟩ := C52_adamw σ p0 g p N lr b1 b2 eps er wd
  unfold GT.outs at h
  rw [Res.bind_eq_ok] at h
  obtain ⟨x, hx, _⟩ := h
  unfold GT.exec at hx
  rw [Res.bind_eq_ok] at hx
  obtain ⟨s0, h0, h1⟩ := hx
  have hl := chain_length_init _ _ s0 h0
  rw [zip_hist] at h1
  have hp := (chain_run_iff_pipeline _ s0 hl _ _ (by simp) x.1 x.2).mp h1
  have h0' : chainInit _ _ = _ := h0
  simp only [chainInit, Res.bind_eq_ok, Res.pure_eq, Except.ok.injEq] at h0'
  obtain ⟨a, ha, r, _, rfl⟩ := h0'
  obtain ⟨out, x2⟩ := x
  cases x2 with
  | none => exact hp.elim
  | some sr =>
    obtain ⟨s, r'⟩ := sr
    obtain ⟨mid, hm, _⟩ := hp
    refine ⟨out, mid, s, r', ?_, ?_⟩
    · unfold GT.exec
      rw [h0, Res.ok_bind, zip_hist, h1]
    · unfold GT.exec
      rw [adam_init_mk, Res.ok_bind]
      rw [zerosLike_mk] at ha
      rw [ha]
      rw [← zip_hist] at hm
      have ign : ∀ (s : AdamState ℝ) M, (scaleByAdam b1 b2 eps er).run s (hist σ g (fun _ => none) M) =
          (scaleByAdam b1 b2 eps er).run s (hist σ g (fun n => some (mk σ (p n))) M) := by
        intro s M
        induction M with
        | zero => rfl
        | succ M ih =>
          rw [hist_succ, hist_succ, GT.run_append, GT.run_append, ih]
          rfl
      rw [ign, hm]

/-! ## C53 -/

/-- **C53.** At every step `n` of every history of gradients and params, every leaf `k` with non-zero parameters and
non-zero pre-scaled update (the Adam update plus the decayed weights, `A n + weight_decay · p n`) is moved by
exactly `|lr| · ‖param‖`; a leaf with zero parameters or zero pre-scaled update gets the plain step `-lr` times the latter. -/
theorem C53_lamb (lr : LR ℝ) (b1 b2 eps er wd : ℝ) :
    ∃ A U : ℕ → ℕ → ℕ → ℝ,
      (scaleByAdam b1 b2 eps er).outs (mk σ p0) (hist σ g (fun n => some (mk σ (p n))) N) =
        .ok ((List.range N).map (fun n => mk σ (A n))) ∧
      (lamb lr b1 b2 eps er wd).outs (mk σ p0) (hist σ g (fun n => some (mk σ (p n))) N) =
        .ok ((List.range N).map (fun n => mk σ (U n))) ∧
      (∀ n k, leafNorm σ (p n) k ≠ 0 → leafNorm σ (fun k i => A n k i + wd * p n k i) k ≠ 0 →
        leafNorm σ (U n) k = |lr.at n| * leafNorm σ (p n) k ∧
        ∃ c > 0, ∀ i, U n k i = -(lr.at n) * (c * (A n k i + wd * p n k i))) ∧
      ∀ n k, leafNorm σ (p n) k = 0 ∨ leafNorm σ (fun k i => A n k i + wd * p n k i) k = 0 →
        ∀ i, U n k i = -(lr.at n) * (A n k i + wd * p n k i) := by
  obtain ⟨a, ha⟩ := (preserves_adam b1 b2 eps er).outs σ N p0 g (fun n => some (mk σ (p n))) (fun _ => trivial)
  have hd : (addDecayedWeights wd).outs (mk σ p0) (hist σ a (fun n => some (mk σ (p n))) N) =
      .ok ((List.range N).map (fun n => mk σ (fun k i => a n k i + wd * p n k i))) :=
    outs_hist (addDecayedWeights wd) _ σ a _ N (fun _ => ⟨⟩) _ rfl
      (fun n _ => addDecayedWeights_update_mk σ (a n) (p n) wd ⟨⟩)
  have ht := fun n => C31_norm σ (fun k i => a n k i + wd * p n k i) (p n) ⟨⟩
  choose u hu1 hu2 hu3 using ht
  have ht' : (scaleByTrustRatio (0 : ℝ)).outs (mk σ p0)
      (hist σ (fun n k i => a n k i + wd * p n k i) (fun n => some (mk σ (p n))) N) =
      .ok ((List.range N).map (fun n => mk σ (u n))) :=
    outs_hist (scaleByTrustRatio (0 : ℝ)) _ σ _ _ N (fun _ => ⟨⟩) _ rfl (fun n _ => hu1 n)
  have e := outs_chain_hist_lr (scaleByTrustRatio (0 : ℝ)) lr _ σ _ _ _ N ht'
  have e' := outs_chain_hist (addDecayedWeights wd) [scaleByTrustRatio 0, scaleByLearningRate lr] _ σ a _ _ N hd _ e
  have e'' := outs_chain_hist (scaleByAdam b1 b2 eps er)
    [addDecayedWeights wd, scaleByTrustRatio 0, scaleByLearningRate lr] _ σ g a _ N ha _ e'
  refine ⟨a, fun n k i => -(lr.at n) * u n k i, ha, e'', ?_, fun n k h i => by show -(lr.at n) * u n k i = _; rw [hu3 n k h]⟩
  intro n k h1 h2
  obtain ⟨h3, c, hc, h4⟩ := hu2 n k h1 h2
  refine ⟨?_, c, hc, fun i => by show -(lr.at n) * u n k i = _; rw [h4]⟩
  rw [leafNorm_eq_l2, l2_smul, ← leafNorm_eq_l2, h3, abs_neg]

/-! ## C54 -/

/-- one `fromage(lr, m)` step, whatever the history (the state is constant): the new parameters -/
theorem C54_fromage_step (lr m : ℝ) (p g : ℕ → ℕ → ℝ) :
    ∃ s u, (fromage lr m).init (mk σ p0) = .ok s ∧
      (fromage lr m).update (mk σ g) s (some (mk σ p)) = .ok (mk σ u, s) ∧
      applyUpdates (mk σ p) (mk σ u) = .ok (mk σ (fun k i =>
        (p k i - lr * (trustFactor σ m g p k * g k i)) / Real.sqrt (1 + lr ^ 2))) := by
  refine ⟨some (⟨⟩, some (⟨⟩, some (⟨⟩, (0 : ℕ)))),
    fun k i => -(lr * (1 / Real.sqrt (1 + lr * lr))) * (trustFactor σ m g p k * g k i) +
      (1 / Real.sqrt (1 + lr * lr) - 1) * p k i, rfl, ?_, ?_⟩
  · refine chain_update_ok rfl (chainLoop_cons_ok (C31_trust_ratio m σ g p ⟨⟩)
      (chainLoop_cons_ok (scale_update_mk σ _ (some (mk σ p)) (-(lr * (1 / Real.sqrt (1 + lr * lr)))) ⟨⟩)
      (chainLoop_cons_ok (addDecayedWeights_update_mk σ _ p (1 / Real.sqrt (1 + lr * lr) - 1) ⟨⟩) chainLoop_nil_ok)))
  · rw [C06_apply_updates]
    congr 2
    funext k i
    rw [show lr ^ 2 = lr * lr by ring]
    ring

theorem trustFactor_zero (p g : ℕ → ℕ → ℝ) (k : ℕ) (hp : leafNorm σ p k ≠ 0) (hg : leafNorm σ g k ≠ 0) :
    trustFactor σ 0 g p k = leafNorm σ p k / leafNorm σ g k := by
  have hp0 : 0 ≤ leafNorm σ p k := Real.sqrt_nonneg _
  have hg0 : 0 ≤ leafNorm σ g k := Real.sqrt_nonneg _
  unfold trustFactor
  rw [max_eq_left hp0, max_eq_left hg0, if_neg (by simp [hp, hg])]

/-- **C54.** `min_norm = 0`, `lr ≥ 0`: the new parameters `q` of a leaf with non-zero parameters and gradient are
`(p - lr ‖p‖ g/‖g‖)/sqrt(1+lr²)`, of norm at most `(1+lr)/sqrt(1+lr²) ‖p‖ ≤ √2 ‖p‖`, and of norm exactly `‖p‖` if the
gradient is orthogonal to the parameters; a leaf with zero gradient shrinks by `1/sqrt(1+lr²)`. -/
theorem C54_fromage (lr : ℝ) (hlr : 0 ≤ lr) (p g : ℕ → ℕ → ℝ) :
    ∃ s u q, (fromage lr 0).init (mk σ p0) = .ok s ∧
      (fromage lr 0).update (mk σ g) s (some (mk σ p)) = .ok (mk σ u, s) ∧
      applyUpdates (mk σ p) (mk σ u) = .ok (mk σ q) ∧
      ∀ k, (leafNorm σ p k ≠ 0 → leafNorm σ g k ≠ 0 →
          (∀ i, q k i = (p k i - lr * leafNorm σ p k * (g k i / leafNorm σ g k)) / Real.sqrt (1 + lr ^ 2)) ∧
          leafNorm σ q k ≤ leafNorm σ p k * ((1 + lr) / Real.sqrt (1 + lr ^ 2)) ∧
          leafNorm σ q k ≤ Real.sqrt 2 * leafNorm σ p k ∧
          (∑ i ∈ range (σ.size k), p k i * g k i = 0 → leafNorm σ q k = leafNorm σ p k)) ∧
        ((∀ i, g k i = 0) → ∀ i, q k i = p k i / Real.sqrt (1 + lr ^ 2)) := by
  obtain ⟨s, u, h1, h2, h3⟩ := C54_fromage_step σ p0 lr 0 p g
  refine ⟨s, u, _, h1, h2, h3, ?_⟩
  intro k
  have hr2 : (0 : ℝ) < 1 + lr ^ 2 := by positivity
  have hr : 0 < Real.sqrt (1 + lr ^ 2) := Real.sqrt_pos.mpr hr2
  constructor
  · intro hp hg
    have hp0 : 0 < leafNorm σ p k := lt_of_le_of_ne (Real.sqrt_nonneg _) (Ne.symm hp)
    have hg0 : 0 < leafNorm σ g k := lt_of_le_of_ne (Real.sqrt_nonneg _) (Ne.symm hg)
    have hf := trustFactor_zero σ p g k hp hg
    have hq : leafNorm σ (fun k i => (p k i - lr * (trustFactor σ 0 g p k * g k i)) / Real.sqrt (1 + lr ^ 2)) k =
        (1 / Real.sqrt (1 + lr ^ 2)) *
          l2 (range (σ.size k)) (fun i => p k i - lr * (leafNorm σ p k / leafNorm σ g k) * g k i) := by
      rw [leafNorm_eq_l2]
      have : (fun i => (p k i - lr * (trustFactor σ 0 g p k * g k i)) / Real.sqrt (1 + lr ^ 2)) =
          fun i => (1 / Real.sqrt (1 + lr ^ 2)) * (p k i - lr * (leafNorm σ p k / leafNorm σ g k) * g k i) := by
        funext i; rw [hf]; ring
      rw [this, l2_smul, abs_of_pos (by positivity)]
    have hb : leafNorm σ (fun k i => (p k i - lr * (trustFactor σ 0 g p k * g k i)) / Real.sqrt (1 + lr ^ 2)) k ≤
        leafNorm σ p k * ((1 + lr) / Real.sqrt (1 + lr ^ 2)) := by
      rw [hq]
      have h4 := l2_sub_le (range (σ.size k)) (p k) (fun i => lr * (leafNorm σ p k / leafNorm σ g k) * g k i)
      rw [l2_smul, ← leafNorm_eq_l2, ← leafNorm_eq_l2, abs_of_nonneg (by positivity)] at h4
      have h5 : lr * (leafNorm σ p k / leafNorm σ g k) * leafNorm σ g k = lr * leafNorm σ p k := by
        field_simp
      rw [h5] at h4
      calc _ ≤ (1 / Real.sqrt (1 + lr ^ 2)) * (leafNorm σ p k + lr * leafNorm σ p k) :=
            mul_le_mul_of_nonneg_left h4 (by positivity)
        _ = _ := by ring
    refine ⟨?_, hb, hb.trans ?_, ?_⟩
    · intro i
      rw [hf]
      ring
    · rw [mul_comm]
      apply mul_le_mul_of_nonneg_right _ hp0.le
      rw [div_le_iff₀ hr, ← Real.sqrt_mul (by norm_num)]
      apply Real.le_sqrt_of_sq_le
      nlinarith [sq_nonneg (1 - lr)]
    · intro horth
      rw [hq]
      have h6 : l2 (range (σ.size k)) (fun i => p k i - lr * (leafNorm σ p k / leafNorm σ g k) * g k i) =
          Real.sqrt (1 + lr ^ 2) * leafNorm σ p k := by
        have hgs : ∑ i ∈ range (σ.size k), g k i ^ 2 = leafNorm σ g k ^ 2 := by
          unfold leafNorm; rw [Real.sq_sqrt (Finset.sum_nonneg fun i _ => sq_nonneg _)]
        have hps : ∑ i ∈ range (σ.size k), p k i ^ 2 = leafNorm σ p k ^ 2 := by
          unfold leafNorm; rw [Real.sq_sqrt (Finset.sum_nonneg fun i _ => sq_nonneg _)]
        unfold l2
        have : ∑ i ∈ range (σ.size k), (p k i - lr * (leafNorm σ p k / leafNorm σ g k) * g k i) ^ 2 =
            (1 + lr ^ 2) * leafNorm σ p k ^ 2 := by
          have : ∀ i, (p k i - lr * (leafNorm σ p k / leafNorm σ g k) * g k i) ^ 2 =
              p k i ^ 2 - 2 * (lr * (leafNorm σ p k / leafNorm σ g k)) * (p k i * g k i) +
              (lr * (leafNorm σ p k / leafNorm σ g k)) ^ 2 * g k i ^ 2 := by intro i; ring
          simp only [this]
          rw [Finset.sum_add_distrib, Finset.sum_sub_distrib, ← Finset.mul_sum, ← Finset.mul_sum, horth, hgs, hps]
          field_simp
          ring
        rw [this, Real.sqrt_mul hr2.le, Real.sqrt_sq hp0.le]
      rw [h6]
      field_simp
  · intro h0 i
    rw [h0 i]
    simp

/-- **C54** with the default `min_norm > 0` (any `m ≥ 0`): the norm of a leaf never exceeds
`(‖p‖ + lr·max(‖p‖, m))/sqrt(1+lr²)` when parameters and gradients are non-zero or `m > 0`. -/
theorem C54_fromage_min_norm (lr m : ℝ) (hlr : 0 ≤ lr) (hm : 0 < m) (p g : ℕ → ℕ → ℝ) :
    ∃ s u q, (fromage lr m).init (mk σ p0) = .ok s ∧
      (fromage lr m).update (mk σ g) s (some (mk σ p)) = .ok (mk σ u, s) ∧
      applyUpdates (mk σ p) (mk σ u) = .ok (mk σ q) ∧
      ∀ k, leafNorm σ q k ≤ (leafNorm σ p k + lr * max (leafNorm σ p k) m) / Real.sqrt (1 + lr ^ 2) := by
  obtain ⟨s, u, h1, h2, h3⟩ := C54_fromage_step σ p0 lr m p g
  refine ⟨s, u, _, h1, h2, h3, ?_⟩
  intro k
  have hr2 : (0 : ℝ) < 1 + lr ^ 2 := by positivity
  have hr : 0 < Real.sqrt (1 + lr ^ 2) := Real.sqrt_pos.mpr hr2
  have hmp : 0 < max (leafNorm σ p k) m := lt_of_lt_of_le hm (le_max_right _ _)
  have hmg : 0 < max (leafNorm σ g k) m := lt_of_lt_of_le hm (le_max_right _ _)
  have hf : trustFactor σ m g p k = max (leafNorm σ p k) m / max (leafNorm σ g k) m := by
    unfold trustFactor
    rw [if_neg (by simp [hmp.ne', hmg.ne'])]
  have hq : leafNorm σ (fun k i => (p k i - lr * (trustFactor σ m g p k * g k i)) / Real.sqrt (1 + lr ^ 2)) k =
      (1 / Real.sqrt (1 + lr ^ 2)) * l2 (range (σ.size k)) (fun i => p k i - lr * trustFactor σ m g p k * g k i) := by
    rw [leafNorm_eq_l2]
    have : (fun i => (p k i - lr * (trustFactor σ m g p k * g k i)) / Real.sqrt (1 + lr ^ 2)) =
        fun i => (1 / Real.sqrt (1 + lr ^ 2)) * (p k i - lr * trustFactor σ m g p k * g k i) := by
      funext i; ring
    rw [this, l2_smul, abs_of_pos (by positivity)]
  rw [hq]
  have hfp : 0 ≤ trustFactor σ m g p k := by rw [hf]; positivity
  have h4 := l2_sub_le (range (σ.size k)) (p k) (fun i => lr * trustFactor σ m g p k * g k i)
  rw [l2_smul, ← leafNorm_eq_l2, ← leafNorm_eq_l2, abs_of_nonneg (by positivity)] at h4
  have h5 : trustFactor σ m g p k * leafNorm σ g k ≤ max (leafNorm σ p k) m := by
    rw [hf, div_mul_eq_mul_div, div_le_iff₀ hmg]
    exact mul_le_mul_of_nonneg_left (le_max_left _ _) hmp.le
  have h6 : lr * trustFactor σ m g p k * leafNorm σ g k ≤ lr * max (leafNorm σ p k) m := by
    rw [mul_assoc]; exact mul_le_mul_of_nonneg_left h5 hlr
  calc _ ≤ (1 / Real.sqrt (1 + lr ^ 2)) * (leafNorm σ p k + lr * max (leafNorm σ p k) m) :=
        mul_le_mul_of_nonneg_left (h4.trans (by linarith)) (by positivity)
    _ = _ := by ring

/-- the hypotheses of C53 and C54 are met, e.g., by a leaf `(3, 4)` with gradient `(4, -3)` (orthogonal) -/
example : leafNorm (.leaf [2]) (fun _ i => if i = 0 then 3 else 4) 0 ≠ 0 ∧
    leafNorm (.leaf [2]) (fun _ i => if i = 0 then 4 else -3) 0 ≠ 0 ∧
    ∑ i ∈ range (Spec.size (.leaf [2]) 0), (if i = 0 then (3:ℝ) else 4) * (if i = 0 then 4 else -3) = 0 := by
  have hs : Spec.size (.leaf [2]) 0 = 2 := by simp [Spec.size, PyTree.leaves]
  unfold leafNorm
  rw [hs]
  refine ⟨?_, ?_, ?_⟩
  · rw [Real.sqrt_ne_zero']; norm_num [Finset.sum_range_succ]
  · rw [Real.sqrt_ne_zero']; norm_num [Finset.sum_range_succ]
  · norm_num [Finset.sum_range_succ]

end Optax
