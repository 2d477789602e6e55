import Verif.Lemmas.Alias
import Verif.Props.Structure
import Verif.Props.ApplyEvery
import Verif.Props.Noise
import Verif.Props.Privacy

/-!
# C55 (composition of the aliases), C05, C37 and C38 for the aliases
-/

set_option linter.unusedSectionVars false
set_option linter.unusedSimpArgs false

namespace Optax

section
variable {α : Type} [Zero α] [One α] [Add α] [Sub α] [Mul α] [Div α] [Neg α] [JOps α]

/-! ## C55

For every initial params `p` and every history (gradients `gs`, params arguments `ps`), in every arithmetic.  The
specification language: `t.outs p h` are the outputs of `t` run alone on the history `h`, `timesNegLR lr us` multiplies
the `n`-th tree of `us` by minus the learning rate at `n`. -/

variable (p : Params α) (gs : List (Params α)) (ps : List (Option (Params α))) (hlen : gs.length = ps.length)
  (out : List (Params α))
include hlen

/-- **C55** `adam` -/
theorem C55_adam (lr : LR α) (b1 b2 eps er : α) :
    (adam lr b1 b2 eps er).outs p (gs.zip ps) = .ok out ↔
      ∃ mid, (scaleByAdam b1 b2 eps er).outs p (gs.zip ps) = .ok mid ∧ out = timesNegLR lr mid :=
  outs_chain_lr _ lr p gs ps hlen out

/-- **C55** `adabelief` (`eps_root` is 1e-16) -/
theorem C55_adabelief (lr : LR α) (b1 b2 eps : α) :
    (adabelief lr b1 b2 eps).outs p (gs.zip ps) = .ok out ↔
      ∃ mid, (scaleByBelief b1 b2 eps (JOps.ofRat (1 / 10 ^ 16))).outs p (gs.zip ps) = .ok mid ∧
        out = timesNegLR lr mid :=
  outs_chain_lr _ lr p gs ps hlen out

/-- **C55** `adagrad` -/
theorem C55_adagrad (lr : LR α) (init eps : α) :
    (adagrad lr init eps).outs p (gs.zip ps) = .ok out ↔
      ∃ mid, (scaleByRss init eps).outs p (gs.zip ps) = .ok mid ∧ out = timesNegLR lr mid :=
  outs_chain_lr _ lr p gs ps hlen out

/-- **C55** `radam` -/
theorem C55_radam (lr : LR α) (b1 b2 eps er th : α) :
    (radam lr b1 b2 eps er th).outs p (gs.zip ps) = .ok out ↔
      ∃ mid, (scaleByRadam b1 b2 eps er th).outs p (gs.zip ps) = .ok mid ∧ out = timesNegLR lr mid :=
  outs_chain_lr _ lr p gs ps hlen out

/-- **C55** `yogi` (`eps_root` is 0 and the accumulators start at 1e-6) -/
theorem C55_yogi (lr : LR α) (b1 b2 eps : α) :
    (yogi lr b1 b2 eps).outs p (gs.zip ps) = .ok out ↔
      ∃ mid, (scaleByYogi b1 b2 eps 0 (JOps.ofRat (1 / 10 ^ 6))).outs p (gs.zip ps) = .ok mid ∧
        out = timesNegLR lr mid :=
  outs_chain_lr _ lr p gs ps hlen out

/-- **C55** `sm3` (learning rate is a number) -/
theorem C55_sm3 (lr b1 : α) :
    (sm3 lr b1).outs p (gs.zip ps) = .ok out ↔
      ∃ mid, (scaleBySM3 b1 1 (JOps.ofRat (1 / 10 ^ 8))).outs p (gs.zip ps) = .ok mid ∧
        out = timesNegLR (.scalar lr) mid :=
  outs_chain_lr (scaleBySM3 b1 1 (JOps.ofRat (1 / 10 ^ 8))) (.scalar lr) p gs ps hlen out

/-- **C55** `sgd` without momentum: every gradient times minus the learning rate -/
theorem C55_sgd_plain (lr : LR α) (nes : Bool) :
    (sgd lr none nes).outs p (gs.zip ps) = .ok out ↔ out = timesNegLR lr gs := by
  refine (outs_chain_lr identity lr p gs ps hlen out).trans ?_
  rw [identity_outs p gs ps hlen]
  constructor
  · rintro ⟨mid, h, rfl⟩; injection h with h; rw [h]
  · rintro rfl; exact ⟨gs, rfl, rfl⟩

/-- **C55** `sgd` with momentum: momentum first, then the learning rate -/
theorem C55_sgd_momentum (lr : LR α) (m : α) (nes : Bool) :
    (sgd lr (some m) nes).outs p (gs.zip ps) = .ok out ↔
      ∃ mid, (trace m nes none).outs p (gs.zip ps) = .ok mid ∧ out = timesNegLR lr mid :=
  outs_chain_lr (trace m nes none) lr p gs ps hlen out

theorem outs_chain_lr_then (t u : GT α) (lr : LR α) :
    (chain [t, scaleByLearningRate lr, u]).outs p (gs.zip ps) = .ok out ↔
      ∃ mid, t.outs p (gs.zip ps) = .ok mid ∧ u.outs p ((timesNegLR lr mid).zip ps) = .ok out := by
  rw [outs_chain_cons t _ p gs ps hlen]
  constructor
  · rintro ⟨mid, h1, h2⟩
    have hm : mid.length = ps.length := by simpa [hlen] using outs_length h1
    rw [outs_chain_cons _ _ p mid ps hm] at h2
    obtain ⟨mid2, h3, h4⟩ := h2
    rw [lr_outs lr p mid ps hm] at h3
    injection h3 with h3
    subst h3
    rw [outs_chain_single u p _ ps (by simpa using hm)] at h4
    exact ⟨mid, h1, h4⟩
  · rintro ⟨mid, h1, h2⟩
    have hm : mid.length = ps.length := by simpa [hlen] using outs_length h1
    refine ⟨mid, h1, (outs_chain_cons _ _ p mid ps hm out).mpr ⟨timesNegLR lr mid, lr_outs lr p mid ps hm, ?_⟩⟩
    exact (outs_chain_single u p _ ps (by simpa using hm) out).mpr h2

/-- **C55** `rmsprop`, plain or centred, without momentum -/
theorem C55_rmsprop (lr : LR α) (decay eps init : α) (centered nes : Bool) :
    (rmsprop lr decay eps init centered none nes).outs p (gs.zip ps) = .ok out ↔
      ∃ mid, (if centered then scaleByStddev decay eps init else scaleByRms decay eps init).outs p (gs.zip ps) = .ok mid ∧
        out = timesNegLR lr mid := by
  have key : ∀ t : GT α, (chain [t, scaleByLearningRate lr, identity]).outs p (gs.zip ps) = .ok out ↔
      ∃ mid, t.outs p (gs.zip ps) = .ok mid ∧ out = timesNegLR lr mid := by
    intro t
    rw [outs_chain_lr_then p gs ps hlen out t identity lr]
    constructor
    · rintro ⟨mid, h1, h2⟩
      have hm : mid.length = ps.length := by simpa [hlen] using outs_length h1
      rw [identity_outs p _ ps (by simpa using hm)] at h2
      injection h2 with h2
      exact ⟨mid, h1, h2.symm⟩
    · rintro ⟨mid, h1, rfl⟩
      have hm : mid.length = ps.length := by simpa [hlen] using outs_length h1
      exact ⟨mid, h1, identity_outs p _ ps (by simpa using hm)⟩
  cases centered with
  | true => exact key (scaleByStddev decay eps init)
  | false => exact key (scaleByRms decay eps init)

/-- **C55** `rmsprop` with momentum: scaling, then the learning rate, then momentum -/
theorem C55_rmsprop_momentum (lr : LR α) (decay eps init m : α) (centered nes : Bool) :
    (rmsprop lr decay eps init centered (some m) nes).outs p (gs.zip ps) = .ok out ↔
      ∃ mid, (if centered then scaleByStddev decay eps init else scaleByRms decay eps init).outs p (gs.zip ps) = .ok mid ∧
        (trace m nes none).outs p ((timesNegLR lr mid).zip ps) = .ok out := by
  cases centered with
  | true => exact outs_chain_lr_then p gs ps hlen out (scaleByStddev decay eps init) (trace m nes none) lr
  | false => exact outs_chain_lr_then p gs ps hlen out (scaleByRms decay eps init) (trace m nes none) lr

/-- **C55** `noisy_sgd`: the noise is added to the already scaled gradients -/
theorem C55_noisy_sgd (normal : Normal α) (lr : LR α) (eta gamma : α) (seed : ℤ) :
    (noisySgd normal lr eta gamma seed).outs p (gs.zip ps) = .ok out ↔
      (addNoise normal eta gamma seed).outs p ((timesNegLR lr gs).zip ps) = .ok out := by
  refine (outs_chain_cons (scaleByLearningRate lr) [addNoise normal eta gamma seed] p gs ps hlen out).trans ?_
  rw [lr_outs lr p gs ps hlen]
  constructor
  · rintro ⟨mid, h1, h2⟩
    injection h1 with h1
    subst h1
    exact (outs_chain_single _ p _ ps (by simpa using hlen) out).mp h2
  · intro h
    exact ⟨_, rfl, (outs_chain_single _ p _ ps (by simpa using hlen) out).mpr h⟩

/-- **C55** `adamw`: Adam scaling, then decayed weights, then the learning rate -/
theorem C55_adamw (lr : LR α) (b1 b2 eps er wd : α) :
    (adamw lr b1 b2 eps er wd).outs p (gs.zip ps) = .ok out ↔
      ∃ a b, (scaleByAdam b1 b2 eps er).outs p (gs.zip ps) = .ok a ∧
        (addDecayedWeights wd).outs p (a.zip ps) = .ok b ∧ out = timesNegLR lr b := by
  refine (outs_chain_cons (scaleByAdam b1 b2 eps er) [addDecayedWeights wd, scaleByLearningRate lr] p gs ps hlen out).trans ?_
  constructor
  · rintro ⟨a, h1, h2⟩
    have hm : a.length = ps.length := by simpa [hlen] using outs_length h1
    obtain ⟨b, h3, h4⟩ := (outs_chain_lr (addDecayedWeights wd) lr p a ps hm out).mp h2
    exact ⟨a, b, h1, h3, h4⟩
  · rintro ⟨a, b, h1, h3, h4⟩
    have hm : a.length = ps.length := by simpa [hlen] using outs_length h1
    exact ⟨a, h1, (outs_chain_lr (addDecayedWeights wd) lr p a ps hm out).mpr ⟨b, h3, h4⟩⟩

/-- **C55** `lamb`: Adam scaling, decayed weights, trust ratio (min norm 0), learning rate -/
theorem C55_lamb (lr : LR α) (b1 b2 eps er wd : α) :
    (lamb lr b1 b2 eps er wd).outs p (gs.zip ps) = .ok out ↔
      ∃ a b c, (scaleByAdam b1 b2 eps er).outs p (gs.zip ps) = .ok a ∧
        (addDecayedWeights wd).outs p (a.zip ps) = .ok b ∧
        (scaleByTrustRatio 0).outs p (b.zip ps) = .ok c ∧ out = timesNegLR lr c := by
  refine (outs_chain_cons (scaleByAdam b1 b2 eps er) [addDecayedWeights wd, scaleByTrustRatio 0, scaleByLearningRate lr]
    p gs ps hlen out).trans ?_
  constructor
  · rintro ⟨a, h1, h2⟩
    have hm : a.length = ps.length := by simpa [hlen] using outs_length h1
    obtain ⟨b, h3, h4⟩ := (outs_chain_cons (addDecayedWeights wd) [scaleByTrustRatio 0, scaleByLearningRate lr] p a ps hm
      out).mp h2
    have hb : b.length = ps.length := by simpa [hm] using outs_length h3
    obtain ⟨c, h5, h6⟩ := (outs_chain_lr (scaleByTrustRatio 0) lr p b ps hb out).mp h4
    exact ⟨a, b, c, h1, h3, h5, h6⟩
  · rintro ⟨a, b, c, h1, h3, h5, h6⟩
    have hm : a.length = ps.length := by simpa [hlen] using outs_length h1
    have hb : b.length = ps.length := by simpa [hm] using outs_length h3
    exact ⟨a, h1, (outs_chain_cons (addDecayedWeights wd) [scaleByTrustRatio 0, scaleByLearningRate lr] p a ps hm
      out).mpr ⟨b, h3, (outs_chain_lr (scaleByTrustRatio 0) lr p b ps hb out).mpr ⟨c, h5, h6⟩⟩⟩

/-- **C55** `dpsgd`: aggregation, then momentum, then the learning rate -/
theorem C55_dpsgd (normal : Normal α) (lr : LR α) (clipNorm noise : α) (seed : ℤ) (m : α) (nes : Bool) :
    (dpsgd normal lr clipNorm noise seed (some m) nes).outs p (gs.zip ps) = .ok out ↔
      ∃ a b, (dpAggregate normal clipNorm noise seed).outs p (gs.zip ps) = .ok a ∧
        (trace m nes none).outs p (a.zip ps) = .ok b ∧ out = timesNegLR lr b := by
  refine (outs_chain_cons (dpAggregate normal clipNorm noise seed) [trace m nes none, scaleByLearningRate lr] p gs ps hlen
    out).trans ?_
  constructor
  · rintro ⟨a, h1, h2⟩
    have hm : a.length = ps.length := by simpa [hlen] using outs_length h1
    obtain ⟨b, h3, h4⟩ := (outs_chain_lr (trace m nes none) lr p a ps hm out).mp h2
    exact ⟨a, b, h1, h3, h4⟩
  · rintro ⟨a, b, h1, h3, h4⟩
    have hm : a.length = ps.length := by simpa [hlen] using outs_length h1
    exact ⟨a, h1, (outs_chain_lr (trace m nes none) lr p a ps hm out).mpr ⟨b, h3, h4⟩⟩

/-- **C55** `dpsgd` without momentum: the aggregate times minus the learning rate -/
theorem C55_dpsgd_plain (normal : Normal α) (lr : LR α) (clipNorm noise : α) (seed : ℤ) (nes : Bool) :
    (dpsgd normal lr clipNorm noise seed none nes).outs p (gs.zip ps) = .ok out ↔
      ∃ a, (dpAggregate normal clipNorm noise seed).outs p (gs.zip ps) = .ok a ∧ out = timesNegLR lr a := by
  refine (outs_chain_cons (dpAggregate normal clipNorm noise seed) [identity, scaleByLearningRate lr] p gs ps hlen
    out).trans ?_
  constructor
  · rintro ⟨a, h1, h2⟩
    have hm : a.length = ps.length := by simpa [hlen] using outs_length h1
    obtain ⟨b, h3, h4⟩ := (outs_chain_lr identity lr p a ps hm out).mp h2
    rw [identity_outs p a ps hm] at h3
    injection h3 with h3
    subst h3
    exact ⟨a, h1, h4⟩
  · rintro ⟨a, h1, h4⟩
    have hm : a.length = ps.length := by simpa [hlen] using outs_length h1
    exact ⟨a, h1, (outs_chain_lr identity lr p a ps hm out).mpr ⟨a, identity_outs p a ps hm, h4⟩⟩

omit hlen

/-! ## C38 for the aliases -/

/-- **C38.** `_scale_by_learning_rate` with a schedule: call number `n` multiplies by minus the schedule at
`min(n, 2^31-1)`, on every tree and history. -/
theorem C38_learning_rate_schedule (f : Schedule α) (hlen : gs.length = ps.length) :
    (scaleByLearningRate (.schedule f)).outs p (gs.zip ps) =
      .ok (gs.mapIdx (fun n u => tmap (fun x => -(f (min (n : ℤ) 2147483647)) * x) u)) :=
  lr_outs (.schedule f) p gs ps hlen

/-! ## C05 for the aliases -/

theorem preserves_lr (lr : LR α) : Preserves AnyParams (scaleByLearningRate lr) := by
  cases lr with
  | scalar x => exact preserves_scale (-x)
  | schedule f => exact preserves_schedule (fun count => -f count)

theorem preserves_momentum (m : Option α) (nes : Bool) : Preserves AnyParams (momentumOrIdentity m nes) := by
  cases m with
  | none => exact preserves_identity
  | some m => exact preserves_trace m nes none

theorem preserves_two {Q : Spec → Option (Params α) → Prop} (t u : GT α) (ht : Preserves Q t) (hu : Preserves Q u) :
    Preserves Q (chain [t, u]) :=
  Preserves.chain _ (by intro x hx; simp only [List.mem_cons, List.not_mem_nil, or_false] at hx; rcases hx with rfl | rfl; exacts [ht, hu])

theorem preserves_three {Q : Spec → Option (Params α) → Prop} (t u v : GT α) (ht : Preserves Q t) (hu : Preserves Q u)
    (hv : Preserves Q v) : Preserves Q (chain [t, u, v]) :=
  Preserves.chain _ (by
    intro x hx; simp only [List.mem_cons, List.not_mem_nil, or_false] at hx; rcases hx with rfl | rfl | rfl; exacts [ht, hu, hv])

theorem preserves_four {Q : Spec → Option (Params α) → Prop} (t u v w : GT α) (ht : Preserves Q t) (hu : Preserves Q u)
    (hv : Preserves Q v) (hw : Preserves Q w) : Preserves Q (chain [t, u, v, w]) :=
  Preserves.chain _ (by
    intro x hx; simp only [List.mem_cons, List.not_mem_nil, or_false] at hx; rcases hx with rfl | rfl | rfl | rfl
    exacts [ht, hu, hv, hw])

theorem preserves_rmsprop (lr : LR α) (a b c : α) (centered : Bool) (m : Option α) (nes : Bool) :
    Preserves AnyParams (rmsprop lr a b c centered m nes) := by
  cases centered with
  | true => exact preserves_three _ _ _ (preserves_stddev a b c) (preserves_lr lr) (preserves_momentum m nes)
  | false => exact preserves_three _ _ _ (preserves_rms a b c) (preserves_lr lr) (preserves_momentum m nes)

/-- **C05** for the aliases that do not use params (constant or scheduled learning rate, with or without momentum). -/
theorem C05_aliases (lr : LR α) (a b c d e : α) (centered nes : Bool) (m : Option α) (normal : Normal α) (seed : ℤ)
    (t : GT α)
    (ht : t ∈ [adabelief lr a b c, adagrad lr a b, adam lr a b c d, radam lr a b c d e, yogi lr a b c,
      rmsprop lr a b c centered m nes, sgd lr m nes, noisySgd normal lr a b seed]) :
    ShapeSafe t ∧ ShapeSafeNoParams t := by
  have key : Preserves AnyParams t := by
    simp only [List.mem_cons, List.not_mem_nil, or_false] at ht
    rcases ht with rfl | rfl | rfl | rfl | rfl | rfl | rfl | rfl
    · exact preserves_two _ _ (preserves_belief a b c _) (preserves_lr lr)
    · exact preserves_two _ _ (preserves_rss a b) (preserves_lr lr)
    · exact preserves_two _ _ (preserves_adam a b c d) (preserves_lr lr)
    · exact preserves_two _ _ (preserves_radam a b c d e) (preserves_lr lr)
    · exact preserves_two _ _ (preserves_yogi a b c _ _) (preserves_lr lr)
    · exact preserves_rmsprop lr a b c centered m nes
    · exact preserves_two _ _ (preserves_momentum m nes) (preserves_lr lr)
    · exact preserves_two _ _ (preserves_lr lr) (preserves_addNoise normal a b seed)
  exact ⟨key.any.shapeSafe, key.shapeSafeNoParams⟩

/-- **C05** for the aliases that use params. -/
theorem C05_aliases_with_params (lr : LR α) (a b c d e : α) :
    ShapeSafe (adamw lr a b c d e) ∧ ShapeSafe (lamb lr a b c d e) ∧ ShapeSafe (fromage a b) := by
  refine ⟨Preserves.shapeSafe ?_, Preserves.shapeSafe ?_, Preserves.shapeSafe ?_⟩
  · exact preserves_three _ _ _ (preserves_adam a b c d).any (preserves_addDecayedWeights e) (preserves_lr lr).any
  · exact preserves_four _ _ _ _ (preserves_adam a b c d).any (preserves_addDecayedWeights e) (preserves_trustRatio 0)
      (preserves_lr lr).any
  · exact preserves_three _ _ _ (preserves_trustRatio b) (preserves_lr _).any (preserves_addDecayedWeights _)

/-- **C05** for `dpsgd`: initialised with params of shapes `σ` and fed batches of per-example gradients stacked along
a leading axis (of any, possibly changing, size), every update has the shapes `σ` of the params. -/
theorem C05_dpsgd (normal : Normal α) (lr : LR α) (clipNorm noise : α) (seed : ℤ) (m : Option α) (nes : Bool) (σ : Spec)
    (hσ : σ.leaves ≠ []) (B : ℕ → ℕ) (p0 : ℕ → ℕ → α) (x : ℕ → ℕ → ℕ → ℕ → α) (pp : ℕ → Option (Params α)) (N : ℕ) :
    ∃ U : ℕ → ℕ → ℕ → α,
      (dpsgd normal lr clipNorm noise seed m nes).outs (mk σ p0) (dpCalls (fun _ => σ) B x pp N) =
        .ok ((List.range N).map (fun n => mk σ (U n))) := by
  have hz : dpCalls (fun _ => σ) B x pp N =
      ((List.range N).map (fun t => stacked σ (B t) (x t))).zip ((List.range N).map pp) := by
    unfold dpCalls; rw [List.zip_map']
  have h1 := C50_run normal clipNorm noise seed (fun _ => σ) (fun _ => hσ) B (mk σ p0) x pp N
  obtain ⟨u, hu⟩ : ∃ u : ℕ → ℕ → ℕ → α, (dpAggregate normal clipNorm noise seed).outs (mk σ p0)
      (dpCalls (fun _ => σ) B x pp N) = .ok ((List.range N).map (fun n => mk σ (u n))) :=
    ⟨_, by unfold GT.outs; rw [h1]; rfl⟩
  obtain ⟨v, hv⟩ := (preserves_momentum m nes).outs σ N p0 u pp (fun _ => trivial)
  refine ⟨fun n k i => -(lr.at n) * v n k i, ?_⟩
  · have e := outs_chain_hist_lr (momentumOrIdentity m nes) lr (mk σ p0) σ u v pp N hv
    rw [hz] at hu ⊢
    rw [zip_hist] at e
    exact (outs_chain_cons (dpAggregate normal clipNorm noise seed) _ (mk σ p0) _ _ (by simp) _).mpr ⟨_, hu, e⟩

/-! ## C37 for the aliases -/

/-- **C37.** `adamw`, `lamb` and `fromage` never succeed without params … -/
theorem C37_aliases_required (lr : LR α) (a b c d e : α) (g u : Params α) :
    (∀ s s', (adamw lr a b c d e).update g s none ≠ .ok (u, s')) ∧
    (∀ s s', (lamb lr a b c d e).update g s none ≠ .ok (u, s')) ∧
    (∀ s s', (fromage a b).update g s none ≠ .ok (u, s')) := by
  refine ⟨?_, ?_, ?_⟩
  · intro s s'
    exact C37_chain_required [scaleByAdam a b c d] [scaleByLearningRate lr] (addDecayedWeights e)
      (C37_required e e e e).1 g s u s'
  · intro s s'
    exact C37_chain_required [scaleByAdam a b c d] [scaleByTrustRatio 0, scaleByLearningRate lr] (addDecayedWeights e)
      (C37_required e e e e).1 g s u s'
  · intro s s'
    exact C37_chain_required [] [scaleByLearningRate (.scalar (a * (1 / JOps.sqrt (1 + a * a)))),
      addDecayedWeights ((1 / JOps.sqrt (1 + a * a)) - 1)] (scaleByTrustRatio b)
      (C37_required b b b b).2.1 g s u s'

/-- … and on gradients of the right structure, from any state the transformation can be in, the exception is the
ValueError of the missing params. -/
theorem C37_aliases_value_error (lr : LR α) (a b c d e : α) (σ : Spec) (p0 g : ℕ → ℕ → α) :
    (∃ s, (adamw lr a b c d e).init (mk σ p0) = .ok s ∧ (adamw lr a b c d e).update (mk σ g) s none = .error .value) ∧
    (∃ s, (lamb lr a b c d e).init (mk σ p0) = .ok s ∧ (lamb lr a b c d e).update (mk σ g) s none = .error .value) ∧
    (∃ s, (fromage a b).init (mk σ p0) = .ok s ∧ (fromage a b).update (mk σ g) s none = .error .value) := by
  have hlr : ∃ r, (scaleByLearningRate lr).init (mk σ p0) = .ok r := by
    cases lr with
    | scalar x => exact ⟨⟨⟩, rfl⟩
    | schedule f => exact ⟨⟨0#32⟩, rfl⟩
  obtain ⟨r, hr⟩ := hlr
  refine ⟨?_, ?_, ?_⟩
  · refine ⟨some (_, some (⟨⟩, some (r, (0 : ℕ)))), chainInit_cons_ok (adam_init_mk σ p0 a b c d)
      (chainInit_cons_ok rfl (chainInit_cons_ok hr chainInit_nil_ok)), ?_⟩
    refine (C02_chain_step (scaleByAdam a b c d) [addDecayedWeights e, scaleByLearningRate lr] _ _ rfl _ _).trans ?_
    rw [adam_update_mk σ g]
    rfl
  · refine ⟨some (_, some (⟨⟩, some (⟨⟩, some (r, (0 : ℕ))))), chainInit_cons_ok (adam_init_mk σ p0 a b c d)
      (chainInit_cons_ok rfl (chainInit_cons_ok rfl (chainInit_cons_ok hr chainInit_nil_ok))), ?_⟩
    refine (C02_chain_step (scaleByAdam a b c d) [addDecayedWeights e, scaleByTrustRatio 0, scaleByLearningRate lr] _ _ rfl
      _ _).trans ?_
    rw [adam_update_mk σ g]
    rfl
  · exact ⟨some (⟨⟩, some (⟨⟩, some (⟨⟩, (0 : ℕ)))), rfl, rfl⟩

/-- **C37.** The other aliases ignore params. -/
theorem C37_aliases_ignored (lr : LR α) (a b c d e : α) (centered nes : Bool) (m : Option α) (normal : Normal α) (seed : ℤ)
    (t : GT α)
    (ht : t ∈ [adabelief lr a b c, adagrad lr a b, adam lr a b c d, radam lr a b c d e, yogi lr a b c, sm3 a b,
      rmsprop lr a b c centered m nes, sgd lr m nes, noisySgd normal lr a b seed, dpsgd normal lr a b seed m nes]) :
    IgnoresParams t := by
  have hlr : IgnoresParams (scaleByLearningRate lr) := by cases lr <;> intro _ _ _ _ <;> rfl
  have hm : IgnoresParams (momentumOrIdentity m nes) := by cases m <;> intro _ _ _ _ <;> rfl
  have two : ∀ t u : GT α, IgnoresParams t → IgnoresParams u → IgnoresParams (chain [t, u]) := fun t u h1 h2 =>
    C37_chain_ignored _ (by intro x hx; simp only [List.mem_cons, List.not_mem_nil, or_false] at hx; rcases hx with rfl | rfl; exacts [h1, h2])
  have three : ∀ t u v : GT α, IgnoresParams t → IgnoresParams u → IgnoresParams v → IgnoresParams (chain [t, u, v]) :=
    fun t u v h1 h2 h3 => C37_chain_ignored _ (by
      intro x hx; simp only [List.mem_cons, List.not_mem_nil, or_false] at hx; rcases hx with rfl | rfl | rfl; exacts [h1, h2, h3])
  simp only [List.mem_cons, List.not_mem_nil, or_false] at ht
  rcases ht with rfl | rfl | rfl | rfl | rfl | rfl | rfl | rfl | rfl | rfl
  · exact two _ _ (fun _ _ _ _ => rfl) hlr
  · exact two _ _ (fun _ _ _ _ => rfl) hlr
  · exact two _ _ (fun _ _ _ _ => rfl) hlr
  · exact two _ _ (fun _ _ _ _ => rfl) hlr
  · exact two _ _ (fun _ _ _ _ => rfl) hlr
  · exact two _ _ (fun _ _ _ _ => rfl) (fun _ _ _ _ => rfl)
  · cases centered with
    | true => exact three _ _ _ (fun _ _ _ _ => rfl) hlr hm
    | false => exact three _ _ _ (fun _ _ _ _ => rfl) hlr hm
  · exact two _ _ hm hlr
  · exact two _ _ hlr (fun _ _ _ _ => rfl)
  · exact three _ _ _ (fun _ _ _ _ => rfl) hm hlr

end
end Optax
