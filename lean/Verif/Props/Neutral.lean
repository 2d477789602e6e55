import Verif.Props.Congruence
import Verif.Props.Noise
import Verif.Props.Wrappers
import Verif.Lemmas.Counter
import Verif.Model.Schedule

/-!
# C101: neutral hyper-parameters switch a component off
-/

set_option linter.unusedSectionVars false
set_option linter.unusedSimpArgs false
set_option linter.unusedVariables false

namespace Optax

/-- `t` behaves as `identity()` on pytrees of shapes `σ` -/
def Neutral {α : Type} (σ : Spec) (t : GT α) : Prop := SameShaped σ t identity

theorem neutral_of {α : Type} {σ : Spec} {t : GT α} (I : t.State → Prop) (h1 : ∀ v, ∃ s, t.init (mk σ v) = .ok s ∧ I s)
    (h2 : ∀ g s p, I s → ∃ s', t.update (mk σ g) s (some (mk σ p)) = .ok (mk σ g, s') ∧ I s') : Neutral σ t := by
  refine Bisim.same (R := fun s _ => I s) ⟨?_, ?_⟩
  · rintro p ⟨v, rfl⟩
    obtain ⟨s, hs, hI⟩ := h1 v
    rw [hs]
    exact hI
  · rintro g pp s s' ⟨⟨g', hg⟩, ⟨p, hp⟩⟩ hI
    simp only at hg hp
    subst hg hp
    obtain ⟨r, hr, hI'⟩ := h2 g' s p hI
    rw [hr]
    exact ⟨rfl, hI'⟩

/-- **C101 (components).** On finite values, the neutral settings of these transformations do nothing, on every history: `scale(1)`, a schedule that
is constantly 1, `trace(decay=0)` with and without Nesterov, `ema(decay=0)` with and without debiasing, `add_decayed_weights(0)`,
`add_noise(eta=0)` for every seed and `gamma`, `apply_every(1)`. -/
theorem C101_neutral (σ : Spec) :
    Neutral σ (scale (1 : ℝ)) ∧ Neutral σ (scaleBySchedule (constantSchedule (1 : ℝ))) ∧ (∀ nes, Neutral σ (trace (0 : ℝ) nes none)) ∧
    (∀ deb, Neutral σ (ema (0 : ℝ) deb none)) ∧ Neutral σ (addDecayedWeights (0 : ℝ)) ∧
    (∀ (normal : Normal ℝ) (gamma : ℝ) (seed : ℤ), Neutral σ (addNoise normal 0 gamma seed)) ∧ Neutral σ (applyEvery 1 : GT ℝ) := by
  refine ⟨?_, ?_, fun nes => ?_, fun deb => ?_, ?_, fun normal gamma seed => ?_, ?_⟩
  · refine neutral_of (fun _ => True) (fun v => ⟨_, rfl, trivial⟩) fun g s p _ => ⟨s, ?_, trivial⟩
    rw [scale_update_mk]
    simp only [one_mul]
  · refine neutral_of (fun _ => True) (fun v => ⟨_, rfl, trivial⟩) fun g s p _ => ⟨⟨safeInt32Increment s.count⟩, ?_, trivial⟩
    rw [show s = ⟨s.count⟩ from rfl, scaleBySchedule_update_mk]
    simp only [constantSchedule, one_mul]
  · refine neutral_of (fun s => ∃ m, s.trace = mk σ m) (fun v => ⟨_, trace_init_mk σ v 0 nes none, _, rfl⟩) ?_
    rintro g ⟨_⟩ p ⟨m, rfl⟩
    refine ⟨⟨mk σ g⟩, ?_, g, rfl⟩
    rw [trace_update_mk]
    simp
  · refine neutral_of (fun s => 0 ≤ s.count.toInt ∧ ∃ m, s.ema = mk σ m) (fun v => ⟨_, ema_init_mk σ v 0 deb none, by simp, _, rfl⟩) ?_
    rintro g ⟨c, _⟩ p ⟨hc, m, rfl⟩
    replace hc : 0 ≤ c.toInt := hc
    have h1 := safeInt32Increment_toInt c hc
    have hc' : 1 ≤ (safeInt32Increment c).toInt := by rw [h1]; omega
    have hne : (cnt (safeInt32Increment c) : ℝ) ≠ 0 := by
      simp only [cnt, jofInt_real]
      exact_mod_cast (by omega : (safeInt32Increment c).toInt ≠ 0)
    refine ⟨⟨safeInt32Increment c, mk σ (fun k i => g k i)⟩, ?_, (by omega : 0 ≤ (safeInt32Increment c).toInt), _, rfl⟩
    rw [ema_update_mk]
    cases deb <;> simp [ipow_eq_pow, Real.zero_rpow hne]
  · refine neutral_of (fun _ => True) (fun v => ⟨_, rfl, trivial⟩) fun g s p _ => ⟨s, ?_, trivial⟩
    rw [addDecayedWeights_update_mk]
    simp
  · refine neutral_of (fun _ => True) (fun v => ⟨_, rfl, trivial⟩) ?_
    rintro g ⟨c, k⟩ p _
    have h := addNoise_update_mk normal 0 gamma seed σ g c k (some (mk σ p))
    refine ⟨⟨safeInt32Increment c, k.child (PyTree.numLeaves σ + 1) 0⟩, h.trans ?_, trivial⟩
    simp only [noiseScale, zero_div, zero_mul, add_zero]
  · refine neutral_of (fun s => s.count = 0#32 ∧ ∃ m, s.gradAcc = mk σ m) (fun v => ⟨_, applyEvery_init_mk σ v 1, rfl, _, rfl⟩) ?_
    rintro g ⟨_, _⟩ p ⟨rfl, m, rfl⟩
    refine ⟨⟨0#32, mk σ (fun k i => g k i)⟩, ?_, rfl, _, rfl⟩
    rw [applyEvery_update_mk]
    simp [boolNum, Int.fmod_one]

/-- **C101 (chains).** A neutral component can be removed from any place of a chain of shape-preserving transformations. -/
theorem C101_chain {α : Type} (σ : Spec) (t : GT α) (ht : Neutral σ t) (hp : Preserves WithParams t) (pre post : List (GT α))
    (h1 : ∀ u ∈ pre, Preserves WithParams u) (h2 : ∀ u ∈ post, Preserves WithParams u) :
    SameShaped σ (chain (pre ++ t :: post)) (chain (pre ++ post)) := by
  have refl : ∀ ts : List (GT α), (∀ u ∈ ts, Preserves WithParams u) → List.Forall₂ (fun t t' => SameShaped σ t t' ∧ Preserves WithParams t) ts ts := by
    intro ts hts
    induction ts with
    | nil => exact .nil
    | cons a l ih => exact .cons ⟨fun _ _ _ _ => rfl, hts a (by simp)⟩ (ih fun u hu => hts u (by simp [hu]))
  have hl : List.Forall₂ (fun t t' => SameShaped σ t t' ∧ Preserves WithParams t) (pre ++ t :: post) (pre ++ identity :: post) := by
    induction pre with
    | nil => exact .cons ⟨ht, hp⟩ (refl post h2)
    | cons a l ih => exact .cons ⟨fun _ _ _ _ => rfl, h1 a (by simp)⟩ (ih fun u hu => h1 u (by simp [hu]))
  intro p hpp h hh
  rw [C100_chain_shaped σ _ _ hl p hpp h hh]
  exact C03_chain_identity pre post p h

/-- **C101 (aliases).** `sgd(momentum=0)` is `sgd(momentum=None)`; the same for `rmsprop`; `adamw(weight_decay=0)` is `adam`; `noisy_sgd(eta=0)` is
`sgd`, for every learning rate (constant or schedule) and every other argument. -/
theorem C101_alias (σ : Spec) (lr : LR ℝ) :
    (∀ nes nes', SameShaped σ (sgd lr (some 0) nes) (sgd lr none nes')) ∧
    (∀ d e i c nes nes', SameShaped σ (rmsprop lr d e i c (some 0) nes) (rmsprop lr d e i c none nes')) ∧
    (∀ b1 b2 eps er, SameShaped σ (adamw lr b1 b2 eps er 0) (adam lr b1 b2 eps er)) ∧
    (∀ normal gamma seed nes, SameShaped σ (noisySgd normal lr 0 gamma seed) (sgd lr none nes)) := by
  obtain ⟨_, _, htr, _, hwd, hno, _⟩ := C101_neutral σ
  have plr : Preserves WithParams (scaleByLearningRate lr) := (preserves_lr lr).any
  have ptr : ∀ nes, Preserves WithParams (trace (0 : ℝ) nes none) := fun nes => (preserves_trace 0 nes none).any
  have hid : ∀ p h, (chain [identity, scaleByLearningRate lr]).outs p h = (chain [scaleByLearningRate lr]).outs p h :=
    fun p h => C03_chain_identity [] [scaleByLearningRate lr] p h
  refine ⟨fun nes nes' p hp h hh => ?_, fun d e i c nes nes' p hp h hh => ?_, fun b1 b2 eps er => ?_, fun normal gamma seed nes p hp h hh => ?_⟩
  · refine (C101_chain σ _ (htr nes) (ptr nes) [] [scaleByLearningRate lr] (by simp) (by simpa using plr) p hp h hh).trans ?_
    exact (hid p h).symm
  · cases c with
    | false =>
      refine (C101_chain σ _ (htr nes) (ptr nes) [scaleByRms d e i, scaleByLearningRate lr] [] ?_ (by simp) p hp h hh).trans ?_
      · simpa using ⟨(preserves_rms d e i).any, plr⟩
      · exact (C03_chain_identity [scaleByRms d e i, scaleByLearningRate lr] [] p h).symm
    | true =>
      refine (C101_chain σ _ (htr nes) (ptr nes) [scaleByStddev d e i, scaleByLearningRate lr] [] ?_ (by simp) p hp h hh).trans ?_
      · simpa using ⟨(preserves_stddev d e i).any, plr⟩
      · exact (C03_chain_identity [scaleByStddev d e i, scaleByLearningRate lr] [] p h).symm
  · refine C101_chain σ _ hwd (preserves_addDecayedWeights 0) [scaleByAdam b1 b2 eps er] [scaleByLearningRate lr] ?_ (by simpa using plr)
    simpa using (preserves_adam b1 b2 eps er).any
  · refine (C101_chain σ _ (hno normal gamma seed) (preserves_addNoise normal 0 gamma seed).any [scaleByLearningRate lr] [] (by simpa using plr) (by simp)
      p hp h hh).trans ?_
    exact (hid p h).symm

/-- **C101 (training).** … so they visit the same parameters. -/
theorem C101_alias_training (σ : Spec) (lr : LR ℝ) (b1 b2 eps er : ℝ) (grad : ℕ → Params ℝ → Params ℝ) (G : ℕ → (ℕ → ℕ → ℝ) → ℕ → ℕ → ℝ)
    (hg : ∀ n p, grad n (mk σ p) = mk σ (G n p)) (p0 : ℕ → ℕ → ℝ) :
    ∃ P : ℕ → ℕ → ℕ → ℝ, P 0 = p0 ∧ Visits (adam lr b1 b2 eps er) grad σ P ∧ Visits (adamw lr b1 b2 eps er 0) grad σ P := by
  refine C100_training_shaped σ _ _ (preserves_adam_alias lr b1 b2 eps er) ?_ grad G hg p0
  exact fun p hp h hh => ((C101_alias σ lr).2.2.1 b1 b2 eps er p hp h hh).symm

/-- **C101 (wrappers).** `maybe_update` that always updates and `apply_if_finite` on finite values are transparent, for every shape-preserving
transformation; `MultiSteps(every_k=1)` is the wrapped optimizer called without params. -/
theorem C101_wrappers (σ : Spec) (t : GT ℝ) :
    (Preserves WithParams t → SameShaped σ (maybeUpdate t (fun _ => true)) t ∧ ∀ m, SameShaped σ (applyIfFinite t m) t) ∧
    (Preserves (fun _ pp => pp = none) t → ∀ mean, SameOn (ShapedP σ) (fun c => (∃ v, c.1 = mk σ v) ∧ c.2 = none) (multiSteps t (fun _ => 1) mean) t) := by
  refine ⟨fun ht => ?_, fun ht mean => ?_⟩
  · obtain ⟨I, h1, h2⟩ := ht σ
    constructor
    · refine Bisim.same (R := fun s s' => s.innerState = s' ∧ I s') ⟨?_, ?_⟩
      · rintro p ⟨v, rfl⟩
        obtain ⟨s, hs, hI⟩ := h1 v
        show RelI _ (t.init (mk σ v) >>= _) _
        rw [hs]
        exact ⟨rfl, hI⟩
      · rintro g pp ⟨s, c⟩ s' ⟨⟨g', hg⟩, ⟨p, hp⟩⟩ ⟨rfl, hI⟩
        simp only at hg hp hI
        subst hg hp
        obtain ⟨u, r, hr, hI'⟩ := h2 g' s (some (mk σ p)) hI ⟨p, rfl⟩
        show RelU _ (condUpd true (t.update _ s _) _ >>= _) (t.update _ s _)
        rw [hr]
        simp only [condUpd, Res.ok_bind, spec_mk, if_true]
        exact ⟨rfl, rfl, hI'⟩
    · intro m
      refine Bisim.same (R := fun s s' => s.innerState = s' ∧ I s') ⟨?_, ?_⟩
      · rintro p ⟨v, rfl⟩
        obtain ⟨s, hs, hI⟩ := h1 v
        show RelI _ (t.init (mk σ v) >>= _) _
        rw [hs]
        exact ⟨rfl, hI⟩
      · rintro g pp ⟨a, b, c, s⟩ s' ⟨⟨g', hg⟩, ⟨p, hp⟩⟩ ⟨rfl, hI⟩
        simp only at hg hp hI
        subst hg hp
        obtain ⟨u, r, hr, hI'⟩ := h2 g' s (some (mk σ p)) hI ⟨p, rfl⟩
        have hf : allFinite (mk σ g') = true := by
          rw [allFinite_iff]
          intro x hx y hy
          rfl
        show RelU _ (condUpd (allFinite _ || _) (t.update _ s _) _ >>= _) (t.update _ s _)
        rw [hr, hf, zerosLike_mk]
        simp only [condUpd, Res.ok_bind, spec_mk, if_true, Bool.true_or]
        exact ⟨rfl, rfl, hI'⟩
  · obtain ⟨I, h1, h2⟩ := ht σ
    refine Bisim.same (R := fun s s' => s.innerOptState = s' ∧ I s' ∧ s.miniStep = 0#32 ∧ s.accGrads = mk σ (fun _ _ => 0)) ⟨?_, ?_⟩
    · rintro p ⟨v, rfl⟩
      obtain ⟨s, hs, hI⟩ := h1 v
      show RelI _ (t.init (mk σ v) >>= _) _
      rw [hs]
      exact ⟨rfl, hI, rfl, zerosLike_mk _ _⟩
    · rintro g pp ⟨c, gs, s, a⟩ s' ⟨⟨g', hg⟩, hp⟩ ⟨rfl, hI, hc, ha⟩
      simp only at hg hp hI hc ha
      subst hg hp hc ha
      obtain ⟨u, r, hr, hI'⟩ := h2 g' s none hI rfl
      have hacc : (if mean then tmap (fun x : ℝ => x / JOps.ofInt 1) (mk σ (fun k i => g' k i + 0)) else mk σ (fun k i => g' k i + 0)) = mk σ g' := by
        cases mean <;> simp
      show RelU _ (tzip (fun a b => a + b) (mk σ g') (mk σ (fun _ _ => 0)) >>= fun acc => condUpd false _ (t.update (if mean then tmap _ acc else acc) s none >>= _))
        (t.update _ s _)
      rw [tzip_mk, Res.ok_bind, hacc, hr, zerosLike_mk, zerosLike_mk]
      simp only [condUpd, Res.ok_bind, Res.pure_eq, spec_mk, if_true]
      exact ⟨rfl, rfl, hI', rfl, rfl⟩

/-- **C101 (constant schedules).** A constant schedule as learning rate is the same as the number, on every input (also infinite and NaN ones,
and with the same exceptions), in every chain. -/
theorem C101_constant_schedule {α : Type} [Zero α] [One α] [Add α] [Sub α] [Mul α] [Div α] [Neg α] [JOps α] (x : α) (pre post : List (GT α)) :
    Same (chain (pre ++ scaleByLearningRate (.schedule (constantSchedule x)) :: post)) (chain (pre ++ scaleByLearningRate (.scalar x) :: post)) := by
  refine (C100_wrappers _ _ ?_).2.2.2.2.2.2 pre post
  refine Bisim.all (R := fun _ _ => True) ⟨fun p _ => trivial, fun g pp s s' _ _ => ?_⟩
  exact ⟨rfl, trivial⟩

/-- not vacuous: on a pytree with a vector and a matrix, `sgd(0.1, momentum=0, nesterov=True)` is `sgd(0.1)` … -/
example : SameShaped (.node .list [.leaf [3], .leaf [2, 2]]) (sgd (.scalar (1 / 10 : ℝ)) (some 0) true) (sgd (.scalar (1 / 10)) none false) :=
  (C101_alias _ _).1 true false

/-- … and the property distinguishes: `add_decayed_weights(1)` is not neutral -/
example : ¬ Neutral (.leaf []) (addDecayedWeights (1 : ℝ)) := by
  intro h
  have := h (mk (.leaf []) (fun _ _ => 1)) ⟨_, rfl⟩ [(mk (.leaf []) (fun _ _ => (0 : ℝ)), some (mk (.leaf []) (fun _ _ => 1)))] (by
    intro c hc
    rw [List.mem_singleton.mp hc]
    exact ⟨⟨fun _ _ => 0, rfl⟩, ⟨fun _ _ => 1, rfl⟩⟩)
  unfold GT.outs GT.exec at this
  simp only [GT.run_cons, GT.run_nil] at this
  rw [tzip_mk] at this
  simp only [Res.ok_bind, Res.pure_eq] at this
  have h2 := List.cons.inj (Except.ok.inj this)
  have h3 := congrArg (fun t => coord t 0 0) h2.1
  simp [coord, mk, PyTree.mapIdx, PyTree.mapIdxFrom, PyTree.leaves, Tensor.tens, sizeOf] at h3

end Optax
