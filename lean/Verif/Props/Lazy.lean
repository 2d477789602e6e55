import Verif.Props.Bind
import Verif.Props.Moments
import Verif.Props.AliasReal

/-!
# C151: steps in which a parameter has no gradient can be skipped - for sgd and adagrad, not with momentum or rmsprop
-/

set_option linter.unusedSectionVars false
set_option linter.unusedSimpArgs false

namespace Optax
open Finset

variable (σ : Spec)

/-- a history: the entries of the gradients and the `params` argument of every call -/
abbrev EntryHistory := List ((ℕ → ℕ → ℝ) × Option (Params ℝ))

/-- the calls of `update` for a history -/
def entryCalls (hs : EntryHistory) : List (Call ℝ) := hs.map fun c => (mk σ c.1, c.2)

/-- the steps of the history at which entry `(k, i)` has a non-zero gradient -/
noncomputable def activeSteps (k i : ℕ) (hs : EntryHistory) : EntryHistory := hs.filter fun c => c.1 k i ≠ 0

/-- Leaving out the steps at which an entry has no gradient does not change this entry: its updates are zero at these steps, and its
updates at the other steps are the updates of the run on the other steps only. -/
def LazyExact (t : GT ℝ) : Prop :=
  ∀ (σ : Spec) (p0 : ℕ → ℕ → ℝ) (hs : EntryHistory), ∃ us : List (ℕ → ℕ → ℝ),
    t.outs (mk σ p0) (entryCalls σ hs) = .ok (us.map (mk σ)) ∧ us.length = hs.length ∧
    ∀ k i, (∀ q ∈ hs.zip us, q.1.1 k i = 0 → q.2 k i = 0) ∧
      ∃ us' : List (ℕ → ℕ → ℝ), t.outs (mk σ p0) (entryCalls σ (activeSteps k i hs)) = .ok (us'.map (mk σ)) ∧
        us'.map (fun u => u k i) = ((hs.zip us).filter fun q => q.1.1 k i ≠ 0).map fun q => q.2 k i

/-- the outputs of a machine that treats every entry alone -/
def scanU (u s' : ℝ → ℝ → ℝ) : ℝ → List ℝ → List ℝ
  | _, [] => []
  | s, g :: gs => u s g :: scanU u s' (s' s g) gs

theorem entry_run (t : GT ℝ) (st : (ℕ → ℕ → ℝ) → t.State) (u s' : ℝ → ℝ → ℝ)
    (hupd : ∀ (g s : ℕ → ℕ → ℝ) (pp : Option (Params ℝ)), t.update (mk σ g) (st s) pp =
      .ok (mk σ (fun k i => u (s k i) (g k i)), st (fun k i => s' (s k i) (g k i)))) :
    ∀ (hs : EntryHistory) (s : ℕ → ℕ → ℝ), ∃ (us : List (ℕ → ℕ → ℝ)) (z : t.State),
      t.run (st s) (entryCalls σ hs) = .ok (us.map (mk σ), z) ∧ us.length = hs.length ∧
      ∀ k i, us.map (fun v => v k i) = scanU u s' (s k i) (hs.map fun c => c.1 k i) := by
  intro hs
  induction hs with
  | nil => intro s; exact ⟨[], st s, rfl, rfl, fun _ _ => rfl⟩
  | cons c hs ih =>
    intro s
    obtain ⟨us, z, h1, h2, h3⟩ := ih (fun k i => s' (s k i) (c.1 k i))
    refine ⟨(fun k i => u (s k i) (c.1 k i)) :: us, z, ?_, by simp [h2], fun k i => ?_⟩
    · show t.run (st s) ((mk σ c.1, c.2) :: entryCalls σ hs) = _
      rw [GT.run_cons_ok t (st s) _ _ (hupd c.1 s c.2), h1]
      rfl
    · simp only [List.map_cons, h3 k i, scanU]

theorem scan_lazy (u s' : ℝ → ℝ → ℝ) (hu : ∀ s, u s 0 = 0) (hs0 : ∀ s, s' s 0 = s) (k i : ℕ) :
    ∀ (hs : EntryHistory) (us : List (ℕ → ℕ → ℝ)) (s : ℝ), us.map (fun v => v k i) = scanU u s' s (hs.map fun c => c.1 k i) →
      (∀ q ∈ hs.zip us, q.1.1 k i = 0 → q.2 k i = 0) ∧
      scanU u s' s ((activeSteps k i hs).map fun c => c.1 k i) = ((hs.zip us).filter fun q => q.1.1 k i ≠ 0).map fun q => q.2 k i := by
  intro hs
  induction hs with
  | nil => intro us s _; simp [activeSteps, scanU]
  | cons c hs ih =>
    intro us s h
    cases us with
    | nil => simp [scanU] at h
    | cons v us =>
      simp only [List.map_cons, scanU, List.cons.injEq] at h
      obtain ⟨h1, h2⟩ := h
      obtain ⟨k1, k2⟩ := ih us _ h2
      by_cases hc : c.1 k i = 0
      · rw [hc, hs0] at k2
        rw [hc, hu] at h1
        refine ⟨?_, ?_⟩
        · intro q hq
          rcases List.mem_cons.mp hq with rfl | hq
          · exact fun _ => h1
          · exact k1 q hq
        · simpa [activeSteps, hc] using k2
      · refine ⟨?_, ?_⟩
        · intro q hq
          rcases List.mem_cons.mp hq with rfl | hq
          · exact fun h => absurd h hc
          · exact k1 q hq
        · have e : activeSteps k i (c :: hs) = c :: activeSteps k i hs := by simp [activeSteps, hc]
          rw [e]
          simp only [List.map_cons, scanU, List.zip_cons_cons]
          rw [List.filter_cons_of_pos (by simpa using hc), List.map_cons, k2]
          exact congrArg (· :: _) h1.symm

theorem lazy_of (t : GT ℝ) (st : (σ : Spec) → (ℕ → ℕ → ℝ) → t.State) (u s' : ℝ → ℝ → ℝ) (a : ℝ)
    (hinit : ∀ σ p, t.init (mk σ p) = .ok (st σ fun _ _ => a))
    (hupd : ∀ σ (g s : ℕ → ℕ → ℝ) (pp : Option (Params ℝ)), t.update (mk σ g) (st σ s) pp =
      .ok (mk σ (fun k i => u (s k i) (g k i)), st σ (fun k i => s' (s k i) (g k i))))
    (hu : ∀ s, u s 0 = 0) (hs0 : ∀ s, s' s 0 = s) : LazyExact t := by
  intro σ p0 hs
  have houts : ∀ hs : EntryHistory, ∃ us : List (ℕ → ℕ → ℝ), t.outs (mk σ p0) (entryCalls σ hs) = .ok (us.map (mk σ)) ∧ us.length = hs.length ∧
      ∀ k i, us.map (fun v => v k i) = scanU u s' a (hs.map fun c => c.1 k i) := by
    intro hs
    obtain ⟨us, z, h1, h2, h3⟩ := entry_run σ t (st σ) u s' (hupd σ) hs (fun _ _ => a)
    refine ⟨us, ?_, h2, h3⟩
    unfold GT.outs GT.exec
    rw [hinit]
    show (t.run _ _ >>= _) = _
    rw [h1]
    rfl
  obtain ⟨us, h1, h2, h3⟩ := houts hs
  refine ⟨us, h1, h2, fun k i => ?_⟩
  obtain ⟨k1, k2⟩ := scan_lazy u s' hu hs0 k i hs us a (h3 k i)
  obtain ⟨us', q1, -, q3⟩ := houts (activeSteps k i hs)
  exact ⟨k1, us', q1, (q3 k i).trans k2⟩

/-- **C151.** `sgd` without momentum and `adagrad` with a constant learning rate: an entry (say a row of an embedding table) that has no gradient
at some steps is not moved by these steps, and its later updates are what they would be had these steps not taken place. -/
theorem C151_lazy (η a eps : ℝ) (nes : Bool) : LazyExact (sgd (.scalar η) none nes) ∧ LazyExact (adagrad (.scalar η) a eps) := by
  constructor
  · refine lazy_of (sgd (.scalar η) none nes) (fun _ _ => some (⟨⟩, some (⟨⟩, (0 : ℕ)))) (fun _ g => -η * g) (fun s _ => s) 0 (fun σ p => rfl) ?_
      (fun s => by simp) (fun s => rfl)
    intro σ g s pp
    refine (chain_two_update identity (scale (-η)) (mk σ g) _ _ pp).trans ?_
    have e : (scale (-η)).update (mk σ g) ⟨⟩ pp = .ok (mk σ (fun k i => -η * g k i), ⟨⟩) := scale_update_mk σ g pp (-η) _
    exact congrArg (fun r => r >>= fun w => pure (w.1, some ((⟨⟩ : EmptyState), some (w.2, (0 : ℕ))))) e
  · refine lazy_of (adagrad (.scalar η) a eps) (fun σ s => some (⟨mk σ s⟩, some (⟨⟩, (0 : ℕ))))
      (fun s g => -η * (invSqrtPos eps (g * g + s) * g)) (fun s g => g * g + s) a (fun σ p => ?_) ?_ (fun s => by simp) (fun s => by simp)
    · show chainInit [scaleByRss a eps, scale (-η)] (mk σ p) = _
      have e : (scaleByRss a eps).init (mk σ p) = .ok ⟨mk σ (fun _ _ => a)⟩ := rss_init_mk σ p a eps
      exact congrArg (fun r => r >>= fun s => (chainInit [scale (-η)] (mk σ p) >>= fun r => pure (some (s, r)))) e
    · intro σ g s pp
      refine (chain_two_update (scaleByRss a eps) (scale (-η)) (mk σ g) _ _ pp).trans ?_
      rw [rss_update_mk]
      have e : (scale (-η)).update (mk σ (fun k i => invSqrtPos eps (g k i * g k i + s k i) * g k i)) ⟨⟩ pp =
          .ok (mk σ (fun k i => -η * (invSqrtPos eps (g k i * g k i + s k i) * g k i)), ⟨⟩) := scale_update_mk σ _ pp (-η) _
      exact congrArg (fun r => r >>= fun w => pure (w.1, some ((⟨mk σ fun k i => g k i * g k i + s k i⟩ : (scaleByRss a eps).State), some (w.2, (0 : ℕ))))) e

/-- **C151 (momentum).** With momentum a parameter without gradient keeps moving: skipping is not exact. -/
theorem C151_momentum (η m : ℝ) (hη : η ≠ 0) (hm : m ≠ 0) (nes : Bool) : ¬ LazyExact (sgd (.scalar η) (some m) nes) := by
  intro h
  obtain ⟨us, h1, h2, h3⟩ := h (.leaf [1]) (fun _ _ => 0) [(fun _ _ => 1, none), (fun _ _ => 0, none)]
  have h4 : (sgd (.scalar η) (some m) nes).outs (mk (.leaf [1]) (fun _ _ => 0))
      (hist (.leaf [1]) (fun n _ _ => if n = 0 then (1 : ℝ) else 0) (fun _ => none) 2) = .ok ((List.range 2).map (fun n => mk (.leaf [1])
        (fun _ _ => -η * (if nes then (if n = 0 then (1 : ℝ) else 0) + m * geoSum m (fun j => if j = 0 then (1 : ℝ) else 0) (n + 1)
          else geoSum m (fun j => if j = 0 then (1 : ℝ) else 0) (n + 1))))) := by
    refine outs_chain_hist_lr (trace m nes) (.scalar η) _ _ _ _ _ _ ?_
    unfold GT.outs
    rw [C21_trace]
    rfl
  have h5 : hist (.leaf [1]) (fun n _ _ => if n = 0 then (1 : ℝ) else 0) (fun _ => none) 2 =
      entryCalls (.leaf [1]) [(fun _ _ => 1, none), (fun _ _ => 0, none)] := rfl
  rw [h5, h1] at h4
  match us, h2 with
  | [u0, u1], _ =>
    have h6 : u1 0 0 = 0 := (h3 0 0).1 ((fun _ _ => 0, none), u1) (by simp) rfl
    have h7 := Except.ok.inj h4
    simp only [List.map_cons, List.map_nil, List.range_succ, List.range_zero, List.nil_append, List.cons_append, List.cons.injEq] at h7
    have h8 := mk_inj h7.2.1 0 [1] rfl 0 (by simp)
    rw [h6] at h8
    have h9 : geoSum m (fun j => if j = 0 then (1 : ℝ) else 0) (1 + 1) = m := by
      rw [geoSum_succ, geoSum_succ, geoSum_zero]; norm_num
    rw [h9] at h8
    cases nes with
    | false =>
      simp only [Bool.false_eq_true, if_false] at h8
      exact mul_ne_zero (neg_ne_zero.mpr hη) hm h8.symm
    | true =>
      simp only [if_true, one_ne_zero, if_false, zero_add] at h8
      exact mul_ne_zero (neg_ne_zero.mpr hη) (mul_ne_zero hm hm) h8.symm

/-- **C151 (rmsprop).** `rmsprop` does not move a parameter without gradient, but it forgets its past gradients meanwhile: its next
update differs from what it would be had the steps been skipped. -/
theorem C151_rmsprop (d eps : ℝ) (hd : 0 < d) (hd1 : d < 1) (he : 0 ≤ eps) : ¬ LazyExact (scaleByRms d eps 0) := by
  intro h
  obtain ⟨us, h1, h2, h3⟩ := h (.leaf [1]) (fun _ _ => 0) [(fun _ _ => 1, none), (fun _ _ => 0, none), (fun _ _ => 1, none)]
  obtain ⟨-, us', q1, q2⟩ := h3 0 0
  have f1 : (scaleByRms d eps 0).outs (mk (.leaf [1]) (fun _ _ => 0))
      (hist (.leaf [1]) (fun n _ _ => if n = 1 then (0 : ℝ) else 1) (fun _ => none) 3) = .ok ((List.range 3).map (fun n => mk (.leaf [1])
        (fun _ _ => (if n = 1 then (0 : ℝ) else 1) / Real.sqrt (rmsAcc d 0 (fun j => if j = 1 then (0 : ℝ) else 1) (n + 1) + eps)))) := by
    unfold GT.outs
    rw [C24_rms]
    rfl
  have f2 : (scaleByRms d eps 0).outs (mk (.leaf [1]) (fun _ _ => 0))
      (hist (.leaf [1]) (fun _ _ _ => (1 : ℝ)) (fun _ => none) 2) = .ok ((List.range 2).map (fun n => mk (.leaf [1])
        (fun _ _ => 1 / Real.sqrt (rmsAcc d 0 (fun _ => 1) (n + 1) + eps)))) := by
    unfold GT.outs
    rw [C24_rms]
    rfl
  have e1 : hist (.leaf [1]) (fun n _ _ => if n = 1 then (0 : ℝ) else 1) (fun _ => none) 3 =
      entryCalls (.leaf [1]) [(fun _ _ => 1, none), (fun _ _ => 0, none), (fun _ _ => 1, none)] := rfl
  have e2 : hist (.leaf [1]) (fun _ _ _ => (1 : ℝ)) (fun _ => none) 2 =
      entryCalls (.leaf [1]) (activeSteps 0 0 [(fun _ _ => 1, none), (fun _ _ => 0, none), (fun _ _ => 1, none)]) := by
    simp [activeSteps]; rfl
  rw [e1, h1] at f1
  rw [e2, q1] at f2
  match us, h2 with
  | [u0, u1, u2], _ =>
    have g1 := Except.ok.inj f1
    have g2 := Except.ok.inj f2
    have hl : us'.length = 2 := by simpa using congrArg List.length g2
    match us', hl with
    | [v0, v1], _ =>
      simp only [List.map_cons, List.map_nil, List.range_succ, List.range_zero, List.nil_append, List.cons_append, List.cons.injEq] at g1 g2
      have a1 := mk_inj g1.2.2.1 0 [1] rfl 0 (by simp)
      have a2 := mk_inj g2.2.1 0 [1] rfl 0 (by simp)
      have a3 : v1 0 0 = u2 0 0 := by
        simp at q2
        exact q2.2
      rw [a1, a2] at a3
      have r1 : rmsAcc d 0 (fun _ => 1) (1 + 1) = (1 - d) * (1 + d) := by
        simp [rmsAcc, geoSum_succ]; try ring
      have r2 : rmsAcc d 0 (fun j => if j = 1 then (0 : ℝ) else 1) (2 + 1) = (1 - d) * (1 + d ^ 2) := by
        simp [rmsAcc, geoSum_succ]
        left; ring
      rw [r1, r2] at a3
      simp only [show (2 : ℕ) ≠ 1 by norm_num, if_false, one_div, inv_inj] at a3
      have hb : 0 < 1 - d := by linarith
      have a4 := (Real.sqrt_inj (by positivity) (by positivity)).mp a3
      have : (1 - d) * (d * (1 - d)) = 0 := by nlinarith
      exact (mul_pos hb (mul_pos hd hb)).ne' this

end Optax
