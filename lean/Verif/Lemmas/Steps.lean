import Verif.Model.Transform
import Verif.Spec.History

/-! One update of each transformation on trees given entry by entry, for every arithmetic. -/

set_option linter.unusedSectionVars false
set_option linter.unusedSimpArgs false

namespace Optax

variable {α : Type} [Zero α] [One α] [Add α] [Sub α] [Mul α] [Div α] [Neg α] [JOps α]
variable (σ : Spec) (g m n p : ℕ → ℕ → α) (pp : Option (Params α))

@[simp] theorem updateMoment_mk (decay : α) (order : ℕ) :
    updateMoment (mk σ g) (mk σ m) decay order =
      .ok (mk σ (fun k i => (1 - decay) * ipow (g k i) order + decay * m k i)) := by
  simp [updateMoment]

@[simp] theorem biasCorrection_mk (decay : α) (c : BitVec 32) :
    biasCorrection (mk σ m) decay c = mk σ (fun k i => m k i / (1 - JOps.pow decay (cnt c))) := by
  simp [biasCorrection]

omit [Zero α] [One α] [Add α] [Sub α] [Mul α] [Div α] [Neg α] [JOps α] in
@[simp] theorem castTree_mk (f : Option (α → α)) :
    castTree (mk σ m) f = mk σ (fun k i => (f.getD id) (m k i)) := by
  cases f <;> simp [castTree]

omit [Zero α] [One α] [Add α] [Sub α] [Mul α] [Div α] [Neg α] [JOps α] in
@[simp] theorem condTree_mk (c : Bool) :
    condTree c (.ok (mk σ m)) (.ok (mk σ n)) =
      .ok (mk σ (fun k i => if c then m k i else n k i)) := by
  cases c <;> simp [condTree]

theorem trace_init_mk (decay : α) (nes : Bool) (acc : Option (α → α)) :
    (trace decay nes acc).init (mk σ p) = .ok ⟨mk σ (fun _ _ => (acc.getD id) 0)⟩ := by
  simp [trace]

theorem trace_update_mk (decay : α) (nes : Bool) (acc : Option (α → α)) :
    (trace decay nes acc).update (mk σ g) ⟨mk σ m⟩ pp =
      .ok (mk σ (fun k i => if nes then g k i + decay * (g k i + decay * m k i)
          else g k i + decay * m k i),
        ⟨mk σ (fun k i => (acc.getD id) (g k i + decay * m k i))⟩) := by
  cases nes <;> simp [trace]

theorem ema_init_mk (decay : α) (deb : Bool) (acc : Option (α → α)) :
    (ema decay deb acc).init (mk σ p) = .ok ⟨0#32, mk σ (fun _ _ => (acc.getD id) 0)⟩ := by
  simp [ema]

theorem ema_update_mk (decay : α) (deb : Bool) (acc : Option (α → α)) (c : BitVec 32) :
    (ema decay deb acc).update (mk σ g) ⟨c, mk σ m⟩ pp =
      .ok (mk σ (fun k i => if deb then
          ((1 - decay) * ipow (g k i) 1 + decay * m k i) /
            (1 - JOps.pow decay (cnt (safeInt32Increment c))) else g k i),
        ⟨safeInt32Increment c,
          mk σ (fun k i => (acc.getD id) ((1 - decay) * ipow (g k i) 1 + decay * m k i))⟩) := by
  cases deb <;> simp [ema]

theorem rss_init_mk (a eps : α) :
    (scaleByRss a eps).init (mk σ p) = .ok ⟨mk σ (fun _ _ => a)⟩ := by simp [scaleByRss]

theorem rss_update_mk (a eps : α) :
    (scaleByRss a eps).update (mk σ g) ⟨mk σ m⟩ pp =
      .ok (mk σ (fun k i => invSqrtPos eps (g k i * g k i + m k i) * g k i),
        ⟨mk σ (fun k i => g k i * g k i + m k i)⟩) := by simp [scaleByRss]

theorem rms_init_mk (d eps a : α) :
    (scaleByRms d eps a).init (mk σ p) = .ok ⟨mk σ (fun _ _ => a)⟩ := by simp [scaleByRms]

theorem rms_update_mk (d eps a : α) :
    (scaleByRms d eps a).update (mk σ g) ⟨mk σ m⟩ pp =
      .ok (mk σ (fun k i => g k i * JOps.rsqrt ((1 - d) * ipow (g k i) 2 + d * m k i + eps)),
        ⟨mk σ (fun k i => (1 - d) * ipow (g k i) 2 + d * m k i)⟩) := by simp [scaleByRms]

theorem stddev_init_mk (d eps a : α) :
    (scaleByStddev d eps a).init (mk σ p) = .ok ⟨mk σ (fun _ _ => 0), mk σ (fun _ _ => a)⟩ := by
  simp [scaleByStddev]

omit [Zero α] [One α] [Add α] [Sub α] [Mul α] [Div α] [Neg α] [JOps α] in
theorem zipM3_mk {β : Type} (f : Tensor α → Tensor α → Tensor α → Res (Tensor β))
    (r : ℕ → ℕ → β)
    (h : ∀ k s, σ.leaves[k]? = some s → f (Tensor.tens s (g k)) (Tensor.tens s (m k))
      (Tensor.tens s (n k)) = .ok (Tensor.tens s (r k))) :
    PyTree.zipM3 f (mk σ g) (mk σ m) (mk σ n) = .ok (mk σ r) :=
  PyTree.zipM3_mapIdx f _ _ _ _ σ h

theorem stddev_update_mk (d eps a : α) :
    (scaleByStddev d eps a).update (mk σ g) ⟨mk σ m, mk σ n⟩ pp =
      .ok (mk σ (fun k i => g k i * JOps.rsqrt (
            ((1 - d) * ipow (g k i) 2 + d * n k i) -
            ((1 - d) * ipow (g k i) 1 + d * m k i) * ((1 - d) * ipow (g k i) 1 + d * m k i) + eps)),
        ⟨mk σ (fun k i => (1 - d) * ipow (g k i) 1 + d * m k i),
         mk σ (fun k i => (1 - d) * ipow (g k i) 2 + d * n k i)⟩) := by
  simp only [scaleByStddev, updateMoment_mk, Res.ok_bind]
  rw [zipM3_mk (r := fun k i => g k i * JOps.rsqrt (
            ((1 - d) * ipow (g k i) 2 + d * n k i) -
            ((1 - d) * ipow (g k i) 1 + d * m k i) * ((1 - d) * ipow (g k i) 1 + d * m k i) + eps))]
  · rfl
  · intro k s _
    simp

theorem adam_init_mk (b1 b2 eps er : α) :
    (scaleByAdam b1 b2 eps er).init (mk σ p) =
      .ok ⟨0#32, mk σ (fun _ _ => 0), mk σ (fun _ _ => 0)⟩ := by simp [scaleByAdam]

theorem adam_update_mk (b1 b2 eps er : α) (c : BitVec 32) :
    (scaleByAdam b1 b2 eps er).update (mk σ g) ⟨c, mk σ m, mk σ n⟩ pp =
      .ok (mk σ (fun k i =>
          (((1 - b1) * ipow (g k i) 1 + b1 * m k i) /
            (1 - JOps.pow b1 (cnt (safeInt32Increment c)))) /
          (JOps.sqrt (((1 - b2) * ipow (g k i) 2 + b2 * n k i) /
            (1 - JOps.pow b2 (cnt (safeInt32Increment c))) + er) + eps)),
        ⟨safeInt32Increment c, mk σ (fun k i => (1 - b1) * ipow (g k i) 1 + b1 * m k i),
          mk σ (fun k i => (1 - b2) * ipow (g k i) 2 + b2 * n k i)⟩) := by simp [scaleByAdam]

theorem belief_init_mk (b1 b2 eps er : α) :
    (scaleByBelief b1 b2 eps er).init (mk σ p) =
      .ok ⟨0#32, mk σ (fun _ _ => 0), mk σ (fun _ _ => 0)⟩ := by simp [scaleByBelief]

theorem belief_update_mk (b1 b2 eps er : α) (c : BitVec 32) :
    (scaleByBelief b1 b2 eps er).update (mk σ g) ⟨c, mk σ m, mk σ n⟩ pp =
      .ok (mk σ (fun k i =>
          (((1 - b1) * ipow (g k i) 1 + b1 * m k i) /
            (1 - JOps.pow b1 (cnt (safeInt32Increment c)))) /
          (JOps.sqrt (((1 - b2) * ipow (g k i - m k i) 2 + b2 * n k i) /
            (1 - JOps.pow b2 (cnt (safeInt32Increment c))) + er) + eps)),
        ⟨safeInt32Increment c, mk σ (fun k i => (1 - b1) * ipow (g k i) 1 + b1 * m k i),
          mk σ (fun k i => (1 - b2) * ipow (g k i - m k i) 2 + b2 * n k i)⟩) := by
  simp [scaleByBelief]

theorem yogi_init_mk (b1 b2 eps er a : α) :
    (scaleByYogi b1 b2 eps er a).init (mk σ p) =
      .ok ⟨0#32, mk σ (fun _ _ => a), mk σ (fun _ _ => a)⟩ := by simp [scaleByYogi]

theorem yogi_update_mk (b1 b2 eps er a : α) (c : BitVec 32) :
    (scaleByYogi b1 b2 eps er a).update (mk σ g) ⟨c, mk σ m, mk σ n⟩ pp =
      .ok (mk σ (fun k i =>
          (((1 - b1) * ipow (g k i) 1 + b1 * m k i) /
            (1 - JOps.pow b1 (cnt (safeInt32Increment c)))) /
          (JOps.sqrt (((1 - b2) * ipow (JOps.sign (n k i - ipow (g k i) 2) * ipow (g k i) 2) 2
              + b2 * n k i) /
            (1 - JOps.pow b2 (cnt (safeInt32Increment c))) + er) + eps)),
        ⟨safeInt32Increment c, mk σ (fun k i => (1 - b1) * ipow (g k i) 1 + b1 * m k i),
          mk σ (fun k i => (1 - b2) * ipow (JOps.sign (n k i - ipow (g k i) 2) * ipow (g k i) 2) 2
              + b2 * n k i)⟩) := by
  simp [scaleByYogi]

theorem radam_init_mk (b1 b2 eps er th : α) :
    (scaleByRadam b1 b2 eps er th).init (mk σ p) =
      .ok ⟨0#32, mk σ (fun _ _ => 0), mk σ (fun _ _ => 0)⟩ := by simp [scaleByRadam]

theorem radam_update_mk (b1 b2 eps er th : α) (c : BitVec 32) :
    (scaleByRadam b1 b2 eps er th).update (mk σ g) ⟨c, mk σ m, mk σ n⟩ pp =
      .ok (mk σ (fun k i =>
          let mh := ((1 - b1) * ipow (g k i) 1 + b1 * m k i) /
            (1 - JOps.pow b1 (cnt (safeInt32Increment c)))
          let vh := ((1 - b2) * ipow (g k i) 2 + b2 * n k i) /
            (1 - JOps.pow b2 (cnt (safeInt32Increment c)))
          let ro := radamRo b2 (safeInt32Increment c)
          if JOps.le th ro then radamR b2 ro * mh / (JOps.sqrt (vh + er) + eps) else mh),
        ⟨safeInt32Increment c, mk σ (fun k i => (1 - b1) * ipow (g k i) 1 + b1 * m k i),
          mk σ (fun k i => (1 - b2) * ipow (g k i) 2 + b2 * n k i)⟩) := by
  simp [scaleByRadam]

theorem scale_update_mk (c : α) (s : EmptyState) :
    (scale c).update (mk σ g) s pp = .ok (mk σ (fun k i => c * g k i), s) := by
  simp [scale, stateless]

theorem addDecayedWeights_update_mk (w : α) (s : EmptyState) :
    (addDecayedWeights w).update (mk σ g) s (some (mk σ p)) =
      .ok (mk σ (fun k i => g k i + w * p k i), s) := by
  simp [addDecayedWeights, stateless]

theorem scaleBySchedule_update_mk (f : Schedule α) (c : BitVec 32) :
    (scaleBySchedule f).update (mk σ g) ⟨c⟩ pp =
      .ok (mk σ (fun k i => f c.toInt * g k i), ⟨safeInt32Increment c⟩) := by
  simp [scaleBySchedule]

theorem trustRatio_update_mk (mn : α) (s : EmptyState) :
    (scaleByTrustRatio mn).update (mk σ g) s (some (mk σ p)) =
      .ok (σ.mapIdx (fun k sh => trustRatioLeaf mn (Tensor.tens sh (g k)) (Tensor.tens sh (p k))),
        s) := by
  simp only [scaleByTrustRatio, stateless, mk]
  rw [PyTree.zipM_mapIdx (c := fun k sh => trustRatioLeaf mn (Tensor.tens sh (g k))
    (Tensor.tens sh (p k)))]
  · rfl
  · intro k s _; rfl

theorem applyEvery_init_mk (k : ℤ) :
    (applyEvery k).init (mk σ p) = .ok ⟨0#32, mk σ (fun _ _ => 0)⟩ := by simp [applyEvery]

theorem applyEvery_update_mk (k : ℤ) (c : BitVec 32) :
    (applyEvery k).update (mk σ g) ⟨c, mk σ m⟩ pp =
      .ok (mk σ (fun l i => boolNum (c.toInt.fmod k == k - 1) *
          (boolNum (c.toInt.fmod k != 0) * m l i + g l i)),
        ⟨BitVec.ofInt 32 ((safeInt32Increment c).toInt.fmod k),
          mk σ (fun l i => boolNum (c.toInt.fmod k != 0) * m l i + g l i)⟩) := by
  simp [applyEvery]

theorem clip_update_mk (d : α) (s : EmptyState) :
    (clip d).update (mk σ g) s pp =
      .ok (mk σ (fun k i => JOps.min (JOps.max (g k i) (-d)) d), s) := by
  simp [clip, stateless]

theorem clipByGlobalNorm_update_mk (d : α) (s : EmptyState) :
    (clipByGlobalNorm d).update (mk σ g) s pp =
      .ok (mk σ (fun k i => if JOps.lt (globalNorm (mk σ g)) d then g k i
        else g k i / globalNorm (mk σ g) * d), s) := by
  simp [clipByGlobalNorm, stateless]

theorem keepParamsNonnegative_update_mk (s : EmptyState) :
    keepParamsNonnegative.update (mk σ g) s (some (mk σ p)) =
      .ok (mk σ (fun k i => if JOps.lt (p k i + g k i) 0 then -p k i else g k i), s) := by
  simp [keepParamsNonnegative, stateless]

theorem zeroNans_update_mk (s : ZeroNansState) :
    zeroNans.update (mk σ g) s pp =
      .ok (mk σ (fun k i => if JOps.isnan (g k i) then 0 else g k i),
        ⟨(mk σ g).map (fun x => x.data.any JOps.isnan)⟩) := by
  simp [zeroNans]

end Optax
