import Verif.Props.Linear
import Verif.Props.AdagradRegret
import Verif.Props.Norms
import Verif.Props.Accumulation

/-!
# C121: which optimisers do not depend on the choice of coordinates

Rotating gradients and parameters rotates the updates, at every step of every history, for `sgd` with any momentum, schedules, clipping by
the global norm and weight decay; per-leaf rotations are also respected by the trust ratio (`lars`-like chains, `fromage`).  Training on a
rotated problem visits the rotated parameters.  `adam` has no such symmetry.
-/

set_option linter.unusedSectionVars false
set_option linter.unusedSimpArgs false
set_option linter.unusedVariables false

namespace Optax
open Finset

/-- `(A p)(k,i) = Σ_x A((k,i), x) p(x)` over the entries of a tree of shapes `σ` -/
noncomputable def rot (σ : Spec) (A : ℕ → ℕ → (Σ _ : ℕ, ℕ) → ℝ) (p : ℕ → ℕ → ℝ) : ℕ → ℕ → ℝ :=
  fun k i => ∑ x ∈ idx σ, A k i x * p x.1 x.2

/-- `A` is orthogonal: it preserves the global norm of every tree. -/
def Rotation (σ : Spec) (A : ℕ → ℕ → (Σ _ : ℕ, ℕ) → ℝ) : Prop := ∀ p, globalNorm (mk σ (rot σ A p)) = globalNorm (mk σ p)

/-- `A` rotates every leaf by itself: it does not mix leaves, and preserves the norm of every leaf. -/
def LeafRotation (σ : Spec) (A : ℕ → ℕ → (Σ _ : ℕ, ℕ) → ℝ) : Prop :=
  (∀ k i x, x.1 ≠ k → A k i x = 0) ∧ ∀ p k, leafNorm σ (rot σ A p) k = leafNorm σ p k

theorem rot_add (σ : Spec) (A) (p q : ℕ → ℕ → ℝ) (k i : ℕ) :
    rot σ A (fun k i => p k i + q k i) k i = rot σ A p k i + rot σ A q k i := by
  unfold rot; rw [← sum_add_distrib]; exact sum_congr rfl fun x _ => by ring

theorem rot_smul (σ : Spec) (A) (c : ℝ) (p : ℕ → ℕ → ℝ) (k i : ℕ) :
    rot σ A (fun k i => c * p k i) k i = c * rot σ A p k i := by
  unfold rot; rw [mul_sum]; exact sum_congr rfl fun x _ => by ring

theorem rot_sum (σ : Spec) (A) {ι : Type} (s : Finset ι) (p : ι → ℕ → ℕ → ℝ) (k i : ℕ) :
    rot σ A (fun k i => ∑ j ∈ s, p j k i) k i = ∑ j ∈ s, rot σ A (p j) k i := by
  unfold rot
  rw [sum_comm]
  exact sum_congr rfl fun x _ => by rw [mul_sum]

theorem rot_geoSum (σ : Spec) (A) (d : ℝ) (g : ℕ → ℕ → ℕ → ℝ) (n : ℕ) (k i : ℕ) :
    rot σ A (fun k i => geoSum d (fun j => g j k i) n) k i = geoSum d (fun j => rot σ A (g j) k i) n := by
  unfold geoSum
  rw [rot_sum]
  exact sum_congr rfl fun j _ => rot_smul σ A _ _ k i

theorem rot_congr {σ : Spec} (A) {p q : ℕ → ℕ → ℝ} (h : mk σ p = mk σ q) : rot σ A p = rot σ A q := by
  funext k i
  unfold rot
  refine sum_congr rfl fun x hx => ?_
  obtain ⟨s, h1, h2⟩ := mem_idx.mp hx
  rw [mk_inj h x.1 s h1 x.2 h2]

theorem LeafRotation.rotation {σ : Spec} {A} (h : LeafRotation σ A) : Rotation σ A := by
  have key : ∀ v : ℕ → ℕ → ℝ, globalNorm (mk σ v) = √(∑ k ∈ range σ.numLeaves, leafNorm σ v k ^ 2) := by
    intro v
    rw [globalNorm_mk]
    unfold entryNorm l2 idx
    rw [Finset.sum_sigma]
    congr 1
    refine sum_congr rfl fun k _ => ?_
    rw [leafNorm_eq_l2, l2_sq]
  intro p
  rw [key, key]
  simp only [h.2]

/-- **Specification.** `t` commutes with the changes of coordinates in `Q`: for trees of any structure, histories of any length, rotating
the gradients and the parameters given to `init` and `update` rotates the updates. -/
def Equivariant (Q : ∀ σ : Spec, (ℕ → ℕ → (Σ _ : ℕ, ℕ) → ℝ) → Prop) (t : GT ℝ) : Prop :=
  ∀ (σ : Spec) (A), Q σ A → ∀ (p0 : ℕ → ℕ → ℝ) (g p : ℕ → ℕ → ℕ → ℝ) (N : ℕ), ∃ U : ℕ → ℕ → ℕ → ℝ,
    t.outs (mk σ p0) (hist σ g (fun n => some (mk σ (p n))) N) = .ok ((List.range N).map fun n => mk σ (U n)) ∧
    t.outs (mk σ (rot σ A p0)) (hist σ (fun n => rot σ A (g n)) (fun n => some (mk σ (rot σ A (p n)))) N) =
      .ok ((List.range N).map fun n => mk σ (rot σ A (U n)))

theorem Equivariant.leaf {t : GT ℝ} (h : Equivariant Rotation t) : Equivariant LeafRotation t :=
  fun σ A hA => h σ A hA.rotation

theorem equivariant_of {Q} {t : GT ℝ} (L : Spec → (ℕ → ℕ → ℕ → ℝ) → (ℕ → ℕ → ℕ → ℝ) → ℕ → ℕ → ℕ → ℝ)
    (h : ∀ σ p0 g p N, t.outs (mk σ p0) (hist σ g (fun n => some (mk σ (p n))) N) = .ok ((List.range N).map (fun n => mk σ (L σ g p n))))
    (hL : ∀ σ A, Q σ A → ∀ g p n k i, L σ (fun n => rot σ A (g n)) (fun n => rot σ A (p n)) n k i = rot σ A (L σ g p n) k i) : Equivariant Q t := by
  intro σ A hA p0 g p N
  refine ⟨L σ g p, h σ p0 g p N, ?_⟩
  rw [h]
  congr 3
  funext n
  congr 1
  funext k i
  exact hL σ A hA g p n k i

theorem equivariant_chain {Q} (ts : List (GT ℝ)) (h : ∀ t ∈ ts, Equivariant Q t) : Equivariant Q (chain ts) := by
  induction ts with
  | nil =>
    refine equivariant_of (fun _ g _ => g) (fun σ p0 g p N => ?_) (fun _ _ _ _ _ _ _ _ => rfl)
    refine outs_hist (chain []) _ σ g _ N (fun _ => (0 : ℕ)) _ rfl fun n _ => rfl
  | cons t ts ih =>
    intro σ A hA p0 g p N
    obtain ⟨U, h1, h2⟩ := h t (by simp) σ A hA p0 g p N
    obtain ⟨V, h3, h4⟩ := ih (fun t ht => h t (by simp [ht])) σ A hA p0 U p N
    exact ⟨V, outs_chain_hist t ts _ σ g U _ N h1 _ h3, outs_chain_hist t ts _ σ _ _ _ N h2 _ h4⟩

/-- **C121 (components).** -/
theorem C121_components :
    Equivariant Rotation identity ∧ (∀ c, Equivariant Rotation (scale c)) ∧ (∀ f, Equivariant Rotation (scaleBySchedule f)) ∧
    (∀ d nes, Equivariant Rotation (trace d nes none)) ∧ (∀ d deb, Equivariant Rotation (ema d deb none)) ∧
    (∀ k : ℕ, 1 ≤ k → k ≤ 2147483647 → Equivariant Rotation (applyEvery (k : ℤ))) ∧
    (∀ c, Equivariant Rotation (clipByGlobalNorm c)) ∧ (∀ w, Equivariant Rotation (addDecayedWeights w)) ∧
    ∀ m, Equivariant LeafRotation (scaleByTrustRatio m) := by
  refine ⟨?_, fun c => ?_, fun f => ?_, fun d nes => ?_, fun d deb => ?_, fun k hk hk' => ?_, fun c => ?_, fun w => ?_, fun m => ?_⟩
  · refine equivariant_of (fun _ g _ => g) (fun σ p0 g p N => ?_) (fun _ _ _ _ _ _ _ _ => rfl)
    exact outs_hist identity _ σ g _ N (fun _ => ⟨⟩) _ rfl fun n _ => rfl
  · refine equivariant_of (fun _ g _ n k i => c * g n k i) (fun σ p0 g p N => ?_) (fun σ A _ g p n k i => (rot_smul σ A _ _ k i).symm)
    exact outs_hist (scale c) _ σ g _ N (fun _ => ⟨⟩) _ rfl fun n _ => scale_update_mk σ (g n) _ c ⟨⟩
  · refine equivariant_of (fun _ g _ n k i => f (cntAt n).toInt * g n k i) (fun σ p0 g p N => ?_)
      (fun σ A _ g p n k i => (rot_smul σ A _ _ k i).symm)
    refine outs_hist (scaleBySchedule f) _ σ g _ N (fun n => ⟨cntAt n⟩) _ rfl fun n _ => ?_
    rw [scaleBySchedule_update_mk, safeInt32Increment_cntAt]
  · refine equivariant_of (fun _ g _ n k i => if nes then g n k i + d * geoSum d (fun j => g j k i) (n + 1) else geoSum d (fun j => g j k i) (n + 1))
      (fun σ p0 g p N => ?_) (fun σ A _ g p n k i => ?_)
    · unfold GT.outs; rw [C21_trace]; rfl
    · cases nes with
      | true =>
        simp only [if_true]
        rw [rot_add, rot_smul, rot_geoSum]
      | false =>
        simp only [Bool.false_eq_true, if_false]
        rw [rot_geoSum]
  · refine equivariant_of (fun _ g _ n k i => if deb then (1 - d) / (1 - d ^ min (n + 1) 2147483647) * geoSum d (fun j => g j k i) (n + 1) else g n k i)
      (fun σ p0 g p N => ?_) (fun σ A _ g p n k i => ?_)
    · refine outs_hist (ema d deb none) _ σ g _ N (fun n => ⟨cntAt n, mk σ (fun k i => (1 - d) * geoSum d (fun j => g j k i) n)⟩) _ ?_ ?_
      · rw [ema_init_mk]; simp [cntAt_zero]
      · intro n hn
        rw [ema_update_mk]
        simp only [safeInt32Increment_cntAt, ipow_eq_pow, pow_one, jpow_real, Option.getD_none, id]
        rw [cnt_cntAt', Real.rpow_natCast]
        have e : ∀ (x : ℕ → ℝ), (1 - d) * x n + d * ((1 - d) * geoSum d x n) = (1 - d) * geoSum d x (n + 1) := by
          intro x; rw [geoSum_succ]; ring
        simp only [← e]
        generalize min _ 2147483647 = m
        congr 2
        congr 1
        funext k i
        cases deb <;> simp
        rw [e (fun j => g j k i)]; ring
    · generalize min _ 2147483647 = m
      cases deb with
      | true =>
        simp only [if_true]
        rw [rot_smul, rot_geoSum]
      | false => rfl
  · refine equivariant_of (fun _ g _ n l i => if k ∣ n + 1 then ∑ j ∈ Ico (n + 1 - k) (n + 1), g j l i else 0)
      (fun σ p0 g p N => C33_apply_every σ p0 g _ N k hk hk') (fun σ A _ g p n l i => ?_)
    by_cases h : k ∣ n + 1
    · simp only [if_pos h]; rw [rot_sum]
    · simp only [if_neg h]; simp [rot]
  · refine equivariant_of (fun σ g _ n k i => (if globalNorm (mk σ (g n)) < c then 1 else c / globalNorm (mk σ (g n))) * g n k i)
      (fun σ p0 g p N => ?_) (fun σ A hA g p n k i => ?_)
    · refine (outs_hist (clipByGlobalNorm c) _ σ g _ N (fun _ => ⟨⟩) _ rfl fun n _ => clipByGlobalNorm_update_mk σ (g n) _ c ⟨⟩).trans ?_
      congr 3
      funext n
      congr 1
      funext k i
      simp only [jlt_real, decide_eq_true_eq]
      split_ifs <;> ring
    · simp only []
      rw [rot_smul, hA]
  · refine equivariant_of (fun _ g p n k i => g n k i + w * p n k i) (fun σ p0 g p N => ?_) (fun σ A _ g p n k i => ?_)
    · exact outs_hist (addDecayedWeights w) _ σ g _ N (fun _ => ⟨⟩) _ rfl fun n _ => addDecayedWeights_update_mk σ (g n) (p n) w ⟨⟩
    · simp only []
      rw [rot_add, rot_smul]
  · refine equivariant_of (fun σ g p n k i => trustFactor σ m (g n) (p n) k * g n k i) (fun σ p0 g p N => ?_) (fun σ A hA g p n k i => ?_)
    · exact outs_hist (scaleByTrustRatio m) _ σ g _ N (fun _ => ⟨⟩) _ rfl fun n _ => C31_trust_ratio m σ (g n) (p n) ⟨⟩
    · have e : trustFactor σ m (rot σ A (g n)) (rot σ A (p n)) k = trustFactor σ m (g n) (p n) k := by
        unfold trustFactor; rw [hA.2, hA.2]
      simp only [e]
      unfold rot
      rw [mul_sum]
      refine sum_congr rfl fun x _ => ?_
      by_cases hx : x.1 = k
      · rw [hx]; ring
      · rw [hA.1 k i x hx]; ring

theorem equivariant_lr (lr : LR ℝ) : Equivariant Rotation (scaleByLearningRate lr) := by
  cases lr with
  | scalar x => exact C121_components.2.1 (-x)
  | schedule f => exact C121_components.2.2.1 (fun count => -f count)

/-- **C121 (optimisers).** `sgd` with any learning rate or schedule, momentum and Nesterov commutes with all rotations of the whole parameter
vector, also after `clip_by_global_norm` and with decayed weights; `fromage` and layer-wise scaled (`lars`-style) gradient descent commute
with rotations of each leaf. -/
theorem C121_optimisers (lr : LR ℝ) (m : Option ℝ) (nes : Bool) (c w mn a : ℝ) :
    Equivariant Rotation (sgd lr m nes) ∧ Equivariant Rotation (chain [clipByGlobalNorm c, addDecayedWeights w, sgd lr m nes]) ∧
    Equivariant LeafRotation (fromage a mn) ∧ Equivariant LeafRotation (chain [addDecayedWeights w, scaleByTrustRatio mn, sgd lr m nes]) := by
  obtain ⟨h1, h2, h3, h4, -, -, h7, h8, h9⟩ := C121_components
  have hs : Equivariant Rotation (sgd lr m nes) := by
    refine equivariant_chain _ ?_
    intro t ht
    simp only [List.mem_cons, List.mem_nil_iff, or_false] at ht
    rcases ht with rfl | rfl
    · cases m with
      | none => exact h1
      | some m => exact h4 m nes
    · exact equivariant_lr lr
  refine ⟨hs, equivariant_chain _ ?_, equivariant_chain _ ?_, equivariant_chain _ ?_⟩
  · intro t ht
    simp only [List.mem_cons, List.mem_nil_iff, or_false] at ht
    rcases ht with rfl | rfl | rfl
    · exact h7 c
    · exact h8 w
    · exact hs
  · intro t ht
    simp only [List.mem_cons, List.mem_nil_iff, or_false] at ht
    rcases ht with rfl | rfl | rfl
    · exact h9 mn
    · exact (equivariant_lr _).leaf
    · exact (h8 _).leaf
  · intro t ht
    simp only [List.mem_cons, List.mem_nil_iff, or_false] at ht
    rcases ht with rfl | rfl | rfl
    · exact (h8 w).leaf
    · exact h9 mn
    · exact hs.leaf

/-- **C121 (training).** Let `grad'` be the gradients of the problem in rotated coordinates: `grad'(A p) = A grad(p)`. Training an equivariant
optimiser on the rotated problem from the rotated parameters visits, at every step, the rotation of the parameters visited on the original. -/
theorem C121_training {Q} {t : GT ℝ} (hp : Preserves WithParams t) (ht : Equivariant Q t) (σ : Spec) (A) (hA : Q σ A)
    (grad grad' : ℕ → Params ℝ → Params ℝ) (G G' : ℕ → (ℕ → ℕ → ℝ) → ℕ → ℕ → ℝ) (hg : ∀ n p, grad n (mk σ p) = mk σ (G n p))
    (hg' : ∀ n p, grad' n (mk σ p) = mk σ (G' n p)) (hrot : ∀ n p, mk σ (G' n (rot σ A p)) = mk σ (rot σ A (G n p))) (p0 : ℕ → ℕ → ℝ) :
    ∃ P, P 0 = p0 ∧ Visits t grad σ P ∧ Visits t grad' σ (fun n => rot σ A (P n)) := by
  obtain ⟨P, U, h0, hP, hv, hU⟩ := exists_visits σ t hp grad G hg p0
  obtain ⟨P', U', h0', hP', hv', hU'⟩ := exists_visits σ t hp grad' G' hg' (rot σ A p0)
  have key : ∀ n, mk σ (P' n) = mk σ (rot σ A (P n)) := by
    intro n
    induction n using Nat.strong_induction_on with
    | _ n ih =>
      cases n with
      | zero => rw [h0, h0']
      | succ n =>
        obtain ⟨V, hV, hV'⟩ := ht σ A hA p0 (fun n => G n (P n)) P (n + 1)
        have eh : hist σ (fun n => G' n (P' n)) (fun n => some (mk σ (P' n))) (n + 1) =
            hist σ (fun n => rot σ A (G n (P n))) (fun n => some (mk σ (rot σ A (P n)))) (n + 1) := by
          unfold hist
          apply List.map_congr_left
          intro j hj
          rw [List.mem_range] at hj
          have e1 := ih j hj
          have e2 : mk σ (G' j (P' j)) = mk σ (rot σ A (G j (P j))) := by
            rw [← hrot, ← hg', ← hg', e1]
          simp only [e1, e2]
        have h1 := (hU' (n + 1)).symm.trans (eh ▸ hV')
        have h2 := (hU (n + 1)).symm.trans hV
        injection h1 with h1
        injection h2 with h2
        have h1 := List.map_inj_left.mp h1 n (List.mem_range.mpr (by omega))
        have h2 := List.map_inj_left.mp h2 n (List.mem_range.mpr (by omega))
        have e1 := ih n (by omega)
        apply mk_congr
        intro k s hk i hi
        have e : P (n + 1) = fun k i => P n k i + U n k i := by funext k i; exact hP n k i
        rw [hP', e, rot_add, mk_inj e1 k s hk i hi, mk_inj h1 k s hk i hi, ← rot_congr A h2]
  refine ⟨P, h0, hv, ?_⟩
  obtain ⟨s0, hs0, hl⟩ := hv'
  refine ⟨s0, ?_, fun n => ?_⟩
  · show t.init (mk σ (rot σ A (P 0))) = _
    rw [← key 0]; exact hs0
  · obtain ⟨s, h⟩ := hl n
    refine ⟨s, ?_⟩
    show trainLoop t grad' n s0 (mk σ (rot σ A (P 0))) = .ok (mk σ (rot σ A (P n)), s)
    rw [← key 0, ← key n]; exact h

/-- the rotation of the plane taking `(1, 0)` to `(3/5, 4/5)` -/
noncomputable def plane345 : ℕ → ℕ → (Σ _ : ℕ, ℕ) → ℝ := fun k i x =>
  if x.1 = k then (if i = 0 then (if x.2 = 0 then 3 / 5 else -(4 / 5)) else (if x.2 = 0 then 4 / 5 else 3 / 5)) else 0

theorem rot_plane (p : ℕ → ℕ → ℝ) (i : ℕ) :
    rot (.leaf [2]) plane345 p 0 i = if i = 0 then 3 / 5 * p 0 0 - 4 / 5 * p 0 1 else 4 / 5 * p 0 0 + 3 / 5 * p 0 1 := by
  have hi : idx (.leaf [2]) = {⟨0, 0⟩, ⟨0, 1⟩} := by decide
  unfold rot
  rw [hi, sum_insert (by simp), sum_singleton]
  unfold plane345
  by_cases h : i = 0
  · simp [h]; ring
  · simp [h]

/-- Non-vacuity: it is a rotation of the whole tree and of its leaf. -/
theorem plane_rotation : LeafRotation (.leaf [2]) plane345 := by
  refine ⟨fun k i x hx => by simp [plane345, hx], fun p k => ?_⟩
  rw [leafNorm_eq_l2, leafNorm_eq_l2]
  cases k with
  | zero =>
    have hsz : Spec.size (.leaf [2]) 0 = 2 := by decide
    unfold l2
    rw [hsz, sum_range_succ, sum_range_succ, sum_range_zero, sum_range_succ, sum_range_succ, sum_range_zero, rot_plane, rot_plane]
    congr 1
    simp
    ring
  | succ k =>
    have hsz : Spec.size (.leaf [2]) (k + 1) = 0 := by simp [Spec.size, PyTree.leaves]
    rw [hsz]
    simp [l2]

/-- **C121 (the restriction matters).** `scale_by_adam` depends on the choice of coordinates: with gradient `(1, 0)` the first update is
`(1, 0)`, in coordinates where that gradient is `(3/5, 4/5)` it is `(1, 1)`. -/
theorem C121_adam_not : ¬ Equivariant LeafRotation (scaleByAdam (9 / 10) (999 / 1000) 0 0) := by
  intro h
  obtain ⟨U, h1, h2⟩ := h (.leaf [2]) plane345 plane_rotation (fun _ _ => 0) (fun _ _ i => if i = 0 then 1 else 0) (fun _ _ _ => 0) 1
  rw [adam_outs_all] at h1 h2
  have k : ∀ c : ℝ, 0 < c → adamStep (9 / 10) (999 / 1000) 0 0 (fun _ => c) 0 = 1 := by
    intro c hc
    unfold adamStep
    have m : min (0 + 1) 2147483647 = 1 := by norm_num
    rw [m]
    have g1 : ∀ (d : ℝ) (x : ℕ → ℝ), geoSum d x (0 + 1) = x 0 := fun d x => geoSum_one d x
    simp only [g1]
    have e : (1 - 999 / 1000 : ℝ) * c ^ 2 / (1 - (999 / 1000) ^ 1) + 0 = c ^ 2 := by ring
    rw [e, Real.sqrt_sq hc.le]
    have hc' := hc.ne'
    field_simp
    norm_num
  have k0 : adamStep (9 / 10) (999 / 1000) 0 0 (fun _ => 0) 0 = 0 := by
    unfold adamStep
    have g1 : ∀ (d : ℝ) (x : ℕ → ℝ), geoSum d x (0 + 1) = x 0 := fun d x => geoSum_one d x
    simp only [g1, mul_zero, zero_div]
  have a0 := mk_inj (List.cons.inj (Except.ok.inj h1)).1 0 [2] rfl 0 (by simp)
  have a1 := mk_inj (List.cons.inj (Except.ok.inj h1)).1 0 [2] rfl 1 (by simp)
  have b0 := mk_inj (List.cons.inj (Except.ok.inj h2)).1 0 [2] rfl 0 (by simp)
  simp only [rot_plane] at b0
  simp at a0 a1 b0
  rw [k 1 one_pos] at a0
  rw [k0] at a1
  rw [k (3 / 5) (by norm_num), ← a0, ← a1] at b0
  norm_num at b0

end Optax
