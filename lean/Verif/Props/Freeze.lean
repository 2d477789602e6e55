import Verif.Props.Defaults
import Verif.Props.DecaySchedules
import Verif.Props.AdagradRegret

/-!
# C149: the learning rates bound the movement of the parameters, and a zero learning rate freezes them - unless momentum
comes after the learning rate, as in `rmsprop`
-/

set_option linter.unusedSectionVars false
set_option linter.unusedSimpArgs false

namespace Optax
open Finset

variable (σ : Spec)

theorem preserves_defaults (lr : LR ℝ) : ∀ t ∈ ([adamD lr, adagradD lr, rmspropD false lr] : List (GT ℝ)), Preserves WithParams t := by
  intro t ht
  simp only [List.mem_cons, List.mem_nil_iff, or_false] at ht
  rcases ht with rfl | rfl | rfl
  · exact preserves_adam_alias lr _ _ _ _
  · exact preserves_adagrad lr _ _
  · exact (preserves_rmsprop lr _ _ _ _ _ _).mono fun _ _ _ => trivial

theorem budget_of {t : LR ℝ → GT ℝ} {K : ℝ} (hK : StepsAtMost t K) (lr : LR ℝ) (hp : Preserves WithParams (t lr))
    (grad : ℕ → Params ℝ → Params ℝ) (G : ℕ → (ℕ → ℕ → ℝ) → ℕ → ℕ → ℝ) (hg : ∀ n p, grad n (mk σ p) = mk σ (G n p)) (p0 : ℕ → ℕ → ℝ) :
    ∃ P, P 0 = p0 ∧ Visits (t lr) grad σ P ∧ ∀ N M, N ≤ M → ∀ x ∈ idx σ,
      |P M x.1 x.2 - P N x.1 x.2| ≤ K * ∑ n ∈ Ico N M, |lr.at n| := by
  obtain ⟨P, U, h0, h1, h2, h3⟩ := exists_visits σ (t lr) hp grad G hg p0
  refine ⟨P, h0, h2, fun N M hNM x hx => ?_⟩
  obtain ⟨s, hs1, hs2⟩ := mem_idx.mp hx
  obtain ⟨V, hV, hb⟩ := hK lr σ p0 (fun n => G n (P n)) (fun n => some (mk σ (P n))) M
  have hUV : ∀ n < M, U n x.1 x.2 = V n x.1 x.2 := by
    intro n hn
    have e := (h3 M).symm.trans hV
    have e2 := List.map_inj_left.mp (Except.ok.inj e) n (List.mem_range.mpr hn)
    exact mk_inj e2 x.1 s hs1 x.2 hs2
  obtain ⟨d, rfl⟩ := Nat.exists_eq_add_of_le hNM
  have key : ∀ e ≤ d, |P (N + e) x.1 x.2 - P N x.1 x.2| ≤ K * ∑ n ∈ Ico N (N + e), |lr.at n| := by
    intro e
    induction e with
    | zero => intro _; simp
    | succ e ih =>
      intro he
      rw [← add_assoc, Finset.sum_Ico_succ_top (by omega), h1 (N + e), hUV (N + e) (by omega), mul_add]
      have h5 := hb (N + e) (by omega) x.1 x.2
      have h6 := ih (by omega)
      have h7 : P (N + e) x.1 x.2 + V (N + e) x.1 x.2 - P N x.1 x.2 = (P (N + e) x.1 x.2 - P N x.1 x.2) + V (N + e) x.1 x.2 := by ring
      rw [h7]
      exact (abs_add_le _ _).trans (add_le_add h6 h5)
  exact key d le_rfl

/-- **C149 (movement budget).** Training with `adam(lr)`, `adagrad(lr)` or `rmsprop(lr)` (default arguments), whatever the losses and
gradients (unbounded ones included): between steps `N` and `M` no entry of the parameters moves by more than 73, 1, 3.17 times the sum of
the learning rates used in between. -/
theorem C149_budget (lr : LR ℝ) (grad : ℕ → Params ℝ → Params ℝ) (G : ℕ → (ℕ → ℕ → ℝ) → ℕ → ℕ → ℝ)
    (hg : ∀ n p, grad n (mk σ p) = mk σ (G n p)) (p0 : ℕ → ℕ → ℝ) :
    (∃ P, P 0 = p0 ∧ Visits (adamD lr) grad σ P ∧ ∀ N M, N ≤ M → ∀ x ∈ idx σ,
      |P M x.1 x.2 - P N x.1 x.2| ≤ 73 * ∑ n ∈ Ico N M, |lr.at n|) ∧
    (∃ P, P 0 = p0 ∧ Visits (adagradD lr) grad σ P ∧ ∀ N M, N ≤ M → ∀ x ∈ idx σ,
      |P M x.1 x.2 - P N x.1 x.2| ≤ ∑ n ∈ Ico N M, |lr.at n|) ∧
    (∃ P, P 0 = p0 ∧ Visits (rmspropD false lr) grad σ P ∧ ∀ N M, N ≤ M → ∀ x ∈ idx σ,
      |P M x.1 x.2 - P N x.1 x.2| ≤ 317 / 100 * ∑ n ∈ Ico N M, |lr.at n|) := by
  obtain ⟨b1, b2, b3⟩ := C110_bounded
  refine ⟨budget_of σ b1 lr (preserves_defaults lr _ (by simp)) grad G hg p0, ?_,
    budget_of σ b3 lr (preserves_defaults lr _ (by simp)) grad G hg p0⟩
  simpa only [one_mul] using budget_of σ b2 lr (preserves_defaults lr _ (by simp)) grad G hg p0

/-- the outputs of a chain that ends with the learning rate are multiples of the learning rate -/
theorem outs_chain_append_lr (ts : List (GT ℝ)) (lr : LR ℝ) (p : Params ℝ) (gs : List (Params ℝ))
    (ps : List (Option (Params ℝ))) (hlen : gs.length = ps.length) (out : List (Params ℝ))
    (h : (chain (ts ++ [scaleByLearningRate lr])).outs p (gs.zip ps) = .ok out) : ∃ mid, out = timesNegLR lr mid := by
  rw [← C03_chain_assoc ts [scaleByLearningRate lr] p (gs.zip ps)] at h
  obtain ⟨mid, h1, h2⟩ := (outs_chain_cons _ _ p gs ps hlen out).mp h
  have hl : mid.length = ps.length := by simpa [hlen] using outs_length h1
  rw [C03_chain_singleton _ p (mid.zip ps), C03_chain_singleton _ p (mid.zip ps), lr_outs lr p mid ps hl] at h2
  exact ⟨mid, (Except.ok.inj h2).symm⟩

/-- **C149 (freezing).** Any chain of transformations that ends with the learning rate: once the learning rate is zero, no gradient
moves the parameters again. -/
theorem C149_frozen (ts : List (GT ℝ)) (hts : ∀ t ∈ ts, Preserves WithParams t) (lr : LR ℝ) (T : ℕ) (hT : ∀ n, T ≤ n → lr.at n = 0)
    (grad : ℕ → Params ℝ → Params ℝ) (G : ℕ → (ℕ → ℕ → ℝ) → ℕ → ℕ → ℝ) (hg : ∀ n p, grad n (mk σ p) = mk σ (G n p)) (p0 : ℕ → ℕ → ℝ) :
    ∃ P, P 0 = p0 ∧ Visits (chain (ts ++ [scaleByLearningRate lr])) grad σ P ∧ ∀ n, T ≤ n → ∀ x ∈ idx σ, P n x.1 x.2 = P T x.1 x.2 := by
  have hp : Preserves WithParams (chain (ts ++ [scaleByLearningRate lr])) := by
    refine Preserves.chain _ fun t ht => ?_
    rcases List.mem_append.mp ht with h | h
    · exact hts t h
    · rw [List.mem_singleton.mp h]
      exact (preserves_lr lr).mono fun _ _ _ => trivial
  obtain ⟨P, U, h0, h1, h2, h3⟩ := exists_visits σ _ hp grad G hg p0
  refine ⟨P, h0, h2, fun n hn x hx => ?_⟩
  obtain ⟨s, hs1, hs2⟩ := mem_idx.mp hx
  have hU : ∀ m, T ≤ m → U m x.1 x.2 = 0 := by
    intro m hm
    have h4 := h3 (m + 1)
    rw [zip_hist] at h4
    obtain ⟨mid, h5⟩ := outs_chain_append_lr ts lr _ _ _ (by simp) _ h4
    have h6 := congrArg (fun l : List (Params ℝ) => l[m]?) h5
    simp only [timesNegLR, List.getElem?_map, List.getElem?_range (Nat.lt_succ_self m), Option.map_some, List.getElem?_mapIdx] at h6
    obtain ⟨u, hu⟩ : ∃ u, mk σ (U m) = tmap (fun x => -(lr.at m) * x) u := by
      cases hc : mid[m]? with
      | none => rw [hc] at h6; simp at h6
      | some u => rw [hc] at h6; exact ⟨u, Option.some.inj h6⟩
    rw [hT m hm] at hu
    have h7 : tmap (fun _ => (0 : ℝ)) (mk σ (U m)) = mk σ (U m) := by
      rw [hu]
      have e : (fun x : ℝ => -(0 : ℝ) * x) = fun _ => 0 := by funext x; simp
      rw [e]
      unfold tmap
      rw [PyTree.map_map]
      congr 1
      funext y
      simp [Tensor.map]
    rw [tmap_mk] at h7
    exact (mk_inj h7 x.1 s hs1 x.2 hs2).symm
  induction n, hn using Nat.le_induction with
  | base => rfl
  | succ n hn ih => rw [h1 n, hU n hn, ih, add_zero]


/-- what `C149_frozen` says of one optimiser: from step `T` on the parameters do not move, whatever the losses -/
def FrozenFrom (t : GT ℝ) (T : ℕ) : Prop :=
  ∀ (σ : Spec) (grad : ℕ → Params ℝ → Params ℝ) (G : ℕ → (ℕ → ℕ → ℝ) → ℕ → ℕ → ℝ), (∀ n p, grad n (mk σ p) = mk σ (G n p)) → ∀ p0 : ℕ → ℕ → ℝ,
    ∃ P, P 0 = p0 ∧ Visits t grad σ P ∧ ∀ n, T ≤ n → ∀ x ∈ idx σ, P n x.1 x.2 = P T x.1 x.2

theorem frozen_chain (ts : List (GT ℝ)) (hts : ∀ t ∈ ts, Preserves WithParams t) (lr : LR ℝ) (T : ℕ) (hT : ∀ n, T ≤ n → lr.at n = 0) :
    FrozenFrom (chain (ts ++ [scaleByLearningRate lr])) T :=
  fun σ grad G hg p0 => C149_frozen σ ts hts lr T hT grad G hg p0

/-- **C149 (aliases).** `sgd` (with or without momentum), `adam`, `adamw`, `adabelief`, `adagrad`, `lamb`, `radam` and `yogi` stop moving for ever
when the schedule has reached zero. -/
theorem C149_aliases (lr : LR ℝ) (T : ℕ) (hT : ∀ n, T ≤ n → lr.at n = 0) (momentum : Option ℝ) (nes : Bool) (b1 b2 eps er wd th : ℝ) :
    FrozenFrom (sgd lr momentum nes) T ∧ FrozenFrom (adam lr b1 b2 eps er) T ∧ FrozenFrom (adamw lr b1 b2 eps er wd) T ∧
    FrozenFrom (adabelief lr b1 b2 eps) T ∧ FrozenFrom (adagrad lr b1 eps) T ∧ FrozenFrom (lamb lr b1 b2 eps er wd) T ∧
    FrozenFrom (radam lr b1 b2 eps er th) T ∧ FrozenFrom (yogi lr b1 b2 eps) T := by
  have w : ∀ {t : GT ℝ}, Preserves AnyParams t → Preserves WithParams t := fun h => h.mono fun _ _ _ => trivial
  refine ⟨frozen_chain [_] ?_ lr T hT, frozen_chain [_] ?_ lr T hT, frozen_chain [_, _] ?_ lr T hT, frozen_chain [_] ?_ lr T hT,
    frozen_chain [_] ?_ lr T hT, frozen_chain [_, _, _] ?_ lr T hT, frozen_chain [_] ?_ lr T hT, frozen_chain [_] ?_ lr T hT⟩ <;>
  intro t ht <;> simp only [List.mem_cons, List.mem_nil_iff, or_false] at ht
  · rw [ht]; exact w (preserves_momentum _ _)
  · rw [ht]; exact w (preserves_adam _ _ _ _)
  · rcases ht with rfl | rfl
    · exact w (preserves_adam _ _ _ _)
    · exact preserves_addDecayedWeights _
  · rw [ht]; exact w (preserves_belief _ _ _ _)
  · rw [ht]; exact w (preserves_rss _ _)
  · rcases ht with rfl | rfl | rfl
    · exact w (preserves_adam _ _ _ _)
    · exact preserves_addDecayedWeights _
    · exact preserves_trustRatio _
  · rw [ht]; exact w (preserves_radam _ _ _ _ _)
  · rw [ht]; exact w (preserves_yogi _ _ _ _ _)

/-- **C149 (cosine decay).** `cosine_decay_schedule(η, T)` ends at zero: `adam` with it moves every entry by at most `73 η (T + 1)/2` in
total and is frozen from step `T` on, for ever. -/
theorem C149_cosine (η : ℝ) (hη : 0 ≤ η) (T : ℕ) (hT : 0 < T) (hT2 : T ≤ 2147483647) (grad : ℕ → Params ℝ → Params ℝ)
    (G : ℕ → (ℕ → ℕ → ℝ) → ℕ → ℕ → ℝ) (hg : ∀ n p, grad n (mk σ p) = mk σ (G n p)) (p0 : ℕ → ℕ → ℝ) :
    ∃ f P, cosineDecaySchedule η (T : ℤ) 0 = .ok f ∧ P 0 = p0 ∧ Visits (adamD (.schedule f)) grad σ P ∧
      ∀ n, ∀ x ∈ idx σ, |P n x.1 x.2 - p0 x.1 x.2| ≤ 73 * η * ((T + 1) / 2) ∧ (T ≤ n → P n x.1 x.2 = P T x.1 x.2) := by
  obtain ⟨f, h1, h2⟩ := C123_cosine_sum η 0 T hT (by omega)
  obtain ⟨f', h1', -, -, h4, h5, -⟩ := C42_cosine_decay η 0 (T : ℤ) (by exact_mod_cast hT)
  obtain rfl : f = f' := by rw [h1] at h1'; exact Except.ok.inj h1'
  have hz : ∀ n, T ≤ n → (LR.schedule f).at n = 0 := by
    intro n hn
    show f (min (n : ℤ) 2147483647) = 0
    rw [h4 _ (by omega), mul_zero]
  have hnn : ∀ n, 0 ≤ (LR.schedule f).at n := by
    intro n
    have := (h5 hη zero_le_one (min (n : ℤ) 2147483647)).1
    rw [mul_zero] at this
    exact this
  obtain ⟨⟨P, p1, p2, p3⟩, -, -⟩ := C149_budget σ (.schedule f) grad G hg p0
  have hle : ∀ n, ∑ m ∈ Ico 0 n, |(LR.schedule f).at m| ≤ η * ((T + 1) / 2) := by
    intro n
    have e : ∑ m ∈ range T, (LR.schedule f).at m = η * ((T + 1) / 2) := by rw [h2]; ring
    rw [← e, ← Finset.range_eq_Ico]
    simp only [abs_of_nonneg (hnn _)]
    rcases le_total n T with h | h
    · exact Finset.sum_le_sum_of_subset_of_nonneg (Finset.range_mono h) fun m _ _ => hnn m
    · rw [← Finset.sum_range_add_sum_Ico _ h, Finset.sum_eq_zero (s := Ico T n) fun m hm => hz m (Finset.mem_Ico.mp hm).1, add_zero]
  refine ⟨f, P, h1, p1, p2, fun n x hx => ⟨?_, fun hn => ?_⟩⟩
  · have := p3 0 n (Nat.zero_le _) x hx
    rw [p1] at this
    calc _ ≤ _ := this
      _ ≤ 73 * (η * ((T + 1) / 2)) := mul_le_mul_of_nonneg_left (hle n) (by norm_num)
      _ = _ := by ring
  · have := p3 T n hn x hx
    rw [Finset.sum_eq_zero fun m hm => by rw [hz m (Finset.mem_Ico.mp hm).1, abs_zero], mul_zero] at this
    exact sub_eq_zero.mp (abs_nonpos_iff.mp this)

/-! ## `rmsprop` with momentum -/

/-- **C149 (rmsprop).** `rmsprop(lr, momentum=m)` applies the momentum after the learning rate.  When the learning rate is zero
from step `T` on, every later update is `m` times the update before it, whatever the gradients: the parameters keep moving, and the
`j` updates after step `n ≥ T` sum to `m (1 - m^j)/(1 - m)` times the update of step `n`. -/
theorem C149_rmsprop_momentum (lr : LR ℝ) (T : ℕ) (hT : ∀ n, T ≤ n → lr.at n = 0) (d eps a m : ℝ) (nes : Bool)
    (p0 : ℕ → ℕ → ℝ) (g : ℕ → ℕ → ℕ → ℝ) (pp : ℕ → Option (Params ℝ)) :
    ∃ U : ℕ → ℕ → ℕ → ℝ, (∀ N, (rmsprop lr d eps a false (some m) nes).outs (mk σ p0) (hist σ g pp N) =
        .ok ((List.range N).map (fun n => mk σ (U n)))) ∧
      (∀ n, T ≤ n → ∀ k i, U (n + 1) k i = m * U n k i) ∧
      (m ≠ 1 → ∀ n, T ≤ n → ∀ j k i, ∑ l ∈ range j, U (n + 1 + l) k i = m * (1 - m ^ j) / (1 - m) * U n k i) := by
  set V : ℕ → ℕ → ℕ → ℝ := fun n k i => -(lr.at n) * (g n k i / Real.sqrt (rmsAcc d a (fun j => g j k i) (n + 1) + eps)) with hV
  set U : ℕ → ℕ → ℕ → ℝ := fun n k i => if nes then V n k i + m * geoSum m (fun j => V j k i) (n + 1)
          else geoSum m (fun j => V j k i) (n + 1) with hU
  have hV0 : ∀ n, T ≤ n → ∀ k i, V n k i = 0 := by
    intro n hn k i
    simp only [hV, hT n hn, neg_zero, zero_mul]
  have hstep : ∀ n, T ≤ n → ∀ k i, U (n + 1) k i = m * U n k i := by
    intro n hn k i
    cases nes with
    | false =>
      simp only [hU, Bool.false_eq_true, if_false]
      rw [geoSum_succ _ _ (n + 1), hV0 (n + 1) (by omega), zero_add]
    | true =>
      simp only [hU, if_true]
      rw [geoSum_succ _ _ (n + 1), hV0 (n + 1) (by omega), hV0 n hn, zero_add, zero_add]
  refine ⟨U, fun N => ?_, hstep, fun hm n hn j k i => ?_⟩
  · rw [zip_hist]
    refine (C55_rmsprop_momentum _ _ _ (by simp) _ lr d eps a m false nes).mpr ⟨(List.range N).map (fun n => mk σ (fun k i =>
          g n k i / Real.sqrt (rmsAcc d a (fun j => g j k i) (n + 1) + eps))), ?_, ?_⟩
    · rw [← zip_hist]
      show (scaleByRms _ _ _).outs _ _ = _
      rw [GT.outs, C24_rms σ p0 g pp N]; rfl
    · rw [timesNegLR_hist, ← zip_hist]
      unfold GT.outs
      rw [C21_trace σ p0 V pp N]
      rfl
  · have hm1 : (1 - m) ≠ 0 := sub_ne_zero.mpr (Ne.symm hm)
    have hpow : ∀ l, U (n + 1 + l) k i = m ^ (l + 1) * U n k i := by
      intro l
      induction l with
      | zero => rw [add_zero, hstep n hn, zero_add, pow_one]
      | succ l ih => rw [← add_assoc, hstep (n + 1 + l) (by omega), ih]; ring
    induction j with
    | zero => simp
    | succ j ih =>
      rw [Finset.sum_range_succ, ih, hpow]
      field_simp
      ring

/-- **C149 (rmsprop, a run).** Train with `rmsprop(lr, momentum=m)`, `0 < m < 1`, on a linear loss of slope 1 with a learning rate that is positive at
the first step only: every later step still moves every parameter down. -/
theorem C149_rmsprop_moves (lr : LR ℝ) (h0 : 0 < lr.at 0) (hT : ∀ n, 1 ≤ n → lr.at n = 0) (d eps a m : ℝ) (hd : 0 ≤ d) (hd1 : d < 1)
    (ha : 0 ≤ a) (he : 0 ≤ eps) (hm : 0 < m) (p0 : ℕ → ℕ → ℝ) :
    ∃ P, P 0 = p0 ∧ Visits (rmsprop lr d eps a false (some m) false) (fun _ p => tmap (fun _ => (1 : ℝ)) p) σ P ∧
      ∀ n, ∀ x ∈ idx σ, P (n + 1) x.1 x.2 < P n x.1 x.2 := by
  have hp : Preserves WithParams (rmsprop lr d eps a false (some m) false) := (preserves_rmsprop lr _ _ _ _ _ _).mono fun _ _ _ => trivial
  obtain ⟨P, U, q0, q1, q2, q3⟩ := exists_visits σ _ hp (fun _ p => tmap (fun _ => (1 : ℝ)) p) (fun _ _ _ _ => 1)
    (fun n p => by simp only [tmap_mk]) p0
  refine ⟨P, q0, q2, fun n x hx => ?_⟩
  obtain ⟨s, hs1, hs2⟩ := mem_idx.mp hx
  set V : ℕ → ℝ := fun n => -(lr.at n) * (1 / Real.sqrt (rmsAcc d a (fun _ => 1) (n + 1) + eps)) with hV
  have hform : (rmsprop lr d eps a false (some m) false).outs (mk σ p0) (hist σ (fun _ _ _ => 1) (fun n => some (mk σ (P n))) (n + 1)) =
      .ok ((List.range (n + 1)).map (fun n => mk σ (fun _ _ => geoSum m V (n + 1)))) := by
    rw [zip_hist]
    refine (C55_rmsprop_momentum _ _ _ (by simp) _ lr d eps a m false false).mpr ⟨(List.range (n + 1)).map (fun n => mk σ (fun k i =>
          1 / Real.sqrt (rmsAcc d a (fun j => 1) (n + 1) + eps))), ?_, ?_⟩
    · rw [← zip_hist]
      show (scaleByRms _ _ _).outs _ _ = _
      rw [GT.outs, C24_rms σ p0 (fun _ _ _ => 1)]; rfl
    · rw [timesNegLR_hist, ← zip_hist]
      unfold GT.outs
      rw [C21_trace σ p0 (fun n _ _ => V n)]
      rfl
  have e := (q3 (n + 1)).symm.trans hform
  have e2 := mk_inj (List.map_inj_left.mp (Except.ok.inj e) n (List.mem_range.mpr (Nat.lt_succ_self n))) x.1 s hs1 x.2 hs2
  have hg : ∀ n, geoSum m V (n + 1) = m ^ n * V 0 := by
    intro n
    induction n with
    | zero => rw [geoSum_succ]; simp
    | succ n ih =>
      rw [geoSum_succ, ih]
      have : V (n + 1) = 0 := by simp only [hV, hT (n + 1) (by omega), neg_zero, zero_mul]
      rw [this]; ring
  have hV0 : V 0 < 0 := by
    simp only [hV]
    have h1 := rmsAcc_nonneg hd hd1.le ha (fun _ => 1) 0
    have h2 : 0 < rmsAcc d a (fun _ => 1) (0 + 1) + eps := by
      have h3 : rmsAcc d a (fun _ => 1) (0 + 1) = (1 - d) * 1 ^ 2 + d * rmsAcc d a (fun _ => 1) 0 := by
        simp [rmsAcc, geoSum_succ]; try ring
      have h4 := mul_nonneg hd h1
      rw [h3]; nlinarith
    have h5 := Real.sqrt_pos.mpr h2
    have : 0 < lr.at 0 * (1 / Real.sqrt (rmsAcc d a (fun _ => 1) (0 + 1) + eps)) := mul_pos h0 (one_div_pos.mpr h5)
    linarith
  rw [q1 n, e2, hg n]
  have := mul_neg_of_pos_of_neg (pow_pos hm n) hV0
  linarith

/-- the hypotheses are met: `piecewise_constant_schedule` that drops to zero at step 1 -/
example : ∃ lr : LR ℝ, 0 < lr.at 0 ∧ ∀ n, 1 ≤ n → lr.at n = 0 := by
  refine ⟨.schedule fun c => if c < 1 then 1 else 0, ?_, fun n hn => ?_⟩
  · show (0 : ℝ) < if min ((0 : ℕ) : ℤ) 2147483647 < 1 then 1 else 0
    norm_num
  · show (if min (n : ℤ) 2147483647 < 1 then (1 : ℝ) else 0) = 0
    rw [if_neg (by omega)]

end Optax
