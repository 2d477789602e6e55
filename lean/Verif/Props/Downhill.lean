import Verif.Props.LinearModels
import Verif.Props.SM3Regret
import Verif.Props.AGC
import Verif.Props.AdagradRegret
import Verif.Props.MultiSteps

/-!
# C140: without momentum and weight decay, every step points downhill

The update an optimiser emits has, entry by entry, the sign opposite to the gradient of the same step, whatever the history.
-/

set_option linter.unusedSectionVars false
set_option linter.unusedSimpArgs false

namespace Optax
open Finset Filter Topology

/-- **Specification.** After any history every entry of the update has the opposite sign to the entry of the gradient of that step, and is zero only where
that is zero; so the update is a descent direction unless the gradient vanishes. -/
def Downhill (σ : Spec) (t : GT ℝ) : Prop :=
  ∀ (N : ℕ) (p0 : ℕ → ℕ → ℝ) (g p : ℕ → ℕ → ℕ → ℝ), ∃ U : ℕ → ℕ → ℕ → ℝ,
    t.outs (mk σ p0) (hist σ g (fun n => some (mk σ (p n))) N) = .ok ((List.range N).map (fun n => mk σ (U n))) ∧
    ∀ n < N, (∀ x ∈ idx σ, U n x.1 x.2 * g n x.1 x.2 ≤ 0 ∧ (U n x.1 x.2 = 0 ↔ g n x.1 x.2 = 0)) ∧
      (globalNorm (mk σ (g n)) ≠ 0 → treeInner σ (U n) (g n) < 0)

/-- invariant form: the update is a factor satisfying `C` times the gradient, entry by entry -/
def Along (C : ℝ → Prop) (Q : Spec → Option (Params ℝ) → Prop) (t : GT ℝ) : Prop :=
  ∀ σ : Spec, ∃ I : t.State → Prop, (∀ p, ∃ s, t.init (mk σ p) = .ok s ∧ I s) ∧
    ∀ g s pp, I s → Q σ pp → ∃ u s', t.update (mk σ g) s pp = .ok (mk σ u, s') ∧ I s' ∧
      ∀ x ∈ idx σ, ∃ c, C c ∧ u x.1 x.2 = c * g x.1 x.2

theorem Along.mono {C : ℝ → Prop} {Q Q' : Spec → Option (Params ℝ) → Prop} {t : GT ℝ} (h : Along C Q t) (hq : ∀ σ pp, Q' σ pp → Q σ pp) : Along C Q' t := by
  intro σ
  obtain ⟨I, h1, h2⟩ := h σ
  exact ⟨I, h1, fun g s pp hi hp => h2 g s pp hi (hq σ pp hp)⟩

theorem Along.any {C : ℝ → Prop} {Q : Spec → Option (Params ℝ) → Prop} {t : GT ℝ} (h : Along C AnyParams t) : Along C Q t := h.mono fun _ _ _ => trivial

theorem Along.nil {Q} : Along (0 < ·) Q (chain []) := fun σ =>
  ⟨fun s => s = (0 : ℕ), fun p => ⟨(0 : ℕ), rfl, rfl⟩, by
    rintro g s pp rfl _
    exact ⟨g, (0 : ℕ), rfl, rfl, fun x _ => ⟨1, one_pos, by ring⟩⟩⟩

theorem Along.cons {C C' C'' : ℝ → Prop} {Q} {t : GT ℝ} {ts : List (GT ℝ)} (ht : Along C Q t) (hts : Along C' Q (chain ts))
    (hC : ∀ c c', C c → C' c' → C'' (c' * c)) : Along C'' Q (chain (t :: ts)) := by
  intro σ
  obtain ⟨I, h1, h2⟩ := ht σ
  obtain ⟨J, h3, h4⟩ := hts σ
  refine ⟨fun s => ∃ a r, s = some (a, r) ∧ I a ∧ J r ∧ ChainState.length ts r = ts.length, ?_, ?_⟩
  · intro p
    obtain ⟨a, ha, hI⟩ := h1 p
    obtain ⟨r, hr, hJ⟩ := h3 p
    refine ⟨some (a, r), ?_, a, r, rfl, hI, hJ, ?_⟩
    · show chainInit (t :: ts) (mk σ p) = _
      simp only [chainInit, ha, Res.ok_bind]
      have hr' : chainInit ts (mk σ p) = .ok r := hr
      rw [hr']; rfl
    · exact chain_length_init ts _ r hr
  · rintro g s pp ⟨a, r, rfl, hI, hJ, hl⟩ hq
    obtain ⟨u, a', hu, hI', hc⟩ := h2 g a pp hI hq
    obtain ⟨u', r', hu', hJ', hc'⟩ := h4 u r pp hJ hq
    have e : chainLoop ts (mk σ u) r pp = .ok (mk σ u', r') := by
      simpa [Optax.chain, hl] using hu'
    refine ⟨u', some (a', r'), ?_, ⟨a', r', rfl, hI', hJ', chainLoop_length ts _ r pp hl e⟩, fun x hx => ?_⟩
    · simp only [Optax.chain, ChainState.length, List.length_cons, hl, Nat.add_comm, ne_eq,
        not_true_eq_false, if_false, chainLoop, hu, Res.ok_bind, e]
      rfl
    · obtain ⟨c, h5, h6⟩ := hc x hx
      obtain ⟨c', h7, h8⟩ := hc' x hx
      exact ⟨c' * c, hC c c' h5 h7, by rw [h8, h6]; ring⟩

theorem Along.pos_cons {C : ℝ → Prop} (hC : ∀ c c', 0 < c → C c' → C (c' * c)) {Q} {t : GT ℝ} {ts : List (GT ℝ)} (ht : Along (0 < ·) Q t)
    (hts : Along C Q (chain ts)) : Along C Q (chain (t :: ts)) := ht.cons hts hC

theorem neg_mul_pos' : ∀ c c' : ℝ, 0 < c → c' < 0 → c' * c < 0 := fun _ _ h h' => mul_neg_of_neg_of_pos h' h
theorem pos_mul_neg' : ∀ c c' : ℝ, c < 0 → 0 < c' → c' * c < 0 := fun _ _ h h' => mul_neg_of_pos_of_neg h' h
theorem pos_mul_pos' : ∀ c c' : ℝ, 0 < c → 0 < c' → 0 < c' * c := fun _ _ h h' => mul_pos h' h

/-- gradient pre-processing: a chain of stages with positive factors in front of one with negative factors -/
theorem Along.prepend {Q} {t : GT ℝ} (pre : List (GT ℝ)) (hpre : ∀ a ∈ pre, Along (0 < ·) Q a) (ht : Along (· < 0) Q t) :
    Along (· < 0) Q (chain (pre ++ [t])) := by
  induction pre with
  | nil => exact ht.cons Along.nil pos_mul_neg'
  | cons a pre ih => exact (hpre a (by simp)).cons (ih fun b hb => hpre b (by simp [hb])) neg_mul_pos'

theorem Along.downhill {Q} {t : GT ℝ} (h : Along (· < 0) Q t) (σ : Spec) (hQ : ∀ p, Q σ (some (mk σ p))) : Downhill σ t := by
  intro N p0 g p
  obtain ⟨I, h1, h2⟩ := h σ
  obtain ⟨s0, hs0, hI0⟩ := h1 p0
  choose u s' hu hI' hc using fun (g : ℕ → ℕ → ℝ) (x : {s : t.State × Option (Params ℝ) // I s.1 ∧ Q σ s.2}) => h2 g x.1.1 x.1.2 x.2.1 x.2.2
  let pp := fun n => some (mk σ (p n))
  have hpp : ∀ n, Q σ (pp n) := fun n => hQ (p n)
  let S : ℕ → {s : t.State // I s} := fun n => Nat.rec ⟨s0, hI0⟩
    (fun n s => ⟨s' (g n) ⟨(s.1, pp n), s.2, hpp n⟩, hI' (g n) ⟨(s.1, pp n), s.2, hpp n⟩⟩) n
  have hneg : ∀ n, ∀ x ∈ idx σ, ∃ c : ℝ, c < 0 ∧ u (g n) ⟨((S n).1, pp n), (S n).2, hpp n⟩ x.1 x.2 = c * g n x.1 x.2 := fun n => hc (g n) ⟨((S n).1, pp n), (S n).2, hpp n⟩
  refine ⟨fun n => u (g n) ⟨((S n).1, pp n), (S n).2, hpp n⟩, ?_, fun n _ => ?_⟩
  · apply outs_hist t (mk σ p0) σ g pp N (fun n => (S n).1)
      (fun n => mk σ (u (g n) ⟨((S n).1, pp n), (S n).2, hpp n⟩)) hs0
    intro n _
    exact hu (g n) ⟨((S n).1, pp n), (S n).2, hpp n⟩
  have hle : ∀ x ∈ idx σ, u (g n) ⟨((S n).1, pp n), (S n).2, hpp n⟩ x.1 x.2 * g n x.1 x.2 ≤ 0 := fun x hx => by
    obtain ⟨c, h3, h4⟩ := hneg n x hx
    rw [h4, mul_assoc]
    exact mul_nonpos_of_nonpos_of_nonneg h3.le (mul_self_nonneg _)
  refine ⟨fun x hx => ⟨hle x hx, ?_⟩, fun hg => ?_⟩
  · obtain ⟨c, h3, h4⟩ := hneg n x hx
    show u (g n) ⟨((S n).1, pp n), (S n).2, hpp n⟩ x.1 x.2 = 0 ↔ _
    rw [h4, mul_eq_zero]
    exact ⟨fun h => h.resolve_left h3.ne, Or.inr⟩
  · obtain ⟨x, hx, hne⟩ : ∃ x ∈ idx σ, g n x.1 x.2 ≠ 0 := by
      by_contra hcon
      push Not at hcon
      refine hg ?_
      have : sqNorm σ (g n) = 0 := Finset.sum_eq_zero fun x hx => by rw [hcon x hx]; ring
      rw [sqNorm_eq] at this
      exact pow_eq_zero_iff (two_ne_zero) |>.1 this
    unfold treeInner
    refine Finset.sum_neg' hle ⟨x, hx, ?_⟩
    obtain ⟨c, h3, h4⟩ := hneg n x hx
    show u (g n) ⟨((S n).1, pp n), (S n).2, hpp n⟩ x.1 x.2 * _ < 0
    rw [h4, mul_assoc]
    exact mul_neg_of_neg_of_pos h3 (mul_self_pos.2 hne)

/-! ### the stages -/

theorem along_identity : Along (0 < ·) AnyParams identity := fun _ =>
  ⟨fun _ => True, fun _ => ⟨⟨⟩, rfl, trivial⟩, fun g s _ _ _ => ⟨g, s, rfl, trivial, fun _ _ => ⟨1, one_pos, by ring⟩⟩⟩

theorem along_lr (lr : LR ℝ) (hlr : ∀ n, 0 < lr.at n) : Along (· < 0) AnyParams (scaleByLearningRate lr) := by
  cases lr with
  | scalar x =>
    intro σ
    refine ⟨fun _ => True, fun _ => ⟨⟨⟩, rfl, trivial⟩, fun g s pp _ _ => ⟨_, _, scale_update_mk σ g pp (-x) s, trivial, fun _ _ => ⟨-x, ?_, rfl⟩⟩⟩
    have := hlr 0
    simp only [LR.at] at this
    show -x < 0
    linarith
  | schedule f =>
    intro σ
    refine ⟨fun s => ∃ n, s = ⟨cntAt n⟩, fun p => ⟨⟨0#32⟩, rfl, 0, rfl⟩, ?_⟩
    rintro g _ pp ⟨n, rfl⟩ _
    refine ⟨_, _, scaleBySchedule_update_mk σ g pp (fun count => -f count) (cntAt n), ⟨n + 1, by rw [safeInt32Increment_cntAt]⟩, fun y _ => ⟨_, ?_, rfl⟩⟩
    have := hlr n
    simp only [LR.at] at this
    show -f (cntAt n).toInt < 0
    rw [cntAt_toInt]
    linarith

theorem along_scale (c : ℝ) (C : ℝ → Prop) (hc : C c) : Along C AnyParams (scale c) := fun σ =>
  ⟨fun _ => True, fun _ => ⟨⟨⟩, rfl, trivial⟩, fun g s pp _ _ => ⟨_, _, scale_update_mk σ g pp c s, trivial, fun _ _ => ⟨c, hc, rfl⟩⟩⟩

theorem along_clip (d : ℝ) (hd : 0 < d) : Along (0 < ·) AnyParams (clip d) := fun σ =>
  ⟨fun _ => True, fun _ => ⟨⟨⟩, rfl, trivial⟩, fun g s pp _ _ => ⟨_, _, clip_update_mk σ g pp d s, trivial, fun y _ => by
    simp only [jmin_real, jmax_real]
    generalize g y.1 y.2 = x
    by_cases hx : x = 0
    · exact ⟨1, one_pos, by rw [hx, max_eq_left (by linarith), min_eq_left hd.le]; ring⟩
    refine ⟨min (max x (-d)) d / x, ?_, by field_simp⟩
    rcases lt_or_gt_of_ne hx with h | h
    · exact div_pos_of_neg_of_neg (lt_of_le_of_lt (min_le_left _ _) (max_lt h (by linarith))) h
    · exact div_pos (lt_min (lt_max_of_lt_left h) hd) h⟩⟩

theorem along_clipByGlobalNorm (d : ℝ) (hd : 0 < d) : Along (0 < ·) AnyParams (clipByGlobalNorm d) := fun σ =>
  ⟨fun _ => True, fun _ => ⟨⟨⟩, rfl, trivial⟩, fun g s pp _ _ => ⟨_, _, clipByGlobalNorm_update_mk σ g pp d s, trivial, fun y _ => by
    simp only [jlt_real]
    by_cases h : globalNorm (mk σ g) < d
    · exact ⟨1, one_pos, by simp [h]⟩
    · push Not at h
      refine ⟨d / globalNorm (mk σ g), div_pos hd (hd.trans_le h), ?_⟩
      simp only [not_lt.2 h, decide_false, Bool.false_eq_true, if_false]
      ring⟩⟩

theorem along_zeroNans : Along (0 < ·) AnyParams zeroNans := fun σ =>
  ⟨fun _ => True, fun _ => ⟨_, rfl, trivial⟩, fun g s pp _ _ => ⟨_, _, zeroNans_update_mk σ g pp s, trivial, fun _ _ => ⟨1, one_pos, by simp⟩⟩⟩

theorem along_addDecayedWeights_zero : Along (0 < ·) WithParams (addDecayedWeights 0) := fun σ =>
  ⟨fun _ => True, fun _ => ⟨⟨⟩, rfl, trivial⟩, by
    rintro g s _ _ ⟨p, rfl⟩
    exact ⟨_, _, addDecayedWeights_update_mk σ g p 0 s, trivial, fun y _ => ⟨1, one_pos, by ring⟩⟩⟩

theorem along_trustRatio (mn : ℝ) : Along (0 < ·) WithParams (scaleByTrustRatio mn) := fun σ =>
  ⟨fun _ => True, fun _ => ⟨⟨⟩, rfl, trivial⟩, by
    rintro g s _ _ ⟨p, rfl⟩
    refine ⟨fun k i => g k i * (if JOps.eqb (safeNorm (Tensor.tens ((σ.leaves[k]?).getD []) (p k)) mn) 0 ||
        JOps.eqb (safeNorm (Tensor.tens ((σ.leaves[k]?).getD []) (g k)) mn) 0 then 1 else
        safeNorm (Tensor.tens ((σ.leaves[k]?).getD []) (p k)) mn /
        safeNorm (Tensor.tens ((σ.leaves[k]?).getD []) (g k)) mn), s, ?_, trivial, fun y _ => ⟨_, ?_, mul_comm _ _⟩⟩
    · refine (trustRatio_update_mk σ g p mn s).trans ?_
      congr 2
      refine PyTree.mapIdx_congr σ fun k sh hk => ?_
      simp [trustRatioLeaf, hk]
    · rw [C32_safe_norm, C32_safe_norm]
      simp only [jeqb_real, Bool.or_eq_true, decide_eq_true_eq]
      split_ifs with h
      · exact one_pos
      · push Not at h
        exact div_pos (lt_of_le_of_ne (le_max_of_le_left (Real.sqrt_nonneg _)) h.1.symm) (lt_of_le_of_ne (le_max_of_le_left (Real.sqrt_nonneg _)) h.2.symm)⟩

theorem along_rss (a eps : ℝ) (ha : 0 ≤ a) (he : 0 ≤ eps) : Along (0 < ·) AnyParams (scaleByRss a eps) := fun σ =>
  ⟨fun s => ∃ m, s = ⟨mk σ m⟩ ∧ ∀ k i, 0 ≤ m k i, fun p => ⟨_, rss_init_mk σ p a eps, _, rfl, fun _ _ => ha⟩, by
    rintro g _ pp ⟨m, rfl, hm⟩ _
    refine ⟨_, _, rss_update_mk σ g m pp a eps, ⟨_, rfl, fun k i => add_nonneg (mul_self_nonneg _) (hm k i)⟩, fun y _ => ?_⟩
    by_cases hx : g y.1 y.2 = 0
    · exact ⟨1, one_pos, by rw [hx]; ring⟩
    · have h : 0 < g y.1 y.2 * g y.1 y.2 + m y.1 y.2 := add_pos_of_pos_of_nonneg (mul_self_pos.2 hx) (hm _ _)
      refine ⟨_, ?_, rfl⟩
      unfold invSqrtPos
      simp only [jlt_real, h, decide_true, if_true, jrsqrt_real]
      have := Real.sqrt_pos.2 (add_pos_of_pos_of_nonneg h he)
      positivity⟩

theorem along_rms (d eps a : ℝ) (h0 : 0 ≤ d) (h1 : d ≤ 1) (ha : 0 ≤ a) (he : 0 < eps) : Along (0 < ·) AnyParams (scaleByRms d eps a) := fun σ =>
  ⟨fun s => ∃ m, s = ⟨mk σ m⟩ ∧ ∀ k i, 0 ≤ m k i, fun p => ⟨_, rms_init_mk σ p d eps a, _, rfl, fun _ _ => ha⟩, by
    rintro g _ pp ⟨m, rfl, hm⟩ _
    have h : ∀ k i, 0 ≤ (1 - d) * ipow (g k i) 2 + d * m k i := fun k i =>
      add_nonneg (mul_nonneg (by linarith) (mul_self_nonneg (g k i))) (mul_nonneg h0 (hm k i))
    refine ⟨_, _, rms_update_mk σ g m pp d eps a, ⟨_, rfl, h⟩, fun y _ => ⟨_, ?_, mul_comm _ _⟩⟩
    simp only [jrsqrt_real]
    have := Real.sqrt_pos.2 (add_pos_of_nonneg_of_pos (h y.1 y.2) he)
    positivity⟩

theorem along_stddev (d eps a : ℝ) (h0 : 0 ≤ d) (h1 : d ≤ 1) (ha : 0 ≤ a) (he : 0 < eps) : Along (0 < ·) AnyParams (scaleByStddev d eps a) := fun σ =>
  ⟨fun s => ∃ m n, s = ⟨mk σ m, mk σ n⟩ ∧ ∀ k i, m k i ^ 2 ≤ n k i, fun p => ⟨_, stddev_init_mk σ p d eps a, _, _, rfl, fun _ _ => by simpa using ha⟩, by
    rintro g _ pp ⟨m, n, rfl, hm⟩ _
    have h : ∀ k i, ((1 - d) * ipow (g k i) 1 + d * m k i) ^ 2 ≤ (1 - d) * ipow (g k i) 2 + d * n k i := fun k i => by
      show ((1 - d) * g k i + d * m k i) ^ 2 ≤ (1 - d) * (g k i * g k i) + d * n k i
      have h2 := mul_le_mul_of_nonneg_left (hm k i) h0
      have h3 : 0 ≤ d * (1 - d) * (g k i - m k i) ^ 2 := mul_nonneg (mul_nonneg h0 (by linarith)) (sq_nonneg _)
      nlinarith
    refine ⟨_, _, stddev_update_mk σ g m n pp d eps a, ⟨_, _, rfl, h⟩, fun y _ => ⟨_, ?_, mul_comm _ _⟩⟩
    simp only [jrsqrt_real]
    have h4 := h y.1 y.2
    rw [sq] at h4
    have := Real.sqrt_pos.2 (add_pos_of_nonneg_of_pos (sub_nonneg.2 h4) he)
    positivity⟩

theorem cnt_succ_pos (n : ℕ) : (0 : ℝ) < cnt (safeInt32Increment (cntAt n)) := by
  rw [safeInt32Increment_cntAt, cnt_cntAt']
  exact Nat.cast_pos.2 (by omega)

theorem debias_zero (n : ℕ) (x m : ℝ) : ((1 - 0) * ipow x 1 + 0 * m) / (1 - JOps.pow (0 : ℝ) (cnt (safeInt32Increment (cntAt n)))) = x := by
  rw [jpow_real, Real.zero_rpow (cnt_succ_pos n).ne']
  show ((1 - 0) * x + 0 * m) / (1 - 0) = x
  ring

theorem along_adam (b2 eps er : ℝ) (he : 0 < eps) : Along (0 < ·) AnyParams (scaleByAdam 0 b2 eps er) := fun σ =>
  ⟨fun s => ∃ c m n, s = ⟨cntAt c, mk σ m, mk σ n⟩, fun p => ⟨_, adam_init_mk σ p 0 b2 eps er, 0, _, _, rfl⟩, by
    rintro g _ pp ⟨c, m, n, rfl⟩ _
    refine ⟨_, _, adam_update_mk σ g m n pp 0 b2 eps er (cntAt c), ⟨c + 1, _, _, by rw [← safeInt32Increment_cntAt]⟩, fun y _ => ?_⟩
    simp only [debias_zero, jsqrt_real]
    exact ⟨_, inv_pos.2 (add_pos_of_nonneg_of_pos (Real.sqrt_nonneg _) he), by rw [div_eq_mul_inv, mul_comm]⟩⟩

theorem along_belief (b2 eps er : ℝ) (he : 0 < eps) : Along (0 < ·) AnyParams (scaleByBelief 0 b2 eps er) := fun σ =>
  ⟨fun s => ∃ c m n, s = ⟨cntAt c, mk σ m, mk σ n⟩, fun p => ⟨_, belief_init_mk σ p 0 b2 eps er, 0, _, _, rfl⟩, by
    rintro g _ pp ⟨c, m, n, rfl⟩ _
    refine ⟨_, _, belief_update_mk σ g m n pp 0 b2 eps er (cntAt c), ⟨c + 1, _, _, by rw [← safeInt32Increment_cntAt]⟩, fun y _ => ?_⟩
    simp only [debias_zero, jsqrt_real]
    exact ⟨_, inv_pos.2 (add_pos_of_nonneg_of_pos (Real.sqrt_nonneg _) he), by rw [div_eq_mul_inv, mul_comm]⟩⟩

theorem along_yogi (b2 eps er a : ℝ) (he : 0 < eps) : Along (0 < ·) AnyParams (scaleByYogi 0 b2 eps er a) := fun σ =>
  ⟨fun s => ∃ c m n, s = ⟨cntAt c, mk σ m, mk σ n⟩, fun p => ⟨_, yogi_init_mk σ p 0 b2 eps er a, 0, _, _, rfl⟩, by
    rintro g _ pp ⟨c, m, n, rfl⟩ _
    refine ⟨_, _, yogi_update_mk σ g m n pp 0 b2 eps er a (cntAt c), ⟨c + 1, _, _, by rw [← safeInt32Increment_cntAt]⟩, fun y _ => ?_⟩
    simp only [debias_zero, jsqrt_real]
    exact ⟨_, inv_pos.2 (add_pos_of_nonneg_of_pos (Real.sqrt_nonneg _) he), by rw [div_eq_mul_inv, mul_comm]⟩⟩

theorem radamR_pos (b2 ro : ℝ) (h1 : 3 / 5 < b2) (h2 : b2 < 1) (h3 : 4 < ro) : 0 < radamR b2 ro := by
  have e : radamR b2 ro = Real.sqrt ((ro - 4) * (ro - 2) * (2 / (1 - b2) - 1) / ((2 / (1 - b2) - 1 - 4) * (2 / (1 - b2) - 1 - 2) * ro)) := by
    simp [radamR, radamRoInf]
  have h : 5 < 2 / (1 - b2) := by rw [lt_div_iff₀ (by linarith)]; linarith
  rw [e]
  generalize 2 / (1 - b2) = R at h
  refine Real.sqrt_pos.2 (div_pos (mul_pos (mul_pos ?_ ?_) ?_) (mul_pos (mul_pos ?_ ?_) ?_)) <;> linarith

theorem along_radam (b2 eps er th : ℝ) (h1 : 3 / 5 < b2) (h2 : b2 < 1) (hth : 4 < th) (he : 0 < eps) :
    Along (0 < ·) AnyParams (scaleByRadam 0 b2 eps er th) := fun σ =>
  ⟨fun s => ∃ c m n, s = ⟨cntAt c, mk σ m, mk σ n⟩, fun p => ⟨_, radam_init_mk σ p 0 b2 eps er th, 0, _, _, rfl⟩, by
    rintro g _ pp ⟨c, m, n, rfl⟩ _
    refine ⟨_, _, radam_update_mk σ g m n pp 0 b2 eps er th (cntAt c), ⟨c + 1, _, _, by rw [← safeInt32Increment_cntAt]⟩, fun y _ => ?_⟩
    simp only [debias_zero, jsqrt_real, jle_real, decide_eq_true_eq]
    split_ifs with h
    · exact ⟨_, mul_pos (radamR_pos b2 _ h1 h2 (hth.trans_le h)) (inv_pos.2 (add_pos_of_nonneg_of_pos (Real.sqrt_nonneg _) he)), by rw [div_eq_mul_inv]; ring⟩
    · exact ⟨1, one_pos, by ring⟩⟩


theorem along_sm3 (b2 eps : ℝ) (h0 : 0 ≤ b2) (h1 : b2 ≤ 1) (h2 : 0 ≤ eps) :
    Along (0 < ·) (fun σ _ => SM3Spec σ) (scaleBySM3 0 b2 eps) := fun σ =>
  ⟨fun s => ∃ M ν, s = sm3State σ M ν ∧ ∀ (k : ℕ) sh, σ.leaves[k]? = some sh → ∀ i < sh.length, ∀ r < sh.getD i 1, 0 ≤ M k i r,
    fun p => ⟨_, sm3_init_mk σ p 0 b2 eps, _, _, rfl, fun _ _ _ _ _ _ _ => le_refl _⟩, by
    rintro g _ pp ⟨M, ν, rfl, hM⟩ hσ
    set A : ℕ → ℕ → ℝ := fun k => sm3Acc b2 ((σ.leaves[k]?).getD []) (g k) (M k) with hA
    have hc : 0 < (if !JOps.eqb b2 1 then 1 - b2 else 1 : ℝ) := by
      split_ifs with h
      · rw [Bool.not_eq_true', Bool.eq_false_iff, ne_eq, jeqb_real] at h
        rcases h1.eq_or_lt with h' | h'
        · exact absurd h' h
        · linarith
      · exact one_pos
    have hmin : ∀ (k : ℕ) sh, σ.leaves[k]? = some sh → ∀ j < sh.prod, 0 ≤ minAxes (M k) (fun i => coordAt sh i j) (sh.length - 1) := fun k sh hk j hj => by
      obtain ⟨i, hi, he⟩ := (minAxes_least (M k) (fun i => coordAt sh i j) (sh.length - 1)).1
      rw [he]
      have hl := List.length_pos_of_ne_nil (hσ sh (List.mem_of_getElem? hk)).1
      exact hM k sh hk i (by omega) _ (coordAt_lt sh i j (by omega) hj)
    have hAge : ∀ (k : ℕ) sh, σ.leaves[k]? = some sh → ∀ j < sh.prod, (if !JOps.eqb b2 1 then 1 - b2 else 1) * (g k j * g k j) ≤ A k j := fun k sh hk j hj => by
      have := mul_nonneg h0 (hmin k sh hk j hj)
      simp only [hA, hk, Option.getD_some, sm3Acc]
      show _ ≤ _ * (g k j * g k j) + _
      linarith
    refine ⟨_, _, sm3_update_mk σ hσ g M ν pp 0 b2 eps, ⟨_, _, rfl, fun k sh hk i hi r hr => ?_⟩, fun y hy => ?_⟩
    · obtain ⟨j, hj, _, he⟩ := (maxFiber_greatest sh (hσ sh (List.mem_of_getElem? hk)).2 i r hi hr (A k)).1
      have e : maxFiber ((σ.leaves[k]?).getD []) i r (A k) = A k j := by rw [← he, hk]; rfl
      refine le_of_le_of_eq ?_ e.symm
      exact (mul_nonneg hc.le (mul_self_nonneg _)).trans (hAge k sh hk j hj)
    · obtain ⟨sh, hk, hj⟩ := mem_idx.1 hy
      have e : (1 - 0) * ipow (g y.1 y.2 * invSqrtPos eps (A y.1 y.2)) 1 + 0 * ν y.1 y.2 = invSqrtPos eps (A y.1 y.2) * g y.1 y.2 := by
        show (1 - 0) * (g y.1 y.2 * invSqrtPos eps (A y.1 y.2)) + 0 * ν y.1 y.2 = _
        ring
      show ∃ c, 0 < c ∧ (1 - 0) * ipow (g y.1 y.2 * invSqrtPos eps (A y.1 y.2)) 1 + 0 * ν y.1 y.2 = c * g y.1 y.2
      rw [e]
      by_cases hx : g y.1 y.2 = 0
      · exact ⟨1, one_pos, by rw [hx]; ring⟩
      · have hp : 0 < A y.1 y.2 := (mul_pos hc (mul_self_pos.2 hx)).trans_le (hAge _ sh hk _ hj)
        refine ⟨_, ?_, rfl⟩
        unfold invSqrtPos
        simp only [jlt_real, hp, decide_true, if_true, jrsqrt_real]
        have := Real.sqrt_pos.2 (add_pos_of_pos_of_nonneg hp h2)
        positivity⟩

theorem along_agc (cl eps : ℝ) (hcl : 0 < cl) (heps : 0 < eps) :
    Along (0 < ·) (fun σ pp => AgcSpec σ ∧ WithParams σ pp) (adaptiveGradClip cl eps) := fun σ =>
  ⟨fun _ => True, fun _ => ⟨⟨⟩, rfl, trivial⟩, by
    rintro g s _ _ ⟨hσ, p, rfl⟩
    refine ⟨_, _, agc_update_mk cl eps σ hσ g p, trivial, fun y hy => ?_⟩
    obtain ⟨sh, hk, hj⟩ := mem_idx.1 hy
    simp only [hk, Option.getD_some]
    rw [agcLeaf_real cl eps (hσ sh (List.mem_of_getElem? hk)) _ _ hj]
    split_ifs with h
    · exact ⟨1, one_pos, by ring⟩
    · refine ⟨_, div_pos (mul_pos hcl (lt_max_of_lt_right heps)) (lt_max_of_lt_right (by norm_num)), mul_comm _ _⟩⟩

/-! ### the optimisers -/

theorem along_aliases (lr : LR ℝ) (hlr : ∀ n, 0 < lr.at n) (nes centered : Bool) (a eps eps' er d b2 b2' th : ℝ) (ha : 0 ≤ a) (he : 0 < eps) (he' : 0 ≤ eps')
    (hd0 : 0 ≤ d) (hd1 : d ≤ 1) (hb : 3 / 5 < b2') (hb' : b2' < 1) (hth : 4 < th) (t : GT ℝ)
    (ht : t ∈ [sgd lr none nes, adagrad lr a eps', rmsprop lr d eps a centered none nes, adam lr 0 b2 eps er, adabelief lr 0 b2 eps, yogi lr 0 b2 eps,
      radam lr 0 b2' eps er th, adamw lr 0 b2 eps er 0, lamb lr 0 b2 eps er 0]) : Along (· < 0) WithParams t := by
  have hl : Along (· < 0) WithParams (chain [scaleByLearningRate lr]) := (along_lr lr hlr).any.cons Along.nil pos_mul_neg'
  simp only [List.mem_cons, List.not_mem_nil, or_false] at ht
  rcases ht with rfl | rfl | rfl | rfl | rfl | rfl | rfl | rfl | rfl
  · exact along_identity.any.cons hl neg_mul_pos'
  · exact (along_rss a eps' ha he').any.cons hl neg_mul_pos'
  · have hl' : Along (· < 0) WithParams (chain [scaleByLearningRate lr, identity]) :=
      (along_lr lr hlr).any.cons (along_identity.any.cons Along.nil pos_mul_pos') pos_mul_neg'
    cases centered
    · exact (along_rms d eps a hd0 hd1 ha he).any.cons hl' neg_mul_pos'
    · exact (along_stddev d eps a hd0 hd1 ha he).any.cons hl' neg_mul_pos'
  · exact (along_adam b2 eps er he).any.cons hl neg_mul_pos'
  · exact (along_belief b2 eps _ he).any.cons hl neg_mul_pos'
  · exact (along_yogi b2 eps _ _ he).any.cons hl neg_mul_pos'
  · exact (along_radam b2' eps er th hb hb' hth he).any.cons hl neg_mul_pos'
  · exact (along_adam b2 eps er he).any.cons (along_addDecayedWeights_zero.cons hl neg_mul_pos') neg_mul_pos'
  · exact (along_adam b2 eps er he).any.cons (along_addDecayedWeights_zero.cons ((along_trustRatio 0).cons hl neg_mul_pos') neg_mul_pos') neg_mul_pos'

/-- **C140.** With positive learning rates (constant or scheduled) and no momentum, `sgd`, `adagrad`, `rmsprop` (plain or centred), and `adam`, `adabelief`, `yogi`, `radam` with
`b1 = 0` always step downhill, with `adamw` and `lamb` without decay, from any tree, after any history. -/
theorem C140_aliases (lr : LR ℝ) (hlr : ∀ n, 0 < lr.at n) (nes centered : Bool) (a eps eps' er d b2 b2' th : ℝ) (ha : 0 ≤ a) (he : 0 < eps) (he' : 0 ≤ eps')
    (hd0 : 0 ≤ d) (hd1 : d ≤ 1) (hb : 3 / 5 < b2') (hb' : b2' < 1) (hth : 4 < th) (t : GT ℝ)
    (ht : t ∈ [sgd lr none nes, adagrad lr a eps', rmsprop lr d eps a centered none nes, adam lr 0 b2 eps er, adabelief lr 0 b2 eps, yogi lr 0 b2 eps,
      radam lr 0 b2' eps er th, adamw lr 0 b2 eps er 0, lamb lr 0 b2 eps er 0]) (σ : Spec) : Downhill σ t :=
  (along_aliases lr hlr nes centered a eps eps' er d b2 b2' th ha he he' hd0 hd1 hb hb' hth t ht).downhill σ fun p => ⟨p, rfl⟩

/-- **C140** `sm3` with `b1 = 0`, on the trees it supports. -/
theorem C140_sm3 (lr : ℝ) (hlr : 0 < lr) (σ : Spec) (hσ : ∀ s ∈ σ.leaves, s ≠ [] ∧ ∀ d ∈ s, 0 < d) : Downhill σ (sm3 lr 0) :=
  Along.downhill (Q := fun σ _ => SM3Spec σ) ((along_sm3 1 _ zero_le_one le_rfl (by rw [jofRat_real]; norm_num)).cons
    ((along_scale (-lr) (· < 0) (by simpa using hlr)).any.cons Along.nil pos_mul_neg') neg_mul_pos') σ fun _ => hσ

/-- **C140 (clipping first).** Any of these optimisers points downhill behind any sequence of `clip`, `clip_by_global_norm`, `zero_nans`, `scale_by_trust_ratio`,
`adaptive_grad_clip` (on the ranks it supports) and positive `scale`. -/
theorem C140_preprocessed (lr : LR ℝ) (hlr : ∀ n, 0 < lr.at n) (nes centered : Bool) (a eps eps' er d b2 b2' th : ℝ) (ha : 0 ≤ a) (he : 0 < eps) (he' : 0 ≤ eps')
    (hd0 : 0 ≤ d) (hd1 : d ≤ 1) (hb : 3 / 5 < b2') (hb' : b2' < 1) (hth : 4 < th) (t : GT ℝ)
    (ht : t ∈ [sgd lr none nes, adagrad lr a eps', rmsprop lr d eps a centered none nes, adam lr 0 b2 eps er, adabelief lr 0 b2 eps, yogi lr 0 b2 eps,
      radam lr 0 b2' eps er th, adamw lr 0 b2 eps er 0, lamb lr 0 b2 eps er 0])
    (pre : List (GT ℝ)) (σ : Spec) (hσ : AgcSpec σ)
    (hpre : ∀ a ∈ pre, (∃ d : ℝ, 0 < d ∧ (a = clip d ∨ a = clipByGlobalNorm d ∨ a = scale d)) ∨ a = zeroNans ∨ a = identity ∨ (∃ m, a = scaleByTrustRatio m) ∨
      ∃ c e : ℝ, 0 < c ∧ 0 < e ∧ a = adaptiveGradClip c e) : Downhill σ (chain (pre ++ [t])) := by
  refine Along.downhill (Q := fun σ pp => AgcSpec σ ∧ WithParams σ pp) (Along.prepend pre ?_ ((along_aliases lr hlr nes centered a eps eps' er d b2 b2' th ha he he' hd0 hd1 hb hb' hth t ht).mono fun _ _ h => h.2)) σ fun p => ⟨hσ, p, rfl⟩
  intro a h
  rcases hpre a h with ⟨d, hd, rfl | rfl | rfl⟩ | rfl | rfl | ⟨m, rfl⟩ | ⟨c, e, hc, he, rfl⟩
  · exact (along_clip d hd).any
  · exact (along_clipByGlobalNorm d hd).any
  · exact (along_scale d _ hd).any
  · exact along_zeroNans.any
  · exact along_identity.any
  · exact (along_trustRatio m).mono fun _ _ h => h.2
  · exact along_agc c e hc he

theorem treeInner_comm' (σ : Spec) (a b : ℕ → ℕ → ℝ) : treeInner σ a b = treeInner σ b a := by
  unfold treeInner; exact Finset.sum_congr rfl fun x _ => mul_comm _ _

/-- **C140 (the loss goes down).** If the gradients are those of a differentiable loss, then at any point `q` reached in any way, moving along the update
emitted there by a downhill optimiser decreases the loss for all small enough step sizes, unless the gradient vanishes. -/
theorem C140_loss (σ : Spec) (t : GT ℝ) (ht : Downhill σ t) (loss : Params ℝ → ℝ) (G : (ℕ → ℕ → ℝ) → ℕ → ℕ → ℝ) (hG : IsGradient σ loss G)
    (N : ℕ) (p0 : ℕ → ℕ → ℝ) (g p : ℕ → ℕ → ℕ → ℝ) : ∃ U : ℕ → ℕ → ℕ → ℝ,
    t.outs (mk σ p0) (hist σ g (fun n => some (mk σ (p n))) N) = .ok ((List.range N).map (fun n => mk σ (U n))) ∧
    ∀ n < N, g n = G (p n) → globalNorm (mk σ (g n)) ≠ 0 →
      ∃ δ > 0, ∀ s : ℝ, 0 < s → s < δ → loss (mk σ (fun k i => p n k i + s * U n k i)) < loss (mk σ (p n)) := by
  obtain ⟨U, h1, h2⟩ := ht N p0 g p
  refine ⟨U, h1, fun n hn hg hne => ?_⟩
  have h3 := (h2 n hn).2 hne
  have h4 := hG (p n) (U n)
  rw [← hg, treeInner_comm'] at h4
  have h5 : ∀ᶠ s in 𝓝[>] (0 : ℝ), loss (mk σ (fun k i => p n k i + s * U n k i)) < loss (mk σ (p n)) := by
    have h6 := h4.tendsto_slope_zero_right
    have h7 := h6.eventually (gt_mem_nhds h3)
    filter_upwards [h7, self_mem_nhdsWithin] with s hs hs0
    simp only [zero_add, zero_mul, add_zero, smul_eq_mul] at hs
    have h8 := mul_neg_of_pos_of_neg (show (0:ℝ) < s from hs0) hs
    rw [← mul_assoc, mul_inv_cancel₀ (ne_of_gt hs0), one_mul] at h8
    linarith
  obtain ⟨δ, hδ, h⟩ := mem_nhdsGT_iff_exists_Ioo_subset.1 h5
  exact ⟨δ, hδ, fun s hs0 hs => h ⟨hs0, hs⟩⟩

/-- reading off the second update of a one-entry tree -/
theorem not_downhill_of (t : GT ℝ) (a u0 u1 : ℝ) (hu : 0 < u1 * a) (g0 : ℝ)
    (h : t.outs (mk (.leaf [1]) (fun _ _ => 0)) (hist (.leaf [1]) (fun n _ _ => if n = 0 then g0 else a) (fun _ => some (mk (.leaf [1]) (fun _ _ => 0))) 2) =
      .ok ((List.range 2).map (fun n => mk (.leaf [1]) (fun _ _ => if n = 0 then u0 else u1)))) : ¬ Downhill (.leaf [1]) t := by
  intro hd
  obtain ⟨U, h1, h2⟩ := hd 2 (fun _ _ => 0) (fun n _ _ => if n = 0 then g0 else a) (fun _ _ _ => 0)
  rw [h] at h1
  have h3 := congrArg (fun l => l[1]?) (Except.ok.inj h1)
  simp only [List.getElem?_map, List.getElem?_range (by norm_num : 1 < 2), Option.map_some, Option.some.injEq] at h3
  have hx : (⟨0, 0⟩ : (_ : ℕ) × ℕ) ∈ idx (.leaf [1]) := mem_idx.2 ⟨[1], rfl, by simp⟩
  have h4 := congrArg (fun t => coord t 0 0) h3
  rw [coord_mk _ _ _ _ [1] rfl (by simp), coord_mk _ _ _ _ [1] rfl (by simp)] at h4
  have h5 := ((h2 1 (by norm_num)).1 _ hx).1
  simp only [one_ne_zero, if_false] at h4 h5
  rw [← h4] at h5
  linarith

/-- **C140 (momentum can go uphill).** For every momentum `m > 0`, with or without Nesterov, `sgd` takes uphill steps after some histories. -/
theorem C140_momentum_uphill (lr m : ℝ) (hlr : 0 < lr) (hm : 0 < m) (nes : Bool) : ¬ Downhill (.leaf [1]) (sgd (.scalar lr) (some m) nes) := by
  set g0 := 1 / m + (1 + m) / m ^ 2 + 1 with hg0
  have h1 : 0 < -1 + m * g0 := by
    have : m * g0 = 1 + (1 + m) / m + m := by rw [hg0]; field_simp
    rw [this]; have : 0 < (1 + m) / m := by positivity
    linarith
  have h2 : 0 < -1 + m * (-1 + m * g0) := by
    have : m * (m * g0) = m + (1 + m) + m ^ 2 := by rw [hg0]; field_simp
    rw [mul_add, this]; nlinarith
  refine not_downhill_of _ (-1) (-lr * (if nes then g0 + m * g0 else g0)) (-lr * (if nes then -1 + m * (-1 + m * g0) else -1 + m * g0)) ?_ g0 ?_
  · have : 0 < lr * (if nes then -1 + m * (-1 + m * g0) else -1 + m * g0) := mul_pos hlr (by split_ifs <;> assumption)
    linarith
  · have := outs_chain_hist_lr (trace m nes none) (.scalar lr) (mk (.leaf [1]) (fun _ _ => 0)) (.leaf [1]) (fun n _ _ => if n = 0 then g0 else -1)
      (fun n _ _ => if nes then (if n = 0 then g0 else -1) + m * geoSum m (fun j => if j = 0 then g0 else -1) (n + 1) else geoSum m (fun j => if j = 0 then g0 else -1) (n + 1))
      (fun _ => some (mk (.leaf [1]) (fun _ _ => 0))) 2 (by unfold GT.outs; rw [C21_trace]; rfl)
    refine this.trans ?_
    congr 1
    refine List.map_congr_left fun n hn => ?_
    refine mk_congr fun k s _ i _ => ?_
    have : n = 0 ∨ n = 1 := by have := List.mem_range.1 hn; omega
    rcases this with rfl | rfl
    · simp [LR.at, geoSum_succ]
    · simp [LR.at, geoSum_succ]

/-- **C140 (Adam can go uphill).** So does `adam` for every `b1` in `(0, 1)`. -/
theorem C140_adam_uphill (lr b1 b2 eps er : ℝ) (hlr : 0 < lr) (h0 : 0 < b1) (h1 : b1 < 1) (he : 0 < eps) :
    ¬ Downhill (.leaf [1]) (adam (.scalar lr) b1 b2 eps er) := by
  set G : ℕ → ℝ := fun n => if n = 0 then 2 / b1 else -1 with hG
  have hpos : 0 < debiased b1 G 2 := by
    rw [debiased_eq]
    have : geoSum b1 G 2 = 1 := by
      simp only [geoSum_succ, geoSum_zero, hG]
      simp
      field_simp; norm_num
    rw [this]
    have : b1 ^ 2 < 1 := by nlinarith
    exact div_pos (by linarith) (by linarith)
  have hden : 0 < Real.sqrt (debiased b2 (fun j => G j ^ 2) 2 + er) + eps := add_pos_of_nonneg_of_pos (Real.sqrt_nonneg _) he
  refine not_downhill_of _ (-1) (-lr * (debiased b1 G 1 / (Real.sqrt (debiased b2 (fun j => G j ^ 2) 1 + er) + eps)))
    (-lr * (debiased b1 G 2 / (Real.sqrt (debiased b2 (fun j => G j ^ 2) 2 + er) + eps))) ?_ (2 / b1) ?_
  · have := mul_pos hlr (div_pos hpos hden)
    linarith
  · have := outs_chain_hist_lr (scaleByAdam b1 b2 eps er) (.scalar lr) (mk (.leaf [1]) (fun _ _ => 0)) (.leaf [1]) (fun n _ _ => if n = 0 then 2 / b1 else -1)
      (fun n _ _ => debiased b1 G (n + 1) / (Real.sqrt (debiased b2 (fun j => G j ^ 2) (n + 1) + er) + eps))
      (fun _ => some (mk (.leaf [1]) (fun _ _ => 0))) 2 (by unfold GT.outs; rw [C26_adam _ _ _ _ _ _ _ _ _ (by norm_num)]; rfl)
    refine this.trans ?_
    congr 1

/-- Non-vacuity: the default hyper-parameters (with `b1 = 0`), a decaying schedule and a two-leaf tree. -/
example : Downhill (.node .tuple [.leaf [2, 3], .leaf [3]]) (adam (.schedule (fun n => 1 / (1 + |(n : ℝ)|))) 0 (999 / 1000) (1 / 10 ^ 8) 0) :=
  C140_aliases (.schedule (fun n => 1 / (1 + |(n : ℝ)|))) (fun n => by simp only [LR.at]; positivity) false false 0 (1 / 10 ^ 8) 0 0 0 (999 / 1000) (999 / 1000) 5 le_rfl (by norm_num) le_rfl
    le_rfl (by norm_num) (by norm_num) (by norm_num) (by norm_num) _ (by simp) _

end Optax
