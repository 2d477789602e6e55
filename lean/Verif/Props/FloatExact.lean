import Verif.Lemmas.Float
import Verif.Props.Constrain
import Verif.Spec.History
import Verif.Lemmas.Float32

/-!
# C84–C87: what holds exactly in floating point arithmetic

`F` is any floating point format (`Model/Float.lean`); all arithmetic in the model is rounded to `F`, and may overflow.
-/

set_option linter.unusedSectionVars false
set_option linter.unusedSimpArgs false

namespace Optax
open FP
open scoped Classical

variable {F : Format}

/-! ## C84: clipping and constraints -/

theorem FP.neg_nonpos {d : FP F} (hd : 0 ≤ d) : -d ≤ 0 := by
  rw [FP.le_iff]
  rw [FP.nonneg_iff] at hd
  rw [neg_val, zero_val]
  rcases hd with h | ⟨r, hr, h⟩ <;> rw [h]
  · exact ⟨by simp [Neg.neg, XReal.neg], by simp, bot_le⟩
  · exact ⟨by simp, by simp, by simpa [XReal.toE] using hr⟩

/-- **C84.** `clip d` in floating point: every entry that is a number lands in `[-d, d]` exactly, entries already there are
unchanged, and NaN stays NaN. -/
theorem C84_clip (d : FP F) (hd : 0 ≤ d) (σ : Spec) (g : ℕ → ℕ → FP F) (s : EmptyState) (pp : Option (Params (FP F))) :
    ∃ u, (clip d).update (mk σ g) s pp = .ok (mk σ u, s) ∧ ∀ k i,
      (IsNum (g k i) → -d ≤ u k i ∧ u k i ≤ d) ∧
      (-d ≤ g k i ∧ g k i ≤ d → u k i = g k i) ∧
      (¬ IsNum (g k i) → ¬ IsNum (u k i)) := by
  refine ⟨_, clip_update_mk σ g pp d s, fun k i => ?_⟩
  have hdn := (le_num hd).2
  have hnn := neg_num.2 hdn
  have hle : -d ≤ d := FP.le_trans (FP.neg_nonpos hd) hd
  refine ⟨fun hg => ?_, fun hg => ?_, fun hg => ?_⟩
  · rw [max_cases _ _ hg hnn]
    have hm : IsNum (if g k i < -d then -d else g k i) := by split <;> assumption
    have hm' : -d ≤ (if g k i < -d then -d else g k i) := by
      split
      · exact FP.le_refl hnn
      · rename_i h; exact (FP.not_lt hg hnn).1 h
    generalize (if g k i < -d then -d else g k i) = m at hm hm'
    rw [min_cases _ _ hm hdn]
    split
    · exact ⟨hle, FP.le_refl hdn⟩
    · rename_i h; exact ⟨hm', (FP.not_lt hdn hm).1 h⟩
  · have hgn := (le_num hg.1).2
    rw [max_cases _ _ hgn hnn, if_neg ((FP.not_lt hgn hnn).2 hg.1), min_cases _ _ hgn hdn, if_neg ((FP.not_lt hdn hgn).2 hg.2)]
  · exact min_nan _ _ (Or.inl (max_nan _ _ (Or.inl hg)))

theorem FP.keep_step (p u : FP F) : ¬ (p + (if JOps.lt (p + u) 0 then -p else u) < 0) := by
  by_cases h : JOps.lt (p + u) 0 = true
  · rw [if_pos h]
    by_cases hp : IsFin p
    · rw [FP.add_neg hp]; exact FP.lt_irrefl _
    · rw [FP.isFin_iff] at hp
      rw [FP.lt_iff]
      rintro ⟨h1, -, -⟩
      apply h1
      rw [add_val, neg_val]
      cases hv : p.1 with
      | fin r => exact absurd ⟨r, hv⟩ hp
      | _ => rfl
  · rw [if_neg h]; exact h

/-- **C84.** Training in floating point with any transformation followed by `keep_params_nonnegative`: from the first step on no
parameter is ever negative - whatever the initial parameters and gradients, rounding, overflow, infinities and NaNs included. -/
theorem C84_nonnegative (t : GT (FP F)) (ht : Preserves WithParams t) (σ : Spec)
    (grad : ℕ → Params (FP F) → Params (FP F)) (hg : ∀ n p, ∃ g, grad n (mk σ p) = mk σ g)
    (p0 : ℕ → ℕ → FP F) (N : ℕ) :
    ∃ s0, (chain [t, keepParamsNonnegative]).init (mk σ p0) = .ok s0 ∧
      ∃ p s, trainLoop (chain [t, keepParamsNonnegative]) grad (N + 1) s0 (mk σ p0) = .ok (mk σ p, s) ∧
        ∀ k i, ¬ (p k i < 0) := by
  obtain ⟨I, h1, h2⟩ := ht σ
  obtain ⟨a0, ha0, hI0⟩ := h1 p0
  refine ⟨some (a0, some (⟨⟩, (0 : ℕ))), ?_, ?_⟩
  · simp only [chain, chainInit, ha0, Res.ok_bind]; rfl
  have step : ∀ (g : ℕ → ℕ → FP F) a (p : ℕ → ℕ → FP F), I a → ∃ u a',
      (chain [t, keepParamsNonnegative]).update (mk σ g) (some (a, some (⟨⟩, (0 : ℕ)))) (some (mk σ p)) =
        .ok (mk σ u, some (a', some (⟨⟩, (0 : ℕ)))) ∧ I a' ∧ ∀ k i, ¬ (p k i + u k i < 0) := by
    intro g a p hI
    obtain ⟨u, a', hu, hI'⟩ := h2 g a (some (mk σ p)) hI ⟨p, rfl⟩
    refine ⟨fun k i => if JOps.lt (p k i + u k i) 0 then -p k i else u k i, a', ?_, hI', fun k i => FP.keep_step _ _⟩
    exact chain_update_ok rfl (chainLoop_cons_ok hu (chainLoop_cons_ok (keepParamsNonnegative_update_mk σ u p ⟨⟩)
      chainLoop_nil_ok))
  have main : ∀ n, ∃ p a, trainLoop (chain [t, keepParamsNonnegative]) grad n
      (some (a0, some (⟨⟩, (0 : ℕ)))) (mk σ p0) = .ok (mk σ p, some (a, some (⟨⟩, (0 : ℕ)))) ∧ I a ∧
      (1 ≤ n → ∀ k i, ¬ (p k i < 0)) := by
    intro n
    induction n with
    | zero => exact ⟨p0, a0, rfl, hI0, by omega⟩
    | succ n ih =>
      obtain ⟨p, a, h3, h4, _⟩ := ih
      obtain ⟨g, hg'⟩ := hg n p
      obtain ⟨u, a', h5, h6, h7⟩ := step g a p h4
      refine ⟨fun k i => p k i + u k i, a', ?_, h6, fun _ => h7⟩
      exact trainLoop_succ _ grad n _ _ _ _ _ _ _ h3 (by rw [hg']; exact h5) (C06_apply_updates σ p u)
  obtain ⟨p, a, h3, _, h5⟩ := main (N + 1)
  exact ⟨p, _, h3, h5 (by omega)⟩

/-- **C84.** `safe_norm(x, min_norm)` is never below `min_norm` in floating point (it may be NaN, if an entry is). -/
theorem C84_safe_norm (x : Tensor (FP F)) (m : FP F) : ¬ (safeNorm x m < m) := by
  unfold safeNorm
  dsimp only
  split
  · exact FP.lt_irrefl _
  · rename_i h
    intro hlt
    exact h (FP.lt_le hlt)

/-- hypotheses of `C84_nonnegative` are met by `scale` with the identity gradient field in single precision -/
example : Preserves WithParams (scale (-1 : FP Format.float32)) ∧
    ∀ (n : ℕ) (p : ℕ → ℕ → FP Format.float32), ∃ g, (fun _ t => t : ℕ → Params (FP Format.float32) → _) n (mk (.leaf [2]) p) =
      mk (.leaf [2]) g :=
  ⟨(preserves_scale _).any, fun _ p => ⟨p, rfl⟩⟩

/-! ## C85: second moments -/

/-- a decay rate: `decay` and the computed `1 - decay` are positive and finite -/
structure Decay (d : FP F) : Prop where
  pos : 0 < d
  fin : IsFin d
  cpos : 0 < 1 - d
  cfin : IsFin (1 - d)

/-- the accumulator `(1 - d) * (x ** 2) + d * v` along a history of values -/
noncomputable def secondMoment (d a : FP F) (x : ℕ → FP F) : ℕ → FP F
  | 0 => a
  | n + 1 => (1 - d) * (x n * x n) + d * secondMoment d a x n

theorem ipow_two {α : Type} [One α] [Mul α] (x : α) : ipow x 2 = x * x := rfl
theorem ipow_one {α : Type} [One α] [Mul α] (x : α) : ipow x 1 = x := rfl

theorem moment_step {d x v : FP F} (hd : Decay d) (hx : IsNum x) (hv : 0 ≤ v) : 0 ≤ (1 - d) * (x * x) + d * v :=
  FP.add_nonneg (FP.mul_nonneg hd.cpos hd.cfin (FP.sq_nonneg hx)) (FP.mul_nonneg hd.pos hd.fin hv)

theorem secondMoment_nonneg {d a : FP F} (hd : Decay d) (ha : 0 ≤ a) (x : ℕ → FP F) (hx : ∀ n, IsNum (x n)) (n : ℕ) :
    0 ≤ secondMoment d a x n := by
  induction n with
  | zero => exact ha
  | succ n ih => exact moment_step hd (hx n) ih

theorem rsqrt_nonneg_fin {eps v : FP F} (he : 0 < eps) (hf : IsFin (JOps.rsqrt eps : FP F)) (hv : 0 ≤ v) :
    0 ≤ (JOps.rsqrt (v + eps) : FP F) ∧ IsFin (JOps.rsqrt (v + eps) : FP F) := by
  have hle : eps ≤ v + eps := le_add hv (lt_le he)
  have h2 := (FP.pos_iff _).1 (FP.pos_add hv he)
  have h1 := (FP.pos_iff _).1 he
  have hz : (JOps.rsqrt (v + eps) : FP F) = of F (XReal.lift (fun r => if r < 0 then .nan else if r = 0 then .pinf else
    .fin (F.rsqrt r)) (.fin 0) .nan (v + eps).1) := rfl
  have hz' : (JOps.rsqrt eps : FP F) = of F (XReal.lift (fun r => if r < 0 then .nan else if r = 0 then .pinf else
    .fin (F.rsqrt r)) (.fin 0) .nan eps.1) := rfl
  rcases h2 with h2 | ⟨r, hr, h2⟩
  · rw [hz, h2]
    show 0 ≤ (0 : FP F) ∧ IsFin (0 : FP F)
    exact ⟨FP.le_refl num_zero, fin_zero⟩
  · rw [h2] at hz
    simp only [XReal.lift, if_neg (not_lt.2 hr.le), if_neg hr.ne'] at hz
    have hn : 0 ≤ of F (.fin (F.rsqrt r)) := of_fin_nonneg (F.rsqrt_nonneg r hr)
    rw [hz]
    refine ⟨hn, ?_⟩
    rcases h1 with h1 | ⟨q, hq, h1⟩
    · rw [FP.le_iff, h1, h2] at hle
      simp [XReal.toE] at hle
    · rw [h1] at hz'
      simp only [XReal.lift, if_neg (not_lt.2 hq.le), if_neg hq.ne'] at hz'
      rw [hz'] at hf
      have hqr : q ≤ r := by
        rw [FP.le_iff, h1, h2] at hle
        simpa [XReal.toE] using hle.2.2
      have hm : of F (.fin (F.rsqrt r)) ≤ of F (.fin (F.rsqrt q)) :=
        of_mono (by simp) (by simp) (by simpa [XReal.toE] using F.rsqrt_anti q r hq hqr)
      rw [FP.isFin_iff] at hf ⊢
      obtain ⟨y, hy⟩ := hf
      rw [FP.le_iff, hy] at hm
      rw [FP.nonneg_iff] at hn
      rcases hn with hn | ⟨z, -, hn⟩
      · rw [hn] at hm; simp [XReal.toE] at hm
      · exact ⟨z, hn⟩

/-- **C85.** RMSProp's scaling in floating point: for every history of finite gradients (whose squares may overflow), all entries
of the accumulator are non-negative numbers or `+∞` at all times, and no update is ever NaN.  Only `rsqrt(eps)` has to be
finite. -/
theorem C85_rms (d eps a : FP F) (hd : Decay d) (he : 0 < eps) (hf : IsFin (JOps.rsqrt eps : FP F)) (ha : 0 ≤ a)
    (σ : Spec) (p : ℕ → ℕ → FP F) (g : ℕ → ℕ → ℕ → FP F) (hg : ∀ n k i, IsFin (g n k i)) (pp : ℕ → Option (Params (FP F)))
    (N : ℕ) : ∃ (U : ℕ → ℕ → ℕ → FP F) (nu : ℕ → ℕ → FP F),
      (scaleByRms d eps a).exec (mk σ p) (hist σ g pp N) = .ok ((List.range N).map fun n => mk σ (U n), ⟨mk σ nu⟩) ∧
      (∀ k i, 0 ≤ nu k i) ∧ ∀ n k i, IsNum (U n k i) := by
  refine ⟨fun n k i => g n k i * JOps.rsqrt (secondMoment d a (fun n => g n k i) (n + 1) + eps),
    fun k i => secondMoment d a (fun n => g n k i) N, ?_, fun k i => secondMoment_nonneg hd ha _ (fun n => (hg n k i).isNum) N,
    fun n k i => ?_⟩
  · refine exec_hist (scaleByRms d eps a) (mk σ p) σ g pp N
      (fun n => ⟨mk σ fun k i => secondMoment d a (fun n => g n k i) n⟩) _ (rms_init_mk σ p d eps a) (fun n _ => ?_)
    rw [rms_update_mk]
    rfl
  · exact mul_fin_num (hg n k i) (rsqrt_nonneg_fin he hf (secondMoment_nonneg hd ha _ (fun n => (hg n k i).isNum) (n + 1))).2

/-- the accumulator of AdaGrad along a history -/
noncomputable def sumSquares (a : FP F) (x : ℕ → FP F) : ℕ → FP F
  | 0 => a
  | n + 1 => x n * x n + sumSquares a x n

theorem sumSquares_nonneg {a : FP F} (ha : 0 ≤ a) (x : ℕ → FP F) (hx : ∀ n, IsNum (x n)) (n : ℕ) : 0 ≤ sumSquares a x n := by
  induction n with
  | zero => exact ha
  | succ n ih => exact FP.add_nonneg (FP.sq_nonneg (hx n)) ih

theorem invSqrtPos_nonneg_fin {eps v : FP F} (he : 0 < eps) (hf : IsFin (JOps.rsqrt eps : FP F)) (hv : 0 ≤ v) :
    0 ≤ invSqrtPos eps v ∧ IsFin (invSqrtPos eps v) := by
  unfold invSqrtPos
  split
  · exact rsqrt_nonneg_fin he hf hv
  · exact ⟨FP.le_refl num_zero, fin_zero⟩

theorem exec_rss (a eps : FP F) (σ : Spec) (p : ℕ → ℕ → FP F) (g : ℕ → ℕ → ℕ → FP F) (pp : ℕ → Option (Params (FP F))) (N : ℕ) :
    (scaleByRss a eps).exec (mk σ p) (hist σ g pp N) =
      .ok ((List.range N).map fun n => mk σ fun k i => invSqrtPos eps (sumSquares a (fun n => g n k i) (n + 1)) * g n k i,
        ⟨mk σ fun k i => sumSquares a (fun n => g n k i) N⟩) := by
  refine exec_hist (scaleByRss a eps) (mk σ p) σ g pp N
    (fun n => ⟨mk σ fun k i => sumSquares a (fun n => g n k i) n⟩) _ (rss_init_mk σ p a eps) (fun n _ => ?_)
  rw [rss_update_mk]
  rfl

/-- **C85.** AdaGrad's scaling likewise. -/
theorem C85_rss (a eps : FP F) (he : 0 < eps) (hf : IsFin (JOps.rsqrt eps : FP F)) (ha : 0 ≤ a)
    (σ : Spec) (p : ℕ → ℕ → FP F) (g : ℕ → ℕ → ℕ → FP F) (hg : ∀ n k i, IsFin (g n k i)) (pp : ℕ → Option (Params (FP F)))
    (N : ℕ) : ∃ (U : ℕ → ℕ → ℕ → FP F) (acc : ℕ → ℕ → FP F),
      (scaleByRss a eps).exec (mk σ p) (hist σ g pp N) = .ok ((List.range N).map fun n => mk σ (U n), ⟨mk σ acc⟩) ∧
      (∀ k i, 0 ≤ acc k i) ∧ ∀ n k i, IsNum (U n k i) := by
  refine ⟨_, _, exec_rss a eps σ p g pp N, fun k i => sumSquares_nonneg ha _ (fun n => (hg n k i).isNum) N, fun n k i => ?_⟩
  exact mul_fin_num (invSqrtPos_nonneg_fin he hf (sumSquares_nonneg ha _ (fun n => (hg n k i).isNum) (n + 1))).2 (hg n k i)

/-- the first moment `(1 - b) * x + b * m` along a history, from 0 -/
noncomputable def firstMoment (b : FP F) (x : ℕ → FP F) : ℕ → FP F
  | 0 => 0
  | n + 1 => (1 - b) * x n + b * firstMoment b x n

/-- What is asked of Adam's numbers.  `M` bounds the gradients and `C` is a bound that the computed first moments cannot leave;
`β` is a positive lower bound of the computed bias corrections `1 - b ** t` of the first moment. -/
structure AdamOK (b1 b2 eps er M C β : FP F) : Prop where
  d1 : Decay b1
  d2 : Decay b2
  eps_pos : 0 < eps
  eps_fin : IsFin eps
  er_nonneg : 0 ≤ er
  M_fin : IsFin M
  C_nonneg : 0 ≤ C
  C_fin : IsFin C
  /-- computed in floating point: from `|m| ≤ C` and `|g| ≤ M` the next moment is at most `C` … -/
  upper : (1 - b1) * M + b1 * C ≤ C
  /-- … and at least `-C` -/
  lower : -C ≤ (1 - b1) * (-M) + b1 * (-C)
  β_pos : 0 < β
  β_fin : IsFin β
  bias1 : ∀ n, β ≤ 1 - JOps.pow b1 (cnt (cntAt (n + 1)))
  bias2 : ∀ n, 0 < 1 - JOps.pow b2 (cnt (cntAt (n + 1)))
  /-- the largest bias corrected moment does not overflow -/
  top : IsFin (C / β)
  bot : IsFin ((-C) / β)

theorem FP.isFin_neg {a : FP F} (h : IsFin a) : IsFin (-a) := by
  obtain ⟨r, hr⟩ := (FP.isFin_iff a).1 h
  rw [FP.isFin_iff, neg_val, hr]; exact ⟨-r, rfl⟩

theorem FP.one_sub_fin {q : FP F} (h : 0 ≤ q) (hp : 0 < 1 - q) : IsFin (1 - q) := by
  have h1 : (1 - q) ≤ 1 := by
    rcases (FP.nonneg_iff q).1 h with hq | ⟨r, hr, hq⟩
    · have : (1 - q).1 = .ninf := by rw [sub_val, hq, one_val]; rfl
      rw [FP.pos_iff, this] at hp
      simp at hp
    · exact of_le (x := (1 : FP F).1 - q.1) (by rw [hq]; simp) num_one (by
          rw [hq, one_val, XReal.fin_sub]
          simp only [XReal.toE, EReal.coe_le_coe_iff]; linarith)
  exact fin_between fin_zero fin_one (lt_le hp) h1

theorem FP.pow_nonneg {b y : FP F} (hb : 0 ≤ b) (h : IsNum (JOps.pow b y : FP F)) : 0 ≤ (JOps.pow b y : FP F) := by
  have e : (JOps.pow b y : FP F) = of F (match b.1, y.1 with
    | .fin x, .fin y => .fin (F.pow x y)
    | _, _ => .nan) := rfl
  rw [e] at h ⊢
  rw [FP.nonneg_iff] at hb
  rcases hb with hb | ⟨r, hr, hb⟩
  · rw [hb] at h; exact absurd rfl (of_num.1 h)
  · rw [hb] at h ⊢
    cases hy : y.1 with
    | fin q => exact of_fin_nonneg (F.pow_nonneg r q hr)
    | _ => rw [hy] at h; exact absurd rfl (of_num.1 h)

theorem FP.one_sub_pow_fin {b y : FP F} (hd : Decay b) (hp : 0 < 1 - JOps.pow b y) : IsFin (1 - JOps.pow b y) := by
  refine FP.one_sub_fin (FP.pow_nonneg (lt_le hd.pos) ?_) hp
  rw [FP.isNum_iff]
  intro h
  have := (le_num (lt_le hp)).2
  rw [FP.isNum_iff, sub_val, h, one_val] at this
  exact this rfl

theorem firstMoment_bound {b1 b2 eps er M C β : FP F} (h : AdamOK b1 b2 eps er M C β) (x : ℕ → FP F)
    (hx : ∀ n, -M ≤ x n ∧ x n ≤ M) (n : ℕ) : -C ≤ firstMoment b1 x n ∧ firstMoment b1 x n ≤ C := by
  induction n with
  | zero => exact ⟨FP.neg_nonpos h.C_nonneg, h.C_nonneg⟩
  | succ n ih =>
    have hC := FP.isFin_neg h.C_fin
    have a1 := mul_mono_left h.d1.cpos h.d1.cfin (hx n).1
    have a2 := mul_mono_left h.d1.cpos h.d1.cfin (hx n).2
    have c1 := mul_mono_left h.d1.pos h.d1.fin ih.1
    have c2 := mul_mono_left h.d1.pos h.d1.fin ih.2
    have n1 := (le_num h.lower).2
    have n2 := (le_num h.upper).1
    have hnum : IsNum ((1 - b1) * x n + b1 * firstMoment b1 x n) := by
      -- a sum is NaN only for opposite infinities
      by_contra hc
      have e : ((1 - b1) * x n).1 + (b1 * firstMoment b1 x n).1 = .nan := by
        by_contra h'; exact hc (of_num.2 h')
      have f1 : ((1 - b1) * M).1 + (b1 * C).1 ≠ .nan := of_num.1 n2
      have f2 : ((1 - b1) * (-M)).1 + (b1 * (-C)).1 ≠ .nan := of_num.1 n1
      have g1 : ((1 - b1) * x n).1 ≠ .nan := (FP.isNum_iff _).1 (le_num a1).2
      have g2 : (b1 * firstMoment b1 x n).1 ≠ .nan := (FP.isNum_iff _).1 (le_num c1).2
      have u1 : ((1 - b1) * M + b1 * C).1 ≠ .pinf := by
        intro h'
        have := h.upper
        obtain ⟨c, hc'⟩ := (FP.isFin_iff C).1 h.C_fin
        rw [FP.le_iff, h', hc'] at this
        simp [XReal.toE] at this
      have u2 : ((1 - b1) * (-M) + b1 * (-C)).1 ≠ .ninf := by
        intro h'
        have := h.lower
        obtain ⟨c, hc'⟩ := (FP.isFin_iff _).1 hC
        rw [FP.le_iff, h', hc'] at this
        simp [XReal.toE] at this
      rw [FP.le_iff] at a1 a2 c1 c2
      rw [add_val] at u1 u2
      cases e1 : ((1 - b1) * x n).1 with
      | nan => exact g1 e1
      | fin r =>
        cases e2 : (b1 * firstMoment b1 x n).1 with
        | nan => exact g2 e2
        | fin q => rw [e1, e2] at e; simp at e
        | pinf => rw [e1, e2] at e; cases e
        | ninf => rw [e1, e2] at e; cases e
      | pinf =>
        cases e2 : (b1 * firstMoment b1 x n).1 with
        | nan => exact g2 e2
        | fin q => rw [e1, e2] at e; cases e
        | pinf => rw [e1, e2] at e; cases e
        | ninf =>
          rw [e1] at a2
          have hM : ((1 - b1) * M).1 = .pinf := XReal.toE_inj a2.2.1 (by simp) (top_le_iff.1 a2.2.2)
          rw [hM] at u1 f1
          cases e3 : (b1 * C).1 with
          | nan => rw [e3] at f1; exact f1 rfl
          | fin q => rw [e3] at u1; exact u1 rfl
          | pinf => rw [e3] at u1; exact u1 rfl
          | ninf => rw [e3] at f1; exact f1 rfl
      | ninf =>
        cases e2 : (b1 * firstMoment b1 x n).1 with
        | nan => exact g2 e2
        | fin q => rw [e1, e2] at e; cases e
        | ninf => rw [e1, e2] at e; cases e
        | pinf =>
          rw [e1] at a1
          have hM : ((1 - b1) * (-M)).1 = .ninf := XReal.toE_inj a1.1 (by simp) (le_bot_iff.1 a1.2.2)
          rw [hM] at u2 f2
          cases e3 : (b1 * (-C)).1 with
          | nan => rw [e3] at f2; exact f2 rfl
          | fin q => rw [e3] at u2; exact u2 rfl
          | ninf => rw [e3] at u2; exact u2 rfl
          | pinf => rw [e3] at f2; exact f2 rfl
    exact ⟨FP.le_trans h.lower (FP.add_mono a1 c1 n1 hnum), FP.le_trans (FP.add_mono a2 c2 hnum n2) h.upper⟩

theorem adam_quotient {b1 b2 eps er M C β m v bc1 bc2 : FP F} (h : AdamOK b1 b2 eps er M C β) (h1 : -C ≤ m) (h2 : m ≤ C)
    (hv : 0 ≤ v) (hb1 : β ≤ bc1) (hb2 : 0 < bc2) (hf2 : IsFin bc2) :
    (-C) / β / eps ≤ m / bc1 / (JOps.sqrt (v / bc2 + er) + eps) ∧
      m / bc1 / (JOps.sqrt (v / bc2 + er) + eps) ≤ C / β / eps := by
  have hC := FP.isFin_neg h.C_fin
  have hC0 := FP.neg_nonpos h.C_nonneg
  have q := div_bound (fin_between hC h.C_fin h1 h2) hC h.C_fin h1 h2 hC0 h.C_nonneg h.β_pos h.β_fin hb1
  have hD : eps ≤ JOps.sqrt (v / bc2 + er) + eps :=
    le_add (FP.sqrt_nonneg (FP.add_nonneg (div_nonneg_of_pos hv hb2 hf2) h.er_nonneg)) (lt_le h.eps_pos)
  have z := div_bound (m := (0 : FP F)) fin_zero hC h.C_fin hC0 h.C_nonneg hC0 h.C_nonneg h.β_pos h.β_fin
    (FP.le_refl h.β_fin.isNum)
  rw [FP.zero_div h.β_fin.isNum (FP.pos_ne_zero h.β_pos)] at z
  exact div_bound (fin_between h.bot h.top q.1 q.2) h.bot h.top q.1 q.2 z.1 z.2 h.eps_pos h.eps_fin hD

/-- **C85.** Adam in floating point: for gradients within `[-M, M]` at every step of every history, the second moments are never
negative (but possibly `+∞`), the first moments stay within `[-C, C]`, and every entry of every update is a number, within the
floating point bounds `(∓C / β) / eps`. -/
theorem C85_adam (b1 b2 eps er M C β : FP F) (h : AdamOK b1 b2 eps er M C β)
    (σ : Spec) (p : ℕ → ℕ → FP F) (g : ℕ → ℕ → ℕ → FP F) (hg : ∀ n k i, -M ≤ g n k i ∧ g n k i ≤ M)
    (pp : ℕ → Option (Params (FP F))) (N : ℕ) : ∃ (U : ℕ → ℕ → ℕ → FP F) (mu nu : ℕ → ℕ → FP F),
      (scaleByAdam b1 b2 eps er).exec (mk σ p) (hist σ g pp N) =
        .ok ((List.range N).map fun n => mk σ (U n), ⟨cntAt N, mk σ mu, mk σ nu⟩) ∧
      (∀ k i, 0 ≤ nu k i) ∧ (∀ k i, -C ≤ mu k i ∧ mu k i ≤ C) ∧
      ∀ n k i, (-C) / β / eps ≤ U n k i ∧ U n k i ≤ C / β / eps := by
  have hnum : ∀ n k i, IsNum (g n k i) := fun n k i => (le_num (hg n k i).1).2
  have hnu := fun k i n => secondMoment_nonneg h.d2 (FP.le_refl num_zero) (fun n => g n k i) (fun n => hnum n k i) n
  have hmu := fun k i n => firstMoment_bound h (fun n => g n k i) (fun n => hg n k i) n
  refine ⟨fun n k i => firstMoment b1 (fun n => g n k i) (n + 1) / (1 - JOps.pow b1 (cnt (cntAt (n + 1)))) /
    (JOps.sqrt (secondMoment b2 0 (fun n => g n k i) (n + 1) / (1 - JOps.pow b2 (cnt (cntAt (n + 1)))) + er) + eps),
    fun k i => firstMoment b1 (fun n => g n k i) N,
    fun k i => secondMoment b2 0 (fun n => g n k i) N, ?_, fun k i => hnu k i N, fun k i => hmu k i N, fun n k i => ?_⟩
  · refine exec_hist (scaleByAdam b1 b2 eps er) (mk σ p) σ g pp N
      (fun n => ⟨cntAt n, mk σ fun k i => firstMoment b1 (fun n => g n k i) n,
        mk σ fun k i => secondMoment b2 0 (fun n => g n k i) n⟩) _ (adam_init_mk σ p b1 b2 eps er) (fun n _ => ?_)
    rw [adam_update_mk, safeInt32Increment_cntAt]
    rfl
  · exact adam_quotient h (hmu k i (n + 1)).1 (hmu k i (n + 1)).2 (hnu k i (n + 1)) (h.bias1 n) (h.bias2 n)
      (FP.one_sub_pow_fin h.d2 (h.bias2 n))

/-- **C85.** AdaBelief likewise: its second moment is that of `g - mu`. -/
theorem C85_belief (b1 b2 eps er M C β : FP F) (h : AdamOK b1 b2 eps er M C β)
    (σ : Spec) (p : ℕ → ℕ → FP F) (g : ℕ → ℕ → ℕ → FP F) (hg : ∀ n k i, -M ≤ g n k i ∧ g n k i ≤ M)
    (pp : ℕ → Option (Params (FP F))) (N : ℕ) : ∃ (U : ℕ → ℕ → ℕ → FP F) (mu nu : ℕ → ℕ → FP F),
      (scaleByBelief b1 b2 eps er).exec (mk σ p) (hist σ g pp N) =
        .ok ((List.range N).map fun n => mk σ (U n), ⟨cntAt N, mk σ mu, mk σ nu⟩) ∧
      (∀ k i, 0 ≤ nu k i) ∧ (∀ k i, -C ≤ mu k i ∧ mu k i ≤ C) ∧
      ∀ n k i, (-C) / β / eps ≤ U n k i ∧ U n k i ≤ C / β / eps := by
  have hmu := fun k i n => firstMoment_bound h (fun n => g n k i) (fun n => hg n k i) n
  have hfin : ∀ n k i, IsFin (g n k i) := fun n k i =>
    fin_between (FP.isFin_neg h.M_fin) h.M_fin (hg n k i).1 (hg n k i).2
  have hmf : ∀ k i n, IsFin (firstMoment b1 (fun n => g n k i) n) := fun k i n =>
    fin_between (FP.isFin_neg h.C_fin) h.C_fin (hmu k i n).1 (hmu k i n).2
  have hnu := fun k i n => secondMoment_nonneg h.d2 (FP.le_refl num_zero)
    (fun n => g n k i - firstMoment b1 (fun n => g n k i) n) (fun n => sub_fin_num (hfin n k i) (hmf k i n)) n
  refine ⟨fun n k i => firstMoment b1 (fun n => g n k i) (n + 1) / (1 - JOps.pow b1 (cnt (cntAt (n + 1)))) /
    (JOps.sqrt (secondMoment b2 0 (fun n => g n k i - firstMoment b1 (fun n => g n k i) n) (n + 1) /
      (1 - JOps.pow b2 (cnt (cntAt (n + 1)))) + er) + eps),
    fun k i => firstMoment b1 (fun n => g n k i) N,
    fun k i => secondMoment b2 0 (fun n => g n k i - firstMoment b1 (fun n => g n k i) n) N, ?_, fun k i => hnu k i N,
    fun k i => hmu k i N, fun n k i => ?_⟩
  · refine exec_hist (scaleByBelief b1 b2 eps er) (mk σ p) σ g pp N
      (fun n => ⟨cntAt n, mk σ fun k i => firstMoment b1 (fun n => g n k i) n,
        mk σ fun k i => secondMoment b2 0 (fun n => g n k i - firstMoment b1 (fun n => g n k i) n) n⟩) _
      (belief_init_mk σ p b1 b2 eps er) (fun n _ => ?_)
    rw [belief_update_mk, safeInt32Increment_cntAt]
    rfl
  · exact adam_quotient h (hmu k i (n + 1)).1 (hmu k i (n + 1)).2 (hnu k i (n + 1)) (h.bias1 n) (h.bias2 n)
      (FP.one_sub_pow_fin h.d2 (h.bias2 n))

/-! ## C86: overflow freezes the adaptive methods -/

theorem secondMoment_inf {d a : FP F} (hd : Decay d) (ha : 0 ≤ a) (x : ℕ → FP F) (hx : ∀ n, IsNum (x n)) (m : ℕ)
    (hm : ¬ IsFin (x m * x m)) (n : ℕ) (hn : m < n) : secondMoment d a x n = FP.inf := by
  induction n with
  | zero => omega
  | succ n ih =>
    have hv := secondMoment_nonneg hd ha x hx n
    rw [secondMoment]
    rcases Nat.lt_succ_iff_lt_or_eq.1 hn with h | h
    · rw [ih h, mul_inf hd.pos, add_inf (FP.mul_nonneg hd.cpos hd.cfin (FP.sq_nonneg (hx n)))]
    · subst h
      rw [nonneg_not_fin (FP.sq_nonneg (hx m)) hm, mul_inf hd.cpos, inf_add (FP.mul_nonneg hd.pos hd.fin hv)]

theorem sumSquares_inf {a : FP F} (ha : 0 ≤ a) (x : ℕ → FP F) (hx : ∀ n, IsNum (x n)) (m : ℕ)
    (hm : ¬ IsFin (x m * x m)) (n : ℕ) (hn : m < n) : sumSquares a x n = FP.inf := by
  induction n with
  | zero => omega
  | succ n ih =>
    have hv := sumSquares_nonneg ha x hx n
    rw [sumSquares]
    rcases Nat.lt_succ_iff_lt_or_eq.1 hn with h | h
    · rw [ih h, add_inf (FP.sq_nonneg (hx n))]
    · subst h
      rw [nonneg_not_fin (FP.sq_nonneg (hx m)) hm, inf_add hv]

/-- **C86.** RMSProp's scaling: if the square of one finite gradient entry overflows at step `m`, the update of that entry is
exactly 0 at step `m` and for ever after, whatever finite gradients follow. -/
theorem C86_rms (d eps a : FP F) (hd : Decay d) (he : 0 ≤ eps) (ha : 0 ≤ a) (σ : Spec) (p : ℕ → ℕ → FP F)
    (g : ℕ → ℕ → ℕ → FP F) (hg : ∀ n k i, IsFin (g n k i)) (pp : ℕ → Option (Params (FP F))) (N : ℕ) :
    ∃ (U : ℕ → ℕ → ℕ → FP F) (s : _),
      (scaleByRms d eps a).exec (mk σ p) (hist σ g pp N) = .ok ((List.range N).map fun n => mk σ (U n), s) ∧
      ∀ m k i, ¬ IsFin (g m k i * g m k i) → ∀ n, m ≤ n → U n k i = 0 := by
  refine ⟨fun n k i => g n k i * JOps.rsqrt (secondMoment d a (fun n => g n k i) (n + 1) + eps),
    ⟨mk σ fun k i => secondMoment d a (fun n => g n k i) N⟩, ?_, fun m k i hm n hn => ?_⟩
  · refine exec_hist (scaleByRms d eps a) (mk σ p) σ g pp N
      (fun n => ⟨mk σ fun k i => secondMoment d a (fun n => g n k i) n⟩) _ (rms_init_mk σ p d eps a) (fun n _ => ?_)
    rw [rms_update_mk]
    rfl
  · dsimp only
    rw [secondMoment_inf hd ha (fun n => g n k i) (fun n => (hg n k i).isNum) m hm (n + 1) (by omega), inf_add he, rsqrt_inf,
      FP.mul_zero (hg n k i)]

theorem invSqrtPos_inf {eps : FP F} (he : 0 ≤ eps) : invSqrtPos eps FP.inf = (0 : FP F) := by
  unfold invSqrtPos
  split
  · rw [inf_add he, rsqrt_inf]
  · rfl

/-- **C86.** AdaGrad likewise. -/
theorem C86_rss (a eps : FP F) (he : 0 ≤ eps) (ha : 0 ≤ a) (σ : Spec) (p : ℕ → ℕ → FP F)
    (g : ℕ → ℕ → ℕ → FP F) (hg : ∀ n k i, IsFin (g n k i)) (pp : ℕ → Option (Params (FP F))) (N : ℕ) :
    ∃ (U : ℕ → ℕ → ℕ → FP F) (s : _),
      (scaleByRss a eps).exec (mk σ p) (hist σ g pp N) = .ok ((List.range N).map fun n => mk σ (U n), s) ∧
      ∀ m k i, ¬ IsFin (g m k i * g m k i) → ∀ n, m ≤ n → U n k i = 0 := by
  refine ⟨_, _, exec_rss a eps σ p g pp N, fun m k i hm n hn => ?_⟩
  rw [sumSquares_inf ha (fun n => g n k i) (fun n => (hg n k i).isNum) m hm (n + 1) (by omega), invSqrtPos_inf he,
    FP.zero_mul (hg n k i)]

/-- **C86.** Adam likewise (with `AdamOK`, so that the first moment does not overflow, too). -/
theorem C86_adam (b1 b2 eps er M C β : FP F) (h : AdamOK b1 b2 eps er M C β)
    (σ : Spec) (p : ℕ → ℕ → FP F) (g : ℕ → ℕ → ℕ → FP F) (hg : ∀ n k i, -M ≤ g n k i ∧ g n k i ≤ M)
    (pp : ℕ → Option (Params (FP F))) (N : ℕ) : ∃ (U : ℕ → ℕ → ℕ → FP F) (s : _),
      (scaleByAdam b1 b2 eps er).exec (mk σ p) (hist σ g pp N) = .ok ((List.range N).map fun n => mk σ (U n), s) ∧
      ∀ m k i, ¬ IsFin (g m k i * g m k i) → ∀ n, m ≤ n → U n k i = 0 := by
  have hnum : ∀ n k i, IsNum (g n k i) := fun n k i => (le_num (hg n k i).1).2
  have hmu := fun k i n => firstMoment_bound h (fun n => g n k i) (fun n => hg n k i) n
  refine ⟨fun n k i => firstMoment b1 (fun n => g n k i) (n + 1) / (1 - JOps.pow b1 (cnt (cntAt (n + 1)))) /
    (JOps.sqrt (secondMoment b2 0 (fun n => g n k i) (n + 1) / (1 - JOps.pow b2 (cnt (cntAt (n + 1)))) + er) + eps),
    ⟨cntAt N, mk σ fun k i => firstMoment b1 (fun n => g n k i) N,
    mk σ fun k i => secondMoment b2 0 (fun n => g n k i) N⟩, ?_, fun m k i hm n hn => ?_⟩
  · refine exec_hist (scaleByAdam b1 b2 eps er) (mk σ p) σ g pp N
      (fun n => ⟨cntAt n, mk σ fun k i => firstMoment b1 (fun n => g n k i) n,
        mk σ fun k i => secondMoment b2 0 (fun n => g n k i) n⟩) _ (adam_init_mk σ p b1 b2 eps er) (fun n _ => ?_)
    rw [adam_update_mk, safeInt32Increment_cntAt]
    rfl
  · dsimp only
    have hC := FP.isFin_neg h.C_fin
    have hm' := hmu k i (n + 1)
    have q := div_bound (fin_between hC h.C_fin hm'.1 hm'.2) hC h.C_fin hm'.1 hm'.2 (FP.neg_nonpos h.C_nonneg) h.C_nonneg
      h.β_pos h.β_fin (h.bias1 n)
    rw [secondMoment_inf h.d2 (FP.le_refl num_zero) (fun n => g n k i) (fun n => hnum n k i) m hm (n + 1) (by omega),
      inf_div (h.bias2 n) (FP.one_sub_pow_fin h.d2 (h.bias2 n)), inf_add h.er_nonneg, sqrt_inf, inf_add (lt_le h.eps_pos),
      div_inf (fin_between h.bot h.top q.1 q.2)]

theorem sum_nonneg_fp (l : List (FP F)) (h : ∀ x ∈ l, 0 ≤ x) : 0 ≤ l.sum := by
  induction l with
  | nil => exact FP.le_refl num_zero
  | cons a l ih =>
    rw [List.sum_cons]
    exact FP.add_nonneg (h a (by simp)) (ih fun x hx => h x (by simp [hx]))

theorem globalNorm_nonneg_fp (σ : Spec) (g : ℕ → ℕ → FP F) (hg : ∀ k i, IsNum (g k i)) : 0 ≤ globalNorm (mk σ g) := by
  unfold globalNorm
  refine FP.sqrt_nonneg (sum_nonneg_fp _ fun x hx => ?_)
  obtain ⟨t, ht, rfl⟩ := List.mem_map.1 hx
  unfold mk PyTree.mapIdx at ht
  rw [PyTree.leaves_mapIdxFrom, List.mem_mapIdx] at ht
  obtain ⟨k, hk, rfl⟩ := ht
  refine sum_nonneg_fp _ fun y hy => ?_
  simp only [Tensor.map, Tensor.tens, List.map_map, List.mem_map] at hy
  obtain ⟨i, -, rfl⟩ := hy
  exact FP.sq_nonneg (hg _ _)

/-- **C86.** `clip_by_global_norm`: if the global norm of finite gradients overflows, all updates are exactly 0. -/
theorem C86_clip_by_global_norm (c : FP F) (hc : IsFin c) (σ : Spec) (g : ℕ → ℕ → FP F) (hg : ∀ k i, IsFin (g k i))
    (s : EmptyState) (pp : Option (Params (FP F))) (hn : ¬ IsFin (globalNorm (mk σ g))) :
    (clipByGlobalNorm c).update (mk σ g) s pp = .ok (mk σ fun _ _ => 0, s) := by
  rw [clipByGlobalNorm_update_mk]
  have h0 : globalNorm (mk σ g) = FP.inf := nonneg_not_fin (globalNorm_nonneg_fp σ g fun k i => (hg k i).isNum) hn
  have h1 : ¬ (JOps.lt (globalNorm (mk σ g)) c = true) := by
    rw [h0, FP.jlt_iff, FP.not_lt (le_num nonneg_inf).2 hc.isNum]
    exact le_inf hc.isNum
  congr 2
  exact mk_congr fun k s _ i _ => by rw [if_neg h1, h0, div_inf (hg k i), FP.zero_mul hc]

/-! ## C87: AdaGrad's step sizes -/

theorem sumSquares_mono {a : FP F} (ha : 0 ≤ a) (x : ℕ → FP F) (hx : ∀ n, IsNum (x n)) {m n : ℕ} (h : m ≤ n) :
    sumSquares a x m ≤ sumSquares a x n := by
  induction n, h using Nat.le_induction with
  | base => exact FP.le_refl (le_num (sumSquares_nonneg ha x hx m)).2
  | succ n _ ih => exact FP.le_trans ih (le_add (FP.sq_nonneg (hx n)) (sumSquares_nonneg ha x hx n))

/-- the values of `scale_by_rss`' accumulator and step factors over time -/
theorem rsqrt_anti_fp {v w eps : FP F} (he : 0 ≤ eps) (hv : 0 < v) (h : v ≤ w) :
    (JOps.rsqrt (w + eps) : FP F) ≤ JOps.rsqrt (v + eps) := by
  have hw := lt_of_lt_of_le hv h
  have hv1 : 0 ≤ v + eps := FP.add_nonneg (lt_le hv) he
  have hw1 : 0 ≤ w + eps := FP.add_nonneg (lt_le hw) he
  have hle : v + eps ≤ w + eps := FP.add_mono h (FP.le_refl (le_num he).2) (le_num hv1).2 (le_num hw1).2
  have hpos : 0 < v + eps := by
    have : v ≤ v + eps := by
      have := le_add he (lt_le hv)
      have e : v + eps = eps + v := FP.ext (by rw [add_val, add_val, XReal.add_comm'])
      rwa [e]
    exact lt_of_lt_of_le hv this
  generalize v + eps = x at *
  generalize w + eps = y at *
  have key : ∀ z : FP F, (JOps.rsqrt z : FP F) = of F (XReal.lift (fun r => if r < 0 then .nan else if r = 0 then .pinf else
    .fin (F.rsqrt r)) (.fin 0) .nan z.1) := fun _ => rfl
  rcases (FP.pos_iff x).1 hpos with hx | ⟨r, hr, hx⟩
  · have hx' : x = FP.inf := eq_inf_iff.2 hx
    rw [hx'] at hle ⊢
    rw [inf_le hle]
    exact FP.le_refl num_zero
  · have ex : (JOps.rsqrt x : FP F) = of F (.fin (F.rsqrt r)) := by
      rw [key, hx]; simp only [XReal.lift, if_neg (not_lt.2 hr.le), if_neg hr.ne']
    rw [ex]
    rcases (FP.pos_iff y).1 (lt_of_lt_of_le hpos hle) with hy | ⟨q, hq, hy⟩
    · rw [eq_inf_iff.2 hy]
      exact of_fin_nonneg (F.rsqrt_nonneg r hr)
    · have ey : (JOps.rsqrt y : FP F) = of F (.fin (F.rsqrt q)) := by
        rw [key, hy]; simp only [XReal.lift, if_neg (not_lt.2 hq.le), if_neg hq.ne']
      rw [ey]
      exact of_fin_mono (F.rsqrt_anti r q hr ((le_fin hx hy).1 hle))

/-- **C87.** AdaGrad in floating point (initial accumulator positive): for every history of finite gradients each update entry is
its gradient entry times a factor that is non-negative and never increases from one step to a later one, and the accumulators
never decrease. -/
theorem C87_adagrad (a eps : FP F) (he : 0 ≤ eps) (ha : 0 < a) (σ : Spec) (p : ℕ → ℕ → FP F) (g : ℕ → ℕ → ℕ → FP F)
    (hg : ∀ n k i, IsFin (g n k i)) (pp : ℕ → Option (Params (FP F))) :
    ∃ (c acc : ℕ → ℕ → ℕ → FP F),
      (∀ N, (scaleByRss a eps).exec (mk σ p) (hist σ g pp N) =
        .ok ((List.range N).map fun n => mk σ fun k i => c n k i * g n k i, ⟨mk σ (acc N)⟩)) ∧
      (∀ k i, acc 0 k i = a) ∧
      (∀ m n k i, m ≤ n → acc m k i ≤ acc n k i ∧ c n k i ≤ c m k i) ∧ ∀ n k i, 0 ≤ c n k i := by
  have hx := fun k i n => (hg n k i).isNum
  have ha0 := lt_le ha
  have hpos : ∀ k i n, 0 < sumSquares a (fun n => g n k i) n := fun k i n =>
    lt_of_lt_of_le (b := sumSquares a (fun n => g n k i) 0) ha (sumSquares_mono ha0 _ (hx k i) (Nat.zero_le n))
  have hfac : ∀ k i n, invSqrtPos eps (sumSquares a (fun n => g n k i) n) =
      JOps.rsqrt (sumSquares a (fun n => g n k i) n + eps) := fun k i n => if_pos (hpos k i n)
  refine ⟨_, fun N k i => sumSquares a (fun n => g n k i) N, fun N => exec_rss a eps σ p g pp N, fun _ _ => rfl,
    fun m n k i h => ⟨sumSquares_mono ha0 _ (hx k i) h, ?_⟩, fun n k i => ?_⟩
  · rw [hfac, hfac]
    exact rsqrt_anti_fp he (hpos k i _) (sumSquares_mono ha0 _ (hx k i) (by omega))
  · rw [hfac]
    have := rsqrt_anti_fp he (hpos k i (n + 1)) (le_inf (le_num (lt_le (hpos k i (n + 1)))).2)
    rwa [inf_add he, rsqrt_inf] at this

/-! ## the hypotheses are met in single precision -/

section Examples

/-- `2^e` in single precision -/
noncomputable def p32 (e : ℤ) : FP Format.float32 := of Format.float32 (.fin (2 ^ e))

theorem p32_rep {e : ℤ} (h1 : -149 ≤ e) (h2 : e ≤ 104) : Format.float32.rnd (2 ^ e) = .fin (2 ^ e) := by
  have := Format.float32_mem 1 e (by norm_num) h1 h2
  rwa [Int.cast_one, _root_.one_mul] at this

theorem p32_half : p32 (-1) = of Format.float32 (.fin (1 / 2)) := by
  unfold p32; congr 2; norm_num

theorem p32_mul {a b : ℤ} (ha : -149 ≤ a) (ha' : a ≤ 104) (hb : -149 ≤ b) (hb' : b ≤ 104) : p32 a * p32 b = p32 (a + b) := by
  unfold p32
  rw [of_mul_of (p32_rep ha ha') (p32_rep hb hb'), zpow_add₀ (by norm_num)]

theorem one_sub_half : (1 : FP Format.float32) - p32 (-1) = p32 (-1) := by
  unfold p32
  rw [one_eq_of, of_sub_of Format.float32.rnd_one (p32_rep (by norm_num) (by norm_num))]
  congr 2; norm_num

theorem decay_half : Decay (p32 (-1)) := by
  have hr := p32_rep (e := -1) (by norm_num) (by norm_num)
  exact ⟨of_pos_of hr (by norm_num), of_fin_of hr, by rw [one_sub_half]; exact of_pos_of hr (by norm_num),
    by rw [one_sub_half]; exact of_fin_of hr⟩

/-- Adam with `b1 = b2 = 1/2`, `eps = 2^-26` and gradients up to `2^65` in single precision meets `AdamOK` -/
example : AdamOK (p32 (-1)) (p32 (-1)) (p32 (-26)) 0 (p32 65) (p32 66) (p32 (-1)) where
  d1 := decay_half
  d2 := decay_half
  eps_pos := of_pos_of (p32_rep (by norm_num) (by norm_num)) (by positivity)
  eps_fin := of_fin_of (p32_rep (by norm_num) (by norm_num))
  er_nonneg := FP.le_refl num_zero
  M_fin := of_fin_of (p32_rep (by norm_num) (by norm_num))
  C_nonneg := of_fin_nonneg (by positivity)
  C_fin := of_fin_of (p32_rep (by norm_num) (by norm_num))
  upper := by
    rw [one_sub_half, p32_mul (by norm_num) (by norm_num) (by norm_num) (by norm_num),
      p32_mul (by norm_num) (by norm_num) (by norm_num) (by norm_num)]
    unfold p32
    rw [of_add_of (p32_rep (by norm_num) (by norm_num)) (p32_rep (by norm_num) (by norm_num))]
    exact of_fin_mono (by norm_num)
  lower := by
    rw [one_sub_half]
    unfold p32
    have h65 := p32_rep (e := 65) (by norm_num) (by norm_num)
    have h66 := p32_rep (e := 66) (by norm_num) (by norm_num)
    have h64 := p32_rep (e := 64) (by norm_num) (by norm_num)
    have hh := p32_rep (e := -1) (by norm_num) (by norm_num)
    have e1 : (2 : ℝ) ^ (-1 : ℤ) * -2 ^ (65 : ℤ) = -2 ^ (64 : ℤ) := by norm_num
    have e2 : (2 : ℝ) ^ (-1 : ℤ) * -2 ^ (66 : ℤ) = -2 ^ (65 : ℤ) := by norm_num
    rw [neg_of h65, neg_of h66, of_mul_of hh (Format.float32.rnd_neg _ h65), of_mul_of hh (Format.float32.rnd_neg _ h66), e1, e2,
      of_add_of (Format.float32.rnd_neg _ h64) (Format.float32.rnd_neg _ h65)]
    exact of_fin_mono (by norm_num)
  β_pos := of_pos_of (p32_rep (by norm_num) (by norm_num)) (by positivity)
  β_fin := of_fin_of (p32_rep (by norm_num) (by norm_num))
  bias1 n := by rw [p32_half]; exact float32_bias_half n
  bias2 n := by
    rw [p32_half]
    exact lt_of_lt_of_le (of_pos_of Format.float32_half (by norm_num)) (float32_bias_half n)
  top := by
    unfold p32
    rw [of_div_of (p32_rep (by norm_num) (by norm_num)) (p32_rep (by norm_num) (by norm_num)) (by positivity),
      show (2 : ℝ) ^ (66 : ℤ) / 2 ^ (-1 : ℤ) = 2 ^ (67 : ℤ) by norm_num]
    exact of_fin_of (p32_rep (by norm_num) (by norm_num))
  bot := by
    unfold p32
    rw [neg_of (p32_rep (by norm_num) (by norm_num)),
      of_div_of (Format.float32.rnd_neg _ (p32_rep (by norm_num) (by norm_num))) (p32_rep (by norm_num) (by norm_num))
        (by positivity), show -(2 : ℝ) ^ (66 : ℤ) / 2 ^ (-1 : ℤ) = -2 ^ (67 : ℤ) by norm_num]
    exact of_fin_of (Format.float32.rnd_neg _ (p32_rep (by norm_num) (by norm_num)))

/-- … and the finite gradient `2^65` has an overflowing square, so `C86` applies to it -/
example : IsFin (p32 65) ∧ ¬ IsFin (p32 65 * p32 65) := by
  have h65 := p32_rep (e := 65) (by norm_num) (by norm_num)
  refine ⟨of_fin_of h65, ?_⟩
  unfold p32
  rw [of_mul_of h65 h65, FP.isFin_iff]
  rintro ⟨r, hr⟩
  have : Format.float32.rnd ((2 : ℝ) ^ (65 : ℤ) * 2 ^ (65 : ℤ)) = .fin r := hr
  rw [Format.float32_overflow (by norm_num)] at this
  cases this

/-- `rsqrt(eps)` is finite for `eps = 2^-20` (the hypothesis of `C85_rms` and `C85_rss`) -/
example : 0 < p32 (-20) ∧ IsFin (JOps.rsqrt (p32 (-20)) : FP Format.float32) := by
  have h := p32_rep (e := -20) (by norm_num) (by norm_num)
  refine ⟨of_pos_of h (by positivity), ?_⟩
  have e : (JOps.rsqrt (p32 (-20)) : FP Format.float32) = of Format.float32 (XReal.lift (fun r => if r < 0 then .nan else
    if r = 0 then .pinf else .fin (1 / Real.sqrt r)) (.fin 0) .nan (Format.float32.rnd (2 ^ (-20 : ℤ)))) := rfl
  have hs : 1 / Real.sqrt ((2 : ℝ) ^ (-20 : ℤ)) = 2 ^ (10 : ℤ) := by
    rw [show (2 : ℝ) ^ (-20 : ℤ) = ((2 : ℝ) ^ (-10 : ℤ)) ^ 2 by norm_num, Real.sqrt_sq (by positivity)]
    norm_num
  rw [e, h]
  simp only [XReal.lift]
  rw [if_neg (by norm_num), if_neg (by norm_num), hs]
  exact of_fin_of (p32_rep (by norm_num) (by norm_num))

end Examples

end Optax
