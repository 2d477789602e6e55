import Verif.Props.FloatStationary
import Verif.Props.FloatSchedule
import Verif.Props.FloatSgd
import Verif.Props.Downhill

/-!
# C142: rounding never turns a step uphill

In every floating point format, the updates emitted for finite gradients are numbers whose sign is that of the negated gradient, or zero, and adding them
never moves a parameter the wrong way, whatever overflows or underflows on the way.
-/

set_option linter.unusedSectionVars false
set_option linter.unusedSimpArgs false

namespace Optax
open FP
variable {F : Format}

/-- **Specification.** For every history of finite gradients, every entry of every update is a number (not NaN), `≤ 0` where the gradient is `≥ 0` and `≥ 0` where it is `≤ 0`;
so a finite parameter does not increase where its gradient is `≥ 0` and does not decrease where it is `≤ 0`. -/
def NeverUphill (σ : Spec) (t : GT (FP F)) : Prop :=
  ∀ (N : ℕ) (p0 : ℕ → ℕ → FP F) (g p : ℕ → ℕ → ℕ → FP F), (∀ n k i, IsFin (g n k i)) → ∃ U : ℕ → ℕ → ℕ → FP F,
    t.outs (mk σ p0) (hist σ g (fun n => some (mk σ (p n))) N) = .ok ((List.range N).map (fun n => mk σ (U n))) ∧
    ∀ n < N, ∀ k i, IsNum (U n k i) ∧ (0 ≤ g n k i → U n k i ≤ 0) ∧ (g n k i ≤ 0 → 0 ≤ U n k i) ∧
      ∀ x : FP F, IsFin x → (0 ≤ g n k i → x + U n k i ≤ x) ∧ (g n k i ≤ 0 → x ≤ x + U n k i)

/-- same or opposite sign, weakly -/
def SignOf (pos : Bool) (u g : FP F) : Prop :=
  if pos then IsNum u ∧ (0 ≤ g → 0 ≤ u) ∧ (g ≤ 0 → u ≤ 0) else IsNum u ∧ (0 ≤ g → u ≤ 0) ∧ (g ≤ 0 → 0 ≤ u)

/-- invariant form: on inputs whose entries satisfy `A`, the outputs have the (opposite) sign and satisfy `B` -/
def Signed (pos : Bool) (A B : FP F → Prop) (t : GT (FP F)) : Prop :=
  ∀ σ : Spec, ∃ I : t.State → Prop, (∀ p, ∃ s, t.init (mk σ p) = .ok s ∧ I s) ∧
    ∀ g s pp, I s → (∀ k i, A (g k i)) → ∃ u s', t.update (mk σ g) s pp = .ok (mk σ u, s') ∧ I s' ∧ ∀ k i, SignOf pos (u k i) (g k i) ∧ B (u k i)

theorem SignOf.trans {a b : Bool} {u v g : FP F} (h : SignOf a v g) (h' : SignOf b u v) : SignOf (a == b) u g := by
  unfold SignOf at *
  cases a <;> cases b <;> simp only [Bool.false_eq_true, if_false, if_true, beq_self_eq_true, Bool.not_false, Bool.not_true] at *
  · exact ⟨h'.1, fun x => h'.2.2 (h.2.1 x), fun x => h'.2.1 (h.2.2 x)⟩
  · exact ⟨h'.1, fun x => h'.2.2 (h.2.1 x), fun x => h'.2.1 (h.2.2 x)⟩
  · exact ⟨h'.1, fun x => h'.2.1 (h.2.1 x), fun x => h'.2.2 (h.2.2 x)⟩
  · exact ⟨h'.1, fun x => h'.2.1 (h.2.1 x), fun x => h'.2.2 (h.2.2 x)⟩

theorem SignOf.refl {g : FP F} (h : IsNum g) : SignOf true g g := ⟨h, id, id⟩

theorem Signed.nil {A : FP F → Prop} (hA : ∀ x, A x → IsNum x) : Signed true A A (chain ([] : List (GT (FP F)))) := fun σ =>
  ⟨fun s => s = (0 : ℕ), fun p => ⟨(0 : ℕ), rfl, rfl⟩, by
    rintro g s pp rfl hg
    exact ⟨g, (0 : ℕ), rfl, rfl, fun k i => ⟨SignOf.refl (hA _ (hg k i)), hg k i⟩⟩⟩

theorem Signed.cons {a b : Bool} {A B C : FP F → Prop} {t : GT (FP F)} {ts : List (GT (FP F))} (ht : Signed a A B t) (hts : Signed b B C (chain ts)) :
    Signed (a == b) A C (chain (t :: ts)) := by
  intro σ
  obtain ⟨I, h1, h2⟩ := ht σ
  obtain ⟨J, h3, h4⟩ := hts σ
  refine ⟨fun s => ∃ a r, s = some (a, r) ∧ I a ∧ J r ∧ ChainState.length ts r = ts.length, ?_, ?_⟩
  · intro p
    obtain ⟨a, ha, hI⟩ := h1 p
    obtain ⟨r, hr, hJ⟩ := h3 p
    refine ⟨some (a, r), ?_, a, r, rfl, hI, hJ, ?_⟩
    · show chainInit (t :: ts) (mk σ p) = _
      simp only [chainInit, ha, Res.ok_bind]
      have hr' : chainInit ts (mk σ p) = .ok r := hr
      rw [hr']; rfl
    · exact chain_length_init ts _ r hr
  · rintro g s pp ⟨a, r, rfl, hI, hJ, hl⟩ hq
    obtain ⟨u, a', hu, hI', hc⟩ := h2 g a pp hI hq
    obtain ⟨u', r', hu', hJ', hc'⟩ := h4 u r pp hJ (fun k i => (hc k i).2)
    have e : chainLoop ts (mk σ u) r pp = .ok (mk σ u', r') := by
      simpa [Optax.chain, hl] using hu'
    refine ⟨u', some (a', r'), ?_, ⟨a', r', rfl, hI', hJ', chainLoop_length ts _ r pp hl e⟩, fun k i => ⟨(hc k i).1.trans (hc' k i).1, (hc' k i).2⟩⟩
    simp only [Optax.chain, ChainState.length, List.length_cons, hl, Nat.add_comm, ne_eq,
      not_true_eq_false, if_false, chainLoop, hu, Res.ok_bind, e]
    rfl

theorem FP.add_le_self {x u : FP F} (hx : IsFin x) (hu : u ≤ 0) : x + u ≤ x := by
  obtain ⟨r, hr⟩ := (isFin_iff x).1 hx
  have hn := (le_num hu).1
  rw [isNum_iff] at hn
  rw [FP.le_iff, zero_val] at hu
  have h : x.1 + u.1 ≠ .nan := by
    rw [hr]
    cases hv : u.1 <;> simp_all [HAdd.hAdd, Add.add]
    all_goals (intro h; cases h)
  refine of_le h hx.isNum ?_
  rw [XReal.add_toE h]
  have := hu.2.2
  calc x.1.toE + u.1.toE ≤ x.1.toE + 0 := by gcongr; simpa [XReal.toE] using this
    _ = _ := by simp

theorem FP.self_le_add {x u : FP F} (hx : IsFin x) (hu : 0 ≤ u) : x ≤ x + u := by
  obtain ⟨r, hr⟩ := (isFin_iff x).1 hx
  have hn := (le_num hu).2
  rw [isNum_iff] at hn
  rw [FP.le_iff, zero_val] at hu
  have h : x.1 + u.1 ≠ .nan := by
    rw [hr]
    cases hv : u.1 <;> simp_all [HAdd.hAdd, Add.add]
    all_goals (intro h; cases h)
  refine le_of h hx.isNum ?_
  rw [XReal.add_toE h]
  have := hu.2.2
  calc x.1.toE = x.1.toE + 0 := by simp
    _ ≤ _ := by gcongr; simpa [XReal.toE] using this

theorem Signed.neverUphill {B : FP F → Prop} {t : GT (FP F)} (h : Signed false IsFin B t) (σ : Spec) : NeverUphill σ t := by
  intro N p0 g p hg
  obtain ⟨I, h1, h2⟩ := h σ
  obtain ⟨s0, hs0, hI0⟩ := h1 p0
  choose u s' hu hI' hc using fun (g : {g : ℕ → ℕ → FP F // ∀ k i, IsFin (g k i)}) (x : {s : t.State × Option (Params (FP F)) // I s.1}) => h2 g.1 x.1.1 x.1.2 x.2 g.2
  let pp := fun n => some (mk σ (p n))
  let G : ℕ → {g : ℕ → ℕ → FP F // ∀ k i, IsFin (g k i)} := fun n => ⟨g n, hg n⟩
  let S : ℕ → {s : t.State // I s} := fun n => Nat.rec ⟨s0, hI0⟩
    (fun n s => ⟨s' (G n) ⟨(s.1, pp n), s.2⟩, hI' (G n) ⟨(s.1, pp n), s.2⟩⟩) n
  refine ⟨fun n => u (G n) ⟨((S n).1, pp n), (S n).2⟩, ?_, fun n _ k i => ?_⟩
  · apply outs_hist t (mk σ p0) σ g pp N (fun n => (S n).1)
      (fun n => mk σ (u (G n) ⟨((S n).1, pp n), (S n).2⟩)) hs0
    intro n _
    exact hu (G n) ⟨((S n).1, pp n), (S n).2⟩
  · have h3 : SignOf false (u (G n) ⟨((S n).1, pp n), (S n).2⟩ k i) (g n k i) := (hc (G n) ⟨((S n).1, pp n), (S n).2⟩ k i).1
    exact ⟨h3.1, h3.2.1, h3.2.2, fun x hx => ⟨fun h => FP.add_le_self hx (h3.2.1 h), fun h => FP.self_le_add hx (h3.2.2 h)⟩⟩

/-! ### stages -/

theorem FP.zero_le_mul_num {c x : FP F} (hc : 0 < c) (hf : IsFin c) (hx : IsNum x) : SignOf true (c * x) x := by
  refine ⟨?_, fun h => FP.mul_nonneg hc hf h, fun h => ?_⟩
  · rcases FP.le_total (num_zero (F := F)) hx with h | h
    · exact (le_num (FP.mul_nonneg hc hf h)).2
    · exact (le_num (FP.mul_mono_left hc hf h)).1
  · have := FP.mul_mono_left hc hf h
    rwa [FP.mul_zero hf] at this

theorem signed_identity {A : FP F → Prop} (hA : ∀ x, A x → IsNum x) : Signed true A A identity := fun _ =>
  ⟨fun _ => True, fun _ => ⟨⟨⟩, rfl, trivial⟩, fun g s _ _ hg => ⟨g, s, rfl, trivial, fun k i => ⟨SignOf.refl (hA _ (hg k i)), hg k i⟩⟩⟩

theorem FP.mul_fin_pinf {c x : FP F} {r : ℝ} (hc : c.1 = .fin r) (hr : r < 0) : (x.1 = .pinf → (c * x).1 = .ninf) ∧ (x.1 = .ninf → (c * x).1 = .pinf) := by
  refine ⟨fun h => ?_, fun h => ?_⟩
  · rw [mul_val, hc, h]
    have : (XReal.fin r * XReal.pinf : XReal) = .ninf := by
      show XReal.mul _ _ = _
      simp [XReal.mul, XReal.infOf, hr, hr.le, (_root_.not_lt.2 hr.le), hr.ne]
    rw [this]; rfl
  · rw [mul_val, hc, h]
    have : (XReal.fin r * XReal.ninf : XReal) = .pinf := by
      show XReal.mul _ _ = _
      simp [XReal.mul, XReal.infOf, hr, hr.le, (_root_.not_lt.2 hr.le), hr.ne]
    rw [this]; rfl

theorem FP.neg_mul_sign {c x : FP F} (hc : 0 < c) (hf : IsFin c) (hx : IsNum x) : SignOf false (-c * x) x := by
  obtain ⟨r, hr, hv⟩ := fin_pos hc hf
  have hv' : (-c).1 = .fin (-r) := by rw [neg_val, hv]; rfl
  have hi := FP.mul_fin_pinf (x := x) hv' (by linarith)
  have key : (0 ≤ x → -c * x ≤ 0) ∧ (x ≤ 0 → 0 ≤ -c * x) := by
    cases h : x.1 with
    | nan => exact absurd h ((isNum_iff x).1 hx)
    | pinf =>
      have h1 := hi.1 h
      refine ⟨fun _ => (FP.le_iff _ _).2 ⟨by rw [h1]; simp, by rw [zero_val]; simp, by rw [h1]; simp [XReal.toE]⟩, fun h2 => ?_⟩
      rw [FP.le_iff, h, zero_val] at h2
      simp [XReal.toE] at h2
    | ninf =>
      have h1 := hi.2 h
      refine ⟨fun h2 => ?_, fun _ => (FP.le_iff _ _).2 ⟨by rw [zero_val]; simp, by rw [h1]; simp, by rw [h1]; simp [XReal.toE]⟩⟩
      rw [FP.le_iff, h, zero_val] at h2
      simp [XReal.toE] at h2
    | fin q =>
      have e : -c * x = of F (.fin (-r * q)) := FP.ext (by rw [mul_val, hv', h]; rfl)
      have e0 : (0 : FP F) = of F (.fin 0) := rfl
      refine ⟨fun h2 => ?_, fun h2 => ?_⟩
      · rw [le_fin zero_val h] at h2
        rw [e, e0]
        exact of_fin_mono (by nlinarith)
      · rw [le_fin h zero_val] at h2
        rw [e, e0]
        exact of_fin_mono (by nlinarith)
  refine ⟨?_, key⟩
  rcases FP.le_total (num_zero (F := F)) hx with h | h
  · exact (le_num (key.1 h)).1
  · exact (le_num (key.2 h)).2

/-- a positive finite learning rate -/
def LRPos : LR (FP F) → Prop
  | .scalar x => 0 < x ∧ IsFin x
  | .schedule f => ∀ n, 0 < f n ∧ IsFin (f n)

theorem signed_lr {lr : LR (FP F)} (h : LRPos lr) : Signed false IsNum IsNum (scaleByLearningRate lr) := by
  cases lr with
  | scalar x =>
    intro σ
    refine ⟨fun _ => True, fun _ => ⟨⟨⟩, rfl, trivial⟩, fun g s pp _ hg => ⟨_, _, scale_update_mk σ g pp (-x) s, trivial, fun k i => ?_⟩⟩
    have := FP.neg_mul_sign h.1 h.2 (hg k i)
    exact ⟨this, this.1⟩
  | schedule f =>
    intro σ
    refine ⟨fun s => ∃ n, s = ⟨n⟩, fun p => ⟨⟨0#32⟩, rfl, _, rfl⟩, ?_⟩
    rintro g _ pp ⟨n, rfl⟩ hg
    refine ⟨_, _, scaleBySchedule_update_mk σ g pp (fun count => -f count) n, ⟨_, rfl⟩, fun k i => ?_⟩
    have := FP.neg_mul_sign (h n.toInt).1 (h n.toInt).2 (hg k i)
    exact ⟨this, this.1⟩

theorem FP.mul_nonpos' {c x : FP F} (hc : 0 ≤ c) (hf : IsFin c) (hx : IsFin x) (h : x ≤ 0) : c * x ≤ 0 := by
  have := FP.mul_mono_nonneg hc hf hx fin_zero h
  rwa [FP.mul_zero hf] at this

theorem FP.mul_comm' (a b : FP F) : a * b = b * a := by
  refine FP.ext ?_
  rw [mul_val, mul_val]
  congr 1
  show XReal.mul _ _ = XReal.mul _ _
  cases a.1 <;> cases b.1 <;> simp [XReal.mul, mul_comm]

theorem FP.nonneg_mul_sign {c x : FP F} (hc : 0 ≤ c) (hf : IsFin c) (hx : IsFin x) : SignOf true (c * x) x :=
  ⟨mul_fin_num hf hx, fun h => FP.mul_nonneg' hc h hf hx, fun h => FP.mul_nonpos' hc hf hx h⟩

theorem signed_rss (a eps : FP F) (ha : 0 ≤ a) (he : 0 < eps) (hf : IsFin (JOps.rsqrt eps : FP F)) : Signed true IsFin IsNum (scaleByRss a eps) := fun σ =>
  ⟨fun s => ∃ m, s = ⟨mk σ m⟩ ∧ ∀ k i, 0 ≤ m k i, fun p => ⟨_, rss_init_mk σ p a eps, _, rfl, fun _ _ => ha⟩, by
    rintro g _ pp ⟨m, rfl, hm⟩ hg
    have h : ∀ k i, 0 ≤ g k i * g k i + m k i := fun k i => FP.add_nonneg (FP.sq_nonneg (hg k i).isNum) (hm k i)
    refine ⟨_, _, rss_update_mk σ g m pp a eps, ⟨_, rfl, h⟩, fun k i => ?_⟩
    have h1 := invSqrtPos_nonneg_fin he hf (h k i)
    have := FP.nonneg_mul_sign h1.1 h1.2 (hg k i)
    exact ⟨this, this.1⟩⟩

theorem signed_rms (d eps a : FP F) (hd : Decay d) (ha : 0 ≤ a) (he : 0 < eps) (hf : IsFin (JOps.rsqrt eps : FP F)) : Signed true IsFin IsNum (scaleByRms d eps a) := fun σ =>
  ⟨fun s => ∃ m, s = ⟨mk σ m⟩ ∧ ∀ k i, 0 ≤ m k i, fun p => ⟨_, rms_init_mk σ p d eps a, _, rfl, fun _ _ => ha⟩, by
    rintro g _ pp ⟨m, rfl, hm⟩ hg
    have h : ∀ k i, 0 ≤ (1 - d) * ipow (g k i) 2 + d * m k i := fun k i => moment_step hd (hg k i).isNum (hm k i)
    refine ⟨_, _, rms_update_mk σ g m pp d eps a, ⟨_, rfl, h⟩, fun k i => ?_⟩
    have h1 := rsqrt_nonneg_fin he hf (h k i)
    have := FP.nonneg_mul_sign h1.1 h1.2 (hg k i)
    rw [FP.mul_comm'] at this
    exact ⟨this, this.1⟩⟩

theorem signed_clip (d : FP F) (hd : 0 ≤ d) (hf : IsFin d) {A : FP F → Prop} (hA : ∀ x, A x → IsNum x) : Signed true A IsFin (clip d) := fun σ =>
  ⟨fun _ => True, fun _ => ⟨⟨⟩, rfl, trivial⟩, fun g s pp _ hg => ⟨_, _, clip_update_mk σ g pp d s, trivial, fun k i => by
    have hx := hA _ (hg k i)
    generalize g k i = x at hx
    have hn : IsNum (-d) := FP.neg_num.2 hf.isNum
    have hd' : -d ≤ 0 := FP.neg_nonpos hd
    rw [FP.max_cases x (-d) hx hn]
    by_cases h1 : x < -d
    · rw [if_pos h1, FP.min_cases (-d) d hn hf.isNum]
      have h2 : ¬ d < -d := (FP.not_lt hf.isNum hn).2 (FP.le_trans hd' hd)
      rw [if_neg h2]
      refine ⟨⟨hn, fun h => ?_, fun _ => hd'⟩, FP.isFin_neg hf⟩
      exact absurd (FP.lt_of_lt_of_le h1 (FP.le_trans hd' h)) (FP.lt_irrefl x)
    · rw [if_neg h1, FP.min_cases x d hx hf.isNum]
      have h1' := (FP.not_lt hx hn).1 h1
      by_cases h2 : d < x
      · rw [if_pos h2]
        refine ⟨⟨hf.isNum, fun _ => hd, fun h => ?_⟩, hf⟩
        exact absurd (FP.lt_of_lt_of_le h2 (FP.le_trans h hd)) (FP.lt_irrefl d)
      · rw [if_neg h2]
        exact ⟨SignOf.refl hx, fin_between (FP.isFin_neg hf) hf h1' ((FP.not_lt hf.isNum hx).1 h2)⟩⟩⟩

theorem FP.div_sign {x c : FP F} (hx : IsFin x) (hc : 0 < c) : SignOf true (x / c) x := by
  by_cases hf : IsFin c
  · obtain ⟨r, hr, hv⟩ := fin_pos hc hf
    obtain ⟨q, hq⟩ := (isFin_iff x).1 hx
    have e : x / c = of F (.fin (q / r)) := FP.ext (by
      rw [div_val, hv, hq]
      have : (XReal.fin q / XReal.fin r : XReal) = .fin (q / r) := by
        show XReal.div _ _ = _
        simp [XReal.div, hr.ne']
      rw [this]; rfl)
    rw [e]
    have e0 : (0 : FP F) = of F (.fin 0) := rfl
    refine ⟨of_fin_num _, fun h => ?_, fun h => ?_⟩
    · rw [le_fin zero_val hq] at h
      exact of_fin_nonneg (by positivity)
    · rw [le_fin hq zero_val] at h
      rw [e0]
      exact of_fin_mono (div_nonpos_of_nonpos_of_nonneg h hr.le)
  · rw [nonneg_not_fin (lt_le hc) hf, div_inf hx]
    exact ⟨num_zero, fun _ => FP.le_refl num_zero, fun _ => FP.le_refl num_zero⟩

theorem signed_clipByGlobalNorm (c : FP F) (hc : 0 < c) (hf : IsFin c) : Signed true IsFin IsNum (clipByGlobalNorm c) := fun σ =>
  ⟨fun _ => True, fun _ => ⟨⟨⟩, rfl, trivial⟩, fun g s pp _ hg => ⟨_, _, clipByGlobalNorm_update_mk σ g pp c s, trivial, fun k i => by
    have h0 := globalNorm_nonneg_fp σ g fun k i => (hg k i).isNum
    split_ifs with h
    · exact ⟨SignOf.refl (hg k i).isNum, (hg k i).isNum⟩
    · rw [FP.jlt_iff, FP.not_lt (le_num h0).2 hf.isNum] at h
      have hp := FP.lt_of_lt_of_le hc h
      have h1 := FP.div_sign (hg k i) hp
      have h2 := FP.zero_le_mul_num hc hf h1.1
      rw [FP.mul_comm'] at h2
      have := h1.trans h2
      exact ⟨this, h2.1⟩⟩⟩

/-- **C142.** With positive finite learning rates, `sgd`, `adagrad` and `rmsprop` without momentum never step uphill in floating point arithmetic. -/
theorem C142_aliases (lr : LR (FP F)) (hlr : LRPos lr) (nes : Bool) (a eps d : FP F) (ha : 0 ≤ a) (he : 0 < eps) (hf : IsFin (JOps.rsqrt eps : FP F)) (hd : Decay d)
    (t : GT (FP F)) (ht : t ∈ [sgd lr none nes, adagrad lr a eps, rmsprop lr d eps a false none nes]) (σ : Spec) : NeverUphill σ t := by
  have hl : Signed false IsNum IsNum (chain [scaleByLearningRate lr]) := (signed_lr hlr).cons (Signed.nil fun _ h => h)
  simp only [List.mem_cons, List.not_mem_nil, or_false] at ht
  rcases ht with rfl | rfl | rfl
  · refine Signed.neverUphill (B := IsNum) ?_ σ
    have h1 : Signed (F := F) true IsFin IsNum identity := fun σ => by
      obtain ⟨I, h1, h2⟩ := signed_identity (F := F) (A := IsFin) (fun _ h => h.isNum) σ
      refine ⟨I, h1, fun g s pp hs hg => ?_⟩
      obtain ⟨u, s', h3, h4, h5⟩ := h2 g s pp hs hg
      exact ⟨u, s', h3, h4, fun k i => ⟨(h5 k i).1, (h5 k i).2.isNum⟩⟩
    exact h1.cons hl
  · exact Signed.neverUphill ((signed_rss a eps ha he hf).cons hl) σ
  · exact Signed.neverUphill ((signed_rms d eps a hd ha he hf).cons ((signed_lr hlr).cons ((signed_identity fun _ h => h).cons (Signed.nil fun _ h => h)))) σ

/-- **C142 (clipped).** Nor behind entrywise clipping, and `sgd` nor behind clipping by global norm, even if the norm overflows. -/
theorem C142_clipped (lr : LR (FP F)) (hlr : LRPos lr) (nes : Bool) (a eps d c : FP F) (ha : 0 ≤ a) (he : 0 < eps) (hf : IsFin (JOps.rsqrt eps : FP F)) (hd : Decay d)
    (hc : 0 < c) (hcf : IsFin c) (σ : Spec) :
    NeverUphill σ (chain [clip c, sgd lr none nes]) ∧ NeverUphill σ (chain [clip c, adagrad lr a eps]) ∧ NeverUphill σ (chain [clip c, rmsprop lr d eps a false none nes]) ∧
    NeverUphill σ (chain [clipByGlobalNorm c, sgd lr none nes]) := by
  have hl : Signed false IsNum IsNum (chain [scaleByLearningRate lr]) := (signed_lr hlr).cons (Signed.nil fun _ h => h)
  have hnil : Signed true IsNum IsNum (chain ([] : List (GT (FP F)))) := Signed.nil fun _ h => h
  have hclip : Signed true IsFin IsFin (clip c) := signed_clip c (lt_le hc) hcf fun _ h => h.isNum
  have hsgd : Signed false IsNum IsNum (sgd lr none nes) := (signed_identity fun _ h => h).cons hl
  have hsgd' : Signed false IsFin IsNum (sgd lr none nes) := fun σ => by
    obtain ⟨I, h1, h2⟩ := hsgd σ
    exact ⟨I, h1, fun g s pp hs hg => h2 g s pp hs fun k i => (hg k i).isNum⟩
  refine ⟨Signed.neverUphill (hclip.cons (hsgd'.cons hnil)) σ, Signed.neverUphill (hclip.cons (((signed_rss a eps ha he hf).cons hl).cons hnil)) σ,
    Signed.neverUphill (hclip.cons (((signed_rms d eps a hd ha he hf).cons ((signed_lr hlr).cons ((signed_identity fun _ h => h).cons hnil))).cons hnil)) σ,
    Signed.neverUphill ((signed_clipByGlobalNorm c hc hcf).cons (hsgd.cons hnil)) σ⟩

theorem binary_underflow (p : ℕ) (emin emax : ℤ) (hp he he') {x : ℝ} (h : |x| < 2 ^ (emin - 1)) :
    (Format.binary p emin emax hp he he').rnd x = .fin 0 := by
  have hmem := Format.nearEven_mem p emin emax hp he he' x
  have h0 := Format.nearEven_le p emin emax hp x 0 (Format.mem_binarySet.2 ⟨0, 0, by simp, he, he', by simp⟩)
  have h2 : (2 : ℝ) ^ (emin - 1) * 2 = 2 ^ emin := by rw [zpow_sub₀ (by norm_num)]; norm_num
  have hsmall : (2 : ℝ) ^ (emin - 1) ≤ 1 / 2 := by
    have : (2 : ℝ) ^ (emin - 1) ≤ 2 ^ (-1 : ℤ) := zpow_le_zpow_right₀ (by norm_num) (by omega)
    norm_num at this ⊢; exact this
  have hT : (1 : ℝ) ≤ (2 ^ p - 1 / 2) * 2 ^ emax := by
    have h3 : (2 : ℝ) ≤ 2 ^ p := by
      calc (2 : ℝ) = 2 ^ 1 := by norm_num
        _ ≤ 2 ^ p := pow_le_pow_right₀ (by norm_num) hp
    have h4 : (1 : ℝ) ≤ 2 ^ emax := one_le_zpow₀ (by norm_num) he'
    nlinarith
  rw [abs_lt] at h
  have hz : Format.nearEven p emin emax x = 0 := by
    obtain ⟨m, e, _, h3, _, h5⟩ := Format.mem_binarySet.1 hmem
    rw [h5]
    by_contra hne
    have hm : m ≠ 0 := fun h => hne (by rw [h]; simp)
    have h6 : (1 : ℝ) ≤ |(m : ℝ)| := by exact_mod_cast Int.one_le_abs hm
    have h7 : (2 : ℝ) ^ emin ≤ |Format.nearEven p emin emax x| := by
      rw [h5, abs_mul, abs_of_pos (show (0 : ℝ) < 2 ^ e by positivity)]
      calc (2 : ℝ) ^ emin ≤ 2 ^ e := zpow_le_zpow_right₀ (by norm_num) h3
        _ ≤ |(m : ℝ)| * 2 ^ e := le_mul_of_one_le_left (by positivity) h6
    have h8 := abs_lt.2 h
    rw [_root_.sub_zero] at h0
    have h9 : |Format.nearEven p emin emax x| ≤ |x| + |x - Format.nearEven p emin emax x| := by
      have := abs_sub x (x - Format.nearEven p emin emax x)
      rwa [sub_sub_cancel] at this
    linarith
  show (if _ ≤ x then XReal.pinf else if x ≤ _ then .ninf else .fin (Format.nearEven p emin emax x)) = _
  rw [if_neg (by linarith), if_neg (by linarith), hz]

/-- **C142 (the sign may be lost).** "Never uphill" cannot be strengthened to C140's "zero only where the gradient is zero": in single precision `sgd` with learning rate `2^-60`
maps gradients `2^-100 > 0`, perfectly good numbers, to zero updates. -/
theorem C142_underflow (σ : Spec) (p0 : ℕ → ℕ → FP Format.float32) (nes : Bool) (N : ℕ) : 0 < p32 (-100) ∧ LRPos (.scalar (p32 (-60))) ∧
    (sgd (.scalar (p32 (-60))) none nes).outs (mk σ p0) (hist σ (fun _ _ _ => p32 (-100)) (fun _ => some (mk σ p0)) N) =
      .ok ((List.range N).map (fun _ => mk σ (fun _ _ => 0))) := by
  have h1 := p32_rep (e := -100) (by norm_num) (by norm_num)
  have h2 := p32_rep (e := -60) (by norm_num) (by norm_num)
  have e : -p32 (-60) * p32 (-100) = 0 := by
    unfold p32
    rw [neg_of h2, of_mul_of (Format.float32.rnd_neg _ h2) h1]
    refine FP.ext ?_
    show Format.float32.rnd _ = _
    rw [zero_val]
    refine binary_underflow 24 (-149) 104 _ _ _ ?_
    rw [neg_mul, abs_neg, ← zpow_add₀ (by norm_num), abs_of_pos (by positivity)]
    exact zpow_lt_zpow_right₀ (by norm_num) (by norm_num)
  refine ⟨of_pos_of h1 (by positivity), ⟨of_pos_of h2 (by positivity), of_fin_of h2⟩, ?_⟩
  refine outs_hist (sgd (.scalar (p32 (-60))) none nes) (mk σ p0) σ (fun _ _ _ => p32 (-100)) (fun _ => some (mk σ p0)) N
    (fun _ => some ((⟨⟩ : EmptyState), some ((⟨⟩ : EmptyState), (0 : ℕ)))) (fun _ => mk σ (fun _ _ => 0)) (sgd_plain_init _ nes _) (fun n _ => ?_)
  refine (sgd_plain_update σ (p32 (-60)) nes (fun _ _ => p32 (-100)) (some (mk σ p0))).trans ?_
  rw [e]

/-- `rmsprop` with decay 1/2 and learning rate `2^-10` in single precision meets the hypotheses (that `rsqrt(2^-20)` is finite is shown in FloatExact.lean) -/
example : Decay (p32 (-1)) ∧ 0 < p32 (-20) ∧ LRPos (.scalar (p32 (-10))) :=
  ⟨decay_half, of_pos_of (p32_rep (by norm_num) (by norm_num)) (by positivity),
    of_pos_of (p32_rep (by norm_num) (by norm_num)) (by positivity), of_fin_of (p32_rep (by norm_num) (by norm_num))⟩

end Optax
