import Verif.Model.Dual
import Verif.Model.Alias
import Verif.Lemmas.Steps
import Verif.Lemmas.Counter
import Verif.Props.Constrain
import Verif.Props.Norms
import Mathlib.Analysis.Calculus.Deriv.Add
import Mathlib.Analysis.Calculus.Deriv.Mul
import Mathlib.Analysis.Calculus.Deriv.Inv
import Mathlib.Analysis.Calculus.Deriv.Pow
import Mathlib.Analysis.SpecialFunctions.Sqrt
import Mathlib.Analysis.SpecialFunctions.Pow.Real
import Mathlib.Analysis.SpecialFunctions.ExpDeriv

/-!
# C92: differentiating through training (meta-gradients)
-/

set_option linter.unusedSectionVars false
set_option linter.unusedSimpArgs false

namespace Optax

/-! ## Specification -/

/-- `d` is the value at `s0` of the curve `f` together with its true derivative; both finite -/
def Tracks (s0 : ℝ) (f : ℝ → ℝ) (d : Dual) : Prop := ∃ f', HasDerivAt f f' s0 ∧ d = ⟨.fin (f s0), .fin f'⟩

/-- the same for every entry of a tree of structure `σ` -/
def TracksE (σ : Spec) (s0 : ℝ) (v : ℝ → ℕ → ℕ → ℝ) (w : ℕ → ℕ → Dual) : Prop :=
  ∀ k sh, σ.leaves[k]? = some sh → ∀ i < sh.prod, Tracks s0 (fun s => v s k i) (w k i)

/-- Forward-mode automatic differentiation through the transformation is right: `T s` is the transformation with
hyper-parameters depending on `s`, `TD` the same transformation run on dual numbers.  If gradients and parameters track
their derivatives with respect to `s`, no update fails and the updates track theirs, in every history. -/
def ADCorrect (σ : Spec) (s0 : ℝ) (T : ℝ → GT ℝ) (TD : GT Dual) : Prop :=
  ∃ I : (∀ s, (T s).State) → TD.State → Prop,
    (∀ p pd, TracksE σ s0 p pd → ∃ st sd, (∀ s, (T s).init (mk σ (p s)) = .ok (st s)) ∧ TD.init (mk σ pd) = .ok sd ∧ I st sd) ∧
    (∀ g gd p pd st sd, TracksE σ s0 g gd → TracksE σ s0 p pd → I st sd → ∃ u st' ud sd',
      (∀ s, (T s).update (mk σ (g s)) (st s) (some (mk σ (p s))) = .ok (mk σ (u s), st' s)) ∧
      TD.update (mk σ gd) sd (some (mk σ pd)) = .ok (mk σ ud, sd') ∧ TracksE σ s0 u ud ∧ I st' sd')

/-! ## The rules -/

section rules
variable {s0 : ℝ} {f g : ℝ → ℝ} {a b : Dual}

theorem Tracks.const (c : ℝ) : Tracks s0 (fun _ => c) ⟨.fin c, .fin 0⟩ := ⟨0, hasDerivAt_const _ _, rfl⟩
theorem Tracks.zero : Tracks s0 (fun _ => 0) 0 := Tracks.const 0
theorem Tracks.one : Tracks s0 (fun _ => 1) 1 := Tracks.const 1
theorem Tracks.ofRat (q : ℚ) : Tracks s0 (fun _ => (q : ℝ)) (JOps.ofRat q) := Tracks.const _
theorem Tracks.ofCount (c : BitVec 32) : Tracks s0 (fun _ => (cnt c : ℝ)) (cnt c) := Tracks.const _

theorem Tracks.add (ha : Tracks s0 f a) (hb : Tracks s0 g b) : Tracks s0 (fun s => f s + g s) (a + b) := by
  obtain ⟨f', h1, rfl⟩ := ha
  obtain ⟨g', h2, rfl⟩ := hb
  exact ⟨f' + g', h1.add h2, rfl⟩

theorem Tracks.neg (ha : Tracks s0 f a) : Tracks s0 (fun s => -f s) (-a) := by
  obtain ⟨f', h1, rfl⟩ := ha
  exact ⟨-f', h1.neg, rfl⟩

theorem Tracks.sub (ha : Tracks s0 f a) (hb : Tracks s0 g b) : Tracks s0 (fun s => f s - g s) (a - b) := by
  obtain ⟨f', h1, rfl⟩ := ha
  obtain ⟨g', h2, rfl⟩ := hb
  refine ⟨f' - g', h1.sub h2, ?_⟩
  show (⟨_, _⟩ : Dual) = _
  simp only [XReal.fin_sub]

theorem Tracks.mul (ha : Tracks s0 f a) (hb : Tracks s0 g b) : Tracks s0 (fun s => f s * g s) (a * b) := by
  obtain ⟨f', h1, rfl⟩ := ha
  obtain ⟨g', h2, rfl⟩ := hb
  exact ⟨f' * g s0 + f s0 * g', h1.mul h2, rfl⟩

theorem Tracks.div (ha : Tracks s0 f a) (hb : Tracks s0 g b) (h : g s0 ≠ 0) : Tracks s0 (fun s => f s / g s) (a / b) := by
  obtain ⟨f', h1, rfl⟩ := ha
  obtain ⟨g', h2, rfl⟩ := hb
  refine ⟨f' / g s0 - g' * (f s0 / g s0) / g s0, ?_, ?_⟩
  · refine (h1.div h2 h).congr_deriv ?_
    field_simp
  · show (⟨_, _⟩ : Dual) = _
    simp only [XReal.fin_div _ _ h, XReal.fin_mul, XReal.fin_sub]

theorem Tracks.ipow (ha : Tracks s0 f a) (n : ℕ) : Tracks s0 (fun s => ipow (f s) n) (ipow a n) := by
  match n with
  | 0 => exact Tracks.one
  | 1 => exact ha
  | n + 2 => exact (Tracks.ipow ha (n + 1)).mul ha

theorem Tracks.sqrt (ha : Tracks s0 f a) (h : 0 < f s0) : Tracks s0 (fun s => JOps.sqrt (f s)) (JOps.sqrt a) := by
  obtain ⟨f', h1, rfl⟩ := ha
  have hp : (0:ℝ) < √(f s0) := Real.sqrt_pos.mpr h
  refine ⟨f' * ((1 / 2) / √(f s0)), ?_, ?_⟩
  · refine (h1.sqrt h.ne').congr_deriv ?_
    field_simp
  · have e : JOps.sqrt (XReal.fin (f s0)) = .fin √(f s0) := by
      show (if f s0 < 0 then XReal.nan else _) = _
      rw [if_neg (not_lt.mpr h.le)]
    show (⟨JOps.sqrt (XReal.fin (f s0)), XReal.fin f' * (JOps.ofRat (1 / 2) / JOps.sqrt (XReal.fin (f s0)))⟩ : Dual) = _
    rw [e]
    show (⟨_, XReal.fin f' * (XReal.fin ((1 / 2 : ℚ) : ℝ) / .fin √(f s0))⟩ : Dual) = _
    rw [XReal.fin_div _ _ hp.ne', XReal.fin_mul]
    norm_num

theorem Tracks.rsqrt (ha : Tracks s0 f a) (h : 0 < f s0) : Tracks s0 (fun s => JOps.rsqrt (f s)) (JOps.rsqrt a) := by
  obtain ⟨f', h1, rfl⟩ := ha
  have hp : (0:ℝ) < √(f s0) := Real.sqrt_pos.mpr h
  have hsq : √(f s0) ^ 2 = f s0 := Real.sq_sqrt h.le
  refine ⟨f' * ((-1 / 2) * (1 / √(f s0) / f s0)), ?_, ?_⟩
  · have h2 : HasDerivAt (fun s => 1 / √(f s)) _ s0 := (hasDerivAt_const s0 (1:ℝ)).div (h1.sqrt h.ne') hp.ne'
    refine h2.congr_deriv ?_
    rw [hsq]
    field_simp
    ring
  · have e : JOps.rsqrt (XReal.fin (f s0)) = .fin (1 / √(f s0)) := by
      show (if f s0 < 0 then XReal.nan else if f s0 = 0 then XReal.pinf else _) = _
      rw [if_neg (not_lt.mpr h.le), if_neg h.ne']
    show (⟨JOps.rsqrt (XReal.fin (f s0)), XReal.fin f' * (XReal.fin ((-1 / 2 : ℚ) : ℝ) * (JOps.rsqrt (XReal.fin (f s0)) / .fin (f s0)))⟩ : Dual) = _
    rw [e, XReal.fin_div _ _ h.ne', XReal.fin_mul, XReal.fin_mul]
    norm_num

/-- the power of a decay rate to a positive step count -/
theorem Tracks.powCount (ha : Tracks s0 f a) (h : 0 ≤ f s0) (n : ℕ) :
    Tracks s0 (fun s => JOps.pow (f s) (cnt (cntAt (n + 1)))) (JOps.pow a (cnt (cntAt (n + 1)))) := by
  obtain ⟨f', h1, rfl⟩ := ha
  obtain ⟨m, hm⟩ : ∃ m : ℕ, (cntAt (n + 1)).toInt = (m + 1 : ℕ) := by
    have : 1 ≤ (cntAt (n + 1)).toInt := by
      rw [cntAt_toInt]; omega
    exact ⟨((cntAt (n + 1)).toInt - 1).toNat, by omega⟩
  have hc : (cnt (cntAt (n + 1)) : ℝ) = ((m + 1 : ℕ) : ℝ) := by
    show (((cntAt (n + 1)).toInt : ℤ) : ℝ) = _
    rw [hm]; push_cast; rfl
  refine ⟨((m + 1 : ℕ) : ℝ) * f s0 ^ m * f', ?_, ?_⟩
  · have e : (fun s => JOps.pow (f s) (cnt (cntAt (n + 1)))) = fun s => f s ^ (m + 1) := by
      funext s
      rw [jpow_real, hc, Real.rpow_natCast]
    rw [e]
    exact h1.pow (m + 1)
  · have hcx : (cnt (cntAt (n + 1)) : Dual) = ⟨.fin ((m + 1 : ℕ) : ℝ), .fin 0⟩ := by
      show (⟨XReal.fin (((cntAt (n + 1)).toInt : ℤ) : ℝ), 0⟩ : Dual) = _
      rw [hm]; push_cast; rfl
    rw [hcx]
    have hy : ¬ (JOps.eqb (XReal.fin ((m + 1 : ℕ) : ℝ)) 0 = true) := by
      rw [XReal.zero_def, xeqb_fin]
      positivity
    have hlog : ∃ l : ℝ, JOps.log (if JOps.eqb (XReal.fin (f s0)) 0 then 1 else XReal.fin (f s0)) = .fin l := by
      by_cases h0 : f s0 = 0
      · refine ⟨Real.log 1, ?_⟩
        rw [if_pos (by rw [XReal.zero_def, xeqb_fin]; exact h0)]
        show (if (1:ℝ) < 0 then XReal.nan else if (1:ℝ) = 0 then XReal.ninf else _) = _
        norm_num
      · refine ⟨Real.log (f s0), ?_⟩
        rw [if_neg (by rw [XReal.zero_def, xeqb_fin]; exact h0)]
        show (if f s0 < 0 then XReal.nan else if f s0 = 0 then XReal.ninf else _) = _
        rw [if_neg (not_lt.mpr h), if_neg h0]
    obtain ⟨l, hl⟩ := hlog
    show (⟨XReal.fin (f s0 ^ (((m + 1 : ℕ) : ℝ))), XReal.fin f' * (XReal.fin ((m + 1 : ℕ) : ℝ) *
      JOps.pow (XReal.fin (f s0)) (if JOps.eqb (XReal.fin ((m + 1 : ℕ) : ℝ)) 0 then 1 else XReal.fin ((m + 1 : ℕ) : ℝ) - 1)) +
      XReal.fin 0 * (JOps.log (if JOps.eqb (XReal.fin (f s0)) 0 then 1 else XReal.fin (f s0)) * XReal.fin (f s0 ^ (((m + 1 : ℕ) : ℝ))))⟩ : Dual) = _
    rw [hl, if_neg hy, XReal.one_def, XReal.fin_sub]
    show (⟨_, XReal.fin f' * (XReal.fin ((m + 1 : ℕ) : ℝ) * XReal.fin (f s0 ^ (((m + 1 : ℕ) : ℝ) - 1))) + _⟩ : Dual) = _
    have e1 : ((m + 1 : ℕ) : ℝ) - 1 = (m : ℝ) := by push_cast; ring
    rw [e1]
    simp only [Real.rpow_natCast, XReal.fin_mul, XReal.fin_add]
    congr 1
    · congr 1
      rw [jpow_real, hc, Real.rpow_natCast]
    · congr 1
      ring

end rules

/-! ## Transformations -/

section transf
variable {σ : Spec} {s0 : ℝ}

theorem TracksE.const {v : ℕ → ℕ → ℝ} {w : ℕ → ℕ → Dual} (h : ∀ k i, Tracks s0 (fun _ => v k i) (w k i)) :
    TracksE σ s0 (fun _ => v) w := fun k _ _ i _ => h k i

/-- stateless, entrywise transformations -/
theorem ad_stateless {T : ℝ → GT ℝ} {TD : GT Dual} (st : ∀ s, (T s).State) (sd : TD.State)
    (hi : ∀ s p, (T s).init p = .ok (st s)) (hid : ∀ p, TD.init p = .ok sd)
    (f : ℝ → ℝ → ℝ → ℝ) (fd : Dual → Dual → Dual)
    (hu : ∀ s g p, (T s).update (mk σ g) (st s) (some (mk σ p)) = .ok (mk σ (fun k i => f s (g k i) (p k i)), st s))
    (hud : ∀ g p, TD.update (mk σ g) sd (some (mk σ p)) = .ok (mk σ (fun k i => fd (g k i) (p k i)), sd))
    (hf : ∀ g p gd pd, Tracks s0 g gd → Tracks s0 p pd → Tracks s0 (fun s => f s (g s) (p s)) (fd gd pd)) :
    ADCorrect σ s0 T TD := by
  refine ⟨fun a b => a = st ∧ b = sd, fun p pd _ => ⟨st, sd, fun s => hi s _, hid _, rfl, rfl⟩, ?_⟩
  rintro g gd p pd _ _ hg hp ⟨rfl, rfl⟩
  exact ⟨_, _, _, _, fun s => hu s _ _, hud _ _, fun k sh hk i hi => hf _ _ _ _ (hg k sh hk i hi) (hp k sh hk i hi), rfl, rfl⟩

theorem ad_identity : ADCorrect σ s0 (fun _ => identity) identity :=
  ad_stateless (fun _ => ⟨⟩) ⟨⟩ (fun _ _ => rfl) (fun _ => rfl) (fun _ g _ => g) (fun g _ => g) (fun _ _ _ => rfl)
    (fun _ _ => rfl) (fun _ _ _ _ hg _ => hg)

theorem ad_scale {c : ℝ → ℝ} {cd : Dual} (hc : Tracks s0 c cd) : ADCorrect σ s0 (fun s => scale (c s)) (scale cd) :=
  ad_stateless (fun _ => ⟨⟩) ⟨⟩ (fun _ _ => rfl) (fun _ => rfl) (fun s g _ => c s * g) (fun g _ => cd * g)
    (fun s g _ => scale_update_mk σ g _ (c s) _) (fun g _ => scale_update_mk σ g _ cd _) (fun _ _ _ _ hg _ => hc.mul hg)

theorem ad_addDecayedWeights {w : ℝ → ℝ} {wd : Dual} (hw : Tracks s0 w wd) :
    ADCorrect σ s0 (fun s => addDecayedWeights (w s)) (addDecayedWeights wd) :=
  ad_stateless (fun _ => ⟨⟩) ⟨⟩ (fun _ _ => rfl) (fun _ => rfl) (fun s g p => g + w s * p) (fun g p => g + wd * p)
    (fun s g p => addDecayedWeights_update_mk σ g p (w s) _) (fun g p => addDecayedWeights_update_mk σ g p wd _)
    (fun _ _ _ _ hg hp => hg.add (hw.mul hp))

theorem ad_scaleBySchedule {f : ℝ → Schedule ℝ} {fd : Schedule Dual} (hf : ∀ n, Tracks s0 (fun s => f s n) (fd n)) :
    ADCorrect σ s0 (fun s => scaleBySchedule (f s)) (scaleBySchedule fd) := by
  refine ⟨fun a b => ∃ c : BitVec 32, (a = fun _ => ⟨c⟩) ∧ b = ⟨c⟩, fun p pd _ => ⟨fun _ => ⟨0#32⟩, ⟨0#32⟩, fun _ => rfl, rfl, 0#32, rfl, rfl⟩, ?_⟩
  rintro g gd p pd _ _ hg hp ⟨c, rfl, rfl⟩
  exact ⟨_, _, _, _, fun s => scaleBySchedule_update_mk σ (g s) _ (f s) c, scaleBySchedule_update_mk σ gd _ fd c,
    fun k sh hk i hi => (hf _).mul (hg k sh hk i hi), _, rfl, rfl⟩

theorem ad_trace {d : ℝ → ℝ} {dd : Dual} (hd : Tracks s0 d dd) (nes : Bool) :
    ADCorrect σ s0 (fun s => trace (d s) nes none) (trace dd nes none) := by
  refine ⟨fun a b => ∃ m md, (a = fun s => ⟨mk σ (m s)⟩) ∧ b = ⟨mk σ md⟩ ∧ TracksE σ s0 m md, ?_, ?_⟩
  · intro p pd _
    exact ⟨_, _, fun s => trace_init_mk σ (p s) (d s) nes none, trace_init_mk σ pd dd nes none, _, _, rfl, rfl,
      .const fun _ _ => .zero⟩
  · rintro g gd p pd _ _ hg hp ⟨m, md, rfl, rfl, hm⟩
    have hmm : TracksE σ s0 (fun s k i => g s k i + d s * m s k i) (fun k i => gd k i + dd * md k i) :=
      fun k sh hk i hi => (hg k sh hk i hi).add (hd.mul (hm k sh hk i hi))
    refine ⟨_, _, _, _, fun s => trace_update_mk σ (g s) (m s) _ (d s) nes none, trace_update_mk σ gd md _ dd nes none, ?_, _, _,
      rfl, rfl, hmm⟩
    intro k sh hk i hi
    cases nes
    · exact hmm k sh hk i hi
    · exact (hg k sh hk i hi).add (hd.mul (hmm k sh hk i hi))

/-- the two moments and the bias corrections of the Adam family -/
theorem tracks_moment {d : ℝ → ℝ} {dd : Dual} (hd : Tracks s0 d dd) (r : ℕ) {x m : ℝ → ℝ} {xd md : Dual} (hx : Tracks s0 x xd)
    (hm : Tracks s0 m md) : Tracks s0 (fun s => (1 - d s) * ipow (x s) r + d s * m s) ((1 - dd) * ipow xd r + dd * md) :=
  ((Tracks.one.sub hd).mul (hx.ipow r)).add (hd.mul hm)

theorem bias_pos {b : ℝ} (h0 : 0 ≤ b) (h1 : b < 1) (n : ℕ) : 0 < 1 - JOps.pow b (cnt (cntAt (n + 1)) : ℝ) := by
  rw [jpow_real, sub_pos]
  apply Real.rpow_lt_one h0 h1
  show (0:ℝ) < ((cntAt (n + 1)).toInt : ℤ)
  rw [cntAt_toInt]
  exact_mod_cast (by omega : (0:ℤ) < min ((n + 1 : ℕ) : ℤ) 2147483647)

theorem tracks_adamOut {b1 b2 eps er : ℝ → ℝ} {b1d b2d epsd erd : Dual} (h1 : Tracks s0 b1 b1d) (h2 : Tracks s0 b2 b2d)
    (he : Tracks s0 eps epsd) (hr : Tracks s0 er erd) (hb1 : 0 ≤ b1 s0 ∧ b1 s0 < 1) (hb2 : 0 ≤ b2 s0 ∧ b2 s0 < 1)
    (heps : 0 ≤ eps s0) (her : 0 < er s0) (n : ℕ) {m v : ℝ → ℝ} {md vd : Dual} (hm : Tracks s0 m md) (hv : Tracks s0 v vd)
    (hv0 : 0 ≤ v s0) :
    Tracks s0 (fun s => m s / (1 - JOps.pow (b1 s) (cnt (cntAt (n + 1)))) /
        (JOps.sqrt (v s / (1 - JOps.pow (b2 s) (cnt (cntAt (n + 1)))) + er s) + eps s))
      (md / (1 - JOps.pow b1d (cnt (cntAt (n + 1)))) /
        (JOps.sqrt (vd / (1 - JOps.pow b2d (cnt (cntAt (n + 1)))) + erd) + epsd)) := by
  have c1 := Tracks.one.sub (h1.powCount hb1.1 n)
  have c2 := Tracks.one.sub (h2.powCount hb2.1 n)
  have p2 := bias_pos hb2.1 hb2.2 n
  have q : 0 < v s0 / (1 - JOps.pow (b2 s0) (cnt (cntAt (n + 1)))) + er s0 := by
    have := div_nonneg hv0 p2.le
    linarith
  refine (hm.div c1 (bias_pos hb1.1 hb1.2 n).ne').div (((hv.div c2 p2.ne').add hr).sqrt q |>.add he) ?_
  have := Real.sqrt_pos.mpr q
  rw [jsqrt_real]
  linarith

theorem ad_adam {b1 b2 eps er : ℝ → ℝ} {b1d b2d epsd erd : Dual} (h1 : Tracks s0 b1 b1d) (h2 : Tracks s0 b2 b2d)
    (he : Tracks s0 eps epsd) (hr : Tracks s0 er erd) (hb1 : 0 ≤ b1 s0 ∧ b1 s0 < 1) (hb2 : 0 ≤ b2 s0 ∧ b2 s0 < 1)
    (heps : 0 ≤ eps s0) (her : 0 < er s0) :
    ADCorrect σ s0 (fun s => scaleByAdam (b1 s) (b2 s) (eps s) (er s)) (scaleByAdam b1d b2d epsd erd) := by
  refine ⟨fun a b => ∃ (n : ℕ) (m v : ℝ → ℕ → ℕ → ℝ) (md vd : ℕ → ℕ → Dual), (a = fun s => ⟨cntAt n, mk σ (m s), mk σ (v s)⟩) ∧
    b = ⟨cntAt n, mk σ md, mk σ vd⟩ ∧ TracksE σ s0 m md ∧ TracksE σ s0 v vd ∧ ∀ k i, 0 ≤ v s0 k i, ?_, ?_⟩
  · intro p pd _
    exact ⟨_, _, fun s => adam_init_mk σ (p s) _ _ _ _, adam_init_mk σ pd _ _ _ _, 0, _, _, _, _, rfl, rfl,
      .const fun _ _ => .zero, .const fun _ _ => .zero, fun _ _ => le_rfl⟩
  · rintro g gd p pd _ _ hg hp ⟨n, m, v, md, vd, rfl, rfl, hm, hv, hv0⟩
    have hm' := fun k sh hk i hi => tracks_moment h1 1 (hg k sh hk i hi) (hm k sh hk i hi)
    have hv' := fun k sh hk i hi => tracks_moment h2 2 (hg k sh hk i hi) (hv k sh hk i hi)
    have hv0' : ∀ k i, 0 ≤ (1 - b2 s0) * ipow (g s0 k i) 2 + b2 s0 * v s0 k i := fun k i => by
      rw [ipow_eq_pow]
      have := mul_nonneg hb2.1 (hv0 k i)
      have := mul_nonneg (sub_nonneg.mpr hb2.2.le) (sq_nonneg (g s0 k i))
      linarith
    refine ⟨_, _, _, _, fun s => adam_update_mk σ (g s) (m s) (v s) _ _ _ _ _ _, adam_update_mk σ gd md vd _ _ _ _ _ _, ?_, n + 1, _, _, _, _,
      ?_, ?_, hm', hv', hv0'⟩
    · intro k sh hk i hi
      rw [safeInt32Increment_cntAt]
      exact tracks_adamOut h1 h2 he hr hb1 hb2 heps her n (hm' k sh hk i hi) (hv' k sh hk i hi) (hv0' k i)
    · funext s; rw [safeInt32Increment_cntAt]
    · rw [safeInt32Increment_cntAt]

theorem ad_belief {b1 b2 eps er : ℝ → ℝ} {b1d b2d epsd erd : Dual} (h1 : Tracks s0 b1 b1d) (h2 : Tracks s0 b2 b2d)
    (he : Tracks s0 eps epsd) (hr : Tracks s0 er erd) (hb1 : 0 ≤ b1 s0 ∧ b1 s0 < 1) (hb2 : 0 ≤ b2 s0 ∧ b2 s0 < 1)
    (heps : 0 ≤ eps s0) (her : 0 < er s0) :
    ADCorrect σ s0 (fun s => scaleByBelief (b1 s) (b2 s) (eps s) (er s)) (scaleByBelief b1d b2d epsd erd) := by
  refine ⟨fun a b => ∃ (n : ℕ) (m v : ℝ → ℕ → ℕ → ℝ) (md vd : ℕ → ℕ → Dual), (a = fun s => ⟨cntAt n, mk σ (m s), mk σ (v s)⟩) ∧
    b = ⟨cntAt n, mk σ md, mk σ vd⟩ ∧ TracksE σ s0 m md ∧ TracksE σ s0 v vd ∧ ∀ k i, 0 ≤ v s0 k i, ?_, ?_⟩
  · intro p pd _
    exact ⟨_, _, fun s => belief_init_mk σ (p s) _ _ _ _, belief_init_mk σ pd _ _ _ _, 0, _, _, _, _, rfl, rfl,
      .const fun _ _ => .zero, .const fun _ _ => .zero, fun _ _ => le_rfl⟩
  · rintro g gd p pd _ _ hg hp ⟨n, m, v, md, vd, rfl, rfl, hm, hv, hv0⟩
    have hm' := fun k sh hk i hi => tracks_moment h1 1 (hg k sh hk i hi) (hm k sh hk i hi)
    have hv' := fun k sh hk i hi => tracks_moment h2 2 ((hg k sh hk i hi).sub (hm k sh hk i hi)) (hv k sh hk i hi)
    have hv0' : ∀ k i, 0 ≤ (1 - b2 s0) * ipow (g s0 k i - m s0 k i) 2 + b2 s0 * v s0 k i := fun k i => by
      rw [ipow_eq_pow]
      have := mul_nonneg hb2.1 (hv0 k i)
      have := mul_nonneg (sub_nonneg.mpr hb2.2.le) (sq_nonneg (g s0 k i - m s0 k i))
      linarith
    refine ⟨_, _, _, _, fun s => belief_update_mk σ (g s) (m s) (v s) _ _ _ _ _ _, belief_update_mk σ gd md vd _ _ _ _ _ _, ?_, n + 1, _, _, _, _,
      ?_, ?_, hm', hv', hv0'⟩
    · intro k sh hk i hi
      rw [safeInt32Increment_cntAt]
      exact tracks_adamOut h1 h2 he hr hb1 hb2 heps her n (hm' k sh hk i hi) (hv' k sh hk i hi) (hv0' k i)
    · funext s; rw [safeInt32Increment_cntAt]
    · rw [safeInt32Increment_cntAt]

theorem ad_rms {d eps a : ℝ → ℝ} {dd epsd ad : Dual} (hd : Tracks s0 d dd) (he : Tracks s0 eps epsd) (ha : Tracks s0 a ad)
    (hd0 : 0 ≤ d s0 ∧ d s0 ≤ 1) (ha0 : 0 ≤ a s0) (heps : 0 < eps s0) :
    ADCorrect σ s0 (fun s => scaleByRms (d s) (eps s) (a s)) (scaleByRms dd epsd ad) := by
  refine ⟨fun x y => ∃ (v : ℝ → ℕ → ℕ → ℝ) (vd : ℕ → ℕ → Dual), (x = fun s => ⟨mk σ (v s)⟩) ∧ y = ⟨mk σ vd⟩ ∧ TracksE σ s0 v vd ∧
    ∀ k i, 0 ≤ v s0 k i, ?_, ?_⟩
  · intro p pd _
    exact ⟨_, _, fun s => rms_init_mk σ (p s) _ _ _, rms_init_mk σ pd _ _ _, _, _, rfl, rfl, fun _ _ _ _ _ => ha, fun _ _ => ha0⟩
  · rintro g gd p pd _ _ hg hp ⟨v, vd, rfl, rfl, hv, hv0⟩
    have hv' := fun k sh hk i hi => tracks_moment hd 2 (hg k sh hk i hi) (hv k sh hk i hi)
    have hv0' : ∀ k i, 0 ≤ (1 - d s0) * ipow (g s0 k i) 2 + d s0 * v s0 k i := fun k i => by
      rw [ipow_eq_pow]
      have := mul_nonneg hd0.1 (hv0 k i)
      have := mul_nonneg (sub_nonneg.mpr hd0.2) (sq_nonneg (g s0 k i))
      linarith
    refine ⟨_, _, _, _, fun s => rms_update_mk σ (g s) (v s) _ _ _ _, rms_update_mk σ gd vd _ _ _ _, ?_, _, _, rfl, rfl, hv', hv0'⟩
    intro k sh hk i hi
    refine (hg k sh hk i hi).mul (((hv' k sh hk i hi).add he).rsqrt ?_)
    have := hv0' k i
    linarith

theorem ad_rss {a eps : ℝ → ℝ} {ad epsd : Dual} (ha : Tracks s0 a ad) (he : Tracks s0 eps epsd) (ha0 : ∀ s, 0 < a s)
    (heps : 0 ≤ eps s0) : ADCorrect σ s0 (fun s => scaleByRss (a s) (eps s)) (scaleByRss ad epsd) := by
  refine ⟨fun x y => ∃ (v : ℝ → ℕ → ℕ → ℝ) (vd : ℕ → ℕ → Dual), (x = fun s => ⟨mk σ (v s)⟩) ∧ y = ⟨mk σ vd⟩ ∧ TracksE σ s0 v vd ∧
    ∀ s k i, 0 < v s k i, ?_, ?_⟩
  · intro p pd _
    exact ⟨_, _, fun s => rss_init_mk σ (p s) _ _, rss_init_mk σ pd _ _, _, _, rfl, rfl, fun _ _ _ _ _ => ha, fun s _ _ => ha0 s⟩
  · rintro g gd p pd _ _ hg hp ⟨v, vd, rfl, rfl, hv, hv0⟩
    have hv' : TracksE σ s0 (fun s k i => g s k i * g s k i + v s k i) (fun k i => gd k i * gd k i + vd k i) :=
      fun k sh hk i hi => ((hg k sh hk i hi).mul (hg k sh hk i hi)).add (hv k sh hk i hi)
    have hv0' : ∀ s k i, 0 < g s k i * g s k i + v s k i := fun s k i => by
      have := hv0 s k i
      have := mul_self_nonneg (g s k i)
      linarith
    refine ⟨_, _, _, _, fun s => rss_update_mk σ (g s) (v s) _ _ _, rss_update_mk σ gd vd _ _ _, ?_, _, _, rfl, rfl, hv', hv0'⟩
    intro k sh hk i hi
    have e : (fun s => invSqrtPos (eps s) (g s k i * g s k i + v s k i) * g s k i) =
        fun s => JOps.rsqrt (g s k i * g s k i + v s k i + eps s) * g s k i := by
      funext s
      unfold invSqrtPos
      rw [if_pos ((jlt_real _ _).mpr (hv0' s k i))]
    have ed : invSqrtPos epsd (gd k i * gd k i + vd k i) = JOps.rsqrt (gd k i * gd k i + vd k i + epsd) := by
      unfold invSqrtPos
      rw [if_pos]
      obtain ⟨f', -, h⟩ := hv' k sh hk i hi
      simp only at h
      rw [h]
      exact (xlt_fin _ _).mpr (hv0' s0 k i)
    show Tracks s0 _ (invSqrtPos epsd (gd k i * gd k i + vd k i) * gd k i)
    rw [e, ed]
    refine (((hv' k sh hk i hi).add he).rsqrt ?_).mul (hg k sh hk i hi)
    have := hv0' s0 k i
    linarith

theorem ad_stddev {d eps a : ℝ → ℝ} {dd epsd ad : Dual} (hd : Tracks s0 d dd) (he : Tracks s0 eps epsd) (ha : Tracks s0 a ad)
    (hd0 : 0 ≤ d s0 ∧ d s0 ≤ 1) (ha0 : 0 ≤ a s0) (heps : 0 < eps s0) :
    ADCorrect σ s0 (fun s => scaleByStddev (d s) (eps s) (a s)) (scaleByStddev dd epsd ad) := by
  refine ⟨fun x y => ∃ (m v : ℝ → ℕ → ℕ → ℝ) (md vd : ℕ → ℕ → Dual), (x = fun s => ⟨mk σ (m s), mk σ (v s)⟩) ∧
    y = ⟨mk σ md, mk σ vd⟩ ∧ TracksE σ s0 m md ∧ TracksE σ s0 v vd ∧ ∀ k i, m s0 k i ^ 2 ≤ v s0 k i, ?_, ?_⟩
  · intro p pd _
    exact ⟨_, _, fun s => stddev_init_mk σ (p s) _ _ _, stddev_init_mk σ pd _ _ _, _, _, _, _, rfl, rfl, .const fun _ _ => .zero,
      fun _ _ _ _ _ => ha, fun _ _ => by simpa using ha0⟩
  · rintro g gd p pd _ _ hg hp ⟨m, v, md, vd, rfl, rfl, hm, hv, hv0⟩
    have hm' := fun k sh hk i hi => tracks_moment hd 1 (hg k sh hk i hi) (hm k sh hk i hi)
    have hv' := fun k sh hk i hi => tracks_moment hd 2 (hg k sh hk i hi) (hv k sh hk i hi)
    have hv0' : ∀ k i, ((1 - d s0) * ipow (g s0 k i) 1 + d s0 * m s0 k i) ^ 2 ≤
        (1 - d s0) * ipow (g s0 k i) 2 + d s0 * v s0 k i := fun k i => by
      simp only [ipow_eq_pow, pow_one]
      have h1 := mul_le_mul_of_nonneg_left (hv0 k i) hd0.1
      have h2 := mul_nonneg (mul_nonneg hd0.1 (sub_nonneg.mpr hd0.2)) (sq_nonneg (g s0 k i - m s0 k i))
      nlinarith
    refine ⟨_, _, _, _, fun s => stddev_update_mk σ (g s) (m s) (v s) _ _ _ _, stddev_update_mk σ gd md vd _ _ _ _, ?_, _, _, _, _, rfl, rfl,
      hm', hv', hv0'⟩
    intro k sh hk i hi
    refine (hg k sh hk i hi).mul (((((hv' k sh hk i hi).sub ((hm' k sh hk i hi).mul (hm' k sh hk i hi)))).add he).rsqrt ?_)
    have := hv0' k i
    rw [pow_two] at this
    linarith

/-! ### chains -/

theorem ad_chainLoop (Ts : List (ℝ → GT ℝ)) (TDs : List (GT Dual)) (h : List.Forall₂ (ADCorrect σ s0) Ts TDs) :
    ∃ I : (∀ s, ChainState (Ts.map fun T => T s)) → ChainState TDs → Prop,
    (∀ p pd, TracksE σ s0 p pd → ∃ st sd, (∀ s, chainInit (Ts.map fun T => T s) (mk σ (p s)) = .ok (st s)) ∧
      chainInit TDs (mk σ pd) = .ok sd ∧ I st sd) ∧
    (∀ st sd, I st sd → (∀ s, ChainState.length _ (st s) = Ts.length) ∧ ChainState.length _ sd = TDs.length) ∧
    (∀ g gd p pd st sd, TracksE σ s0 g gd → TracksE σ s0 p pd → I st sd → ∃ u st' ud sd',
      (∀ s, chainLoop (Ts.map fun T => T s) (mk σ (g s)) (st s) (some (mk σ (p s))) = .ok (mk σ (u s), st' s)) ∧
      chainLoop TDs (mk σ gd) sd (some (mk σ pd)) = .ok (mk σ ud, sd') ∧ TracksE σ s0 u ud ∧ I st' sd') := by
  induction h with
  | nil =>
    refine ⟨fun a b => (a = fun _ => (0 : ℕ)) ∧ b = (0 : ℕ), fun p pd _ => ⟨fun _ => (0 : ℕ), (0 : ℕ), fun _ => rfl, rfl, rfl, rfl⟩, ?_, ?_⟩
    · rintro _ _ ⟨rfl, rfl⟩
      exact ⟨fun _ => rfl, rfl⟩
    · rintro g gd p pd _ _ hg _ ⟨rfl, rfl⟩
      exact ⟨g, fun _ => (0 : ℕ), gd, (0 : ℕ), fun _ => rfl, rfl, hg, rfl, rfl⟩
  | @cons T TD Ts TDs hT _ ih =>
    obtain ⟨I, i1, i2⟩ := hT
    obtain ⟨J, j1, j0, j2⟩ := ih
    refine ⟨fun a b => ∃ x y z w, (a = fun s => some (x s, y s)) ∧ b = some (z, w) ∧ I x z ∧ J y w, ?_, ?_, ?_⟩
    · intro p pd hp
      obtain ⟨x, z, a1, a2, a3⟩ := i1 p pd hp
      obtain ⟨y, w, b1, b2, b3⟩ := j1 p pd hp
      exact ⟨fun s => some (x s, y s), some (z, w), fun s => chainInit_cons_ok (a1 s) (b1 s), chainInit_cons_ok a2 b2, x, y, z, w,
        rfl, rfl, a3, b3⟩
    · rintro _ _ ⟨x, y, z, w, rfl, rfl, _, hJ⟩
      obtain ⟨l1, l2⟩ := j0 y w hJ
      refine ⟨fun s => ?_, ?_⟩
      · show 1 + ChainState.length (Ts.map fun T => T s) (y s) = (T :: Ts).length
        rw [l1 s, List.length_cons]; omega
      · show 1 + ChainState.length TDs w = (TD :: TDs).length
        rw [l2, List.length_cons]; omega
    · rintro g gd p pd _ _ hg hp ⟨x, y, z, w, rfl, rfl, hI, hJ⟩
      obtain ⟨u, x', ud, z', c1, c2, c3, c4⟩ := i2 g gd p pd x z hg hp hI
      obtain ⟨r, y', rd, w', d1, d2, d3, d4⟩ := j2 u ud p pd y w c3 hp hJ
      exact ⟨r, fun s => some (x' s, y' s), rd, some (z', w'), fun s => chainLoop_cons_ok (c1 s) (d1 s), chainLoop_cons_ok c2 d2,
        d3, x', y', z', w', rfl, rfl, c4, d4⟩

/-- chains of correct transformations are correct -/
theorem ad_chain {Ts : List (ℝ → GT ℝ)} {TDs : List (GT Dual)} (h : List.Forall₂ (ADCorrect σ s0) Ts TDs) :
    ADCorrect σ s0 (fun s => chain (Ts.map fun T => T s)) (chain TDs) := by
  obtain ⟨I, h1, h0, h2⟩ := ad_chainLoop Ts TDs h
  refine ⟨I, h1, ?_⟩
  intro g gd p pd st sd hg hp hI
  obtain ⟨u, st', ud, sd', a1, a2, a3, a4⟩ := h2 g gd p pd st sd hg hp hI
  obtain ⟨l1, l2⟩ := h0 st sd hI
  exact ⟨u, st', ud, sd', fun s => chain_update_ok (by rw [l1 s, List.length_map]) (a1 s), chain_update_ok l2 a2, a3, a4⟩

end transf

/-! ## C92 -/

/-- a learning rate, constant or schedule, depending on `s` -/
inductive TracksLR (s0 : ℝ) : (ℝ → LR ℝ) → LR Dual → Prop where
  | scalar {c : ℝ → ℝ} {cd : Dual} (h : Tracks s0 c cd) : TracksLR s0 (fun s => .scalar (c s)) (.scalar cd)
  | schedule {f : ℝ → Schedule ℝ} {fd : Schedule Dual} (h : ∀ n, Tracks s0 (fun s => f s n) (fd n)) :
      TracksLR s0 (fun s => .schedule (f s)) (.schedule fd)

/-- optional momentum depending on `s` -/
inductive TracksOpt (s0 : ℝ) : (ℝ → Option ℝ) → Option Dual → Prop where
  | none : TracksOpt s0 (fun _ => .none) .none
  | some {c : ℝ → ℝ} {cd : Dual} (h : Tracks s0 c cd) : TracksOpt s0 (fun s => .some (c s)) (.some cd)

section main
variable {σ : Spec} {s0 : ℝ}

theorem ad_lr {lr : ℝ → LR ℝ} {lrd : LR Dual} (h : TracksLR s0 lr lrd) :
    ADCorrect σ s0 (fun s => scaleByLearningRate (lr s)) (scaleByLearningRate lrd) := by
  cases h with
  | scalar h => exact ad_scale h.neg
  | schedule h => exact ad_scaleBySchedule fun n => (h n).neg

theorem ad_momentum {mom : ℝ → Option ℝ} {momd : Option Dual} (h : TracksOpt s0 mom momd) (nes : Bool) :
    ADCorrect σ s0 (fun s => momentumOrIdentity (mom s) nes) (momentumOrIdentity momd nes) := by
  cases h with
  | none => exact ad_identity
  | some h => exact ad_trace h nes

/-- **C92 (training).** Let `T s` be an optimiser whose automatic differentiation is right (the next theorem lists some), with
hyper-parameters depending on a real number `s`; let the initial parameters and the gradient oracle depend on `s` too, the dual
number oracle computing true derivatives.  Then after any number `N` of steps, running the training loop on dual numbers gives the
parameters of the loop at `s0` together with their true derivatives with respect to `s`: finite, no NaN. -/
theorem C92_training {T : ℝ → GT ℝ} {TD : GT Dual} (hT : ADCorrect σ s0 T TD) (grad : ℝ → ℕ → Params ℝ → Params ℝ)
    (gradD : ℕ → Params Dual → Params Dual)
    (hgrad : ∀ n p pd, TracksE σ s0 p pd → ∃ g gd, (∀ s, grad s n (mk σ (p s)) = mk σ (g s)) ∧ gradD n (mk σ pd) = mk σ gd ∧
      TracksE σ s0 g gd)
    (p0 : ℝ → ℕ → ℕ → ℝ) (p0d : ℕ → ℕ → Dual) (hp0 : TracksE σ s0 p0 p0d) (N : ℕ) :
    ∃ (st : ∀ s, (T s).State) (sd : TD.State), (∀ s, (T s).init (mk σ (p0 s)) = .ok (st s)) ∧ TD.init (mk σ p0d) = .ok sd ∧
      ∃ (p : ℝ → ℕ → ℕ → ℝ) (pd : ℕ → ℕ → Dual) (st' : ∀ s, (T s).State) (sd' : TD.State), (∀ s, trainLoop (T s) (grad s) N (st s) (mk σ (p0 s)) = .ok (mk σ (p s), st' s)) ∧
        trainLoop TD gradD N sd (mk σ p0d) = .ok (mk σ pd, sd') ∧
        ∀ k sh, σ.leaves[k]? = some sh → ∀ i < sh.prod,
          ∃ d, HasDerivAt (fun s => p s k i) d s0 ∧ pd k i = ⟨.fin (p s0 k i), .fin d⟩ := by
  obtain ⟨I, h1, h2⟩ := hT
  obtain ⟨st, sd, a1, a2, a3⟩ := h1 p0 p0d hp0
  refine ⟨st, sd, a1, a2, ?_⟩
  have main : ∃ (p : ℝ → ℕ → ℕ → ℝ) (pd : ℕ → ℕ → Dual) (st' : ∀ s, (T s).State) (sd' : TD.State), (∀ s, trainLoop (T s) (grad s) N (st s) (mk σ (p0 s)) = .ok (mk σ (p s), st' s)) ∧
      trainLoop TD gradD N sd (mk σ p0d) = .ok (mk σ pd, sd') ∧ TracksE σ s0 p pd ∧ I st' sd' := by
    induction N with
    | zero => exact ⟨p0, p0d, st, sd, fun _ => rfl, rfl, hp0, a3⟩
    | succ N ih =>
      obtain ⟨p, pd, st', sd', b1, b2, b3, b4⟩ := ih
      obtain ⟨g, gd, c1, c2, c3⟩ := hgrad N p pd b3
      obtain ⟨u, st'', ud, sd'', d1, d2, d3, d4⟩ := h2 g gd p pd st' sd' c3 b3 b4
      refine ⟨fun s k i => p s k i + u s k i, fun k i => pd k i + ud k i, st'', sd'', fun s => ?_, ?_,
        fun k sh hk i hi => (b3 k sh hk i hi).add (d3 k sh hk i hi), d4⟩
      · exact trainLoop_succ _ (grad s) N _ _ _ _ _ _ _ (b1 s) (by rw [c1 s]; exact d1 s) (C06_apply_updates σ _ _)
      · exact trainLoop_succ _ gradD N _ _ _ _ _ _ _ b2 (by rw [c2]; exact d2) (C06_apply_updates σ _ _)
  obtain ⟨p, pd, st', sd', b1, b2, b3, -⟩ := main
  exact ⟨p, pd, st', sd', b1, b2, b3⟩

/-- **C92 (optimisers).** Automatic differentiation is right, with respect to gradients, parameters and every
hyper-parameter, through any number of steps of: `sgd` with any momentum; `adam` and `adamw` **with `eps_root > 0`**; `adabelief` (whose
`eps_root` is positive); `rmsprop`, centered or not, with `eps > 0`; `adagrad` with a positive initial accumulator. -/
theorem C92_optimisers {lr : ℝ → LR ℝ} {lrd : LR Dual} (hlr : TracksLR s0 lr lrd)
    {mom : ℝ → Option ℝ} {momd : Option Dual} (hmom : TracksOpt s0 mom momd) (nes centered : Bool)
    {b1 b2 eps er wd : ℝ → ℝ} {b1d b2d epsd erd wdd : Dual} (h1 : Tracks s0 b1 b1d) (h2 : Tracks s0 b2 b2d)
    (he : Tracks s0 eps epsd) (hr : Tracks s0 er erd) (hw : Tracks s0 wd wdd)
    (hb1 : 0 ≤ b1 s0 ∧ b1 s0 < 1) (hb2 : 0 ≤ b2 s0 ∧ b2 s0 < 1) {a : ℝ → ℝ} {ad : Dual} (ha : Tracks s0 a ad) :
    ADCorrect σ s0 (fun s => sgd (lr s) (mom s) nes) (sgd lrd momd nes) ∧
    (0 ≤ eps s0 → 0 < er s0 →
      ADCorrect σ s0 (fun s => adam (lr s) (b1 s) (b2 s) (eps s) (er s)) (adam lrd b1d b2d epsd erd) ∧
      ADCorrect σ s0 (fun s => adamw (lr s) (b1 s) (b2 s) (eps s) (er s) (wd s)) (adamw lrd b1d b2d epsd erd wdd)) ∧
    (0 ≤ eps s0 → ADCorrect σ s0 (fun s => adabelief (lr s) (b1 s) (b2 s) (eps s)) (adabelief lrd b1d b2d epsd)) ∧
    (0 < eps s0 → 0 ≤ a s0 →
      ADCorrect σ s0 (fun s => rmsprop (lr s) (b2 s) (eps s) (a s) centered (mom s) nes) (rmsprop lrd b2d epsd ad centered momd nes)) ∧
    (0 ≤ eps s0 → (∀ s, 0 < a s) → ADCorrect σ s0 (fun s => adagrad (lr s) (a s) (eps s)) (adagrad lrd ad epsd)) := by
  refine ⟨?_, ?_, ?_, ?_, ?_⟩
  · exact ad_chain (.cons (ad_momentum hmom nes) (.cons (ad_lr hlr) .nil))
  · intro e0 r0
    exact ⟨ad_chain (.cons (ad_adam h1 h2 he hr hb1 hb2 e0 r0) (.cons (ad_lr hlr) .nil)),
      ad_chain (.cons (ad_adam h1 h2 he hr hb1 hb2 e0 r0) (.cons (ad_addDecayedWeights hw) (.cons (ad_lr hlr) .nil)))⟩
  · intro e0
    refine ad_chain (.cons (ad_belief h1 h2 he (Tracks.ofRat (1 / 10 ^ 16)) hb1 hb2 e0 ?_) (.cons (ad_lr hlr) .nil))
    norm_num
  · intro e0 a0
    cases centered
    · exact ad_chain (.cons (ad_rms h2 he ha ⟨hb2.1, hb2.2.le⟩ a0 e0) (.cons (ad_lr hlr) (.cons (ad_momentum hmom nes) .nil)))
    · exact ad_chain (.cons (ad_stddev h2 he ha ⟨hb2.1, hb2.2.le⟩ a0 e0) (.cons (ad_lr hlr) (.cons (ad_momentum hmom nes) .nil)))
  · intro e0 a0
    exact ad_chain (.cons (ad_rss ha he a0 e0) (.cons (ad_lr hlr) .nil))

/-- a number that does not depend on `s` -/
abbrev Dual.lit (x : ℝ) : Dual := ⟨.fin x, .fin 0⟩

/-- **C92 (finding, documented): `eps_root = 0`.** At a zero gradient entry the first update of `scale_by_adam` with
`eps_root = 0` (the default) is differentiable, with derivative `1 / eps`, but automatic differentiation returns NaN. -/
theorem C92_adam_nan (b1 b2 eps t : ℝ) (hb1 : 0 ≤ b1 ∧ b1 < 1) (hb2 : 0 ≤ b2 ∧ b2 < 1) (heps : 0 < eps) :
    (∃ u : ℝ → ℝ, (∀ g, ∃ st, (scaleByAdam b1 b2 eps 0).update (mk (.leaf []) fun _ _ => g)
        ⟨0#32, mk (.leaf []) (fun _ _ => 0), mk (.leaf []) (fun _ _ => 0)⟩ none = .ok (mk (.leaf []) (fun _ _ => u g), st)) ∧
      HasDerivAt u (1 / eps) 0) ∧
    (∃ v st, (scaleByAdam (Dual.lit b1) (Dual.lit b2) (Dual.lit eps) (Dual.lit 0)).update (mk (.leaf []) fun _ _ => ⟨.fin 0, .fin t⟩)
        ⟨0#32, mk (.leaf []) (fun _ _ => 0), mk (.leaf []) (fun _ _ => 0)⟩ none = .ok (mk (.leaf []) (fun _ _ => ⟨.fin v, .nan⟩), st)) := by
  have hc : safeInt32Increment 0#32 = cntAt 1 := safeInt32Increment_cntAt 0
  have p1 := bias_pos hb1.1 hb1.2 0
  have p2 := bias_pos hb2.1 hb2.2 0
  have e1 : ∀ b : ℝ, JOps.pow b (cnt (cntAt (0 + 1)) : ℝ) = b := by
    intro b
    rw [jpow_real, cnt_cntAt _ (by norm_num)]
    simp
  rw [e1] at p1 p2
  constructor
  · refine ⟨fun g => g / (|g| + eps), fun g => ?_, ?_⟩
    · refine ⟨_, (adam_update_mk _ _ _ _ _ _ _ _ _ _).trans (congrArg (fun q => Except.ok (q, _)) ?_)⟩
      congr 1
      funext k i
      rw [hc, e1, e1]
      simp only [ipow_eq_pow, pow_one, mul_zero, add_zero, jsqrt_real]
      rw [mul_div_cancel_left₀ _ p1.ne', mul_div_cancel_left₀ _ p2.ne', Real.sqrt_sq_eq_abs]
    · rw [hasDerivAt_iff_tendsto_slope]
      have : Filter.Tendsto (fun g : ℝ => 1 / (|g| + eps)) (nhdsWithin 0 {0}ᶜ) (nhds (1 / eps)) := by
        have hcont : ContinuousAt (fun g : ℝ => 1 / (|g| + eps)) 0 := by
          apply ContinuousAt.div continuousAt_const
          · exact (continuous_abs.continuousAt).add continuousAt_const
          · simp; exact heps.ne'
        have := hcont.tendsto
        simp only [abs_zero, zero_add] at this
        exact this.mono_left nhdsWithin_le_nhds
      refine this.congr' ?_
      filter_upwards [self_mem_nhdsWithin] with g hg
      have hg : g ≠ 0 := hg
      have : |g| + eps ≠ 0 := by positivity
      rw [slope_def_field]
      field_simp
      ring
  · refine ⟨0, _, (adam_update_mk _ _ _ _ _ _ _ _ _ _).trans (congrArg (fun q => Except.ok (q, _)) ?_)⟩
    congr 1
    funext k i
    rw [hc]
    obtain ⟨d1, -, q1⟩ := Tracks.one.sub ((Tracks.const (s0 := 0) b1).powCount hb1.1 0)
    obtain ⟨d2, -, q2⟩ := Tracks.one.sub ((Tracks.const (s0 := 0) b2).powCount hb2.1 0)
    simp only [e1] at q1 q2
    have q1 : 1 - JOps.pow (Dual.lit b1) (cnt (cntAt 1)) = ⟨.fin (1 - b1), .fin d1⟩ := q1
    have q2 : 1 - JOps.pow (Dual.lit b2) (cnt (cntAt 1)) = ⟨.fin (1 - b2), .fin d2⟩ := q2
    have q3 : (1 - Dual.lit b1) * ipow (⟨.fin 0, .fin t⟩ : Dual) 1 + Dual.lit b1 * 0 = ⟨.fin 0, .fin ((1 - b1) * t)⟩ := by
      show (⟨(XReal.fin 1 - .fin b1) * XReal.fin 0 + XReal.fin b1 * .fin 0, ((XReal.fin 0 - .fin 0) * .fin 0 +
        (XReal.fin 1 - .fin b1) * .fin t) + (XReal.fin 0 * .fin 0 + .fin b1 * .fin 0)⟩ : Dual) = _
      simp
    have q4 : (1 - Dual.lit b2) * ipow (⟨.fin 0, .fin t⟩ : Dual) 2 + Dual.lit b2 * 0 = ⟨.fin 0, .fin 0⟩ := by
      show (⟨(XReal.fin 1 - .fin b2) * (XReal.fin 0 * .fin 0) + XReal.fin b2 * .fin 0, ((XReal.fin 0 - .fin 0) * (XReal.fin 0 * .fin 0) +
        (XReal.fin 1 - .fin b2) * (XReal.fin t * .fin 0 + .fin 0 * .fin t)) + (XReal.fin 0 * .fin 0 + .fin b2 * .fin 0)⟩ : Dual) = _
      simp
    rw [q1, q2, q3, q4]
    have q5 : (⟨.fin 0, .fin 0⟩ : Dual) / ⟨.fin (1 - b2), .fin d2⟩ + Dual.lit 0 = ⟨.fin 0, .fin 0⟩ := by
      show (⟨XReal.fin 0 / .fin (1 - b2) + .fin 0, (XReal.fin 0 / .fin (1 - b2) - .fin d2 * (.fin 0 / .fin (1 - b2)) / .fin (1 - b2)) +
        .fin 0⟩ : Dual) = _
      simp [XReal.fin_div _ _ p2.ne']
    have q6 : (⟨.fin 0, .fin ((1 - b1) * t)⟩ : Dual) / ⟨.fin (1 - b1), .fin d1⟩ = ⟨.fin 0, .fin t⟩ := by
      show (⟨XReal.fin 0 / .fin (1 - b1), XReal.fin ((1 - b1) * t) / .fin (1 - b1) - .fin d1 * (.fin 0 / .fin (1 - b1)) / .fin (1 - b1)⟩ : Dual) = _
      simp only [XReal.fin_div _ _ p1.ne', XReal.fin_mul, XReal.fin_sub]
      congr 2
      · simp
      · field_simp
        ring
    have q7 : JOps.sqrt (⟨.fin 0, .fin 0⟩ : Dual) = ⟨.fin 0, .nan⟩ := by
      have e : JOps.sqrt (XReal.fin 0) = .fin 0 := by
        show (if (0:ℝ) < 0 then XReal.nan else .fin √0) = _
        simp
      show (⟨JOps.sqrt (XReal.fin 0), XReal.fin 0 * (JOps.ofRat (1 / 2) / JOps.sqrt (XReal.fin 0))⟩ : Dual) = _
      rw [e]
      congr 1
      have e2 : (JOps.ofRat (1 / 2) : XReal) / .fin 0 = .pinf := by
        show (if (0:ℝ) = 0 then XReal.infOf ((1/2 : ℚ) : ℝ) else _) = _
        simp [XReal.infOf]
      rw [e2]
      show XReal.infOf 0 = _
      simp [XReal.infOf]
    rw [q5, q6, q7]
    show (⟨XReal.fin 0 / (.fin 0 + .fin eps), XReal.fin t / (.fin 0 + .fin eps) -
      (.nan + .fin 0) * (.fin 0 / (.fin 0 + .fin eps)) / (.fin 0 + .fin eps)⟩ : Dual) = _
    simp only [XReal.fin_add, zero_add, XReal.fin_div _ _ heps.ne', zero_div, XReal.nan_add, XReal.nan_mul]
    rfl

/-- **C92 (finding): `initial_accumulator_value = 0`.** At a zero gradient entry the first update of `scale_by_rss` with
accumulator 0 has derivative `1 / √eps`, but automatic differentiation returns 0 (the `jnp.where` selects the constant). -/
theorem C92_adagrad_zero (eps t : ℝ) (heps : 0 < eps) :
    (∃ u : ℝ → ℝ, (∀ g, ∃ st, (scaleByRss 0 eps).update (mk (.leaf []) fun _ _ => g) ⟨mk (.leaf []) (fun _ _ => 0)⟩ none =
        .ok (mk (.leaf []) (fun _ _ => u g), st)) ∧ HasDerivAt u (1 / √eps) 0) ∧
    (∃ st, (scaleByRss (Dual.lit 0) (Dual.lit eps)).update (mk (.leaf []) fun _ _ => ⟨.fin 0, .fin t⟩) ⟨mk (.leaf []) (fun _ _ => 0)⟩ none =
      .ok (mk (.leaf []) (fun _ _ => ⟨.fin 0, .fin 0⟩), st)) := by
  constructor
  · refine ⟨fun g => invSqrtPos eps (g * g + 0) * g, fun g => ⟨_, rss_update_mk _ _ _ _ _ _⟩, ?_⟩
    rw [hasDerivAt_iff_tendsto_slope]
    have : Filter.Tendsto (fun g : ℝ => 1 / √(g * g + eps)) (nhdsWithin 0 {0}ᶜ) (nhds (1 / √eps)) := by
      have hcont : ContinuousAt (fun g : ℝ => 1 / √(g * g + eps)) 0 := by
        apply ContinuousAt.div continuousAt_const
        · fun_prop
        · simp only [mul_zero, zero_add]
          exact (Real.sqrt_pos.mpr heps).ne'
      have := hcont.tendsto
      simp only [mul_zero, zero_add] at this
      exact this.mono_left nhdsWithin_le_nhds
    refine this.congr' ?_
    filter_upwards [self_mem_nhdsWithin] with g hg
    have hg : g ≠ 0 := hg
    have hp : 0 < g * g + 0 := by rw [add_zero]; exact mul_self_pos.mpr hg
    rw [slope_def_field]
    unfold invSqrtPos
    rw [if_pos ((jlt_real _ _).mpr hp), if_neg (by simp)]
    simp only [jrsqrt_real, add_zero]
    field_simp
    simp
  · refine ⟨_, (rss_update_mk _ _ _ _ _ _).trans (congrArg (fun q => Except.ok (q, _)) ?_)⟩
    congr 1
    funext k i
    have : invSqrtPos (Dual.lit eps) ((⟨.fin 0, .fin t⟩ : Dual) * ⟨.fin 0, .fin t⟩ + 0) = 0 := by
      unfold invSqrtPos
      rw [if_neg]
      intro h
      have h : JOps.lt (XReal.fin 0) (XReal.fin (0 * 0 + 0)) = true := h
      rw [xlt_fin] at h
      norm_num at h
    rw [this]
    show (⟨XReal.fin 0 * .fin 0, XReal.fin 0 * .fin 0 + .fin 0 * .fin t⟩ : Dual) = _
    simp

/-- the hypotheses of `C92_training` are met: learning the learning rate of `adam` on `x ↦ x²/2` (gradient `x`), from any start -/
example (x0 : ℝ) : ∃ (grad : ℝ → ℕ → Params ℝ → Params ℝ) (gradD : ℕ → Params Dual → Params Dual),
    (∀ (n : ℕ) (p : ℝ → ℕ → ℕ → ℝ) (pd : ℕ → ℕ → Dual), TracksE (.leaf []) s0 p pd → ∃ g gd, (∀ s : ℝ, grad s n (mk (.leaf []) (p s)) = mk (.leaf []) (g s)) ∧
      gradD n (mk (.leaf []) pd) = mk (.leaf []) gd ∧ TracksE (.leaf []) s0 g gd) ∧
    TracksE (.leaf []) s0 (fun _ _ _ => x0) (fun _ _ => Dual.lit x0) ∧
    ADCorrect (.leaf []) s0 (fun s => adam (.scalar (Real.exp s)) 0.9 0.999 1e-8 1e-8)
      (adam (.scalar ⟨.fin (Real.exp s0), .fin (Real.exp s0)⟩) (Dual.lit 0.9) (Dual.lit 0.999) (Dual.lit 1e-8) (Dual.lit 1e-8)) := by
  refine ⟨fun _ _ p => p, fun _ p => p, fun n p pd h => ⟨p, pd, fun _ => rfl, rfl, h⟩, .const fun _ _ => .const _, ?_⟩
  refine ((C92_optimisers (TracksLR.scalar (c := Real.exp) ⟨_, Real.hasDerivAt_exp s0, rfl⟩) .none false false (Tracks.const 0.9) (Tracks.const 0.999)
    (Tracks.const 1e-8) (Tracks.const 1e-8) (Tracks.const 0) (by norm_num) (by norm_num) (Tracks.const 0)).2.1 (by norm_num) (by norm_num)).1

end main

end Optax
