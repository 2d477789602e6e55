import Verif.Props.Privacy
import Verif.Props.Constrain
import Verif.Props.Alias
import Verif.Lemmas.Girsanov
import Mathlib.Probability.Independence.InfinitePi

/-!
# C91: training with `differentially_private_aggregate` is differentially private
-/

set_option linter.unusedSectionVars false
set_option linter.unusedSimpArgs false

open MeasureTheory ProbabilityTheory
open scoped ENNReal

namespace Optax

/-! ## Specification -/

/-- the entries of a tree of arrays: entry `i` of leaf `k` -/
abbrev Entries := ℕ → ℕ → ℝ

/-- The random number generator as an ideal source of Gaussian noise: `normal ω` is the generator (`jax.random.normal`
as a function of key, shape and entry) at outcome `ω`; every entry of every draw is standard normal, and entries of
draws with different keys, or different entries of one draw, are independent. -/
structure IdealNormal {Ω : Type} [MeasurableSpace Ω] (P : Measure Ω) (normal : Ω → Normal ℝ) : Prop where
  meas : ∀ k s i, Measurable fun ω => normal ω k s i
  law : ∀ k s i, i < s.prod → P.map (fun ω => normal ω k s i) = stdN
  indep : ∀ shape : Key → List ℕ,
    iIndepFun (fun (y : {y : Key × ℕ // y.2 < (shape y.1).prod}) ω => normal ω y.1.1 (shape y.1.1) y.1.2) P

/-- A transformation that, on trees of structure `σ`, never fails and whose updates and states are (Borel) measurable
functions of gradients, state and parameters. -/
def MeasurableT (σ : Spec) (t : GT ℝ) : Prop :=
  ∃ (S : Type) (_ : MeasurableSpace S) (enc : S → t.State) (init : Entries → S) (upd : Entries × S × Entries → Entries × S),
    Measurable upd ∧ (∀ p, t.init (mk σ p) = .ok (enc (init p))) ∧
    ∀ g s p, t.update (mk σ g) (enc s) (some (mk σ p)) = .ok (mk σ (upd (g, s, p)).1, enc (upd (g, s, p)).2)

/-- the entries of the parameters a training run returns -/
def entriesOf {S : Type} : Res (Params ℝ × S) → Entries
  | .ok r => coord r.1
  | .error _ => 0

/-- the privacy loss after steps of total `ρ` (zero-concentrated differential privacy `ρ`, converted at `δ`) -/
noncomputable def privacyLoss (ρ δ : ℝ) : ℝ := ρ + 2 * √(ρ * Real.log (1 / δ))

/-! ## The run as a function of the noise -/

/-- zero outside the entries of `σ` -/
def cut (σ : Spec) (v : Entries) : Entries := fun k i => if (⟨k, i⟩ : Σ _ : ℕ, ℕ) ∈ idx σ then v k i else 0

theorem measurable_entries {β : Type} [MeasurableSpace β] {f : β → Entries} :
    Measurable f ↔ ∀ k i, Measurable fun b => f b k i := by
  constructor
  · intro h k i
    exact (measurable_pi_apply i).comp ((measurable_pi_apply k).comp h)
  · intro h
    rw [measurable_pi_iff]
    intro k
    rw [measurable_pi_iff]
    exact h k

theorem measurable_cut (σ : Spec) : Measurable (cut σ) := by
  rw [measurable_entries]
  intro k i
  unfold cut
  split_ifs
  · exact measurable_entries.mp measurable_id k i
  · exact measurable_const

theorem coord_mk_cut (σ : Spec) (v : Entries) : coord (mk σ v) = cut σ v := by
  funext k i
  unfold cut
  split_ifs with h
  · obtain ⟨s, h1, h2⟩ := mem_idx.mp h
    exact coord_mk σ v k i s h1 h2
  · simp only [coord, mk_leaves, List.getElem?_mapIdx]
    cases hk : σ.leaves[k]? with
    | none => rfl
    | some s =>
      have : ¬ i < s.prod := fun hi => h (mem_idx.mpr ⟨s, hk, hi⟩)
      simp only [Option.map_some, Option.bind_some]
      rw [List.getElem?_eq_none]
      · rfl
      · simp [Tensor.tens]; omega

theorem mk_cut (σ : Spec) (v : Entries) : mk σ (cut σ v) = mk σ v := by
  apply mk_congr
  intro k s hk i hi
  unfold cut
  rw [if_pos (mem_idx.mpr ⟨s, hk, hi⟩)]

section run
variable {S : Type} [MeasurableSpace S] (upd : Entries × S × Entries → Entries × S) (start : Entries × S)

/-- one step of post-processing: parameters and state after the aggregate `g` -/
def postStep (r : Entries × S) (g : Entries) : Entries × S :=
  (fun k i => r.1 k i + (upd (g, r.2, r.1)).1 k i, (upd (g, r.2, r.1)).2)

/-- parameters and state after `n` aggregates -/
def postRun (A : ℕ → Entries) : ℕ → Entries × S
  | 0 => start
  | n + 1 => postStep upd (postRun A n) (A n)

/-- parameters and state when the aggregate is itself computed from the parameters -/
def loopRun (agg : ℕ → Entries → Entries) : ℕ → Entries × S
  | 0 => start
  | n + 1 => postStep upd (loopRun agg n) (agg n (loopRun agg n).1)

variable {upd start}

theorem measurable_postStep (hu : Measurable upd) : Measurable fun p : (Entries × S) × Entries => postStep upd p.1 p.2 := by
  have h1 : Measurable fun p : (Entries × S) × Entries => upd (p.2, p.1.2, p.1.1) :=
    hu.comp (measurable_snd.prodMk ((measurable_snd.comp measurable_fst).prodMk (measurable_fst.comp measurable_fst)))
  refine Measurable.prodMk ?_ (measurable_snd.comp h1)
  rw [measurable_entries]
  intro k i
  exact (measurable_entries.mp (measurable_fst.comp measurable_fst) k i).add
    (measurable_entries.mp (measurable_fst.comp h1) k i)

theorem measurable_postRun (hu : Measurable upd) {β : Type} [MeasurableSpace β] (A : β → ℕ → Entries)
    (hA : ∀ n, Measurable fun b => A b n) (n : ℕ) : Measurable fun b => postRun upd start (A b) n := by
  induction n with
  | zero => exact measurable_const
  | succ n ih => exact (measurable_postStep hu).comp (ih.prodMk (hA n))

theorem measurable_loopRun (hu : Measurable upd) {β : Type} [MeasurableSpace β] (agg : β → ℕ → Entries → Entries)
    (hA : ∀ n, Measurable fun p : β × Entries => agg p.1 n p.2) (n : ℕ) :
    Measurable fun b => loopRun upd start (agg b) n := by
  induction n with
  | zero => exact measurable_const
  | succ n ih =>
    exact (measurable_postStep hu).comp (ih.prodMk ((hA n).comp (measurable_id.prodMk (measurable_fst.comp ih))))

theorem postRun_congr {A A' : ℕ → Entries} (n : ℕ) (h : ∀ j < n, A j = A' j) :
    postRun upd start A n = postRun upd start A' n := by
  induction n with
  | zero => rfl
  | succ n ih => rw [postRun, postRun, ih (fun j hj => h j (by omega)), h n (by omega)]

theorem postRun_loopRun {A : ℕ → Entries} {agg : ℕ → Entries → Entries} (n : ℕ)
    (h : ∀ j < n, A j = agg j (loopRun upd start agg j).1) : postRun upd start A n = loopRun upd start agg n := by
  induction n with
  | zero => rfl
  | succ n ih => rw [postRun, loopRun, ih (fun j hj => h j (by omega)), h n (by omega)]

end run

/-! ## The noisy aggregates as an adaptive Gaussian mechanism -/

section mech
variable (σ : Spec) (N : ℕ)

/-- the index of a noise draw: step and entry -/
abbrev Draws : Type := Fin N × {y : Σ _ : ℕ, ℕ // y ∈ idx σ}

/-- all draws as a function of step, leaf and entry -/
def spread (w : Draws σ N → ℝ) (n : ℕ) : Entries := fun k i =>
  if h : n < N ∧ (⟨k, i⟩ : Σ _ : ℕ, ℕ) ∈ idx σ then w (⟨n, h.1⟩, ⟨⟨k, i⟩, h.2⟩) else 0

theorem measurable_spread (n : ℕ) : Measurable fun w : Draws σ N → ℝ => spread σ N w n := by
  rw [measurable_entries]
  intro k i
  unfold spread
  split_ifs
  · exact measurable_pi_apply _
  · exact measurable_const

/-- the aggregate of step `n` at parameters `p` with noise `ζ` -/
noncomputable def aggOf (C m : ℝ) (B : ℕ → ℕ) (x : ℕ → Entries → ℕ → Entries) (ζ : ℕ → Entries) (n : ℕ) (p : Entries) : Entries :=
  cut σ fun k i => (clippedSum σ C (B n) (x n p) k i + C * m * ζ n k i) / B n

theorem measurable_entryNorm : Measurable (entryNorm σ) := by
  unfold entryNorm l2
  apply Measurable.sqrt
  apply Finset.measurable_sum
  intro y _
  exact (measurable_entries.mp measurable_id y.1 y.2).pow_const 2

theorem measurable_clippedSum (C : ℝ) (B : ℕ) (x : Entries → ℕ → Entries) (hx : ∀ b, Measurable fun p => x p b) :
    Measurable fun p => clippedSum σ C B (x p) := by
  rw [measurable_entries]
  intro k i
  unfold clippedSum
  apply Finset.measurable_sum
  intro b _
  unfold clippedTo
  exact (measurable_entries.mp (hx b) k i).div
    ((((measurable_entryNorm σ).comp (hx b)).div_const C).max measurable_const)

theorem clippedSum_sub (C : ℝ) (hC : 0 < C) (B : ℕ) (x x' : ℕ → Entries) (b0 : ℕ) (h : ∀ b < B, b ≠ b0 → x b = x' b) :
    ∑ y ∈ idx σ, (clippedSum σ C B x y.1 y.2 - clippedSum σ C B x' y.1 y.2) ^ 2 ≤ (2 * C) ^ 2 := by
  have key : l2 (idx σ) (fun y => clippedSum σ C B x y.1 y.2 - clippedSum σ C B x' y.1 y.2) ≤ 2 * C := by
    by_cases hb : b0 < B
    · have e : ∀ y : Σ _ : ℕ, ℕ, clippedSum σ C B x y.1 y.2 - clippedSum σ C B x' y.1 y.2 =
          clippedTo σ C (x b0) y.1 y.2 - clippedTo σ C (x' b0) y.1 y.2 := by
        intro y
        unfold clippedSum
        rw [← Finset.sum_sub_distrib, Finset.sum_eq_single b0]
        · intro b hbm hne
          rw [h b (Finset.mem_range.mp hbm) hne, sub_self]
        · intro h; exact absurd (Finset.mem_range.mpr hb) h
      simp only [e]
      refine (l2_sub_le _ _ _).trans ?_
      have h1 := (C49_contribution σ C hC (x b0)).1
      have h2 := (C49_contribution σ C hC (x' b0)).1
      unfold entryNorm at h1 h2
      linarith
    · have e : ∀ y : Σ _ : ℕ, ℕ, clippedSum σ C B x y.1 y.2 - clippedSum σ C B x' y.1 y.2 = 0 := by
        intro y
        unfold clippedSum
        rw [← Finset.sum_sub_distrib]
        apply Finset.sum_eq_zero
        intro b hbm
        rw [h b (Finset.mem_range.mp hbm) (by have := Finset.mem_range.mp hbm; omega), sub_self]
      simp only [e]
      unfold l2
      simp
      exact hC.le
  have h0 : 0 ≤ l2 (idx σ) (fun y => clippedSum σ C B x y.1 y.2 - clippedSum σ C B x' y.1 y.2) := Real.sqrt_nonneg _
  rw [← l2_sq]
  exact pow_le_pow_left₀ h0 key 2

variable {S : Type} [MeasurableSpace S] (upd : Entries × S × Entries → Entries × S) (start : Entries × S)
  (C m : ℝ) (B : ℕ → ℕ) (x x' : ℕ → Entries → ℕ → Entries)

/-- the aggregates a transcript encodes -/
noncomputable def aggs (w : Draws σ N → ℝ) (n : ℕ) : Entries := fun k i => C * m / B n * spread σ N w n k i

/-- what is added to the noise, as a function of the transcript -/
noncomputable def shiftOf (w : Draws σ N → ℝ) (y : Draws σ N) : ℝ :=
  clippedSum σ C (B y.1) (x y.1 (postRun upd start (aggs σ N C m B w) y.1).1) y.2.1.1 y.2.1.2 / (C * m)

/-- the transcript of a run as a function of the noise -/
noncomputable def transcript (z : Draws σ N → ℝ) (y : Draws σ N) : ℝ :=
  z y + clippedSum σ C (B y.1)
    (x y.1 (loopRun upd start (aggOf σ C m B x (spread σ N z)) y.1).1) y.2.1.1 y.2.1.2 / (C * m)

variable {upd start C m B x x'}

theorem measurable_aggs (n : ℕ) : Measurable fun w : Draws σ N → ℝ => aggs σ N C m B w n := by
  rw [measurable_entries]
  intro k i
  exact (measurable_entries.mp (measurable_spread σ N n) k i).const_mul _

theorem measurable_aggOf (hx : ∀ n b, Measurable fun p => x n p b) (n : ℕ) :
    Measurable fun p : (Draws σ N → ℝ) × Entries => aggOf σ C m B x (spread σ N p.1) n p.2 := by
  unfold aggOf
  apply (measurable_cut σ).comp
  rw [measurable_entries]
  intro k i
  refine Measurable.div_const (Measurable.add ?_ (Measurable.const_mul ?_ _)) _
  · exact (measurable_entries.mp (measurable_clippedSum σ C (B n) (x n) (hx n)) k i).comp measurable_snd
  · exact (measurable_entries.mp (measurable_spread σ N n) k i).comp measurable_fst

theorem measurable_shiftOf (hu : Measurable upd) (hx : ∀ n b, Measurable fun p => x n p b) :
    Measurable (shiftOf σ N upd start C m B x) := by
  rw [measurable_pi_iff]
  intro y
  unfold shiftOf
  refine Measurable.div_const ?_ _
  exact (measurable_entries.mp (measurable_clippedSum σ C (B y.1) (x y.1) (hx y.1)) y.2.1.1 y.2.1.2).comp
    (measurable_fst.comp (measurable_postRun hu _ (fun n => measurable_aggs σ N n) y.1))

theorem measurable_transcript (hu : Measurable upd) (hx : ∀ n b, Measurable fun p => x n p b) :
    Measurable (transcript σ N upd start C m B x) := by
  rw [measurable_pi_iff]
  intro y
  unfold transcript
  refine (measurable_pi_apply y).add (Measurable.div_const ?_ _)
  exact (measurable_entries.mp (measurable_clippedSum σ C (B y.1) (x y.1) (hx y.1)) y.2.1.1 y.2.1.2).comp
    (measurable_fst.comp (measurable_loopRun hu _ (fun n => measurable_aggOf σ N hx n) y.1))

theorem adapted_shiftOf : Adapted (fun y : Draws σ N => (y.1 : ℕ)) (shiftOf σ N upd start C m B x) := by
  intro w w' y h
  unfold shiftOf
  rw [postRun_congr (A' := aggs σ N C m B w') y.1]
  intro j hj
  funext k i
  unfold aggs spread
  split_ifs with h2
  · rw [h _ hj]
  · rfl

theorem aggs_transcript (hC : 0 < C) (hm : 0 < m) (z : Draws σ N → ℝ) (n : ℕ) (hn : n < N) :
    aggs σ N C m B (transcript σ N upd start C m B x z) n =
      aggOf σ C m B x (spread σ N z) n (loopRun upd start (aggOf σ C m B x (spread σ N z)) n).1 := by
  funext k i
  unfold aggs
  rw [aggOf, cut]
  by_cases h : (⟨k, i⟩ : Σ _ : ℕ, ℕ) ∈ idx σ
  · rw [if_pos h]
    have e1 : spread σ N (transcript σ N upd start C m B x z) n k i =
        transcript σ N upd start C m B x z (⟨n, hn⟩, ⟨⟨k, i⟩, h⟩) := by
      unfold spread; rw [dif_pos ⟨hn, h⟩]
    have e2 : spread σ N z n k i = z (⟨n, hn⟩, ⟨⟨k, i⟩, h⟩) := by
      unfold spread; rw [dif_pos ⟨hn, h⟩]
    rw [e1, e2, transcript]
    field_simp
    ring
  · rw [if_neg h]
    have : spread σ N (transcript σ N upd start C m B x z) n k i = 0 := by
      unfold spread; rw [dif_neg (fun hh => h hh.2)]
    rw [this, mul_zero]

theorem postRun_transcript (hC : 0 < C) (hm : 0 < m) (z : Draws σ N → ℝ) (n : ℕ) (hn : n ≤ N) :
    postRun upd start (aggs σ N C m B (transcript σ N upd start C m B x z)) n =
      loopRun upd start (aggOf σ C m B x (spread σ N z)) n :=
  postRun_loopRun n fun j hj => aggs_transcript σ N hC hm z j (by omega)

theorem transcript_sol (hC : 0 < C) (hm : 0 < m) (z : Draws σ N → ℝ) (y : Draws σ N) :
    transcript σ N upd start C m B x z y = z y + shiftOf σ N upd start C m B x (transcript σ N upd start C m B x z) y := by
  unfold shiftOf
  rw [postRun_transcript σ N hC hm z y.1 y.1.2.le]
  rfl

theorem shift_diff (hC : 0 < C) (hm : 0 < m) (K : ℕ → Prop) [DecidablePred K]
    (hK : ∀ n, K n → ∀ p, ∃ b0, ∀ b < B n, b ≠ b0 → x n p b = x' n p b)
    (hK' : ∀ n, ¬ K n → ∀ p, ∀ b < B n, x n p b = x' n p b) (w : Draws σ N → ℝ) :
    ∑ y, (shiftOf σ N upd start C m B x w y - shiftOf σ N upd start C m B x' w y) ^ 2 ≤
      2 * (2 * ((Finset.range N).filter K).card / m ^ 2) := by
  have e : ∀ n : Fin N, ∑ y : {y : Σ _ : ℕ, ℕ // y ∈ idx σ},
      (shiftOf σ N upd start C m B x w (n, y) - shiftOf σ N upd start C m B x' w (n, y)) ^ 2 ≤
        if K (n : ℕ) then 4 / m ^ 2 else 0 := by
    intro n
    unfold shiftOf
    simp only [← sub_div, div_pow]
    rw [← Finset.sum_div]
    set p := (postRun upd start (aggs σ N C m B w) (n : ℕ)).1
    rw [Finset.sum_coe_sort (idx σ) (fun y => (clippedSum σ C (B n) (x n p) y.1 y.2 - clippedSum σ C (B n) (x' n p) y.1 y.2) ^ 2)]
    split_ifs with hn
    · obtain ⟨b0, hb⟩ := hK n hn p
      have := clippedSum_sub σ C hC (B n) (x n p) (x' n p) b0 hb
      rw [div_le_iff₀ (by positivity)]
      refine this.trans (le_of_eq ?_)
      field_simp
      ring
    · have : ∀ y : Σ _ : ℕ, ℕ, clippedSum σ C (B n) (x n p) y.1 y.2 - clippedSum σ C (B n) (x' n p) y.1 y.2 = 0 := by
        intro y
        unfold clippedSum
        rw [← Finset.sum_sub_distrib]
        apply Finset.sum_eq_zero
        intro b hbm
        rw [hK' n hn p b (Finset.mem_range.mp hbm), sub_self]
      simp [this]
  rw [Fintype.sum_prod_type]
  refine (Finset.sum_le_sum fun n _ => e n).trans (le_of_eq ?_)
  rw [Fin.sum_univ_eq_sum_range (fun n => if K n then 4 / m ^ 2 else 0) N, ← Finset.sum_filter, Finset.sum_const, nsmul_eq_mul]
  ring

end mech

/-! ## From the ideal generator to the draws of a run -/

section noise
variable {Ω : Type} [MeasurableSpace Ω] {P : Measure Ω} {normal : Ω → Normal ℝ}

/-- the noise of a run -/
def noiseOf (σ : Spec) (N : ℕ) (seed : ℤ) (normal : Normal ℝ) (y : Draws σ N) : ℝ :=
  normal (drawKey seed (fun _ => σ.numLeaves) y.1 y.2.1.1) ((σ.leaves[y.2.1.1]?).getD []) y.2.1.2

theorem noise_law [IsProbabilityMeasure P] (hN : IdealNormal P normal) (σ : Spec) (N : ℕ) (seed : ℤ) :
    Measurable (fun ω => noiseOf σ N seed (normal ω)) ∧ P.map (fun ω => noiseOf σ N seed (normal ω)) = stdNi (Draws σ N) := by
  classical
  have hm : Measurable (fun ω => noiseOf σ N seed (normal ω)) := by
    rw [measurable_pi_iff]
    intro y
    exact hN.meas _ _ _
  refine ⟨hm, ?_⟩
  -- a shape for every key: that of the leaf whose draw uses the key
  let sh : Key → List ℕ := fun key => match key with
    | .child _ _ (k + 1) => (σ.leaves[k]?).getD []
    | _ => []
  have hsh : ∀ t k, sh (drawKey seed (fun _ => σ.numLeaves) t k) = (σ.leaves[k]?).getD [] := fun t k => rfl
  have hlt : ∀ y : Draws σ N, y.2.1.2 < (sh (drawKey seed (fun _ => σ.numLeaves) y.1 y.2.1.1)).prod := by
    intro y
    rw [hsh]
    obtain ⟨s, h1, h2⟩ := mem_idx.mp y.2.2
    rw [h1]
    exact h2
  let ix : Draws σ N → {y : Key × ℕ // y.2 < (sh y.1).prod} :=
    fun y => ⟨(drawKey seed (fun _ => σ.numLeaves) y.1 y.2.1.1, y.2.1.2), hlt y⟩
  have hinj : Function.Injective ix := by
    intro y y' h
    have h1 := congrArg (fun q => q.1.1) h
    have h2 := congrArg (fun q => q.1.2) h
    obtain ⟨h3, h4⟩ := (C50_keys_distinct seed (fun _ => σ.numLeaves)).1 _ _ _ _ h1
    obtain ⟨n, ⟨⟨k, i⟩, hk⟩⟩ := y
    obtain ⟨n', ⟨⟨k', i'⟩, hk'⟩⟩ := y'
    simp only at h3 h4 h2
    have : n = n' := Fin.ext h3
    subst this
    have h5 : k = k' := h4
    have h6 : i = i' := h2
    subst h5; subst h6
    rfl
  have hind := (hN.indep sh).precomp hinj
  have := hind.map_fun_eq_pi_map (fun y => (hN.meas _ _ _).aemeasurable)
  have e : (fun ω => noiseOf σ N seed (normal ω)) = fun ω (y : Draws σ N) =>
      ((fun (y : {y : Key × ℕ // y.2 < (sh y.1).prod}) ω => normal ω y.1.1 (sh y.1.1) y.1.2) ∘ ix) y ω := rfl
  rw [e]
  refine this.trans ?_
  unfold stdNi
  congr 1
  funext y
  exact hN.law _ _ _ (hlt y)

end noise

/-! ## Chains of measurable transformations -/

theorem chain_measurable (σ : Spec) (ts : List (GT ℝ)) (h : ∀ t ∈ ts, MeasurableT σ t) :
    ∃ (S : Type) (_ : MeasurableSpace S) (enc : S → ChainState ts) (init : Entries → S)
      (upd : Entries × S × Entries → Entries × S),
      Measurable upd ∧ (∀ p, chainInit ts (mk σ p) = .ok (enc (init p))) ∧
      (∀ s, ChainState.length ts (enc s) = ts.length) ∧
      ∀ g s p, chainLoop ts (mk σ g) (enc s) (some (mk σ p)) = .ok (mk σ (upd (g, s, p)).1, enc (upd (g, s, p)).2) := by
  induction ts with
  | nil =>
    refine ⟨Unit, inferInstance, fun _ => (0 : ℕ), fun _ => (), fun r => (r.1, ()), ?_, fun _ => rfl, fun _ => rfl,
      fun _ _ _ => rfl⟩
    exact measurable_fst.prodMk measurable_const
  | cons t ts ih =>
    obtain ⟨S, mS, enc, init, upd, h1, h2, h3⟩ := h t (by simp)
    obtain ⟨S', mS', enc', init', upd', h1', h2', h3', h4'⟩ := ih (fun u hu => h u (by simp [hu]))
    refine ⟨S × S', inferInstance, fun s => some (enc s.1, enc' s.2), fun p => (init p, init' p),
      fun r => ((upd' ((upd (r.1, r.2.1.1, r.2.2)).1, r.2.1.2, r.2.2)).1,
        ((upd (r.1, r.2.1.1, r.2.2)).2, (upd' ((upd (r.1, r.2.1.1, r.2.2)).1, r.2.1.2, r.2.2)).2)), ?_, ?_, ?_, ?_⟩
    · have e1 : Measurable fun r : Entries × (S × S') × Entries => upd (r.1, r.2.1.1, r.2.2) :=
        h1.comp (by fun_prop)
      have e2 : Measurable fun r : Entries × (S × S') × Entries =>
          upd' ((upd (r.1, r.2.1.1, r.2.2)).1, r.2.1.2, r.2.2) :=
        h1'.comp ((measurable_fst.comp e1).prodMk (by fun_prop))
      exact (measurable_fst.comp e2).prodMk ((measurable_snd.comp e1).prodMk (measurable_snd.comp e2))
    · intro p
      exact chainInit_cons_ok (h2 p) (h2' p)
    · intro s
      show 1 + ChainState.length ts (enc' s.2) = (t :: ts).length
      rw [h3' s.2, List.length_cons]; omega
    · intro g s p
      exact chainLoop_cons_ok (h3 g s.1 p) (h4' _ s.2 p)

/-- a chain of measurable transformations is one -/
theorem MeasurableT.chain {σ : Spec} {ts : List (GT ℝ)} (h : ∀ t ∈ ts, MeasurableT σ t) : MeasurableT σ (chain ts) := by
  obtain ⟨S, mS, enc, init, upd, h1, h2, h3, h4⟩ := chain_measurable σ ts h
  exact ⟨S, mS, enc, init, upd, h1, h2, fun g s p => chain_update_ok (h3 s) (h4 g s p)⟩

/-! ## C91 -/

section main
variable {Ω : Type} [MeasurableSpace Ω] {P : Measure Ω} [IsProbabilityMeasure P] {normal : Ω → Normal ℝ}

/-- the run with a fixed generator -/
theorem train_eq (σ : Spec) (hσ : σ.leaves ≠ []) (ts : List (GT ℝ)) {S : Type} [MeasurableSpace S]
    (enc : S → ChainState ts) (upd : Entries × S × Entries → Entries × S)
    (h3 : ∀ s, ChainState.length ts (enc s) = ts.length)
    (h4 : ∀ g s p, chainLoop ts (mk σ g) (enc s) (some (mk σ p)) = .ok (mk σ (upd (g, s, p)).1, enc (upd (g, s, p)).2))
    (nrm : Normal ℝ) (C m : ℝ) (seed : ℤ) (B : ℕ → ℕ) (x : ℕ → Entries → ℕ → Entries)
    (grad : ℕ → Params ℝ → Params ℝ) (hg : ∀ n p, grad n (mk σ p) = stacked σ (B n) (x n p)) (p0 : Entries) (s0 : S)
    (N n : ℕ) (hn : n ≤ N) :
    trainLoop (chain (dpAggregate nrm C m seed :: ts)) grad n (some (⟨.seed seed⟩, enc s0)) (mk σ p0) =
      .ok (mk σ (loopRun upd (p0, s0) (aggOf σ C m B x (spread σ N (noiseOf σ N seed nrm))) n).1,
        some (⟨stateKey seed (fun _ => σ.numLeaves) n⟩,
          enc (loopRun upd (p0, s0) (aggOf σ C m B x (spread σ N (noiseOf σ N seed nrm))) n).2)) := by
  induction n with
  | zero => rfl
  | succ n ih =>
    set R := loopRun upd (p0, s0) (aggOf σ C m B x (spread σ N (noiseOf σ N seed nrm)))
    refine trainLoop_succ _ grad n _ _ _ _ _ _ _ (ih (by omega))
      (chain_update_ok ?_ (chainLoop_cons_ok (u := mk σ (aggOf σ C m B x (spread σ N (noiseOf σ N seed nrm)) n (R n).1))
        ?_ (h4 _ _ _))) (C06_apply_updates σ _ _)
    · show 1 + ChainState.length ts (enc (R n).2) = (dpAggregate nrm C m seed :: ts).length
      rw [h3, List.length_cons]; omega
    · rw [hg, C49_update nrm C m seed σ hσ]
      refine congrArg (fun q => Except.ok (q, _)) ?_
      apply mk_congr
      intro k s hk i hi
      have hm : (⟨k, i⟩ : Σ _ : ℕ, ℕ) ∈ idx σ := mem_idx.mpr ⟨s, hk, hi⟩
      have e2 : spread σ N (noiseOf σ N seed nrm) n k i =
          nrm (drawKey seed (fun _ => σ.numLeaves) n k) ((σ.leaves[k]?).getD []) i := by
        unfold spread; rw [dif_pos ⟨by omega, hm⟩]; rfl
      rw [aggOf, cut, if_pos hm, e2]
      rfl

/-- **C91.** Train for any number of steps with `differentially_private_aggregate` (clip `C > 0`, noise multiplier
`m > 0`) followed by any measurable transformations `ts`.  Two gradient oracles (`x n p b` is the gradient of example `b` of
batch `n` at parameters `p`) agree except possibly on one example of each batch `n ∈ K`.  Then all parameters of the first `N`
steps together are `(ε, δ)`-indistinguishable, for every `δ`, with `ε = ρ + 2 √(ρ log (1/δ))` and `ρ = 2 k / m²`, `k` the number
of such steps before `N`: the loss of the composition of `k` Gaussian mechanisms, without the factor `k` of naive
composition, even though each batch's gradients depend on all earlier noise. -/
theorem C91_training (hN : IdealNormal P normal) (σ : Spec) (hσ : σ.leaves ≠ []) (ts : List (GT ℝ))
    (hts : ∀ t ∈ ts, MeasurableT σ t) (C m : ℝ) (hC : 0 < C) (hm : 0 < m) (seed : ℤ) (B : ℕ → ℕ)
    (x x' : ℕ → Entries → ℕ → Entries) (hx : ∀ n b, Measurable fun p => x n p b) (hx' : ∀ n b, Measurable fun p => x' n p b)
    (K : ℕ → Prop) [DecidablePred K] (hK : ∀ n, K n → ∀ p, ∃ b0, ∀ b < B n, b ≠ b0 → x n p b = x' n p b)
    (hK' : ∀ n, ¬ K n → ∀ p, ∀ b < B n, x n p b = x' n p b)
    (grad grad' : ℕ → Params ℝ → Params ℝ) (hg : ∀ n p, grad n (mk σ p) = stacked σ (B n) (x n p))
    (hg' : ∀ n p, grad' n (mk σ p) = stacked σ (B n) (x' n p)) (p0 : Entries) :
    ∃ s0 : ∀ nrm, (chain (dpAggregate nrm C m seed :: ts)).State,
      (∀ nrm, (chain (dpAggregate nrm C m seed :: ts)).init (mk σ p0) = .ok (s0 nrm)) ∧
      (∀ nrm n, ∃ p s, trainLoop (chain (dpAggregate nrm C m seed :: ts)) grad n (s0 nrm) (mk σ p0) = .ok (mk σ p, s)) ∧
      (∀ nrm n, ∃ p s, trainLoop (chain (dpAggregate nrm C m seed :: ts)) grad' n (s0 nrm) (mk σ p0) = .ok (mk σ p, s)) ∧
      ∀ (N : ℕ) (δ : ℝ), 0 < δ → δ ≤ 1 → ∀ E : Set (Fin (N + 1) → Entries), MeasurableSet E →
        P {ω | (fun n : Fin (N + 1) => entriesOf (trainLoop (chain (dpAggregate (normal ω) C m seed :: ts)) grad n
            (s0 (normal ω)) (mk σ p0))) ∈ E} ≤
          ENNReal.ofReal (Real.exp (privacyLoss (2 * ((Finset.range N).filter K).card / m ^ 2) δ)) *
            P {ω | (fun n : Fin (N + 1) => entriesOf (trainLoop (chain (dpAggregate (normal ω) C m seed :: ts)) grad' n
              (s0 (normal ω)) (mk σ p0))) ∈ E} + ENNReal.ofReal δ := by
  obtain ⟨S, mS, enc, init, upd, h1, h2, h3, h4⟩ := chain_measurable σ ts hts
  refine ⟨fun nrm => some (⟨.seed seed⟩, enc (init p0)), fun nrm => chainInit_cons_ok rfl (h2 p0), ?_, ?_, ?_⟩
  · intro nrm n
    exact ⟨_, _, train_eq σ hσ ts enc upd h3 h4 nrm C m seed B x grad hg p0 (init p0) n n le_rfl⟩
  · intro nrm n
    exact ⟨_, _, train_eq σ hσ ts enc upd h3 h4 nrm C m seed B x' grad' hg' p0 (init p0) n n le_rfl⟩
  intro N δ hδ hδ1 E hE
  obtain ⟨hZ, hlaw⟩ := noise_law hN σ N seed
  -- the event in terms of the transcript
  let E0 : Set (Draws σ N → ℝ) :=
    {w | (fun n : Fin (N + 1) => cut σ (postRun upd (p0, init p0) (aggs σ N C m B w) n).1) ∈ E}
  have hE0 : MeasurableSet E0 := by
    have : Measurable fun (w : Draws σ N → ℝ) (n : Fin (N + 1)) =>
        cut σ (postRun upd (p0, init p0) (aggs σ N C m B w) n).1 := by
      rw [measurable_pi_iff]
      intro n
      exact (measurable_cut σ).comp (measurable_fst.comp (measurable_postRun h1 _ (fun j => measurable_aggs σ N j) n))
    exact this hE
  have ev : ∀ (y : ℕ → Entries → ℕ → Entries) (hy : ∀ n b, Measurable fun p => y n p b)
      (gr : ℕ → Params ℝ → Params ℝ) (hgr : ∀ n p, gr n (mk σ p) = stacked σ (B n) (y n p)),
      P {ω | (fun n : Fin (N + 1) => entriesOf (trainLoop (chain (dpAggregate (normal ω) C m seed :: ts)) gr n
            (some (⟨.seed seed⟩, enc (init p0))) (mk σ p0))) ∈ E} =
        stdNi (Draws σ N) (transcript σ N upd (p0, init p0) C m B y ⁻¹' E0) := by
    intro y hy gr hgr
    rw [← hlaw, Measure.map_apply hZ (measurable_transcript σ N h1 hy hE0)]
    congr 1
    ext ω
    show _ ∈ E ↔ _ ∈ E
    apply iff_of_eq
    congr 1
    funext n
    rw [train_eq σ hσ ts enc upd h3 h4 (normal ω) C m seed B y gr hgr p0 (init p0) N n (by omega),
      postRun_transcript σ N hC hm _ n (by omega)]
    exact coord_mk_cut _ _
  rw [ev x hx grad hg, ev x' hx' grad' hg']
  exact gauss_dp_pair (measurable_shiftOf σ N h1 hx) (measurable_shiftOf σ N h1 hx') (adapted_shiftOf σ N)
    (adapted_shiftOf σ N) (shift_diff σ N hC hm K hK hK') _ _ (measurable_transcript σ N h1 hx)
    (measurable_transcript σ N h1 hx') (transcript_sol σ N hC hm) (transcript_sol σ N hC hm) hδ hδ1 E0 hE0

end main

/-! ## Measurable transformations -/

theorem measurableT_identity (σ : Spec) : MeasurableT σ identity :=
  ⟨Unit, inferInstance, fun _ => ⟨⟩, fun _ => (), fun r => (r.1, ()), measurable_fst.prodMk measurable_const,
    fun _ => rfl, fun _ _ _ => rfl⟩

theorem measurableT_scale (σ : Spec) (c : ℝ) : MeasurableT σ (scale c) := by
  refine ⟨Unit, inferInstance, fun _ => ⟨⟩, fun _ => (), fun r => (fun k i => c * r.1 k i, ()), ?_, fun _ => rfl,
    fun g _ p => scale_update_mk σ g _ c _⟩
  refine Measurable.prodMk ?_ measurable_const
  rw [measurable_entries]
  intro k i
  exact (measurable_entries.mp measurable_fst k i).const_mul c

theorem measurableT_scaleBySchedule (σ : Spec) (f : Schedule ℝ) : MeasurableT σ (scaleBySchedule f) := by
  refine ⟨ℕ, inferInstance, fun n => ⟨cntAt n⟩, fun _ => 0, fun r => (fun k i => f (cntAt r.2.1).toInt * r.1 k i, r.2.1 + 1),
    ?_, fun _ => rfl, fun g n p => ?_⟩
  · refine Measurable.prodMk ?_ (by fun_prop)
    rw [measurable_entries]
    intro k i
    refine Measurable.mul ?_ (measurable_entries.mp measurable_fst k i)
    exact (measurable_of_countable fun n : ℕ => f (cntAt n).toInt).comp (measurable_fst.comp measurable_snd)
  · rw [scaleBySchedule_update_mk, safeInt32Increment_cntAt]

theorem measurableT_scaleByLearningRate (σ : Spec) (lr : LR ℝ) : MeasurableT σ (scaleByLearningRate lr) := by
  cases lr with
  | scalar x => exact measurableT_scale σ (-x)
  | schedule f => exact measurableT_scaleBySchedule σ (fun count => -f count)

theorem measurableT_trace (σ : Spec) (decay : ℝ) (nes : Bool) : MeasurableT σ (trace decay nes none) := by
  refine ⟨Entries, inferInstance, fun m => ⟨mk σ m⟩, fun _ => fun _ _ => 0,
    fun r => (fun k i => if nes then r.1 k i + decay * (r.1 k i + decay * r.2.1 k i) else r.1 k i + decay * r.2.1 k i,
      fun k i => r.1 k i + decay * r.2.1 k i), ?_, fun p => trace_init_mk σ p decay nes none,
    fun g m p => trace_update_mk σ g m _ decay nes none⟩
  have e : ∀ k i, Measurable fun r : Entries × Entries × Entries => r.1 k i + decay * r.2.1 k i := fun k i =>
    (measurable_entries.mp measurable_fst k i).add
      ((measurable_entries.mp (measurable_fst.comp measurable_snd) k i).const_mul decay)
  refine Measurable.prodMk ?_ (measurable_entries.mpr e)
  rw [measurable_entries]
  intro k i
  cases nes
  · exact e k i
  · exact (measurable_entries.mp measurable_fst k i).add ((e k i).const_mul decay)

theorem measurableT_momentumOrIdentity (σ : Spec) (mom : Option ℝ) (nes : Bool) :
    MeasurableT σ (momentumOrIdentity mom nes) := by
  cases mom with
  | none => exact measurableT_identity σ
  | some m => exact measurableT_trace σ m nes

theorem measurableT_addDecayedWeights (σ : Spec) (w : ℝ) : MeasurableT σ (addDecayedWeights w) := by
  refine ⟨Unit, inferInstance, fun _ => ⟨⟩, fun _ => (), fun r => (fun k i => r.1 k i + w * r.2.2 k i, ()), ?_, fun _ => rfl,
    fun g _ p => addDecayedWeights_update_mk σ g p w _⟩
  refine Measurable.prodMk ?_ measurable_const
  rw [measurable_entries]
  intro k i
  exact (measurable_entries.mp measurable_fst k i).add
    ((measurable_entries.mp (measurable_snd.comp measurable_snd) k i).const_mul w)

theorem measurableT_scaleByAdam (σ : Spec) (b1 b2 eps er : ℝ) : MeasurableT σ (scaleByAdam b1 b2 eps er) := by
  refine ⟨ℕ × Entries × Entries, inferInstance, fun s => ⟨cntAt s.1, mk σ s.2.1, mk σ s.2.2⟩,
    fun _ => (0, fun _ _ => 0, fun _ _ => 0),
    fun r => (fun k i =>
        (((1 - b1) * ipow (r.1 k i) 1 + b1 * r.2.1.2.1 k i) / (1 - JOps.pow b1 (cnt (cntAt (r.2.1.1 + 1))))) /
          (JOps.sqrt (((1 - b2) * ipow (r.1 k i) 2 + b2 * r.2.1.2.2 k i) /
            (1 - JOps.pow b2 (cnt (cntAt (r.2.1.1 + 1)))) + er) + eps),
      (r.2.1.1 + 1, fun k i => (1 - b1) * ipow (r.1 k i) 1 + b1 * r.2.1.2.1 k i,
        fun k i => (1 - b2) * ipow (r.1 k i) 2 + b2 * r.2.1.2.2 k i)), ?_, fun p => adam_init_mk σ p b1 b2 eps er,
    fun g s p => ?_⟩
  · have eg : ∀ k i, Measurable fun r : Entries × (ℕ × Entries × Entries) × Entries => r.1 k i :=
      measurable_entries.mp measurable_fst
    have em : ∀ k i, Measurable fun r : Entries × (ℕ × Entries × Entries) × Entries =>
        (1 - b1) * ipow (r.1 k i) 1 + b1 * r.2.1.2.1 k i := fun k i => by
      simp only [ipow_eq_pow, pow_one]
      exact ((eg k i).const_mul _).add ((measurable_entries.mp (by fun_prop) k i).const_mul _)
    have en : ∀ k i, Measurable fun r : Entries × (ℕ × Entries × Entries) × Entries =>
        (1 - b2) * ipow (r.1 k i) 2 + b2 * r.2.1.2.2 k i := fun k i => by
      simp only [ipow_eq_pow]
      exact (((eg k i).pow_const 2).const_mul _).add ((measurable_entries.mp (by fun_prop) k i).const_mul _)
    have ec : ∀ b : ℝ, Measurable fun r : Entries × (ℕ × Entries × Entries) × Entries =>
        1 - JOps.pow b (cnt (cntAt (r.2.1.1 + 1))) := fun b =>
      (measurable_of_countable fun n : ℕ => 1 - JOps.pow b (cnt (cntAt (n + 1)))).comp (by fun_prop)
    refine Measurable.prodMk ?_ (Measurable.prodMk (by fun_prop)
      (Measurable.prodMk (measurable_entries.mpr em) (measurable_entries.mpr en)))
    rw [measurable_entries]
    intro k i
    simp only [jsqrt_real]
    exact ((em k i).div (ec b1)).div (((((en k i).div (ec b2)).add_const er).sqrt).add_const eps)
  · rw [adam_update_mk, safeInt32Increment_cntAt]

/-! ## C91 for `dpsgd` and for data sets -/

/-- the gradients the user passes at step `n`: those of the examples `D (batch n 0), …, D (batch n (B n - 1))` of the data
set `D` at the current parameters, stacked; `ℓ d p` is the gradient of the loss of example `d` at parameters `p` -/
def batchGrads {X : Type} (σ : Spec) (ℓ : X → Entries → Entries) (D : ℕ → X) (B : ℕ → ℕ) (batch : ℕ → ℕ → ℕ) (n : ℕ)
    (p : Params ℝ) : Params ℝ :=
  stacked σ (B n) fun b => ℓ (D (batch n b)) (coord p)

section data
variable {Ω : Type} [MeasurableSpace Ω] {P : Measure Ω} [IsProbabilityMeasure P] {normal : Ω → Normal ℝ}

open scoped Classical in
/-- **C91 (data sets).** `dpsgd` with any learning rate, momentum and Nesterov setting.  Two data sets differ in example `j`
only; the batches are chosen independently of the data and contain no example twice.  Then the parameters of all steps up to
`N` are `(ε, δ)`-indistinguishable with `ε = ρ + 2 √(ρ log (1/δ))`, `ρ = 2 k / m²`, `k` the number of steps before `N` whose
batch contains `j`. -/
theorem C91_dpsgd (hN : IdealNormal P normal) (σ : Spec) (hσ : σ.leaves ≠ []) (lr : LR ℝ) (C m : ℝ) (hC : 0 < C) (hm : 0 < m)
    (seed : ℤ) (mom : Option ℝ) (nes : Bool) {X : Type} (ℓ : X → Entries → Entries) (hℓ : ∀ d, Measurable (ℓ d))
    (D D' : ℕ → X) (j : ℕ) (hD : ∀ i, i ≠ j → D i = D' i) (B : ℕ → ℕ) (batch : ℕ → ℕ → ℕ)
    (hbatch : ∀ n, Set.InjOn (batch n) (Set.Iio (B n))) (p0 : Entries) :
    ∃ s0 : ∀ nrm, (dpsgd nrm lr C m seed mom nes).State,
      (∀ nrm, (dpsgd nrm lr C m seed mom nes).init (mk σ p0) = .ok (s0 nrm)) ∧
      (∀ nrm n, ∃ p s, trainLoop (dpsgd nrm lr C m seed mom nes) (batchGrads σ ℓ D B batch) n (s0 nrm) (mk σ p0) =
        .ok (mk σ p, s)) ∧
      ∀ (N : ℕ) (δ : ℝ), 0 < δ → δ ≤ 1 → ∀ E : Set (Fin (N + 1) → Entries), MeasurableSet E →
        P {ω | (fun n : Fin (N + 1) => entriesOf (trainLoop (dpsgd (normal ω) lr C m seed mom nes)
            (batchGrads σ ℓ D B batch) n (s0 (normal ω)) (mk σ p0))) ∈ E} ≤
          ENNReal.ofReal (Real.exp (privacyLoss
              (2 * ((Finset.range N).filter fun n => ∃ b < B n, batch n b = j).card / m ^ 2) δ)) *
            P {ω | (fun n : Fin (N + 1) => entriesOf (trainLoop (dpsgd (normal ω) lr C m seed mom nes)
              (batchGrads σ ℓ D' B batch) n (s0 (normal ω)) (mk σ p0))) ∈ E} + ENNReal.ofReal δ := by
  have hc : ∀ p, coord (mk σ p) = cut σ p := coord_mk_cut σ
  obtain ⟨s0, h1, h2, -, h3⟩ := C91_training (normal := normal) hN σ hσ [momentumOrIdentity mom nes, scaleByLearningRate lr]
    (by
      intro t ht
      simp only [List.mem_cons, List.not_mem_nil, or_false] at ht
      rcases ht with rfl | rfl
      · exact measurableT_momentumOrIdentity σ mom nes
      · exact measurableT_scaleByLearningRate σ lr)
    C m hC hm seed B (fun n p b => ℓ (D (batch n b)) (cut σ p)) (fun n p b => ℓ (D' (batch n b)) (cut σ p))
    (fun n b => (hℓ _).comp (measurable_cut σ)) (fun n b => (hℓ _).comp (measurable_cut σ))
    (fun n => ∃ b < B n, batch n b = j)
    (by
      rintro n ⟨b0, hb0, hj⟩ p
      refine ⟨b0, fun b hb hne => ?_⟩
      have : batch n b ≠ j := by
        intro h
        exact hne (hbatch n hb hb0 (h.trans hj.symm))
      show ℓ (D (batch n b)) _ = ℓ (D' (batch n b)) _
      rw [hD _ this])
    (by
      intro n hn p b hb
      have : batch n b ≠ j := fun h => hn ⟨b, hb, h⟩
      show ℓ (D (batch n b)) _ = ℓ (D' (batch n b)) _
      rw [hD _ this])
    (batchGrads σ ℓ D B batch) (batchGrads σ ℓ D' B batch)
    (fun n p => by unfold batchGrads; rw [hc]) (fun n p => by unfold batchGrads; rw [hc]) p0
  exact ⟨s0, h1, h2, h3⟩

end data

/-- **C91 (one seed, two runs).** The guarantee is per run: the noise is a function of the seed, so releasing the first updates
of two runs with the same seed reveals the difference of their clipped sums exactly, whatever the noise multiplier. -/
theorem C91_same_seed (nrm : Normal ℝ) (C m : ℝ) (seed : ℤ) (σ : Spec) (hσ : σ.leaves ≠ []) (B : ℕ) (hB : 0 < B)
    (x x' : ℕ → Entries) (p : Params ℝ) (pp : Option (Params ℝ)) :
    ∃ s0 u s u' s', (dpAggregate nrm C m seed).init p = .ok s0 ∧
      (dpAggregate nrm C m seed).update (stacked σ B x) s0 pp = .ok (u, s) ∧
      (dpAggregate nrm C m seed).update (stacked σ B x') s0 pp = .ok (u', s') ∧
      ∀ k sh, σ.leaves[k]? = some sh → ∀ i < sh.prod,
        B * (coord u k i - coord u' k i) =
          ∑ b ∈ Finset.range B, (clippedTo σ C (x b) k i - clippedTo σ C (x' b) k i) := by
  refine ⟨⟨.seed seed⟩, _, _, _, _, rfl, C49_update nrm C m seed σ hσ B x _ pp, C49_update nrm C m seed σ hσ B x' _ pp, ?_⟩
  intro k sh hk i hi
  rw [coord_mk _ _ k i sh hk hi, coord_mk _ _ k i sh hk hi, Finset.sum_sub_distrib]
  have : (B : ℝ) ≠ 0 := by exact_mod_cast hB.ne'
  unfold clippedSum
  field_simp
  ring

/-! ## The hypotheses are satisfiable -/

/-- an ideal source of noise: independent standard normal values indexed by key and entry -/
noncomputable def idealP : Measure (Key × ℕ → ℝ) := Measure.infinitePi fun _ => stdN

instance : IsProbabilityMeasure idealP := by unfold idealP; infer_instance

/-- the corresponding generator -/
def idealNormal (ω : Key × ℕ → ℝ) : Normal ℝ := fun k _ i => ω (k, i)

theorem ideal_isIdeal : IdealNormal idealP idealNormal where
  meas k s i := measurable_pi_apply _
  law k s i _ := Measure.infinitePi_map_eval _ _
  indep sh := by
    have h : iIndepFun (fun (y : Key × ℕ) (ω : Key × ℕ → ℝ) => ω y) idealP :=
      iIndepFun_infinitePi (P := fun _ : Key × ℕ => stdN) (X := fun _ r => r) (fun _ => measurable_id)
    exact h.precomp (g := fun y : {y : Key × ℕ // y.2 < (sh y.1).prod} => y.1) Subtype.val_injective

/-- a concrete instance: two parameters, a linear model with squared loss, batches of two examples taken in order, momentum
and a learning rate schedule; example 0 is in the first batch only, so `ρ = 2 / m²` however long the training -/
example : ∃ (ℓ : ℝ × ℝ → Entries → Entries) (batch : ℕ → ℕ → ℕ), (∀ d, Measurable (ℓ d)) ∧
    (∀ n, Set.InjOn (batch n) (Set.Iio 2)) ∧ (∀ n b, b < 2 → batch n b = 0 → n = 0) ∧
    (∃ d p, ℓ d p ≠ 0) := by
  refine ⟨fun d p k i => 2 * (p 0 0 * d.1 + p 0 1 - d.2) * (if i = 0 then d.1 else 1), fun n b => 2 * n + b, ?_, ?_, ?_, ?_⟩
  · intro d
    rw [measurable_entries]
    intro k i
    have h : ∀ a b, Measurable fun p : Entries => p a b := measurable_entries.mp measurable_id
    exact (((((h 0 0).mul_const d.1).add (h 0 1)).sub_const d.2).const_mul 2).mul_const _
  · intro n a _ b _ h
    simpa using h
  · intro n b _ h
    have h : 2 * n + b = 0 := h
    omega
  · refine ⟨(1, 1), fun _ _ => 0, fun h => ?_⟩
    have := congrFun (congrFun h 0) 0
    norm_num at this

/-- the bound is a real restriction: for `m = 10`, one participation and `δ = e⁻⁴ < 0.02`, `ε < 0.6` -/
example : privacyLoss (2 * (1 : ℕ) / 10 ^ 2) (Real.exp (-4)) < 0.6 := by
  unfold privacyLoss
  rw [one_div, ← Real.exp_neg, Real.log_exp]
  have : √(2 * ((1 : ℕ) : ℝ) / 10 ^ 2 * - -4) < 0.285 := by
    rw [Real.sqrt_lt' (by norm_num)]
    norm_num
  norm_num at this ⊢
  linarith

end Optax
