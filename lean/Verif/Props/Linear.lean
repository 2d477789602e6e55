import Verif.Props.Moments
import Verif.Props.ApplyEvery
import Verif.Props.Centralize
import Verif.Props.Alias
import Verif.Props.AdagradRegret
import Verif.Props.Neutral
import Verif.Props.AdamDivergence

/-!
# C103: linear optimizers: superposition and data parallel training
-/

set_option linter.unusedSectionVars false
set_option linter.unusedSimpArgs false
set_option linter.unusedVariables false

namespace Optax
open Finset

/-- **Specification.** `t` obeys the superposition principle: for pytrees of any structure and histories `g`, `g'` of any length, the updates for the gradients
`a·g + b·g'` are `a` times the updates for `g` plus `b` times those for `g'`. -/
def Superposes (t : GT ℝ) : Prop :=
  ∀ (σ : Spec) (p0 : ℕ → ℕ → ℝ) (g g' : ℕ → ℕ → ℕ → ℝ) (pp : ℕ → Option (Params ℝ)) (N : ℕ) (a b : ℝ), ∃ U U' : ℕ → ℕ → ℕ → ℝ,
    t.outs (mk σ p0) (hist σ g pp N) = .ok ((List.range N).map (fun n => mk σ (U n))) ∧
    t.outs (mk σ p0) (hist σ g' pp N) = .ok ((List.range N).map (fun n => mk σ (U' n))) ∧
    t.outs (mk σ p0) (hist σ (fun n k i => a * g n k i + b * g' n k i) pp N) =
      .ok ((List.range N).map (fun n => mk σ (fun k i => a * U n k i + b * U' n k i)))

/-- a linear formula for the outputs -/
theorem superposes_of {t : GT ℝ} (L : Spec → (ℕ → ℕ → ℕ → ℝ) → ℕ → ℕ → ℕ → ℝ)
    (h : ∀ σ p0 g pp N, t.outs (mk σ p0) (hist σ g pp N) = .ok ((List.range N).map (fun n => mk σ (L σ g n))))
    (hL : ∀ σ g g' a b n k i, L σ (fun n k i => a * g n k i + b * g' n k i) n k i = a * L σ g n k i + b * L σ g' n k i) : Superposes t := by
  intro σ p0 g g' pp N a b
  refine ⟨L σ g, L σ g', h σ p0 g pp N, h σ p0 g' pp N, ?_⟩
  rw [h]
  congr 3
  funext n
  congr 1
  funext k i
  exact hL σ g g' a b n k i

/-- superposition of the parts gives superposition of the chain -/
theorem superposes_chain (ts : List (GT ℝ)) (h : ∀ t ∈ ts, Superposes t) : Superposes (chain ts) := by
  induction ts with
  | nil =>
    refine superposes_of (fun _ g => g) (fun σ p0 g pp N => ?_) (fun _ _ _ _ _ _ _ _ => rfl)
    refine outs_hist (chain []) _ σ g pp N (fun _ => (0 : ℕ)) _ rfl fun n _ => rfl
  | cons t ts ih =>
    intro σ p0 g g' pp N a b
    obtain ⟨U, U', h1, h2, h3⟩ := h t (by simp) σ p0 g g' pp N a b
    obtain ⟨V, V', h4, h5, h6⟩ := ih (fun t ht => h t (by simp [ht])) σ p0 U U' pp N a b
    exact ⟨V, V', outs_chain_hist t ts _ σ g U pp N h1 _ h4, outs_chain_hist t ts _ σ g' U' pp N h2 _ h5,
      outs_chain_hist t ts _ σ _ _ pp N h3 _ h6⟩

theorem geoSum_lin (d a b : ℝ) (x y : ℕ → ℝ) (n : ℕ) : geoSum d (fun j => a * x j + b * y j) n = a * geoSum d x n + b * geoSum d y n := by
  rw [geoSum_add d (fun j => a * x j) (fun j => b * y j), geoSum_smul, geoSum_smul]

theorem sliceMean_lin (ds : List ℕ) (v w : ℕ → ℝ) (a b : ℝ) (r : ℕ) :
    sliceMean ds (fun i => a * v i + b * w i) r = a * sliceMean ds v r + b * sliceMean ds w r := by
  unfold sliceMean
  rw [Finset.sum_add_distrib, ← Finset.mul_sum, ← Finset.mul_sum]
  ring

/-- **C103 (components).** -/
theorem C103_linear :
    Superposes identity ∧ (∀ c, Superposes (scale c)) ∧ (∀ f, Superposes (scaleBySchedule f)) ∧ (∀ d nes, Superposes (trace d nes none)) ∧
    (∀ d deb, Superposes (ema d deb none)) ∧ (∀ k : ℕ, 1 ≤ k → k ≤ 2147483647 → Superposes (applyEvery (k : ℤ))) ∧ Superposes centralize := by
  refine ⟨?_, fun c => ?_, fun f => ?_, fun d nes => ?_, fun d deb => ?_, fun k hk hk' => ?_, ?_⟩
  · refine superposes_of (fun _ g => g) (fun σ p0 g pp N => ?_) (fun _ _ _ _ _ _ _ _ => rfl)
    exact outs_hist identity _ σ g pp N (fun _ => ⟨⟩) _ rfl fun n _ => rfl
  · refine superposes_of (fun _ g n k i => c * g n k i) (fun σ p0 g pp N => ?_) (fun _ _ _ _ _ _ _ _ => by ring)
    exact outs_hist (scale c) _ σ g pp N (fun _ => ⟨⟩) _ rfl fun n _ => scale_update_mk σ (g n) (pp n) c ⟨⟩
  · refine superposes_of (fun _ g n k i => f (cntAt n).toInt * g n k i) (fun σ p0 g pp N => ?_) (fun _ _ _ _ _ _ _ _ => by ring)
    refine outs_hist (scaleBySchedule f) _ σ g pp N (fun n => ⟨cntAt n⟩) _ rfl fun n _ => ?_
    rw [scaleBySchedule_update_mk, safeInt32Increment_cntAt]
  · refine superposes_of (fun _ g n k i => if nes then g n k i + d * geoSum d (fun j => g j k i) (n + 1) else geoSum d (fun j => g j k i) (n + 1))
      (fun σ p0 g pp N => ?_) (fun _ _ _ _ _ _ _ _ => ?_)
    · unfold GT.outs; rw [C21_trace]; rfl
    · simp only [geoSum_lin]
      split <;> ring
  · refine superposes_of (fun _ g n k i => if deb then (1 - d) * geoSum d (fun j => g j k i) (n + 1) / (1 - d ^ min (n + 1) 2147483647) else g n k i)
      (fun σ p0 g pp N => ?_) (fun _ _ _ _ _ _ _ _ => ?_)
    · refine outs_hist (ema d deb none) _ σ g pp N (fun n => ⟨cntAt n, mk σ (fun k i => (1 - d) * geoSum d (fun j => g j k i) n)⟩) _ ?_ ?_
      · rw [ema_init_mk]; simp [cntAt_zero]
      · intro n hn
        rw [ema_update_mk]
        simp only [safeInt32Increment_cntAt, ipow_eq_pow, pow_one, jpow_real, Option.getD_none, id]
        rw [cnt_cntAt', Real.rpow_natCast]
        have e : ∀ (x : ℕ → ℝ), (1 - d) * x n + d * ((1 - d) * geoSum d x n) = (1 - d) * geoSum d x (n + 1) := by
          intro x; rw [geoSum_succ]; ring
        simp only [← e]
    · simp only [geoSum_lin]
      generalize min _ 2147483647 = c
      split <;> ring
  · refine superposes_of (fun _ g n l i => if k ∣ n + 1 then ∑ j ∈ Ico (n + 1 - k) (n + 1), g j l i else 0)
      (fun σ p0 g pp N => C33_apply_every σ p0 g pp N k hk hk') (fun _ _ _ _ _ _ _ _ => ?_)
    simp only [Finset.sum_add_distrib, ← Finset.mul_sum]
    split <;> ring
  · refine superposes_of (fun σ g n l => centralized ((σ.leaves[l]?).getD []) (g n l)) (fun σ p0 g pp N => ?_) (fun σ g g' a b n l i => ?_)
    · exact outs_hist centralize _ σ g pp N (fun _ => ⟨⟩) _ rfl fun n _ => centralize_update_mk σ (g n) (pp n)
    · match (σ.leaves[l]?).getD [] with
      | [] => rfl
      | [d] => rfl
      | d :: d' :: ds =>
        simp only [centralized, sliceMean_lin]
        ring

/-- **C103.** Every chain of such transformations obeys the superposition principle, in particular `sgd` with any learning rate schedule, momentum and Nesterov. -/
theorem C103_sgd (lr : LR ℝ) (m : Option ℝ) (nes : Bool) : Superposes (sgd lr m nes) := by
  obtain ⟨h1, h2, h3, h4, _⟩ := C103_linear
  refine superposes_chain _ ?_
  intro t ht
  simp only [List.mem_cons, List.mem_nil_iff, or_false] at ht
  rcases ht with rfl | rfl
  · cases m with
    | none => exact h1
    | some m => exact h4 m nes
  · cases lr with
    | scalar x => exact h2 (-x)
    | schedule f => exact h3 (fun count => -f count)

/-- **C103 (chains).** -/
theorem C103_chain (ts : List (GT ℝ)) (h : ∀ t ∈ ts, Superposes t) : Superposes (chain ts) := superposes_chain ts h

/-- **C103 (data parallel training).** `m ≥ 1` workers, each with its own gradients `g w` and its own optimizer state: the average of the workers' updates is, at every step,
the update for the average of the gradients. -/
theorem C103_data_parallel (t : GT ℝ) (ht : Superposes t) (σ : Spec) (p0 : ℕ → ℕ → ℝ) (m : ℕ) (g : ℕ → ℕ → ℕ → ℕ → ℝ) (pp : ℕ → Option (Params ℝ)) (N : ℕ) :
    ∃ U : ℕ → ℕ → ℕ → ℕ → ℝ, (∀ w, t.outs (mk σ p0) (hist σ (g w) pp N) = .ok ((List.range N).map (fun n => mk σ (U w n)))) ∧
      t.outs (mk σ p0) (hist σ (fun n k i => (∑ w ∈ range m, g w n k i) / m) pp N) =
        .ok ((List.range N).map (fun n => mk σ (fun k i => (∑ w ∈ range m, U w n k i) / m))) := by
  have hex : ∀ w, ∃ U : ℕ → ℕ → ℕ → ℝ, t.outs (mk σ p0) (hist σ (g w) pp N) = .ok ((List.range N).map (fun n => mk σ (U n))) := by
    intro w
    obtain ⟨U, _, h, _⟩ := ht σ p0 (g w) (g w) pp N 1 0
    exact ⟨U, h⟩
  choose U hU using hex
  refine ⟨U, hU, ?_⟩
  have key : ∀ c : ℝ, ∀ M : ℕ, t.outs (mk σ p0) (hist σ (fun n k i => c * ∑ w ∈ range M, g w n k i) pp N) =
      .ok ((List.range N).map (fun n => mk σ (fun k i => c * ∑ w ∈ range M, U w n k i))) := by
    intro c M
    induction M with
    | zero =>
      obtain ⟨V, V', _, _, h⟩ := ht σ p0 (g 0) (g 0) pp N 0 0
      simpa using h
    | succ M ih =>
      obtain ⟨V, V', h1, h2, h3⟩ := ht σ p0 (fun n k i => c * ∑ w ∈ range M, g w n k i) (g M) pp N 1 c
      rw [ih] at h1
      rw [hU M] at h2
      have e1 := Except.ok.inj h1
      have e2 := Except.ok.inj h2
      simp only [one_mul] at h3
      have eg : (fun n k i => c * ∑ w ∈ range (M + 1), g w n k i) = fun n k i => (c * ∑ w ∈ range M, g w n k i) + c * g M n k i := by
        funext n k i; rw [Finset.sum_range_succ]; ring
      rw [eg, h3]
      congr 1
      refine List.map_congr_left fun n hn => ?_
      refine mk_congr fun k s hk i hi => ?_
      have f1 := mk_inj (List.map_inj_left.mp e1 n hn) k s hk i hi
      have f2 := mk_inj (List.map_inj_left.mp e2 n hn) k s hk i hi
      rw [Finset.sum_range_succ, ← f1, ← f2]
      ring
  have := key (1 / m) m
  simp only [one_div_mul_eq_div] at this
  exact this

/-- **C103 (the restriction matters).** `scale_by_adam` does not obey the superposition principle: doubled gradients do not give doubled updates. -/
theorem C103_adam_not : ¬ Superposes (scaleByAdam (9 / 10) (999 / 1000) 0 0) := by
  intro h
  obtain ⟨U, U', h1, _, h3⟩ := h (.leaf []) (fun _ _ => 0) (fun _ _ _ => 1) (fun _ _ _ => 1) (fun _ => none) 1 2 0
  rw [adam_outs_all] at h1 h3
  have e1 := mk_inj (List.cons.inj (Except.ok.inj h1)).1 0 [] rfl 0 (by simp)
  have e3 := mk_inj (List.cons.inj (Except.ok.inj h3)).1 0 [] rfl 0 (by simp)
  have k : ∀ c : ℝ, 0 < c → adamStep (9 / 10) (999 / 1000) 0 0 (fun _ => c) 0 = 1 := by
    intro c hc
    unfold adamStep
    have m : min (0 + 1) 2147483647 = 1 := by norm_num
    rw [m]
    have g1 : ∀ (d : ℝ) (x : ℕ → ℝ), geoSum d x (0 + 1) = x 0 := fun d x => geoSum_one d x
    simp only [g1]
    have e : (1 - 999 / 1000 : ℝ) * c ^ 2 / (1 - (999 / 1000) ^ 1) + 0 = c ^ 2 := by ring
    rw [e, Real.sqrt_sq hc.le]
    have hc' := hc.ne'
    field_simp
    norm_num
  rw [k 1 one_pos] at e1
  rw [show (fun _ : ℕ => (2 * 1 + 0 * 1 : ℝ)) = fun _ => 2 by norm_num, k 2 two_pos, ← e1] at e3
  norm_num at e3

end Optax
