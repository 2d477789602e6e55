import Verif.Props.AdagradRegret
import Verif.Props.MultiSteps
import Verif.Props.FloatSgd

/-!
# C117: gradient accumulation is large-batch training

C15 says what `MultiSteps` does to a given sequence of gradients.  In training, the gradients depend on the parameters, and these on the
updates; closing the loop, the micro-batches of a group are all evaluated at the same parameters, and the parameters `MultiSteps(opt)`
visits are those `opt` visits when trained on the averaged (or summed) losses of the groups.
-/

set_option linter.unusedSectionVars false
set_option linter.unusedSimpArgs false

namespace Optax
open Finset

variable (σ : Spec)

theorem run_ignores {t : GT ℝ} (hi : IgnoresParams t) (cs cs' : List (Call ℝ)) (h : cs.map Prod.fst = cs'.map Prod.fst) (s : t.State) :
    t.run s cs = t.run s cs' := by
  induction cs generalizing cs' s with
  | nil =>
    cases cs' with
    | nil => rfl
    | cons c cs' => simp at h
  | cons c cs ih =>
    cases cs' with
    | nil => simp at h
    | cons c' cs' =>
      simp only [List.map_cons, List.cons.injEq] at h
      obtain ⟨g, pp⟩ := c
      obtain ⟨g', pp'⟩ := c'
      obtain rfl : g = g' := h.1
      simp only [GT.run]
      rw [hi g s pp pp']
      congr 1
      funext r
      rw [ih cs' h.2]

theorem outs_ignores {t : GT ℝ} (hi : IgnoresParams t) (p : Params ℝ) (cs cs' : List (Call ℝ)) (h : cs.map Prod.fst = cs'.map Prod.fst) :
    t.outs p cs = t.outs p cs' := by
  unfold GT.outs GT.exec
  congr 1
  congr 1
  funext s
  exact run_ignores hi cs cs' h s

/-- **C117 (gradient accumulation).** `MultiSteps(opt, every_k_schedule=k, use_grad_mean=mean)` around any optimiser that keeps the
structure of the gradients and does not read params, trained on micro-batch gradients `grad n`, and `opt` itself trained on the groups'
mean (or summed) gradient functions: for fewer than `2^31` micro-steps, throughout group `j` the first is exactly where the second is
before its step `j`. -/
theorem C117_accumulation (opt : GT ℝ) (hp : Preserves AnyParams opt) (hi : IgnoresParams opt) (everyK : ℤ → ℤ) (mean : Bool)
    (k : ℕ → ℕ) (hk : ∀ j, 1 ≤ k j) (hK : ∀ j : ℕ, everyK j = k j) (grad big : ℕ → Params ℝ → Params ℝ)
    (G : ℕ → (ℕ → ℕ → ℝ) → ℕ → ℕ → ℝ) (hg : ∀ n p, grad n (mk σ p) = mk σ (G n p))
    (hb : ∀ j p, big j (mk σ p) = mk σ (groupGrad k mean (fun n => G n p) j)) (p0 : ℕ → ℕ → ℝ) :
    ∃ P Q : ℕ → ℕ → ℕ → ℝ, P 0 = p0 ∧ Q 0 = p0 ∧ Visits (multiSteps opt everyK mean) grad σ P ∧ Visits opt big σ Q ∧
      ∀ j n, groupStart k j ≤ n → n < groupStart k (j + 1) → n < 2 ^ 31 → mk σ (P n) = mk σ (Q j) := by
  obtain ⟨P, U, hP0, hP, hvP, hU⟩ := exists_visits_of σ (multiSteps opt everyK mean) (C15_preserves opt everyK mean hp.any)
    (fun _ => trivial) grad G hg p0
  obtain ⟨Q, V, hQ0, hQ, hvQ, hV⟩ := exists_visits_of σ opt hp (fun _ => trivial) big
    (fun j p => groupGrad k mean (fun n => G n p) j) hb p0
  refine ⟨P, Q, hP0, hQ0, hvP, hvQ, ?_⟩
  have hmono := groupStart_strictMono k hk
  have hz : groupStart k 0 = 0 := by simp [groupStart]
  have add_congr : ∀ a b c d : ℕ → ℕ → ℝ, mk σ a = mk σ b → mk σ c = mk σ d →
      mk σ (fun l i => a l i + c l i) = mk σ (fun l i => b l i + d l i) := by
    intro a b c d h1 h2
    refine mk_congr fun l s hl i hi' => ?_
    rw [mk_inj h1 l s hl i hi', mk_inj h2 l s hl i hi']
  have G_congr : ∀ n a b, mk σ a = mk σ b → mk σ (G n a) = mk σ (G n b) := by
    intro n a b h
    rw [← hg, ← hg, h]
  suffices key : ∀ N j n, n ≤ N → groupStart k j ≤ n → n < groupStart k (j + 1) → n < 2 ^ 31 → mk σ (P n) = mk σ (Q j) from
    fun j n => key n j n le_rfl
  intro N
  induction N with
  | zero =>
    intro j n hn h1 h2 h3
    obtain rfl : n = 0 := by omega
    have : j = 0 := by
      by_contra hne
      have := hmono (Nat.pos_of_ne_zero hne)
      omega
    subst this
    rw [hP0, hQ0]
  | succ N ih =>
    intro j n hn h1 h2 h3
    rcases Nat.lt_or_ge n (N + 1) with h | h
    · exact ih j n (by omega) h1 h2 h3
    obtain rfl : n = N + 1 := by omega
    obtain ⟨us, s, hrun⟩ : ∃ us s, (multiSteps opt everyK mean).exec (mk σ p0)
        (hist σ (fun n => G n (P n)) (fun n => some (mk σ (P n))) (N + 1)) = .ok (us, s) := by
      have := hU (N + 1)
      unfold GT.outs at this
      rw [Res.bind_eq_ok] at this
      obtain ⟨x, hx, _⟩ := this
      exact ⟨x.1, x.2, hx⟩
    have hus : us = (List.range (N + 1)).map (fun n => mk σ (U n)) := by
      have := hU (N + 1)
      unfold GT.outs at this
      rw [hrun] at this
      exact Except.ok.inj this
    obtain ⟨J, vs, hJ1, hJ2, hin, -, hlast, hzero, -⟩ := C15_multi_steps opt everyK mean σ p0 _ _ k hk hK (N + 1) h3 us s hrun
    have hPN : mk σ (P (N + 1)) = mk σ (fun l i => P N l i + U N l i) := mk_congr fun l s _ i _ => hP N l i
    have hUN : us[N]? = some (mk σ (U N)) := by rw [hus]; simp
    by_cases hend : ∃ j', N + 1 = groupStart k (j' + 1)
    · obtain ⟨j', hj'⟩ := hend
      have hj : j = j' + 1 := by
        have a1 := hmono.lt_iff_lt (a := j' + 1) (b := j + 1)
        have a2 := hmono.le_iff_le (a := j) (b := j' + 1)
        have b1 := a1.mp (by omega)
        have b2 := a2.mp (by omega)
        omega
      have hJ : J = j' + 1 := by
        have a1 := hmono.lt_iff_lt (a := j' + 1) (b := J + 1)
        have a2 := hmono.le_iff_le (a := J) (b := j' + 1)
        have b1 := a1.mp (by omega)
        have b2 := a2.mp (by omega)
        omega
      subst hj hJ
      -- the gradients the inner optimiser sees
      have hgr : ∀ m < j' + 1, mk σ (groupGrad k mean (fun n => G n (P n)) m) = mk σ (groupGrad k mean (fun n => G n (Q m)) m) := by
        intro m hm
        have hle : groupStart k (m + 1) ≤ N + 1 := by rw [hj']; exact hmono.monotone (by omega)
        have e : ∀ n ∈ Ico (groupStart k m) (groupStart k (m + 1)), mk σ (G n (P n)) = mk σ (G n (Q m)) := by
          intro n hn
          rw [Finset.mem_Ico] at hn
          exact G_congr n _ _ (ih m n (by omega) hn.1 hn.2 (by omega))
        refine mk_congr fun l s hl i hi' => ?_
        have es : ∑ n ∈ Ico (groupStart k m) (groupStart k (m + 1)), G n (P n) l i =
            ∑ n ∈ Ico (groupStart k m) (groupStart k (m + 1)), G n (Q m) l i :=
          Finset.sum_congr rfl fun n hn => mk_inj (e n hn) l s hl i hi'
        unfold groupGrad
        rw [es]
      have hvs : vs = (List.range (j' + 1)).map (fun n => mk σ (V n)) := by
        have h4 : opt.outs (mk σ p0) (hist σ (groupGrad k mean (fun n => G n (P n))) (fun _ => none) (j' + 1)) = .ok vs := by
          unfold GT.outs
          rw [hin]; rfl
        have h5 := hV (j' + 1)
        rw [outs_ignores hi (mk σ p0) _ (hist σ (fun j => groupGrad k mean (fun n => G n (Q j)) j) (fun n => some (mk σ (Q n))) (j' + 1)), h5] at h4
        · exact (Except.ok.inj h4).symm
        · simp only [hist, List.map_map]
          refine List.map_congr_left fun m hm => ?_
          exact hgr m (List.mem_range.mp hm)
      have hU' : mk σ (U N) = mk σ (V j') := by
        have := hlast N (by omega) j' hj'
        rw [hUN, hvs] at this
        simpa using this
      have hprev : mk σ (P N) = mk σ (Q j') := by
        refine ih j' N le_rfl ?_ (by omega) (by omega)
        have := hmono (Nat.lt_succ_self j')
        have h6 : groupStart k j' < groupStart k (j' + 1) := this
        omega
      rw [hPN, add_congr _ _ _ _ hprev hU']
      exact (mk_congr fun l s _ i _ => hQ j' l i).symm
    · have h0 : mk σ (U N) = mk σ (fun _ _ => 0) := by
        have := hzero N (by omega) (fun j'' h => hend ⟨j'', h⟩)
        rw [hUN] at this
        exact Option.some.inj this
      have hlt : groupStart k j ≤ N := by
        by_contra hne
        have he : N + 1 = groupStart k j := by omega
        cases j with
        | zero => omega
        | succ j => exact hend ⟨j, he⟩
      rw [hPN, add_congr _ _ _ _ (ih j N le_rfl hlt (by omega) (by omega)) h0]
      exact mk_congr fun l s _ i _ => add_zero _

theorem preserves_adam_any (lr : LR ℝ) (b1 b2 eps er : ℝ) : Preserves AnyParams (adam lr b1 b2 eps er) := by
  refine Preserves.chain _ ?_
  intro t ht
  simp only [List.mem_cons, List.mem_nil_iff, or_false] at ht
  rcases ht with rfl | rfl
  · exact preserves_adam b1 b2 eps er
  · exact preserves_lr lr

theorem preserves_momentum_any (m : Option ℝ) (nes : Bool) : Preserves AnyParams (momentumOrIdentity (α := ℝ) m nes) := by
  cases m with
  | none => exact preserves_identity
  | some m => exact preserves_trace m nes none

theorem preserves_sgd_any (lr : LR ℝ) (m : Option ℝ) (nes : Bool) : Preserves AnyParams (sgd lr m nes) := by
  refine Preserves.chain _ ?_
  intro t ht
  simp only [List.mem_cons, List.mem_nil_iff, or_false] at ht
  rcases ht with rfl | rfl
  · exact preserves_momentum_any m nes
  · exact preserves_lr lr

/-- **C117 (adam, sgd).** The hypotheses hold of `adam`, of `sgd` with and without (Nesterov) momentum and of `sgd` behind
`clip_by_global_norm`, for every learning rate schedule: the schedule then advances once per group. -/
theorem C117_optimisers (lr : LR ℝ) (b1 b2 eps er c : ℝ) (m : Option ℝ) (nes : Bool) (opt : GT ℝ)
    (ho : opt = adam lr b1 b2 eps er ∨ opt = sgd lr m nes ∨ opt = chain [clipByGlobalNorm c, sgd lr m nes]) :
    Preserves AnyParams opt ∧ IgnoresParams opt := by
  have hs : IgnoresParams (sgd lr m nes) :=
    C37_aliases_ignored lr b1 b2 eps er er false nes m (fun _ _ => 0) 0 _ (by simp)
  rcases ho with rfl | rfl | rfl
  · exact ⟨preserves_adam_any lr b1 b2 eps er, C37_aliases_ignored lr b1 b2 eps er er false nes m (fun _ _ => 0) 0 _ (by simp)⟩
  · exact ⟨preserves_sgd_any lr m nes, hs⟩
  · refine ⟨Preserves.chain _ ?_, C37_chain_ignored _ ?_⟩
    · intro t ht
      simp only [List.mem_cons, List.mem_nil_iff, or_false] at ht
      rcases ht with rfl | rfl
      · exact preserves_clipByGlobalNorm c
      · exact preserves_sgd_any lr m nes
    · intro t ht
      simp only [List.mem_cons, List.mem_nil_iff, or_false] at ht
      rcases ht with rfl | rfl
      · intro _ _ _ _; rfl
      · exact hs

/-- a training loop visits one sequence of params -/
theorem visits_unique {t : GT ℝ} {grad : ℕ → Params ℝ → Params ℝ} {P Q : ℕ → ℕ → ℕ → ℝ} (hP : Visits t grad σ P) (hQ : Visits t grad σ Q)
    (h0 : P 0 = Q 0) (n : ℕ) : mk σ (P n) = mk σ (Q n) := by
  obtain ⟨s0, h1, h2⟩ := hP
  obtain ⟨s0', h1', h2'⟩ := hQ
  rw [← h0, h1] at h1'
  cases h1'
  obtain ⟨s, h3⟩ := h2 n
  obtain ⟨s', h3'⟩ := h2' n
  rw [← h0, h3] at h3'
  injection h3' with h
  exact (Prod.mk.inj h).1

theorem groupStart_const (K j : ℕ) : groupStart (fun _ => K) j = j * K := by simp [groupStart]

/-- **C117 (convergence).** `MultiSteps(sgd(η), K)` (mean of the gradients) on micro-batches whose gradients average, over every group
of `K`, to the gradient of an `L`-smooth `μ`-strongly convex loss: converges at the rate of full-batch gradient descent per group,
`‖p_{jK+r} - q‖² ≤ (1 - ημ)^j ‖p_0 - q‖²`, whatever the single micro-batch gradients are. -/
theorem C117_rate (η : ℝ) (nes : Bool) (L μ : ℝ) (hη : 0 ≤ η) (hL : L * η ≤ 1) (hμ : η * μ ≤ 1) (K : ℕ) (hK : 1 ≤ K)
    (loss : Params ℝ → ℝ) (grad : ℕ → Params ℝ → Params ℝ) (G : ℕ → (ℕ → ℕ → ℝ) → ℕ → ℕ → ℝ) (F : (ℕ → ℕ → ℝ) → ℕ → ℕ → ℝ)
    (hg : ∀ n p, grad n (mk σ p) = mk σ (G n p))
    (hmean : ∀ j p l i, (∑ n ∈ Ico (j * K) ((j + 1) * K), G n p l i) / (K : ℝ) = F p l i)
    (hs : Smooth σ L loss F) (hc : StronglyConvex σ μ loss F) (p0 q : ℕ → ℕ → ℝ) (hq : ∀ t, loss (mk σ q) ≤ loss t) :
    ∃ P, P 0 = p0 ∧ Visits (multiSteps (sgd (.scalar η) none nes) (fun _ => (K : ℤ)) true) grad σ P ∧
      ∀ j r : ℕ, r < K → j * K + r < 2 ^ 31 → treeDist σ (P (j * K + r)) q ^ 2 ≤ (1 - η * μ) ^ j * treeDist σ p0 q ^ 2 := by
  let big : ℕ → Params ℝ → Params ℝ := fun j t => mk σ (F (coord t))
  have hF : ∀ a b, mk σ a = mk σ b → mk σ (F a) = mk σ (F b) := by
    intro a b h
    have e : ∀ n, mk σ (G n a) = mk σ (G n b) := fun n => by rw [← hg, ← hg, h]
    refine mk_congr fun l s hl i hi => ?_
    rw [← hmean 0 a, ← hmean 0 b]
    congr 1
    exact Finset.sum_congr rfl fun n _ => mk_inj (e n) l s hl i hi
  have hb0 : ∀ j p, big j (mk σ p) = mk σ (F p) := fun j p =>
    hF _ _ (mk_congr fun l s hl i hi => coord_mk _ _ l i s hl hi)
  have hb : ∀ j p, big j (mk σ p) = mk σ (groupGrad (fun _ => K) true (fun n => G n p) j) := by
    intro j p
    rw [hb0 j]
    refine mk_congr fun l s _ i _ => ?_
    unfold groupGrad
    rw [if_pos rfl, groupStart_const, groupStart_const]
    exact (hmean j p l i).symm
  obtain ⟨P, Q, hP0, hQ0, hvP, hvQ, heq⟩ := C117_accumulation σ (sgd (.scalar η) none nes) (preserves_sgd_any _ _ _)
    (C117_optimisers (.scalar η) 0 0 0 0 0 none nes _ (.inr (.inl rfl))).2 (fun _ => (K : ℤ)) true (fun _ => K) (fun _ => hK)
    (fun _ => rfl) grad big G hg hb p0
  obtain ⟨R, hR0, hvR, hR⟩ := C76_strongly_convex σ η nes L μ hη hL hμ loss big F hb0 hs hc p0 q hq
  refine ⟨P, hP0, hvP, fun j r hr hlt => ?_⟩
  have h1 := heq j (j * K + r) (by rw [groupStart_const]; omega) (by rw [groupStart_const]; nlinarith) hlt
  have h2 := visits_unique σ hvQ hvR (by rw [hQ0, hR0]) j
  have h3 : treeDist σ (P (j * K + r)) q = treeDist σ (R j) q := by
    unfold treeDist
    congr 1
    refine mk_congr fun l s hl i hi => ?_
    rw [mk_inj (h1.trans h2) l s hl i hi]
  rw [h3]
  exact hR j

/-- Non-vacuity: micro-batches pulling alternately to `c + v` and `c - v`, in groups of two: their mean is the gradient of the least
squares loss around `c`, which is 1-smooth and 1-strongly convex with minimiser `c`. -/
example (c v : ℕ → ℕ → ℝ) :
    (∀ (j : ℕ) (p : ℕ → ℕ → ℝ) l i, (∑ n ∈ Ico (j * 2) ((j + 1) * 2), (p l i - (c l i + (-1) ^ n * v l i))) / ((2 : ℕ) : ℝ) = p l i - c l i) ∧
    Smooth σ 1 (leastSquares σ c) (fun p k i => p k i - c k i) ∧ StronglyConvex σ 1 (leastSquares σ c) (fun p k i => p k i - c k i) ∧
    ∀ t, leastSquares σ c (mk σ c) ≤ leastSquares σ c t := by
  refine ⟨fun j p l i => ?_, leastSquares_smooth σ c, leastSquares_convex σ c, leastSquares_min σ c⟩
  have e : Ico (j * 2) ((j + 1) * 2) = {j * 2, j * 2 + 1} := by ext x; simp; omega
  have hm : ((-1 : ℝ)) ^ (j * 2) = 1 := by rw [mul_comm, pow_mul]; simp
  rw [e, Finset.sum_pair (by omega), pow_succ, hm]
  push_cast
  ring

end Optax
