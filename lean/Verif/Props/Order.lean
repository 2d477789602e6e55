import Verif.Props.Privacy
import Verif.Props.MultiSteps
import Verif.Props.ApplyEvery
import Verif.Props.Moments
import Verif.Props.AliasReal

/-!
# C130: the order of the examples

Where gradients are summed, the order in which they come does not matter: inside the batches of `dpsgd`, inside the groups of
`MultiSteps` and the periods of `apply_every`, and for the whole past of Adagrad.  Momentum depends on it.
-/

set_option linter.unusedSectionVars false
set_option linter.unusedSimpArgs false

namespace Optax
open Finset

/-- `π` reorders the indices below `B` among themselves -/
def ReordersBelow (B : ℕ) (π : Equiv.Perm ℕ) : Prop := ∀ n, π n < B ↔ n < B

theorem sum_reorder {a b : ℕ} (π : Equiv.Perm ℕ) (h : ∀ n, π n ∈ Ico a b ↔ n ∈ Ico a b) (f : ℕ → ℝ) :
    ∑ n ∈ Ico a b, f (π n) = ∑ n ∈ Ico a b, f n :=
  Finset.sum_equiv π (fun n => (h n).symm) fun _ _ => rfl

/-- one call of the aggregation: the same update and the same state, for every order of the examples -/
theorem dp_reorder (normal : Normal ℝ) (C m : ℝ) (seed : ℤ) (σ : Spec) (hσ : σ.leaves ≠ []) (B : ℕ) (x : ℕ → ℕ → ℕ → ℝ) (π : Equiv.Perm ℕ)
    (hπ : ReordersBelow B π) (s : DPState) (pp : Option (Params ℝ)) :
    (dpAggregate normal C m seed).update (stacked σ B (fun b => x (π b))) s pp = (dpAggregate normal C m seed).update (stacked σ B x) s pp := by
  obtain ⟨key⟩ := s
  rw [C49_update normal C m seed σ hσ B x key pp, C49_update normal C m seed σ hσ B (fun b => x (π b)) key pp]
  have : clippedSum σ C B (fun b => x (π b)) = clippedSum σ C B x := by
    funext k i
    unfold clippedSum
    exact Finset.sum_equiv π (fun n => by simp [hπ n]) fun n _ => rfl
  rw [this]

theorem run_congr (t : GT ℝ) (f f' : ℕ → Call ℝ) (h : ∀ n s, t.update (f n).1 s (f n).2 = t.update (f' n).1 s (f' n).2) (l : List ℕ) (s : t.State) :
    t.run s (l.map f) = t.run s (l.map f') := by
  induction l generalizing s with
  | nil => rfl
  | cons n l ih =>
    rw [List.map_cons, List.map_cons, GT.run_cons, GT.run_cons, h]
    congr 1
    funext r
    rw [ih]

/-- **C130 (batches of dpsgd).** `differentially_private_aggregate` followed by any transformations, on a history of batches of any sizes: reordering the examples inside every batch changes nothing, neither the
updates nor the final state. -/
theorem C130_dp_batch (normal : Normal ℝ) (C m : ℝ) (seed : ℤ) (ts : List (GT ℝ)) (σ : Spec) (hσ : σ.leaves ≠ []) (B : ℕ → ℕ)
    (x : ℕ → ℕ → ℕ → ℕ → ℝ) (π : ℕ → Equiv.Perm ℕ) (hπ : ∀ n, ReordersBelow (B n) (π n)) (p0 : Params ℝ) (pp : ℕ → Option (Params ℝ)) (N : ℕ) :
    (chain (dpAggregate normal C m seed :: ts)).exec p0 ((List.range N).map fun n => (stacked σ (B n) (fun b => x n (π n b)), pp n)) =
      (chain (dpAggregate normal C m seed :: ts)).exec p0 ((List.range N).map fun n => (stacked σ (B n) (x n), pp n)) := by
  unfold GT.exec
  congr 1
  funext s0
  refine run_congr _ _ _ (fun n s0 => ?_) _ s0
  show (if ChainState.length (dpAggregate normal C m seed :: ts) s0 ≠ _ then valueError else chainLoop _ _ s0 _) = (if _ ≠ _ then valueError else chainLoop _ _ s0 _)
  split_ifs
  · rfl
  · rename_i h
    rcases s0 with _ | ⟨s, r⟩
    · simp [ChainState.length] at h
    · show ((dpAggregate normal C m seed).update _ s _ >>= fun u => chainLoop ts u.1 r (pp n) >>= fun us => .ok (us.1, some (u.2, us.2))) = _
      rw [dp_reorder normal C m seed σ hσ (B n) (x n) (π n) (hπ n) s (pp n)]
      rfl

/-- **C130 (dpsgd).** -/
theorem C130_dpsgd (normal : Normal ℝ) (lr : LR ℝ) (C m : ℝ) (seed : ℤ) (mom : Option ℝ) (nes : Bool) (σ : Spec) (hσ : σ.leaves ≠ []) (B : ℕ → ℕ)
    (x : ℕ → ℕ → ℕ → ℕ → ℝ) (π : ℕ → Equiv.Perm ℕ) (hπ : ∀ n, ReordersBelow (B n) (π n)) (p0 : Params ℝ) (pp : ℕ → Option (Params ℝ)) (N : ℕ) :
    (dpsgd normal lr C m seed mom nes).exec p0 ((List.range N).map fun n => (stacked σ (B n) (fun b => x n (π n b)), pp n)) =
      (dpsgd normal lr C m seed mom nes).exec p0 ((List.range N).map fun n => (stacked σ (B n) (x n), pp n)) :=
  C130_dp_batch normal C m seed _ σ hσ B x π hπ p0 pp N

/-- **C130 (MultiSteps).** Reordering the mini-batches inside the groups that are accumulated: a run returns the same updates and reaches the same state of the inner transformation, and at the end of a group the same
state altogether. -/
theorem C130_multi_steps (opt : GT ℝ) (everyK : ℤ → ℤ) (mean : Bool) (σ : Spec) (p0 : ℕ → ℕ → ℝ) (g : ℕ → ℕ → ℕ → ℝ) (pp pp' : ℕ → Option (Params ℝ))
    (k : ℕ → ℕ) (hk : ∀ j, 1 ≤ k j) (hK : ∀ j : ℕ, everyK j = k j) (π : Equiv.Perm ℕ)
    (hπ : ∀ j n, π n ∈ Ico (groupStart k j) (groupStart k (j + 1)) ↔ n ∈ Ico (groupStart k j) (groupStart k (j + 1)))
    (N : ℕ) (hN : N < 2 ^ 31) (us us' : List (Params ℝ)) (s s' : (multiSteps opt everyK mean).State)
    (hrun : (multiSteps opt everyK mean).exec (mk σ p0) (hist σ g pp N) = .ok (us, s))
    (hrun' : (multiSteps opt everyK mean).exec (mk σ p0) (hist σ (fun n => g (π n)) pp' N) = .ok (us', s')) :
    us' = us ∧ s'.innerOptState = s.innerOptState ∧ ((∃ j, N = groupStart k j) → s' = s) := by
  obtain ⟨J, vs, a1, a2, a3, a4, a5, a6, a7, a8, a9, -⟩ := C15_multi_steps opt everyK mean σ p0 g pp k hk hK N hN us s hrun
  obtain ⟨J', vs', b1, b2, b3, b4, b5, b6, b7, b8, b9, -⟩ := C15_multi_steps opt everyK mean σ p0 (fun n => g (π n)) pp' k hk hK N hN us' s' hrun'
  have hm := groupStart_strictMono k hk
  have hJ : J' = J := by
    have h1 : J' < J + 1 := hm.lt_iff_lt.1 (b1.trans_lt a2)
    have h2 : J < J' + 1 := hm.lt_iff_lt.1 (a1.trans_lt b2)
    omega
  subst hJ
  have hg : groupGrad k mean (fun n => g (π n)) = groupGrad k mean g := by
    funext j l i
    unfold groupGrad
    rw [sum_reorder π (hπ j) (fun n => g n l i)]
  rw [hg, a3] at b3
  have hvs : vs = vs' ∧ s.innerOptState = s'.innerOptState := by
    have := Except.ok.inj b3
    exact ⟨(Prod.mk.inj this).1, (Prod.mk.inj this).2⟩
  obtain ⟨rfl, hin⟩ := hvs
  refine ⟨?_, hin.symm, ?_⟩
  · refine List.ext_getElem? fun n => ?_
    by_cases hn : n < N
    · by_cases h : ∃ j, n + 1 = groupStart k (j + 1)
      · obtain ⟨j, hj⟩ := h
        rw [a5 n hn j hj, b5 n hn j hj]
      · have h' : ∀ j, n + 1 ≠ groupStart k (j + 1) := fun j hj => h ⟨j, hj⟩
        rw [a6 n hn h', b6 n hn h']
    · rw [List.getElem?_eq_none (by omega), List.getElem?_eq_none (by omega)]
  · rintro ⟨j, hj⟩
    have hjJ : J' = j := by
      have h1 : J' < j + 1 := hm.lt_iff_lt.1 (a1.trans_lt (by rw [hj]; exact hm (Nat.lt_succ_self j)))
      have h2 : j < J' + 1 := hm.lt_iff_lt.1 (by rw [← hj]; exact a2)
      omega
    subst hjJ
    rw [← hj, Finset.Ico_self] at a9 b9
    obtain ⟨ms, gs, is, ac⟩ := s
    obtain ⟨ms', gs', is', ac'⟩ := s'
    simp only at *
    rw [MultiStepsState.mk.injEq]
    exact ⟨BitVec.eq_of_toNat_eq (by rw [a8, b8]), BitVec.eq_of_toNat_eq (by rw [a7, b7]), hin.symm, by rw [a9, b9]; rfl⟩

/-- **C130 (MultiSteps around a transformation that accepts any gradients).** The updates returned are the same. -/
theorem C130_multi_steps_outs (opt : GT ℝ) (hopt : Preserves (fun _ pp => pp = none) opt) (everyK : ℤ → ℤ) (mean : Bool) (σ : Spec) (p0 : ℕ → ℕ → ℝ)
    (g : ℕ → ℕ → ℕ → ℝ) (pp pp' : ℕ → Option (Params ℝ)) (k : ℕ → ℕ) (hk : ∀ j, 1 ≤ k j) (hK : ∀ j : ℕ, everyK j = k j) (π : Equiv.Perm ℕ)
    (hπ : ∀ j n, π n ∈ Ico (groupStart k j) (groupStart k (j + 1)) ↔ n ∈ Ico (groupStart k j) (groupStart k (j + 1))) (N : ℕ) (hN : N < 2 ^ 31) :
    ∃ us, (multiSteps opt everyK mean).outs (mk σ p0) (hist σ g pp N) = .ok us ∧
      (multiSteps opt everyK mean).outs (mk σ p0) (hist σ (fun n => g (π n)) pp' N) = .ok us := by
  have hp := C15_preserves opt everyK mean hopt
  have ex : ∀ (g : ℕ → ℕ → ℕ → ℝ) (pp : ℕ → Option (Params ℝ)), ∃ r, (multiSteps opt everyK mean).exec (mk σ p0) (hist σ g pp N) = .ok r := by
    intro g pp
    obtain ⟨U, hU⟩ := hp.outs σ N p0 g pp fun _ => trivial
    unfold GT.outs at hU
    rw [Res.bind_eq_ok] at hU
    obtain ⟨r, hr, -⟩ := hU
    exact ⟨r, hr⟩
  obtain ⟨⟨us, s⟩, h1⟩ := ex g pp
  obtain ⟨⟨us', s'⟩, h2⟩ := ex (fun n => g (π n)) pp'
  have h3 := (C130_multi_steps opt everyK mean σ p0 g pp pp' k hk hK π hπ N hN us us' s s' h1 h2).1
  subst h3
  exact ⟨us', by unfold GT.outs; rw [h1]; rfl, by unfold GT.outs; rw [h2]; rfl⟩

/-- Non-vacuity: exchanging the first two of four mini-batches, in groups of two, with Adam inside. -/
example : (∀ j n, Equiv.swap 0 1 n ∈ Ico (groupStart (fun _ => 2) j) (groupStart (fun _ => 2) (j + 1)) ↔ n ∈ Ico (groupStart (fun _ => 2) j) (groupStart (fun _ => 2) (j + 1))) ∧
    Preserves (fun _ pp => pp = none) (scaleByAdam (0.9 : ℝ) 0.999 1e-8 0) := by
  refine ⟨fun j n => ?_, (preserves_adam _ _ _ _).any⟩
  simp only [groupStart, Finset.sum_const, Finset.card_range, smul_eq_mul, Finset.mem_Ico]
  rcases eq_or_ne n 0 with rfl | h0
  · rw [Equiv.swap_apply_left]; omega
  · rcases eq_or_ne n 1 with rfl | h1
    · rw [Equiv.swap_apply_right]; omega
    · rw [Equiv.swap_apply_of_ne_of_ne h0 h1]

/-- **C130 (apply_every).** Reordering the gradients inside the periods of `k` calls leaves all updates as they are. -/
theorem C130_apply_every (σ : Spec) (p0 : ℕ → ℕ → ℝ) (g : ℕ → ℕ → ℕ → ℝ) (pp pp' : ℕ → Option (Params ℝ)) (N : ℕ) (k : ℕ) (hk : 1 ≤ k) (hk' : k ≤ 2147483647)
    (π : Equiv.Perm ℕ) (hπ : ∀ n, π n / k = n / k) :
    (applyEvery (k : ℤ)).outs (mk σ p0) (hist σ (fun n => g (π n)) pp' N) = (applyEvery (k : ℤ)).outs (mk σ p0) (hist σ g pp N) := by
  rw [C33_apply_every σ p0 g pp N k hk hk', C33_apply_every σ p0 (fun n => g (π n)) pp' N k hk hk']
  congr 1
  refine List.map_congr_left fun n _ => ?_
  congr 1
  funext l i
  split_ifs with h
  · obtain ⟨m, hm⟩ := h
    have hm1 : 1 ≤ m := by
      rcases m with _ | m
      · omega
      · omega
    obtain ⟨m, rfl⟩ : ∃ m', m = m' + 1 := ⟨m - 1, by omega⟩
    have e : n + 1 - k = k * m := by rw [hm, mul_add, mul_one]; omega
    rw [e, hm]
    refine sum_reorder π (fun a => ?_) (fun j => g j l i)
    have key : ∀ a, a ∈ Ico (k * m) (k * (m + 1)) ↔ a / k = m := fun a => by
      rw [Finset.mem_Ico, Nat.div_eq_iff (by omega), mul_comm k m, mul_comm k (m + 1), add_mul, one_mul]
      omega
    rw [key, key, hπ]
  · rfl

/-- **C130 (Adagrad).** The state of `scale_by_rss` after `N` gradients does not depend on their order, and so neither does any later update. -/
theorem C130_rss (σ : Spec) (a eps : ℝ) (p0 : ℕ → ℕ → ℝ) (g : ℕ → ℕ → ℕ → ℝ) (pp pp' : ℕ → Option (Params ℝ)) (N : ℕ) (π : Equiv.Perm ℕ) (hπ : ReordersBelow N π) :
    ∃ us us' s, (scaleByRss a eps).exec (mk σ p0) (hist σ g pp N) = .ok (us, s) ∧
      (scaleByRss a eps).exec (mk σ p0) (hist σ (fun n => g (π n)) pp' N) = .ok (us', s) := by
  have h1 := C23_rss σ p0 g pp N a eps
  have h2 := C23_rss σ p0 (fun n => g (π n)) pp' N a eps
  have e : mk σ (fun k i => rssAcc a (fun j => g (π j) k i) N) = mk σ (fun k i => rssAcc a (fun j => g j k i) N) := by
    refine mk_congr fun k _ _ i _ => ?_
    unfold rssAcc
    congr 1
    exact Finset.sum_equiv π (fun n => by simp [hπ n]) fun _ _ => rfl
  rw [e] at h2
  exact ⟨_, _, _, h1, h2⟩

/-- **C130 (momentum depends on the order).** The last update of `trace(decay)` on the gradients `a, b` is the one on `b, a` only if `decay = 1` or `a = b`. -/
theorem C130_trace (d a b : ℝ) :
    (∃ us us' v, (trace d false).outs (mk (.leaf []) fun _ _ => 0) [(mk (.leaf []) fun _ _ => a, none), (mk (.leaf []) fun _ _ => b, none)] = .ok (us ++ [v]) ∧
      (trace d false).outs (mk (.leaf []) fun _ _ => 0) [(mk (.leaf []) fun _ _ => b, none), (mk (.leaf []) fun _ _ => a, none)] = .ok (us' ++ [v])) ↔ d = 1 ∨ a = b := by
  have run : ∀ x y : ℝ, (trace d false).outs (mk (.leaf []) fun _ _ => 0) [(mk (.leaf []) fun _ _ => x, none), (mk (.leaf []) fun _ _ => y, none)] =
      .ok ([mk (.leaf []) fun _ _ => x] ++ [mk (.leaf []) fun _ _ => y + d * x]) := by
    intro x y
    have h0 : (trace d false).init (mk (.leaf []) fun _ _ => 0) = .ok ⟨mk (.leaf []) fun _ _ => 0⟩ :=
      trace_init_mk (.leaf []) (fun _ _ => (0 : ℝ)) d false none
    have h1 : (trace d false).update (mk (.leaf []) fun _ _ => x) ⟨mk (.leaf []) fun _ _ => 0⟩ none = .ok (mk (.leaf []) fun _ _ => x, ⟨mk (.leaf []) fun _ _ => x⟩) := by
      refine (trace_update_mk (.leaf []) (fun _ _ => x) (fun _ _ => (0 : ℝ)) none d false none).trans ?_
      simp
    have h2 : (trace d false).update (mk (.leaf []) fun _ _ => y) ⟨mk (.leaf []) fun _ _ => x⟩ none =
        .ok (mk (.leaf []) fun _ _ => y + d * x, ⟨mk (.leaf []) fun _ _ => y + d * x⟩) := by
      refine (trace_update_mk (.leaf []) (fun _ _ => y) (fun _ _ => x) none d false none).trans ?_
      simp
    unfold GT.outs GT.exec
    rw [h0, Res.ok_bind, GT.run_cons_ok _ _ _ _ h1, GT.run_cons_ok _ _ _ _ h2, GT.run_nil]
    rfl
  rw [run, run]
  constructor
  · rintro ⟨us, us', v, h1, h2⟩
    have h1 := Except.ok.inj h1
    have h2 := Except.ok.inj h2
    have e1 := (List.append_inj' h1 rfl).2
    have e2 := (List.append_inj' h2 rfl).2
    have e3 : mk (.leaf []) (fun _ _ => b + d * a) = mk (.leaf []) (fun _ _ => a + d * b) := by
      have := e1.trans e2.symm
      exact (List.cons.inj this).1
    have e4 := mk_inj e3 0 [] (by simp [PyTree.leaves]) 0 (by simp)
    have e5 : (1 - d) * (b - a) = 0 := by linarith
    rcases mul_eq_zero.1 e5 with h | h
    · left; linarith
    · right; linarith
  · intro h
    refine ⟨[mk (.leaf []) fun _ _ => a], [mk (.leaf []) fun _ _ => b], mk (.leaf []) (fun _ _ => b + d * a), rfl, ?_⟩
    have : a + d * b = b + d * a := by rcases h with rfl | rfl <;> ring
    rw [this]

end Optax
