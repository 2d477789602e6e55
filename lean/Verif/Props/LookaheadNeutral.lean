import Verif.Props.Lookahead
import Verif.Props.Accumulation

/-!
# C101: `lookahead` with slow step size one or zero
-/

set_option linter.unusedSectionVars false

namespace Optax

/-- **C101.** `lookahead` with `slow_step_size = 1` is transparent: whatever the period, the fast parameters and the fast optimiser's state are those of training with the fast optimiser alone. -/
theorem C101_lookahead_one (fast : GT ℝ) (hp : Preserves AnyParams fast) (hi : IgnoresParams fast) (k : ℕ) (hk : 1 ≤ k) (hk' : k < 2 ^ 31) (σ : Spec)
    (grad : ℕ → Params ℝ → Params ℝ) (hg : ∀ n p, ∃ g, grad n (mk σ p) = mk σ g) (p0 : ℕ → ℕ → ℝ) (N : ℕ) :
    ∃ (s0 st : fast.State) (f slow : ℕ → ℕ → ℝ), fast.init (mk σ p0) = .ok s0 ∧
      trainLoop fast grad N s0 (mk σ p0) = .ok (mk σ f, st) ∧
      (lookahead fast k 1 none).init (initSynced (mk σ p0)) = .ok ⟨s0, 0#32⟩ ∧
      trainLoop (lookahead fast k 1 none) (fun n p => grad n (fastOf p)) N ⟨s0, 0#32⟩ (initSynced (mk σ p0)) =
        .ok (lookaheadParams (mk σ f) (mk σ slow), ⟨st, ctr (N % k)⟩) := by
  obtain ⟨I, h1, h2⟩ := hp σ
  obtain ⟨s0, hs0, hI0⟩ := h1 p0
  suffices H : ∀ N, ∃ (st : fast.State) (f slow : ℕ → ℕ → ℝ), I st ∧ trainLoop fast grad N s0 (mk σ p0) = .ok (mk σ f, st) ∧
      trainLoop (lookahead fast k 1 none) (fun n p => grad n (fastOf p)) N ⟨s0, 0#32⟩ (initSynced (mk σ p0)) =
        .ok (lookaheadParams (mk σ f) (mk σ slow), ⟨st, ctr (N % k)⟩) by
    obtain ⟨st, f, slow, _, h3, h4⟩ := H N
    exact ⟨s0, st, f, slow, hs0, h3, by show (fast.init (mk σ p0) >>= _) = _; rw [hs0]; rfl, h4⟩
  intro N
  induction N with
  | zero => exact ⟨s0, p0, p0, hI0, rfl, by rw [Nat.zero_mod]; rfl⟩
  | succ N ih =>
    obtain ⟨st, f, slow, hI, h3, h4⟩ := ih
    obtain ⟨g, hgN⟩ := hg N f
    obtain ⟨u, st', h5, h6⟩ := h2 g st (some (mk σ f)) hI trivial
    have h5' : fast.update (mk σ g) st (some (lookaheadParams (mk σ f) (mk σ slow))) = .ok (mk σ u, st') := by
      rw [hi _ _ _ (some (mk σ f))]; exact h5
    obtain ⟨U, h7, h8⟩ := C19_step fast k 1 σ hk hk' (N % k) (Nat.mod_lt _ hk) g f slow u st st' h5'
    have e : (N % k + 1) % k = (N + 1) % k := by rw [Nat.mod_add_mod]
    rw [e] at h7
    refine ⟨st', fun x y => f x y + u x y, if N % k + 1 = k then fun x y => f x y + u x y else slow, h6, ?_, ?_⟩
    · exact trainLoop_succ _ grad N _ _ _ _ _ _ _ h3 (by rw [hgN]; exact h5) (C06_apply_updates σ f u)
    · refine trainLoop_succ _ _ N _ _ _ _ _ _ U h4 ?_ (h8.trans ?_)
      · show (lookahead fast k 1 none).update (grad N (mk σ f)) _ _ = _
        rw [hgN]
        exact h7
      · split_ifs
        · have e : (fun x y => slow x y + 1 * (f x y + u x y - slow x y)) = fun x y => f x y + u x y := by funext x y; ring
          rw [e]
        · rfl

/-- **C101.** With `slow_step_size = 0` the slow parameters never move, and the fast ones return to them at every synchronisation: training makes no progress. -/
theorem C101_lookahead_zero (fast : GT ℝ) (hp : Preserves LookParams fast) (k : ℕ) (hk : 1 ≤ k) (hk' : k < 2 ^ 31) (σ : Spec)
    (grad : ℕ → Params ℝ → Params ℝ) (hg : ∀ n p, ∃ g, grad n (mk σ p) = mk σ g) (p0 : ℕ → ℕ → ℝ) (N : ℕ) :
    ∃ (s0 st : fast.State) (f : ℕ → ℕ → ℝ), fast.init (mk σ p0) = .ok s0 ∧
      trainLoop (lookahead fast k 0 none) (fun n p => grad n (fastOf p)) N ⟨s0, 0#32⟩ (initSynced (mk σ p0)) =
        .ok (lookaheadParams (mk σ f) (mk σ p0), ⟨st, ctr (N % k)⟩) ∧ (N % k = 0 → f = p0) := by
  obtain ⟨I, h1, h2⟩ := hp σ
  obtain ⟨s0, hs0, hI0⟩ := h1 p0
  suffices H : ∀ N, ∃ (st : fast.State) (f : ℕ → ℕ → ℝ), I st ∧
      trainLoop (lookahead fast k 0 none) (fun n p => grad n (fastOf p)) N ⟨s0, 0#32⟩ (initSynced (mk σ p0)) =
        .ok (lookaheadParams (mk σ f) (mk σ p0), ⟨st, ctr (N % k)⟩) ∧ (N % k = 0 → f = p0) by
    obtain ⟨st, f, _, h4⟩ := H N
    exact ⟨s0, st, f, hs0, h4⟩
  intro N
  induction N with
  | zero => exact ⟨s0, p0, hI0, by rw [Nat.zero_mod]; rfl, fun _ => rfl⟩
  | succ N ih =>
    obtain ⟨st, f, hI, h4, -⟩ := ih
    obtain ⟨g, hgN⟩ := hg N f
    obtain ⟨u, st', h5, h6⟩ := h2 g st (some (lookaheadParams (mk σ f) (mk σ p0))) hI ⟨f, p0, rfl⟩
    obtain ⟨U, h7, h8⟩ := C19_step fast k 0 σ hk hk' (N % k) (Nat.mod_lt _ hk) g f p0 u st st' h5
    have e : (N % k + 1) % k = (N + 1) % k := by rw [Nat.mod_add_mod]
    rw [e] at h7
    refine ⟨st', if N % k + 1 = k then p0 else fun x y => f x y + u x y, h6, ?_, fun h => if_pos ?_⟩
    · refine trainLoop_succ _ _ N _ _ _ _ _ _ U h4 ?_ (h8.trans ?_)
      · show (lookahead fast k 0 none).update (grad N (mk σ f)) _ _ = _
        rw [hgN]
        exact h7
      · split_ifs
        · have e : (fun x y => p0 x y + 0 * (f x y + u x y - p0 x y)) = p0 := by funext x y; ring
          rw [e]
        · rfl
    · have hlt := Nat.mod_lt N hk
      by_contra hne
      have : N % k + 1 < k := by omega
      rw [← e, Nat.mod_eq_of_lt this] at h
      omega

/-- Adam inside `lookahead` with period 6, any learning rate, on the gradients `p ↦ 3 p` -/
example (lr : LR ℝ) (b1 b2 eps er : ℝ) (p0 : ℕ → ℕ → ℝ) (N : ℕ) :
    ∃ (s0 st : (adam lr b1 b2 eps er).State) (f slow : ℕ → ℕ → ℝ), (adam lr b1 b2 eps er).init (mk (.node .list [.leaf [2, 3], .leaf []]) p0) = .ok s0 ∧
      trainLoop (adam lr b1 b2 eps er) (fun _ p => tmap (3 * ·) p) N s0 (mk (.node .list [.leaf [2, 3], .leaf []]) p0) = .ok (mk (.node .list [.leaf [2, 3], .leaf []]) f, st) ∧
      trainLoop (lookahead (adam lr b1 b2 eps er) (6 : ℕ) 1 none) (fun _ p => tmap (3 * ·) (fastOf p)) N ⟨s0, 0#32⟩ (initSynced (mk (.node .list [.leaf [2, 3], .leaf []]) p0)) =
        .ok (lookaheadParams (mk (.node .list [.leaf [2, 3], .leaf []]) f) (mk (.node .list [.leaf [2, 3], .leaf []]) slow), ⟨st, ctr (N % 6)⟩) := by
  obtain ⟨h1, h2⟩ := C117_optimisers lr b1 b2 eps er 0 none false _ (Or.inl rfl)
  obtain ⟨s0, st, f, slow, h3, h4, -, h5⟩ := C101_lookahead_one _ h1 h2 6 (by norm_num) (by norm_num) (.node .list [.leaf [2, 3], .leaf []]) (fun _ p => tmap (3 * ·) p)
    (fun _ p => ⟨_, tmap_mk _ _ _⟩) p0 N
  exact ⟨s0, st, f, slow, h3, h4, h5⟩

end Optax
