import Verif.Model.Wrappers
import Verif.Props.Constrain
import Verif.Props.ApplyEvery
import Verif.Props.Wrappers

/-!
# C19, C20: `lookahead`
-/

set_option linter.unusedSectionVars false
set_option linter.unusedSimpArgs false

namespace Optax

/-! ## Specification: the two nested loops -/

/-- Inner loop: `m` steps of the fast optimiser from fast parameters `f` and state `st`; `grad n` is the
gradient at global step number `n`, computed at the fast parameters.  (As in the code, the optimiser is given the
pair of fast and slow parameters as its params.) -/
noncomputable def innerLoop (fast : GT ℝ) (grad : ℕ → Params ℝ → Params ℝ) (slow : Params ℝ) (t0 : ℕ) :
    ℕ → Params ℝ → fast.State → Res (Params ℝ × fast.State)
  | 0, f, st => .ok (f, st)
  | m + 1, f, st => do
    let x ← innerLoop fast grad slow t0 m f st
    let y ← fast.update (grad (t0 + m) x.1) x.2 (some (lookaheadParams x.1 slow))
    let f' ← applyUpdates x.1 y.1
    return (f', y.2)

/-- Outer loop: `j` times, run `k` fast steps starting at the slow parameters, then move the slow parameters
by `a * (fast - slow)`. -/
noncomputable def outerLoop (fast : GT ℝ) (grad : ℕ → Params ℝ → Params ℝ) (a : ℝ) (k : ℕ) :
    ℕ → Params ℝ → fast.State → Res (Params ℝ × fast.State)
  | 0, slow, st => .ok (slow, st)
  | j + 1, slow, st => do
    let x ← outerLoop fast grad a k j slow st
    let y ← innerLoop fast grad x.1 (j * k) k x.1 x.2
    let slow' ← tzip (fun s f => s + a * (f - s)) x.1 y.1
    return (slow', y.2)

/-- the fast half of `LookaheadParams` -/
def fastOf (p : Params ℝ) : Params ℝ := ((lookaheadView p).map Prod.fst).getD p

/-- the params the fast optimiser is called with -/
def LookParams (σ : Spec) (pp : Option (Params ℝ)) : Prop :=
  ∃ f s, pp = some (lookaheadParams (mk σ f) (mk σ s))

@[simp] theorem lookaheadView_mk (f s : Params ℝ) : lookaheadView (lookaheadParams f s) = some (f, s) := rfl

theorem zipM_node2 {β γ δ : Type} (h : β → γ → Res δ) (t : Tag) (a b : PyTree β) (c d : PyTree γ) {x y}
    (h1 : PyTree.zipM h a c = .ok x) (h2 : PyTree.zipM h b d = .ok y) :
    PyTree.zipM h (.node t [a, b]) (.node t [c, d]) = .ok (.node t [x, y]) := by
  simp [PyTree.zipM, PyTree.zipML, h1, h2]

theorem applyUpdates_look (σ : Spec) (f s u v : ℕ → ℕ → ℝ) :
    applyUpdates (lookaheadParams (mk σ f) (mk σ s)) (lookaheadParams (mk σ u) (mk σ v)) =
      .ok (lookaheadParams (mk σ (fun k i => f k i + u k i)) (mk σ (fun k i => s k i + v k i))) := by
  unfold applyUpdates tzip lookaheadParams
  apply zipM_node2
  · exact tzip_mk _ _ _ _
  · exact tzip_mk _ _ _ _

theorem lookaheadUpdate_mk (σ : Spec) (u f s : ℕ → ℕ → ℝ) (sync : Bool) (a : ℝ) :
    lookaheadUpdate (mk σ u) sync (mk σ f) (mk σ s) a =
      .ok (lookaheadParams
        (mk σ (fun k i => u k i - boolNum sync * (1 - a) * (f k i + u k i - s k i)))
        (mk σ (fun k i => a * boolNum sync * (f k i + u k i - s k i)))) := by
  unfold lookaheadUpdate
  have h3 : PyTree.zipM3 (fun f u s => do
    let fu ← Tensor.bop (fun a b => a + b) f u
    Tensor.bop (fun a b => a - b) fu s) (mk σ f) (mk σ u) (mk σ s) =
      .ok (mk σ (fun k i => f k i + u k i - s k i)) := by
    unfold mk
    apply PyTree.zipM3_mapIdx
    intro k sh _
    simp
  rw [h3, Res.ok_bind, tmap_mk, tzip_mk]
  rfl

/-- the counter `r` of steps since the last synchronisation -/
def ctr (r : ℕ) : BitVec 32 := BitVec.ofNat 32 r

theorem ctr_toInt (r : ℕ) (h : r < 2 ^ 31) : (ctr r).toInt = r := by
  rw [bv_toInt_small _ (by simp [ctr]; omega)]
  simp [ctr]; omega

theorem ctr_next (r k : ℕ) (hk : 1 ≤ k) (hk' : k < 2 ^ 31) (hr : r < k) :
    BitVec.ofInt 32 ((ctr r + 1#32).toInt.fmod k) = ctr ((r + 1) % k) := by
  have h1 : ctr r + 1#32 = BitVec.ofNat 32 (r + 1) := by
    apply BitVec.eq_of_toNat_eq
    simp [ctr]
  have h2 : (BitVec.ofNat 32 (r + 1)).toInt = ((r + 1 : ℕ) : ℤ) ∨ r + 1 = 2 ^ 31 := by
    by_cases h : r + 1 < 2 ^ 31
    · left; exact ctr_toInt (r + 1) h
    · right; omega
  rcases h2 with h2 | h2
  · rw [h1, h2, Int.fmod_eq_emod_of_nonneg _ (by omega), ← Int.natCast_mod]
    exact BitVec.ofInt_natCast _ _
  · omega

variable (fast : GT ℝ) (k : ℕ) (a : ℝ)

/-- **C19** (one step).  A call of `update` with the counter at `r < k`, then `apply_updates`: between
synchronisations the fast parameters follow the fast optimiser and the slow ones stay; at the `k`-th step
both become `slow + a * (fast + u - slow)`. -/
theorem C19_step (σ : Spec) (hk : 1 ≤ k) (hk' : k < 2 ^ 31) (r : ℕ) (hr : r < k) (g f sl u : ℕ → ℕ → ℝ)
    (st st' : fast.State)
    (hu : fast.update (mk σ g) st (some (lookaheadParams (mk σ f) (mk σ sl))) = .ok (mk σ u, st')) :
    ∃ U, (lookahead fast k a none).update (mk σ g) ⟨st, ctr r⟩
        (some (lookaheadParams (mk σ f) (mk σ sl))) = .ok (U, ⟨st', ctr ((r + 1) % k)⟩) ∧
      applyUpdates (lookaheadParams (mk σ f) (mk σ sl)) U =
        .ok (if r + 1 = k then
            lookaheadParams (mk σ (fun x y => sl x y + a * (f x y + u x y - sl x y)))
              (mk σ (fun x y => sl x y + a * (f x y + u x y - sl x y)))
          else lookaheadParams (mk σ (fun x y => f x y + u x y)) (mk σ sl)) := by
  refine ⟨lookaheadParams (mk σ (fun x y => u x y - boolNum ((ctr r).toInt == (k:ℤ)-1) * (1 - a) * (f x y + u x y - sl x y))) (mk σ (fun x y => a * boolNum ((ctr r).toInt == (k:ℤ)-1) * (f x y + u x y - sl x y))), ?_, ?_⟩
  · show (fast.update (mk σ g) st (some (lookaheadParams (mk σ f) (mk σ sl))) >>= fun q =>
      lookaheadUpdate q.1 ((ctr r).toInt == (k : ℤ) - 1) (mk σ f) (mk σ sl) a >>= fun U =>
        Except.ok q.2 >>= fun fs => Except.ok (U, (⟨fs, BitVec.ofInt 32 ((ctr r + 1#32).toInt.fmod k)⟩ :
          LookaheadState fast.State))) = _
    rw [hu, Res.ok_bind, lookaheadUpdate_mk, Res.ok_bind, Res.ok_bind, ctr_next r k hk hk' hr]
  · rw [applyUpdates_look]
    congr 1
    rw [ctr_toInt r (by omega)]
    by_cases h : r + 1 = k
    · have : ((r : ℤ) == (k : ℤ) - 1) = true := by rw [beq_iff_eq]; omega
      rw [if_pos h, this]
      congr 2
      · funext x y; simp only [boolNum, if_true]; ring
      · funext x y; simp only [boolNum, if_true]; ring
    · have : ((r : ℤ) == (k : ℤ) - 1) = false := by
        rw [beq_eq_false_iff_ne]; omega
      rw [if_neg h, this]
      congr 2
      · funext x y; simp [boolNum]
      · funext x y; simp [boolNum]

/-- **C19.** Training with `lookahead(fast, k, a)`, `1 ≤ k < 2^31`, from synced parameters for `j*k + r` steps
(`r < k`), is the nested-loop algorithm: `j` rounds of the outer loop followed by `r` steps of the inner
loop; the slow parameters are those of the outer loop, `steps_since_sync = r`.  Any fast optimiser that
keeps structure, any gradient function. -/
theorem C19_nested_loops (hk : 1 ≤ k) (hk' : k < 2 ^ 31) (σ : Spec) (hfast : Preserves LookParams fast)
    (grad : ℕ → Params ℝ → Params ℝ) (hg : ∀ n p, ∃ g, grad n (mk σ p) = mk σ g) (p0 : ℕ → ℕ → ℝ)
    (j r : ℕ) (hr : r < k) :
    ∃ s0 slow st f st', fast.init (mk σ p0) = .ok s0 ∧
      (lookahead fast k a none).init (initSynced (mk σ p0)) = .ok ⟨s0, 0#32⟩ ∧
      outerLoop fast grad a k j (mk σ p0) s0 = .ok (mk σ slow, st) ∧
      innerLoop fast grad (mk σ slow) (j * k) r (mk σ slow) st = .ok (mk σ f, st') ∧
      trainLoop (lookahead fast k a none) (fun n p => grad n (fastOf p)) (j * k + r) ⟨s0, 0#32⟩
        (initSynced (mk σ p0)) = .ok (lookaheadParams (mk σ f) (mk σ slow), ⟨st', ctr r⟩) := by
  obtain ⟨I, h1, h2⟩ := hfast σ
  obtain ⟨s0, hs0, hI0⟩ := h1 p0
  -- strengthen with the invariant
  suffices H : ∀ j r, r < k → ∃ slow st f st',
      outerLoop fast grad a k j (mk σ p0) s0 = .ok (mk σ slow, st) ∧
      innerLoop fast grad (mk σ slow) (j * k) r (mk σ slow) st = .ok (mk σ f, st') ∧
      trainLoop (lookahead fast k a none) (fun n p => grad n (fastOf p)) (j * k + r) ⟨s0, 0#32⟩
        (initSynced (mk σ p0)) = .ok (lookaheadParams (mk σ f) (mk σ slow), ⟨st', ctr r⟩) ∧ I st' by
    obtain ⟨slow, st, f, st', a1, a2, a3, -⟩ := H j r hr
    refine ⟨s0, slow, st, f, st', hs0, ?_, a1, a2, a3⟩
    show (fast.init (mk σ p0) >>= _) = _
    rw [hs0]; rfl
  -- one step
  have step : ∀ n r, r < k → ∀ f slow st, I st →
      trainLoop (lookahead fast k a none) (fun n p => grad n (fastOf p)) n ⟨s0, 0#32⟩
        (initSynced (mk σ p0)) = .ok (lookaheadParams (mk σ f) (mk σ slow), ⟨st, ctr r⟩) →
      ∃ u st', fast.update (grad n (mk σ f)) st (some (lookaheadParams (mk σ f) (mk σ slow))) =
          .ok (mk σ u, st') ∧ I st' ∧
        trainLoop (lookahead fast k a none) (fun n p => grad n (fastOf p)) (n + 1) ⟨s0, 0#32⟩
        (initSynced (mk σ p0)) = .ok (if r + 1 = k then
            lookaheadParams (mk σ (fun x y => slow x y + a * (f x y + u x y - slow x y)))
              (mk σ (fun x y => slow x y + a * (f x y + u x y - slow x y)))
          else lookaheadParams (mk σ (fun x y => f x y + u x y)) (mk σ slow), ⟨st', ctr ((r + 1) % k)⟩) := by
    intro n r hr f slow st hI hT
    obtain ⟨g, hg'⟩ := hg n f
    obtain ⟨u, st', hu, hI'⟩ := h2 g st _ hI ⟨f, slow, rfl⟩
    obtain ⟨U, hU, hA⟩ := C19_step fast k a σ hk hk' r hr g f slow u st st' hu
    refine ⟨u, st', by rw [hg']; exact hu, hI', ?_⟩
    refine trainLoop_succ _ _ n _ _ _ _ _ _ U hT ?_ hA
    have : fastOf (lookaheadParams (mk σ f) (mk σ slow)) = mk σ f := rfl
    rw [this, hg']
    exact hU
  intro j
  induction j with
  | zero =>
    intro r
    induction r with
    | zero =>
      intro _
      refine ⟨p0, s0, p0, s0, rfl, rfl, ?_, hI0⟩
      simp only [Nat.zero_mul, Nat.add_zero]
      rfl
    | succ r ihr =>
      intro hr
      obtain ⟨slow, st, f, st', b1, b2, b3, hI⟩ := ihr (by omega)
      obtain ⟨u, st'', hu, hI', hT⟩ := step _ r (by omega) f slow st' hI b3
      refine ⟨slow, st, fun x y => f x y + u x y, st'', b1, ?_, ?_, hI'⟩
      · simp only [innerLoop, b2, Res.ok_bind]
        rw [hu, Res.ok_bind, C06_apply_updates]
        rfl
      · rw [if_neg (by omega), Nat.mod_eq_of_lt hr] at hT
        exact hT
  | succ j ihj =>
    intro r
    induction r with
    | zero =>
      intro _
      obtain ⟨slow, st, f, st', b1, b2, b3, hI⟩ := ihj (k - 1) (by omega)
      obtain ⟨u, st'', hu, hI', hT⟩ := step _ (k - 1) (by omega) f slow st' hI b3
      refine ⟨fun x y => slow x y + a * (f x y + u x y - slow x y), st'',
        fun x y => slow x y + a * (f x y + u x y - slow x y), st'', ?_, rfl, ?_, hI'⟩
      · simp only [outerLoop, b1, Res.ok_bind]
        have hinner : innerLoop fast grad (mk σ slow) (j * k) k (mk σ slow) st =
            .ok (mk σ (fun x y => f x y + u x y), st'') := by
          obtain ⟨k', rfl⟩ : ∃ k', k = k' + 1 := ⟨k - 1, by omega⟩
          simp only [Nat.add_sub_cancel] at b2 hu
          simp only [innerLoop, b2, Res.ok_bind]
          rw [hu, Res.ok_bind, C06_apply_updates]
          rfl
        rw [hinner, Res.ok_bind, tzip_mk]
        rfl
      · have e1 : k - 1 + 1 = k := by omega
        rw [if_pos e1, e1, Nat.mod_self] at hT
        have e2 : (j + 1) * k + 0 = j * k + (k - 1) + 1 := by rw [Nat.add_mul]; omega
        rw [e2]
        exact hT
    | succ r ihr =>
      intro hr
      obtain ⟨slow, st, f, st', b1, b2, b3, hI⟩ := ihr (by omega)
      obtain ⟨u, st'', hu, hI', hT⟩ := step _ r (by omega) f slow st' hI b3
      refine ⟨slow, st, fun x y => f x y + u x y, st'', b1, ?_, ?_, hI'⟩
      · simp only [innerLoop, b2, Res.ok_bind]
        rw [hu, Res.ok_bind, C06_apply_updates]
        rfl
      · rw [if_neg (by omega), Nat.mod_eq_of_lt hr] at hT
        exact hT

/-- **C19**: right after a synchronisation (a multiple of `k` steps) fast and slow parameters coincide. -/
theorem C19_synced (hk : 1 ≤ k) (hk' : k < 2 ^ 31) (σ : Spec) (hfast : Preserves LookParams fast)
    (grad : ℕ → Params ℝ → Params ℝ) (hg : ∀ n p, ∃ g, grad n (mk σ p) = mk σ g) (p0 : ℕ → ℕ → ℝ) (j : ℕ) :
    ∃ s0 slow st, fast.init (mk σ p0) = .ok s0 ∧
      trainLoop (lookahead fast k a none) (fun n p => grad n (fastOf p)) (j * k) ⟨s0, 0#32⟩
        (initSynced (mk σ p0)) = .ok (lookaheadParams (mk σ slow) (mk σ slow), ⟨st, ctr 0⟩) := by
  obtain ⟨s0, slow, st, f, st', h1, _, _, h4, h5⟩ :=
    C19_nested_loops fast k a hk hk' σ hfast grad hg p0 j 0 (by omega)
  simp only [innerLoop, Except.ok.injEq, Prod.mk.injEq] at h4
  refine ⟨s0, slow, st', h1, ?_⟩
  rw [← h4.1, Nat.add_zero] at h5
  exact h5

/-- **C19**: between synchronisations the slow parameters do not change. -/
theorem C19_slow_constant (hk : 1 ≤ k) (hk' : k < 2 ^ 31) (σ : Spec) (hfast : Preserves LookParams fast)
    (grad : ℕ → Params ℝ → Params ℝ) (hg : ∀ n p, ∃ g, grad n (mk σ p) = mk σ g) (p0 : ℕ → ℕ → ℝ) (j : ℕ) :
    ∃ s0 slow, fast.init (mk σ p0) = .ok s0 ∧ ∀ r < k, ∃ f st,
      trainLoop (lookahead fast k a none) (fun n p => grad n (fastOf p)) (j * k + r) ⟨s0, 0#32⟩
        (initSynced (mk σ p0)) = .ok (lookaheadParams f (mk σ slow), ⟨st, ctr r⟩) := by
  obtain ⟨s0, slow, st, _, _, h1, _, h3, _, _⟩ :=
    C19_nested_loops fast k a hk hk' σ hfast grad hg p0 j 0 (by omega)
  refine ⟨s0, slow, h1, fun r hr => ?_⟩
  obtain ⟨s0', slow', st2, f, st', h1', _, h3', _, h5⟩ :=
    C19_nested_loops fast k a hk hk' σ hfast grad hg p0 j r hr
  rw [h1] at h1'
  cases h1'
  rw [h3] at h3'
  simp only [Except.ok.injEq, Prod.mk.injEq] at h3'
  rw [← h3'.1] at h5
  exact ⟨_, _, h5⟩

/-- **C19**: `sync_period < 1` is rejected with ValueError, `≥ 1` accepted. -/
theorem C19_rejects (z : ℤ) (rep) : (z < 1 → lookaheadCall fast z a rep = .error .value) ∧
    (1 ≤ z → lookaheadCall fast z a rep = .ok (lookahead fast z a rep)) := by
  constructor
  · intro h; simp [lookaheadCall, h]
  · intro h; simp [lookaheadCall, h, not_lt.mpr h]

/-- **C19**: `update` needs `LookaheadParams`: with `None` or any other pytree as params it raises, whatever the fast optimiser. -/
theorem C19_needs_lookahead_params (z : ℤ) (rep) (g : Params ℝ) (s) (pp : Option (Params ℝ)) (r)
    (h : (lookahead fast z a rep).update g s pp = .ok r) : ∃ f sl, pp = some (lookaheadParams f sl) := by
  simp only [Res.bind_eq_ok] at h
  obtain ⟨q, hq, x, hx, -⟩ := h
  unfold lookaheadArgs at hx
  match pp, hx with
  | none, hx => simp at hx
  | some p, hx =>
    simp only [Option.bind_some] at hx
    match p, hx with
    | .node (.named "LookaheadParams") [f, sl], _ => exact ⟨f, sl, rfl⟩
    | .leaf b, hx => simp [lookaheadView] at hx
    | .node tg cs, hx =>
      unfold lookaheadView at hx
      split at hx
      · cases hx
      · rename_i y hy
        split at hy
        · rename_i f sl e
          injection e with e1 e2
          exact ⟨f, sl, by rw [e1, e2]; rfl⟩
        · cases hy

/-- **C19**: `init` initialises the fast optimiser on the fast parameters only: whatever the slow parameters, and whether the parameters are wrapped in
`LookaheadParams` or not, the run is that from synchronised parameters. -/
theorem C19_init (z : ℤ) (rep) (f sl p : Params ℝ) (h : List (Call ℝ)) :
    (lookahead fast z a rep).exec (lookaheadParams f sl) h = (lookahead fast z a rep).exec (initSynced f) h ∧
    ((∀ f sl, p ≠ lookaheadParams f sl) → (lookahead fast z a rep).exec p h = (lookahead fast z a rep).exec (initSynced p) h) ∧
    (lookahead fast z a rep).init (initSynced f) = (do let s ← fast.init f; return ⟨s, 0#32⟩) := by
  refine ⟨rfl, fun hp => ?_, rfl⟩
  have : lookaheadView p = none := by
    unfold lookaheadView
    split
    · rename_i f sl
      exact absurd rfl (hp f sl)
    · rfl
  unfold GT.exec
  simp only [this]
  rfl

/-- The fast optimisers that ignore params and keep structure (C05) satisfy the hypothesis. -/
theorem lookParams_of_any (h : Preserves AnyParams fast) : Preserves LookParams fast := h.any

example : Preserves LookParams (scaleByAdam (0.9 : ℝ) 0.999 1e-8 0) := (preserves_adam _ _ _ _).any

/-- Finding: the fast optimiser receives the pair `LookaheadParams`, not the fast parameters, so one that
combines gradients with params (here `add_decayed_weights`, the core of `adamw`) raises, for gradients in a
container as well as for a single array. -/
theorem C19_params_mismatch (w : ℝ) (x y : Params ℝ) (s : EmptyState) (sc : BitVec 32) :
    (∀ cs : List (Params ℝ), ∀ keys, ∃ e, (lookahead (addDecayedWeights w) k a none).update
      (.node (.dict keys) cs) ⟨s, sc⟩ (some (lookaheadParams x y)) = .error e) ∧
    (∀ t : Tensor ℝ, ∃ e, (lookahead (addDecayedWeights w) k a none).update (.leaf t) ⟨s, sc⟩
      (some (lookaheadParams x y)) = .error e) := by
  constructor
  · intro cs keys
    refine ⟨.value, ?_⟩
    show (((tzip _ (.node (.dict keys) cs) (lookaheadParams x y)) >>= _) >>= _) = _
    simp [tzip, lookaheadParams, PyTree.zipM]
  · intro t
    refine ⟨.type, ?_⟩
    show (((tzip _ (.leaf t) (lookaheadParams x y)) >>= _) >>= _) = _
    simp [tzip, lookaheadParams, PyTree.zipM]

/-! ## C20 -/

/-- kind, shape and number of entries of a state leaf -/
def SLeaf.layout {α : Type} : SLeaf α → Bool × List ℕ × ℕ
  | .num t => (true, t.shape, t.data.length)
  | .int t => (false, t.shape, t.data.length)

/-- two states have the same pytree structure, kinds and shapes -/
def SameLayout {α S : Type} (rep : StateRep S α) (s s' : S) : Prop :=
  (rep.enc s).map SLeaf.layout = (rep.enc s').map SLeaf.layout

theorem zipWith_fst {α β : Type} (f : α → β → α) (hf : ∀ a b, f a b = a) :
    ∀ (l : List α) (l' : List β), l.length = l'.length → List.zipWith f l l' = l
  | [], [], _ => rfl
  | [], _ :: _, h => by simp at h
  | _ :: _, [], h => by simp at h
  | a :: l, b :: l', h => by
    simp only [List.length_cons, add_left_inj] at h
    simp [hf, zipWith_fst f hf l l' h]

theorem zipWith_snd {α β : Type} (f : α → β → β) (hf : ∀ a b, f a b = b) :
    ∀ (l : List α) (l' : List β), l.length = l'.length → List.zipWith f l l' = l'
  | [], [], _ => rfl
  | [], _ :: _, h => by simp at h
  | _ :: _, [], h => by simp at h
  | a :: l, b :: l', h => by
    simp only [List.length_cons, add_left_inj] at h
    simp [hf, zipWith_snd f hf l l' h]

theorem blendLeaf_eq (sync : Bool) (c i : SLeaf ℝ) (h : c.layout = i.layout) :
    blendLeaf sync c i = .ok (if sync then i else c) := by
  cases c with
  | num c =>
    cases i with
    | num i =>
      obtain ⟨cs, cd⟩ := c
      obtain ⟨is, id⟩ := i
      simp only [SLeaf.layout, Prod.mk.injEq, true_and] at h
      obtain ⟨rfl, h⟩ := h
      cases sync
      · simp only [blendLeaf, Tensor.bop, if_true, boolNum, Bool.false_eq_true, if_false]
        rw [zipWith_fst _ (by intro a b; ring) _ _ h]; rfl
      · simp only [blendLeaf, Tensor.bop, if_true, boolNum]
        rw [zipWith_snd _ (by intro a b; ring) _ _ h]; rfl
    | int i => simp [SLeaf.layout] at h
  | int c =>
    cases i with
    | num i => simp [SLeaf.layout] at h
    | int i =>
      obtain ⟨cs, cd⟩ := c
      obtain ⟨is, id⟩ := i
      simp only [SLeaf.layout, Prod.mk.injEq, true_and] at h
      obtain ⟨rfl, h⟩ := h
      cases sync
      · simp only [blendLeaf, Tensor.bop, if_true, Bool.false_eq_true, if_false]
        rw [zipWith_fst _ (by intro a b; simp) _ _ h]; rfl
      · simp only [blendLeaf, Tensor.bop, if_true]
        rw [zipWith_snd _ (by intro a b; simp) _ _ h]; rfl

mutual
theorem blend_tree (sync : Bool) : ∀ (c i : PyTree (SLeaf ℝ)),
    c.map SLeaf.layout = i.map SLeaf.layout →
    PyTree.zipM (blendLeaf sync) c i = .ok (if sync then i else c)
  | .leaf c, .leaf i, h => by
    simp only [PyTree.map, PyTree.leaf.injEq] at h
    simp only [PyTree.zipM, blendLeaf_eq sync c i h, Res.ok_bind, Res.pure_eq]
    cases sync <;> rfl
  | .leaf _, .node _ _, h => by simp [PyTree.map] at h
  | .node _ _, .leaf _, h => by simp [PyTree.map] at h
  | .node t cs, .node t' is, h => by
    simp only [PyTree.map, PyTree.node.injEq] at h
    obtain ⟨rfl, h⟩ := h
    simp only [PyTree.zipM, if_true, blend_treeL sync cs is h, Res.ok_bind, Res.pure_eq]
    cases sync <;> rfl
theorem blend_treeL (sync : Bool) : ∀ (cs is : List (PyTree (SLeaf ℝ))),
    PyTree.mapL SLeaf.layout cs = PyTree.mapL SLeaf.layout is →
    PyTree.zipML (blendLeaf sync) cs is = .ok (if sync then is else cs)
  | [], [], _ => by cases sync <;> rfl
  | [], _ :: _, h => by simp [PyTree.mapL] at h
  | _ :: _, [], h => by simp [PyTree.mapL] at h
  | c :: cs, i :: is, h => by
    simp only [PyTree.mapL, List.cons.injEq] at h
    simp only [PyTree.zipML, blend_tree sync c i h.1, blend_treeL sync cs is h.2, Res.ok_bind, Res.pure_eq]
    cases sync <;> rfl
end

theorem lookaheadReset_eq {S : Type} (rep : StateRep S ℝ) (sync : Bool) (cur i : S)
    (h : SameLayout rep cur i) : lookaheadReset (some rep) sync cur (.ok i) = .ok (if sync then i else cur) := by
  simp only [lookaheadReset, Res.ok_bind, blend_tree sync _ _ h]
  cases sync <;> simp [rep.dec_enc]

/-- **C20** (one call, `reset_state=True`).  With the counter at `r < k`: the new fast state is a freshly
initialised one (`init` of the fast parameters passed in) if this is the `k`-th step, and otherwise the state
returned by the fast optimiser; the updates are those of `reset_state=False`. -/
theorem C20_reset_step (rep : StateRep fast.State ℝ) (hk : 1 ≤ k) (hk' : k < 2 ^ 31) (r : ℕ) (hr : r < k)
    (g f sl u : Params ℝ) (st st' i : fast.State)
    (hu : fast.update g st (some (lookaheadParams f sl)) = .ok (u, st'))
    (hi : fast.init f = .ok i) (hlay : SameLayout rep st' i) (U) (s2)
    (hU : (lookahead fast k a none).update g ⟨st, ctr r⟩ (some (lookaheadParams f sl)) = .ok (U, s2)) :
    s2.fastState = st' ∧
    (lookahead fast k a (some rep)).update g ⟨st, ctr r⟩ (some (lookaheadParams f sl)) =
      .ok (U, ⟨if r + 1 = k then i else st', ctr ((r + 1) % k)⟩) := by
  have hU' : (fast.update g st (some (lookaheadParams f sl)) >>= fun q =>
      lookaheadUpdate q.1 ((ctr r).toInt == (k : ℤ) - 1) f sl a >>= fun U =>
        lookaheadReset none ((ctr r).toInt == (k : ℤ) - 1) q.2 (fast.init f) >>= fun fs =>
        Except.ok (U, (⟨fs, BitVec.ofInt 32 ((ctr r + 1#32).toInt.fmod k)⟩ :
          LookaheadState fast.State))) = .ok (U, s2) := hU
  rw [hu, Res.ok_bind, Res.bind_eq_ok] at hU'
  obtain ⟨U0, hU0, hU'⟩ := hU'
  simp only [lookaheadReset, Res.ok_bind, Except.ok.injEq, Prod.mk.injEq] at hU'
  obtain ⟨rfl, hs2⟩ := hU'
  refine ⟨by rw [← hs2], ?_⟩
  show (fast.update g st (some (lookaheadParams f sl)) >>= fun q =>
      lookaheadUpdate q.1 ((ctr r).toInt == (k : ℤ) - 1) f sl a >>= fun U =>
        lookaheadReset (some rep) ((ctr r).toInt == (k : ℤ) - 1) q.2 (fast.init f) >>= fun fs =>
        Except.ok (U, (⟨fs, BitVec.ofInt 32 ((ctr r + 1#32).toInt.fmod k)⟩ :
          LookaheadState fast.State))) = _
  rw [hu, Res.ok_bind, hU0, Res.ok_bind, hi, lookaheadReset_eq rep _ _ _ hlay, Res.ok_bind,
    ctr_next r k hk hk' hr, ctr_toInt r (by omega)]
  by_cases h : r + 1 = k
  · have : ((r : ℤ) == (k : ℤ) - 1) = true := by rw [beq_iff_eq]; omega
    rw [if_pos h, this, if_pos rfl]
  · have : ((r : ℤ) == (k : ℤ) - 1) = false := by
      rw [beq_eq_false_iff_ne]; omega
    rw [if_neg h, this]; rfl

/-- **C20**: on every history, with or without reset, `steps_since_sync` is the number of calls modulo
`sync_period`. -/
theorem C20_counter (reset : Option (StateRep fast.State ℝ)) (hk : 1 ≤ k) (hk' : k < 2 ^ 31)
    (p : Params ℝ) (h : List (Call ℝ)) (us) (s)
    (hrun : (lookahead fast k a reset).exec p h = .ok (us, s)) :
    s.stepsSinceSync = ctr (h.length % k) := by
  unfold GT.exec at hrun
  obtain ⟨s0, hs0, hrun'⟩ := Res.bind_eq_ok.mp hrun
  clear hrun
  have h0 : s0.stepsSinceSync = ctr 0 := by
    have hs0' : (fast.init _ >>= fun s => Except.ok (⟨s, 0#32⟩ : LookaheadState fast.State)) = .ok s0 := hs0
    rw [Res.bind_eq_ok] at hs0'
    obtain ⟨i, _, hi⟩ := hs0'
    cases hi; rfl
  clear hs0
  induction h using List.reverseRecOn generalizing us s with
  | nil =>
    rw [GT.run_nil] at hrun'
    cases hrun'
    simpa using h0
  | append_singleton h c ih =>
    rw [GT.run_append, Res.bind_eq_ok] at hrun'
    obtain ⟨⟨us1, s1⟩, hr1, hr2⟩ := hrun'
    rw [Res.bind_eq_ok] at hr2
    obtain ⟨⟨us2, s2⟩, hr2, hr3⟩ := hr2
    cases hr3
    have ih' := ih us1 s1 hr1
    rw [GT.run_cons, Res.bind_eq_ok] at hr2
    obtain ⟨⟨u, s3⟩, hu, hr2⟩ := hr2
    rw [GT.run_nil] at hr2
    cases hr2
    have hu' : (fast.update c.1 s1.fastState c.2 >>= fun q =>
      lookaheadArgs c.2 >>= fun x =>
        lookaheadUpdate q.1 (s1.stepsSinceSync.toInt == (k : ℤ) - 1) x.1 x.2 a >>= fun U =>
        lookaheadReset reset (s1.stepsSinceSync.toInt == (k : ℤ) - 1) q.2 (fast.init x.1) >>= fun fs =>
        Except.ok (U, (⟨fs, BitVec.ofInt 32 ((s1.stepsSinceSync + 1#32).toInt.fmod k)⟩ :
          LookaheadState fast.State))) = .ok (u, _) := hu
    simp only [Res.bind_eq_ok] at hu'
    obtain ⟨q, _, x, _, U, _, fs, _, hu'⟩ := hu'
    cases hu'
    show BitVec.ofInt 32 ((s1.stepsSinceSync + 1#32).toInt.fmod k) = _
    rw [ih', ctr_next _ k hk hk' (Nat.mod_lt _ (by omega)), List.length_append, List.length_singleton,
      Nat.mod_add_mod]

/-- **C20** (histories).  In any run of `n` calls with `reset_state=True`, followed by a call at `LookaheadParams(f, sl)`: the
resulting fast state is a fresh `init(f)` iff `n + 1` is a multiple of the sync period, and otherwise the state the fast
optimiser returned. -/
theorem C20_reset (rep : StateRep fast.State ℝ) (hk : 1 ≤ k) (hk' : k < 2 ^ 31)
    (p : Params ℝ) (h : List (Call ℝ)) (us) (s) (hrun : (lookahead fast k a (some rep)).exec p h = .ok (us, s))
    (g f sl : Params ℝ) (U) (s2)
    (hU : (lookahead fast k a (some rep)).update g s (some (lookaheadParams f sl)) = .ok (U, s2))
    (u st' i) (hu : fast.update g s.fastState (some (lookaheadParams f sl)) = .ok (u, st'))
    (hi : fast.init f = .ok i) (hlay : SameLayout rep st' i) :
    s2.fastState = if k ∣ h.length + 1 then i else st' := by
  have hc := C20_counter fast k a (some rep) hk hk' p h us s hrun
  obtain ⟨st, c⟩ := s
  simp only at hc hu
  subst hc
  have hr := Nat.mod_lt h.length (show 0 < k by omega)
  have hU' : (fast.update g st (some (lookaheadParams f sl)) >>= fun q =>
      lookaheadUpdate q.1 ((ctr (h.length % k)).toInt == (k : ℤ) - 1) f sl a >>= fun U =>
        lookaheadReset (some rep) ((ctr (h.length % k)).toInt == (k : ℤ) - 1) q.2 (fast.init f) >>= fun fs =>
        Except.ok (U, (⟨fs, BitVec.ofInt 32 ((ctr (h.length % k) + 1#32).toInt.fmod k)⟩ :
          LookaheadState fast.State))) = .ok (U, s2) := hU
  rw [hu, Res.ok_bind, Res.bind_eq_ok] at hU'
  obtain ⟨U0, hU0, hU'⟩ := hU'
  rw [hi, lookaheadReset_eq rep _ _ _ hlay, Res.ok_bind, ctr_toInt _ (by omega)] at hU'
  cases hU'
  show (if ((h.length % k : ℕ) : ℤ) == (k : ℤ) - 1 then i else st') = _
  congr 1
  rw [beq_iff_eq, Nat.dvd_iff_mod_eq_zero, ← Nat.mod_add_mod]
  apply propext
  constructor
  · intro h1
    have : h.length % k + 1 = k := by omega
    rw [this, Nat.mod_self]
  · intro h1
    by_contra hne
    have hlt : h.length % k + 1 < k := by omega
    rw [Nat.mod_eq_of_lt hlt] at h1
    omega

/-- **C20**: with `reset_state=False` the fast state is always the one the fast optimiser returned. -/
theorem C20_no_reset (g : Params ℝ) (s) (pp) (U) (s2)
    (hU : (lookahead fast k a none).update g s pp = .ok (U, s2)) :
    ∃ u, fast.update g s.fastState pp = .ok (u, s2.fastState) := by
  have hu' : (fast.update g s.fastState pp >>= fun q =>
      lookaheadArgs pp >>= fun x =>
        lookaheadUpdate q.1 (s.stepsSinceSync.toInt == (k : ℤ) - 1) x.1 x.2 a >>= fun U =>
        lookaheadReset none (s.stepsSinceSync.toInt == (k : ℤ) - 1) q.2 (fast.init x.1) >>= fun fs =>
        Except.ok (U, (⟨fs, BitVec.ofInt 32 ((s.stepsSinceSync + 1#32).toInt.fmod k)⟩ :
          LookaheadState fast.State))) = .ok (U, s2) := hU
  simp only [Res.bind_eq_ok, lookaheadReset] at hu'
  obtain ⟨q, hq, x, _, U, _, fs, hfs, hu'⟩ := hu'
  cases hfs
  cases hu'
  exact ⟨q.1, hq⟩

/-! ### a concrete layout: `scale_by_adam` -/

/-- a float leaf of a state -/
def SLeaf.toNum {α : Type} : SLeaf α → Res (Tensor α)
  | .num t => .ok t
  | .int _ => .error .type

mutual
theorem mapM_toNum : ∀ t : Params ℝ, PyTree.mapM SLeaf.toNum (t.map SLeaf.num) = .ok t
  | .leaf x => rfl
  | .node t cs => by simp [PyTree.map, PyTree.mapM, mapML_toNum cs]
theorem mapML_toNum : ∀ ts : List (Params ℝ), PyTree.mapML SLeaf.toNum (PyTree.mapL SLeaf.num ts) = .ok ts
  | [] => rfl
  | t :: ts => by simp [PyTree.mapL, PyTree.mapML, mapM_toNum t, mapML_toNum ts]
end

/-- `ScaleByAdamState(count, mu, nu)` as a pytree -/
noncomputable def adamRep : StateRep (AdamState ℝ) ℝ where
  enc s := .node (.named "ScaleByAdamState")
    [.leaf (.int (Tensor.scalar s.count)), s.mu.map SLeaf.num, s.nu.map SLeaf.num]
  dec t := match t with
    | .node _ [.leaf (.int ⟨[], [c]⟩), m, n] => do
      let m ← PyTree.mapM SLeaf.toNum m
      let n ← PyTree.mapM SLeaf.toNum n
      return ⟨c, m, n⟩
    | _ => .error .type
  dec_enc s := by
    simp only [Tensor.scalar, mapM_toNum, Res.ok_bind, Res.pure_eq]

theorem layout_mk (σ : Spec) (v : ℕ → ℕ → ℝ) :
    ((mk σ v).map SLeaf.num).map SLeaf.layout = σ.map (fun s => (true, s, s.prod)) := by
  simp only [mk, PyTree.map_mapIdx]
  rw [← PyTree.mapIdx_const]
  apply PyTree.mapIdx_congr
  intro k s _
  simp [SLeaf.layout, Tensor.tens]

/-- Non-vacuity of C20: for Adam all states reached on gradients of one structure have the layout of a
fresh state. -/
theorem C20_adam_layout (σ : Spec) (c c' : BitVec 32) (m n m' n' : ℕ → ℕ → ℝ) :
    SameLayout adamRep ⟨c, mk σ m, mk σ n⟩ ⟨c', mk σ m', mk σ n'⟩ := by
  unfold SameLayout adamRep
  simp only [PyTree.map, PyTree.mapL, layout_mk]
  rfl

/-- Finding: the reset multiplies by 0/1, so a non-finite entry of the current state survives it (as NaN). -/
theorem C20_nan_survives : blendLeaf true (.num (Tensor.tens [1] (fun _ => XReal.pinf)))
    (.num (Tensor.tens [1] (fun _ => XReal.fin 0))) = .ok (.num (Tensor.tens [1] (fun _ => XReal.nan))) := by
  have h0 : (1 - boolNum true : XReal) = .fin 0 := by simp [boolNum]
  have e2 : XReal.fin 0 * XReal.pinf = .nan := by
    show XReal.infOf 0 = _
    simp [XReal.infOf]
  simp only [blendLeaf, Tensor.bop_tens, h0, e2, XReal.nan_add, Res.ok_bind, Res.pure_eq]

end Optax
