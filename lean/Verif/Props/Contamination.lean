import Verif.Props.FloatStationary
import Verif.Props.MultiStepsFaults
import Verif.Lemmas.Steps

/-!
# C152: a NaN gradient entry
-/

set_option linter.unusedSectionVars false
set_option linter.unusedSimpArgs false

namespace Optax

section
variable {α : Type} [Zero α] [One α] [Add α] [Sub α] [Mul α] [Div α] [Neg α] [JOps α]

/-- `jnp.isnan` -/
def IsNaN (a : α) : Prop := JOps.isnan a = true

/-- an arithmetic in which NaN propagates -/
structure Propagates (α : Type) [Zero α] [One α] [Add α] [Sub α] [Mul α] [Div α] [Neg α] [JOps α] : Prop where
  add : ∀ a b : α, IsNaN a ∨ IsNaN b → IsNaN (a + b)
  sub : ∀ a b : α, IsNaN a ∨ IsNaN b → IsNaN (a - b)
  mul : ∀ a b : α, IsNaN a ∨ IsNaN b → IsNaN (a * b)
  div : ∀ a b : α, IsNaN a ∨ IsNaN b → IsNaN (a / b)
  max : ∀ a b : α, IsNaN a → IsNaN (JOps.max a b)
  min : ∀ a b : α, IsNaN a → IsNaN (JOps.min a b)
  sqrt : ∀ a : α, IsNaN a → IsNaN (JOps.sqrt a)
  rsqrt : ∀ a : α, IsNaN a → IsNaN (JOps.rsqrt a)
  lt : ∀ a b : α, IsNaN a ∨ IsNaN b → JOps.lt a b = false

/-- `(k, i)` is the position of an entry of trees of shape `σ` -/
def InTree (σ : Spec) (k i : ℕ) : Prop := ∃ s, σ.leaves[k]? = some s ∧ i < s.prod

/-- The updates of `t` succeed on every history, and whenever an entry of the gradient is NaN the entry of the update is NaN in that call (`forever = false`), respectively in that call and in all
later ones (`forever = true`). -/
def NaNOut (forever : Bool) (t : GT α) : Prop :=
  ∀ (σ : Spec) (p0 : ℕ → ℕ → α) (g pp : ℕ → ℕ → ℕ → α) (N : ℕ), ∃ U : ℕ → ℕ → ℕ → α,
    t.outs (mk σ p0) (hist σ g (fun n => some (mk σ (pp n))) N) = .ok ((List.range N).map fun n => mk σ (U n)) ∧
    ∀ k i, InTree σ k i → ∀ n m : ℕ, n ≤ m → m < N → (forever = true ∨ n = m) → IsNaN (g n k i) → IsNaN (U m k i)

/-- a stepwise criterion for `NaNOut`, closed under `chain` -/
def NaNThrough (forever : Bool) (t : GT α) : Prop :=
  ∀ σ : Spec, ∃ (R : Type) (st : R → t.State) (bad : ℕ → ℕ → R → Prop),
    (∀ p, ∃ r, t.init (mk σ p) = .ok (st r)) ∧
    ∀ r g p, ∃ u r', t.update (mk σ g) (st r) (some (mk σ p)) = .ok (mk σ u, st r') ∧
      ∀ k i, InTree σ k i → IsNaN (g k i) ∨ bad k i r → IsNaN (u k i) ∧ (forever = true → bad k i r')

theorem NaNThrough.weaken {t : GT α} {b : Bool} (h : NaNThrough b t) : NaNThrough false t := by
  intro σ
  obtain ⟨R, st, bad, h1, h2⟩ := h σ
  refine ⟨R, st, bad, h1, fun r g p => ?_⟩
  obtain ⟨u, r', h3, h4⟩ := h2 r g p
  exact ⟨u, r', h3, fun k i hk hb => ⟨(h4 k i hk hb).1, fun h => absurd h (by simp)⟩⟩

theorem NaNThrough.nil : NaNThrough false (chain ([] : List (GT α))) := fun σ =>
  ⟨Unit, fun _ => (0 : ℕ), fun _ _ _ => False, fun _ => ⟨(), rfl⟩, fun _ g _ => ⟨g, (), rfl, fun _ _ _ h => ⟨h.resolve_right id, fun h => absurd h (by simp)⟩⟩⟩

theorem NaNThrough.cons {t : GT α} {ts : List (GT α)} {b c : Bool} (h : NaNThrough b t) (h' : NaNThrough c (chain ts)) : NaNThrough (b || c) (chain (t :: ts)) := by
  intro σ
  obtain ⟨R, st, bad, h1, h2⟩ := h σ
  obtain ⟨Q, qt, worse, h3, h4⟩ := h' σ
  have hlen : ∀ q : { q : Q // ChainState.length ts (qt q) = ts.length }, ∀ g p, ∃ u, ∃ q' : { q : Q // ChainState.length ts (qt q) = ts.length },
      chainLoop ts (mk σ g) (qt q.1) (some (mk σ p)) = .ok (mk σ u, qt q'.1) ∧
      ∀ k i, InTree σ k i → IsNaN (g k i) ∨ worse k i q.1 → IsNaN (u k i) ∧ (c = true → worse k i q'.1) := by
    rintro ⟨q, hq⟩ g p
    obtain ⟨u, q', e1, e2⟩ := h4 q g p
    have e : chainLoop ts (mk σ g) (qt q) (some (mk σ p)) = .ok (mk σ u, qt q') := by
      simpa [Optax.chain, hq] using e1
    exact ⟨u, ⟨q', chainLoop_length ts _ _ _ hq e⟩, e, e2⟩
  refine ⟨R × { q : Q // ChainState.length ts (qt q) = ts.length }, fun x => some (st x.1, qt x.2.1),
    fun k i x => (b = true ∧ bad k i x.1) ∨ (c = true ∧ worse k i x.2.1), fun p => ?_, ?_⟩
  · obtain ⟨r, hr⟩ := h1 p
    obtain ⟨q, hq⟩ := h3 p
    refine ⟨⟨r, ⟨q, chain_length_init ts _ _ hq⟩⟩, ?_⟩
    show chainInit (t :: ts) (mk σ p) = _
    have hq' : chainInit ts (mk σ p) = .ok (qt q) := hq
    simp only [chainInit, hr, hq', Res.ok_bind]
    rfl
  · rintro ⟨r, q⟩ g p
    obtain ⟨u, r', e1, e2⟩ := h2 r g p
    obtain ⟨v, q', e3, e4⟩ := hlen q u p
    refine ⟨v, ⟨r', q'⟩, ?_, fun k i hk hb => ?_⟩
    · simp only [Optax.chain, ChainState.length, List.length_cons, q.2, Nat.add_comm, ne_eq,
        not_true_eq_false, if_false, chainLoop, e1, Res.ok_bind, e3]
      rfl
    · have main : (IsNaN (g k i) ∨ bad k i r) ∨ (c = true ∧ worse k i q.1) := by
        rcases hb with h | ⟨_, h⟩ | h
        · exact Or.inl (Or.inl h)
        · exact Or.inl (Or.inr h)
        · exact Or.inr h
      refine ⟨?_, fun hbc => ?_⟩
      · rcases main with h | ⟨_, h⟩
        · exact (e4 k i hk (Or.inl (e2 k i hk h).1)).1
        · exact (e4 k i hk (Or.inr h)).1
      · rcases main with h | ⟨hc, h⟩
        · obtain ⟨h5, h6⟩ := e2 k i hk h
          obtain ⟨h7, h8⟩ := e4 k i hk (Or.inl h5)
          cases b
          · exact Or.inr ⟨by simpa using hbc, h8 (by simpa using hbc)⟩
          · exact Or.inl ⟨rfl, h6 rfl⟩
        · exact Or.inr ⟨hc, (e4 k i hk (Or.inr h)).2 hc⟩

theorem NaNThrough.out {t : GT α} {b : Bool} (h : NaNThrough b t) : NaNOut b t := by
  intro σ p0 g pp N
  obtain ⟨R, st, bad, h1, h2⟩ := h σ
  obtain ⟨r0, hr0⟩ := h1 p0
  choose u nx hu hbad using h2
  set r : ℕ → R := fun n => Nat.rec r0 (fun n x => nx x (g n) (pp n)) n with hr
  have hrs : ∀ n, r (n + 1) = nx (r n) (g n) (pp n) := fun n => rfl
  refine ⟨fun n => u (r n) (g n) (pp n), ?_, ?_⟩
  · refine outs_hist _ (mk σ p0) σ g _ N (fun n => st (r n)) (fun n => mk σ (u (r n) (g n) (pp n))) hr0 (fun n _ => ?_)
    rw [hrs]
    exact hu (r n) (g n) (pp n)
  · intro k i hk n m hnm hm hb hg
    have now := hbad (r n) (g n) (pp n) k i hk (Or.inl hg)
    rcases hb with hb | rfl
    · have later : ∀ d, IsNaN (u (r (n + d)) (g (n + d)) (pp (n + d)) k i) ∧ bad k i (r (n + d + 1)) := by
        intro d
        induction d with
        | zero => exact ⟨now.1, by rw [hrs]; exact now.2 hb⟩
        | succ d ih =>
          have := hbad (r (n + d + 1)) (g (n + d + 1)) (pp (n + d + 1)) k i hk (Or.inr ih.2)
          exact ⟨this.1, by rw [hrs]; exact this.2 hb⟩
      obtain ⟨d, rfl⟩ := Nat.exists_eq_add_of_le hnm
      exact (later d).1
    · exact now.1

/-! ## which transformations -/

variable (A : Propagates α)
include A

theorem nan_moment (d g m : α) (n : ℕ) (h : IsNaN g ∨ IsNaN m) : IsNaN ((1 - d) * ipow g (n + 1) + d * m) := by
  refine A.add _ _ ?_
  rcases h with h | h
  · left
    refine A.mul _ _ (Or.inr ?_)
    induction n with
    | zero => exact h
    | succ n ih => exact A.mul _ _ (Or.inl ih)
  · exact Or.inr (A.mul _ _ (Or.inr h))

theorem through_trace (d : α) (nes : Bool) : NaNThrough true (trace d nes none) := fun σ =>
  ⟨ℕ → ℕ → α, fun m => ⟨mk σ m⟩, fun k i m => IsNaN (m k i), fun p => ⟨_, trace_init_mk σ p d nes none⟩, fun m g p =>
    ⟨_, _, trace_update_mk σ g m (some (mk σ p)) d nes none, fun k i _ h => by
      have e : IsNaN (g k i + d * m k i) := A.add _ _ (h.imp id fun h => A.mul _ _ (Or.inr h))
      refine ⟨?_, fun _ => e⟩
      cases nes
      · exact e
      · exact A.add _ _ (Or.inr (A.mul _ _ (Or.inr e)))⟩⟩

theorem through_ema (d : α) : NaNThrough true (ema d true none) := fun σ =>
  ⟨BitVec 32 × (ℕ → ℕ → α), fun x => ⟨x.1, mk σ x.2⟩, fun k i x => IsNaN (x.2 k i), fun p => ⟨⟨_, _⟩, ema_init_mk σ p d true none⟩, fun x g p =>
    ⟨_, ⟨_, _⟩, ema_update_mk σ g x.2 (some (mk σ p)) d true none x.1, fun _ _ _ h =>
      ⟨A.div _ _ (Or.inl (nan_moment A _ _ _ 0 h)), fun _ => nan_moment A _ _ _ 0 h⟩⟩⟩

theorem through_rms (d eps a : α) : NaNThrough true (scaleByRms d eps a) := fun σ =>
  ⟨ℕ → ℕ → α, fun m => ⟨mk σ m⟩, fun k i m => IsNaN (m k i), fun p => ⟨_, rms_init_mk σ p d eps a⟩, fun m g p =>
    ⟨_, _, rms_update_mk σ g m (some (mk σ p)) d eps a, fun _ _ _ h =>
      ⟨A.mul _ _ (Or.inr (A.rsqrt _ (A.add _ _ (Or.inl (nan_moment A _ _ _ 1 h))))), fun _ => nan_moment A _ _ _ 1 h⟩⟩⟩

theorem through_adam (b1 b2 eps er : α) : NaNThrough true (scaleByAdam b1 b2 eps er) := fun σ =>
  ⟨BitVec 32 × (ℕ → ℕ → α) × (ℕ → ℕ → α), fun x => ⟨x.1, mk σ x.2.1, mk σ x.2.2⟩, fun k i x => IsNaN (x.2.1 k i), fun p => ⟨⟨_, _, _⟩, adam_init_mk σ p b1 b2 eps er⟩, fun x g p =>
    ⟨_, ⟨_, _, _⟩, adam_update_mk σ g x.2.1 x.2.2 (some (mk σ p)) b1 b2 eps er x.1, fun _ _ _ h =>
      ⟨A.div _ _ (Or.inl (A.div _ _ (Or.inl (nan_moment A _ _ _ 0 h)))), fun _ => nan_moment A _ _ _ 0 h⟩⟩⟩

theorem through_belief (b1 b2 eps er : α) : NaNThrough true (scaleByBelief b1 b2 eps er) := fun σ =>
  ⟨BitVec 32 × (ℕ → ℕ → α) × (ℕ → ℕ → α), fun x => ⟨x.1, mk σ x.2.1, mk σ x.2.2⟩, fun k i x => IsNaN (x.2.1 k i), fun p => ⟨⟨_, _, _⟩, belief_init_mk σ p b1 b2 eps er⟩, fun x g p =>
    ⟨_, ⟨_, _, _⟩, belief_update_mk σ g x.2.1 x.2.2 (some (mk σ p)) b1 b2 eps er x.1, fun _ _ _ h =>
      ⟨A.div _ _ (Or.inl (A.div _ _ (Or.inl (nan_moment A _ _ _ 0 h)))), fun _ => nan_moment A _ _ _ 0 h⟩⟩⟩

theorem through_yogi (b1 b2 eps er a : α) : NaNThrough true (scaleByYogi b1 b2 eps er a) := fun σ =>
  ⟨BitVec 32 × (ℕ → ℕ → α) × (ℕ → ℕ → α), fun x => ⟨x.1, mk σ x.2.1, mk σ x.2.2⟩, fun k i x => IsNaN (x.2.1 k i), fun p => ⟨⟨_, _, _⟩, yogi_init_mk σ p b1 b2 eps er a⟩, fun x g p =>
    ⟨_, ⟨_, _, _⟩, yogi_update_mk σ g x.2.1 x.2.2 (some (mk σ p)) b1 b2 eps er a x.1, fun _ _ _ h =>
      ⟨A.div _ _ (Or.inl (A.div _ _ (Or.inl (nan_moment A _ _ _ 0 h)))), fun _ => nan_moment A _ _ _ 0 h⟩⟩⟩

theorem through_radam (b1 b2 eps er th : α) : NaNThrough true (scaleByRadam b1 b2 eps er th) := fun σ =>
  ⟨BitVec 32 × (ℕ → ℕ → α) × (ℕ → ℕ → α), fun x => ⟨x.1, mk σ x.2.1, mk σ x.2.2⟩, fun k i x => IsNaN (x.2.1 k i), fun p => ⟨⟨_, _, _⟩, radam_init_mk σ p b1 b2 eps er th⟩, fun x g p =>
    ⟨_, ⟨_, _, _⟩, radam_update_mk σ g x.2.1 x.2.2 (some (mk σ p)) b1 b2 eps er th x.1, fun k i _ h => by
      have e := A.div _ (1 - JOps.pow b1 (cnt (safeInt32Increment x.1))) (Or.inl (nan_moment A b1 _ _ 0 h))
      refine ⟨?_, fun _ => nan_moment A _ _ _ 0 h⟩
      dsimp only
      split_ifs
      · exact A.div _ _ (Or.inl (A.mul _ _ (Or.inr e)))
      · exact e⟩⟩

theorem through_stddev (d eps a : α) : NaNThrough true (scaleByStddev d eps a) := fun σ =>
  ⟨(ℕ → ℕ → α) × (ℕ → ℕ → α), fun x => ⟨mk σ x.1, mk σ x.2⟩, fun k i x => IsNaN (x.2 k i), fun p => ⟨⟨_, _⟩, stddev_init_mk σ p d eps a⟩, fun x g p =>
    ⟨_, ⟨_, _⟩, stddev_update_mk σ g x.1 x.2 (some (mk σ p)) d eps a, fun _ _ _ h =>
      ⟨A.mul _ _ (Or.inr (A.rsqrt _ (A.add _ _ (Or.inl (A.sub _ _ (Or.inl (nan_moment A _ _ _ 1 h))))))), fun _ => nan_moment A _ _ _ 1 h⟩⟩⟩

theorem through_apply_every (n : ℤ) : NaNThrough true (applyEvery (α := α) n) := fun σ =>
  ⟨BitVec 32 × (ℕ → ℕ → α), fun x => ⟨x.1, mk σ x.2⟩, fun k i x => IsNaN (x.2 k i), fun p => ⟨⟨_, _⟩, applyEvery_init_mk σ p n⟩, fun x g p =>
    ⟨_, ⟨_, _⟩, applyEvery_update_mk σ g x.2 (some (mk σ p)) n x.1, fun k i _ h => by
      have e : IsNaN (boolNum (x.1.toInt.fmod n != 0) * x.2 k i + g k i) := A.add _ _ (h.symm.imp (fun h => A.mul _ _ (Or.inr h)) id)
      exact ⟨A.mul _ _ (Or.inr e), fun _ => e⟩⟩⟩

theorem through_memoryless (t : GT α) (s0 : t.State) (hinit : ∀ p, t.init p = .ok s0) (f : Spec → (ℕ → ℕ → α) → (ℕ → ℕ → α) → ℕ → ℕ → α)
    (hup : ∀ σ g p, t.update (mk σ g) s0 (some (mk σ p)) = .ok (mk σ (f σ g p), s0)) (hf : ∀ σ g p k i, InTree σ k i → IsNaN (g k i) → IsNaN (f σ g p k i)) : NaNThrough false t := fun σ =>
  ⟨Unit, fun _ => s0, fun _ _ _ => False, fun p => ⟨(), hinit _⟩, fun _ g p => ⟨f σ g p, (), hup σ g p, fun k i hk h => ⟨hf σ g p k i hk (h.resolve_right id), fun h => absurd h (by simp)⟩⟩⟩

theorem through_identity : NaNThrough false (identity (α := α)) :=
  through_memoryless A _ ⟨⟩ (fun _ => rfl) (fun _ g _ => g) (fun _ _ _ => rfl) (fun _ _ _ _ _ _ h => h)

theorem through_scale (c : α) : NaNThrough false (scale c) :=
  through_memoryless A _ ⟨⟩ (fun _ => rfl) (fun _ g _ => fun k i => c * g k i) (fun σ g _ => scale_update_mk σ g _ c _) (fun _ _ _ _ _ _ h => A.mul _ _ (Or.inr h))

theorem through_clip (d : α) : NaNThrough false (clip d) :=
  through_memoryless A _ ⟨⟩ (fun _ => rfl) (fun _ g _ => fun k i => JOps.min (JOps.max (g k i) (-d)) d) (fun σ g _ => clip_update_mk σ g _ d _)
    (fun _ _ _ _ _ _ h => A.min _ _ (A.max _ _ h))

theorem through_decay (w : α) : NaNThrough false (addDecayedWeights w) :=
  through_memoryless A _ ⟨⟩ (fun _ => rfl) (fun _ g p => fun k i => g k i + w * p k i) (fun σ g p => addDecayedWeights_update_mk σ g p w _) (fun _ _ _ _ _ _ h => A.add _ _ (Or.inl h))

theorem through_schedule (f : Schedule α) : NaNThrough false (scaleBySchedule f) := fun σ =>
  ⟨BitVec 32, fun c => ⟨c⟩, fun _ _ _ => False, fun p => ⟨_, rfl⟩, fun c g p => ⟨_, _, scaleBySchedule_update_mk σ g _ f c, fun _ _ _ h =>
    ⟨A.mul _ _ (Or.inr (h.resolve_right id)), fun h => absurd h (by simp)⟩⟩⟩

theorem through_lr (lr : LR α) : NaNThrough false (scaleByLearningRate lr) := by
  cases lr with
  | scalar x => exact through_scale A _
  | schedule f => exact through_schedule A (fun c => -f c)

theorem through_rss (a eps : α) : NaNThrough false (scaleByRss a eps) := fun σ =>
  ⟨ℕ → ℕ → α, fun m => ⟨mk σ m⟩, fun _ _ _ => False, fun p => ⟨_, rss_init_mk σ p a eps⟩, fun m g p =>
    ⟨_, _, rss_update_mk σ g m (some (mk σ p)) a eps, fun k i _ h => ⟨A.mul _ _ (Or.inr (h.resolve_right id)), fun h => absurd h (by simp)⟩⟩⟩

theorem through_trust (mn : α) : NaNThrough false (scaleByTrustRatio mn) :=
  through_memoryless A _ ⟨⟩ (fun _ => rfl)
    (fun σ g p k i => g k i * (fun (un pn : α) => if JOps.eqb pn 0 || JOps.eqb un 0 then 1 else pn / un) (safeNorm (Tensor.tens ((σ.leaves[k]?).getD []) (g k)) mn)
      (safeNorm (Tensor.tens ((σ.leaves[k]?).getD []) (p k)) mn))
    (fun σ g p => by
      refine (trustRatio_update_mk σ g p mn _).trans ?_
      refine congrArg (fun t => Except.ok (t, (⟨⟩ : EmptyState))) ?_
      refine PyTree.mapIdx_congr σ fun k sh hk => ?_
      simp only [trustRatioLeaf, Tensor.map_tens, hk, Option.getD_some])
    (fun _ _ _ _ _ _ h => A.mul _ _ (Or.inl h))

theorem through_momentum (m : Option α) (nes : Bool) : NaNThrough false (momentumOrIdentity m nes) := by
  cases m with
  | none => exact through_identity A
  | some x => exact (through_trace A x nes).weaken

theorem nan_sum (l : List α) (x : α) (hx : x ∈ l) (h : IsNaN x) : IsNaN l.sum := by
  induction l with
  | nil => exact absurd hx (by simp)
  | cons a l ih =>
    rw [List.sum_cons]
    rcases List.mem_cons.1 hx with rfl | hx
    · exact A.add _ _ (Or.inl h)
    · exact A.add _ _ (Or.inr (ih hx))

theorem nan_globalNorm (σ : Spec) (g : ℕ → ℕ → α) (k i : ℕ) (hk : InTree σ k i) (h : IsNaN (g k i)) : IsNaN (globalNorm (mk σ g)) := by
  obtain ⟨s, hs, hi⟩ := hk
  refine A.sqrt _ (nan_sum A _ (((Tensor.tens s (g k)).map fun y => y * y).sum) ?_ ?_)
  · rw [mk_leaves, List.mem_map]
    refine ⟨Tensor.tens s (g k), ?_, rfl⟩
    rw [List.mem_mapIdx]
    obtain ⟨hl, e⟩ := List.getElem?_eq_some_iff.1 hs
    exact ⟨k, hl, by rw [e]⟩
  · rw [Tensor.map_tens]
    refine nan_sum A _ (g k i * g k i) ?_ (A.mul _ _ (Or.inl h))
    simp only [Tensor.tens, List.mem_map, List.mem_range]
    exact ⟨i, hi, rfl⟩

theorem through_global (d : α) : NaNThrough false (clipByGlobalNorm d) :=
  through_memoryless A _ ⟨⟩ (fun _ => rfl) (fun σ g _ => fun k i => if JOps.lt (globalNorm (mk σ g)) d then g k i else g k i / globalNorm (mk σ g) * d)
    (fun σ g _ => clipByGlobalNorm_update_mk σ g _ d _) (fun σ g p k i _ h => by
      split_ifs
      · exact h
      · exact A.mul _ _ (Or.inl (A.div _ _ (Or.inl h))))

/-- **C152 (never again a number).** With momentum (any coefficient, zero included), Adam, AdamW, AdaBelief, RAdam, Yogi, Lamb and RMSProp, one NaN entry of one gradient makes this entry of
that update and of every later update NaN, whatever the later gradients are; so do debiased averaging and `apply_every`. -/
theorem C152_forever (lr : LR α) (b1 b2 eps er th wd x a : α) (m : Option α) (nes cen : Bool) (n : ℤ) :
    NaNOut true (sgd lr (some x) nes) ∧ NaNOut true (adam lr b1 b2 eps er) ∧ NaNOut true (adamw lr b1 b2 eps er wd) ∧ NaNOut true (adabelief lr b1 b2 eps) ∧
    NaNOut true (radam lr b1 b2 eps er th) ∧ NaNOut true (yogi lr b1 b2 eps) ∧ NaNOut true (lamb lr b1 b2 eps er wd) ∧ NaNOut true (rmsprop lr b1 eps a cen m nes) ∧
    NaNOut true (ema b1 true none) ∧ NaNOut true (applyEvery (α := α) n) := by
  have two : ∀ {t : GT α}, NaNThrough true t → NaNThrough true (chain [t, scaleByLearningRate lr]) := fun h => h.cons ((through_lr A lr).cons .nil)
  refine ⟨(two (through_trace A x nes)).out, (two (through_adam A b1 b2 eps er)).out, ((through_adam A b1 b2 eps er).cons ((through_decay A wd).cons ((through_lr A lr).cons .nil))).out, (two (through_belief A b1 b2 eps _)).out,
    (two (through_radam A b1 b2 eps er th)).out, (two (through_yogi A b1 b2 eps _ _)).out, ((through_adam A b1 b2 eps er).cons ((through_decay A wd).cons ((through_trust A 0).cons ((through_lr A lr).cons .nil)))).out, ?_,
    (through_ema A b1).out, (through_apply_every A n).out⟩
  cases cen
  · exact ((through_rms A b1 eps a).cons ((through_lr A lr).cons ((through_momentum A m nes).cons .nil))).out
  · exact ((through_stddev A b1 eps a).cons ((through_lr A lr).cons ((through_momentum A m nes).cons .nil))).out

/-- The parameters are NaN from the step after the first NaN gradient entry on. -/
def NaNParams (t : GT α) : Prop :=
  ∀ (σ : Spec) (grad : ℕ → Params α → Params α) (G : ℕ → (ℕ → ℕ → α) → ℕ → ℕ → α), (∀ n p, grad n (mk σ p) = mk σ (G n p)) → ∀ p0 : ℕ → ℕ → α,
    ∃ s0, t.init (mk σ p0) = .ok s0 ∧ ∃ (P : ℕ → ℕ → ℕ → α) (S : ℕ → t.State), (∀ n, trainLoop t grad n s0 (mk σ p0) = .ok (mk σ (P n), S n)) ∧
      ∀ k i, InTree σ k i → ∀ n m : ℕ, n < m → IsNaN (G n (P n) k i) → IsNaN (P m k i)

theorem NaNThrough.params {t : GT α} {b : Bool} (h : NaNThrough b t) : NaNParams t := by
  intro σ grad G hG p0
  obtain ⟨R, st, bad, h1, h2⟩ := h σ
  obtain ⟨r0, hr0⟩ := h1 p0
  choose u nx hu hbad using h2
  refine ⟨st r0, hr0, ?_⟩
  let z : ℕ → (ℕ → ℕ → α) × R := fun n => Nat.rec (p0, r0) (fun n x => (fun k i => x.1 k i + u x.2 (G n x.1) x.1 k i, nx x.2 (G n x.1) x.1)) n
  have hz : ∀ n, z (n + 1) = (fun k i => (z n).1 k i + u (z n).2 (G n (z n).1) (z n).1 k i, nx (z n).2 (G n (z n).1) (z n).1) := fun n => rfl
  refine ⟨fun n => (z n).1, fun n => st (z n).2, fun n => ?_, ?_⟩
  · induction n with
    | zero => rfl
    | succ n ih =>
      beta_reduce at ih ⊢
      rw [hz n]
      refine trainLoop_succ _ grad n _ _ _ _ _ _ _ ih (by rw [hG]; exact hu (z n).2 (G n (z n).1) (z n).1) (C06_apply_updates σ _ _)
  · intro k i hk n m hnm hg
    have first : IsNaN ((z (n + 1)).1 k i) := by
      rw [hz]
      exact A.add _ _ (Or.inr (hbad (z n).2 (G n (z n).1) (z n).1 k i hk (Or.inl hg)).1)
    obtain ⟨d, rfl⟩ := Nat.exists_eq_add_of_lt hnm
    induction d with
    | zero => exact first
    | succ d ih =>
      have := ih (by omega)
      have e := hz (n + d + 1)
      show IsNaN ((z (n + d + 1 + 1)).1 k i)
      rw [e]
      exact A.add _ _ (Or.inl this)

/-- **C152 (training).** In training, one NaN entry of a gradient makes the parameter NaN for ever, with every alias above and with plain sgd and adagrad, whose later updates may be
numbers again. -/
theorem C152_training (lr : LR α) (b1 b2 eps er th wd a : α) (m : Option α) (nes cen : Bool) :
    NaNParams (sgd lr m nes) ∧ NaNParams (adagrad lr a eps) ∧ NaNParams (adam lr b1 b2 eps er) ∧ NaNParams (adamw lr b1 b2 eps er wd) ∧ NaNParams (adabelief lr b1 b2 eps) ∧
    NaNParams (radam lr b1 b2 eps er th) ∧ NaNParams (yogi lr b1 b2 eps) ∧ NaNParams (lamb lr b1 b2 eps er wd) ∧ NaNParams (fromage a eps) ∧ NaNParams (rmsprop lr b1 eps a cen m nes) := by
  have two : ∀ {t : GT α} {b : Bool}, NaNThrough b t → NaNThrough b (chain [t, scaleByLearningRate lr]) := fun {t b} h => by
    have := h.cons ((through_lr A lr).cons .nil)
    simpa using this
  refine ⟨(two (through_momentum A m nes)).params A, (two (through_rss A a eps)).params A, (two (through_adam A b1 b2 eps er)).params A,
    ((through_adam A b1 b2 eps er).cons ((through_decay A wd).cons ((through_lr A lr).cons .nil))).params A, (two (through_belief A b1 b2 eps _)).params A,
    (two (through_radam A b1 b2 eps er th)).params A, (two (through_yogi A b1 b2 eps _ _)).params A, ((through_adam A b1 b2 eps er).cons ((through_decay A wd).cons ((through_trust A 0).cons ((through_lr A lr).cons .nil)))).params A,
    ((through_trust A eps).cons ((through_lr A _).cons ((through_decay A _).cons .nil))).params A, ?_⟩
  cases cen
  · exact ((through_rms A b1 eps a).cons ((through_lr A lr).cons ((through_momentum A m nes).cons .nil))).params A
  · exact ((through_stddev A b1 eps a).cons ((through_lr A lr).cons ((through_momentum A m nes).cons .nil))).params A

/-- **C152 (spreading).** `clip_by_global_norm` spreads a NaN entry to every entry of every leaf. -/
theorem C152_global_norm (d : α) (σ : Spec) (g : ℕ → ℕ → α) (s : (clipByGlobalNorm d).State) (pp : Option (Params α)) (k i : ℕ) (hk : InTree σ k i) (h : IsNaN (g k i)) :
    ∃ u, (clipByGlobalNorm d).update (mk σ g) s pp = .ok (mk σ u, s) ∧ ∀ l j, IsNaN (u l j) := by
  refine ⟨_, clipByGlobalNorm_update_mk σ g pp d s, fun l j => ?_⟩
  have hn := nan_globalNorm A σ g k i hk h
  rw [A.lt _ _ (Or.inl hn)]
  exact A.mul _ _ (Or.inl (A.div _ _ (Or.inr hn)))

omit A in
/-- **C152 (prevention).** With `zero_nans` first in a chain the rest of it never sees a NaN entry: the updates are those of the rest on the gradients with zero in place of NaN. -/
theorem C152_zero_nans (ts : List (GT α)) (p : Params α) (σ : Spec) (g : ℕ → ℕ → ℕ → α) (pp : ℕ → Option (Params α)) (N : ℕ) (us : List (Params α)) :
    (chain (zeroNans :: ts)).outs p (hist σ g pp N) = .ok us ↔
      (chain ts).outs p (hist σ (fun n k i => if JOps.isnan (g n k i) then 0 else g n k i) pp N) = .ok us := by
  have hz : (zeroNans (α := α)).outs p (hist σ g pp N) = .ok ((List.range N).map fun n => mk σ (fun k i => if JOps.isnan (g n k i) then 0 else g n k i)) := by
    obtain ⟨s, hs, -⟩ := C10_init p
    refine outs_hist _ p σ g pp N (fun n => if n = 0 then s else ⟨(mk σ (g (n - 1))).map (fun x => x.data.any JOps.isnan)⟩) _ hs (fun n _ => ?_)
    refine (zeroNans_update_mk σ (g n) (pp n) _).trans ?_
    simp
  rw [zip_hist] at hz ⊢
  rw [outs_chain_cons _ ts p _ _ (by simp)]
  constructor
  · rintro ⟨vs, h1, h2⟩
    rw [hz] at h1
    cases h1
    rw [zip_hist]
    exact h2
  · intro h
    rw [zip_hist] at h
    exact ⟨_, hz, h⟩

end

theorem propagates_x : Propagates XReal := by
  have key : ∀ x : XReal, IsNaN x ↔ x = .nan := fun x => by
    cases x with
    | nan => exact ⟨fun _ => rfl, fun _ => rfl⟩
    | _ => exact ⟨fun h => absurd h Bool.false_ne_true, fun h => by cases h⟩
  refine ⟨fun a b h => ?_, fun a b h => ?_, fun a b h => ?_, fun a b h => ?_, fun a b h => ?_, fun a b h => ?_, fun a h => ?_, fun a h => ?_, fun a b h => ?_⟩
  all_goals simp only [key] at h ⊢
  · rcases h with rfl | rfl
    · rfl
    · cases a <;> rfl
  · rcases h with rfl | rfl
    · rfl
    · cases a <;> rfl
  · rcases h with rfl | rfl
    · rfl
    · cases a <;> rfl
  · rcases h with rfl | rfl
    · rfl
    · cases a <;> rfl
  · subst h; rfl
  · subst h; rfl
  · subst h; rfl
  · subst h; rfl
  · rcases h with rfl | rfl
    · rfl
    · cases a <;> rfl

theorem propagates_fp (F : Format) : Propagates (FP F) := by
  have hof : ∀ x : XReal, IsNaN x → IsNaN (FP.of F x) := by
    intro x h
    cases x with
    | nan => exact h
    | _ => exact absurd h Bool.false_ne_true
  have A := propagates_x
  refine ⟨fun a b h => hof _ (A.add _ _ h), fun a b h => hof _ (A.sub _ _ h), fun a b h => hof _ (A.mul _ _ h), fun a b h => hof _ (A.div _ _ h), fun a b h => hof _ (A.max _ _ h),
    fun a b h => hof _ (A.min _ _ h), fun a h => hof _ (A.sqrt _ h), fun a h => hof _ ?_, fun a b h => A.lt _ _ h⟩
  have e : a.1 = XReal.nan := by
    have h' : XReal.isnan a.1 = true := h
    cases hx : a.1 with
    | nan => rfl
    | _ => rw [hx] at h'; exact absurd h' Bool.false_ne_true
  rw [e]
  rfl

/-- **C152.** The extended reals and every floating point format are such arithmetics. -/
theorem C152_arithmetics : Propagates XReal ∧ ∀ F : Format, Propagates (FP F) := ⟨propagates_x, propagates_fp⟩

/-- **C152 (adagrad goes silent).** The accumulator of `scale_by_rss` keeps the NaN, but `jnp.where(sum > 0, …, 0)` hides it: after the NaN update the updates of this entry are exactly zero
for ever, whatever the finite gradients. -/
theorem C152_adagrad {F : Format} (a eps : FP F) (σ : Spec) (p0 : ℕ → ℕ → FP F) (g : ℕ → ℕ → ℕ → FP F) (pp : ℕ → Option (Params (FP F))) (N : ℕ) :
    ∃ U : ℕ → ℕ → ℕ → FP F, (scaleByRss a eps).outs (mk σ p0) (hist σ g pp N) = .ok ((List.range N).map fun n => mk σ (U n)) ∧
      ∀ k i, ∀ n m : ℕ, n < m → m < N → IsNaN (g n k i) → IsNaN (U n k i) ∧ (FP.IsFin (g m k i) → U m k i = 0) := by
  have A := propagates_fp F
  let acc : ℕ → ℕ → ℕ → FP F := fun n => Nat.rec (fun _ _ => a) (fun n x k i => g n k i * g n k i + x k i) n
  have hacc : ∀ n k i, acc (n + 1) k i = g n k i * g n k i + acc n k i := fun _ _ _ => rfl
  refine ⟨fun n k i => invSqrtPos eps (acc (n + 1) k i) * g n k i, ?_, fun k i n m hnm hm h => ⟨A.mul _ _ (Or.inr h), fun hf => ?_⟩⟩
  · exact outs_hist (scaleByRss a eps) (mk σ p0) σ g pp N (fun n => ⟨mk σ (acc n)⟩) _ (rss_init_mk σ p0 a eps) (fun n _ => rss_update_mk σ (g n) (acc n) (pp n) a eps)
  · have hn : ∀ d, IsNaN (acc (n + d + 1) k i) := by
      intro d
      induction d with
      | zero => exact A.add _ _ (Or.inl (A.mul _ _ (Or.inl h)))
      | succ d ih => exact A.add _ _ (Or.inr ih)
    obtain ⟨d, rfl⟩ := Nat.exists_eq_add_of_le hnm.le
    show (if JOps.lt 0 (acc (n + d + 1) k i) then _ else (0 : FP F)) * _ = 0
    rw [A.lt _ _ (Or.inr (hn d))]
    exact FP.zero_mul hf

/-- **C152.** `momentum=0` is not `momentum=None` here: after one NaN gradient, sgd without momentum returns numbers again, with momentum zero it does not. -/
theorem C152_momentum_zero (σ : Spec) (p0 : ℕ → ℕ → XReal) (g pp : ℕ → ℕ → ℕ → XReal) (N : ℕ) (lr : ℝ) :
    (∃ U : ℕ → ℕ → ℕ → XReal, (sgd (.scalar (XReal.fin lr)) none false).outs (mk σ p0) (hist σ g (fun n => some (mk σ (pp n))) N) = .ok ((List.range N).map fun n => mk σ (U n)) ∧
      ∀ n k i, U n k i = XReal.fin (-lr) * g n k i) ∧
    NaNOut true (sgd (.scalar (XReal.fin lr)) (some 0) false) := by
  refine ⟨⟨fun n k i => XReal.fin (-lr) * g n k i, ?_, fun _ _ _ => rfl⟩, ?_⟩
  · have hid : (identity (α := XReal)).outs (mk σ p0) (hist σ g (fun n => some (mk σ (pp n))) N) = .ok ((List.range N).map fun n => mk σ (g n)) :=
      outs_hist identity (mk σ p0) σ g _ N (fun _ => ⟨⟩) _ rfl (fun _ _ => rfl)
    exact outs_chain_hist_lr _ _ _ σ g g _ N hid
  · have := ((through_trace propagates_x (0 : XReal) false).cons ((through_lr propagates_x (.scalar (XReal.fin lr))).cons .nil)).out
    exact this

/-- the hypotheses are met: one NaN entry in the second of five gradients; all updates of Adam from the second on are NaN there -/
example (F : Format) (lr : LR (FP F)) (b1 b2 eps er : FP F) (x : FP F) (pp : ℕ → ℕ → ℕ → FP F) :
    ∃ U : ℕ → ℕ → ℕ → FP F, (adam lr b1 b2 eps er).outs (mk (.node .list [.leaf [2], .leaf [3]]) (pp 0))
        (hist (.node .list [.leaf [2], .leaf [3]]) (fun n k i => if n = 1 ∧ k = 1 ∧ i = 2 then FP.of F XReal.nan else x) (fun n => some (mk (.node .list [.leaf [2], .leaf [3]]) (pp n))) 5) =
          .ok ((List.range 5).map fun n => mk (.node .list [.leaf [2], .leaf [3]]) (U n)) ∧
      IsNaN (U 1 1 2) ∧ IsNaN (U 2 1 2) ∧ IsNaN (U 3 1 2) ∧ IsNaN (U 4 1 2) := by
  obtain ⟨U, h1, h2⟩ := (C152_forever (propagates_fp F) lr b1 b2 eps er 0 0 0 0 none false false 1).2.1 (.node .list [.leaf [2], .leaf [3]]) (pp 0)
    (fun n k i => if n = 1 ∧ k = 1 ∧ i = 2 then FP.of F XReal.nan else x) pp 5
  have hn : IsNaN (FP.of F XReal.nan) := rfl
  have key := fun m h => h2 1 2 ⟨[3], rfl, by decide⟩ 1 m h
  exact ⟨U, h1, key 1 (by decide) (by decide) (Or.inl rfl) (by simpa using hn), key 2 (by decide) (by decide) (Or.inl rfl) (by simpa using hn),
    key 3 (by decide) (by decide) (Or.inl rfl) (by simpa using hn), key 4 (by decide) (by decide) (Or.inl rfl) (by simpa using hn)⟩

end Optax
