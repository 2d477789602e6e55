import Verif.Lemmas.Counter

/-!
# C05: updates keep structure and shapes; C37: params-required / params-independence

Everything here is for an arbitrary number type `α` with arbitrary operations (so for float32 with
NaN and infinities, too).
-/

set_option linter.unusedSectionVars false
set_option linter.unusedSimpArgs false

namespace Optax

/-- **Specification of C05.** Initialised with params of structure and shapes `σ` and called `N` times
with gradients and params of structure and shapes `σ`, the transformation never raises and every
returned update has structure and shapes `σ`. -/
def ShapeSafe {α : Type} (t : GT α) : Prop :=
  ∀ (σ : Spec) (N : ℕ) (p0 : ℕ → ℕ → α) (g p : ℕ → ℕ → ℕ → α),
    ∃ U : ℕ → ℕ → ℕ → α,
      t.outs (mk σ p0) (hist σ g (fun n => some (mk σ (p n))) N) =
        .ok ((List.range N).map (fun n => mk σ (U n)))

/-- As `ShapeSafe`, but the calls pass no params. -/
def ShapeSafeNoParams {α : Type} (t : GT α) : Prop :=
  ∀ (σ : Spec) (N : ℕ) (p0 : ℕ → ℕ → α) (g : ℕ → ℕ → ℕ → α),
    ∃ U : ℕ → ℕ → ℕ → α,
      t.outs (mk σ p0) (hist σ g (fun _ => none) N) =
        .ok ((List.range N).map (fun n => mk σ (U n)))

/-- The spec in terms of arbitrary well-formed trees: if `t` is shape-safe, then for every params
tree and every list of gradient/params trees of the same structure and shapes, the run
succeeds and all outputs are well-formed with that structure and shapes. -/
theorem ShapeSafe.trees {α : Type} [Zero α] {t : GT α} (ht : ShapeSafe t) (p0 : Params α)
    (h : List (Params α × Params α)) (hp0 : WF p0)
    (hw : ∀ c ∈ h, WF c.1 ∧ WF c.2 ∧ spec c.1 = spec p0 ∧ spec c.2 = spec p0) :
    ∃ us, t.outs p0 (h.map (fun c => (c.1, some c.2))) = .ok us ∧ us.length = h.length ∧
      ∀ u ∈ us, WF u ∧ spec u = spec p0 := by
  obtain ⟨U, hU⟩ := ht (spec p0) h.length (coord p0)
    (fun n => coord ((h[n]?.map Prod.fst).getD (.node .none_ [])))
    (fun n => coord ((h[n]?.map Prod.snd).getD (.node .none_ [])))
  have hh : hist (spec p0) (fun n => coord ((h[n]?.map Prod.fst).getD (.node .none_ [])))
      (fun n => some (mk (spec p0) (coord ((h[n]?.map Prod.snd).getD (.node .none_ [])))))
      h.length = h.map (fun c => (c.1, some c.2)) := by
    apply List.ext_getElem
    · simp
    · intro n h1 h2
      have hn : n < h.length := by simpa using h2
      have hc := hw h[n] (List.getElem_mem hn)
      simp only [hist, List.getElem_map, List.getElem_range, List.getElem?_eq_getElem hn,
        Option.map_some, Option.getD_some]
      have e1 : mk (spec p0) (coord h[n].1) = h[n].1 := by
        rw [← hc.2.2.1]; exact (eq_mk_of_WF _ hc.1).symm
      have e2 : mk (spec p0) (coord h[n].2) = h[n].2 := by
        rw [← hc.2.2.2]; exact (eq_mk_of_WF _ hc.2.1).symm
      rw [e1, e2]
  rw [hh, ← eq_mk_of_WF p0 hp0] at hU
  refine ⟨_, hU, by simp, ?_⟩
  intro u hu
  rw [List.mem_map] at hu
  obtain ⟨n, _, rfl⟩ := hu
  exact ⟨WF_mk _ _, spec_mk _ _⟩

/-- Invariant form, closed under `chain`.  `Q` restricts the params passed to `update`. -/
def Preserves {α : Type} (Q : Spec → Option (Params α) → Prop) (t : GT α) : Prop :=
  ∀ σ : Spec, ∃ I : t.State → Prop,
    (∀ p, ∃ s, t.init (mk σ p) = .ok s ∧ I s) ∧
    (∀ g s pp, I s → Q σ pp → ∃ u s', t.update (mk σ g) s pp = .ok (mk σ u, s') ∧ I s')

/-- params of the right structure are passed -/
def WithParams {α : Type} (σ : Spec) (pp : Option (Params α)) : Prop := ∃ p, pp = some (mk σ p)
/-- anything may be passed -/
def AnyParams {α : Type} (_ : Spec) (_ : Option (Params α)) : Prop := True

theorem Preserves.mono {α : Type} {Q Q' : Spec → Option (Params α) → Prop} {t : GT α}
    (h : Preserves Q t) (hq : ∀ σ pp, Q' σ pp → Q σ pp) : Preserves Q' t := by
  intro σ
  obtain ⟨I, h1, h2⟩ := h σ
  exact ⟨I, h1, fun g s pp hi hp => h2 g s pp hi (hq σ pp hp)⟩

theorem Preserves.any {α : Type} {Q : Spec → Option (Params α) → Prop} {t : GT α}
    (h : Preserves AnyParams t) : Preserves Q t := h.mono (fun _ _ _ => trivial)

theorem Preserves.outs {α : Type} {Q : Spec → Option (Params α) → Prop} {t : GT α}
    (h : Preserves Q t) (σ : Spec) (N : ℕ) (p0 : ℕ → ℕ → α) (g : ℕ → ℕ → ℕ → α)
    (pp : ℕ → Option (Params α)) (hpp : ∀ n, Q σ (pp n)) :
    ∃ U : ℕ → ℕ → ℕ → α, t.outs (mk σ p0) (hist σ g pp N) =
        .ok ((List.range N).map (fun n => mk σ (U n))) := by
  obtain ⟨I, h1, h2⟩ := h σ
  obtain ⟨s0, hs0, hI0⟩ := h1 p0
  choose u s' hu hI' using fun (g : ℕ → ℕ → α) (x : {s : t.State × Option (Params α) //
    I s.1 ∧ Q σ s.2}) => h2 g x.1.1 x.1.2 x.2.1 x.2.2
  let S : ℕ → {s : t.State // I s} := fun n => Nat.rec ⟨s0, hI0⟩
    (fun n s => ⟨s' (g n) ⟨(s.1, pp n), s.2, hpp n⟩, hI' (g n) ⟨(s.1, pp n), s.2, hpp n⟩⟩) n
  refine ⟨fun n => u (g n) ⟨((S n).1, pp n), (S n).2, hpp n⟩, ?_⟩
  apply outs_hist t (mk σ p0) σ g pp N (fun n => (S n).1)
    (fun n => mk σ (u (g n) ⟨((S n).1, pp n), (S n).2, hpp n⟩)) hs0
  intro n _
  exact hu (g n) ⟨((S n).1, pp n), (S n).2, hpp n⟩

theorem Preserves.shapeSafe {α : Type} {t : GT α} (h : Preserves WithParams t) : ShapeSafe t :=
  fun σ N p0 g p => h.outs σ N p0 g _ (fun n => ⟨p n, rfl⟩)

theorem Preserves.shapeSafeNoParams {α : Type} {t : GT α} (h : Preserves AnyParams t) :
    ShapeSafeNoParams t :=
  fun σ N p0 g => h.outs σ N p0 g _ (fun _ => trivial)

/-- chains of structure-preserving transformations preserve structure -/
theorem Preserves.chain {α : Type} {Q : Spec → Option (Params α) → Prop} (ts : List (GT α))
    (h : ∀ t ∈ ts, Preserves Q t) : Preserves Q (chain ts) := by
  intro σ
  induction ts with
  | nil =>
    refine ⟨fun s => s = (0 : ℕ), fun p => ⟨(0 : ℕ), rfl, rfl⟩, ?_⟩
    rintro g s pp rfl _
    exact ⟨g, (0 : ℕ), rfl, rfl⟩
  | cons t ts ih =>
    obtain ⟨I, h1, h2⟩ := h t (by simp) σ
    obtain ⟨J, h3, h4⟩ := ih (fun t ht => h t (by simp [ht]))
    refine ⟨fun s => ∃ a r, s = some (a, r) ∧ I a ∧ J r ∧ ChainState.length ts r = ts.length, ?_, ?_⟩
    · intro p
      obtain ⟨a, ha, hI⟩ := h1 p
      obtain ⟨r, hr, hJ⟩ := h3 p
      refine ⟨some (a, r), ?_, a, r, rfl, hI, hJ, ?_⟩
      · show chainInit (t :: ts) (mk σ p) = _
        simp only [chainInit, ha, Res.ok_bind]
        have hr' : chainInit ts (mk σ p) = .ok r := hr
        rw [hr']; rfl
      · exact chain_length_init ts _ r hr
    · rintro g s pp ⟨a, r, rfl, hI, hJ, hl⟩ hq
      obtain ⟨u, a', hu, hI'⟩ := h2 g a pp hI hq
      obtain ⟨u', r', hu', hJ'⟩ := h4 u r pp hJ hq
      have e : chainLoop ts (mk σ u) r pp = .ok (mk σ u', r') := by
        simpa [Optax.chain, hl] using hu'
      refine ⟨u', some (a', r'), ?_, a', r', rfl, hI', hJ', ?_⟩
      · simp only [Optax.chain, ChainState.length, List.length_cons, hl, Nat.add_comm, ne_eq,
          not_true_eq_false, if_false, chainLoop, hu, Res.ok_bind, e]
        rfl
      · exact chainLoop_length ts _ r pp hl e

section
variable {α : Type} [Zero α] [One α] [Add α] [Sub α] [Mul α] [Div α] [Neg α] [JOps α]

theorem preserves_identity : Preserves (α := α) AnyParams identity := fun _ =>
  ⟨fun _ => True, fun _ => ⟨⟨⟩, rfl, trivial⟩, fun g s _ _ _ => ⟨g, s, rfl, trivial⟩⟩

theorem preserves_stateless {Q : Spec → Option (Params α) → Prop}
    {f : Params α → Option (Params α) → Res (Params α)}
    (h : ∀ σ g pp, Q σ pp → ∃ u, f (mk σ g) pp = .ok (mk σ u)) : Preserves Q (stateless f) := by
  intro σ
  refine ⟨fun _ => True, fun _ => ⟨⟨⟩, rfl, trivial⟩, ?_⟩
  intro g s pp _ hq
  obtain ⟨u, hu⟩ := h σ g pp hq
  exact ⟨u, s, by simp [stateless, hu], trivial⟩

theorem preserves_trace (d : α) (nes : Bool) (acc : Option (α → α)) :
    Preserves AnyParams (trace d nes acc) := fun σ =>
  ⟨fun s => ∃ m, s = ⟨mk σ m⟩, fun p => ⟨_, trace_init_mk σ p d nes acc, _, rfl⟩, by
    rintro g _ pp ⟨m, rfl⟩ _
    exact ⟨_, _, trace_update_mk σ g m pp d nes acc, _, rfl⟩⟩

theorem preserves_ema (d : α) (deb : Bool) (acc : Option (α → α)) :
    Preserves AnyParams (ema d deb acc) := fun σ =>
  ⟨fun s => ∃ c m, s = ⟨c, mk σ m⟩, fun p => ⟨_, ema_init_mk σ p d deb acc, _, _, rfl⟩, by
    rintro g _ pp ⟨c, m, rfl⟩ _
    exact ⟨_, _, ema_update_mk σ g m pp d deb acc c, _, _, rfl⟩⟩

theorem preserves_rss (a eps : α) : Preserves AnyParams (scaleByRss a eps) := fun σ =>
  ⟨fun s => ∃ m, s = ⟨mk σ m⟩, fun p => ⟨_, rss_init_mk σ p a eps, _, rfl⟩, by
    rintro g _ pp ⟨m, rfl⟩ _
    exact ⟨_, _, rss_update_mk σ g m pp a eps, _, rfl⟩⟩

theorem preserves_rms (d eps a : α) : Preserves AnyParams (scaleByRms d eps a) := fun σ =>
  ⟨fun s => ∃ m, s = ⟨mk σ m⟩, fun p => ⟨_, rms_init_mk σ p d eps a, _, rfl⟩, by
    rintro g _ pp ⟨m, rfl⟩ _
    exact ⟨_, _, rms_update_mk σ g m pp d eps a, _, rfl⟩⟩

theorem preserves_stddev (d eps a : α) : Preserves AnyParams (scaleByStddev d eps a) := fun σ =>
  ⟨fun s => ∃ m n, s = ⟨mk σ m, mk σ n⟩, fun p => ⟨_, stddev_init_mk σ p d eps a, _, _, rfl⟩, by
    rintro g _ pp ⟨m, n, rfl⟩ _
    exact ⟨_, _, stddev_update_mk σ g m n pp d eps a, _, _, rfl⟩⟩

theorem preserves_adam (b1 b2 eps er : α) : Preserves AnyParams (scaleByAdam b1 b2 eps er) := fun σ =>
  ⟨fun s => ∃ c m n, s = ⟨c, mk σ m, mk σ n⟩,
    fun p => ⟨_, adam_init_mk σ p b1 b2 eps er, _, _, _, rfl⟩, by
    rintro g _ pp ⟨c, m, n, rfl⟩ _
    exact ⟨_, _, adam_update_mk σ g m n pp b1 b2 eps er c, _, _, _, rfl⟩⟩

theorem preserves_belief (b1 b2 eps er : α) :
    Preserves AnyParams (scaleByBelief b1 b2 eps er) := fun σ =>
  ⟨fun s => ∃ c m n, s = ⟨c, mk σ m, mk σ n⟩,
    fun p => ⟨_, belief_init_mk σ p b1 b2 eps er, _, _, _, rfl⟩, by
    rintro g _ pp ⟨c, m, n, rfl⟩ _
    exact ⟨_, _, belief_update_mk σ g m n pp b1 b2 eps er c, _, _, _, rfl⟩⟩

theorem preserves_yogi (b1 b2 eps er a : α) :
    Preserves AnyParams (scaleByYogi b1 b2 eps er a) := fun σ =>
  ⟨fun s => ∃ c m n, s = ⟨c, mk σ m, mk σ n⟩,
    fun p => ⟨_, yogi_init_mk σ p b1 b2 eps er a, _, _, _, rfl⟩, by
    rintro g _ pp ⟨c, m, n, rfl⟩ _
    exact ⟨_, _, yogi_update_mk σ g m n pp b1 b2 eps er a c, _, _, _, rfl⟩⟩

theorem preserves_radam (b1 b2 eps er th : α) :
    Preserves AnyParams (scaleByRadam b1 b2 eps er th) := fun σ =>
  ⟨fun s => ∃ c m n, s = ⟨c, mk σ m, mk σ n⟩,
    fun p => ⟨_, radam_init_mk σ p b1 b2 eps er th, _, _, _, rfl⟩, by
    rintro g _ pp ⟨c, m, n, rfl⟩ _
    exact ⟨_, _, radam_update_mk σ g m n pp b1 b2 eps er th c, _, _, _, rfl⟩⟩

theorem preserves_scale (c : α) : Preserves AnyParams (scale c) :=
  preserves_stateless (fun σ g _ _ => ⟨_, by rw [tmap_mk]⟩)

theorem preserves_schedule (f : Schedule α) : Preserves AnyParams (scaleBySchedule f) := fun σ =>
  ⟨fun _ => True, fun p => ⟨⟨0#32⟩, rfl, trivial⟩, by
    rintro g s pp _ _
    exact ⟨_, _, scaleBySchedule_update_mk σ g pp f s.count, trivial⟩⟩

theorem preserves_addDecayedWeights (w : α) : Preserves WithParams (addDecayedWeights w) :=
  preserves_stateless (by
    rintro σ g _ ⟨p, rfl⟩
    exact ⟨_, by simp only []; rw [tzip_mk]⟩)

theorem preserves_trustRatio (mn : α) : Preserves WithParams (scaleByTrustRatio mn) :=
  preserves_stateless (by
    rintro σ g _ ⟨p, rfl⟩
    refine ⟨fun k i => g k i * (if JOps.eqb (safeNorm (Tensor.tens ((σ.leaves[k]?).getD []) (p k)) mn) 0 ||
        JOps.eqb (safeNorm (Tensor.tens ((σ.leaves[k]?).getD []) (g k)) mn) 0 then 1 else
        safeNorm (Tensor.tens ((σ.leaves[k]?).getD []) (p k)) mn /
        safeNorm (Tensor.tens ((σ.leaves[k]?).getD []) (g k)) mn), ?_⟩
    unfold mk
    apply PyTree.zipM_mapIdx
    intro k s hk
    simp [trustRatioLeaf, hk])

theorem preserves_applyEvery (k : ℤ) : Preserves (α := α) AnyParams (applyEvery k) := fun σ =>
  ⟨fun s => ∃ c m, s = ⟨c, mk σ m⟩, fun p => ⟨_, applyEvery_init_mk σ p k, _, _, rfl⟩, by
    rintro g _ pp ⟨c, m, rfl⟩ _
    exact ⟨_, _, applyEvery_update_mk σ g m pp k c, _, _, rfl⟩⟩

theorem preserves_clip (d : α) : Preserves AnyParams (clip d) :=
  preserves_stateless (fun σ g _ _ => ⟨_, by rw [tmap_mk]⟩)

theorem preserves_clipByGlobalNorm (d : α) : Preserves AnyParams (clipByGlobalNorm d) :=
  preserves_stateless (fun σ g _ _ => ⟨_, by simp only []; rw [tmap_mk]⟩)

theorem preserves_keepParamsNonnegative :
    Preserves (α := α) WithParams keepParamsNonnegative :=
  preserves_stateless (by
    rintro σ g _ ⟨p, rfl⟩
    exact ⟨_, by simp only []; rw [tzip_mk]⟩)

theorem preserves_zeroNans : Preserves (α := α) AnyParams zeroNans := fun σ =>
  ⟨fun _ => True, fun p => ⟨_, rfl, trivial⟩, by
    rintro g s pp _ _
    exact ⟨_, _, zeroNans_update_mk σ g pp s, trivial⟩⟩

/-! ### the property, transformation by transformation -/

/-- **C05** `identity` -/
theorem C05_identity : ShapeSafe (α := α) identity ∧ ShapeSafeNoParams (α := α) identity :=
  ⟨preserves_identity.any.shapeSafe, preserves_identity.shapeSafeNoParams⟩
/-- **C05** `trace` -/
theorem C05_trace (d : α) (nes : Bool) (acc : Option (α → α)) :
    ShapeSafe (trace d nes acc) ∧ ShapeSafeNoParams (trace d nes acc) :=
  ⟨(preserves_trace d nes acc).any.shapeSafe, (preserves_trace d nes acc).shapeSafeNoParams⟩
/-- **C05** `ema` -/
theorem C05_ema (d : α) (deb : Bool) (acc : Option (α → α)) :
    ShapeSafe (ema d deb acc) ∧ ShapeSafeNoParams (ema d deb acc) :=
  ⟨(preserves_ema d deb acc).any.shapeSafe, (preserves_ema d deb acc).shapeSafeNoParams⟩
/-- **C05** `scale_by_rss` -/
theorem C05_rss (a eps : α) : ShapeSafe (scaleByRss a eps) ∧ ShapeSafeNoParams (scaleByRss a eps) :=
  ⟨(preserves_rss a eps).any.shapeSafe, (preserves_rss a eps).shapeSafeNoParams⟩
/-- **C05** `scale_by_rms` -/
theorem C05_rms (d eps a : α) :
    ShapeSafe (scaleByRms d eps a) ∧ ShapeSafeNoParams (scaleByRms d eps a) :=
  ⟨(preserves_rms d eps a).any.shapeSafe, (preserves_rms d eps a).shapeSafeNoParams⟩
/-- **C05** `scale_by_stddev` -/
theorem C05_stddev (d eps a : α) :
    ShapeSafe (scaleByStddev d eps a) ∧ ShapeSafeNoParams (scaleByStddev d eps a) :=
  ⟨(preserves_stddev d eps a).any.shapeSafe, (preserves_stddev d eps a).shapeSafeNoParams⟩
/-- **C05** `scale_by_adam` -/
theorem C05_adam (b1 b2 eps er : α) :
    ShapeSafe (scaleByAdam b1 b2 eps er) ∧ ShapeSafeNoParams (scaleByAdam b1 b2 eps er) :=
  ⟨(preserves_adam b1 b2 eps er).any.shapeSafe, (preserves_adam b1 b2 eps er).shapeSafeNoParams⟩
/-- **C05** `scale_by_belief` -/
theorem C05_belief (b1 b2 eps er : α) :
    ShapeSafe (scaleByBelief b1 b2 eps er) ∧ ShapeSafeNoParams (scaleByBelief b1 b2 eps er) :=
  ⟨(preserves_belief b1 b2 eps er).any.shapeSafe, (preserves_belief b1 b2 eps er).shapeSafeNoParams⟩
/-- **C05** `scale_by_yogi` -/
theorem C05_yogi (b1 b2 eps er a : α) :
    ShapeSafe (scaleByYogi b1 b2 eps er a) ∧ ShapeSafeNoParams (scaleByYogi b1 b2 eps er a) :=
  ⟨(preserves_yogi b1 b2 eps er a).any.shapeSafe, (preserves_yogi b1 b2 eps er a).shapeSafeNoParams⟩
/-- **C05** `scale_by_radam` -/
theorem C05_radam (b1 b2 eps er th : α) :
    ShapeSafe (scaleByRadam b1 b2 eps er th) ∧ ShapeSafeNoParams (scaleByRadam b1 b2 eps er th) :=
  ⟨(preserves_radam b1 b2 eps er th).any.shapeSafe,
    (preserves_radam b1 b2 eps er th).shapeSafeNoParams⟩
/-- **C05** `scale` -/
theorem C05_scale (c : α) : ShapeSafe (scale c) ∧ ShapeSafeNoParams (scale c) :=
  ⟨(preserves_scale c).any.shapeSafe, (preserves_scale c).shapeSafeNoParams⟩
/-- **C05** `scale_by_schedule` -/
theorem C05_schedule (f : Schedule α) :
    ShapeSafe (scaleBySchedule f) ∧ ShapeSafeNoParams (scaleBySchedule f) :=
  ⟨(preserves_schedule f).any.shapeSafe, (preserves_schedule f).shapeSafeNoParams⟩
/-- **C05** `add_decayed_weights` -/
theorem C05_add_decayed_weights (w : α) : ShapeSafe (addDecayedWeights w) :=
  (preserves_addDecayedWeights w).shapeSafe
/-- **C05** `scale_by_trust_ratio` -/
theorem C05_trust_ratio (mn : α) : ShapeSafe (scaleByTrustRatio mn) :=
  (preserves_trustRatio mn).shapeSafe
/-- **C05** `apply_every` -/
theorem C05_apply_every (k : ℤ) :
    ShapeSafe (α := α) (applyEvery k) ∧ ShapeSafeNoParams (α := α) (applyEvery k) :=
  ⟨(preserves_applyEvery k).any.shapeSafe, (preserves_applyEvery k).shapeSafeNoParams⟩
/-- **C05** `clip` -/
theorem C05_clip (d : α) : ShapeSafe (clip d) ∧ ShapeSafeNoParams (clip d) :=
  ⟨(preserves_clip d).any.shapeSafe, (preserves_clip d).shapeSafeNoParams⟩
/-- **C05** `clip_by_global_norm` -/
theorem C05_clip_by_global_norm (d : α) :
    ShapeSafe (clipByGlobalNorm d) ∧ ShapeSafeNoParams (clipByGlobalNorm d) :=
  ⟨(preserves_clipByGlobalNorm d).any.shapeSafe, (preserves_clipByGlobalNorm d).shapeSafeNoParams⟩
/-- **C05** `keep_params_nonnegative` -/
theorem C05_keep_params_nonnegative : ShapeSafe (α := α) keepParamsNonnegative :=
  preserves_keepParamsNonnegative.shapeSafe
/-- **C05** `zero_nans` -/
theorem C05_zero_nans : ShapeSafe (α := α) zeroNans ∧ ShapeSafeNoParams (α := α) zeroNans :=
  ⟨preserves_zeroNans.any.shapeSafe, preserves_zeroNans.shapeSafeNoParams⟩

end
end Optax
