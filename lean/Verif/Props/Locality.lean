import Verif.Props.Flatten
import Verif.Model.Alias

/-!
# C73: entrywise transformations treat every coordinate on its own

For every entrywise transformation (any chain of the basic ones), over every number type, the tree an update belongs to is
irrelevant: coordinates can be selected, repeated, permuted and laid out in another structure before or after the
update, with the same result. In particular every coordinate of the updates is what a separate scalar optimiser would have
computed from that coordinate's history alone.
-/

set_option linter.unusedSectionVars false
set_option linter.unusedSimpArgs false

namespace Optax

variable {α : Type} [Zero α]

/-- the family `w` read through the map of coordinates `φ` -/
def reindex {β : Type} (φ : ℕ → ℕ → ℕ × ℕ) (w : ℕ → ℕ → β) : ℕ → ℕ → β := fun k i => w (φ k i).1 (φ k i).2

/-- related results of one step: the updates' entries correspond under `φ` (or the same error), related states -/
def ReStep (σ τ : Spec) (φ : ℕ → ℕ → ℕ × ℕ) {S : Type} (R : S → S → Prop) (a b : Res (Params α × S)) : Prop :=
  Res.Rel (fun a b => (∃ u, a.1 = mk σ (reindex φ u) ∧ b.1 = mk τ u) ∧ R a.2 b.2) a b

/-- Proof principle: the transformation commutes with reading coordinates through any `φ`. -/
def Reindexable (t : GT α) : Prop :=
  ∀ (σ τ : Spec) (φ : ℕ → ℕ → ℕ × ℕ), ∃ R : t.State → t.State → Prop,
    (∀ v, Res.Rel R (t.init (mk σ (reindex φ v))) (t.init (mk τ v))) ∧
    ∀ g s s' (pp : Option (ℕ → ℕ → α)), R s s' →
      ReStep σ τ φ R
        (t.update (mk σ (reindex φ g)) s (pp.map (fun p => mk σ (reindex φ p))))
        (t.update (mk τ g) s' (pp.map (fun p => mk τ p)))

/-- the calls `h` on trees of structure and shapes `σ` -/
def calls (σ : Spec) (h : List ((ℕ → ℕ → α) × Option (ℕ → ℕ → α))) : List (Call α) :=
  h.map (fun c => (mk σ c.1, c.2.map (mk σ)))

/-- the history read through `φ` -/
def reindexH (φ : ℕ → ℕ → ℕ × ℕ) (h : List ((ℕ → ℕ → α) × Option (ℕ → ℕ → α))) :
    List ((ℕ → ℕ → α) × Option (ℕ → ℕ → α)) :=
  h.map (fun c => (reindex φ c.1, c.2.map (reindex φ)))

theorem Res.rel_ok {β γ : Type} {R : β → γ → Prop} {a : Res β} {b : Res γ} (h : Res.Rel R a b) :
    (∃ x y, a = .ok x ∧ b = .ok y ∧ R x y) ∨ ∃ e, a = .error e ∧ b = .error e := by
  cases a with
  | error e =>
    cases b with
    | error e' => exact .inr ⟨e, rfl, by rw [show e = e' from h]⟩
    | ok y => exact h.elim
  | ok x =>
    cases b with
    | error e' => exact h.elim
    | ok y => exact .inl ⟨x, y, rfl, rfl, h⟩

theorem Reindexable.outs {t : GT α} (ht : Reindexable t) (σ τ : Spec) (φ : ℕ → ℕ → ℕ × ℕ) (p0 : ℕ → ℕ → α)
    (h : List ((ℕ → ℕ → α) × Option (ℕ → ℕ → α))) :
    (∃ U : List (ℕ → ℕ → α), t.outs (mk τ p0) (calls τ h) = .ok (U.map (mk τ)) ∧
      t.outs (mk σ (reindex φ p0)) (calls σ (reindexH φ h)) = .ok (U.map (fun u => mk σ (reindex φ u)))) ∨
    ∃ e, t.outs (mk τ p0) (calls τ h) = .error e ∧ t.outs (mk σ (reindex φ p0)) (calls σ (reindexH φ h)) = .error e := by
  obtain ⟨R, h0, hR⟩ := ht σ τ φ
  have hrun : ∀ (h : List ((ℕ → ℕ → α) × Option (ℕ → ℕ → α))) s s', R s s' →
      (∃ (U : List (ℕ → ℕ → α)) (x x' : t.State), t.run s' (calls τ h) = .ok (U.map (mk τ), x') ∧
        t.run s (calls σ (reindexH φ h)) = .ok (U.map (fun u => mk σ (reindex φ u)), x)) ∨
      ∃ e, t.run s' (calls τ h) = .error e ∧ t.run s (calls σ (reindexH φ h)) = .error e := by
    intro h
    induction h with
    | nil => intro s s' _; exact .inl ⟨[], s, s', rfl, rfl⟩
    | cons c h ih =>
      intro s s' hs
      have h1 := hR c.1 s s' c.2 hs
      have e1 : c.2.map (fun p => mk σ (reindex φ p)) = (c.2.map (reindex φ)).map (mk σ) := by cases c.2 <;> rfl
      rw [e1] at h1
      have c1 : calls τ (c :: h) = (mk τ c.1, c.2.map (mk τ)) :: calls τ h := rfl
      have c2 : calls σ (reindexH φ (c :: h)) =
          (mk σ (reindex φ c.1), (c.2.map (reindex φ)).map (mk σ)) :: calls σ (reindexH φ h) := rfl
      rw [c1, c2, GT.run_cons, GT.run_cons]
      rcases Res.rel_ok h1 with ⟨x, y, hx, hy, ⟨u, hu1, hu2⟩, hxy⟩ | ⟨e, hx, hy⟩
      · have hx' : t.update (mk σ (reindex φ c.1)) s ((c.2.map (reindex φ)).map (mk σ)) = .ok x := hx
        have hy' : t.update (mk τ c.1) s' (c.2.map (mk τ)) = .ok y := hy
        simp only [hx', hy', Res.ok_bind]
        rcases ih x.2 y.2 hxy with ⟨U, z, z', hU, hU'⟩ | ⟨e, hU, hU'⟩
        · refine .inl ⟨u :: U, z, z', ?_, ?_⟩
          · simp only [hU, Res.ok_bind, Res.pure_eq, List.map_cons, hu2]
          · simp only [hU', Res.ok_bind, Res.pure_eq, List.map_cons, hu1]
        · refine .inr ⟨e, ?_, ?_⟩
          · simp only [hU, Res.error_bind]
          · simp only [hU', Res.error_bind]
      · have hx' : t.update (mk σ (reindex φ c.1)) s ((c.2.map (reindex φ)).map (mk σ)) = .error e := hx
        have hy' : t.update (mk τ c.1) s' (c.2.map (mk τ)) = .error e := hy
        refine .inr ⟨e, ?_, ?_⟩
        · simp only [hy', Res.error_bind]
        · simp only [hx', Res.error_bind]
  unfold GT.outs GT.exec
  rcases Res.rel_ok (h0 p0) with ⟨x, y, hx, hy, hxy⟩ | ⟨e, hx, hy⟩
  · rw [hx, hy]
    simp only [Res.ok_bind]
    rcases hrun h x y hxy with ⟨U, z, z', hU, hU'⟩ | ⟨e, hU, hU'⟩
    · exact .inl ⟨U, by rw [hU]; rfl, by rw [hU']; rfl⟩
    · exact .inr ⟨e, by rw [hU]; rfl, by rw [hU']; rfl⟩
  · rw [hx, hy]
    exact .inr ⟨e, rfl, rfl⟩

/-- chains -/
theorem Reindexable.chain (ts : List (GT α)) (h : ∀ t ∈ ts, Reindexable t) :
    Reindexable (chain ts) := by
  intro σ τ φ
  suffices H : ∃ R : ChainState ts → ChainState ts → Prop,
      (∀ v, Res.Rel R (chainInit ts (mk σ (reindex φ v))) (chainInit ts (mk τ v))) ∧
      (∀ s s', R s s' → ChainState.length ts s = ts.length ∧ ChainState.length ts s' = ts.length) ∧
      ∀ g s s' (pp : Option (ℕ → ℕ → α)), R s s' →
        ReStep σ τ φ R
          (chainLoop ts (mk σ (reindex φ g)) s (pp.map (fun p => mk σ (reindex φ p))))
          (chainLoop ts (mk τ g) s' (pp.map (fun p => mk τ p))) by
    obtain ⟨R, h1, h2, h3⟩ := H
    refine ⟨R, h1, ?_⟩
    intro g s s' pp hs
    obtain ⟨l1, l2⟩ := h2 s s' hs
    show ReStep σ τ φ R (if ChainState.length ts s ≠ ts.length then valueError else _)
      (if ChainState.length ts s' ≠ ts.length then valueError else _)
    rw [if_neg (by simp [l1]), if_neg (by simp [l2])]
    exact h3 g s s' pp hs
  induction ts with
  | nil =>
    refine ⟨fun s s' => s = (0 : ℕ) ∧ s' = (0 : ℕ), fun v => ⟨rfl, rfl⟩, ?_, ?_⟩
    · rintro s s' ⟨rfl, rfl⟩; exact ⟨rfl, rfl⟩
    · rintro g s s' pp ⟨rfl, rfl⟩; exact ⟨⟨g, rfl, rfl⟩, rfl, rfl⟩
  | cons t ts ih =>
    obtain ⟨R, a1, a2⟩ := h t (by simp) σ τ φ
    obtain ⟨Q, b1, b2, b3⟩ := ih (fun t ht => h t (by simp [ht]))
    refine ⟨fun s s' => ∃ x r x' r', s = some (x, r) ∧ s' = some (x', r') ∧ R x x' ∧ Q r r', ?_, ?_, ?_⟩
    · intro v
      have h1 := a1 v
      have h2 := b1 v
      simp only [chainInit]
      revert h1
      cases t.init (mk σ (reindex φ v)) with
      | error e =>
        cases t.init (mk τ v) with
        | error e' => exact id
        | ok b => exact False.elim
      | ok a =>
        cases t.init (mk τ v) with
        | error e' => exact False.elim
        | ok b =>
          intro h1
          revert h2
          simp only [Res.ok_bind]
          cases chainInit ts (mk σ (reindex φ v)) with
          | error e =>
            cases chainInit ts (mk τ v) with
            | error e' => exact id
            | ok b => exact False.elim
          | ok r =>
            cases chainInit ts (mk τ v) with
            | error e' => exact False.elim
            | ok r' => intro h2; exact ⟨a, r, b, r', rfl, rfl, h1, h2⟩
    · rintro s s' ⟨x, r, x', r', rfl, rfl, _, hq⟩
      obtain ⟨l1, l2⟩ := b2 r r' hq
      exact ⟨by simp [ChainState.length, l1, Nat.add_comm], by simp [ChainState.length, l2, Nat.add_comm]⟩
    · rintro g s s' pp ⟨x, r, x', r', rfl, rfl, hx, hq⟩
      have h1 := a2 g x x' pp hx
      simp only [chainLoop]
      revert h1
      cases t.update (mk σ (reindex φ g)) x (pp.map (fun p => mk σ (reindex φ p))) with
      | error e =>
        cases t.update (mk τ g) x' (pp.map (fun p => mk τ p)) with
        | error e' => exact id
        | ok b => exact False.elim
      | ok a =>
        cases t.update (mk τ g) x' (pp.map (fun p => mk τ p)) with
        | error e' => exact False.elim
        | ok b =>
          obtain ⟨a1, a2⟩ := a
          obtain ⟨b1, b2⟩ := b
          rintro ⟨⟨u, hu1, hu2⟩, hr⟩
          simp only at hu1 hu2 hr
          subst hu1 hu2
          have h2 := b3 u r r' pp hq
          revert h2
          simp only [Res.ok_bind]
          cases chainLoop ts (mk σ (reindex φ u)) r (pp.map (fun p => mk σ (reindex φ p))) with
          | error e =>
            cases chainLoop ts (mk τ u) r' (pp.map (fun p => mk τ p)) with
            | error e' => exact id
            | ok b => exact False.elim
          | ok y =>
            cases chainLoop ts (mk τ u) r' (pp.map (fun p => mk τ p)) with
            | error e' => exact False.elim
            | ok y' =>
              rintro ⟨h3, h4⟩
              exact ⟨h3, a2, y.2, b2, y'.2, rfl, rfl, hr, h4⟩

variable [One α] [Add α] [Sub α] [Mul α] [Div α] [Neg α] [JOps α]

/-- `stateless` transformations -/
theorem re_stateless {f : Params α → Option (Params α) → Res (Params α)}
    (h : ∀ σ τ (φ : ℕ → ℕ → ℕ × ℕ) (g : ℕ → ℕ → α) (pp : Option (ℕ → ℕ → α)),
      Res.Rel (fun a b => ∃ u, a = mk σ (reindex φ u) ∧ b = mk τ u)
        (f (mk σ (reindex φ g)) (pp.map (fun p => mk σ (reindex φ p))))
        (f (mk τ g) (pp.map (fun p => mk τ p)))) :
    Reindexable (stateless f) := by
  intro σ τ φ
  refine ⟨fun _ _ => True, fun _ => trivial, ?_⟩
  intro g s s' pp _
  have h1 := h σ τ φ g pp
  show ReStep σ τ φ _ (f _ _ >>= _) (f _ _ >>= _)
  revert h1
  cases f (mk σ (reindex φ g)) (pp.map (fun p => mk σ (reindex φ p))) with
  | error e =>
    cases f (mk τ g) (pp.map (fun p => mk τ p)) with
    | error e' => exact id
    | ok b => exact False.elim
  | ok a =>
    cases f (mk τ g) (pp.map (fun p => mk τ p)) with
    | error e' => exact False.elim
    | ok b => intro h1; exact ⟨h1, trivial⟩

theorem re_intro {σ τ : Spec} {φ : ℕ → ℕ → ℕ × ℕ} {S : Type} {R : S → S → Prop} {s s' : S} {u : ℕ → ℕ → α} {a b : Res (Params α × S)}
    (hb : b = .ok (mk τ u, s')) (ha : a = .ok (mk σ (reindex φ u), s)) (hR : R s s') :
    ReStep σ τ φ R a b := by
  subst ha hb
  exact ⟨⟨u, rfl, rfl⟩, hR⟩

theorem re_identity : Reindexable (identity : GT α) := fun σ τ φ =>
  ⟨fun _ _ => True, fun _ => trivial, fun g _ _ _ _ => ⟨⟨g, rfl, rfl⟩, trivial⟩⟩

theorem re_trace (d : α) (nes : Bool) (acc : Option (α → α)) : Reindexable (trace d nes acc) := fun σ τ φ =>
  ⟨fun s s' => ∃ m, s' = ⟨mk τ m⟩ ∧
      s = ⟨mk σ (reindex φ m)⟩, fun v => by
    rw [trace_init_mk, trace_init_mk]
    exact ⟨fun _ _ => (acc.getD id) 0, rfl, rfl⟩, by
    rintro g _ _ pp ⟨m, rfl, rfl⟩
    refine re_intro (trace_update_mk τ g m _ _ _ _) (trace_update_mk σ (reindex φ g) (reindex φ m) _ _ _ _) ?_
    exact ⟨_, rfl, rfl⟩⟩

theorem re_ema (d : α) (deb : Bool) (acc : Option (α → α)) : Reindexable (ema d deb acc) := fun σ τ φ =>
  ⟨fun s s' => ∃ c m, s' = ⟨c, mk τ m⟩ ∧
      s = ⟨c, mk σ (reindex φ m)⟩, fun v => by
    rw [ema_init_mk, ema_init_mk]
    exact ⟨_, fun _ _ => (acc.getD id) 0, rfl, rfl⟩, by
    rintro g _ _ pp ⟨c, m, rfl, rfl⟩
    refine re_intro (ema_update_mk τ g m _ _ _ _ _) (ema_update_mk σ (reindex φ g) (reindex φ m) _ _ _ _ _) ?_
    exact ⟨_, _, rfl, rfl⟩⟩

theorem re_rss (a eps : α) : Reindexable (scaleByRss a eps) := fun σ τ φ =>
  ⟨fun s s' => ∃ m, s' = ⟨mk τ m⟩ ∧
      s = ⟨mk σ (reindex φ m)⟩, fun v => by
    rw [rss_init_mk, rss_init_mk]
    exact ⟨fun _ _ => a, rfl, rfl⟩, by
    rintro g _ _ pp ⟨m, rfl, rfl⟩
    refine re_intro (rss_update_mk τ g m _ _ _) (rss_update_mk σ (reindex φ g) (reindex φ m) _ _ _) ?_
    exact ⟨_, rfl, rfl⟩⟩

theorem re_rms (d eps a : α) : Reindexable (scaleByRms d eps a) := fun σ τ φ =>
  ⟨fun s s' => ∃ m, s' = ⟨mk τ m⟩ ∧
      s = ⟨mk σ (reindex φ m)⟩, fun v => by
    rw [rms_init_mk, rms_init_mk]
    exact ⟨fun _ _ => a, rfl, rfl⟩, by
    rintro g _ _ pp ⟨m, rfl, rfl⟩
    refine re_intro (rms_update_mk τ g m _ _ _ _) (rms_update_mk σ (reindex φ g) (reindex φ m) _ _ _ _) ?_
    exact ⟨_, rfl, rfl⟩⟩

theorem re_stddev (d eps a : α) : Reindexable (scaleByStddev d eps a) := fun σ τ φ =>
  ⟨fun s s' => ∃ m n, s' = ⟨mk τ m, mk τ n⟩ ∧
      s = ⟨mk σ (reindex φ m), mk σ (reindex φ n)⟩,
    fun v => by
    rw [stddev_init_mk, stddev_init_mk]
    exact ⟨fun _ _ => 0, fun _ _ => a, rfl, rfl⟩, by
    rintro g _ _ pp ⟨m, n, rfl, rfl⟩
    refine re_intro (stddev_update_mk τ g m n _ _ _ _) (stddev_update_mk σ (reindex φ g) (reindex φ m) (reindex φ n) _ _ _ _) ?_
    exact ⟨_, _, rfl, rfl⟩⟩

theorem re_adam (b1 b2 eps er : α) : Reindexable (scaleByAdam b1 b2 eps er) := fun σ τ φ =>
  ⟨fun s s' => ∃ c m n, s' = ⟨c, mk τ m, mk τ n⟩ ∧
      s = ⟨c, mk σ (reindex φ m), mk σ (reindex φ n)⟩, fun v => by
    rw [adam_init_mk, adam_init_mk]
    exact ⟨_, fun _ _ => 0, fun _ _ => 0, rfl, rfl⟩, by
    rintro g _ _ pp ⟨c, m, n, rfl, rfl⟩
    refine re_intro (adam_update_mk τ g m n _ _ _ _ _ _) (adam_update_mk σ (reindex φ g) (reindex φ m) (reindex φ n) _ _ _ _ _ _) ?_
    exact ⟨_, _, _, rfl, rfl⟩⟩

theorem re_belief (b1 b2 eps er : α) : Reindexable (scaleByBelief b1 b2 eps er) := fun σ τ φ =>
  ⟨fun s s' => ∃ c m n, s' = ⟨c, mk τ m, mk τ n⟩ ∧
      s = ⟨c, mk σ (reindex φ m), mk σ (reindex φ n)⟩, fun v => by
    rw [belief_init_mk, belief_init_mk]
    exact ⟨_, fun _ _ => 0, fun _ _ => 0, rfl, rfl⟩, by
    rintro g _ _ pp ⟨c, m, n, rfl, rfl⟩
    refine re_intro (belief_update_mk τ g m n _ _ _ _ _ _) (belief_update_mk σ (reindex φ g) (reindex φ m) (reindex φ n) _ _ _ _ _ _) ?_
    exact ⟨_, _, _, rfl, rfl⟩⟩

theorem re_yogi (b1 b2 eps er a : α) : Reindexable (scaleByYogi b1 b2 eps er a) := fun σ τ φ =>
  ⟨fun s s' => ∃ c m n, s' = ⟨c, mk τ m, mk τ n⟩ ∧
      s = ⟨c, mk σ (reindex φ m), mk σ (reindex φ n)⟩, fun v => by
    rw [yogi_init_mk, yogi_init_mk]
    exact ⟨_, fun _ _ => a, fun _ _ => a, rfl, rfl⟩, by
    rintro g _ _ pp ⟨c, m, n, rfl, rfl⟩
    refine re_intro (yogi_update_mk τ g m n _ _ _ _ _ _ _) (yogi_update_mk σ (reindex φ g) (reindex φ m) (reindex φ n) _ _ _ _ _ _ _) ?_
    exact ⟨_, _, _, rfl, rfl⟩⟩

theorem re_radam (b1 b2 eps er th : α) : Reindexable (scaleByRadam b1 b2 eps er th) := fun σ τ φ =>
  ⟨fun s s' => ∃ c m n, s' = ⟨c, mk τ m, mk τ n⟩ ∧
      s = ⟨c, mk σ (reindex φ m), mk σ (reindex φ n)⟩, fun v => by
    rw [radam_init_mk, radam_init_mk]
    exact ⟨_, fun _ _ => 0, fun _ _ => 0, rfl, rfl⟩, by
    rintro g _ _ pp ⟨c, m, n, rfl, rfl⟩
    refine re_intro (radam_update_mk τ g m n _ _ _ _ _ _ _) (radam_update_mk σ (reindex φ g) (reindex φ m) (reindex φ n) _ _ _ _ _ _ _) ?_
    exact ⟨_, _, _, rfl, rfl⟩⟩

theorem re_scale (c : α) : Reindexable (scale c) := re_stateless (by
  intro σ τ φ g pp
  simp only [tmap_mk]
  refine ⟨_, ?_, rfl⟩
  rfl)

theorem re_schedule (f : Schedule α) : Reindexable (scaleBySchedule f) := fun σ τ φ =>
  ⟨fun s s' => s = s', fun v => rfl, by
    rintro g s _ pp rfl
    exact re_intro (scaleBySchedule_update_mk τ g _ _ _)
      (scaleBySchedule_update_mk σ (reindex φ g) _ _ _) rfl⟩

theorem re_applyEvery (k : ℤ) : Reindexable (applyEvery k : GT α) := fun σ τ φ =>
  ⟨fun s s' => ∃ c m, s' = ⟨c, mk τ m⟩ ∧
      s = ⟨c, mk σ (reindex φ m)⟩, fun v => by
    rw [applyEvery_init_mk, applyEvery_init_mk]
    exact ⟨_, fun _ _ => 0, rfl, rfl⟩, by
    rintro g _ _ pp ⟨c, m, rfl, rfl⟩
    refine re_intro (applyEvery_update_mk τ g m _ _ _) (applyEvery_update_mk σ (reindex φ g) (reindex φ m) _ _ _) ?_
    exact ⟨_, _, rfl, rfl⟩⟩

theorem re_clip (d : α) : Reindexable (clip d) := re_stateless (by
  intro σ τ φ g pp
  simp only [tmap_mk]
  refine ⟨_, ?_, rfl⟩
  rfl)

theorem re_addDecayedWeights (w : α) : Reindexable (addDecayedWeights w) := re_stateless (by
  intro σ τ φ g pp
  cases pp with
  | none => rfl
  | some p =>
    simp only [Option.map_some, tzip_mk]
    refine ⟨_, ?_, rfl⟩
    rfl)

theorem re_keepParamsNonnegative : Reindexable (keepParamsNonnegative : GT α) := re_stateless (by
  intro σ τ φ g pp
  cases pp with
  | none => rfl
  | some p =>
    simp only [Option.map_some, tzip_mk]
    refine ⟨_, ?_, rfl⟩
    rfl)

theorem re_zeroNans : Reindexable (zeroNans : GT α) := fun σ τ φ =>
  ⟨fun _ _ => True, fun v => trivial, by
    rintro g s s' pp _
    refine re_intro (zeroNans_update_mk τ g _ _) (zeroNans_update_mk σ (reindex φ g) _ _) ?_
    trivial⟩


theorem EntrywiseT.reindexable {t : GT α} (h : EntrywiseT t) : Reindexable t := by
  induction h with
  | identity => exact re_identity
  | trace d nes acc => exact re_trace d nes acc
  | ema d deb acc => exact re_ema d deb acc
  | rss a eps => exact re_rss a eps
  | rms d eps a => exact re_rms d eps a
  | stddev d eps a => exact re_stddev d eps a
  | adam b1 b2 eps er => exact re_adam b1 b2 eps er
  | belief b1 b2 eps er => exact re_belief b1 b2 eps er
  | yogi b1 b2 eps er a => exact re_yogi b1 b2 eps er a
  | radam b1 b2 eps er th => exact re_radam b1 b2 eps er th
  | scale c => exact re_scale c
  | schedule f => exact re_schedule f
  | applyEvery k => exact re_applyEvery k
  | clip d => exact re_clip d
  | addDecayedWeights w => exact re_addDecayedWeights w
  | keepParamsNonnegative => exact re_keepParamsNonnegative
  | zeroNans => exact re_zeroNans
  | chain ts _ ih => exact Reindexable.chain ts ih


/-! ### the property -/

/-- **C73 (relayout).** An entrywise transformation commutes with any selection, repetition, permutation and relayout of
coordinates `φ`: running it on the trees of structure `σ` whose coordinate `(k, i)` is coordinate `φ k i` of the
trees of structure `τ` gives the updates (or the exception) of the run on `τ`, read through `φ`. -/
theorem C73_relayout {t : GT α} (ht : EntrywiseT t) (σ τ : Spec) (φ : ℕ → ℕ → ℕ × ℕ) (p0 : ℕ → ℕ → α)
    (h : List ((ℕ → ℕ → α) × Option (ℕ → ℕ → α))) :
    (∃ U : List (ℕ → ℕ → α), t.outs (mk τ p0) (calls τ h) = .ok (U.map (mk τ)) ∧
      t.outs (mk σ (reindex φ p0)) (calls σ (reindexH φ h)) = .ok (U.map (fun u => mk σ (reindex φ u)))) ∨
    ∃ e, t.outs (mk τ p0) (calls τ h) = .error e ∧ t.outs (mk σ (reindex φ p0)) (calls σ (reindexH φ h)) = .error e :=
  ht.reindexable.outs σ τ φ p0 h

/-- **C73 (scalar optimisers).** Coordinate `(k, i)` of the updates of an entrywise transformation is what the same
transformation computes for a single scalar parameter from the history of that coordinate alone. -/
theorem C73_scalar {t : GT α} (ht : EntrywiseT t) (τ : Spec) (p0 : ℕ → ℕ → α)
    (h : List ((ℕ → ℕ → α) × Option (ℕ → ℕ → α))) (us : List (Params α)) (hu : t.outs (mk τ p0) (calls τ h) = .ok us)
    (k i : ℕ) (s : List ℕ) (hk : τ.leaves[k]? = some s) (hi : i < s.prod) :
    t.outs (.leaf ⟨[], [p0 k i]⟩)
        (h.map (fun c => (.leaf ⟨[], [c.1 k i]⟩, c.2.map (fun p => .leaf ⟨[], [p k i]⟩)))) =
      .ok (us.map (fun u => .leaf ⟨[], [coord u k i]⟩)) := by
  have e : ∀ w : ℕ → ℕ → α, mk (.leaf []) (reindex (fun _ _ => (k, i)) w) = .leaf ⟨[], [w k i]⟩ := by
    intro w
    simp [mk, PyTree.mapIdx, PyTree.mapIdxFrom, Tensor.tens, reindex]
  have e2 : calls (.leaf []) (reindexH (fun _ _ => (k, i)) h) =
      h.map (fun c => (.leaf ⟨[], [c.1 k i]⟩, c.2.map (fun p => .leaf ⟨[], [p k i]⟩))) := by
    unfold calls reindexH
    rw [List.map_map]
    apply List.map_congr_left
    intro c _
    simp only [Function.comp_apply, e, Option.map_map]
    congr 2
  rcases C73_relayout ht (.leaf []) τ (fun _ _ => (k, i)) p0 h with ⟨U, h1, h2⟩ | ⟨e', h1, _⟩
  · rw [hu] at h1
    have hus : us = U.map (mk τ) := by injection h1
    rw [e, e2] at h2
    rw [h2, hus, List.map_map]
    congr 1
    apply List.map_congr_left
    intro u _
    rw [e, Function.comp_apply, coord_mk τ u k i s hk hi]
  · rw [hu] at h1; cases h1

/-- **C73 (locality).** If two histories agree at coordinate `(k, i)` (initial params, gradients and params), all updates agree
there, whatever happens at the other coordinates. -/
theorem C73_local {t : GT α} (ht : EntrywiseT t) (τ : Spec) (p0 p0' : ℕ → ℕ → α)
    (h h' : List ((ℕ → ℕ → α) × Option (ℕ → ℕ → α))) (us us' : List (Params α))
    (hu : t.outs (mk τ p0) (calls τ h) = .ok us) (hu' : t.outs (mk τ p0') (calls τ h') = .ok us')
    (k i : ℕ) (s : List ℕ) (hk : τ.leaves[k]? = some s) (hi : i < s.prod) (hp : p0 k i = p0' k i)
    (hh : h.map (fun c => (c.1 k i, c.2.map (fun p => p k i))) = h'.map (fun c => (c.1 k i, c.2.map (fun p => p k i)))) :
    us.map (fun u => coord u k i) = us'.map (fun u => coord u k i) := by
  have h1 := C73_scalar ht τ p0 h us hu k i s hk hi
  have h2 := C73_scalar ht τ p0' h' us' hu' k i s hk hi
  have hc : (h.map (fun c => ((.leaf ⟨[], [c.1 k i]⟩ : Params α), c.2.map (fun p => (.leaf ⟨[], [p k i]⟩ : Params α))))) =
      h'.map (fun c => (.leaf ⟨[], [c.1 k i]⟩, c.2.map (fun p => .leaf ⟨[], [p k i]⟩))) := by
    have := congrArg (List.map (fun x : α × Option α =>
      ((.leaf ⟨[], [x.1]⟩ : Params α), x.2.map (fun y => (.leaf ⟨[], [y]⟩ : Params α))))) hh
    simpa [List.map_map, Function.comp_def, Option.map_map] using this
  rw [hc, hp, h2] at h1
  injection h1 with h1
  have := congrArg (List.map (fun u : Params α => match u with | .leaf ⟨_, [x]⟩ => x | _ => 0)) h1
  simp only [List.map_map, Function.comp_def] at this
  exact this.symm

/-- Non-vacuity: an Adam step with weight decay on two leaves; coordinate (1, 2) is in range. -/
example : EntrywiseT (chain [scaleByAdam (0.9 : ℝ) 0.999 1e-8 0, addDecayedWeights 0.01, scale (-0.1)]) ∧
    (PyTree.node (.dict ["b", "w"]) [.leaf [3], .leaf [2, 3]] : Spec).leaves[1]? = some [2, 3] ∧ 2 < [2, 3].prod := by
  refine ⟨.chain _ ?_, by simp [PyTree.leaves, PyTree.leavesL], by decide⟩
  intro t ht
  simp only [List.mem_cons, List.mem_nil_iff, or_false] at ht
  rcases ht with rfl | rfl | rfl
  · exact .adam _ _ _ _
  · exact .addDecayedWeights _
  · exact .scale _

section
variable {α : Type} [Zero α] [One α] [Add α] [Sub α] [Mul α] [Div α] [Neg α] [JOps α]

theorem entrywise_lr (lr : LR α) : EntrywiseT (scaleByLearningRate lr) := by
  cases lr with
  | scalar x => exact .scale _
  | schedule f => exact EntrywiseT.schedule (α := α) (fun c => -f c)

theorem entrywise_momentum (m : Option α) (nes : Bool) : EntrywiseT (momentumOrIdentity m nes) := by
  cases m with
  | none => exact .identity
  | some d => exact .trace _ _ _

/-- **C73 (aliases).** SGD (with or without momentum), AdaGrad, RMSProp (centred or not), Adam, AdamW, AdaBelief, RAdam and
Yogi are entrywise, with any learning rate or schedule and any hyper-parameters: the theorems above apply to them. -/
theorem C73_aliases (lr : LR α) (b1 b2 eps er wd : α) (m : Option α) (nes cen : Bool) :
    EntrywiseT (sgd lr m nes) ∧ EntrywiseT (adagrad lr b1 eps) ∧ EntrywiseT (rmsprop lr b1 eps b2 cen m nes) ∧
    EntrywiseT (adam lr b1 b2 eps er) ∧ EntrywiseT (adamw lr b1 b2 eps er wd) ∧
    EntrywiseT (adabelief lr b1 b2 eps) ∧ EntrywiseT (radam lr b1 b2 eps er wd) ∧ EntrywiseT (yogi lr b1 b2 eps) := by
  have two : ∀ a b : GT α, EntrywiseT a → EntrywiseT b → EntrywiseT (chain [a, b]) := by
    intro a b ha hb
    refine .chain _ ?_
    intro t ht
    simp only [List.mem_cons, List.mem_nil_iff, or_false] at ht
    rcases ht with rfl | rfl
    · exact ha
    · exact hb
  have three : ∀ a b c : GT α, EntrywiseT a → EntrywiseT b → EntrywiseT c → EntrywiseT (chain [a, b, c]) := by
    intro a b c ha hb hc
    refine .chain _ ?_
    intro t ht
    simp only [List.mem_cons, List.mem_nil_iff, or_false] at ht
    rcases ht with rfl | rfl | rfl
    · exact ha
    · exact hb
    · exact hc
  refine ⟨two _ _ (entrywise_momentum m nes) (entrywise_lr lr), two _ _ (.rss _ _) (entrywise_lr lr), ?_,
    two _ _ (.adam _ _ _ _) (entrywise_lr lr), three _ _ _ (.adam _ _ _ _) (.addDecayedWeights _) (entrywise_lr lr),
    two _ _ (.belief _ _ _ _) (entrywise_lr lr), two _ _ (.radam _ _ _ _ _) (entrywise_lr lr),
    two _ _ (.yogi _ _ _ _ _) (entrywise_lr lr)⟩
  cases cen with
  | true => exact three _ _ _ (.stddev _ _ _) (entrywise_lr lr) (entrywise_momentum m nes)
  | false => exact three _ _ _ (.rms _ _ _) (entrywise_lr lr) (entrywise_momentum m nes)

end

end Optax
