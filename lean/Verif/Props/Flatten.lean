import Verif.Lemmas.Flat
import Verif.Lemmas.Run

/-!
# C18: `flatten` is a faithful re-packing
-/

set_option linter.unusedSectionVars false
set_option linter.unusedSimpArgs false

namespace Optax
variable {α : Type} [Zero α]

/-- **C18** (round trip).  For every tree with at least one leaf, `flatten` hands the inner transformation one vector,
the concatenation of all leaves' entries in tree order; splitting any vector `v` of that length gives the tree of the
same structure and shapes whose leaves read `v` left to right; and splitting the concatenation
gives back the tree. -/
theorem C18_round_trip (σ : Spec) (hσ : σ.leaves ≠ []) (w : ℕ → ℕ → α) :
    ∃ flat, flattenVec (mk σ w) = .ok flat ∧
      flat = .leaf ⟨[totalSize σ.leaves], ((mk σ w).leaves.map Tensor.data).flatten⟩ ∧
      unflattenVec (mk σ w) flat = .ok (mk σ w) ∧
      ∀ (d : List α), d.length = totalSize σ.leaves →
        ∃ u, unflattenVec (mk σ w) (.leaf ⟨[totalSize σ.leaves], d⟩) = .ok u ∧ spec u = σ ∧ WF u ∧
          (u.leaves.map Tensor.data).flatten = d := by
  refine ⟨_, flattenVec_mk σ w hσ, ?_, ?_, ?_⟩
  · rw [mk_data, mk_flatSpec]
    congr 2
    apply List.ext_getElem
    · simp [concatData_length]
    · intro j h1 h2
      simp [flatOf, List.getElem?_eq_getElem h2]
  · rw [unflattenVec_mk, mk_pull_flatOf]
  · intro d hd
    have hdd : PyTree.leaf (Tensor.mk [totalSize σ.leaves] d) =
        mk (flatSpec σ) (fun _ j => (d[j]?).getD 0) := by
      rw [mk_flatSpec]
      congr 2
      apply List.ext_getElem
      · simp [hd]
      · intro j h1 h2
        simp [List.getElem?_eq_getElem h1]
    refine ⟨_, by rw [hdd, unflattenVec_mk], spec_mk _ _, WF_mk _ _, ?_⟩
    rw [mk_data]
    -- concatenation of the pieces of d is d
    have key : ∀ (L : List (List ℕ)) (f : ℕ → α), concatData L (fun k i => f (offset L k + i)) =
        (List.range (totalSize L)).map f := by
      intro L
      induction L with
      | nil => intro f; simp [concatData, totalSize]
      | cons s L ih =>
        intro f
        rw [concatData_cons]
        have hT : totalSize (s :: L) = s.prod + totalSize L := by simp [totalSize]
        rw [hT, List.range_add, List.map_append, List.map_map]
        have := ih (fun j => f (s.prod + j))
        rw [show (f ∘ fun x => s.prod + x) = fun j => f (s.prod + j) from rfl, ← this]
        simp only [offset_zero, Nat.zero_add, offset_succ, Nat.add_assoc]
    have h := key σ.leaves (fun j => (d[j]?).getD 0)
    unfold pull
    rw [h]
    apply List.ext_getElem
    · simp [hd]
    · intro j h1 h2
      simp [List.getElem?_eq_getElem h2]

/-- **C18**: on a tree without leaves `flatten(inner)` raises ValueError (nothing to concatenate). -/
theorem C18_empty (t : GT α) (σ : Spec) (hσ : σ.leaves = []) (p : ℕ → ℕ → α) :
    (flatten t).init (mk σ p) = .error .value := by
  show (flattenVec (mk σ p) >>= _) = _
  rw [flattenVec_nil σ p hσ]; rfl

/-- related results of one step: updates with the same entries (or the same error), related states -/
def FlatStep (σ : Spec) {S : Type} (R : S → S → Prop) (a b : Res (Params α × S)) : Prop :=
  Res.Rel (fun a b => (∃ u, a.1 = mk σ (pull σ u) ∧ b.1 = mk (flatSpec σ) u) ∧ R a.2 b.2) a b

/-- Proof principle: the transformation acts on a tree as on the concatenated vector (related states,
same entries of the updates, same errors). -/
def FlatInvariant (t : GT α) : Prop :=
  ∀ σ : Spec, ∃ R : t.State → t.State → Prop,
    (∀ v, Res.Rel R (t.init (mk σ (pull σ v))) (t.init (mk (flatSpec σ) v))) ∧
    ∀ g s s' (pp : Option (ℕ → ℕ → α)), R s s' →
      FlatStep σ R
        (t.update (mk σ (pull σ g)) s (pp.map (fun p => mk σ (pull σ p))))
        (t.update (mk (flatSpec σ) g) s' (pp.map (fun p => mk (flatSpec σ) p)))

/-- Observational equality of `flatten(t)` and `t` on all histories whose gradients and (optional)
params have one structure `σ` with at least one leaf. -/
def FlattenSame (t : GT α) : Prop :=
  ∀ (σ : Spec), σ.leaves ≠ [] → ∀ (p0 : ℕ → ℕ → α) (h : List ((ℕ → ℕ → α) × Option (ℕ → ℕ → α))),
    (flatten t).outs (mk σ p0) (h.map (fun c => (mk σ c.1, c.2.map (mk σ)))) =
      t.outs (mk σ p0) (h.map (fun c => (mk σ c.1, c.2.map (mk σ))))

theorem flattenArg_mk (σ : Spec) (hσ : σ.leaves ≠ []) (p : Option (ℕ → ℕ → α)) :
    flattenArg (p.map (mk σ)) = .ok (p.map (fun p => mk (flatSpec σ) (flatOf σ p))) := by
  cases p with
  | none => rfl
  | some p => simp [flattenArg, flattenVec_mk σ p hσ]

theorem FlatInvariant.same {t : GT α} (ht : FlatInvariant t) : FlattenSame t := by
  intro σ hσ p0 h
  obtain ⟨R, hR0, hR⟩ := ht σ
  have step : ∀ (c : (ℕ → ℕ → α) × Option (ℕ → ℕ → α)) s s', R s s' →
      Res.Rel (fun a b => a.1 = b.1 ∧ R b.2 a.2)
        ((flatten t).update (mk σ c.1) s' (c.2.map (mk σ))) (t.update (mk σ c.1) s (c.2.map (mk σ))) := by
    intro c s s' hs
    have h1 := hR (flatOf σ c.1) s s' (c.2.map (flatOf σ)) hs
    rw [mk_pull_flatOf] at h1
    have e1 : (c.2.map (flatOf σ)).map (fun p => mk σ (pull σ p)) = c.2.map (mk σ) := by
      cases c.2 with
      | none => rfl
      | some p => simp [mk_pull_flatOf]
    have e2 : (c.2.map (flatOf σ)).map (fun p => mk (flatSpec σ) p) =
        c.2.map (fun p => mk (flatSpec σ) (flatOf σ p)) := by
      cases c.2 <;> rfl
    rw [e1, e2] at h1
    have h2 : (flatten t).update (mk σ c.1) s' (c.2.map (mk σ)) =
        (t.update (mk (flatSpec σ) (flatOf σ c.1)) s' (c.2.map (fun p => mk (flatSpec σ) (flatOf σ p))) >>=
          fun r => unflattenVec (mk σ c.1) r.1 >>= fun u => .ok (u, r.2)) := by
      show (flattenArg _ >>= fun p' => flattenVec _ >>= fun fg => t.update fg s' p' >>= fun r =>
        unflattenVec (mk σ c.1) r.1 >>= fun u => Except.ok (u, r.2)) = _
      rw [flattenArg_mk σ hσ, Res.ok_bind, flattenVec_mk σ _ hσ, Res.ok_bind]
    rw [h2]
    cases ha : t.update (mk σ c.1) s (c.2.map (mk σ)) with
    | error e =>
      cases hb : t.update (mk (flatSpec σ) (flatOf σ c.1)) s'
          (c.2.map (fun p => mk (flatSpec σ) (flatOf σ p))) with
      | error e' => rw [ha, hb] at h1; exact Eq.symm h1
      | ok b => rw [ha, hb] at h1; exact h1.elim
    | ok a =>
      cases hb : t.update (mk (flatSpec σ) (flatOf σ c.1)) s'
          (c.2.map (fun p => mk (flatSpec σ) (flatOf σ p))) with
      | error e' => rw [ha, hb] at h1; exact h1.elim
      | ok b =>
        rw [ha, hb] at h1
        obtain ⟨⟨u, hu1, hu2⟩, hr⟩ := h1
        obtain ⟨a1, a2⟩ := a
        obtain ⟨b1, b2⟩ := b
        simp only at hu1 hu2 hr
        subst hu1 hu2
        rw [Res.ok_bind, unflattenVec_mk, Res.ok_bind]
        exact ⟨rfl, hr⟩
  have hrun : ∀ (h : List ((ℕ → ℕ → α) × Option (ℕ → ℕ → α))) s s', R s s' →
      Res.Rel (fun a b => a.1 = b.1)
        ((flatten t).run s' (h.map (fun c => (mk σ c.1, c.2.map (mk σ)))))
        (t.run s (h.map (fun c => (mk σ c.1, c.2.map (mk σ))))) := by
    intro h
    induction h with
    | nil => intro s s' _; exact rfl
    | cons c h ih =>
      intro s s' hs
      have h1 := step c s s' hs
      rw [List.map_cons, GT.run_cons, GT.run_cons]
      show Res.Rel _ ((flatten t).update (mk σ c.1) s' (c.2.map (mk σ)) >>= fun r => _)
        (t.update (mk σ c.1) s (c.2.map (mk σ)) >>= fun r => _)
      revert h1
      generalize (flatten t).update (mk σ c.1) s' (c.2.map (mk σ)) = X
      cases X with
      | error e =>
        cases t.update (mk σ c.1) s (c.2.map (mk σ)) with
        | error e' => exact id
        | ok b => exact False.elim
      | ok a =>
        cases t.update (mk σ c.1) s (c.2.map (mk σ)) with
        | error e' => exact False.elim
        | ok b =>
          rintro ⟨h2, h3⟩
          have h4 := ih b.2 a.2 h3
          simp only [Res.ok_bind]
          revert h4
          cases (flatten t).run a.2 (h.map (fun c => (mk σ c.1, c.2.map (mk σ)))) with
          | error e =>
            cases t.run b.2 (h.map (fun c => (mk σ c.1, c.2.map (mk σ)))) with
            | error e' => exact id
            | ok _ => exact False.elim
          | ok x =>
            cases t.run b.2 (h.map (fun c => (mk σ c.1, c.2.map (mk σ)))) with
            | error e' => exact False.elim
            | ok y =>
              intro h5
              show a.1 :: x.1 = b.1 :: y.1
              rw [h2, show x.1 = y.1 from h5]
  unfold GT.outs GT.exec
  have h0 := hR0 (flatOf σ p0)
  rw [mk_pull_flatOf] at h0
  have hi : (flatten t).init (mk σ p0) = t.init (mk (flatSpec σ) (flatOf σ p0)) := by
    show (flattenVec (mk σ p0) >>= _) = _
    rw [flattenVec_mk σ p0 hσ, Res.ok_bind]
  rw [hi]
  revert h0
  cases t.init (mk σ p0) with
  | error e =>
    cases t.init (mk (flatSpec σ) (flatOf σ p0)) with
    | error e' => intro h; rw [show e = e' from h]; rfl
    | ok b => exact False.elim
  | ok a =>
    cases t.init (mk (flatSpec σ) (flatOf σ p0)) with
    | error e' => exact False.elim
    | ok b =>
      intro hab
      have h1 := hrun h a b hab
      simp only [Res.ok_bind]
      revert h1
      cases (flatten t).run b (h.map (fun c => (mk σ c.1, c.2.map (mk σ)))) with
      | error e =>
        cases t.run a (h.map (fun c => (mk σ c.1, c.2.map (mk σ)))) with
        | error e' => intro h; rw [show e = e' from h]
        | ok _ => exact False.elim
      | ok x =>
        cases t.run a (h.map (fun c => (mk σ c.1, c.2.map (mk σ)))) with
        | error e' => exact False.elim
        | ok y => intro h5; simp only [Res.ok_bind]; rw [show x.1 = y.1 from h5]

/-- chains -/
theorem FlatInvariant.chain (ts : List (GT α)) (h : ∀ t ∈ ts, FlatInvariant t) :
    FlatInvariant (chain ts) := by
  intro σ
  suffices H : ∃ R : ChainState ts → ChainState ts → Prop,
      (∀ v, Res.Rel R (chainInit ts (mk σ (pull σ v))) (chainInit ts (mk (flatSpec σ) v))) ∧
      (∀ s s', R s s' → ChainState.length ts s = ts.length ∧ ChainState.length ts s' = ts.length) ∧
      ∀ g s s' (pp : Option (ℕ → ℕ → α)), R s s' →
        FlatStep σ R
          (chainLoop ts (mk σ (pull σ g)) s (pp.map (fun p => mk σ (pull σ p))))
          (chainLoop ts (mk (flatSpec σ) g) s' (pp.map (fun p => mk (flatSpec σ) p))) by
    obtain ⟨R, h1, h2, h3⟩ := H
    refine ⟨R, h1, ?_⟩
    intro g s s' pp hs
    obtain ⟨l1, l2⟩ := h2 s s' hs
    show FlatStep σ R (if ChainState.length ts s ≠ ts.length then valueError else _)
      (if ChainState.length ts s' ≠ ts.length then valueError else _)
    rw [if_neg (by simp [l1]), if_neg (by simp [l2])]
    exact h3 g s s' pp hs
  induction ts with
  | nil =>
    refine ⟨fun s s' => s = (0 : ℕ) ∧ s' = (0 : ℕ), fun v => ⟨rfl, rfl⟩, ?_, ?_⟩
    · rintro s s' ⟨rfl, rfl⟩; exact ⟨rfl, rfl⟩
    · rintro g s s' pp ⟨rfl, rfl⟩; exact ⟨⟨g, rfl, rfl⟩, rfl, rfl⟩
  | cons t ts ih =>
    obtain ⟨R, a1, a2⟩ := h t (by simp) σ
    obtain ⟨Q, b1, b2, b3⟩ := ih (fun t ht => h t (by simp [ht]))
    refine ⟨fun s s' => ∃ x r x' r', s = some (x, r) ∧ s' = some (x', r') ∧ R x x' ∧ Q r r', ?_, ?_, ?_⟩
    · intro v
      have h1 := a1 v
      have h2 := b1 v
      simp only [chainInit]
      revert h1
      cases t.init (mk σ (pull σ v)) with
      | error e =>
        cases t.init (mk (flatSpec σ) v) with
        | error e' => exact id
        | ok b => exact False.elim
      | ok a =>
        cases t.init (mk (flatSpec σ) v) with
        | error e' => exact False.elim
        | ok b =>
          intro h1
          revert h2
          simp only [Res.ok_bind]
          cases chainInit ts (mk σ (pull σ v)) with
          | error e =>
            cases chainInit ts (mk (flatSpec σ) v) with
            | error e' => exact id
            | ok b => exact False.elim
          | ok r =>
            cases chainInit ts (mk (flatSpec σ) v) with
            | error e' => exact False.elim
            | ok r' => intro h2; exact ⟨a, r, b, r', rfl, rfl, h1, h2⟩
    · rintro s s' ⟨x, r, x', r', rfl, rfl, _, hq⟩
      obtain ⟨l1, l2⟩ := b2 r r' hq
      exact ⟨by simp [ChainState.length, l1, Nat.add_comm], by simp [ChainState.length, l2, Nat.add_comm]⟩
    · rintro g s s' pp ⟨x, r, x', r', rfl, rfl, hx, hq⟩
      have h1 := a2 g x x' pp hx
      simp only [chainLoop]
      revert h1
      cases t.update (mk σ (pull σ g)) x (pp.map (fun p => mk σ (pull σ p))) with
      | error e =>
        cases t.update (mk (flatSpec σ) g) x' (pp.map (fun p => mk (flatSpec σ) p)) with
        | error e' => exact id
        | ok b => exact False.elim
      | ok a =>
        cases t.update (mk (flatSpec σ) g) x' (pp.map (fun p => mk (flatSpec σ) p)) with
        | error e' => exact False.elim
        | ok b =>
          obtain ⟨a1, a2⟩ := a
          obtain ⟨b1, b2⟩ := b
          rintro ⟨⟨u, hu1, hu2⟩, hr⟩
          simp only at hu1 hu2 hr
          subst hu1 hu2
          have h2 := b3 u r r' pp hq
          revert h2
          simp only [Res.ok_bind]
          cases chainLoop ts (mk σ (pull σ u)) r (pp.map (fun p => mk σ (pull σ p))) with
          | error e =>
            cases chainLoop ts (mk (flatSpec σ) u) r' (pp.map (fun p => mk (flatSpec σ) p)) with
            | error e' => exact id
            | ok b => exact False.elim
          | ok y =>
            cases chainLoop ts (mk (flatSpec σ) u) r' (pp.map (fun p => mk (flatSpec σ) p)) with
            | error e' => exact False.elim
            | ok y' =>
              rintro ⟨h3, h4⟩
              exact ⟨h3, a2, y.2, b2, y'.2, rfl, rfl, hr, h4⟩

variable [One α] [Add α] [Sub α] [Mul α] [Div α] [Neg α] [JOps α]

/-- `stateless` transformations -/
theorem flat_stateless {f : Params α → Option (Params α) → Res (Params α)}
    (h : ∀ σ (g : ℕ → ℕ → α) (pp : Option (ℕ → ℕ → α)),
      Res.Rel (fun a b => ∃ u, a = mk σ (pull σ u) ∧ b = mk (flatSpec σ) u)
        (f (mk σ (pull σ g)) (pp.map (fun p => mk σ (pull σ p))))
        (f (mk (flatSpec σ) g) (pp.map (fun p => mk (flatSpec σ) p)))) :
    FlatInvariant (stateless f) := by
  intro σ
  refine ⟨fun _ _ => True, fun _ => trivial, ?_⟩
  intro g s s' pp _
  have h1 := h σ g pp
  show FlatStep σ _ (f _ _ >>= _) (f _ _ >>= _)
  revert h1
  cases f (mk σ (pull σ g)) (pp.map (fun p => mk σ (pull σ p))) with
  | error e =>
    cases f (mk (flatSpec σ) g) (pp.map (fun p => mk (flatSpec σ) p)) with
    | error e' => exact id
    | ok b => exact False.elim
  | ok a =>
    cases f (mk (flatSpec σ) g) (pp.map (fun p => mk (flatSpec σ) p)) with
    | error e' => exact False.elim
    | ok b => intro h1; exact ⟨h1, trivial⟩

theorem rel_intro {σ : Spec} {S : Type} {R : S → S → Prop} {s s' : S} {u : ℕ → ℕ → α} {a b : Res (Params α × S)}
    (hb : b = .ok (mk (flatSpec σ) u, s')) (ha : a = .ok (mk σ (pull σ u), s)) (hR : R s s') :
    FlatStep σ R a b := by
  subst ha hb
  exact ⟨⟨u, rfl, rfl⟩, hR⟩

theorem flat_identity : FlatInvariant (identity : GT α) := fun σ =>
  ⟨fun _ _ => True, fun _ => trivial, fun g _ _ _ _ => ⟨⟨g, rfl, rfl⟩, trivial⟩⟩

theorem flat_trace (d : α) (nes : Bool) (acc : Option (α → α)) : FlatInvariant (trace d nes acc) := fun σ =>
  ⟨fun s s' => ∃ m, s' = ⟨mk (flatSpec σ) m⟩ ∧
      s = ⟨mk σ (pull σ m)⟩, fun v => by
    rw [trace_init_mk, trace_init_mk]
    exact ⟨fun _ _ => (acc.getD id) 0, rfl, rfl⟩, by
    rintro g _ _ pp ⟨m, rfl, rfl⟩
    refine rel_intro (trace_update_mk (flatSpec σ) g m _ _ _ _) (trace_update_mk σ (pull σ g) (pull σ m) _ _ _ _) ?_
    exact ⟨_, rfl, rfl⟩⟩

theorem flat_ema (d : α) (deb : Bool) (acc : Option (α → α)) : FlatInvariant (ema d deb acc) := fun σ =>
  ⟨fun s s' => ∃ c m, s' = ⟨c, mk (flatSpec σ) m⟩ ∧
      s = ⟨c, mk σ (pull σ m)⟩, fun v => by
    rw [ema_init_mk, ema_init_mk]
    exact ⟨_, fun _ _ => (acc.getD id) 0, rfl, rfl⟩, by
    rintro g _ _ pp ⟨c, m, rfl, rfl⟩
    refine rel_intro (ema_update_mk (flatSpec σ) g m _ _ _ _ _) (ema_update_mk σ (pull σ g) (pull σ m) _ _ _ _ _) ?_
    exact ⟨_, _, rfl, rfl⟩⟩

theorem flat_rss (a eps : α) : FlatInvariant (scaleByRss a eps) := fun σ =>
  ⟨fun s s' => ∃ m, s' = ⟨mk (flatSpec σ) m⟩ ∧
      s = ⟨mk σ (pull σ m)⟩, fun v => by
    rw [rss_init_mk, rss_init_mk]
    exact ⟨fun _ _ => a, rfl, rfl⟩, by
    rintro g _ _ pp ⟨m, rfl, rfl⟩
    refine rel_intro (rss_update_mk (flatSpec σ) g m _ _ _) (rss_update_mk σ (pull σ g) (pull σ m) _ _ _) ?_
    exact ⟨_, rfl, rfl⟩⟩

theorem flat_rms (d eps a : α) : FlatInvariant (scaleByRms d eps a) := fun σ =>
  ⟨fun s s' => ∃ m, s' = ⟨mk (flatSpec σ) m⟩ ∧
      s = ⟨mk σ (pull σ m)⟩, fun v => by
    rw [rms_init_mk, rms_init_mk]
    exact ⟨fun _ _ => a, rfl, rfl⟩, by
    rintro g _ _ pp ⟨m, rfl, rfl⟩
    refine rel_intro (rms_update_mk (flatSpec σ) g m _ _ _ _) (rms_update_mk σ (pull σ g) (pull σ m) _ _ _ _) ?_
    exact ⟨_, rfl, rfl⟩⟩

theorem flat_stddev (d eps a : α) : FlatInvariant (scaleByStddev d eps a) := fun σ =>
  ⟨fun s s' => ∃ m n, s' = ⟨mk (flatSpec σ) m, mk (flatSpec σ) n⟩ ∧
      s = ⟨mk σ (pull σ m), mk σ (pull σ n)⟩,
    fun v => by
    rw [stddev_init_mk, stddev_init_mk]
    exact ⟨fun _ _ => 0, fun _ _ => a, rfl, rfl⟩, by
    rintro g _ _ pp ⟨m, n, rfl, rfl⟩
    refine rel_intro (stddev_update_mk (flatSpec σ) g m n _ _ _ _) (stddev_update_mk σ (pull σ g) (pull σ m) (pull σ n) _ _ _ _) ?_
    exact ⟨_, _, rfl, rfl⟩⟩

theorem flat_adam (b1 b2 eps er : α) : FlatInvariant (scaleByAdam b1 b2 eps er) := fun σ =>
  ⟨fun s s' => ∃ c m n, s' = ⟨c, mk (flatSpec σ) m, mk (flatSpec σ) n⟩ ∧
      s = ⟨c, mk σ (pull σ m), mk σ (pull σ n)⟩, fun v => by
    rw [adam_init_mk, adam_init_mk]
    exact ⟨_, fun _ _ => 0, fun _ _ => 0, rfl, rfl⟩, by
    rintro g _ _ pp ⟨c, m, n, rfl, rfl⟩
    refine rel_intro (adam_update_mk (flatSpec σ) g m n _ _ _ _ _ _) (adam_update_mk σ (pull σ g) (pull σ m) (pull σ n) _ _ _ _ _ _) ?_
    exact ⟨_, _, _, rfl, rfl⟩⟩

theorem flat_belief (b1 b2 eps er : α) : FlatInvariant (scaleByBelief b1 b2 eps er) := fun σ =>
  ⟨fun s s' => ∃ c m n, s' = ⟨c, mk (flatSpec σ) m, mk (flatSpec σ) n⟩ ∧
      s = ⟨c, mk σ (pull σ m), mk σ (pull σ n)⟩, fun v => by
    rw [belief_init_mk, belief_init_mk]
    exact ⟨_, fun _ _ => 0, fun _ _ => 0, rfl, rfl⟩, by
    rintro g _ _ pp ⟨c, m, n, rfl, rfl⟩
    refine rel_intro (belief_update_mk (flatSpec σ) g m n _ _ _ _ _ _) (belief_update_mk σ (pull σ g) (pull σ m) (pull σ n) _ _ _ _ _ _) ?_
    exact ⟨_, _, _, rfl, rfl⟩⟩

theorem flat_yogi (b1 b2 eps er a : α) : FlatInvariant (scaleByYogi b1 b2 eps er a) := fun σ =>
  ⟨fun s s' => ∃ c m n, s' = ⟨c, mk (flatSpec σ) m, mk (flatSpec σ) n⟩ ∧
      s = ⟨c, mk σ (pull σ m), mk σ (pull σ n)⟩, fun v => by
    rw [yogi_init_mk, yogi_init_mk]
    exact ⟨_, fun _ _ => a, fun _ _ => a, rfl, rfl⟩, by
    rintro g _ _ pp ⟨c, m, n, rfl, rfl⟩
    refine rel_intro (yogi_update_mk (flatSpec σ) g m n _ _ _ _ _ _ _) (yogi_update_mk σ (pull σ g) (pull σ m) (pull σ n) _ _ _ _ _ _ _) ?_
    exact ⟨_, _, _, rfl, rfl⟩⟩

theorem flat_radam (b1 b2 eps er th : α) : FlatInvariant (scaleByRadam b1 b2 eps er th) := fun σ =>
  ⟨fun s s' => ∃ c m n, s' = ⟨c, mk (flatSpec σ) m, mk (flatSpec σ) n⟩ ∧
      s = ⟨c, mk σ (pull σ m), mk σ (pull σ n)⟩, fun v => by
    rw [radam_init_mk, radam_init_mk]
    exact ⟨_, fun _ _ => 0, fun _ _ => 0, rfl, rfl⟩, by
    rintro g _ _ pp ⟨c, m, n, rfl, rfl⟩
    refine rel_intro (radam_update_mk (flatSpec σ) g m n _ _ _ _ _ _ _) (radam_update_mk σ (pull σ g) (pull σ m) (pull σ n) _ _ _ _ _ _ _) ?_
    exact ⟨_, _, _, rfl, rfl⟩⟩

theorem flat_scale (c : α) : FlatInvariant (scale c) := flat_stateless (by
  intro σ g pp
  simp only [tmap_mk]
  refine ⟨_, ?_, rfl⟩
  rfl)

theorem flat_schedule (f : Schedule α) : FlatInvariant (scaleBySchedule f) := fun σ =>
  ⟨fun s s' => s = s', fun v => rfl, by
    rintro g s _ pp rfl
    exact rel_intro (scaleBySchedule_update_mk (flatSpec σ) g _ _ _)
      (scaleBySchedule_update_mk σ (pull σ g) _ _ _) rfl⟩

theorem flat_applyEvery (k : ℤ) : FlatInvariant (applyEvery k : GT α) := fun σ =>
  ⟨fun s s' => ∃ c m, s' = ⟨c, mk (flatSpec σ) m⟩ ∧
      s = ⟨c, mk σ (pull σ m)⟩, fun v => by
    rw [applyEvery_init_mk, applyEvery_init_mk]
    exact ⟨_, fun _ _ => 0, rfl, rfl⟩, by
    rintro g _ _ pp ⟨c, m, rfl, rfl⟩
    refine rel_intro (applyEvery_update_mk (flatSpec σ) g m _ _ _) (applyEvery_update_mk σ (pull σ g) (pull σ m) _ _ _) ?_
    exact ⟨_, _, rfl, rfl⟩⟩

theorem flat_clip (d : α) : FlatInvariant (clip d) := flat_stateless (by
  intro σ g pp
  simp only [tmap_mk]
  refine ⟨_, ?_, rfl⟩
  rfl)

theorem flat_addDecayedWeights (w : α) : FlatInvariant (addDecayedWeights w) := flat_stateless (by
  intro σ g pp
  cases pp with
  | none => rfl
  | some p =>
    simp only [Option.map_some, tzip_mk]
    refine ⟨_, ?_, rfl⟩
    rfl)

theorem flat_keepParamsNonnegative : FlatInvariant (keepParamsNonnegative : GT α) := flat_stateless (by
  intro σ g pp
  cases pp with
  | none => rfl
  | some p =>
    simp only [Option.map_some, tzip_mk]
    refine ⟨_, ?_, rfl⟩
    rfl)

theorem flat_zeroNans : FlatInvariant (zeroNans : GT α) := fun σ =>
  ⟨fun _ _ => True, fun v => trivial, by
    rintro g s s' pp _
    refine rel_intro (zeroNans_update_mk (flatSpec σ) g _ _) (zeroNans_update_mk σ (pull σ g) _ _) ?_
    trivial⟩

theorem globalNorm_flat (σ : Spec) (v : ℕ → ℕ → ℝ) :
    globalNorm (mk (flatSpec σ) v) = globalNorm (mk σ (pull σ v)) := by
  unfold globalNorm
  congr 1
  have key : ∀ (L : List (List ℕ)) (f : ℕ → ℝ),
      (L.mapIdx (fun k s => ((Tensor.tens s (fun i => f (offset L k + i))).map (fun y => y * y)).sum)).sum =
        ((List.range (totalSize L)).map (fun j => f j * f j)).sum := by
    intro L
    induction L with
    | nil => intro f; simp [totalSize]
    | cons s L ih =>
      intro f
      have hT : totalSize (s :: L) = s.prod + totalSize L := by simp [totalSize]
      rw [hT, List.range_add, List.map_append, List.sum_append, List.map_map, List.mapIdx_cons, List.sum_cons]
      have := ih (fun j => f (s.prod + j))
      simp only [offset_zero, Nat.zero_add, offset_succ, Nat.add_assoc]
      rw [this]
      simp [Tensor.sum, Tensor.tens, Tensor.map, Function.comp_def]
  rw [mk_flatSpec, mk_leaves, map_mapIdx_list]
  refine Eq.trans ?_ (key σ.leaves (v 0)).symm
  simp [PyTree.leaves, Tensor.sum, Tensor.map, Function.comp_def]

theorem flat_clipByGlobalNorm (d : ℝ) : FlatInvariant (clipByGlobalNorm d) := flat_stateless (by
  intro σ g pp
  show Res.Rel _ (.ok (tmap _ (mk σ (pull σ g)))) (.ok (tmap _ (mk (flatSpec σ) g)))
  rw [tmap_mk, tmap_mk]
  simp only [globalNorm_flat]
  refine ⟨fun k i => if JOps.lt (globalNorm (mk σ (pull σ g))) d then g k i
        else g k i / globalNorm (mk σ (pull σ g)) * d, ?_, rfl⟩
  rfl)

/-! ### the property -/

/-- The entrywise transformations: the basic ones, with any hyper-parameters, and
all chains of them. -/
inductive EntrywiseT : GT α → Prop
  | identity : EntrywiseT identity
  | trace (d : α) (nes acc) : EntrywiseT (trace d nes acc)
  | ema (d : α) (deb acc) : EntrywiseT (ema d deb acc)
  | rss (a eps : α) : EntrywiseT (scaleByRss a eps)
  | rms (d eps a : α) : EntrywiseT (scaleByRms d eps a)
  | stddev (d eps a : α) : EntrywiseT (scaleByStddev d eps a)
  | adam (b1 b2 eps er : α) : EntrywiseT (scaleByAdam b1 b2 eps er)
  | belief (b1 b2 eps er : α) : EntrywiseT (scaleByBelief b1 b2 eps er)
  | yogi (b1 b2 eps er a : α) : EntrywiseT (scaleByYogi b1 b2 eps er a)
  | radam (b1 b2 eps er th : α) : EntrywiseT (scaleByRadam b1 b2 eps er th)
  | scale (c : α) : EntrywiseT (scale c)
  | schedule (f : Schedule α) : EntrywiseT (scaleBySchedule f)
  | applyEvery (k : ℤ) : EntrywiseT (applyEvery k)
  | clip (d : α) : EntrywiseT (clip d)
  | addDecayedWeights (w : α) : EntrywiseT (addDecayedWeights w)
  | keepParamsNonnegative : EntrywiseT keepParamsNonnegative
  | zeroNans : EntrywiseT zeroNans
  | chain (ts : List (GT α)) (h : ∀ t ∈ ts, EntrywiseT t) : EntrywiseT (chain ts)

theorem EntrywiseT.flat {t : GT α} (h : EntrywiseT t) : FlatInvariant t := by
  induction h with
  | identity => exact flat_identity
  | trace d nes acc => exact flat_trace d nes acc
  | ema d deb acc => exact flat_ema d deb acc
  | rss a eps => exact flat_rss a eps
  | rms d eps a => exact flat_rms d eps a
  | stddev d eps a => exact flat_stddev d eps a
  | adam b1 b2 eps er => exact flat_adam b1 b2 eps er
  | belief b1 b2 eps er => exact flat_belief b1 b2 eps er
  | yogi b1 b2 eps er a => exact flat_yogi b1 b2 eps er a
  | radam b1 b2 eps er th => exact flat_radam b1 b2 eps er th
  | scale c => exact flat_scale c
  | schedule f => exact flat_schedule f
  | applyEvery k => exact flat_applyEvery k
  | clip d => exact flat_clip d
  | addDecayedWeights w => exact flat_addDecayedWeights w
  | keepParamsNonnegative => exact flat_keepParamsNonnegative
  | zeroNans => exact flat_zeroNans
  | chain ts _ ih => exact FlatInvariant.chain ts ih

/-- **C18**: `flatten(t)` and `t` are observationally equal for every entrywise `t`: any of the basic entrywise transformations
and any chain of them. -/
theorem C18_entrywise {t : GT α} (h : EntrywiseT t) (σ : Spec) (hσ : σ.leaves ≠ []) (p0 : ℕ → ℕ → α)
    (h : List ((ℕ → ℕ → α) × Option (ℕ → ℕ → α))) :
    (flatten t).outs (mk σ p0) (h.map (fun c => (mk σ c.1, c.2.map (mk σ)))) =
      t.outs (mk σ p0) (h.map (fun c => (mk σ c.1, c.2.map (mk σ)))) :=
  EntrywiseT.flat ‹EntrywiseT t› |>.same σ hσ p0 h

/-- **C18**: over the reals also with `clip_by_global_norm` anywhere in a chain with entrywise transformations. -/
theorem C18_clip_by_global_norm (ts : List (GT ℝ))
    (hts : ∀ t ∈ ts, EntrywiseT t ∨ ∃ d, t = clipByGlobalNorm d) (σ : Spec) (hσ : σ.leaves ≠ [])
    (p0 : ℕ → ℕ → ℝ) (h : List ((ℕ → ℕ → ℝ) × Option (ℕ → ℕ → ℝ))) :
    (flatten (chain ts)).outs (mk σ p0) (h.map (fun c => (mk σ c.1, c.2.map (mk σ)))) =
      (chain ts).outs (mk σ p0) (h.map (fun c => (mk σ c.1, c.2.map (mk σ)))) := by
  apply (FlatInvariant.chain ts ?_).same σ hσ p0 h
  intro t ht
  rcases hts t ht with h1 | ⟨d, rfl⟩
  · exact h1.flat
  · exact flat_clipByGlobalNorm d

/-- **C18**: the general form: the inner transformation is called with the concatenated gradients (and params), and its
output, if it is a vector of the same length, is split back. -/
theorem C18_calls_inner (t : GT α) (σ : Spec) (hσ : σ.leaves ≠ []) (g : ℕ → ℕ → α)
    (pp : Option (ℕ → ℕ → α)) (s : t.State) :
    ∃ fg fp, flattenVec (mk σ g) = .ok fg ∧ flattenArg (pp.map (mk σ)) = .ok fp ∧
      (flatten t).update (mk σ g) s (pp.map (mk σ)) =
        (t.update fg s fp >>= fun r => unflattenVec (mk σ g) r.1 >>= fun u => .ok (u, r.2)) := by
  refine ⟨_, _, flattenVec_mk σ g hσ, flattenArg_mk σ hσ pp, ?_⟩
  show (flattenArg _ >>= fun p' => flattenVec _ >>= fun fg => t.update fg s p' >>= fun r =>
        unflattenVec (mk σ g) r.1 >>= fun u => Except.ok (u, r.2)) = _
  rw [flattenArg_mk σ hσ, Res.ok_bind, flattenVec_mk σ _ hσ, Res.ok_bind]

/-- **C18 (inner transformations that change the structure).** If the wrapped transformation returns a container instead of one array, `flatten` raises TypeError (`jnp.split` wants an array). -/
theorem C18_not_array (t : GT α) (σ : Spec) (hσ : σ.leaves ≠ []) (g : ℕ → ℕ → α) (pp : Option (ℕ → ℕ → α)) (s s' : t.State)
    (κ : Tag) (cs : List (Params α)) (h : ∀ fg fp, flattenVec (mk σ g) = .ok fg → flattenArg (pp.map (mk σ)) = .ok fp → t.update fg s fp = .ok (.node κ cs, s')) :
    (flatten t).update (mk σ g) s (pp.map (mk σ)) = .error .type := by
  obtain ⟨fg, fp, h1, h2, h3⟩ := C18_calls_inner t σ hσ g pp s
  rw [h3, h fg fp h1 h2]
  rfl

/-- Non-vacuity: a transformation written for tuples, which returns its two updates in a tuple. -/
example (g : ℕ → ℕ → ℝ) : (flatten (⟨Unit, fun _ => .ok (), fun g s _ => .ok (.node .tuple [g, g], s)⟩ : GT ℝ)).update
    (mk (.leaf [2]) g) () none = .error .type :=
  C18_not_array (⟨Unit, fun _ => .ok (), fun g s _ => .ok (.node .tuple [g, g], s)⟩ : GT ℝ) (.leaf [2])
    (by simp [PyTree.leaves]) g none () () .tuple _ (fun fg fp h1 _ => by
      rw [flattenVec_mk _ _ (by simp [PyTree.leaves])] at h1
      cases h1
      rfl)

/-- splitting a vector of the wrong length into the leaves of a tree fails with TypeError -/
theorem split_wrong_length (l : List (Tensor α)) (hl : l ≠ []) (xs : List α) (h : xs.length ≠ (l.map (fun x => x.shape.prod)).sum) :
    (List.zip (splitSizes (l.map (fun x => x.shape.prod)) xs) l).mapM
      (fun pu => (Tensor.mk [pu.1.length] pu.1).reshape pu.2.shape) = .error .type := by
  induction l generalizing xs with
  | nil => exact absurd rfl hl
  | cons x l ih =>
    cases l with
    | nil =>
      have h' : xs.length ≠ x.shape.prod := by simpa using h
      simp only [List.map_cons, List.map_nil, splitSizes, List.zip_cons_cons, List.zip_nil_left, List.mapM_cons, Tensor.reshape, if_neg h', Res.error_bind]
    | cons y l =>
      simp only [List.map_cons, splitSizes, List.zip_cons_cons, List.mapM_cons]
      by_cases h1 : (xs.take x.shape.prod).length = x.shape.prod
      · have h2 : (xs.drop x.shape.prod).length ≠ ((y :: l).map (fun x => x.shape.prod)).sum := by
          simp only [List.map_cons, List.sum_cons, List.length_take, List.length_drop] at h h1 ⊢
          omega
        have := ih (by simp) _ h2
        simp only [List.map_cons] at this
        simp only [Tensor.reshape, if_pos h1, Res.ok_bind]
        simp only [Tensor.reshape] at this
        rw [this]; rfl
      · simp only [Tensor.reshape, if_neg h1, Res.error_bind]

/-- **C18 (inner transformations that change the length).** If the wrapped transformation returns a vector whose number of entries is not
that of the updates, `flatten` raises TypeError (`jnp.reshape` of the pieces fails) instead of returning a wrong tree. -/
theorem C18_wrong_length (t : GT α) (σ : Spec) (hσ : σ.leaves ≠ []) (g : ℕ → ℕ → α) (pp : Option (ℕ → ℕ → α)) (s s' : t.State)
    (v : Tensor α) (hv : v.data.length ≠ (σ.leaves.map List.prod).sum)
    (h : ∀ fg fp, flattenVec (mk σ g) = .ok fg → flattenArg (pp.map (mk σ)) = .ok fp → t.update fg s fp = .ok (.leaf v, s')) :
    (flatten t).update (mk σ g) s (pp.map (mk σ)) = .error .type := by
  obtain ⟨fg, fp, h1, h2, h3⟩ := C18_calls_inner t σ hσ g pp s
  rw [h3, h fg fp h1 h2]
  have h4 : unflattenVec (mk σ g) (.leaf v) = .error .type := by
    unfold unflattenVec
    have hs : (mk σ g).leaves.map (fun x => x.shape.prod) = σ.leaves.map List.prod := by
      have := congrArg PyTree.leaves (spec_mk σ g)
      rw [spec, PyTree.leaves_map] at this
      rw [← this, List.map_map]; rfl
    have hne : (mk σ g).leaves ≠ [] := by
      intro h0
      rw [h0] at hs
      exact hσ (List.map_eq_nil_iff.1 hs.symm)
    have := split_wrong_length (mk σ g).leaves hne v.data (by rw [hs]; exact hv)
    simp only [this, Res.error_bind]
  rw [Res.ok_bind, h4]
  rfl

/-- Non-vacuity: a transformation that drops the last entry of the flat vector. -/
example (g : ℕ → ℕ → ℝ) : (flatten (⟨Unit, fun _ => .ok (), fun _ s _ => .ok (.leaf ⟨[1], [0]⟩, s)⟩ : GT ℝ)).update
    (mk (.node .list [.leaf [2], .leaf [3]]) g) () none = .error .type :=
  C18_wrong_length (⟨Unit, fun _ => .ok (), fun _ s _ => .ok (.leaf ⟨[1], [0]⟩, s)⟩ : GT ℝ) (.node .list [.leaf [2], .leaf [3]])
    (by simp [PyTree.leaves, PyTree.leavesL]) g none () () ⟨[1], [0]⟩ (by simp [PyTree.leaves, PyTree.leavesL]) (fun _ _ _ _ => rfl)
/-- Non-vacuity: a two-leaf structure, and an Adam with weight decay chain. -/
example : (PyTree.node (.dict ["b", "w"]) [.leaf [3], .leaf [2, 3]] : Spec).leaves ≠ [] ∧
    EntrywiseT (chain [scaleByAdam (0.9 : ℝ) 0.999 1e-8 0, addDecayedWeights 0.01, scale (-0.1)]) := by
  refine ⟨by simp [PyTree.leaves, PyTree.leavesL], .chain _ ?_⟩
  intro t ht
  simp only [List.mem_cons, List.not_mem_nil, or_false] at ht
  rcases ht with rfl | rfl | rfl
  · exact .adam _ _ _ _
  · exact .addDecayedWeights _
  · exact .scale _

theorem outs_one (t : GT α) (s s' : t.State) (p u : Params α) (c : Call α) (hs : t.init p = .ok s)
    (hu : t.update c.1 s c.2 = .ok (u, s')) : t.outs p [c] = .ok [u] := by
  unfold GT.outs GT.exec
  rw [hs, Res.ok_bind, GT.run_cons, hu]
  rfl

theorem flatten_one (t : GT α) (σ : Spec) (hσ : σ.leaves ≠ []) (s s' : t.State) (p0 g p u : ℕ → ℕ → α)
    (hs : t.init (mk (flatSpec σ) (flatOf σ p0)) = .ok s)
    (hu : t.update (mk (flatSpec σ) (flatOf σ g)) s (some (mk (flatSpec σ) (flatOf σ p))) =
      .ok (mk (flatSpec σ) u, s')) :
    (flatten t).outs (mk σ p0) [(mk σ g, some (mk σ p))] = .ok [mk σ (pull σ u)] := by
  refine outs_one (flatten t) s s' _ _ _ ?_ ?_
  · show (flattenVec (mk σ p0) >>= _) = _
    rw [flattenVec_mk σ p0 hσ, Res.ok_bind, hs]
  · obtain ⟨fg, fp, e1, e2, e3⟩ := C18_calls_inner t σ hσ g (some p) s
    refine Eq.trans e3 ?_
    rw [flattenVec_mk σ _ hσ, Except.ok.injEq] at e1
    rw [flattenArg_mk σ hσ, Except.ok.injEq] at e2
    subst e1 e2
    refine Eq.trans (congrArg (fun x => x >>= _) hu) ?_
    rw [Res.ok_bind, unflattenVec_mk]
    rfl

theorem safeNorm_pos (x : Tensor ℝ) (h : 0 < x.norm) : safeNorm x 0 = x.norm := by
  unfold safeNorm
  simp [not_le.mpr h]

/-- Layout matters in general: the trust ratio of the concatenation is not the trust ratio per leaf, so `flatten` changes
`scale_by_trust_ratio` (params 3 and 4, gradients 1 and 0: the first update is 5 instead of 3). -/
theorem C18_not_trust_ratio : ¬ FlattenSame (scaleByTrustRatio (0 : ℝ)) := by
  intro h
  have h1 := h (.node .tuple [.leaf [1], .leaf [1]]) (by simp [PyTree.leaves, PyTree.leavesL]) (fun _ _ => 0)
    [(fun k _ => if k = 0 then 1 else 0, some (fun k _ => if k = 0 then 3 else 4))]
  generalize hσ : (PyTree.node .tuple [.leaf [1], .leaf [1]] : Spec) = σ at h1
  have hL : σ.leaves = [[1], [1]] := by rw [← hσ]; simp [PyTree.leaves, PyTree.leavesL]
  have hne : σ.leaves ≠ [] := by rw [hL]; simp
  -- the trust ratio step on any structure
  have tr : ∀ (τ : Spec) (g p : ℕ → ℕ → ℝ) (s : EmptyState),
      (scaleByTrustRatio (0 : ℝ)).update (mk τ g) s (some (mk τ p)) =
        .ok (mk τ (fun k i => g k i * (if JOps.eqb (safeNorm (Tensor.tens ((τ.leaves[k]?).getD []) (p k)) 0) 0 ||
          JOps.eqb (safeNorm (Tensor.tens ((τ.leaves[k]?).getD []) (g k)) 0) 0 then 1 else
          safeNorm (Tensor.tens ((τ.leaves[k]?).getD []) (p k)) 0 /
          safeNorm (Tensor.tens ((τ.leaves[k]?).getD []) (g k)) 0)), s) := by
    intro τ g p s
    rw [trustRatio_update_mk]
    congr 2
    unfold mk
    apply PyTree.mapIdx_congr
    intro k sh hk
    simp [trustRatioLeaf, hk]
  have h2 := (flatten_one (scaleByTrustRatio (0 : ℝ)) σ hne ⟨⟩ ⟨⟩ _ _ _ _ rfl (tr (flatSpec σ) _ _ ⟨⟩)).symm.trans
    (h1.trans (outs_one (scaleByTrustRatio (0 : ℝ)) ⟨⟩ ⟨⟩ _ _ _ rfl (tr σ _ _ ⟨⟩)))
  simp only [Except.ok.injEq, List.cons.injEq, and_true] at h2
  have h3 := mk_inj h2 0 [1] (by rw [hL]; rfl) 0 (by simp)
  have n1 : ∀ x : ℝ, (Tensor.tens [1] (fun _ => x)).norm = |x| := by
    intro x; rw [norm_tens]; simp [l2, Real.sqrt_sq_eq_abs]
  have hT : totalSize σ.leaves = 2 := by rw [hL]; simp [totalSize]
  have n2 : ∀ v : ℕ → ℝ, (Tensor.tens [2] v).norm = Real.sqrt (v 0 ^ 2 + v 1 ^ 2) := by
    intro v; rw [norm_tens]; simp [l2, Finset.sum_range_succ]
  have c : ∀ (w : ℕ → ℕ → ℝ), flatOf σ w 0 0 = w 0 0 ∧ flatOf σ w 0 1 = w 1 0 := by
    intro w; simp [flatOf, concatData, hL]
  have hf : ((PyTree.leaves (flatSpec σ))[0]?).getD [] = [2] := by simp [flatSpec, PyTree.leaves, hT]
  have hl : ((σ.leaves)[0]?).getD [] = [1] := by simp [hL]
  simp only [pull, offset_zero, Nat.zero_add, hf, hl, (c _).1, if_true] at h3
  have s5 : safeNorm (Tensor.tens [2] (flatOf σ (fun k _ => if k = 0 then (3 : ℝ) else 4) 0)) 0 = 5 := by
    have : (Tensor.tens [2] (flatOf σ (fun k _ => if k = 0 then (3 : ℝ) else 4) 0)).norm = 5 := by
      rw [n2, (c _).1, (c _).2]
      norm_num
      rw [show (25 : ℝ) = 5 ^ 2 by norm_num, Real.sqrt_sq (by norm_num)]
    rw [safeNorm_pos _ (by rw [this]; norm_num), this]
  have s1 : safeNorm (Tensor.tens [2] (flatOf σ (fun k _ => if k = 0 then (1 : ℝ) else 0) 0)) 0 = 1 := by
    have : (Tensor.tens [2] (flatOf σ (fun k _ => if k = 0 then (1 : ℝ) else 0) 0)).norm = 1 := by
      rw [n2, (c _).1, (c _).2]
      norm_num
    rw [safeNorm_pos _ (by rw [this]; norm_num), this]
  have s3 : ∀ x : ℝ, 0 < x → safeNorm (Tensor.tens [1] (fun _ => x)) 0 = x := by
    intro x hx
    rw [safeNorm_pos _ (by rw [n1]; exact abs_pos.mpr hx.ne'), n1, abs_of_pos hx]
  rw [s5, s1, s3 3 (by norm_num), s3 1 (by norm_num)] at h3
  simp at h3

end Optax
