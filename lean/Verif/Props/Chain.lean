import Verif.Lemmas.Run

/-!
# C02, C03, C04: `chain`
-/

namespace Optax
variable {α : Type}

/-! ## Specification: a pipeline of stream transducers -/

/-- `Pipeline ts s calls out s'`: feeding the gradient stream through the transformations one after
the other, *each run alone over the whole stream with its own state*, every one receiving the same
stream of params, turns the gradients into `out` and the states `s` into `s'`. -/
def Pipeline : (ts : List (GT α)) → ChainState ts → List (Params α) → List (Option (Params α)) →
    List (Params α) → ChainState ts → Prop
  | [], s, gs, _, out, s' => out = gs ∧ s = (0 : ℕ) ∧ s' = (0 : ℕ)
  | _ :: _, none, _, _, _, _ => False
  | _ :: _, some _, _, _, _, none => False
  | t :: ts, some (s, r), gs, ps, out, some (s', r') =>
    ∃ mid, t.run s (gs.zip ps) = .ok (mid, s') ∧ Pipeline ts r mid ps out r'

/-- A chain of one-or-more transformations, run step by step, is the pipeline: forward direction and
converse, so the chain raises exactly when some stage of the pipeline raises. -/
theorem chain_run_iff_pipeline (ts : List (GT α)) (s : ChainState ts)
    (hs : ChainState.length ts s = ts.length)
    (gs : List (Params α)) (ps : List (Option (Params α))) (hlen : gs.length = ps.length)
    (out : List (Params α)) (s' : ChainState ts) :
    (chain ts).run s (gs.zip ps) = .ok (out, s') ↔ Pipeline ts s gs ps out s' := by
  induction ts generalizing gs out with
  | nil =>
    have hs0 : s = (0 : ℕ) := hs
    subst hs0
    have key : ∀ (h : List (Call α)), (chain ([] : List (GT α))).run (0 : ℕ) h
        = .ok (h.map Prod.fst, (0 : ℕ)) := by
      intro h
      induction h with
      | nil => rfl
      | cons c h ih =>
        rw [GT.run_cons]
        have : (chain ([] : List (GT α))).update c.1 (0 : ℕ) c.2 = .ok (c.1, (0 : ℕ)) := rfl
        rw [this]
        simp only [Res.ok_bind]
        rw [ih]
        rfl
    rw [key, List.map_fst_zip (by omega)]
    simp only [Pipeline, Except.ok.injEq, Prod.mk.injEq, true_and]
    constructor
    · rintro ⟨h1, h2⟩; exact ⟨h1.symm, h2.symm⟩
    · rintro ⟨h1, h2⟩; exact ⟨h1.symm, h2.symm⟩
  | cons t ts ih =>
    cases s with
    | none => simp [ChainState.length] at hs
    | some sr =>
      obtain ⟨a, r⟩ := sr
      have hr : ChainState.length ts r = ts.length := by
        simp only [ChainState.length, List.length_cons] at hs; omega
      -- one call of the chain
      have step : ∀ (g : Params α) (p : Option (Params α)) (a : t.State) (r : ChainState ts),
          ChainState.length ts r = ts.length →
          (chain (t :: ts)).update g (some (a, r)) p =
            (t.update g a p >>= fun u => (chain ts).update u.1 r p >>= fun us =>
              .ok (us.1, some (u.2, us.2))) := by
        intro g p a r hr
        simp only [chain, ChainState.length, List.length_cons, hr, Nat.add_comm, ne_eq,
          not_true_eq_false, if_false, chainLoop, Res.pure_eq]
      -- runs
      have main : ∀ (gs : List (Params α)) (ps : List (Option (Params α))),
          gs.length = ps.length → ∀ (a : t.State) (r : ChainState ts),
          ChainState.length ts r = ts.length → ∀ out s',
          ((chain (t :: ts)).run (some (a, r)) (gs.zip ps) = .ok (out, s') ↔
            ∃ mid a' r', t.run a (gs.zip ps) = .ok (mid, a') ∧
              (chain ts).run r (mid.zip ps) = .ok (out, r') ∧ s' = some (a', r')) := by
        intro gs
        induction gs with
        | nil =>
          intro ps hlen a r hr out s'
          have : ps = [] := by simpa using hlen.symm
          subst this
          simp only [List.zip_nil_left, GT.run_nil, Except.ok.injEq, Prod.mk.injEq]
          constructor
          · rintro ⟨h1, h2⟩
            exact ⟨[], a, r, ⟨rfl, rfl⟩, by simp [h1, GT.run_nil], h2.symm⟩
          · rintro ⟨mid, a', r', ⟨h1, h2⟩, h3, h4⟩
            subst h1; subst h2
            simp only [List.zip_nil_left, GT.run_nil, Except.ok.injEq, Prod.mk.injEq] at h3
            obtain ⟨h5, h6⟩ := h3
            subst h6
            exact ⟨h5, h4.symm⟩
        | cons g gs ihg =>
          intro ps hlen a r hr out s'
          cases ps with
          | nil => simp at hlen
          | cons p ps =>
            simp only [List.length_cons, add_left_inj] at hlen
            simp only [List.zip_cons_cons]
            rw [GT.run_cons, step g p a r hr, GT.run_cons]
            simp only [chain]
            cases hx : t.update g a p with
            | error e => simp
            | ok x =>
              simp only [Res.ok_bind, hr, ne_eq, not_true_eq_false, if_false]
              cases hy : chainLoop ts x.1 r p with
              | error e =>
                simp only [Res.error_bind, reduceCtorEq, false_iff, not_exists]
                rintro mid a' r' ⟨h1, h2, _⟩
                rw [Res.bind_eq_ok] at h1
                obtain ⟨rs, _, h1⟩ := h1
                simp only [Except.ok.injEq, Prod.mk.injEq] at h1
                rw [← h1.1, List.zip_cons_cons, GT.run_cons] at h2
                simp [hr, hy] at h2
              | ok y =>
                simp only [Res.ok_bind]
                have hyl : ChainState.length ts y.2 = ts.length := by
                  apply chainLoop_length ts x.1 r p hr (u := y.1)
                  exact hy
                constructor
                · intro h
                  rw [Res.bind_eq_ok] at h
                  obtain ⟨rs, h1, h2⟩ := h
                  rw [show rs = (rs.1, rs.2) from rfl, ihg ps hlen x.2 y.2 hyl] at h1
                  obtain ⟨mid, a', r', h3, h4, h5⟩ := h1
                  refine ⟨x.1 :: mid, a', r', by rw [h3]; rfl, ?_, ?_⟩
                  · rw [List.zip_cons_cons, GT.run_cons]
                    have hyy : (chain ts).update x.1 r p = .ok y := by simp [chain, hr, hy]
                    rw [hyy]
                    simp only [Res.ok_bind]
                    rw [h4]
                    simp only [Except.ok.injEq, Prod.mk.injEq] at h2
                    simp [h2.1.symm]
                  · simp only [Except.ok.injEq, Prod.mk.injEq] at h2
                    rw [← h2.2, h5]
                · rintro ⟨mid, a', r', h1, h2, h3⟩
                  rw [Res.bind_eq_ok] at h1
                  obtain ⟨rs, h1, h4⟩ := h1
                  simp only [Except.ok.injEq, Prod.mk.injEq] at h4
                  obtain ⟨h4, h5⟩ := h4
                  subst h4
                  rw [List.zip_cons_cons, GT.run_cons] at h2
                  have hyy : (chain ts).update x.1 r p = .ok y := by simp [chain, hr, hy]
                  rw [hyy] at h2
                  simp only [Res.ok_bind] at h2
                  rw [Res.bind_eq_ok] at h2
                  obtain ⟨qs, h6, h7⟩ := h2
                  simp only [Except.ok.injEq, Prod.mk.injEq] at h7
                  have := (ihg ps hlen x.2 y.2 hyl qs.1 s').mpr
                    ⟨rs.1, a', r', by rw [h1, ← h5], by rw [h6, ← h7.2], h3⟩
                  rw [this]
                  simp [h7.1]
      rw [main gs ps hlen a r hr out s']
      cases s' with
      | none => simp [Pipeline]
      | some sr' =>
        obtain ⟨a', r'⟩ := sr'
        simp only [Pipeline]
        constructor
        · rintro ⟨mid, a1, r1, h1, h2, h3⟩
          simp only [Option.some.injEq, Prod.mk.injEq] at h3
          obtain ⟨h3, h4⟩ := h3
          subst h3; subst h4
          have hm := GT.run_length t a _ h1
          refine ⟨mid, h1, (ih r hr mid (by simpa [hlen] using hm) out _).mp h2⟩
        · rintro ⟨mid, h1, h2⟩
          have hm := GT.run_length t a _ h1
          exact ⟨mid, a', r', h1, (ih r hr mid (by simpa [hlen] using hm) out _).mpr h2, rfl⟩

/-- **C02.** Started from `init` on any params and run on any history, `chain(*ts)` returns `out` iff
all `init`s succeed and the pipeline of the transformations, each run alone over the whole history with
its own private state (`Pipeline`), returns `out`. -/
theorem C02_chain_sequential (ts : List (GT α)) (p : Params α)
    (gs : List (Params α)) (ps : List (Option (Params α))) (hlen : gs.length = ps.length)
    (out : List (Params α)) :
    (chain ts).outs p (gs.zip ps) = .ok out ↔
      ∃ s s', chainInit ts p = .ok s ∧ Pipeline ts s gs ps out s' := by
  unfold GT.outs GT.exec
  simp only [Res.bind_eq_ok, Res.pure_eq, Except.ok.injEq]
  constructor
  · rintro ⟨r, ⟨s, h1, h2⟩, rfl⟩
    refine ⟨s, r.2, h1, ?_⟩
    exact (chain_run_iff_pipeline ts s (chain_length_init ts p s h1) gs ps hlen r.1 r.2).mp h2
  · rintro ⟨s, s', h1, h2⟩
    refine ⟨(out, s'), ⟨s, h1, ?_⟩, rfl⟩
    exact (chain_run_iff_pipeline ts s (chain_length_init ts p s h1) gs ps hlen out s').mpr h2

/-- One call of the chain, spelled out: the output of each transformation is the input of the next, all see the same
params, and an exception in any of them is the exception of the chain. -/
theorem C02_chain_step (t : GT α) (ts : List (GT α)) (s : t.State) (r : ChainState ts)
    (hr : ChainState.length ts r = ts.length) (g : Params α) (p : Option (Params α)) :
    (chain (t :: ts)).update g (some (s, r)) p =
      (do let (u, s') ← t.update g s p
          let (u', r') ← (chain ts).update u r p
          return (u', some (s', r'))) := by
  simp only [chain, ChainState.length, List.length_cons, hr, Nat.add_comm, ne_eq,
    not_true_eq_false, if_false, chainLoop]

/-- **C04.** `update` on a state list whose length is not the number of transformations raises
ValueError, whatever the inner `update` functions do. -/
theorem C04_chain_wrong_arity (ts : List (GT α)) (s : ChainState ts)
    (h : ChainState.length ts s ≠ ts.length) (g : Params α) (p : Option (Params α)) :
    (chain ts).update g s p = .error .value := by
  simp [chain, h, valueError]

/-- **C04.** Every state obtained from `init` by any history of successful updates has the right
arity. -/
theorem C04_chain_reachable_arity (ts : List (GT α)) (p : Params α) (h : List (Call α))
    (us : List (Params α)) (s : (chain ts).State) (hr : (chain ts).exec p h = .ok (us, s)) :
    ChainState.length ts s = ts.length := by
  unfold GT.exec at hr
  rw [Res.bind_eq_ok] at hr
  obtain ⟨s0, h0, h1⟩ := hr
  have hl0 := chain_length_init ts p s0 h0
  clear h0
  induction h generalizing s0 us with
  | nil => simp at h1; rw [← h1.2]; exact hl0
  | cons c h ih =>
    rw [GT.run_cons, Res.bind_eq_ok] at h1
    obtain ⟨r, hr1, h1⟩ := h1
    rw [Res.bind_eq_ok] at h1
    obtain ⟨rs, hr2, h1⟩ := h1
    simp only [Except.ok.injEq, Prod.mk.injEq] at h1
    have hr1' : chainLoop ts c.1 s0 c.2 = .ok (r.1, r.2) := by simpa [chain, hl0] using hr1
    exact ih rs.1 r.2 (by rw [← h1.2]; exact hr2) (chainLoop_length ts c.1 s0 c.2 hl0 hr1')

/-- **C04.** On a state of the right arity the outcome is that of the loop, so the ValueError above is raised
only by a mismatch (or by an inner transformation). -/
theorem C04_chain_right_arity (ts : List (GT α)) (s : ChainState ts)
    (h : ChainState.length ts s = ts.length) (g : Params α) (p : Option (Params α)) :
    (chain ts).update g s p = chainLoop ts g s p := by
  simp [chain, h]

/-- **C04.** `chain()` without arguments raises at construction, and is the only `chain` call that does. -/
theorem C04_chain_no_args (ts : List (GT α)) :
    (chainCall ts = .error .value ∧ ts = []) ∨ (chainCall ts = .ok (chain ts) ∧ ts ≠ []) := by
  cases ts with
  | nil => left; exact ⟨rfl, rfl⟩
  | cons t ts => right; exact ⟨rfl, by simp⟩

/-- a too-long and a too-short state list for a one-element chain -/
example : ChainState.length [identity (α := ℝ)] (some (⟨⟩, (1 : ℕ))) = 2 ∧
    ChainState.length [identity (α := ℝ)] none = 0 := ⟨rfl, rfl⟩

/-! ## C03 -/

/-- Concatenate the state lists of two chains. -/
def ChainState.app : (ts us : List (GT α)) → ChainState ts → ChainState us → ChainState (ts ++ us)
  | [], _, _, b => b
  | _ :: _, _, none, _ => none
  | _ :: ts, us, some (s, r), b => some (s, ChainState.app ts us r b)

theorem ChainState.app_length (ts us : List (GT α)) (a : ChainState ts) (b : ChainState us)
    (ha : ChainState.length ts a = ts.length) (hb : ChainState.length us b = us.length) :
    ChainState.length (ts ++ us) (ChainState.app ts us a b) = (ts ++ us).length := by
  induction ts with
  | nil => simpa [ChainState.app] using hb
  | cons t ts ih =>
    cases a with
    | none => simp [ChainState.length] at ha
    | some sr =>
      obtain ⟨s, r⟩ := sr
      simp only [ChainState.length, List.length_cons] at ha
      have := ih r (by omega)
      simp only [List.cons_append, ChainState.app, ChainState.length, List.length_cons]
      omega

theorem chainLoop_app (ts us : List (GT α)) (a : ChainState ts) (b : ChainState us)
    (ha : ChainState.length ts a = ts.length) (g : Params α) (p : Option (Params α)) :
    chainLoop (ts ++ us) g (ChainState.app ts us a b) p =
      (chainLoop ts g a p >>= fun x => chainLoop us x.1 b p >>= fun y =>
        .ok (y.1, ChainState.app ts us x.2 y.2)) := by
  induction ts generalizing g with
  | nil =>
    simp only [chainLoop, Res.ok_bind, List.nil_append, ChainState.app]
    cases chainLoop us g b p <;> rfl
  | cons t ts ih =>
    cases a with
    | none => simp [ChainState.length] at ha
    | some sr =>
      obtain ⟨s, r⟩ := sr
      simp only [ChainState.length, List.length_cons] at ha
      simp only [List.cons_append, ChainState.app, chainLoop, Res.bind_assoc, Res.pure_eq]
      congr 1
      funext x
      rw [ih r (by omega)]
      simp only [Res.bind_assoc, Res.ok_bind, ChainState.app]

theorem chainInit_app (ts us : List (GT α)) (p : Params α) :
    chainInit (ts ++ us) p = (chainInit ts p >>= fun a => chainInit us p >>= fun b =>
      .ok (ChainState.app ts us a b)) := by
  induction ts with
  | nil =>
    simp only [chainInit, Res.ok_bind, List.nil_append, ChainState.app]
    cases chainInit us p <;> rfl
  | cons t ts ih =>
    simp only [List.cons_append, chainInit, Res.bind_assoc, Res.pure_eq]
    congr 1
    funext x
    rw [ih]
    simp only [Res.bind_assoc, Res.ok_bind, ChainState.app]

theorem Res.Rel.of_eq {β γ : Type} {R : β → γ → Prop} {x : Res β} {f : β → γ}
    (h : ∀ b, x = .ok b → R b (f b)) : Res.Rel R x (x >>= fun b => .ok (f b)) := by
  cases x with
  | error e => rfl
  | ok b => exact h b rfl

/-- **C03.** Chaining two chains is the chain of the concatenated lists: on every history from `init` both
return the same updates, or raise the same exception. -/
theorem C03_chain_assoc (ts us : List (GT α)) :
    (chain [chain ts, chain us]).Equiv (chain (ts ++ us)) := by
  apply GT.equiv_of_bisim _ _ (fun s s' => ∃ a b, ChainState.length ts a = ts.length ∧
    ChainState.length us b = us.length ∧ s = some (a, some (b, (0 : ℕ))) ∧
    s' = ChainState.app ts us a b)
  · intro p
    show Res.Rel _ (chainInit [chain ts, chain us] p) (chainInit (ts ++ us) p)
    rw [chainInit_app]
    simp only [chainInit, chain]
    cases hx : chainInit ts p with
    | error e => rfl
    | ok a =>
      cases hy : chainInit us p with
      | error e => rfl
      | ok b =>
        exact ⟨a, b, chain_length_init ts p a hx, chain_length_init us p b hy, rfl, rfl⟩
  · rintro g s s' p ⟨a, b, ha, hb, rfl, rfl⟩
    rw [C04_chain_right_arity (ts ++ us) _ (ChainState.app_length ts us a b ha hb),
      C04_chain_right_arity [chain ts, chain us] _ rfl, chainLoop_app ts us a b ha]
    simp only [chainLoop, chain, ha, hb,
      ne_eq, not_true_eq_false, if_false]
    cases hx : chainLoop ts g a p with
    | error e => rfl
    | ok x =>
      simp only [Res.ok_bind]
      cases hy : chainLoop us x.1 b p with
      | error e => rfl
      | ok y =>
        exact ⟨rfl, x.2, y.2, chainLoop_length ts g a p ha hx,
          chainLoop_length us x.1 b p hb hy, rfl, rfl⟩

/-- **C03.** `chain(t)` behaves as `t`. -/
theorem C03_chain_singleton (t : GT α) : (chain [t]).Equiv t := by
  apply GT.equiv_of_bisim _ _ (fun s s' => s = some (s', (0 : ℕ)))
  · intro p
    show Res.Rel _ (chainInit [t] p) _
    simp only [chainInit]
    cases hx : t.init p <;> rfl
  · rintro g s s' p rfl
    rw [C04_chain_right_arity [t] _ rfl]
    simp only [chainLoop]
    cases hx : t.update g s' p with
    | error e => rfl
    | ok x => exact ⟨rfl, rfl⟩

/-- **C03.** Inserting `identity()` anywhere in a chain changes nothing observable. -/
theorem C03_chain_identity (ts us : List (GT α)) :
    (chain (ts ++ identity :: us)).Equiv (chain (ts ++ us)) := by
  apply GT.equiv_of_bisim _ _ (fun s s' => ∃ a b, ChainState.length ts a = ts.length ∧
    ChainState.length us b = us.length ∧
    s = ChainState.app ts (identity :: us) a (some (⟨⟩, b)) ∧ s' = ChainState.app ts us a b)
  · intro p
    show Res.Rel _ (chainInit (ts ++ identity :: us) p) (chainInit (ts ++ us) p)
    rw [chainInit_app, chainInit_app]
    cases hx : chainInit ts p with
    | error e => rfl
    | ok a =>
      simp only [Res.ok_bind, chainInit, identity]
      cases hy : chainInit us p with
      | error e => rfl
      | ok b =>
        exact ⟨a, b, chain_length_init ts p a hx, chain_length_init us p b hy, rfl, rfl⟩
  · rintro g s s' p ⟨a, b, ha, hb, rfl, rfl⟩
    have hb' : ChainState.length (identity :: us) (some (⟨⟩, b)) = (identity :: us).length := by
      simp only [ChainState.length, List.length_cons, hb]; omega
    rw [C04_chain_right_arity _ _ (ChainState.app_length ts us a b ha hb),
      C04_chain_right_arity _ _ (ChainState.app_length ts (identity :: us) a _ ha hb'),
      chainLoop_app ts us a b ha, chainLoop_app ts (identity :: us) a _ ha]
    cases hx : chainLoop ts g a p with
    | error e => rfl
    | ok x =>
      simp only [Res.ok_bind, chainLoop, identity]
      cases hy : chainLoop us x.1 b p with
      | error e => rfl
      | ok y =>
        exact ⟨rfl, x.2, y.2, chainLoop_length ts g a p ha hx,
          chainLoop_length us x.1 b p hb hy, rfl, rfl⟩

end Optax
