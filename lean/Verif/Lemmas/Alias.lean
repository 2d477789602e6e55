import Verif.Model.Alias
import Verif.Props.Chain
import Verif.Lemmas.Counter
import Verif.Lemmas.Steps
import Verif.Spec.History

/-! Lemmas about chains whose last stage is the learning rate. -/

set_option linter.unusedSectionVars false

namespace Optax

/-- from `init`, the chain `t, ts…` returns `out` iff `t` run alone over the history returns some `mid` and the chain
`ts` run over `mid` (with the same params) returns `out` -/
theorem outs_chain_cons {α : Type} (t : GT α) (ts : List (GT α)) (p : Params α)
    (gs : List (Params α)) (ps : List (Option (Params α))) (hlen : gs.length = ps.length)
    (out : List (Params α)) :
    (chain (t :: ts)).outs p (gs.zip ps) = .ok out ↔
      ∃ mid, t.outs p (gs.zip ps) = .ok mid ∧ (chain ts).outs p (mid.zip ps) = .ok out := by
  rw [C02_chain_sequential (t :: ts) p gs ps hlen out]
  constructor
  · rintro ⟨s, s', h1, h2⟩
    simp only [chainInit, Res.bind_eq_ok, Res.pure_eq, Except.ok.injEq] at h1
    obtain ⟨a, ha, r, hr, rfl⟩ := h1
    cases s' with
    | none => exact h2.elim
    | some ar' =>
      obtain ⟨a', r'⟩ := ar'
      obtain ⟨mid, h3, h4⟩ := h2
      refine ⟨mid, ?_, ?_⟩
      · unfold GT.outs GT.exec
        rw [ha, Res.ok_bind, h3]; rfl
      · have hm := GT.run_length t a _ h3
        exact (C02_chain_sequential ts p mid ps (by simpa [hlen] using hm) out).mpr ⟨r, r', hr, h4⟩
  · rintro ⟨mid, h1, h2⟩
    unfold GT.outs GT.exec at h1
    simp only [Res.bind_eq_ok, Res.pure_eq, Except.ok.injEq] at h1
    obtain ⟨x, ⟨a, ha, h3⟩, rfl⟩ := h1
    have hm := GT.run_length t a _ h3
    obtain ⟨r, r', hr, h4⟩ := (C02_chain_sequential ts p x.1 ps (by simpa [hlen] using hm) out).mp h2
    exact ⟨some (a, r), some (x.2, r'), chainInit_cons_ok ha hr, x.1, h3, h4⟩

theorem outs_chain_nil {α : Type} (p : Params α) (gs : List (Params α)) (ps : List (Option (Params α)))
    (hlen : gs.length = ps.length) (out : List (Params α)) :
    (chain ([] : List (GT α))).outs p (gs.zip ps) = .ok out ↔ out = gs := by
  rw [C02_chain_sequential [] p gs ps hlen out]
  constructor
  · rintro ⟨s, s', _, h, _, _⟩; exact h
  · intro h; exact ⟨(0 : ℕ), (0 : ℕ), rfl, h, rfl, rfl⟩

theorem outs_length {α : Type} {t : GT α} {p : Params α} {h : List (Call α)} {us : List (Params α)}
    (hr : t.outs p h = .ok us) : us.length = h.length := by
  unfold GT.outs GT.exec at hr
  simp only [Res.bind_eq_ok, Res.pure_eq, Except.ok.injEq] at hr
  obtain ⟨x, ⟨a, _, h3⟩, rfl⟩ := hr
  exact GT.run_length t a _ h3

section
variable {α : Type} [Zero α] [One α] [Add α] [Sub α] [Mul α] [Div α] [Neg α] [JOps α]

/-- The learning rate used at call number `n` (from 0): the constant, or the schedule at `min(n, 2^31-1)`. -/
def LR.at : LR α → ℕ → α
  | .scalar x, _ => x
  | .schedule f, n => f (min (n : ℤ) 2147483647)

/-- multiply the `n`-th tree by minus the learning rate at `n` -/
def timesNegLR (lr : LR α) (us : List (Params α)) : List (Params α) :=
  us.mapIdx (fun n u => tmap (fun x => -(lr.at n) * x) u)

@[simp] theorem timesNegLR_length (lr : LR α) (us : List (Params α)) : (timesNegLR lr us).length = us.length := by
  simp [timesNegLR]

theorem scale_run (c : α) (s : EmptyState) (h : List (Call α)) :
    (scale c).run s h = .ok (h.map (fun x => tmap (fun y => c * y) x.1), s) := by
  induction h with
  | nil => rfl
  | cons a h ih =>
    rw [GT.run_cons_ok (u := tmap (fun y => c * y) a.1) (s' := s) _ _ _ _ rfl, ih]
    rfl

theorem schedule_run (f : Schedule α) (n : ℕ) (h : List (Call α)) :
    (scaleBySchedule f).run ⟨cntAt n⟩ h =
      .ok (h.mapIdx (fun j x => tmap (fun y => f (min ((n + j : ℕ) : ℤ) 2147483647) * y) x.1), ⟨cntAt (n + h.length)⟩) := by
  induction h generalizing n with
  | nil => rfl
  | cons a h ih =>
    have e : (scaleBySchedule f).update a.1 ⟨cntAt n⟩ a.2 =
        .ok (tmap (fun y => f (min (n : ℤ) 2147483647) * y) a.1, ⟨cntAt (n + 1)⟩) := by
      show Except.ok _ = _
      rw [cntAt_toInt, safeInt32Increment_cntAt]
    rw [GT.run_cons_ok _ _ _ _ e, ih (n + 1), Res.ok_bind]
    simp only [List.mapIdx_cons, Nat.add_zero, List.length_cons]
    have : ∀ j : ℕ, n + 1 + j = n + (j + 1) := by intro j; omega
    simp only [this]

theorem lr_outs (lr : LR α) (p : Params α) (gs : List (Params α)) (ps : List (Option (Params α)))
    (hlen : gs.length = ps.length) :
    (scaleByLearningRate lr).outs p (gs.zip ps) = .ok (timesNegLR lr gs) := by
  cases lr with
  | scalar x =>
    unfold GT.outs GT.exec
    show ((Except.ok (⟨⟩ : EmptyState) >>= fun s => (scale (-x)).run s _) >>= _) = _
    rw [Res.ok_bind, scale_run, Res.ok_bind]
    show Except.ok (List.map _ _) = _
    congr 1
    unfold timesNegLR LR.at
    apply List.ext_getElem
    · simp [hlen]
    · intro i h1 h2
      simp
  | schedule f =>
    unfold GT.outs GT.exec
    show ((Except.ok (⟨0#32⟩ : ScheduleState) >>= fun s => (scaleBySchedule (fun c => -f c)).run s _) >>= _) = _
    rw [Res.ok_bind, ← cntAt_zero, schedule_run, Res.ok_bind]
    show Except.ok (List.mapIdx _ _) = _
    congr 1
    unfold timesNegLR LR.at
    apply List.ext_getElem
    · simp [hlen]
    · intro i h1 h2
      simp

theorem outs_chain_single (t : GT α) (p : Params α) (gs : List (Params α)) (ps : List (Option (Params α)))
    (hlen : gs.length = ps.length) (out : List (Params α)) :
    (chain [t]).outs p (gs.zip ps) = .ok out ↔ t.outs p (gs.zip ps) = .ok out := by
  rw [outs_chain_cons t [] p gs ps hlen]
  constructor
  · rintro ⟨mid, h1, h2⟩
    have hm := outs_length h1
    rw [outs_chain_nil p mid ps (by simpa [hlen] using hm)] at h2
    rw [h2]; exact h1
  · intro h
    have hm := outs_length h
    exact ⟨out, h, (outs_chain_nil p out ps (by simpa [hlen] using hm) out).mpr rfl⟩

/-- chain of a transformation and the learning rate -/
theorem outs_chain_lr (t : GT α) (lr : LR α) (p : Params α) (gs : List (Params α)) (ps : List (Option (Params α)))
    (hlen : gs.length = ps.length) (out : List (Params α)) :
    (chain [t, scaleByLearningRate lr]).outs p (gs.zip ps) = .ok out ↔
      ∃ mid, t.outs p (gs.zip ps) = .ok mid ∧ out = timesNegLR lr mid := by
  rw [outs_chain_cons t _ p gs ps hlen]
  constructor
  · rintro ⟨mid, h1, h2⟩
    have hm : mid.length = ps.length := by simpa [hlen] using outs_length h1
    rw [outs_chain_single _ p mid ps hm, lr_outs lr p mid ps hm] at h2
    exact ⟨mid, h1, by injection h2 with h; exact h.symm⟩
  · rintro ⟨mid, h1, rfl⟩
    have hm : mid.length = ps.length := by simpa [hlen] using outs_length h1
    exact ⟨mid, h1, (outs_chain_single _ p mid ps hm _).mpr (lr_outs lr p mid ps hm)⟩

theorem identity_outs (p : Params α) (gs : List (Params α)) (ps : List (Option (Params α)))
    (hlen : gs.length = ps.length) : (identity (α := α)).outs p (gs.zip ps) = .ok gs := by
  have : ∀ (h : List (Call α)) (s : EmptyState), (identity (α := α)).run s h = .ok (h.map Prod.fst, s) := by
    intro h
    induction h with
    | nil => intro s; rfl
    | cons a h ih =>
      intro s
      rw [GT.run_cons_ok (u := a.1) (s' := s) _ _ _ _ rfl, ih s]; rfl
  unfold GT.outs GT.exec
  show ((Except.ok (⟨⟩ : EmptyState) >>= fun s => (identity (α := α)).run s _) >>= _) = _
  rw [Res.ok_bind, this, Res.ok_bind]
  show Except.ok (List.map Prod.fst _) = _
  rw [List.map_fst_zip (by omega)]

theorem zip_hist (σ : Spec) (g : ℕ → ℕ → ℕ → α) (pp : ℕ → Option (Params α)) (N : ℕ) :
    hist σ g pp N = ((List.range N).map (fun n => mk σ (g n))).zip ((List.range N).map pp) := by
  unfold hist
  rw [List.zip_map']

theorem timesNegLR_hist (lr : LR α) (σ : Spec) (u : ℕ → ℕ → ℕ → α) (N : ℕ) :
    timesNegLR lr ((List.range N).map (fun n => mk σ (u n))) =
      (List.range N).map (fun n => mk σ (fun k i => -(lr.at n) * u n k i)) := by
  unfold timesNegLR
  apply List.ext_getElem
  · simp
  · intro i h1 h2
    simp

/-- chaining on a history: if `t` returns the trees `u n`, the chain behaves as the rest of the chain on `u` -/
theorem outs_chain_hist (t : GT α) (ts : List (GT α)) (p : Params α) (σ : Spec) (g u : ℕ → ℕ → ℕ → α)
    (pp : ℕ → Option (Params α)) (N : ℕ)
    (ht : t.outs p (hist σ g pp N) = .ok ((List.range N).map (fun n => mk σ (u n)))) (out : List (Params α))
    (hts : (chain ts).outs p (hist σ u pp N) = .ok out) :
    (chain (t :: ts)).outs p (hist σ g pp N) = .ok out := by
  rw [zip_hist] at ht hts ⊢
  rw [outs_chain_cons t ts p _ _ (by simp)]
  exact ⟨_, ht, hts⟩

theorem outs_chain_hist_last (t : GT α) (p : Params α) (σ : Spec) (g : ℕ → ℕ → ℕ → α)
    (pp : ℕ → Option (Params α)) (N : ℕ) (out : List (Params α))
    (ht : t.outs p (hist σ g pp N) = .ok out) : (chain [t]).outs p (hist σ g pp N) = .ok out := by
  rw [zip_hist] at ht ⊢
  rwa [outs_chain_single t p _ _ (by simp)]

theorem outs_chain_hist_lr (t : GT α) (lr : LR α) (p : Params α) (σ : Spec) (g u : ℕ → ℕ → ℕ → α)
    (pp : ℕ → Option (Params α)) (N : ℕ)
    (ht : t.outs p (hist σ g pp N) = .ok ((List.range N).map (fun n => mk σ (u n)))) :
    (chain [t, scaleByLearningRate lr]).outs p (hist σ g pp N) =
      .ok ((List.range N).map (fun n => mk σ (fun k i => -(lr.at n) * u n k i))) := by
  rw [zip_hist] at ht ⊢
  rw [outs_chain_lr t lr p _ _ (by simp)]
  exact ⟨_, ht, (timesNegLR_hist lr σ u N).symm⟩

theorem lr_outs_hist (lr : LR α) (p : Params α) (σ : Spec) (g : ℕ → ℕ → ℕ → α) (pp : ℕ → Option (Params α)) (N : ℕ) :
    (scaleByLearningRate lr).outs p (hist σ g pp N) =
      .ok ((List.range N).map (fun n => mk σ (fun k i => -(lr.at n) * g n k i))) := by
  rw [zip_hist, lr_outs lr p _ _ (by simp), timesNegLR_hist]

end
end Optax
