import Verif.Model.Schedule
import Verif.Props.Counters

/-!
# C48 (and C01) for `inject_hyperparams`
-/

set_option linter.unusedSectionVars false
set_option linter.unusedSimpArgs false

namespace Optax

section
variable {α β : Type} [Zero α] [One α] [Add α] [Sub α] [Mul α] [Div α] [Neg α] [JOps α]

/-- **C01** for `inject_hyperparams`. -/
theorem C01_inject_hyperparams (F : Factory α β) (static : List String) (args : List (String × ArgVal α β)) :
    Saturates (injectHyperparams F static args) InjectState.count := by
  apply saturates_of_step
  · rintro p s h
    obtain ⟨i, -, h⟩ := Res.bind_eq_ok.mp h
    simp only [Res.pure_eq, Except.ok.injEq] at h
    rw [← h]
  · rintro g s p u s' h
    obtain ⟨i, -, h⟩ := Res.bind_eq_ok.mp h
    simp only [Res.pure_eq, Except.ok.injEq, Prod.mk.injEq] at h
    rw [← h.2]

/-! ## Specification -/

/-- What the user does between `init` and the end: change an entry of `state.hyperparams`, or call `update`. -/
inductive HpEvent (α : Type) where
  | override (k : String) (v : α)
  | update (g : Params α) (p : Option (Params α))

/-- the real thing: overrides write into the dict held in the state -/
def injectRun (F : Factory α β) (static : List String) (args : List (String × ArgVal α β)) :
    InjectState α F.State → List (HpEvent α) → Res (List (Params α) × InjectState α F.State)
  | s, [] => .ok ([], s)
  | s, .override k v :: rest => injectRun F static args { s with hyperparams := dictSet s.hyperparams k v } rest
  | s, .update g p :: rest => do
    let r ← (injectHyperparams F static args).update g s p
    let q ← injectRun F static args r.2 rest
    return (r.1 :: q.1, q.2)

/-- the last value written to `k`, if any -/
def lastOverride (k : String) : List (HpEvent α) → Option α
  | [] => none
  | .override k' v :: rest => (lastOverride k rest).or (if k' = k then some v else none)
  | .update _ _ :: rest => lastOverride k rest

/-- the number of updates -/
def numUpdates : List (HpEvent α) → ℕ
  | [] => 0
  | .override _ _ :: rest => numUpdates rest
  | .update _ _ :: rest => numUpdates rest + 1

/-- Specification of the hyperparameters in force after the events `past`, when the `n`-th update is made: numbers have
the last value written by the user or else their initial value; schedules are evaluated at `n` (which saturates at
`2^31 - 1`). -/
def hpAt (gr : HpGroups α β) (past : List (HpEvent α)) (n : ℕ) : List (String × α) :=
  gr.numeric.map (fun kx => (kx.1, (lastOverride kx.1 past).getD kx.2)) ++
    gr.sched.map (fun kf => (kf.1, kf.2 (min (n : ℤ) (2 ^ 31 - 1))))

/-- Specification: each update is that of the inner transformation *built with the hyperparameters in force*; the inner
state is carried over.  `past` are the events so far. -/
def specRun (F : Factory α β) (gr : HpGroups α β) :
    List (HpEvent α) → F.State → List (HpEvent α) → Res (List (Params α) × F.State)
  | _, s, [] => .ok ([], s)
  | past, s, .override k v :: rest => specRun F gr (past ++ [.override k v]) s rest
  | past, s, .update g p :: rest => do
    let r ← (F.build gr.other (hpAt gr past (numUpdates past + 1))).update g s p
    let q ← specRun F gr (past ++ [.update g p]) r.2 rest
    return (r.1 :: q.1, q.2)

theorem injectRun_update (F : Factory α β) (static : List String) (args : List (String × ArgVal α β))
    (s : InjectState α F.State) (g : Params α) (p : Option (Params α)) (rest : List (HpEvent α)) :
    injectRun F static args s (.update g p :: rest) = ((injectHyperparams F static args).update g s p >>= fun r =>
      injectRun F static args r.2 rest >>= fun q => pure (r.1 :: q.1, q.2)) := rfl

theorem specRun_override (F : Factory α β) (gr : HpGroups α β) (past : List (HpEvent α)) (s : F.State) (k : String) (v : α)
    (rest : List (HpEvent α)) :
    specRun F gr past s (.override k v :: rest) = specRun F gr (past ++ [.override k v]) s rest := rfl

theorem specRun_update (F : Factory α β) (gr : HpGroups α β) (past : List (HpEvent α)) (s : F.State) (g : Params α)
    (p : Option (Params α)) (rest : List (HpEvent α)) :
    specRun F gr past s (.update g p :: rest) =
      ((F.build gr.other (hpAt gr past (numUpdates past + 1))).update g s p >>= fun r =>
        specRun F gr (past ++ [.update g p]) r.2 rest >>= fun q => pure (r.1 :: q.1, q.2)) := rfl

/-! ## dict lemmas -/

theorem dictSet_fresh (A : List (String × α)) (k : String) (v : α) (h : k ∉ A.map Prod.fst) :
    dictSet A k v = A ++ [(k, v)] := by
  unfold dictSet
  rw [if_neg]
  intro hany
  rw [List.any_eq_true] at hany
  obtain ⟨x, hx, e⟩ := hany
  exact h (List.mem_map.mpr ⟨x, hx, by simpa using e⟩)

theorem map_set_notin (A : List (String × α)) (k : String) (v : α) (h : k ∉ A.map Prod.fst) :
    A.map (fun x => if x.1 = k then (k, v) else x) = A := by
  conv_rhs => rw [← List.map_id A]
  apply List.map_congr_left
  intro x hx
  rw [if_neg]
  · rfl
  · intro e
    exact h (List.mem_map.mpr ⟨x, hx, e⟩)

theorem dictSet_mem (A B : List (String × α)) (k : String) (w v : α) (hA : k ∉ A.map Prod.fst)
    (hB : k ∉ B.map Prod.fst) : dictSet (A ++ (k, w) :: B) k v = A ++ (k, v) :: B := by
  unfold dictSet
  rw [if_pos (by simp)]
  rw [List.map_append, List.map_cons, map_set_notin A k v hA, map_set_notin B k v hB]
  simp

theorem dictUpdate_fresh (A items : List (String × α)) (h : ((A ++ items).map Prod.fst).Nodup) :
    dictUpdate A items = A ++ items := by
  induction items generalizing A with
  | nil => simp [dictUpdate]
  | cons x rest ih =>
    have h1 : x.1 ∉ A.map Prod.fst := by
      rw [List.map_append, List.map_cons] at h
      have := List.disjoint_of_nodup_append h
      intro hm
      exact this hm (by simp)
    have : dictUpdate A (x :: rest) = dictUpdate (dictSet A x.1 x.2) rest := rfl
    rw [this, dictSet_fresh A _ _ h1, ih _ (by simpa using h)]
    simp

theorem dictUpdate_over (A L items : List (String × α)) (hk : L.map Prod.fst = items.map Prod.fst)
    (h : ((A ++ L).map Prod.fst).Nodup) : dictUpdate (A ++ L) items = A ++ items := by
  induction items generalizing A L with
  | nil =>
    have : L = [] := by simpa using hk
    simp [dictUpdate, this]
  | cons x rest ih =>
    obtain ⟨y, L', rfl⟩ : ∃ y L', L = y :: L' := by
      cases L with
      | nil => simp at hk
      | cons y L' => exact ⟨y, L', rfl⟩
    obtain ⟨k, w⟩ := y
    obtain ⟨k', v⟩ := x
    simp only [List.map_cons, List.cons.injEq] at hk
    obtain ⟨rfl, hk⟩ := hk
    rw [List.map_append, List.map_cons] at h
    have hA : k ∉ A.map Prod.fst := by
      have := List.disjoint_of_nodup_append h
      intro hm
      exact this hm (by simp)
    have hB : k ∉ L'.map Prod.fst := (List.nodup_cons.mp (List.nodup_append.mp h).2.1).1
    have : dictUpdate (A ++ (k, w) :: L') ((k, v) :: rest) = dictUpdate (dictSet (A ++ (k, w) :: L') k v) rest := rfl
    rw [this, dictSet_mem A L' k w v hA hB]
    have e : A ++ (k, v) :: L' = (A ++ [(k, v)]) ++ L' := by simp
    rw [e, ih _ L' hk (by simpa using h)]
    simp

/-! ## refinement -/

theorem groupArgs_names (static : List String) (args : List (String × ArgVal α β)) (k : String) :
    (k ∈ (groupArgs static args).numeric.map Prod.fst ↔ ∃ x, (k, ArgVal.numeric x) ∈ args ∧ k ∉ static) ∧
    (k ∈ (groupArgs static args).sched.map Prod.fst ↔ ∃ f, (k, ArgVal.callable f) ∈ args ∧ k ∉ static) := by
  induction args with
  | nil => simp [groupArgs]
  | cons a rest ih =>
    obtain ⟨name, v⟩ := a
    unfold groupArgs
    by_cases hn : name ∈ static
    · rw [if_pos hn]
      constructor
      · rw [ih.1]
        constructor
        · rintro ⟨x, hx, hk⟩; exact ⟨x, by simp [hx], hk⟩
        · rintro ⟨x, hx, hk⟩
          refine ⟨x, ?_, hk⟩
          simp only [List.mem_cons, Prod.mk.injEq] at hx
          rcases hx with ⟨rfl, -⟩ | hx
          · exact absurd hn hk
          · exact hx
      · rw [ih.2]
        constructor
        · rintro ⟨x, hx, hk⟩; exact ⟨x, by simp [hx], hk⟩
        · rintro ⟨x, hx, hk⟩
          refine ⟨x, ?_, hk⟩
          simp only [List.mem_cons, Prod.mk.injEq] at hx
          rcases hx with ⟨rfl, -⟩ | hx
          · exact absurd hn hk
          · exact hx
    · rw [if_neg hn]
      cases v with
      | bool b => simp only [List.mem_cons, Prod.mk.injEq, reduceCtorEq, and_false, false_or]; exact ih
      | other b => simp only [List.mem_cons, Prod.mk.injEq, reduceCtorEq, and_false, false_or]; exact ih
      | callable f =>
        simp only [List.mem_cons, Prod.mk.injEq, reduceCtorEq, and_false, false_or, List.map_cons,
          ArgVal.callable.injEq]
        refine ⟨ih.1, ?_⟩
        rw [ih.2]
        constructor
        · rintro (rfl | ⟨x, hx, hk⟩)
          · exact ⟨f, Or.inl ⟨rfl, rfl⟩, hn⟩
          · exact ⟨x, Or.inr hx, hk⟩
        · rintro ⟨x, ⟨rfl, -⟩ | hx, hk⟩
          · exact Or.inl rfl
          · exact Or.inr ⟨x, hx, hk⟩
      | numeric y =>
        simp only [List.mem_cons, Prod.mk.injEq, reduceCtorEq, and_false, false_or, List.map_cons,
          ArgVal.numeric.injEq]
        refine ⟨?_, ih.2⟩
        rw [ih.1]
        constructor
        · rintro (rfl | ⟨x, hx, hk⟩)
          · exact ⟨y, Or.inl ⟨rfl, rfl⟩, hn⟩
          · exact ⟨x, Or.inr hx, hk⟩
        · rintro ⟨x, ⟨rfl, -⟩ | hx, hk⟩
          · exact Or.inl rfl
          · exact Or.inr ⟨x, hx, hk⟩

theorem groupArgs_sub (static : List String) (args : List (String × ArgVal α β)) :
    ((groupArgs static args).numeric.map Prod.fst ++ (groupArgs static args).sched.map Prod.fst).Nodup ∨
      ¬ (args.map Prod.fst).Nodup := by
  by_cases hnd : (args.map Prod.fst).Nodup
  · left
    induction args with
    | nil => simp [groupArgs]
    | cons a rest ih =>
      obtain ⟨name, v⟩ := a
      simp only [List.map_cons, List.nodup_cons] at hnd
      have ih' := ih hnd.2
      have hn1 : name ∉ (groupArgs static rest).numeric.map Prod.fst := by
        rw [(groupArgs_names static rest name).1]
        rintro ⟨x, hx, -⟩
        exact hnd.1 (List.mem_map.mpr ⟨_, hx, rfl⟩)
      have hn2 : name ∉ (groupArgs static rest).sched.map Prod.fst := by
        rw [(groupArgs_names static rest name).2]
        rintro ⟨x, hx, -⟩
        exact hnd.1 (List.mem_map.mpr ⟨_, hx, rfl⟩)
      unfold groupArgs
      by_cases hs : name ∈ static
      · rw [if_pos hs]; exact ih'
      · rw [if_neg hs]
        cases v with
        | bool b => exact ih'
        | other b => exact ih'
        | callable f =>
          simp only [List.map_cons]
          rw [List.nodup_middle, List.nodup_cons]
          exact ⟨by rw [List.mem_append]; exact fun h => h.elim hn1 hn2, ih'⟩
        | numeric y =>
          simp only [List.map_cons, List.cons_append]
          rw [List.nodup_cons]
          exact ⟨by rw [List.mem_append]; exact fun h => h.elim hn1 hn2, ih'⟩
  · right; exact hnd

/-- the numeric part of the dict after `past` -/
def numPart (gr : HpGroups α β) (past : List (HpEvent α)) : List (String × α) :=
  gr.numeric.map (fun kx => (kx.1, (lastOverride kx.1 past).getD kx.2))

theorem numPart_fst (gr : HpGroups α β) (past : List (HpEvent α)) :
    (numPart gr past).map Prod.fst = gr.numeric.map Prod.fst := by
  unfold numPart
  rw [List.map_map]; rfl

theorem lastOverride_append (k : String) (past : List (HpEvent α)) (k' : String) (v : α) :
    lastOverride k (past ++ [.override k' v]) = if k' = k then some v else lastOverride k past := by
  induction past with
  | nil =>
    show (none : Option α).or _ = if k' = k then some v else none
    rfl
  | cons e rest ih =>
    cases e with
    | override k2 v2 =>
      rw [List.cons_append]
      unfold lastOverride
      rw [ih]
      split <;> simp
    | update g p =>
      rw [List.cons_append]
      unfold lastOverride
      exact ih

theorem lastOverride_append_update (k : String) (past : List (HpEvent α)) (g : Params α) (p : Option (Params α)) :
    lastOverride k (past ++ [.update g p]) = lastOverride k past := by
  induction past with
  | nil => rfl
  | cons e rest ih =>
    cases e with
    | override k2 v2 =>
      rw [List.cons_append]
      unfold lastOverride
      rw [ih]
    | update g p =>
      rw [List.cons_append]
      unfold lastOverride
      exact ih

theorem numUpdates_append (past l : List (HpEvent α)) : numUpdates (past ++ l) = numUpdates past + numUpdates l := by
  induction past with
  | nil => simp [numUpdates]
  | cons e rest ih =>
    cases e with
    | override k2 v2 => simpa [numUpdates] using ih
    | update g p => simp [numUpdates, ih]; omega

/-- relation between the state of the code and the specification -/
structure HpInv (F : Factory α β) (gr : HpGroups α β) (past : List (HpEvent α)) (inner : F.State)
    (s : InjectState α F.State) : Prop where
  count : s.count = cntAt (numUpdates past)
  inner : s.inner = inner
  dict : ∃ L : List (String × α), L.map Prod.fst = gr.sched.map Prod.fst ∧ s.hyperparams = numPart gr past ++ L

theorem HpInv.override {F : Factory α β} {gr : HpGroups α β}
    (hnd : (gr.numeric.map Prod.fst ++ gr.sched.map Prod.fst).Nodup) {past inner s}
    (h : HpInv F gr past inner s) (k : String) (v : α) (hk : k ∈ gr.numeric.map Prod.fst ∨ k ∈ gr.sched.map Prod.fst) :
    HpInv F gr (past ++ [.override k v]) inner { s with hyperparams := dictSet s.hyperparams k v } := by
  obtain ⟨h1, h2, L, hL, hd⟩ := h
  refine ⟨?_, h2, ?_⟩
  · show s.count = _
    rw [h1, numUpdates_append]; rfl
  · show ∃ L', _ ∧ dictSet s.hyperparams k v = _
    rw [hd]
    have hset : dictSet (numPart gr past ++ L) k v =
        (numPart gr past).map (fun x => if x.1 = k then (k, v) else x) ++
          L.map (fun x => if x.1 = k then (k, v) else x) := by
      unfold dictSet
      rw [if_pos, List.map_append]
      rw [List.any_eq_true]
      rw [← numPart_fst gr past, ← hL] at hk
      rcases hk with hk | hk
      · obtain ⟨x, hx, e⟩ := List.mem_map.mp hk
        exact ⟨x, by simp [hx], by simpa using e⟩
      · obtain ⟨x, hx, e⟩ := List.mem_map.mp hk
        exact ⟨x, by simp [hx], by simpa using e⟩
    refine ⟨L.map (fun x => if x.1 = k then (k, v) else x), ?_, ?_⟩
    · rw [← hL, List.map_map]
      apply List.map_congr_left
      intro x _
      show (if x.1 = k then (k, v) else x).1 = x.1
      split
      · rename_i e; exact e.symm
      · rfl
    · rw [hset]
      congr 1
      unfold numPart
      rw [List.map_map]
      apply List.map_congr_left
      intro x _
      show (if x.1 = k then (k, v) else (x.1, (lastOverride x.1 past).getD x.2)) =
        (x.1, (lastOverride x.1 (past ++ [.override k v])).getD x.2)
      rw [lastOverride_append]
      by_cases e : x.1 = k
      · rw [if_pos e, if_pos e.symm, e]; rfl
      · rw [if_neg e, if_neg (fun h => e h.symm)]

theorem HpInv.hp {F : Factory α β} {gr : HpGroups α β}
    (hnd : (gr.numeric.map Prod.fst ++ gr.sched.map Prod.fst).Nodup) {past inner s} (h : HpInv F gr past inner s) :
    dictUpdate s.hyperparams (scheduleFn gr.sched (safeInt32Increment s.count)) =
      hpAt gr past (numUpdates past + 1) := by
  obtain ⟨h1, h2, L, hL, hd⟩ := h
  rw [hd, dictUpdate_over _ L]
  · unfold hpAt scheduleFn numPart
    rw [h1, safeInt32Increment_cntAt, cntAt_toInt]
    norm_num
  · rw [hL]; unfold scheduleFn; rw [List.map_map]; rfl
  · rw [List.map_append, numPart_fst, hL]; exact hnd

theorem HpInv.update {F : Factory α β} {gr : HpGroups α β} {past inner s} (h : HpInv F gr past inner s)
    (g : Params α) (p : Option (Params α)) (inner' : F.State) :
    HpInv F gr (past ++ [.update g p]) inner' ⟨safeInt32Increment s.count, hpAt gr past (numUpdates past + 1), inner'⟩ := by
  refine ⟨?_, rfl, gr.sched.map (fun kf => (kf.1, kf.2 (min ((numUpdates past + 1 : ℕ) : ℤ) (2 ^ 31 - 1)))), ?_, ?_⟩
  · show safeInt32Increment s.count = _
    rw [h.count, safeInt32Increment_cntAt, numUpdates_append]; rfl
  · rw [List.map_map]; rfl
  · unfold hpAt numPart
    simp only [lastOverride_append_update]

theorem inject_update_eq (F : Factory α β) (static : List String) (args : List (String × ArgVal α β))
    (hnd : (args.map Prod.fst).Nodup) {past inner s} (h : HpInv F (groupArgs static args) past inner s) (g : Params α)
    (p : Option (Params α)) :
    (injectHyperparams F static args).update g s p =
      (F.update (groupArgs static args).other (hpAt (groupArgs static args) past (numUpdates past + 1)) g inner p >>=
        fun r => pure (r.1, (⟨safeInt32Increment s.count, hpAt (groupArgs static args) past (numUpdates past + 1), r.2⟩ :
                InjectState α F.State))) := by
  have hnd' := (groupArgs_sub static args).resolve_right (not_not.mpr hnd)
  have e1 := h.hp hnd'
  have e2 := h.inner
  show (F.update (groupArgs static args).other (dictUpdate s.hyperparams
      (scheduleFn (groupArgs static args).sched (safeInt32Increment s.count))) g s.inner p >>=
    fun r => pure (r.1, (⟨safeInt32Increment s.count, dictUpdate s.hyperparams
      (scheduleFn (groupArgs static args).sched (safeInt32Increment s.count)), r.2⟩ : InjectState α F.State))) = _
  rw [e1, e2]

theorem inject_init_hp (static : List String) (args : List (String × ArgVal α β)) (hnd : (args.map Prod.fst).Nodup) :
    dictUpdate (groupArgs static args).numeric (scheduleFn (groupArgs static args).sched 0#32) =
      hpAt (groupArgs static args) [] 0 := by
  have hnd' := (groupArgs_sub static args).resolve_right (not_not.mpr hnd)
  rw [dictUpdate_fresh]
  · unfold hpAt scheduleFn
    congr 1
    conv_lhs => rw [← List.map_id (groupArgs static args).numeric]
    rfl
  · rw [List.map_append]
    unfold scheduleFn
    rw [List.map_map]
    exact hnd'

theorem inject_init_eq (F : Factory α β) (static : List String) (args : List (String × ArgVal α β))
    (hnd : (args.map Prod.fst).Nodup) (params : Params α) :
    (injectHyperparams F static args).init params =
      (F.init (groupArgs static args).other (hpAt (groupArgs static args) [] 0) params >>= fun inner =>
        pure (⟨0#32, hpAt (groupArgs static args) [] 0, inner⟩ : InjectState α F.State)) := by
  show (F.init (groupArgs static args).other (dictUpdate (groupArgs static args).numeric
      (scheduleFn (groupArgs static args).sched 0#32)) params >>= fun inner =>
      pure (⟨0#32, dictUpdate (groupArgs static args).numeric
        (scheduleFn (groupArgs static args).sched 0#32), inner⟩ : InjectState α F.State)) = _
  rw [inject_init_hp static args hnd]

theorem inject_init_inv (F : Factory α β) (static : List String) (args : List (String × ArgVal α β))
    (hnd : (args.map Prod.fst).Nodup) (params : Params α) (s)
    (hs : (injectHyperparams F static args).init params = .ok s) :
    HpInv F (groupArgs static args) [] s.inner s := by
  rw [inject_init_eq F static args hnd] at hs
  obtain ⟨i, -, h⟩ := Res.bind_eq_ok.mp hs
  simp only [Res.pure_eq, Except.ok.injEq] at h
  subst h
  refine ⟨rfl, rfl, (groupArgs static args).sched.map (fun kf => (kf.1, kf.2 (min ((0 : ℕ) : ℤ) (2 ^ 31 - 1)))), ?_, rfl⟩
  rw [List.map_map]; rfl

/-- overrides only touch entries that are in the dict -/
def KnownKeys (gr : HpGroups α β) (events : List (HpEvent α)) : Prop :=
  ∀ k v, HpEvent.override k v ∈ events → k ∈ gr.numeric.map Prod.fst ∨ k ∈ gr.sched.map Prod.fst

theorem inject_refines (F : Factory α β) (static : List String) (args : List (String × ArgVal α β))
    (hnd : (args.map Prod.fst).Nodup) (events : List (HpEvent α)) : ∀ (past : List (HpEvent α)) (inner : F.State)
      (s : InjectState α F.State), KnownKeys (groupArgs static args) events →
      HpInv F (groupArgs static args) past inner s →
      (injectRun F static args s events).map (fun r => (r.1, r.2.inner)) =
        specRun F (groupArgs static args) past inner events ∧
      ∀ us s', injectRun F static args s events = .ok (us, s') →
        HpInv F (groupArgs static args) (past ++ events) s'.inner s' := by
  have hnd' := (groupArgs_sub static args).resolve_right (not_not.mpr hnd)
  induction events with
  | nil =>
    intro past inner s _ h
    refine ⟨?_, ?_⟩
    · unfold injectRun specRun; rw [← h.inner]; rfl
    · intro us s' he
      simp only [injectRun, Except.ok.injEq, Prod.mk.injEq] at he
      obtain ⟨-, rfl⟩ := he
      rw [List.append_nil, h.inner]; exact h
  | cons e rest ih =>
    intro past inner s he h
    have he' : KnownKeys (groupArgs static args) rest := fun k v hm => he k v (List.mem_cons_of_mem _ hm)
    cases e with
    | override k v =>
      unfold injectRun specRun
      have := ih _ _ _ he' (h.override hnd' k v (he k v (by simp)))
      rw [List.append_assoc] at this
      exact this
    | update g p =>
      unfold injectRun specRun
      rw [inject_update_eq F static args hnd h]
      show Except.map _ _ = (F.update (groupArgs static args).other _ g inner p >>= _) ∧ _
      cases hr : F.update (groupArgs static args).other
          (hpAt (groupArgs static args) past (numUpdates past + 1)) g inner p with
      | error e => exact ⟨rfl, by intro us s' h; cases h⟩
      | ok r =>
        have := ih _ _ _ he' (h.update g p r.2)
        rw [List.append_assoc] at this
        rw [Res.ok_bind, Res.ok_bind]
        constructor
        · show ((injectRun F static args _ rest >>= fun q => pure (r.1 :: q.1, q.2)).map _) = _
          rw [← this.1]
          cases injectRun F static args ⟨safeInt32Increment s.count,
            hpAt (groupArgs static args) past (numUpdates past + 1), r.2⟩ rest <;> rfl
        · intro us s' hrun
          replace hrun : (injectRun F static args ⟨safeInt32Increment s.count,
            hpAt (groupArgs static args) past (numUpdates past + 1), r.2⟩ rest >>= fun q => pure (r.1 :: q.1, q.2)) =
              .ok (us, s') := hrun
          obtain ⟨q, hq, hq2⟩ := Res.bind_eq_ok.mp hrun
          simp only [Res.pure_eq, Except.ok.injEq, Prod.mk.injEq] at hq2
          have := this.2 q.1 q.2 hq
          rw [hq2.2] at this
          exact this

/-- the hypothesis in terms of the arguments -/
theorem knownKeys_of (static : List String) (args : List (String × ArgVal α β)) (events : List (HpEvent α))
    (hev : ∀ k v, HpEvent.override k v ∈ events → ∃ a, (k, a) ∈ args ∧ k ∉ static ∧
      ((∃ x, a = .numeric x) ∨ ∃ f, a = .callable f)) : KnownKeys (groupArgs static args) events := by
  intro k v hm
  obtain ⟨a, ha, hks, ⟨x, rfl⟩ | ⟨f, rfl⟩⟩ := hev k v hm
  · left; exact (groupArgs_names static args k).1.mpr ⟨x, ha, hks⟩
  · right; exact (groupArgs_names static args k).2.mpr ⟨f, ha, hks⟩

/-- **C48.** For every factory, all arguments (distinct names) and every interleaving of updates and overrides of
hyperparameters held in the state, the outputs, the inner state and any error are those of the specification `specRun`:
each update is made by the inner transformation built with each schedule at the number of the update (from 1) and each
number at its last override, or initial value if none.  `init` builds it with the schedules at 0. -/
theorem C48_inject_hyperparams (F : Factory α β) (static : List String) (args : List (String × ArgVal α β))
    (hnd : (args.map Prod.fst).Nodup) (params : Params α) (events : List (HpEvent α))
    (hev : ∀ k v, HpEvent.override k v ∈ events → ∃ a, (k, a) ∈ args ∧ k ∉ static ∧
      ((∃ x, a = .numeric x) ∨ ∃ f, a = .callable f)) :
    ((injectHyperparams F static args).init params).map (fun s => (s.count, s.hyperparams, s.inner)) =
      ((F.build (groupArgs static args).other (hpAt (groupArgs static args) [] 0)).init params).map
        (fun i => (0#32, hpAt (groupArgs static args) [] 0, i)) ∧
    ∀ s, (injectHyperparams F static args).init params = .ok s →
      (injectRun F static args s events).map (fun r => (r.1, r.2.inner)) =
        specRun F (groupArgs static args) [] s.inner events := by
  constructor
  · rw [inject_init_eq F static args hnd]
    show _ = (F.init (groupArgs static args).other (hpAt (groupArgs static args) [] 0) params).map _
    cases F.init (groupArgs static args).other (hpAt (groupArgs static args) [] 0) params <;> rfl
  · intro s hs
    exact (inject_refines F static args hnd events [] s.inner s (knownKeys_of static args events hev)
      (inject_init_inv F static args hnd params s hs)).1

theorem injectRun_append (F : Factory α β) (static : List String) (args : List (String × ArgVal α β))
    (e1 e2 : List (HpEvent α)) (s : InjectState α F.State) :
    injectRun F static args s (e1 ++ e2) = (injectRun F static args s e1 >>= fun r =>
      injectRun F static args r.2 e2 >>= fun q => pure (r.1 ++ q.1, q.2)) := by
  induction e1 generalizing s with
  | nil =>
    show injectRun F static args s e2 = (injectRun F static args s e2 >>= fun q => pure ([] ++ q.1, q.2))
    cases injectRun F static args s e2 <;> rfl
  | cons e rest ih =>
    cases e with
    | override k v => exact ih _
    | update g p =>
      rw [List.cons_append, injectRun_update, injectRun_update]
      cases (injectHyperparams F static args).update g s p with
      | error e => rfl
      | ok r =>
        rw [Res.ok_bind, Res.ok_bind, ih]
        cases injectRun F static args r.2 rest with
        | error e => rfl
        | ok q =>
          rw [Res.ok_bind, Res.ok_bind]
          show _ = (injectRun F static args q.2 e2 >>= _)
          cases injectRun F static args q.2 e2 <;> rfl

/-- **C48.** Just after an update, `state.hyperparams` holds exactly the values that update used. -/
theorem C48_stored_values (F : Factory α β) (static : List String) (args : List (String × ArgVal α β))
    (hnd : (args.map Prod.fst).Nodup) (params : Params α) (events : List (HpEvent α))
    (hev : ∀ k v, HpEvent.override k v ∈ events → ∃ a, (k, a) ∈ args ∧ k ∉ static ∧
      ((∃ x, a = .numeric x) ∨ ∃ f, a = .callable f)) (g : Params α) (p : Option (Params α))
    (s s' : InjectState α F.State) (us : List (Params α))
    (hs : (injectHyperparams F static args).init params = .ok s)
    (hr : injectRun F static args s (events ++ [.update g p]) = .ok (us, s')) :
    s'.hyperparams = hpAt (groupArgs static args) events (numUpdates events + 1) := by
  rw [injectRun_append] at hr
  obtain ⟨r, h1, h2⟩ := Res.bind_eq_ok.mp hr
  obtain ⟨q, h3, h4⟩ := Res.bind_eq_ok.mp h2
  have hinv := (inject_refines F static args hnd events [] s.inner s (knownKeys_of static args events hev)
    (inject_init_inv F static args hnd params s hs)).2 r.1 r.2 h1
  rw [List.nil_append] at hinv
  unfold injectRun at h3
  rw [inject_update_eq F static args hnd hinv] at h3
  obtain ⟨r', h5, h6⟩ := Res.bind_eq_ok.mp h3
  obtain ⟨r'', -, h7⟩ := Res.bind_eq_ok.mp h5
  obtain ⟨q', h8, h9⟩ := Res.bind_eq_ok.mp h6
  simp only [Res.pure_eq, Except.ok.injEq, Prod.mk.injEq, injectRun] at h4 h7 h8 h9
  rw [← h4.2, ← h9]
  show q'.2.hyperparams = _
  rw [← h8, ← h7]

/-- **C48.** Exactly the numbers and schedules that are not static are in the state: static, boolean and other arguments
never enter it. -/
theorem C48_state_keys (F : Factory α β) (static : List String) (args : List (String × ArgVal α β))
    (hnd : (args.map Prod.fst).Nodup) (params : Params α) (events : List (HpEvent α))
    (hev : ∀ k v, HpEvent.override k v ∈ events → ∃ a, (k, a) ∈ args ∧ k ∉ static ∧
      ((∃ x, a = .numeric x) ∨ ∃ f, a = .callable f))
    (s s' : InjectState α F.State) (us : List (Params α))
    (hs : (injectHyperparams F static args).init params = .ok s)
    (hr : injectRun F static args s events = .ok (us, s')) (k : String) :
    k ∈ s'.hyperparams.map Prod.fst ↔
      k ∉ static ∧ ((∃ x, (k, ArgVal.numeric x) ∈ args) ∨ ∃ f, (k, ArgVal.callable f) ∈ args) := by
  have hinv := (inject_refines F static args hnd events [] s.inner s (knownKeys_of static args events hev)
    (inject_init_inv F static args hnd params s hs)).2 us s' hr
  obtain ⟨-, -, L, hL, hd⟩ := hinv
  rw [hd, List.map_append, numPart_fst, hL, List.mem_append, (groupArgs_names static args k).1,
    (groupArgs_names static args k).2]
  constructor
  · rintro (⟨x, h1, h2⟩ | ⟨x, h1, h2⟩)
    · exact ⟨h2, Or.inl ⟨x, h1⟩⟩
    · exact ⟨h2, Or.inr ⟨x, h1⟩⟩
  · rintro ⟨h2, ⟨x, h1⟩ | ⟨x, h1⟩⟩
    · exact Or.inl ⟨x, h1, h2⟩
    · exact Or.inr ⟨x, h1, h2⟩

/-- is the event an override of `k`? -/
def HpEvent.overrides (k : String) : HpEvent α → Bool
  | .override k' _ => decide (k' = k)
  | .update _ _ => false

theorem specRun_congr (F : Factory α β) (gr : HpGroups α β) (k : String) (hk : k ∉ gr.numeric.map Prod.fst)
    (events : List (HpEvent α)) : ∀ (past past' : List (HpEvent α)) (s : F.State), numPart gr past = numPart gr past' →
      numUpdates past = numUpdates past' →
      specRun F gr past s events = specRun F gr past' s (events.filter (fun e => !e.overrides k)) := by
  have hnp : ∀ past : List (HpEvent α), ∀ k' v, numPart gr (past ++ [.override k' v]) =
      (numPart gr past).map (fun x => if x.1 = k' then (k', v) else x) := by
    intro past k' v
    unfold numPart
    rw [List.map_map]
    apply List.map_congr_left
    intro x _
    show _ = (if x.1 = k' then (k', v) else (x.1, (lastOverride x.1 past).getD x.2))
    rw [lastOverride_append]
    by_cases e : x.1 = k'
    · rw [if_pos e, if_pos e.symm, e]; rfl
    · rw [if_neg e, if_neg (fun h => e h.symm)]
  have hnu : ∀ past : List (HpEvent α), ∀ g p, numPart gr (past ++ [.update g p]) = numPart gr past := by
    intro past g p
    unfold numPart
    simp only [lastOverride_append_update]
  induction events with
  | nil => intro past past' s _ _; rfl
  | cons e rest ih =>
    intro past past' s h1 h2
    cases e with
    | override k' v =>
      by_cases hkk : k' = k
      · rw [List.filter_cons_of_neg (by simp [HpEvent.overrides, hkk])]
        rw [specRun_override]
        apply ih
        · rw [hnp, map_set_notin _ k' v (by rw [numPart_fst, hkk]; exact hk), h1]
        · rw [numUpdates_append, ← h2]; rfl
      · rw [List.filter_cons_of_pos (by simp [HpEvent.overrides, hkk])]
        rw [specRun_override, specRun_override]
        apply ih
        · rw [hnp, hnp, h1]
        · rw [numUpdates_append, numUpdates_append, h2]
    | update g p =>
      rw [List.filter_cons_of_pos (by simp [HpEvent.overrides])]
      rw [specRun_update, specRun_update]
      have e : hpAt gr past (numUpdates past + 1) = hpAt gr past' (numUpdates past' + 1) := by
        show numPart gr past ++ _ = numPart gr past' ++ _
        rw [h1, h2]
      rw [e]
      cases (F.build gr.other (hpAt gr past' (numUpdates past' + 1))).update g s p with
      | error e => rfl
      | ok r =>
        rw [Res.ok_bind, Res.ok_bind]
        have := ih (past ++ [.update g p]) (past' ++ [.update g p]) r.2 (by rw [hnu, hnu, h1])
          (by rw [numUpdates_append, numUpdates_append, h2])
        exact congrArg (· >>= fun q => pure (r.1 :: q.1, q.2)) this

/-- **C48.** Overriding a scheduled hyperparameter has no effect: removing all such overrides from the history changes
neither the outputs, nor the inner state, nor errors. -/
theorem C48_override_scheduled_no_effect (F : Factory α β) (static : List String) (args : List (String × ArgVal α β))
    (hnd : (args.map Prod.fst).Nodup) (params : Params α) (events : List (HpEvent α))
    (hev : ∀ k v, HpEvent.override k v ∈ events → ∃ a, (k, a) ∈ args ∧ k ∉ static ∧
      ((∃ x, a = .numeric x) ∨ ∃ f, a = .callable f)) (k : String) (f : Schedule α)
    (hk : (k, ArgVal.callable f) ∈ args) (s : InjectState α F.State)
    (hs : (injectHyperparams F static args).init params = .ok s) :
    (injectRun F static args s events).map (fun r => (r.1, r.2.inner)) =
      (injectRun F static args s (events.filter (fun e => !e.overrides k))).map (fun r => (r.1, r.2.inner)) := by
  rw [(C48_inject_hyperparams F static args hnd params events hev).2 s hs,
    (C48_inject_hyperparams F static args hnd params (events.filter (fun e => !e.overrides k))
      (fun k v hm => hev k v (List.mem_of_mem_filter hm))).2 s hs]
  apply specRun_congr _ _ _ _ _ _ _ _ rfl rfl
  rw [(groupArgs_names static args k).1]
  rintro ⟨x, hx, -⟩
  have := List.inj_on_of_nodup_map hnd hx hk rfl
  simp at this

theorem constant_hp (gr : HpGroups α β) (hconst : ∀ kf ∈ gr.sched, ∀ n, kf.2 n = kf.2 0)
    (past : List (HpEvent α)) (hno : ∀ k, lastOverride k past = none) (n : ℕ) :
    hpAt gr past n = gr.numeric ++ gr.sched.map (fun kf => (kf.1, kf.2 0)) := by
  unfold hpAt
  congr 1
  · conv_rhs => rw [← List.map_id gr.numeric]
    apply List.map_congr_left
    intro x _
    rw [hno]; rfl
  · apply List.map_congr_left
    intro x hx
    rw [hconst x hx]

/-- **C48.** With constant hyperparameters (numbers, and schedules that are constant functions) and no overrides,
`inject_hyperparams` behaves exactly as the plain inner transformation: same outputs and errors on every history. -/
theorem C48_constant (F : Factory α β) (static : List String) (args : List (String × ArgVal α β))
    (hnd : (args.map Prod.fst).Nodup)
    (hconst : ∀ kf ∈ (groupArgs static args).sched, ∀ n, kf.2 n = kf.2 0) :
    (injectHyperparams F static args).Equiv (F.build (groupArgs static args).other
      ((groupArgs static args).numeric ++ (groupArgs static args).sched.map (fun kf => (kf.1, kf.2 0)))) := by
  apply GT.equiv_of_bisim _ _ (fun s s' => ∃ past, (∀ k, lastOverride k past = none) ∧
    HpInv F (groupArgs static args) past s' s)
  · intro p
    rw [inject_init_eq F static args hnd]
    show Res.Rel _ _ (F.init (groupArgs static args).other _ p)
    rw [constant_hp _ hconst [] (fun _ => rfl) 0]
    cases hi : F.init (groupArgs static args).other ((groupArgs static args).numeric ++
        (groupArgs static args).sched.map (fun kf => (kf.1, kf.2 0))) p with
    | error e => rfl
    | ok i =>
      refine ⟨[], fun _ => rfl, ?_⟩
      refine inject_init_inv F static args hnd p ⟨0#32, (groupArgs static args).numeric ++
        (groupArgs static args).sched.map (fun kf => (kf.1, kf.2 0)), i⟩ ?_
      rw [inject_init_eq F static args hnd, constant_hp _ hconst [] (fun _ => rfl) 0, hi]
      rfl
  · rintro g s s' p ⟨past, hnone, hinv⟩
    rw [inject_update_eq F static args hnd hinv]
    show Res.Rel _ _ (F.update (groupArgs static args).other _ g s' p)
    have hnext := fun i => hinv.update g p i
    rw [constant_hp _ hconst past hnone] at hnext ⊢
    cases hi : F.update (groupArgs static args).other ((groupArgs static args).numeric ++
        (groupArgs static args).sched.map (fun kf => (kf.1, kf.2 0))) g s' p with
    | error e => rfl
    | ok r =>
      refine ⟨rfl, past ++ [.update g p], ?_, hnext r.2⟩
      intro k
      rw [lastOverride_append_update]
      exact hnone k

end

/-- an example factory: `scale(step_size)` -/
noncomputable def scaleFactory : Factory ℝ Unit where
  State := EmptyState
  init _ _ _ := .ok ⟨⟩
  update _ hp g s p := (scale ((hp.lookup "step_size").getD 0)).update g s p

/-- with `step_size=2`, an update, an override to 3 and another update give `2g` and `3g` -/
example (g : Params ℝ) (s) (hs : (injectHyperparams scaleFactory [] [("step_size", .numeric 2)]).init g = .ok s) :
    (injectRun scaleFactory [] [("step_size", .numeric 2)] s
      [.update g none, .override "step_size" 3, .update g none]).map (fun r => r.1) =
      .ok [tmap (fun x => 2 * x) g, tmap (fun x => 3 * x) g] := by
  have := (C48_inject_hyperparams scaleFactory [] [("step_size", .numeric 2)] (by simp) g
    [.update g none, .override "step_size" 3, .update g none] (by
      intro k v h
      simp at h
      exact ⟨.numeric 2, by simp [h.1], by simp, Or.inl ⟨2, rfl⟩⟩)).2 s hs
  have h2 := congrArg (fun r => Except.map Prod.fst r) this
  have e : ∀ r : Res (List (Params ℝ) × InjectState ℝ EmptyState),
      Except.map Prod.fst (r.map (fun r => (r.1, r.2.inner))) = r.map (fun r => r.1) := by
    intro r; cases r <;> rfl
  refine ((e _).symm.trans h2).trans ?_
  rfl

end Optax
