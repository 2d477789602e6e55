import Verif.Model.Alias
import Verif.Model.Schedule
import Verif.Props.Masked

/-!
# C93: gradients of the wrong structure are never silently accepted

For an arbitrary number type with arbitrary operations, and arbitrary (possibly ill-formed) trees.  `PyTree.struct` forgets the
leaves of a tree: `jax.tree_structure`.
-/

set_option linter.unusedSectionVars false
set_option linter.unusedSimpArgs false
set_option linter.unusedVariables false

namespace Optax

namespace PyTree
variable {β γ δ ε : Type}

theorem struct_map (f : β → γ) (t : PyTree β) : (t.map f).struct = t.struct := by
  unfold struct
  rw [map_map]

mutual
theorem mapM_struct (f : β → Res γ) : ∀ (t : PyTree β) (r : PyTree γ), mapM f t = .ok r → r.struct = t.struct
  | leaf b, r, h => by
    simp only [mapM, Res.bind_eq_ok] at h
    obtain ⟨x, -, h⟩ := h
    simp at h; subst h; rfl
  | node t cs, r, h => by
    simp only [mapM, Res.bind_eq_ok] at h
    obtain ⟨x, hx, h⟩ := h
    simp at h; subst h
    simp only [struct, map, mapML_struct f cs x hx]
theorem mapML_struct (f : β → Res γ) : ∀ (ts : List (PyTree β)) (r : List (PyTree γ)), mapML f ts = .ok r →
    mapL (fun _ => ()) r = mapL (fun _ => ()) ts
  | [], r, h => by simp [mapML] at h; subst h; rfl
  | c :: cs, r, h => by
    simp only [mapML, Res.bind_eq_ok] at h
    obtain ⟨x, hx, y, hy, h⟩ := h
    simp at h; subst h
    have := mapM_struct f c x hx
    simp only [struct] at this
    simp only [mapL, this, mapML_struct f cs y hy]
end

mutual
theorem fill_struct : ∀ (t : PyTree β) (xs : List γ) (r : PyTree γ × List γ), fill t xs = .ok r → r.1.struct = t.struct
  | leaf b, [], r, h => by simp [fill] at h
  | leaf b, x :: xs, r, h => by simp [fill] at h; subst h; rfl
  | node t cs, xs, r, h => by
    simp only [fill, Res.bind_eq_ok] at h
    obtain ⟨x, hx, h⟩ := h
    simp at h; subst h
    simp only [struct, map, fillL_struct cs xs x hx]
theorem fillL_struct : ∀ (ts : List (PyTree β)) (xs : List γ) (r : List (PyTree γ) × List γ), fillL ts xs = .ok r →
    mapL (fun _ => ()) r.1 = mapL (fun _ => ()) ts
  | [], xs, r, h => by simp [fillL] at h; subst h; rfl
  | c :: cs, xs, r, h => by
    simp only [fillL, Res.bind_eq_ok] at h
    obtain ⟨x, hx, y, hy, h⟩ := h
    simp at h; subst h
    have := fill_struct c xs x hx
    simp only [struct] at this
    simp only [mapL, this, fillL_struct cs x.2 y hy]
end

theorem unflatten_struct {t : PyTree β} {xs : List γ} {r : PyTree γ} (h : unflatten t xs = .ok r) : r.struct = t.struct := by
  simp only [unflatten, Res.bind_eq_ok] at h
  obtain ⟨x, hx, h⟩ := h
  cases hx2 : x.2 with
  | nil => rw [hx2] at h; simp at h; subst h; exact fill_struct t xs x hx
  | cons y ys => rw [hx2] at h; simp at h

theorem zipM3_struct {f : β → γ → δ → Res ε} {t : PyTree β} {u : PyTree γ} {w : PyTree δ} {r : PyTree ε}
    (h : zipM3 f t u w = .ok r) : t.struct = u.struct ∧ t.struct = w.struct ∧ r.struct = t.struct := by
  simp only [zipM3, Res.bind_eq_ok] at h
  obtain ⟨x, hx, h⟩ := h
  have h1 := zipM_struct _ _ _ _ hx
  have h2 := zipM_struct _ _ _ _ h
  exact ⟨h1.1, h1.2.symm.trans h2.1, h2.2.trans h1.2⟩

end PyTree

variable {α : Type} [Zero α] [One α] [Add α] [Sub α] [Mul α] [Div α] [Neg α] [JOps α]

theorem tmap_struct {β γ : Type} (f : β → γ) (t : Params β) : (tmap f t).struct = t.struct := PyTree.struct_map _ _

theorem tzip_struct {β γ δ : Type} {f : β → γ → δ} {t : Params β} {u : Params γ} {r : Params δ} (h : tzip f t u = .ok r) :
    t.struct = u.struct ∧ r.struct = t.struct := PyTree.zipM_struct _ _ _ _ h

theorem zerosLike_struct (t : Params α) : (zerosLike t).struct = t.struct := PyTree.struct_map _ _

theorem castTree_struct (t : Params α) (c : Option (α → α)) : (castTree t c).struct = t.struct := by
  cases c with
  | none => rfl
  | some f => exact tmap_struct f t

theorem updateMoment_struct {g m r : Params α} {d : α} {n : ℕ} (h : updateMoment g m d n = .ok r) :
    g.struct = m.struct ∧ r.struct = g.struct := tzip_struct h

theorem biasCorrection_struct (m : Params α) (d : α) (c : BitVec 32) : (biasCorrection m d c).struct = m.struct := tmap_struct _ _

theorem struct_of_spec {t u : Params α} (h : spec t = spec u) : t.struct = u.struct := by
  have := congrArg PyTree.struct h
  unfold spec at this
  rwa [PyTree.struct_map, PyTree.struct_map] at this

/-! ## Updates have the structure of the gradients -/

/-- Whenever `update` does not raise, the updates it returns have the tree structure of the gradients. -/
def Keeps (t : GT α) : Prop := ∀ g s p u s', t.update g s p = .ok (u, s') → u.struct = g.struct

theorem Keeps.stateless {f : Params α → Option (Params α) → Res (Params α)} (h : ∀ g p u, f g p = .ok u → u.struct = g.struct) :
    Keeps (stateless f) := by
  intro g s p u s' hu
  simp only [Res.bind_eq_ok] at hu
  obtain ⟨x, hx, hu⟩ := hu
  simp only [Res.pure_eq, Except.ok.injEq, Prod.mk.injEq] at hu
  rw [← hu.1]
  exact h g p x hx

theorem keeps_identity : Keeps (identity : GT α) := by
  intro g s p u s' hu
  simp only [Except.ok.injEq, Prod.mk.injEq] at hu
  rw [hu.1]

theorem keeps_scale (c : α) : Keeps (scale c) := Keeps.stateless fun g p u h => by
  simp at h; rw [← h]; exact tmap_struct _ _

theorem keeps_clip (c : α) : Keeps (clip c) := Keeps.stateless fun g p u h => by
  simp at h; rw [← h]; exact tmap_struct _ _

theorem keeps_clipByGlobalNorm (c : α) : Keeps (clipByGlobalNorm c) := Keeps.stateless fun g p u h => by
  simp only [Except.ok.injEq] at h; rw [← h]; exact tmap_struct _ _

theorem keeps_centralize : Keeps (centralize : GT α) := Keeps.stateless fun g p u h => PyTree.mapM_struct _ _ _ h

theorem keeps_scaleBySchedule (f : Schedule α) : Keeps (scaleBySchedule f) := by
  intro g s p u s' hu
  simp only [Except.ok.injEq, Prod.mk.injEq] at hu
  rw [← hu.1]; exact tmap_struct _ _

theorem keeps_lr (lr : LR α) : Keeps (scaleByLearningRate lr) := by
  cases lr with
  | scalar x => exact keeps_scale _
  | schedule f => exact keeps_scaleBySchedule (α := α) (fun count => -f count)

theorem keeps_zeroNans : Keeps (zeroNans : GT α) := by
  intro g s p u s' hu
  simp only [Except.ok.injEq, Prod.mk.injEq] at hu
  rw [← hu.1]; exact tmap_struct _ _

/-- for the transformations reading `params`: `params` must be present and have the structure of the gradients -/
def NeedsParams (t : GT α) : Prop := ∀ g s p u s', t.update g s p = .ok (u, s') → ∃ q, p = some q ∧ q.struct = g.struct ∧ u.struct = g.struct

theorem NeedsParams.keeps {t : GT α} (h : NeedsParams t) : Keeps t := fun g s p u s' hu => by
  obtain ⟨q, -, -, h⟩ := h g s p u s' hu
  exact h

theorem NeedsParams.stateless {f : Params α → Params α → Res (Params α)} (h : ∀ g p u, f g p = .ok u → p.struct = g.struct ∧ u.struct = g.struct) :
    NeedsParams (Optax.stateless fun g p => match p with | none => valueError | some p => f g p) := by
  intro g s p u s' hu
  simp only [Res.bind_eq_ok] at hu
  obtain ⟨x, hx, hu⟩ := hu
  simp only [Res.pure_eq, Except.ok.injEq, Prod.mk.injEq] at hu
  cases p with
  | none => simp [valueError] at hx
  | some q =>
    rw [← hu.1]
    exact ⟨q, rfl, h g q x hx⟩

theorem needs_addDecayedWeights (w : α) : NeedsParams (addDecayedWeights w) := NeedsParams.stateless fun g p u h => by
  have := tzip_struct h
  exact ⟨this.1.symm, this.2⟩

theorem needs_trustRatio (m : α) : NeedsParams (scaleByTrustRatio m) := NeedsParams.stateless fun g p u h => by
  have := PyTree.zipM_struct _ _ _ _ h
  exact ⟨this.1.symm, this.2⟩

theorem needs_nonnegative : NeedsParams (keepParamsNonnegative : GT α) := NeedsParams.stateless fun g p u h => by
  have := tzip_struct h
  exact ⟨this.1, this.2.trans this.1⟩

theorem needs_agc (c e : α) : NeedsParams (adaptiveGradClip c e) := NeedsParams.stateless fun g p u h => by
  simp only [Res.bind_eq_ok] at h
  obtain ⟨a, ha, b, hb, h⟩ := h
  have h1 := PyTree.mapM_struct _ _ _ ha
  have h2 := PyTree.mapM_struct _ _ _ hb
  have h3 := PyTree.zipM3_struct h
  rw [tmap_struct] at h3
  exact ⟨by rw [← h2, ← h3.1, h3.2.1], h3.2.2.trans h3.2.1⟩

/-! ## Stateful transformations reject a change of structure -/

/-- **Specification.** Initialised with `params`, the transformation raises as soon as it is called with gradients whose tree
structure is not that of `params`: whenever a whole history of calls succeeds, all gradients had that structure. -/
def Strict (t : GT α) : Prop :=
  ∀ (p : Params α) (h : List (Call α)) r, t.exec p h = .ok r → ∀ c ∈ h, c.1.struct = p.struct

/-- an invariant of the states of `t` that forces the structure `τ` on the gradients -/
structure Guard (t : GT α) where
  inv : PyTree Unit → t.State → Prop
  init : ∀ p s, t.init p = .ok s → inv p.struct s
  step : ∀ τ g s p u s', inv τ s → t.update g s p = .ok (u, s') → g.struct = τ ∧ inv τ s'

theorem Guard.strict {t : GT α} (G : Guard t) : Strict t := by
  have hrun : ∀ (h : List (Call α)) τ s r, G.inv τ s → t.run s h = .ok r → ∀ c ∈ h, c.1.struct = τ := by
    intro h
    induction h with
    | nil => intro τ s r _ _ c hc; cases hc
    | cons c h ih =>
      intro τ s r hs hr
      rw [GT.run_cons, Res.bind_eq_ok] at hr
      obtain ⟨x, hx, hr⟩ := hr
      rw [Res.bind_eq_ok] at hr
      obtain ⟨y, hy, -⟩ := hr
      obtain ⟨h1, h2⟩ := G.step τ c.1 s c.2 x.1 x.2 hs hx
      intro d hd
      rcases List.mem_cons.mp hd with rfl | hd
      · exact h1
      · exact ih τ x.2 y h2 hy d hd
  intro p h r hr
  unfold GT.exec at hr
  rw [Res.bind_eq_ok] at hr
  obtain ⟨s, hs, hr⟩ := hr
  exact hrun h _ s r (G.init p s hs) hr

theorem trace_inv {d : α} {n : Bool} {a : Option (α → α)} {g : Params α} {s : TraceState α} {p : Option (Params α)} {u : Params α} {s' : TraceState α}
    (h : (trace d n a).update g s p = .ok (u, s')) : g.struct = s.trace.struct ∧ u.struct = g.struct ∧ s'.trace.struct = g.struct := by
  have key : ∃ x, tzip (fun g t => g + d * t) g s.trace = .ok x ∧ u.struct = g.struct ∧ s'.trace = castTree x a := by
    cases n with
    | false =>
      simp only [Res.bind_eq_ok, Bool.false_eq_true, if_false] at h
      obtain ⟨x, hx, y, hy, h⟩ := h
      simp only [Res.pure_eq, Except.ok.injEq, Prod.mk.injEq] at h hy
      exact ⟨x, hx, by rw [← h.1, ← hy, (tzip_struct hx).2], by rw [← h.2]⟩
    | true =>
      simp only [Res.bind_eq_ok, if_true] at h
      obtain ⟨x, hx, y, hy, h⟩ := h
      simp only [Res.pure_eq, Except.ok.injEq, Prod.mk.injEq] at h
      exact ⟨x, hx, by rw [← h.1, (tzip_struct hy).2], by rw [← h.2]⟩
  obtain ⟨x, hx, h1, h2⟩ := key
  have h3 := tzip_struct hx
  exact ⟨h3.1, h1, by rw [h2, castTree_struct, h3.2]⟩

def guard_trace (d : α) (n : Bool) (a : Option (α → α)) : Guard (trace d n a) where
  inv τ s := s.trace.struct = τ
  init p s h := by
    simp at h
    rw [← h]
    show (castTree _ a).struct = _
    rw [castTree_struct, zerosLike_struct]
  step τ g s p u s' hs h := by
    have := trace_inv h
    exact ⟨this.1.trans hs, this.2.2.trans (this.1.trans hs)⟩

theorem ema_inv {d : α} {n : Bool} {a : Option (α → α)} {g : Params α} {s : EmaState α} {p : Option (Params α)} {u : Params α} {s' : EmaState α}
    (h : (ema d n a).update g s p = .ok (u, s')) : g.struct = s.ema.struct ∧ u.struct = g.struct ∧ s'.ema.struct = g.struct := by
  simp only [Res.bind_eq_ok] at h
  obtain ⟨x, hx, h⟩ := h
  simp at h
  have h1 := updateMoment_struct hx
  refine ⟨h1.1, ?_, ?_⟩
  · rw [← h.1]
    cases n with
    | true => simp only [if_true]; rw [biasCorrection_struct, h1.2]
    | false => rfl
  · rw [← h.2]
    show (castTree x a).struct = _
    rw [castTree_struct, h1.2]

def guard_ema (d : α) (n : Bool) (a : Option (α → α)) : Guard (ema d n a) where
  inv τ s := s.ema.struct = τ
  init p s h := by
    simp at h
    rw [← h]
    show (castTree _ a).struct = _
    rw [castTree_struct, zerosLike_struct]
  step τ g s p u s' hs h := by
    have := ema_inv h
    exact ⟨this.1.trans hs, this.2.2.trans (this.1.trans hs)⟩

theorem rss_inv {a e : α} {g : Params α} {s : RssState α} {p : Option (Params α)} {u : Params α} {s' : RssState α}
    (h : (scaleByRss a e).update g s p = .ok (u, s')) : g.struct = s.sumOfSquares.struct ∧ u.struct = g.struct ∧ s'.sumOfSquares.struct = g.struct := by
  simp only [Res.bind_eq_ok] at h
  obtain ⟨x, hx, y, hy, h⟩ := h
  simp at h
  have h1 := tzip_struct hx
  have h2 := tzip_struct hy
  rw [tmap_struct] at h2
  refine ⟨h1.1, ?_, ?_⟩
  · rw [← h.1, h2.2, h1.2]
  · rw [← h.2]; exact h1.2

def guard_rss (a e : α) : Guard (scaleByRss a e) where
  inv τ s := s.sumOfSquares.struct = τ
  init p s h := by
    simp at h
    rw [← h]
    exact PyTree.struct_map _ _
  step τ g s p u s' hs h := by
    have := rss_inv h
    exact ⟨this.1.trans hs, this.2.2.trans (this.1.trans hs)⟩

theorem rms_inv {d e i : α} {g : Params α} {s : RmsState α} {p : Option (Params α)} {u : Params α} {s' : RmsState α}
    (h : (scaleByRms d e i).update g s p = .ok (u, s')) : g.struct = s.nu.struct ∧ u.struct = g.struct ∧ s'.nu.struct = g.struct := by
  simp only [Res.bind_eq_ok] at h
  obtain ⟨x, hx, y, hy, h⟩ := h
  simp at h
  have h1 := updateMoment_struct hx
  have h2 := tzip_struct hy
  refine ⟨h1.1, ?_, ?_⟩
  · rw [← h.1, h2.2]
  · rw [← h.2]; exact h1.2

def guard_rms (d e i : α) : Guard (scaleByRms d e i) where
  inv τ s := s.nu.struct = τ
  init p s h := by
    simp at h
    rw [← h]
    exact PyTree.struct_map _ _
  step τ g s p u s' hs h := by
    have := rms_inv h
    exact ⟨this.1.trans hs, this.2.2.trans (this.1.trans hs)⟩

theorem stddev_inv {d e i : α} {g : Params α} {s : StdDevState α} {p : Option (Params α)} {u : Params α} {s' : StdDevState α}
    (h : (scaleByStddev d e i).update g s p = .ok (u, s')) : g.struct = s.nu.struct ∧ u.struct = g.struct ∧ s'.nu.struct = g.struct := by
  simp only [Res.bind_eq_ok] at h
  obtain ⟨x, hx, y, hy, z, hz, h⟩ := h
  simp at h
  have h1 := updateMoment_struct hx
  have h2 := updateMoment_struct hy
  have h3 := PyTree.zipM3_struct hz
  refine ⟨h2.1, ?_, ?_⟩
  · rw [← h.1, h3.2.2]
  · rw [← h.2]; exact h2.2

def guard_stddev (d e i : α) : Guard (scaleByStddev d e i) where
  inv τ s := s.nu.struct = τ
  init p s h := by
    simp at h
    rw [← h]
    exact PyTree.struct_map _ _
  step τ g s p u s' hs h := by
    have := stddev_inv h
    exact ⟨this.1.trans hs, this.2.2.trans (this.1.trans hs)⟩

theorem adam_inv {b1 b2 e r : α} {g : Params α} {s : AdamState α} {p : Option (Params α)} {u : Params α} {s' : AdamState α}
    (h : (scaleByAdam b1 b2 e r).update g s p = .ok (u, s')) : g.struct = s.mu.struct ∧ u.struct = g.struct ∧ s'.mu.struct = g.struct := by
  simp only [Res.bind_eq_ok] at h
  obtain ⟨x, hx, y, hy, z, hz, h⟩ := h
  simp at h
  have h1 := updateMoment_struct hx
  have h3 := tzip_struct hz
  rw [biasCorrection_struct] at h3
  refine ⟨h1.1, ?_, ?_⟩
  · rw [← h.1, h3.2, h1.2]
  · rw [← h.2]; exact h1.2

def guard_adam (b1 b2 e r : α) : Guard (scaleByAdam b1 b2 e r) where
  inv τ s := s.mu.struct = τ
  init p s h := by
    simp at h
    rw [← h]
    exact zerosLike_struct p
  step τ g s p u s' hs h := by
    have := adam_inv h
    exact ⟨this.1.trans hs, this.2.2.trans (this.1.trans hs)⟩

theorem belief_inv {b1 b2 e r : α} {g : Params α} {s : AdamState α} {p : Option (Params α)} {u : Params α} {s' : AdamState α}
    (h : (scaleByBelief b1 b2 e r).update g s p = .ok (u, s')) : g.struct = s.mu.struct ∧ u.struct = g.struct ∧ s'.mu.struct = g.struct := by
  simp only [Res.bind_eq_ok] at h
  obtain ⟨x, hx, w, hw, y, hy, z, hz, h⟩ := h
  simp at h
  have h1 := updateMoment_struct hx
  have h3 := tzip_struct hz
  rw [biasCorrection_struct] at h3
  refine ⟨h1.1, ?_, ?_⟩
  · rw [← h.1, h3.2, h1.2]
  · rw [← h.2]; exact h1.2

def guard_belief (b1 b2 e r : α) : Guard (scaleByBelief b1 b2 e r) where
  inv τ s := s.mu.struct = τ
  init p s h := by
    simp at h
    rw [← h]
    exact zerosLike_struct p
  step τ g s p u s' hs h := by
    have := belief_inv h
    exact ⟨this.1.trans hs, this.2.2.trans (this.1.trans hs)⟩

theorem yogi_inv {b1 b2 e r a : α} {g : Params α} {s : AdamState α} {p : Option (Params α)} {u : Params α} {s' : AdamState α}
    (h : (scaleByYogi b1 b2 e r a).update g s p = .ok (u, s')) : g.struct = s.mu.struct ∧ u.struct = g.struct ∧ s'.mu.struct = g.struct := by
  simp only [Res.bind_eq_ok] at h
  obtain ⟨x, hx, w, hw, y, hy, z, hz, h⟩ := h
  simp at h
  have h1 := updateMoment_struct hx
  have h3 := tzip_struct hz
  rw [biasCorrection_struct] at h3
  refine ⟨h1.1, ?_, ?_⟩
  · rw [← h.1, h3.2, h1.2]
  · rw [← h.2]; exact h1.2

def guard_yogi (b1 b2 e r a : α) : Guard (scaleByYogi b1 b2 e r a) where
  inv τ s := s.mu.struct = τ
  init p s h := by
    simp at h
    rw [← h]
    exact PyTree.struct_map _ _
  step τ g s p u s' hs h := by
    have := yogi_inv h
    exact ⟨this.1.trans hs, this.2.2.trans (this.1.trans hs)⟩

theorem condTree_struct {c : Bool} {a b : Res (Params α)} {r : Params α} (h : condTree c a b = .ok r) :
    ∃ x y, a = .ok x ∧ b = .ok y ∧ x.struct = y.struct ∧ r.struct = y.struct := by
  simp only [condTree, Res.bind_eq_ok] at h
  obtain ⟨x, hx, y, hy, h⟩ := h
  split at h
  · rename_i hs
    have hs := struct_of_spec hs
    simp at h
    refine ⟨x, y, hx, hy, hs, ?_⟩
    rw [← h]
    split <;> simp [hs]
  · simp at h

theorem radam_inv {b1 b2 e r th : α} {g : Params α} {s : AdamState α} {p : Option (Params α)} {u : Params α} {s' : AdamState α}
    (h : (scaleByRadam b1 b2 e r th).update g s p = .ok (u, s')) : g.struct = s.mu.struct ∧ u.struct = g.struct ∧ s'.mu.struct = g.struct := by
  simp only [Res.bind_eq_ok] at h
  obtain ⟨x, hx, y, hy, z, hz, h⟩ := h
  simp only [Res.pure_eq, Except.ok.injEq, Prod.mk.injEq] at h
  have h1 := updateMoment_struct hx
  obtain ⟨a, b, -, hb, -, hz⟩ := condTree_struct hz
  simp only [Except.ok.injEq] at hb
  refine ⟨h1.1, ?_, ?_⟩
  · rw [← h.1, hz, ← hb, biasCorrection_struct, h1.2]
  · rw [← h.2]; exact h1.2

def guard_radam (b1 b2 e r th : α) : Guard (scaleByRadam b1 b2 e r th) where
  inv τ s := s.mu.struct = τ
  init p s h := by
    simp at h
    rw [← h]
    exact zerosLike_struct p
  step τ g s p u s' hs h := by
    have := radam_inv h
    exact ⟨this.1.trans hs, this.2.2.trans (this.1.trans hs)⟩

theorem applyEvery_inv {k : ℤ} {g : Params α} {s : ApplyEveryState α} {p : Option (Params α)} {u : Params α} {s' : ApplyEveryState α}
    (h : (applyEvery k).update g s p = .ok (u, s')) : g.struct = s.gradAcc.struct ∧ u.struct = g.struct ∧ s'.gradAcc.struct = g.struct := by
  simp only [Res.bind_eq_ok] at h
  obtain ⟨x, hx, h⟩ := h
  simp only [Res.pure_eq, Except.ok.injEq, Prod.mk.injEq] at h
  have h1 := tzip_struct hx
  refine ⟨h1.1, ?_, ?_⟩
  · rw [← h.1, tmap_struct, h1.2]
  · rw [← h.2]; exact h1.2

def guard_applyEvery (k : ℤ) : Guard (applyEvery k : GT α) where
  inv τ s := s.gradAcc.struct = τ
  init p s h := by
    simp at h
    rw [← h]
    exact zerosLike_struct p
  step τ g s p u s' hs h := by
    have := applyEvery_inv h
    exact ⟨this.1.trans hs, this.2.2.trans (this.1.trans hs)⟩

theorem sm3_inv {b1 b2 e : α} {g : Params α} {s : SM3State α} {p : Option (Params α)} {u : Params α} {s' : SM3State α}
    (h : (scaleBySM3 b1 b2 e).update g s p = .ok (u, s')) : g.struct = s.nu.struct ∧ u.struct = g.struct ∧ s'.nu.struct = g.struct := by
  simp only [Res.bind_eq_ok] at h
  obtain ⟨x, hx, a, ha, y, hy, z, hz, w, hw, h⟩ := h
  simp only [Res.pure_eq, Except.ok.injEq, Prod.mk.injEq] at h
  have h1 := tzip_struct hy
  have h2 := updateMoment_struct hz
  refine ⟨h1.2.symm.trans h2.1, ?_, ?_⟩
  · rw [← h.1, h2.2, h1.2]
  · rw [← h.2]; exact h2.2.trans h1.2

def guard_sm3 (b1 b2 e : α) : Guard (scaleBySM3 b1 b2 e) where
  inv τ s := s.nu.struct = τ
  init p s h := by
    simp at h
    rw [← h]
    exact zerosLike_struct p
  step τ g s p u s' hs h := by
    have := sm3_inv h
    exact ⟨this.1.trans hs, this.2.2.trans (this.1.trans hs)⟩

theorem keeps_addNoise (normal : Normal α) (eta gamma : α) (seed : ℤ) : Keeps (addNoise normal eta gamma seed) := by
  intro g s p u s' h
  simp only [Res.bind_eq_ok] at h
  obtain ⟨x, hx, a, ha, y, hy, k, hk, h⟩ := h
  simp only [Res.pure_eq, Except.ok.injEq, Prod.mk.injEq] at h
  rw [← h.1]
  exact (tzip_struct hy).2

theorem keeps_dpAggregate (normal : Normal α) (c n : α) (seed : ℤ) : Keeps (dpAggregate normal c n seed) := by
  intro g s p u s' h
  simp only [Res.bind_eq_ok] at h
  obtain ⟨x, hx, a, ha, y, hy, k, hk, h⟩ := h
  simp only [Res.pure_eq, Except.ok.injEq, Prod.mk.injEq] at h
  rw [← h.1]
  exact PyTree.unflatten_struct hy

/-! ## Chains -/

theorem chainLoop_keeps {ts : List (GT α)} (h : ∀ t ∈ ts, Keeps t) : ∀ g s p u s', chainLoop ts g s p = .ok (u, s') → u.struct = g.struct := by
  induction ts with
  | nil => intro g s p u s' hu; simp [chainLoop] at hu; rw [hu.1]
  | cons t ts ih =>
    intro g s p u s' hu
    cases s with
    | none => simp [chainLoop] at hu; rw [hu.1]
    | some sr =>
      simp only [chainLoop, Res.bind_eq_ok] at hu
      obtain ⟨x, hx, y, hy, hu⟩ := hu
      simp only [Res.pure_eq, Except.ok.injEq, Prod.mk.injEq] at hu
      rw [← hu.1, ih (fun t ht => h t (List.mem_cons_of_mem _ ht)) _ _ _ _ _ hy]
      exact h t List.mem_cons_self _ _ _ _ _ hx

theorem chain_loop_of_update {ts : List (GT α)} {g u : Params α} {s s' : ChainState ts} {p : Option (Params α)}
    (h : (chain ts).update g s p = .ok (u, s')) : ChainState.length ts s = ts.length ∧ chainLoop ts g s p = .ok (u, s') := by
  have h : (if ChainState.length ts s ≠ ts.length then valueError else chainLoop ts g s p) = .ok (u, s') := h
  split at h
  · simp [valueError] at h
  · rename_i hl
    exact ⟨not_not.mp hl, h⟩

theorem Keeps.chain {ts : List (GT α)} (h : ∀ t ∈ ts, Keeps t) : Keeps (chain ts) :=
  fun g s p u s' hu => chainLoop_keeps h g s p u s' (chain_loop_of_update hu).2

/-- the invariant of a guarded member `t`, after members that keep the structure, is one of the chain -/
def chainInv {t : GT α} (G : Guard t) (ts : List (GT α)) : (pre : List (GT α)) → PyTree Unit → ChainState (pre ++ t :: ts) → Prop
  | [], τ, some (a, _) => G.inv τ a
  | [], _, none => False
  | _ :: pre, τ, some (_, r) => chainInv G ts pre τ r
  | _ :: _, _, none => False

theorem chainInv_init {t : GT α} (G : Guard t) (ts : List (GT α)) : ∀ (pre : List (GT α)) (p : Params α) s,
    chainInit (pre ++ t :: ts) p = .ok s → chainInv G ts pre p.struct s
  | [], p, s, h => by
    have h : chainInit (t :: ts) p = .ok s := h
    simp only [chainInit, Res.bind_eq_ok] at h
    obtain ⟨a, ha, b, hb, h⟩ := h
    simp only [Res.pure_eq, Except.ok.injEq] at h
    subst h
    exact G.init p a ha
  | q :: pre, p, s, h => by
    have h : chainInit (q :: (pre ++ t :: ts)) p = .ok s := h
    simp only [chainInit, Res.bind_eq_ok] at h
    obtain ⟨a, ha, b, hb, h⟩ := h
    simp only [Res.pure_eq, Except.ok.injEq] at h
    subst h
    exact chainInv_init G ts pre p b hb

theorem chainInv_step {t : GT α} (G : Guard t) (ts : List (GT α)) : ∀ (pre : List (GT α)), (∀ q ∈ pre, Keeps q) → ∀ τ g s p u s',
    chainInv G ts pre τ s → chainLoop (pre ++ t :: ts) g s p = .ok (u, s') → g.struct = τ ∧ chainInv G ts pre τ s'
  | [], hpre, τ, g, s, p, u, s', hi, h => by
    have h : chainLoop (t :: ts) g s p = .ok (u, s') := h
    cases s with
    | none => exact hi.elim
    | some sr =>
      simp only [chainLoop, Res.bind_eq_ok] at h
      obtain ⟨x, hx, y, hy, h⟩ := h
      simp only [Res.pure_eq, Except.ok.injEq, Prod.mk.injEq] at h
      rw [← h.2]
      exact G.step τ g sr.1 p x.1 x.2 hi hx
  | q :: pre, hpre, τ, g, s, p, u, s', hi, h => by
    have h : chainLoop (q :: (pre ++ t :: ts)) g s p = .ok (u, s') := h
    cases s with
    | none => exact hi.elim
    | some sr =>
      simp only [chainLoop, Res.bind_eq_ok] at h
      obtain ⟨x, hx, y, hy, h⟩ := h
      simp only [Res.pure_eq, Except.ok.injEq, Prod.mk.injEq] at h
      rw [← h.2]
      have := chainInv_step G ts pre (fun q hq => hpre q (List.mem_cons_of_mem _ hq)) τ x.1 sr.2 p y.1 y.2 hi hy
      exact ⟨(hpre q List.mem_cons_self _ _ _ _ _ hx).symm.trans this.1, this.2⟩

def Guard.chain {t : GT α} (G : Guard t) (pre ts : List (GT α)) (hpre : ∀ q ∈ pre, Keeps q) : Guard (chain (pre ++ t :: ts)) where
  inv := chainInv G ts pre
  init p s h := chainInv_init G ts pre p s h
  step τ g s p u s' hi h := chainInv_step G ts pre hpre τ g s p u s' hi (chain_loop_of_update h).2

/-! ## Wrappers -/

theorem condUpd_struct {S : Type} {c : Bool} {a b : Res (Params α × S)} {r : Params α × S} (h : condUpd c a b = .ok r) :
    ∃ x y, a = .ok x ∧ b = .ok y ∧ x.1.struct = y.1.struct ∧ (r = x ∨ r = y) := by
  simp only [condUpd, Res.bind_eq_ok] at h
  obtain ⟨x, hx, y, hy, h⟩ := h
  split at h
  · rename_i hs
    simp only [Res.pure_eq, Except.ok.injEq] at h
    refine ⟨x, y, hx, hy, struct_of_spec hs, ?_⟩
    rw [← h]
    cases c <;> simp
  · simp at h

theorem keeps_applyIfFinite (inner : GT α) (m : ℤ) : Keeps (applyIfFinite inner m) := by
  intro g s p u s' h
  simp only [Res.bind_eq_ok] at h
  obtain ⟨r, hr, h⟩ := h
  simp only [Res.pure_eq, Except.ok.injEq, Prod.mk.injEq] at h
  obtain ⟨x, y, hx, hy, hs, hr⟩ := condUpd_struct hr
  simp only [Except.ok.injEq] at hy
  rw [← h.1]
  have : y.1.struct = g.struct := by rw [← hy]; exact zerosLike_struct g
  rcases hr with rfl | rfl
  · rw [hs, this]
  · exact this

def guard_applyIfFinite {inner : GT α} (G : Guard inner) (m : ℤ) : Guard (applyIfFinite inner m) where
  inv τ s := G.inv τ s.innerState
  init p s h := by
    simp only [Res.bind_eq_ok] at h
    obtain ⟨x, hx, h⟩ := h
    simp only [Res.pure_eq, Except.ok.injEq] at h
    rw [← h]
    exact G.init p x hx
  step τ g s p u s' hi h := by
    simp only [Res.bind_eq_ok] at h
    obtain ⟨r, hr, h⟩ := h
    simp only [Res.pure_eq, Except.ok.injEq, Prod.mk.injEq] at h
    obtain ⟨x, y, hx, hy, hs, hr⟩ := condUpd_struct hr
    simp only [Except.ok.injEq] at hy
    have := G.step τ g s.innerState p x.1 x.2 hi hx
    rw [← h.2]
    refine ⟨this.1, ?_⟩
    rcases hr with rfl | rfl
    · exact this.2
    · show G.inv τ r.2
      rw [← hy]; exact hi

theorem keeps_maybeUpdate (inner : GT α) (f : ℤ → Bool) : Keeps (maybeUpdate inner f) := by
  intro g s p u s' h
  simp only [Res.bind_eq_ok] at h
  obtain ⟨r, hr, h⟩ := h
  simp only [Res.pure_eq, Except.ok.injEq, Prod.mk.injEq] at h
  obtain ⟨x, y, hx, hy, hs, hr⟩ := condUpd_struct hr
  simp only [Except.ok.injEq] at hy
  rw [← h.1]
  have : y.1.struct = g.struct := by rw [← hy]
  rcases hr with rfl | rfl
  · rw [hs, this]
  · exact this

def guard_maybeUpdate {inner : GT α} (G : Guard inner) (f : ℤ → Bool) : Guard (maybeUpdate inner f) where
  inv τ s := G.inv τ s.innerState
  init p s h := by
    simp only [Res.bind_eq_ok] at h
    obtain ⟨x, hx, h⟩ := h
    simp only [Res.pure_eq, Except.ok.injEq] at h
    rw [← h]
    exact G.init p x hx
  step τ g s p u s' hi h := by
    simp only [Res.bind_eq_ok] at h
    obtain ⟨r, hr, h⟩ := h
    simp only [Res.pure_eq, Except.ok.injEq, Prod.mk.injEq] at h
    obtain ⟨x, y, hx, hy, hs, hr⟩ := condUpd_struct hr
    simp only [Except.ok.injEq] at hy
    have := G.step τ g s.innerState p x.1 x.2 hi hx
    rw [← h.2]
    refine ⟨this.1, ?_⟩
    rcases hr with rfl | rfl
    · exact this.2
    · show G.inv τ r.2
      rw [← hy]; exact hi

theorem multiSteps_inv {inner : GT α} {k : ℤ → ℤ} {m : Bool} {g : Params α} {s : MultiStepsState α inner.State} {p : Option (Params α)}
    {u : Params α} {s' : MultiStepsState α inner.State} (h : (multiSteps inner k m).update g s p = .ok (u, s')) :
    g.struct = s.accGrads.struct ∧ u.struct = g.struct ∧ s'.accGrads.struct = g.struct := by
  simp only [Res.bind_eq_ok] at h
  obtain ⟨acc, ha, h⟩ := h
  have h1 := tzip_struct ha
  obtain ⟨x, y, hx, hy, hs, hr⟩ := condUpd_struct h
  simp only [Except.ok.injEq] at hx
  simp only [Res.bind_eq_ok] at hy
  obtain ⟨r, hr', hy⟩ := hy
  simp only [Res.pure_eq, Except.ok.injEq] at hy
  have hg : x.1.struct = g.struct := by rw [← hx]; exact zerosLike_struct g
  refine ⟨h1.1, ?_, ?_⟩
  · rcases hr with hr | hr
    · rw [← hg, ← hr]
    · rw [← hg, hs, ← hr]
  · rcases hr with hr | hr
    · have : s' = x.2 := by rw [← hr]
      rw [this, ← hx]; exact h1.2
    · have : s' = y.2 := by rw [← hr]
      rw [this, ← hy]; exact (zerosLike_struct _).trans h1.2

def guard_multiSteps (inner : GT α) (k : ℤ → ℤ) (m : Bool) : Guard (multiSteps inner k m) where
  inv τ s := s.accGrads.struct = τ
  init p s h := by
    simp only [Res.bind_eq_ok] at h
    obtain ⟨x, hx, h⟩ := h
    simp only [Res.pure_eq, Except.ok.injEq] at h
    rw [← h]
    exact zerosLike_struct p
  step τ g s p u s' hs h := by
    have := multiSteps_inv h
    exact ⟨this.1.trans hs, this.2.2.trans (this.1.trans hs)⟩

theorem keeps_flatten (inner : GT α) : Keeps (flatten inner) := by
  intro g s p u s' h
  simp only [Res.bind_eq_ok] at h
  obtain ⟨a, -, b, -, r, -, v, hv, h⟩ := h
  simp only [Res.pure_eq, Except.ok.injEq, Prod.mk.injEq] at h
  rw [← h.1]
  unfold unflattenVec at hv
  split at hv
  · simp at hv
  · simp only [Res.bind_eq_ok] at hv
    obtain ⟨w, -, hv⟩ := hv
    exact PyTree.unflatten_struct hv

namespace PyTree
variable {β γ : Type}

mutual
theorem join_struct : ∀ (m : PyTree Bool) (g : PyTree β) (fl fl' rest : List (PyTree β)) (r : PyTree (PyTree β) × List (PyTree β)),
    flattenUpTo m g = .ok fl → List.Forall₂ (fun a b => a.struct = b.struct) fl' fl → fill m (fl' ++ rest) = .ok r →
    r.1.join.struct = g.struct ∧ r.2 = rest
  | leaf b, g, fl, fl', rest, r, h1, h2, h3 => by
    simp [flattenUpTo] at h1
    subst h1
    cases h2 with
    | cons hx hn =>
      cases hn
      simp [fill] at h3
      subst h3
      exact ⟨hx, rfl⟩
  | node _ _, leaf _, _, _, _, _, h1, _, _ => by simp [flattenUpTo] at h1
  | node t cs, node t' cs', fl, fl', rest, r, h1, h2, h3 => by
    simp only [flattenUpTo] at h1
    split at h1
    · rename_i ht
      simp only [fill, Res.bind_eq_ok] at h3
      obtain ⟨x, hx, h3⟩ := h3
      simp only [Res.pure_eq, Except.ok.injEq] at h3
      subst h3
      obtain ⟨a, b⟩ := joinL_struct cs cs' fl fl' rest x h1 h2 hx
      exact ⟨by simp only [join, struct, map, a, ht], b⟩
    · simp at h1
theorem joinL_struct : ∀ (ms : List (PyTree Bool)) (gs : List (PyTree β)) (fl fl' rest : List (PyTree β))
    (r : List (PyTree (PyTree β)) × List (PyTree β)),
    flattenUpToL ms gs = .ok fl → List.Forall₂ (fun a b => a.struct = b.struct) fl' fl → fillL ms (fl' ++ rest) = .ok r →
    mapL (fun _ => ()) (joinL r.1) = mapL (fun _ => ()) gs ∧ r.2 = rest
  | [], [], fl, fl', rest, r, h1, h2, h3 => by
    simp [flattenUpToL] at h1
    subst h1
    cases h2
    simp [fillL] at h3
    subst h3
    exact ⟨rfl, rfl⟩
  | [], _ :: _, _, _, _, _, h1, _, _ => by simp [flattenUpToL] at h1
  | _ :: _, [], _, _, _, _, h1, _, _ => by simp [flattenUpToL] at h1
  | m :: ms, g :: gs, fl, fl', rest, r, h1, h2, h3 => by
    simp only [flattenUpToL, Res.bind_eq_ok] at h1
    obtain ⟨e, he, es, hes, h1⟩ := h1
    simp only [Res.pure_eq, Except.ok.injEq] at h1
    subst h1
    obtain ⟨p1, p2⟩ : List.Forall₂ (fun a b => a.struct = b.struct) (fl'.take e.length) e ∧
        List.Forall₂ (fun a b => a.struct = b.struct) (fl'.drop e.length) es :=
      ⟨List.forall₂_take_append _ _ _ h2, List.forall₂_drop_append _ _ _ h2⟩
    simp only [fillL, Res.bind_eq_ok] at h3
    obtain ⟨x, hx, y, hy, h3⟩ := h3
    simp only [Res.pure_eq, Except.ok.injEq] at h3
    subst h3
    obtain ⟨a, b⟩ := join_struct m g e _ (fl'.drop e.length ++ rest) x he p1 (by rw [← List.append_assoc, List.take_append_drop]; exact hx)
    rw [b] at hy
    obtain ⟨c, d⟩ := joinL_struct ms gs es _ rest y hes p2 hy
    simp only [struct] at a
    exact ⟨by simp only [joinL, mapL, a, c], d⟩
end

end PyTree

theorem putBack_struct {β : Type} : ∀ (ms : List Bool) (fl new : List (PyTree β)) (r : List (PyTree β)), fl.length = ms.length →
    List.Forall₂ (fun a b => a.struct = b.struct) new (selectMask fl ms) → putBack ms fl new = .ok r →
    List.Forall₂ (fun a b => a.struct = b.struct) r fl
  | [], fl, new, r, hl, h, hr => by
    simp [putBack] at hr
    subst hr
    exact List.forall₂_same.mpr fun _ _ => rfl
  | b :: ms, [], _, _, hl, _, _ => by simp at hl
  | false :: ms, x :: xs, new, r, hl, h, hr => by
    simp only [putBack, Res.bind_eq_ok] at hr
    obtain ⟨y, hy, hr⟩ := hr
    simp only [Res.pure_eq, Except.ok.injEq] at hr
    subst hr
    have e : selectMask (x :: xs) (false :: ms) = selectMask xs ms := by simp [selectMask]
    rw [e] at h
    exact .cons rfl (putBack_struct ms xs new y (by simpa using hl) h hy)
  | true :: ms, x :: xs, [], r, hl, h, hr => by simp [putBack] at hr
  | true :: ms, x :: xs, z :: zs, r, hl, h, hr => by
    simp only [putBack, Res.bind_eq_ok] at hr
    obtain ⟨y, hy, hr⟩ := hr
    simp only [Res.pure_eq, Except.ok.injEq] at hr
    subst hr
    have e : selectMask (x :: xs) (true :: ms) = x :: selectMask xs ms := by simp [selectMask]
    rw [e] at h
    cases h with
    | cons h1 h2 => exact .cons h1 (putBack_struct ms xs zs y (by simpa using hl) h2 hy)

theorem mapL_forall2 {β γ : Type} : ∀ {a : List (PyTree β)} {b : List (PyTree γ)},
    PyTree.mapL (fun _ => ()) a = PyTree.mapL (fun _ => ()) b → List.Forall₂ (fun x y => x.struct = y.struct) a b
  | [], [], _ => .nil
  | [], _ :: _, h => by simp [PyTree.mapL] at h
  | _ :: _, [], h => by simp [PyTree.mapL] at h
  | x :: a, y :: b, h => by
    simp only [PyTree.mapL, List.cons.injEq] at h
    exact .cons h.1 (mapL_forall2 h.2)

mutual
theorem flattenUpTo_length {β γ : Type} : ∀ (m : PyTree β) (g : PyTree γ) (fl : List (PyTree γ)), PyTree.flattenUpTo m g = .ok fl →
    fl.length = m.leaves.length
  | .leaf b, g, fl, h => by simp [PyTree.flattenUpTo] at h; subst h; rfl
  | .node _ _, .leaf _, _, h => by simp [PyTree.flattenUpTo] at h
  | .node t cs, .node t' cs', fl, h => by
    simp only [PyTree.flattenUpTo] at h
    split at h
    · exact flattenUpToL_length cs cs' fl h
    · simp at h
theorem flattenUpToL_length {β γ : Type} : ∀ (m : List (PyTree β)) (g : List (PyTree γ)) (fl : List (PyTree γ)),
    PyTree.flattenUpToL m g = .ok fl → fl.length = (PyTree.leavesL m).length
  | [], [], fl, h => by simp [PyTree.flattenUpToL] at h; subst h; rfl
  | [], _ :: _, _, h => by simp [PyTree.flattenUpToL] at h
  | _ :: _, [], _, h => by simp [PyTree.flattenUpToL] at h
  | m :: ms, g :: gs, fl, h => by
    simp only [PyTree.flattenUpToL, Res.bind_eq_ok] at h
    obtain ⟨e, he, es, hes, h⟩ := h
    simp only [Res.pure_eq, Except.ok.injEq] at h
    subst h
    simp only [PyTree.leavesL, List.length_append, flattenUpTo_length m g e he, flattenUpToL_length ms gs es hes]
end

theorem keeps_masked {inner : GT α} (hk : Keeps inner) (mask : Params α → PyTree Bool) : Keeps (masked inner mask) := by
  intro g s p u s' h
  simp only [Res.bind_eq_ok] at h
  obtain ⟨fl, hfl, mp, -, r, hr, new, hnew, fl', hfl', v, hv, h⟩ := h
  simp only [Res.pure_eq, Except.ok.injEq, Prod.mk.injEq] at h
  rw [← h.1]
  have h1 := hk _ _ _ _ _ hr
  have h2 : List.Forall₂ (fun a b => a.struct = b.struct) new (selectMask fl (mask g).leaves) := by
    revert hnew h1
    cases r.1 with
    | leaf x => intro hnew; simp [iterChildren] at hnew
    | node t cs =>
      intro hnew h1
      simp only [iterChildren, Except.ok.injEq] at hnew
      subst hnew
      simp only [PyTree.struct, PyTree.map, PyTree.node.injEq] at h1
      exact mapL_forall2 h1.2
  have h3 := putBack_struct _ _ _ _ (flattenUpTo_length _ _ _ hfl) h2 hfl'
  simp only [PyTree.unflatten, Res.bind_eq_ok] at hv
  obtain ⟨x, hx, hv⟩ := hv
  have h4 := (PyTree.join_struct (mask g) g fl fl' [] x hfl h3 (by rw [List.append_nil]; exact hx))
  rw [h4.2] at hv
  simp only [Res.pure_eq, Except.ok.injEq] at hv
  rw [← hv]
  exact h4.1

theorem keeps_injectHyperparams {β : Type} {F : Factory α β} (hk : ∀ o hp, Keeps (F.build o hp)) (st : List String)
    (args : List (String × ArgVal α β)) : Keeps (injectHyperparams F st args) := by
  intro g s p u s' h
  simp only [Res.bind_eq_ok] at h
  obtain ⟨r, hr, h⟩ := h
  simp only [Res.pure_eq, Except.ok.injEq, Prod.mk.injEq] at h
  rw [← h.1]
  exact hk _ _ _ _ _ _ _ hr

theorem keeps_momentum (m : Option α) (n : Bool) : Keeps (momentumOrIdentity m n) := by
  cases m with
  | none => exact keeps_identity
  | some m => exact fun g s p u s' h => (trace_inv h).2.1

/-! ## C93 -/

/-- **C93 (`apply_updates`).** `apply_updates`, `incremental_update` raise if the two trees differ in structure; otherwise the
result, if any, has that structure. -/
theorem C93_apply_updates (params updates : Params α) (c : α) :
    (params.struct ≠ updates.struct → (∃ e, applyUpdates params updates = .error e) ∧ ∃ e, incrementalUpdate params updates c = .error e) ∧
    (∀ r, applyUpdates params updates = .ok r ∨ incrementalUpdate params updates c = .ok r → r.struct = params.struct) := by
  constructor
  · intro hne
    have key : ∀ f : α → α → α, ∃ e, tzip f params updates = .error e := by
      intro f
      cases h : tzip f params updates with
      | error e => exact ⟨e, rfl⟩
      | ok r => exact (hne (tzip_struct h).1).elim
    exact ⟨key _, key _⟩
  · rintro r (h | h)
    · exact (tzip_struct h).2
    · exact (tzip_struct h).2

/-- **C93 (transformations).** Whatever the number type, the state (even one made for other parameters) and the params passed: if
`update` does not raise, the updates have the tree structure of the gradients.  For the transformations reading params, the
params had that structure, too. -/
theorem C93_updates_follow_gradients (f : Schedule α) (normal : Normal α) (a b c d e r : α) (n db : Bool) (acc : Option (α → α)) (k : ℤ) (seed : ℤ) :
    Keeps (identity : GT α) ∧ Keeps (scale a) ∧ Keeps (clip a) ∧ Keeps (clipByGlobalNorm a) ∧ Keeps (centralize : GT α) ∧
    Keeps (zeroNans : GT α) ∧ Keeps (scaleBySchedule f) ∧ Keeps (addNoise normal a b seed) ∧ Keeps (dpAggregate normal a b seed) ∧
    Keeps (trace a n acc) ∧ Keeps (ema a db acc) ∧ Keeps (scaleByRss a b) ∧ Keeps (scaleByRms a b c) ∧ Keeps (scaleByStddev a b c) ∧
    Keeps (scaleByAdam a b c d) ∧ Keeps (scaleByBelief a b c d) ∧ Keeps (scaleByYogi a b c d e) ∧ Keeps (scaleByRadam a b c d e) ∧
    Keeps (applyEvery k : GT α) ∧ Keeps (scaleBySM3 a b c) ∧
    NeedsParams (addDecayedWeights a) ∧ NeedsParams (scaleByTrustRatio a) ∧ NeedsParams (keepParamsNonnegative : GT α) ∧
    NeedsParams (adaptiveGradClip a b) :=
  ⟨keeps_identity, keeps_scale a, keeps_clip a, keeps_clipByGlobalNorm a, keeps_centralize, keeps_zeroNans, keeps_scaleBySchedule f,
    keeps_addNoise normal a b seed, keeps_dpAggregate normal a b seed, fun _ _ _ _ _ h => (trace_inv h).2.1, fun _ _ _ _ _ h => (ema_inv h).2.1,
    fun _ _ _ _ _ h => (rss_inv h).2.1, fun _ _ _ _ _ h => (rms_inv h).2.1, fun _ _ _ _ _ h => (stddev_inv h).2.1, fun _ _ _ _ _ h => (adam_inv h).2.1,
    fun _ _ _ _ _ h => (belief_inv h).2.1, fun _ _ _ _ _ h => (yogi_inv h).2.1, fun _ _ _ _ _ h => (radam_inv h).2.1,
    fun _ _ _ _ _ h => (applyEvery_inv h).2.1, fun _ _ _ _ _ h => (sm3_inv h).2.1,
    needs_addDecayedWeights a, needs_trustRatio a, needs_nonnegative, needs_agc a b⟩

/-- **C93 (wrappers).** Chains and `masked` keep the structure if their members do; `flatten`, `apply_if_finite`, `maybe_update`,
`MultiSteps` do whatever they wrap (they raise if the wrapped transformation changes it). -/
theorem C93_wrappers (inner : GT α) (ts : List (GT α)) (mask : Params α → PyTree Bool) (m : ℤ) (should : ℤ → Bool) (k : ℤ → ℤ) (mean : Bool) :
    ((∀ t ∈ ts, Keeps t) → Keeps (chain ts)) ∧ (Keeps inner → Keeps (masked inner mask)) ∧ Keeps (flatten inner) ∧
    Keeps (applyIfFinite inner m) ∧ Keeps (maybeUpdate inner should) ∧ Keeps (multiSteps inner k mean) :=
  ⟨Keeps.chain, fun h => keeps_masked h mask, keeps_flatten inner, keeps_applyIfFinite inner m, keeps_maybeUpdate inner should,
    fun _ _ _ _ _ h => (multiSteps_inv h).2.1⟩

/-- **C93 (stateful transformations).** Once initialised with `params`, these raise at the first call whose gradients have another tree
structure than `params`; so does a chain that contains one of them behind members that keep the structure, and
`apply_if_finite`, `maybe_update` around one, also when the call would have been skipped. -/
theorem C93_strict (a b c d e : α) (n db mean : Bool) (acc : Option (α → α)) (k : ℤ) (inner : GT α) (ks : ℤ → ℤ) :
    Strict (trace a n acc) ∧ Strict (ema a db acc) ∧ Strict (scaleByRss a b) ∧ Strict (scaleByRms a b c) ∧ Strict (scaleByStddev a b c) ∧
    Strict (scaleByAdam a b c d) ∧ Strict (scaleByBelief a b c d) ∧ Strict (scaleByYogi a b c d e) ∧ Strict (scaleByRadam a b c d e) ∧
    Strict (applyEvery k : GT α) ∧ Strict (scaleBySM3 a b c) ∧ Strict (multiSteps inner ks mean) ∧
    (∀ m, Strict (applyIfFinite (scaleByAdam a b c d) m)) ∧ (∀ f, Strict (maybeUpdate (scaleByAdam a b c d) f)) ∧
    (∀ pre post, (∀ t ∈ pre, Keeps t) → Strict (chain (pre ++ scaleByAdam a b c d :: post))) :=
  ⟨(guard_trace a n acc).strict, (guard_ema a db acc).strict, (guard_rss a b).strict, (guard_rms a b c).strict, (guard_stddev a b c).strict,
    (guard_adam a b c d).strict, (guard_belief a b c d).strict, (guard_yogi a b c d e).strict, (guard_radam a b c d e).strict,
    (guard_applyEvery k).strict, (guard_sm3 a b c).strict, (guard_multiSteps inner ks mean).strict,
    fun m => (guard_applyIfFinite (guard_adam a b c d) m).strict, fun f => (guard_maybeUpdate (guard_adam a b c d) f).strict,
    fun pre post h => ((guard_adam a b c d).chain pre post h).strict⟩

/-- **C93 (optimisers).** Every optimiser of `alias.py` returns updates of the structure of the gradients, and all but `sgd` without
momentum, `noisy_sgd`, `fromage` and `dpsgd` without momentum reject gradients of another structure than the params they were initialised with. -/
theorem C93_optimisers (lr : LR α) (normal : Normal α) (a b c d e : α) (mom : Option α) (m : α) (n cen : Bool) (seed : ℤ) :
    (Keeps (sgd lr mom n) ∧ Keeps (adam lr a b c d) ∧ Keeps (adamw lr a b c d e) ∧ Keeps (adabelief lr a b c) ∧ Keeps (adagrad lr a b) ∧
      Keeps (fromage a b) ∧ Keeps (lamb lr a b c d e) ∧ Keeps (noisySgd normal lr a b seed) ∧ Keeps (radam lr a b c d e) ∧
      Keeps (rmsprop lr a b c cen mom n) ∧ Keeps (sm3 a b) ∧ Keeps (yogi lr a b c) ∧ Keeps (dpsgd normal lr a b seed mom n)) ∧
    (Strict (sgd lr (some m) n) ∧ Strict (adam lr a b c d) ∧ Strict (adamw lr a b c d e) ∧ Strict (adabelief lr a b c) ∧ Strict (adagrad lr a b) ∧
      Strict (lamb lr a b c d e) ∧ Strict (radam lr a b c d e) ∧ Strict (rmsprop lr a b c cen mom n) ∧ Strict (sm3 a b) ∧ Strict (yogi lr a b c) ∧
      Strict (dpsgd normal lr a b seed (some m) n)) := by
  have hlr := keeps_lr lr
  have hm := keeps_momentum mom n
  have ha : Keeps (scaleByAdam a b c d) := fun _ _ _ _ _ h => (adam_inv h).2.1
  have hw := (needs_addDecayedWeights e).keeps
  refine ⟨⟨?_, ?_, ?_, ?_, ?_, ?_, ?_, ?_, ?_, ?_, ?_, ?_, ?_⟩,
    (guard_trace m n none).chain [] [_] (by simp) |>.strict, (guard_adam a b c d).chain [] [_] (by simp) |>.strict,
    (guard_adam a b c d).chain [] [_, _] (by simp) |>.strict, (guard_belief a b c _).chain [] [_] (by simp) |>.strict,
    (guard_rss a b).chain [] [_] (by simp) |>.strict, (guard_adam a b c d).chain [] [_, _, _] (by simp) |>.strict,
    (guard_radam a b c d e).chain [] [_] (by simp) |>.strict, ?_, (guard_sm3 b 1 _).chain [] [_] (by simp) |>.strict,
    (guard_yogi a b c 0 _).chain [] [_] (by simp) |>.strict, ?_⟩
  · exact Keeps.chain (List.forall_mem_cons.mpr ⟨hm, List.forall_mem_singleton.mpr hlr⟩)
  · exact Keeps.chain (List.forall_mem_cons.mpr ⟨ha, List.forall_mem_singleton.mpr hlr⟩)
  · exact Keeps.chain (List.forall_mem_cons.mpr ⟨ha, List.forall_mem_cons.mpr ⟨hw, List.forall_mem_singleton.mpr hlr⟩⟩)
  · exact Keeps.chain (List.forall_mem_cons.mpr ⟨fun _ _ _ _ _ h => (belief_inv h).2.1, List.forall_mem_singleton.mpr hlr⟩)
  · exact Keeps.chain (List.forall_mem_cons.mpr ⟨fun _ _ _ _ _ h => (rss_inv h).2.1, List.forall_mem_singleton.mpr hlr⟩)
  · exact Keeps.chain (List.forall_mem_cons.mpr ⟨(needs_trustRatio b).keeps, List.forall_mem_cons.mpr ⟨keeps_lr _,
      List.forall_mem_singleton.mpr (needs_addDecayedWeights _).keeps⟩⟩)
  · exact Keeps.chain (List.forall_mem_cons.mpr ⟨ha, List.forall_mem_cons.mpr ⟨hw, List.forall_mem_cons.mpr ⟨(needs_trustRatio 0).keeps,
      List.forall_mem_singleton.mpr hlr⟩⟩⟩)
  · exact Keeps.chain (List.forall_mem_cons.mpr ⟨hlr, List.forall_mem_singleton.mpr (keeps_addNoise normal a b seed)⟩)
  · exact Keeps.chain (List.forall_mem_cons.mpr ⟨fun _ _ _ _ _ h => (radam_inv h).2.1, List.forall_mem_singleton.mpr hlr⟩)
  · cases cen
    · exact Keeps.chain (List.forall_mem_cons.mpr ⟨fun _ _ _ _ _ h => (rms_inv h).2.1, List.forall_mem_cons.mpr ⟨hlr, List.forall_mem_singleton.mpr hm⟩⟩)
    · exact Keeps.chain (List.forall_mem_cons.mpr ⟨fun _ _ _ _ _ h => (stddev_inv h).2.1, List.forall_mem_cons.mpr ⟨hlr, List.forall_mem_singleton.mpr hm⟩⟩)
  · exact Keeps.chain (List.forall_mem_cons.mpr ⟨fun _ _ _ _ _ h => (sm3_inv h).2.1, List.forall_mem_singleton.mpr (keeps_scale _)⟩)
  · exact Keeps.chain (List.forall_mem_cons.mpr ⟨fun _ _ _ _ _ h => (yogi_inv h).2.1, List.forall_mem_singleton.mpr hlr⟩)
  · exact Keeps.chain (List.forall_mem_cons.mpr ⟨keeps_dpAggregate normal a b seed, List.forall_mem_cons.mpr ⟨hm, List.forall_mem_singleton.mpr hlr⟩⟩)
  · cases cen
    · exact (guard_rms a b c).chain [] [_, _] (by simp) |>.strict
    · exact (guard_stddev a b c).chain [] [_, _] (by simp) |>.strict
  · exact (guard_trace m n none).chain [_] [_] (List.forall_mem_singleton.mpr (keeps_dpAggregate normal a b seed)) |>.strict

/-- **C93 (a training step).** `updates, state = opt.update(grads, state, params); params = apply_updates(params, updates)` with any
optimiser that returns updates of the structure of the gradients: if nothing raises, gradients, old and new params have the
same structure. -/
theorem C93_training_step {opt : GT α} (hk : Keeps opt) (params grads updates params' : Params α) (s s' : opt.State)
    (h1 : opt.update grads s (some params) = .ok (updates, s')) (h2 : applyUpdates params updates = .ok params') :
    grads.struct = params.struct ∧ params'.struct = params.struct := by
  have := hk _ _ _ _ _ h1
  have h := tzip_struct h2
  exact ⟨this.symm.trans h.1.symm, h.2⟩

/-- **C93 (finding): `flatten` hides the structure.** Only the total number of entries reaches the wrapped transformation: initialised
with one array of two entries, `flatten(trace)` accepts gradients that are a pair of scalars.  (`trace` alone raises, by `C93_strict`.) -/
theorem C93_flatten_hides (d a b x y : α) :
    ∃ s, (flatten (trace d false)).exec (.leaf ⟨[2], [x, y]⟩) [(.node .tuple [.leaf ⟨[], [a]⟩, .leaf ⟨[1], [b]⟩], none)] =
      .ok ([.node .tuple [.leaf ⟨[], [a + d * 0]⟩, .leaf ⟨[1], [b + d * 0]⟩]], s) := ⟨_, rfl⟩

/-- a successful history, and a rejected one -/
example : (∃ r, (trace (1/2 : ℝ) false).exec (mk (.leaf [2]) fun _ _ => 0) [(mk (.leaf [2]) fun _ i => i, none)] = .ok r) ∧
    (∃ e, (trace (1/2 : ℝ) false).exec (mk (.leaf [2]) fun _ _ => 0) [(mk (.node .tuple [.leaf [2]]) fun _ i => i, none)] = .error e) :=
  ⟨⟨_, rfl⟩, ⟨_, rfl⟩⟩

theorem zipML_long {β γ δ : Type} (f : β → γ → Res δ) : ∀ (as : List (PyTree β)) (bs : List (PyTree γ)) (r : List (PyTree δ)),
    PyTree.zipML f as bs = .ok r →
    (∀ cs, cs ≠ [] → PyTree.zipML f (as ++ cs) bs = .error .value) ∧ (∀ cs, cs ≠ [] → PyTree.zipML f as (bs ++ cs) = .error .value)
  | [], [], r, _ => by
    constructor <;> (intro cs hc; cases cs with
      | nil => exact (hc rfl).elim
      | cons c cs => simp [PyTree.zipML])
  | [], b :: bs, r, h => by simp [PyTree.zipML] at h
  | a :: as, [], r, h => by simp [PyTree.zipML] at h
  | a :: as, b :: bs, r, h => by
    simp only [PyTree.zipML, Res.bind_eq_ok] at h
    obtain ⟨x, hx, y, hy, -⟩ := h
    obtain ⟨h1, h2⟩ := zipML_long f as bs y hy
    constructor
    · intro cs hc
      rw [List.cons_append]
      simp only [PyTree.zipML, hx, h1 cs hc]
      rfl
    · intro cs hc
      rw [List.cons_append]
      simp only [PyTree.zipML, hx, h2 cs hc]
      rfl

/-- **C93** (lists and tuples). An update tree with too many or too few elements, that otherwise combines with the parameters, is a
ValueError. -/
theorem C93_wrong_length (t : Tag) (ps qs us : List (Params α)) (r : Params α) (h : qs ≠ [])
    (hr : applyUpdates (.node t ps) (.node t us) = .ok r) :
    applyUpdates (.node t (ps ++ qs)) (.node t us) = .error .value ∧ applyUpdates (.node t ps) (.node t (us ++ qs)) = .error .value := by
  unfold applyUpdates tzip at hr ⊢
  simp only [PyTree.zipM, if_true, Res.bind_eq_ok] at hr
  obtain ⟨x, hx, -⟩ := hr
  obtain ⟨h1, h2⟩ := zipML_long _ _ _ _ hx
  simp only [PyTree.zipM, if_true, h1 qs h, h2 qs h]
  exact ⟨rfl, rfl⟩

end Optax
