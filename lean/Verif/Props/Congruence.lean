import Verif.Props.Alias
import Verif.Props.ApplyEvery
import Verif.Props.AdagradRegret
import Verif.Model.Wrappers

/-!
# C100: observationally equal components can be exchanged; C101: neutral hyper-parameters switch a component off
-/

set_option linter.unusedSectionVars false
set_option linter.unusedSimpArgs false
set_option linter.unusedVariables false

namespace Optax

variable {α : Type}

/-! ## Specification -/

/-- `t` and `t'` cannot be told apart: from any params satisfying `I`, on any history of calls satisfying `A`, they return the same updates, or
raise the same exception. -/
def SameOn (I : Params α → Prop) (A : Call α → Prop) (t t' : GT α) : Prop :=
  ∀ p, I p → ∀ h : List (Call α), (∀ c ∈ h, A c) → t.outs p h = t'.outs p h

/-- … on any params and any history -/
abbrev Same (t t' : GT α) : Prop := t.Equiv t'

/-- the updates `t` returns for calls satisfying `A` again satisfy `A` (with the same params) -/
def ClosedOn (I : Params α → Prop) (A : Call α → Prop) (t : GT α) : Prop :=
  ∀ p, I p → ∀ (h : List (Call α)) c u us s, (∀ c ∈ h, A c) → A c → t.exec p (h ++ [c]) = .ok (us ++ [u], s) → A (u, c.2)

/-! ## Bisimulation -/

def RelI {S S' : Type} (R : S → S' → Prop) : Res S → Res S' → Prop
  | .ok s, .ok s' => R s s'
  | .error e, .error e' => e = e'
  | _, _ => False

def RelU {S S' : Type} (R : S → S' → Prop) : Res (Params α × S) → Res (Params α × S') → Prop
  | .ok x, .ok x' => x.1 = x'.1 ∧ R x.2 x'.2
  | .error e, .error e' => e = e'
  | _, _ => False

def Bisim (I : Params α → Prop) (A : Call α → Prop) (t t' : GT α) (R : t.State → t'.State → Prop) : Prop :=
  (∀ p, I p → RelI R (t.init p) (t'.init p)) ∧ ∀ g pp s s', A (g, pp) → R s s' → RelU R (t.update g s pp) (t'.update g s' pp)

section
variable {S S' T T' : Type}

theorem RelU.bind {R : S → S' → Prop} {R' : T → T' → Prop} {a : Res (Params α × S)} {a' : Res (Params α × S')} (h : RelU R a a')
    {f : Params α × S → Res (Params α × T)} {f' : Params α × S' → Res (Params α × T')}
    (hf : ∀ u s s', R s s' → a = .ok (u, s) → a' = .ok (u, s') → RelU R' (f (u, s)) (f' (u, s'))) : RelU R' (a >>= f) (a' >>= f') := by
  match a, a', h with
  | .ok (u, s), .ok (u', s'), h =>
    obtain ⟨rfl, h2⟩ := (h : u = u' ∧ R s s')
    exact hf u s s' h2 rfl rfl
  | .error e, .error e', h => exact h

theorem RelU.same_bind {β : Type} {R' : T → T' → Prop} (a : Res β) {f : β → Res (Params α × T)} {f' : β → Res (Params α × T')}
    (hf : ∀ x, a = .ok x → RelU R' (f x) (f' x)) : RelU R' (a >>= f) (a >>= f') := by
  match a with
  | .ok x => exact hf x rfl
  | .error e => exact rfl

theorem RelI.bind {R : S → S' → Prop} {R' : T → T' → Prop} {a : Res S} {a' : Res S'} (h : RelI R a a') {f : S → Res T} {f' : S' → Res T'}
    (hf : ∀ s s', R s s' → RelI R' (f s) (f' s')) : RelI R' (a >>= f) (a' >>= f') := by
  match a, a', h with
  | .ok s, .ok s', h => exact hf s s' h
  | .error e, .error e', h => exact h

theorem RelI.same_bind {β : Type} {R' : T → T' → Prop} (a : Res β) {f : β → Res T} {f' : β → Res T'}
    (hf : ∀ x, a = .ok x → RelI R' (f x) (f' x)) : RelI R' (a >>= f) (a >>= f') := by
  match a with
  | .ok x => exact hf x rfl
  | .error e => exact rfl

theorem RelU.cond {R : S → S' → Prop} (c : Bool) {a b : Res (Params α × S)} {a' b' : Res (Params α × S')} (ha : RelU R a a') (hb : RelU R b b') :
    RelU R (condUpd c a b) (condUpd c a' b') := by
  unfold condUpd
  refine ha.bind fun u s s' hs _ _ => hb.bind fun v r r' hr _ _ => ?_
  by_cases h : spec u = spec v
  · simp only [h, if_true]
    cases c
    · exact ⟨rfl, hr⟩
    · exact ⟨rfl, hs⟩
  · simp only [h, if_false]
    exact rfl

end

theorem Bisim.same {I : Params α → Prop} {A : Call α → Prop} {t t' : GT α} {R} (h : Bisim I A t t' R) : SameOn I A t t' := by
  intro p hp l hl
  have run : ∀ (l : List (Call α)), (∀ c ∈ l, A c) → ∀ s s', R s s' → (t.run s l).map Prod.fst = (t'.run s' l).map Prod.fst := by
    intro l
    induction l with
    | nil => intro _ s s' _; rfl
    | cons c l ih =>
      intro hl s s' hs
      have h1 := h.2 c.1 c.2 s s' (hl c (by simp)) hs
      simp only [GT.run]
      match ha : t.update c.1 s c.2, hb : t'.update c.1 s' c.2, h1 with
      | .ok (u, r), .ok (u', r'), h1 =>
        obtain ⟨rfl, h2⟩ := (h1 : u = u' ∧ R r r')
        have := ih (fun c hc => hl c (by simp [hc])) r r' h2
        simp only [Res.ok_bind]
        match hx : t.run r l, hy : t'.run r' l, this with
        | .ok x, .ok y, h => 
          have : x.1 = y.1 := Except.ok.inj h
          show Except.ok (u :: x.1) = Except.ok (u :: y.1)
          rw [this]
        | .error e, .error e', h => exact h
      | .error e, .error e', h1 =>
        have h1 : e = e' := h1
        subst h1
        rfl
  unfold GT.outs GT.exec
  have h0 := h.1 p hp
  match ha : t.init p, hb : t'.init p, h0 with
  | .ok s, .ok s', h0 =>
    have := run l hl s s' h0
    simp only [Res.ok_bind]
    match hx : t.run s l, hy : t'.run s' l, this with
    | .ok x, .ok y, h => exact h
    | .error e, .error e', h => exact h
  | .error e, .error e', h0 =>
    have h0 : e = e' := h0
    subst h0
    rfl

/-- reachable by the same history, with the same futures -/
def Twin (I : Params α → Prop) (A : Call α → Prop) (t t' : GT α) (s : t.State) (s' : t'.State) : Prop :=
  (∃ p h us, I p ∧ (∀ c ∈ h, A c) ∧ t.exec p h = .ok (us, s) ∧ t'.exec p h = .ok (us, s')) ∧
    ∀ h : List (Call α), (∀ c ∈ h, A c) → (t.run s h).map Prod.fst = (t'.run s' h).map Prod.fst

theorem exec_snoc (t : GT α) (p : Params α) (h : List (Call α)) (us s c u s1) (h1 : t.exec p h = .ok (us, s)) (h2 : t.update c.1 s c.2 = .ok (u, s1)) :
    t.exec p (h ++ [c]) = .ok (us ++ [u], s1) := by
  unfold GT.exec at h1 ⊢
  obtain ⟨s0, h3, h4⟩ := Res.bind_eq_ok.mp h1
  rw [h3, Res.ok_bind, GT.run_append, h4, Res.ok_bind, GT.run_cons, h2, Res.ok_bind, GT.run_nil]
  rfl

theorem SameOn.bisim {I : Params α → Prop} {A : Call α → Prop} {t t' : GT α} (h : SameOn I A t t') : Bisim I A t t' (Twin I A t t') := by
  constructor
  · intro p hp
    have key : ∀ l : List (Call α), (∀ c ∈ l, A c) → t.outs p l = t'.outs p l := h p hp
    have h0 := key [] (by simp)
    unfold GT.outs GT.exec at h0 key
    match ha : t.init p, hb : t'.init p, h0 with
    | .ok s, .ok s', _ =>
      refine ⟨⟨p, [], [], hp, by simp, by unfold GT.exec; rw [ha]; rfl, by unfold GT.exec; rw [hb]; rfl⟩, fun l hl => ?_⟩
      have := key l hl
      rw [ha, hb, Res.ok_bind, Res.ok_bind] at this
      match hx : t.run s l, hy : t'.run s' l, this with
      | .ok x, .ok y, h => exact h
      | .ok x, .error y, h => cases h
      | .error x, .ok y, h => cases h
      | .error e, .error e', h => exact h
    | .error e, .error e', h0 => exact Except.error.inj h0
    | .ok s, .error e, h0 => cases h0
    | .error e, .ok s, h0 => cases h0
  · rintro g pp s s' hA ⟨⟨p, l, us, hp, hl, h1, h2⟩, hf⟩
    have h0 := hf [(g, pp)] (by simpa using hA)
    simp only [GT.run] at h0
    match ha : t.update g s pp, hb : t'.update g s' pp, h0 with
    | .ok (u, r), .ok (u', r'), h0 =>
      have e : u = u' := by
        have : Except.ok [u] = (Except.ok [u'] : Res (List (Params α))) := h0
        simpa using Except.ok.inj this
      subst e
      refine ⟨rfl, ⟨p, l ++ [(g, pp)], us ++ [u], hp, ?_, exec_snoc t p l us s (g, pp) u r h1 ha, exec_snoc t' p l us s' (g, pp) u r' h2 hb⟩, fun l' hl' => ?_⟩
      · intro c hc
        rcases List.mem_append.mp hc with hc | hc
        · exact hl c hc
        · rw [List.mem_singleton.mp hc]; exact hA
      · have := hf ((g, pp) :: l') (fun c hc => by
          rcases List.mem_cons.mp hc with rfl | hc
          · exact hA
          · exact hl' c hc)
        simp only [GT.run, ha, hb, Res.ok_bind] at this
        match hx : t.run r l', hy : t'.run r' l', this with
        | .ok x, .ok y, h =>
          have h : Except.ok (u :: x.1) = (Except.ok (u :: y.1) : Res (List (Params α))) := h
          show Except.ok x.1 = Except.ok y.1
          rw [(List.cons.inj (Except.ok.inj h)).2]
        | .ok x, .error y, h => cases h
        | .error x, .ok y, h => cases h
        | .error e, .error e', h => exact h
    | .error e, .error e', h0 => exact Except.error.inj h0
    | .ok s, .error e, h0 => cases h0
    | .error e, .ok s, h0 => cases h0

/-! ## Chains -/

/-- componentwise twins -/
def ChainRel (I : Params α → Prop) (A : Call α → Prop) : (ts ts' : List (GT α)) → ChainState ts → ChainState ts' → Prop
  | [], [], n, n' => n = n'
  | _ :: _, _ :: _, none, none => True
  | t :: ts, t' :: ts', some (s, r), some (s', r') => Twin I A t t' s s' ∧ ChainRel I A ts ts' r r'
  | _, _, _, _ => False

theorem ChainRel.length (I : Params α → Prop) (A : Call α → Prop) : ∀ (ts ts' : List (GT α)) (s : ChainState ts) (s' : ChainState ts'),
    ChainRel I A ts ts' s s' → ChainState.length ts s = ChainState.length ts' s'
  | [], [], n, n', h => h
  | _ :: _, _ :: _, none, none, _ => rfl
  | t :: ts, t' :: ts', some (s, r), some (s', r'), h => by
    have := ChainRel.length I A ts ts' r r' h.2
    simp only [ChainState.length, this]

theorem chainInit_rel (I : Params α → Prop) (A : Call α → Prop) : ∀ (ts ts' : List (GT α)), List.Forall₂ (SameOn I A) ts ts' → ∀ p, I p →
    RelI (ChainRel I A ts ts') (chainInit ts p) (chainInit ts' p)
  | [], [], _, p, _ => rfl
  | t :: ts, t' :: ts', h, p, hp => by
    obtain ⟨h1, h2⟩ := List.forall₂_cons.mp h
    unfold chainInit
    refine (h1.bisim.1 p hp).bind fun s s' hs => (chainInit_rel I A ts ts' h2 p hp).bind fun r r' hr => ?_
    exact ⟨hs, hr⟩

theorem chainLoop_rel (I : Params α → Prop) (A : Call α → Prop) : ∀ (ts ts' : List (GT α)),
    List.Forall₂ (fun t t' => SameOn I A t t' ∧ ClosedOn I A t) ts ts' → ∀ g pp (s : ChainState ts) (s' : ChainState ts'), A (g, pp) →
    ChainRel I A ts ts' s s' → RelU (ChainRel I A ts ts') (chainLoop ts g s pp) (chainLoop ts' g s' pp)
  | [], [], _, g, pp, s, s', _, _ => ⟨rfl, rfl⟩
  | _ :: _, _ :: _, _, g, pp, none, none, _, _ => ⟨rfl, trivial⟩
  | t :: ts, t' :: ts', h, g, pp, some (s, r), some (s', r'), hA, ⟨hs, hr⟩ => by
    obtain ⟨⟨h1, hc⟩, h2⟩ := List.forall₂_cons.mp h
    unfold chainLoop
    refine (h1.bisim.2 g pp s s' hA hs).bind fun u x x' hx hu _ => ?_
    obtain ⟨⟨p, l, us, hp, hl, he, _⟩, _⟩ := hs
    have hAu : A (u, pp) := hc p hp l (g, pp) u us x hl hA (exec_snoc t p l us s (g, pp) u x he hu)
    refine (chainLoop_rel I A ts ts' h2 u pp r r' hAu hr).bind fun v y y' hy _ _ => ?_
    exact ⟨rfl, hx, hy⟩

/-- **C100 (chains).** Replacing components of a chain by ones that behave the same on the calls `A`, which contain the intermediate updates,
gives a chain that behaves the same. -/
theorem C100_chain (I : Params α → Prop) (A : Call α → Prop) (ts ts' : List (GT α))
    (h : List.Forall₂ (fun t t' => SameOn I A t t' ∧ ClosedOn I A t) ts ts') : SameOn I A (chain ts) (chain ts') := by
  refine Bisim.same (R := ChainRel I A ts ts') ⟨fun p hp => chainInit_rel I A ts ts' (h.imp fun _ _ h => h.1) p hp, fun g pp s s' hA hs => ?_⟩
  show RelU _ (if ChainState.length ts s ≠ ts.length then valueError else chainLoop ts g s pp)
    (if ChainState.length ts' s' ≠ ts'.length then valueError else chainLoop ts' g s' pp)
  rw [ChainRel.length I A ts ts' s s' hs, h.length_eq]
  split
  · exact rfl
  · exact chainLoop_rel I A ts ts' h g pp s s' hA hs

/-! ## Wrappers -/

section
variable [Zero α] [One α] [Add α] [Sub α] [Mul α] [Div α] [Neg α] [JOps α]

/-- **C100 (`apply_if_finite`, `maybe_update`).** -/
theorem C100_conditional (I : Params α → Prop) (A : Call α → Prop) (t t' : GT α) (h : SameOn I A t t') (m : ℤ) (should : ℤ → Bool) :
    SameOn I A (applyIfFinite t m) (applyIfFinite t' m) ∧ SameOn I A (maybeUpdate t should) (maybeUpdate t' should) := by
  constructor
  · refine Bisim.same (R := fun x x' => x.notfiniteCount = x'.notfiniteCount ∧ x.totalNotfinite = x'.totalNotfinite ∧
      Twin I A t t' x.innerState x'.innerState) ⟨fun p hp => ?_, fun g pp s s' hA hs => ?_⟩
    · refine (h.bisim.1 p hp).bind fun s s' hs => ?_
      exact ⟨rfl, rfl, hs⟩
    · obtain ⟨h1, h2, h3⟩ := hs
      show RelU _ (condUpd _ (t.update g s.innerState pp) (.ok (zerosLike g, s.innerState)) >>= _)
        (condUpd _ (t'.update g s'.innerState pp) (.ok (zerosLike g, s'.innerState)) >>= _)
      rw [h1]
      have hskip : RelU (Twin I A t t') (.ok (zerosLike g, s.innerState)) (.ok (zerosLike g, s'.innerState)) := ⟨rfl, h3⟩
      refine (RelU.cond _ (h.bisim.2 g pp _ _ hA h3) hskip).bind fun u r r' hr _ _ => ?_
      exact ⟨rfl, rfl, by rw [h2], hr⟩
  · refine Bisim.same (R := fun x x' => x.step = x'.step ∧ Twin I A t t' x.innerState x'.innerState) ⟨fun p hp => ?_, fun g pp s s' hA hs => ?_⟩
    · refine (h.bisim.1 p hp).bind fun s s' hs => ?_
      exact ⟨rfl, hs⟩
    · obtain ⟨h1, h3⟩ := hs
      show RelU _ (condUpd _ (t.update g s.innerState pp) (.ok (g, s.innerState)) >>= _)
        (condUpd _ (t'.update g s'.innerState pp) (.ok (g, s'.innerState)) >>= _)
      rw [h1]
      have hskip : RelU (Twin I A t t') (.ok (g, s.innerState)) (.ok (g, s'.innerState)) := ⟨rfl, h3⟩
      refine (RelU.cond _ (h.bisim.2 g pp _ _ hA h3) hskip).bind fun u r r' hr _ _ => ?_
      exact ⟨rfl, rfl, hr⟩

theorem Same.bisim {t t' : GT α} (h : Same t t') : Bisim (fun _ => True) (fun _ => True) t t' (Twin (fun _ => True) (fun _ => True) t t') :=
  SameOn.bisim fun p _ l _ => h p l

theorem Bisim.all {t t' : GT α} {R} (h : Bisim (fun _ => True) (fun _ => True) t t' R) : Same t t' := fun p l => h.same p trivial l fun _ _ => trivial

/-- **C100 (wrappers).** If `t` and `t'` cannot be told apart on any params and calls, then neither can the wrapped transformations, for every wrapper and
every setting of it. -/
theorem C100_wrappers (t t' : GT α) (h : Same t t') :
    Same (flatten t) (flatten t') ∧ (∀ m, Same (applyIfFinite t m) (applyIfFinite t' m)) ∧ (∀ f, Same (maybeUpdate t f) (maybeUpdate t' f)) ∧
    (∀ mask, Same (masked t mask) (masked t' mask)) ∧ (∀ k mean, Same (multiSteps t k mean) (multiSteps t' k mean)) ∧
    (∀ k a, Same (lookahead t k a none) (lookahead t' k a none)) ∧
    (∀ pre post : List (GT α), Same (chain (pre ++ t :: post)) (chain (pre ++ t' :: post))) := by
  have hb := h.bisim
  have hs : SameOn (fun _ => True) (fun _ => True) t t' := hb.same
  refine ⟨?_, fun m p l => (C100_conditional _ _ t t' hs m (fun _ => true)).1 p trivial l fun _ _ => trivial,
    fun f p l => (C100_conditional _ _ t t' hs 0 f).2 p trivial l fun _ _ => trivial, fun mask => ?_, fun k mean => ?_, fun k a => ?_, fun pre post p l => ?_⟩
  · refine Bisim.all (R := Twin (fun _ => True) (fun _ => True) t t') ⟨fun p _ => ?_, fun g pp s s' _ hs => ?_⟩
    · exact RelI.same_bind _ fun v _ => hb.1 v trivial
    · refine RelU.same_bind _ fun v _ => RelU.same_bind _ fun w _ => (hb.2 w v s s' trivial hs).bind fun u r r' hr _ _ => RelU.same_bind _ fun x _ => ?_
      exact ⟨rfl, hr⟩
  · refine Bisim.all (R := Twin (fun _ => True) (fun _ => True) t t') ⟨fun p _ => ?_, fun g pp s s' _ hs => ?_⟩
    · exact RelI.same_bind _ fun v _ => hb.1 _ trivial
    · refine RelU.same_bind _ fun v _ => RelU.same_bind _ fun w _ => (hb.2 _ w s s' trivial hs).bind fun u r r' hr _ _ => RelU.same_bind _ fun x _ =>
        RelU.same_bind _ fun y _ => RelU.same_bind _ fun z _ => ?_
      exact ⟨rfl, hr⟩
  · refine Bisim.all (R := fun x x' => x.miniStep = x'.miniStep ∧ x.gradientStep = x'.gradientStep ∧ x.accGrads = x'.accGrads ∧
      Twin (fun _ => True) (fun _ => True) t t' x.innerOptState x'.innerOptState) ⟨fun p _ => ?_, fun g pp s s' _ hs => ?_⟩
    · refine (hb.1 p trivial).bind fun s s' hs => ?_
      exact ⟨rfl, rfl, rfl, hs⟩
    · obtain ⟨m, gs, i, a⟩ := s
      obtain ⟨m', gs', i', a'⟩ := s'
      obtain ⟨h1, h2, h3, h4⟩ := hs
      simp only at h1 h2 h3 h4
      subst h1 h2 h3
      refine RelU.same_bind _ fun acc _ => RelU.cond _ ⟨rfl, rfl, rfl, rfl, h4⟩ ?_
      refine (hb.2 _ none i i' trivial h4).bind fun u r r' hr _ _ => ?_
      exact ⟨rfl, rfl, rfl, rfl, hr⟩
  · refine Bisim.all (R := fun x x' => x.stepsSinceSync = x'.stepsSinceSync ∧ Twin (fun _ => True) (fun _ => True) t t' x.fastState x'.fastState)
      ⟨fun p _ => ?_, fun g pp s s' _ hs => ?_⟩
    · refine (hb.1 _ trivial).bind fun s s' hs => ?_
      exact ⟨rfl, hs⟩
    · obtain ⟨i, c⟩ := s
      obtain ⟨i', c'⟩ := s'
      obtain ⟨h1, h4⟩ := hs
      simp only at h1 h4
      subst h1
      refine (hb.2 g pp i i' trivial h4).bind fun u r r' hr _ _ => RelU.same_bind _ fun x _ => RelU.same_bind _ fun y _ => ?_
      exact ⟨rfl, rfl, hr⟩
  · refine C100_chain (fun _ => True) (fun _ => True) _ _ ?_ p trivial l fun _ _ => trivial
    have refl : ∀ ts : List (GT α), List.Forall₂ (fun t t' => SameOn (fun _ => True) (fun _ => True) t t' ∧ ClosedOn (fun _ => True) (fun _ => True) t) ts ts := by
      intro ts
      induction ts with
      | nil => exact .nil
      | cons a l ih => exact .cons ⟨fun _ _ _ _ => rfl, fun _ _ _ _ _ _ _ _ _ _ => trivial⟩ ih
    have hpost : List.Forall₂ (fun t t' => SameOn (fun _ => True) (fun _ => True) t t' ∧ ClosedOn (fun _ => True) (fun _ => True) t)
        (t :: post) (t' :: post) := .cons ⟨hs, fun _ _ _ _ _ _ _ _ _ _ => trivial⟩ (refl post)
    induction pre with
    | nil => exact hpost
    | cons a pre ih => exact .cons ⟨fun _ _ _ _ => rfl, fun _ _ _ _ _ _ _ _ _ _ => trivial⟩ ih

/-- a whole training run: `state = opt.init(params)`, then `n` times `updates, state = opt.update(grads, state, params); params = apply_updates(params, updates)` -/
def trainParams (t : GT α) (grad : ℕ → Params α → Params α) (n : ℕ) (p : Params α) : Res (Params α) := do
  let s ← t.init p
  let r ← trainLoop t grad n s p
  return r.1

/-- **C100 (training).** Optimizers that cannot be told apart give the same parameters (or the same exception) after any number of steps, on any gradient
oracle. -/
theorem C100_training (t t' : GT α) (h : Same t t') (grad : ℕ → Params α → Params α) (n : ℕ) (p : Params α) :
    trainParams t grad n p = trainParams t' grad n p := by
  have hb := h.bisim
  have key : ∀ n s s', Twin (fun _ => True) (fun _ => True) t t' s s' →
      RelU (Twin (fun _ => True) (fun _ => True) t t') (trainLoop t grad n s p) (trainLoop t' grad n s' p) := by
    intro n
    induction n with
    | zero => exact fun s s' hs => ⟨rfl, hs⟩
    | succ n ih =>
      intro s s' hs
      unfold trainLoop
      refine (ih s s' hs).bind fun q r r' hr _ _ => (hb.2 _ _ r r' trivial hr).bind fun u x x' hx _ _ => RelU.same_bind _ fun v _ => ?_
      exact ⟨rfl, hx⟩
  unfold trainParams
  have h0 := hb.1 p trivial
  match ha : t.init p, hb : t'.init p, h0 with
  | .ok s, .ok s', h0 =>
    have := key n s s' h0
    simp only [Res.ok_bind]
    match hx : trainLoop t grad n s p, hy : trainLoop t' grad n s' p, this with
    | .ok x, .ok y, h =>
      show Except.ok x.1 = Except.ok y.1
      rw [h.1]
    | .error e, .error e', h =>
      have h : e = e' := h
      subst h
      rfl
  | .error e, .error e', h0 =>
    have h0 : e = e' := h0
    subst h0
    rfl

end

/-! ## Same behaviour on well-shaped training runs -/

/-- parameters of shapes `σ` -/
def ShapedP {α : Type} (σ : Spec) (p : Params α) : Prop := ∃ v, p = mk σ v

/-- an `update(grads, state, params)` call with gradients and params of shapes `σ` -/
def ShapedC {α : Type} (σ : Spec) (c : Call α) : Prop := (∃ v, c.1 = mk σ v) ∧ ∃ v, c.2 = some (mk σ v)

/-- `t` and `t'` behave the same on all pytrees of shapes `σ`, when `params` is passed -/
def SameShaped {α : Type} (σ : Spec) (t t' : GT α) : Prop := SameOn (ShapedP σ) (ShapedC σ) t t'

theorem Preserves.closed {α : Type} {σ : Spec} {t : GT α} (ht : Preserves WithParams t) : ClosedOn (ShapedP σ) (ShapedC σ) t := by
  rintro p ⟨v, rfl⟩ h c u us s hh ⟨⟨g, hg⟩, ⟨q, hq⟩⟩ he
  obtain ⟨I, h1, h2⟩ := ht σ
  obtain ⟨s0, hs0, hI0⟩ := h1 v
  have run : ∀ (l : List (Call α)), (∀ c ∈ l, ShapedC σ c) → ∀ s, I s → ∃ (vs : List (ℕ → ℕ → α)) (s' : t.State), t.run s l = .ok (vs.map (mk σ), s') ∧ I s' := by
    intro l
    induction l with
    | nil => exact fun _ s hs => ⟨[], s, rfl, hs⟩
    | cons c l ih =>
      intro hl s hs
      obtain ⟨⟨g, hg⟩, ⟨q, hq⟩⟩ := hl c (by simp)
      obtain ⟨u, s1, hu, hs1⟩ := h2 g s (some (mk σ q)) hs ⟨q, rfl⟩
      obtain ⟨vs, s2, h3, h4⟩ := ih (fun c hc => hl c (by simp [hc])) s1 hs1
      refine ⟨u :: vs, s2, ?_, h4⟩
      rw [GT.run_cons, hg, hq, hu, Res.ok_bind, h3]
      rfl
  obtain ⟨vs, s', h3, _⟩ := run (h ++ [c]) (by
    intro d hd
    rcases List.mem_append.mp hd with hd | hd
    · exact hh d hd
    · rw [List.mem_singleton.mp hd]; exact ⟨⟨g, hg⟩, ⟨q, hq⟩⟩) s0 hI0
  unfold GT.exec at he
  rw [hs0, Res.ok_bind, h3] at he
  have e : vs.map (mk σ) = us ++ [u] := (Prod.mk.inj (Except.ok.inj he)).1
  refine ⟨?_, ⟨q, hq⟩⟩
  have : u ∈ vs.map (mk σ) := by rw [e]; simp
  obtain ⟨x, _, hx⟩ := List.mem_map.mp this
  exact ⟨x, hx.symm⟩

/-- **C100 (chains of shape-preserving transformations).** -/
theorem C100_chain_shaped {α : Type} (σ : Spec) (ts ts' : List (GT α))
    (h : List.Forall₂ (fun t t' => SameShaped σ t t' ∧ Preserves WithParams t) ts ts') : SameShaped σ (chain ts) (chain ts') :=
  C100_chain _ _ ts ts' (h.imp fun _ _ h => ⟨h.1, h.2.closed⟩)

/-- **C100 (training, fixed shapes).** Two optimizers that behave the same on pytrees of shapes `σ` visit the same parameters. -/
theorem C100_training_shaped (σ : Spec) (t t' : GT ℝ) (ht : Preserves WithParams t) (h : SameShaped σ t t') (grad : ℕ → Params ℝ → Params ℝ)
    (G : ℕ → (ℕ → ℕ → ℝ) → ℕ → ℕ → ℝ) (hg : ∀ n p, grad n (mk σ p) = mk σ (G n p)) (p0 : ℕ → ℕ → ℝ) :
    ∃ P : ℕ → ℕ → ℕ → ℝ, P 0 = p0 ∧ Visits t grad σ P ∧ Visits t' grad σ P := by
  obtain ⟨P, U, h0, h1, h2, h3⟩ := exists_visits σ t ht grad G hg p0
  refine ⟨P, h0, h2, ?_⟩
  have hU : ∀ N, t'.outs (mk σ (P 0)) (hist σ (fun n => G n (P n)) (fun n => some (mk σ (P n))) N) = .ok ((List.range N).map (fun n => mk σ (U n))) := by
    intro N
    rw [h0, ← h3 N]
    refine (h (mk σ p0) ⟨_, rfl⟩ _ ?_).symm
    intro c hc
    obtain ⟨n, _, rfl⟩ := List.mem_map.mp hc
    exact ⟨⟨_, rfl⟩, ⟨_, rfl⟩⟩
  obtain ⟨s0, _, hs0, _⟩ := trainLoop_of_outs hg P U h1 hU 0
  refine ⟨s0, hs0, fun n => ?_⟩
  obtain ⟨s0', s, h5, h6⟩ := trainLoop_of_outs hg P U h1 hU n
  rw [hs0] at h5
  rw [← Except.ok.inj h5] at h6
  exact ⟨s, h6⟩

/-- not vacuous: `chain(t)` and `t` are different records (their states have different types) that cannot be told apart, so inside `MultiSteps` they
train the same parameters -/
example (t : GT ℝ) (grad : ℕ → Params ℝ → Params ℝ) (n : ℕ) (p : Params ℝ) :
    trainParams (multiSteps (chain [t]) (fun _ => 4) true) grad n p = trainParams (multiSteps t (fun _ => 4) true) grad n p :=
  C100_training _ _ ((C100_wrappers _ _ (C03_chain_singleton t)).2.2.2.2.1 _ _) grad n p

end Optax
