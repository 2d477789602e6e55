import Verif.Model.Base

/-! Lemmas about running transformations. -/

namespace Optax
variable {α β γ δ : Type}

theorem Res.bind_eq_ok {x : Res β} {f : β → Res γ} {c : γ} :
    (x >>= f) = .ok c ↔ ∃ b, x = .ok b ∧ f b = .ok c := by
  cases x with
  | error e => simp [bind, Except.bind]
  | ok b => simp [bind, Except.bind]

@[simp] theorem Res.ok_bind (b : β) (f : β → Res γ) : ((Except.ok b : Res β) >>= f) = f b := rfl
@[simp] theorem Res.error_bind (e : Err) (f : β → Res γ) :
    ((Except.error e : Res β) >>= f) = .error e := rfl
@[simp] theorem Res.pure_eq (b : β) : (pure b : Res β) = .ok b := rfl

theorem Res.bind_assoc (x : Res β) (f : β → Res γ) (g : γ → Res δ) :
    ((x >>= f) >>= g) = (x >>= fun b => f b >>= g) := by cases x <;> rfl

@[simp] theorem GT.run_nil (t : GT α) (s : t.State) : t.run s [] = .ok ([], s) := rfl

theorem GT.run_cons (t : GT α) (s : t.State) (c : Call α) (h : List (Call α)) :
    t.run s (c :: h) = (t.update c.1 s c.2 >>= fun r => t.run r.2 h >>= fun rs =>
      .ok (r.1 :: rs.1, rs.2)) := rfl

theorem GT.run_cons_ok (t : GT α) (s : t.State) (c : Call α) (h : List (Call α))
    {u : Params α} {s' : t.State} (hu : t.update c.1 s c.2 = .ok (u, s')) :
    t.run s (c :: h) = (t.run s' h >>= fun rs => .ok (u :: rs.1, rs.2)) := by
  rw [GT.run_cons, hu]; rfl

theorem GT.run_append (t : GT α) (s : t.State) (h₁ h₂ : List (Call α)) :
    t.run s (h₁ ++ h₂) = (t.run s h₁ >>= fun r => t.run r.2 h₂ >>= fun r' =>
      .ok (r.1 ++ r'.1, r'.2)) := by
  induction h₁ generalizing s with
  | nil =>
    simp only [List.nil_append, GT.run_nil, Res.ok_bind]
    cases t.run s h₂ <;> rfl
  | cons c h₁ ih =>
    simp only [List.cons_append, GT.run_cons]
    cases t.update c.1 s c.2 with
    | error e => rfl
    | ok r =>
      simp only [Res.ok_bind, ih]
      cases t.run r.2 h₁ with
      | error e => rfl
      | ok r1 =>
        simp only [Res.ok_bind]
        cases t.run r1.2 h₂ <;> rfl

/-- number of returned updates = number of calls -/
theorem GT.run_length (t : GT α) (s : t.State) (h : List (Call α)) {us : List (Params α)}
    {s' : t.State} (hr : t.run s h = .ok (us, s')) : us.length = h.length := by
  induction h generalizing s us s' with
  | nil => simp at hr; simp [hr.1.symm]
  | cons c h ih =>
    rw [GT.run_cons, Res.bind_eq_ok] at hr
    obtain ⟨r, _, hr⟩ := hr
    rw [Res.bind_eq_ok] at hr
    obtain ⟨rs, h1, h2⟩ := hr
    simp only [Except.ok.injEq, Prod.mk.injEq] at h2
    rw [← h2.1]
    simp [ih r.2 h1]

/-- Two transformations are observationally equal: same outputs or same error, from `init`, on every
history. -/
def GT.Equiv (t u : GT α) : Prop := ∀ p h, t.outs p h = u.outs p h

/-- results related by `R` on success, same error otherwise -/
def Res.Rel (R : β → γ → Prop) : Res β → Res γ → Prop
  | .ok a, .ok b => R a b
  | .error e, .error e' => e = e'
  | _, _ => False

/-- Bisimulation proof principle. -/
theorem GT.equiv_of_bisim (t u : GT α) (R : t.State → u.State → Prop)
    (hinit : ∀ p, Res.Rel R (t.init p) (u.init p))
    (hstep : ∀ g s s' p, R s s' →
      Res.Rel (fun a b => a.1 = b.1 ∧ R a.2 b.2) (t.update g s p) (u.update g s' p)) :
    t.Equiv u := by
  have hrun : ∀ (h : List (Call α)) (s : t.State) (s' : u.State), R s s' →
      Res.Rel (fun a b => a.1 = b.1 ∧ R a.2 b.2) (t.run s h) (u.run s' h) := by
    intro h
    induction h with
    | nil => intro s s' hs; exact ⟨rfl, hs⟩
    | cons c h ih =>
      intro s s' hs
      have h1 := hstep c.1 s s' c.2 hs
      rw [GT.run_cons, GT.run_cons]
      cases hx : t.update c.1 s c.2 with
      | error e =>
        cases hy : u.update c.1 s' c.2 with
        | error e' => rw [hx, hy] at h1; exact h1
        | ok b => rw [hx, hy] at h1; exact h1.elim
      | ok a =>
        cases hy : u.update c.1 s' c.2 with
        | error e' => rw [hx, hy] at h1; exact h1.elim
        | ok b =>
          rw [hx, hy] at h1
          obtain ⟨h2, h3⟩ := h1
          have h4 := ih a.2 b.2 h3
          simp only [Res.ok_bind]
          cases hx2 : t.run a.2 h with
          | error e =>
            cases hy2 : u.run b.2 h with
            | error e' => rw [hx2, hy2] at h4; exact h4
            | ok b => rw [hx2, hy2] at h4; exact h4.elim
          | ok a' =>
            cases hy2 : u.run b.2 h with
            | error e' => rw [hx2, hy2] at h4; exact h4.elim
            | ok b' =>
              rw [hx2, hy2] at h4
              exact ⟨by simp [h2, h4.1], h4.2⟩
  intro p h
  unfold GT.outs GT.exec
  have h0 := hinit p
  cases hx : t.init p with
  | error e =>
    cases hy : u.init p with
    | error e' => rw [hx, hy] at h0; rw [show e = e' from h0]; rfl
    | ok b => rw [hx, hy] at h0; exact h0.elim
  | ok a =>
    cases hy : u.init p with
    | error e' => rw [hx, hy] at h0; exact h0.elim
    | ok b =>
      rw [hx, hy] at h0
      have h1 := hrun h a b h0
      simp only [Res.ok_bind]
      cases hx2 : t.run a h with
      | error e =>
        cases hy2 : u.run b h with
        | error e' => rw [hx2, hy2] at h1; simp [show e = e' from h1]
        | ok b => rw [hx2, hy2] at h1; exact h1.elim
      | ok a' =>
        cases hy2 : u.run b h with
        | error e' => rw [hx2, hy2] at h1; exact h1.elim
        | ok b' => rw [hx2, hy2] at h1; simp [h1.1]

theorem chain_length_init (ts : List (GT α)) (p : Params α) (s : ChainState ts)
    (h : chainInit ts p = .ok s) : ChainState.length ts s = ts.length := by
  induction ts with
  | nil => simp [chainInit] at h; subst h; rfl
  | cons t ts ih =>
    simp only [chainInit, Res.bind_eq_ok] at h
    obtain ⟨a, _, b, hb, h⟩ := h
    simp at h; subst h
    simp [ChainState.length, ih b hb, Nat.add_comm]

theorem chainLoop_cons_ok {t : GT α} {ts : List (GT α)} {g u v : Params α} {a a' : t.State}
    {r r' : ChainState ts} {p : Option (Params α)} (h1 : t.update g a p = .ok (u, a'))
    (h2 : chainLoop ts u r p = .ok (v, r')) :
    chainLoop (t :: ts) g (some (a, r)) p = .ok (v, some (a', r')) := by
  simp only [chainLoop, h1, Res.ok_bind, h2]; rfl

theorem chainLoop_nil_ok {g : Params α} {p : Option (Params α)} :
    chainLoop [] g (0 : ℕ) p = .ok (g, (0 : ℕ)) := rfl

theorem chain_update_ok {ts : List (GT α)} {g v : Params α} {s s' : ChainState ts}
    {p : Option (Params α)} (hl : ChainState.length ts s = ts.length)
    (h : chainLoop ts g s p = .ok (v, s')) : (chain ts).update g s p = .ok (v, s') := by
  show (if ChainState.length ts s ≠ ts.length then valueError else chainLoop ts g s p) = _
  rw [if_neg (by simp [hl]), h]

theorem chainInit_cons_ok {t : GT α} {ts : List (GT α)} {p : Params α} {a : t.State}
    {r : ChainState ts} (h1 : t.init p = .ok a) (h2 : chainInit ts p = .ok r) :
    chainInit (t :: ts) p = .ok (some (a, r)) := by
  simp only [chainInit, h1, h2, Res.ok_bind]; rfl

theorem chainInit_nil_ok {p : Params α} : chainInit [] p = .ok (0 : ℕ) := rfl

theorem chainLoop_length (ts : List (GT α)) (g : Params α) (s : ChainState ts)
    (p : Option (Params α)) (hs : ChainState.length ts s = ts.length)
    {u : Params α} {s' : ChainState ts} (h : chainLoop ts g s p = .ok (u, s')) :
    ChainState.length ts s' = ts.length := by
  induction ts generalizing g u with
  | nil => simp [chainLoop] at h; rw [← h.2]; rfl
  | cons t ts ih =>
    cases s with
    | none => simp [ChainState.length] at hs
    | some sr =>
      obtain ⟨a, r⟩ := sr
      simp only [chainLoop, Res.bind_eq_ok] at h
      obtain ⟨x, _, y, hy, h⟩ := h
      simp at h
      rw [← h.2]
      simp only [ChainState.length, List.length_cons] at hs ⊢
      have := ih x.1 r (by omega) hy
      omega

end Optax
