import Verif.Props.Regroup

/-!
# C105: the names, and so the order, of the parameters do not matter

jax orders the leaves of a dictionary by its keys: renaming a parameter (or a module) permutes the leaves.
-/

set_option linter.unusedSectionVars false
set_option linter.unusedSimpArgs false
set_option linter.unusedVariables false

namespace Optax
namespace Rename

/-! ## Specification -/

/-- `x` and `y`, of the container structures `S` and `S'`, hold the same leaves in another order: the `k`-th leaf of `y` is the `π k`-th of `x`. -/
def Renamed {β : Type} (π : Equiv.Perm ℕ) (S S' : PyTree Unit) (x y : PyTree β) : Prop :=
  x.struct = S ∧ y.struct = S' ∧ ∀ k, y.leaves[k]? = x.leaves[π k]?

/-- the optional `params` argument -/
def RenamedOpt {β : Type} (π : Equiv.Perm ℕ) (S S' : PyTree Unit) : Option (PyTree β) → Option (PyTree β) → Prop
  | none, none => True
  | some x, some y => Renamed π S S' x y
  | _, _ => False

/-- both succeed with related values, or both raise (which exception is raised first may depend on the order) -/
def RelErr {β γ : Type} (P : β → γ → Prop) : Res β → Res γ → Prop
  | .ok a, .ok b => P a b
  | .error _, .error _ => True
  | _, _ => False

/-- **Specification.** Handed the same leaves under other names and in other containers, at `init` and at every step of any history, `t` returns the
correspondingly permuted leaves, or raises in both cases. -/
def NameFreeAt {α : Type} (t : GT α) (π : Equiv.Perm ℕ) (S S' P P' : PyTree Unit) : Prop :=
  ∀ (p p' : Params α) (h h' : List (Call α)), Renamed π S S' p p' →
    List.Forall₂ (fun c c' => Renamed π S S' c.1 c'.1 ∧ RenamedOpt π P P' c.2 c'.2) h h' →
    RelErr (List.Forall₂ (Renamed π S S')) (t.outs p h) (t.outs p' h')

/-- **Specification.** `t` does not depend on names and order of the parameters. -/
def NameFree {α : Type} (t : GT α) : Prop := ∀ π S S', NameFreeAt t π S S' S S'

/-! ## Results -/

theorem RelErr.bind {β γ β' γ' : Type} {P : β → γ → Prop} {Q : β' → γ' → Prop} {a : Res β} {b : Res γ} {f : β → Res β'} {g : γ → Res γ'}
    (h : RelErr P a b) (hf : ∀ x y, P x y → RelErr Q (f x) (g y)) : RelErr Q (a >>= f) (b >>= g) := by
  match a, b, h with
  | .ok a, .ok b, h => exact hf a b h
  | .error e, .error e', h => trivial

theorem RelErr.mono {β γ : Type} {P Q : β → γ → Prop} {a : Res β} {b : Res γ} (h : RelErr P a b) (hP : ∀ x y, P x y → Q x y) : RelErr Q a b := by
  match a, b, h with
  | .ok a, .ok b, h => exact hP a b h
  | .error e, .error e', h => trivial

/-! ## Trees -/

section rel
variable {β γ δ ε : Type} {π : Equiv.Perm ℕ} {S S' : PyTree Unit}

theorem Renamed.symm {x y : PyTree β} (h : Renamed π S S' x y) : Renamed π.symm S' S y x :=
  ⟨h.2.1, h.1, fun k => by rw [h.2.2 (π.symm k), Equiv.apply_symm_apply]⟩

theorem Renamed.map {x y : PyTree β} (h : Renamed π S S' x y) (f : β → γ) : Renamed π S S' (x.map f) (y.map f) :=
  ⟨(PyTree.struct_map f x).trans h.1, (PyTree.struct_map f y).trans h.2.1, fun k => by
    rw [PyTree.leaves_map, PyTree.leaves_map, List.getElem?_map, List.getElem?_map, h.2.2]⟩

theorem zipList_ok (f : β → γ → Res δ) : ∀ (b : List β) (c : List γ) (r : List δ), b.length = c.length → PyTree.zipList f b c = .ok r →
    ∀ k : ℕ, (∃ x y z, b[k]? = some x ∧ c[k]? = some y ∧ r[k]? = some z ∧ f x y = .ok z) ∨ (b[k]? = none ∧ c[k]? = none ∧ r[k]? = none)
  | [], [], r, _, h, k => by
    simp only [PyTree.zipList, Except.ok.injEq] at h
    subst h
    simp
  | x :: b, y :: c, r, hl, h, k => by
    simp only [PyTree.zipList, Res.bind_eq_ok] at h
    obtain ⟨z, hz, zs, hzs, h⟩ := h
    simp only [Res.pure_eq, Except.ok.injEq] at h
    subst h
    cases k with
    | zero => exact .inl ⟨x, y, z, rfl, rfl, rfl, hz⟩
    | succ k =>
      simp only [List.getElem?_cons_succ]
      exact zipList_ok f b c zs (by simpa using hl) hzs k
  | [], _ :: _, _, h, _, _ => by simp at h
  | _ :: _, [], _, h, _, _ => by simp at h

theorem zipList_isOk (f : β → γ → Res δ) : ∀ (b : List β) (c : List γ), (∀ (k : ℕ) x y, b[k]? = some x → c[k]? = some y → ∃ z, f x y = .ok z) →
    ∃ r, PyTree.zipList f b c = .ok r
  | [], c, _ => ⟨[], by cases c <;> rfl⟩
  | x :: b, [], _ => ⟨[], rfl⟩
  | x :: b, y :: c, h => by
    obtain ⟨z, hz⟩ := h 0 x y rfl rfl
    obtain ⟨zs, hzs⟩ := zipList_isOk f b c fun k x y hx hy => h (k + 1) x y (by simpa using hx) (by simpa using hy)
    exact ⟨z :: zs, by simp [PyTree.zipList, hz, hzs]⟩

theorem zipM_ok_iff {f : β → γ → Res δ} {x : PyTree β} {u : PyTree γ} (h : x.struct = u.struct) {l : List δ} :
    PyTree.zipList f x.leaves u.leaves = .ok l ↔ ∃ r, PyTree.zipM f x u = .ok r ∧ r.leaves = l := by
  rw [← PyTree.zipM_map_leaves f x u h]
  cases PyTree.zipM f x u with
  | error e => simp
  | ok r => simp

theorem Renamed.zipM_ok {x y : PyTree β} {u v : PyTree γ} (h : Renamed π S S' x y) (h' : Renamed π S S' u v) (f : β → γ → Res δ) {r : PyTree δ}
    (hr : PyTree.zipM f x u = .ok r) : ∃ r', PyTree.zipM f y v = .ok r' ∧ Renamed π S S' r r' := by
  have hx : x.struct = u.struct := h.1.trans h'.1.symm
  have hy : y.struct = v.struct := h.2.1.trans h'.2.1.symm
  have hl := zipList_ok f _ _ _ (PyTree.length_leaves_struct x u hx) ((zipM_ok_iff hx).mpr ⟨r, hr, rfl⟩)
  obtain ⟨l, hl'⟩ := zipList_isOk f y.leaves v.leaves fun k a b ha hb => by
    rw [h.2.2] at ha
    rw [h'.2.2] at hb
    rcases hl (π k) with ⟨a', b', z, h1, h2, _, h4⟩ | ⟨h1, _, _⟩
    · rw [ha] at h1; rw [hb] at h2
      exact ⟨z, by rw [Option.some.inj h1, Option.some.inj h2]; exact h4⟩
    · rw [ha] at h1; cases h1
  obtain ⟨r', hr', rfl⟩ := (zipM_ok_iff hy).mp hl'
  refine ⟨r', hr', ?_, ?_, fun k => ?_⟩
  · rw [(PyTree.zipM_struct _ _ _ _ hr).2, h.1]
  · rw [(PyTree.zipM_struct _ _ _ _ hr').2, h.2.1]
  · have hl2 := zipList_ok f _ _ _ (PyTree.length_leaves_struct y v hy) hl' k
    rw [h.2.2, h'.2.2] at hl2
    rcases hl (π k) with ⟨a, b, z, h1, h2, h3, h4⟩ | ⟨h1, h2, h3⟩
    · rcases hl2 with ⟨a', b', z', g1, g2, g3, g4⟩ | ⟨g1, _, _⟩
      · rw [h1] at g1; rw [h2] at g2
        rw [← Option.some.inj g1, ← Option.some.inj g2, h4] at g4
        rw [g3, h3, Except.ok.inj g4]
      · rw [h1] at g1; cases g1
    · rcases hl2 with ⟨a', b', z', g1, g2, g3, g4⟩ | ⟨g1, g2, g3⟩
      · rw [h1] at g1; cases g1
      · rw [g3, h3]

theorem Renamed.zipM {x y : PyTree β} {u v : PyTree γ} (h : Renamed π S S' x y) (h' : Renamed π S S' u v) (f : β → γ → Res δ) :
    RelErr (Renamed π S S') (PyTree.zipM f x u) (PyTree.zipM f y v) := by
  cases hr : PyTree.zipM f x u with
  | ok r =>
    obtain ⟨r', hr', h1⟩ := h.zipM_ok h' f hr
    rw [hr']
    exact h1
  | error e =>
    cases hr' : PyTree.zipM f y v with
    | error e' => trivial
    | ok r' =>
      obtain ⟨r, h1, _⟩ := h.symm.zipM_ok h'.symm f hr'
      rw [hr] at h1
      cases h1

theorem Renamed.zipM3 {x y : PyTree β} {u v : PyTree γ} {w z : PyTree δ} (h : Renamed π S S' x y) (h' : Renamed π S S' u v)
    (h'' : Renamed π S S' w z) (f : β → γ → δ → Res ε) : RelErr (Renamed π S S') (PyTree.zipM3 f x u w) (PyTree.zipM3 f y v z) :=
  (h.zipM h' _).bind fun _ _ ht => ht.zipM h'' _

mutual
theorem mapM_eq_zipM (f : β → Res γ) : ∀ x : PyTree β, PyTree.mapM f x = PyTree.zipM (fun a _ => f a) x x
  | .leaf b => rfl
  | .node t cs => by simp only [PyTree.mapM, PyTree.zipM, if_true, mapML_eq_zipML f cs]
theorem mapML_eq_zipML (f : β → Res γ) : ∀ x : List (PyTree β), PyTree.mapML f x = PyTree.zipML (fun a _ => f a) x x
  | [] => rfl
  | c :: cs => by simp only [PyTree.mapML, PyTree.zipML, mapM_eq_zipM f c, mapML_eq_zipML f cs]
end

theorem Renamed.mapM {x y : PyTree β} (h : Renamed π S S' x y) (f : β → Res γ) : RelErr (Renamed π S S') (PyTree.mapM f x) (PyTree.mapM f y) := by
  rw [mapM_eq_zipM, mapM_eq_zipM]
  exact h.zipM h _

theorem Renamed.mem {x y : PyTree β} (h : Renamed π S S' x y) (b : β) : b ∈ x.leaves ↔ b ∈ y.leaves := by
  rw [List.mem_iff_getElem?, List.mem_iff_getElem?]
  constructor
  · rintro ⟨k, hk⟩
    exact ⟨π.symm k, by rw [h.2.2, Equiv.apply_symm_apply, hk]⟩
  · rintro ⟨k, hk⟩
    exact ⟨π k, by rw [← h.2.2, hk]⟩

/-- sums over the leaves do not depend on their order -/
theorem Renamed.sum {x y : PyTree β} (h : Renamed π S S' x y) (F : β → ℝ) : (x.leaves.map F).sum = (y.leaves.map F).sum := by
  have key : ∀ l : List β, (l.map F).sum = ∑ k ∈ Finset.range l.length, ((l[k]?).map F).getD 0 := by
    intro l
    induction l using List.reverseRecOn with
    | nil => simp
    | append_singleton l a ih =>
      rw [List.map_append, List.sum_append, ih, List.length_append, List.length_singleton, Finset.sum_range_succ]
      congr 1
      · refine Finset.sum_congr rfl fun k hk => ?_
        rw [List.getElem?_append_left (Finset.mem_range.mp hk)]
      · simp
  rw [key, key]
  symm
  refine Finset.sum_equiv π (fun k => ?_) (fun k _ => by rw [h.2.2])
  have := h.2.2 k
  simp only [Finset.mem_range]
  constructor
  · intro hk
    rw [List.getElem?_eq_getElem hk] at this
    exact (List.getElem?_eq_some_iff.mp this.symm).1
  · intro hk
    rw [List.getElem?_eq_getElem hk] at this
    exact (List.getElem?_eq_some_iff.mp this).1

end rel

variable {α : Type} [Zero α] [One α] [Add α] [Sub α] [Mul α] [Div α] [Neg α] [JOps α]
variable {π : Equiv.Perm ℕ} {S S' : PyTree Unit}

theorem Renamed.tmap {β γ : Type} {x y : Params β} (h : Renamed π S S' x y) (f : β → γ) : Renamed π S S' (tmap f x) (tmap f y) := h.map _

theorem Renamed.tzip {β γ δ : Type} {x y : Params β} {u v : Params γ} (h : Renamed π S S' x y) (h' : Renamed π S S' u v) (f : β → γ → δ) :
    RelErr (Renamed π S S') (tzip f x u) (tzip f y v) := h.zipM h' _

theorem Renamed.zerosLike {x y : Params α} (h : Renamed π S S' x y) : Renamed π S S' (zerosLike x) (zerosLike y) := h.map _

theorem Renamed.fullLike {x y : Params α} (h : Renamed π S S' x y) (c : α) : Renamed π S S' (fullLike x c) (fullLike y c) := h.map _

theorem Renamed.castTree {x y : Params α} (h : Renamed π S S' x y) (c : Option (α → α)) : Renamed π S S' (castTree x c) (castTree y c) := by
  cases c with
  | none => exact h
  | some f => exact h.tmap f

theorem Renamed.updateMoment {x y u v : Params α} (h : Renamed π S S' x y) (h' : Renamed π S S' u v) (d : α) (n : ℕ) :
    RelErr (Renamed π S S') (updateMoment x u d n) (updateMoment y v d n) := h.tzip h' _

theorem Renamed.biasCorrection {x y : Params α} (h : Renamed π S S' x y) (d : α) (c : BitVec 32) :
    Renamed π S S' (biasCorrection x d c) (biasCorrection y d c) := h.tmap _

theorem Renamed.spec_iff {x y u v : Params α} (h : Renamed π S S' x y) (h' : Renamed π S S' u v) : spec x = spec u ↔ spec y = spec v := by
  have key : ∀ a b : Params α, a.struct = b.struct → (spec a = spec b ↔ ∀ k : ℕ, (a.leaves[k]?).map Tensor.shape = (b.leaves[k]?).map Tensor.shape) := by
    intro a b hab
    constructor
    · intro e k
      have := congrArg PyTree.leaves e
      unfold spec at this
      rw [PyTree.leaves_map, PyTree.leaves_map] at this
      rw [← List.getElem?_map, ← List.getElem?_map, this]
    · intro e
      refine PyTree.ext_struct_leaves _ _ ?_ ?_
      · unfold spec; rw [PyTree.struct_map, PyTree.struct_map, hab]
      · unfold spec; rw [PyTree.leaves_map, PyTree.leaves_map]
        refine List.ext_getElem? fun k => ?_
        rw [List.getElem?_map, List.getElem?_map, e k]
  rw [key x u (h.1.trans h'.1.symm), key y v (h.2.1.trans h'.2.1.symm)]
  constructor
  · intro e k
    rw [h.2.2, h'.2.2, e]
  · intro e k
    have := e (π.symm k)
    rwa [h.2.2, h'.2.2, Equiv.apply_symm_apply] at this

theorem Renamed.allFinite {x y : Params α} (h : Renamed π S S' x y) : allFinite x = allFinite y := by
  unfold Optax.allFinite
  rw [Bool.eq_iff_iff, List.all_eq_true, List.all_eq_true]
  exact ⟨fun e b hb => e b ((h.mem b).mpr hb), fun e b hb => e b ((h.mem b).mp hb)⟩

theorem RelErr.condTree {a b : Res (Params α)} {a' b' : Res (Params α)} (c : Bool) (h : RelErr (Renamed π S S') a a')
    (h' : RelErr (Renamed π S S') b b') : RelErr (Renamed π S S') (condTree c a b) (condTree c a' b') := by
  refine h.bind fun x x' hx => h'.bind fun y y' hy => ?_
  by_cases e : spec x = spec y
  · rw [if_pos e, if_pos ((hx.spec_iff hy).mp e)]
    cases c
    · exact hy
    · exact hx
  · rw [if_neg e, if_neg (fun e' => e ((hx.spec_iff hy).mpr e'))]
    trivial

/-! ## One update -/

/-- `R` relates the states of runs on `S`- and on `S'`-trees; `P`, `P'` is the structure of the `params` argument -/
structure SimBy (t : GT α) (π : Equiv.Perm ℕ) (S S' P P' : PyTree Unit) (R : t.State → t.State → Prop) : Prop where
  init : ∀ p p', Renamed π S S' p p' → RelErr R (t.init p) (t.init p')
  update : ∀ g g' s s' q q', Renamed π S S' g g' → R s s' → RenamedOpt π P P' q q' →
    RelErr (fun r r' => Renamed π S S' r.1 r'.1 ∧ R r.2 r'.2) (t.update g s q) (t.update g' s' q')

/-- there is such a relation, whatever the structure of the `params` argument -/
def SimAny (t : GT α) : Prop := ∀ π S S' P P', ∃ R, SimBy t π S S' P P' R

/-- there is such a relation when `params` has the structure of the gradients -/
def SimSame (t : GT α) : Prop := ∀ π S S', ∃ R, SimBy t π S S' S S' R

theorem SimAny.same {t : GT α} (h : SimAny t) : SimSame t := fun π S S' => h π S S' S S'

theorem SimBy.run {t : GT α} {P P' : PyTree Unit} {R : t.State → t.State → Prop} (h : SimBy t π S S' P P' R) :
    ∀ (c c' : List (Call α)) (s s' : t.State), List.Forall₂ (fun c c' => Renamed π S S' c.1 c'.1 ∧ RenamedOpt π P P' c.2 c'.2) c c' → R s s' →
      RelErr (fun r r' => List.Forall₂ (Renamed π S S') r.1 r'.1 ∧ R r.2 r'.2) (t.run s c) (t.run s' c')
  | [], [], s, s', _, hs => ⟨.nil, hs⟩
  | c :: cs, c' :: cs', s, s', .cons hc hcs, hs => by
    refine (h.update _ _ _ _ _ _ hc.1 hs hc.2).bind fun r r' hr => ?_
    refine (h.run cs cs' _ _ hcs hr.2).bind fun r1 r1' hr1 => ?_
    exact ⟨.cons hr.1 hr1.1, hr1.2⟩

theorem SimBy.nameFreeAt {t : GT α} {P P' : PyTree Unit} {R : t.State → t.State → Prop} (hR : SimBy t π S S' P P' R) : NameFreeAt t π S S' P P' := by
  intro p p' c c' hp hc
  unfold GT.outs GT.exec
  refine ((hR.init p p' hp).bind fun s s' hs => hR.run c c' s s' hc hs).bind fun r r' hr => ?_
  exact hr.1

/-- the specification is equivalent to the existence of a simulation -/
theorem nameFreeAt_iff {t : GT α} {P P' : PyTree Unit} : NameFreeAt t π S S' P P' ↔ ∃ R, SimBy t π S S' P P' R := by
  refine ⟨fun h => ?_, fun ⟨R, hR⟩ => hR.nameFreeAt⟩
  refine ⟨fun s s' => ∃ p p' c c' us us', Renamed π S S' p p' ∧
    List.Forall₂ (fun c c' => Renamed π S S' c.1 c'.1 ∧ RenamedOpt π P P' c.2 c'.2) c c' ∧ t.exec p c = .ok (us, s) ∧ t.exec p' c' = .ok (us', s'), ?_, ?_⟩
  · intro p p' hp
    have := h p p' [] [] hp .nil
    simp only [GT.outs, GT.exec] at this
    cases hi : t.init p with
    | error e =>
      rw [hi] at this
      cases hi' : t.init p' with
      | error e' => rw [hi'] at this; exact this
      | ok s' => rw [hi'] at this; exact this.elim
    | ok s =>
      rw [hi] at this
      cases hi' : t.init p' with
      | error e' => rw [hi'] at this; exact this.elim
      | ok s' => exact ⟨p, p', [], [], [], [], hp, .nil, by simp [GT.exec, hi], by simp [GT.exec, hi']⟩
  · rintro g g' s s' q q' hg ⟨p, p', c, c', us, us', hp, hc, he, he'⟩ hq
    have hc' : List.Forall₂ (fun c c' => Renamed π S S' c.1 c'.1 ∧ RenamedOpt π P P' c.2 c'.2) (c ++ [(g, q)]) (c' ++ [(g', q')]) :=
      List.rel_append hc (.cons ⟨hg, hq⟩ .nil)
    have := h p p' _ _ hp hc'
    have ex : ∀ (p : Params α) (c : List (Call α)) us s g q, t.exec p c = .ok (us, s) →
        t.exec p (c ++ [(g, q)]) = (do let r ← t.update g s q; return (us ++ [r.1], r.2)) := by
      intro p c us s g q he
      unfold GT.exec at he ⊢
      cases hi : t.init p with
      | error e => rw [hi] at he; cases he
      | ok s0 =>
        rw [hi] at he
        simp only [Res.ok_bind] at he ⊢
        rw [GT.run_append, he]
        simp only [Res.ok_bind, GT.run]
        cases t.update g s q <;> rfl
    have e1 := ex p c us s g q he
    have e2 := ex p' c' us' s' g' q' he'
    simp only [GT.outs, e1, e2] at this
    have hl : us.length = us'.length := by
      have hus := h p p' c c' hp hc
      simp only [GT.outs, he, he'] at hus
      exact hus.length_eq
    cases hr : t.update g s q with
    | error e =>
      rw [hr] at this
      cases hr' : t.update g' s' q' with
      | error e' => rw [hr'] at this; exact this
      | ok r' => rw [hr'] at this; exact this.elim
    | ok r =>
      rw [hr] at this
      cases hr' : t.update g' s' q' with
      | error e' => rw [hr'] at this; exact this.elim
      | ok r' =>
        rw [hr'] at this
        have hf : List.Forall₂ (Renamed π S S') (us ++ [r.1]) (us' ++ [r'.1]) := this
        have hlast := List.forall₂_drop us.length hf
        rw [List.drop_left, hl, List.drop_left] at hlast
        cases hlast with
        | cons h1 _ =>
          refine ⟨h1, p, p', _, _, us ++ [r.1], us' ++ [r'.1], hp, hc', ?_, ?_⟩
          · rw [e1, hr]; rfl
          · rw [e2, hr']; rfl

theorem SimSame.nameFree {t : GT α} (h : SimSame t) : NameFree t := fun π S S' => nameFreeAt_iff.mpr (h π S S')

theorem NameFree.sim {t : GT α} (h : NameFree t) : SimSame t := fun π S S' => nameFreeAt_iff.mp (h π S S')

theorem sim_stateless {f : Params α → Option (Params α) → Res (Params α)} {P P' : PyTree Unit}
    (h : ∀ g g' q q', Renamed π S S' g g' → RenamedOpt π P P' q q' → RelErr (Renamed π S S') (f g q) (f g' q')) :
    SimBy (stateless f) π S S' P P' (fun _ _ => True) where
  init _ _ _ := trivial
  update g g' s s' q q' hg _ hq := (h g g' q q' hg hq).bind fun _ _ hu => ⟨hu, trivial⟩

theorem sim_identity : SimAny (identity : GT α) := fun π S S' P P' =>
  ⟨fun _ _ => True, fun _ _ _ => trivial, fun _ _ _ _ _ _ hg _ _ => ⟨hg, trivial⟩⟩

theorem sim_scale (c : α) : SimAny (scale c) := fun π S S' P P' => ⟨_, sim_stateless fun _ _ _ _ hg _ => hg.tmap _⟩

theorem sim_clip (c : α) : SimAny (clip c) := fun π S S' P P' => ⟨_, sim_stateless fun _ _ _ _ hg _ => hg.tmap _⟩

theorem sim_centralize : SimAny (centralize : GT α) := fun π S S' P P' => ⟨_, sim_stateless fun _ _ _ _ hg _ => hg.mapM _⟩

theorem sim_opt {f : Params α → Params α → Res (Params α)} (h : ∀ g g' p p', Renamed π S S' g g' → Renamed π S S' p p' → RelErr (Renamed π S S') (f g p) (f g' p')) :
    SimBy (stateless (fun g p => match p with | none => valueError | some p => f g p)) π S S' S S' (fun _ _ => True) :=
  sim_stateless fun g g' q q' hg hq => by
    match q, q', hq with
    | none, none, _ => trivial
    | some p, some p', hp => exact h g g' p p' hg hp

theorem sim_addDecayedWeights (w : α) : SimSame (addDecayedWeights w) := fun π S S' => ⟨_, sim_opt fun _ _ _ _ hg hp => hg.tzip hp _⟩

theorem sim_trustRatio (m : α) : SimSame (scaleByTrustRatio m) := fun π S S' => ⟨_, sim_opt fun _ _ _ _ hg hp => hg.zipM hp _⟩

theorem sim_keepParamsNonnegative : SimSame (keepParamsNonnegative : GT α) := fun π S S' => ⟨_, sim_opt fun _ _ _ _ hg hp => hp.tzip hg _⟩

theorem sim_adaptiveGradClip (c e : α) : SimSame (adaptiveGradClip c e) := fun π S S' => ⟨_, sim_opt fun _ _ _ _ hg hp =>
  (hg.mapM _).bind fun _ _ hn => (hp.mapM _).bind fun _ _ hm => hn.zipM3 (hm.tmap _) hg _⟩

theorem sim_zeroNans : SimAny (zeroNans : GT α) := fun π S S' P P' =>
  ⟨fun s s' => Renamed π S S' s.foundNan s'.foundNan, fun _ _ hp => hp.map _, fun _ _ _ _ _ _ hg _ _ => ⟨hg.tmap _, hg.map _⟩⟩

theorem sim_trace (d : α) (nes : Bool) (acc : Option (α → α)) : SimAny (trace d nes acc) := fun π S S' P P' =>
  ⟨fun s s' => Renamed π S S' s.trace s'.trace, fun _ _ hp => hp.zerosLike.castTree acc, fun _ _ _ _ _ _ hg hs _ =>
    (hg.tzip hs _).bind fun _ _ hx => by
      cases nes
      · exact ⟨hx, hx.castTree acc⟩
      · exact (hg.tzip hx _).bind fun _ _ hu => ⟨hu, hx.castTree acc⟩⟩

theorem sim_ema (d : α) (deb : Bool) (acc : Option (α → α)) : SimAny (ema d deb acc) := fun π S S' P P' =>
  ⟨fun s s' => s.count = s'.count ∧ Renamed π S S' s.ema s'.ema, fun _ _ hp => ⟨rfl, hp.zerosLike.castTree acc⟩, fun _ _ s s' _ _ hg hs _ =>
    (hg.updateMoment hs.2 _ _).bind fun _ _ hx => by
      simp only [hs.1]
      cases deb
      · exact ⟨hg, rfl, hx.castTree acc⟩
      · exact ⟨hx.biasCorrection _ _, rfl, hx.castTree acc⟩⟩

theorem sim_rss (a e : α) : SimAny (scaleByRss a e) := fun π S S' P P' =>
  ⟨fun s s' => Renamed π S S' s.sumOfSquares s'.sumOfSquares, fun _ _ hp => hp.fullLike _, fun _ _ s s' _ _ hg hs _ =>
    (hg.tzip hs _).bind fun _ _ hx => ((hx.tmap _).tzip hg _).bind fun _ _ hu => ⟨hu, hx⟩⟩

theorem sim_rms (d e a : α) : SimAny (scaleByRms d e a) := fun π S S' P P' =>
  ⟨fun s s' => Renamed π S S' s.nu s'.nu, fun _ _ hp => hp.fullLike _, fun _ _ s s' _ _ hg hs _ =>
    (hg.updateMoment hs _ _).bind fun _ _ hx => (hg.tzip hx _).bind fun _ _ hu => ⟨hu, hx⟩⟩

theorem sim_stddev (d e a : α) : SimAny (scaleByStddev d e a) := fun π S S' P P' =>
  ⟨fun s s' => Renamed π S S' s.mu s'.mu ∧ Renamed π S S' s.nu s'.nu, fun _ _ hp => ⟨hp.zerosLike, hp.fullLike _⟩, fun _ _ s s' _ _ hg hs _ =>
    (hg.updateMoment hs.1 _ _).bind fun _ _ hx => (hg.updateMoment hs.2 _ _).bind fun _ _ hy => (hg.zipM3 hx hy _).bind fun _ _ hu => ⟨hu, hx, hy⟩⟩

/-- the relation for the three states with two moments -/
def AdamRel (π : Equiv.Perm ℕ) (S S' : PyTree Unit) (s s' : AdamState α) : Prop := s.count = s'.count ∧ Renamed π S S' s.mu s'.mu ∧ Renamed π S S' s.nu s'.nu

theorem sim_adam (b1 b2 e er : α) : SimAny (scaleByAdam b1 b2 e er) := fun π S S' P P' =>
  ⟨AdamRel π S S', fun _ _ hp => ⟨rfl, hp.zerosLike, hp.zerosLike⟩, fun _ _ s s' _ _ hg hs _ =>
    (hg.updateMoment hs.2.1 _ _).bind fun _ _ hx => (hg.updateMoment hs.2.2 _ _).bind fun _ _ hy => by
      simp only [hs.1]
      exact ((hx.biasCorrection _ _).tzip (hy.biasCorrection _ _) _).bind fun _ _ hu => ⟨hu, rfl, hx, hy⟩⟩

theorem sim_belief (b1 b2 e er : α) : SimAny (scaleByBelief b1 b2 e er) := fun π S S' P P' =>
  ⟨AdamRel π S S', fun _ _ hp => ⟨rfl, hp.zerosLike, hp.zerosLike⟩, fun _ _ s s' _ _ hg hs _ =>
    (hg.updateMoment hs.2.1 _ _).bind fun _ _ hx => (hg.tzip hs.2.1 _).bind fun _ _ hq => (hq.updateMoment hs.2.2 _ _).bind fun _ _ hy => by
      simp only [hs.1]
      exact ((hx.biasCorrection _ _).tzip (hy.biasCorrection _ _) _).bind fun _ _ hu => ⟨hu, rfl, hx, hy⟩⟩

theorem sim_yogi (b1 b2 e er a : α) : SimAny (scaleByYogi b1 b2 e er a) := fun π S S' P P' =>
  ⟨AdamRel π S S', fun _ _ hp => ⟨rfl, hp.fullLike _, hp.fullLike _⟩, fun _ _ s s' _ _ hg hs _ =>
    (hg.updateMoment hs.2.1 _ _).bind fun _ _ hx => (hg.tzip hs.2.2 _).bind fun _ _ hq => (hq.updateMoment hs.2.2 _ _).bind fun _ _ hy => by
      simp only [hs.1]
      exact ((hx.biasCorrection _ _).tzip (hy.biasCorrection _ _) _).bind fun _ _ hu => ⟨hu, rfl, hx, hy⟩⟩

theorem sim_radam (b1 b2 e er th : α) : SimAny (scaleByRadam b1 b2 e er th) := fun π S S' P P' =>
  ⟨AdamRel π S S', fun _ _ hp => ⟨rfl, hp.zerosLike, hp.zerosLike⟩, fun _ _ s s' _ _ hg hs _ =>
    (hg.updateMoment hs.2.1 _ _).bind fun _ _ hx => (hg.updateMoment hs.2.2 _ _).bind fun _ _ hy => by
      simp only [hs.1]
      exact (RelErr.condTree _ ((hx.biasCorrection _ _).tzip (hy.biasCorrection _ _) _) (show RelErr (Renamed π S S') (.ok _) (.ok _) from hx.biasCorrection _ _)).bind
        fun _ _ hu => ⟨hu, rfl, hx, hy⟩⟩

theorem sim_schedule (f : Schedule α) : SimAny (scaleBySchedule f) := fun π S S' P P' =>
  ⟨fun s s' => s = s', fun _ _ _ => rfl, fun _ _ s s' _ _ hg hs _ => by subst hs; exact ⟨hg.tmap _, rfl⟩⟩

theorem sim_applyEvery (k : ℤ) : SimAny (applyEvery k : GT α) := fun π S S' P P' =>
  ⟨fun s s' => s.count = s'.count ∧ Renamed π S S' s.gradAcc s'.gradAcc, fun _ _ hp => ⟨rfl, hp.zerosLike⟩, fun _ _ s s' _ _ hg hs _ => by
    simp only [hs.1]
    exact (hg.tzip hs.2 _).bind fun _ _ hx => ⟨hx.tmap _, rfl, hx⟩⟩

theorem sim_sm3 (b1 b2 e : α) : SimAny (scaleBySM3 b1 b2 e) := fun π S S' P P' =>
  ⟨fun s s' => Renamed π S S' s.mu s'.mu ∧ Renamed π S S' s.nu s'.nu, fun _ _ hp => ⟨hp.map _, hp.zerosLike⟩, fun _ _ s s' _ _ hg hs _ =>
    (hg.zipM hs.1 _).bind fun _ _ hm => (hg.zipM hm _).bind fun _ _ ha => (hg.tzip (ha.tmap _) _).bind fun _ _ hu =>
      (hu.updateMoment hs.2 _ _).bind fun _ _ hn => (ha.mapM _).bind fun _ _ hm' => ⟨hn, hm', hn⟩⟩

/-! ## Chains -/

theorem sim_chain_aux {P P' : PyTree Unit} : ∀ (ts : List (GT α)), (∀ t ∈ ts, ∃ R, SimBy t π S S' P P' R) →
    ∃ R : ChainState ts → ChainState ts → Prop, (∀ s s', R s s' → ChainState.length ts s = ts.length ∧ ChainState.length ts s' = ts.length) ∧
      (∀ p p', Renamed π S S' p p' → RelErr R (chainInit ts p) (chainInit ts p')) ∧
      (∀ g g' s s' q q', Renamed π S S' g g' → R s s' → RenamedOpt π P P' q q' →
        RelErr (fun r r' => Renamed π S S' r.1 r'.1 ∧ R r.2 r'.2) (chainLoop ts g s q) (chainLoop ts g' s' q'))
  | [], _ => ⟨fun s s' => (s : ℕ) = 0 ∧ (s' : ℕ) = 0, fun s s' h => h, fun _ _ _ => ⟨rfl, rfl⟩, fun _ _ _ _ _ _ hg _ _ => ⟨hg, rfl, rfl⟩⟩
  | t :: ts, h => by
    obtain ⟨R, hR⟩ := h t (by simp)
    obtain ⟨R', h1, h2, h3⟩ := sim_chain_aux ts fun u hu => h u (by simp [hu])
    refine ⟨fun s s' => ∃ a b a' b', s = some (a, b) ∧ s' = some (a', b') ∧ R a a' ∧ R' b b', ?_, ?_, ?_⟩
    · rintro s s' ⟨a, b, a', b', rfl, rfl, ha, hb⟩
      have := h1 b b' hb
      simp only [ChainState.length, List.length_cons, this.1, this.2]
      omega
    · intro p p' hp
      exact (hR.init p p' hp).bind fun s s' hs => (h2 p p' hp).bind fun r r' hr => ⟨_, _, _, _, rfl, rfl, hs, hr⟩
    · rintro g g' s s' q q' hg ⟨a, b, a', b', rfl, rfl, ha, hb⟩ hq
      exact (hR.update g g' a a' q q' hg ha hq).bind fun u u' hu => (h3 _ _ _ _ q q' hu.1 hb hq).bind fun r r' hr =>
        ⟨hr.1, _, _, _, _, rfl, rfl, hu.2, hr.2⟩

theorem sim_chain_by {P P' : PyTree Unit} (ts : List (GT α)) (h : ∀ t ∈ ts, ∃ R, SimBy t π S S' P P' R) : ∃ R, SimBy (chain ts) π S S' P P' R := by
  obtain ⟨R, h1, h2, h3⟩ := sim_chain_aux ts h
  refine ⟨R, h2, fun g g' s s' q q' hg hs hq => ?_⟩
  have e1 : ¬ ChainState.length ts s ≠ ts.length := not_not.mpr (h1 s s' hs).1
  have e2 : ¬ ChainState.length ts s' ≠ ts.length := not_not.mpr (h1 s s' hs).2
  show RelErr _ (if _ then _ else _) (if _ then _ else _)
  rw [if_neg e1, if_neg e2]
  exact h3 g g' s s' q q' hg hs hq

theorem sim_chain (ts : List (GT α)) (h : ∀ t ∈ ts, SimSame t) : SimSame (chain ts) := fun π S S' => sim_chain_by ts fun t ht => h t ht π S S'

theorem sim_chain_any (ts : List (GT α)) (h : ∀ t ∈ ts, SimAny t) : SimAny (chain ts) := fun π S S' P P' => sim_chain_by ts fun t ht => h t ht π S S' P P'

theorem sim_lr (lr : LR α) : SimAny (scaleByLearningRate lr) := by
  cases lr with
  | scalar x => exact sim_scale (-x)
  | schedule f => exact sim_schedule (fun count => -f count)

theorem sim_momentum (m : Option α) (nes : Bool) : SimAny (momentumOrIdentity m nes) := by
  cases m with
  | none => exact sim_identity
  | some m => exact sim_trace m nes none

/-! ## Wrappers -/

theorem RelErr.condUpd {T : Type} {R : T → T → Prop} {a b a' b' : Res (Params α × T)} (c : Bool)
    (h : RelErr (fun r r' => Renamed π S S' r.1 r'.1 ∧ R r.2 r'.2) a a') (h' : RelErr (fun r r' => Renamed π S S' r.1 r'.1 ∧ R r.2 r'.2) b b') :
    RelErr (fun r r' => Renamed π S S' r.1 r'.1 ∧ R r.2 r'.2) (condUpd c a b) (condUpd c a' b') := by
  refine h.bind fun x x' hx => h'.bind fun y y' hy => ?_
  by_cases e : spec x.1 = spec y.1
  · rw [if_pos e, if_pos ((hx.1.spec_iff hy.1).mp e)]
    cases c
    · exact hy
    · exact hx
  · rw [if_neg e, if_neg (fun e' => e ((hx.1.spec_iff hy.1).mpr e'))]
    trivial

theorem sim_applyIfFinite_by {t : GT α} {P P' : PyTree Unit} (m : ℤ) (h : ∃ R, SimBy t π S S' P P' R) : ∃ R, SimBy (applyIfFinite t m) π S S' P P' R := by
  obtain ⟨R, hR⟩ := h
  refine ⟨fun s s' => s.notfiniteCount = s'.notfiniteCount ∧ s.lastFinite = s'.lastFinite ∧ s.totalNotfinite = s'.totalNotfinite ∧ R s.innerState s'.innerState,
    fun p p' hp => (hR.init p p' hp).bind fun _ _ hs => ⟨rfl, rfl, rfl, hs⟩, fun g g' s s' q q' hg hs hq => ?_⟩
  have e : allFinite g = allFinite g' := hg.allFinite
  simp only [e, hs.1, hs.2.2.1]
  exact (RelErr.condUpd _ (hR.update g g' _ _ q q' hg hs.2.2.2 hq) (show RelErr _ (.ok _) (.ok _) from ⟨hg.zerosLike, hs.2.2.2⟩)).bind
    fun r r' hr => ⟨hr.1, rfl, rfl, rfl, hr.2⟩

theorem sim_maybeUpdate_by {t : GT α} {P P' : PyTree Unit} (f : ℤ → Bool) (h : ∃ R, SimBy t π S S' P P' R) : ∃ R, SimBy (maybeUpdate t f) π S S' P P' R := by
  obtain ⟨R, hR⟩ := h
  refine ⟨fun s s' => R s.innerState s'.innerState ∧ s.step = s'.step,
    fun p p' hp => (hR.init p p' hp).bind fun _ _ hs => ⟨hs, rfl⟩, fun g g' s s' q q' hg hs hq => ?_⟩
  simp only [hs.2]
  exact (RelErr.condUpd _ (hR.update g g' _ _ q q' hg hs.1 hq) (show RelErr _ (.ok _) (.ok _) from ⟨hg, hs.1⟩)).bind
    fun r r' hr => ⟨hr.1, hr.2, rfl⟩

theorem sim_multiSteps_by {t : GT α} {P P' : PyTree Unit} (k : ℤ → ℤ) (mean : Bool) (h : ∃ R, SimBy t π S S' P P' R) :
    ∃ R, SimBy (multiSteps t k mean) π S S' P P' R := by
  obtain ⟨R, hR⟩ := h
  refine ⟨fun s s' => s.miniStep = s'.miniStep ∧ s.gradientStep = s'.gradientStep ∧ R s.innerOptState s'.innerOptState ∧ Renamed π S S' s.accGrads s'.accGrads,
    fun p p' hp => (hR.init p p' hp).bind fun _ _ hs => ⟨rfl, rfl, hs, hp.zerosLike⟩, fun g g' s s' q q' hg hs hq => ?_⟩
  simp only [hs.1, hs.2.1]
  refine (hg.tzip hs.2.2.2 _).bind fun acc acc' ha => ?_
  refine RelErr.condUpd (α := α) (R := fun (s s' : MultiStepsState α t.State) => s.miniStep = s'.miniStep ∧ s.gradientStep = s'.gradientStep ∧ R s.innerOptState s'.innerOptState ∧
    Renamed π S S' s.accGrads s'.accGrads) _ (show RelErr _ (.ok _) (.ok _) from ⟨hg.zerosLike, rfl, rfl, hs.2.2.1, ha⟩) ?_
  cases mean
  · exact (hR.update _ _ _ _ none none ha hs.2.2.1 trivial).bind fun r r' hr => ⟨hr.1, rfl, rfl, hr.2, ha.zerosLike⟩
  · exact (hR.update _ _ _ _ none none (ha.tmap _) hs.2.2.1 trivial).bind fun r r' hr => ⟨hr.1, rfl, rfl, hr.2, ha.zerosLike⟩

/-! ### `masked` -/

/-! ## The property -/

theorem sim_clipByGlobalNorm (c : ℝ) : SimAny (clipByGlobalNorm c) := fun π S S' P P' =>
  ⟨_, sim_stateless fun g g' _ _ hg _ => by
    have : globalNorm g = globalNorm g' := by
      unfold globalNorm
      rw [hg.sum]
    rw [this]
    exact hg.tmap _⟩

/-- **C105 (components).** For every number type. -/
theorem C105_components :
    NameFree (identity : GT α) ∧ (∀ c : α, NameFree (scale c)) ∧ (∀ f : Schedule α, NameFree (scaleBySchedule f)) ∧
    (∀ (d : α) nes acc, NameFree (trace d nes acc)) ∧ (∀ (d : α) deb acc, NameFree (ema d deb acc)) ∧
    (∀ a e : α, NameFree (scaleByRss a e)) ∧ (∀ d e a : α, NameFree (scaleByRms d e a)) ∧ (∀ d e a : α, NameFree (scaleByStddev d e a)) ∧
    (∀ b1 b2 e er : α, NameFree (scaleByAdam b1 b2 e er)) ∧ (∀ b1 b2 e er : α, NameFree (scaleByBelief b1 b2 e er)) ∧
    (∀ b1 b2 e er a : α, NameFree (scaleByYogi b1 b2 e er a)) ∧ (∀ b1 b2 e er th : α, NameFree (scaleByRadam b1 b2 e er th)) ∧
    (∀ b1 b2 e : α, NameFree (scaleBySM3 b1 b2 e)) ∧ (∀ w : α, NameFree (addDecayedWeights w)) ∧
    (∀ m : α, NameFree (scaleByTrustRatio m)) ∧ (∀ k, NameFree (applyEvery k : GT α)) ∧ NameFree (centralize : GT α) ∧
    (∀ c : α, NameFree (clip c)) ∧ (∀ c e : α, NameFree (adaptiveGradClip c e)) ∧
    NameFree (keepParamsNonnegative : GT α) ∧ NameFree (zeroNans : GT α) :=
  ⟨sim_identity.same.nameFree, fun c => (sim_scale c).same.nameFree, fun f => (sim_schedule f).same.nameFree,
    fun d n a => (sim_trace d n a).same.nameFree, fun d b a => (sim_ema d b a).same.nameFree, fun a e => (sim_rss a e).same.nameFree,
    fun d e a => (sim_rms d e a).same.nameFree, fun d e a => (sim_stddev d e a).same.nameFree,
    fun a b c d => (sim_adam a b c d).same.nameFree, fun a b c d => (sim_belief a b c d).same.nameFree,
    fun a b c d e => (sim_yogi a b c d e).same.nameFree, fun a b c d e => (sim_radam a b c d e).same.nameFree,
    fun a b c => (sim_sm3 a b c).same.nameFree, fun w => (sim_addDecayedWeights w).nameFree, fun m => (sim_trustRatio m).nameFree,
    fun k => (sim_applyEvery k).same.nameFree, sim_centralize.same.nameFree,
    fun c => (sim_clip c).same.nameFree, fun c e => (sim_adaptiveGradClip c e).nameFree,
    sim_keepParamsNonnegative.nameFree, sim_zeroNans.same.nameFree⟩

/-- **C105 (`clip_by_global_norm`).** Over the real numbers: the sum of the squares does not depend on the order of the leaves. -/
theorem C105_clip_by_global_norm (c : ℝ) : NameFree (clipByGlobalNorm c) := (sim_clipByGlobalNorm c).same.nameFree

/-- **C105 (chains and wrappers).** -/
theorem C105_closed :
    (∀ ts : List (GT α), (∀ t ∈ ts, NameFree t) → NameFree (chain ts)) ∧
    (∀ (t : GT α) m, NameFree t → NameFree (applyIfFinite t m)) ∧
    (∀ (t : GT α) f, NameFree t → NameFree (maybeUpdate t f)) ∧
    (∀ (t : GT α) k mean, NameFree t → NameFree (multiSteps t k mean)) :=
  ⟨fun ts h => (sim_chain ts fun t ht => (h t ht).sim).nameFree,
    fun t m h π S S' => nameFreeAt_iff.mpr (sim_applyIfFinite_by m (h.sim π S S')), fun t f h π S S' => nameFreeAt_iff.mpr (sim_maybeUpdate_by f (h.sim π S S')),
    fun t k mean h π S S' => nameFreeAt_iff.mpr (sim_multiSteps_by k mean (h.sim π S S'))⟩

/-- **C105 (optimizers).** All but the two that add noise. -/
theorem C105_aliases :
    (∀ (lr : LR α) b1 b2 e, NameFree (adabelief lr b1 b2 e)) ∧ (∀ (lr : LR α) a e, NameFree (adagrad lr a e)) ∧
    (∀ (lr : LR α) b1 b2 e er, NameFree (adam lr b1 b2 e er)) ∧ (∀ (lr : LR α) b1 b2 e er w, NameFree (adamw lr b1 b2 e er w)) ∧
    (∀ lr m : α, NameFree (fromage lr m)) ∧ (∀ (lr : LR α) b1 b2 e er w, NameFree (lamb lr b1 b2 e er w)) ∧
    (∀ (lr : LR α) b1 b2 e er th, NameFree (radam lr b1 b2 e er th)) ∧
    (∀ (lr : LR α) d e a cen m nes, NameFree (rmsprop lr d e a cen m nes)) ∧ (∀ (lr : LR α) m nes, NameFree (sgd lr m nes)) ∧
    (∀ lr b1 : α, NameFree (sm3 lr b1)) ∧ (∀ (lr : LR α) b1 b2 e, NameFree (yogi lr b1 b2 e)) := by
  have two : ∀ t u : GT α, SimSame t → SimSame u → NameFree (chain [t, u]) := fun t u ht hu =>
    (sim_chain [t, u] (by simp [ht, hu])).nameFree
  have three : ∀ t u v : GT α, SimSame t → SimSame u → SimSame v → NameFree (chain [t, u, v]) := fun t u v ht hu hv =>
    (sim_chain [t, u, v] (by simp [ht, hu, hv])).nameFree
  have four : ∀ t u v w : GT α, SimSame t → SimSame u → SimSame v → SimSame w → NameFree (chain [t, u, v, w]) := fun t u v w ht hu hv hw =>
    (sim_chain [t, u, v, w] (by simp [ht, hu, hv, hw])).nameFree
  refine ⟨fun lr b1 b2 e => two _ _ (sim_belief _ _ _ _).same (sim_lr lr).same, fun lr a e => two _ _ (sim_rss _ _).same (sim_lr lr).same,
    fun lr b1 b2 e er => two _ _ (sim_adam _ _ _ _).same (sim_lr lr).same,
    fun lr b1 b2 e er w => three _ _ _ (sim_adam _ _ _ _).same (sim_addDecayedWeights _) (sim_lr lr).same,
    fun lr m => three _ _ _ (sim_trustRatio _) (sim_lr _).same (sim_addDecayedWeights _),
    fun lr b1 b2 e er w => four _ _ _ _ (sim_adam _ _ _ _).same (sim_addDecayedWeights _) (sim_trustRatio _) (sim_lr lr).same,
    fun lr b1 b2 e er th => two _ _ (sim_radam _ _ _ _ _).same (sim_lr lr).same, fun lr d e a cen m nes => ?_,
    fun lr m nes => two _ _ (sim_momentum m nes).same (sim_lr lr).same, fun lr b1 => two _ _ (sim_sm3 _ _ _).same (sim_scale _).same,
    fun lr b1 b2 e => two _ _ (sim_yogi _ _ _ _ _).same (sim_lr lr).same⟩
  cases cen
  · exact three _ _ _ (sim_rms _ _ _).same (sim_lr lr).same (sim_momentum m nes).same
  · exact three _ _ _ (sim_stddev _ _ _).same (sim_lr lr).same (sim_momentum m nes).same

/-- **C105 (training).** If the two gradient functions agree up to the renaming, so do the trained parameters after any number of steps. -/
theorem C105_training (t : GT α) (h : NameFree t) (π : Equiv.Perm ℕ) (S S' : PyTree Unit) (grad grad' : ℕ → Params α → Params α)
    (hgrad : ∀ n x x', Renamed π S S' x x' → Renamed π S S' (grad n x) (grad' n x')) (N : ℕ) (p p' : Params α) (hp : Renamed π S S' p p') :
    RelErr (fun r r' => Renamed π S S' r.1 r'.1) (do let s ← t.init p; trainLoop t grad N s p) (do let s ← t.init p'; trainLoop t grad' N s p') := by
  obtain ⟨R, hR⟩ := h.sim π S S'
  refine (hR.init p p' hp).bind fun s s' hs => ?_
  have : RelErr (fun r r' => Renamed π S S' r.1 r'.1 ∧ R r.2 r'.2) (trainLoop t grad N s p) (trainLoop t grad' N s' p') := by
    induction N with
    | zero => exact ⟨hp, hs⟩
    | succ N ih =>
      exact ih.bind fun r r' hr => (hR.update _ _ _ _ (some r.1) (some r'.1) (hgrad N _ _ hr.1) hr.2 hr.1).bind fun u u' hu =>
        (hr.1.tzip hu.1 _).bind fun x x' hx => ⟨hx, hu.2⟩
  exact this.mono fun _ _ h => h.1

/-- **C105 (the restriction matters).** `add_noise` draws the noise of a leaf from a key chosen by the position of the leaf: renaming the parameters changes the noise each of
them gets.  (A generator that distinguishes the first two keys suffices.) -/
theorem C105_add_noise_not (seed : ℤ) : ¬ NameFree (addNoise (fun k _ _ => if k = .child (.seed seed) 3 1 then (1 : ℝ) else 0) 1 0 seed) := by
  intro h
  let x : Params ℝ := .node .tuple [.leaf ⟨[], [0]⟩, .leaf ⟨[], [0]⟩]
  have hx : Renamed (Equiv.swap 0 1) x.struct x.struct x x := ⟨rfl, rfl, fun k => by
    match k with
    | 0 => rw [Equiv.swap_apply_left]; rfl
    | 1 => rw [Equiv.swap_apply_right]; rfl
    | k + 2 => rw [Equiv.swap_apply_of_ne_of_ne (by omega) (by omega)]⟩
  have hr := h _ _ _ x x [(x, none)] [(x, none)] hx (.cons ⟨hx, trivial⟩ .nil)
  set n : Key → ℝ := fun k => if k = .child (.seed seed) 3 1 then (1 : ℝ) else 0 with hn
  set v : ℝ := noiseScale 1 0 (safeInt32Increment 0#32) with hv
  have ho : (addNoise (fun k _ _ => if k = .child (.seed seed) 3 1 then (1 : ℝ) else 0) 1 0 seed).outs x [(x, none)] =
      .ok [.node .tuple [.leaf ⟨[], [0 + v * n (.child (.seed seed) 3 1)]⟩, .leaf ⟨[], [0 + v * n (.child (.seed seed) 3 2)]⟩]] := rfl
  rw [ho] at hr
  cases hr with
  | cons h1 _ =>
    have := h1.2.2 0
    rw [Equiv.swap_apply_left] at this
    have e : (0 : ℝ) + v * n (.child (.seed seed) 3 1) = 0 + v * n (.child (.seed seed) 3 2) := by
      have := Option.some.inj this
      injection this with _ this
      exact (List.cons.inj this).1
    have hv1 : v = 1 := by
      simp only [hv, noiseScale, jpow_real, Real.rpow_zero, div_one]
    rw [hv1, hn] at e
    norm_num at e

/-- renaming "a" to "z" swaps the two arrays -/
example (a b : Tensor ℝ) : ∃ π S S', Renamed π S S' (PyTree.node (.dict ["a", "b"]) [.leaf a, .leaf b]) (PyTree.node (.dict ["b", "z"]) [.leaf b, .leaf a]) :=
  ⟨Equiv.swap 0 1, _, _, rfl, rfl, fun k => by
    match k with
    | 0 => rw [Equiv.swap_apply_left]; rfl
    | 1 => rw [Equiv.swap_apply_right]; rfl
    | k + 2 => rw [Equiv.swap_apply_of_ne_of_ne (by omega) (by omega)]; rfl⟩

end Rename
end Optax
