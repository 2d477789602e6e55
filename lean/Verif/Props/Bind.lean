import Verif.Model.Bind
import Verif.Props.Inject
import Verif.Props.Chain

/-!
# C108: calling a wrapped factory. C109: an injected schedule runs one step ahead of the native one.
-/

set_option linter.unusedSectionVars false
set_option linter.unusedSimpArgs false

namespace Optax

section
variable {α β : Type}

/-! ## Specification of a python call -/

/-- the call is legal: not more positional arguments than parameters; every keyword names a parameter not given by position; every
parameter not given by position has a keyword argument or a default -/
structure LegalCall (sig : List (SigParam α β)) (pos : List (ArgVal α β)) (kw : List (String × ArgVal α β)) : Prop where
  few : pos.length ≤ sig.length
  known : ∀ k ∈ kw.map Prod.fst, k ∈ (sig.drop pos.length).map SigParam.name
  given : ∀ p ∈ sig.drop pos.length, p.name ∈ kw.map Prod.fst ∨ p.default.isSome

/-- the value of parameter number `i`: the positional argument, else the keyword argument, else the default -/
def argValue (sig : List (SigParam α β)) (pos : List (ArgVal α β)) (kw : List (String × ArgVal α β)) (i : ℕ) :
    Option (ArgVal α β) :=
  pos[i]?.or (sig[i]?.bind fun p => (kw.lookup p.name).or p.default)

theorem lookup_isSome (kw : List (String × ArgVal α β)) (k : String) : (kw.lookup k).isSome ↔ k ∈ kw.map Prod.fst := by
  induction kw with
  | nil => simp
  | cons x kw ih =>
    obtain ⟨a, v⟩ := x
    by_cases h : k = a
    · subst h; simp
    · have h' : (k == a) = false := by simpa using h
      rw [List.lookup_cons, h']
      simp only [ih, List.map_cons, List.mem_cons, h, false_or]

theorem lookup_filter (kw : List (String × ArgVal α β)) (k n : String) (h : k ≠ n) :
    (kw.filter (fun x => x.1 ≠ n)).lookup k = kw.lookup k := by
  induction kw with
  | nil => rfl
  | cons x kw ih =>
    obtain ⟨a, v⟩ := x
    by_cases ha : a = n
    · subst ha
      have h' : (k == a) = false := by simpa using h
      rw [List.filter_cons_of_neg (by simp), ih, List.lookup_cons, h']
    · rw [List.filter_cons_of_pos (by simpa using ha), List.lookup_cons, List.lookup_cons, ih]

/-- **C108 (binding).** For every signature with distinct names: a legal call binds every parameter, in the order of the
signature, to its positional argument, else its keyword argument, else its default; any other call raises TypeError. -/
theorem C108_bind (sig : List (SigParam α β)) (hs : (sig.map SigParam.name).Nodup) (pos : List (ArgVal α β))
    (kw : List (String × ArgVal α β)) :
    (LegalCall sig pos kw → ∃ b, bindArgs sig pos kw = .ok b ∧ b.map Prod.fst = sig.map SigParam.name ∧
      ∀ i : ℕ, i < sig.length → b[i]?.map Prod.snd = argValue sig pos kw i) ∧
    (¬ LegalCall sig pos kw → bindArgs sig pos kw = .error .type) := by
  induction sig generalizing pos kw with
  | nil =>
    constructor
    · intro h
      have h1 : pos = [] := List.eq_nil_of_length_eq_zero (Nat.le_zero.mp h.few)
      subst h1
      cases kw with
      | nil => exact ⟨[], rfl, rfl, fun i hi => absurd hi (by simp)⟩
      | cons x kw => exact absurd (h.known x.1 (by simp)) (by simp)
    · intro h
      cases pos with
      | cons => cases kw <;> rfl
      | nil =>
        cases kw with
        | nil => exact absurd ⟨by simp, by simp, by simp⟩ h
        | cons => rfl
  | cons p ps ih =>
    have hp : p.name ∉ ps.map SigParam.name := (List.nodup_cons.mp hs).1
    have hps := (List.nodup_cons.mp hs).2
    cases pos with
    | cons v pos =>
      obtain ⟨ih1, ih2⟩ := ih hps pos kw
      have hleg : LegalCall (p :: ps) (v :: pos) kw ↔ LegalCall ps pos kw :=
        ⟨fun h => ⟨by simpa using h.few, h.known, h.given⟩, fun h => ⟨by simpa using h.few, h.known, h.given⟩⟩
      have hin : LegalCall ps pos kw → p.name ∉ kw.map Prod.fst := by
        intro h hc
        have := h.known _ hc
        exact hp ((List.drop_sublist _ _).map _ |>.subset this)
      constructor
      · intro h
        obtain ⟨b, hb, hn, hv⟩ := ih1 (hleg.mp h)
        refine ⟨(p.name, v) :: b, ?_, by simp [hn], ?_⟩
        · simp only [bindArgs, if_neg (hin (hleg.mp h)), hb]; rfl
        · intro i hi
          cases i with
          | zero => simp [argValue]
          | succ i => simpa [argValue] using hv i (by simpa using hi)
      · intro h
        simp only [bindArgs]
        split
        · rfl
        · rw [ih2 (fun h' => h (hleg.mpr h'))]; rfl
    | nil =>
      have hleg : ∀ kw', LegalCall (p :: ps) [] kw' ↔ (p.name ∈ kw'.map Prod.fst ∨ p.default.isSome) ∧
          LegalCall ps [] (kw'.filter (fun x => x.1 ≠ p.name)) := by
        intro kw'
        have mem : ∀ k, k ∈ (kw'.filter (fun x => x.1 ≠ p.name)).map Prod.fst ↔ k ∈ kw'.map Prod.fst ∧ k ≠ p.name := by
          intro k
          simp only [List.mem_map, List.mem_filter, ne_eq, decide_not, Bool.not_eq_true', decide_eq_false_iff_not]
          constructor
          · rintro ⟨x, ⟨hx, hne⟩, rfl⟩; exact ⟨⟨x, hx, rfl⟩, hne⟩
          · rintro ⟨⟨x, hx, rfl⟩, hne⟩; exact ⟨x, ⟨hx, hne⟩, rfl⟩
        constructor
        · intro h
          refine ⟨h.given p (by simp), by simp, ?_, ?_⟩
          · intro k hk
            obtain ⟨h1, h2⟩ := (mem k).mp hk
            have := h.known k h1
            simp only [List.length_nil, List.drop_zero, List.map_cons, List.mem_cons] at this
            exact this.resolve_left h2
          · intro q hq
            rcases h.given q (by simpa using Or.inr (by simpa using hq)) with h1 | h1
            · left
              refine (mem _).mpr ⟨h1, fun he => hp ?_⟩
              rw [← he]
              exact List.mem_map_of_mem (by simpa using hq)
            · exact Or.inr h1
        · rintro ⟨h1, h2⟩
          refine ⟨by simp, ?_, ?_⟩
          · intro k hk
            by_cases hkp : k = p.name
            · simp [hkp]
            · have := h2.known k ((mem k).mpr ⟨hk, hkp⟩)
              simp only [List.length_nil, List.drop_zero, List.map_cons, List.mem_cons]
              exact Or.inr (by simpa using this)
          · intro q hq
            simp only [List.length_nil, List.drop_zero, List.mem_cons] at hq
            rcases hq with rfl | hq
            · exact h1
            · rcases h2.given q (by simpa using hq) with h3 | h3
              · exact Or.inl ((mem _).mp h3).1
              · exact Or.inr h3
      have hfilter : kw.lookup p.name = none → kw.filter (fun x => x.1 ≠ p.name) = kw := by
        intro h
        rw [List.filter_eq_self]
        intro x hx
        have : p.name ∉ kw.map Prod.fst := by
          rw [← lookup_isSome, h]; simp
        simp only [ne_eq, decide_not, Bool.not_eq_true', decide_eq_false_iff_not]
        intro he
        exact this (he ▸ List.mem_map_of_mem hx)
      obtain ⟨ih1, ih2⟩ := ih hps [] (kw.filter (fun x => x.1 ≠ p.name))
      have hval : ∀ b : List (String × ArgVal α β), (∀ i : ℕ, i < ps.length →
          b[i]?.map Prod.snd = argValue ps [] (kw.filter (fun x => x.1 ≠ p.name)) i) → ∀ v,
          (kw.lookup p.name).or p.default = some v → ∀ i : ℕ, i < (p :: ps).length →
          ((p.name, v) :: b)[i]?.map Prod.snd = argValue (p :: ps) [] kw i := by
        intro b hb v hv i hi
        cases i with
        | zero => simpa [argValue] using hv.symm
        | succ i =>
          have hi' : i < ps.length := by simpa using hi
          have := hb i hi'
          simp only [List.getElem?_cons_succ, this, argValue, List.getElem?_nil, Option.none_or]
          rw [List.getElem?_eq_getElem hi']
          simp only [Option.bind_some]
          rw [lookup_filter]
          intro he
          exact hp (he ▸ List.mem_map_of_mem (List.getElem_mem hi'))
      constructor
      · intro h
        obtain ⟨h1, h2⟩ := (hleg kw).mp h
        obtain ⟨b, hb, hn, hv⟩ := ih1 h2
        cases hl : kw.lookup p.name with
        | some v =>
          refine ⟨(p.name, v) :: b, ?_, by simp [hn], hval b hv v (by simp [hl])⟩
          simp only [bindArgs, hl, hb]; rfl
        | none =>
          have h3 : p.default.isSome := by
            rcases h1 with h1 | h1
            · rw [← lookup_isSome, hl] at h1; simp at h1
            · exact h1
          obtain ⟨d, hd⟩ := Option.isSome_iff_exists.mp h3
          refine ⟨(p.name, d) :: b, ?_, by simp [hn], hval b hv d (by simp [hl, hd])⟩
          rw [hfilter hl] at hb
          simp only [bindArgs, hl, hd, hb]; rfl
      · intro h
        rw [hleg, not_and_or] at h
        cases hl : kw.lookup p.name with
        | some v =>
          have h1 : p.name ∈ kw.map Prod.fst := by rw [← lookup_isSome, hl]; rfl
          have h2 := h.resolve_left (fun hc => hc (Or.inl h1))
          simp only [bindArgs, hl, ih2 h2]; rfl
        | none =>
          cases hd : p.default with
          | none => simp only [bindArgs, hl, hd]
          | some d =>
            have h2 := h.resolve_left (fun hc => hc (Or.inr (by simp [hd])))
            have h3 := ih2 h2
            rw [hfilter hl] at h3
            simp only [bindArgs, hl, hd, h3]; rfl

variable [Zero α] [One α] [Add α] [Sub α] [Mul α] [Div α] [Neg α] [JOps α]

/-- two calls that are both legal and give every parameter the same value are the same call -/
theorem injectCall_congr (F : Factory α β) (sig : List (SigParam α β)) (hs : (sig.map SigParam.name).Nodup) (static : List String)
    (pos pos' : List (ArgVal α β)) (kw kw' : List (String × ArgVal α β)) (h : LegalCall sig pos kw) (h' : LegalCall sig pos' kw')
    (he : ∀ i : ℕ, i < sig.length → argValue sig pos kw i = argValue sig pos' kw' i) :
    injectCall F sig static pos kw = injectCall F sig static pos' kw' := by
  obtain ⟨b, hb, hn, hv⟩ := (C108_bind sig hs pos kw).1 h
  obtain ⟨b', hb', hn', hv'⟩ := (C108_bind sig hs pos' kw').1 h'
  have hlen : b.length = sig.length := by simpa using congrArg List.length hn
  have hlen' : b'.length = sig.length := by simpa using congrArg List.length hn'
  have : b = b' := by
    apply List.ext_getElem (hlen.trans hlen'.symm)
    intro i h1 h2
    have hi : i < sig.length := hlen ▸ h1
    have e1 : (b[i]).1 = (b'[i]).1 := by
      have := congrArg (fun l => l[i]?) (hn.trans hn'.symm)
      simpa [h1, h2] using this
    have e2 : (b[i]).2 = (b'[i]).2 := by
      have := (hv i hi).trans ((he i hi).trans (hv' i hi).symm)
      simpa [h1, h2] using this
    exact Prod.ext e1 e2
  unfold injectCall
  rw [hb, hb', this]

omit [Zero α] [One α] [Add α] [Sub α] [Mul α] [Div α] [Neg α] [JOps α] in
theorem lookup_iff_mem (kw : List (String × ArgVal α β)) (h : (kw.map Prod.fst).Nodup) (k : String) (v : ArgVal α β) :
    kw.lookup k = some v ↔ (k, v) ∈ kw := by
  induction kw with
  | nil => simp
  | cons x kw ih =>
    obtain ⟨a, w⟩ := x
    rw [List.map_cons, List.nodup_cons] at h
    rw [List.lookup_cons, List.mem_cons]
    by_cases hk : k = a
    · subst hk
      simp only [beq_self_eq_true, Option.some.injEq, Prod.mk.injEq, true_and]
      constructor
      · intro e; exact Or.inl e.symm
      · rintro (e | e)
        · exact e.symm
        · exact absurd (List.mem_map_of_mem (f := Prod.fst) e) h.1
    · have h' : (k == a) = false := by simpa using hk
      rw [h', ih h.2]
      simp [hk]

/-- **C108 (by position or by name).** Giving the arguments after the first `pos.length` by name, in any order, instead of by
position builds the very same transformation. -/
theorem C108_call_style (F : Factory α β) (sig : List (SigParam α β)) (hs : (sig.map SigParam.name).Nodup) (static : List String)
    (pos rest : List (ArgVal α β)) (kw kw' : List (String × ArgVal α β)) (hl : LegalCall sig (pos ++ rest) kw)
    (hk : (kw.map Prod.fst).Nodup)
    (hperm : kw'.Perm (((sig.drop pos.length).map SigParam.name).zip rest ++ kw)) :
    injectCall F sig static pos kw' = injectCall F sig static (pos ++ rest) kw := by
  have hfew : pos.length + rest.length ≤ sig.length := by simpa using hl.few
  have hdrop : sig.drop (pos ++ rest).length = (sig.drop pos.length).drop rest.length := by
    rw [List.drop_drop, List.length_append]
  have hkn := hl.known
  have hgi := hl.given
  rw [hdrop] at hkn hgi
  set S := sig.drop pos.length with hS
  have hSl : rest.length ≤ S.length := by rw [hS, List.length_drop]; omega
  have hSn : (S.map SigParam.name).Nodup := hs.sublist ((List.drop_sublist _ _).map _)
  set Z := (S.map SigParam.name).zip rest with hZ
  have hZf : Z.map Prod.fst = (S.take rest.length).map SigParam.name := by
    apply List.ext_getElem
    · simp [hZ, Nat.min_comm]
    · intro i h1 h2; simp [hZ]
  have hsplit : S.map SigParam.name = (S.take rest.length).map SigParam.name ++ (S.drop rest.length).map SigParam.name := by
    rw [← List.map_append, List.take_append_drop]
  have hdis : ∀ k ∈ (S.take rest.length).map SigParam.name, k ∉ (S.drop rest.length).map SigParam.name := by
    rw [hsplit] at hSn
    exact fun k h1 h2 => (List.nodup_append.mp hSn).2.2 k h1 k h2 rfl
  have hnd' : (kw'.map Prod.fst).Nodup := by
    rw [(hperm.map Prod.fst).nodup_iff, List.map_append, List.nodup_append]
    refine ⟨?_, hk, ?_⟩
    · rw [hZf]
      exact hSn.sublist ((List.take_sublist _ _).map _)
    · rintro a ha b hb rfl
      rw [hZf] at ha
      exact hdis a ha (hkn a hb)
  have hmem : ∀ k v, (k, v) ∈ kw' ↔ (k, v) ∈ Z ∨ (k, v) ∈ kw := fun k v => by rw [hperm.mem_iff, List.mem_append]
  have hkey : ∀ k, k ∈ kw'.map Prod.fst ↔ k ∈ (S.take rest.length).map SigParam.name ∨ k ∈ kw.map Prod.fst := fun k => by
    rw [(hperm.map Prod.fst).mem_iff, List.map_append, List.mem_append, hZf]
  apply injectCall_congr F sig hs static _ _ _ _ _ hl
  · intro i hi
    unfold argValue
    by_cases h1 : i < pos.length
    · simp [List.getElem?_append_left h1, h1]
    · have h1' : pos.length ≤ i := Nat.le_of_not_lt h1
      rw [List.getElem?_eq_none h1', Option.none_or, List.getElem?_append_right h1', List.getElem?_eq_getElem hi]
      simp only [Option.bind_some]
      have hSi : i - pos.length < S.length := by rw [hS, List.length_drop]; omega
      have hSe : S[i - pos.length] = sig[i] := by simp only [hS, List.getElem_drop]; congr 1; omega
      by_cases h2 : i - pos.length < rest.length
      · rw [List.getElem?_eq_getElem h2]
        simp only [Option.some_or]
        have : (sig[i].name, rest[i - pos.length]) ∈ Z := by
          rw [hZ, List.mem_iff_getElem]
          refine ⟨i - pos.length, by simp [hSi, h2], ?_⟩
          simp [hSe]
        rw [(lookup_iff_mem kw' hnd' _ _).mpr ((hmem _ _).mpr (Or.inl this))]
        rfl
      · rw [List.getElem?_eq_none (Nat.le_of_not_lt h2), Option.none_or]
        congr 1
        have hno : ∀ v, (sig[i].name, v) ∉ Z := by
          intro v hv
          have h3 := List.mem_map_of_mem (f := Prod.fst) hv
          rw [hZf] at h3
          refine hdis _ h3 ?_
          rw [← hSe]
          apply List.mem_map_of_mem
          rw [List.mem_iff_getElem]
          refine ⟨i - pos.length - rest.length, by rw [List.length_drop]; omega, ?_⟩
          rw [List.getElem_drop]
          congr 1
          omega
        ext v
        rw [lookup_iff_mem kw' hnd', lookup_iff_mem kw hk, hmem]
        simp [hno v]
  · refine ⟨by omega, ?_, ?_⟩
    · intro k hk'
      rw [← hS, hsplit, List.mem_append]
      exact (hkey k).mp hk' |>.imp_right (hkn k)
    · intro p hp
      rw [← hS, ← List.take_append_drop rest.length S, List.mem_append] at hp
      rcases hp with hp | hp
      · exact Or.inl ((hkey _).mpr (Or.inl (List.mem_map_of_mem hp)))
      · exact (hgi p hp).imp_left fun h => (hkey _).mpr (Or.inr h)

/-- **C108 (static names).** A static name that is not a parameter is a ValueError, whatever the arguments; otherwise the call
succeeds exactly when the call is legal, and raises TypeError if not. -/
theorem C108_outcome (F : Factory α β) (sig : List (SigParam α β)) (hs : (sig.map SigParam.name).Nodup) (static : List String)
    (pos : List (ArgVal α β)) (kw : List (String × ArgVal α β)) :
    ((∃ s ∈ static, ∀ p ∈ sig, p.name ≠ s) → injectCall F sig static pos kw = .error .value) ∧
    ((∀ s ∈ static, ∃ p ∈ sig, p.name = s) → ¬ LegalCall sig pos kw → injectCall F sig static pos kw = .error .type) ∧
    ((∀ s ∈ static, ∃ p ∈ sig, p.name = s) → LegalCall sig pos kw → ∃ b, b.map Prod.fst = sig.map SigParam.name ∧
      (∀ i : ℕ, i < sig.length → b[i]?.map Prod.snd = argValue sig pos kw i) ∧
      injectCall F sig static pos kw = .ok (injectHyperparams F static b)) := by
  refine ⟨?_, ?_, ?_⟩
  · rintro ⟨s, h1, h2⟩
    unfold injectCall
    rw [if_neg]
    intro h
    obtain ⟨p, hp, he⟩ := List.mem_map.mp (h s h1)
    exact h2 p hp he
  · intro h hn
    unfold injectCall
    rw [if_pos (fun s hs => List.mem_map.mpr (h s hs)), (C108_bind sig hs pos kw).2 hn]
  · intro h hl
    obtain ⟨b, hb, hn, hv⟩ := (C108_bind sig hs pos kw).1 hl
    refine ⟨b, hn, hv, ?_⟩
    unfold injectCall
    rw [if_pos (fun s hs => List.mem_map.mpr (h s hs)), hb]

/-! ## C109: schedules -/

/-- the body does not read the learning rate -/
def IgnoresLR (body : Factory α β) : Prop :=
  ∀ others hp x, body.init others (hp ++ [("learning_rate", x)]) = body.init others hp ∧
    body.update others (hp ++ [("learning_rate", x)]) = body.update others hp

theorem chain_two_update (A B : GT α) (g : Params α) (a : A.State) (b : B.State) (p : Option (Params α)) :
    (chain [A, B]).update g (some (a, some (b, (0 : ℕ)))) p =
      (A.update g a p >>= fun u => B.update u.1 b p >>= fun w => pure (w.1, some (u.2, some (w.2, (0 : ℕ))))) := by
  rw [C02_chain_step A [B] a (some (b, (0 : ℕ))) rfl]
  refine congrArg _ (funext fun u => ?_)
  have : (chain [B]).update u.1 (some (b, (0 : ℕ))) p = (B.update u.1 b p >>= fun w => pure (w.1, some (w.2, (0 : ℕ)))) := by
    rw [C02_chain_step B [] b (0 : ℕ) rfl]
    rfl
  show ((chain [B]).update u.1 (some (b, (0 : ℕ))) p >>= fun x => pure (x.1, some (u.2, x.2))) = _
  rw [this]
  cases B.update u.1 b p <;> rfl

theorem lrFactory_update (body : Factory α β) (others : List (String × ArgVal α β)) (hp : List (String × α)) (x : α)
    (h : hp.lookup "learning_rate" = some x) (g : Params α) (b : body.State) (p : Option (Params α)) :
    (lrFactory body).update others hp g (some (b, some (⟨⟩, (0 : ℕ)))) p =
      (body.update others hp g b p >>= fun u => pure (tmap (fun y => -x * y) u.1, some (u.2, some (⟨⟩, (0 : ℕ))))) := by
  unfold lrFactory
  simp only [h]
  refine (chain_two_update (body.build others hp) (scaleByLearningRate (.scalar x)) g b ⟨⟩ p).trans ?_
  show (body.update others hp g b p >>= _) = _
  cases body.update others hp g b p <;> rfl

theorem native_update (B : GT α) (f : Schedule α) (g : Params α) (b : B.State) (c : BitVec 32) (p : Option (Params α)) :
    (chain [B, scaleByLearningRate (.schedule f)]).update g (some (b, some (⟨c⟩, (0 : ℕ)))) p =
      (B.update g b p >>= fun u => pure (tmap (fun y => -f c.toInt * y) u.1,
        some (u.2, some (⟨safeInt32Increment c⟩, (0 : ℕ))))) := by
  refine (chain_two_update B (scaleByLearningRate (.schedule f)) g b ⟨c⟩ p).trans ?_
  cases B.update g b p <;> rfl

/-- **C109.** If the learning rate is the only scheduled argument of an alias `chain(body, _scale_by_learning_rate(learning_rate))`,
then injecting the schedule is the native alias with the schedule *shifted by one step*: on every history the same
outputs and errors as `chain(body, _scale_by_learning_rate(n ↦ f(n + 1)))` (the count saturates at `2^31 - 1`). -/
theorem C109_injected_schedule (body : Factory α β) (hbody : IgnoresLR body) (static : List String)
    (args : List (String × ArgVal α β)) (hnd : (args.map Prod.fst).Nodup) (f : Schedule α)
    (hf : (groupArgs static args).sched = [("learning_rate", f)]) :
    (injectHyperparams (lrFactory body) static args).Equiv
      (chain [body.build (groupArgs static args).other (groupArgs static args).numeric,
        scaleByLearningRate (.schedule fun n => f (min (n + 1) 2147483647))]) := by
  have hnd' := (groupArgs_sub static args).resolve_right (not_not.mpr hnd)
  have hgetk : ∀ x : α, ((groupArgs static args).numeric ++ [("learning_rate", x)]).lookup "learning_rate" = some x := by
    intro x
    have hno : ∀ y ∈ (groupArgs static args).numeric, y.1 ≠ "learning_rate" := by
      intro y hy he
      rw [hf] at hnd'
      exact (List.nodup_append.mp hnd').2.2 y.1 (List.mem_map_of_mem hy) "learning_rate" (by simp) he
    generalize (groupArgs static args).numeric = L at hno
    induction L with
    | nil => simp
    | cons y L ih =>
      have h1 : ("learning_rate" == y.1) = false := by simpa using fun e => hno y (by simp) e.symm
      obtain ⟨a, v⟩ := y
      rw [List.cons_append, List.lookup_cons, h1]
      exact ih fun y hy => hno y (by simp [hy])
  have hover : ∀ x y : α, dictUpdate ((groupArgs static args).numeric ++ [("learning_rate", y)]) [("learning_rate", x)] =
      (groupArgs static args).numeric ++ [("learning_rate", x)] := by
    intro x y
    apply dictUpdate_over _ _ _ (by simp)
    rw [hf] at hnd'
    simpa using hnd'
  have hfresh : ∀ x : α, dictUpdate (groupArgs static args).numeric [("learning_rate", x)] =
      (groupArgs static args).numeric ++ [("learning_rate", x)] := by
    intro x
    apply dictUpdate_fresh
    rw [hf] at hnd'
    simpa using hnd'
  have hsched : ∀ c, scheduleFn (groupArgs static args).sched c = [("learning_rate", f c.toInt)] := by
    intro c; rw [hf]; rfl
  apply GT.equiv_of_bisim _ _ (fun (s : InjectState α (Option (body.State × Option (EmptyState × ℕ)))) s' =>
    ∃ (b : body.State) (y : α) (n : ℕ), s.hyperparams = (groupArgs static args).numeric ++ [("learning_rate", y)] ∧
    s.inner = some (b, some (⟨⟩, (0 : ℕ))) ∧ s' = some (b, some (⟨s.count⟩, (0 : ℕ))) ∧ s.count = cntAt n)
  · intro p
    show Res.Rel _ ((lrFactory body).init (groupArgs static args).other (dictUpdate (groupArgs static args).numeric
      (scheduleFn (groupArgs static args).sched 0#32)) p >>= fun inner => pure _) _
    rw [hsched, hfresh]
    simp only [lrFactory, hgetk]
    show Res.Rel _ ((chainInit [_, _] p) >>= _) (chainInit [_, _] p)
    simp only [chainInit]
    show Res.Rel _ (((body.init _ (_ ++ [("learning_rate", _)]) p) >>= _) >>= _) (body.init _ _ p >>= _)
    rw [(hbody _ _ _).1]
    cases hb : body.init (groupArgs static args).other (groupArgs static args).numeric p with
    | error e => rfl
    | ok b => exact ⟨b, _, 0, rfl, rfl, rfl, rfl⟩
  · rintro g s s' p ⟨b, y, n, h1, h2, rfl, hc⟩
    show Res.Rel _ ((lrFactory body).update (groupArgs static args).other (dictUpdate s.hyperparams
      (scheduleFn (groupArgs static args).sched (safeInt32Increment s.count))) g s.inner p >>= fun r => pure _) _
    rw [hsched, h1, hover, h2]
    rw [lrFactory_update body _ _ _ (hgetk _)]
    refine Eq.mp (congrArg (Res.Rel _ _) (native_update (body.build (groupArgs static args).other (groupArgs static args).numeric)
      (fun n => f (min (n + 1) 2147483647)) g b s.count p).symm) ?_
    show Res.Rel _ ((body.update _ (_ ++ [("learning_rate", _)]) g b p >>= _) >>= _) (body.update _ _ g b p >>= _)
    rw [(hbody _ _ _).2]
    have hcount : (safeInt32Increment s.count).toInt = min (s.count.toInt + 1) 2147483647 := by
      rw [hc, safeInt32Increment_cntAt, cntAt_toInt, cntAt_toInt]
      push_cast
      omega
    cases hb : body.update (groupArgs static args).other (groupArgs static args).numeric g b p with
    | error e => rfl
    | ok u =>
      refine ⟨?_, u.2, _, n + 1, rfl, rfl, rfl, ?_⟩
      · show tmap _ u.1 = tmap _ u.1
        rw [hcount]
      · show safeInt32Increment s.count = _
        rw [hc, safeInt32Increment_cntAt]

end

/-! ## `adam` -/

section
variable {β : Type}

theorem hpGet_append (hp : List (String × ℝ)) (k k' : String) (x : ℝ) (h : k ≠ k') : hpGet (hp ++ [(k', x)]) k = hpGet hp k := by
  unfold hpGet
  have : (hp ++ [(k', x)]).lookup k = hp.lookup k := by
    induction hp with
    | nil => have h' : (k == k') = false := by simpa using h
             simp [List.lookup_cons, h']
    | cons y hp ih =>
      obtain ⟨a, v⟩ := y
      rw [List.cons_append, List.lookup_cons, List.lookup_cons, ih]
  rw [this]

theorem adamBody_ignoresLR : IgnoresLR (adamBody : Factory ℝ β) := by
  intro others hp x
  constructor
  · funext p
    simp only [adamBody, hpGet_append _ _ "learning_rate" x (show "b1" ≠ "learning_rate" by decide),
      hpGet_append _ _ "learning_rate" x (show "b2" ≠ "learning_rate" by decide),
      hpGet_append _ _ "learning_rate" x (show "eps" ≠ "learning_rate" by decide),
      hpGet_append _ _ "learning_rate" x (show "eps_root" ≠ "learning_rate" by decide)]
  · funext g s p
    simp only [adamBody, hpGet_append _ _ "learning_rate" x (show "b1" ≠ "learning_rate" by decide),
      hpGet_append _ _ "learning_rate" x (show "b2" ≠ "learning_rate" by decide),
      hpGet_append _ _ "learning_rate" x (show "eps" ≠ "learning_rate" by decide),
      hpGet_append _ _ "learning_rate" x (show "eps_root" ≠ "learning_rate" by decide)]

/-- **C108/C109 (adam).** `inject_hyperparams(adam)(f, b2=b2)` for a schedule `f` succeeds, and the transformation is
`adam(n ↦ f(n + 1), b1=0.9, b2=b2, eps=1e-8, eps_root=0)`: the other parameters have their documented defaults. -/
theorem C109_adam (f : Schedule ℝ) (b2 : ℝ) :
    ∃ t, injectCall (lrFactory adamBody : Factory ℝ β) adamSig [] [.callable f] [("b2", .numeric b2)] = .ok t ∧
      t.Equiv (adam (.schedule fun n => f (min (n + 1) 2147483647)) (9 / 10) b2 (1 / 10 ^ 8) 0) := by
  have hb : bindArgs (adamSig : List (SigParam ℝ β)) [.callable f] [("b2", .numeric b2)] = .ok [("learning_rate", .callable f),
      ("b1", .numeric (JOps.ofRat (9 / 10))), ("b2", .numeric b2), ("eps", .numeric (JOps.ofRat (1 / 10 ^ 8))),
      ("eps_root", .numeric 0)] := by
    simp [bindArgs, adamSig, Res.pure_eq]
    rfl
  refine ⟨_, by unfold injectCall; rw [if_pos (by simp), hb], ?_⟩
  have h := C109_injected_schedule (adamBody : Factory ℝ β) adamBody_ignoresLR [] [("learning_rate", .callable f),
      ("b1", .numeric (JOps.ofRat (9 / 10))), ("b2", .numeric b2), ("eps", .numeric (JOps.ofRat (1 / 10 ^ 8))),
      ("eps_root", .numeric 0)] (by simp) f rfl
  have e1 : (JOps.ofRat (9 / 10) : ℝ) = 9 / 10 := by simp
  have e2 : (JOps.ofRat (1 / 10 ^ 8) : ℝ) = 1 / 10 ^ 8 := by simp
  rw [e1, e2] at h ⊢
  exact h

/-- without schedules: `inject_hyperparams(adam)(lr)` is `adam(lr)` with the documented defaults -/
theorem C108_adam (lr : ℝ) :
    ∃ t, injectCall (lrFactory adamBody : Factory ℝ β) adamSig [] [.numeric lr] [] = .ok t ∧
      t.Equiv (adam (.scalar lr) (9 / 10) (999 / 1000) (1 / 10 ^ 8) 0) := by
  have hb : bindArgs (adamSig : List (SigParam ℝ β)) [.numeric lr] [] = .ok [("learning_rate", .numeric lr),
      ("b1", .numeric (JOps.ofRat (9 / 10))), ("b2", .numeric (JOps.ofRat (999 / 1000))),
      ("eps", .numeric (JOps.ofRat (1 / 10 ^ 8))), ("eps_root", .numeric 0)] := by
    simp [bindArgs, adamSig, Res.pure_eq]
  refine ⟨_, by unfold injectCall; rw [if_pos (by simp), hb], ?_⟩
  have h := C48_constant (lrFactory adamBody : Factory ℝ β) [] [("learning_rate", .numeric lr),
      ("b1", .numeric (JOps.ofRat (9 / 10))), ("b2", .numeric (JOps.ofRat (999 / 1000))),
      ("eps", .numeric (JOps.ofRat (1 / 10 ^ 8))), ("eps_root", .numeric 0)] (by simp) (by simp [groupArgs])
  have e1 : (JOps.ofRat (9 / 10) : ℝ) = 9 / 10 := by simp
  have e2 : (JOps.ofRat (1 / 10 ^ 8) : ℝ) = 1 / 10 ^ 8 := by simp
  have e3 : (JOps.ofRat (999 / 1000) : ℝ) = 999 / 1000 := by simp
  rw [e1, e2, e3] at h ⊢
  exact h

/-- `sgd` without momentum as a factory: its first stage is `identity()` -/
def sgdBody : Factory ℝ β where
  State := EmptyState
  init _ _ p := identity.init p
  update _ _ g s p := identity.update g s p

/-- **C109 (they differ).** So whenever `f(0) ≠ f(1)`, `inject_hyperparams(sgd)(learning_rate=f)` is not `sgd(f)`: the very first
update already uses `f(1)`, and `f(0)` is never used. -/
theorem C109_differs (f : Schedule ℝ) (h01 : f 0 ≠ f 1) :
    ¬ (injectHyperparams (lrFactory sgdBody : Factory ℝ β) [] [("learning_rate", .callable f)]).Equiv (sgd (.schedule f) none false) := by
  intro he
  have h := C109_injected_schedule (sgdBody : Factory ℝ β) (fun _ _ _ => ⟨rfl, rfl⟩) [] [("learning_rate", .callable f)] (by simp) f rfl
  set g : Params ℝ := mk (.leaf []) (fun _ _ => 1) with hg
  have h1 := (he g [(g, none)]).symm.trans (h g [(g, none)])
  have e : ∀ φ : Schedule ℝ, (chain [identity, scaleByLearningRate (.schedule φ)]).outs g [(g, none)] =
      .ok [tmap (fun y => -φ 0 * y) g] := fun φ => rfl
  have h2 : (.ok [tmap (fun y => -f 0 * y) g] : Res (List (Params ℝ))) = .ok [tmap (fun y => -f 1 * y) g] :=
    (e f).symm.trans (h1.trans (e _))
  simp only [Except.ok.injEq, List.cons.injEq, and_true, hg, tmap_mk] at h2
  have h3 := congrArg (fun t => coord t 0 0) h2
  rw [coord_mk (.leaf []) _ 0 0 [] rfl (by simp), coord_mk (.leaf []) _ 0 0 [] rfl (by simp)] at h3
  apply h01
  linarith

/-- a legal call and illegal ones: too many arguments, one given twice, an unknown name, none at all -/
example (x y : ArgVal ℝ β) : LegalCall (adamSig : List (SigParam ℝ β)) [x] [("eps", y), ("b1", x)] ∧
    ¬ LegalCall (adamSig : List (SigParam ℝ β)) [x, x, x, x, x, x] [] ∧
    ¬ LegalCall (adamSig : List (SigParam ℝ β)) [x, y] [("b1", y)] ∧
    ¬ LegalCall (adamSig : List (SigParam ℝ β)) [x] [("momentum", y)] ∧ ¬ LegalCall (adamSig : List (SigParam ℝ β)) [] [] := by
  refine ⟨⟨by simp [adamSig], by simp [adamSig], by simp [adamSig]⟩, fun h => ?_, fun h => ?_, fun h => ?_, fun h => ?_⟩
  · simpa [adamSig] using h.few
  · simpa [adamSig] using h.known "b1" (by simp)
  · simpa [adamSig] using h.known "momentum" (by simp)
  · simpa using h.given ⟨"learning_rate", none⟩ (by simp [adamSig])

/-- `adam(x, b1, b2)` and `adam(x, b2=b2, b1=b1)` -/
example (F : Factory ℝ β) (x b1 b2 : ArgVal ℝ β) :
    injectCall F adamSig ["eps"] [x] [("b2", b2), ("b1", b1)] = injectCall F adamSig ["eps"] [x, b1, b2] [] :=
  C108_call_style F adamSig (by simp [adamSig]) ["eps"] [x] [b1, b2] [] _
    ⟨by simp [adamSig], by simp, by simp [adamSig]⟩ (by simp) (List.Perm.swap _ _ _)

/-- **C108** (limit). A factory of an alias called without a learning rate (none injected, none given) is a TypeError, at `init` and
at every update. -/
theorem C108_missing_learning_rate {α β : Type} [Zero α] [One α] [Add α] [Sub α] [Mul α] [Div α] [Neg α] [JOps α] (body : Factory α β) (others : List (String × ArgVal α β)) (hp : List (String × α))
    (h : hp.lookup "learning_rate" = none) (p g : Params α) (s) (q : Option (Params α)) :
    (lrFactory body).init others hp p = .error .type ∧ (lrFactory body).update others hp g s q = .error .type := by
  unfold lrFactory
  simp only [h, and_self]

end
end Optax
