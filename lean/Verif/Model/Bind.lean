import Verif.Model.Schedule
import Verif.Model.Alias

/-!
# Model of the call of a wrapped factory: `inject_hyperparams(inner_factory, static_args)(*args, **kwargs)`

The binding of arguments to parameters is python's (`inspect.Signature.bind` and `apply_defaults`), modelled for signatures
whose parameters can all be given by position or by name (every alias and every transformation of optax except `chain`).
-/

namespace Optax

section
variable {α β : Type}

/-- a parameter of `inner_signature.parameters` (`schedule.py:555`): its name and default value, if any -/
structure SigParam (α β : Type) where
  name : String
  default : Option (ArgVal α β)

/-- `inner_signature.bind(*args, **kwargs)` and `apply_defaults()` (`schedule.py:565-566`): TypeError if there are too many
positional arguments, if an argument is given twice, is missing, or has an unknown name. Parameters are filled from
left to right. -/
def bindArgs : List (SigParam α β) → List (ArgVal α β) → List (String × ArgVal α β) → Res (List (String × ArgVal α β))
  | [], [], [] => .ok []
  | [], [], _ :: _ => .error .type
  | [], _ :: _, _ => .error .type
  | p :: ps, v :: pos, kw =>
    if p.name ∈ kw.map Prod.fst then .error .type
    else do
      let rest ← bindArgs ps pos kw
      return (p.name, v) :: rest
  | p :: ps, [], kw =>
    match kw.lookup p.name with
    | some v => do
      let rest ← bindArgs ps [] (kw.filter (fun x => x.1 ≠ p.name))
      return (p.name, v) :: rest
    | none =>
      match p.default with
      | some d => do
        let rest ← bindArgs ps [] kw
        return (p.name, d) :: rest
      | none => .error .type

variable [Zero α] [One α] [Add α] [Sub α] [Mul α] [Div α] [Neg α] [JOps α]

/-- the whole call (`schedule.py:553-607`): `static_args` must be names of parameters (ValueError), then the arguments are
bound, then the transformation is built. A string `static_args` is the singleton. -/
def injectCall (F : Factory α β) (sig : List (SigParam α β)) (static : List String) (pos : List (ArgVal α β))
    (kw : List (String × ArgVal α β)) : Except Err (GT α) :=
  if ∀ s ∈ static, s ∈ sig.map SigParam.name then
    match bindArgs sig pos kw with
    | .ok b => .ok (injectHyperparams F static b)
    | .error e => .error e
  else .error .value

/-- the factory of an alias `chain(body, _scale_by_learning_rate(learning_rate))` called with the injected hyperparameters
(`schedule.py:590`, `:599`); the body is a factory itself and does not read the learning rate. A missing learning rate is a
TypeError of the call. -/
def lrFactory (body : Factory α β) : Factory α β where
  State := Option (body.State × Option (EmptyState × ℕ))
  init others hp p :=
    match hp.lookup "learning_rate" with
    | some x => (chain [body.build others hp, scaleByLearningRate (.scalar x)]).init p
    | none => .error .type
  update others hp g s p :=
    match hp.lookup "learning_rate" with
    | some x => (chain [body.build others hp, scaleByLearningRate (.scalar x)]).update g s p
    | none => .error .type

/-- the numeric hyperparameter `k` of the call -/
def hpGet (hp : List (String × α)) (k : String) : Res α :=
  match hp.lookup k with
  | some x => .ok x
  | none => .error .type

/-- the first stage of `adam` (`alias.py:102-134`) as a factory -/
def adamBody : Factory α β where
  State := AdamState α
  init _ hp p := do
    let b1 ← hpGet hp "b1"
    let b2 ← hpGet hp "b2"
    let eps ← hpGet hp "eps"
    let epsRoot ← hpGet hp "eps_root"
    (scaleByAdam b1 b2 eps epsRoot).init p
  update _ hp g s p := do
    let b1 ← hpGet hp "b1"
    let b2 ← hpGet hp "b2"
    let eps ← hpGet hp "eps"
    let epsRoot ← hpGet hp "eps_root"
    (scaleByAdam b1 b2 eps epsRoot).update g s p

/-- the signature of `adam` (`alias.py:102-108`) -/
def adamSig : List (SigParam α β) :=
  [⟨"learning_rate", none⟩, ⟨"b1", some (.numeric (JOps.ofRat (9 / 10)))⟩, ⟨"b2", some (.numeric (JOps.ofRat (999 / 1000)))⟩,
    ⟨"eps", some (.numeric (JOps.ofRat (1 / 10 ^ 8)))⟩, ⟨"eps_root", some (.numeric 0)⟩]

end
end Optax
