import Verif.Model.Privacy

/-!
# `alias.py`
-/

namespace Optax

section
variable {α : Type} [Zero α] [One α] [Add α] [Sub α] [Mul α] [Div α] [Neg α] [JOps α]

/-- `ScalarOrSchedule` (`alias.py:27`) -/
inductive LR (α : Type) where
  | scalar (x : α)
  | schedule (f : Schedule α)

/-- `_scale_by_learning_rate` (`alias.py:30-33`). -/
@[reducible] def scaleByLearningRate : LR α → GT α
  | .scalar x => scale (-x)
  | .schedule f => scaleBySchedule (fun count => -f count)

/-- `trace(...) if momentum is not None else identity()` (`alias.py:365-366`, `:372-373`, `:401-402`, `:511-512`) -/
@[reducible] def momentumOrIdentity (momentum : Option α) (nesterov : Bool) : GT α :=
  match momentum with
  | some m => trace m nesterov none
  | none => identity

/-- `adabelief` (`alias.py:36-66`).  `eps_root` is the default of `scale_by_belief`. -/
@[reducible] def adabelief (lr : LR α) (b1 b2 eps : α) : GT α :=
  chain [scaleByBelief b1 b2 eps (JOps.ofRat (1 / 10 ^ 16)), scaleByLearningRate lr]

/-- `adagrad` (`alias.py:69-99`). -/
@[reducible] def adagrad (lr : LR α) (init eps : α) : GT α :=
  chain [scaleByRss init eps, scaleByLearningRate lr]

/-- `adam` (`alias.py:102-134`). -/
@[reducible] def adam (lr : LR α) (b1 b2 eps epsRoot : α) : GT α :=
  chain [scaleByAdam b1 b2 eps epsRoot, scaleByLearningRate lr]

/-- `adamw` (`alias.py:137-177`); `additive_weight_decay` is `add_decayed_weights` (`transform.py:515`). -/
@[reducible] def adamw (lr : LR α) (b1 b2 eps epsRoot weightDecay : α) : GT α :=
  chain [scaleByAdam b1 b2 eps epsRoot, addDecayedWeights weightDecay, scaleByLearningRate lr]

/-- `fromage` (`alias.py:180-209`). -/
@[reducible] def fromage (lr minNorm : α) : GT α :=
  let mult := 1 / JOps.sqrt (1 + lr * lr)
  chain [scaleByTrustRatio minNorm, scaleByLearningRate (.scalar (lr * mult)), addDecayedWeights (mult - 1)]

/-- `lamb` (`alias.py:212-250`). -/
@[reducible] def lamb (lr : LR α) (b1 b2 eps epsRoot weightDecay : α) : GT α :=
  chain [scaleByAdam b1 b2 eps epsRoot, addDecayedWeights weightDecay, scaleByTrustRatio 0, scaleByLearningRate lr]

/-- `noisy_sgd` (`alias.py:253-280`). -/
@[reducible] def noisySgd (normal : Normal α) (lr : LR α) (eta gamma : α) (seed : ℤ) : GT α :=
  chain [scaleByLearningRate lr, addNoise normal eta gamma seed]

/-- `radam` (`alias.py:283-319`). -/
@[reducible] def radam (lr : LR α) (b1 b2 eps epsRoot threshold : α) : GT α :=
  chain [scaleByRadam b1 b2 eps epsRoot threshold, scaleByLearningRate lr]

/-- `rmsprop` (`alias.py:322-374`). -/
@[reducible] def rmsprop (lr : LR α) (decay eps initialScale : α) (centered : Bool) (momentum : Option α)
    (nesterov : Bool) : GT α :=
  if centered then
    chain [scaleByStddev decay eps initialScale, scaleByLearningRate lr, momentumOrIdentity momentum nesterov]
  else chain [scaleByRms decay eps initialScale, scaleByLearningRate lr, momentumOrIdentity momentum nesterov]

/-- `sgd` (`alias.py:377-404`). -/
@[reducible] def sgd (lr : LR α) (momentum : Option α) (nesterov : Bool) : GT α :=
  chain [momentumOrIdentity momentum nesterov, scaleByLearningRate lr]

/-- `sm3` (`alias.py:407-436`).  `eps` is the default of `scale_by_sm3`. -/
@[reducible] def sm3 (lr b1 : α) : GT α :=
  chain [scaleBySM3 b1 1 (JOps.ofRat (1 / 10 ^ 8)), scale (-lr)]

/-- `yogi` (`alias.py:439-469`). -/
@[reducible] def yogi (lr : LR α) (b1 b2 eps : α) : GT α :=
  chain [scaleByYogi b1 b2 eps 0 (JOps.ofRat (1 / 10 ^ 6)), scaleByLearningRate lr]

/-- `dpsgd` (`alias.py:472-514`). -/
@[reducible] def dpsgd (normal : Normal α) (lr : LR α) (l2NormClip noiseMultiplier : α) (seed : ℤ)
    (momentum : Option α) (nesterov : Bool) : GT α :=
  chain [dpAggregate normal l2NormClip noiseMultiplier seed, momentumOrIdentity momentum nesterov, scaleByLearningRate lr]

end
end Optax
