import Verif.Model.Alias

/-!
# `alias.py`: the optimisers called with their default hyper-parameters

The defaults are the literals of the signatures, read as exact rational numbers (`JOps.ofRat`).
-/

namespace Optax

section
variable {α : Type} [Zero α] [One α] [Add α] [Sub α] [Mul α] [Div α] [Neg α] [JOps α]

/-- `adabelief(lr)` (`alias.py:36-40`) -/
@[reducible] def adabeliefD (lr : LR α) : GT α :=
  adabelief lr (JOps.ofRat (9 / 10)) (JOps.ofRat (999 / 1000)) (JOps.ofRat (1 / 10 ^ 8))

/-- `adagrad(lr)` (`alias.py:69-73`) -/
@[reducible] def adagradD (lr : LR α) : GT α := adagrad lr (JOps.ofRat (1 / 10)) (JOps.ofRat (1 / 10 ^ 7))

/-- `adam(lr)` (`alias.py:102-108`) -/
@[reducible] def adamD (lr : LR α) : GT α :=
  adam lr (JOps.ofRat (9 / 10)) (JOps.ofRat (999 / 1000)) (JOps.ofRat (1 / 10 ^ 8)) 0

/-- `adamw(lr)` (`alias.py:137-144`) -/
@[reducible] def adamwD (lr : LR α) : GT α :=
  adamw lr (JOps.ofRat (9 / 10)) (JOps.ofRat (999 / 1000)) (JOps.ofRat (1 / 10 ^ 8)) 0 (JOps.ofRat (1 / 10 ^ 4))

/-- `lamb(lr)` (`alias.py:212-219`) -/
@[reducible] def lambD (lr : LR α) : GT α :=
  lamb lr (JOps.ofRat (9 / 10)) (JOps.ofRat (999 / 1000)) (JOps.ofRat (1 / 10 ^ 6)) 0 0

/-- `fromage(lr)` (`alias.py:180-183`) -/
@[reducible] def fromageD (lr : α) : GT α := fromage lr (JOps.ofRat (1 / 10 ^ 6))

/-- `radam(lr)` (`alias.py:283-290`) -/
@[reducible] def radamD (lr : LR α) : GT α :=
  radam lr (JOps.ofRat (9 / 10)) (JOps.ofRat (999 / 1000)) (JOps.ofRat (1 / 10 ^ 8)) 0 (JOps.ofRat 5)

/-- `rmsprop(lr, centered=c)` (`alias.py:322-330`) -/
@[reducible] def rmspropD (centered : Bool) (lr : LR α) : GT α :=
  rmsprop lr (JOps.ofRat (9 / 10)) (JOps.ofRat (1 / 10 ^ 8)) 0 centered none false

/-- `sgd(lr)` (`alias.py:377-381`) -/
@[reducible] def sgdD (lr : LR α) : GT α := sgd lr none false

/-- `sm3(lr)` (`alias.py:407-410`) -/
@[reducible] def sm3D (lr : α) : GT α := sm3 lr (JOps.ofRat (9 / 10))

/-- `yogi(lr)` (`alias.py:439-444`) -/
@[reducible] def yogiD (lr : LR α) : GT α :=
  yogi lr (JOps.ofRat (9 / 10)) (JOps.ofRat (999 / 1000)) (JOps.ofRat (1 / 10 ^ 3))

end
end Optax
