import Verif.Model.Alias
import Verif.Model.Wrappers
import Verif.Model.Loss

/-!
# `examples/`: `datasets.py`, `lookahead_mnist.py`, `haiku_example.py`; `test_utils.py`

Not modelled: tensorflow and haiku.  `tfds.load` yields a list of elements, `Dataset.shuffle` some reordering of it, the
network is a function from params and a batch of images to logits, `jax.grad(get_loss)` a function from params and a batch to a tree.
-/

namespace Optax.Examples

section
variable {α : Type} [Zero α] [One α] [Add α] [Sub α] [Mul α] [Div α] [Neg α] [JOps α]

/-! ## `datasets.py` -/

/-- an element of an image data set: unsigned 8 bit pixels and an integer label -/
structure Element where
  image : Tensor (BitVec 8)
  label : ℤ

/-- `tf.one_hot(label, num_labels)`: all zeros if the label is out of range -/
def oneHot (numLabels : ℕ) (label : ℤ) : Tensor α := Tensor.tens [numLabels] fun j => if (j : ℤ) = label then 1 else 0

/-- `_preprocess_image_dataset` (`examples/datasets.py:26-31`): pixels to `[0,1]`, one-hot label -/
def preprocess (numLabels : ℕ) (e : Element) : Tensor α × Tensor α :=
  (e.image.map fun b => JOps.ofInt (b.toNat : ℤ) / JOps.ofInt 255, oneHot numLabels e.label)

/-- `max_label = dataset.reduce(0, max)`, `num_labels = int(max_label) + 1` (`examples/datasets.py:56-58`); the maximum starts from 0, so
it is not negative -/
def numLabels (ds : List Element) : ℕ := (ds.foldl (fun m e => max m e.label) (0 : ℤ)).toNat + 1

/-- `Dataset.batch(n)` on elements: consecutive groups of `n`, the last one possibly smaller (`drop_remainder=False`) -/
def groups {β : Type} (n : ℕ) (l : List β) : List (List β) :=
  match l with
  | [] => []
  | x :: xs => (x :: xs.take (n - 1)) :: groups n (xs.drop (n - 1))
termination_by l.length
decreasing_by simp

/-- stacking the tensors of a group along a new first axis: they must have equal shapes -/
def stack (ts : List (Tensor α)) : Res (Tensor α) :=
  match ts with
  | [] => valueError
  | t :: rest => if rest.all (fun t' => t'.shape == t.shape) then .ok ⟨ts.length :: t.shape, (ts.map (·.data)).flatten⟩ else valueError

/-- a batch: `{'image': …, 'label': …}` -/
structure Batch (α : Type) where
  image : Tensor α
  label : Tensor α

/-- one batch from a group of pre-processed elements -/
def makeBatch (l : List (Tensor α × Tensor α)) : Res (Batch α) := do
  let images ← stack (l.map (·.1))
  let labels ← stack (l.map (·.2))
  return ⟨images, labels⟩

/-- `load_image_dataset` (`examples/datasets.py:34-64`); `ds` is what `tfds.load` yields, `shuffled` the order in which the shuffle buffer
releases the elements (the identity without `shuffle`).  A batch size below 1 is an error (raised by tensorflow). -/
def loadImageDataset (shuffled : List (Tensor α × Tensor α) → List (Tensor α × Tensor α)) (batchSize : ℤ) (ds : List Element) : Res (List (Batch α)) :=
  if batchSize < 1 then valueError
  else (groups batchSize.toNat (shuffled (ds.map (preprocess (numLabels ds))))).mapM makeBatch

/-! ## `lookahead_mnist.py` -/

/-- `jnp.argmax` along a row after the first entry: a later entry replaces the best one if it is larger (or the first NaN) -/
def argmaxGo : List α → ℕ → ℕ → α → ℕ
  | [], _, b, _ => b
  | x :: l, n, b, m => if JOps.lt m x || (JOps.isnan x && !JOps.isnan m) then argmaxGo l (n + 1) n x else argmaxGo l (n + 1) b m

/-- `jnp.argmax` of a row (jax, not part of the repository) -/
def argmaxRow : List α → ℕ
  | [] => 0
  | x :: l => argmaxGo l 1 0 x

/-- `jnp.argmax(x, axis=-1)`; ValueError on an empty axis -/
def argmaxLast (t : Tensor α) : Res (Tensor ℕ) := do
  let k ← t.lastDim
  if k = 0 then valueError
  else return Tensor.tens t.shape.dropLast fun r => argmaxRow (t.lastRow k r)

/-- `jnp.mean` of all entries -/
def meanAll (t : Tensor α) : α := t.data.sum / JOps.ofInt t.data.length

/-- `categorical_crossentropy` (`examples/lookahead_mnist.py:43-46`), for arrays of rank 2 (batch, class) as in the example; other ranks are an
error here (`axis=1`). -/
def categoricalCrossentropy (logits labels : Tensor α) : Res α := do
  let ls ← logSoftmax logits
  let prod ← Tensor.bop (fun y l => y * l) labels ls
  if prod.shape.length ≠ 2 then valueError
  else
    let s ← prod.reduceLast List.sum
    return meanAll (s.map fun x => -x)

/-- `accuracy` (`examples/lookahead_mnist.py:49-51`) -/
def accuracy (logits labels : Tensor α) : Res α := do
  let predictions ← argmaxLast logits
  let truth ← argmaxLast labels
  let eq ← Tensor.bop (fun a b => if a = b then (1 : α) else 0) truth predictions
  return meanAll eq

/-- `batch['image'].shape[0]`: IndexError on rank 0 -/
def batchLen (t : Tensor α) : Res ℕ :=
  match t.shape with
  | [] => .error .index
  | n :: _ => .ok n

/-- the loop of `model_accuracy` (`examples/lookahead_mnist.py:58-64`) -/
def accuracyLoop (model : Tensor α → Res (Tensor α)) : α → ℕ → List (Batch α) → Res (α × ℕ)
  | s, n, [] => .ok (s, n)
  | s, n, b :: bs => do
    let size ← batchLen b.image
    let logits ← model b.image
    let a ← accuracy logits b.label
    accuracyLoop model (s + a * JOps.ofInt size) (n + size) bs

/-- `model_accuracy` (`examples/lookahead_mnist.py:54-66`); without batches `0 / 0` of python integers raises ZeroDivisionError -/
def modelAccuracy (model : Tensor α → Res (Tensor α)) (batches : List (Batch α)) : Res α := do
  let r ← accuracyLoop model 0 0 batches
  if batches.isEmpty then .error .zeroDiv else return r.1 / JOps.ofInt r.2

/-- the fast optimiser of `main` (`examples/lookahead_mnist.py:93`): `adam(learning_rate)` with its default arguments -/
@[reducible] def fastOptimizer (lr : α) : GT α :=
  adam (.scalar lr) (JOps.ofRat (9 / 10)) (JOps.ofRat (999 / 1000)) (JOps.ofRat (1 / 100000000)) 0

/-- `train_step` (`examples/lookahead_mnist.py:102-105`); the gradient of the loss is taken at `params.fast` -/
def trainStep (opt : GT α) (gradLoss : Params α → Batch α → Res (Params α)) (ps : Params α × opt.State) (b : Batch α) : Res (Params α × opt.State) := do
  let fs ← lookaheadArgs (some ps.1)
  let grads ← gradLoss fs.1 b
  let us ← opt.update grads ps.2 (some ps.1)
  let p ← applyUpdates ps.1 us.1
  return (p, us.2)

/-- one epoch of training -/
def epoch (opt : GT α) (gradLoss : Params α → Batch α → Res (Params α)) (ps : Params α × opt.State) (bs : List (Batch α)) : Res (Params α × opt.State) :=
  bs.foldlM (trainStep opt gradLoss) ps

/-- the training loop of `main` (`examples/lookahead_mnist.py:119-126`): returns the accuracies printed.  `data` holds for each epoch the training
batches and the test batches as the iterators yield them. -/
def mnistLoop (opt : GT α) (gradLoss : Params α → Batch α → Res (Params α)) (apply : Params α → Tensor α → Res (Tensor α)) :
    Params α × opt.State → List (List (Batch α) × List (Batch α)) → Res (List α)
  | _, [] => .ok []
  | ps, (train, test) :: rest => do
    let ps' ← epoch opt gradLoss ps train
    let fs ← lookaheadArgs (some ps'.1)
    let acc ← modelAccuracy (apply fs.2) test
    let accs ← mnistLoop opt gradLoss apply ps' rest
    return acc :: accs

/-- `main` (`examples/lookahead_mnist.py:83-126`) from the initial params of the network on -/
def mnistMain (lr slow : α) (sync : ℤ) (gradLoss : Params α → Batch α → Res (Params α)) (apply : Params α → Tensor α → Res (Tensor α))
    (initial : Params α) (data : List (List (Batch α) × List (Batch α))) : Res (List α) :=
  match lookaheadCall (fastOptimizer lr) sync slow none with
  | .error e => .error e
  | .ok opt => do
    let s ← opt.init (initSynced initial)
    mnistLoop opt gradLoss apply (initSynced initial, s) data

/-! ## `haiku_example.py` -/

/-- the optimiser of `main` (`examples/haiku_example.py:51-56`) -/
@[reducible] def haikuOptimizer (lr : α) : GT α :=
  chain [scaleByAdam (JOps.ofRat (9 / 10)) (JOps.ofRat (999 / 1000)) (JOps.ofRat (1 / 100000000)) 0, scale (-lr)]

end

/-! ## `test_utils.py` -/

/-- The modules python sees: an attribute graph.  `attrs m` are the modules among the attributes of `m` (`dir`, `getattr`,
`inspect.ismodule`), `public m` says that the name of `m` starts with `optax` and does not contain `_src`. -/
structure Modules (M : Type) where
  attrs : M → List M
  isPublic : M → Bool

/-- the inner loop of `find_internal_python_modules` (`test_utils.py:34-40`) over the attributes of one module -/
def scanAttrs {M : Type} [DecidableEq M] (G : Modules M) (visited : Finset M) (obj : List M) (toVisit : List M) (found : Finset M) : List M × Finset M :=
  obj.foldl (fun a o => if o ∉ visited ∧ G.isPublic o = true then (o :: a.1, insert o a.2) else a) (toVisit, found)

/-- the `while` loop of `find_internal_python_modules` (`test_utils.py:30-40`) with fuel; `none`: the fuel was not enough.  `toVisit` is a stack
(`append` and `pop` at the end of the list; here at its head). -/
def findLoop {M : Type} [DecidableEq M] (G : Modules M) : ℕ → List M → Finset M → Finset M → Option (Finset M)
  | _, [], _, found => some found
  | 0, _ :: _, _, _ => none
  | fuel + 1, m :: toVisit, visited, found =>
    let visited' := insert m visited
    let r := scanAttrs G visited' (G.attrs m) toVisit found
    findLoop G fuel r.1 visited' r.2

/-- `find_internal_python_modules` (`test_utils.py:22-42`) before the final `sorted`: the set of modules found from `root` -/
def findModules {M : Type} [DecidableEq M] (G : Modules M) (fuel : ℕ) (root : M) : Option (Finset M) :=
  findLoop G fuel [root] ∅ {root}

end Optax.Examples
