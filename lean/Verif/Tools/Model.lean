import Verif.Gp2Scale.Model
import Verif.GP.DtypeModel
import Mathlib.LinearAlgebra.Matrix.PosDef

/-!
Model of small helpers of the user interface: the prediction grids `make_1d_x_pred` and `make_2d_x_pred` (gp.py:2153-2197), the time estimate
`get_gp2Scale_exec_time` (gp.py:2199-2219) and the deep kernel networks of deep_kernel_network.py.
-/

namespace Verif.Tools

open Verif.GP

/-- `np.linspace(a, b, num)` (numpy documentation: `num` evenly spaced numbers, both ends included; `[a]` for `num = 1`; `ValueError` for a
negative `num`). -/
noncomputable def linspace (a b : ℝ) (num : ℤ) : Except String (List ℝ) :=
  if num < 0 then .error "Number of samples must be non-negative."
  else .ok ((List.range num.toNat).map fun (i : ℕ) => a + i * ((b - a) / ((num : ℝ) - 1)))

/-- `make_1d_x_pred(b, res)`, gp.py:2179-2197: the rows of the array. `reshape(res, -1)` of an empty array raises for `res = 0`. -/
noncomputable def make1d (lo hi : ℝ) (res : ℤ) : Except String (List (List ℝ)) := do
  let x ← linspace lo hi res
  if res = 0 then .error "cannot reshape array of size 0 into shape (0,newaxis)"
  else .ok (x.map fun a => [a])

/-- `make_2d_x_pred(bx, by, resx, resy)`, gp.py:2153-2176: the rows of the array, in the order of `itertools.product`. -/
noncomputable def make2d (bx by_ : ℝ × ℝ) (resx resy : ℤ) : Except String (List (List ℝ)) := do
  let x ← linspace bx.1 bx.2 resx
  let y ← linspace by_.1 by_.2 resy
  .ok (x.flatMap fun a => y.map fun b => [a, b])

/-- `get_gp2Scale_exec_time(time_per_worker_execution, number_of_workers)` of an object with `D` data points and batch size `b`, gp.py:2199-2219. -/
noncomputable def execTime (D : ℕ) (b : ℤ) (tb : ℝ) (n : ℤ) : Except String ℝ :=
  if (2 : ℝ) * n * (b : ℝ) ^ 2 = 0 then .error "float division by zero"
  else .ok ((D : ℝ) ^ 2 * tb / (2 * n * (b : ℝ) ^ 2))

/-- A two-dimensional array of any shape. -/
structure Arr2 where
  rows : ℕ
  cols : ℕ
  val : Fin rows → Fin cols → ℝ

/-- A one-dimensional array. -/
structure Arr1 where
  len : ℕ
  val : Fin len → ℝ

/-- `nn.Linear`: weight (output × input) and bias; `Network` has three of them, deep_kernel_network.py:5-12. -/
structure Linear where
  weight : Arr2
  bias : Arr1

/-- `Network`, deep_kernel_network.py:5-35. `numberOfHps` is the attribute set at construction. -/
structure Network where
  layer1 : Linear
  layer2 : Linear
  layer3 : Linear
  numberOfHps : ℤ

/-- The random initial values of a linear layer of torch; arbitrary. -/
abbrev Init := (o i : ℕ) → (Fin o → Fin i → ℝ) × (Fin o → ℝ)

/-- `nn.Linear(i, o)`. -/
def linearInit (g : Init) (i o : ℕ) : Linear := ⟨⟨o, i, (g o i).1⟩, ⟨o, (g o i).2⟩⟩

/-- `Network(dim, layer_width)`, deep_kernel_network.py:6-12 (`int` of an exact floating point number). -/
def Network.new (g : Init) (dim width : ℕ) : Network where
  layer1 := linearInit g dim width
  layer2 := linearInit g width width
  layer3 := linearInit g width dim
  numberOfHps := 2 * dim * width + width ^ 2 + 2 * width + dim

/-- `torch.from_numpy(w).float()`. -/
noncomputable def Arr2.float (w : Arr2) : Arr2 := ⟨w.rows, w.cols, fun i j => Dtype.float32.store (w.val i j)⟩
/-- `torch.from_numpy(b).float()`. -/
noncomputable def Arr1.float (b : Arr1) : Arr1 := ⟨b.len, fun i => Dtype.float32.store (b.val i)⟩

/-- `set_weights(w1, w2, w3)`, deep_kernel_network.py:21-24: no check of shapes. -/
noncomputable def Network.setWeights (n : Network) (w1 w2 w3 : Arr2) : Network :=
  { n with layer1 := { n.layer1 with weight := w1.float }, layer2 := { n.layer2 with weight := w2.float },
           layer3 := { n.layer3 with weight := w3.float } }

/-- `set_biases(b1, b2, b3)`, deep_kernel_network.py:26-29. -/
noncomputable def Network.setBiases (n : Network) (b1 b2 b3 : Arr1) : Network :=
  { n with layer1 := { n.layer1 with bias := b1.float }, layer2 := { n.layer2 with bias := b2.float },
           layer3 := { n.layer3 with bias := b3.float } }

/-- `get_weights()`, deep_kernel_network.py:31-32. -/
def Network.getWeights (n : Network) : Arr2 × Arr2 × Arr2 := (n.layer1.weight, n.layer2.weight, n.layer3.weight)
/-- `get_biases()`, deep_kernel_network.py:34-35. -/
def Network.getBiases (n : Network) : Arr1 × Arr1 × Arr1 := (n.layer1.bias, n.layer2.bias, n.layer3.bias)

/-- A linear layer on one row of the input: `x W^T + b`. torch raises if the sizes do not fit (a bias of length 1 is broadcast). -/
noncomputable def Linear.apply (l : Linear) (x : List ℝ) : Except String (List ℝ) :=
  if x.length ≠ l.weight.cols then .error "mat1 and mat2 shapes cannot be multiplied"
  else if l.bias.len = l.weight.rows then
    .ok (List.ofFn fun o : Fin l.weight.rows => ∑ i, l.weight.val o i * x.getD i 0 + (List.ofFn l.bias.val).getD o 0)
  else if l.bias.len = 1 then
    .ok (List.ofFn fun o : Fin l.weight.rows => ∑ i, l.weight.val o i * x.getD i 0 + (List.ofFn l.bias.val).getD 0 0)
  else .error "The size of tensor a must match the size of tensor b"

/-- `torch.nn.functional.relu`. -/
noncomputable def relu (x : List ℝ) : List ℝ := x.map fun a => max a 0

/-- `forward` on one row, deep_kernel_network.py:14-19. Simplification: exact arithmetic in the layers. -/
noncomputable def Network.row (n : Network) (x : List ℝ) : Except String (List ℝ) := do
  let a ← n.layer1.apply x
  let b ← n.layer2.apply (relu a)
  let c ← n.layer3.apply (relu b)
  .ok (relu c)

/-- `forward(x)` on an array of points. -/
noncomputable def Network.forward (n : Network) (xs : List (List ℝ)) : Except String (List (List ℝ)) := xs.mapM n.row

/-- `WarpNet.forward`, deep_kernel_network.py:55-60, on one row: no activation after the last layer. -/
noncomputable def warpRow (n : Network) (x : List ℝ) : Except String (List ℝ) := do
  let a ← n.layer1.apply x
  let b ← n.layer2.apply (relu a)
  n.layer3.apply (relu b)

end Verif.Tools
