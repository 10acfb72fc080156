import Mathlib.Algebra.BigOperators.Group.List.Basic
import Mathlib.Data.List.Sort

/-!
Model of `/repo/fvgp/gp2Scale_covariance.py` (distributed covariance assembly) and of the caller
`GPprior._gp2Scale_covariance` in `/repo/fvgp/gp_prior.py`.

Numbers are elements of an arbitrary additive commutative monoid `R` with decidable equality
(simplification: exact arithmetic instead of IEEE floats). Points are elements of an arbitrary type `X`.
-/

namespace Verif.Gp2Scale

/-- Python `range(start, stop, step)` for natural arguments and positive step
(documented length `ceil((stop-start)/step)`); used by gp2Scale_covariance.py:61. -/
def pyRange (start stop step : ℕ) : List ℕ :=
  (List.range ((stop - start + step - 1) / step)).map fun k => start + k * step

/-- `max(1, int(batch_size))`, gp2Scale_covariance.py:60 and :79. -/
def clampBatch (b : ℤ) : ℕ := (max 1 b).toNat

/-- `ranges(n, batch_size)`, gp2Scale_covariance.py:48-61. -/
def ranges (n : ℕ) (b : ℤ) : List (ℕ × ℕ) :=
  (pyRange 0 n (clampBatch b)).map fun start => (start, min (start + clampBatch b) n)

/-- The two values of `_DISTRIBUTIONS`, gp2Scale_covariance.py:45; anything else is `other`. -/
inductive Distribution
  | blockwise
  | rowwise
  | other (name : String)
  deriving DecidableEq, Repr

/-- `task_budget(n1, batch_size, distribution)`, gp2Scale_covariance.py:64-82. -/
def taskBudget (n1 : ℕ) (b : ℤ) (d : Distribution) : ℕ :=
  match d with
  | .blockwise => clampBatch b * clampBatch b
  | _ => n1 * clampBatch b

/-- `should_distribute(n1, n2, batch_size, distribution)`, gp2Scale_covariance.py:85-92. -/
def shouldDistribute (n1 n2 : ℕ) (b : ℤ) (d : Distribution) : Bool :=
  decide (n1 * n2 > taskBudget n1 b d)

/-- `strip_width(long_axis, short_axis, budget)`, gp2Scale_covariance.py:95-104. -/
def stripWidth (long short budget : ℕ) : ℕ :=
  max 1 (min short (budget / max long 1))

/-- Index type chosen by `index_dtype_for`, gp2Scale_covariance.py:107-114. -/
inductive IndexDtype
  | int32
  | int64
  deriving DecidableEq, Repr

/-- `index_dtype_for(n1, n2)`, gp2Scale_covariance.py:107-114. -/
def indexDtypeFor (n1 n2 : ℕ) : IndexDtype :=
  if max n1 n2 < 2 ^ 31 then .int32 else .int64

/-- A COO triplet: value, row, column. -/
structure Triplet (R : Type*) where
  val : R
  row : ℕ
  col : ℕ
  deriving DecidableEq, Repr

/-- What a user kernel returns for one block: a dense array (list of rows) or a sparse block given by
its stored entries (possibly with duplicates or explicit zeros). -/
inductive Block (R : Type*)
  | dense (rows : List (List R))
  | sparse (entries : List (Triplet R))
  deriving Repr

section
variable {R : Type*} [AddCommMonoid R] [DecidableEq R]

/-- Value stored at `(i, j)` by a list of COO triplets: duplicates are added, which is what
`scipy.sparse.coo_matrix(...).tocsr()` does (gp2Scale_covariance.py:285-287). -/
def tripletsAt (l : List (Triplet R)) (i j : ℕ) : R :=
  ((l.filter fun t => t.row = i ∧ t.col = j).map Triplet.val).sum

/-- `np.nonzero` of one row, as triplets. Part of gp2Scale_covariance.py:146-148. -/
def rowTriplets (i : ℕ) (row : List R) : List (Triplet R) :=
  (row.mapIdx fun j v => (⟨v, i, j⟩ : Triplet R)).filter fun t => t.val ≠ 0

/-- `block_to_coo(k, index_dtype)`, gp2Scale_covariance.py:136-148: sparse blocks pass through,
dense blocks are reduced to their non-zero entries. -/
def blockToCoo : Block R → List (Triplet R)
  | .sparse entries => entries
  | .dense rows => (rows.mapIdx fun i row => rowTriplets i row).flatten

/-- Python slice `x[a:b]`, used at gp2Scale_covariance.py:160,192,212. -/
def slice {X : Type*} (x : List X) (a b : ℕ) : List X := (x.drop a).take (b - a)

/-- The kernel callable bound to hyperparameters and args. `evaluate_kernel`,
gp2Scale_covariance.py:120-133: with an arity other than 3 or 4 it raises; otherwise the user callable is
applied (it may itself raise). The two arities differ only in the arguments already bound here. -/
def evaluateKernel {X : Type*} (arity : ℕ) (kern : List X → List X → Except String (Block R))
    (x1 x2 : List X) : Except String (Block R) :=
  if arity = 4 then kern x1 x2
  else if arity = 3 then kern x1 x2
  else .error "No valid kernel function signature"

/-- A worker result: triplets of a block (`block_triplets`) or a finished strip with its first index
(`row_strip_csr`, `col_strip_csc`): start, height, width, entries. -/
inductive WorkerResult (R : Type*)
  | triplets (l : List (Triplet R))
  | strip (start height width : ℕ) (l : List (Triplet R))
  deriving Repr

/-- `block_triplets`, gp2Scale_covariance.py:151-170. -/
def blockTriplets {X : Type*} (arity : ℕ) (kern : List X → List X → Except String (Block R))
    (symmetric : Bool) (x1 x2 : List X) (task : (ℕ × ℕ) × (ℕ × ℕ)) :
    Except String (WorkerResult R) := do
  let k ← evaluateKernel arity kern (slice x1 task.1.1 task.1.2) (slice x2 task.2.1 task.2.2)
  let t := blockToCoo k
  let t := if symmetric ∧ task.1.1 = task.2.1 then t.filter (fun e => e.row ≤ e.col) else t
  .ok (.triplets (t.map fun e => ⟨e.val, e.row + task.1.1, e.col + task.2.1⟩))

/-- `row_strip_csr`, gp2Scale_covariance.py:173-198. (The empty-data special case at 196-197 is the same
matrix as the general case.) -/
def rowStrip {X : Type*} (arity : ℕ) (kern : List X → List X → Except String (Block R))
    (n2 : ℕ) (x1 x2 : List X) (r : ℕ × ℕ) : Except String (WorkerResult R) := do
  let k ← evaluateKernel arity kern (slice x1 r.1 r.2) x2
  .ok (.strip r.1 (r.2 - r.1) n2 (blockToCoo k))

/-- `col_strip_csc`, gp2Scale_covariance.py:202-218. -/
def colStrip {X : Type*} (arity : ℕ) (kern : List X → List X → Except String (Block R))
    (n1 : ℕ) (x1 x2 : List X) (r : ℕ × ℕ) : Except String (WorkerResult R) := do
  let k ← evaluateKernel arity kern x1 (slice x2 r.1 r.2)
  .ok (.strip r.1 n1 (r.2 - r.1) (blockToCoo k))

/-- A sparse matrix result: shape and stored entries (a CSR matrix up to the order of entries and the
summation of duplicates). -/
structure Sparse (R : Type*) where
  nrows : ℕ
  ncols : ℕ
  entries : List (Triplet R)
  deriving Repr

/-- Entry of a sparse matrix. -/
def Sparse.at (m : Sparse R) (i j : ℕ) : R := tripletsAt m.entries i j

/-- Numpy slice assignment `out[pos:pos+n] = data` into a preallocated buffer whose cells are `none`
until written; raises when the slice does not fit. gp2Scale_covariance.py:271-281. -/
def writeSlice {α : Type*} (buf : List (Option α)) (pos : ℕ) (data : List α) :
    Except String (List (Option α)) :=
  if pos + data.length ≤ buf.length then
    .ok (buf.take pos ++ data.map some ++ buf.drop (pos + data.length))
  else .error "could not broadcast input array"

/-- Size accounting of `assemble_triplets`, gp2Scale_covariance.py:250-258. -/
def allocTotal (symmetric : Bool) (parts : List (List (Triplet R))) : ℕ :=
  (parts.map fun p =>
    p.length + (if symmetric then p.length - (p.filter fun t => t.row = t.col).length else 0)).sum

/-- The fill loop of `assemble_triplets`, gp2Scale_covariance.py:267-283. Parts are popped from the end
(`parts` here is already reversed), each is written, then its mirrored off-diagonal entries. -/
def fillLoop (symmetric : Bool) :
    List (List (Triplet R)) → ℕ → List (Option (Triplet R)) →
      Except String (ℕ × List (Option (Triplet R)))
  | [], pos, buf => .ok (pos, buf)
  | p :: rest, pos, buf => do
      let buf ← writeSlice buf pos p
      let pos := pos + p.length
      if symmetric then
        let off := p.filter fun t => t.row ≠ t.col
        if off.length ≠ 0 then
          let buf ← writeSlice buf pos (off.map fun t => ⟨t.val, t.col, t.row⟩)
          fillLoop symmetric rest (pos + off.length) buf
        else fillLoop symmetric rest pos buf
      else fillLoop symmetric rest pos buf

/-- `assemble_triplets`, gp2Scale_covariance.py:240-287. Returning `error "uninitialised"` stands for a
matrix containing memory that was never written. dtypes are not modelled. -/
def assembleTriplets (harvest : List (List (Triplet R))) (n1 n2 : ℕ) (symmetric : Bool) :
    Except String (Sparse R) := do
  let parts := harvest.filter fun p => p.length ≠ 0
  if parts.length = 0 then .ok ⟨n1, n2, []⟩
  else
    let total := allocTotal symmetric parts
    let (_, buf) ← fillLoop symmetric parts.reverse 0 (List.replicate total none)
    match buf.mapM id with
    | some l => .ok ⟨n1, n2, l⟩
    | none => .error "uninitialised"

/-- Python `dict(pairs)`: later pairs override the value of an earlier equal key but keep its place. -/
def dictOf {α : Type*} : List (ℕ × α) → List (ℕ × α)
  | [] => []
  | l => l.foldl (fun d p =>
      if d.any (fun q => q.1 = p.1) then d.map (fun q => if q.1 = p.1 then p else q) else d ++ [p]) []

/-- `sparse.vstack` of strips (height, width, entries), gp2Scale_covariance.py:295. -/
def vstack : List (ℕ × ℕ × List (Triplet R)) → Sparse R
  | [] => ⟨0, 0, []⟩
  | (h, w, l) :: rest =>
      let tail := vstack rest
      ⟨h + tail.nrows, max w tail.ncols,
        l ++ tail.entries.map fun t => ⟨t.val, t.row + h, t.col⟩⟩

/-- `sparse.hstack` of strips (height, width, entries), gp2Scale_covariance.py:307. -/
def hstack : List (ℕ × ℕ × List (Triplet R)) → Sparse R
  | [] => ⟨0, 0, []⟩
  | (h, w, l) :: rest =>
      let tail := hstack rest
      ⟨max h tail.nrows, w + tail.ncols,
        l ++ tail.entries.map fun t => ⟨t.val, t.row, t.col + w⟩⟩

/-- The strips in a harvest as `(start, (height, width, entries))` pairs. -/
def stripPairs : List (WorkerResult R) → List (ℕ × (ℕ × ℕ × List (Triplet R)))
  | [] => []
  | .strip s h w l :: rest => (s, (h, w, l)) :: stripPairs rest
  | .triplets _ :: rest => stripPairs rest

/-- The triplet parts in a harvest. -/
def tripletParts : List (WorkerResult R) → List (List (Triplet R))
  | [] => []
  | .triplets l :: rest => l :: tripletParts rest
  | .strip _ _ _ _ :: rest => tripletParts rest

/-- `[strips[key] for key in sorted(strips)]`, gp2Scale_covariance.py:292-295. -/
def sortedStrips {α : Type*} (l : List (ℕ × α)) : List α :=
  ((dictOf l).mergeSort (fun a b => decide (a.1 ≤ b.1))).map Prod.snd

/-- `assemble_row_strips`, gp2Scale_covariance.py:290-295. -/
def assembleRowStrips (harvest : List (WorkerResult R)) (n1 n2 : ℕ) : Sparse R :=
  if (stripPairs harvest).length = 0 then ⟨n1, n2, []⟩
  else vstack (sortedStrips (stripPairs harvest))

/-- `assemble_col_strips`, gp2Scale_covariance.py:298-307. -/
def assembleColStrips (harvest : List (WorkerResult R)) (n1 n2 : ℕ) : Sparse R :=
  if (stripPairs harvest).length = 0 then ⟨n1, n2, []⟩
  else hstack (sortedStrips (stripPairs harvest))

/-- How a task ends: a result, an error raised by the task itself (dask re-raises it while iterating
`as_completed`), or a scheduler-side cancellation (handed back *as* an exception object,
gp2Scale_covariance.py:227-236). -/
inductive TaskOutcome (R : Type*)
  | done (r : WorkerResult R)
  | erred (msg : String)
  | cancelled (msg : String)

/-- A completed future: an identifier and what the task produced. -/
structure Future (R : Type*) where
  id : ℕ
  result : TaskOutcome R

/-- `map(_harvest, as_completed(futures, with_results=True))` consumed to the end by the assembler,
gp2Scale_covariance.py:224-237 and :420. An erred future raises from the iterator; otherwise the future is
released before its result is inspected and a cancelled one raises. The first failure stops consumption.
Returns the log of released ids together with the outcome. -/
def harvestAll : List (Future R) → List ℕ × Except String (List (WorkerResult R))
  | [] => ([], .ok [])
  | f :: rest =>
      match f.result with
      | .erred e => ([], .error e)
      | .cancelled e => ([f.id], .error ("A gp2Scale covariance block failed on the cluster: " ++ e))
      | .done r =>
          let (log, out) := harvestAll rest
          (f.id :: log, out.map (r :: ·))

/-- Tasks of the block-wise strategy, gp2Scale_covariance.py:382-386 (`itertools.product`, then the lower
triangle is filtered out for a symmetric covariance). -/
def blockTasks (n1 n2 : ℕ) (b : ℤ) (symmetric : Bool) : List ((ℕ × ℕ) × (ℕ × ℕ)) :=
  let rowRanges := ranges n1 b
  let colRanges := if symmetric then rowRanges else ranges n2 b
  let tasks := rowRanges.flatMap fun r => colRanges.map fun c => (r, c)
  if symmetric then tasks.filter (fun t => t.1.1 ≤ t.2.1) else tasks

/-- Number the results of the tasks: `client.map`, gp2Scale_covariance.py:419. `cancel i` says whether the
scheduler cancels task `i` (any behaviour of the cluster); otherwise the worker function decides. -/
def mkFutures (cancel : ℕ → Option String) (l : List (Except String (WorkerResult R))) :
    List (Future R) :=
  l.mapIdx fun i r => ⟨i, match cancel i, r with
    | some msg, _ => .cancelled msg
    | none, .error e => .erred e
    | none, .ok r => .done r⟩

/-- Everything observable about one distributed covariance call. -/
structure CallResult (R : Type*) where
  /-- ids of the task futures released while harvesting -/
  released : List ℕ
  /-- number of tasks submitted -/
  submitted : ℕ
  outcome : Except String (Sparse R)

/-- Which strategy `distributed_covariance` uses, gp2Scale_covariance.py:379-414. -/
inductive Strategy
  | blocks
  | rows (width : ℤ)
  | cols (width : ℤ)
  deriving DecidableEq, Repr

/-- Strategy choice, gp2Scale_covariance.py:379-414 (`distribution` is already validated). -/
def chooseStrategy (n1 n2 : ℕ) (b : ℤ) (symmetric : Bool) (d : Distribution) : Strategy :=
  if symmetric then
    match d with
    | .blockwise => .blocks
    | _ => .rows b
  else if n2 ≤ n1 then .cols (stripWidth n1 n2 (taskBudget n1 b d))
  else .rows (stripWidth n2 n1 (taskBudget n1 b d))

/-- A point set scattered to the workers: dask key and contents (`GPprior._scatter`, gp_prior.py:301-322:
`hash=False`, so every scatter gets its own key). -/
structure Scattered (X : Type*) where
  key : ℕ
  points : List X

/-- `distributed_covariance`, gp2Scale_covariance.py:313-431. `sched` is the order in which dask yields
the completed futures (any permutation), `cancel` the tasks the scheduler cancels. `f1`, `f2` are the
scattered point sets, `n1`, `n2` the sizes handed over by the caller. -/
def distributedCovariance {X : Type*} (sched : List (Future R) → List (Future R))
    (cancel : ℕ → Option String) (arity : ℕ)
    (kern : List X → List X → Except String (Block R)) (f1 : Scattered X) (n1 : ℕ)
    (f2 : Scattered X) (n2 : ℕ)
    (b : ℤ) (symmetric : Bool) (d : Distribution) : CallResult R :=
  match d with
  | .other name => ⟨[], 0, .error ("Unknown gp2Scale distribution " ++ name)⟩
  | d =>
    if symmetric ∧ n1 ≠ n2 then ⟨[], 0, .error "a symmetric covariance must be square"⟩
    else if symmetric ∧ f1.key ≠ f2.key then
      ⟨[], 0, .error "a symmetric covariance must be computed from a single scattered point set"⟩
    else
      let strategy := chooseStrategy n1 n2 b symmetric d
      let results : List (Except String (WorkerResult R)) :=
        match strategy with
        | .blocks => (blockTasks n1 n2 b symmetric).map
            (blockTriplets arity kern symmetric f1.points f2.points)
        | .rows w => (ranges n1 w).map (rowStrip arity kern n2 f1.points f2.points)
        | .cols w => (ranges n2 w).map (colStrip arity kern n1 f1.points f2.points)
      let futures := mkFutures cancel results
      let (log, harvested) := harvestAll (sched futures)
      ⟨log, futures.length, do
        let h ← harvested
        match strategy with
        | .blocks => assembleTriplets (tripletParts h) n1 n2 symmetric
        | .rows _ => .ok (assembleRowStrips h n1 n2)
        | .cols _ => .ok (assembleColStrips h n1 n2)⟩

/-- `stack_augmented_covariance(K, B, D)`, gp2Scale_covariance.py:434-443: `[[K, B], [B.T, D]]`. -/
def stackAugmented (K B D : Sparse R) : Sparse R :=
  ⟨K.nrows + D.nrows, K.ncols + D.ncols,
    K.entries
      ++ B.entries.map (fun t => ⟨t.val, t.row, t.col + K.ncols⟩)
      ++ B.entries.map (fun t => ⟨t.val, t.col + K.nrows, t.row⟩)
      ++ D.entries.map (fun t => ⟨t.val, t.row + K.nrows, t.col + K.ncols⟩)⟩


/-- `k.T` of a dense block with `m` columns, gp_prior.py:288. -/
def denseT (m : ℕ) (k : List (List R)) : List (List R) :=
  (List.range m).map fun j => k.map fun row => row.getD j 0

/-- `np.block([[K, k], [k.T, kk]])`, gp_prior.py:286-289, dense matrices as lists of rows; `m` is the number
of new points. -/
def npBlock (m : ℕ) (K k kk : List (List R)) : List (List R) :=
  List.zipWith (· ++ ·) K k ++ List.zipWith (· ++ ·) (denseT m k) kk

/-! ### `GPprior`: the caller -/

/-- Scatter / release events on point sets, in the order in which they happen. -/
inductive Event
  | scatter (key : ℕ)
  | release (key : ℕ)
  deriving DecidableEq, Repr

/-- The settings of a gp2Scale prior (gp_prior.py:12-100): client present, completion order, cancellations,
kernel arity and callable, batch size and distribution. -/
structure PriorCfg (R X : Type*) where
  client : Bool
  sched : List (Future R) → List (Future R)
  cancel : ℕ → Option String
  arity : ℕ
  kern : List X → List X → Except String (Block R)
  batch : ℤ
  dist : Distribution

/-- `_as_csr(self.compute_covariances(x1, x2, hps))`, gp_prior.py:344 and gp2Scale_covariance.py:446. The
shape of the kernel block is taken to be `len(x1) x len(x2)`. -/
def localCovariance {X : Type*} (c : PriorCfg R X) (x1 x2 : List X) : Except String (Sparse R) := do
  let k ← evaluateKernel c.arity c.kern x1 x2
  .ok ⟨x1.length, x2.length, blockToCoo k⟩

/-- `GPprior._gp2Scale_covariance`, gp_prior.py:324-370. `fresh` is the next unused dask key; the result
gives the scatter/release events, the next unused key and the outcome. The `try/finally` releases own
futures whatever the outcome. -/
def gp2ScaleCovariance {X : Type*} (c : PriorCfg R X) (fresh : ℕ) (x1 x2 : List X) (symmetric : Bool)
    (f1? f2? : Option (Scattered X)) : List Event × ℕ × Except String (Sparse R) :=
  if ¬ c.client then ([], fresh, .error "gp2Scale needs a dask client to compute covariances.")
  else if ¬ shouldDistribute x1.length x2.length c.batch c.dist then
    ([], fresh, localCovariance c x1 x2)
  else
    let own1 := f1?.isNone
    let f1 : Scattered X := f1?.getD ⟨fresh, x1⟩
    let ev1 := if own1 then [Event.scatter fresh] else []
    let fresh := if own1 then fresh + 1 else fresh
    if symmetric then
      if x2.length ≠ x1.length then (ev1, fresh, .error "symmetric requires x1 == x2")
      else
        let r := distributedCovariance c.sched c.cancel c.arity c.kern f1 x1.length f1 x2.length
          c.batch symmetric c.dist
        (ev1 ++ (if own1 then [Event.release f1.key] else []), fresh, r.outcome)
    else
      let own2 := f2?.isNone
      let f2 : Scattered X := f2?.getD ⟨fresh, x2⟩
      let ev2 := if own2 then [Event.scatter fresh] else []
      let fresh := if own2 then fresh + 1 else fresh
      let r := distributedCovariance c.sched c.cancel c.arity c.kern f1 x1.length f2 x2.length
        c.batch symmetric c.dist
      (ev1 ++ ev2 ++ (if own1 then [Event.release f1.key] else [])
        ++ (if own2 then [Event.release f2.key] else []), fresh, r.outcome)

/-- The part of `GPprior` that depends on the data under gp2Scale: the points held by the persistent
scatter, that scatter, the stored covariance (gp_prior.py:95-99) and the next unused dask key. -/
structure PriorState (R X : Type*) where
  x : List X
  future : Scattered X
  K : Sparse R
  fresh : ℕ

/-- Constructor, gp_prior.py:95-99: scatter the data, compute the covariance through
`compute_prior_covariance_matrix` (gp_prior.py:185-198; the stored future is reused because the lengths
agree). -/
def PriorState.create {X : Type*} (c : PriorCfg R X) (fresh : ℕ) (x : List X) :
    List Event × Except String (PriorState R X) :=
  let fut : Scattered X := ⟨fresh, x⟩
  let r := gp2ScaleCovariance c (fresh + 1) x x true (some fut) none
  ([Event.scatter fresh] ++ r.1,
    match r.2.2 with
    | .error e => .error e
    | .ok K => .ok ⟨x, fut, K, r.2.1⟩)

/-- `update_state_data`, gp_prior.py:169-179: the persistent scatter is overwritten first (the old future
loses its last reference and is released by dask's `__del__`; modelled as a release right after the new
scatter), then the covariance is recomputed. If that raises, the new scatter and the old `K` stay. -/
def PriorState.rebuild {X : Type*} (c : PriorCfg R X) (s : PriorState R X) (x : List X) :
    List Event × PriorState R X × Except String Unit :=
  let fut : Scattered X := ⟨s.fresh, x⟩
  let r := gp2ScaleCovariance c (s.fresh + 1) x x true (some fut) none
  ([Event.scatter s.fresh, Event.release s.future.key] ++ r.1,
    match r.2.2 with
    | .error e => (⟨x, fut, s.K, r.2.1⟩, .error e)
    | .ok K => (⟨x, fut, K, r.2.1⟩, .ok ()))

/-- `augment_state_data` + `_update_prior_covariance_matrix` under gp2Scale, gp_prior.py:158-167 and
:267-290: the cross block uses the persistent scatter of the old data, the new block its own scatter,
which is released in `finally`; on success the full data set is scattered anew and the old persistent
future is dropped. If a covariance call raises, only the release in `finally` happens. -/
def PriorState.augment {X : Type*} (c : PriorCfg R X) (s : PriorState R X) (xNew : List X) :
    List Event × PriorState R X × Except String Unit :=
  let fNew : Scattered X := ⟨s.fresh, xNew⟩
  let rB := gp2ScaleCovariance c (s.fresh + 1) s.x xNew false (some s.future) (some fNew)
  match rB.2.2 with
  | .error e => ([Event.scatter s.fresh] ++ rB.1 ++ [Event.release s.fresh],
      ⟨s.x, s.future, s.K, rB.2.1⟩, .error e)
  | .ok B =>
    let rD := gp2ScaleCovariance c rB.2.1 xNew xNew true (some fNew) none
    match rD.2.2 with
    | .error e => ([Event.scatter s.fresh] ++ rB.1 ++ rD.1 ++ [Event.release s.fresh],
        ⟨s.x, s.future, s.K, rD.2.1⟩, .error e)
    | .ok D =>
      ([Event.scatter s.fresh] ++ rB.1 ++ rD.1 ++ [Event.release s.fresh]
          ++ [Event.scatter rD.2.1, Event.release s.future.key],
        ⟨s.x ++ xNew, ⟨rD.2.1, s.x ++ xNew⟩, stackAugmented s.K B D, rD.2.1 + 1⟩, .ok ())

/-- Data operations of the prior under gp2Scale: replace the data or append to it. -/
inductive PriorOp (X : Type*)
  | replace (x : List X)
  | append (x : List X)

/-- Dispatch of one data operation. -/
def PriorState.step {X : Type*} (c : PriorCfg R X) (s : PriorState R X) :
    PriorOp X → List Event × PriorState R X × Except String Unit
  | .replace x => s.rebuild c x
  | .append x => s.augment c x

/-- A sequence of data operations; a raised exception is caught by the user, who carries on. -/
def PriorState.run {X : Type*} (c : PriorCfg R X) :
    PriorState R X → List (PriorOp X) → List Event × PriorState R X
  | s, [] => ([], s)
  | s, op :: ops =>
      let r := s.step c op
      let t := PriorState.run c r.2.1 ops
      (r.1 ++ t.1, t.2)

end

end Verif.Gp2Scale
