import Verif.LinAlg.DeviceModel
import Mathlib.Tactic.Common

/-!
C129: choice of the GPU engine. C130: results do not depend on the device.
-/

namespace Verif.LinAlg.Device

/-! ### C129 -/

/-- Specification: `s` is a name of the engine. -/
def Names (s : String) : Engine → Prop
  | .torch => s.toLower = "torch" ∨ s.toLower = "pytorch"
  | .cupy => s.toLower = "cupy"

/-- Specification: a GPU that exists. -/
def RealGpu (e : Env) : TorchDevice → Prop
  | .cuda none => e.cudaAvailable = true
  | .cuda (some i) => e.cudaAvailable = true ∧ 0 ≤ i ∧ i < e.cudaCount
  | .mps => e.mpsAvailable = true
  | .other _ => False

/-- Specification: the machine has a GPU for some installed engine. -/
def HasGpu (e : Env) : Prop :=
  (e.torchInstalled = true ∧ (e.cudaAvailable = true ∨ e.mpsAvailable = true)) ∨
    (e.cupyInstalled = true ∧ ∃ n : ℤ, e.cupyDevices = some n ∧ 0 < n)

theorem alias_iff (s : String) (g : Engine) : engineAlias s = some g ↔ Names s g := by
  unfold engineAlias
  split_ifs with h1 h2
  · cases g
    · simpa [Names] using h1
    · simp only [Option.some.injEq, reduceCtorEq, Names, false_iff]
      rintro h
      rcases h1 with h1 | h1 <;> rw [h] at h1 <;> revert h1 <;> decide
  · cases g
    · simpa [Names] using h1
    · simpa [Names] using h2
  · cases g
    · simpa [Names] using h1
    · simpa [Names] using h2

theorem cupy_iff (e : Env) : cupyGpuAvailable e = true ↔ e.cupyInstalled = true ∧ ∃ n : ℤ, e.cupyDevices = some n ∧ 0 < n := by
  unfold cupyGpuAvailable
  cases e.cupyInstalled <;> cases e.cupyDevices <;> simp

/-- A request for a GPU that cannot be met is never silent: no engine if and only if there is a warning, and it is one warning. -/
theorem C129_warned (e : Env) (a : Args) :
    ((getGpuEngine e a).1 = none ↔ (getGpuEngine e a).2 ≠ []) ∧ (getGpuEngine e a).2.length ≤ 1 := by
  unfold getGpuEngine
  split
  · rename_i s _
    split
    · rename_i h
      have : engineAlias s ≠ none := fun h' => by simp [unavailableReason, h'] at h
      simpa using this
    · simp
  · split_ifs <;> simp

/-- An engine asked for by name is never replaced by the other one. -/
theorem C129_requested (e : Env) (a : Args) (s : String) (g : Engine) (hs : a.gpuEngine = some s) (h : (getGpuEngine e a).1 = some g) : Names s g := by
  rw [← alias_iff]
  simp only [getGpuEngine, hs] at h
  split at h
  · exact h
  · cases h

/-- The reason given tells a missing package from a missing device, and a reason is given exactly if the engine cannot be used. -/
theorem C129_reason (e : Env) (a : Args) (s : String) :
    (unavailableReason e s a = some "pytorch is not installed" ↔ Names s .torch ∧ e.torchInstalled = false) ∧
    (unavailableReason e s a = some "cupy is not installed" ↔ Names s .cupy ∧ e.cupyInstalled = false) ∧
    (unavailableReason e s a = some "pytorch is installed but exposes no usable CUDA or MPS device" ↔
      Names s .torch ∧ e.torchInstalled = true ∧ torchGpuDevice e a = none) ∧
    (unavailableReason e s a = some "cupy is installed but exposes no usable CUDA device" ↔
      Names s .cupy ∧ e.cupyInstalled = true ∧ ¬ ∃ n : ℤ, e.cupyDevices = some n ∧ 0 < n) ∧
    (unavailableReason e s a = none ↔ (Names s .torch ∧ torchGpuDevice e a ≠ none) ∨
      (Names s .cupy ∧ e.cupyInstalled = true ∧ ∃ n : ℤ, e.cupyDevices = some n ∧ 0 < n)) := by
  have hc := cupy_iff e
  have ti : e.torchInstalled = false → torchGpuDevice e a = none := fun h => by simp [torchGpuDevice, h]
  simp only [← alias_iff]
  generalize (∃ n : ℤ, e.cupyDevices = some n ∧ 0 < n) = P at hc ⊢
  unfold unavailableReason
  generalize torchGpuDevice e a = d at ti ⊢
  generalize cupyGpuAvailable e = c at hc ⊢
  rcases engineAlias s with _ | g
  · simp
  · cases g <;> cases ht : e.torchInstalled <;> cases hc' : e.cupyInstalled <;> cases c <;> cases d <;> simp_all

/-- Without a named engine one is found whenever the machine has a usable GPU (default device), torch before cupy. -/
theorem C129_found (e : Env) (a : Args) (ha : a.gpuEngine = none) (hd : a.gpuDevice = none) :
    ((∃ g, (getGpuEngine e a).1 = some g) ↔ HasGpu e) ∧
    ((getGpuEngine e a).1 = some .torch ↔ e.torchInstalled = true ∧ (e.cudaAvailable = true ∨ e.mpsAvailable = true)) := by
  have ht : (torchGpuDevice e a).isSome = true ↔ e.torchInstalled = true ∧ (e.cudaAvailable = true ∨ e.mpsAvailable = true) := by
    unfold torchGpuDevice
    cases e.torchInstalled <;> cases e.cudaAvailable <;> cases e.mpsAvailable <;> simp [hd]
  have hc := cupy_iff e
  simp only [getGpuEngine, ha, HasGpu, ← ht, ← hc]
  cases (torchGpuDevice e a).isSome <;> cases cupyGpuAvailable e <;> simp

/-- A torch device is a GPU that exists, if `GPU_device` does not name another kind of device and the indices in `args` are those of existing devices.
Partial: see the two next theorems. -/
theorem C129_device_partial (e : Env) (a : Args) (d : TorchDevice) (hcur : e.cudaAvailable = true → 0 ≤ e.cudaCurrent ∧ e.cudaCurrent < e.cudaCount)
    (hidx : ∀ i, a.gpuDeviceIndex = some i → 0 ≤ i ∧ i < e.cudaCount)
    (hdev : ∀ s d, a.gpuDevice = some s → e.parse s = some d → d = .mps ∨ d = .cuda none ∨ ∃ i, d = .cuda (some i) ∧ 0 ≤ i ∧ i < e.cudaCount)
    (h : torchGpuDevice e a = some d) : RealGpu e d := by
  unfold torchGpuDevice at h
  by_cases ht : (!e.torchInstalled) = true
  · rw [if_pos ht] at h; cases h
  rw [if_neg ht] at h
  split at h
  · rename_i s hs
    split at h
    · cases h
    · rename_i i hp
      split_ifs at h with hc
      injection h with h
      subst h
      rcases hdev s _ hs hp with h | h | ⟨j, h, hj⟩
      · cases h
      · injection h with h; subst h; exact hc
      · injection h with h; subst h; exact ⟨hc, hj⟩
    · split_ifs at h with hc
      injection h with h
      subst h
      exact hc
    · rename_i d' h1 h2 hp
      rcases hdev s _ hs hp with h' | h' | ⟨j, h', -⟩
      · exact absurd h' h2
      · exact absurd h' (h1 _)
      · exact absurd h' (h1 _)
  · by_cases hc : e.cudaAvailable = true
    · rw [if_pos hc] at h
      injection h with h
      subst h
      refine ⟨hc, ?_⟩
      cases hi : a.gpuDeviceIndex with
      | some i => simpa using hidx i hi
      | none =>
        have := hcur hc
        rw [Option.getD_none, if_pos (by omega)]
        exact this
    · rw [if_neg hc] at h
      split_ifs at h with hm
      injection h with h
      subst h
      exact hm

/-- A machine with torch but without any GPU; `torch.device` knows `cpu`, `mps`, `cuda` and `cuda:7`. -/
def noGpu : Env where
  torchInstalled := true
  cudaAvailable := false
  cudaCount := 0
  cudaCurrent := 0
  mpsAvailable := false
  cupyInstalled := false
  cupyDevices := none
  parse s := if s = "cpu" then some (.other "cpu") else if s = "mps" then some .mps else if s = "cuda" then some (.cuda none)
    else if s = "cuda:7" then some (.cuda (some 7)) else none

/-- The same with one CUDA device. -/
def oneGpu : Env := { noGpu with cudaAvailable := true, cudaCount := 1, cupyInstalled := true, cupyDevices := some 1 }

/-- `args["GPU_device"] = "cpu"`: the check for a usable GPU succeeds on a machine without one and there is no warning. -/
theorem C129_cpu_violated : ∃ (e : Env) (a : Args), ¬ HasGpu e ∧ getGpuEngine e a = (some .torch, []) ∧
    ∃ d, torchGpuDevice e a = some d ∧ ¬ RealGpu e d :=
  ⟨noGpu, { gpuDevice := some "cpu" }, by simp [HasGpu, noGpu], by simp [getGpuEngine, torchGpuDevice, noGpu], .other "cpu",
    by simp [torchGpuDevice, noGpu], id⟩

/-- A device index beyond the devices of the machine passes the check as well. -/
theorem C129_index_violated : (∃ (e : Env) (a : Args) (i : ℤ), a.gpuDeviceIndex = some i ∧ getGpuEngine e a = (some .torch, []) ∧
      ∃ d, torchGpuDevice e a = some d ∧ ¬ RealGpu e d) ∧
    ∃ (e : Env) (a : Args) (s : String), a.gpuDevice = some s ∧ getGpuEngine e a = (some .torch, []) ∧
      ∃ d, torchGpuDevice e a = some d ∧ ¬ RealGpu e d := by
  refine ⟨⟨oneGpu, { gpuDeviceIndex := some 7 }, 7, rfl, ?_, .cuda (some 7), ?_, ?_⟩, oneGpu, { gpuDevice := some "cuda:7" }, "cuda:7", rfl, ?_,
    .cuda (some 7), ?_, ?_⟩ <;> simp [getGpuEngine, torchGpuDevice, oneGpu, noGpu, RealGpu]

/-- The gradient of the likelihood does not see `args`: whatever engine and device are named there, it is computed with the default ones. With `cupy` (or a
misspelt engine) named on a machine with both engines, the covariance is factorised by cupy (on the CPU, with a warning) and the gradient is computed by torch. -/
theorem C129_gradient_violated :
    (∀ {β : Type} (e : Env) (a a' : Args) (device : String) (l : Libs β) (lstsq : Except Err β),
      gradientSolveOn e a device l lstsq = gradientSolveOn e a' device l lstsq) ∧
    ∃ e : Env, ∀ {β : Type} (l : Libs β) (lstsq : Except Err β),
      cholSolveOn e { gpuEngine := some "cupy" } "gpu" l = l.cupy ∧
      gradientSolveOn e { gpuEngine := some "cupy" } "gpu" l lstsq = l.torch (.cuda (some 0)) ∧
      cholSolveOn e { gpuEngine := some "cuda" } "gpu" l = l.cpu ∧
      gradientSolveOn e { gpuEngine := some "cuda" } "gpu" l lstsq = l.torch (.cuda (some 0)) := by
  refine ⟨fun _ _ _ _ _ _ => rfl, oneGpu, fun l lstsq => ?_⟩
  have h1 : engineAlias "cupy" = some .cupy := (alias_iff _ _).mpr (by simp only [Names]; decide +kernel)
  have h2 : engineAlias "cuda" = none := by
    have : "cuda".toLower = "cuda" := by decide +kernel
    simp [engineAlias, this]
  refine ⟨?_, ?_, ?_, ?_⟩
  · simp [cholSolveOn, onGpu, getGpuEngine, unavailableReason, h1, cupyGpuAvailable, oneGpu]
  · simp [gradientSolveOn, solveOn, onTorch, getGpuEngine, torchGpuDevice, oneGpu, noGpu]
  · simp [cholSolveOn, onGpu, getGpuEngine, unavailableReason, h2]
  · simp [gradientSolveOn, solveOn, onTorch, getGpuEngine, torchGpuDevice, oneGpu, noGpu]

example : (getGpuEngine noGpu {}).1 = none ∧ (getGpuEngine noGpu {}).2.length = 1 := by
  simp [getGpuEngine, torchGpuDevice, cupyGpuAvailable, noGpu]

example : (getGpuEngine oneGpu {}).1 = some .torch ∧ HasGpu oneGpu ∧ torchGpuDevice oneGpu {} = some (.cuda (some 0)) ∧
    RealGpu oneGpu (.cuda (some 0)) := by
  simp [getGpuEngine, torchGpuDevice, HasGpu, RealGpu, oneGpu, noGpu]

/-! ### C130 -/

/-- Specification: the three libraries compute the same value. -/
structure Agree {β : Type} (l : Libs β) (v : β) : Prop where
  cpu : l.cpu = .ok v
  torch : ∀ d, l.torch d = .ok v
  cupy : l.cupy = .ok v

/-- Specification: the device that is in force, `"cpu"` or `"gpu"`. -/
def Known (override : Option String) (device : String) : Prop := override.getD device = "cpu" ∨ override.getD device = "gpu"

theorem engine_torch {e : Env} {a : Args} (h : (getGpuEngine e a).1 = some .torch) : ∃ d, torchGpuDevice e a = some d := by
  rw [← Option.isSome_iff_exists]
  unfold getGpuEngine at h
  split at h
  · rename_i s _
    split at h
    · rename_i hr
      change engineAlias s = some Engine.torch at h
      simp only [unavailableReason, h] at hr
      by_cases h2 : (torchGpuDevice e a).isNone = true
      · rw [if_pos h2] at hr; split_ifs at hr
      · simpa [Option.isSome_iff_ne_none] using h2
    · cases h
  · by_cases h1 : (torchGpuDevice e a).isSome = true
    · exact h1
    · rw [if_neg h1] at h; split_ifs at h <;> cases h

theorem onTorch_agree {β : Type} {l : Libs β} {v : β} (h : Agree l v) {e : Env} {a : Args} (he : (getGpuEngine e a).1 = some .torch) :
    onTorch e a l = .ok v := by
  obtain ⟨d, hd⟩ := engine_torch he
  simp [onTorch, hd, h.torch]

theorem onGpu_agree {β : Type} {l : Libs β} {v : β} (h : Agree l v) (e : Env) (a : Args) : onGpu e a l = .ok v := by
  unfold onGpu
  split
  · rename_i he; exact onTorch_agree h he
  · exact h.cupy
  · exact h.cpu

/-- If the libraries agree, results do not depend on the device, the engine, the device number or what is installed: all functions return the common value for
`"cpu"` and `"gpu"`, also if an entry of `args` overrides the device. (`cholesky_update_rank_1` with `"gpu"`: if there is an engine.) -/
theorem C130_transparent {β : Type} (e : Env) (a : Args) (device : String) (l : Libs β) (v : β) (h : Agree l v) (lstsq : Except Err β) (sp : Bool) :
    (Known a.cholFactorDevice device → cholFactorOn e a device l = .ok v) ∧
    (Known a.cholSolveDevice device → cholSolveOn e a device l = .ok v) ∧
    (Known a.cholLogdetDevice device → cholLogdetOn e a device l = .ok v) ∧
    (Known none device → Known a.cholSolveDevice "gpu" → invFromCholOn e a device l = .ok v) ∧
    (Known none device → solveOn e a device l lstsq = .ok v ∧ gradientSolveOn e a device l lstsq = .ok v ∧ matmulOn e a device sp l = .ok v) ∧
    (device = "cpu" ∨ (device = "gpu" ∧ (getGpuEngine e a).1 ≠ none) → rank1On e a device l = .ok (some v)) ∧
    updateCholOn e a device l = .ok v ∧ logdetOn e a device l = .ok v ∧ invOn e a device l = .ok v := by
  have g := onGpu_agree h e a
  have hsolve : ∀ a, Known none device → solveOn e a device l lstsq = .ok v := fun a hk => by
    unfold solveOn
    rcases hk with hk | hk <;> simp only [Option.getD_none] at hk <;> subst hk
    · simp [h.cpu]
    · simp only [String.reduceEq, if_false, if_true, h.cpu]
      split
      · rename_i he; exact onTorch_agree h he
      · exact h.cupy
      · rfl
  refine ⟨fun hk => ?_, fun hk => ?_, fun hk => ?_, fun hk hk' => ?_, fun hk => ⟨hsolve a hk, hsolve {} hk, ?_⟩, fun hk => ?_, h.cpu, ?_, ?_⟩
  · rcases hk with hk | hk <;> simp [cholFactorOn, hk, h.cpu, g]
  · rcases hk with hk | hk <;> simp [cholSolveOn, hk, h.cpu, g]
  · rcases hk with hk | hk <;> simp [cholLogdetOn, hk, h.cpu, g]
  · rcases hk with hk | hk <;> simp only [Option.getD_none] at hk <;> subst hk
    · simp [invFromCholOn, h.cpu]
    · rcases hk' with hk | hk <;> simp [invFromCholOn, cholSolveOn, hk, h.cpu, g]
  · rcases hk with hk | hk <;> simp only [Option.getD_none] at hk <;> subst hk <;> cases sp <;> simp [matmulOn, h.cpu, g]
  · rcases hk with hk | ⟨hk, he⟩ <;> subst hk
    · simp [rank1On, h.cpu, Except.map]
    · simp only [rank1On, String.reduceEq, if_false, if_true]
      split
      · rename_i he; simp [onTorch_agree h he, Except.map]
      · simp [h.cupy, Except.map]
      · rename_i h'; exact absurd h' he
  · unfold logdetOn
    split_ifs
    · split
      · rename_i he; simp [onTorch_agree h he]
      · simp [h.cupy]
      · exact h.cpu
    · exact h.cpu
  · unfold invOn
    split_ifs
    · exact g
    · exact h.cpu

/-- Without a usable engine `"gpu"` is `"cpu"`, whatever the libraries do: values and exceptions. -/
theorem C130_fallback {β : Type} (e : Env) (a : Args) (l : Libs β) (lstsq : Except Err β) (sp : Bool) (h : (getGpuEngine e a).1 = none)
    (h1 : a.cholFactorDevice = none) (h2 : a.cholSolveDevice = none) (h3 : a.cholLogdetDevice = none) :
    cholFactorOn e a "gpu" l = cholFactorOn e a "cpu" l ∧ cholSolveOn e a "gpu" l = cholSolveOn e a "cpu" l ∧
    cholLogdetOn e a "gpu" l = cholLogdetOn e a "cpu" l ∧ logdetOn e a "gpu" l = logdetOn e a "cpu" l ∧ invOn e a "gpu" l = invOn e a "cpu" l ∧
    invFromCholOn e a "gpu" l = invFromCholOn e a "cpu" l ∧ solveOn e a "gpu" l lstsq = solveOn e a "cpu" l lstsq ∧
    matmulOn e a "gpu" sp l = matmulOn e a "cpu" sp l := by
  have g : onGpu e a l = l.cpu := by simp [onGpu, h]
  refine ⟨?_, ?_, ?_, ?_, ?_, ?_, ?_, ?_⟩
  · simp [cholFactorOn, h1, g]
  · simp [cholSolveOn, h2, g]
  · simp [cholLogdetOn, h3, g]
  · simp [logdetOn, h]
  · simp [invOn, g]
  · simp [invFromCholOn, cholSolveOn, h2, g]
  · simp only [solveOn, h, String.reduceEq, if_false, if_true]
  · cases sp <;> simp [matmulOn, g]

/-- On the CPU a matrix is reported as not positive definite exactly if the factorisation fails for that reason (scipy raises `LinAlgError`; other exceptions,
as for NaN, pass through). -/
theorem C130_nonPD {β : Type} (e : Env) (a : Args) (l : Libs β) (h : a.cholFactorDevice = none) (hr : l.cpu ≠ .error .runtime) (hn : l.cpu ≠ .error .nonPD) :
    cholFactorOn e a "cpu" l = .error .nonPD ↔ l.cpu = .error .linAlg := by
  simp only [cholFactorOn, h, Option.getD_none, if_true]
  rcases hl : l.cpu with x | x
  · cases x <;> simp_all
  · simp

/-- On the GPU any `RuntimeError` is reported as a matrix that is not positive definite: out of memory, a device that does not exist. So the matrix may be
positive definite (the CPU factorises it). -/
theorem C130_nonPD_violated : ∃ (e : Env) (a : Args) (l : Libs ℕ), a.gpuDeviceIndex = some 7 ∧ cholFactorOn e a "cpu" l = .ok 5 ∧
    cholFactorOn e a "gpu" l = .error .nonPD :=
  ⟨oneGpu, { gpuDeviceIndex := some 7 }, ⟨.ok 5, fun d => if d = .cuda (some 0) then .ok 5 else .error .runtime, .ok 5⟩, rfl,
    by simp [cholFactorOn], by simp [cholFactorOn, onGpu, onTorch, getGpuEngine, torchGpuDevice, oneGpu, noGpu]⟩

/-- `cholesky_update_rank_1` has no fallback: without an engine it returns `None`, after a warning that it falls back to the CPU. -/
theorem C130_rank1_violated {β : Type} (e : Env) (a : Args) (l : Libs β) (h : (getGpuEngine e a).1 = none) :
    rank1On e a "gpu" l = .ok none ∧ (getGpuEngine e a).2 ≠ [] :=
  ⟨by simp [rank1On, h], (C129_warned e a).1.mp h⟩

/-- Unknown devices raise in six functions and are the CPU without a message in two. -/
theorem C130_unknown_violated {β : Type} (e : Env) (a : Args) (device : String) (hc : device ≠ "cpu") (hg : device ≠ "gpu") (l : Libs β)
    (lstsq : Except Err β) (h1 : a.cholFactorDevice = none) (h2 : a.cholSolveDevice = none) (h3 : a.cholLogdetDevice = none) :
    (cholFactorOn e a device l = .error .other ∧ cholSolveOn e a device l = .error .other ∧ cholLogdetOn e a device l = .error .other ∧
      rank1On e a device l = .error .other ∧ invFromCholOn e a device l = .error .other ∧ solveOn e a device l lstsq = .error .other ∧
      matmulOn e a device false l = .error .other) ∧
    logdetOn e a device l = l.cpu ∧ invOn e a device l = l.cpu := by
  simp [cholFactorOn, cholSolveOn, cholLogdetOn, rank1On, invFromCholOn, solveOn, matmulOn, logdetOn, invOn, h1, h2, h3, hc, hg]

/-- A singular matrix: least squares on the CPU, an exception on the GPU. -/
theorem C130_singular_violated {β : Type} (x : β) : ∃ (e : Env) (a : Args) (l : Libs β), solveOn e a "cpu" l (.ok x) = .ok x ∧
    solveOn e a "gpu" l (.ok x) = .error .linAlg :=
  ⟨oneGpu, {}, ⟨.error .linAlg, fun _ => .error .linAlg, .error .linAlg⟩, by simp [solveOn],
    by simp [solveOn, onTorch, getGpuEngine, torchGpuDevice, oneGpu, noGpu]⟩

/-- The documented entry `update_Chol_factor_compute_device` has no effect. -/
theorem C130_update_key_violated {β : Type} (e : Env) (a : Args) (device : String) (l : Libs β) (d : Option String) :
    updateCholOn e { a with updateCholFactorDevice := d } device l = l.cpu := rfl

/-- The stochastic log-determinant is computed on a GPU exactly if that is asked for and imate has one; if asked for in vain there is a warning. -/
theorem C130_imate (devices : Option ℤ) (a : Args) (device : String) :
    ((imateOn devices a device).1 = true ↔ device = "gpu" ∧ ∃ n : ℤ, devices = some n ∧ 0 < n) ∧
    ((imateOn devices a device).2 = true ↔ device = "gpu" ∧ (imateOn devices a device).1 = false) := by
  cases devices <;> by_cases h : device = "gpu" <;> simp [imateOn, h]

/-- The documented entry `random_logdet_lanczos_compute_device` has no effect: with one device and `compute_device="cpu"` a request for the GPU is not met and
not reported, and a request for the CPU does not keep the computation from the GPU. -/
theorem C130_logdet_key_violated : imateOn (some 1) { randomLogdetDevice := some "gpu" } "cpu" = (false, false) ∧
    imateOn (some 1) { randomLogdetDevice := some "cpu" } "gpu" = (true, false) := by
  simp [imateOn]

example : Agree (⟨.ok 3, fun _ => .ok 3, .ok 3⟩ : Libs ℕ) 3 := ⟨rfl, fun _ => rfl, rfl⟩
example : Known none "gpu" ∧ Known (some "cpu") "tpu" := ⟨.inr rfl, .inl rfl⟩
example : (getGpuEngine oneGpu { gpuEngine := some "foo" }).1 = none := by
  have : "foo".toLower = "foo" := by decide +kernel
  simp [getGpuEngine, unavailableReason, engineAlias, this]

end Verif.LinAlg.Device
