import Verif.Model.FFT

/-!
# Model of the FFT on graphics processors (plumbing/backend_gpu/fft_gpu_transform.h)

The data path is that of `Verif.Model.FFT`; `transform` and `reflect` are different. The threads of a kernel run one after the other, in any order: they write
different elements. The one-dimensional transform of the FFT library is a parameter. Streams are not modelled: every step is finished before the next one begins.
The outcome `none`: an access outside of the work array, an overflow of an `int`, or a kernel without blocks, which is an error that ends the program
at the next `check_device_error` (fft_gpu_transform.h:328).
-/

namespace Hila

variable {n : ℕ} {A : Type}

/-- `N_threads` (params.h). -/
def fftThreads : ℕ := 256

/-- `GPUFFT_BATCH_SIZE` (params.h). -/
def fftBatchSize : ℕ := 256

/-- One pass of the loop that makes the batch smaller (fft_gpu_transform.h:278-285): the first of the numbers 2, 3, 5, 7 that divides it. -/
def splitOnce (b : ℕ × ℕ) : Option (ℕ × ℕ) := ([2, 3, 5, 7].find? fun div => b.1 % div = 0).map fun div => (b.1 / div, b.2 * div)

/-- The loop (fft_gpu_transform.h:276-287): `(batch, n_fft)`. The first argument bounds the number of passes. -/
def splitBatch : ℕ → ℕ × ℕ → ℕ × ℕ
  | 0, b => b
  | fuel + 1, b =>
    if b.1 > fftBatchSize then
      match splitOnce b with
      | some b' => splitBatch fuel b'
      | none => b
    else b

/-- `hila_fft_gather_column` (fft_gpu_transform.h:63-80), thread `ind`, when `ind < columns`. The work array has `cap` elements. -/
def gatherThread (lay : Layout n) (E r : ℕ) (dir : Fin n) (cap : ℕ) (M : PBuf A) (w : ℕ → A) (ind : ℕ) : Option (ℕ → A) :=
  if 2 ^ 31 ≤ lay.L dir * ind then none
  else ((List.range (lay.ndiv dir)).foldlM (fun (acc : (ℕ → A) × ℕ) i =>
    (List.range (pencilSize lay r dir i)).foldlM (fun (acc : (ℕ → A) × ℕ) j =>
      if acc.2 < cap ∧ acc.2 + 1 < 2 ^ 31 then
        some (Function.update acc.1 acc.2 (M (recPtr lay E r dir i).1 ((recPtr lay E r dir i).2 + (j + ind * pencilSize lay r dir i))), acc.2 + 1)
      else none) acc) (w, lay.L dir * ind)).map Prod.fst

/-- `hila_fft_scatter_column` (fft_gpu_transform.h:82-99), thread `ind`, when `ind < columns`. -/
def scatterThread (lay : Layout n) (E r : ℕ) (dir : Fin n) (cap : ℕ) (w : ℕ → A) (M : PBuf A) (ind : ℕ) : Option (PBuf A) :=
  if 2 ^ 31 ≤ lay.L dir * ind then none
  else ((List.range (lay.ndiv dir)).foldlM (fun (acc : PBuf A × ℕ) i =>
    (List.range (pencilSize lay r dir i)).foldlM (fun (acc : PBuf A × ℕ) j =>
      if acc.2 < cap ∧ acc.2 + 1 < 2 ^ 31 then
        some (writeRange acc.1 ((recPtr lay E r dir i).1, (recPtr lay E r dir i).2 + (j + ind * pencilSize lay r dir i)) 1 (fun _ => w acc.2), acc.2 + 1)
      else none) acc) (M, lay.L dir * ind)).map Prod.fst

/-- A kernel with `columns` columns of work: the threads of `N_blocks` blocks, in the order `order` (fft_gpu_transform.h:307-316). -/
def runKernel {S : Type} (columns : ℕ) (order : List ℕ) (thread : S → ℕ → Option S) (s : S) : Option S :=
  if (columns + fftThreads - 1) / fftThreads = 0 then none
  else order.foldlM (fun s ind => if ind < columns then thread s ind else some s) s

/-- The threads of the kernel. -/
def kernelThreads (columns : ℕ) : List ℕ := List.range ((columns + fftThreads - 1) / fftThreads * fftThreads)

/-- A call of the FFT library with a plan for `batch` transforms of length `L`, at the address `off` of the work array (`hila_gpufft_execute`,
fft_gpu_transform.h:241-252). -/
def execBatch (L batch : ℕ) (F : (ℕ → A) → ℕ → A) (off : ℕ) (w : ℕ → A) : ℕ → A := fun a =>
  if off ≤ a ∧ a < off + batch * L then F (fun t => w (off + (a - off) / L * L + t)) ((a - off) % L) else w a

/-- The loop over the batches (fft_gpu_transform.h:323-329). -/
def fftExecAll (L : ℕ) (b : ℕ × ℕ) (F : (ℕ → A) → ℕ → A) (w : ℕ → A) : ℕ → A :=
  (List.range b.2).foldl (fun w i => execBatch L b.1 F (i * (b.1 * L)) w) w

/-- `hila_reflect_dir_kernel` (fft_gpu_transform.h:562-578), thread `ind`, when `ind < columns`. -/
def reflectThread (L : ℕ) (w : ℕ → A) (ind : ℕ) : ℕ → A :=
  (List.range (L / 2 - 1)).foldl (fun w k =>
    let i1 := L * ind + (k + 1)
    let i2 := L * ind + L - (k + 1)
    Function.update (Function.update w i1 (w i2)) i2 (w i1)) w

/-- The orders of the threads of the three kernels. -/
structure KernelOrders where
  gather : List ℕ
  reflect : List ℕ
  scatter : List ℕ

/-- `transform` (fft_gpu_transform.h:254-349) on rank `r`. `junk` is the content of the new work array. -/
def gpuTransform (lay : Layout n) (E r : ℕ) (dir : Fin n) (F : (ℕ → A) → ℕ → A) (ord : KernelOrders) (junk : ℕ → A) (M : PBuf A) : Option (PBuf A) :=
  let columns := myColumns lay r dir * E
  let b := splitBatch (myColumns lay r dir) (myColumns lay r dir, E)
  let cap := fftBufSize lay r * E
  (runKernel columns ord.gather (gatherThread lay E r dir cap M) junk).bind fun w =>
    runKernel columns ord.scatter (scatterThread lay E r dir cap (fftExecAll (lay.L dir) b F w)) M

/-- `reflect` (fft_gpu_transform.h:581-641) on rank `r`. -/
def gpuReflect (lay : Layout n) (E r : ℕ) (dir : Fin n) (ord : KernelOrders) (junk : ℕ → A) (M : PBuf A) : Option (PBuf A) :=
  let columns := myColumns lay r dir * E
  let cap := fftBufSize lay r * E
  (runKernel columns ord.gather (gatherThread lay E r dir cap M) junk).bind fun w =>
    (runKernel columns ord.reflect (fun w ind => some (reflectThread (lay.L dir) w ind)) w).bind fun w =>
      runKernel columns ord.scatter (scatterThread lay E r dir cap w) M

/-- A step on all ranks; it fails if it fails on one rank. -/
def onRanks (lay : Layout n) (step : ℕ → PBuf A → Option (PBuf A)) (M : ℕ → PBuf A) : Option (ℕ → PBuf A) :=
  if (List.range lay.numNodes).all (fun r => (step r (M r)).isSome) then some fun r => (step r (M r)).getD (M r) else none

/-- One pass of the `foralldir` loop of `full_transform` (fft.h:307-334) with the step `step dir` in place of `transform`. `gather_data` and `scatter_data`
(fft_gpu_transform.h:355-549) move the same elements as on the CPU; the copies to and from the memory of the host are left out. -/
def fftDirectionGpu (lay : Layout n) (E : ℕ) (step : Fin n → ℕ → PBuf A → Option (PBuf A)) (order : ℕ → List (Site n)) (input : Site n → ℕ → A)
    (st : Option (Fin n) × (ℕ → PBuf A)) (dir : Fin n) : Option (Option (Fin n) × (ℕ → PBuf A)) :=
  let M1 : ℕ → PBuf A := fun r =>
    match st.1 with
    | none => collectData lay E r dir (order r) input (st.2 r)
    | some prev => reshuffleData lay E r prev dir (order r) (st.2 r)
  (onRanks lay (step dir) (gatherData lay E dir M1)).map fun M3 => (some dir, fun r => swapBuffers (scatterData lay E dir M3 r))

/-- `full_transform` (fft.h:295-340) and `save_result` (fft.h:216-243), as `fullTransform`. -/
def fullTransformGpu (lay : Layout n) (E : ℕ) (step : Fin n → ℕ → PBuf A → Option (PBuf A)) (uninit : ℕ → PBuf A) (order : ℕ → List (Site n))
    (directions : Fin n → Bool) (input : Site n → ℕ → A) : Option (Site n → ℕ → A) :=
  (((List.finRange n).filter fun d => directions d).foldlM (fftDirectionGpu lay E step order input) (none, uninit)).bind fun st =>
    st.1.map fun dir => fun c e => st.2 (lay.nodeRank c) false (pencilAddr (lay.nodeinfo (lay.nodeRank c)) dir E c e)

/-! ### The plans -/

/-- A saved plan (fft_gpu_transform.h:107-112): what it was made for and the work area that was set. -/
structure FftPlan where
  size : ℕ
  batch : ℕ
  isFloat : Bool
  area : Option ℕ

/-- `hila_saved_fftplan_t` (fft_gpu_transform.h:105-122): plans, address and size of the work area. `none` is the null pointer. -/
structure FftPlans where
  plans : List FftPlan
  area : Option ℕ
  areaSize : ℕ

/-- The plans at the start of the program. -/
def FftPlans.start : FftPlans := ⟨[], none, 0⟩

/-- `get_plan` (fft_gpu_transform.h:149-226) with shared memory (`GPUFFT_SHARE_PLAN_MEMORY`): the plan and the new state. `need` is the size of the work area that the
library estimates, `fresh` the address of a new one. -/
def FftPlans.get (need : ℕ → ℕ → Bool → ℕ) (fresh : ℕ) (s : FftPlans) (size batch : ℕ) (isFloat : Bool) : FftPlan × FftPlans :=
  match s.plans.find? fun p => p.size = size ∧ p.batch = batch ∧ p.isFloat = isFloat with
  | some p => (p, s)
  | none =>
    if s.areaSize ≥ need size batch isFloat then
      let p : FftPlan := ⟨size, batch, isFloat, s.area⟩
      (p, { s with plans := s.plans ++ [p] })
    else
      let p : FftPlan := ⟨size, batch, isFloat, some fresh⟩
      (p, ⟨s.plans.map (fun q => { q with area := some fresh }) ++ [p], some fresh, need size batch isFloat⟩)

end Hila
