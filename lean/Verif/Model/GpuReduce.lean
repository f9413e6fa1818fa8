import Mathlib.Data.List.Range
import Mathlib.Data.List.Flatten
import Mathlib.Algebra.BigOperators.Group.List.Basic
import Mathlib.Logic.Function.Basic

/-!
# Reductions on graphics processors

Models the kernels that hilapp generates for loops with reductions (`/repo/hilapp/src/codegen_gpu.cpp`)
and the functions they are combined with (`/repo/libraries/plumbing/backend_gpu/gpu_templated_ops.h`).

A kernel is run by many threads. Every thread executes a list of accumulations `mem[d] op= x`; each is
three separate steps (load the target, load the operand, store), and the threads are interleaved by an
arbitrary schedule. `__syncthreads()` and the end of a kernel are points that every thread reaches
before any goes on. Values have a type `W`; the operation and its unit are parameters, so that
sums, products and rounded arithmetic are the same model. Device memory that was allocated and not
written has arbitrary content. An access outside an allocated array is the outcome `none`, and so is a
kernel launched with no blocks, which the runtime refuses (hila_gpu.cpp 757-776: the program stops).
Integer variables are natural numbers. Memory ordering inside a kernel is sequentially consistent; the
kernels of `Verif.Props.GpuReduce` are proved free of races, so that nothing weaker can be observed.
-/

namespace Hila
namespace Gpu

/-- Right-hand side of an accumulation: a cell of the same array, or a value that the thread has
computed from data no thread of the kernel changes. -/
inductive Src (W : Type) where
  | cell (a : ℕ)
  | val (w : W)

/-- Value of an operand (`vector[ind]`, gpu_templated_ops.h:120). -/
def Src.get {W : Type} (mem : ℕ → W) : Src W → W
  | .cell a => mem a
  | .val w => w

/-- A thread: what it has still to do and the two registers of the accumulation in progress. -/
structure Thread (W : Type) where
  todo : List (ℕ × Src W)
  r0 : Option W
  r1 : Option W

/-- Memory and threads of a running kernel. -/
structure State (W : Type) where
  mem : ℕ → W
  th : ℕ → Thread W

/-- One step of thread `t` in `mem[d] op= x` (`_hila_kernel_add_var`, gpu_templated_ops.h:94-112,
or `*=`): load the target, load the operand, store the result. -/
def State.step {W : Type} (op : W → W → W) (s : State W) (t : ℕ) : State W :=
  match (s.th t).todo with
  | [] => s
  | (d, x) :: rest =>
    match (s.th t).r0, (s.th t).r1 with
    | none, _ => { s with th := Function.update s.th t ⟨(d, x) :: rest, some (s.mem d), none⟩ }
    | some a, none =>
      { s with th := Function.update s.th t ⟨(d, x) :: rest, some a, some (x.get s.mem)⟩ }
    | some a, some b =>
      { mem := Function.update s.mem d (op a b), th := Function.update s.th t ⟨rest, none, none⟩ }

/-- A schedule: the threads that make the successive steps. -/
def State.run {W : Type} (op : W → W → W) (s : State W) (sched : List ℕ) : State W :=
  sched.foldl (State.step op) s

/-- All threads at their beginning. -/
def State.start {W : Type} (mem : ℕ → W) (prog : ℕ → List (ℕ × Src W)) : State W :=
  ⟨mem, fun t => ⟨prog t, none, none⟩⟩

/-- `mem'` can be the memory after all threads have finished. -/
def Runs {W : Type} (op : W → W → W) (prog : ℕ → List (ℕ × Src W)) (mem mem' : ℕ → W) : Prop :=
  ∃ sched : List ℕ, (∀ t, (((State.start mem prog).run op sched).th t).todo = []) ∧
    ((State.start mem prog).run op sched).mem = mem'

/-- All addresses are inside an array of `size` elements. -/
def InBounds {W : Type} (size : ℕ) (prog : ℕ → List (ℕ × Src W)) : Prop :=
  ∀ t, ∀ p ∈ prog t, p.1 < size ∧ ∀ a, p.2 = .cell a → a < size

/-- The possible outcomes of a kernel on an array of `size` elements. -/
inductive Kernel {W : Type} (op : W → W → W) (size : ℕ) (prog : ℕ → List (ℕ × Src W))
    (mem : ℕ → W) : Option (ℕ → W) → Prop
  | ok {mem' : ℕ → W} (hb : InBounds size prog) (hr : Runs op prog mem mem') :
      Kernel op size prog mem (some mem')
  | fault (hb : ¬ InBounds size prog) : Kernel op size prog mem none

/-! ### Sites of the threads -/

/-- `for (HILA_idx_l_ = idx; HILA_idx_l_ < end; HILA_idx_l_ += step)` (codegen_gpu.cpp:857-861). The
first argument bounds the number of turns. -/
def siteLoop : ℕ → ℕ → ℕ → ℕ → List ℕ
  | 0, _, _, _ => []
  | fuel + 1, idx, e, step => if idx < e then idx :: siteLoop fuel (idx + step) e step else []

/-- Sites handled by the thread with `HILA_thread_id = g` in a loop from `b` to `e`
(codegen_gpu.cpp:845-862). `T` is `N_threads`; `tb` is `thread_block_number`, `none` if it is not
restricted. -/
def threadSites (T : ℕ) (tb : Option ℕ) (b e g : ℕ) : List ℕ :=
  match tb with
  | none => if g + b < e then [g + b] else []
  | some B => siteLoop (e - (g + b)) (g + b) e (T * B)

/-- `N_blocks` (codegen_gpu.cpp:166-167, 177-178, 424-427). -/
def numBlocks (T : ℕ) (tb : Option ℕ) (b e : ℕ) : ℕ :=
  let n := (e - b + T - 1) / T
  match tb with
  | none => n
  | some B => if n > B then B else n

/-! ### Reductions to one variable -/

/-- The private sum of a thread (codegen_gpu.cpp:814-836 and the loop body): it starts from the unit
and gets what the body adds at each site, in order. -/
def threadSum {W : Type} (op : W → W → W) (unit : W) (f : ℕ → List W) (sites : List ℕ) : W :=
  (sites.flatMap f).foldl op unit

/-- One round of the reduction inside a block (codegen_gpu.cpp:1046-1066):
`if (threadIdx.x < i) sh[threadIdx.x] op= sh[threadIdx.x + i]`. -/
def treeProg {W : Type} (i : ℕ) : ℕ → List (ℕ × Src W) :=
  fun t => if t < i then [(t, .cell (t + i))] else []

/-- `for (i = N_threads/2; i > 0; i /= 2) { …; __syncthreads(); }` (codegen_gpu.cpp:1046-1066): the
outcomes of the rounds from `i` on, on the shared array of `T` elements. -/
inductive TreeRuns {W : Type} (op : W → W → W) (T : ℕ) : ℕ → (ℕ → W) → Option (ℕ → W) → Prop
  | done (m : ℕ → W) : TreeRuns op T 0 m (some m)
  | step {i : ℕ} {m m1 : ℕ → W} {r : Option (ℕ → W)} (hi : 0 < i)
      (hk : Kernel op T (treeProg i) m (some m1)) (hr : TreeRuns op T (i / 2) m1 r) :
      TreeRuns op T i m r
  | fault {i : ℕ} {m : ℕ → W} (hi : 0 < i) (hk : Kernel op T (treeProg i) m none) :
      TreeRuns op T i m none

/-- What thread 0 of block `blk` has in `sh[0]` at the end (codegen_gpu.cpp:1020-1075). -/
def BlockRuns {W : Type} (op : W → W → W) (unit : W) (T : ℕ) (tb : Option ℕ) (b e : ℕ)
    (f : ℕ → List W) (blk : ℕ) (res : Option W) : Prop :=
  ∃ r, TreeRuns op T (T / 2)
      (fun t => threadSum op unit f (threadSites T tb b e (t + blk * T))) r ∧
    res = r.map (fun m => m 0)

/-- Thread program of `gpu_reduce_sum_kernel` and `gpu_reduce_product_kernel`
(gpu_templated_ops.h:117-126, 161-169), launched with `blocks` blocks of `T` threads on
`vector + first`. -/
def reduceProg {W : Type} (T blocks first newSize elems : ℕ) : ℕ → List (ℕ × Src W) :=
  fun g => if g < blocks * T ∧ g < newSize then
      (List.range' 1 (elems - 1)).map fun i => (first + g, .cell (first + (g + i * newSize)))
    else []

/-- Number of blocks of the reduction kernel: `(new_size - 1)/N_threads + 1` for sums
(gpu_templated_ops.h:145), `new_size/N_threads + 1` for products (line 188). -/
def reduceBlocks (prod : Bool) (T newSize : ℕ) : ℕ :=
  if prod then newSize / T + 1 else (newSize - 1) / T + 1

/-- `gpu_reduce_sum` and `gpu_reduce_product` (gpu_templated_ops.h:128-158, 171-205) on an array of
`alloc` elements of which `n` are left: rounds of the kernel with `reduce_step = 32` until at most 32
are left, which the host combines. -/
inductive ReduceRuns {W : Type} (op : W → W → W) (unit : W) (prod : Bool) (T alloc : ℕ) :
    ℕ → (ℕ → W) → Option W → Prop
  | host {n : ℕ} {m : ℕ → W} (hn : n ≤ 32) :
      ReduceRuns op unit prod T alloc n m (some (((List.range n).map m).foldl op unit))
  | step {n : ℕ} {m m1 : ℕ → W} {r : Option W} (hn : 32 < n)
      (hk : Kernel op alloc (reduceProg T (reduceBlocks prod T ((n - n % 32) / 32)) (n % 32)
        ((n - n % 32) / 32) 32) m (some m1))
      (hr : ReduceRuns op unit prod T alloc ((n - n % 32) / 32 + n % 32) m1 r) :
      ReduceRuns op unit prod T alloc n m r
  | fault {n : ℕ} {m : ℕ → W} (hn : 32 < n)
      (hk : Kernel op alloc (reduceProg T (reduceBlocks prod T ((n - n % 32) / 32)) (n % 32)
        ((n - n % 32) / 32) 32) m none) :
      ReduceRuns op unit prod T alloc n m none

/-- A loop from `b` to `e` with a reduction variable, without overlapping communication
(codegen_gpu.cpp:156-167, 460-474, 1033-1080, 1366-1379): every block writes its result to
`dev[blockIdx]`, and the `N_blocks` elements are combined. `garb` is the content of other memory. -/
inductive ScalarRuns {W : Type} (op : W → W → W) (unit : W) (prod : Bool) (T : ℕ) (tb : Option ℕ)
    (b e : ℕ) (f : ℕ → List W) (garb : ℕ → W) : Option W → Prop
  | noBlocks (h : numBlocks T tb b e = 0) : ScalarRuns op unit prod T tb b e f garb none
  | fault {blk : ℕ} (h : blk < numBlocks T tb b e)
      (hb : BlockRuns op unit T tb b e f blk none) : ScalarRuns op unit prod T tb b e f garb none
  | ok {outs : ℕ → W} {r : Option W} (h : 0 < numBlocks T tb b e)
      (hb : ∀ blk < numBlocks T tb b e, BlockRuns op unit T tb b e f blk (some (outs blk)))
      (hr : ReduceRuns op unit prod T (numBlocks T tb b e) (numBlocks T tb b e)
        (fun i => if i < numBlocks T tb b e then outs i else garb i) r) :
      ScalarRuns op unit prod T tb b e f garb r

/-- The same with overlapping communication (codegen_gpu.cpp:168-182, 1085-1151, 1228-1246): the sites
from `b0` to `e0` are handled first, with `HILA_reduction_init_` true, then those from `b1` to `e1`
with it false, when the blocks add to `dev[blockIdx]`. The array was allocated for the blocks of the
first kernel, and only those are combined at the end: the second `N_blocks` is a variable of the inner
scope. -/
inductive OverlapRuns {W : Type} (op : W → W → W) (unit : W) (prod : Bool) (T : ℕ) (tb : Option ℕ)
    (b0 e0 b1 e1 : ℕ) (f : ℕ → List W) (garb : ℕ → W) : Option W → Prop
  | noBlocks (h : numBlocks T tb b0 e0 = 0 ∨ numBlocks T tb b1 e1 = 0) :
      OverlapRuns op unit prod T tb b0 e0 b1 e1 f garb none
  | outside (h : numBlocks T tb b0 e0 < numBlocks T tb b1 e1) :
      OverlapRuns op unit prod T tb b0 e0 b1 e1 f garb none
  | fault0 {blk : ℕ} (h : blk < numBlocks T tb b0 e0)
      (hb : BlockRuns op unit T tb b0 e0 f blk none) :
      OverlapRuns op unit prod T tb b0 e0 b1 e1 f garb none
  | fault1 {blk : ℕ} (h : blk < numBlocks T tb b1 e1)
      (hb : BlockRuns op unit T tb b1 e1 f blk none) :
      OverlapRuns op unit prod T tb b0 e0 b1 e1 f garb none
  | ok {outs0 outs1 : ℕ → W} {r : Option W} (h0 : 0 < numBlocks T tb b0 e0)
      (h1 : 0 < numBlocks T tb b1 e1) (h : numBlocks T tb b1 e1 ≤ numBlocks T tb b0 e0)
      (hb0 : ∀ blk < numBlocks T tb b0 e0, BlockRuns op unit T tb b0 e0 f blk (some (outs0 blk)))
      (hb1 : ∀ blk < numBlocks T tb b1 e1, BlockRuns op unit T tb b1 e1 f blk (some (outs1 blk)))
      (hr : ReduceRuns op unit prod T (numBlocks T tb b0 e0) (numBlocks T tb b0 e0)
        (fun i => if i < numBlocks T tb b1 e1 then op (outs0 i) (outs1 i)
          else if i < numBlocks T tb b0 e0 then outs0 i else garb i) r) :
      OverlapRuns op unit prod T tb b0 e0 b1 e1 f garb r

/-! ### Reduction vectors, one copy for each thread -/

/-- Thread program of a loop with `rv[bin] op= w` when every thread has its own copy
(codegen_gpu.cpp:757-789): the element is `bin * N_threads * gridDim.x + HILA_thread_id`. `body i` are
the assignments of the loop body at site `i`. -/
def vecProg {W : Type} (T : ℕ) (tb : Option ℕ) (b e : ℕ) (body : ℕ → List (ℕ × W)) :
    ℕ → List (ℕ × Src W) :=
  fun g => if g < numBlocks T tb b e * T then
      (threadSites T tb b e g).flatMap fun i =>
        (body i).map fun p => (p.1 * (T * numBlocks T tb b e) + g, .val p.2)
    else []

/-- `sum_blocked_vectorreduction_kernel_cub` (gpu_templated_ops.h:358-381) for block `j` of `n`, with
`S = GPU_BLOCK_REDUCTION_THREADS` threads and `threads` copies. `BlockReduce::Sum` is the sum over the
threads of the block. -/
def sumBlocked {W : Type} [AddMonoid W] (S n threads : ℕ) (D : ℕ → W) (j : ℕ) : W :=
  ((List.range S).map fun t =>
    ((List.range (max 1 ((threads + S - 1) / S))).map fun i =>
      if j * threads + t + i * S < n * threads then D (j * threads + t + i * S) else 0).sum).sum

/-- A loop with a reduction vector of `n` elements whose value was `old`, with
`GPU_VECTOR_REDUCTION_THREAD_BLOCKS > 0` and without overlapping communication
(codegen_gpu.cpp:476-508, 1332-1360). `op`, `unit` are the operation of the loop; the copies are
combined by `sumBlocked` in either case. -/
inductive VecRuns {W : Type} [AddMonoid W] (op : W → W → W) (unit : W) (S T : ℕ) (tb : Option ℕ)
    (b e n : ℕ) (body : ℕ → List (ℕ × W)) (old : ℕ → W) : Option (ℕ → W) → Prop
  | noBlocks (h : numBlocks T tb b e = 0) : VecRuns op unit S T tb b e n body old none
  | fault (hk : Kernel op (n * (T * numBlocks T tb b e)) (vecProg T tb b e body) (fun _ => unit)
      none) : VecRuns op unit S T tb b e n body old none
  | ok {m : ℕ → W} (h : 0 < numBlocks T tb b e)
      (hk : Kernel op (n * (T * numBlocks T tb b e)) (vecProg T tb b e body) (fun _ => unit)
        (some m)) :
      VecRuns op unit S T tb b e n body old
        (some fun j => op (old j) (sumBlocked S n (numBlocks T tb b e * T) m j))

/-- The same with overlapping communication (codegen_gpu.cpp:1228-1246): the second kernel works on
the same array, but its `gridDim.x` is its own number of blocks. -/
inductive VecOverlapRuns {W : Type} [AddMonoid W] (op : W → W → W) (unit : W) (S T : ℕ)
    (tb : Option ℕ) (b0 e0 b1 e1 n : ℕ) (body : ℕ → List (ℕ × W)) (old : ℕ → W) :
    Option (ℕ → W) → Prop
  | noBlocks (h : numBlocks T tb b0 e0 = 0 ∨ numBlocks T tb b1 e1 = 0) :
      VecOverlapRuns op unit S T tb b0 e0 b1 e1 n body old none
  | fault0 (hk : Kernel op (n * (T * numBlocks T tb b0 e0)) (vecProg T tb b0 e0 body)
      (fun _ => unit) none) : VecOverlapRuns op unit S T tb b0 e0 b1 e1 n body old none
  | fault1 {m : ℕ → W} (hk : Kernel op (n * (T * numBlocks T tb b0 e0)) (vecProg T tb b1 e1 body) m
      none) : VecOverlapRuns op unit S T tb b0 e0 b1 e1 n body old none
  | ok {m m1 : ℕ → W} (h0 : 0 < numBlocks T tb b0 e0) (h1 : 0 < numBlocks T tb b1 e1)
      (hk0 : Kernel op (n * (T * numBlocks T tb b0 e0)) (vecProg T tb b0 e0 body) (fun _ => unit)
        (some m))
      (hk1 : Kernel op (n * (T * numBlocks T tb b0 e0)) (vecProg T tb b1 e1 body) m (some m1)) :
      VecOverlapRuns op unit S T tb b0 e0 b1 e1 n body old
        (some fun j => op (old j) (sumBlocked S n (numBlocks T tb b0 e0 * T) m1 j))

/-! ### Reduction vectors with atomic operations -/

/-- A thread in `atomic_Add` or `atomicMultiply`: the calls it has still to make, and the local
variable `old` of the call in progress. -/
structure AThread (W : Type) where
  todo : List (ℕ × W)
  old : Option W

/-- Memory and threads. -/
structure AState (W : Type) where
  mem : ℕ → W
  th : ℕ → AThread W

/-- One step of thread `t` (gpu_templated_ops.h:232-248, 296-330). With `hw` the operation is one
instruction of the hardware (lines 250-262). Otherwise: `old = *dp`, then
`old = atomicCAS(dp, av, v op av)` until `av == old`. Values are compared as bit patterns. -/
def AState.step {W : Type} [DecidableEq W] (op : W → W → W) (hw : Bool) (s : AState W) (t : ℕ) :
    AState W :=
  match (s.th t).todo with
  | [] => s
  | (d, v) :: rest =>
    if hw then
      { mem := Function.update s.mem d (op v (s.mem d)),
        th := Function.update s.th t ⟨rest, none⟩ }
    else match (s.th t).old with
    | none => { s with th := Function.update s.th t ⟨(d, v) :: rest, some (s.mem d)⟩ }
    | some av =>
      if s.mem d = av then
        { mem := Function.update s.mem d (op v av), th := Function.update s.th t ⟨rest, none⟩ }
      else { s with th := Function.update s.th t ⟨(d, v) :: rest, some (s.mem d)⟩ }

/-- `mem'` can be the memory after all threads have finished. -/
def ARuns {W : Type} [DecidableEq W] (op : W → W → W) (hw : Bool) (prog : ℕ → List (ℕ × W))
    (mem mem' : ℕ → W) : Prop :=
  ∃ sched : List ℕ,
    (∀ t, ((sched.foldl (AState.step op hw) ⟨mem, fun t => ⟨prog t, none⟩⟩).th t).todo = []) ∧
    (sched.foldl (AState.step op hw) ⟨mem, fun t => ⟨prog t, none⟩⟩).mem = mem'

/-- Calls of the thread with number `g` in a loop from `b` to `e` (codegen_gpu.cpp:736-755). -/
def atomicProg {W : Type} (T : ℕ) (tb : Option ℕ) (b e : ℕ) (body : ℕ → List (ℕ × W)) :
    ℕ → List (ℕ × W) :=
  fun g => if g < numBlocks T tb b e * T then (threadSites T tb b e g).flatMap body else []

/-- A loop with a reduction vector when `GPU_VECTOR_REDUCTION_THREAD_BLOCKS` is 0
(codegen_gpu.cpp:476-508, 1332-1360): the device array starts from the unit and is changed by atomic
operations; `garb` is the content of `a_v__tmp = new T[n]`, to which nothing is copied before it is
added to the vector. -/
inductive AtomicRuns {W : Type} [DecidableEq W] (op : W → W → W) (unit : W) (hw : Bool) (T : ℕ)
    (tb : Option ℕ) (b e n : ℕ) (body : ℕ → List (ℕ × W)) (garb old : ℕ → W) :
    Option (ℕ → W) → Prop
  | noBlocks (h : numBlocks T tb b e = 0) : AtomicRuns op unit hw T tb b e n body garb old none
  | fault (h : ∃ g, ∃ p ∈ atomicProg T tb b e body g, n ≤ p.1) :
      AtomicRuns op unit hw T tb b e n body garb old none
  | ok {m : ℕ → W} (h : 0 < numBlocks T tb b e)
      (hb : ∀ g, ∀ p ∈ atomicProg T tb b e body g, p.1 < n)
      (hk : ARuns op hw (atomicProg T tb b e body) (fun _ => unit) m) :
      AtomicRuns op unit hw T tb b e n body garb old (some fun j => op (old j) (garb j))

end Gpu
end Hila
