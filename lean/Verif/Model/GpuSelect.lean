import Verif.Model.SiteSelect

/-!
# Model of site selection on graphics processors

The generated kernel marks the selected sites in a mask on the device; after the loop the marked
entries are compacted and copied to the host. One thread runs the loop body for one slot. The model
runs the stores of all threads in an arbitrary interleaving. The join of the ranks is that of the CPU
version (`Model/SiteSelect`).
-/

namespace Hila

/-- The device arrays of one selection variable: mask, site indices and values, by slot
(hilapp/src/codegen_gpu.cpp:515-533). They come from `gpuMalloc`, which does not initialise them. -/
structure DevSel (V : Type) where
  mask : ℕ → ℕ
  sites : ℕ → ℕ
  values : ℕ → V

/-- One store of a thread into its own slot of one of the three arrays. -/
inductive SelOp (V : Type) where
  | mask (m : ℕ)
  | site (s : ℕ)
  | value (v : V)

/-- The stores of the thread of a slot with site index `site`, in program order: the mask is reset
before the loop body (codegen_gpu.cpp:1002-1008); each selection in the body sets the mask, the site
index and the value (codegen_gpu.cpp:631-655). Without values the last store does not exist; it is
kept here, and the array is not read. -/
def selThread {V : Type} (site : ℕ) (selected : List V) : List (SelOp V) :=
  .mask 0 :: selected.flatMap fun v => [.mask 1, .site site, .value v]

/-- One store of the thread of slot `i`. -/
def DevSel.store {V : Type} (d : DevSel V) (i : ℕ) : SelOp V → DevSel V
  | .mask m => { d with mask := Function.update d.mask i m }
  | .site s => { d with sites := Function.update d.sites i s }
  | .value v => { d with values := Function.update d.values i v }

/-- The kernels of the loop: the stores of all threads in the order `sched`. -/
def DevSel.run {V : Type} (sched : List (ℕ × SelOp V)) (d : DevSel V) : DevSel V :=
  sched.foldl (fun d x => d.store x.1 x.2) d

/-- `DeviceSelect::Flagged`: the entries of `data` whose flag is not zero, in the order of the slots,
over `volume` slots (site_select.h:221-243). -/
def flagged {A : Type} (volume : ℕ) (mask : ℕ → ℕ) (data : ℕ → A) : List A :=
  ((List.range volume).filter fun i => mask i != 0).map data

/-- `copy_data_to_host_vector` for the site indices (site_select.h:218-256): at most `nmax` entries
are copied; `n_overflow` is set only if there are more. -/
def SelState.copySites {V : Type} (volume : ℕ) (d : DevSel V) (s : SelState V) : SelState V :=
  let sel := flagged volume d.mask d.sites
  let s1 := if sel.length > s.nmax then { s with overflow := sel.length - s.nmax } else s
  let num := if sel.length > s.nmax then s.nmax else sel.length
  { s1 with sites := sel.take num }

/-- `copy_data_to_host_vector` for the values (site_select.h:218-256). -/
def SelState.copyValues {V : Type} (volume : ℕ) (d : DevSel V) (s : SelState V) : SelState V :=
  let sel := flagged volume d.mask d.values
  let s1 := if sel.length > s.nmax then { s with overflow := sel.length - s.nmax } else s
  let num := if sel.length > s.nmax then s.nmax else sel.length
  { s1 with values := sel.take num }

/-- `endloop_action` without the join (site_select.h:258-265, 318-325). -/
def SelState.gpuEndloop {V : Type} (volume : ℕ) (d : DevSel V) (s : SelState V) : SelState V :=
  if s.hasValues then (s.copySites volume d).copyValues volume d else s.copySites volume d

/-- A loop with one selection variable on `N` ranks: `setup()` (hilapp/src/codegen.cpp:240-250), the
kernels, the end of the loop and the join. `dev r` is the content of the fresh device arrays of rank
`r`, `sched r` the order of the stores. -/
def gpuSelectLoop {V : Type} (dflt : V) (N : ℕ) (nodeVolume : ℕ → ℕ) (dev : ℕ → DevSel V)
    (sched : ℕ → List (ℕ × SelOp V)) (st : ℕ → SelState V) : ℕ → SelState V :=
  let done := fun r => ((st r).setup dflt (nodeVolume r)).gpuEndloop (nodeVolume r)
    ((dev r).run (sched r))
  if (st 0).autoJoin then joinAll dflt N done else done

end Hila
