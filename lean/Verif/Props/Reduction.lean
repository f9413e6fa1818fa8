import Verif.Lemmas.Reduction
import Verif.Props.Gather

/-!
# C10, C11: reductions

Specification of sum reductions: `Expected` follows a history of operations and says which total
the variable should hold and which ranks may rely on it. It knows nothing about messages.
-/

namespace Hila

open BigOperators

/-! ## C10 -/

/-- What a user expects of a reduction variable. `total`: last assigned value plus all
contributions since. `everywhere`: every rank (not only rank 0) has been given the total.
`unreduced`: delayed contributions have not been combined yet. `fresh`: the variable has been
assigned since contributions were combined last. `valid`: no delayed loop ran on a variable that
was not fresh. -/
structure Expected (V : Type) where
  total : V
  allreduce : Bool
  everywhere : Bool
  unreduced : Bool
  fresh : Bool
  valid : Bool

/-- At construction. -/
def Expected.init (V : Type) [Zero V] : Expected V := ⟨0, true, false, false, true, true⟩

/-- One operation; `dl` tells whether the variable is used in delayed mode. -/
def Expected.step {V : Type} [AddCommMonoid V] (N : ℕ) (dl : Bool) (e : Expected V) :
    RedOp V → Expected V
  | .allreduce b => { e with allreduce := b }
  | .nonblocking _ => e
  | .delayed _ => e
  | .assign v => { e with total := v, everywhere := false, fresh := true }
  | .plus b => { e with total := e.total + b }
  | .loop c =>
    let t := e.total + ∑ r ∈ Finset.range N, c r
    if dl then { e with total := t, everywhere := false, unreduced := true,
                        valid := e.valid && e.fresh }
    else { e with total := t, everywhere := e.allreduce }
  | .start | .reduce =>
    if e.unreduced then { e with unreduced := false, fresh := false, everywhere := e.allreduce }
    else e

/-- A history. -/
def Expected.run {V : Type} [AddCommMonoid V] (N : ℕ) (dl : Bool) (e : Expected V)
    (ops : List (RedOp V)) : Expected V := ops.foldl (Expected.step N dl) e

/-- The operation does not change the delayed mode. -/
def RedOp.keepsMode {V : Type} : RedOp V → Bool
  | .delayed _ => false
  | _ => true

/-- The operation is `+=` outside of a loop. -/
def RedOp.isPlus {V : Type} : RedOp V → Bool
  | .plus _ => true
  | _ => false

section

variable {V : Type} [AddCommMonoid V]

theorem sum_rank0 (N : ℕ) (hN : 0 < N) (t : V) (c : ℕ → V) (x : ℕ → V) (hx : x 0 = t) :
    (∑ r ∈ Finset.range N, if r = 0 then x r + c r else c r) =
      t + ∑ r ∈ Finset.range N, c r := by
  obtain ⟨k, rfl⟩ : ∃ k, N = k + 1 := ⟨N - 1, by omega⟩
  rw [Finset.sum_range_succ' (fun r => if r = 0 then x r + c r else c r),
    Finset.sum_range_succ' c]
  simp only [Nat.succ_ne_zero, if_false, if_true, hx]
  rw [add_left_comm]

/-- Invariant of the immediate mode. -/
structure ImmInv (s : RedState V) (e : Expected V) : Prop where
  mode : s.delayed = false
  off : s.delayOn = false
  ar : s.allreduce = e.allreduce
  unred : e.unreduced = false
  root : s.eff 0 = e.total
  all : e.everywhere = true → ∀ r, s.eff r = e.total

theorem immInv_step (N : ℕ) (hN : 0 < N) (s s' : RedState V) (e : Expected V) (op : RedOp V)
    (hm : op.keepsMode = true) (h : ImmInv s e) (hs : s.step N op = some s') :
    ImmInv s' (e.step N false op) := by
  cases op with
  | allreduce b =>
    simp only [RedState.step, Option.some.injEq] at hs; subst hs
    exact ⟨h.mode, h.off, rfl, h.unred, h.root, h.all⟩
  | nonblocking b =>
    simp only [RedState.step, Option.some.injEq] at hs; subst hs
    exact ⟨h.mode, h.off, h.ar, h.unred, h.root, h.all⟩
  | delayed b => cases hm
  | assign v =>
    simp only [RedState.step, Option.some.injEq] at hs; subst hs
    obtain ⟨h1, h2, h3, h4, h5, h6⟩ := assign_facts s v
    exact ⟨h5.trans h.mode, h6.trans h.off, h3.trans h.ar, h.unred, by rw [h1]; rfl,
      fun hx => by cases hx⟩
  | plus b =>
    simp only [RedState.step] at hs
    split at hs
    · cases hs
    · rename_i hc
      simp only [Option.some.injEq] at hs; subst hs
      have he : s.eff = s.val := by unfold RedState.eff; simp [hc]
      have he' : ({ s with val := fun r => s.val r + b } : RedState V).eff =
          fun r => s.val r + b := by unfold RedState.eff; simp [hc]
      refine ⟨h.mode, h.off, h.ar, h.unred, ?_, fun hx r => ?_⟩
      · rw [he']; show s.val 0 + b = e.total + b; rw [← h.root, he]
      · rw [he']; show s.val r + b = e.total + b; rw [← h.all hx r, he]
  | loop c =>
    simp only [RedState.step, Option.some.injEq] at hs; subst hs
    obtain ⟨h1, h2, h3, h4, -⟩ := sumNode_flags N s c
    have he := sumNode_eff_immediate N s c h.mode
    rw [sum_rank0 N hN e.total c s.eff h.root] at he
    refine ⟨h3.trans h.mode, (h4 h.mode).trans h.off, h1.trans h.ar, h.unred, ?_, ?_⟩
    · rw [he]; simp [reduced, Expected.step]
    · intro hx r
      have hx' : e.allreduce = true := hx
      rw [he]; simp [reduced, h.ar, hx', Expected.step]
  | start =>
    simp only [RedState.step, Option.some.injEq] at hs; subst hs
    have : s.startReduce N = s := by
      unfold RedState.startReduce; rw [h.off]; simp
    rw [this]
    have he : e.step N false .start = e := by simp [Expected.step, h.unred]
    rw [he]; exact h
  | reduce =>
    simp only [RedState.step, Option.some.injEq] at hs; subst hs
    have : s.startReduce N = s := by
      unfold RedState.startReduce; rw [h.off]; simp
    unfold RedState.reduce
    rw [this]
    have he : e.step N false .reduce = e := by simp [Expected.step, h.unred]
    rw [he]
    obtain ⟨f1, f2, f3, f4⟩ := wait_flags s
    exact ⟨f3.trans h.mode, f4.trans h.off, f1.trans h.ar, h.unred, by rw [wait_eff]; exact h.root,
      fun hx r => by rw [wait_eff]; exact h.all hx r⟩

theorem immInv_run (N : ℕ) (hN : 0 < N) (ops : List (RedOp V)) :
    ∀ (s s' : RedState V) (e : Expected V), (∀ op ∈ ops, op.keepsMode = true) → ImmInv s e →
      s.run N ops = some s' → ImmInv s' (e.run N false ops) := by
  induction ops with
  | nil =>
    intro s s' e _ h hs
    simp only [RedState.run, Option.some.injEq] at hs; subst hs; exact h
  | cons op ops ih =>
    intro s s' e hm h hs
    simp only [RedState.run] at hs
    rw [Option.bind_eq_some_iff] at hs
    obtain ⟨s1, h1, h2⟩ := hs
    exact ih s1 s' _ (fun o ho => hm o (List.mem_cons_of_mem _ ho))
      (immInv_step N hN s s1 e op (hm op (List.mem_cons_self)) h h1) h2

theorem immInv_init : ImmInv (RedState.init : RedState V) (Expected.init V) := by
  refine ⟨rfl, rfl, rfl, rfl, rfl, fun h => by cases h⟩

/-- **C10** (immediate and non-blocking modes). After any history of assignments, loops, reads,
`+=` outside of loops and changes of the allreduce and non-blocking flags, `value()` on rank 0 is
the last assigned value plus all contributions since, each counted once. Every other rank gets the
same value if the variable has been through a loop with allreduce on since its last assignment.
(`run` fails only if `+=` is used outside of loops while a non-blocking reduction is in
progress, see `C10_defined`.) -/
theorem C10_immediate_partial (N : ℕ) (hN : 0 < N) (ops : List (RedOp V))
    (hm : ∀ op ∈ ops, op.keepsMode = true) (s : RedState V)
    (hs : RedState.init.run N ops = some s) :
    s.value N 0 = ((Expected.init V).run N false ops).total ∧
    (((Expected.init V).run N false ops).everywhere = true →
      ∀ r, s.value N r = ((Expected.init V).run N false ops).total) := by
  have h := immInv_run N hN ops _ s _ hm immInv_init hs
  have hv : s.value N = s.eff := by
    unfold RedState.value RedState.reduce
    have : s.startReduce N = s := by
      unfold RedState.startReduce; rw [h.off]; simp
    rw [this, wait_val]
  rw [hv]
  exact ⟨h.root, h.all⟩

/-- **C10.** A history without `+=` outside of loops always has a defined outcome. -/
theorem C10_defined (N : ℕ) (ops : List (RedOp V)) (hp : ∀ op ∈ ops, op.isPlus = false) :
    ∀ s : RedState V, ∃ s', s.run N ops = some s' := by
  induction ops with
  | nil => intro s; exact ⟨s, rfl⟩
  | cons op ops ih =>
    intro s
    have h1 : ∃ s1, s.step N op = some s1 := by
      cases op with
      | plus b => have := hp _ (List.mem_cons_self); cases this
      | _ => exact ⟨_, rfl⟩
    obtain ⟨s1, h1⟩ := h1
    obtain ⟨s2, h2⟩ := ih (fun o ho => hp o (List.mem_cons_of_mem _ ho)) s1
    exact ⟨s2, by simp only [RedState.run, h1, Option.bind_some]; exact h2⟩

/-- Invariant of the delayed mode. -/
structure DelInv (N : ℕ) (s : RedState V) (e : Expected V) : Prop where
  mode : s.delayed = true
  ar : s.allreduce = e.allreduce
  unred : s.delayOn = e.unreduced
  idle : e.unreduced = true → s.commOn = false
  fresh : e.fresh = true → ∑ r ∈ Finset.range N, s.eff r = e.total
  sum : e.unreduced = true → ∑ r ∈ Finset.range N, s.eff r = e.total
  root : e.unreduced = false → s.eff 0 = e.total
  all : e.everywhere = true → e.unreduced = false ∧ ∀ r, s.eff r = e.total

theorem sum_assign (N : ℕ) (hN : 0 < N) (v : V) :
    (∑ r ∈ Finset.range N, if r = 0 then v else 0) = v := by
  rw [Finset.sum_ite_eq' (Finset.range N) 0 (fun _ => v), if_pos (Finset.mem_range.2 hN)]

theorem delInv_start (N : ℕ) (s : RedState V) (e : Expected V)
    (h : DelInv N s e) : DelInv N (s.startReduce N) (e.step N true .start) := by
  cases hu : e.unreduced
  · have : s.startReduce N = s := by
      unfold RedState.startReduce; rw [h.unred, hu]; simp
    rw [this]
    have he : e.step N true .start = e := by simp [Expected.step, hu]
    rw [he]; exact h
  · have hc := h.idle hu
    have hstart : s.startReduce N = ({ s with delayOn := false } : RedState V).doReduce N := by
      unfold RedState.startReduce; rw [hc, h.unred, hu]; simp
    rw [hstart]
    have he : e.step N true .start =
        { e with unreduced := false, fresh := false, everywhere := e.allreduce } := by
      simp [Expected.step, hu]
    rw [he]
    obtain ⟨f1, f2, f3, f4⟩ := doReduce_flags N ({ s with delayOn := false } : RedState V)
    have hE := doReduce_eff N ({ s with delayOn := false } : RedState V)
    have hs : ({ s with delayOn := false } : RedState V).eff = s.eff := rfl
    rw [hs, h.sum hu] at hE
    refine ⟨f3.trans h.mode, f1.trans h.ar, f4, by simp, by simp, by simp, ?_, ?_⟩
    · intro _; rw [hE]; simp [reduced]
    · intro hx
      have hx' : s.allreduce = true := h.ar.trans hx
      exact ⟨rfl, fun r => by rw [hE]; simp [reduced, hx']⟩

theorem delInv_step (N : ℕ) (hN : 0 < N) (s s' : RedState V) (e : Expected V) (op : RedOp V)
    (hm : op.keepsMode = true) (hp : op.isPlus = false) (h : DelInv N s e)
    (hs : s.step N op = some s') (hval : (e.step N true op).valid = true) :
    DelInv N s' (e.step N true op) := by
  cases op with
  | allreduce b =>
    simp only [RedState.step, Option.some.injEq] at hs; subst hs
    exact ⟨h.mode, rfl, h.unred, h.idle, h.fresh, h.sum, h.root, h.all⟩
  | nonblocking b =>
    simp only [RedState.step, Option.some.injEq] at hs; subst hs
    exact ⟨h.mode, h.ar, h.unred, h.idle, h.fresh, h.sum, h.root, h.all⟩
  | delayed b => cases hm
  | plus b => cases hp
  | assign v =>
    simp only [RedState.step, Option.some.injEq] at hs; subst hs
    obtain ⟨h1, h2, h3, h4, h5, h6⟩ := assign_facts s v
    refine ⟨h5.trans h.mode, h3.trans h.ar, h6.trans h.unred, fun _ => h2, ?_, ?_, ?_, ?_⟩
    · intro _; rw [h1]; exact sum_assign N hN v
    · intro _; rw [h1]; exact sum_assign N hN v
    · intro _; rw [h1]; rfl
    · intro hx; cases hx
  | loop c =>
    simp only [RedState.step, Option.some.injEq] at hs; subst hs
    obtain ⟨h1, h2, h3, -, h5⟩ := sumNode_flags N s c
    obtain ⟨h6, h7, h8⟩ := h5 h.mode
    have hf : e.fresh = true := by
      simp only [Expected.step, if_true, Bool.and_eq_true] at hval; exact hval.2
    have hsum : ∑ r ∈ Finset.range N, (s.sumNode N c).eff r =
        e.total + ∑ r ∈ Finset.range N, c r := by
      rw [h8, Finset.sum_add_distrib, h.fresh hf]
    refine ⟨h3.trans h.mode, h1.trans h.ar, h6, fun _ => h7, fun _ => hsum, fun _ => hsum, ?_, ?_⟩
    · intro hx; cases hx
    · intro hx; cases hx
  | start =>
    simp only [RedState.step, Option.some.injEq] at hs; subst hs
    exact delInv_start N s e h
  | reduce =>
    simp only [RedState.step, Option.some.injEq] at hs; subst hs
    have h' := delInv_start N s e h
    have he : e.step N true .reduce = e.step N true .start := rfl
    rw [he]
    unfold RedState.reduce
    obtain ⟨f1, f2, f3, f4⟩ := wait_flags (s.startReduce N)
    exact ⟨f3.trans h'.mode, f1.trans h'.ar, f4.trans h'.unred, fun _ => wait_commOn _,
      fun hx => by rw [wait_eff]; exact h'.fresh hx, fun hx => by rw [wait_eff]; exact h'.sum hx,
      fun hx => by rw [wait_eff]; exact h'.root hx, fun hx => by rw [wait_eff]; exact h'.all hx⟩

omit [AddCommMonoid V] in
theorem valid_mono [AddCommMonoid V] (N : ℕ) (dl : Bool) (e : Expected V) (op : RedOp V)
    (h : (e.step N dl op).valid = true) : e.valid = true := by
  cases op <;> simp only [Expected.step] at h <;> (try split at h) <;> simp_all

theorem valid_run_mono (N : ℕ) (dl : Bool) (ops : List (RedOp V)) :
    ∀ e : Expected V, (e.run N dl ops).valid = true → e.valid = true := by
  induction ops with
  | nil => intro e h; exact h
  | cons op ops ih => intro e h; exact valid_mono N dl e op (ih _ h)

theorem delInv_run (N : ℕ) (hN : 0 < N) (ops : List (RedOp V)) :
    ∀ (s s' : RedState V) (e : Expected V), (∀ op ∈ ops, op.keepsMode = true) →
      (∀ op ∈ ops, op.isPlus = false) → (e.run N true ops).valid = true → DelInv N s e →
      s.run N ops = some s' → DelInv N s' (e.run N true ops) := by
  induction ops with
  | nil =>
    intro s s' e _ _ _ h hs
    simp only [RedState.run, Option.some.injEq] at hs; subst hs; exact h
  | cons op ops ih =>
    intro s s' e hm hp hv h hs
    simp only [RedState.run] at hs
    rw [Option.bind_eq_some_iff] at hs
    obtain ⟨s1, h1, h2⟩ := hs
    have hv' : ((e.step N true op).run N true ops).valid = true := hv
    exact ih s1 s' _ (fun o ho => hm o (List.mem_cons_of_mem _ ho))
      (fun o ho => hp o (List.mem_cons_of_mem _ ho)) hv'
      (delInv_step N hN s s1 e op (hm op (List.mem_cons_self)) (hp op (List.mem_cons_self)) h h1
        (valid_run_mono N true ops _ hv')) h2

/-- **C10** (delayed mode). The variable is switched to delayed mode at the beginning. For every
history of assignments, loops, `start_reduce()`, reads and changes of the other flags in which the
variable is assigned again between a completed reduction and the next loop (`valid`), reading the
value gives on rank 0 the last assigned value plus all contributions since; every other rank gets
the same value if allreduce was on when the contributions were combined. -/
theorem C10_delayed_partial (N : ℕ) (hN : 0 < N) (ops : List (RedOp V))
    (hm : ∀ op ∈ ops, op.keepsMode = true) (hp : ∀ op ∈ ops, op.isPlus = false)
    (hv : ((Expected.init V).run N true ops).valid = true) (s : RedState V)
    (hs : ({ RedState.init with delayed := true } : RedState V).run N ops = some s) :
    s.value N 0 = ((Expected.init V).run N true ops).total ∧
    (((Expected.init V).run N true (ops ++ [.reduce])).everywhere = true →
      ∀ r, s.value N r = ((Expected.init V).run N true ops).total) := by
  have h0 : DelInv N ({ RedState.init with delayed := true } : RedState V) (Expected.init V) := by
    refine ⟨rfl, rfl, rfl, fun h => (by cases h), fun _ => ?_, fun h => (by cases h), fun _ => rfl,
      fun h => (by cases h)⟩
    show ∑ r ∈ Finset.range N, (0 : V) = 0
    simp
  have h := delInv_run N hN ops _ s _ hm hp hv h0 hs
  have h' := delInv_start N s _ h
  have hval : s.value N = (s.startReduce N).eff := by
    unfold RedState.value RedState.reduce; rw [wait_val]
  have hrun : (Expected.init V).run N true (ops ++ [.reduce]) =
      ((Expected.init V).run N true ops).step N true .start := by
    unfold Expected.run; rw [List.foldl_append]; rfl
  have htot : ((Expected.init V).run N true (ops ++ [.reduce])).total =
      ((Expected.init V).run N true ops).total := by
    rw [hrun]; simp only [Expected.step]; split <;> rfl
  have hun : ((Expected.init V).run N true (ops ++ [.reduce])).unreduced = false := by
    rw [hrun]; simp only [Expected.step]; split
    · rfl
    · rename_i hx; simpa using hx
  rw [hval, ← htot]
  rw [← hrun] at h'
  exact ⟨h'.root hun, fun hx => (h'.all hx).2⟩

end

/-- Immediate mode on three ranks: 5 + (1+2+3) + (10+20+30), non-blocking in between. -/
example : (RedState.init.run 3 [.assign (5 : ℕ), .loop fun r => r + 1, .nonblocking true,
      .loop fun r => 10 * (r + 1)]).isSome = true ∧
    ((Expected.init ℕ).run 3 false [.assign (5 : ℕ), .loop fun r => r + 1, .nonblocking true,
      .loop fun r => 10 * (r + 1)]).total = 71 ∧
    ((Expected.init ℕ).run 3 false [.assign (5 : ℕ), .loop fun r => r + 1, .nonblocking true,
      .loop fun r => 10 * (r + 1)]).everywhere = true := by decide +kernel

/-- Delayed mode: two loops, one reduction, reassignment, another loop. -/
example : ((Expected.init ℕ).run 3 true [.assign (5 : ℕ), .loop fun r => r + 1,
      .loop fun r => 10 * (r + 1), .reduce, .assign 7, .loop fun _ => 1]).valid = true ∧
    ((Expected.init ℕ).run 3 true [.assign (5 : ℕ), .loop fun r => r + 1,
      .loop fun r => 10 * (r + 1), .reduce, .assign 7, .loop fun _ => 1]).total = 10 := by
  decide +kernel

/-- **C10, counterexample.** A delayed variable used again after its value has been read: two ranks
contribute 1 each in two loops with a read in between. The value read at the end is 6, not 4. -/
theorem C10_not_delayed_reuse :
    ∃ s, (RedState.init.run 2 [.delayed true, .assign (0 : ℕ), .loop fun _ => 1, .reduce,
      .loop fun _ => 1] = some s) ∧ s.value 2 0 = 6 ∧
    ((Expected.init ℕ).run 2 true [.delayed true, .assign (0 : ℕ), .loop fun _ => 1, .reduce,
      .loop fun _ => 1]).total = 4 := by
  refine ⟨_, rfl, ?_, ?_⟩ <;> decide +kernel

/-- **C10, counterexample.** After an assignment, before any loop, ranks other than 0 read 0. -/
theorem C10_not_assigned_value :
    ∃ s, (RedState.init.run 2 [.assign (5 : ℕ)] = some s) ∧ s.value 2 0 = 5 ∧ s.value 2 1 = 0 := by
  refine ⟨_, rfl, ?_, ?_⟩ <;> decide +kernel

/-- **C10, counterexample.** `+=` outside of loops in delayed mode is counted once per rank: two
ranks add 1, the value read is 2 although the program added 1. -/
theorem C10_not_delayed_plus :
    ∃ s, (RedState.init.run 2 [.delayed true, .assign (0 : ℕ), .plus 1, .loop fun _ => 0] = some s) ∧
      s.value 2 0 = 2 := by
  refine ⟨_, rfl, ?_⟩; decide +kernel

/-- **C10.** `Field::sum(par)` is the sum of the field over all lattice sites of that parity, for
every division of the lattice: on rank 0, and with allreduce on every rank. -/
theorem C10_field_sum {n : ℕ} {V : Type} [AddCommMonoid V] (lay : Layout n) (h : lay.WF)
    (mem : ℕ → Mem V) (f : Site n → V) (hm : Stores lay mem f) (par : Parity) (hpar : par ≠ .none)
    (ar : Bool) (r : ℕ) (hr : r = 0 ∨ ar = true) :
    fieldSum lay mem par ar r = ∑ c ∈ (latticeSites lay.L).filter (Visits par), f c := by
  have hN : 0 < lay.numNodes := by
    unfold Layout.numNodes; exact Finset.prod_pos fun d _ => h.ndiv_pos d
  have e1 : fieldSum lay mem par ar r = ∑ k ∈ Finset.range lay.numNodes, nodeSum lay par mem k := by
    unfold fieldSum RedState.value RedState.reduce
    set s0 : RedState V := { (RedState.init : RedState V) with allreduce := ar } with hs0
    have hd : s0.delayed = false := rfl
    have ho : s0.delayOn = false := rfl
    obtain ⟨f1, f2, f3, f4, -⟩ := sumNode_flags lay.numNodes s0 (nodeSum lay par mem)
    have : (s0.sumNode lay.numNodes (nodeSum lay par mem)).startReduce lay.numNodes =
        s0.sumNode lay.numNodes (nodeSum lay par mem) := by
      unfold RedState.startReduce; rw [f4 hd, ho]; simp
    rw [this, wait_val, sumNode_eff_immediate _ _ _ hd, sum_rank0 _ hN 0 _ _ rfl, zero_add]
    unfold reduced
    rw [if_pos]
    rcases hr with hr | hr
    · exact Or.inr hr
    · exact Or.inl hr
  rw [e1]
  unfold nodeSum
  apply sum_sites lay h f ((latticeSites lay.L).filter (Visits par)) _ _ _ _ _ mem hm
  · intro c hc; rw [Finset.mem_filter, mem_latticeSites] at hc; exact hc.1
  · intro k _
    unfold NodeInfo.loopEnd; split
    · unfold NodeInfo.volume; omega
    · exact le_refl _
  · intro k c hk hc hkc
    have hb := (inBox_iff_nodeRank lay h k hk c hc).2 hkc
    have hlt : (lay.nodeinfo k).siteIndex c < (lay.nodeinfo k).volume := siteIndex_lt _ _ c hb
    have hev : (lay.nodeinfo k).siteIndex c < (lay.nodeinfo k).evensites ↔ c.parity = .even := by
      have h3 := siteIndex_lt_even_iff _ _ c hb
      rw [← nodeinfo_eq] at h3
      rw [h3, Site.parity_even_iff]
    rw [Finset.mem_filter, mem_latticeSites]
    have hv : ∀ d, c d < lay.L d := hc
    unfold Visits NodeInfo.loopBegin NodeInfo.loopEnd
    rcases Site.parity_cases c with hp | hp <;> cases par <;> simp_all

example : ∃ (mem : ℕ → Mem ℕ) (f : Site 2 → ℕ), Stores exampleLayout mem f ∧
    exampleLayout.WF ∧ f ![4, 2] = 6 := by
  refine ⟨fun r i => (match (exampleLayout.nodeinfo r).coordinates i with
    | some c => ∑ d, c d | none => 0), fun c => ∑ d, c d, ?_, exampleLayout_wf, by simp⟩
  intro c hc
  have := (C01_unique_rank_and_slot exampleLayout exampleLayout_wf c hc).1.2.2
  dsimp only
  rw [this]

/-- **C10** (ordinary variables). A loop adding to ordinary variables (each of any number of
elements, kept at disjoint addresses, in any number) leaves in every element the value it had on
rank 0 before the loop plus the contributions of all ranks, on every rank if allreduce is on (the
default) and otherwise on rank 0. No buffer access is out of bounds, whatever earlier loops left in
the buffers, and nothing else is modified. -/
theorem C10_plain_variables {V : Type} [AddCommMonoid V] (N : ℕ) (hN : 0 < N) (ar : Bool)
    (vars : List (ℕ × ℕ)) (hdis : (addresses vars).Nodup) (old : ℕ → ℕ → V) (q0 : ℕ → RedQueue V)
    (hq : ∀ r, (q0 r).used = 0 ∧ (q0 r).bad = false) (mem : ℕ → ℕ → V) :
    ∃ m, plainReduction N ar vars old q0 mem = some m ∧
      ∀ r, (r = 0 ∨ ar = true) → ∀ a,
        ((∃ v ∈ vars, v.1 ≤ a ∧ a < v.1 + v.2) →
          m r a = old 0 a + ∑ k ∈ Finset.range N, mem k a) ∧
        ((¬ ∃ v ∈ vars, v.1 ≤ a ∧ a < v.1 + v.2) → m r a = mem r a) := by
  set mem1 : ℕ → ℕ → V := fun r a =>
    if r = 0 ∧ vars.any (fun v => decide (v.1 ≤ a ∧ a < v.1 + v.2)) then mem r a + old r a
    else mem r a with hmem1
  set q : ℕ → RedQueue V := fun r => vars.foldl (fun q v => q.setup (mem1 r) v.1 v.2) (q0 r)
    with hqdef
  have hinv : ∀ r, QInv (mem1 r) (q r) (addresses vars) := by
    intro r
    have := setup_all (mem1 r) vars (q0 r) []
      ⟨(hq r).1, fun i hi => by simp at hi, fun i hi => by simp at hi, (hq r).2⟩
    simpa using this
  have hany : ∀ a, vars.any (fun v => decide (v.1 ≤ a ∧ a < v.1 + v.2)) = true ↔
      a ∈ addresses vars := by
    intro a; rw [mem_addresses, List.any_eq_true]; simp
  have hgood : ¬ ((List.range N).any fun r => (q r).bad || decide ((q r).used ≠ (q 0).used)) =
      true := by
    rw [List.any_eq_true]
    rintro ⟨r, -, hr⟩
    rw [(hinv r).ok, (hinv r).used, (hinv 0).used] at hr
    simp at hr
  have hplain : plainReduction N ar vars old q0 mem = some fun r =>
      if ar ∨ r = 0 then
        (List.range (q r).used).foldl (fun m i =>
          Function.update m ((q r).ptrs i) (∑ k ∈ Finset.range N, (q k).buf i)) (mem1 r)
      else mem1 r := by
    show reduceSums N ar q mem1 = _
    unfold reduceSums
    rw [if_neg hgood]
  refine ⟨_, hplain, ?_⟩
  · intro r hr a
    rw [if_pos (by rcases hr with hr | hr <;> simp [hr])]
    have hu := (hinv r).used
    rw [hu]
    have key := update_fold (q r).ptrs (fun i => ∑ k ∈ Finset.range N, (q k).buf i) (mem1 r)
      (addresses vars).length a
    rw [← mem_addresses]
    constructor
    · intro ha
      obtain ⟨i, hi, hia⟩ := List.getElem_of_mem ha
      rw [key.2 i hi (by rw [(hinv r).ptr i hi]; exact hia) (fun j hj hja => by
        rw [(hinv r).ptr j hj, ← hia] at hja
        exact (List.Nodup.getElem_inj_iff hdis).1 hja)]
      have e1 : ∀ k, (q k).buf i = if k = 0 then mem k a + old k a else mem k a := by
        intro k
        rw [(hinv k).buf i hi, hia, hmem1]
        simp only [(hany a).2 ha, and_true]
      simp only [e1]
      obtain ⟨k, rfl⟩ : ∃ k, N = k + 1 := ⟨N - 1, by omega⟩
      rw [Finset.sum_range_succ' (fun k => if k = 0 then mem k a + old k a else mem k a),
        Finset.sum_range_succ' (fun k => mem k a)]
      simp only [Nat.succ_ne_zero, if_false, if_true]
      rw [add_comm (old 0 a), add_assoc]
    · intro ha
      rw [key.1 (fun i hi hia => ha (by
        rw [(hinv r).ptr i hi] at hia; rw [← hia]; exact List.getElem_mem hi))]
      rw [hmem1]
      have : ¬ vars.any (fun v => decide (v.1 ≤ a ∧ a < v.1 + v.2)) = true :=
        fun hx => ha ((hany a).1 hx)
      dsimp only
      rw [if_neg (fun hx => this hx.2)]

example : (addresses [(10, 2), (20, 3)]).Nodup := by decide

/-! ## C11 -/

/-- What a user expects of a reduction vector. -/
structure VExpected (V : Type) where
  total : V
  allreduce : Bool
  everywhere : Bool

/-- One operation in immediate mode; assignment sets all ranks. -/
def VExpected.step {V : Type} [CommSemiring V] (N : ℕ) (e : VExpected V) : VecOp V → VExpected V
  | .allreduce b => { e with allreduce := b }
  | .assign v => { e with total := v, everywhere := true }
  | .sum c => { e with total := e.total + ∑ r ∈ Finset.range N, c r, everywhere := e.allreduce }
  | .product c => { e with total := e.total * ∏ r ∈ Finset.range N, c r, everywhere := e.allreduce }
  | _ => e

/-- The operation does not change the delayed mode. -/
def VecOp.keepsMode {V : Type} : VecOp V → Bool
  | .delayed _ => false
  | _ => true

section

variable {V : Type} [CommSemiring V]

theorem prod_rank0 (N : ℕ) (hN : 0 < N) (t : V) (c : ℕ → V) (x : ℕ → V) (hx : x 0 = t) :
    (∏ r ∈ Finset.range N, if r = 0 then x r * c r else c r) =
      t * ∏ r ∈ Finset.range N, c r := by
  obtain ⟨k, rfl⟩ : ∃ k, N = k + 1 := ⟨N - 1, by omega⟩
  rw [Finset.prod_range_succ' (fun r => if r = 0 then x r * c r else c r),
    Finset.prod_range_succ' c]
  simp only [Nat.succ_ne_zero, if_false, if_true, hx]
  rw [mul_left_comm]

/-- Invariant of the immediate mode. -/
structure VImmInv (s : VecState V) (e : VExpected V) : Prop where
  mode : s.delayed = false
  off : s.delayOn = false
  ar : s.allreduce = e.allreduce
  root : s.eff 0 = e.total
  all : e.everywhere = true → ∀ r, s.eff r = e.total

theorem vImmInv_step (N : ℕ) (hN : 0 < N) (s s' : VecState V) (e : VExpected V) (op : VecOp V)
    (hm : op.keepsMode = true) (h : VImmInv s e) (hs : s.step N op = .ok s') :
    VImmInv s' (e.step N op) := by
  cases op with
  | allreduce b =>
    simp only [VecState.step, Except.ok.injEq] at hs; subst hs
    exact ⟨h.mode, h.off, rfl, h.root, h.all⟩
  | nonblocking b =>
    simp only [VecState.step, Except.ok.injEq] at hs; subst hs
    exact ⟨h.mode, h.off, h.ar, h.root, h.all⟩
  | delayed b => cases hm
  | assign v =>
    simp only [VecState.step] at hs
    split at hs
    · cases hs
    · rename_i hc
      simp only [Except.ok.injEq] at hs; subst hs
      have he : ({ s with val := fun _ => v } : VecState V).eff = fun _ => v := by
        unfold VecState.eff; simp [hc]
      exact ⟨h.mode, h.off, h.ar, by rw [he]; rfl, fun _ r => by rw [he]; rfl⟩
  | sum c =>
    obtain ⟨t, h1, h2, h3, h4, h5⟩ := vloop_immediate N false s c h.mode h.off
    simp only [VecState.step, h1, Except.ok.injEq] at hs; subst hs
    simp only [Bool.false_eq_true, if_false] at h5
    rw [sum_rank0 N hN e.total c s.eff h.root] at h5
    refine ⟨h3, h4, h2.trans h.ar, ?_, ?_⟩
    · rw [h5]; simp [reduced, VExpected.step]
    · intro hx r
      have hx' : e.allreduce = true := hx
      rw [h5]; simp [reduced, h.ar, hx', VExpected.step]
  | product c =>
    obtain ⟨t, h1, h2, h3, h4, h5⟩ := vloop_immediate N true s c h.mode h.off
    simp only [VecState.step, h1, Except.ok.injEq] at hs; subst hs
    simp only [if_true] at h5
    rw [prod_rank0 N hN e.total c s.eff h.root] at h5
    refine ⟨h3, h4, h2.trans h.ar, ?_, ?_⟩
    · rw [h5]; simp [reduced, VExpected.step]
    · intro hx r
      have hx' : e.allreduce = true := hx
      rw [h5]; simp [reduced, h.ar, hx', VExpected.step]
  | start =>
    simp only [VecState.step, Except.ok.injEq] at hs; subst hs
    have : s.startReduce N = s := by
      unfold VecState.startReduce; rw [h.off]; simp
    rw [this]; exact h
  | wait =>
    simp only [VecState.step, Except.ok.injEq] at hs; subst hs
    obtain ⟨f1, f2, f3, f4⟩ := vwait_flags s
    exact ⟨f3.trans h.mode, f4.trans h.off, f1.trans h.ar, by rw [vwait_eff]; exact h.root,
      fun hx r => by rw [vwait_eff]; exact h.all hx r⟩
  | reduce =>
    simp only [VecState.step, Except.ok.injEq] at hs; subst hs
    have : s.startReduce N = s := by
      unfold VecState.startReduce; rw [h.off]; simp
    unfold VecState.reduce
    rw [this]
    obtain ⟨f1, f2, f3, f4⟩ := vwait_flags s
    exact ⟨f3.trans h.mode, f4.trans h.off, f1.trans h.ar, by rw [vwait_eff]; exact h.root,
      fun hx r => by rw [vwait_eff]; exact h.all hx r⟩

theorem vImmInv_run (N : ℕ) (hN : 0 < N) (ops : List (VecOp V)) :
    ∀ (s s' : VecState V) (e : VExpected V), (∀ op ∈ ops, op.keepsMode = true) → VImmInv s e →
      s.run N ops = .ok s' → VImmInv s' (ops.foldl (VExpected.step N) e) := by
  induction ops with
  | nil =>
    intro s s' e _ h hs
    simp only [VecState.run, Except.ok.injEq] at hs; subst hs; exact h
  | cons op ops ih =>
    intro s s' e hm h hs
    simp only [VecState.run] at hs
    split at hs
    · rename_i s1 h1
      exact ih s1 s' _ (fun o ho => hm o (List.mem_cons_of_mem _ ho))
        (vImmInv_step N hN s s1 e op (hm op (List.mem_cons_self)) h h1) hs
    · cases hs

/-- **C11** (immediate and non-blocking modes). After any history of assignments, sum loops, product
loops and changes of the allreduce and non-blocking flags, completed by `reduce()`, each element on
rank 0 is the last assigned value combined in order with the contributions of all ranks, each
counted once; so on every rank if allreduce was on in the last loop. (The only undefined histories
assign while a non-blocking reduction is in progress.) `V` is the type of the vector of elements
with element-wise operations. -/
theorem C11_immediate_partial (N : ℕ) (hN : 0 < N) (v0 : V) (ops : List (VecOp V))
    (hm : ∀ op ∈ ops, op.keepsMode = true) (s : VecState V)
    (hs : (VecState.init v0).run N ops = .ok s) :
    (s.reduce N).val 0 = (ops.foldl (VExpected.step N) ⟨v0, true, true⟩).total ∧
    ((ops.foldl (VExpected.step N) ⟨v0, true, true⟩).everywhere = true →
      ∀ r, (s.reduce N).val r = (ops.foldl (VExpected.step N) ⟨v0, true, true⟩).total) := by
  have h := vImmInv_run N hN ops _ s ⟨v0, true, true⟩ hm ⟨rfl, rfl, rfl, rfl, fun _ _ => rfl⟩ hs
  have hv : (s.reduce N).val = s.eff := by
    unfold VecState.reduce
    have : s.startReduce N = s := by
      unfold VecState.startReduce; rw [h.off]; simp
    rw [this, vwait_val]
  rw [hv]
  exact ⟨h.root, h.all⟩

/-- What a user expects of a reduction vector used in delayed mode. `unreduced`: contributions have
not been combined yet. `valid`: no assignment came between a loop and the following reduction, and
no product was used. -/
structure DExpected (V : Type) where
  total : V
  allreduce : Bool
  everywhere : Bool
  unreduced : Bool
  valid : Bool

/-- One operation in delayed mode. -/
def DExpected.step {V : Type} [CommSemiring V] (N : ℕ) (e : DExpected V) : VecOp V → DExpected V
  | .allreduce b => { e with allreduce := b }
  | .nonblocking _ | .delayed _ | .wait => e
  | .assign v => { e with total := v, everywhere := true, valid := e.valid && !e.unreduced }
  | .sum c => { e with total := e.total + ∑ r ∈ Finset.range N, c r, everywhere := false,
                       unreduced := true }
  | .product _ => { e with valid := false }
  | .start | .reduce =>
    if e.unreduced then { e with unreduced := false, everywhere := e.allreduce } else e

/-- Invariant of the delayed mode. -/
structure VDelInv (N : ℕ) (s : VecState V) (e : DExpected V) : Prop where
  mode : s.delayed = true
  ar : s.allreduce = e.allreduce
  unred : s.delayOn = e.unreduced
  idle : e.unreduced = true → s.commOn = false
  sum : e.unreduced = true → ∑ r ∈ Finset.range N, s.eff r = e.total
  root : e.unreduced = false → s.eff 0 = e.total
  all : e.everywhere = true → e.unreduced = false ∧ ∀ r, s.eff r = e.total

theorem vDelInv_start (N : ℕ) (s : VecState V) (e : DExpected V) (h : VDelInv N s e) :
    VDelInv N (s.startReduce N) (e.step N .start) := by
  cases hu : e.unreduced
  · have : s.startReduce N = s := by
      unfold VecState.startReduce; rw [h.unred, hu]; simp
    rw [this]
    have he : e.step N .start = e := by simp [DExpected.step, hu]
    rw [he]; exact h
  · have hstart : s.startReduce N = ({ s with delayOn := false } : VecState V).doReduce N false := by
      unfold VecState.startReduce; rw [h.unred, hu]; simp
    rw [hstart]
    have he : e.step N .start = { e with unreduced := false, everywhere := e.allreduce } := by
      simp [DExpected.step, hu]
    rw [he]
    obtain ⟨f1, f2, f3, f4⟩ := vdoReduce_flags N false ({ s with delayOn := false } : VecState V)
    have hE := vdoReduce_eff N false ({ s with delayOn := false } : VecState V)
    have hs : ({ s with delayOn := false } : VecState V).eff = s.eff := rfl
    rw [hs, h.sum hu] at hE
    refine ⟨f3.trans h.mode, f1.trans h.ar, f4, by simp, by simp, ?_, ?_⟩
    · intro _; rw [hE]; simp [reduced]
    · intro hx
      have hx' : s.allreduce = true := h.ar.trans hx
      exact ⟨rfl, fun r => by rw [hE]; simp [reduced, hx']⟩

theorem vDelInv_wait (N : ℕ) (s : VecState V) (e : DExpected V) (h : VDelInv N s e) :
    VDelInv N s.wait e := by
  obtain ⟨f1, f2, f3, f4⟩ := vwait_flags s
  exact ⟨f3.trans h.mode, f1.trans h.ar, f4.trans h.unred, fun _ => vwait_commOn _,
    fun hx => by rw [vwait_eff]; exact h.sum hx, fun hx => by rw [vwait_eff]; exact h.root hx,
    fun hx => by rw [vwait_eff]; exact h.all hx⟩

theorem vDelInv_step (N : ℕ) (hN : 0 < N) (s s' : VecState V) (e : DExpected V) (op : VecOp V)
    (hm : op.keepsMode = true) (h : VDelInv N s e) (hs : s.step N op = .ok s')
    (hval : (e.step N op).valid = true) : VDelInv N s' (e.step N op) := by
  cases op with
  | allreduce b =>
    simp only [VecState.step, Except.ok.injEq] at hs; subst hs
    exact ⟨h.mode, rfl, h.unred, h.idle, h.sum, h.root, h.all⟩
  | nonblocking b =>
    simp only [VecState.step, Except.ok.injEq] at hs; subst hs
    exact ⟨h.mode, h.ar, h.unred, h.idle, h.sum, h.root, h.all⟩
  | delayed b => cases hm
  | product c => cases hval
  | assign v =>
    simp only [VecState.step] at hs
    split at hs
    · cases hs
    · rename_i hc
      simp only [Except.ok.injEq] at hs; subst hs
      have hu : e.unreduced = false := by
        simp only [DExpected.step, Bool.and_eq_true] at hval; simpa using hval.2
      have he : ({ s with val := fun _ => v } : VecState V).eff = fun _ => v := by
        unfold VecState.eff; simp [hc]
      refine ⟨h.mode, h.ar, h.unred, ?_, ?_, ?_, ?_⟩
      · intro hx; have hx' : e.unreduced = true := hx; rw [hu] at hx'; cases hx'
      · intro hx; have hx' : e.unreduced = true := hx; rw [hu] at hx'; cases hx'
      · intro _; rw [he]; rfl
      · intro _; exact ⟨hu, fun r => by rw [he]; rfl⟩
  | sum c =>
    obtain ⟨s1, h1, h2, h3, h4, h5, h6⟩ := vloop_delayed N s c h.mode
    simp only [VecState.step, h1, Except.ok.injEq] at hs; subst hs
    have hsum : ∑ r ∈ Finset.range N, s1.eff r = e.total + ∑ r ∈ Finset.range N, c r := by
      rw [h6, Finset.sum_add_distrib]
      congr 1
      cases hu : e.unreduced
      · have ho : s.delayOn = false := h.unred.trans hu
        have : ∀ r, (if r ≠ 0 ∧ s.delayOn = false then (0 : V) else s.eff r) =
            if r = 0 then e.total else 0 := by
          intro r
          by_cases hr : r = 0
          · subst hr; simp [h.root hu]
          · simp [hr, ho]
        rw [Finset.sum_congr rfl fun r _ => this r]
        exact sum_assign N hN e.total
      · have ho : s.delayOn = true := h.unred.trans hu
        rw [← h.sum hu]
        apply Finset.sum_congr rfl
        intro r _
        simp [ho]
    refine ⟨h3, h2.trans h.ar, h4, fun _ => h5, fun _ => hsum, ?_, ?_⟩
    · intro hx; cases hx
    · intro hx; cases hx
  | start =>
    simp only [VecState.step, Except.ok.injEq] at hs; subst hs
    exact vDelInv_start N s e h
  | wait =>
    simp only [VecState.step, Except.ok.injEq] at hs; subst hs
    exact vDelInv_wait N s e h
  | reduce =>
    simp only [VecState.step, Except.ok.injEq] at hs; subst hs
    exact vDelInv_wait N _ _ (vDelInv_start N s e h)

theorem dvalid_run_mono (N : ℕ) (ops : List (VecOp V)) :
    ∀ e : DExpected V, (ops.foldl (DExpected.step N) e).valid = true → e.valid = true := by
  induction ops with
  | nil => intro e h; exact h
  | cons op ops ih =>
    intro e h
    have h' := ih _ h
    cases op <;> simp only [DExpected.step] at h' <;> (try split at h') <;> simp_all

theorem vDelInv_run (N : ℕ) (hN : 0 < N) (ops : List (VecOp V)) :
    ∀ (s s' : VecState V) (e : DExpected V), (∀ op ∈ ops, op.keepsMode = true) →
      (ops.foldl (DExpected.step N) e).valid = true → VDelInv N s e →
      s.run N ops = .ok s' → VDelInv N s' (ops.foldl (DExpected.step N) e) := by
  induction ops with
  | nil =>
    intro s s' e _ _ h hs
    simp only [VecState.run, Except.ok.injEq] at hs; subst hs; exact h
  | cons op ops ih =>
    intro s s' e hm hv h hs
    simp only [VecState.run] at hs
    split at hs
    · rename_i s1 h1
      exact ih s1 s' _ (fun o ho => hm o (List.mem_cons_of_mem _ ho)) hv
        (vDelInv_step N hN s s1 e op (hm op (List.mem_cons_self)) h h1
          (dvalid_run_mono N ops _ hv)) hs
    · cases hs

/-- **C11** (delayed sums). The vector is switched to delayed mode at the beginning. For every
history of assignments, sum loops, `start_reduce()`, `wait()`, `reduce()` and changes of the other
flags in which no assignment comes between a loop and the following reduction, `reduce()` leaves in
each element on rank 0 the last assigned value plus all contributions since, each counted once; so
on every rank if allreduce was on when the contributions were combined. The variable can be used
again after a reduction without a new assignment. -/
theorem C11_delayed_sums_partial (N : ℕ) (hN : 0 < N) (v0 : V) (ops : List (VecOp V))
    (hm : ∀ op ∈ ops, op.keepsMode = true)
    (hv : (ops.foldl (DExpected.step N) ⟨v0, true, true, false, true⟩).valid = true)
    (s : VecState V)
    (hs : ({ VecState.init v0 with delayed := true } : VecState V).run N ops = .ok s) :
    (s.reduce N).val 0 = (ops.foldl (DExpected.step N) ⟨v0, true, true, false, true⟩).total ∧
    (((ops ++ [VecOp.reduce]).foldl (DExpected.step N) ⟨v0, true, true, false, true⟩).everywhere = true →
      ∀ r, (s.reduce N).val r =
        (ops.foldl (DExpected.step N) ⟨v0, true, true, false, true⟩).total) := by
  have h0 : VDelInv N ({ VecState.init v0 with delayed := true } : VecState V)
      ⟨v0, true, true, false, true⟩ :=
    ⟨rfl, rfl, rfl, fun h => (by cases h), fun h => (by cases h), fun _ => rfl,
      fun _ => ⟨rfl, fun _ => rfl⟩⟩
  have h := vDelInv_run N hN ops _ s _ hm hv h0 hs
  have h' := vDelInv_start N s _ h
  set e := ops.foldl (DExpected.step N) ⟨v0, true, true, false, true⟩ with he
  have hval : (s.reduce N).val = (s.startReduce N).eff := by
    unfold VecState.reduce; rw [vwait_val]
  have hrun : (ops ++ [VecOp.reduce]).foldl (DExpected.step N) ⟨v0, true, true, false, true⟩ =
      e.step N .start := by
    rw [List.foldl_append]; rfl
  have htot : (e.step N .start).total = e.total := by
    simp only [DExpected.step]; split <;> rfl
  have hun : (e.step N .start).unreduced = false := by
    simp only [DExpected.step]; split
    · rfl
    · rename_i hx; simpa using hx
  rw [hval, hrun, ← htot]
  exact ⟨h'.root hun, fun hx => (h'.all hx).2⟩

end

/-- Value of the vector on rank 0 and 1 after a history, if it is defined. -/
def VecState.outcome {V : Type} (x : Except VecFail (VecState V)) : Except VecFail (V × V) :=
  match x with
  | .ok s => .ok (s.val 0, s.val 1)
  | .error e => .error e

instance {V : Type} [DecidableEq V] : DecidableEq (Except VecFail V)
  | .ok a, .ok b => decidable_of_iff (a = b) (by simp)
  | .error a, .error b => decidable_of_iff (a = b) (by simp)
  | .ok _, .error _ => isFalse (by simp)
  | .error _, .ok _ => isFalse (by simp)

/-- Three ranks: initial value 1, a sum loop, then a product loop. -/
example : VecState.outcome ((VecState.init (1 : ℕ)).run 3
      [.sum fun r => r, .product fun r => r + 1]) = .ok (24, 24) ∧
    ([VecOp.sum fun r => r, .product fun r => r + 1].foldl (VExpected.step 3)
      ⟨(1 : ℕ), true, true⟩).total = 24 := by decide +kernel

/-- Delayed mode: reduction, reuse without assignment, non-blocking in between. -/
example : (([VecOp.assign 5, .sum fun r => r, .sum fun _ => 10, .nonblocking true, .reduce,
      .sum fun _ => 1] : List (VecOp ℕ)).foldl (DExpected.step 2) ⟨0, true, true, false, true⟩).total
        = 28 ∧
    (([VecOp.assign 5, .sum fun r => r, .sum fun _ => 10, .nonblocking true, .reduce,
      .sum fun _ => 1] : List (VecOp ℕ)).foldl (DExpected.step 2) ⟨0, true, true, false, true⟩).valid
        = true ∧
    VecState.outcome ((VecState.init 0).run 2 [VecOp.delayed true, .assign 5, .sum fun r => r,
      .sum fun _ => 10, .nonblocking true, .reduce, .sum fun _ => 1, .reduce]) = .ok (28, 28) := by
  decide +kernel

/-- **C11, counterexample.** A delayed product: two ranks multiply by 3 and 5; the result should be
15, the reduction adds instead and gives 8. -/
theorem C11_not_delayed_product :
    VecState.outcome ((VecState.init (1 : ℕ)).run 2 [.delayed true,
        .product fun r => if r = 0 then 3 else 5, .reduce]) = .ok (8, 8) ∧
      ([VecOp.product fun r => if r = 0 then 3 else 5].foldl (VExpected.step 2)
        ⟨(1 : ℕ), true, true⟩).total = 15 := by decide +kernel

/-- **C11, counterexample.** A second delayed product loop stops the program with the message that
sums and products cannot be mixed, although only products have been used. -/
theorem C11_not_two_delayed_products :
    VecState.outcome ((VecState.init (1 : ℕ)).run 2
      [.delayed true, .product fun _ => 2, .product fun _ => 2]) = .error .assertion := by
  decide +kernel

/-- **C11, counterexample.** Assigning between two delayed loops: the assigned value 10 is counted
once per rank. Two ranks; the second loop adds 1 on each; result 22 instead of 12. -/
theorem C11_not_delayed_assign :
    VecState.outcome ((VecState.init (0 : ℕ)).run 2 [.delayed true, .sum fun _ => 1, .assign 10,
      .sum fun _ => 1, .reduce]) = .ok (22, 22) := by decide +kernel

/-- **C11, counterexample.** Assignment does not wait for a non-blocking reduction in progress. -/
theorem C11_not_nonblocking_assign :
    VecState.outcome ((VecState.init (0 : ℕ)).run 2
      [.nonblocking true, .sum fun _ => 1, .assign 10]) = .error .race := by decide +kernel

end Hila
