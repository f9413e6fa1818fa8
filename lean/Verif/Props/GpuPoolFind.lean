import Mathlib.Data.List.Infix
import Mathlib.Tactic.NormNum
import Verif.Props.GpuPool

/-!
# C93: where the memory pool fails
-/

namespace Hila

/-- The state before the first call. -/
def gpFresh : GPool where
  ptr _ := 0
  next _ := none
  prev _ := none
  up _ := none
  down _ := none
  size _ := 0
  isFree _ := false
  memory := none
  freeHead := none
  useHead := none
  unused := none
  freeLen := 0
  used := 0
  maxUsed := 0
  total := 0
  started := false
  count := 0
  slabs := []

theorem gpFresh_start : GStart gpFresh := ⟨rfl, rfl, rfl, rfl, rfl, rfl, rfl, rfl, rfl⟩

/-- What the program sees after the calls, the counter of the memory and the slabs. -/
def gpSeen (sys : ℕ → ℕ) (mem : ℕ) (ops : List GOp) : Option (Option (List (ℕ × ℕ) × ℕ × List (ℕ × ℕ))) :=
  (gpRun sys mem ops (gpFresh, [])).map fun x => x.map fun st => (st.2, st.1.total, st.1.slabs)

/-- Slabs far from one another. -/
def farSlabs (k : ℕ) : ℕ := 1099511627776 * (k + 1)

theorem seen_state {sys : ℕ → ℕ} {mem : ℕ} {ops : List GOp} {live slabs : List (ℕ × ℕ)} {total : ℕ} (h : gpSeen sys mem ops = some (some (live, total, slabs))) :
    ∃ s, gpRun sys mem ops (gpFresh, []) = some (some (s, live)) ∧ s.total = total ∧ s.slabs = slabs := by
  unfold gpSeen at h
  cases hr : gpRun sys mem ops (gpFresh, []) with
  | none => rw [hr] at h; simp at h
  | some x =>
    rw [hr] at h
    cases x with
    | none => simp at h
    | some st =>
      simp only [Option.map_some, Option.some.injEq, Prod.mk.injEq] at h
      obtain ⟨rfl, rfl, rfl⟩ := h
      exact ⟨st.1, rfl, rfl, rfl⟩

/-- The slabs lie apart, as far as the calls get. -/
def slabsApart (sys : ℕ → ℕ) (mem : ℕ) (ops : List GOp) : Bool :=
  match gpSeen sys mem ops with
  | some (some x) => decide (x.2.2.Pairwise fun a b => a.1 + a.2 ≤ b.1 ∨ b.1 + b.2 ≤ a.1)
  | _ => true

theorem sysOk_of {sys : ℕ → ℕ} {mem : ℕ} {ops : List GOp} (h : ∀ pre ∈ ops.inits, slabsApart sys mem pre = true) : SysOk sys mem gpFresh ops := by
  intro pre hpre st hst
  have h1 := h pre ((List.mem_inits _ _).2 hpre)
  unfold slabsApart gpSeen at h1
  rw [hst] at h1
  simp only [Option.map_some, decide_eq_true_eq] at h1
  exact h1

/-- A program that uses, gives back and uses memory again, with the first slab and a second one. -/
def poolOps : List GOp := [.alloc 1000, .alloc 300, .alloc 256000, .free 1099511883008, .alloc 700, .free 1099511882496, .alloc 5000]

/-- C93: the hypotheses hold for this program; five allocations, two given back, three in use. -/
example : GStart gpFresh ∧ (∀ req, GOp.alloc req ∈ poolOps → 0 < req) ∧ SysOk farSlabs 1280000 gpFresh poolOps ∧
    256 ∣ 1280000 / 5 ∧ (∀ k, 256 ∣ farSlabs k) ∧
    ∃ s, gpRun farSlabs 1280000 poolOps (gpFresh, []) = some (some (s, [(1099511878144, 5000), (1099511883264, 700), (2199023255552, 256000)])) ∧
      s.slabs = [(1099511627776, 256256), (2199023255552, 256000)] := by
  refine ⟨gpFresh_start, ?_, sysOk_of (by decide +kernel), by norm_num, fun k => ⟨4294967296 * (k + 1), by unfold farSlabs; omega⟩, ?_⟩
  · intro req h
    simp only [poolOps, List.mem_cons, GOp.alloc.injEq, reduceCtorEq, List.not_mem_nil, false_or, or_false] at h
    omega
  · obtain ⟨s, h1, _, h2⟩ := seen_state (sys := farSlabs) (mem := 1280000) (ops := poolOps) (total := 768256)
      (live := [(1099511878144, 5000), (1099511883264, 700), (2199023255552, 256000)]) (slabs := [(1099511627776, 256256), (2199023255552, 256000)]) (by decide +kernel)
    exact ⟨s, h1, h2⟩

/-- C93 (the maximum): when the largest block is given back at the end, the maximum remains. -/
example : gpFresh.maxUsed = 0 ∧ (gpRun farSlabs 1280000 (poolOps ++ [.free 2199023255552]) (gpFresh, [])).map (fun x => x.map fun st => (st.1.used, st.1.maxUsed)) =
    some (some (5888, 261888)) := ⟨rfl, by decide +kernel⟩

/-- C93 (alignment fails). A device with 16945512448 bytes (16 GB): the second slab has 3389102489 usable bytes, and blocks are cut from its upper end. An allocation gets an
odd address, although the slabs begin at multiples of 256. -/
theorem C93_aligned_wrong :
    (∀ k, 256 ∣ farSlabs k) ∧ SysOk farSlabs 16945512448 gpFresh [.alloc 3389102592, .alloc 1024] ∧
    ∃ s a b, gpRun farSlabs 16945512448 [.alloc 3389102592, .alloc 1024] (gpFresh, []) = some (some (s, [(a, 1024), (b, 3389102592)])) ∧ a % 2 = 1 := by
  obtain ⟨s, h1, _⟩ := seen_state (sys := farSlabs) (mem := 16945512448) (ops := [.alloc 3389102592, .alloc 1024]) (total := 10167307673)
    (live := [(2202412357017, 1024), (1099511627776, 3389102592)]) (slabs := [(1099511627776, 3389102592), (2199023255552, 3389102592)]) (by decide +kernel)
  exact ⟨fun k => ⟨4294967296 * (k + 1), by unfold farSlabs; omega⟩, sysOk_of (by decide +kernel), s, _, _, h1, by norm_num⟩

/-- C93 (the counter of the memory fails). Each slab but the first is counted twice. On a device with 1280000 bytes the program ends with the fourth request, of 256000 bytes,
while the pool holds 768256 bytes: with the right count both limits of the pool would allow one more slab. -/
theorem C93_total_wrong :
    (∃ s live, gpRun farSlabs 1280000 [.alloc 256256, .alloc 256000, .alloc 256000] (gpFresh, []) = some (some (s, live)) ∧
      s.total = 1280256 ∧ (s.slabs.map Prod.snd).sum = 768256) ∧
    gpRun farSlabs 1280000 [.alloc 256256, .alloc 256000, .alloc 256000, .alloc 256000] (gpFresh, []) = some none ∧
    (10 * 768256 < 7 * 1280000 ∧ 10 * (256000 + 768256) < 9 * 1280000) := by
  refine ⟨?_, ?_, by norm_num⟩
  · obtain ⟨s, h1, h2, h3⟩ := seen_state (sys := farSlabs) (mem := 1280000) (ops := [.alloc 256256, .alloc 256000, .alloc 256000]) (total := 1280256)
      (live := [(3298534883328, 256000), (2199023255552, 256000), (1099511627776, 256256)])
      (slabs := [(1099511627776, 256256), (2199023255552, 256000), (3298534883328, 256000)]) (by decide +kernel)
    exact ⟨s, _, h1, h2, by rw [h3]; rfl⟩
  · have h : gpSeen farSlabs 1280000 [.alloc 256256, .alloc 256000, .alloc 256000, .alloc 256000] = some none := by decide +kernel
    unfold gpSeen at h
    rw [Option.map_eq_some_iff] at h
    obtain ⟨x, h1, h2⟩ := h
    rw [h1]
    rw [Option.map_eq_none_iff] at h2
    rw [h2]

/-- C93 (requests of zero bytes). A request of zero bytes gets the address of another allocation in use. -/
theorem C93_zero_shared :
    ∃ s a, gpRun farSlabs 1280000 [.alloc 256, .alloc 0] (gpFresh, []) = some (some (s, [(a, 0), (a, 256)])) := by
  obtain ⟨s, h1, _⟩ := seen_state (sys := farSlabs) (mem := 1280000) (ops := [.alloc 256, .alloc 0]) (total := 256256)
    (live := [(1099511883776, 0), (1099511883776, 256)]) (slabs := [(1099511627776, 256256)]) (by decide +kernel)
  exact ⟨s, _, h1⟩

end Hila
