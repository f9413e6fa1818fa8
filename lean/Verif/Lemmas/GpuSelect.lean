import Verif.Model.GpuSelect
import Verif.Lemmas.SiteSelect

/-! # Lemmas about site selection on graphics processors -/

namespace Hila

section
variable {V : Type}

/-- What the stores of one thread do to the cell of its slot. -/
def cellStore (m : ℕ × ℕ × V) : SelOp V → ℕ × ℕ × V
  | .mask a => (a, m.2.1, m.2.2)
  | .site s => (m.1, s, m.2.2)
  | .value v => (m.1, m.2.1, v)

theorem run_cell (sched : List (ℕ × SelOp V)) (d : DevSel V) (i : ℕ) :
    ((d.run sched).mask i, (d.run sched).sites i, (d.run sched).values i) =
      ((sched.filter fun x => x.1 = i).map Prod.snd).foldl cellStore
        (d.mask i, d.sites i, d.values i) := by
  induction sched generalizing d with
  | nil => rfl
  | cons x xs ih =>
    have hr : d.run (x :: xs) = (d.store x.1 x.2).run xs := rfl
    rw [hr, ih]
    obtain ⟨j, op⟩ := x
    by_cases h : j = i
    · subst h
      cases op <;> simp [DevSel.store, cellStore]
    · have h' : i ≠ j := fun e => h e.symm
      cases op <;> simp [DevSel.store, h, Function.update_of_ne h']

theorem foldl_selections (site : ℕ) (sel : List V) (m : ℕ × ℕ × V) :
    (sel.flatMap fun v => [SelOp.mask 1, .site site, .value v]).foldl cellStore m =
      match sel.getLast? with
      | none => m
      | some v => (1, site, v) := by
  induction sel generalizing m with
  | nil => rfl
  | cons v vs ih =>
    rw [List.flatMap_cons, List.foldl_append, ih]
    cases vs with
    | nil => rfl
    | cons w ws =>
      rw [List.getLast?_cons_cons]
      obtain ⟨u, hu⟩ := Option.isSome_iff_exists.1
        (show ((w :: ws).getLast?).isSome by simp)
      rw [hu]

theorem foldl_selThread (site : ℕ) (sel : List V) (m : ℕ × ℕ × V) :
    (selThread site sel).foldl cellStore m =
      match sel.getLast? with
      | none => (0, m.2.1, m.2.2)
      | some v => (1, site, v) := by
  unfold selThread
  rw [List.foldl_cons, foldl_selections]
  rfl

theorem gpuEndloop_selected (vol : ℕ) (d : DevSel V) (s : SelState V) (ho : s.overflow = 0) :
    Selected s.nmax (s.gpuEndloop vol d)
      (flagged vol d.mask fun i => (d.sites i, d.values i)) ∧
    (s.gpuEndloop vol d).hasValues = s.hasValues ∧ (s.gpuEndloop vol d).joined = s.joined := by
  have e1 : (flagged vol d.mask fun i => (d.sites i, d.values i)).map Prod.fst =
      flagged vol d.mask d.sites := by simp [flagged, Function.comp_def]
  have e2 : (flagged vol d.mask fun i => (d.sites i, d.values i)).map Prod.snd =
      flagged vol d.mask d.values := by simp [flagged, Function.comp_def]
  have l1 : (flagged vol d.mask d.sites).length =
      (flagged vol d.mask fun i => (d.sites i, d.values i)).length := by simp [flagged]
  have l2 : (flagged vol d.mask d.values).length =
      (flagged vol d.mask fun i => (d.sites i, d.values i)).length := by simp [flagged]
  set P := flagged vol d.mask fun i => (d.sites i, d.values i)
  by_cases hv : s.hasValues = true
  · by_cases hl : P.length > s.nmax
    · refine ⟨⟨?_, ?_, ?_, ?_⟩, ?_, ?_⟩ <;>
        simp [SelState.gpuEndloop, SelState.copySites, SelState.copyValues, hv, l1, l2, hl,
          List.map_take, e1, e2]
    · have hl' := Nat.not_lt.1 hl
      refine ⟨⟨?_, ?_, ?_, ?_⟩, ?_, ?_⟩ <;>
        simp [SelState.gpuEndloop, SelState.copySites, SelState.copyValues, hv, l1, l2, hl,
          List.map_take, e1, e2, ho]
      · omega
      · omega
      · omega
  · by_cases hl : P.length > s.nmax
    · refine ⟨⟨?_, ?_, ?_, ?_⟩, ?_, ?_⟩ <;>
        simp [SelState.gpuEndloop, SelState.copySites, hv, l1, hl, List.map_take, e1]
    · refine ⟨⟨?_, ?_, ?_, ?_⟩, ?_, ?_⟩ <;>
        simp [SelState.gpuEndloop, SelState.copySites, hv, l1, hl, List.map_take, e1, ho]
      · omega
      · omega

end

end Hila
