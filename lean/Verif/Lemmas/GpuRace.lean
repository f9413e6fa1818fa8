import Verif.Model.GpuSpec
import Mathlib.Algebra.BigOperators.Group.List.Basic
import Mathlib.Data.List.Perm.Basic
import Mathlib.Tactic.Common

/-!
# Kernels without races: every schedule gives the same memory
-/

namespace Hila
namespace Gpu

variable {W : Type}

/-- The accumulations of a list that go to cell `c`, with operands from the memory `mem`. -/
def accum (op : W → W → W) (mem : ℕ → W) (l : List (ℕ × Src W)) (c : ℕ) (w : W) : W :=
  (l.filter fun p => p.1 = c).foldl (fun w p => op w (p.2.get mem)) w

theorem accum_append_one (op : W → W → W) (mem : ℕ → W) (l : List (ℕ × Src W)) (d : ℕ) (x : Src W)
    (c : ℕ) (w : W) :
    accum op mem (l ++ [(d, x)]) c w =
      if d = c then op (accum op mem l c w) (x.get mem) else accum op mem l c w := by
  unfold accum
  rw [List.filter_append, List.foldl_append]
  by_cases h : d = c <;> simp [h]

/-- Invariant of all schedules. -/
structure Inv (op : W → W → W) (prog : ℕ → List (ℕ × Src W)) (mem : ℕ → W) (s : State W) :
    Prop where
  split : ∀ t, ∃ dn, prog t = dn ++ (s.th t).todo ∧
    ∀ c, (∃ x, (c, x) ∈ prog t) → s.mem c = accum op mem dn c (mem c)
  other : ∀ c, (∀ t x, (c, x) ∉ prog t) → s.mem c = mem c
  reg0 : ∀ t a d x rest, (s.th t).r0 = some a → (s.th t).todo = (d, x) :: rest → a = s.mem d
  reg1 : ∀ t b d x rest, (s.th t).r1 = some b → (s.th t).todo = (d, x) :: rest → b = x.get mem

theorem Inv.src {op : W → W → W} {prog : ℕ → List (ℕ × Src W)} {mem : ℕ → W} {s : State W}
    (hf : RaceFree prog) (h : Inv op prog mem s) {t d : ℕ} {x : Src W} (hx : (d, x) ∈ prog t) :
    x.get s.mem = x.get mem := by
  cases x with
  | val w => rfl
  | cell a => exact h.other a fun t' x' => hf.2 t t' d a x' hx

theorem Inv.step {op : W → W → W} {prog : ℕ → List (ℕ × Src W)} {mem : ℕ → W} {s : State W}
    (hf : RaceFree prog) (h : Inv op prog mem s) (t : ℕ) : Inv op prog mem (s.step op t) := by
  unfold State.step
  cases htodo : (s.th t).todo with
  | nil => simpa using h
  | cons p rest =>
    obtain ⟨d, x⟩ := p
    obtain ⟨dn, hdn, hval⟩ := h.split t
    have hmem : (d, x) ∈ prog t := by rw [hdn, htodo]; simp
    dsimp only
    cases hr0 : (s.th t).r0 with
    | none =>
      refine ⟨?_, h.other, ?_, ?_⟩
      · intro t'
        by_cases e : t' = t
        · subst e
          exact ⟨dn, by simpa [htodo] using hdn, hval⟩
        · simpa [Function.update_of_ne e] using h.split t'
      · intro t' a d' x' rest'
        by_cases e : t' = t
        · subst e
          simp only [Function.update_self]
          rintro ⟨rfl⟩ ⟨⟩
          rfl
        · simpa [Function.update_of_ne e] using h.reg0 t' a d' x' rest'
      · intro t' b d' x' rest'
        by_cases e : t' = t
        · subst e
          simp
        · simpa [Function.update_of_ne e] using h.reg1 t' b d' x' rest'
    | some a =>
      cases hr1 : (s.th t).r1 with
      | none =>
        refine ⟨?_, h.other, ?_, ?_⟩
        · intro t'
          by_cases e : t' = t
          · subst e
            exact ⟨dn, by simpa [htodo] using hdn, hval⟩
          · simpa [Function.update_of_ne e] using h.split t'
        · intro t' a' d' x' rest'
          by_cases e : t' = t
          · subst e
            simp only [Function.update_self]
            rintro ⟨rfl⟩ ⟨⟩
            exact h.reg0 t' a d x rest hr0 htodo
          · simpa [Function.update_of_ne e] using h.reg0 t' a' d' x' rest'
        · intro t' b d' x' rest'
          by_cases e : t' = t
          · subst e
            simp only [Function.update_self]
            rintro ⟨rfl⟩ ⟨⟩
            exact h.src hf hmem
          · simpa [Function.update_of_ne e] using h.reg1 t' b d' x' rest'
      | some b =>
        have ha := h.reg0 t a d x rest hr0 htodo
        have hb := h.reg1 t b d x rest hr1 htodo
        have howner : ∀ t' x', (d, x') ∈ prog t' → t' = t := fun t' x' hx' =>
          hf.1 t' t d x' x hx' hmem
        refine ⟨?_, ?_, ?_, ?_⟩
        · intro t'
          by_cases e : t' = t
          · subst e
            refine ⟨dn ++ [(d, x)], by simp [hdn, htodo], ?_⟩
            intro c hc
            rw [accum_append_one]
            by_cases hcd : d = c
            · subst hcd
              simp only [Function.update_self, if_true]
              rw [ha, hb, hval d ⟨x, hmem⟩]
            · rw [if_neg hcd]
              simp only [Function.update_of_ne (Ne.symm hcd)]
              exact hval c hc
          · obtain ⟨dn', hdn', hval'⟩ := h.split t'
            refine ⟨dn', by simpa [Function.update_of_ne e] using hdn', ?_⟩
            intro c hc
            have hcd : c ≠ d := by
              rintro rfl
              obtain ⟨x', hx'⟩ := hc
              exact e (howner t' x' hx')
            simp only [Function.update_of_ne hcd]
            exact hval' c hc
        · intro c hc
          have hcd : c ≠ d := by
            rintro rfl
            exact hc t x hmem
          simp only [Function.update_of_ne hcd]
          exact h.other c hc
        · intro t' a' d' x' rest' h1 h2
          by_cases e : t' = t
          · subst e
            simp at h1
          · simp only [Function.update_of_ne e] at h1 h2
            have hm' : (d', x') ∈ prog t' := by
              obtain ⟨dn', hdn', _⟩ := h.split t'
              rw [hdn', h2]; simp
            have hcd : d' ≠ d := by
              rintro rfl
              exact e (howner t' x' hm')
            simp only [Function.update_of_ne hcd]
            exact h.reg0 t' a' d' x' rest' h1 h2
        · intro t' b' d' x' rest' h1 h2
          by_cases e : t' = t
          · subst e
            simp at h1
          · simp only [Function.update_of_ne e] at h1 h2
            exact h.reg1 t' b' d' x' rest' h1 h2

theorem Inv.start (op : W → W → W) (prog : ℕ → List (ℕ × Src W)) (mem : ℕ → W) :
    Inv op prog mem (State.start mem prog) := by
  refine ⟨fun t => ⟨[], by simp [State.start], fun c _ => rfl⟩, fun c _ => rfl, ?_, ?_⟩ <;>
    intro t a d x rest h <;> simp [State.start] at h

theorem Inv.run {op : W → W → W} {prog : ℕ → List (ℕ × Src W)} {mem : ℕ → W} (hf : RaceFree prog)
    (sched : List ℕ) : ∀ {s : State W}, Inv op prog mem s → Inv op prog mem (s.run op sched) := by
  induction sched with
  | nil => intro s h; exact h
  | cons t l ih => intro s h; exact ih (h.step hf t)

/-- **Every schedule gives the same memory**: each cell has the accumulations of its thread, in the
order of that thread, with the operands from before the kernel. -/
theorem runs_spec {op : W → W → W} {prog : ℕ → List (ℕ × Src W)} {mem mem' : ℕ → W}
    (hf : RaceFree prog) (h : Runs op prog mem mem') (t c : ℕ) (hc : ∃ x, (c, x) ∈ prog t) :
    mem' c = accum op mem (prog t) c (mem c) := by
  obtain ⟨sched, hfin, rfl⟩ := h
  obtain ⟨dn, hdn, hval⟩ := ((Inv.start op prog mem).run hf sched).split t
  rw [hfin t, List.append_nil] at hdn
  rw [hdn]
  exact hval c hc

theorem runs_other {op : W → W → W} {prog : ℕ → List (ℕ × Src W)} {mem mem' : ℕ → W}
    (hf : RaceFree prog) (h : Runs op prog mem mem') (c : ℕ) (hc : ∀ t x, (c, x) ∉ prog t) :
    mem' c = mem c := by
  obtain ⟨sched, hfin, rfl⟩ := h
  exact ((Inv.start op prog mem).run hf sched).other c hc

/-! ### Kernels finish -/

theorem step_th_ne (op : W → W → W) (s : State W) {t t' : ℕ} (h : t' ≠ t) :
    (s.step op t).th t' = s.th t' := by
  unfold State.step
  split
  · rfl
  · split <;> simp [Function.update_of_ne h]

theorem run_th_other (op : W → W → W) (l : List ℕ) : ∀ (s : State W) {t' : ℕ}, (∀ t ∈ l, t' ≠ t) →
    (s.run op l).th t' = s.th t' := by
  induction l with
  | nil => intro s t' _; rfl
  | cons t l ih =>
    intro s t' h
    show ((s.step op t).run op l).th t' = _
    rw [ih (s.step op t) fun u hu => h u (List.mem_cons_of_mem _ hu),
      step_th_ne op s (h t (List.mem_cons_self ..))]

theorem run_append (op : W → W → W) (s : State W) (l l' : List ℕ) :
    s.run op (l ++ l') = (s.run op l).run op l' := by
  unfold State.run; rw [List.foldl_append]

theorem step3 (op : W → W → W) (s : State W) (t : ℕ) {p : ℕ × Src W} {rest : List (ℕ × Src W)}
    (h : s.th t = ⟨p :: rest, none, none⟩) :
    (s.run op [t, t, t]).th t = ⟨rest, none, none⟩ := by
  obtain ⟨d, x⟩ := p
  have h1 : s.step op t =
      { s with th := Function.update s.th t ⟨(d, x) :: rest, some (s.mem d), none⟩ } := by
    unfold State.step; rw [h]
  show (((s.step op t).step op t).step op t).th t = _
  rw [h1]
  simp [State.step, Function.update_self]

theorem run_alone (op : W → W → W) (t : ℕ) : ∀ (l : List (ℕ × Src W)) (s : State W),
    s.th t = ⟨l, none, none⟩ → ∃ sched : List ℕ, (∀ u ∈ sched, u = t) ∧
      (s.run op sched).th t = ⟨[], none, none⟩ := by
  intro l
  induction l with
  | nil => intro s h; exact ⟨[], by simp, h⟩
  | cons p l ih =>
    intro s h
    obtain ⟨sc, h1, h2⟩ := ih _ (step3 op s t h)
    refine ⟨[t, t, t] ++ sc, ?_, ?_⟩
    · intro u hu
      rw [List.mem_append] at hu
      rcases hu with hu | hu
      · simpa using hu
      · exact h1 u hu
    · rw [run_append]; exact h2

theorem runs_exists (op : W → W → W) (prog : ℕ → List (ℕ × Src W)) (mem : ℕ → W) (n : ℕ)
    (hn : ∀ t, n ≤ t → prog t = []) : ∃ mem', Runs op prog mem mem' := by
  have key : ∀ k, ∃ sched : List ℕ, (∀ u ∈ sched, u < k) ∧
      ∀ t < k, ((State.start mem prog).run op sched).th t = ⟨[], none, none⟩ := by
    intro k
    induction k with
    | zero => exact ⟨[], by simp, by intro t ht; omega⟩
    | succ k ih =>
      obtain ⟨sc, h1, h2⟩ := ih
      have hk : ((State.start mem prog).run op sc).th k = ⟨prog k, none, none⟩ := by
        rw [run_th_other]
        · rfl
        · intro t ht; have := h1 t ht; omega
      obtain ⟨sc', h1', h2'⟩ := run_alone op k _ _ hk
      refine ⟨sc ++ sc', ?_, ?_⟩
      · intro u hu
        rw [List.mem_append] at hu
        rcases hu with hu | hu
        · have := h1 u hu; omega
        · have := h1' u hu; omega
      · intro t ht
        rw [run_append]
        by_cases e : t = k
        · subst e; exact h2'
        · rw [run_th_other]
          · exact h2 t (by omega)
          · intro u hu; have := h1' u hu; omega
  obtain ⟨sc, h1, h2⟩ := key n
  refine ⟨_, sc, ?_, rfl⟩
  intro t
  by_cases ht : t < n
  · rw [h2 t ht]
  · rw [run_th_other]
    · exact hn t (by omega)
    · intro u hu; have := h1 u hu; omega

/-! ### Sums -/

theorem foldl_add_eq [AddCommMonoid W] (l : List W) : ∀ w : W, l.foldl (· + ·) w = w + l.sum := by
  induction l with
  | nil => intro w; simp
  | cons a l ih => intro w; rw [List.foldl_cons, ih, List.sum_cons, add_assoc]

theorem accum_add [AddCommMonoid W] (mem : ℕ → W) (l : List (ℕ × Src W)) (c : ℕ) (w : W) :
    accum (· + ·) mem l c w =
      w + ((l.filter fun p => p.1 = c).map fun p => p.2.get mem).sum := by
  unfold accum
  rw [← foldl_add_eq, List.foldl_map]

theorem accum_notmem (op : W → W → W) (mem : ℕ → W) (l : List (ℕ × Src W)) (c : ℕ) (w : W)
    (h : ∀ x, (c, x) ∉ l) : accum op mem l c w = w := by
  unfold accum
  rw [List.filter_eq_nil_iff.mpr]
  · rfl
  · rintro ⟨d, x⟩ hp
    simp only [decide_eq_true_eq]
    rintro rfl
    exact h x hp

end Gpu
end Hila
