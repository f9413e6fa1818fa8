import Verif.Lemmas.GpuReduce

/-!
# Compare-and-swap loops: every contribution is counted exactly once
-/

namespace Hila
namespace Gpu

open BigOperators

variable {W : Type}

theorem flatMap_update_perm {A : Type} (f : ℕ → List A) (t : ℕ) (p : A) (rest : List A)
    (h : f t = p :: rest) : ∀ n, t < n →
    ((List.range n).flatMap f).Perm (p :: (List.range n).flatMap (Function.update f t rest)) := by
  intro n
  induction n with
  | zero => intro ht; omega
  | succ n ih =>
    intro ht
    rw [List.range_succ, List.flatMap_append, List.flatMap_append, List.flatMap_singleton,
      List.flatMap_singleton]
    by_cases htn : t = n
    · subst htn
      have hsame : (List.range t).flatMap (Function.update f t rest) = (List.range t).flatMap f := by
        apply List.flatMap_congr
        intro u hu
        rw [List.mem_range] at hu
        rw [Function.update_of_ne (by omega)]
      rw [hsame, Function.update_self, h]
      exact List.perm_middle
    · rw [Function.update_of_ne (fun e => htn e.symm)]
      exact (ih (by omega)).append_right (f n)

theorem flatMap_update_same {A : Type} (f : ℕ → List A) (t : ℕ) : Function.update f t (f t) = f :=
  Function.update_eq_self t f

theorem toBin_perm {j : ℕ} {l l' : List (ℕ × W)} (h : l.Perm l') :
    (toBin j l).Perm (toBin j l') := (h.filter _).map _

theorem toBin_cons (j d : ℕ) (v : W) (l : List (ℕ × W)) :
    toBin j ((d, v) :: l) = if d = j then v :: toBin j l else toBin j l := by
  unfold toBin
  rw [List.filter_cons]
  by_cases h : d = j <;> simp [h]

/-- Invariant of all schedules. -/
structure AInv (op : W → W → W) (prog : ℕ → List (ℕ × W)) (mem : ℕ → W) (n : ℕ) (s : AState W) :
    Prop where
  rest : ∀ t, n ≤ t → (s.th t).todo = []
  val : ∀ d, ∃ o : List W,
    (o ++ toBin d ((List.range n).flatMap fun t => (s.th t).todo)).Perm
      (toBin d ((List.range n).flatMap prog)) ∧
    s.mem d = o.foldl (fun a v => op v a) (mem d)

theorem AInv.pop {op : W → W → W} {prog : ℕ → List (ℕ × W)} {mem : ℕ → W} {n : ℕ} {s : AState W}
    (h : AInv op prog mem n s) {t d : ℕ} {v : W} {rest : List (ℕ × W)}
    (ht : (s.th t).todo = (d, v) :: rest) :
    AInv op prog mem n ⟨Function.update s.mem d (op v (s.mem d)),
      Function.update s.th t ⟨rest, none⟩⟩ := by
  have htn : t < n := by
    by_contra hc
    rw [h.rest t (by omega)] at ht
    cases ht
  have hfun : (fun u => (Function.update s.th t ⟨rest, none⟩ u).todo) =
      Function.update (fun u => (s.th u).todo) t rest := by
    funext u
    by_cases e : u = t
    · subst e; simp
    · simp [Function.update_of_ne e]
  refine ⟨?_, ?_⟩
  · intro u hu
    have : u ≠ t := by omega
    simp only [Function.update_of_ne this]
    exact h.rest u hu
  · intro c
    obtain ⟨o, hperm, hval⟩ := h.val c
    have hp := toBin_perm (j := c)
      (flatMap_update_perm (fun u => (s.th u).todo) t (d, v) rest ht n htn)
    rw [toBin_cons] at hp
    simp only [hfun]
    by_cases hc : d = c
    · subst hc
      rw [if_pos rfl] at hp
      refine ⟨o ++ [v], ?_, ?_⟩
      · rw [List.append_assoc]
        exact (List.Perm.append_left o hp).symm.trans hperm
      · rw [Function.update_self, List.foldl_append, hval]
        rfl
    · rw [if_neg hc] at hp
      refine ⟨o, (List.Perm.append_left o hp).symm.trans hperm, ?_⟩
      rw [Function.update_of_ne (Ne.symm hc)]
      exact hval

theorem AInv.reload {op : W → W → W} {prog : ℕ → List (ℕ × W)} {mem : ℕ → W} {n : ℕ}
    {s : AState W} (h : AInv op prog mem n s) {t : ℕ} {l : List (ℕ × W)} (ht : (s.th t).todo = l)
    (w : Option W) :
    AInv op prog mem n { s with th := Function.update s.th t ⟨l, w⟩ } := by
  have hfun : (fun u => (Function.update s.th t ⟨l, w⟩ u).todo) = fun u => (s.th u).todo := by
    funext u
    by_cases e : u = t
    · subst e; simp [ht]
    · simp [Function.update_of_ne e]
  refine ⟨?_, ?_⟩
  · intro u hu
    rw [congrFun hfun u]
    exact h.rest u hu
  · intro c
    simp only [hfun]
    exact h.val c

theorem AInv.step [DecidableEq W] {op : W → W → W} {hw : Bool} {prog : ℕ → List (ℕ × W)}
    {mem : ℕ → W} {n : ℕ} {s : AState W} (h : AInv op prog mem n s) (t : ℕ) :
    AInv op prog mem n (s.step op hw t) := by
  unfold AState.step
  cases htodo : (s.th t).todo with
  | nil => simpa using h
  | cons p rest =>
    obtain ⟨d, v⟩ := p
    dsimp only
    by_cases hh : hw = true
    · rw [if_pos hh]
      exact h.pop htodo
    · rw [if_neg hh]
      cases (s.th t).old with
      | none => exact h.reload htodo _
      | some av =>
        dsimp only
        by_cases he : s.mem d = av
        · rw [if_pos he, ← he]
          exact h.pop htodo
        · rw [if_neg he]
          exact h.reload htodo _

/-- **Every interleaving counts every contribution once**, in some order. -/
theorem aruns_spec [DecidableEq W] {op : W → W → W} {hw : Bool} {prog : ℕ → List (ℕ × W)}
    {mem mem' : ℕ → W} {n : ℕ} (hn : ∀ t, n ≤ t → prog t = []) (h : ARuns op hw prog mem mem')
    (d : ℕ) : ∃ o : List W, o.Perm (toBin d ((List.range n).flatMap prog)) ∧
      mem' d = o.foldl (fun a v => op v a) (mem d) := by
  obtain ⟨sched, hfin, rfl⟩ := h
  have key : ∀ (l : List ℕ) (s : AState W), AInv op prog mem n s →
      AInv op prog mem n (l.foldl (AState.step op hw) s) := by
    intro l
    induction l with
    | nil => intro s hs; exact hs
    | cons t l ih => intro s hs; exact ih _ (hs.step t)
  have hst : AInv op prog mem n ⟨mem, fun t => ⟨prog t, none⟩⟩ :=
    ⟨hn, fun d => ⟨[], List.Perm.refl _, rfl⟩⟩
  obtain ⟨o, hp, hv⟩ := (key sched _ hst).val d
  refine ⟨o, ?_, hv⟩
  have hnil : ((List.range n).flatMap fun t =>
      ((sched.foldl (AState.step op hw) ⟨mem, fun t => ⟨prog t, none⟩⟩).th t).todo) = [] := by
    rw [List.flatMap_eq_nil_iff]
    intro t _
    exact hfin t
  rw [hnil] at hp
  simpa [toBin] using hp

theorem astep_th_ne [DecidableEq W] (op : W → W → W) (hw : Bool) (s : AState W) {t t' : ℕ}
    (h : t' ≠ t) : (s.step op hw t).th t' = s.th t' := by
  unfold AState.step
  split
  · rfl
  · split
    · simp [Function.update_of_ne h]
    · split
      · simp [Function.update_of_ne h]
      · split <;> simp [Function.update_of_ne h]

theorem astep2 [DecidableEq W] (op : W → W → W) (hw : Bool) (s : AState W) (t : ℕ) {p : ℕ × W}
    {rest : List (ℕ × W)} (h : s.th t = ⟨p :: rest, none⟩) :
    ∃ l : List ℕ, (∀ u ∈ l, u = t) ∧
      (l.foldl (AState.step op hw) s).th t = ⟨rest, none⟩ := by
  obtain ⟨d, v⟩ := p
  cases hw with
  | true =>
    refine ⟨[t], by simp, ?_⟩
    show (s.step op true t).th t = _
    unfold AState.step
    rw [h]
    simp
  | false =>
    refine ⟨[t, t], by simp, ?_⟩
    have h1 : s.step op false t =
        { s with th := Function.update s.th t ⟨(d, v) :: rest, some (s.mem d)⟩ } := by
      unfold AState.step; rw [h]; simp
    show ((s.step op false t).step op false t).th t = _
    rw [h1]
    simp [AState.step]

theorem aruns_exists [DecidableEq W] (op : W → W → W) (hw : Bool) (prog : ℕ → List (ℕ × W))
    (mem : ℕ → W) (n : ℕ) (hn : ∀ t, n ≤ t → prog t = []) : ∃ mem', ARuns op hw prog mem mem' := by
  have other : ∀ (l : List ℕ) (s : AState W) (t' : ℕ), (∀ t ∈ l, t' ≠ t) →
      (l.foldl (AState.step op hw) s).th t' = s.th t' := by
    intro l
    induction l with
    | nil => intro s t' _; rfl
    | cons t l ih =>
      intro s t' h
      rw [List.foldl_cons, ih _ _ fun u hu => h u (List.mem_cons_of_mem _ hu),
        astep_th_ne op hw s (h t (List.mem_cons_self ..))]
  have alone : ∀ (t : ℕ) (l : List (ℕ × W)) (s : AState W), s.th t = ⟨l, none⟩ →
      ∃ sched : List ℕ, (∀ u ∈ sched, u = t) ∧
        (sched.foldl (AState.step op hw) s).th t = ⟨[], none⟩ := by
    intro t l
    induction l with
    | nil => intro s h; exact ⟨[], by simp, h⟩
    | cons p l ih =>
      intro s h
      obtain ⟨l1, a1, a2⟩ := astep2 op hw s t h
      obtain ⟨l2, b1, b2⟩ := ih _ a2
      refine ⟨l1 ++ l2, ?_, ?_⟩
      · intro u hu
        rcases List.mem_append.mp hu with hu | hu
        · exact a1 u hu
        · exact b1 u hu
      · rw [List.foldl_append]; exact b2
  have key : ∀ k, ∃ sched : List ℕ, (∀ u ∈ sched, u < k) ∧ ∀ t < k,
      ((sched.foldl (AState.step op hw) ⟨mem, fun t => ⟨prog t, none⟩⟩).th t) = ⟨[], none⟩ := by
    intro k
    induction k with
    | zero => exact ⟨[], by simp, by intro t ht; omega⟩
    | succ k ih =>
      obtain ⟨sc, h1, h2⟩ := ih
      have hk : (sc.foldl (AState.step op hw) ⟨mem, fun t => ⟨prog t, none⟩⟩).th k =
          ⟨prog k, none⟩ := by
        rw [other]
        intro t ht; have := h1 t ht; omega
      obtain ⟨sc', h1', h2'⟩ := alone k _ _ hk
      refine ⟨sc ++ sc', ?_, ?_⟩
      · intro u hu
        rcases List.mem_append.mp hu with hu | hu
        · have := h1 u hu; omega
        · have := h1' u hu; omega
      · intro t ht
        rw [List.foldl_append]
        by_cases e : t = k
        · subst e; exact h2'
        · rw [other]
          · exact h2 t (by omega)
          · intro u hu; have := h1' u hu; omega
  obtain ⟨sc, h1, h2⟩ := key n
  refine ⟨_, sc, ?_, rfl⟩
  intro t
  by_cases ht : t < n
  · rw [h2 t ht]
  · rw [other]
    · exact hn t (by omega)
    · intro u hu; have := h1 u hu; omega

theorem foldl_add_swap [AddCommMonoid W] (l : List W) :
    ∀ w : W, l.foldl (fun a v => v + a) w = w + l.sum := by
  induction l with
  | nil => intro w; simp
  | cons a l ih => intro w; rw [List.foldl_cons, ih, List.sum_cons, ← add_assoc, add_comm a w]

theorem toBin_flatMap_sum [AddCommMonoid W] (j : ℕ) (l : List ℕ) (f : ℕ → List (ℕ × W)) :
    (toBin j (l.flatMap f)).sum = (l.map fun t => (toBin j (f t)).sum).sum := by
  induction l with
  | nil => rfl
  | cons a l ih =>
    rw [List.flatMap_cons, List.map_cons, List.sum_cons, ← ih]
    unfold toBin
    rw [List.filter_append, List.map_append, List.sum_append]

/-- Result of the rounds of the tree, as a function. -/
def treeFun [Add W] : ℕ → ℕ → (ℕ → W) → ℕ → W
  | 0, _, m => m
  | fuel + 1, i, m =>
    if i = 0 then m else treeFun fuel (i / 2) fun t => if t < i then m t + m (t + i) else m t

theorem treeFun_spec [AddCommMonoid W] (T : ℕ) : ∀ (fuel i : ℕ) (m : ℕ → W)
    (r : Option (ℕ → W)), i ≤ fuel → 2 * i ≤ T → TreeRuns (· + ·) T i m r →
    r = some (treeFun fuel i m) := by
  intro fuel
  induction fuel with
  | zero =>
    intro i m r hi _ h
    rcases treeRuns_inv h with ⟨_, rfl⟩ | ⟨h0, _⟩ | ⟨h0, _⟩
    · rfl
    · omega
    · omega
  | succ fuel ih =>
    intro i m r hi hT h
    rcases treeRuns_inv h with ⟨h0, rfl⟩ | ⟨h0, m1, hk, hr⟩ | ⟨h0, _, hk⟩
    · simp [treeFun, h0]
    · obtain ⟨m1', he, hrun⟩ := kernel_ok (treeProg_inBounds hT) hk
      injection he with he
      subst he
      rw [ih (i / 2) m1 r (by omega) (by omega) hr]
      have hm1 : m1 = fun t => if t < i then m t + m (t + i) else m t := by
        funext t
        by_cases ht : t < i
        · rw [if_pos ht, runs_spec (treeProg_raceFree _) hrun t t
            ⟨_, mem_treeProg.mpr ⟨ht, rfl, rfl⟩⟩, accum_add]
          simp [treeProg, ht, Src.get]
        · rw [if_neg ht]
          apply runs_other (treeProg_raceFree _) hrun
          intro u x hu
          rw [mem_treeProg] at hu
          omega
      rw [hm1]
      simp only [treeFun, if_neg (show ¬ i = 0 by omega)]
    · obtain ⟨_, he, _⟩ := kernel_ok (treeProg_inBounds hT) hk
      cases he

end Gpu
end Hila
