import Verif.Lemmas.FFTGpu

/-!
# Lemmas for C97: when the kernels fail
-/

namespace Hila

variable {n : ℕ} {A : Type}

theorem gather_inner_some (cap : ℕ) (g : ℕ → A) : ∀ (s : ℕ) (w : ℕ → A) (k : ℕ) (w' : ℕ → A) (k' : ℕ),
    (List.range s).foldlM (fun (acc : (ℕ → A) × ℕ) j => if acc.2 < cap ∧ acc.2 + 1 < 2 ^ 31 then
      some (Function.update acc.1 acc.2 (g j), acc.2 + 1) else none) (w, k) = some (w', k') → k' = k + s ∧ (0 < s → k' ≤ cap ∧ k' < 2 ^ 31) := by
  intro s
  induction s with
  | zero =>
    intro w k w' k' h
    simp only [List.range_zero, List.foldlM_nil, Option.pure_def, Option.some.injEq, Prod.mk.injEq] at h
    exact ⟨by omega, fun h => absurd h (Nat.lt_irrefl _)⟩
  | succ s ih =>
    intro w k w' k' h
    rw [List.range_succ, List.foldlM_append, Option.bind_eq_bind, Option.bind_eq_some_iff] at h
    obtain ⟨⟨w1, k1⟩, h1, h2⟩ := h
    have := (ih w k w1 k1 h1).1
    simp only [List.foldlM_cons, List.foldlM_nil, Option.pure_def, Option.bind_eq_bind] at h2
    by_cases hc : k1 < cap ∧ k1 + 1 < 2 ^ 31
    · rw [if_pos hc, Option.bind_some, Option.some.injEq, Prod.mk.injEq] at h2
      exact ⟨by omega, fun _ => ⟨by omega, by omega⟩⟩
    · rw [if_neg hc] at h2
      exact absurd h2 (by simp)

/-- A loop with a running position that came to its end. -/
theorem foldlM_running_some {B : Type} (f : B × ℕ → ℕ → Option (B × ℕ)) (s P : ℕ → ℕ) (N cap : ℕ) (hP : ∀ j < N, P (j + 1) = P j + s j)
    (step : ∀ j < N, ∀ b k b' k', f (b, k) j = some (b', k') → k' = k + s j ∧ (0 < s j → k' ≤ cap ∧ k' < 2 ^ 31)) (b b' : B) (k' : ℕ)
    (h : (List.range N).foldlM f (b, P 0) = some (b', k')) : k' = P N ∧ (P 0 < P N → P N ≤ cap ∧ P N < 2 ^ 31) := by
  induction N generalizing b' k' with
  | zero =>
    simp only [List.range_zero, List.foldlM_nil, Option.pure_def, Option.some.injEq, Prod.mk.injEq] at h
    exact ⟨by omega, fun h => absurd h (Nat.lt_irrefl _)⟩
  | succ N ih =>
    rw [List.range_succ, List.foldlM_append, Option.bind_eq_bind, Option.bind_eq_some_iff] at h
    obtain ⟨⟨b1, k1⟩, h1, h2⟩ := h
    obtain ⟨e1, e2⟩ := ih (fun j hj => hP j (by omega)) (fun j hj => step j (by omega)) b1 k1 h1
    simp only [List.foldlM_cons, List.foldlM_nil, Option.pure_def, Option.bind_eq_bind] at h2
    obtain ⟨⟨b2, k2⟩, h3, h4⟩ := Option.bind_eq_some_iff.1 h2
    rw [Option.some.injEq, Prod.mk.injEq] at h4
    obtain ⟨e3, e4⟩ := step N (by omega) _ _ _ _ h3
    have hs := hP N (by omega)
    refine ⟨by omega, fun hlt => ?_⟩
    rcases Nat.eq_zero_or_pos (s N) with hz | hz
    · have := e2 (by omega)
      omega
    · have := e4 hz
      omega

section
variable {lay : Layout n} (hw : lay.WF) (hpos : ∀ d, lay.ndiv d ≤ lay.L d)

include hw hpos in
theorem gatherThread_some (E r : ℕ) (dir : Fin n) (cap : ℕ) (M : PBuf A) (w w' : ℕ → A) (ind : ℕ) (h : gatherThread lay E r dir cap M w ind = some w') :
    lay.L dir * (ind + 1) ≤ cap ∧ lay.L dir * (ind + 1) < 2 ^ 31 := by
  have hL : lay.L dir * (ind + 1) = lay.L dir * ind + lay.L dir := by ring
  unfold gatherThread at h
  by_cases hb : 2 ^ 31 ≤ lay.L dir * ind
  · rw [if_pos hb] at h
    exact absurd h (by simp)
  rw [if_neg hb, Option.map_eq_some_iff] at h
  obtain ⟨⟨w1, k1⟩, h1, _⟩ := h
  have h0 := dv_zero hw dir
  have hl := dv_last hw dir
  have := foldlM_running_some (B := ℕ → A) _ (pencilSize lay r dir) (fun j => lay.L dir * ind + lay.dv dir j) (lay.ndiv dir) cap
    (fun j hj => by have := dv_succ hw hpos r dir j hj; omega)
    (fun j hj b k b' k' h => gather_inner_some cap (fun x => M (recPtr lay E r dir j).1 ((recPtr lay E r dir j).2 + (x + ind * pencilSize lay r dir j))) _ b k b' k' h)
    w w1 k1 (by rw [h0, Nat.add_zero]; exact h1)
  have hp := hw.L_pos dir
  rw [hl, h0] at this
  have := this.2 (by omega)
  omega

/-- If a kernel ends well, so does every thread. -/
theorem runKernel_some {S : Type} {columns : ℕ} {order : List ℕ} (hp : order.Perm (kernelThreads columns)) {thread : S → ℕ → Option S} {s s' : S}
    (h : runKernel columns order thread s = some s') : 0 < columns ∧ ∀ ind < columns, ∃ s1 s2, thread s1 ind = some s2 := by
  unfold runKernel at h
  by_cases hb : (columns + fftThreads - 1) / fftThreads = 0
  · rw [if_pos hb] at h
    exact absurd h (by simp)
  rw [if_neg hb] at h
  refine ⟨by unfold fftThreads at hb; omega, fun ind hi => ?_⟩
  have hm : ind ∈ order := by
    rw [hp.mem_iff]
    unfold kernelThreads fftThreads
    rw [List.mem_range]
    omega
  clear hp hb
  induction order generalizing s with
  | nil => cases hm
  | cons a l ih =>
    rw [List.foldlM_cons, Option.bind_eq_bind, Option.bind_eq_some_iff] at h
    obtain ⟨s1, h1, h2⟩ := h
    rcases List.mem_cons.1 hm with rfl | hm
    · rw [if_pos hi] at h1
      exact ⟨s, s1, h1⟩
    · exact ih h2 hm

include hw hpos in
theorem gatherKernel_fits (E r : ℕ) (hE : 0 < E) (dir : Fin n) (M : PBuf A) (w w' : ℕ → A) (order : List ℕ) (hp : order.Perm (kernelThreads (myColumns lay r dir * E)))
    (h : runKernel (myColumns lay r dir * E) order (gatherThread lay E r dir (fftBufSize lay r * E) M) w = some w') : GpuFits lay E r dir := by
  obtain ⟨h1, h2⟩ := runKernel_some hp h
  obtain ⟨s1, s2, h3⟩ := h2 (myColumns lay r dir * E - 1) (by omega)
  obtain ⟨h4, h5⟩ := gatherThread_some hw hpos E r dir _ M s1 s2 _ h3
  rw [Nat.sub_add_cancel h1] at h4 h5
  refine ⟨Nat.pos_of_mul_pos_right h1, ?_, h5⟩
  rw [← Nat.mul_assoc] at h4
  exact Nat.le_of_mul_le_mul_right h4 hE

include hw hpos in
theorem gpuTransform_fits (E r : ℕ) (hE : 0 < E) (dir : Fin n) (F : (ℕ → A) → ℕ → A) (ord : KernelOrders) (ho : OrdersOk (myColumns lay r dir * E) ord)
    (junk : ℕ → A) (M M' : PBuf A) (h : gpuTransform lay E r dir F ord junk M = some M') : GpuFits lay E r dir := by
  unfold gpuTransform at h
  dsimp only at h
  obtain ⟨w, h1, _⟩ := Option.bind_eq_some_iff.1 h
  exact gatherKernel_fits hw hpos E r hE dir M junk w _ ho.1 h1

include hw hpos in
theorem gpuReflect_fits (E r : ℕ) (hE : 0 < E) (dir : Fin n) (ord : KernelOrders) (ho : OrdersOk (myColumns lay r dir * E) ord)
    (junk : ℕ → A) (M M' : PBuf A) (h : gpuReflect lay E r dir ord junk M = some M') : GpuFits lay E r dir := by
  unfold gpuReflect at h
  dsimp only at h
  obtain ⟨w, h1, _⟩ := Option.bind_eq_some_iff.1 h
  exact gatherKernel_fits hw hpos E r hE dir M junk w _ ho.1 h1

theorem onRanks_fits {step : ℕ → PBuf A → Option (PBuf A)} {M M' : ℕ → PBuf A} (h : onRanks lay step M = some M') (r : ℕ) (hr : r < lay.numNodes) :
    ∃ B, step r (M r) = some B := by
  unfold onRanks at h
  split at h
  · rename_i hall
    rw [List.all_eq_true] at hall
    exact Option.isSome_iff_exists.1 (hall r (List.mem_range.2 hr))
  · exact absurd h (by simp)

theorem foldlM_mem_some {S I : Type} (f : S → I → Option S) : ∀ (l : List I) (s s' : S), l.foldlM f s = some s' → ∀ i ∈ l, ∃ s1 s2, f s1 i = some s2 := by
  intro l
  induction l with
  | nil => intro _ _ _ i hi; cases hi
  | cons a l ih =>
    intro s s' h i hi
    rw [List.foldlM_cons, Option.bind_eq_bind, Option.bind_eq_some_iff] at h
    obtain ⟨s1, h1, h2⟩ := h
    rcases List.mem_cons.1 hi with rfl | hi
    · exact ⟨s, s1, h1⟩
    · exact ih s1 s' h2 i hi

/-- A transform that ends well has done its step on all ranks in all directions. -/
theorem fullTransformGpu_steps {E : ℕ} {step : Fin n → ℕ → PBuf A → Option (PBuf A)} {uninit : ℕ → PBuf A} {order : ℕ → List (Site n)}
    {directions : Fin n → Bool} {input out : Site n → ℕ → A} (h : fullTransformGpu lay E step uninit order directions input = some out) :
    (∃ d, directions d = true) ∧ ∀ dir, directions dir = true → ∀ r < lay.numNodes, ∃ M M', step dir r M = some M' := by
  unfold fullTransformGpu at h
  obtain ⟨st, h1, h2⟩ := Option.bind_eq_some_iff.1 h
  constructor
  · by_contra hne
    push Not at hne
    have : (List.finRange n).filter (fun d => directions d) = [] := by
      rw [List.filter_eq_nil_iff]
      exact fun d _ => hne d
    rw [this] at h1
    simp only [List.foldlM_nil, Option.pure_def, Option.some.injEq] at h1
    rw [← h1] at h2
    exact absurd h2 (by simp)
  · intro dir hdir r hr
    obtain ⟨s1, s2, h3⟩ := foldlM_mem_some _ _ _ _ h1 dir (List.mem_filter.2 ⟨List.mem_finRange dir, hdir⟩)
    unfold fftDirectionGpu at h3
    dsimp only at h3
    obtain ⟨M3, h4, _⟩ := Option.map_eq_some_iff.1 h3
    obtain ⟨B, hB⟩ := onRanks_fits h4 r hr
    exact ⟨_, B, hB⟩

end

end Hila
