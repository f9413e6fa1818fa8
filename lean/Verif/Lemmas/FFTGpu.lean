import Verif.Lemmas.FFT
import Verif.Model.FFTGpu

/-!
# Lemmas for C97: the kernels of the FFT
-/

namespace Hila

variable {n : ℕ} {A : Type}

/-! ### Batches -/

theorem splitOnce_prod {b b' : ℕ × ℕ} (h : splitOnce b = some b') : b'.1 * b'.2 = b.1 * b.2 := by
  unfold splitOnce at h
  simp only [Option.map_eq_some_iff] at h
  obtain ⟨d, hd, rfl⟩ := h
  have h1 := List.find?_some hd
  simp only [decide_eq_true_eq] at h1
  dsimp only
  calc b.1 / d * (b.2 * d) = b.1 / d * d * b.2 := by ring
    _ = b.1 * b.2 := by rw [Nat.div_mul_cancel (Nat.dvd_of_mod_eq_zero h1)]

theorem splitBatch_prod : ∀ (fuel : ℕ) (b : ℕ × ℕ), (splitBatch fuel b).1 * (splitBatch fuel b).2 = b.1 * b.2 := by
  intro fuel
  induction fuel with
  | zero => intro b; rfl
  | succ fuel ih =>
    intro b
    unfold splitBatch
    split
    · cases h : splitOnce b with
      | none => rfl
      | some b' => exact (ih b').trans (splitOnce_prod h)
    · rfl

/-! ### One thread -/

/-- The inner loop of the gather kernel. -/
theorem gather_inner (cap : ℕ) (g : ℕ → A) : ∀ (s : ℕ) (w : ℕ → A) (k : ℕ), k + s ≤ cap → k + s < 2 ^ 31 →
    ∃ w', (List.range s).foldlM (fun (acc : (ℕ → A) × ℕ) j => if acc.2 < cap ∧ acc.2 + 1 < 2 ^ 31 then
      some (Function.update acc.1 acc.2 (g j), acc.2 + 1) else none) (w, k) = some (w', k + s) ∧
      (∀ x < s, w' (k + x) = g x) ∧ ∀ a, (a < k ∨ k + s ≤ a) → w' a = w a := by
  intro s
  induction s with
  | zero => intro w k _ _; exact ⟨w, rfl, fun x hx => absurd hx (Nat.not_lt_zero _), fun _ _ => rfl⟩
  | succ s ih =>
    intro w k h1 h2
    obtain ⟨w', h3, h4, h5⟩ := ih w k (by omega) (by omega)
    refine ⟨Function.update w' (k + s) (g s), ?_, fun x hx => ?_, fun a ha => ?_⟩
    · rw [List.range_succ, List.foldlM_append, h3]
      simp only [Option.bind_eq_bind, Option.bind_some, List.foldlM_cons, List.foldlM_nil, Option.pure_def]
      rw [if_pos ⟨by omega, by omega⟩]
      rfl
    · rcases Nat.lt_or_ge x s with h | h
      · rw [Function.update_of_ne (by omega), h4 x h]
      · rw [show x = s by omega, Function.update_self]
    · rw [Function.update_of_ne (by omega), h5 a (by omega)]

/-- The inner loop of the scatter kernel. -/
theorem scatter_inner (cap : ℕ) (w : ℕ → A) (p : Bool × ℕ) (o : ℕ) : ∀ (s : ℕ) (M : PBuf A) (k : ℕ), k + s ≤ cap → k + s < 2 ^ 31 →
    (List.range s).foldlM (fun (acc : PBuf A × ℕ) j => if acc.2 < cap ∧ acc.2 + 1 < 2 ^ 31 then
      some (writeRange acc.1 (p.1, p.2 + (j + o)) 1 (fun _ => w acc.2), acc.2 + 1) else none) (M, k) =
      some (writeRange M (p.1, p.2 + o) s (fun x => w (k + x)), k + s) := by
  intro s
  induction s with
  | zero =>
    intro M k _ _
    have : writeRange M (p.1, p.2 + o) 0 (fun x => w (k + x)) = M := by
      funext b a
      unfold writeRange
      rw [if_neg (by dsimp only; omega)]
    rw [this]
    rfl
  | succ s ih =>
    intro M k h1 h2
    rw [List.range_succ, List.foldlM_append, ih M k (by omega) (by omega)]
    simp only [Option.bind_eq_bind, Option.bind_some, List.foldlM_cons, List.foldlM_nil, Option.pure_def]
    rw [if_pos ⟨by omega, by omega⟩]
    simp only [Option.bind_some]
    congr 2
    funext b a
    unfold writeRange
    dsimp only
    by_cases hb : b = p.1
    · by_cases h3 : a = p.2 + (s + o)
      · rw [if_pos ⟨hb, by omega, by omega⟩, if_pos ⟨hb, by omega, by omega⟩]
        congr 1; omega
      · rw [if_neg (by omega)]
        by_cases h4 : p.2 + o ≤ a ∧ a < p.2 + o + s
        · rw [if_pos ⟨hb, h4⟩, if_pos ⟨hb, by omega, by omega⟩]
        · rw [if_neg (by tauto), if_neg (by omega)]
    · rw [if_neg (by tauto), if_neg (by tauto), if_neg (by tauto)]

/-- A loop in a monad with a running position. -/
theorem foldlM_running {B : Type} (f : B × ℕ → ℕ → Option (B × ℕ)) (s P : ℕ → ℕ) (N : ℕ) (hP : ∀ j < N, P (j + 1) = P j + s j) (Q : ℕ → B → Prop)
    (step : ∀ j < N, ∀ b, Q j b → ∃ b', f (b, P j) j = some (b', P j + s j) ∧ Q (j + 1) b') (b : B) (h0 : Q 0 b) :
    ∃ b', (List.range N).foldlM f (b, P 0) = some (b', P N) ∧ Q N b' := by
  induction N with
  | zero => exact ⟨b, rfl, h0⟩
  | succ N ih =>
    obtain ⟨b', h1, h2⟩ := ih (fun j hj => hP j (by omega)) fun j hj => step j (by omega)
    obtain ⟨b'', h3, h4⟩ := step N (by omega) b' h2
    refine ⟨b'', ?_, h4⟩
    rw [List.range_succ, List.foldlM_append, h1]
    simp only [Option.bind_eq_bind, Option.bind_some, List.foldlM_cons, List.foldlM_nil, Option.pure_def]
    rw [h3, hP N (by omega)]
    rfl

section
variable {lay : Layout n} (hw : lay.WF) (hpos : ∀ d, lay.ndiv d ≤ lay.L d)

include hw hpos in
theorem dv_le_last (r : ℕ) (dir : Fin n) (j : ℕ) (hj : j < lay.ndiv dir) : lay.dv dir j + pencilSize lay r dir j ≤ lay.L dir := by
  rw [← dv_succ hw hpos r dir j hj, ← dv_last hw]
  rcases Nat.lt_or_ge (j + 1) (lay.ndiv dir) with h | h
  · exact le_of_lt (dv_lt hw hpos dir _ _ h (le_refl _))
  · rw [show lay.ndiv dir = j + 1 by omega]

include hw hpos in
/-- A thread of the gather kernel writes its line to its place in the work array. -/
theorem gatherThread_spec (E r : ℕ) (dir : Fin n) (cap : ℕ) (D : ℕ → ℕ → A) (M : PBuf A) (hM : Lines lay E r dir D M) (w : ℕ → A) (ind : ℕ)
    (hi : ind < myColumns lay r dir * E) (hc : lay.L dir * (ind + 1) ≤ cap) (h31 : lay.L dir * (ind + 1) < 2 ^ 31) :
    ∃ w', gatherThread lay E r dir cap M w ind = some w' ∧ (∀ t < lay.L dir, w' (lay.L dir * ind + t) = D ind t) ∧
      ∀ a, (a < lay.L dir * ind ∨ lay.L dir * ind + lay.L dir ≤ a) → w' a = w a := by
  have hL : lay.L dir * (ind + 1) = lay.L dir * ind + lay.L dir := by ring
  rw [hL] at hc h31
  obtain ⟨w', h1, h2, h3⟩ := foldlM_running (B := ℕ → A) (fun acc i => (List.range (pencilSize lay r dir i)).foldlM (fun (acc : (ℕ → A) × ℕ) j =>
      if acc.2 < cap ∧ acc.2 + 1 < 2 ^ 31 then
        some (Function.update acc.1 acc.2 (M (recPtr lay E r dir i).1 ((recPtr lay E r dir i).2 + (j + ind * pencilSize lay r dir i))), acc.2 + 1)
      else none) acc) (pencilSize lay r dir) (fun j => lay.L dir * ind + lay.dv dir j) (lay.ndiv dir)
    (fun j hj => by have := dv_succ hw hpos r dir j hj; omega)
    (fun m v => (∀ j < m, ∀ x < pencilSize lay r dir j, v (lay.L dir * ind + lay.dv dir j + x) = D ind (lay.dv dir j + x)) ∧
      ∀ a, (a < lay.L dir * ind ∨ lay.L dir * ind + lay.dv dir m ≤ a) → v a = w a)
    (by
      intro j hj v ⟨hv1, hv2⟩
      have hle := dv_le_last hw hpos r dir j hj
      have hsucc := dv_succ hw hpos r dir j hj
      obtain ⟨v', e1, e2, e3⟩ := gather_inner cap (fun x => M (recPtr lay E r dir j).1 ((recPtr lay E r dir j).2 + (x + ind * pencilSize lay r dir j)))
        (pencilSize lay r dir j) v (lay.L dir * ind + lay.dv dir j) (by omega) (by omega)
      refine ⟨v', e1, fun i hi' x hx => ?_, fun a ha => ?_⟩
      · rcases Nat.lt_or_ge i j with h | h
        · have h4 : lay.dv dir i + pencilSize lay r dir i ≤ lay.dv dir j := by
            rw [← dv_succ hw hpos r dir i (by omega)]
            rcases Nat.lt_or_ge (i + 1) j with h5 | h5
            · exact le_of_lt (dv_lt hw hpos dir _ _ h5 (by omega))
            · rw [show j = i + 1 by omega]
          rw [e3 _ (by omega), hv1 i h x hx]
        · obtain rfl : i = j := by omega
          rw [e2 x hx, ← hM ind hi i hj x hx]
          congr 1; ring
      · rw [e3 a (by omega), hv2 a (by omega)])
    w ⟨fun j hj => absurd hj (Nat.not_lt_zero _), fun _ _ => rfl⟩
  rw [dv_zero hw, Nat.add_zero] at h1
  refine ⟨w', ?_, fun t ht => ?_, fun a ha => h3 a (by rw [dv_last hw]; exact ha)⟩
  · unfold gatherThread
    rw [if_neg (by omega), h1]
    rfl
  · obtain ⟨j, hj, x, hx, rfl⟩ := dv_locate hw hpos r dir t ht
    rw [← Nat.add_assoc]
    exact h2 j hj x hx

include hw hpos in
/-- A thread of the scatter kernel does what the CPU code does with its line. -/
theorem scatterThread_eq (E r : ℕ) (dir : Fin n) (cap : ℕ) (w junk : ℕ → A) (M : PBuf A) (ind : ℕ)
    (hc : lay.L dir * (ind + 1) ≤ cap) (h31 : lay.L dir * (ind + 1) < 2 ^ 31) :
    scatterThread lay E r dir cap w M ind = some (transformLine lay E r dir (fun _ t => w (lay.L dir * ind + t)) junk M ind) := by
  have hL : lay.L dir * (ind + 1) = lay.L dir * ind + lay.L dir := by ring
  rw [hL] at hc h31
  have hs := fun j (hj : j < lay.ndiv dir) => dv_succ hw hpos r dir j hj
  obtain ⟨M', h1, h2⟩ := foldlM_running (B := PBuf A) (fun acc i => (List.range (pencilSize lay r dir i)).foldlM (fun (acc : PBuf A × ℕ) j =>
      if acc.2 < cap ∧ acc.2 + 1 < 2 ^ 31 then
        some (writeRange acc.1 ((recPtr lay E r dir i).1, (recPtr lay E r dir i).2 + (j + ind * pencilSize lay r dir i)) 1 (fun _ => w acc.2), acc.2 + 1)
      else none) acc) (pencilSize lay r dir) (fun j => lay.L dir * ind + lay.dv dir j) (lay.ndiv dir)
    (fun j hj => by have := hs j hj; omega)
    (fun m B => B = (List.range m).foldl (fun (B : PBuf A) j => writeRange B
      ((recPtr lay E r dir j).1, (recPtr lay E r dir j).2 + ind * pencilSize lay r dir j)
      (pencilSize lay r dir j) (fun x => w (lay.L dir * ind + (lay.dv dir j + x)))) M)
    (by
      intro j hj B hB
      have hle := dv_le_last hw hpos r dir j hj
      refine ⟨_, scatter_inner cap w (recPtr lay E r dir j) (ind * pencilSize lay r dir j) (pencilSize lay r dir j) B (lay.L dir * ind + lay.dv dir j)
        (by omega) (by omega), ?_⟩
      rw [List.range_succ, List.foldl_append, ← hB]
      simp only [List.foldl_cons, List.foldl_nil, Nat.add_assoc])
    M rfl
  have h0 := dv_zero hw dir
  rw [h0, Nat.add_zero] at h1
  have run2 := foldl_running (fun (B : PBuf A) P j => writeRange B
      ((recPtr lay E r dir j).1, (recPtr lay E r dir j).2 + ind * pencilSize lay r dir j)
      (pencilSize lay r dir j) (fun x => w (lay.L dir * ind + (P + x))))
    (pencilSize lay r dir) (lay.dv dir) (lay.ndiv dir) hs M
  rw [h0] at run2
  unfold scatterThread
  rw [if_neg (by omega), h1, Option.map_some]
  congr 1
  unfold transformLine
  dsimp only
  rw [run2]
  exact h2

/-! ### Kernels -/

/-- A kernel whose threads keep a property, each adding its own. -/
theorem runKernel_spec {S : Type} (columns : ℕ) (hc : 0 < columns) (order : List ℕ) (hp : order.Perm (kernelThreads columns)) (thread : S → ℕ → Option S)
    (Q : (ℕ → Prop) → S → Prop) (step : ∀ s ind, ind < columns → ∀ T : ℕ → Prop, ¬ T ind → Q T s → ∃ s', thread s ind = some s' ∧ Q (fun l => T l ∨ l = ind) s')
    (ext : ∀ T T' : ℕ → Prop, (∀ l < columns, T l ↔ T' l) → ∀ s, Q T s → Q T' s) (s : S) (h0 : Q (fun _ => False) s) :
    ∃ s', runKernel columns order thread s = some s' ∧ Q (fun _ => True) s' := by
  have h1 : (columns + fftThreads - 1) / fftThreads ≠ 0 := by
    unfold fftThreads
    omega
  unfold runKernel
  rw [if_neg h1]
  have gen : ∀ (l : List ℕ), l.Nodup → ∀ (T : ℕ → Prop) (s : S), (∀ i ∈ l, ¬ T i) → Q T s →
      ∃ s', l.foldlM (fun s ind => if ind < columns then thread s ind else some s) s = some s' ∧ Q (fun i => T i ∨ i ∈ l) s' := by
    intro l
    induction l with
    | nil => intro _ T s _ h; exact ⟨s, rfl, ext _ _ (fun i _ => by simp) s h⟩
    | cons a l ih =>
      intro hn T s hT h
      obtain ⟨hal, hn'⟩ := List.nodup_cons.1 hn
      rw [List.foldlM_cons]
      by_cases ha : a < columns
      · obtain ⟨s1, e1, h2⟩ := step s a ha T (hT a List.mem_cons_self) h
        rw [if_pos ha, e1]
        obtain ⟨s2, e2, h3⟩ := ih hn' (fun i => T i ∨ i = a) s1 (fun i hi => by
          rintro (h4 | rfl)
          · exact hT i (List.mem_cons_of_mem _ hi) h4
          · exact hal hi) h2
        exact ⟨s2, e2, ext _ _ (fun i _ => by rw [List.mem_cons]; tauto) s2 h3⟩
      · rw [if_neg ha]
        obtain ⟨s2, e2, h3⟩ := ih hn' T s (fun i hi => hT i (List.mem_cons_of_mem _ hi)) h
        refine ⟨s2, e2, ext _ _ (fun i hi => ?_) s2 h3⟩
        rw [List.mem_cons]
        have : i ≠ a := by omega
        tauto
  obtain ⟨s', e, h2⟩ := gen order (hp.nodup_iff.2 List.nodup_range) (fun _ => False) s (fun _ _ h => h) h0
  refine ⟨s', e, ext _ _ (fun l hl => ?_) s' h2⟩
  have : l ∈ order := by
    rw [hp.mem_iff]
    unfold kernelThreads fftThreads
    rw [List.mem_range]
    omega
  tauto

/-- The columns of the work array. -/
def Cols (L columns : ℕ) (D : ℕ → ℕ → A) (w : ℕ → A) : Prop := ∀ l < columns, ∀ t < L, w (L * l + t) = D l t

theorem col_apart {L l m t : ℕ} (ht : t < L) (h : l ≠ m) : L * l + t < L * m ∨ L * m + L ≤ L * l + t := by
  rcases Nat.lt_or_gt_of_ne h with h | h
  · left
    have : L * (l + 1) ≤ L * m := Nat.mul_le_mul_left _ h
    rw [Nat.mul_add, Nat.mul_one] at this
    omega
  · right
    have : L * (m + 1) ≤ L * l := Nat.mul_le_mul_left _ h
    rw [Nat.mul_add, Nat.mul_one] at this
    omega

include hw hpos in
theorem gatherKernel_spec (E r : ℕ) (dir : Fin n) (cap : ℕ) (D : ℕ → ℕ → A) (M : PBuf A) (hM : Lines lay E r dir D M) (w : ℕ → A)
    (h0 : 0 < myColumns lay r dir * E) (hc : lay.L dir * (myColumns lay r dir * E) ≤ cap) (h31 : lay.L dir * (myColumns lay r dir * E) < 2 ^ 31)
    (order : List ℕ) (hp : order.Perm (kernelThreads (myColumns lay r dir * E))) :
    ∃ w', runKernel (myColumns lay r dir * E) order (gatherThread lay E r dir cap M) w = some w' ∧ Cols (lay.L dir) (myColumns lay r dir * E) D w' := by
  obtain ⟨w', e, h⟩ := runKernel_spec _ h0 order hp (gatherThread lay E r dir cap M)
    (fun T w => ∀ l < myColumns lay r dir * E, T l → ∀ t < lay.L dir, w (lay.L dir * l + t) = D l t)
    (by
      intro s ind hi T _ hQ
      have hm : lay.L dir * (ind + 1) ≤ lay.L dir * (myColumns lay r dir * E) := Nat.mul_le_mul_left _ hi
      obtain ⟨s', e, h1, h2⟩ := gatherThread_spec hw hpos E r dir cap D M hM s ind hi (by omega) (by omega)
      refine ⟨s', e, fun l hl hTl t ht => ?_⟩
      by_cases hli : l = ind
      · subst hli; exact h1 t ht
      · rw [h2 _ (col_apart ht hli)]
        exact hQ l hl (hTl.resolve_right hli) t ht)
    (fun T T' h s hQ l hl hT => hQ l hl ((h l hl).2 hT)) w (fun _ _ h => h.elim)
  exact ⟨w', e, fun l hl => h l hl trivial⟩

include hw hpos in
theorem scatterKernel_spec (E r : ℕ) (hr : r < lay.numNodes) (dir : Fin n) (cap : ℕ) (D D' : ℕ → ℕ → A) (M : PBuf A) (hM : Lines lay E r dir D M)
    (w : ℕ → A) (hwc : Cols (lay.L dir) (myColumns lay r dir * E) D' w)
    (h0 : 0 < myColumns lay r dir * E) (hc : lay.L dir * (myColumns lay r dir * E) ≤ cap) (h31 : lay.L dir * (myColumns lay r dir * E) < 2 ^ 31)
    (order : List ℕ) (hp : order.Perm (kernelThreads (myColumns lay r dir * E))) :
    ∃ M', runKernel (myColumns lay r dir * E) order (scatterThread lay E r dir cap w) M = some M' ∧ Lines lay E r dir D' M' := by
  classical
  obtain ⟨M', e, h⟩ := runKernel_spec _ h0 order hp (scatterThread lay E r dir cap w)
    (fun T M => Lines lay E r dir (fun l => if T l then D' l else D l) M)
    (by
      intro s ind hi T _ hQ
      have hm : lay.L dir * (ind + 1) ≤ lay.L dir * (myColumns lay r dir * E) := Nat.mul_le_mul_left _ hi
      refine ⟨_, scatterThread_eq hw hpos E r dir cap w w s ind (by omega) (by omega), ?_⟩
      have := transformLine_spec hw hpos E r hr dir (fun _ t => w (lay.L dir * ind + t)) (fun _ _ _ _ _ => rfl) w _ s ind hi hQ
      intro l hl j hj x hx
      rw [this l hl j hj x hx]
      have hlt : lay.dv dir j + x < lay.L dir := by have := dv_le_last hw hpos r dir j hj; omega
      dsimp only
      by_cases hli : l = ind
      · subst hli
        rw [if_pos rfl, if_pos (Or.inr rfl)]
        exact hwc l hl _ hlt
      · simp only [hli, or_false, if_false])
    (by
      intro T T' h s hQ l hl j hj x hx
      rw [hQ l hl j hj x hx]
      dsimp only
      by_cases hT : T l
      · rw [if_pos hT, if_pos ((h l hl).1 hT)]
      · rw [if_neg hT, if_neg (fun h' => hT ((h l hl).2 h'))])
    M (by simpa using hM)
  exact ⟨M', e, by simpa using h⟩

/-! ### The work on the columns -/

theorem execBatch_in {L batch : ℕ} {F : (ℕ → A) → ℕ → A} {off : ℕ} {w : ℕ → A} {b t : ℕ} (hb : b < batch) (ht : t < L) :
    execBatch L batch F off w (off + (b * L + t)) = F (fun t => w (off + b * L + t)) t := by
  unfold execBatch
  have h1 := mul_add_lt' hb ht
  rw [if_pos ⟨by omega, by omega⟩, Nat.add_sub_cancel_left]
  have h2 : (b * L + t) / L = b := by
    rw [Nat.add_comm, Nat.add_mul_div_right _ _ (by omega), Nat.div_eq_of_lt ht, Nat.zero_add]
  have h3 : (b * L + t) % L = t := by
    rw [Nat.add_comm, Nat.add_mul_mod_self_right, Nat.mod_eq_of_lt ht]
  rw [h2, h3]

theorem execBatch_out {L batch : ℕ} {F : (ℕ → A) → ℕ → A} {off : ℕ} {w : ℕ → A} {a : ℕ} (h : a < off ∨ off + batch * L ≤ a) :
    execBatch L batch F off w a = w a := by
  unfold execBatch
  rw [if_neg (by omega)]

theorem fftExecAll_cols (L : ℕ) (b : ℕ × ℕ) (F : (ℕ → A) → ℕ → A) (hF : LocalTo L F) (D : ℕ → ℕ → A) (w : ℕ → A) (h : Cols L (b.1 * b.2) D w) :
    Cols L (b.1 * b.2) (fun l => F (D l)) (fftExecAll L b F w) := by
  obtain ⟨batch, m⟩ := b
  dsimp only at h ⊢
  have gen : ∀ k ≤ m, Cols L (batch * m) (fun l => if l < batch * k then F (D l) else D l)
      ((List.range k).foldl (fun w i => execBatch L batch F (i * (batch * L)) w) w) := by
    intro k
    induction k with
    | zero => intro _ l hl t ht; simpa using h l hl t ht
    | succ k ih =>
      intro hk l hl t ht
      have ih' := ih (by omega)
      rw [List.range_succ, List.foldl_append, List.foldl_cons, List.foldl_nil]
      set w' := (List.range k).foldl (fun w i => execBatch L batch F (i * (batch * L)) w) w
      have hoff : k * (batch * L) = L * (batch * k) := by ring
      by_cases h1 : l < batch * k
      · have : L * l + t < k * (batch * L) := by
          rw [hoff, Nat.mul_comm L l, Nat.mul_comm L (batch * k)]
          exact mul_add_lt' h1 ht
        rw [execBatch_out (Or.inl this), ih' l hl t ht]
        dsimp only
        have h2 : batch * k ≤ batch * (k + 1) := Nat.mul_le_mul_left _ (by omega)
        rw [if_pos h1, if_pos (by omega)]
      · by_cases h2 : l < batch * (k + 1)
        · obtain ⟨c, rfl⟩ := Nat.exists_eq_add_of_le (Nat.not_lt.1 h1)
          have hcb : c < batch := by rw [Nat.mul_add, Nat.mul_one] at h2; omega
          have e : L * (batch * k + c) + t = k * (batch * L) + (c * L + t) := by ring
          dsimp only
          rw [e, execBatch_in hcb ht, if_pos h2]
          refine hF _ _ (fun u hu => ?_) t ht
          have e2 : k * (batch * L) + c * L + u = L * (batch * k + c) + u := by ring
          rw [e2, ih' _ hl u hu]
          dsimp only
          rw [if_neg (by omega)]
        · have : k * (batch * L) + batch * L ≤ L * l + t := by
            have : L * (batch * (k + 1)) ≤ L * l := Nat.mul_le_mul_left _ (by omega)
            have e : L * (batch * (k + 1)) = k * (batch * L) + batch * L := by ring
            omega
          rw [execBatch_out (Or.inr this), ih' l hl t ht]
          dsimp only
          rw [if_neg h1, if_neg h2]
  intro l hl t ht
  have := gen m (le_refl _) l hl t ht
  dsimp only at this
  rw [if_pos hl] at this
  exact this

/-- A thread of the reflection kernel reflects its column. -/
theorem reflectThread_spec (L : ℕ) (w : ℕ → A) (ind : ℕ) : (∀ t < L, reflectThread L w ind (L * ind + t) = reflectLine L (fun t => w (L * ind + t)) t) ∧
    ∀ a, (a < L * ind ∨ L * ind + L ≤ a) → reflectThread L w ind a = w a := by
  unfold reflectThread reflectLine
  have gen : ∀ m ≤ L / 2 - 1,
      (∀ t < L, (List.range m).foldl (fun w k => Function.update (Function.update w (L * ind + (k + 1)) (w (L * ind + L - (k + 1))))
        (L * ind + L - (k + 1)) (w (L * ind + (k + 1)))) w (L * ind + t) =
        (List.range m).foldl (fun buf k => Function.update (Function.update buf (k + 1) (buf (L - (k + 1)))) (L - (k + 1)) (buf (k + 1)))
          (fun t => w (L * ind + t)) t) ∧
      ∀ a, (a < L * ind ∨ L * ind + L ≤ a) → (List.range m).foldl (fun w k => Function.update (Function.update w (L * ind + (k + 1)) (w (L * ind + L - (k + 1))))
        (L * ind + L - (k + 1)) (w (L * ind + (k + 1)))) w a = w a := by
    intro m
    induction m with
    | zero => intro _; exact ⟨fun _ _ => rfl, fun _ _ => rfl⟩
    | succ m ih =>
      intro hm
      obtain ⟨h1, h2⟩ := ih (by omega)
      simp only [List.range_succ, List.foldl_append, List.foldl_cons, List.foldl_nil]
      have e : L * ind + L - (m + 1) = L * ind + (L - (m + 1)) := by omega
      refine ⟨fun t ht => ?_, fun a ha => ?_⟩
      · rw [e]
        by_cases c1 : t = L - (m + 1)
        · subst c1
          rw [Function.update_self, Function.update_self, h1 _ (by omega)]
        · rw [Function.update_of_ne (by omega), Function.update_of_ne c1]
          by_cases c2 : t = m + 1
          · subst c2
            rw [Function.update_self, Function.update_self, h1 _ (by omega)]
          · rw [Function.update_of_ne (by omega), Function.update_of_ne c2, h1 t ht]
      · rw [Function.update_of_ne (by omega), Function.update_of_ne (by omega), h2 a ha]
  exact gen _ (le_refl _)

theorem reflectKernel_spec (L columns : ℕ) (h0 : 0 < columns) (order : List ℕ) (hp : order.Perm (kernelThreads columns)) (D : ℕ → ℕ → A) (w : ℕ → A)
    (hF : LocalTo L (reflectLine (A := A) L)) (h : Cols L columns D w) :
    ∃ w', runKernel columns order (fun w ind => some (reflectThread L w ind)) w = some w' ∧ Cols L columns (fun l => reflectLine L (D l)) w' := by
  classical
  obtain ⟨w', e, h1⟩ := runKernel_spec columns h0 order hp (fun w ind => some (reflectThread L w ind))
    (fun T w => Cols L columns (fun l => if T l then reflectLine L (D l) else D l) w)
    (by
      intro s ind hi T hT hQ
      obtain ⟨h1, h2⟩ := reflectThread_spec L s ind
      refine ⟨_, rfl, fun l hl t ht => ?_⟩
      dsimp only
      by_cases hli : l = ind
      · subst hli
        rw [if_pos (Or.inr rfl), h1 t ht]
        refine hF _ _ (fun u hu => ?_) t ht
        rw [hQ l hl u hu]
        dsimp only
        rw [if_neg hT]
      · rw [h2 _ (col_apart ht hli), hQ l hl t ht]
        simp only [hli, or_false])
    (by
      intro T T' h s hQ l hl t ht
      rw [hQ l hl t ht]
      dsimp only
      by_cases hT : T l
      · rw [if_pos hT, if_pos ((h l hl).1 hT)]
      · rw [if_neg hT, if_neg (fun h' => hT ((h l hl).2 h'))])
    w (by simpa using h)
  exact ⟨w', e, by simpa using h1⟩

/-! ### Transform and reflection on one rank -/

/-- What the kernels need on rank `r`: some columns, a work array that is large enough, positions that fit into an `int`. -/
def GpuFits (lay : Layout n) (E r : ℕ) (dir : Fin n) : Prop :=
  0 < myColumns lay r dir ∧ lay.L dir * myColumns lay r dir ≤ fftBufSize lay r ∧ lay.L dir * (myColumns lay r dir * E) < 2 ^ 31

theorem GpuFits.cap {E r : ℕ} {dir : Fin n} (h : GpuFits lay E r dir) : lay.L dir * (myColumns lay r dir * E) ≤ fftBufSize lay r * E := by
  rw [← Nat.mul_assoc]
  exact Nat.mul_le_mul_right _ h.2.1

/-- The orders are those of all threads. -/
def OrdersOk (columns : ℕ) (ord : KernelOrders) : Prop :=
  ord.gather.Perm (kernelThreads columns) ∧ ord.reflect.Perm (kernelThreads columns) ∧ ord.scatter.Perm (kernelThreads columns)

include hw hpos in
theorem gpuTransform_spec (E r : ℕ) (hE : 0 < E) (hr : r < lay.numNodes) (dir : Fin n) (F : (ℕ → A) → ℕ → A) (hF : LocalTo (lay.L dir) F)
    (ord : KernelOrders) (ho : OrdersOk (myColumns lay r dir * E) ord) (junk : ℕ → A) (hfit : GpuFits lay E r dir) (D : ℕ → ℕ → A) (M : PBuf A)
    (hM : Lines lay E r dir D M) :
    ∃ M', gpuTransform lay E r dir F ord junk M = some M' ∧ Lines lay E r dir (fun l => F (D l)) M' := by
  have h0 : 0 < myColumns lay r dir * E := Nat.mul_pos hfit.1 hE
  obtain ⟨w, e1, h1⟩ := gatherKernel_spec hw hpos E r dir _ D M hM junk h0 hfit.cap hfit.2.2 ord.gather ho.1
  have hb := splitBatch_prod (myColumns lay r dir) (myColumns lay r dir, E)
  have h2 := fftExecAll_cols (lay.L dir) _ F hF D w (hb.symm ▸ h1)
  rw [hb] at h2
  obtain ⟨M', e2, h3⟩ := scatterKernel_spec hw hpos E r hr dir _ D _ M hM _ h2 h0 hfit.cap hfit.2.2 ord.scatter ho.2.2
  refine ⟨M', ?_, h3⟩
  unfold gpuTransform
  dsimp only
  rw [e1]
  exact e2

include hw hpos in
theorem gpuReflect_spec (E r : ℕ) (hE : 0 < E) (hr : r < lay.numNodes) (dir : Fin n) (hF : LocalTo (lay.L dir) (reflectLine (A := A) (lay.L dir)))
    (ord : KernelOrders) (ho : OrdersOk (myColumns lay r dir * E) ord) (junk : ℕ → A) (hfit : GpuFits lay E r dir) (D : ℕ → ℕ → A) (M : PBuf A)
    (hM : Lines lay E r dir D M) :
    ∃ M', gpuReflect lay E r dir ord junk M = some M' ∧ Lines lay E r dir (fun l => reflectLine (lay.L dir) (D l)) M' := by
  have h0 : 0 < myColumns lay r dir * E := Nat.mul_pos hfit.1 hE
  obtain ⟨w, e1, h1⟩ := gatherKernel_spec hw hpos E r dir _ D M hM junk h0 hfit.cap hfit.2.2 ord.gather ho.1
  obtain ⟨w2, e2, h2⟩ := reflectKernel_spec (lay.L dir) _ h0 ord.reflect ho.2.1 D w hF h1
  obtain ⟨M', e3, h3⟩ := scatterKernel_spec hw hpos E r hr dir _ D _ M hM _ h2 h0 hfit.cap hfit.2.2 ord.scatter ho.2.2
  refine ⟨M', ?_, h3⟩
  unfold gpuReflect
  dsimp only
  rw [e1, Option.bind_some, e2]
  exact e3

/-! ### The whole transform -/

theorem onRanks_some (step : ℕ → PBuf A → Option (PBuf A)) (M : ℕ → PBuf A) (Q : ℕ → PBuf A → Prop)
    (h : ∀ r < lay.numNodes, ∃ M', step r (M r) = some M' ∧ Q r M') : ∃ M', onRanks lay step M = some M' ∧ ∀ r < lay.numNodes, Q r (M' r) := by
  refine ⟨fun r => (step r (M r)).getD (M r), ?_, fun r hr => ?_⟩
  · unfold onRanks
    rw [if_pos]
    rw [List.all_eq_true]
    intro r hr
    obtain ⟨M', e, _⟩ := h r (List.mem_range.1 hr)
    rw [e]
    rfl
  · obtain ⟨M', e, h'⟩ := h r hr
    dsimp only
    rw [e]
    exact h'

include hw hpos in
theorem fftDirectionGpu_spec (E : ℕ) (F : Fin n → (ℕ → A) → ℕ → A) (step : Fin n → ℕ → PBuf A → Option (PBuf A)) (order : ℕ → List (Site n))
    (ho : ∀ r < lay.numNodes, ∀ c, c ∈ order r ↔ BoxOf lay r c) (input g : Site n → ℕ → A) (st : Option (Fin n) × (ℕ → PBuf A)) (dir : Fin n)
    (hstep : ∀ r < lay.numNodes, ∀ D M, Lines lay E r dir D M → ∃ M', step dir r M = some M' ∧ Lines lay E r dir (fun l => F dir (D l)) M')
    (hst : match st.1 with
      | none => g = input
      | some prev => ∀ r < lay.numNodes, Enc lay E r prev g (st.2 r false)) :
    ∃ st', fftDirectionGpu lay E step order input st dir = some st' ∧ st'.1 = some dir ∧
      ∀ r < lay.numNodes, Enc lay E r dir (lineMap (F dir) dir g) (st'.2 r false) := by
  unfold fftDirectionGpu
  dsimp only
  obtain ⟨M3, e, h3⟩ := onRanks_some (lay := lay) (step dir) (gatherData lay E dir fun r =>
      match st.1 with
      | none => collectData lay E r dir (order r) input (st.2 r)
      | some prev => reshuffleData lay E r prev dir (order r) (st.2 r))
    (fun r => Lines lay E r dir fun l => F dir (lineOf lay E r dir g (colStart lay r dir (lay.dg r dir) * E + l)))
    (by
      intro q hq
      apply hstep q hq
      apply gatherData_lines hw hpos E dir g _ _ q hq
      intro p hp
      obtain ⟨o, B⟩ := st
      cases o with
      | none =>
        dsimp only at hst ⊢
        rw [hst]
        exact collectData_enc E p dir (order p) (ho p hp) input _
      | some prev =>
        dsimp only at hst ⊢
        rw [reshuffleData_eq]
        intro c hc e he
        rw [← hst p hp c hc e he]
        exact collectData_enc E p dir (order p) (ho p hp) _ _ c hc e he)
  refine ⟨(some dir, fun r => swapBuffers (scatterData lay E dir M3 r)), (congrArg (Option.map fun M3 : ℕ → PBuf A => (some dir, fun r => swapBuffers (scatterData lay E dir M3 r))) e).trans rfl, rfl, fun r hr => ?_⟩
  unfold swapBuffers
  exact scatterData_enc hw hpos E dir g (F dir) _ h3 r hr

include hw hpos in
theorem foldlM_fftDirectionGpu (E : ℕ) (F : Fin n → (ℕ → A) → ℕ → A) (step : Fin n → ℕ → PBuf A → Option (PBuf A)) (order : ℕ → List (Site n))
    (ho : ∀ r < lay.numNodes, ∀ c, c ∈ order r ↔ BoxOf lay r c) (input : Site n → ℕ → A) : ∀ (l : List (Fin n)),
    (∀ dir ∈ l, ∀ r < lay.numNodes, ∀ D M, Lines lay E r dir D M → ∃ M', step dir r M = some M' ∧ Lines lay E r dir (fun l => F dir (D l)) M') →
    ∀ (g : Site n → ℕ → A) (st : Option (Fin n) × (ℕ → PBuf A)),
    (match st.1 with
      | none => g = input
      | some prev => ∀ r < lay.numNodes, Enc lay E r prev g (st.2 r false)) →
    ∃ st', l.foldlM (fftDirectionGpu lay E step order input) st = some st' ∧ (st.1.isSome ∨ l ≠ [] → st'.1.isSome) ∧
      match st'.1 with
      | none => l.foldl (fun g d => lineMap (F d) d g) g = input
      | some prev => ∀ r < lay.numNodes, Enc lay E r prev (l.foldl (fun g d => lineMap (F d) d g) g) (st'.2 r false) := by
  intro l
  induction l with
  | nil => intro _ g st h; exact ⟨st, rfl, fun h => by simpa using h, h⟩
  | cons d l ih =>
    intro hstep g st h
    obtain ⟨st1, e1, h1, h2⟩ := fftDirectionGpu_spec hw hpos E F step order ho input g st d (hstep d List.mem_cons_self) h
    obtain ⟨st', e2, h3, h4⟩ := ih (fun d' hd' => hstep d' (List.mem_cons_of_mem _ hd')) (lineMap (F d) d g) st1 (by rw [h1]; exact h2)
    refine ⟨st', ?_, fun _ => h3 (Or.inl (by rw [h1]; rfl)), h4⟩
    rw [List.foldlM_cons, e1]
    exact e2

include hw hpos in
theorem fullTransformGpu_spec (E : ℕ) (F : Fin n → (ℕ → A) → ℕ → A) (step : Fin n → ℕ → PBuf A → Option (PBuf A)) (uninit : ℕ → PBuf A)
    (order : ℕ → List (Site n)) (ho : ∀ r < lay.numNodes, ∀ c, c ∈ order r ↔ BoxOf lay r c) (directions : Fin n → Bool)
    (hd : ∃ d, directions d = true) (input : Site n → ℕ → A)
    (hstep : ∀ dir, directions dir = true → ∀ r < lay.numNodes, ∀ D M, Lines lay E r dir D M →
      ∃ M', step dir r M = some M' ∧ Lines lay E r dir (fun l => F dir (D l)) M') :
    ∃ out, fullTransformGpu lay E step uninit order directions input = some out ∧ ∀ c, lay.InLattice c → ∀ e < E, out c e =
      (((List.finRange n).filter fun d => directions d).foldl (fun g d => lineMap (F d) d g) input) c e := by
  obtain ⟨st', e1, h1, h2⟩ := foldlM_fftDirectionGpu hw hpos E F step order ho input ((List.finRange n).filter fun d => directions d)
    (fun dir hdir => hstep dir (List.mem_filter.1 hdir).2) input (none, uninit) rfl
  obtain ⟨d, hd⟩ := hd
  have h3 := h1 (Or.inr fun h => by
    have : d ∈ (List.finRange n).filter fun d => directions d := List.mem_filter.2 ⟨List.mem_finRange d, hd⟩
    rw [h] at this
    cases this)
  unfold fullTransformGpu
  rw [e1]
  obtain ⟨o, B⟩ := st'
  cases o with
  | none => simp at h3
  | some dir =>
    refine ⟨_, rfl, fun c hc e he => ?_⟩
    exact h2 _ (nodeRank_lt lay hw c hc) c ((inBox_iff_nodeRank lay hw _ (nodeRank_lt lay hw c hc) c hc).2 rfl) e he

end

end Hila
