import Verif.Model.GatherTest
import Mathlib.Data.Fintype.BigOperators
import Mathlib.Data.Int.ModEq
import Mathlib.Algebra.Order.BigOperators.Group.List
import Mathlib.Logic.Equiv.Fin.Basic
import Mathlib.Tactic.Linarith
import Mathlib.Tactic.Ring

/-! # Facts about the start-up test of the gathers -/

namespace Hila

open Finset

variable {n : ℕ} {L : Fin n → ℕ}

/-! ## Arithmetic by the standard -/

theorem intStd_some {z r : ℤ} (h : intStd z = some r) : r = z := by
  unfold intStd at h
  split at h
  · exact (Option.some.inj h).symm
  · cases h

theorem intStd_fits {z : ℤ} (h0 : 0 ≤ z) (h1 : z < 2147483648) : intStd z = some z :=
  if_pos ⟨by omega, h1⟩

theorem absInt_some {z r : ℤ} (h : absInt intStd z = some r) : r = |z| := by
  unfold absInt at h
  split at h
  · rw [intStd_some h, abs_of_neg (by assumption)]
  · rw [← Option.some.inj h, abs_of_nonneg (by omega)]

theorem addAbs_some {acc a b r : ℤ} (h : addAbs intStd acc a b = some r) : r = acc + |a - b| := by
  unfold addAbs at h
  obtain ⟨t, ht, h⟩ := Option.bind_eq_some_iff.1 h
  obtain ⟨u, hu, h⟩ := Option.bind_eq_some_iff.1 h
  rw [intStd_some h, absInt_some hu, intStd_some ht]

theorem addAbs_fits {acc a b : ℤ} (h0 : 0 ≤ acc) (h1 : acc + |a - b| < 2147483648) :
    addAbs intStd acc a b = some (acc + |a - b|) := by
  have h2 := abs_nonneg (a - b)
  have h3 : |a - b| < 2147483648 := by omega
  have h4 := abs_lt.1 h3
  have e1 : intStd (a - b) = some (a - b) := if_pos ⟨by omega, h4.2⟩
  have e2 : absInt intStd (a - b) = some |a - b| := by
    unfold absInt
    split
    · rw [abs_of_neg (by assumption)]; exact intStd_fits (by omega) (by omega)
    · rw [abs_of_nonneg (by omega)]
  unfold addAbs
  rw [e1, Option.bind_some, e2, Option.bind_some, intStd_fits (by omega) h1]

theorem rankDif_from {a b : GSite L → ℤ} : ∀ (xs : List (GSite L)) {acc r : ℤ},
    xs.foldlM (fun acc x => addAbs intStd acc (a x) (b x)) acc = some r →
    r = acc + (xs.map fun x => |a x - b x|).sum
  | [], acc, r, h => by
    simp only [List.foldlM_nil] at h
    rw [← Option.some.inj h]; simp
  | x :: xs, acc, r, h => by
    rw [List.foldlM_cons] at h
    obtain ⟨t, ht, h⟩ := Option.bind_eq_some_iff.1 h
    rw [rankDif_from xs h, addAbs_some ht, List.map_cons, List.sum_cons]; ring

theorem rankDif_some {a b : GSite L → ℤ} {xs : List (GSite L)} {r : ℤ} (h : rankDif intStd a b xs = some r) :
    r = (xs.map fun x => |a x - b x|).sum := by
  rw [rankDif_from xs h, zero_add]

theorem absSum_nonneg (a b : GSite L → ℤ) (xs : List (GSite L)) : 0 ≤ (xs.map fun x => |a x - b x|).sum := by
  apply List.sum_nonneg
  intro y hy
  obtain ⟨x, -, rfl⟩ := List.mem_map.1 hy
  exact abs_nonneg _

theorem rankDif_fits_from {a b : GSite L → ℤ} : ∀ (xs : List (GSite L)) {acc : ℤ}, 0 ≤ acc →
    acc + (xs.map fun x => |a x - b x|).sum < 2147483648 →
    xs.foldlM (fun acc x => addAbs intStd acc (a x) (b x)) acc =
      some (acc + (xs.map fun x => |a x - b x|).sum)
  | [], acc, h0, h1 => by simp
  | x :: xs, acc, h0, h1 => by
    rw [List.map_cons, List.sum_cons] at h1 ⊢
    have h2 := absSum_nonneg a b xs
    have h3 := abs_nonneg (a x - b x)
    rw [List.foldlM_cons, addAbs_fits h0 (by omega)]
    refine (rankDif_fits_from xs (by omega) (by omega)).trans ?_
    rw [add_assoc]

theorem foldSum_some : ∀ (ss : List ℤ) {acc r : ℤ}, ss.foldlM (fun acc y => intStd (acc + y)) acc = some r →
    r = acc + ss.sum
  | [], acc, r, h => by
    simp only [List.foldlM_nil] at h
    rw [← Option.some.inj h]; simp
  | s :: ss, acc, r, h => by
    rw [List.foldlM_cons] at h
    obtain ⟨t, ht, h⟩ := Option.bind_eq_some_iff.1 h
    rw [foldSum_some ss h, intStd_some ht, List.sum_cons]; ring

theorem addRanks_some {old : ℤ} {ss : List ℤ} {r : ℤ} (h : addRanks intStd old ss = some r) :
    r = old + ss.sum := by
  cases ss with
  | nil => rw [← Option.some.inj h]; simp
  | cons s ss =>
    obtain ⟨t, ht, h⟩ := Option.bind_eq_some_iff.1 (show (intStd (s + old)).bind _ = some r from h)
    rw [foldSum_some ss h, intStd_some ht, List.sum_cons]; ring

theorem mapM_eq_map {α β : Type} {f : α → Option β} {g : α → β} : ∀ (xs : List α),
    (∀ x ∈ xs, f x = some (g x)) → xs.mapM f = some (xs.map g)
  | [], _ => rfl
  | x :: xs, h => by
    rw [List.mapM_cons, h x (by simp), mapM_eq_map xs fun y hy => h y (by simp [hy])]; rfl

theorem mapM_some_forall {α β : Type} {f : α → Option β} : ∀ (xs : List α) {ys : List β},
    xs.mapM f = some ys → List.Forall₂ (fun x y => f x = some y) xs ys
  | [], ys, h => by
    have : ys = [] := (Option.some.inj h).symm
    rw [this]; exact List.Forall₂.nil
  | x :: xs, ys, h => by
    rw [List.mapM_cons] at h
    obtain ⟨y, hy, h⟩ := Option.bind_eq_some_iff.1 h
    obtain ⟨zs, hz, h⟩ := Option.bind_eq_some_iff.1 h
    rw [← Option.some.inj h]
    exact List.Forall₂.cons hy (mapM_some_forall xs hz)

theorem reduceDif_some {a b : GSite L → ℤ} {old r : ℤ} {ranks : List (List (GSite L))}
    (h : reduceDif intStd old ranks a b = some r) :
    r = old + (ranks.flatten.map fun x => |a x - b x|).sum := by
  obtain ⟨ss, hs, h'⟩ := Option.bind_eq_some_iff.1 h
  rw [addRanks_some h']
  congr 1
  have hf := mapM_some_forall _ hs
  clear hs h h'
  induction hf with
  | nil => simp
  | cons h1 _ ih => rw [List.sum_cons, ih, rankDif_some h1]; simp

theorem foldSum_fits : ∀ (ss : List ℤ) {acc : ℤ}, 0 ≤ acc → (∀ s ∈ ss, 0 ≤ s) → acc + ss.sum < 2147483648 →
    ss.foldlM (fun acc y => intStd (acc + y)) acc = some (acc + ss.sum)
  | [], acc, _, _, _ => by simp
  | s :: ss, acc, h0, hp, h1 => by
    have hs := hp s (by simp)
    have hss : 0 ≤ ss.sum := List.sum_nonneg fun y hy => hp y (by simp [hy])
    rw [List.sum_cons] at h1 ⊢
    rw [List.foldlM_cons, intStd_fits (by omega) (by omega)]
    refine (foldSum_fits ss (by omega) (fun y hy => hp y (by simp [hy])) (by omega)).trans ?_
    rw [add_assoc]

theorem sum_flatten_abs (a b : GSite L → ℤ) : ∀ ranks : List (List (GSite L)),
    (ranks.map fun xs => (xs.map fun x => |a x - b x|).sum).sum = (ranks.flatten.map fun x => |a x - b x|).sum
  | [] => rfl
  | xs :: ranks => by
    rw [List.map_cons, List.sum_cons, sum_flatten_abs a b ranks]; simp

theorem reduceDif_fits {a b : GSite L → ℤ} {old : ℤ} {ranks : List (List (GSite L))} (h0 : 0 ≤ old)
    (h1 : old + (ranks.flatten.map fun x => |a x - b x|).sum < 2147483648) :
    reduceDif intStd old ranks a b = some (old + (ranks.flatten.map fun x => |a x - b x|).sum) := by
  rw [← sum_flatten_abs] at h1 ⊢
  have hpos : ∀ s ∈ ranks.map fun xs => (xs.map fun x => |a x - b x|).sum, 0 ≤ s := by
    intro s hs
    obtain ⟨xs, -, rfl⟩ := List.mem_map.1 hs
    exact absSum_nonneg a b xs
  unfold reduceDif
  rw [mapM_eq_map (g := fun xs => (xs.map fun x => |a x - b x|).sum)]
  · rw [Option.bind_some]
    generalize ranks.map _ = ss at h1 hpos
    cases ss with
    | nil => simp [addRanks]
    | cons s ss =>
      have hs := hpos s (by simp)
      have hss : 0 ≤ ss.sum := List.sum_nonneg fun y hy => hpos y (by simp [hy])
      rw [List.sum_cons] at h1 ⊢
      show (intStd (s + old)).bind _ = _
      rw [intStd_fits (by omega) (by omega), Option.bind_some,
        foldSum_fits ss (by omega) (fun y hy => hpos y (by simp [hy])) (by omega)]
      congr 1; ring
  · intro xs hxs
    have h2 : (xs.map fun x => |a x - b x|).sum ≤
        (ranks.map fun xs => (xs.map fun x => |a x - b x|).sum).sum :=
      List.single_le_sum hpos _ (List.mem_map.2 ⟨xs, hxs, rfl⟩)
    refine (rankDif_fits_from xs le_rfl (by omega)).trans ?_
    rw [zero_add]

theorem sqNorm_from : ∀ (v : List ℤ) {acc r : ℤ},
    v.foldlM (fun acc c => (intStd (c * c)).bind fun q => intStd (acc + q)) acc = some r →
    r = acc + (v.map fun c => c * c).sum
  | [], acc, r, h => by
    simp only [List.foldlM_nil] at h
    rw [← Option.some.inj h]; simp
  | c :: v, acc, r, h => by
    rw [List.foldlM_cons] at h
    obtain ⟨t, ht, h⟩ := Option.bind_eq_some_iff.1 h
    obtain ⟨q, hq, ht⟩ := Option.bind_eq_some_iff.1 ht
    rw [sqNorm_from v h, intStd_some ht, intStd_some hq, List.map_cons, List.sum_cons]; ring

theorem sqNorm_fits_from : ∀ (v : List ℤ) {acc : ℤ}, 0 ≤ acc →
    acc + (v.map fun c => c * c).sum < 2147483648 →
    v.foldlM (fun acc c => (intStd (c * c)).bind fun q => intStd (acc + q)) acc =
      some (acc + (v.map fun c => c * c).sum)
  | [], acc, _, _ => by simp
  | c :: v, acc, h0, h1 => by
    have h2 : 0 ≤ (v.map fun c => c * c).sum := by
      apply List.sum_nonneg
      intro y hy
      obtain ⟨x, -, rfl⟩ := List.mem_map.1 hy
      exact mul_self_nonneg x
    have h3 := mul_self_nonneg c
    rw [List.map_cons, List.sum_cons] at h1 ⊢
    rw [List.foldlM_cons, intStd_fits h3 (by omega), Option.bind_some, intStd_fits (by omega) (by omega)]
    refine (sqNorm_fits_from v (by omega) (by omega)).trans ?_
    rw [add_assoc]

theorem sqSum_zero : ∀ {v : List ℤ}, (v.map fun c => c * c).sum = 0 → ∀ c ∈ v, c = 0
  | [], _, c, hc => by cases hc
  | c :: v, h, e, he => by
    have h2 : 0 ≤ (v.map fun c => c * c).sum := by
      apply List.sum_nonneg
      intro y hy
      obtain ⟨x, -, rfl⟩ := List.mem_map.1 hy
      exact mul_self_nonneg x
    have h3 := mul_self_nonneg c
    rw [List.map_cons, List.sum_cons] at h
    rcases List.mem_cons.1 he with rfl | he
    · exact mul_self_eq_zero.1 (by omega)
    · exact sqSum_zero (by omega) e he

theorem difOk_true {v : List ℤ} (h : difOk intStd v = some true) : ∀ c ∈ v, c = 0 := by
  obtain ⟨q, hq, h⟩ := Option.map_eq_some_iff.1 h
  have h0 : q = 0 := of_decide_eq_true h
  have := sqNorm_from v hq
  rw [h0, zero_add] at this
  exact sqSum_zero this.symm

theorem difOk_fits {v : List ℤ} (h : (v.map fun c => c * c).sum < 2147483648) :
    difOk intStd v = some (decide (∀ c ∈ v, c = 0)) := by
  unfold difOk sqNormInt
  rw [sqNorm_fits_from v le_rfl (by omega), Option.map_some, zero_add]
  congr 1
  apply decide_eq_decide.2
  constructor
  · exact sqSum_zero
  · intro h0
    apply List.sum_eq_zero
    intro y hy
    obtain ⟨x, hx, rfl⟩ := List.mem_map.1 hy
    rw [h0 x hx, mul_zero]

/-! ## The components of a loop -/

/-- The sum which a component of `dif1` has after a loop. -/
def upSum (ops : GatherOps L) (ranks : List (List (GSite L))) (par : Parity) (d : Fin n) (i : Fin n) : ℤ :=
  (ranks.flatten.map fun x => |ops.up par d (gatherF1 L) x i - gatherF2 L d x i|).sum

/-- The sum which a component of `dif2` has after a loop. -/
def downSum (ops : GatherOps L) (ranks : List (List (GSite L))) (par : Parity) (d : Fin n) (i : Fin n) : ℤ :=
  (ranks.flatten.map fun x => |gatherF1 L x i - ops.down par d (gatherF2 L d) x i|).sum

theorem mapM_finRange_mem {f : Fin n → Option ℤ} {v : List ℤ} (h : (List.finRange n).mapM f = some v)
    (i : Fin n) : ∃ c ∈ v, f i = some c := by
  have hf := mapM_some_forall _ h
  have key : ∀ {xs : List (Fin n)} {v : List ℤ}, List.Forall₂ (fun x y => f x = some y) xs v → i ∈ xs →
      ∃ c ∈ v, f i = some c := by
    intro xs v hf
    induction hf with
    | nil => intro h; cases h
    | cons h1 _ ih =>
      intro hm
      rcases List.mem_cons.1 hm with rfl | hm
      · exact ⟨_, by simp, h1⟩
      · obtain ⟨c, hc, e⟩ := ih hm
        exact ⟨c, by simp [hc], e⟩
  exact key hf (List.mem_finRange i)

theorem absSum_zero {a b : GSite L → ℤ} {xs : List (GSite L)} (h : (xs.map fun x => |a x - b x|).sum = 0) :
    ∀ x ∈ xs, a x = b x := by
  intro x hx
  have hle : |a x - b x| ≤ (xs.map fun x => |a x - b x|).sum := by
    apply List.single_le_sum
    · intro y hy
      obtain ⟨z, -, rfl⟩ := List.mem_map.1 hy
      exact abs_nonneg _
    · exact List.mem_map.2 ⟨x, hx, rfl⟩
  have := abs_nonneg (a x - b x)
  have h0 : |a x - b x| = 0 := by omega
  have := abs_eq_zero.1 h0
  omega

theorem absSum_of_eq {a b : GSite L → ℤ} {xs : List (GSite L)} (h : ∀ x ∈ xs, a x = b x) :
    (xs.map fun x => |a x - b x|).sum = 0 := by
  apply List.sum_eq_zero
  intro y hy
  obtain ⟨x, hx, rfl⟩ := List.mem_map.1 hy
  rw [h x hx, sub_self, abs_zero]

theorem stage_true {ops : GatherOps L} {ranks : List (List (GSite L))} {par : Parity} {d : Fin n}
    {old1 old2 d1 d2 : List ℤ} (ho1 : ∀ i, old1.getD i 0 = 0) (ho2 : ∀ i, old2.getD i 0 = 0)
    (h : gatherStage intStd ops ranks par d old1 old2 = some (true, d1, d2)) :
    (∀ x ∈ ranks.flatten, ops.up par d (gatherF1 L) x = gatherF2 L d x ∧
      ops.down par d (gatherF2 L d) x = gatherF1 L x) ∧
    (∀ c ∈ d1, c = 0) ∧ ∀ c ∈ d2, c = 0 := by
  obtain ⟨e1, h1, h⟩ := Option.bind_eq_some_iff.1 h
  obtain ⟨e2, h2, h⟩ := Option.bind_eq_some_iff.1 h
  obtain ⟨ok1, h3, h⟩ := Option.bind_eq_some_iff.1 h
  cases ok1 with
  | false => simp at h
  | true =>
    simp only [if_true] at h
    obtain ⟨ok2, h4, h⟩ := Option.bind_eq_some_iff.1 h
    obtain ⟨rfl, rfl, rfl⟩ : ok2 = true ∧ e1 = d1 ∧ e2 = d2 := by simpa using h
    have z1 := difOk_true h3
    have z2 := difOk_true h4
    refine ⟨fun x hx => ⟨?_, ?_⟩, z1, z2⟩
    · funext i
      obtain ⟨c, hc, e⟩ := mapM_finRange_mem h1 i
      have := reduceDif_some e
      rw [ho1, zero_add, z1 c hc] at this
      exact absSum_zero this.symm x hx
    · funext i
      obtain ⟨c, hc, e⟩ := mapM_finRange_mem h2 i
      have := reduceDif_some e
      rw [ho2, zero_add, z2 c hc] at this
      exact (absSum_zero this.symm x hx).symm

theorem getD_zero {v : List ℤ} (h : ∀ c ∈ v, c = 0) (i : ℕ) : v.getD i 0 = 0 := by
  rw [List.getD_eq_getElem?_getD]
  cases hv : v[i]? with
  | none => rfl
  | some c => exact h c (List.mem_of_getElem? hv)

/-- What the loop computes if no operation overflows. -/
theorem stage_fits {ops : GatherOps L} {ranks : List (List (GSite L))} {par : Parity} {d : Fin n}
    {old1 old2 : List ℤ} (ho1 : ∀ i, old1.getD i 0 = 0) (ho2 : ∀ i, old2.getD i 0 = 0)
    (h1 : ∀ i, upSum ops ranks par d i < 2147483648) (h2 : ∀ i, downSum ops ranks par d i < 2147483648)
    (q1 : ∑ i, upSum ops ranks par d i * upSum ops ranks par d i < 2147483648)
    (q2 : ∑ i, downSum ops ranks par d i * downSum ops ranks par d i < 2147483648) :
    gatherStage intStd ops ranks par d old1 old2 =
      some (decide (∀ x ∈ ranks.flatten, ops.up par d (gatherF1 L) x = gatherF2 L d x ∧
        ops.down par d (gatherF2 L d) x = gatherF1 L x),
        (List.finRange n).map (upSum ops ranks par d), (List.finRange n).map (downSum ops ranks par d)) := by
  have e1 : difUp intStd ops ranks par d old1 = some ((List.finRange n).map (upSum ops ranks par d)) := by
    apply mapM_eq_map
    intro i _
    rw [ho1]
    exact (reduceDif_fits le_rfl (by rw [zero_add]; exact h1 i)).trans (by rw [zero_add]; rfl)
  have e2 : difDown intStd ops ranks par d old2 = some ((List.finRange n).map (downSum ops ranks par d)) := by
    apply mapM_eq_map
    intro i _
    rw [ho2]
    exact (reduceDif_fits le_rfl (by rw [zero_add]; exact h2 i)).trans (by rw [zero_add]; rfl)
  have s1 : (((List.finRange n).map (upSum ops ranks par d)).map fun c => c * c).sum < 2147483648 := by
    rw [List.map_map, ← List.ofFn_eq_map, List.sum_ofFn]; exact q1
  have s2 : (((List.finRange n).map (downSum ops ranks par d)).map fun c => c * c).sum < 2147483648 := by
    rw [List.map_map, ← List.ofFn_eq_map, List.sum_ofFn]; exact q2
  unfold gatherStage
  rw [e1, Option.bind_some, e2, Option.bind_some, difOk_fits s1, Option.bind_some, difOk_fits s2]
  have up : (∀ c ∈ (List.finRange n).map (upSum ops ranks par d), c = 0) ↔
      ∀ x ∈ ranks.flatten, ops.up par d (gatherF1 L) x = gatherF2 L d x := by
    constructor
    · intro h x hx
      funext i
      exact absSum_zero (h _ (List.mem_map.2 ⟨i, List.mem_finRange i, rfl⟩)) x hx
    · intro h c hc
      obtain ⟨i, -, rfl⟩ := List.mem_map.1 hc
      exact absSum_of_eq fun x hx => by rw [h x hx]
  have down : (∀ c ∈ (List.finRange n).map (downSum ops ranks par d), c = 0) ↔
      ∀ x ∈ ranks.flatten, ops.down par d (gatherF2 L d) x = gatherF1 L x := by
    constructor
    · intro h x hx
      funext i
      exact (absSum_zero (h _ (List.mem_map.2 ⟨i, List.mem_finRange i, rfl⟩)) x hx).symm
    · intro h c hc
      obtain ⟨i, -, rfl⟩ := List.mem_map.1 hc
      exact absSum_of_eq fun x hx => by rw [h x hx]
  by_cases hu : ∀ c ∈ (List.finRange n).map (upSum ops ranks par d), c = 0
  · rw [decide_eq_true hu]
    simp only [if_true, Option.bind_some]
    congr 2
    apply decide_eq_decide.2
    rw [down]
    have hu' := up.1 hu
    exact ⟨fun h x hx => ⟨hu' x hx, h x hx⟩, fun h x hx => (h x hx).2⟩
  · rw [decide_eq_false hu]
    simp only [Bool.false_eq_true, if_false]
    congr 2
    symm
    apply decide_eq_false
    intro h
    exact hu (up.2 fun x hx => (h x hx).1)

end Hila
