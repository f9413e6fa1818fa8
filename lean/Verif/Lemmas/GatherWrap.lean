import Verif.Lemmas.GatherTest
import Mathlib.Algebra.BigOperators.Associated
import Mathlib.Data.Nat.Prime.Basic
import Mathlib.Algebra.Group.Fin.Basic

/-! # The start-up test of the gathers with integers that wrap around -/

namespace Hila

open Finset

variable {n : ℕ} {L : Fin n → ℕ}

/-- The site next to `x` in direction `d`, with periodic boundaries. -/
def nextSite [∀ i, NeZero (L i)] (d : Fin n) (x : GSite L) : GSite L := Function.update x d (x d + 1)

/-- The site next to `x` in the direction opposite to `d`. -/
def prevSite [∀ i, NeZero (L i)] (d : Fin n) (x : GSite L) : GSite L := Function.update x d (x d - 1)

theorem next_prev [∀ i, NeZero (L i)] (d : Fin n) (x : GSite L) : nextSite d (prevSite d x) = x := by
  funext i
  by_cases h : i = d
  · subst h; simp [nextSite, prevSite]
  · simp [nextSite, prevSite, h]

theorem cv_injective {x y : GSite L} (h : x.cv = y.cv) : x = y := by
  funext i
  have := congrFun h i
  simp only [GSite.cv] at this
  exact Fin.ext (by omega)

theorem fin_add_one_val {m : ℕ} [NeZero m] (k : Fin m) : ((k + 1 : Fin m).val : ℤ) = ((k.val : ℤ) + 1) % (m : ℤ) := by
  rw [Fin.val_add, Fin.val_one', Nat.add_mod_mod]
  push_cast; rfl

theorem pmod_nonneg' {a b : ℤ} (ha : 0 ≤ a) (hb : 0 < b) : pmod a b = a % b := by
  unfold pmod
  rw [Int.tmod_eq_emod_of_nonneg ha]
  simp only
  rw [if_neg (by have := Int.emod_nonneg a hb.ne'; omega)]

theorem gatherF2_eq [∀ i, NeZero (L i)] (d : Fin n) (x : GSite L) : gatherF2 L d x = (nextSite d x).cv := by
  have hup : isUp (upDir d) = true := decide_eq_true d.isLt
  have hax : axis (upDir d) = d := by
    unfold axis
    rw [dif_pos (show (upDir d).val < n from d.isLt)]
    rfl
  funext i
  have hL : (0 : ℤ) < L i := by exact_mod_cast Nat.pos_of_ne_zero (NeZero.ne (L i))
  show pmod (CV.addDir x.cv (upDir d) i) (L i) = _
  unfold CV.addDir
  rw [if_pos hup, hax]
  by_cases h : i = d
  · subst h
    rw [Function.update_self, pmod_nonneg' (by simp only [GSite.cv]; omega) hL]
    simp only [GSite.cv, nextSite, Function.update_self]
    rw [fin_add_one_val]
  · rw [Function.update_of_ne h, pmod_nonneg' (by simp only [GSite.cv]; omega) hL]
    simp only [GSite.cv, nextSite, Function.update_of_ne h]
    exact Int.emod_eq_of_lt (by omega) (by exact_mod_cast (x i).isLt)

/-! ## Integers modulo 2^32 -/

theorem wrap_modEq {z r : ℤ} (h : intWrap z = some r) : r ≡ z [ZMOD 4294967296] := by
  rw [← Option.some.inj h]
  exact Int.bmod_emod

theorem wrap_small {z : ℤ} (h0 : -2147483648 ≤ z) (h1 : z < 2147483648) : intWrap z = some z := by
  unfold intWrap
  rw [Int.bmod_eq_of_le (by simpa using h0) (by simpa using h1)]

theorem addAbs_wrap {acc a b : ℤ} (h : |a - b| < 2147483648) :
    ∃ r, addAbs intWrap acc a b = some r ∧ r ≡ acc + |a - b| [ZMOD 4294967296] := by
  have h4 := abs_lt.1 h
  have e2 : absInt intWrap (a - b) = some |a - b| := by
    unfold absInt
    split
    · rw [abs_of_neg (by assumption)]; exact wrap_small (by omega) (by omega)
    · rw [abs_of_nonneg (by omega)]
  unfold addAbs
  rw [wrap_small (by omega) h4.2, Option.bind_some, e2, Option.bind_some]
  exact ⟨_, rfl, wrap_modEq rfl⟩

theorem rankDif_wrap_from {a b : GSite L → ℤ} (h : ∀ x, |a x - b x| < 2147483648) :
    ∀ (xs : List (GSite L)) (acc : ℤ),
      ∃ r, xs.foldlM (fun acc x => addAbs intWrap acc (a x) (b x)) acc = some r ∧
        r ≡ acc + (xs.map fun x => |a x - b x|).sum [ZMOD 4294967296]
  | [], acc => ⟨acc, rfl, by simp [Int.ModEq.refl]⟩
  | x :: xs, acc => by
    obtain ⟨t, ht, hm⟩ := addAbs_wrap (acc := acc) (h x)
    obtain ⟨r, hr, hm'⟩ := rankDif_wrap_from h xs t
    refine ⟨r, ?_, ?_⟩
    · rw [List.foldlM_cons, ht]; exact hr
    · rw [List.map_cons, List.sum_cons, ← add_assoc]
      exact hm'.trans (hm.add_right _)

theorem foldSum_wrap : ∀ (ss : List ℤ) (acc : ℤ),
    ∃ r, ss.foldlM (fun acc y => intWrap (acc + y)) acc = some r ∧ r ≡ acc + ss.sum [ZMOD 4294967296]
  | [], acc => ⟨acc, rfl, by simp [Int.ModEq.refl]⟩
  | s :: ss, acc => by
    obtain ⟨r, hr, hm⟩ := foldSum_wrap ss (Int.bmod (acc + s) 4294967296)
    refine ⟨r, ?_, ?_⟩
    · rw [List.foldlM_cons]; exact hr
    · rw [List.sum_cons, ← add_assoc]
      exact hm.trans ((wrap_modEq rfl).add_right _)

theorem addRanks_wrap (old : ℤ) (ss : List ℤ) :
    ∃ r, addRanks intWrap old ss = some r ∧ r ≡ old + ss.sum [ZMOD 4294967296] := by
  cases ss with
  | nil => exact ⟨old, rfl, by simp [Int.ModEq.refl]⟩
  | cons s ss =>
    obtain ⟨r, hr, hm⟩ := foldSum_wrap ss (Int.bmod (s + old) 4294967296)
    refine ⟨r, hr, hm.trans ?_⟩
    rw [List.sum_cons, ← add_assoc, add_comm old s]
    exact (wrap_modEq rfl).add_right _

theorem reduceDif_wrap {a b : GSite L → ℤ} (h : ∀ x, |a x - b x| < 2147483648) (old : ℤ)
    (ranks : List (List (GSite L))) :
    ∃ r, reduceDif intWrap old ranks a b = some r ∧
      r ≡ old + (ranks.flatten.map fun x => |a x - b x|).sum [ZMOD 4294967296] := by
  have hm : ∃ ss : List ℤ, ranks.mapM (rankDif intWrap a b) = some ss ∧
      ss.sum ≡ (ranks.flatten.map fun x => |a x - b x|).sum [ZMOD 4294967296] := by
    induction ranks with
    | nil => exact ⟨[], rfl, Int.ModEq.refl _⟩
    | cons xs ranks ih =>
      obtain ⟨ss, hs, hm⟩ := ih
      obtain ⟨r, hr, hm'⟩ := rankDif_wrap_from h xs 0
      refine ⟨r :: ss, ?_, ?_⟩
      · have hr' : rankDif intWrap a b xs = some r := hr
        rw [List.mapM_cons, hr', hs]; rfl
      · rw [zero_add] at hm'
        rw [List.sum_cons, List.flatten_cons, List.map_append, List.sum_append]
        exact hm'.add hm
  obtain ⟨ss, hs, hm⟩ := hm
  obtain ⟨r, hr, hm'⟩ := addRanks_wrap old ss
  refine ⟨r, ?_, hm'.trans (hm.add_left _)⟩
  unfold reduceDif
  rw [hs, Option.bind_some, hr]

theorem mapM_wrap {f : Fin n → Option ℤ} (h : ∀ i, ∃ r, f i = some r ∧ r ≡ 0 [ZMOD 65536]) :
    ∀ xs : List (Fin n), ∃ v, xs.mapM f = some v ∧ ∀ c ∈ v, c ≡ 0 [ZMOD 65536]
  | [] => ⟨[], rfl, by simp⟩
  | i :: xs => by
    obtain ⟨r, hr, hm⟩ := h i
    obtain ⟨v, hv, hw⟩ := mapM_wrap h xs
    refine ⟨r :: v, ?_, ?_⟩
    · rw [List.mapM_cons, hr, hv]; rfl
    · intro c hc
      rcases List.mem_cons.1 hc with rfl | hc
      · exact hm
      · exact hw c hc

theorem sqNorm_wrap : ∀ (v : List ℤ), (∀ c ∈ v, c ≡ 0 [ZMOD 65536]) →
    v.foldlM (fun acc c => (intWrap (c * c)).bind fun q => intWrap (acc + q)) 0 = some 0
  | [], _ => rfl
  | c :: v, h => by
    have hc : (65536 : ℤ) ∣ c := (Int.modEq_zero_iff_dvd).1 (h c (by simp))
    have hq : (4294967296 : ℤ) ∣ c * c := by
      have := mul_dvd_mul hc hc
      norm_num at this
      exact this
    have e : intWrap (c * c) = some 0 := by
      unfold intWrap
      rw [Int.bmod_eq_zero_of_dvd (by exact_mod_cast hq)]
    rw [List.foldlM_cons, e]
    exact sqNorm_wrap v fun y hy => h y (by simp [hy])

theorem stage_wrap {ops : GatherOps L} {ranks : List (List (GSite L))} {par : Parity} {d : Fin n}
    {old1 old2 : List ℤ} (ho1 : ∀ i, old1.getD i 0 ≡ 0 [ZMOD 65536]) (ho2 : ∀ i, old2.getD i 0 ≡ 0 [ZMOD 65536])
    (b1 : ∀ i x, |ops.up par d (gatherF1 L) x i - gatherF2 L d x i| < 2147483648)
    (b2 : ∀ i x, |gatherF1 L x i - ops.down par d (gatherF2 L d) x i| < 2147483648)
    (h1 : ∀ i, upSum ops ranks par d i ≡ 0 [ZMOD 65536]) (h2 : ∀ i, downSum ops ranks par d i ≡ 0 [ZMOD 65536]) :
    ∃ d1 d2, gatherStage intWrap ops ranks par d old1 old2 = some (true, d1, d2) ∧
      (∀ c ∈ d1, c ≡ 0 [ZMOD 65536]) ∧ ∀ c ∈ d2, c ≡ 0 [ZMOD 65536] := by
  have hd : (65536 : ℤ) ∣ 4294967296 := by norm_num
  obtain ⟨v1, e1, z1⟩ : ∃ v, difUp intWrap ops ranks par d old1 = some v ∧ ∀ c ∈ v, c ≡ 0 [ZMOD 65536] := by
    apply mapM_wrap
    intro i
    obtain ⟨r, hr, hm⟩ := reduceDif_wrap (b1 i) (old1.getD i 0) ranks
    refine ⟨r, hr, (hm.of_dvd hd).trans ?_⟩
    exact (ho1 i).add (h1 i)
  obtain ⟨v2, e2, z2⟩ : ∃ v, difDown intWrap ops ranks par d old2 = some v ∧ ∀ c ∈ v, c ≡ 0 [ZMOD 65536] := by
    apply mapM_wrap
    intro i
    obtain ⟨r, hr, hm⟩ := reduceDif_wrap (b2 i) (old2.getD i 0) ranks
    refine ⟨r, hr, (hm.of_dvd hd).trans ?_⟩
    exact (ho2 i).add (h2 i)
  have k1 : difOk intWrap v1 = some true := by
    unfold difOk sqNormInt; rw [sqNorm_wrap v1 z1]; rfl
  have k2 : difOk intWrap v2 = some true := by
    unfold difOk sqNormInt; rw [sqNorm_wrap v2 z2]; rfl
  refine ⟨v1, v2, ?_, z1, z2⟩
  unfold gatherStage
  rw [e1, Option.bind_some, e2, Option.bind_some, k1, Option.bind_some, if_pos rfl, k2]
  rfl

theorem getD_modEq {v : List ℤ} (h : ∀ c ∈ v, c ≡ 0 [ZMOD 65536]) (i : ℕ) : v.getD i 0 ≡ 0 [ZMOD 65536] := by
  rw [List.getD_eq_getElem?_getD]
  cases hv : v[i]? with
  | none => exact Int.ModEq.refl _
  | some c => exact h c (List.mem_of_getElem? hv)

/-! ## A gather which does not shift -/

/-- `f[X+d]` and `f[X-d]` both give `f[X]`. -/
def noShift (L : Fin n → ℕ) : GatherOps L where
  up _ _ f x := f x
  down _ _ f x := f x

theorem sum_component (d : Fin n) (g : Fin (L d) → ℤ) :
    ∑ x : GSite L, g (x d) = (∏ j : {j // j ≠ d}, (L j : ℤ)) * ∑ k, g k := by
  rw [← (Equiv.piSplitAt d fun i => Fin (L i)).symm.sum_comp]
  rw [Fintype.sum_prod_type]
  simp only [Equiv.piSplitAt_symm_apply, dif_pos, Finset.sum_const, Finset.card_univ, Fintype.card_pi, Fintype.card_fin]
  rw [Finset.mul_sum]
  refine Finset.sum_congr rfl fun k _ => ?_
  rw [nsmul_eq_mul]
  push_cast
  rfl

theorem sum_step (m : ℕ) : ∑ k : Fin (m + 1), |(k.val : ℤ) - ((k.val : ℤ) + 1) % ((m + 1 : ℕ) : ℤ)| = 2 * m := by
  rw [Fin.sum_univ_castSucc]
  have h1 : ∀ k : Fin m, |((Fin.castSucc k).val : ℤ) - (((Fin.castSucc k).val : ℤ) + 1) % ((m + 1 : ℕ) : ℤ)| = 1 := by
    intro k
    have hk := k.isLt
    rw [Int.emod_eq_of_lt (by omega) (by simp)]
    simp
  rw [Finset.sum_congr rfl fun k _ => h1 k]
  simp
  ring

theorem listSum_cover {xs : List (GSite L)} (hn : xs.Nodup) (hc : ∀ x, x ∈ xs) (g : GSite L → ℤ) :
    (xs.map g).sum = ∑ x, g x := by
  rw [← List.sum_toFinset g hn]
  refine Finset.sum_congr ?_ fun _ _ => rfl
  ext x
  simp [hc x]

theorem evenRanks_flatten (ranks : List (List (GSite L))) :
    (evenRanks ranks).flatten = ranks.flatten.filter fun x => decide (x.cv.parity = .even) := by
  rw [List.filter_flatten]; rfl

theorem even_iff (x : GSite L) : x.cv.parity = .even ↔ (∑ i, x.cv i) % 2 = 0 := by
  have h0 : 0 ≤ ∑ i, x.cv i := Finset.sum_nonneg fun i _ => by simp [GSite.cv]
  unfold CV.parity
  rw [Int.tmod_eq_emod_of_nonneg h0]
  split <;> simp_all

theorem even_next [∀ i, NeZero (L i)] {j : Fin n} (hj : 2 ∣ L j) (x : GSite L) :
    (nextSite j x).cv.parity = .even ↔ ¬ x.cv.parity = .even := by
  rw [even_iff, even_iff]
  rw [← Finset.add_sum_erase univ _ (Finset.mem_univ j), ← Finset.add_sum_erase univ (fun i => x.cv i) (Finset.mem_univ j)]
  have h1 : ∑ i ∈ univ.erase j, (nextSite j x).cv i = ∑ i ∈ univ.erase j, x.cv i := by
    refine Finset.sum_congr rfl fun i hi => ?_
    have hne : i ≠ j := (Finset.mem_erase.1 hi).1
    simp [GSite.cv, nextSite, hne]
  have h2 : (nextSite j x).cv j % 2 = (x.cv j + 1) % 2 := by
    simp only [GSite.cv, nextSite, Function.update_self]
    rw [fin_add_one_val, Int.emod_emod_of_dvd _ (by exact_mod_cast hj)]
  rw [h1]
  omega

theorem sum_even_half [∀ i, NeZero (L i)] {d j : Fin n} (hne : j ≠ d) (hj : 2 ∣ L j) (g : Fin (L d) → ℤ) :
    2 * ∑ x : GSite L with x.cv.parity = .even, g (x d) = ∑ x : GSite L, g (x d) := by
  have hd : ∀ x : GSite L, nextSite j x d = x d := fun x => Function.update_of_ne hne.symm _ _
  have hb : ∑ x : GSite L with x.cv.parity = .even, g (x d) =
      ∑ x : GSite L with ¬ x.cv.parity = .even, g (x d) := by
    refine Finset.sum_bij' (fun x _ => nextSite j x) (fun x _ => prevSite j x) ?_ ?_ ?_ ?_ ?_
    · intro x hx
      rw [Finset.mem_filter] at hx ⊢
      refine ⟨Finset.mem_univ _, ?_⟩
      rw [even_next hj]; exact fun h => h hx.2
    · intro x hx
      rw [Finset.mem_filter] at hx ⊢
      refine ⟨Finset.mem_univ _, ?_⟩
      have := even_next hj (prevSite j x)
      rw [next_prev] at this
      by_contra h
      exact hx.2 (this.2 h)
    · intro x _
      funext i
      by_cases h : i = j
      · subst h; simp [nextSite, prevSite]
      · simp [nextSite, prevSite, h]
    · intro x _; exact next_prev j x
    · intro x _; rw [hd]
  rw [← Finset.sum_filter_add_sum_filter_not univ fun x : GSite L => x.cv.parity = .even, ← hb]
  ring

/-- What each site adds to a component. -/
theorem noShift_term [∀ i, NeZero (L i)] (d i : Fin n) (x : GSite L) :
    |gatherF1 L x i - gatherF2 L d x i| =
      if i = d then |((x d).val : ℤ) - (((x d).val : ℤ) + 1) % (L d : ℤ)| else 0 := by
  rw [gatherF2_eq]
  by_cases h : i = d
  · subst h
    rw [if_pos rfl]
    simp only [gatherF1, GSite.cv, nextSite, Function.update_self]
    rw [fin_add_one_val]
  · rw [if_neg h]
    simp [gatherF1, GSite.cv, nextSite, h]

theorem noShift_total [∀ i, NeZero (L i)] (d : Fin n) :
    ∑ x : GSite L, |((x d).val : ℤ) - (((x d).val : ℤ) + 1) % (L d : ℤ)| =
      (∏ j : {j // j ≠ d}, (L j : ℤ)) * (2 * ((L d : ℤ) - 1)) := by
  rw [sum_component d fun k => |((k.val : ℕ) : ℤ) - (((k.val : ℕ) : ℤ) + 1) % (L d : ℤ)|]
  congr 1
  obtain ⟨m, hm⟩ := Nat.exists_eq_succ_of_ne_zero (NeZero.ne (L d))
  have := sum_step m
  have key : ∀ (N : ℕ), N = m + 1 → ∑ k : Fin N, |((k.val : ℕ) : ℤ) - (((k.val : ℕ) : ℤ) + 1) % (N : ℤ)| =
      2 * ((N : ℤ) - 1) := by
    intro N hN
    subst hN
    rw [this]; push_cast; ring
  exact key _ hm

end Hila
