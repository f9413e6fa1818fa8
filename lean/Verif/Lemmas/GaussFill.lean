import Verif.Lemmas.GaussRand

/-!
# The normal numbers that fill an object
-/

namespace Hila

theorem cplxGauss_draws (gpu : Bool) (fuel : ℕ) (hf : 0 < fuel) (w : ℝ) :
    GDraws gpu (cplxGauss fuel w) [.two] fun a l => [a.1, a.2] = l.map (· * w) := by
  refine (gaussrand2_draws gpu fuel hf).map (fun a => (a.1 * w, a.2 * w)) ?_
  rintro a l rfl; rfl

theorem fillPairs_draws (gpu : Bool) (fuel : ℕ) (hf : 0 < fuel) (w : ℝ) (k : ℕ) : ∀ (m i : ℕ) (c : ℕ → ℝ), (k - i) / 2 = m →
    GDraws gpu (fillPairs fuel w k i c) (List.replicate m .two) fun c' l => l.length = 2 * m ∧
      ∀ j, c' j = if i ≤ j ∧ j < i + 2 * m then l.getD (j - i) 0 * w else c j := by
  intro m
  induction m with
  | zero =>
    intro i c hm
    have hn : ¬ (i + 1 < k) := by omega
    have e : fillPairs fuel w k i c = fun s => some (c, s) := by
      funext s; rw [fillPairs, if_neg hn]
    rw [e]
    refine GDraws.ret c ⟨rfl, fun j => ?_⟩
    rw [if_neg (by omega)]
  | succ m ih =>
    intro i c hm
    have hn : i + 1 < k := by omega
    have e : fillPairs fuel w k i c = fun s => (gaussrand2 fuel s).bind fun q =>
        fillPairs fuel w k (i + 2) (fun j => if j = i + 1 then q.1.2 * w else if j = i then q.1.1 * w else c j) q.2 := by
      funext s; rw [fillPairs, if_pos hn]
    rw [e]
    refine (gaussrand2_draws gpu fuel hf).bind (g1 := [.two]) (g2 := List.replicate m .two) fun a l1 hl => ?_
    refine (ih (i + 2) (fun j => if j = i + 1 then a.2 * w else if j = i then a.1 * w else c j) (by omega)).mono ?_
    rintro c' l2 ⟨hlen, hc⟩
    subst hl
    refine ⟨by simp [hlen]; omega, fun j => ?_⟩
    rw [hc j]
    by_cases h1 : j = i
    · subst h1
      rw [if_neg (by omega), if_neg (by omega), if_pos rfl, if_pos (by omega)]
      simp
    · by_cases h2 : j = i + 1
      · subst h2
        rw [if_neg (by omega), if_pos rfl, if_pos (by omega)]
        simp
      · by_cases h3 : i + 2 ≤ j ∧ j < i + 2 + 2 * m
        · rw [if_pos h3, if_pos (by omega)]
          obtain ⟨d, hd⟩ := Nat.exists_eq_add_of_le h3.1
          subst hd
          rw [show i + 2 + d - (i + 2) = d by omega, show i + 2 + d - i = d + 2 by omega]
          rfl
        · rw [if_neg h3, if_neg h2, if_neg h1, if_neg (by omega)]

theorem matGaussReal_draws (gpu : Bool) (fuel : ℕ) (hf : 0 < fuel) (w : ℝ) (k : ℕ) (c : ℕ → ℝ) :
    GDraws gpu (matGaussReal gpu fuel w k c) (List.replicate (k / 2) .two ++ if k % 2 > 0 then [.one] else []) fun c' l =>
      (List.range k).map c' = l.map (· * w) := by
  unfold matGaussReal
  refine (fillPairs_draws gpu fuel hf w k (k / 2) 0 c (by simp)).bind ?_
  rintro c1 l1 ⟨hlen, hc⟩
  by_cases hk : k % 2 > 0
  · simp only [if_pos hk]
    refine (gaussrand_draws gpu fuel hf).map (fun g j => if j = k - 1 then g * w else c1 j) fun g l2 hl => ?_
    subst hl
    refine List.ext_getElem ?_ ?_
    · simp [hlen]; omega
    · intro j h1 h2
      simp only [List.getElem_map, List.getElem_range]
      simp at h1
      by_cases hj : j = k - 1
      · rw [if_pos hj]
        have : j = l1.length := by omega
        subst this
        simp
      · rw [if_neg hj, hc j, if_pos (by omega)]
        have hjl : j < l1.length := by omega
        simp [hjl]
  · simp only [if_neg hk]
    refine GDraws.ret _ ?_
    refine List.ext_getElem ?_ ?_
    · simp [hlen]; omega
    · intro j h1 h2
      simp only [List.getElem_map, List.getElem_range]
      simp at h1
      rw [hc j, if_pos (by omega)]
      have hjl : j < l1.length := by omega
      simp [hjl]

theorem matGaussCplx_draws (gpu : Bool) (fuel : ℕ) (hf : 0 < fuel) (w : ℝ) : ∀ (k i : ℕ) (c : ℕ → ℝ × ℝ),
    GDraws gpu (matGaussCplx fuel w k i c) (List.replicate k .two) fun c' l =>
      ((List.range' i k).flatMap fun j => [(c' j).1, (c' j).2]) = l.map (· * w) ∧ ∀ j < i, c' j = c j := by
  intro k
  induction k with
  | zero => intro i c; exact GDraws.ret c ⟨rfl, fun _ _ => rfl⟩
  | succ k ih =>
    intro i c
    have e : matGaussCplx fuel w (k + 1) i c = fun s => (cplxGauss fuel w s).bind fun q =>
        matGaussCplx fuel w k (i + 1) (fun j => if j = i then q.1 else c j) q.2 := rfl
    rw [e]
    refine (cplxGauss_draws gpu fuel hf w).bind (g1 := [.two]) (g2 := List.replicate k .two) fun a l1 hl => ?_
    refine (ih (i + 1) (fun j => if j = i then a else c j)).mono ?_
    rintro c' l2 ⟨h1, h2⟩
    refine ⟨?_, fun j hj => ?_⟩
    · rw [List.range'_succ, List.flatMap_cons, h1, h2 i (by omega), if_pos rfl, List.map_append, ← hl]
    · rw [h2 j (by omega), if_neg (by omega)]

/-- The calls of a request. -/
def GReq.calls : GReq → List GCall
  | .real _ => [.one]
  | .cplx _ => [.two]
  | .rmat _ k _ => List.replicate (k / 2) .two ++ if k % 2 > 0 then [.one] else []
  | .cmat _ k _ => List.replicate k .two
  | .su2 _ => [.two, .two]
  | .su2alg _ => [.two, .one]

/-- The width of a request. -/
def GReq.width : GReq → ℝ
  | .real w | .cplx w | .rmat w _ _ | .cmat w _ _ | .su2 w | .su2alg w => w

theorem callCount_replicate (k : ℕ) : callCount (List.replicate k .two) = 2 * k := by
  induction k with
  | zero => rfl
  | succ k ih => simp only [List.replicate_succ, callCount, ih]; omega

theorem GReq.widths_eq (r : GReq) : r.widths = List.replicate (callCount r.calls) r.width := by
  cases r with
  | rmat w k c =>
    simp only [widths, calls, width, callCount_append, callCount_replicate]
    congr 1
    by_cases hk : k % 2 > 0
    · simp only [if_pos hk, callCount]; omega
    · simp only [if_neg hk, callCount]; omega
  | cmat w k c => simp only [widths, calls, width, callCount_replicate]
  | _ => rfl

theorem su2Gauss_draws (gpu : Bool) (fuel : ℕ) (hf : 0 < fuel) (w : ℝ) :
    GDraws gpu (su2Gauss fuel w) [.two, .two] fun a l => [a.a, a.b, a.c, a.d] = l.map (· * w) := by
  unfold su2Gauss
  refine (gaussrand2_draws gpu fuel hf).bind (g1 := [.two]) (g2 := [.two]) fun a l1 h1 => ?_
  refine (gaussrand2_draws gpu fuel hf).map (fun b => (⟨w * a.1, w * a.2, w * b.1, w * b.2⟩ : SU2)) fun b l2 h2 => ?_
  subst h1; subst h2
  simp [mul_comm w]

theorem su2AlgGauss_draws (gpu : Bool) (fuel : ℕ) (hf : 0 < fuel) (w : ℝ) :
    GDraws gpu (su2AlgGauss gpu fuel w) [.two, .one] fun a l => [a.a, a.b, a.c] = l.map (· * w) := by
  unfold su2AlgGauss
  refine (gaussrand2_draws gpu fuel hf).bind (g1 := [.two]) (g2 := [.one]) fun a l1 h1 => ?_
  refine (gaussrand_draws gpu fuel hf).map (fun b => (⟨w * a.1, w * a.2, w * b⟩ : SU2Algebra)) fun b l2 h2 => ?_
  subst h1; subst h2
  simp [mul_comm w]

theorem GReq.exec_draws (gpu : Bool) (fuel : ℕ) (hf : 0 < fuel) (r : GReq) :
    GDraws gpu (r.exec gpu fuel) r.calls fun a l => a = l.map (· * r.width) := by
  cases r with
  | real w => exact (gaussrand_draws gpu fuel hf).map (fun a => [a * w]) fun a l h => by subst h; rfl
  | cplx w => refine (cplxGauss_draws gpu fuel hf w).map (fun a => [a.1, a.2]) ?_; exact fun a l h => h
  | rmat w k c => exact (matGaussReal_draws gpu fuel hf w k c).map (fun a => (List.range k).map a) fun a l h => h
  | cmat w k c =>
    refine (matGaussCplx_draws gpu fuel hf w k 0 c).map (fun a => (List.range k).flatMap fun i => [(a i).1, (a i).2]) fun a l h => ?_
    rw [List.range_eq_range']; exact h.1
  | su2 w => refine (su2Gauss_draws gpu fuel hf w).map (fun a => [a.a, a.b, a.c, a.d]) ?_; exact fun a l h => h
  | su2alg w => refine (su2AlgGauss_draws gpu fuel hf w).map (fun a => [a.a, a.b, a.c]) ?_; exact fun a l h => h

theorem execAll_draws (gpu : Bool) (fuel : ℕ) (hf : 0 < fuel) (rs : List GReq) :
    GDraws gpu (execAll gpu fuel rs) (rs.flatMap GReq.calls) fun a l =>
      l.length = callCount (rs.flatMap GReq.calls) → a = List.zipWith (· * ·) l (allWidths rs) := by
  induction rs with
  | nil => exact GDraws.ret [] (fun _ => rfl)
  | cons r rs ih =>
    have e : execAll gpu fuel (r :: rs) = fun s => (r.exec gpu fuel s).bind fun q => (execAll gpu fuel rs q.2).bind fun p => some (q.1 ++ p.1, p.2) := rfl
    rw [e, List.flatMap_cons]
    intro u hu s t hs
    obtain ⟨a, s1, e1, hs1, h1⟩ := r.exec_draws gpu fuel hf u hu s t hs
    obtain ⟨b, s2, e2, hs2, h2⟩ := ih u hu s1 _ hs1
    refine ⟨a ++ b, s2, ?_, ?_, ?_⟩
    · simp only [e1, Option.bind_some, e2]
    · rw [ixRun_append]; exact hs2
    · intro _
      rw [ixRun_append, List.map_append]
      have hl1 : ((ixRun gpu r.calls t).1.map (normals u)).length = callCount r.calls := by rw [List.length_map, ixRun_length]
      have h3 := h2 (by rw [List.length_map, ixRun_length])
      rw [h1, h3]
      unfold allWidths
      rw [List.flatMap_cons, List.zipWith_append (by rw [hl1, r.widths_eq, List.length_replicate])]
      congr 1
      rw [r.widths_eq]
      refine List.ext_getElem ?_ ?_
      · simp [ixRun_length]
      · intro i _ _
        simp

theorem allWidths_length (rs : List GReq) : (allWidths rs).length = callCount (rs.flatMap GReq.calls) := by
  induction rs with
  | nil => rfl
  | cons r rs ih =>
    unfold allWidths at ih ⊢
    rw [List.flatMap_cons, List.flatMap_cons, List.length_append, callCount_append, ih, r.widths_eq, List.length_replicate]

end Hila
