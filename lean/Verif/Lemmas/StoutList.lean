import Verif.Lemmas.StoutPull
import Mathlib.Data.List.Sort

/-!
# Lists of smeared fields and the three versions of the force
-/

set_option linter.unusedSectionVars false

namespace Hila

open Matrix

variable {n : ℕ} {L : Fin n → ℕ} {N : ℕ}

/-! ### One step -/

theorem head_of_fold [∀ d, NeZero (L d)] (hN : 0 < N) {U : ℝ → GField L N} {a : AlgField L N} (h : LinkCurve U fun d x => algMat (a d x)) (c : ℝ) :
    ∃ b : AlgField L N, LinkCurve (fun t => stoutSpec c (U t)) (fun d x => algMat (b d x)) ∧
      ∀ (K : AlgField L N) (m : Fin n → PSite L → Mat N × Mat N),
        (∀ d x, IsMultExp (stoutArg c (U 0 d x) (stapleSum (U 0) d x)) (expand (K d x)) (m d x)) →
        pairK b K = pairK a ((dirPairs n).foldl (stoutStapleForce (U 0) (stoutForceHead c (U 0) (stapleSum (U 0)) m).1)
          (stoutForceHead c (U 0) (stapleSum (U 0)) m).2) := by
  obtain ⟨b, h1, h2⟩ := pull_head hN h c
  refine ⟨b, h1, fun K m hm => ?_⟩
  rw [h2 K m hm, stapleForce_run hN]

theorem pull_one [∀ d, NeZero (L d)] (hN : 0 < N) {e : StoutExp N} (he : ExactExp e) {U : ℝ → GField L N} {a : AlgField L N}
    (h : LinkCurve U fun d x => algMat (a d x)) (c : ℝ) :
    ∃ b : AlgField L N, LinkCurve (fun t => stoutSpec c (U t)) (fun d x => algMat (b d x)) ∧
      ∀ K : AlgField L N, pairK b K = pairK a (stoutForceStep e c (U 0) (stapleSum (U 0)) K) := by
  obtain ⟨b, h1, h2⟩ := head_of_fold hN h c
  exact ⟨b, h1, fun K => h2 K _ fun d x => he.multEx _ _⟩

theorem stoutSpec_unitary (hN : 0 < N) {U : GField L N} (hU : IsUnitaryField U) (c : ℝ) : IsUnitaryField (stoutSpec c U) := by
  intro d x
  refine mul_mem ?_ (hU d x)
  have := stoutArg_conj hN c (U d x) (stapleSum U d x)
  rw [stoutArg_eq hN] at this
  rw [Matrix.mem_unitaryGroup_iff, Matrix.star_eq_conjTranspose]
  exact exp_antiherm_unitary this

theorem stoutkPairs_ok (hN : 0 < N) {e : StoutExp N} (he : ExactExp e) {U : GField L N} (hU : IsUnitaryField U) (c : ℝ) (K : AlgField L N)
    (d : Fin n) (x : PSite L) :
    IsMultExp (stoutArg c (U d x) (stapleSum U d x)) (expand (K d x)) (stoutkPairs e c (stoutSpec c U) U (stoutK e c U) (stapleSum U) K d x) := by
  have h1 : stoutSpec c U d x * (U d x)ᴴ = NormedSpace.exp (stoutArg c (U d x) (stapleSum U d x)) := by
    rw [stoutArg_eq hN]
    show NormedSpace.exp _ * U d x * (U d x)ᴴ = _
    rw [Matrix.mul_assoc, hU.right, Matrix.mul_one]
  unfold stoutkPairs stoutK
  rw [h1, staplesums_eq]
  exact he.multFast _ _

/-- Two fields with the same products are equal; for the comparison of the versions of the force. -/
theorem step_unique [∀ d, NeZero (L d)] {V : GField L N} {F F' : AlgField L N}
    (h : ∀ (U : ℝ → GField L N) (a : AlgField L N), U 0 = V → LinkCurve U (fun d x => algMat (a d x)) → pairK a F = pairK a F') : F = F' := by
  refine pairK_ext fun a => h _ a ?_ (exp_curve V fun d x => algMat (a d x))
  funext d x; simp

theorem stoutkForceStep_eq [∀ d, NeZero (L d)] (hN : 0 < N) {e : StoutExp N} (he : ExactExp e) {V : GField L N} (hV : IsUnitaryField V) (c : ℝ)
    (K : AlgField L N) :
    stoutkForceStep e c (stoutSpec c V) V (stoutK e c V) (stapleSum V) K = stoutForceStep e c V (stapleSum V) K := by
  refine step_unique (V := V) fun U a h0 h => ?_
  subst h0
  obtain ⟨b, -, h2⟩ := head_of_fold hN h c
  exact (h2 K _ fun d x => stoutkPairs_ok hN he hV c K d x).symm.trans (h2 K _ fun d x => he.multEx _ _)

/-! ### The directions other than a given one -/

/-- The direction number `k` among those that differ from `d`. -/
def nthOther (d : Fin n) (k : Fin (n - 1)) : Fin n := if k.val < d.val then ⟨k.val, by omega⟩ else ⟨k.val + 1, by omega⟩

theorem others_eq (d : Fin n) : (List.finRange n).filter (· ≠ d) = (List.finRange (n - 1)).map (nthOther d) := by
  refine List.Pairwise.eq_of_mem_iff (r := (· < ·)) ((List.pairwise_lt_finRange n).filter _) ?_ ?_
  · rw [List.pairwise_map]
    refine (List.pairwise_lt_finRange (n - 1)).imp fun {i j} hij => ?_
    have : i.val < j.val := hij
    unfold nthOther
    split_ifs <;> (rw [Fin.lt_def]; simp; omega)
  · intro e
    simp only [List.mem_filter, List.mem_finRange, true_and, List.mem_map, decide_eq_true_eq]
    constructor
    · intro he
      have he' : e.val ≠ d.val := fun h => he (Fin.ext h)
      rcases Nat.lt_or_ge e.val d.val with h | h
      · refine ⟨⟨e.val, by omega⟩, ?_⟩
        unfold nthOther
        rw [if_pos h]
      · refine ⟨⟨e.val - 1, by omega⟩, ?_⟩
        unfold nthOther
        rw [if_neg (by simp; omega)]
        apply Fin.ext
        simp
        omega
    · rintro ⟨k, rfl⟩ h
      have := congrArg Fin.val h
      unfold nthOther at this
      split_ifs at this <;> simp at this <;> omega

theorem othersIdx_eq (d : Fin n) : othersIdx d = (List.finRange (n - 1)).map fun k => (nthOther d k, k.val) := by
  unfold othersIdx
  rw [others_eq]
  apply List.ext_getElem
  · simp
  · intro i h1 h2
    simp

theorem nthOther_ne (d : Fin n) (k : Fin (n - 1)) : nthOther d k ≠ d := by
  intro h
  have := congrArg Fin.val h
  unfold nthOther at this
  split_ifs at this <;> simp at this <;> omega

theorem sum_others {M : Type} [AddCommMonoid M] (d : Fin n) (f : Fin n → M) : ∑ k, f (nthOther d k) = ∑ e, if e ≠ d then f e else 0 := by
  rw [Fin.sum_univ_def, Fin.sum_univ_def, ← list_sum_filter, others_eq, List.map_map]
  rfl

/-- The position at which `get_stout_staples` stores the upper staple. -/
theorem nthOther_inv (d e : Fin n) (h : e ≠ d) :
    ∃ k : Fin (n - 1), nthOther d k = e ∧ k.val = if e < d then e.val else e.val - 1 := by
  have h' : e.val ≠ d.val := fun h1 => h (Fin.ext h1)
  by_cases hl : e < d
  · refine ⟨⟨e.val, by have : e.val < d.val := hl; omega⟩, ?_, by simp [hl]⟩
    unfold nthOther
    rw [if_pos (show e.val < d.val from hl)]
  · have : ¬ e.val < d.val := hl
    refine ⟨⟨e.val - 1, by omega⟩, ?_, by simp [hl]⟩
    unfold nthOther
    rw [if_neg (by simp; omega)]
    apply Fin.ext
    simp
    omega

/-- All triples of the loops. -/
def dirTriples (n : ℕ) : List (Fin n × Fin n × ℕ) := (List.finRange n).flatMap fun d1 => (othersIdx d1).map fun t => (d1, t)

theorem mem_dirTriples (t : Fin n × Fin n × ℕ) : t ∈ dirTriples n ↔ ∃ k : Fin (n - 1), t.2.1 = nthOther t.1 k ∧ t.2.2 = k.val := by
  unfold dirTriples
  simp only [List.mem_flatMap, List.mem_finRange, true_and, othersIdx_eq, List.map_map, List.mem_map, Function.comp]
  constructor
  · rintro ⟨d, k, rfl⟩
    exact ⟨k, rfl, rfl⟩
  · rintro ⟨k, h1, h2⟩
    refine ⟨t.1, k, ?_⟩
    rw [← h1, ← h2]

theorem dirTriples_pairwise : (dirTriples n).Pairwise fun s t => s.1 ≠ t.1 ∨ s.2.2 ≠ t.2.2 := by
  unfold dirTriples
  rw [List.pairwise_flatMap]
  constructor
  · intro d _
    rw [List.pairwise_map, othersIdx_eq, List.pairwise_map]
    refine (List.nodup_finRange (n - 1)).imp fun {i j} hij => ?_
    right
    exact fun h => hij (Fin.ext h)
  · refine (List.nodup_finRange n).imp fun {d e} hde => ?_
    intro s hs t ht
    left
    simp only [List.mem_map] at hs ht
    obtain ⟨_, _, rfl⟩ := hs
    obtain ⟨_, _, rfl⟩ := ht
    exact hde

theorem dirTriples_sum {M : Type} [AddCommMonoid M] (g : Fin n × Fin n × ℕ → M) (g' : Fin n → Fin n → M)
    (h : ∀ t ∈ dirTriples n, g t = g' t.1 t.2.1) : ((dirTriples n).map g).sum = ∑ d, ∑ e, if e ≠ d then g' d e else 0 := by
  rw [List.map_congr_left (g := fun t => g' t.1 t.2.1) h]
  unfold dirTriples
  have hf : ∀ l : List (Fin n), ((l.flatMap fun d1 => (othersIdx d1).map fun t => (d1, t)).map fun t => g' t.1 t.2.1).sum =
      (l.map fun d1 => ∑ e, if e ≠ d1 then g' d1 e else 0).sum := by
    intro l
    induction l with
    | nil => simp
    | cons d1 l ih =>
      rw [List.flatMap_cons, List.map_append, List.sum_append, ih, List.map_cons, List.sum_cons, ← sum_others, othersIdx_eq, List.map_map, List.map_map,
        Fin.sum_univ_def]
      rfl
  rw [hf, Fin.sum_univ_def]

/-! ### The array of staples -/

/-- What the array contains in the end. -/
def stapT (U : GField L N) (k : Fin (2 * (n - 1))) (d : Fin n) : PSite L → Mat N :=
  if h : k.val < n - 1 then upStaple U d (nthOther d ⟨k.val, h⟩) else dnStaple U d (nthOther d ⟨2 * (n - 1) - 1 - k.val, by omega⟩)

theorem stoutStaplesStep_ok (U : GField L N) (S : StapArr L N) (t : Fin n × Fin n × ℕ) (ht : t ∈ dirTriples n)
    (hS : ∀ k d, S k d = none ∨ S k d = some (stapT U k d)) :
    ∃ S', stoutStaplesStep U S t = some S' ∧ (∀ k d, S' k d = none ∨ S' k d = some (stapT U k d)) ∧ (∀ k d, S k d ≠ none → S' k d ≠ none) ∧
      (∀ k, nthOther t.2.1 k = t.1 → ∀ hk, S' ⟨k.val, hk⟩ t.2.1 ≠ none) ∧ (∀ k : Fin (2 * (n - 1)), k.val = 2 * (n - 1) - 1 - t.2.2 → S' k t.1 ≠ none) := by
  obtain ⟨d1, d2, kk⟩ := t
  obtain ⟨k0, h1, h2⟩ := (mem_dirTriples _).1 ht
  dsimp only at h1 h2
  subst h2
  have hne : d1 ≠ d2 := by rw [h1]; exact (nthOther_ne d1 k0).symm
  obtain ⟨k1, h3, h4⟩ := nthOther_inv d2 d1 hne
  have hcond : (if d1 < d2 then d1.val else d1.val - 1) < 2 * (n - 1) ∧ k0.val < 2 * (n - 1) := by
    rw [← h4]; constructor <;> omega
  have hinj : ∀ k : Fin (n - 1), nthOther d2 k = d1 → k = k1 := by
    intro k hk
    have := congrArg Fin.val (hk.trans h3.symm)
    unfold nthOther at this
    apply Fin.ext
    split_ifs at this <;> simp at this <;> omega
  have hT1 : stapT U ⟨k1.val, by omega⟩ d2 = fun x => U d1 (x + unitStep d2) * (U d1 x * U d2 (x + unitStep d1))ᴴ := by
    unfold stapT
    rw [dif_pos k1.isLt]
    funext x
    show upStaple U d2 (nthOther d2 k1) x = _
    rw [h3, upStaple_eq, Matrix.conjTranspose_mul]
  have hT2 : stapT U ⟨2 * (n - 1) - 1 - k0.val, by omega⟩ d1 = fun x => (U d1 (x - unitStep d2) * U d2 (x - unitStep d2 + unitStep d1))ᴴ * U d2 (x - unitStep d2) := by
    unfold stapT
    rw [dif_neg (by simp; omega)]
    funext x
    have : (⟨2 * (n - 1) - 1 - (2 * (n - 1) - 1 - k0.val), by omega⟩ : Fin (n - 1)) = k0 := Fin.ext (by simp; omega)
    rw [this, ← h1, dnStaple_eq, Matrix.conjTranspose_mul, Matrix.mul_assoc]
  have hv : (⟨if d1 < d2 then d1.val else d1.val - 1, hcond.1⟩ : Fin (2 * (n - 1))) = ⟨k1.val, by omega⟩ := Fin.ext h4.symm
  unfold stoutStaplesStep
  dsimp only
  rw [dif_pos hcond]
  refine ⟨_, rfl, ?_, ?_, ?_, ?_⟩
  · intro k d
    by_cases c1 : k = ⟨2 * (n - 1) - 1 - k0.val, by omega⟩ ∧ d = d1
    · rw [if_pos c1, c1.1, c1.2, hT2]; right; rfl
    · rw [if_neg c1]
      by_cases c2 : k = ⟨if d1 < d2 then d1.val else d1.val - 1, hcond.1⟩ ∧ d = d2
      · rw [if_pos c2, c2.1, c2.2, hv, hT1]; right; rfl
      · rw [if_neg c2]; exact hS k d
  · intro k d h
    by_cases c1 : k = ⟨2 * (n - 1) - 1 - k0.val, by omega⟩ ∧ d = d1
    · rw [if_pos c1]; simp
    · rw [if_neg c1]
      by_cases c2 : k = ⟨if d1 < d2 then d1.val else d1.val - 1, hcond.1⟩ ∧ d = d2
      · rw [if_pos c2]; simp
      · rw [if_neg c2]; exact h
  · intro k hk hk'
    obtain rfl := hinj k hk
    rw [if_neg (fun h => hne h.2.symm), if_pos ⟨hv.symm, rfl⟩]
    simp
  · intro k hk
    rw [if_pos ⟨Fin.ext hk, rfl⟩]
    simp

theorem stapFold_ok (U : GField L N) : ∀ (l : List (Fin n × Fin n × ℕ)), (∀ t ∈ l, t ∈ dirTriples n) → ∀ S : StapArr L N,
    (∀ k d, S k d = none ∨ S k d = some (stapT U k d)) →
    ∃ S', l.foldlM (stoutStaplesStep U) S = some S' ∧ (∀ k d, S' k d = none ∨ S' k d = some (stapT U k d)) ∧ (∀ k d, S k d ≠ none → S' k d ≠ none) ∧
      (∀ t ∈ l, (∀ k, nthOther t.2.1 k = t.1 → ∀ hk, S' ⟨k.val, hk⟩ t.2.1 ≠ none) ∧ (∀ k : Fin (2 * (n - 1)), k.val = 2 * (n - 1) - 1 - t.2.2 → S' k t.1 ≠ none)) := by
  intro l
  induction l with
  | nil => intro _ S hS; exact ⟨S, rfl, hS, fun _ _ h => h, fun t ht => absurd ht List.not_mem_nil⟩
  | cons t l ih =>
    intro hl S hS
    obtain ⟨S1, g1, g2, g3, g4, g5⟩ := stoutStaplesStep_ok U S t (hl t List.mem_cons_self) hS
    obtain ⟨S2, k1, k2, k3, k4⟩ := ih (fun s hs => hl s (List.mem_cons_of_mem _ hs)) S1 g2
    refine ⟨S2, ?_, k2, fun k d h => k3 k d (g3 k d h), ?_⟩
    · rw [List.foldlM_cons, g1]
      exact k1
    · intro s hs
      rcases List.mem_cons.1 hs with rfl | hs
      · exact ⟨fun k hk hk' => k3 _ _ (g4 k hk hk'), fun k hk => k3 _ _ (g5 k hk)⟩
      · exact k4 s hs

theorem foldl_add_finRange {M : Type} [AddCommMonoid M] (m : ℕ) (h : 0 < m) (f : Fin m → M) :
    ((List.finRange m).drop 1).foldl (fun t k => t + f k) (f ⟨0, h⟩) = ∑ k, f k := by
  obtain ⟨m, rfl⟩ : ∃ m', m = m' + 1 := ⟨m - 1, by omega⟩
  rw [foldl_add_list _ f (fun _ _ => rfl), Fin.sum_univ_def]
  conv_rhs => rw [List.finRange_succ, List.map_cons, List.sum_cons]
  rw [List.finRange_succ]
  rfl

theorem sum_stapT (U : GField L N) (d : Fin n) (x : PSite L) : ∑ k, stapT U k d x = stapleSum U d x := by
  unfold stapleSum
  have h0 : ∀ e : Fin n, (if e ≠ d then upStaple U d e x + dnStaple U d e x else 0) =
      (if e ≠ d then upStaple U d e x else 0) + if e ≠ d then dnStaple U d e x else 0 := by
    intro e; split_ifs <;> simp
  simp only [h0]
  rw [Finset.sum_add_distrib, ← sum_others, ← sum_others]
  obtain ⟨f, hf⟩ : ∃ f : ℕ → Mat N, ∀ k : Fin (2 * (n - 1)), f k.val = stapT U k d x :=
    ⟨fun k => if h : k < 2 * (n - 1) then stapT U ⟨k, h⟩ d x else 0, fun k => by simp⟩
  rw [← Finset.sum_congr rfl fun k _ => hf k, Fin.sum_univ_eq_sum_range f, two_mul, Finset.sum_range_add]
  congr 1
  · rw [← Fin.sum_univ_eq_sum_range f]
    refine Finset.sum_congr rfl fun k _ => ?_
    have := hf ⟨k.val, by omega⟩
    rw [show f k.val = _ from this]
    unfold stapT
    rw [dif_pos k.isLt]
  · rw [← Finset.sum_range_reflect, ← Fin.sum_univ_eq_sum_range (fun j => f (n - 1 + (n - 1 - 1 - j)))]
    refine Finset.sum_congr rfl fun k _ => ?_
    have := hf ⟨n - 1 + (n - 1 - 1 - k.val), by omega⟩
    rw [show f (n - 1 + (n - 1 - 1 - k.val)) = _ from this]
    unfold stapT
    rw [dif_neg (by simp)]
    congr 2
    apply Fin.ext
    simp
    omega

theorem getStoutStaples_eq (hn : 2 ≤ n) (U : GField L N) : getStoutStaples U = some (stapT U, stapleSum U) := by
  obtain ⟨S, h1, h2, -, h4⟩ := stapFold_ok U (dirTriples n) (fun _ h => h) (fun _ _ => none) (fun _ _ => Or.inl rfl)
  have h5 : ∀ k d, S k d = some (stapT U k d) := by
    intro k d
    refine (h2 k d).resolve_left ?_
    by_cases hk : k.val < n - 1
    · obtain ⟨k', e1, e2⟩ := nthOther_inv (nthOther d ⟨k.val, hk⟩) d (nthOther_ne _ _).symm
      have hm : (nthOther d ⟨k.val, hk⟩, d, k'.val) ∈ dirTriples n := (mem_dirTriples _).2 ⟨k', e1.symm, rfl⟩
      exact (h4 _ hm).1 ⟨k.val, hk⟩ rfl k.isLt
    · have hm : (d, nthOther d ⟨2 * (n - 1) - 1 - k.val, by omega⟩, 2 * (n - 1) - 1 - k.val) ∈ dirTriples n := (mem_dirTriples _).2
        ⟨⟨2 * (n - 1) - 1 - k.val, by omega⟩, rfl, rfl⟩
      exact (h4 _ hm).2 k (by dsimp only; omega)
  have h6 : S.all = some (stapT U) := by
    unfold StapArr.all
    rw [dif_pos (fun k d => by rw [h5]; rfl)]
    congr 1
    funext k d
    simp [h5]
  unfold getStoutStaples
  unfold dirTriples at h1
  rw [h1, Option.bind_some, h6, Option.bind_some, dif_pos (by omega)]
  congr 2
  funext d x
  rw [← sum_stapT]
  exact foldl_add_finRange (2 * (n - 1)) (by omega) fun k => stapT U k d x

/-! ### The version with Wilson lines -/

theorem mulK1_fold (K1 : GField L N) : ∀ (l : List (Fin n × Fin n × ℕ)), (∀ t ∈ l, t.2.2 < n - 1) → (l.Pairwise fun s t => s.1 ≠ t.1 ∨ s.2.2 ≠ t.2.2) →
    ∀ S : Fin (2 * (n - 1)) → GField L N, ∃ S', l.foldlM (fun S t => stoutMulK1 K1 t.1 S t.2) S = some S' ∧
      (∀ t ∈ l, ∀ k : Fin (2 * (n - 1)), (k.val = t.2.2 ∨ k.val = 2 * (n - 1) - 1 - t.2.2) → ∀ x, S' k t.1 x = S k t.1 x * K1 t.1 x) ∧
      (∀ k d, (∀ t ∈ l, ¬ (t.1 = d ∧ (k.val = t.2.2 ∨ k.val = 2 * (n - 1) - 1 - t.2.2))) → S' k d = S k d) := by
  intro l
  induction l with
  | nil => intro _ _ S; exact ⟨S, rfl, fun t ht => absurd ht List.not_mem_nil, fun _ _ _ => rfl⟩
  | cons t l ih =>
    intro hl hp S
    rw [List.pairwise_cons] at hp
    have ht := hl t List.mem_cons_self
    have hstep : ∃ S1, stoutMulK1 K1 t.1 S t.2 = some S1 ∧
        (∀ k : Fin (2 * (n - 1)), (k.val = t.2.2 ∨ k.val = 2 * (n - 1) - 1 - t.2.2) → ∀ x, S1 k t.1 x = S k t.1 x * K1 t.1 x) ∧
        (∀ k d, ¬ (t.1 = d ∧ (k.val = t.2.2 ∨ k.val = 2 * (n - 1) - 1 - t.2.2)) → S1 k d = S k d) := by
      unfold stoutMulK1
      rw [dif_pos (by omega)]
      refine ⟨_, rfl, ?_, ?_⟩
      · intro k hk x
        dsimp only
        rcases hk with hk | hk
        · rw [if_neg (by rintro ⟨h, -⟩; have := congrArg Fin.val h; simp only at this; omega), if_pos ⟨Fin.ext hk, rfl⟩]
        · rw [if_pos ⟨Fin.ext hk, rfl⟩, if_neg (by rintro ⟨h, -⟩; have := congrArg Fin.val h; simp only at this; omega)]
      · intro k d h
        funext x
        dsimp only
        rw [if_neg (fun h' => h ⟨h'.2.symm, Or.inr (congrArg Fin.val h'.1)⟩), if_neg (fun h' => h ⟨h'.2.symm, Or.inl (congrArg Fin.val h'.1)⟩)]
    obtain ⟨S1, g1, g2, g3⟩ := hstep
    obtain ⟨S2, k1, k2, k3⟩ := ih (fun s hs => hl s (List.mem_cons_of_mem _ hs)) hp.2 S1
    have hout : ∀ s ∈ l, ∀ k : Fin (2 * (n - 1)), (k.val = s.2.2 ∨ k.val = 2 * (n - 1) - 1 - s.2.2) →
        ¬ (t.1 = s.1 ∧ (k.val = t.2.2 ∨ k.val = 2 * (n - 1) - 1 - t.2.2)) := by
      rintro s hs k hk ⟨h1, h2⟩
      have h3 := (hp.1 s hs).resolve_left (fun h => h h1)
      have h4 := hl s (List.mem_cons_of_mem _ hs)
      rcases hk with hk | hk <;> rcases h2 with h2 | h2 <;> omega
    refine ⟨S2, ?_, ?_, ?_⟩
    · rw [List.foldlM_cons, g1]
      exact k1
    · intro s hs k hk x
      rcases List.mem_cons.1 hs with rfl | hs
      · rw [k3 k s.1 (fun s' hs' h => hout s' hs' k h.2 ⟨h.1.symm, hk⟩), g2 k hk]
      · rw [k2 s hs k hk x, g3 k s.1 (hout s hs k hk)]
    · intro k d h
      rw [k3 k d (fun s hs => h s (List.mem_cons_of_mem _ hs)), g3 k d (h t List.mem_cons_self)]

theorem wl_pair [∀ d, NeZero (L d)] (hN : 0 < N) {U : GField L N} (hU : IsUnitaryField U) (a : AlgField L N) (d : Fin n) (l : List (PStep n))
    (hl : disp l = (-Pi.single d 1 : PSite L)) (K1 : PSite L → Mat N) (K : AlgField L N) :
    pairK a (wloopForceFromWl U l (fun x => pathM U l (x - unitStep d + Pi.single d 1) * K1 (x - unitStep d)) 1.0 K) =
      pairK a K + 2 * ∑ x, (dpathM (fun d x => algMat (a d x)) U l (x + Pi.single d 1) * K1 x).trace.re := by
  have h := force_run hN hU 1.0 a l K1 (fun x => pathM U l (x - unitStep d + Pi.single d 1) * K1 (x - unitStep d)) K (by
    intro x
    rw [hl, ← sub_eq_add_neg]
    unfold unitStep
    rw [sub_add_cancel])
  rw [pairK_sub] at h
  rw [sub_eq_iff_eq_add] at h
  rw [h, add_comm]
  congr 1
  rw [← sum_shift (Pi.single d 1) (fun x => (dpathM (fun d x => algMat (a d x)) U l x * K1 (x + disp l)).trace.re), hl]
  simp only [add_neg_cancel_right]
  norm_num

theorem forceB_fold [∀ d, NeZero (L d)] (hN : 0 < N) {U : GField L N} (hU : IsUnitaryField U) (a : AlgField L N) (K1 : GField L N)
    (S : Fin (2 * (n - 1)) → GField L N) : ∀ (l : List (Fin n × Fin n × ℕ)), (∀ t ∈ l, t ∈ dirTriples n) →
    (∀ t ∈ l, ∀ k : Fin (2 * (n - 1)), (k.val = t.2.2 ∨ k.val = 2 * (n - 1) - 1 - t.2.2) → ∀ x, S k t.1 x = stapT U k t.1 x * K1 t.1 x) →
    ∀ K : AlgField L N, ∃ K', l.foldlM (stoutForceB U S) K = some K' ∧
      pairK a K' = pairK a K + (l.map fun t => 2 * ∑ x, (dStaples (fun d x => algMat (a d x)) U t.1 t.2.1 x * K1 t.1 x).trace.re).sum := by
  intro l
  induction l with
  | nil => intro _ _ K; exact ⟨K, rfl, by simp⟩
  | cons t l ih =>
    intro hl hS K
    obtain ⟨d1, d2, kk⟩ := t
    obtain ⟨k0, h1, h2⟩ := (mem_dirTriples _).1 (hl _ List.mem_cons_self)
    dsimp only at h1 h2
    subst h2
    have hk : k0.val < 2 * (n - 1) := by omega
    have e1 : (fun x => S ⟨k0.val, hk⟩ d1 (x - unitStep d1)) =
        fun x => pathM U [(d2, true), (d1, false), (d2, false)] (x - unitStep d1 + Pi.single d1 1) * K1 d1 (x - unitStep d1) := by
      funext x
      rw [hS _ List.mem_cons_self ⟨k0.val, hk⟩ (Or.inl rfl)]
      unfold stapT
      rw [dif_pos k0.isLt]
      show upStaple U d1 (nthOther d1 k0) _ * _ = _
      rw [← h1]
      rfl
    have e2 : (fun x => S ⟨2 * (n - 1) - 1 - k0.val, by omega⟩ d1 (x - unitStep d1)) =
        fun x => pathM U [(d2, false), (d1, false), (d2, true)] (x - unitStep d1 + Pi.single d1 1) * K1 d1 (x - unitStep d1) := by
      funext x
      rw [hS _ List.mem_cons_self ⟨2 * (n - 1) - 1 - k0.val, by omega⟩ (Or.inr rfl)]
      unfold stapT
      rw [dif_neg (by simp; omega)]
      have : (⟨2 * (n - 1) - 1 - (2 * (n - 1) - 1 - k0.val), by omega⟩ : Fin (n - 1)) = k0 := Fin.ext (by simp; omega)
      rw [this, ← h1]
      rfl
    have hstep : ∃ K1', stoutForceB U S K (d1, d2, k0.val) = some K1' ∧
        pairK a K1' = pairK a K + 2 * ∑ x, (dStaples (fun d x => algMat (a d x)) U d1 d2 x * K1 d1 x).trace.re := by
      unfold stoutForceB
      dsimp only
      rw [dif_pos hk]
      refine ⟨_, rfl, ?_⟩
      rw [e1, e2, wl_pair hN hU a d1 _ (by simp only [disp, stepVec, if_true, Bool.false_eq_true, if_false]; abel),
        wl_pair hN hU a d1 _ (by simp only [disp, stepVec, if_true, Bool.false_eq_true, if_false]; abel)]
      unfold dStaples
      simp only [Matrix.add_mul, Matrix.trace_add, Complex.add_re, Finset.sum_add_distrib]
      ring
    obtain ⟨K', g1, g2⟩ := hstep
    obtain ⟨K'', f1, f2⟩ := ih (fun s hs => hl s (List.mem_cons_of_mem _ hs)) (fun s hs => hS s (List.mem_cons_of_mem _ hs)) K'
    refine ⟨K'', ?_, ?_⟩
    · rw [List.foldlM_cons, g1]
      exact f1
    · rw [f2, g2, List.map_cons, List.sum_cons, add_assoc]

theorem stoutkForceStepB_eq [∀ d, NeZero (L d)] (hN : 0 < N) (hn : 2 ≤ n) {e : StoutExp N} (he : ExactExp e) {V : GField L N} (hV : IsUnitaryField V) (c : ℝ)
    (K : AlgField L N) :
    stoutkForceStepB e c (stoutSpec c V) V (stoutK e c V) K = some (stoutForceStep e c V (stapleSum V) K) := by
  unfold stoutkForceStepB
  rw [getStoutStaples_eq hn, Option.bind_some]
  dsimp only
  obtain ⟨H, hH⟩ : ∃ H, H = stoutForceHead c V (stapleSum V) (stoutkPairs e c (stoutSpec c V) V (stoutK e c V) (stapleSum V) K) := ⟨_, rfl⟩
  rw [← hH]
  have hlt : ∀ t ∈ dirTriples n, t.2.2 < n - 1 := by
    intro t ht
    obtain ⟨k, -, h⟩ := (mem_dirTriples t).1 ht
    omega
  obtain ⟨S, h1, h2, -⟩ := mulK1_fold H.1 (dirTriples n) hlt dirTriples_pairwise (stapT V)
  have hex := fun a => forceB_fold hN hV a H.1 S (dirTriples n) (fun _ h => h) (fun t ht k hk x => h2 t ht k hk x) H.2
  obtain ⟨K', f1, -⟩ := hex 0
  unfold dirTriples at h1 f1
  rw [h1, Option.bind_some, f1]
  congr 1
  refine step_unique (V := V) fun U a h0 h => ?_
  obtain ⟨K'', f3, f4⟩ := hex a
  unfold dirTriples at f3
  obtain rfl : K' = K'' := Option.some_inj.1 (f1.symm.trans f3)
  obtain ⟨b, -, h3⟩ := pull_head hN h c
  subst h0
  have g1 := h3 K (stoutkPairs e c (stoutSpec c (U 0)) (U 0) (stoutK e c (U 0)) (stapleSum (U 0)) K) fun d x => stoutkPairs_ok hN he hV c K d x
  have g2 := h3 K (fun d x => e.multEx (stoutArg c (U 0 d x) (stapleSum (U 0) d x)) (expand (K d x))) fun d x => he.multEx _ _
  rw [← hH] at g1
  rw [f4, dirTriples_sum _ (fun d e => 2 * ∑ x, (dStaples (fun d x => algMat (a d x)) (U 0) d e x * H.1 d x).trace.re) (fun _ _ => rfl)]
  have g3 : pairK a (stoutForceStep e c (U 0) (stapleSum (U 0)) K) = pairK b K := by
    rw [g2]
    exact stapleForce_run hN _ _ _ _
  rw [g3, g1]
  congr 1
  rw [Finset.mul_sum]
  refine Finset.sum_congr rfl fun d _ => ?_
  have : ∀ x, (dStapleSum (fun d x => algMat (a d x)) (U 0) d x * H.1 d x).trace.re =
      ∑ e, if e ≠ d then (dStaples (fun d x => algMat (a d x)) (U 0) d e x * H.1 d x).trace.re else 0 := by
    intro x
    unfold dStapleSum
    rw [Finset.sum_mul, Matrix.trace_sum, Complex.re_sum]
    refine Finset.sum_congr rfl fun e _ => ?_
    split_ifs <;> simp
  simp only [this]
  rw [Finset.sum_comm, Finset.mul_sum]
  refine Finset.sum_congr rfl fun e _ => ?_
  split_ifs <;> simp

end Hila
