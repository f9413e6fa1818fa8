import Verif.Model.Reduction
import Verif.Lemmas.Layout
import Verif.Props.Gather
import Mathlib.Order.Defs.LinearOrder
import Mathlib.Tactic.FinCases

/-!
# C14: `Field::min` and `Field::max`

The sites of a rank may be divided over its threads in any way (`Schedule`); the threads enter the
critical section in the order of the list.
-/

namespace Hila

section

variable {S V : Type} [LinearOrder V]

/-- `a` is an improvement over `b` in the search. -/
def Bt (isMin : Bool) (a b : V) : Prop := if isMin then a < b else b < a

theorem better_iff (isMin : Bool) (a b : V) : better isMin a b = true ↔ Bt isMin a b := by
  cases isMin <;> simp [better, Bt]

theorem Bt.irrefl (isMin : Bool) (a : V) : ¬ Bt isMin a a := by
  cases isMin <;> simp [Bt]

theorem Bt.trans {isMin : Bool} {a b c : V} (h1 : Bt isMin a b) (h2 : Bt isMin b c) :
    Bt isMin a c := by
  cases isMin <;> simp only [Bt, if_true, if_false, Bool.false_eq_true] at *
  · exact lt_trans h2 h1
  · exact lt_trans h1 h2

theorem Bt.neg_trans {isMin : Bool} {a b c : V} (h1 : ¬ Bt isMin a b) (h2 : ¬ Bt isMin b c) :
    ¬ Bt isMin a c := by
  cases isMin <;> simp only [Bt, if_true, if_false, Bool.false_eq_true, not_lt] at *
  · exact le_trans h1 h2
  · exact le_trans h2 h1

theorem Bt.trans_neg {isMin : Bool} {a b c : V} (h1 : Bt isMin a b) (h2 : ¬ Bt isMin c b) :
    Bt isMin a c := by
  cases isMin <;> simp only [Bt, if_true, if_false, Bool.false_eq_true, not_lt] at *
  · exact lt_of_le_of_lt h2 h1
  · exact lt_of_lt_of_le h1 h2

theorem thread_fold (isMin : Bool) (sites : List (S × V)) :
    ∀ acc : V × S,
      let x := sites.foldl (fun acc x => if better isMin x.2 acc.1 then (x.2, x.1) else acc) acc
      (∀ y ∈ sites, ¬ Bt isMin y.2 x.1) ∧ ¬ Bt isMin acc.1 x.1 ∧
      (x = acc ∨ ((x.2, x.1) ∈ sites ∧ Bt isMin x.1 acc.1)) := by
  induction sites with
  | nil => intro acc; exact ⟨by simp, Bt.irrefl _ _, Or.inl rfl⟩
  | cons s sites ih =>
    intro acc
    rw [List.foldl_cons]
    by_cases hb : better isMin s.2 acc.1 = true
    · rw [if_pos hb]
      have hb' := (better_iff _ _ _).1 hb
      obtain ⟨h1, h2, h3⟩ := ih (s.2, s.1)
      refine ⟨?_, ?_, Or.inr ?_⟩
      · intro y hy
        rcases List.mem_cons.1 hy with rfl | hy
        · exact h2
        · exact h1 y hy
      · intro hx
        exact h2 (hb'.trans hx)
      · rcases h3 with h3 | ⟨h3, h4⟩
        · rw [h3]; exact ⟨List.mem_cons_self, hb'⟩
        · exact ⟨List.mem_cons_of_mem _ h3, h4.trans hb'⟩
    · rw [if_neg hb]
      have hb' : ¬ Bt isMin s.2 acc.1 := fun h => hb ((better_iff _ _ _).2 h)
      obtain ⟨h1, h2, h3⟩ := ih acc
      refine ⟨?_, h2, ?_⟩
      · intro y hy
        rcases List.mem_cons.1 hy with rfl | hy
        · exact Bt.neg_trans hb' h2
        · exact h1 y hy
      · rcases h3 with h3 | ⟨h3, h4⟩
        · exact Or.inl h3
        · exact Or.inr ⟨List.mem_cons_of_mem _ h3, h4⟩

theorem node_fold (isMin : Bool) (initial : V) (loc0 : S) (threads : List (List (S × V))) :
    ∀ acc : V × Option S, ¬ Bt isMin initial acc.1 →
      let x := threads.foldl (fun acc t =>
        let x := threadMinmax isMin initial loc0 t
        if better isMin x.1 acc.1 then (x.1, some x.2) else acc) acc
      (∀ t ∈ threads, ∀ y ∈ t, ¬ Bt isMin y.2 x.1) ∧ ¬ Bt isMin acc.1 x.1 ∧
      (x = acc ∨ ∃ s, x.2 = some s ∧ Bt isMin x.1 acc.1 ∧ ∃ t ∈ threads, (s, x.1) ∈ t) := by
  induction threads with
  | nil => intro acc _; exact ⟨by simp, Bt.irrefl _ _, Or.inl rfl⟩
  | cons t threads ih =>
    intro acc hacc
    rw [List.foldl_cons]
    obtain ⟨t1, t2, t3⟩ := thread_fold isMin t (initial, loc0)
    by_cases hb : better isMin (threadMinmax isMin initial loc0 t).1 acc.1 = true
    · dsimp only
      rw [if_pos hb]
      have hb' := (better_iff _ _ _).1 hb
      obtain ⟨h1, h2, h3⟩ := ih ((threadMinmax isMin initial loc0 t).1,
        some (threadMinmax isMin initial loc0 t).2) t2
      have hmem : ((threadMinmax isMin initial loc0 t).2,
          (threadMinmax isMin initial loc0 t).1) ∈ t := by
        rcases t3 with t3 | ⟨t3, _⟩
        · exfalso
          apply hacc
          have : (threadMinmax isMin initial loc0 t).1 = initial := congrArg Prod.fst t3
          rw [this] at hb'; exact hb'
        · exact t3
      refine ⟨?_, ?_, Or.inr ?_⟩
      · intro t' ht' y hy
        rcases List.mem_cons.1 ht' with rfl | ht'
        · exact Bt.neg_trans (t1 y hy) h2
        · exact h1 t' ht' y hy
      · intro hx; exact h2 (hb'.trans hx)
      · rcases h3 with h3 | ⟨s, h3, h4, t', h5, h6⟩
        · refine ⟨_, congrArg Prod.snd h3, ?_, t, List.mem_cons_self, ?_⟩
          · rw [congrArg Prod.fst h3]; exact hb'
          · rw [congrArg Prod.fst h3]; exact hmem
        · exact ⟨s, h3, h4.trans hb', t', List.mem_cons_of_mem _ h5, h6⟩
    · dsimp only
      rw [if_neg hb]
      have hb' : ¬ Bt isMin (threadMinmax isMin initial loc0 t).1 acc.1 :=
        fun h => hb ((better_iff _ _ _).2 h)
      obtain ⟨h1, h2, h3⟩ := ih acc hacc
      refine ⟨?_, h2, ?_⟩
      · intro t' ht' y hy
        rcases List.mem_cons.1 ht' with rfl | ht'
        · exact Bt.neg_trans (t1 y hy) (Bt.neg_trans hb' h2)
        · exact h1 t' ht' y hy
      · rcases h3 with h3 | ⟨s, h3, h4, t', h5, h6⟩
        · exact Or.inl h3
        · exact Or.inr ⟨s, h3, h4, t', List.mem_cons_of_mem _ h5, h6⟩

theorem locReduce_spec (isMin : Bool) (v : ℕ → V) (k : ℕ) :
    (locReduce isMin v k).1 = v (locReduce isMin v k).2 ∧ (locReduce isMin v k).2 ≤ k ∧
    ∀ j ≤ k, ¬ Bt isMin (v j) (locReduce isMin v k).1 := by
  induction k with
  | zero =>
    refine ⟨rfl, le_refl _, ?_⟩
    intro j hj
    have : j = 0 := by omega
    subst this; exact Bt.irrefl _ _
  | succ k ih =>
    obtain ⟨h1, h2, h3⟩ := ih
    have hst : locReduce isMin v (k + 1) =
        if better isMin (v (k + 1)) (locReduce isMin v k).1 then (v (k + 1), k + 1)
        else locReduce isMin v k := rfl
    rw [hst]
    by_cases hb : better isMin (v (k + 1)) (locReduce isMin v k).1 = true
    · rw [if_pos hb]
      have hb' := (better_iff _ _ _).1 hb
      refine ⟨rfl, le_refl _, ?_⟩
      intro j hj
      rcases Nat.lt_or_ge j (k + 1) with h | h
      · intro hx; exact h3 j (by omega) (hx.trans hb')
      · have : j = k + 1 := by omega
        subst this; exact Bt.irrefl _ _
    · rw [if_neg hb]
      refine ⟨h1, by omega, ?_⟩
      intro j hj
      rcases Nat.lt_or_ge j (k + 1) with h | h
      · exact h3 j (by omega)
      · have : j = k + 1 := by omega
        subst this; exact fun h => hb ((better_iff _ _ _).2 h)

theorem minmax_spec (limMax limMin : V) (loc0 : S) (N : ℕ) (hN : 0 < N) (isMin : Bool)
    (threads : ℕ → List (List (S × V))) :
    let initial := if isMin then limMax else limMin
    let x := minmax limMax limMin loc0 N isMin threads
    (∀ r < N, ∀ t ∈ threads r, ∀ y ∈ t, ¬ Bt isMin y.2 x.1) ∧ ¬ Bt isMin initial x.1 ∧
    (x = (initial, none) ∨
      ∃ s, x.2 = some s ∧ Bt isMin x.1 initial ∧ ∃ r < N, ∃ t ∈ threads r, (s, x.1) ∈ t) := by
  intro initial x
  have node := fun r => node_fold isMin initial loc0 (threads r) (initial, none) (Bt.irrefl _ _)
  by_cases h1 : N > 1
  · have hx : x = ((locReduce isMin (fun r => (nodeMinmax isMin initial loc0 (threads r)).1)
        (N - 1)).1, (nodeMinmax isMin initial loc0 (threads (locReduce isMin
          (fun r => (nodeMinmax isMin initial loc0 (threads r)).1) (N - 1)).2)).2) := by
      show minmax limMax limMin loc0 N isMin threads = _
      unfold minmax; dsimp only; rw [if_pos h1]
    obtain ⟨l1, l2, l3⟩ :=
      locReduce_spec isMin (fun r => (nodeMinmax isMin initial loc0 (threads r)).1) (N - 1)
    set p := locReduce isMin (fun r => (nodeMinmax isMin initial loc0 (threads r)).1) (N - 1)
    rw [hx]
    obtain ⟨n1, n2, n3⟩ := node p.2
    have hxe : ((p.1, (nodeMinmax isMin initial loc0 (threads p.2)).2) : V × Option S) =
        nodeMinmax isMin initial loc0 (threads p.2) := by
      rw [l1]
    refine ⟨?_, ?_, ?_⟩
    · intro r hr t ht y hy
      exact Bt.neg_trans ((node r).1 t ht y hy) (l3 r (by omega))
    · rw [hxe]; exact n2
    · rw [hxe]
      rcases n3 with n3 | ⟨s, n3, n4, t, n5, n6⟩
      · exact Or.inl n3
      · exact Or.inr ⟨s, n3, n4, p.2, by omega, t, n5, n6⟩
  · have hN1 : N = 1 := by omega
    have hx : x = nodeMinmax isMin initial loc0 (threads 0) := by
      show minmax limMax limMin loc0 N isMin threads = _
      unfold minmax; dsimp only; rw [if_neg h1]
    rw [hx]
    obtain ⟨n1, n2, n3⟩ := node 0
    refine ⟨?_, n2, ?_⟩
    · intro r hr
      have : r = 0 := by omega
      subst this; exact n1
    · rcases n3 with n3 | ⟨s, n3, n4, t, n5, n6⟩
      · exact Or.inl n3
      · exact Or.inr ⟨s, n3, n4, 0, hN, t, n5, n6⟩

end

/-! ## The property -/

section

variable {n : ℕ} {V : Type}

/-- The sites that a loop over parity `par` visits on the whole lattice. -/
def Visited (lay : Layout n) (par : Parity) (c : Site n) : Prop := lay.InLattice c ∧ Visits par c

/-- `threads r` lists, for each thread of rank `r`, the sites it visits with the field value there:
together exactly the sites of the rank that belong to the loop. -/
def Schedule (lay : Layout n) (par : Parity) (f : Site n → V)
    (threads : ℕ → List (List (Site n × V))) : Prop :=
  ∀ r c v, (∃ t ∈ threads r, (c, v) ∈ t) ↔
    (Visited lay par c ∧ lay.nodeRank c = r ∧ v = f c)

variable [LinearOrder V]

/-- **C14** (minimum, value and location). If the field is somewhere below the largest finite value
of its type, `min` returns the smallest value over the visited sites of all ranks, and a site
where it is attained. The case left out is `C14_min_not_located`. -/
theorem C14_min_partial (lay : Layout n) (hw : lay.WF) (par : Parity) (f : Site n → V)
    (limMax limMin : V) (loc0 : Site n) (threads : ℕ → List (List (Site n × V)))
    (hs : Schedule lay par f threads)
    (hex : ∃ c, Visited lay par c ∧ f c < limMax) :
    ∃ c, minmax limMax limMin loc0 lay.numNodes true threads = (f c, some c) ∧
      Visited lay par c ∧ ∀ c', Visited lay par c' → f c ≤ f c' := by
  have hN : 0 < lay.numNodes := by
    obtain ⟨c, hc, _⟩ := hex
    exact Nat.lt_of_le_of_lt (Nat.zero_le _) (nodeRank_lt lay hw _ hc.1)
  obtain ⟨h1, h2, h3⟩ := minmax_spec limMax limMin loc0 lay.numNodes hN true threads
  set x := minmax limMax limMin loc0 lay.numNodes true threads
  have hall : ∀ c', Visited lay par c' → x.1 ≤ f c' := by
    intro c' hc'
    obtain ⟨t, ht, hm⟩ := (hs _ c' (f c')).2 ⟨hc', rfl, rfl⟩
    have := h1 _ (nodeRank_lt lay hw _ hc'.1) t ht _ hm
    simpa [Bt] using this
  rcases h3 with h3 | ⟨s, h3, h4, r, hr, t, ht, hm⟩
  · exfalso
    obtain ⟨c, hc, hlt⟩ := hex
    have := hall c hc
    rw [h3] at this
    simp only [if_true] at this
    exact absurd hlt (not_lt.2 this)
  · obtain ⟨hv, _, hf⟩ := (hs r s x.1).1 ⟨t, ht, hm⟩
    exact ⟨s, Prod.ext hf h3, hv, fun c' hc' => hf ▸ hall c' hc'⟩

/-- **C14** (maximum, value and location). If the field is somewhere above
`std::numeric_limits<T>::min()`, `max` returns the largest value over the visited sites of all
ranks, and a site where it is attained. For integer types this fails only if the whole field has the
lowest value; for floating-point types `numeric_limits::min()` is the smallest *positive* normal
number, see `C14_not_max_nonpositive`. -/
theorem C14_max_partial (lay : Layout n) (hw : lay.WF) (par : Parity) (f : Site n → V)
    (limMax limMin : V) (loc0 : Site n) (threads : ℕ → List (List (Site n × V)))
    (hs : Schedule lay par f threads)
    (hex : ∃ c, Visited lay par c ∧ limMin < f c) :
    ∃ c, minmax limMax limMin loc0 lay.numNodes false threads = (f c, some c) ∧
      Visited lay par c ∧ ∀ c', Visited lay par c' → f c' ≤ f c := by
  have hN : 0 < lay.numNodes := by
    obtain ⟨c, hc, _⟩ := hex
    exact Nat.lt_of_le_of_lt (Nat.zero_le _) (nodeRank_lt lay hw _ hc.1)
  obtain ⟨h1, h2, h3⟩ := minmax_spec limMax limMin loc0 lay.numNodes hN false threads
  set x := minmax limMax limMin loc0 lay.numNodes false threads
  have hall : ∀ c', Visited lay par c' → f c' ≤ x.1 := by
    intro c' hc'
    obtain ⟨t, ht, hm⟩ := (hs _ c' (f c')).2 ⟨hc', rfl, rfl⟩
    have := h1 _ (nodeRank_lt lay hw _ hc'.1) t ht _ hm
    simpa [Bt] using this
  rcases h3 with h3 | ⟨s, h3, h4, r, hr, t, ht, hm⟩
  · exfalso
    obtain ⟨c, hc, hlt⟩ := hex
    have := hall c hc
    rw [h3] at this
    simp only [Bool.false_eq_true, if_false] at this
    exact absurd hlt (not_lt.2 this)
  · obtain ⟨hv, _, hf⟩ := (hs r s x.1).1 ⟨t, ht, hm⟩
    exact ⟨s, Prod.ext hf h3, hv, fun c' hc' => hf ▸ hall c' hc'⟩

/-- **C14** (values, types whose `numeric_limits` bound all values, that is, the integer types). The
value is right for every field content, as long as the loop visits a site. -/
theorem C14_integer_values (lay : Layout n) (hw : lay.WF) (par : Parity) (f : Site n → V)
    (limMax limMin : V) (loc0 : Site n) (threads : ℕ → List (List (Site n × V)))
    (hs : Schedule lay par f threads) (hex : ∃ c, Visited lay par c)
    (hb : ∀ c, limMin ≤ f c ∧ f c ≤ limMax) (isMin : Bool) :
    ∃ c, (minmax limMax limMin loc0 lay.numNodes isMin threads).1 = f c ∧ Visited lay par c ∧
      ∀ c', Visited lay par c' → if isMin then f c ≤ f c' else f c' ≤ f c := by
  have hN : 0 < lay.numNodes := by
    obtain ⟨c, hc⟩ := hex
    exact Nat.lt_of_le_of_lt (Nat.zero_le _) (nodeRank_lt lay hw _ hc.1)
  cases isMin
  · by_cases hx : ∃ c, Visited lay par c ∧ limMin < f c
    · obtain ⟨c, h1, h2, h3⟩ := C14_max_partial lay hw par f limMax limMin loc0 threads hs hx
      exact ⟨c, by rw [h1], h2, by simpa using h3⟩
    · obtain ⟨h1, h2, h3⟩ := minmax_spec limMax limMin loc0 lay.numNodes hN false threads
      have heq : ∀ c, Visited lay par c → f c = limMin := fun c hc =>
        le_antisymm (not_lt.1 fun hl => hx ⟨c, hc, hl⟩) (hb c).1
      obtain ⟨c, hc⟩ := hex
      refine ⟨c, ?_, hc, ?_⟩
      · rcases h3 with h3 | ⟨s, h3, h4, r, hr, t, ht, hm⟩
        · rw [h3, heq c hc]; rfl
        · obtain ⟨hv, _, hf⟩ := (hs r s _).1 ⟨t, ht, hm⟩
          rw [hf, heq s hv, heq c hc]
      · intro c' hc'; simp [heq c hc, heq c' hc']
  · by_cases hx : ∃ c, Visited lay par c ∧ f c < limMax
    · obtain ⟨c, h1, h2, h3⟩ := C14_min_partial lay hw par f limMax limMin loc0 threads hs hx
      exact ⟨c, by rw [h1], h2, by simpa using h3⟩
    · obtain ⟨h1, h2, h3⟩ := minmax_spec limMax limMin loc0 lay.numNodes hN true threads
      have heq : ∀ c, Visited lay par c → f c = limMax := fun c hc =>
        le_antisymm (hb c).2 (not_lt.1 fun hl => hx ⟨c, hc, hl⟩)
      obtain ⟨c, hc⟩ := hex
      refine ⟨c, ?_, hc, ?_⟩
      · rcases h3 with h3 | ⟨s, h3, h4, r, hr, t, ht, hm⟩
        · rw [h3, heq c hc]; rfl
        · obtain ⟨hv, _, hf⟩ := (hs r s _).1 ⟨t, ht, hm⟩
          rw [hf, heq s hv, heq c hc]
      · intro c' hc'; simp [heq c hc, heq c' hc']

/-- **C14, counterexample for every field without values above `numeric_limits::min()`.** With
floating-point types `limMin` is positive. If all values are smaller, for instance non-positive,
`max` returns `limMin`, a value the field has nowhere, and the location is not written. -/
theorem C14_not_max_nonpositive (lay : Layout n) (hw : lay.WF) (par : Parity) (f : Site n → V)
    (limMax limMin : V) (loc0 : Site n) (threads : ℕ → List (List (Site n × V)))
    (hs : Schedule lay par f threads) (hex : ∃ c, Visited lay par c)
    (hneg : ∀ c, Visited lay par c → f c < limMin) :
    minmax limMax limMin loc0 lay.numNodes false threads = (limMin, none) ∧
    ∀ c, Visited lay par c → f c ≠ limMin := by
  have hN : 0 < lay.numNodes := by
    obtain ⟨c, hc⟩ := hex
    exact Nat.lt_of_le_of_lt (Nat.zero_le _) (nodeRank_lt lay hw _ hc.1)
  refine ⟨?_, fun c hc => ne_of_lt (hneg c hc)⟩
  obtain ⟨h1, h2, h3⟩ := minmax_spec limMax limMin loc0 lay.numNodes hN false threads
  rcases h3 with h3 | ⟨s, h3, h4, r, hr, t, ht, hm⟩
  · exact h3
  · exfalso
    obtain ⟨hv, _, hf⟩ := (hs r s _).1 ⟨t, ht, hm⟩
    rw [hf] at h4
    simp only [Bt, Bool.false_eq_true, if_false] at h4
    exact lt_asymm h4 (hneg s hv)

/-- **C14, counterexample.** A field with no value below `numeric_limits::max()` (all infinite, or
all equal to the largest integer): `min` returns the largest finite value and leaves the location
unwritten. -/
theorem C14_min_not_located (lay : Layout n) (hw : lay.WF) (par : Parity) (f : Site n → V)
    (limMax limMin : V) (loc0 : Site n) (threads : ℕ → List (List (Site n × V)))
    (hs : Schedule lay par f threads) (hex : ∃ c, Visited lay par c)
    (hbig : ∀ c, Visited lay par c → limMax ≤ f c) :
    minmax limMax limMin loc0 lay.numNodes true threads = (limMax, none) := by
  have hN : 0 < lay.numNodes := by
    obtain ⟨c, hc⟩ := hex
    exact Nat.lt_of_le_of_lt (Nat.zero_le _) (nodeRank_lt lay hw _ hc.1)
  obtain ⟨h1, h2, h3⟩ := minmax_spec limMax limMin loc0 lay.numNodes hN true threads
  rcases h3 with h3 | ⟨s, h3, h4, r, hr, t, ht, hm⟩
  · exact h3
  · exfalso
    obtain ⟨hv, _, hf⟩ := (hs r s _).1 ⟨t, ht, hm⟩
    rw [hf] at h4
    simp only [Bt, if_true] at h4
    exact absurd h4 (not_lt.2 (hbig s hv))

end

/-- Sites of the example lattice of `Props/Layout.lean`, 5 × 3. -/
def exampleSites : List (Site 2) := (List.range 15).map fun i => ![i % 5, i / 5]

theorem mem_exampleSites (c : Site 2) : c ∈ exampleSites ↔ exampleLayout.InLattice c := by
  have hL0 : exampleLayout.L 0 = 5 := rfl
  have hL1 : exampleLayout.L 1 = 3 := rfl
  unfold exampleSites Layout.InLattice
  rw [List.mem_map]
  constructor
  · rintro ⟨i, hi, rfl⟩ d
    rw [List.mem_range] at hi
    fin_cases d
    · show i % 5 < exampleLayout.L 0
      omega
    · show i / 5 < exampleLayout.L 1
      omega
  · intro h
    have h0 := h 0
    have h1 := h 1
    refine ⟨c 0 + 5 * c 1, List.mem_range.2 (by omega), ?_⟩
    funext d
    fin_cases d
    · show (c 0 + 5 * c 1) % 5 = c 0
      omega
    · show (c 0 + 5 * c 1) / 5 = c 1
      omega

/-- Two threads per rank: even and odd sites. -/
def exampleSchedule (par : Parity) (f : Site 2 → ℤ) (r : ℕ) : List (List (Site 2 × ℤ)) :=
  [Parity.even, Parity.odd].map fun q => exampleSites.filterMap fun c =>
    if Visits par c ∧ exampleLayout.nodeRank c = r ∧ c.parity = q then some (c, f c) else none

/-- The hypotheses of the theorems are met by every loop on the example lattice. -/
theorem exampleSchedule_ok (par : Parity) (f : Site 2 → ℤ) :
    Schedule exampleLayout par f (exampleSchedule par f) := by
  intro r c v
  simp only [exampleSchedule, List.mem_map, List.mem_cons, List.not_mem_nil, or_false, Visited]
  constructor
  · rintro ⟨t, ⟨q, _, rfl⟩, h⟩
    obtain ⟨a, ha, h⟩ := List.mem_filterMap.1 h
    rw [mem_exampleSites] at ha
    split at h
    · rename_i hc
      simp only [Option.some.injEq, Prod.mk.injEq] at h
      obtain ⟨rfl, rfl⟩ := h
      exact ⟨⟨ha, hc.1⟩, hc.2.1, rfl⟩
    · cases h
  · rintro ⟨⟨h1, h2⟩, h3, h4⟩
    have hp : c.parity = .even ∨ c.parity = .odd := Site.parity_cases c
    refine ⟨_, ⟨c.parity, hp, rfl⟩, List.mem_filterMap.2 ⟨c, (mem_exampleSites c).2 h1, ?_⟩⟩
    rw [if_pos ⟨h2, h3, rfl⟩, h4]

/-- Concrete values: the minimum of `x + 10 y - 20` over odd sites is at (1, 0); the maximum of
the negative field, with a positive "smallest positive number" 1, is reported as 1. -/
example :
    minmax 1000 1 ![0, 0] exampleLayout.numNodes true
      (exampleSchedule .odd fun c => (c 0 : ℤ) + 10 * c 1 - 20) = (-19, some ![1, 0]) ∧
    minmax 1000 1 ![0, 0] exampleLayout.numNodes false
      (exampleSchedule .all fun c => (c 0 : ℤ) + 10 * c 1 - 20) = (4, some ![4, 2]) ∧
    minmax 1000 1 ![0, 0] exampleLayout.numNodes false
      (exampleSchedule .all fun c => (c 0 : ℤ) + 10 * c 1 - 40) = (1, none) := by
  decide +kernel

end Hila
