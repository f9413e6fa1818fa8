import Verif.Model.OmpReduce
import Verif.Props.GpuSelect
import Verif.Props.Reduction
import Mathlib.Algebra.BigOperators.Group.List.Basic
import Mathlib.Algebra.Ring.Int.Defs
import Mathlib.Tactic.Abel

/-!
# C79: reductions in site loops on processors, with and without threads
-/

namespace Hila

open BigOperators

section
variable {S V : Type} [CommRing V]

/-- What a site contributes to a sum: what the body adds minus what it subtracts. -/
def contribution (l : List (AOp × V)) : V :=
  (l.map fun a => if a.1 = .minus then - a.2 else a.2).sum

theorem siteRun_eq (body : S → List (AOp × V)) (c : S)
    (h : ∀ a ∈ body c, a.1 = .plus ∨ a.1 = .minus) (x : V) :
    siteRun body x c = x + contribution (body c) := by
  unfold siteRun contribution
  generalize body c = l at h
  induction l generalizing x with
  | nil => simp
  | cons a l ih =>
    rw [List.foldl_cons, ih _ (fun b hb => h b (by simp [hb])), List.map_cons, List.sum_cons, ← add_assoc]
    congr 1
    obtain ⟨o, v⟩ := a
    rcases h (o, v) (by simp) with e | e <;> simp only at e <;> subst e
    · simp [AOp.run]
    · simp [AOp.run, sub_eq_add_neg]

theorem serialPass_eq (body : S → List (AOp × V)) (sites : List S)
    (h : ∀ c ∈ sites, ∀ a ∈ body c, a.1 = .plus ∨ a.1 = .minus) (x : V) :
    serialPass body sites x = x + (sites.map fun c => contribution (body c)).sum := by
  unfold serialPass
  induction sites generalizing x with
  | nil => simp
  | cons c l ih =>
    rw [List.foldl_cons, ih (fun b hb => h b (by simp [hb])), siteRun_eq body c (h c (by simp)),
      List.map_cons, List.sum_cons, add_assoc]

theorem ompPass_eq (body : S → List (AOp × V)) (threads : List (List S))
    (h : ∀ c ∈ threads.flatten, ∀ a ∈ body c, a.1 = .plus ∨ a.1 = .minus) (x : V) :
    ompPass body threads x = x + (threads.flatten.map fun c => contribution (body c)).sum := by
  unfold ompPass
  induction threads generalizing x with
  | nil => simp
  | cons t l ih =>
    rw [List.foldl_cons, ih (fun c hc => h c (by simp only [List.flatten_cons, List.mem_append]; exact Or.inr hc)),
      serialPass_eq body t (fun c hc => h c (by simp only [List.flatten_cons, List.mem_append]; exact Or.inl hc)),
      List.flatten_cons, List.map_append, List.sum_append, zero_add, add_assoc]

theorem ompRank_eq (body : S → List (AOp × V)) (passes : List (List (List S)))
    (h : ∀ c ∈ passes.flatten.flatten, ∀ a ∈ body c, a.1 = .plus ∨ a.1 = .minus) :
    ompRank .sum body passes = (passes.flatten.flatten.map fun c => contribution (body c)).sum := by
  unfold ompRank
  have key : ∀ x : V, passes.foldl (fun x t => ompPass body t x) x =
      x + (passes.flatten.flatten.map fun c => contribution (body c)).sum := by
    induction passes with
    | nil => intro x; simp
    | cons t l ih =>
      intro x
      have hl : ∀ c ∈ l.flatten.flatten, ∀ a ∈ body c, a.1 = .plus ∨ a.1 = .minus := fun c hc =>
        h c (by rw [List.flatten_cons, List.flatten_append, List.mem_append]; exact Or.inr hc)
      have ht : ∀ c ∈ t.flatten, ∀ a ∈ body c, a.1 = .plus ∨ a.1 = .minus := fun c hc =>
        h c (by rw [List.flatten_cons, List.flatten_append, List.mem_append]; exact Or.inl hc)
      rw [List.foldl_cons, ih hl, ompPass_eq body t ht, List.flatten_cons, List.flatten_append,
        List.map_append, List.sum_append, add_assoc]
  rw [key]
  simp [RKind.start]

theorem serialRank_eq (body : S → List (AOp × V)) (passes : List (List S))
    (h : ∀ c ∈ passes.flatten, ∀ a ∈ body c, a.1 = .plus ∨ a.1 = .minus) :
    serialRank .sum body passes = (passes.flatten.map fun c => contribution (body c)).sum := by
  unfold serialRank
  have key : ∀ x : V, passes.foldl (fun x t => serialPass body t x) x =
      x + (passes.flatten.map fun c => contribution (body c)).sum := by
    induction passes with
    | nil => intro x; simp
    | cons t l ih =>
      intro x
      have hl : ∀ c ∈ l.flatten, ∀ a ∈ body c, a.1 = .plus ∨ a.1 = .minus := fun c hc =>
        h c (by rw [List.flatten_cons, List.mem_append]; exact Or.inr hc)
      have ht : ∀ c ∈ t, ∀ a ∈ body c, a.1 = .plus ∨ a.1 = .minus := fun c hc =>
        h c (by rw [List.flatten_cons, List.mem_append]; exact Or.inl hc)
      rw [List.foldl_cons, ih hl, serialPass_eq body t ht, List.flatten_cons,
        List.map_append, List.sum_append, add_assoc]
  rw [key]
  simp [RKind.start]

/-- The sums over the sites of a loop of all ranks make up the sum over the lattice. -/
theorem sum_over_ranks {n : ℕ} (lay : Layout n) (h : lay.WF) (par : Parity) (hp : par ≠ .none)
    (f : Site n → V) :
    ∑ r ∈ Finset.range lay.numNodes, ((slotOrder lay par r).map f).sum =
      ∑ c ∈ (latticeSites lay.L).filter (Visits par), f c := by
  have hmap : ∀ c ∈ (latticeSites lay.L).filter (Visits par), lay.nodeRank c ∈ Finset.range lay.numNodes := by
    intro c hc
    rw [Finset.mem_filter, mem_latticeSites] at hc
    exact Finset.mem_range.2 (nodeRank_lt lay h c hc.1)
  rw [← Finset.sum_fiberwise_of_maps_to hmap f]
  refine Finset.sum_congr rfl fun r hr => ?_
  obtain ⟨k1, k2⟩ := slotOrder_ok lay h par hp r (Finset.mem_range.1 hr)
  rw [← List.sum_toFinset f k1]
  refine Finset.sum_congr ?_ fun _ _ => rfl
  ext c
  rw [List.mem_toFinset, k2, Finset.mem_filter, Finset.mem_filter, mem_latticeSites]
  rfl

/-- How the sites of a loop are distributed on a rank: into passes, in each pass onto threads, in any way
that does every site of the loop once. -/
def Distributed {n : ℕ} (lay : Layout n) (par : Parity) (passes : ℕ → List (List (List (Site n)))) : Prop :=
  ∀ r < lay.numNodes, (passes r).flatten.flatten.Perm (slotOrder lay par r)

/-- Variables (each of any number of elements at disjoint addresses) that a loop only adds to and subtracts
from, at least once by `+=`: hilapp takes them as sum reductions, and after the loop each element is what it
was on rank 0 before plus the contributions of all sites of the lattice that the loop visits. This holds for
every division of the lattice, every distribution of the sites of a rank onto passes and threads and every
order in which the copies of the threads are added, and for both compilations, with and without OpenMP. `body a c`
are the statements done at site `c` for the element at address `a`. With allreduce the result is on every rank,
else on rank 0. (`_partial`: the arithmetic is exact, and bodies with `*=` or `=` are not covered, see below.) -/
theorem C79_sum_partial {n : ℕ} (lay : Layout n) (h : lay.WF) (par : Parity) (hp : par ≠ .none)
    (passes : ℕ → List (List (List (Site n)))) (hd : Distributed lay par passes) (omp : Bool)
    (src : ℕ → List AOp) (hsrc : ∀ a, ∀ o ∈ src a, o = .plus ∨ o = .minus)
    (body : ℕ → Site n → List (AOp × V)) (hbody : ∀ a c, ∀ x ∈ body a c, x.1 ∈ src a)
    (ar : Bool) (vars : List (ℕ × ℕ)) (hdis : (addresses vars).Nodup)
    (hplus : ∀ a ∈ addresses vars, .plus ∈ src a)
    (old : ℕ → ℕ → V) (q0 : ℕ → RedQueue V) (hq : ∀ r, (q0 r).used = 0 ∧ (q0 r).bad = false) :
    let rank := fun k r a =>
      if omp then ompRank k (body a) (passes r) else serialRank k (body a) ((passes r).map List.flatten)
    (∀ a ∈ addresses vars, hilaKind (src a) = some .sum) ∧
    ∃ m, plainReduction lay.numNodes ar vars old q0 (rank .sum) = some m ∧
      ∀ r, (r = 0 ∨ ar = true) → ∀ a, (∃ v ∈ vars, v.1 ≤ a ∧ a < v.1 + v.2) →
        m r a = old 0 a + ∑ c ∈ (latticeSites lay.L).filter (Visits par), contribution (body a c) := by
  intro rank
  refine ⟨fun a ha => ?_, ?_⟩
  · have h1 := hplus a ha
    have h2 := hsrc a
    unfold hilaKind
    generalize src a = l at h1 h2
    induction l with
    | nil => cases h1
    | cons o l ih =>
      rcases h2 o (by simp) with e | e
      · subst e; rfl
      · subst e
        rw [List.findSome?_cons]
        exact ih ((List.mem_cons.1 h1).resolve_left (by simp)) fun o ho => h2 o (by simp [ho])
  · have hN : 0 < lay.numNodes := by
      unfold Layout.numNodes; exact Finset.prod_pos fun d _ => h.ndiv_pos d
    have hb : ∀ a c, ∀ x ∈ body a c, x.1 = .plus ∨ x.1 = .minus := fun a c x hx =>
      hsrc a _ (hbody a c x hx)
    obtain ⟨m, hm, hv⟩ := C10_plain_variables lay.numNodes hN ar vars hdis old q0 hq (rank .sum)
    refine ⟨m, hm, fun r hr a ha => ?_⟩
    rw [(hv r hr a).1 ha]
    congr 1
    rw [← sum_over_ranks lay h par hp]
    refine Finset.sum_congr rfl fun k hk => ?_
    have hk' := hd k (Finset.mem_range.1 hk)
    rw [← (hk'.map fun c => contribution (body a c)).sum_eq]
    simp only [rank]
    cases omp
    · rw [if_neg (by simp), serialRank_eq (body a) _ (fun c _ => hb a c)]
      have : ∀ l : List (List (List (Site n))), (l.map List.flatten).flatten = l.flatten.flatten := by
        intro l
        induction l with
        | nil => rfl
        | cons t l ih => simp [ih]
      rw [this]
    · rw [if_pos rfl, ompRank_eq (body a) _ (fun c _ => hb a c)]

/-- Without threads a product reduction is the product of what the sites multiply with. -/
theorem C79_product_serial (body : S → List (AOp × V)) (passes : List (List S))
    (h : ∀ c, ∀ a ∈ body c, a.1 = .times) :
    serialRank .product body passes =
      (passes.flatten.map fun c => ((body c).map Prod.snd).prod).prod := by
  have hs : ∀ (x : V) (c : S), siteRun body x c = x * ((body c).map Prod.snd).prod := by
    intro x c
    unfold siteRun
    have := h c
    generalize body c = l at this
    induction l generalizing x with
    | nil => simp
    | cons a l ih =>
      obtain ⟨o, v⟩ := a
      have e := this (o, v) (by simp)
      simp only at e
      subst e
      rw [List.foldl_cons, ih _ (fun b hb => this b (by simp [hb]))]
      simp [AOp.run, mul_assoc]
  have hp : ∀ (sites : List S) (x : V), serialPass body sites x =
      x * (sites.map fun c => ((body c).map Prod.snd).prod).prod := by
    intro sites
    unfold serialPass
    induction sites with
    | nil => intro x; simp
    | cons c l ih => intro x; rw [List.foldl_cons, ih, hs]; simp [mul_assoc]
  unfold serialRank
  have key : ∀ x : V, passes.foldl (fun x t => serialPass body t x) x =
      x * (passes.flatten.map fun c => ((body c).map Prod.snd).prod).prod := by
    induction passes with
    | nil => intro x; simp
    | cons t l ih => intro x; rw [List.foldl_cons, ih, hp]; simp [mul_assoc]
  rw [key]
  simp [RKind.start]

/-- With OpenMP every product reduction is lost: hilapp takes the variable as a product, but the copies of
the threads start from 0 and are added, so that the result is 1 whatever the sites multiply with and
however the sites are distributed. -/
theorem C79_product_wrong (src : List AOp) (hsrc : src ≠ [] ∧ ∀ o ∈ src, o = .times)
    (body : S → List (AOp × V)) (h : ∀ c, ∀ a ∈ body c, a.1 ∈ src) (passes : List (List (List S))) :
    hilaKind src = some .product ∧ ompRank .product body passes = 1 := by
  refine ⟨?_, ?_⟩
  · obtain ⟨h1, h2⟩ := hsrc
    cases src with
    | nil => exact absurd rfl h1
    | cons o l =>
      have := h2 o (by simp)
      subst this; rfl
  · have h0 : ∀ c, siteRun body (0 : V) c = 0 := by
      intro c
      unfold siteRun
      have hc := h c
      generalize body c = l at hc
      induction l with
      | nil => rfl
      | cons a l ih =>
        obtain ⟨o, v⟩ := a
        have e := hsrc.2 _ (hc (o, v) (by simp))
        simp only at e
        subst e
        rw [List.foldl_cons]
        have : AOp.run (.times, v) (0 : V) = 0 := by simp [AOp.run]
        rw [this]
        exact ih fun b hb => hc b (by simp [hb])
    have h1 : ∀ sites : List S, serialPass body sites (0 : V) = 0 := by
      intro sites
      unfold serialPass
      induction sites with
      | nil => rfl
      | cons c l ih => rw [List.foldl_cons, h0]; exact ih
    have h2 : ∀ (threads : List (List S)) (x : V), ompPass body threads x = x := by
      intro threads
      unfold ompPass
      induction threads with
      | nil => intro x; rfl
      | cons t l ih => intro x; rw [List.foldl_cons, ih, h1, add_zero]
    have h3 : ∀ x : V, passes.foldl (fun x t => ompPass body t x) x = x := by
      intro x
      induction passes generalizing x with
      | nil => rfl
      | cons t l ih => rw [List.foldl_cons, h2]; exact ih x
    unfold ompRank
    rw [h3]; rfl

/-- The product that should result, on three sites with the values 2, 3 and 5. -/
example : ompRank .product (fun c : ℕ => [(AOp.times, (c : ℤ))]) [[[2, 3], [5]]] = 1 ∧
    serialRank .product (fun c : ℕ => [(AOp.times, (c : ℤ))]) [[2, 3], [5]] = 30 := by decide

/-- hilapp accepts a body that adds to a variable and also sets it, as a sum. What results then depends on how
the sites are distributed onto threads: the body `s += 1; if (X is site 1) s = 0;`. -/
theorem C79_set_wrong :
    ∃ (src : List AOp) (body : ℕ → List (AOp × ℤ)) (t1 t2 : List (List ℕ)),
      hilaKind src = some .sum ∧ (∀ c, ∀ a ∈ body c, a.1 ∈ src) ∧ t1.flatten.Perm t2.flatten ∧
      ompRank .sum body [t1] ≠ ompRank .sum body [t2] :=
  ⟨[.plus, .set], fun c => if c = 1 then [(.plus, 1), (.set, 0)] else [(.plus, 1)],
    [[0, 1, 2]], [[0], [1], [2]], by decide, by intro c; dsimp only; split <;> simp, by simp, by decide⟩

/-- The same for `s += 1; s *= 2;`. -/
theorem C79_scaled_sum_wrong :
    ∃ (src : List AOp) (body : ℕ → List (AOp × ℤ)) (t1 t2 : List (List ℕ)),
      hilaKind src = some .sum ∧ (∀ c, ∀ a ∈ body c, a.1 ∈ src) ∧ t1.flatten.Perm t2.flatten ∧
      ompRank .sum body [t1] ≠ ompRank .sum body [t2] :=
  ⟨[.plus, .times], fun _ => [(.plus, 1), (.times, 2)], [[0, 1]], [[0], [1]], by decide,
    by intro c; simp, by simp, by decide⟩

end

/-- A distribution onto two passes and two threads on the example lattice. -/
example : Distributed exampleLayout .even fun r =>
    [[((slotOrder exampleLayout .even r).take 1).reverse], [[], (slotOrder exampleLayout .even r).drop 1]] := by
  intro r _
  have e : ([[((slotOrder exampleLayout .even r).take 1).reverse],
      [[], (slotOrder exampleLayout .even r).drop 1]] : List (List (List (Site 2)))).flatten.flatten =
      ((slotOrder exampleLayout .even r).take 1).reverse ++ (slotOrder exampleLayout .even r).drop 1 := by
    simp
  rw [e]
  refine ((List.reverse_perm _).append_right _).trans ?_
  rw [List.take_append_drop]

/-- A body with both `+=` and `-=`. -/
example : hilaKind [.minus, .plus] = some .sum ∧
    contribution ([(.minus, 3), (.plus, 5)] : List (AOp × ℤ)) = 2 := by decide

end Hila
