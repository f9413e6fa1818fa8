import Verif.Lemmas.GaussFill

/-!
# C86: gaussian random numbers
-/

namespace Hila

open MeasureTheory ProbabilityTheory

theorem gsim_start (u : ℕ → ℝ) : GSim u (GRng.start u) ⟨0, none⟩ := ⟨rfl, rfl, rfl, rfl, by simp⟩

theorem draws_ae {α : Type} {gpu : Bool} {prog : GRng → Option (α × GRng)} {gs : List GCall} {R : α → List ℝ → Prop} (h : GDraws gpu prog gs R) :
    ∀ᵐ u ∂uniformStream, ∃ a s', prog (GRng.start u) = some (a, s') ∧ R a ((ixRun gpu gs ⟨0, none⟩).1.map (normals u)) := by
  filter_upwards [stream_range] with u hu
  obtain ⟨a, s', e, _, r⟩ := h u hu _ _ (gsim_start u)
  exact ⟨a, s', e, r⟩

/-- C86 (gaussian numbers). Whatever sequence of calls of the functions that fill numbers, complex numbers, matrices, vectors, algebras and SU2 elements
with gaussian numbers a program makes: almost surely all of them return, and the components they fill are independent normal numbers with mean zero and
variance `width²`, whether a number is left over from an earlier call or not, on processors and on GPUs. -/
theorem C86_normal (gpu : Bool) (fuel : ℕ) (hf : 0 < fuel) (rs : List GReq) :
    (∀ᵐ u ∂uniformStream, ∃ vals s', execAll gpu fuel rs (GRng.start u) = some (vals, s') ∧ vals.length = (allWidths rs).length) ∧
      uniformStream.map (fun u (i : Fin (allWidths rs).length) => (resultOr [] (execAll gpu fuel rs (GRng.start u))).getD i 0) =
        Measure.pi fun i => gaussianReal 0 ((allWidths rs)[i] ^ 2).toNNReal := by
  have hae := draws_ae (execAll_draws gpu fuel hf rs)
  have hlen : ∀ u, ((ixRun gpu (rs.flatMap GReq.calls) ⟨0, none⟩).1.map (normals u)).length = (allWidths rs).length := fun u => by
    rw [List.length_map, ixRun_length, allWidths_length]
  have hlen' : (ixRun gpu (rs.flatMap GReq.calls) ⟨0, none⟩).1.length = (allWidths rs).length := by
    rw [ixRun_length, allWidths_length]
  constructor
  · filter_upwards [hae] with u ⟨a, s', e, r⟩
    refine ⟨a, s', e, ?_⟩
    rw [r (by rw [List.length_map, ixRun_length]), List.length_zipWith, hlen, min_self]
  · have hinj : Function.Injective fun i : Fin (allWidths rs).length =>
        (ixRun gpu (rs.flatMap GReq.calls) ⟨0, none⟩).1[(i : ℕ)]'(by rw [hlen']; exact i.2) := by
      intro i j hij
      have := (ixRun_nodup gpu (rs.flatMap GReq.calls)).getElem_inj_iff.1 hij
      exact Fin.ext this
    rw [← normals_select _ hinj]
    refine Measure.map_congr ?_
    filter_upwards [hae] with u ⟨a, s', e, r⟩
    funext i
    have r2 := r (by rw [List.length_map, ixRun_length])
    have hi1 : (i : ℕ) < ((ixRun gpu (rs.flatMap GReq.calls) ⟨0, none⟩).1.map (normals u)).length := by rw [hlen]; exact i.2
    have hi : (i : ℕ) < a.length := by rw [r2, List.length_zipWith, hlen, min_self]; exact i.2
    rw [e]
    simp only [resultOr, Option.map_some, Option.getD_some]
    simp only [List.getD_eq_getElem?_getD, List.getElem?_eq_getElem hi, Option.getD_some]
    simp only [r2, List.getElem_zipWith, List.getElem_map]
    rfl

/-- C86: a program that fills a real number, a vector with three real elements, a complex number and a second vector: nine independent numbers. -/
example : ∃ vals : (ℕ → ℝ) → Fin 9 → ℝ, uniformStream.map vals = Measure.pi fun i => gaussianReal 0 ((![1, 2, 2, 2, 3, 3, 1, 1, 1] i : ℝ) ^ 2).toNNReal := by
  have h := (C86_normal false 1 one_pos [.real 1, .rmat 2 3 (fun _ => 7), .cplx 3, .rmat 1 3 (fun _ => 8)]).2
  refine ⟨_, h.trans ?_⟩
  congr 1
  funext i
  fin_cases i <;> rfl

/-! ### Reproducible numbers -/

/-- C86 (the number 1). If the generator can return 1, the logarithm of zero is never taken: `gaussrand2` reads on until it meets a number that is not 1, and uses that
one. -/
theorem C86_loop (s : GRng) (k fuel : ℕ) (hk : k < fuel) (h1 : ∀ i < k, s.u (s.pos + 1 + i) = 1) (h2 : s.u (s.pos + 1 + k) ≠ 1) :
    ∃ a b t, gaussrand2 fuel s = some ((a, b), t) ∧ t.pos = s.pos + 1 + k + 1 ∧
      a = Real.sqrt (-2 * Real.log (1 - s.u (s.pos + 1 + k))) * Real.sin (2 * Real.pi * s.u s.pos) ∧
      b = Real.sqrt (-2 * Real.log (1 - s.u (s.pos + 1 + k))) * Real.cos (2 * Real.pi * s.u s.pos) := by
  have aux : ∀ (k fuel p : ℕ), k < fuel → (∀ i < k, s.u (p + i) = 1) → s.u (p + k) ≠ 1 → urndLoop s.u fuel p = some (1 - s.u (p + k), p + k + 1) := by
    intro k
    induction k with
    | zero =>
      intro fuel p hf _ h
      obtain ⟨f, rfl⟩ : ∃ f, fuel = f + 1 := ⟨fuel - 1, by omega⟩
      have : ¬ (1 - s.u p = 0) := fun e => h (by rw [Nat.add_zero]; linarith)
      simp only [urndLoop, if_neg this, Nat.add_zero]
    | succ k ih =>
      intro fuel p hf h1 h2
      obtain ⟨f, rfl⟩ : ∃ f, fuel = f + 1 := ⟨fuel - 1, by omega⟩
      have h3 : 1 - s.u p = 0 := by
        have := h1 0 (by omega)
        rw [Nat.add_zero] at this
        rw [this, sub_self]
      have e : p + (k + 1) = p + 1 + k := by omega
      rw [urndLoop, if_pos h3, e]
      exact ih f (p + 1) (by omega) (fun i hi => by
        have := h1 (i + 1) (by omega)
        rwa [show p + (i + 1) = p + 1 + i by omega] at this) (by rwa [e] at h2)
  have h := aux k fuel (s.pos + 1) hk h1 h2
  refine ⟨_, _, _, by unfold gaussrand2; rw [h]; rfl, rfl, ?_, ?_⟩ <;>
    · congr 2
      ring

/-- C86: two numbers 1 are skipped. -/
example : ∃ a b t, gaussrand2 3 (GRng.start fun i => if i = 1 ∨ i = 2 then 1 else 1 / 2) = some ((a, b), t) ∧ t.pos = 4 := by
  obtain ⟨a, b, t, h, h2, _⟩ := C86_loop (GRng.start fun i => if i = 1 ∨ i = 2 then 1 else 1 / 2) 2 3 (by norm_num)
    (by intro i hi; interval_cases i <;> simp [GRng.start]) (by simp [GRng.start])
  exact ⟨a, b, t, h, h2⟩

/-- C86 (seeding). If the number of calls of `gaussrand` so far is even, so that none is left over, all numbers after `seed_random` are those of a program
that has just started with this seed. -/
theorem C86_reseed_partial {σ : Type} (gen : σ → ℕ → ℝ) (hgen : ∀ x i, 0 ≤ gen x i ∧ gen x i < 1) (gpu : Bool) (fuel : ℕ) (hf : 0 < fuel)
    (rs : List GReq) (seed : σ) (s : GRng) (hs : s.drawNew = true) :
    (execAll gpu fuel rs (seedRandom gen seed s)).map Prod.fst = (execAll gpu fuel rs (GRng.start (gen seed))).map Prod.fst := by
  have h1 : GSim (gen seed) (seedRandom gen seed s) ⟨0, none⟩ := ⟨rfl, rfl, rfl, hs, by simp⟩
  obtain ⟨a, s1, e1, _, r1⟩ := execAll_draws gpu fuel hf rs (gen seed) (hgen seed) _ _ h1
  obtain ⟨b, s2, e2, _, r2⟩ := execAll_draws gpu fuel hf rs (gen seed) (hgen seed) _ _ (gsim_start (gen seed))
  have hl : ((ixRun gpu (rs.flatMap GReq.calls) ⟨0, none⟩).1.map (normals (gen seed))).length = callCount (rs.flatMap GReq.calls) := by
    rw [List.length_map, ixRun_length]
  rw [e1, e2, Option.map_some, Option.map_some, r1 hl, r2 hl]

/-- The stream with `φ = π/2` and `r = 1`. -/
noncomputable def quarterStream (i : ℕ) : ℝ := if i = 0 then 1 / 4 else 1 - Real.exp (-(1 / 2))

theorem quarterStream_range (i : ℕ) : 0 ≤ quarterStream i ∧ quarterStream i < 1 := by
  unfold quarterStream
  split
  · constructor <;> norm_num
  · have h1 : Real.exp (-(1 / 2)) ≤ 1 := Real.exp_le_one_iff.2 (by norm_num)
    have h2 := Real.exp_pos (-(1 / 2))
    constructor <;> linarith

theorem quarterStream_pair : bmPair (quarterStream 0, quarterStream 1) = (1, 0) := by
  have e1 : quarterStream 0 = 1 / 4 := if_pos rfl
  have e2 : quarterStream 1 = 1 - Real.exp (-(1 / 2)) := if_neg (by norm_num)
  unfold bmPair
  rw [e1, e2]
  simp only [sub_sub_cancel, Real.log_exp]
  rw [show 2 * Real.pi * (1 / 4) = Real.pi / 2 by ring, Real.sin_pi_div_two, Real.cos_pi_div_two]
  norm_num

/-- C86 (seeding, wrong). `seed_random` leaves the second number of the last pair in `gaussrand`: whatever the seeds, the first number after seeding is
the number left over. So the same seed gives different numbers: a program that seeds, draws a number, and seeds again in the same way does not get
the same number again. -/
theorem C86_reseed_wrong :
    (∀ {σ : Type} (gen : σ → ℕ → ℝ) (seed : σ) (s : GRng) (fuel : ℕ), s.drawNew = false →
      ((GReq.real 1).exec false fuel (seedRandom gen seed s)).map Prod.fst = some [s.second]) ∧
    ∃ (gen : Unit → ℕ → ℝ) (s : GRng), (∀ x i, 0 ≤ gen x i ∧ gen x i < 1) ∧
      (GReq.real 1).exec false 1 (seedRandom gen () (GRng.start (gen ()))) = some ([1], s) ∧
      ((GReq.real 1).exec false 1 (seedRandom gen () s)).map Prod.fst = some [0] := by
  have h1 : ∀ {σ : Type} (gen : σ → ℕ → ℝ) (seed : σ) (s : GRng) (fuel : ℕ), s.drawNew = false →
      ((GReq.real 1).exec false fuel (seedRandom gen seed s)).map Prod.fst = some [s.second] := by
    intro σ gen seed s fuel hs
    simp [GReq.exec, gaussrand, seedRandom, hs]
  refine ⟨h1, fun _ => quarterStream, ⟨quarterStream, 2, false, 0⟩, fun _ i => quarterStream_range i, ?_, ?_⟩
  · have h := gaussrand2_eq 1 one_pos (GRng.start quarterStream) quarterStream_range
    have e : seedRandom (fun _ : Unit => quarterStream) () (GRng.start quarterStream) = GRng.start quarterStream := rfl
    rw [e]
    simp only [GReq.exec, gaussrand, Bool.false_eq_true, if_false]
    rw [if_pos (show (GRng.start quarterStream).drawNew = true from rfl), h]
    simp only [Option.bind_some, GRng.start, zero_add, quarterStream_pair, mul_one]
  · rw [h1 _ _ _ _ rfl]

end Hila
