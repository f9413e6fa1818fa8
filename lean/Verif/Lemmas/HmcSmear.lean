import Verif.Model.HmcSmear
import Verif.Props.TaylorExp
import Verif.Lemmas.Stout
import Verif.Props.Gauge

/-!
# Lemmas for C108

The derivative of the smeared links of `Model/HmcSmear`, level by level, and their gauge transformation.
-/

namespace Hila

open Matrix
open scoped Nat

variable {n : ℕ} {L : Fin n → ℕ} {k : ℕ}

/-- `Σ_x Re tr(A(x) B(x))`. -/
noncomputable def pairF [∀ d, NeZero (L d)] (A B : PSite L → Mat (k + 1)) : ℝ := ∑ x, (A x * B x).trace.re

/-- `Σ_{d,x} Re tr(A_d(x) B_d(x))`. -/
noncomputable def pairG [∀ d, NeZero (L d)] (A B : GField L (k + 1)) : ℝ := ∑ d, pairF (A d) (B d)

/-- The field `U(t)` has the derivative `A` at `t = 0`. -/
def FieldDeriv (U : ℝ → GField L (k + 1)) (A : GField L (k + 1)) : Prop := ∀ d x, MDeriv (fun t => U t d x) (A d x)

theorem reTr_star (A B : Mat (k + 1)) : (Aᴴ * B).trace.re = (A * Bᴴ).trace.re := by
  rw [← trace_conj_re (A * Bᴴ), conjTranspose_mul, conjTranspose_conjTranspose, trace_mul_comm]

theorem antiProj_self (A B : Mat (k + 1)) : (antiProj A * B).trace.re = (A * antiProj B).trace.re := by
  unfold antiProj
  have h1 := reTr_star A B
  have h2 : (Aᴴ).trace = star A.trace := trace_conjTranspose A
  have h3 : (Bᴴ).trace = star B.trace := trace_conjTranspose B
  simp only [sub_mul, mul_sub, smul_mul_assoc, mul_smul_comm, one_mul, mul_one, trace_sub, trace_smul, smul_eq_mul, h2, h3]
  simp only [Complex.sub_re, Complex.mul_re, Complex.star_def]
  simp [Complex.div_re, Complex.div_im, h1]
  ring

theorem expDerLoop_eq (Q m0 : Mat (k + 1)) : ∀ (f j : ℕ) (s : ExpDer k), 1 ≤ j → s.n = 1 / ((j - 1)! : ℂ) →
    s.m1 = dpow (𝕜 := ℂ) Q m0 (j - 1) → s.qn = Q ^ (j - 1) → s.eQ = taylor (𝕜 := ℂ) Q j → s.lam = dtaylor (𝕜 := ℂ) Q m0 j →
    (expDerLoop Q m0 f j s).eQ = taylor (𝕜 := ℂ) Q (j + f) ∧ (expDerLoop Q m0 f j s).lam = dtaylor (𝕜 := ℂ) Q m0 (j + f)
  | 0, j, s, _, _, _, _, h4, h5 => ⟨h4, h5⟩
  | f + 1, j, s, hj, h1, h2, h3, h4, h5 => by
    obtain ⟨i, rfl⟩ : ∃ i, j = i + 1 := ⟨j - 1, by omega⟩
    simp only [Nat.add_sub_cancel] at h1 h2 h3
    unfold expDerLoop
    have hn : s.n * 1 / ((i + 1 : ℕ) : ℂ) = 1 / ((i + 1)! : ℂ) := by
      rw [h1, Nat.factorial_succ]
      push_cast
      have : (i ! : ℂ) ≠ 0 := by exact_mod_cast Nat.factorial_ne_zero i
      have : (i + 1 : ℂ) ≠ 0 := by exact_mod_cast Nat.succ_ne_zero i
      field_simp
    have hm : m0 * s.qn + Q * s.m1 = dpow (𝕜 := ℂ) Q m0 (i + 1) := by rw [h2, h3, dpow_left]
    have hq : s.qn * Q = Q ^ (i + 1) := by rw [h3, pow_succ]
    have := expDerLoop_eq Q m0 f (i + 1 + 1) ⟨s.n * 1 / ((i + 1 : ℕ) : ℂ), m0 * s.qn + Q * s.m1, s.qn * Q,
      s.eQ + (s.n * 1 / ((i + 1 : ℕ) : ℂ)) • (s.qn * Q), s.lam + (s.n * 1 / ((i + 1 : ℕ) : ℂ)) • (m0 * s.qn + Q * s.m1)⟩ (by omega)
      (by simpa using hn) (by simpa using hm) (by simpa using hq) (by dsimp only; rw [h4, hn, hq, taylor_succ' Q (i + 1)])
      (by dsimp only; rw [h5, hn, hm, dtaylor_succ' Q m0 (i + 1)])
    rw [show i + 1 + (f + 1) = i + 1 + 1 + f by omega]
    exact this

theorem expAndDer_eq (steps : ℕ) (Q m0 : Mat (k + 1)) :
    expAndDer steps Q m0 = (dtaylor (𝕜 := ℂ) Q m0 (steps + 1), taylor (𝕜 := ℂ) Q (steps + 1)) := by
  unfold expAndDer
  match steps with
  | 0 =>
    simp [expDerLoop, taylor, dtaylor, dpow]
  | s + 1 =>
    have h := expDerLoop_eq Q m0 s 2 ⟨1, m0, Q, 1 + Q, m0⟩ (by omega) (by simp) (by simp [dpow]) (by simp)
      (by simp [taylor, Finset.sum_range_succ]) (by simp [dtaylor, Finset.sum_range_succ, dpow])
    simp only [Nat.add_sub_cancel, if_neg (Nat.succ_ne_zero s)]
    rw [h.1, h.2, show 2 + s = s + 1 + 1 by omega]

theorem MDeriv.tr {f : ℝ → Mat (k + 1)} {f' : Mat (k + 1)} (hf : MDeriv f f') : HasDerivAt (fun t => (f t).trace) f'.trace 0 := by
  unfold Matrix.trace
  exact HasDerivAt.fun_sum fun i _ => hf i i

theorem MDeriv.antiProj {f : ℝ → Mat (k + 1)} {f' : Mat (k + 1)} (hf : MDeriv f f') :
    MDeriv (fun t => Hila.antiProj (f t)) (Hila.antiProj f') := by
  unfold Hila.antiProj
  have h1 := (hf.sub hf.star).smul (1 / 2 : ℂ)
  refine h1.sub fun i j => ?_
  exact (h1.tr.div_const _).mul_const _

/-- The derivative of a smeared link. -/
theorem smearLink_pull (steps : ℕ) (c : ℝ) (F : Mat (k + 1)) {u s : ℝ → Mat (k + 1)} {u' s' : Mat (k + 1)} (hu : MDeriv u u') (hs : MDeriv s s') :
    ∃ v', MDeriv (fun t => smearLink steps c (u t) (s t)) v' ∧
      (F * v').trace.re = ((smearLinkForce steps c F (u 0) (s 0)).1 * u').trace.re + ((smearLinkForce steps c F (u 0) (s 0)).2 * s').trace.re := by
  have hq := ((hu.mul hs).smul ((-c : ℝ) : ℂ)).antiProj
  have ht : MDeriv (fun t => taylor (𝕜 := ℂ) (Hila.antiProj (((-c : ℝ) : ℂ) • (u t * s t))) (steps + 1))
      (dtaylor (𝕜 := ℂ) (Hila.antiProj (((-c : ℝ) : ℂ) • (u 0 * s 0))) (Hila.antiProj (((-c : ℝ) : ℂ) • (u' * s 0 + u 0 * s'))) (steps + 1)) :=
    MDer.taylor (𝕜 := ℂ) (k := k) hq (steps + 1)
  refine ⟨u' * taylor (𝕜 := ℂ) (Hila.antiProj (((-c : ℝ) : ℂ) • (u 0 * s 0))) (steps + 1) +
    u 0 * dtaylor (𝕜 := ℂ) (Hila.antiProj (((-c : ℝ) : ℂ) • (u 0 * s 0)))
      (Hila.antiProj (((-c : ℝ) : ℂ) • (u' * s 0 + u 0 * s'))) (steps + 1), ?_, ?_⟩
  · unfold smearLink
    simp only [matExp_eq]
    exact hu.mul ht
  · simp only [smearLinkForce, expAndDer_eq]
    set Q := Hila.antiProj (((-c : ℝ) : ℂ) • (u 0 * s 0)) with hQ
    set Z := Hila.antiProj (((-c : ℝ) : ℂ) • (u' * s 0 + u 0 * s')) with hZ
    rw [mul_add, trace_add, Complex.add_re]
    have e1 : (F * (u 0 * dtaylor (𝕜 := ℂ) Q Z (steps + 1))).trace = (dtaylor (𝕜 := ℂ) Q (F * u 0) (steps + 1) * Z).trace := by
      rw [dtaylor_trace, mul_assoc]
    rw [e1, hZ, ← antiProj_self]
    set lam := Hila.antiProj (dtaylor (𝕜 := ℂ) Q (F * u 0) (steps + 1))
    rw [← Complex.add_re, ← Complex.add_re]
    congr 1
    simp only [sub_mul, smul_mul_assoc, mul_smul_comm, mul_add, trace_add, trace_sub, trace_smul, smul_eq_mul]
    have e2 : (F * (u' * taylor (𝕜 := ℂ) Q (steps + 1))).trace = (taylor (𝕜 := ℂ) Q (steps + 1) * F * u').trace := by
      rw [← mul_assoc, trace_mul_comm, ← mul_assoc]
    have e3 : (lam * (u' * s 0)).trace = (s 0 * lam * u').trace := by
      rw [← mul_assoc, trace_mul_comm, ← mul_assoc]
    rw [e2, e3, mul_assoc lam]
    push_cast
    ring

/-- The derivative of the staples. -/
theorem staple2_pull [∀ d, NeZero (L d)] (d1 d2 : Fin n) (Lam : PSite L → Mat (k + 1)) {U1 U2 : ℝ → PSite L → Mat (k + 1)}
    {A1 A2 : PSite L → Mat (k + 1)} (h1 : ∀ x, MDeriv (fun t => U1 t x) (A1 x)) (h2 : ∀ x, MDeriv (fun t => U2 t x) (A2 x)) :
    ∃ S' : PSite L → Mat (k + 1), (∀ x, MDeriv (fun t => staple2 (U1 t) (U2 t) d1 d2 x) (S' x)) ∧
      pairF Lam S' = pairF (stapleDer1 (U2 0) Lam d1 d2) A1 + pairF (stapleDer2 (U1 0) (U2 0) Lam d1 d2) A2 := by
  let up : PSite L → Mat (k + 1) := fun x =>
    (A2 (x + unitStep d1) * (U1 0 (x + unitStep d2))ᴴ + U2 0 (x + unitStep d1) * (A1 (x + unitStep d2))ᴴ) * (U2 0 x)ᴴ +
      U2 0 (x + unitStep d1) * (U1 0 (x + unitStep d2))ᴴ * (A2 x)ᴴ
  let dn : PSite L → Mat (k + 1) := fun x =>
    ((A2 (x + unitStep d1))ᴴ * (U1 0 x)ᴴ + (U2 0 (x + unitStep d1))ᴴ * (A1 x)ᴴ) * U2 0 x + (U2 0 (x + unitStep d1))ᴴ * (U1 0 x)ᴴ * A2 x
  refine ⟨fun x => up x + dn (x - unitStep d2), fun x => ?_, ?_⟩
  · unfold staple2
    simp only [zero_add]
    exact (((h2 _).mul (h1 _).star).mul (h2 _).star).add ((((h2 _).star).mul (h1 _).star).mul (h2 _))
  · have hs : ∀ f : PSite L → ℝ, ∀ v : PSite L, ∑ x, f (x + v) = ∑ x, f x := fun f v => sum_shift v f
    have hF : ∀ A B C : PSite L → Mat (k + 1), pairF A (fun x => B x + C x) = pairF A B + pairF A C := by
      intro A B C
      simp [pairF, mul_add, Finset.sum_add_distrib]
    have hF' : ∀ A B C : PSite L → Mat (k + 1), pairF (fun x => A x + B x) C = pairF A C + pairF B C := by
      intro A B C
      simp [pairF, add_mul, Finset.sum_add_distrib]
    have hsh : ∀ (A B : PSite L → Mat (k + 1)) (v : PSite L), pairF (fun x => A (x - v)) B = pairF A fun x => B (x + v) := by
      intro A B v
      unfold pairF
      rw [← hs _ v]
      simp
    have hsh' : ∀ (A B : PSite L → Mat (k + 1)) (v : PSite L), pairF A (fun x => B (x - v)) = pairF (fun x => A (x + v)) B := by
      intro A B v
      unfold pairF
      rw [← hs _ v]
      simp
    have st : ∀ A B : Mat (k + 1), (A * Bᴴ).trace.re = (Aᴴ * B).trace.re := fun A B => (reTr_star A B).symm
    have E1 : pairF (stapleDer1 (U2 0) Lam d1 d2) A1 =
        pairF (fun x => U2 0 (x + unitStep d1) * (Lam (x + unitStep d2))ᴴ * (U2 0 x)ᴴ) A1 +
          pairF (fun x => ((U2 0 x)ᴴ * Lam x * U2 0 (x + unitStep d1))ᴴ) (fun x => A1 (x + unitStep d2)) := by
      rw [← hsh, ← hF']
      rfl
    have E2 : pairF (stapleDer2 (U1 0) (U2 0) Lam d1 d2) A2 =
        pairF (fun x => (Lam x * U2 0 (x + unitStep d1) * (U1 0 (x + unitStep d2))ᴴ)ᴴ +
          Lam (x + unitStep d2) * (U2 0 (x + unitStep d1))ᴴ * (U1 0 x)ᴴ) A2 +
        pairF (fun x => (U1 0 (x + unitStep d2))ᴴ * (U2 0 x)ᴴ * Lam x + (Lam (x + unitStep d2))ᴴ * (U2 0 x)ᴴ * U1 0 x)
          (fun x => A2 (x + unitStep d1)) := by
      rw [← hsh, ← hF']
      rfl
    rw [E1, E2, hF, hsh']
    simp only [up, dn]
    unfold pairF
    simp only [← Finset.sum_add_distrib]
    refine Finset.sum_congr rfl fun x _ => ?_
    simp only [add_mul, mul_add, trace_add, Complex.add_re]
    set a := U1 0 x
    set b := U2 0 (x + unitStep d1)
    set c := U1 0 (x + unitStep d2)
    set e := U2 0 x
    set l := Lam x
    set m := Lam (x + unitStep d2)
    set a' := A1 x
    set b' := A2 (x + unitStep d1)
    set c' := A1 (x + unitStep d2)
    set e' := A2 x
    have q1 : (l * (b' * cᴴ * eᴴ)).trace.re = (cᴴ * eᴴ * l * b').trace.re := by
      rw [trace_mul_comm (cᴴ * eᴴ * l), ← mul_assoc, ← mul_assoc, mul_assoc (l * b'), trace_mul_comm, ← mul_assoc, trace_mul_comm]
    have q2 : (l * (b * c'ᴴ * eᴴ)).trace.re = ((eᴴ * l * b)ᴴ * c').trace.re := by
      rw [← st, ← mul_assoc, trace_mul_comm]
      simp only [mul_assoc]
    have q3 : (l * (b * cᴴ * e'ᴴ)).trace.re = ((l * b * cᴴ)ᴴ * e').trace.re := by
      rw [← st]
      simp only [mul_assoc]
    have q4 : (m * (b'ᴴ * aᴴ * e)).trace.re = (mᴴ * eᴴ * a * b').trace.re := by
      have : mᴴ * eᴴ * a = (aᴴ * e * m)ᴴ := by simp [mul_assoc]
      rw [this, ← st, trace_mul_comm (aᴴ * e * m), ← mul_assoc (b'ᴴ), trace_mul_comm m]
      simp only [mul_assoc]
    have q5 : (m * (bᴴ * a'ᴴ * e)).trace.re = (b * mᴴ * eᴴ * a').trace.re := by
      have : b * mᴴ * eᴴ = (e * m * bᴴ)ᴴ := by simp [mul_assoc]
      rw [this, ← st, ← mul_assoc m, trace_mul_comm]
      simp only [mul_assoc]
    have q6 : (m * (bᴴ * aᴴ * e')).trace.re = (m * bᴴ * aᴴ * e').trace.re := by simp only [mul_assoc]
    rw [q1, q2, q3, q4, q5, q6]
    ring

/-- The sum over the directions in any index set. -/
noncomputable def pairI [∀ d, NeZero (L d)] {ι : Type*} [Fintype ι] (A B : ι → PSite L → Mat (k + 1)) : ℝ := ∑ i, pairF (A i) (B i)

theorem pairF_add_left [∀ d, NeZero (L d)] (A B C : PSite L → Mat (k + 1)) : pairF (fun x => A x + B x) C = pairF A C + pairF B C := by
  simp [pairF, add_mul, Finset.sum_add_distrib]

theorem pairF_add_right [∀ d, NeZero (L d)] (A B C : PSite L → Mat (k + 1)) : pairF A (fun x => B x + C x) = pairF A B + pairF A C := by
  simp [pairF, mul_add, Finset.sum_add_distrib]

theorem pairF_ite [∀ d, NeZero (L d)] (p : Prop) [Decidable p] (A B : PSite L → Mat (k + 1)) :
    pairF (fun x => if p then A x else 0) B = if p then pairF A B else 0 := by
  by_cases h : p <;> simp [pairF, h]

theorem pairI_addAt [∀ d, NeZero (L d)] {ι : Type*} [Fintype ι] [DecidableEq ι] (R A : ι → PSite L → Mat (k + 1)) (i : ι)
    (v : PSite L → Mat (k + 1)) : pairI (addAt R i v) A = pairI R A + pairF v (A i) := by
  unfold pairI addAt
  simp only [pairF_add_left, pairF_ite, Finset.sum_add_distrib]
  simp

theorem pairI_stapleLoop [∀ d, NeZero (L d)] {ι τ : Type*} [Fintype ι] [DecidableEq ι] (A : ι → PSite L → Mat (k + 1)) (i j : τ → ι)
    (v w : τ → PSite L → Mat (k + 1)) : ∀ (ps : List τ) (R : ι → PSite L → Mat (k + 1)),
    pairI (stapleForceLoop i j v w R ps) A = pairI R A + (ps.map fun p => pairF (v p) (A (i p)) + pairF (w p) (A (j p))).sum
  | [], R => by simp [stapleForceLoop]
  | p :: ps, R => by
    have := pairI_stapleLoop A i j v w ps (addAt (addAt R (i p) (v p)) (j p) (w p))
    unfold stapleForceLoop at this ⊢
    rw [List.foldl_cons, this, pairI_addAt, pairI_addAt, List.map_cons, List.sum_cons]
    ring

theorem pairI_linkLoop [∀ d, NeZero (L d)] {ι τ : Type*} [Fintype ι] [DecidableEq ι] (A : ι → PSite L → Mat (k + 1)) (i : τ → ι)
    (v : τ → PSite L → Mat (k + 1)) : ∀ (ps : List τ) (R : ι → PSite L → Mat (k + 1)),
    pairI (linkForceLoop i v R ps) A = pairI R A + (ps.map fun p => pairF (v p) (A (i p))).sum
  | [], R => by simp [linkForceLoop]
  | p :: ps, R => by
    have := pairI_linkLoop A i v ps (addAt R (i p) (v p))
    unfold linkForceLoop at this ⊢
    rw [List.foldl_cons, this, pairI_addAt, List.map_cons, List.sum_cons]
    ring

/-- Sums of staples. -/
theorem stapleFieldSum_pull [∀ d, NeZero (L d)] {τ : Type*} (Lam : PSite L → Mat (k + 1)) (f : τ → ℝ → PSite L → Mat (k + 1)) (w : τ → ℝ) :
    ∀ (ts : List τ) (s : ℝ → PSite L → Mat (k + 1)) (s' : PSite L → Mat (k + 1)), (∀ x, MDeriv (fun t => s t x) (s' x)) →
    (∀ t ∈ ts, ∃ f', (∀ x, MDeriv (fun r => f t r x) (f' x)) ∧ pairF Lam f' = w t) →
    ∃ S', (∀ x, MDeriv (fun r => stapleFieldSum ts (fun t => f t r) (s r) x) (S' x)) ∧ pairF Lam S' = pairF Lam s' + (ts.map w).sum
  | [], s, s', hs, _ => ⟨s', hs, by simp⟩
  | t :: ts, s, s', hs, h => by
    obtain ⟨f', h1, h2⟩ := h t (List.mem_cons_self ..)
    obtain ⟨S', g1, g2⟩ := stapleFieldSum_pull Lam f w ts (fun r x => s r x + f t r x) (fun x => s' x + f' x) (fun x => (hs x).add (h1 x))
      fun t' ht' => h t' (List.mem_cons_of_mem _ ht')
    refine ⟨S', g1, ?_⟩
    rw [g2, pairF_add_right, h2, List.map_cons, List.sum_cons]
    ring

theorem sum_flatMap_map {α β : Type*} (l : List α) (f : α → List β) (g : β → ℝ) :
    ((l.flatMap f).map g).sum = (l.map fun a => ((f a).map g).sum).sum := by
  induction l with
  | nil => simp
  | cons a l ih => simp [List.flatMap_cons, List.map_append, List.sum_append, ih]

theorem sum_finRange_filter {m : ℕ} (p : Fin m → Prop) [DecidablePred p] (g : Fin m → ℝ) :
    (((List.finRange m).filter (fun i => decide (p i))).map g).sum = ∑ i, if p i then g i else 0 := by
  have : ∀ l : List (Fin m), ((l.filter (fun i => decide (p i))).map g).sum = (l.map fun i => if p i then g i else 0).sum := by
    intro l
    induction l with
    | nil => rfl
    | cons a l ih => by_cases h : p a <;> simp [List.filter_cons, h, ih]
  rw [this, ← List.sum_ofFn, List.ofFn_eq_map]

theorem sum_smearPairs {m : ℕ} (g : Fin m × Fin m → ℝ) :
    ((smearPairs m).map g).sum = ∑ d, (((List.finRange m).filter (· ≠ d)).map fun e => g (d, e)).sum := by
  unfold smearPairs
  rw [sum_flatMap_map, ← List.sum_ofFn, List.ofFn_eq_map]
  simp [List.map_map, Function.comp_def]

/-- The derivative of all smeared links `smearLink U S` from that of the links and staples. -/
theorem smearField_pull [∀ d, NeZero (L d)] (steps : ℕ) (c : ℝ) (F : PSite L → Mat (k + 1)) {U S : ℝ → PSite L → Mat (k + 1)}
    {A S' : PSite L → Mat (k + 1)} (hU : ∀ x, MDeriv (fun t => U t x) (A x)) (hS : ∀ x, MDeriv (fun t => S t x) (S' x)) :
    ∃ V' : PSite L → Mat (k + 1), (∀ x, MDeriv (fun t => smearLink steps c (U t x) (S t x)) (V' x)) ∧
      pairF F V' = pairF (fun x => (smearLinkForce steps c (F x) (U 0 x) (S 0 x)).1) A +
        pairF (fun x => (smearLinkForce steps c (F x) (U 0 x) (S 0 x)).2) S' := by
  choose V' h1 h2 using fun x => smearLink_pull steps c (F x) (hU x) (hS x)
  refine ⟨V', h1, ?_⟩
  unfold pairF
  rw [← Finset.sum_add_distrib]
  exact Finset.sum_congr rfl fun x _ => h2 x

theorem hmcStoutStep_pull [∀ d, NeZero (L d)] (steps : ℕ) (c : ℝ) (F : GField L (k + 1)) {U : ℝ → GField L (k + 1)} {A : GField L (k + 1)}
    (hU : FieldDeriv U A) :
    ∃ V', FieldDeriv (fun t => hmcStoutStep steps c (U t)) V' ∧ pairG F V' = pairG (hmcStoutForceStep steps c (U 0) F) A := by
  obtain ⟨lam, hlam⟩ : ∃ lam : GField L (k + 1), lam = fun d x => (smearLinkForce steps c (F d x) (U 0 d x) (stapleAll (U 0) d x)).2 := ⟨_, rfl⟩
  obtain ⟨r, hr⟩ : ∃ r : GField L (k + 1), r = fun d x => (smearLinkForce steps c (F d x) (U 0 d x) (stapleAll (U 0) d x)).1 := ⟨_, rfl⟩
  obtain ⟨g, hg⟩ : ∃ g : Fin n × Fin n → ℝ, g = fun p => pairF (stapleDer1 (U 0 p.2) (lam p.1) p.1 p.2) (A p.1) +
    pairF (stapleDer2 (U 0 p.1) (U 0 p.2) (lam p.1) p.1 p.2) (A p.2) := ⟨_, rfl⟩
  have hS : ∀ d, ∃ S' : PSite L → Mat (k + 1), (∀ x, MDeriv (fun t => stapleAll (U t) d x) (S' x)) ∧
      pairF (lam d) S' = (((List.finRange n).filter (· ≠ d)).map fun e => g (d, e)).sum := by
    intro d
    obtain ⟨S', h1, h2⟩ := stapleFieldSum_pull (lam d) (fun e r => staple2 (U r d) (U r e) d e) (fun e => g (d, e))
      ((List.finRange n).filter (· ≠ d)) (fun _ _ => 0) (fun _ => 0) (fun _ => MDeriv.const 0) (by
        intro e _
        rw [hg]
        exact staple2_pull d e (lam d) (fun x => hU d x) (fun x => hU e x))
    have h0 : pairF (lam d) (fun _ => 0) = 0 := by simp [pairF]
    exact ⟨S', h1, by rw [h2, h0, zero_add]⟩
  choose S' hS1 hS2 using hS
  choose V' hV1 hV2 using fun d => smearField_pull steps c (F d) (fun x => hU d x) (hS1 d)
  refine ⟨V', fun d x => hV1 d x, ?_⟩
  have e : hmcStoutForceStep steps c (U 0) F = stapleForceLoop Prod.fst Prod.snd (fun p => stapleDer1 (U 0 p.2) (lam p.1) p.1 p.2)
      (fun p => stapleDer2 (U 0 p.1) (U 0 p.2) (lam p.1) p.1 p.2) r (smearPairs n) := by
    rw [hlam, hr]
    rfl
  have e1 : ∀ B : GField L (k + 1), pairG B A = pairI B A := fun _ => rfl
  rw [e, e1, pairI_stapleLoop]
  have e2 : pairG F V' = ∑ d, (pairF (r d) (A d) + pairF (lam d) (S' d)) := by
    unfold pairG
    refine Finset.sum_congr rfl fun d _ => ?_
    rw [hV2 d, hr, hlam]
  have e3 : ((smearPairs n).map fun p => pairF (stapleDer1 (U 0 p.2) (lam p.1) p.1 p.2) (A p.1) +
      pairF (stapleDer2 (U 0 p.1) (U 0 p.2) (lam p.1) p.1 p.2) (A p.2)).sum = ((smearPairs n).map g).sum := by rw [hg]
  rw [e2, Finset.sum_add_distrib, e3, sum_smearPairs g]
  congr 1
  exact Finset.sum_congr rfl fun d _ => hS2 d

theorem hmcStout_pull [∀ d, NeZero (L d)] (steps : ℕ) (c : ℝ) {U : ℝ → GField L (k + 1)} {A : GField L (k + 1)} (hU : FieldDeriv U A) :
    ∀ (m : ℕ) (F : GField L (k + 1)), ∃ V', FieldDeriv (fun t => hmcStout steps c m (U t)) V' ∧
      pairG F V' = pairG (hmcStoutForce steps c (U 0) m F) A
  | 0, F => ⟨A, hU, rfl⟩
  | m + 1, F => by
    obtain ⟨W, h1, h2⟩ := hmcStout_pull steps c hU m (hmcStoutForceStep steps c (hmcStout steps c m (U 0)) F)
    obtain ⟨V', g1, g2⟩ := hmcStoutStep_pull steps c F h1
    exact ⟨V', g1, g2.trans h2⟩

variable {L4 : Fin 4 → ℕ}

theorem fourthDir_ne {mu nu rho : Fin 4} (h1 : mu ≠ nu) (h2 : rho ≠ mu) (h3 : rho ≠ nu) :
    fourthDir mu nu rho ≠ mu ∧ fourthDir mu nu rho ≠ rho := by
  revert mu nu rho
  decide

/-- Sum over the pairs of different directions, as a sum over the index `(nu, mu)`. -/
theorem sum_pairs_offdiag {m : ℕ} (f : Fin m × Fin m → ℝ) (h : ∀ i, f (i, i) = 0) :
    ∑ p, f p = ((smearPairs m).map fun p => f (p.2, p.1)).sum := by
  rw [sum_smearPairs (fun p => f (p.2, p.1)), Fintype.sum_prod_type_right]
  refine Finset.sum_congr rfl fun d _ => ?_
  rw [sum_finRange_filter]
  refine Finset.sum_congr rfl fun e _ => ?_
  by_cases he : e = d
  · subst he
    simp [h]
  · simp [he]

theorem pairI_zero [∀ d, NeZero (L d)] {ι : Type*} [Fintype ι] (A : ι → PSite L → Mat (k + 1)) : pairI (fun _ _ => 0) A = 0 := by
  simp [pairI, pairF]

theorem listsum_add {α : Type*} (l : List α) (f g : α → ℝ) : (l.map fun a => f a + g a).sum = (l.map f).sum + (l.map g).sum := by
  induction l with
  | nil => simp
  | cons a l ih => simp only [List.map_cons, List.sum_cons, ih]; ring

/-- One level of smeared links with the two indices, from the derivatives of its staples. -/
theorem hexLevel_pull [∀ d, NeZero (L4 d)] (steps : ℕ) (c : ℝ) (F : Fin 4 × Fin 4 → PSite L4 → Mat (k + 1)) {U : ℝ → GField L4 (k + 1)}
    {A : GField L4 (k + 1)} (hU : FieldDeriv U A) {S : ℝ → Fin 4 × Fin 4 → PSite L4 → Mat (k + 1)} {S' : Fin 4 × Fin 4 → PSite L4 → Mat (k + 1)}
    (hS : ∀ p x, MDeriv (fun t => S t p x) (S' p x)) (un : Fin 4 → PSite L4 → Mat (k + 1)) :
    ∃ D : Fin 4 × Fin 4 → PSite L4 → Mat (k + 1),
      (∀ p x, MDeriv (fun t => (if p.1 = p.2 then un p.1 else fun x => smearLink steps c (U t p.2 x) (S t p x)) x) (D p x)) ∧
      pairI F D = ((smearPairs 4).map fun p => pairF (fun x => (smearLinkForce steps c (F (p.2, p.1) x) (U 0 p.1 x) (S 0 (p.2, p.1) x)).1) (A p.1)).sum +
        ((smearPairs 4).map fun p => pairF (fun x => (smearLinkForce steps c (F (p.2, p.1) x) (U 0 p.1 x) (S 0 (p.2, p.1) x)).2) (S' (p.2, p.1))).sum := by
  choose V h1 h2 using fun p : Fin 4 × Fin 4 => smearField_pull steps c (F p) (fun x => hU p.2 x) (hS p)
  refine ⟨fun p => if p.1 = p.2 then fun _ => 0 else V p, fun p x => ?_, ?_⟩
  · by_cases hp : p.1 = p.2
    · simp only [hp, if_true]
      exact MDeriv.const _
    · simp only [hp, if_false]
      exact h1 p x
  · unfold pairI
    rw [sum_pairs_offdiag _ (fun i => by simp [pairF]), ← listsum_add]
    congr 1
    refine List.map_congr_left fun p hp => ?_
    have hne : p.2 ≠ p.1 := by
      unfold smearPairs at hp
      simp only [List.mem_flatMap, List.mem_map, List.mem_filter] at hp
      obtain ⟨a, -, b, ⟨-, hb⟩, rfl⟩ := hp
      simpa using hb
    simp only [if_neg hne]
    exact h2 (p.2, p.1)

theorem hexSmear_pull [∀ d, NeZero (L4 d)] (h : Hex L4 k) (F : GField L4 (k + 1)) {U : ℝ → GField L4 (k + 1)} {A : GField L4 (k + 1)}
    (hU : FieldDeriv U A) :
    ∃ V', FieldDeriv (fun t => hexSmear h (U t)) V' ∧ pairG F V' = pairG (hexForce h (U 0) F) A := by
  -- level 3
  have hS3 : ∀ p : Fin 4 × Fin 4, ∃ S' : PSite L4 → Mat (k + 1), (∀ x, MDeriv (fun t => hexStaples3 (U t) p x) (S' x)) ∧
      pairF (fun x => (hexZ3 h (U 0) F p x).2) S' = pairF (stapleDer1 (U 0 p.1) (fun x => (hexZ3 h (U 0) F p x).2) p.2 p.1) (A p.2) +
        pairF (stapleDer2 (U 0 p.2) (U 0 p.1) (fun x => (hexZ3 h (U 0) F p x).2) p.2 p.1) (A p.1) := fun p =>
    staple2_pull p.2 p.1 _ (fun x => hU p.2 x) (fun x => hU p.1 x)
  choose S3 hS3d hS3s using hS3
  obtain ⟨D3, hD3, hD3s⟩ := hexLevel_pull h.steps h.c3 (hexResult2 h (U 0) F) hU hS3d h.unset3
  -- level 2
  have hS2 : ∀ p : Fin 4 × Fin 4, ∃ S' : PSite L4 → Mat (k + 1), (∀ x, MDeriv (fun t => hexStaples2 h (U t) p x) (S' x)) ∧
      pairF (fun x => (hexZ2 h (U 0) F p x).2) S' = ((hexRho p.2 p.1).map fun rho =>
        pairF (stapleDer1 (hexLevel3 h (U 0) (fourthDir p.2 p.1 rho, rho)) (fun x => (hexZ2 h (U 0) F p x).2) p.2 rho)
          (D3 (fourthDir p.2 p.1 rho, p.2)) +
        pairF (stapleDer2 (hexLevel3 h (U 0) (fourthDir p.2 p.1 rho, p.2)) (hexLevel3 h (U 0) (fourthDir p.2 p.1 rho, rho))
          (fun x => (hexZ2 h (U 0) F p x).2) p.2 rho) (D3 (fourthDir p.2 p.1 rho, rho))).sum := by
    intro p
    obtain ⟨S', h1, h2⟩ := stapleFieldSum_pull (fun x => (hexZ2 h (U 0) F p x).2)
      (fun rho t => staple2 (hexLevel3 h (U t) (fourthDir p.2 p.1 rho, p.2)) (hexLevel3 h (U t) (fourthDir p.2 p.1 rho, rho)) p.2 rho)
      _ (hexRho p.2 p.1) (fun _ _ => 0) (fun _ => 0) (fun _ => MDeriv.const 0) (fun rho _ =>
        staple2_pull p.2 rho (fun x => (hexZ2 h (U 0) F p x).2) (fun x => hD3 (fourthDir p.2 p.1 rho, p.2) x)
          (fun x => hD3 (fourthDir p.2 p.1 rho, rho) x))
    have h0 : pairF (fun x => (hexZ2 h (U 0) F p x).2) (fun _ => 0) = 0 := by simp [pairF]
    exact ⟨S', h1, by rw [h2, h0, zero_add]⟩
  choose S2 hS2d hS2s using hS2
  obtain ⟨D2, hD2, hD2s⟩ := hexLevel_pull h.steps h.c2 (hexResult1 h (U 0) F) hU hS2d h.unset2
  -- level 1
  have hS1 : ∀ mu : Fin 4, ∃ S' : PSite L4 → Mat (k + 1), (∀ x, MDeriv (fun t => hexStaples1 h (U t) mu x) (S' x)) ∧
      pairF (fun x => (hexZ1 h (U 0) F mu x).2) S' = (((List.finRange 4).filter (· ≠ mu)).map fun nu =>
        pairF (stapleDer1 (hexLevel2 h (U 0) (mu, nu)) (fun x => (hexZ1 h (U 0) F mu x).2) mu nu) (D2 (nu, mu)) +
        pairF (stapleDer2 (hexLevel2 h (U 0) (nu, mu)) (hexLevel2 h (U 0) (mu, nu)) (fun x => (hexZ1 h (U 0) F mu x).2) mu nu)
          (D2 (mu, nu))).sum := by
    intro mu
    obtain ⟨S', h1, h2⟩ := stapleFieldSum_pull (fun x => (hexZ1 h (U 0) F mu x).2)
      (fun nu t => staple2 (hexLevel2 h (U t) (nu, mu)) (hexLevel2 h (U t) (mu, nu)) mu nu)
      _ ((List.finRange 4).filter (· ≠ mu)) (fun _ _ => 0) (fun _ => 0) (fun _ => MDeriv.const 0) (fun nu _ =>
        staple2_pull mu nu (fun x => (hexZ1 h (U 0) F mu x).2) (fun x => hD2 (nu, mu) x) (fun x => hD2 (mu, nu) x))
    have h0 : pairF (fun x => (hexZ1 h (U 0) F mu x).2) (fun _ => 0) = 0 := by simp [pairF]
    exact ⟨S', h1, by rw [h2, h0, zero_add]⟩
  choose S1 hS1d hS1s using hS1
  choose V hV1 hV2 using fun mu => smearField_pull h.steps h.c1 (F mu) (fun x => hU mu x) (hS1d mu)
  refine ⟨V, fun mu x => hV1 mu x, ?_⟩
  have e1 : ∀ B : GField L4 (k + 1), pairG B A = pairI B A := fun _ => rfl
  rw [e1]
  unfold hexForce
  rw [pairI_stapleLoop, pairI_linkLoop, pairI_linkLoop]
  have t1 : pairG F V = pairI (fun mu x => (hexZ1 h (U 0) F mu x).1) A + ∑ mu, pairF (fun x => (hexZ1 h (U 0) F mu x).2) (S1 mu) := by
    unfold pairG pairI
    rw [← Finset.sum_add_distrib]
    exact Finset.sum_congr rfl fun mu _ => hV2 mu
  have t2 : ∑ mu, pairF (fun x => (hexZ1 h (U 0) F mu x).2) (S1 mu) = pairI (hexResult1 h (U 0) F) D2 := by
    unfold hexResult1
    rw [pairI_stapleLoop, pairI_zero, zero_add, sum_smearPairs]
    exact Finset.sum_congr rfl fun mu _ => hS1s mu
  have t3 : ((smearPairs 4).map fun p => pairF (fun x => (hexZ2 h (U 0) F (p.2, p.1) x).2) (S2 (p.2, p.1))).sum =
      pairI (hexResult2 h (U 0) F) D3 := by
    unfold hexResult2 hexTriples
    rw [pairI_stapleLoop, pairI_zero, zero_add, sum_flatMap_map]
    congr 1
    refine List.map_congr_left fun p _ => ?_
    rw [hS2s, List.map_map]
    rfl
  have t4 : ((smearPairs 4).map fun p => pairF (fun x => (hexZ3 h (U 0) F (p.2, p.1) x).2) (S3 (p.2, p.1))).sum =
      ((smearPairs 4).map fun p => pairF (stapleDer1 (U 0 p.2) (fun x => (hexZ3 h (U 0) F (p.2, p.1) x).2) p.1 p.2) (A p.1) +
        pairF (stapleDer2 (U 0 p.1) (U 0 p.2) (fun x => (hexZ3 h (U 0) F (p.2, p.1) x).2) p.1 p.2) (A p.2)).sum := by
    congr 1
    exact List.map_congr_left fun p _ => hS3s (p.2, p.1)
  have t5 : pairI (hexResult1 h (U 0) F) D2 =
      ((smearPairs 4).map fun p => pairF (fun x => (hexZ2 h (U 0) F (p.2, p.1) x).1) (A p.1)).sum +
        ((smearPairs 4).map fun p => pairF (fun x => (hexZ2 h (U 0) F (p.2, p.1) x).2) (S2 (p.2, p.1))).sum := hD2s
  have t6 : pairI (hexResult2 h (U 0) F) D3 =
      ((smearPairs 4).map fun p => pairF (fun x => (hexZ3 h (U 0) F (p.2, p.1) x).1) (A p.1)).sum +
        ((smearPairs 4).map fun p => pairF (fun x => (hexZ3 h (U 0) F (p.2, p.1) x).2) (S3 (p.2, p.1))).sum := hD3s
  rw [t1, t2, t5, t3, t6, t4]
  ring

theorem antiProj_star (A : Mat (k + 1)) : (antiProj A)ᴴ = -antiProj A := by
  unfold antiProj
  have h2 : (Aᴴ).trace = star A.trace := trace_conjTranspose A
  rw [conjTranspose_sub, conjTranspose_smul, conjTranspose_smul, conjTranspose_sub, conjTranspose_conjTranspose, conjTranspose_one, trace_smul,
    trace_sub, h2]
  have e1 : star (1 / 2 : ℂ) = 1 / 2 := by simp
  have e2 : star ((1 / 2 : ℂ) • (A.trace - star A.trace) / ((k + 1 : ℕ) : ℂ)) = -((1 / 2 : ℂ) • (A.trace - star A.trace) / ((k + 1 : ℕ) : ℂ)) := by
    simp only [smul_eq_mul, star_div₀, star_mul', star_sub, star_star, e1, star_natCast]
    ring
  rw [e1, e2, neg_sub, neg_smul, ← neg_sub A, smul_neg]
  abel

theorem antiProj_trace (A : Mat (k + 1)) : (antiProj A).trace = 0 := by
  unfold antiProj
  have : ((k + 1 : ℕ) : ℂ) ≠ 0 := by exact_mod_cast Nat.succ_ne_zero k
  rw [trace_sub, trace_smul _ (1 : Mat (k + 1)), trace_one, Fintype.card_fin, smul_eq_mul, div_mul_cancel₀ _ this, sub_self]

theorem antiProj_alg {A : Mat (k + 1)} (h1 : Aᴴ = -A) (h2 : A.trace = 0) : antiProj A = A := by
  unfold antiProj
  have : (1 / 2 : ℂ) • (A - Aᴴ) = A := by
    rw [h1, sub_neg_eq_add, ← two_smul ℂ A, smul_smul]
    norm_num
  rw [this, h2, zero_div, zero_smul, sub_zero]

section Gauge

variable {g : PSite L → Mat (k + 1)} (hg : IsGauge g) (U : GField L (k + 1))
include hg

theorem staple2_gauge (d e : Fin n) (x : PSite L) :
    staple2 (gaugeT g U d) (gaugeT g U e) d e x = g (x + unitStep d) * staple2 (U d) (U e) d e x * (g x)ᴴ := by
  have hl : ∀ (x : PSite L) (M : Mat (k + 1)), (g x)ᴴ * (g x * M) = M := fun x M => by rw [← mul_assoc, hg.left, one_mul]
  have e1 : x + Pi.single d 1 + Pi.single e 1 = x + Pi.single e 1 + Pi.single d 1 := add_right_comm _ _ _
  have e2 : x - Pi.single e 1 + Pi.single d 1 + Pi.single e 1 = x + Pi.single d 1 := by abel
  have e3 : x - Pi.single e 1 + Pi.single e 1 = x := by abel
  unfold staple2 gaugeT unitStep
  simp only [zero_add, conjTranspose_mul, conjTranspose_conjTranspose, mul_assoc, mul_add, add_mul, e1, e2, e3, hl]

theorem stapleAll_gauge (d : Fin n) (x : PSite L) : stapleAll (gaugeT g U) d x = g (x + unitStep d) * stapleAll U d x * (g x)ᴴ := by
  have h : ∀ (l : List (Fin n)) (s s' : PSite L → Mat (k + 1)), (∀ x, s' x = g (x + unitStep d) * s x * (g x)ᴴ) →
      ∀ x, stapleFieldSum l (fun e => staple2 (gaugeT g U d) (gaugeT g U e) d e) s' x =
        g (x + unitStep d) * stapleFieldSum l (fun e => staple2 (U d) (U e) d e) s x * (g x)ᴴ := by
    intro l
    induction l with
    | nil => exact fun _ _ hs => hs
    | cons e l ih =>
      intro s s' hs
      refine ih (fun x => s x + staple2 (U d) (U e) d e x) _ fun x => ?_
      show s' x + staple2 (gaugeT g U d) (gaugeT g U e) d e x = _
      rw [hs, staple2_gauge hg, mul_add, add_mul]
  exact h _ _ _ (fun x => by simp) x

end Gauge

theorem conj_pow {g : Mat (k + 1)} (h : gᴴ * g = 1) (h' : g * gᴴ = 1) (A : Mat (k + 1)) (j : ℕ) : (g * A * gᴴ) ^ j = g * A ^ j * gᴴ := by
  induction j with
  | zero => simp [h']
  | succ j ih =>
    have hl : ∀ M : Mat (k + 1), gᴴ * (g * M) = M := fun M => by rw [← mul_assoc, h, one_mul]
    rw [pow_succ, ih, pow_succ]
    simp only [mul_assoc, hl]

theorem smear_exp_gauge (steps : ℕ) (c : ℝ) (g : PSite L → Mat (k + 1)) (hg : IsGauge g) (U : GField L (k + 1)) (d : Fin n)
    (x : PSite L) :
    matExp (𝕜 := ℂ) (k := k) steps (antiProj (((-c : ℝ) : ℂ) • (gaugeT g U d x * stapleAll (gaugeT g U) d x))) =
      g x * matExp (𝕜 := ℂ) (k := k) steps (antiProj (((-c : ℝ) : ℂ) • (U d x * stapleAll U d x))) * (g x)ᴴ := by
  have hl : ∀ (x : PSite L) (M : Mat (k + 1)), (g x)ᴴ * (g x * M) = M := fun x M => by rw [← mul_assoc, hg.left, one_mul]
  have e1 : ((-c : ℝ) : ℂ) • (gaugeT g U d x * stapleAll (gaugeT g U) d x) = g x * (((-c : ℝ) : ℂ) • (U d x * stapleAll U d x)) * (g x)ᴴ := by
    rw [stapleAll_gauge hg]
    unfold gaugeT unitStep
    simp only [mul_assoc, hl, mul_smul_comm, smul_mul_assoc]
  have e2 : ∀ A : Mat (k + 1), antiProj (g x * A * (g x)ᴴ) = g x * antiProj A * (g x)ᴴ := by
    intro A
    unfold antiProj
    have e3 : (g x * A * (g x)ᴴ)ᴴ = g x * Aᴴ * (g x)ᴴ := by simp [mul_assoc]
    have e4 : (1 / 2 : ℂ) • (g x * A * (g x)ᴴ - g x * Aᴴ * (g x)ᴴ) = g x * ((1 / 2 : ℂ) • (A - Aᴴ)) * (g x)ᴴ := by
      simp only [mul_smul_comm, smul_mul_assoc, mul_sub, sub_mul]
    rw [e3, e4, trace_mul_comm, ← mul_assoc, hg.left, one_mul]
    simp only [mul_sub, sub_mul, mul_smul_comm, smul_mul_assoc, mul_one, hg.right]
  have e5 : ∀ A : Mat (k + 1), taylor (𝕜 := ℂ) (k := k) (g x * A * (g x)ᴴ) (steps + 1) = g x * taylor (𝕜 := ℂ) (k := k) A (steps + 1) * (g x)ᴴ := by
    intro A
    unfold taylor
    simp only [conj_pow (hg.left x) (hg.right x), Finset.mul_sum, Finset.sum_mul, mul_smul_comm, smul_mul_assoc]
  rw [e1, e2, matExp_eq, matExp_eq, e5]

end Hila
