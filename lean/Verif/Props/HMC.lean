import Verif.Model.HMC
import Mathlib.Algebra.BigOperators.Group.List.Basic
import Mathlib.Algebra.Order.Ring.Rat
import Mathlib.Analysis.Normed.Algebra.MatrixExponential
import Mathlib.Analysis.SpecialFunctions.Exponential
import Mathlib.Data.Complex.Basic
import Mathlib.Analysis.Complex.Basic
import Mathlib.Tactic.FieldSimp
import Mathlib.Tactic.Ring
import Mathlib.Tactic.Linarith
import Mathlib.Tactic.NormNum

/-!
# C26, C39: integrators and the HMC update
-/

namespace Hila

set_option linter.unusedSectionVars false

section field

variable {K : Type} [Field K]

/-! ### The elementary updates of a hierarchy -/

/-- Shape of a hierarchy: kinds of integrators and numbers of steps. -/
inductive Shape
  | base
  | leap (lower : Shape) (n : ℤ)
  | second (lower : Shape) (n : ℤ)

/-- Number of levels with a force. -/
def Shape.levels : Shape → ℕ
  | .base => 0
  | .leap l _ => l.levels + 1
  | .second l _ => l.levels + 1

/-- At least one step everywhere. -/
def Shape.Positive : Shape → Prop
  | .base => True
  | .leap l n => l.Positive ∧ 1 ≤ n
  | .second l n => l.Positive ∧ 1 ≤ n

/-- The hierarchy of this shape with momentum action `m` and action term `a k` at level `k`. -/
def Shape.build {σ : Type} (m : MomentumTerm K σ) (a : ℕ → ActionTerm K σ) : Shape → Integrator K σ
  | .base => .momentum m
  | .leap l n => .leapfrog (a l.levels) (l.build m a) n
  | .second l n => .o2 (a l.levels) (l.build m a) n

/-- An elementary update: `none` moves the fields with the momenta, `some k` changes the momenta with the
force of level `k`; the number is the time. -/
abbrev Elementary (K : Type) := Option ℕ × K

/-- Executing elementary updates in order. -/
def runElementary {σ : Type} (m : MomentumTerm K σ) (a : ℕ → ActionTerm K σ) (l : List (Elementary K))
    (s : σ) : σ :=
  l.foldl (fun s e => match e.1 with
    | none => m.step e.2 s
    | some k => (a k).forceStep e.2 s) s

/-- Total time of the updates of one kind. -/
def totalTime (t : Option ℕ) (l : List (Elementary K)) : K :=
  ((l.filter fun e => decide (e.1 = t)).map Prod.snd).sum

theorem totalTime_append (t : Option ℕ) (l1 l2 : List (Elementary K)) :
    totalTime t (l1 ++ l2) = totalTime t l1 + totalTime t l2 := by
  simp [totalTime]

theorem totalTime_replicate (t : Option ℕ) (l : List (Elementary K)) (n : ℕ) :
    totalTime t (List.replicate n l).flatten = n * totalTime t l := by
  induction n with
  | zero => simp [totalTime]
  | succ n ih =>
    rw [List.replicate_succ, List.flatten_cons, totalTime_append, ih]
    push_cast
    ring

theorem runElementary_append {σ : Type} (m : MomentumTerm K σ) (a : ℕ → ActionTerm K σ)
    (l1 l2 : List (Elementary K)) (s : σ) :
    runElementary m a (l1 ++ l2) s = runElementary m a l2 (runElementary m a l1 s) := by
  simp [runElementary]

theorem runElementary_iterate {σ : Type} (m : MomentumTerm K σ) (a : ℕ → ActionTerm K σ)
    (l : List (Elementary K)) (f : σ → σ) (hf : ∀ s, f s = runElementary m a l s) (n : ℕ) (s : σ) :
    f^[n] s = runElementary m a (List.replicate n l).flatten s := by
  induction n generalizing s with
  | zero => rfl
  | succ n ih =>
    rw [Function.iterate_succ_apply, ih, hf, List.replicate_succ, List.flatten_cons, runElementary_append]

/-- **C26 (times and symmetry).** For every hierarchy with at least one step per level, a step of length
`eps` is a fixed sequence of elementary updates, the same read backwards, in which the moves of the fields
and, at each level, the force updates add up to `eps`. -/
theorem C26_elementary_updates [CharZero K] (sh : Shape) (hsh : sh.Positive) (eps : K) :
    ∃ l : List (Elementary K),
      (∀ (σ : Type) (m : MomentumTerm K σ) (a : ℕ → ActionTerm K σ) (s : σ),
        (sh.build m a).step eps s = runElementary m a l s) ∧
      l.reverse = l ∧ totalTime none l = eps ∧ (∀ k < sh.levels, totalTime (some k) l = eps) ∧
      ∀ k, sh.levels ≤ k → totalTime (some k) l = 0 := by
  induction sh generalizing eps with
  | base =>
    refine ⟨[(none, eps)], fun σ m a s => rfl, rfl, by simp [totalTime], fun k hk => ?_, fun k _ => by
      simp [totalTime]⟩
    simp [Shape.levels] at hk
  | leap low n ih =>
    obtain ⟨hlow, hn⟩ := hsh
    have hn0 : (n : K) ≠ 0 := by exact_mod_cast (by omega : n ≠ 0)
    have hnn : ((n.toNat : ℕ) : K) = (n : K) := by
      have : ((n.toNat : ℕ) : ℤ) = n := Int.toNat_of_nonneg (by omega)
      exact_mod_cast this
    obtain ⟨l, h1, h2, h3, h4, h5⟩ := ih hlow (1 / 2 * eps / (n : K))
    have half : (n : K) * (1 / 2 * eps / (n : K)) = eps / 2 := by field_simp
    have hrev : (List.replicate n.toNat l).flatten.reverse = (List.replicate n.toNat l).flatten := by
      rw [List.reverse_flatten]; simp [h2]
    refine ⟨(List.replicate n.toNat l).flatten ++ [(some low.levels, eps)] ++
      (List.replicate n.toNat l).flatten, ?_, ?_, ?_, ?_, ?_⟩
    · intro σ m a s
      show (Integrator.leapfrog _ _ _).step eps s = _
      unfold Integrator.step
      dsimp only
      rw [runElementary_append, runElementary_append,
        runElementary_iterate m a l _ (h1 σ m a), runElementary_iterate m a l _ (h1 σ m a)]
      rfl
    · simp only [List.reverse_append, hrev, List.reverse_cons, List.reverse_nil, List.nil_append,
        List.append_assoc]
    · rw [totalTime_append, totalTime_append, totalTime_replicate, h3, hnn, half]
      simp [totalTime]
    · intro k hk
      rw [totalTime_append, totalTime_append, totalTime_replicate, hnn]
      by_cases hkl : k < low.levels
      · rw [h4 k hkl, half]
        have : low.levels ≠ k := by omega
        simp [totalTime, this]
      · have e : k = low.levels := by simp only [Shape.levels] at hk; omega
        subst e
        rw [h5 _ (le_refl _)]
        simp [totalTime]
    · intro k hk
      simp only [Shape.levels] at hk
      rw [totalTime_append, totalTime_append, totalTime_replicate, h5 k (by omega)]
      have : low.levels ≠ k := by omega
      simp [totalTime, this]
  | second low n ih =>
    obtain ⟨hlow, hn⟩ := hsh
    have hn0 : (n : K) ≠ 0 := by exact_mod_cast (by omega : n ≠ 0)
    have hnn : ((n.toNat : ℕ) : K) = (n : K) := by
      have : ((n.toNat : ℕ) : ℤ) = n := Int.toNat_of_nonneg (by omega)
      exact_mod_cast this
    obtain ⟨l, h1, h2, h3, h4, h5⟩ := ih hlow (eps * Integrator.o2zeta / (n : K))
    obtain ⟨l', h1', h2', h3', h4', h5'⟩ := ih hlow ((eps - 2 * (eps * Integrator.o2zeta)) / (n : K))
    have hrev : (List.replicate n.toNat l).flatten.reverse = (List.replicate n.toNat l).flatten := by
      rw [List.reverse_flatten]; simp [h2]
    have hrev' : (List.replicate n.toNat l').flatten.reverse = (List.replicate n.toNat l').flatten := by
      rw [List.reverse_flatten]; simp [h2']
    have sum : (n : K) * (eps * Integrator.o2zeta / (n : K)) +
        (n : K) * ((eps - 2 * (eps * Integrator.o2zeta)) / (n : K)) +
        (n : K) * (eps * Integrator.o2zeta / (n : K)) = eps := by
      rw [mul_div_cancel₀ _ hn0, mul_div_cancel₀ _ hn0]; ring
    refine ⟨(List.replicate n.toNat l).flatten ++ [(some low.levels, 1 / 2 * eps)] ++
      (List.replicate n.toNat l').flatten ++ [(some low.levels, 1 / 2 * eps)] ++
      (List.replicate n.toNat l).flatten, ?_, ?_, ?_, ?_, ?_⟩
    · intro σ m a s
      show (Integrator.o2 _ _ _).step eps s = _
      unfold Integrator.step
      dsimp only
      rw [runElementary_append, runElementary_append, runElementary_append, runElementary_append,
        runElementary_iterate m a l _ (h1 σ m a), runElementary_iterate m a l _ (h1 σ m a),
        runElementary_iterate m a l' _ (h1' σ m a)]
      rfl
    · simp only [List.reverse_append, hrev, hrev', List.reverse_cons, List.reverse_nil, List.nil_append,
        List.append_assoc]
    · simp only [totalTime_append, totalTime_replicate, h3, h3', hnn]
      simp only [totalTime, List.filter_cons, List.filter_nil, reduceCtorEq, decide_false,
        Bool.false_eq_true, if_false, List.map_nil, List.sum_nil, add_zero]
      exact sum
    · intro k hk
      simp only [totalTime_append, totalTime_replicate, hnn]
      by_cases hkl : k < low.levels
      · rw [h4 k hkl, h4' k hkl]
        have : low.levels ≠ k := by omega
        simp only [totalTime, List.filter_cons, List.filter_nil, Option.some.injEq, this, decide_false,
          Bool.false_eq_true, if_false, List.map_nil, List.sum_nil, add_zero]
        exact sum
      · have e : k = low.levels := by simp only [Shape.levels] at hk; omega
        subst e
        rw [h5 _ (le_refl _), h5' _ (le_refl _)]
        simp only [totalTime, List.filter_cons, List.filter_nil, decide_true, if_true, List.map_cons,
          List.map_nil, List.sum_cons, List.sum_nil, add_zero, mul_zero, zero_add]
        ring
    · intro k hk
      simp only [Shape.levels] at hk
      simp only [totalTime_append, totalTime_replicate, h5 k (by omega), h5' k (by omega)]
      have : low.levels ≠ k := by omega
      simp [totalTime, this]

/-- **C26, number of steps zero or negative.** Then the lower levels are not run at all: only the force of
this level acts, so the fields do not move. -/
theorem C26_no_substeps {σ : Type} (a : ActionTerm K σ) (l : Integrator K σ) (n : ℤ) (hn : n ≤ 0) (eps : K)
    (s : σ) :
    (Integrator.leapfrog a l n).step eps s = a.forceStep eps s ∧
    (Integrator.o2 a l n).step eps s = a.forceStep (1 / 2 * eps) (a.forceStep (1 / 2 * eps) s) := by
  have : n.toNat = 0 := by omega
  constructor
  · unfold Integrator.step; simp [this]
  · unfold Integrator.step; simp [this]

/-! ### Reversibility -/

section gauge

variable {ι G A X : Type} [Monoid G] [AddCommGroup A] [Module K A]

/-- Hierarchies of action terms of one gauge field (and its pseudofermions). -/
inductive GaugeHierarchy (ex : A → G) : Integrator K (GaugeState ι G A X) → Prop
  | momentum (norm2 : (ι → A) → K) (rnd : GaugeState ι G A X → ι → A) :
      GaugeHierarchy ex (.momentum (gaugeMomentum ex norm2 rnd))
  | leapfrog (S : (ι → G) → X → K) (F : (ι → G) → X → ι → A) (drawX : GaugeState ι G A X → X)
      (l : Integrator K (GaugeState ι G A X)) (n : ℤ) (hl : GaugeHierarchy ex l) :
      GaugeHierarchy ex (.leapfrog (gaugeTerm S F drawX) l n)
  | o2 (S : (ι → G) → X → K) (F : (ι → G) → X → ι → A) (drawX : GaugeState ι G A X → X)
      (l : Integrator K (GaugeState ι G A X)) (n : ℤ) (hl : GaugeHierarchy ex l) :
      GaugeHierarchy ex (.o2 (gaugeTerm S F drawX) l n)

theorem iterate_inverse {α : Type} (f g : α → α) (h : ∀ x, g (f x) = x) (n : ℕ) (x : α) :
    g^[n] (f^[n] x) = x :=
  (show Function.LeftInverse g f from h).iterate n x

theorem gaugeTerm_inverse (S : (ι → G) → X → K) (F : (ι → G) → X → ι → A)
    (drawX : GaugeState ι G A X → X) (eps : K) (s : GaugeState ι G A X) :
    (gaugeTerm (K := K) S F drawX).forceStep (-eps) ((gaugeTerm (K := K) S F drawX).forceStep eps s) = s := by
  unfold gaugeTerm
  cases s
  simp

/-- **C26 (reversibility).** A step of length `eps` followed by one of length `-eps` restores links,
momenta and everything else, for every hierarchy, if the exponential of the opposite algebra element is
the inverse. -/
theorem C26_reversible (ex : A → G) (hex : ∀ x, ex (-x) * ex x = 1)
    (I : Integrator K (GaugeState ι G A X)) (hI : GaugeHierarchy ex I) (eps : K) (s : GaugeState ι G A X) :
    I.step (-eps) (I.step eps s) = s := by
  induction hI generalizing eps s with
  | momentum norm2 rnd =>
    show gaugeUpdate ex (-eps) (gaugeUpdate ex eps s) = s
    unfold gaugeUpdate
    cases s with
    | mk g p b x =>
      simp only [GaugeState.mk.injEq, and_true]
      funext i
      rw [neg_smul, ← mul_assoc, hex, one_mul]
  | leapfrog S F drawX l n hl ih =>
    simp only [Integrator.step]
    have e : 1 / 2 * -eps / (n : K) = -(1 / 2 * eps / (n : K)) := by ring
    rw [e, iterate_inverse _ _ (ih _), gaugeTerm_inverse, iterate_inverse _ _ (ih _)]
  | o2 S F drawX l n hl ih =>
    simp only [Integrator.step]
    have e1 : -eps * Integrator.o2zeta / (n : K) = -(eps * Integrator.o2zeta / (n : K)) := by ring
    have e2 : (-eps - 2 * (-eps * Integrator.o2zeta)) / (n : K) =
        -((eps - 2 * (eps * Integrator.o2zeta)) / (n : K)) := by ring
    have e3 : 1 / 2 * -eps = -(1 / 2 * eps) := by ring
    rw [e1, e2, e3, iterate_inverse _ _ (ih _), gaugeTerm_inverse, iterate_inverse _ _ (ih _),
      gaugeTerm_inverse, iterate_inverse _ _ (ih _)]

/-- Reversal of the momenta. -/
def flipMomenta (s : GaugeState ι G A X) : GaugeState ι G A X :=
  ⟨s.gauge, fun i => -s.momentum i, s.backup, s.extra⟩

theorem step_flip (ex : A → G) (I : Integrator K (GaugeState ι G A X)) (hI : GaugeHierarchy ex I) (eps : K)
    (s : GaugeState ι G A X) : I.step eps (flipMomenta s) = flipMomenta (I.step (-eps) s) := by
  have it : ∀ (f g : GaugeState ι G A X → GaugeState ι G A X),
      (∀ s, f (flipMomenta s) = flipMomenta (g s)) → ∀ n s, f^[n] (flipMomenta s) = flipMomenta (g^[n] s) := by
    intro f g h n
    induction n with
    | zero => intro s; rfl
    | succ n ih => intro s; rw [Function.iterate_succ_apply, h, ih, Function.iterate_succ_apply]
  have hforce : ∀ (S : (ι → G) → X → K) (F : (ι → G) → X → ι → A) (drawX : GaugeState ι G A X → X) (e : K)
      (s : GaugeState ι G A X), (gaugeTerm (K := K) S F drawX).forceStep e (flipMomenta s) =
        flipMomenta ((gaugeTerm (K := K) S F drawX).forceStep (-e) s) := by
    intro S F drawX e s
    simp only [gaugeTerm, flipMomenta, GaugeState.mk.injEq, true_and, and_true]
    funext i
    rw [neg_add, neg_smul, neg_neg]
  induction hI generalizing eps s with
  | momentum norm2 rnd =>
    show gaugeUpdate ex eps (flipMomenta s) = flipMomenta (gaugeUpdate ex (-eps) s)
    simp only [gaugeUpdate, flipMomenta, GaugeState.mk.injEq, and_true]
    funext i
    rw [smul_neg, neg_smul]
  | leapfrog S F drawX l n hl ih =>
    simp only [Integrator.step]
    have e : 1 / 2 * -eps / (n : K) = -(1 / 2 * eps / (n : K)) := by ring
    rw [e, it _ _ (ih _), hforce, it _ _ (ih _)]
  | o2 S F drawX l n hl ih =>
    simp only [Integrator.step]
    have e1 : -eps * Integrator.o2zeta / (n : K) = -(eps * Integrator.o2zeta / (n : K)) := by ring
    have e2 : (-eps - 2 * (-eps * Integrator.o2zeta)) / (n : K) =
        -((eps - 2 * (eps * Integrator.o2zeta)) / (n : K)) := by ring
    have e3 : 1 / 2 * -eps = -(1 / 2 * eps) := by ring
    rw [e1, e2, e3, it _ _ (ih _), hforce, it _ _ (ih _), hforce, it _ _ (ih _)]

/-- **C26 (reversal of the momenta).** Reversing the momenta at the end of a trajectory of any number of
steps and running the same trajectory again leads back to the start with reversed momenta. -/
theorem C26_momentum_reversal (ex : A → G) (hex : ∀ x, ex (-x) * ex x = 1)
    (I : Integrator K (GaugeState ι G A X)) (hI : GaugeHierarchy ex I) (eps : K) (steps : ℕ)
    (s : GaugeState ι G A X) :
    (I.step eps)^[steps] (flipMomenta ((I.step eps)^[steps] s)) = flipMomenta s := by
  have it : ∀ n s, (I.step eps)^[n] (flipMomenta s) = flipMomenta ((I.step (-eps))^[n] s) := by
    intro n
    induction n with
    | zero => intro s; rfl
    | succ n ih =>
      intro s
      rw [Function.iterate_succ_apply, step_flip ex I hI, ih, Function.iterate_succ_apply]
  rw [it, iterate_inverse _ _ (C26_reversible ex hex I hI eps)]

/-! ### The HMC update -/

theorem hierarchy_draw (ex : A → G) (I : Integrator K (GaugeState ι G A X)) (hI : GaugeHierarchy ex I)
    (s : GaugeState ι G A X) : (I.draw s).gauge = s.gauge := by
  induction hI generalizing s with
  | momentum => rfl
  | leapfrog S F drawX l n hl ih => unfold Integrator.draw; rw [ih]; rfl
  | o2 S F drawX l n hl ih => unfold Integrator.draw; rw [ih]; rfl

theorem hierarchy_backup (ex : A → G) (I : Integrator K (GaugeState ι G A X)) (hI : GaugeHierarchy ex I)
    (s : GaugeState ι G A X) : I.backup s = ⟨s.gauge, s.momentum, s.gauge, s.extra⟩ := by
  induction hI generalizing s with
  | momentum => rfl
  | leapfrog S F drawX l n hl ih => unfold Integrator.backup; rw [ih]; rfl
  | o2 S F drawX l n hl ih => unfold Integrator.backup; rw [ih]; rfl

theorem hierarchy_restore (ex : A → G) (I : Integrator K (GaugeState ι G A X)) (hI : GaugeHierarchy ex I)
    (s : GaugeState ι G A X) : I.restore s = ⟨s.backup, s.momentum, s.backup, s.extra⟩ := by
  induction hI generalizing s with
  | momentum => rfl
  | leapfrog S F drawX l n hl ih => unfold Integrator.restore; rw [ih]; rfl
  | o2 S F drawX l n hl ih => unfold Integrator.restore; rw [ih]; rfl

theorem iterate_keeps {α β : Type} (p : α → β) (f : α → α) (h : ∀ x, p (f x) = p x) (n : ℕ) (x : α) :
    p (f^[n] x) = p x := by
  induction n generalizing x with
  | zero => rfl
  | succ n ih => rw [Function.iterate_succ_apply, ih, h]

theorem hierarchy_step (ex : A → G) (I : Integrator K (GaugeState ι G A X)) (hI : GaugeHierarchy ex I)
    (eps : K) (s : GaugeState ι G A X) :
    (I.step eps s).backup = s.backup ∧ (I.step eps s).extra = s.extra := by
  induction hI generalizing eps s with
  | momentum => exact ⟨rfl, rfl⟩
  | leapfrog S F drawX l n hl ih =>
    have hb : ∀ e m (t : GaugeState ι G A X), ((l.step e)^[m] t).backup = t.backup := fun e m t =>
      iterate_keeps GaugeState.backup _ (fun x => (ih e x).1) m t
    have hx : ∀ e m (t : GaugeState ι G A X), ((l.step e)^[m] t).extra = t.extra := fun e m t =>
      iterate_keeps GaugeState.extra _ (fun x => (ih e x).2) m t
    unfold Integrator.step
    dsimp only
    refine ⟨?_, ?_⟩
    · rw [hb]; exact hb _ _ _
    · rw [hx]; exact hx _ _ _
  | o2 S F drawX l n hl ih =>
    have hb : ∀ e m (t : GaugeState ι G A X), ((l.step e)^[m] t).backup = t.backup := fun e m t =>
      iterate_keeps GaugeState.backup _ (fun x => (ih e x).1) m t
    have hx : ∀ e m (t : GaugeState ι G A X), ((l.step e)^[m] t).extra = t.extra := fun e m t =>
      iterate_keeps GaugeState.extra _ (fun x => (ih e x).2) m t
    unfold Integrator.step
    dsimp only
    refine ⟨?_, ?_⟩
    · rw [hb]; refine (hb _ _ _).trans (hb _ _ _)
    · rw [hx]; refine (hx _ _ _).trans (hx _ _ _)

/-- **C39 (HMC).** An update refreshes the momenta and pseudofermions without touching the links, evolves
this state `s0` to `s1`, and accepts exactly if rank 0's random number is below
`exp(S(s0) - S(s1))`. If it is accepted the result is `s1`; if it is rejected the links are those before
the update. -/
theorem C39_hmc_update [LinearOrder K] (exp : K → K) (ex : A → G)
    (I : Integrator K (GaugeState ι G A X)) (hI : GaugeHierarchy ex I) (steps : ℤ) (trajLength : K)
    (rval : ℕ → K) (s : GaugeState ι G A X) :
    ∃ s0 s1 : GaugeState ι G A X,
      s0.gauge = s.gauge ∧ s0.momentum = (I.draw s).momentum ∧ s0.extra = (I.draw s).extra ∧
      s1 = (I.step (trajLength / (steps : K)))^[steps.toNat] s0 ∧
      ((updateHMC exp I steps trajLength rval s).accepted = true ↔
        rval 0 < exp (I.action s0 - I.action s1)) ∧
      ((updateHMC exp I steps trajLength rval s).accepted = true →
        (updateHMC exp I steps trajLength rval s).state = s1) ∧
      ((updateHMC exp I steps trajLength rval s).accepted = false →
        (updateHMC exp I steps trajLength rval s).state.gauge = s.gauge) := by
  have hb := hierarchy_backup ex I hI (I.draw s)
  have hd := hierarchy_draw ex I hI s
  refine ⟨I.backup (I.draw s), _, by rw [hb, hd], by rw [hb], by rw [hb], rfl, ?_, ?_, ?_⟩
  · unfold updateHMC
    dsimp only
    rw [neg_sub]
    split
    · rename_i h; simpa using h
    · rename_i h; simpa using h
  · unfold updateHMC
    dsimp only
    split
    · intro _; rfl
    · intro h; simp at h
  · unfold updateHMC
    dsimp only
    split
    · intro h; simp at h
    · intro _
      dsimp only
      rw [hierarchy_restore ex I hI]
      dsimp only
      rw [iterate_keeps GaugeState.backup _ (fun x => (hierarchy_step ex I hI _ x).1), hb, hd]

/-- **C39 (histories).** In every sequence of updates (with changing integrators, lengths and random
numbers), if all are rejected the links are those at the start. -/
theorem C39_all_rejected [LinearOrder K] (exp : K → K) (ex : A → G)
    (us : List (Integrator K (GaugeState ι G A X) × ℤ × K × (ℕ → K)))
    (hI : ∀ u ∈ us, GaugeHierarchy ex u.1) (s : GaugeState ι G A X)
    (hrej : ∀ (k : ℕ) (u : Integrator K (GaugeState ι G A X) × ℤ × K × (ℕ → K)), us[k]? = some u →
      (updateHMC exp u.1 u.2.1 u.2.2.1 u.2.2.2
        ((us.take k).foldl (fun s u => (updateHMC exp u.1 u.2.1 u.2.2.1 u.2.2.2 s).state) s)).accepted = false) :
    (us.foldl (fun s u => (updateHMC exp u.1 u.2.1 u.2.2.1 u.2.2.2 s).state) s).gauge = s.gauge := by
  induction us generalizing s with
  | nil => rfl
  | cons u us ih =>
    rw [List.foldl_cons, ih (fun v hv => hI v (List.mem_cons_of_mem _ hv))]
    · obtain ⟨_, _, _, _, _, _, _, _, h⟩ := C39_hmc_update exp ex u.1 (hI u List.mem_cons_self) u.2.1 u.2.2.1
        u.2.2.2 s
      exact h (hrej 0 u rfl)
    · intro k v hv
      exact hrej (k + 1) v (by simpa using hv)

/-- A hierarchy with the actions and heat baths of its levels, from the top, and the norm and random
momenta of its lowest level. -/
inductive HierarchyOf (ex : A → G) (norm2 : (ι → A) → K) (rnd : GaugeState ι G A X → ι → A) :
    Integrator K (GaugeState ι G A X) → List (((ι → G) → X → K) × (GaugeState ι G A X → X)) → Prop
  | momentum : HierarchyOf ex norm2 rnd (.momentum (gaugeMomentum ex norm2 rnd)) []
  | leapfrog (S : (ι → G) → X → K) (F : (ι → G) → X → ι → A) (drawX : GaugeState ι G A X → X)
      (l : Integrator K (GaugeState ι G A X)) (n : ℤ) (ts) (hl : HierarchyOf ex norm2 rnd l ts) :
      HierarchyOf ex norm2 rnd (.leapfrog (gaugeTerm S F drawX) l n) ((S, drawX) :: ts)
  | o2 (S : (ι → G) → X → K) (F : (ι → G) → X → ι → A) (drawX : GaugeState ι G A X → X)
      (l : Integrator K (GaugeState ι G A X)) (n : ℤ) (ts) (hl : HierarchyOf ex norm2 rnd l ts) :
      HierarchyOf ex norm2 rnd (.o2 (gaugeTerm S F drawX) l n) ((S, drawX) :: ts)

/-- **C39 (action).** The action of a hierarchy is that of all its levels plus the kinetic term of the
momenta. -/
theorem C39_total_action (ex : A → G) (norm2 : (ι → A) → K) (rnd : GaugeState ι G A X → ι → A)
    (I : Integrator K (GaugeState ι G A X)) (ts) (hI : HierarchyOf ex norm2 rnd I ts) (s : GaugeState ι G A X) :
    I.action s = (ts.map fun t => t.1 s.gauge s.extra).sum + norm2 s.momentum := by
  induction hI with
  | momentum => simp [Integrator.action, gaugeMomentum]
  | leapfrog S F drawX l n ts hl ih => simp [Integrator.action, gaugeTerm, ih, add_assoc]
  | o2 S F drawX l n ts hl ih => simp [Integrator.action, gaugeTerm, ih, add_assoc]

/-- **C39 (refreshment).** At the start of an update the heat bath of every level runs once, from the top,
then all momenta are drawn; the links are not touched. -/
theorem C39_refresh (ex : A → G) (norm2 : (ι → A) → K) (rnd : GaugeState ι G A X → ι → A)
    (I : Integrator K (GaugeState ι G A X)) (ts) (hI : HierarchyOf ex norm2 rnd I ts) (s : GaugeState ι G A X) :
    ∃ s' : GaugeState ι G A X,
      s' = ts.foldl (fun s t => ⟨s.gauge, s.momentum, s.backup, t.2 s⟩) s ∧
      I.draw s = ⟨s.gauge, rnd s', s.backup, s'.extra⟩ := by
  refine ⟨_, rfl, ?_⟩
  induction hI generalizing s with
  | momentum => rfl
  | leapfrog S F drawX l n ts hl ih => rw [Integrator.draw, ih]; rfl
  | o2 S F drawX l n ts hl ih => rw [Integrator.draw, ih]; rfl

/-- **C26 (sums of actions).** The sum of two action terms has the sum of the actions as action and the sum
of the forces as force, in one step; both heat baths run. -/
theorem C26_action_sum (S1 S2 : (ι → G) → X → K) (F1 F2 : (ι → G) → X → ι → A)
    (d1 d2 : GaugeState ι G A X → X) (eps : K) (s : GaugeState ι G A X) :
    ((gaugeTerm (K := K) S1 F1 d1).sum (gaugeTerm S2 F2 d2)).action s = S1 s.gauge s.extra + S2 s.gauge s.extra ∧
      ((gaugeTerm (K := K) S1 F1 d1).sum (gaugeTerm S2 F2 d2)).forceStep eps s =
        ⟨s.gauge, fun i => s.momentum i + eps • (F1 s.gauge s.extra i + F2 s.gauge s.extra i), s.backup, s.extra⟩ ∧
      ((gaugeTerm (K := K) S1 F1 d1).sum (gaugeTerm S2 F2 d2)).draw s =
        ⟨s.gauge, s.momentum, s.backup, d2 ⟨s.gauge, s.momentum, s.backup, d1 s⟩⟩ := by
  refine ⟨rfl, ?_, rfl⟩
  show (⟨_, _, _, _⟩ : GaugeState ι G A X) = _
  congr 1
  funext i
  simp only [gaugeTerm, smul_add, add_assoc]

end gauge

end field

/-! ### Concrete cases -/

/-- The exponential of complex matrices meets the hypothesis. -/
example (N : ℕ) (x : Matrix (Fin N) (Fin N) ℂ) : NormedSpace.exp (-x) * NormedSpace.exp x = 1 := by
  rw [Matrix.exp_neg, Matrix.nonsing_inv_mul]
  exact (Matrix.isUnit_iff_isUnit_det _).1 (Matrix.isUnit_exp x)

/-- Three levels as in applications/Wilson. -/
example : Shape.Positive (.second (.second (.second .base 1) 4) 1) := by
  simp [Shape.Positive]

/-- A field with one link in the additive group of the rationals, written multiplicatively: harmonic
oscillator with two levels. -/
def exampleIntegrator : Integrator ℚ (GaugeState Unit (Multiplicative ℚ) ℚ Unit) :=
  .o2 (gaugeTerm (fun u _ => (u ()).toAdd ^ 2 / 2) (fun u _ _ => -(u ()).toAdd) fun _ => ())
    (.leapfrog (gaugeTerm (fun _ _ => 0) (fun _ _ _ => 1) fun _ => ())
      (.momentum (gaugeMomentum Multiplicative.ofAdd (fun p => p () ^ 2 / 2) fun _ _ => 3)) 2) 3

theorem exampleIntegrator_ok : GaugeHierarchy (K := ℚ) Multiplicative.ofAdd exampleIntegrator :=
  .o2 _ _ _ _ _ (.leapfrog _ _ _ _ _ (.momentum _ _))

example : HierarchyOf (K := ℚ) Multiplicative.ofAdd (fun p : Unit → ℚ => p () ^ 2 / 2) (fun _ _ => 3) exampleIntegrator
    [(fun u _ => (u ()).toAdd ^ 2 / 2, fun _ => ()), (fun _ _ => 0, fun _ => ())] :=
  .o2 _ _ _ _ _ _ (.leapfrog _ _ _ _ _ _ .momentum)

example (s : GaugeState Unit (Multiplicative ℚ) ℚ Unit) (eps : ℚ) :
    exampleIntegrator.step (-eps) (exampleIntegrator.step eps s) = s :=
  C26_reversible Multiplicative.ofAdd
    (fun x => by rw [← ofAdd_add]; simp) _ exampleIntegrator_ok eps s

end Hila
