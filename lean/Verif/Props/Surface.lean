import Verif.Lemmas.SurfChain
import Mathlib.MeasureTheory.Measure.Lebesgue.Basic

/-!
# C92: the program suN_gauge_surface
-/

set_option linter.unusedSectionVars false

namespace Hila

open MeasureTheory ProbabilityTheory Set Matrix Function
open scoped ENNReal

variable {R : Type} [Fintype R] [DecidableEq R] {n : ℕ} {L : Fin n → ℕ} [∀ d, NeZero (L d)] {N : ℕ}

/-! ## The action with two couplings -/

theorem zWeight_eq (ez : Fin n) (db : ℝ) : (zWeight ez db : PSite L → ℝ) = surfWeight ez db := by
  funext x
  unfold zWeight surfWeight
  by_cases h : 2 * (x ez).val < L ez
  · rw [if_pos h, if_neg (by omega)]; norm_num; ring
  · rw [if_neg h, if_pos (by omega)]; norm_num

/-- **C92 (staples).** The staples for two couplings: each of the two terms has the weight of the half that has the corner of its plaquette. Sites of the other
parity keep what they had. -/
theorem C92_staples (ez : Fin n) (U : GField L N) (s0 : PSite L → Option (Mat N)) (d1 : Fin n) (par : Parity) (db : ℝ) (hL : par = .all ∨ ∀ d, 2 ∣ L d) (x : PSite L) :
    (VisitsPar par x → staplesumDb ez U s0 d1 par db x = some (stapleSpec (fun _ => surfWeight ez db) U d1 x)) ∧
    (¬ VisitsPar par x → staplesumDb ez U s0 d1 par db x = s0 x) := by
  unfold staplesumDb
  constructor
  · intro hx
    rw [(stapleFold par _ _ hL _ _).2.2 x 0 hx rfl (by show assignOn par s0 (fun _ => some 0) x = some 0; unfold assignOn; rw [if_pos hx]), sum_erase_finRange, zero_add]
    unfold stapleSpec unitStep
    simp only [Matrix.smul_mul, zWeight_eq]
  · intro hx
    rw [(stapleFold par _ _ hL _ _).1 x hx]
    show assignOn par s0 (fun _ => some 0) x = s0 x
    unfold assignOn
    rw [if_neg hx]

/-- **C92 (action).** The measured action, also for equal couplings. -/
theorem C92_action (ez : Fin n) (U : GField L N) (db : ℝ) : measurePlaqDb ez U db = plaqWeighted (surfWeight ez db) U ∧ measurePlaqDb ez U 0 = measurePlaq U := by
  constructor
  · unfold measurePlaqDb plaqWeighted unitStep
    refine Finset.sum_congr rfl fun d1 _ => ?_
    rw [Finset.sum_filter]
    refine Finset.sum_congr rfl fun d2 _ => ?_
    by_cases h : d1 < d2
    · rw [if_pos h, if_pos h]
      by_cases hd : db = 0
      · rw [if_pos hd]
        refine Finset.sum_congr rfl fun x _ => ?_
        have : surfWeight ez db x = 1 := by unfold surfWeight; subst hd; simp
        rw [this, one_mul]
        norm_num
      · rw [if_neg hd, zWeight_eq]
        refine Finset.sum_congr rfl fun x _ => ?_
        norm_num
    · rw [if_neg h, if_neg h]
  · unfold measurePlaqDb measurePlaq
    simp only [if_true]
    norm_num

theorem plaqWeighted_linear (hL : ∀ d, Even (L d)) (w : PSite L → ℝ) :
    LinearAction (fun U : Fin n × PSite L → SUN N => plaqWeighted w (asField U)) (fun U d x => stapleSpec (fun _ => w) (asField U) d x) where
  upd U d x c := by
    rw [asField_update, plaqWeighted_update hL]
    rfl
  congr b U V d x hx h1 h2 := by
    refine stapleSpec_congrW hL w b _ _ d x hx (fun e he => ?_) (fun y hy => ?_)
    · funext y
      unfold asField
      rw [h1 e he]
    · unfold asField
      rw [h2 y hy]
  contA := by
    have h := fun d x => asField_continuous (L := L) (N := N) d x
    unfold plaqWeighted
    refine continuous_finsetSum _ fun d1 _ => continuous_finsetSum _ fun d2 _ => continuous_finsetSum _ fun x _ => ?_
    have h2 : Continuous fun U : Fin n × PSite L → SUN N => (asField U d1 x * asField U d2 (x + Pi.single d1 1) * (asField U d1 (x + Pi.single d2 1)).conjTranspose *
        (asField U d2 x).conjTranspose).trace := ((((h _ _).mul (h _ _)).mul (h _ _).matrix_conjTranspose).mul (h _ _).matrix_conjTranspose).matrix_trace
    fun_prop
  contS d x := by
    have h := fun d x => asField_continuous (L := L) (N := N) d x
    simp only [stapleSpec_termsW]
    refine continuous_finsetSum _ fun e _ => ?_
    unfold stapleTermW
    have h1 : Continuous fun U : Fin n × PSite L → SUN N => asField U e x * asField U d (x + unitStep e) * (asField U e (x + unitStep d)).conjTranspose :=
      ((h _ _).mul (h _ _)).mul (h _ _).matrix_conjTranspose
    have h2 : Continuous fun U : Fin n × PSite L → SUN N =>
        (asField U e (x - unitStep e)).conjTranspose * asField U d (x - unitStep e) * asField U e (x - unitStep e + unitStep d) :=
      ((h _ _).matrix_conjTranspose.mul (h _ _)).mul (h _ _)
    exact (h1.const_smul (w x : ℂ)).add (h2.const_smul (w (x - unitStep e) : ℂ))

theorem surfStaples_eq (hL : ∀ d, Even (L d)) (hn : 2 ≤ n) (ez : Fin n) (db : ℝ) (U : GField L N) (d : Fin n) (b : Bool) (x : PSite L) (hx : VisitsPar (parityOf b) x) :
    surfStaples ez db U d (parityOf b) x = some (stapleSpec (fun _ => surfWeight ez db) U d x) := by
  unfold surfStaples
  by_cases h : db = 0
  · rw [if_neg (by simp [h]), ((C33_staplesum hn U (fun _ => none) d (fun _ _ _ => 1) (parityOf b) (Or.inr fun d => (hL d).two_dvd) x).1 hx).1]
    have : (fun _ => surfWeight ez db : Fin n → PSite L → ℝ) = fun _ _ => 1 := by
      funext _ y
      unfold surfWeight
      simp [h]
    rw [this]
  · rw [if_pos h]
    exact (C92_staples ez U _ d _ db (Or.inr fun d => (hL d).two_dvd) x).1 hx

/-- **C92 (trajectories with two couplings).** Let the links before a trajectory have the distribution of the action with the coupling β (1 - δ) in one half of the
lattice and β (1 + δ) in the other, for any δ, any number of colours, at least two dimensions and even sizes, and let the random numbers of all ranks be independent
and uniform. Then for every set `B` of gauge fields the probability that every hit of the heat bath accepts one of its trials and that the new field is in `B` is at
most the probability of `B`, and smaller at most by the probability that there is no result or that in some hit all trials fail. Missing (`_partial`): what happens
then, see `C89_trajectory_partial`. -/
theorem C92_trajectory_partial (hL : ∀ d, Even (L d)) (hn : 2 ≤ n) (hN : 0 < N) (haar : Measure (SUN N)) [IsProbabilityMeasure haar] [haar.IsMulLeftInvariant]
    {beta : ℝ} (hb : 0 < beta) (ez : Fin n) (db : ℝ) (own : PSite L → R) (root : R) (vis : ℕ → Fin n × Bool → List (PSite L))
    (hvis : ∀ k dp, ∀ x ∈ vis k dp, VisitsPar (parityOf dp.2) x) (nUpdate nRelax : ℕ) (B : Set (Fin n × PSite L → SUN N)) (hB : MeasurableSet B) :
    let π := normalised (boltzmann (Measure.pi fun _ => haar) fun U : Fin n × PSite L → SUN N => beta * plaqWeighted (surfWeight ez db) (asField U))
    let hit := (π.prod (rankStreams R)) {z | SurfTrajectoryAccepts ez db beta own root vis nUpdate nRelax (asField z.1, z.2) ∧
      ∃ V ∈ B, ∃ ω, surfTrajectory ez db beta own root vis nUpdate nRelax (asField z.1, z.2) = some (asField V, ω)}
    let fail := (π.prod (rankStreams R)) {z | ¬ (SurfTrajectoryAccepts ez db beta own root vis nUpdate nRelax (asField z.1, z.2) ∧
      ∃ s, surfTrajectory ez db beta own root vis nUpdate nRelax (asField z.1, z.2) = some s)}
    IsProbabilityMeasure π ∧ hit ≤ π B ∧ π B ≤ hit + fail := by
  intro π hit fail
  have hA := plaqWeighted_linear (N := N) hL (surfWeight ez db)
  have hpr : IsProbabilityMeasure π := hA.prob haar beta
  have hS : SFinite (boltzmann (Measure.pi fun _ => haar) fun U : Fin n × PSite L → SUN N => beta * plaqWeighted (surfWeight ez db) (asField U)) := by
    unfold boltzmann; infer_instance
  have hP : SFinite (rankStreams R) := by unfold rankStreams; infer_instance
  have hdom : DomStep (π.prod (rankStreams R)) (suTrajectoryA (fun U d x => stapleSpec (fun _ => surfWeight ez db) (asField U) d x) beta own root vis nUpdate nRelax) :=
    dom_normalised (DomStep.foldlM _ _ fun op _ => suUpdateA_dom hA hN haar hb own root (vis op.2) op.1)
  exact ⟨hpr, lifted_bounds π hdom (surfTrajectory ez db beta own root vis nUpdate nRelax) (SurfTrajectoryAccepts ez db beta own root vis nUpdate nRelax)
    (fun z hz => trajectoryA_lift ez db hA (fun U d b x hx => surfStaples_eq hL hn ez db (asField U) d b x hx) hN hb own root vis hvis nUpdate nRelax z hz) B hB⟩

/-- SU(3) on 4 by 6 sites with couplings 6 · 0.9 and 6 · 1.1. -/
example : ∃ haar : Measure (SUN 3), IsProbabilityMeasure haar ∧ haar.IsMulLeftInvariant ∧
    IsProbabilityMeasure (normalised (boltzmann (Measure.pi fun _ => haar) fun U : Fin 2 × PSite ![4, 6] → SUN 3 => 6 * plaqWeighted (surfWeight 1 0.1) (asField U))) := by
  obtain ⟨haar, h1, h2⟩ := exists_haar 3
  exact ⟨haar, h1, h2, (C92_trajectory_partial (L := ![4, 6]) (fun d => by fin_cases d <;> decide) le_rfl three_pos haar (beta := 6) (by norm_num) 1 0.1
    (fun x => decide ((x 0).val < 2)) true (fun _ dp => gaugeSites (parityOf dp.2)) (fun _ dp => gaugeSites_ok _) 2 3 univ MeasurableSet.univ).1⟩

/-! ## The condition on the Polyakov loop -/

variable (st : GField L N → Fin n → Parity → PSite L → Option (Mat N))

theorem dirUpdate_keeps (beta : ℝ) (own : PSite L → R) (relax : Bool) (vis : Fin n × Bool → List (PSite L)) (s s' : LinkState L N R) (dp : Fin n × Bool)
    (h : dirUpdate st beta own relax vis s dp = some s') : (∀ e, e ≠ dp.1 → s'.1 e = s.1 e) ∧ ∀ y, y ∉ vis dp → s'.1 dp.1 y = s.1 dp.1 y := by
  refine foldlM_some_inv (fun t : LinkState L N R => (∀ e, e ≠ dp.1 → t.1 e = s.1 e) ∧ ∀ y, y ∉ vis dp → t.1 dp.1 y = s.1 dp.1 y)
    (linkStep beta own relax dp.1 (st s.1 dp.1 (parityOf dp.2))) (vis dp) s s' ⟨fun _ _ => rfl, fun _ _ => rfl⟩ ?_ h
  rintro t x t' hx ⟨h1, h2⟩ hl
  have hset : ∃ V, t'.1 = setLink t.1 dp.1 x V := by
    unfold linkStep at hl
    obtain ⟨S, _, hl⟩ := Option.bind_eq_some_iff.1 hl
    cases relax
    · simp only [Bool.false_eq_true, if_false] at hl
      obtain ⟨y, _, rfl⟩ := Option.map_eq_some_iff.1 hl
      exact ⟨_, rfl⟩
    · simp only [if_true] at hl
      obtain ⟨y, _, rfl⟩ := Option.map_eq_some_iff.1 hl
      exact ⟨_, rfl⟩
  obtain ⟨V, hV⟩ := hset
  rw [hV]
  exact ⟨fun e he => by rw [setLink_dir _ he, h1 e he], fun y hy => by rw [setLink_site _ _ (fun hc : y = x => hy (by rw [hc]; exact hx)), h2 y hy]⟩

theorem measurePolyakov_dir {U V : GField L N} (et : Fin n) (h : U et = V et) : measurePolyakov U et = measurePolyakov V et := by
  unfold measurePolyakov polyakovLines polyakovPlane
  rw [h]

/-- One turn: either the new value is accepted, or the links are as before the turn. -/
theorem rangeTurn_cases (et : Fin n) (p : PolyPars) (beta : ℝ) (own : PSite L → R) (root : R) (vis : Fin n × Bool → List (PSite L)) (relax : Bool)
    (old : PSite L → Mat N) (t t' : LinkState L N R × ℝ × ℝ) (par : Bool) (hvis : ∀ x ∈ vis (et, par), VisitsPar (parityOf par) x)
    (hold : ∀ y, VisitsPar (parityOf par) y → t.1.1 et y = old y) (h : rangeTurn st et p beta own root vis relax old t par = some t') :
    (∀ e, e ≠ et → t'.1.1 e = t.1.1 e) ∧ (∀ y, ¬ VisitsPar (parityOf par) y → t'.1.1 et y = t.1.1 et y) ∧
    ((t'.2.2 = t.2.2 + 0.5 ∧ t'.2.1 = (measurePolyakov t'.1.1 et).re ∧ ∃ u, acceptPolyakov p t.2.1 t'.2.1 u = true) ∨
      (t'.2 = t.2 ∧ t'.1.1 et = t.1.1 et)) := by
  unfold rangeTurn at h
  obtain ⟨s, hs, h⟩ := Option.map_eq_some_iff.1 h
  obtain ⟨h1, h2⟩ := dirUpdate_keeps st beta own relax vis t.1 s (et, par) hs
  dsimp only at h h1 h2
  have h3 : ∀ y, ¬ VisitsPar (parityOf par) y → s.1 et y = t.1.1 et y := fun y hy => h2 y fun hm => hy (hvis y hm)
  by_cases ha : acceptPolyakov p t.2.1 (measurePolyakov s.1 et).re (s.2 root 0) = true
  · rw [if_pos ha] at h
    subst h
    exact ⟨h1, h3, Or.inl ⟨rfl, rfl, _, ha⟩⟩
  · rw [if_neg ha] at h
    subst h
    refine ⟨fun e he => ?_, fun y hy => ?_, Or.inr ⟨rfl, ?_⟩⟩
    · show update s.1 et _ e = _
      rw [update_of_ne he, h1 e he]
    · show update s.1 et _ et y = _
      rw [update_self]
      unfold assignOn
      rw [if_neg hy, h3 y hy]
    · show update s.1 et _ et = _
      rw [update_self]
      funext y
      unfold assignOn
      by_cases hy : VisitsPar (parityOf par) y
      · rw [if_pos hy, hold y hy]
      · rw [if_neg hy, h3 y hy]

theorem parity_other {par par' : Bool} (h : par ≠ par') (y : PSite L) (hy : VisitsPar (parityOf par) y) : ¬ VisitsPar (parityOf par') y := by
  cases par <;> cases par' <;> simp_all [parityOf, VisitsPar]

/-- All of `update_once_with_range`. -/
theorem updateOnceRange_cases (et : Fin n) (p : PolyPars) (beta : ℝ) (own : PSite L → R) (root : R) (vis : Fin n × Bool → List (PSite L)) (relax : Bool)
    (hvis : ∀ dp, ∀ x ∈ vis dp, VisitsPar (parityOf dp.2) x) (s s' : LinkState L N R) (poly poly' acc : ℝ)
    (h : updateOnceRange st et p beta own root vis relax s poly = some (s', poly', acc)) :
    ∃ (pm am : ℝ) (Um : GField L N),
      ((am = 0.5 ∧ pm = (measurePolyakov Um et).re ∧ ∃ u, acceptPolyakov p poly pm u = true) ∨ (am = 0 ∧ pm = poly ∧ Um et = s.1 et)) ∧
      ((acc = am + 0.5 ∧ poly' = (measurePolyakov s'.1 et).re ∧ ∃ u, acceptPolyakov p pm poly' u = true) ∨ (acc = am ∧ poly' = pm ∧ s'.1 et = Um et)) := by
  unfold updateOnceRange at h
  obtain ⟨s1, hs1, h⟩ := Option.bind_eq_some_iff.1 h
  have hsp : s1.1 et = s.1 et := by
    refine foldlM_some_inv (fun t : LinkState L N R => t.1 et = s.1 et) (dirUpdate st beta own relax vis) (spatialOrder et) s s1 rfl ?_ hs1
    rintro t dp t' hdp ht hstep
    have hne : et ≠ dp.1 := by
      unfold spatialOrder at hdp
      obtain ⟨d, hd, hdp⟩ := List.mem_flatMap.1 hdp
      have hlt := (List.mem_filter.1 hd).2
      simp only [List.mem_cons, List.not_mem_nil, or_false] at hdp
      rcases hdp with rfl | rfl <;> exact (of_decide_eq_true hlt).ne'
    rw [(dirUpdate_keeps st beta own relax vis t t' dp hstep).1 et hne, ht]
  rw [List.foldlM_cons] at h
  obtain ⟨t1, ht1, h⟩ := Option.bind_eq_some_iff.1 h
  rw [List.foldlM_cons] at h
  obtain ⟨t2, ht2, h⟩ := Option.bind_eq_some_iff.1 h
  have e : t2 = (s', poly', acc) := Option.some.inj h
  subst e
  obtain ⟨_, b2, b3⟩ := rangeTurn_cases st et p beta own root vis relax (s.1 et) (s1, poly, 0) t1 false (hvis (et, false)) (fun y _ => congrFun hsp y) ht1
  obtain ⟨_, c2, c3⟩ := rangeTurn_cases st et p beta own root vis relax (s.1 et) t1 (s', poly', acc) true (hvis (et, true)) (fun y hy => by
    rw [b2 y (parity_other (by decide) y hy)]
    exact congrFun hsp y) ht2
  refine ⟨t1.2.1, t1.2.2, t1.1.1, ?_, ?_⟩
  · rcases b3 with ⟨h1, h2, h3⟩ | ⟨h1, h2⟩
    · exact Or.inl ⟨by rw [h1]; norm_num, h2, h3⟩
    · exact Or.inr ⟨by rw [h1], by rw [h1], h2.trans hsp⟩
  · rcases c3 with ⟨h1, h2, h3⟩ | ⟨h1, h2⟩
    · exact Or.inl ⟨h1, h2, h3⟩
    · exact Or.inr ⟨congrArg Prod.snd h1, congrArg Prod.fst h1, h2⟩

/-- **C92 (bookkeeping of the Polyakov loop).** If the value that is handed over is the Polyakov loop of the links then the value that comes back is that of the new
links, whichever of the two parities were rejected. If both were rejected then the links in direction t and the value are as before. The acceptance is 0, 1/2 or 1. -/
theorem C92_polyakov_tracks (et : Fin n) (p : PolyPars) (beta : ℝ) (own : PSite L → R) (root : R) (vis : Fin n × Bool → List (PSite L)) (relax : Bool)
    (hvis : ∀ dp, ∀ x ∈ vis dp, VisitsPar (parityOf dp.2) x) (s s' : LinkState L N R) (poly poly' acc : ℝ) (hp : poly = (measurePolyakov s.1 et).re)
    (h : updateOnceRange st et p beta own root vis relax s poly = some (s', poly', acc)) :
    poly' = (measurePolyakov s'.1 et).re ∧ (acc = 0 ∨ acc = 1 / 2 ∨ acc = 1) ∧ (acc = 0 → s'.1 et = s.1 et) := by
  obtain ⟨pm, am, Um, h1, h2⟩ := updateOnceRange_cases st et p beta own root vis relax hvis s s' poly poly' acc h
  have hm : pm = (measurePolyakov Um et).re := by
    rcases h1 with ⟨_, h, _⟩ | ⟨_, h, h'⟩
    · exact h
    · rw [h, hp, measurePolyakov_dir et h']
  refine ⟨?_, ?_, ?_⟩
  · rcases h2 with ⟨_, h, _⟩ | ⟨_, h, h'⟩
    · exact h
    · rw [h, hm, measurePolyakov_dir et h']
  · rcases h1 with ⟨a, _⟩ | ⟨a, _⟩ <;> rcases h2 with ⟨b, _⟩ | ⟨b, _⟩ <;> rw [b, a] <;> norm_num
  · intro h0
    rcases h1 with ⟨a, _⟩ | ⟨a, _, a'⟩ <;> rcases h2 with ⟨b, _⟩ | ⟨b, _, b'⟩
    · rw [b, a] at h0; norm_num at h0
    · rw [b, a] at h0; norm_num at h0
    · rw [b, a] at h0; norm_num at h0
    · rw [b', a']

theorem accept_outside (p : PolyPars) (hr : p.parabolic = false) (hmm : p.polyMin ≤ p.polyMax) (a b u : ℝ) (h : acceptPolyakov p a b u = true) :
    outside p.polyMin p.polyMax b ≤ outside p.polyMin p.polyMax a := by
  unfold acceptPolyakov at h
  rw [hr] at h
  simp only [Bool.false_eq_true, if_false] at h
  unfold outside
  split at h
  · rename_i h1
    have : max 0 (max (p.polyMin - b) (b - p.polyMax)) = 0 := by
      apply max_eq_left
      apply max_le <;> linarith [h1.1, h1.2]
    rw [this]
    exact le_max_left _ _
  · rename_i h0
    split at h
    · rename_i h1
      refine max_le (le_max_left _ _) (max_le ?_ ?_)
      · exact le_max_of_le_left (by linarith [h1.1])
      · exact le_max_of_le_right (le_max_of_le_right (by linarith [h1.2]))
    · split at h
      · rename_i h1
        refine max_le (le_max_left _ _) (max_le ?_ ?_)
        · exact le_max_of_le_right (le_max_of_le_left (by linarith [h1.2]))
        · exact le_max_of_le_left (by linarith [h1.1])
      · exact absurd h (by simp)

/-- **C92 (range).** With a range, the distance of the Polyakov loop from the range never grows, whatever the random numbers; once in the range it stays there. -/
theorem C92_range_stays (et : Fin n) (p : PolyPars) (hr : p.parabolic = false) (hmm : p.polyMin ≤ p.polyMax) (beta : ℝ) (own : PSite L → R) (root : R) (vis : Fin n × Bool → List (PSite L))
    (relax : Bool) (hvis : ∀ dp, ∀ x ∈ vis dp, VisitsPar (parityOf dp.2) x) (s s' : LinkState L N R) (poly poly' acc : ℝ) (hp : poly = (measurePolyakov s.1 et).re)
    (h : updateOnceRange st et p beta own root vis relax s poly = some (s', poly', acc)) :
    outside p.polyMin p.polyMax (measurePolyakov s'.1 et).re ≤ outside p.polyMin p.polyMax (measurePolyakov s.1 et).re ∧
    ((measurePolyakov s.1 et).re ∈ Icc p.polyMin p.polyMax → (measurePolyakov s'.1 et).re ∈ Icc p.polyMin p.polyMax) := by
  have key : outside p.polyMin p.polyMax (measurePolyakov s'.1 et).re ≤ outside p.polyMin p.polyMax (measurePolyakov s.1 et).re := by
    rw [← (C92_polyakov_tracks st et p beta own root vis relax hvis s s' poly poly' acc hp h).1, ← hp]
    obtain ⟨pm, am, Um, h1, h2⟩ := updateOnceRange_cases st et p beta own root vis relax hvis s s' poly poly' acc h
    have a : outside p.polyMin p.polyMax pm ≤ outside p.polyMin p.polyMax poly := by
      rcases h1 with ⟨_, _, u, hu⟩ | ⟨_, h, _⟩
      · exact accept_outside p hr hmm _ _ u hu
      · rw [h]
    rcases h2 with ⟨_, _, u, hu⟩ | ⟨_, h, _⟩
    · exact (accept_outside p hr hmm _ _ u hu).trans a
    · rw [h]; exact a
  refine ⟨key, fun hm => ?_⟩
  have h0 : outside p.polyMin p.polyMax (measurePolyakov s.1 et).re = 0 := by
    unfold outside
    apply max_eq_left
    apply max_le <;> linarith [hm.1, hm.2]
  rw [h0] at key
  unfold outside at key
  have k1 := (le_max_right _ _).trans key
  exact ⟨by linarith [(le_max_left _ _).trans k1], by linarith [(le_max_right _ _).trans k1]⟩

/-- **C92 (acceptance).** With a range, a change is kept exactly if the new value is in the range or is outside on one side and nearer to the range than the old value;
a start outside the range is not stuck. -/
theorem C92_accepts_towards (p : PolyPars) (hr : p.parabolic = false) (a b u : ℝ) :
    acceptPolyakov p a b u = true ↔ b ∈ Icc p.polyMin p.polyMax ∨ (p.polyMax < b ∧ b < a) ∨ (a < b ∧ b < p.polyMin) := by
  unfold acceptPolyakov
  rw [hr]
  simp only [Bool.false_eq_true, if_false, Icc, Set.mem_setOf_eq]
  split
  · rename_i h; exact ⟨fun _ => Or.inl ⟨h.1, h.2⟩, fun _ => rfl⟩
  · rename_i h
    split
    · rename_i h1; exact ⟨fun _ => Or.inr (Or.inl ⟨h1.1, h1.2⟩), fun _ => rfl⟩
    · rename_i h1
      split
      · rename_i h2; exact ⟨fun _ => Or.inr (Or.inr ⟨h2.2, h2.1⟩), fun _ => rfl⟩
      · rename_i h2
        refine ⟨fun h => absurd h (by simp), ?_⟩
        rintro (h3 | h3 | h3)
        · exact absurd ⟨h3.1, h3.2⟩ h
        · exact absurd ⟨h3.1, h3.2⟩ h1
        · exact absurd ⟨h3.2, h3.1⟩ h2

example : acceptPolyakov ⟨false, 0.1, 0.2, 0⟩ 0.05 0.07 0 = true := (C92_accepts_towards _ rfl _ _ _).2 (by norm_num)

/-- **C92 (numbers).** The random number of the decision is not used again: with the potential, a turn takes one number from every rank after the numbers of the links,
whether the change is kept or not; with a range it takes none. -/
theorem C92_numbers (et : Fin n) (p : PolyPars) (beta : ℝ) (own : PSite L → R) (root : R) (vis : Fin n × Bool → List (PSite L)) (relax : Bool) (old : PSite L → Mat N)
    (t t' : LinkState L N R × ℝ × ℝ) (par : Bool) (h : rangeTurn st et p beta own root vis relax old t par = some t') :
    ∃ s, dirUpdate st beta own relax vis t.1 (et, par) = some s ∧ ∀ r k, t'.1.2 r k = s.2 r (if p.parabolic = true then k + 1 else k) := by
  unfold rangeTurn at h
  rw [Option.map_eq_some_iff] at h
  obtain ⟨s, hs, e⟩ := h
  refine ⟨s, hs, fun r k => ?_⟩
  have : t'.1.2 = afterAccept p s.2 := by
    rw [← e]
    dsimp only
    split <;> rfl
  rw [this]
  unfold afterAccept
  split
  · rw [Nat.add_comm]
  · rfl

/-- **C92 (potential).** With the potential `V` and a uniform random number, the weights exp(-V) and the probabilities to accept satisfy detailed balance. -/
theorem C92_detailed_balance (p : PolyPars) (hr : p.parabolic = true) (a b : ℝ) :
    ENNReal.ofReal (Real.exp (-(p.polyM2 * (a - p.polyMin) ^ 2))) * volume {u | u ∈ Ico (0 : ℝ) 1 ∧ acceptPolyakov p a b u = true} =
      ENNReal.ofReal (Real.exp (-(p.polyM2 * (b - p.polyMin) ^ 2))) * volume {u | u ∈ Ico (0 : ℝ) 1 ∧ acceptPolyakov p b a u = true} := by
  have hv : ∀ a b, volume {u | u ∈ Ico (0 : ℝ) 1 ∧ acceptPolyakov p a b u = true} =
      ENNReal.ofReal (min 1 (Real.exp (-(polyPotential p b - polyPotential p a)))) := by
    intro a b
    have : {u | u ∈ Ico (0 : ℝ) 1 ∧ acceptPolyakov p a b u = true} = Ico 0 (min 1 (Real.exp (-(polyPotential p b - polyPotential p a)))) := by
      ext u
      unfold acceptPolyakov
      rw [hr]
      simp only [if_true, decide_eq_true_eq, mem_ofPred_eq, mem_Ico, lt_min_iff]
      tauto
    rw [this, Real.volume_Ico, sub_zero]
  rw [hv, hv, ← ENNReal.ofReal_mul (Real.exp_pos _).le, ← ENNReal.ofReal_mul (Real.exp_pos _).le, mul_min_of_nonneg _ _ (Real.exp_pos _).le,
    mul_min_of_nonneg _ _ (Real.exp_pos _).le, ← Real.exp_add, ← Real.exp_add, mul_one, mul_one, min_comm]
  unfold polyPotential
  congr 2 <;> congr 1 <;> ring

theorem foldlM_fixed {S A : Type} (f : S → A → Option S) (l : List A) (s : S) (h : ∀ a ∈ l, f s a = some s) : l.foldlM f s = some s := by
  induction l with
  | nil => rfl
  | cons a l ih =>
    rw [List.foldlM_cons, h a List.mem_cons_self]
    exact ih fun b hb => h b (List.mem_cons_of_mem _ hb)

theorem dirUpdate_unit (hL : ∀ d, Even (L d)) (hn : 2 ≤ n) (ez : Fin n) (beta : ℝ) (own : PSite L → R) (vis : Fin n × Bool → List (PSite L))
    (hvis : ∀ dp, ∀ x ∈ vis dp, VisitsPar (parityOf dp.2) x) (ω : R → ℕ → ℝ) (dp : Fin n × Bool) :
    dirUpdate (surfStaples ez 0) beta own true vis ((fun _ _ => 1 : GField L N), ω) dp = some ((fun _ _ => 1), ω) := by
  refine foldlM_fixed _ _ _ fun x hx => ?_
  have hst : stapleSpec (fun _ => surfWeight ez 0) (fun _ _ => 1 : GField L N) dp.1 x = ((2 * (n - 1) : ℝ) : ℂ) • 1 := by
    have : (fun _ => surfWeight ez 0 : Fin n → PSite L → ℝ) = fun _ _ => 1 := by
      funext _ y
      unfold surfWeight
      simp
    rw [this]
    unfold stapleSpec
    simp only [Complex.ofReal_one, one_smul, Matrix.conjTranspose_one, Matrix.mul_one]
    rw [Finset.sum_const, Finset.card_erase_of_mem (Finset.mem_univ _), Finset.card_univ, Fintype.card_fin, ← Nat.cast_smul_eq_nsmul ℂ, Nat.cast_sub (by omega),
      ← two_smul ℂ (1 : Mat N), smul_smul]
    congr 1
    push_cast
    ring
  unfold linkStep
  rw [surfStaples_eq hL hn ez 0 _ dp.1 dp.2 x (hvis dp x hx), hst]
  have hc : (0 : ℝ) < 2 * (n - 1) := by
    have : (2 : ℝ) ≤ n := by exact_mod_cast hn
    linarith
  have hor : suNOverrelax (1 : Mat N) (((2 * (n - 1) : ℝ) : ℂ) • 1) = some 1 := by
    unfold suNOverrelax
    rw [Matrix.conjTranspose_smul, Matrix.conjTranspose_one, Matrix.one_mul, Complex.star_def, Complex.conj_ofReal,
      foldlM_fixed overrelaxHit (subgroups N) _ fun pq hpq => overrelaxHit_unit _ hc pq (subgroups_ne pq hpq)]
    rfl
  simp only [Option.bind_some, if_true]
  rw [hor]
  show some (setLink _ dp.1 x 1, _) = _
  congr 2
  unfold setLink
  rw [update_eq_self_iff.2 rfl]
  exact update_eq_self_iff.2 rfl

theorem rangeTurn_unit (hL : ∀ d, Even (L d)) (hn : 2 ≤ n) (ez et : Fin n) (p : PolyPars) (beta : ℝ) (own : PSite L → R) (root : R)
    (vis : Fin n × Bool → List (PSite L)) (hvis : ∀ dp, ∀ x ∈ vis dp, VisitsPar (parityOf dp.2) x) (t : LinkState L N R × ℝ × ℝ) (ht : t.1.1 = fun _ _ => 1) (par : Bool) :
    ∃ t', rangeTurn (surfStaples ez 0) et p beta own root vis true (fun _ => 1) t par = some t' ∧ t'.1.1 = fun _ _ => 1 := by
  obtain ⟨⟨U, ω⟩, q⟩ := t
  have e : U = fun _ _ => 1 := ht
  subst e
  unfold rangeTurn
  rw [dirUpdate_unit hL hn ez beta own vis hvis]
  refine ⟨_, rfl, ?_⟩
  dsimp only
  split
  · rfl
  · show update _ et _ = _
    have : assignOn (parityOf par) (fun _ => 1 : PSite L → Mat N) (fun _ => 1) = fun _ => 1 := by
      funext y
      unfold assignOn
      split <;> rfl
    rw [this]
    exact update_eq_self_iff.2 rfl

/-- Unit links of SU(3) on 4 by 6 sites, range from 0.1 to 0.2: there is a result, and the Polyakov loop is not further from the range than before. -/
example : ∃ s' poly' acc, updateOnceRange (surfStaples 0 0) 1 ⟨false, 0.1, 0.2, 0⟩ 6 (fun x : PSite ![4, 6] => decide ((x 0).val < 2)) true
      (fun dp => gaugeSites (parityOf dp.2)) true ((fun _ _ => 1 : GField ![4, 6] 3), fun _ _ => 1 / 2) (measurePolyakov (fun _ _ => 1 : GField ![4, 6] 3) 1).re =
        some (s', poly', acc) ∧
    outside 0.1 0.2 (measurePolyakov s'.1 1).re ≤ outside 0.1 0.2 (measurePolyakov (fun _ _ => 1 : GField ![4, 6] 3) 1).re := by
  have hL : ∀ d, Even ((![4, 6] : Fin 2 → ℕ) d) := fun d => by fin_cases d <;> decide
  have hsome : ∃ r, updateOnceRange (surfStaples 0 0) 1 ⟨false, 0.1, 0.2, 0⟩ 6 (fun x : PSite ![4, 6] => decide ((x 0).val < 2)) true
      (fun dp => gaugeSites (parityOf dp.2)) true ((fun _ _ => 1 : GField ![4, 6] 3), fun _ _ => 1 / 2) (measurePolyakov (fun _ _ => 1 : GField ![4, 6] 3) 1).re = some r := by
    unfold updateOnceRange
    dsimp only
    rw [foldlM_fixed _ _ _ fun dp _ => dirUpdate_unit hL le_rfl 0 6 _ _ (fun _ => gaugeSites_ok _) _ dp, Option.bind_some, List.foldlM_cons]
    obtain ⟨t1, h1, h1'⟩ := rangeTurn_unit hL le_rfl 0 1 ⟨false, 0.1, 0.2, 0⟩ 6 (fun x : PSite ![4, 6] => decide ((x 0).val < 2)) true
      (fun dp => gaugeSites (parityOf dp.2)) (fun _ => gaugeSites_ok _)
      (((fun _ _ => 1 : GField ![4, 6] 3), fun _ _ => 1 / 2), (measurePolyakov (fun _ _ => 1 : GField ![4, 6] 3) 1).re, 0) rfl false
    obtain ⟨t2, h2, _⟩ := rangeTurn_unit hL le_rfl 0 1 ⟨false, 0.1, 0.2, 0⟩ 6 (fun x : PSite ![4, 6] => decide ((x 0).val < 2)) true
      (fun dp => gaugeSites (parityOf dp.2)) (fun _ => gaugeSites_ok _) t1 h1' true
    refine ⟨t2, ?_⟩
    rw [h1]
    show List.foldlM _ t1 _ = _
    rw [List.foldlM_cons, h2]
    rfl
  obtain ⟨⟨s', poly', acc⟩, hr⟩ := hsome
  exact ⟨s', poly', acc, hr, (C92_range_stays (surfStaples 0 0) 1 ⟨false, 0.1, 0.2, 0⟩ rfl (by norm_num) 6 _ true _ true (fun _ => gaugeSites_ok _) _ s' _ poly' acc rfl hr).1⟩

end Hila
