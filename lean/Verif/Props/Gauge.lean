import Verif.Model.Gauge
import Mathlib.LinearAlgebra.UnitaryGroup
import Mathlib.Tactic.Abel
import Mathlib.Tactic.NoncommRing

/-!
# C33: gauge invariance of loop observables
-/

namespace Hila

open Matrix

variable {n : ℕ} {L : Fin n → ℕ} {N : ℕ}

/-! ## Specification -/

/-- A gauge transformation: a unitary matrix at every site. -/
def IsGauge (g : PSite L → Mat N) : Prop := ∀ x, g x ∈ Matrix.unitaryGroup (Fin N) ℂ

/-- The transformed links, `U_d(x) -> g(x) U_d(x) g(x+d)^†`. -/
def gaugeT (g : PSite L → Mat N) (U : GField L N) : GField L N :=
  fun d x => g x * U d x * (g (x + Pi.single d 1)).conjTranspose

theorem IsGauge.left {g : PSite L → Mat N} (hg : IsGauge g) (x : PSite L) : (g x).conjTranspose * g x = 1 := by
  have := (Matrix.mem_unitaryGroup_iff').1 (hg x)
  rwa [Matrix.star_eq_conjTranspose] at this

theorem IsGauge.right {g : PSite L → Mat N} (hg : IsGauge g) (x : PSite L) : g x * (g x).conjTranspose = 1 := by
  have := (Matrix.mem_unitaryGroup_iff).1 (hg x)
  rwa [Matrix.star_eq_conjTranspose] at this

/-- Cancellation in the middle of a product. -/
theorem IsGauge.cancel {g : PSite L → Mat N} (hg : IsGauge g) (x : PSite L) (A : Mat N) :
    (g x).conjTranspose * (g x * A) = A := by rw [← Matrix.mul_assoc, hg.left, Matrix.one_mul]

theorem unitStep_comm (x : PSite L) (d e : Fin n) : x + unitStep d + unitStep e = x + unitStep e + unitStep d := by abel

theorem trace_conj {g : PSite L → Mat N} (hg : IsGauge g) (x : PSite L) (A : Mat N) :
    (g x * A * (g x).conjTranspose).trace = A.trace := by
  rw [Matrix.trace_mul_cycle, hg.left, Matrix.one_mul]

theorem gaugeT_apply (g : PSite L → Mat N) (U : GField L N) (d : Fin n) (x : PSite L) :
    gaugeT g U d x = g x * U d x * (g (x + unitStep d)).conjTranspose := rfl

/-- The plaquette at `x` in the plane of `d1` and `d2`. -/
def plaq (U : GField L N) (d1 d2 : Fin n) (x : PSite L) : Mat N :=
  U d1 x * U d2 (x + Pi.single d1 1) * (U d1 (x + Pi.single d2 1)).conjTranspose * (U d2 x).conjTranspose

theorem plaq_gauge (U : GField L N) (g : PSite L → Mat N) (hg : IsGauge g) (d1 d2 : Fin n) (x : PSite L) :
    plaq (gaugeT g U) d1 d2 x = g x * plaq U d1 d2 x * (g x).conjTranspose := by
  unfold plaq gaugeT
  simp only [Matrix.conjTranspose_mul, Matrix.conjTranspose_conjTranspose, Matrix.mul_assoc]
  have : x + (Pi.single d2 1 : PSite L) + Pi.single d1 1 = x + Pi.single d1 1 + Pi.single d2 1 := by abel
  rw [this]
  simp only [hg.cancel]

/-! ## Plaquette -/

/-- The three plaquette measurements agree. -/
theorem C33_plaquette_same [∀ d, NeZero (L d)] (U : GField L N) :
    measureSWplaq U = measurePlaq U ∧ plaquetteSum U = measurePlaq U := by
  constructor
  · unfold measureSWplaq measurePlaq
    simp only [Matrix.conjTranspose_mul, Matrix.mul_assoc]
  · have hre : ∀ d1 d2 x, (plaq U d2 d1 x).trace.re = (plaq U d1 d2 x).trace.re := by
      intro d1 d2 x
      have : plaq U d2 d1 x = (plaq U d1 d2 x).conjTranspose := by
        unfold plaq
        simp only [Matrix.conjTranspose_mul, Matrix.conjTranspose_conjTranspose, Matrix.mul_assoc]
      rw [this, Matrix.trace_conjTranspose]
      rfl
    unfold plaquetteSum measurePlaq
    rw [Finset.sum_comm]
    refine Finset.sum_congr rfl fun d1 _ => Finset.sum_congr rfl fun d2 _ => ?_
    split
    · refine Finset.sum_congr rfl fun x _ => ?_
      have := hre d1 d2 x
      unfold plaq at this
      unfold unitStep
      rw [this]
    · rfl

/-- The plaquette sum does not change under a gauge transformation. -/
theorem C33_plaquette [∀ d, NeZero (L d)] (U : GField L N) (g : PSite L → Mat N) (hg : IsGauge g) :
    measurePlaq (gaugeT g U) = measurePlaq U := by
  unfold measurePlaq
  refine Finset.sum_congr rfl fun d1 _ => Finset.sum_congr rfl fun d2 _ => ?_
  split
  · refine Finset.sum_congr rfl fun x _ => ?_
    have := plaq_gauge U g hg d1 d2 x
    have h2 := congrArg Matrix.trace this
    rw [trace_conj hg] at h2
    unfold plaq at h2
    unfold unitStep
    rw [h2]
  · rfl

/-! ## Staples -/

/-- The documented staple sum of the link at `x` in direction `d1`, with weights. -/
def stapleSpec (w : Fin n → PSite L → ℝ) (U : GField L N) (d1 : Fin n) (x : PSite L) : Mat N :=
  ∑ d2 ∈ Finset.univ.erase d1,
    ((w d2 x : ℂ) • (U d2 x * U d1 (x + Pi.single d2 1) * (U d2 (x + Pi.single d1 1)).conjTranspose) +
     (w d2 (x - Pi.single d2 1) : ℂ) • ((U d2 (x - Pi.single d2 1)).conjTranspose * U d1 (x - Pi.single d2 1) *
      U d2 (x - Pi.single d2 1 + Pi.single d1 1)))

theorem sum_erase_finRange {M : Type} [AddCommMonoid M] (d1 : Fin n) (f : Fin n → M) :
    (((List.finRange n).filter (· ≠ d1)).map f).sum = ∑ d2 ∈ Finset.univ.erase d1, f d2 := by
  have : Finset.univ.erase d1 = ((List.finRange n).filter (· ≠ d1)).toFinset := by
    ext a; simp
  rw [this, List.sum_toFinset _ ((List.nodup_finRange n).filter _)]

/-- Neighbours have opposite parity when the size is even. -/
theorem visits_opp (par : Parity) (x : PSite L) [∀ d, NeZero (L d)] (d : Fin n) (hL : par = .all ∨ 2 ∣ L d)
    (hx : VisitsPar par x) : VisitsPar (oppParity par) (x - unitStep d) := by
  have key : 2 ∣ L d → (∑ e, ((x - unitStep d : PSite L) e).val) % 2 = (∑ e, (x e).val + 1) % 2 := by
    intro h2
    rw [← Finset.add_sum_erase Finset.univ _ (Finset.mem_univ d),
      ← Finset.add_sum_erase Finset.univ (fun e => (x e).val) (Finset.mem_univ d)]
    have hrest : ∀ e ∈ Finset.univ.erase d, ((x - unitStep d : PSite L) e).val = (x e).val := by
      intro e he
      have hne := Finset.ne_of_mem_erase he
      simp [unitStep, Pi.single_eq_of_ne hne]
    rw [Finset.sum_congr rfl hrest]
    have hd : ((x - unitStep d : PSite L) d).val % 2 = ((x d).val + 1) % 2 := by
      have e1 : (x - unitStep d : PSite L) d = x d - 1 := by simp [unitStep]
      rw [e1]
      obtain ⟨k, hk⟩ := h2
      have hne := NeZero.ne (L d)
      have hv : (x d - 1 + 1).val = ((x d - 1).val + 1) % L d := by
        rw [ZMod.val_add]
        by_cases h1 : L d = 1
        · omega
        · have : Fact (1 < L d) := ⟨by omega⟩
          rw [ZMod.val_one]
      rw [sub_add_cancel] at hv
      have hlt := ZMod.val_lt (x d - 1)
      rw [hv]
      by_cases hc : (x d - 1).val + 1 = L d
      · rw [hc, Nat.mod_self]; omega
      · have := Nat.mod_eq_of_lt (show (x d - 1).val + 1 < L d by omega)
        rw [this]
        omega
    omega
  cases par with
  | none => exact hx.elim
  | all => show VisitsPar Parity.all _; trivial
  | even =>
    show VisitsPar Parity.odd _
    rcases hL with h | h
    · cases h
    · have := key h
      unfold VisitsPar at hx ⊢
      dsimp only at hx ⊢
      omega
  | odd =>
    show VisitsPar Parity.even _
    rcases hL with h | h
    · cases h
    · have := key h
      unfold VisitsPar at hx ⊢
      dsimp only at hx ⊢
      omega

theorem stapleFold [∀ d, NeZero (L d)] (par : Parity) (lo up : Fin n → PSite L → Mat N)
    (hL : par = .all ∨ ∀ d, 2 ∣ L d) (l : List (Fin n)) : ∀ (s : StapleState L N),
    (∀ x, ¬ VisitsPar par x → (l.foldl (stapleStep par lo up) s).staples x = s.staples x) ∧
    (∀ x, VisitsPar par x → s.first = true → l ≠ [] → (l.foldl (stapleStep par lo up) s).staples x =
      some ((l.map fun d2 => up d2 x + lo d2 (x - unitStep d2)).sum)) ∧
    (∀ x a, VisitsPar par x → s.first = false → s.staples x = some a →
      (l.foldl (stapleStep par lo up) s).staples x =
        some (a + (l.map fun d2 => up d2 x + lo d2 (x - unitStep d2)).sum)) := by
  induction l with
  | nil => intro s; refine ⟨fun _ _ => rfl, fun _ _ _ h => absurd rfl h, fun x a _ _ h => ?_⟩; simpa using h
  | cons d l ih =>
    intro s
    obtain ⟨h1, h2, h3⟩ := ih (stapleStep par lo up s d)
    have hlow : ∀ x, VisitsPar par x →
        (assignOn (oppParity par) s.lower (fun x => some (lo d x)) (x - unitStep d)) = some (lo d (x - unitStep d)) := by
      intro x hx
      unfold assignOn
      rw [if_pos (visits_opp par x d (hL.imp id fun h => h d) hx)]
    have hfirst : (stapleStep par lo up s d).first = false := by
      unfold stapleStep; dsimp only; split <;> rfl
    refine ⟨fun x hx => ?_, fun x hx hf _ => ?_, fun x a hx hf ha => ?_⟩
    · rw [List.foldl_cons, h1 x hx]
      unfold stapleStep
      dsimp only
      split <;> simp [assignOn, hx]
    · rw [List.foldl_cons, List.map_cons, List.sum_cons]
      refine h3 x _ hx hfirst ?_
      unfold stapleStep
      dsimp only
      rw [if_pos hf]
      dsimp only
      rw [assignOn, if_pos hx, hlow x hx]
      rfl
    · rw [List.foldl_cons, List.map_cons, List.sum_cons, ← add_assoc]
      refine h3 x _ hx hfirst ?_
      unfold stapleStep
      dsimp only
      rw [if_neg (by rw [hf]; simp)]
      dsimp only
      rw [assignOn, if_pos hx, hlow x hx, ha]
      rfl

theorem filter_ne_nil (hn : 2 ≤ n) (d1 : Fin n) : (List.finRange n).filter (· ≠ d1) ≠ [] := by
  intro h
  rw [List.filter_eq_nil_iff] at h
  have h0 := h ⟨0, by omega⟩ (List.mem_finRange _)
  have h1 := h ⟨1, by omega⟩ (List.mem_finRange _)
  simp only [decide_eq_true_eq, not_not] at h0 h1
  rw [← h1, Fin.mk.injEq] at h0
  omega

/-- The two staple sums compute the documented formula at the sites of the parity and change no other site, whatever the
output field held before. The lattice has at least two directions; for one parity the sizes are even. -/
theorem C33_staplesum [∀ d, NeZero (L d)] (hn : 2 ≤ n) (U : GField L N) (s0 : PSite L → Option (Mat N)) (d1 : Fin n)
    (plaqw : Fin n → Fin n → PSite L → ℝ) (par : Parity) (hL : par = .all ∨ ∀ d, 2 ∣ L d) (x : PSite L) :
    (VisitsPar par x → staplesum U s0 d1 par x = some (stapleSpec (fun _ _ => 1) U d1 x) ∧
      staplesumW U s0 d1 plaqw par x = some (stapleSpec (plaqw d1) U d1 x)) ∧
    (¬ VisitsPar par x → staplesum U s0 d1 par x = s0 x ∧ staplesumW U s0 d1 plaqw par x = s0 x) := by
  constructor
  · intro hx
    constructor
    · unfold staplesum
      rw [(stapleFold par _ _ hL _ _).2.1 x hx rfl (filter_ne_nil hn d1), sum_erase_finRange]
      unfold stapleSpec unitStep
      simp
    · unfold staplesumW
      rw [(stapleFold par _ _ hL _ _).2.1 x hx rfl (filter_ne_nil hn d1), sum_erase_finRange]
      unfold stapleSpec unitStep
      simp only [Matrix.smul_mul]
  · intro hx
    exact ⟨(stapleFold par _ _ hL _ _).1 x hx, (stapleFold par _ _ hL _ _).1 x hx⟩

/-- The staple sum transforms like the link, so the trace of the link with the staple is gauge invariant. -/
theorem C33_staple (U : GField L N) (g : PSite L → Mat N) (hg : IsGauge g) (w : Fin n → PSite L → ℝ) (d1 : Fin n)
    (x : PSite L) :
    stapleSpec w (gaugeT g U) d1 x = g x * stapleSpec w U d1 x * (g (x + Pi.single d1 1)).conjTranspose ∧
    (gaugeT g U d1 x * (stapleSpec w (gaugeT g U) d1 x).conjTranspose).trace =
      (U d1 x * (stapleSpec w U d1 x).conjTranspose).trace := by
  have h1 : stapleSpec w (gaugeT g U) d1 x = g x * stapleSpec w U d1 x * (g (x + Pi.single d1 1)).conjTranspose := by
    unfold stapleSpec
    rw [Finset.mul_sum, Finset.sum_mul]
    refine Finset.sum_congr rfl fun d2 _ => ?_
    unfold gaugeT
    simp only [Matrix.conjTranspose_mul, Matrix.conjTranspose_conjTranspose, Matrix.mul_add, Matrix.add_mul,
      Matrix.mul_smul, Matrix.smul_mul, Matrix.mul_assoc]
    have e1 : x + (Pi.single d2 1 : PSite L) + Pi.single d1 1 = x + Pi.single d1 1 + Pi.single d2 1 := by abel
    have e2 : x - (Pi.single d2 1 : PSite L) + Pi.single d2 1 = x := by abel
    have e3 : x - (Pi.single d2 1 : PSite L) + Pi.single d1 1 + Pi.single d2 1 = x + Pi.single d1 1 := by abel
    rw [e1, e2, e3]
    simp only [hg.cancel]
  refine ⟨h1, ?_⟩
  rw [h1]
  unfold gaugeT
  simp only [Matrix.conjTranspose_mul, Matrix.conjTranspose_conjTranspose, Matrix.mul_assoc, hg.cancel]
  rw [← Matrix.mul_assoc (U d1 x), ← Matrix.mul_assoc, trace_conj hg]

/-- The sums of reversed staples in the actions and in the HMC library are the daggers of the staple sum. -/
theorem C33_reversed_staples [∀ d, NeZero (L d)] (hn : 2 ≤ n) (U : GField L N) (s0 : PSite L → Option (Mat N))
    (d1 : Fin n) (x : PSite L) :
    rstaplesum U s0 d1 x = some (stapleSpec (fun _ _ => 1) U d1 x).conjTranspose ∧
    calcStaples U d1 x = (stapleSpec (fun _ _ => 1) U d1 x).conjTranspose := by
  let term : Fin n → PSite L → Mat N := fun d2 x =>
    U d2 (x + unitStep d1) * (U d1 (x + unitStep d2)).conjTranspose * (U d2 x).conjTranspose +
      (U d2 (x - unitStep d2 + unitStep d1)).conjTranspose * (U d1 (x - unitStep d2)).conjTranspose *
        U d2 (x - unitStep d2)
  have hspec : (stapleSpec (fun _ _ => 1) U d1 x).conjTranspose =
      (((List.finRange n).filter (· ≠ d1)).map fun d2 => term d2 x).sum := by
    rw [sum_erase_finRange]
    unfold stapleSpec
    rw [Matrix.conjTranspose_sum]
    refine Finset.sum_congr rfl fun d2 _ => ?_
    simp [term, unitStep, Matrix.conjTranspose_add, Matrix.conjTranspose_mul, Matrix.mul_assoc]
  have hr : ∀ (l : List (Fin n)) (s : Bool × (PSite L → Option (Mat N))),
      (s.1 = true → l ≠ [] → (l.foldl (rstapleStep U d1) s).2 x = some ((l.map fun d2 => term d2 x).sum)) ∧
      ∀ a, s.1 = false → s.2 x = some a →
        (l.foldl (rstapleStep U d1) s).2 x = some (a + (l.map fun d2 => term d2 x).sum) := by
    intro l
    induction l with
    | nil => intro s; exact ⟨fun _ h => absurd rfl h, fun a _ h => by simpa using h⟩
    | cons d l ih =>
      intro s
      obtain ⟨_, h2⟩ := ih (rstapleStep U d1 s d)
      refine ⟨fun hs _ => ?_, fun a hs ha => ?_⟩
      · rw [List.foldl_cons, List.map_cons, List.sum_cons]
        refine h2 _ rfl ?_
        unfold rstapleStep
        dsimp only
        rw [if_pos hs]
        simp [term, Matrix.conjTranspose_mul, Matrix.mul_assoc]
      · rw [List.foldl_cons, List.map_cons, List.sum_cons, ← add_assoc]
        refine h2 _ rfl ?_
        unfold rstapleStep
        dsimp only
        rw [if_neg (by rw [hs]; simp), ha]
        simp [term, Matrix.conjTranspose_mul, Matrix.mul_assoc, add_assoc]
  refine ⟨?_, ?_⟩
  · rw [hspec]
    exact (hr _ (true, s0)).1 rfl (filter_ne_nil hn d1)
  · rw [hspec]
    unfold calcStaples
    dsimp only
    have hc : ∀ (l : List (Fin n)) (f : PSite L → Mat N), l.foldl (fun (s : PSite L → Mat N) d2 =>
        fun x => s x + U d2 (x + unitStep d1) * (U d1 (x + unitStep d2)).conjTranspose * (U d2 x).conjTranspose +
          (U d2 (x - unitStep d2 + unitStep d1)).conjTranspose * (U d1 (x - unitStep d2)).conjTranspose *
            U d2 (x - unitStep d2)) f x = f x + (l.map fun d2 => term d2 x).sum := by
      intro l
      induction l with
      | nil => intro f; simp
      | cons d l ih =>
        intro f
        rw [List.foldl_cons, ih, List.map_cons, List.sum_cons]
        simp only [term]
        abel
    rw [hc]
    simp

/-! ## Polyakov loop -/

/-- The line of `k` links from `x` in direction `dir`. -/
def line (U : GField L N) (dir : Fin n) : ℕ → PSite L → Mat N
  | 0, _ => 1
  | k + 1, x => U dir x * line U dir k (x + Pi.single dir 1)

theorem line_gauge (U : GField L N) (g : PSite L → Mat N) (hg : IsGauge g) (dir : Fin n) : ∀ k x,
    line (gaugeT g U) dir k x = g x * line U dir k x * (g (x + (k : ℕ) • Pi.single dir 1)).conjTranspose := by
  intro k
  induction k with
  | zero => intro x; simp [line, hg.right]
  | succ k ih =>
    intro x
    rw [line, ih, line]
    unfold gaugeT
    have e : x + (Pi.single dir 1 : PSite L) + k • Pi.single dir 1 = x + (k + 1) • Pi.single dir 1 := by
      rw [add_smul, one_smul]; abel
    rw [e]
    simp only [Matrix.mul_assoc, hg.cancel]

/-- The Polyakov line at the sites of plane 0 is the product of all links of the line, in order. -/
theorem C33_polyakov_line [∀ d, NeZero (L d)] (U : GField L N) (dir : Fin n) (x : PSite L) (hx : (x dir).val = 0) :
    polyakovLines U dir x = line U dir (L dir) x := by
  have hpos := Nat.pos_of_ne_zero (NeZero.ne (L dir))
  have key : ∀ m, m ≤ L dir - 1 → ∀ (y : PSite L),
      (((List.range m).map fun i => L dir - 2 - i).foldl (polyakovPlane U dir) (U dir)) y =
        if L dir - 1 - m ≤ (y dir).val then line U dir (L dir - (y dir).val) y else U dir y := by
    intro m
    induction m with
    | zero =>
      intro _ y
      have hlt := ZMod.val_lt (y dir)
      simp only [List.range_zero, List.map_nil, List.foldl_nil]
      split
      · have : L dir - (y dir).val = 1 := by omega
        rw [this]
        simp [line]
      · rfl
    | succ m ih =>
      intro hm y
      have hlt := ZMod.val_lt (y dir)
      rw [List.range_succ, List.map_append, List.foldl_append]
      simp only [List.map_cons, List.map_nil, List.foldl_cons, List.foldl_nil]
      unfold polyakovPlane
      split
      · rename_i hp
        have hL1 : Fact (1 < L dir) := ⟨by omega⟩
        have hv : ((y + unitStep dir : PSite L) dir).val = (y dir).val + 1 := by
          have : (y + unitStep dir : PSite L) dir = y dir + 1 := by simp [unitStep]
          rw [this, ZMod.val_add, ZMod.val_one, Nat.mod_eq_of_lt (by omega)]
        have hih := ih (by omega) (y + unitStep dir)
        unfold polyakovPlane at hih
        rw [hih, hv, if_pos (by omega), if_pos (by omega)]
        have : L dir - (y dir).val = (L dir - ((y dir).val + 1)) + 1 := by omega
        rw [this, line]
        rfl
      · rename_i hp
        have hih := ih (by omega) y
        unfold polyakovPlane at hih
        rw [hih]
        by_cases hc : L dir - 1 - m ≤ (y dir).val
        · rw [if_pos hc, if_pos (by omega)]
        · rw [if_neg hc, if_neg (by omega)]
  have hlist : (List.range (L dir - 1)).reverse = (List.range (L dir - 1)).map fun i => L dir - 2 - i := by
    apply List.ext_getElem
    · simp
    · intro i h1 h2
      simp at h1
      simp
      omega
  unfold polyakovLines
  rw [hlist, key _ (le_refl _) x, if_pos (by omega), hx, Nat.sub_zero]

/-- The Polyakov loop is the average of the traces of all lines, and it does not change under a gauge transformation. -/
theorem C33_polyakov [∀ d, NeZero (L d)] (U : GField L N) (g : PSite L → Mat N) (hg : IsGauge g) (dir : Fin n) :
    measurePolyakov U dir = (∑ x : PSite L, if (x dir).val = 0 then (line U dir (L dir) x).trace else 0) /
      ((∏ d ∈ Finset.univ.erase dir, L d : ℕ) : ℂ) ∧
    measurePolyakov (gaugeT g U) dir = measurePolyakov U dir := by
  have h1 : ∀ U : GField L N, measurePolyakov U dir =
      (∑ x : PSite L, if (x dir).val = 0 then (line U dir (L dir) x).trace else 0) /
      ((∏ d ∈ Finset.univ.erase dir, L d : ℕ) : ℂ) := by
    intro U
    unfold measurePolyakov
    congr 1
    · refine Finset.sum_congr rfl fun x _ => ?_
      split
      · rename_i hx
        rw [C33_polyakov_line U dir x hx]
      · rfl
    · rw [← Finset.mul_prod_erase Finset.univ L (Finset.mem_univ dir),
        Nat.mul_div_cancel_left _ (Nat.pos_of_ne_zero (NeZero.ne _))]
  refine ⟨h1 U, ?_⟩
  rw [h1, h1]
  congr 1
  refine Finset.sum_congr rfl fun x _ => ?_
  split
  · rw [line_gauge U g hg]
    have : x + (L dir) • (Pi.single dir 1 : PSite L) = x := by
      funext e
      by_cases he : e = dir
      · subst he; simp
      · simp [Pi.single_eq_of_ne he]
    rw [this, trace_conj hg]
  · rfl

/-- The long links of a blocked gauge field (`block_gauge`: one link or the product of two) transform with the gauge
transformation at the ends, as do products of any number of links. -/
theorem C33_long_link (U : GField L N) (g : PSite L → Mat N) (hg : IsGauge g) (dir : Fin n) (x : PSite L) :
    gaugeT g U dir x = g x * U dir x * (g (x + Pi.single dir 1)).conjTranspose ∧
    gaugeT g U dir x * gaugeT g U dir (x + Pi.single dir 1) =
      g x * (U dir x * U dir (x + Pi.single dir 1)) * (g (x + 2 • Pi.single dir 1)).conjTranspose ∧
    ∀ k, line (gaugeT g U) dir k x = g x * line U dir k x * (g (x + (k : ℕ) • Pi.single dir 1)).conjTranspose := by
  refine ⟨rfl, ?_, fun k => line_gauge U g hg dir k x⟩
  have := line_gauge U g hg dir 2 x
  simpa [line] using this

/-- `polyakov_loop` of the HMC library is the sum of traces of single links: `polyakov[X]` is never multiplied by the
product of the plane before. -/
theorem hmcPolyakovLoop_eq [∀ d, NeZero (L d)] (U : GField L N) (dir : Fin n) :
    hmcPolyakovLoop U dir = (∑ x : PSite L, if (x dir).val = 0 then (U dir (x - unitStep dir)).trace.re else 0) /
      (N * (((∏ d, L d) / L dir : ℕ) : ℝ)) := by
  unfold hmcPolyakovLoop
  congr 1
  refine Finset.sum_congr rfl fun x _ => ?_
  split
  · rename_i hx
    have hpos := Nat.pos_of_ne_zero (NeZero.ne (L dir))
    have key : ∀ k, k ≤ L dir - 1 → (List.range k).foldl (hmcPolyakovStep U dir) (fun _ => 1) x = 1 := by
      intro k
      induction k with
      | zero => intro _; rfl
      | succ k ih =>
        intro hk
        rw [List.range_succ, List.foldl_append, List.foldl_cons, List.foldl_nil]
        have hm : (k + 1) % L dir = k + 1 := Nat.mod_eq_of_lt (by omega)
        rw [hmcPolyakovStep, if_neg (by rw [hx, hm]; omega)]
        exact ih (by omega)
    have hL : L dir = (L dir - 1) + 1 := by omega
    have hlast : (List.range (L dir)).foldl (hmcPolyakovStep U dir) (fun _ => 1) x = U dir (x - unitStep dir) := by
      conv_lhs => rw [hL]
      rw [List.range_succ, List.foldl_append, List.foldl_cons, List.foldl_nil, hmcPolyakovStep, if_pos, key _ (le_refl _),
        Matrix.one_mul]
      rw [hx, Nat.sub_add_cancel hpos, Nat.mod_self]
    rw [hlast]
  · rfl

/-- Negation: `polyakov_loop` of the HMC library is not gauge invariant, even with a single direction of two sites and
1 x 1 matrices. -/
theorem C33_hmc_polyakov_not_invariant :
    ∃ (U : GField (fun _ : Fin 1 => 2) 1) (g : PSite (fun _ : Fin 1 => 2) → Mat 1), IsGauge g ∧
      hmcPolyakovLoop (gaugeT g U) 0 ≠ hmcPolyakovLoop U 0 := by
  let g : PSite (fun _ : Fin 1 => 2) → Mat 1 := fun x => if x 0 = 0 then 1 else -1
  refine ⟨fun _ _ => 1, g, ?_, ?_⟩
  · intro x
    rw [Matrix.mem_unitaryGroup_iff]
    by_cases h : x 0 = 0 <;> simp [g, h]
  · have hU : ∀ x, gaugeT g (fun _ _ => 1) 0 x = -1 := by
      intro x
      have h01 : x 0 = 0 ∨ x 0 = 1 := by
        have : ∀ a : ZMod 2, a = 0 ∨ a = 1 := by decide
        exact this (x 0)
      have e1 : (1 : ZMod 2) + 1 = 0 := by decide
      rcases h01 with h | h <;> simp [gaugeT, g, h, e1]
    rw [hmcPolyakovLoop_eq, hmcPolyakovLoop_eq]
    simp only [hU]
    have hcount : 0 < ∑ x : PSite (fun _ : Fin 1 => 2), if (x 0).val = 0 then (1 : ℝ) else 0 := by
      refine Finset.sum_pos' (fun x _ => by split <;> norm_num) ⟨0, Finset.mem_univ _, ?_⟩
      simp
    have hneg : (∑ x : PSite (fun _ : Fin 1 => 2), if (x 0).val = 0 then ((-1 : Mat 1)).trace.re else 0) =
        - ∑ x : PSite (fun _ : Fin 1 => 2), if (x 0).val = 0 then (1 : ℝ) else 0 := by
      rw [← Finset.sum_neg_distrib]
      refine Finset.sum_congr rfl fun x _ => ?_
      split <;> simp
    have hposi : (∑ x : PSite (fun _ : Fin 1 => 2), if (x 0).val = 0 then ((1 : Mat 1)).trace.re else 0) =
        ∑ x : PSite (fun _ : Fin 1 => 2), if (x 0).val = 0 then (1 : ℝ) else 0 := by
      refine Finset.sum_congr rfl fun x _ => ?_
      split <;> simp
    rw [hneg, hposi]
    intro heq
    simp at heq
    exact heq (x := 0) rfl

/-- Negation: with an odd size, `staplesum` on one parity reads elements of `lower` that were never assigned. Witness:
3 x 2 sites, even sites. -/
theorem C33_staplesum_odd_size (U : GField (![3, 2] : Fin 2 → ℕ) N) (s0 : PSite (![3, 2] : Fin 2 → ℕ) → Option (Mat N)) :
    staplesum U s0 1 .even 0 = none := by
  have hl : (List.finRange 2).filter (· ≠ (1 : Fin 2)) = [0] := by decide
  unfold staplesum
  rw [hl, List.foldl_cons, List.foldl_nil]
  unfold stapleStep
  dsimp only
  rw [if_pos rfl]
  dsimp only
  have h1 : VisitsPar Parity.even (0 : PSite (![3, 2] : Fin 2 → ℕ)) := by decide
  have h2 : ¬ VisitsPar (oppParity Parity.even) ((0 : PSite (![3, 2] : Fin 2 → ℕ)) - unitStep 0) := by decide
  rw [assignOn, if_pos h1, assignOn, if_neg h2]
  rfl

/-! Hypotheses are met: a gauge transformation that is not constant, even sizes. -/
example : IsGauge (fun x : PSite (![4, 2] : Fin 2 → ℕ) => if x 0 = 0 then (1 : Mat 2) else -1) := by
  intro x
  rw [Matrix.mem_unitaryGroup_iff]
  dsimp only
  split <;> simp

example : ∀ d, 2 ∣ (![4, 2] : Fin 2 → ℕ) d := by decide

end Hila
