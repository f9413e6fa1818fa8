import Verif.Lemmas.ShiftBuf
import Verif.Props.Gather

/-!
# C06, C41: shifted fields and reads at arbitrary offsets
-/

namespace Hila

open BigOperators

/-- Specification: `e` is the site reached from `c` by the displacement `v` on the periodic lattice
of extents `L`. -/
def IsPeriodicShift {n : ℕ} (L : Site n) (v : CV n) (c e : Site n) : Prop :=
  ∀ b, e b < L b ∧ (L b : ℤ) ∣ ((c b : ℤ) + v b) - e b

theorem isPeriodicShift_iff {n : ℕ} (lay : Layout n) (h : lay.WF) (v : CV n) (c e : Site n) :
    IsPeriodicShift lay.L v c e ↔ e = shiftAt lay v c := by
  constructor
  · intro he
    funext b
    obtain ⟨h1, h2⟩ := he b
    have hL := h.L_pos b
    have h3 : ((c b : ℤ) + v b) % (lay.L b : ℤ) = (e b : ℤ) := by
      rw [← Int.emod_eq_of_lt (show (0 : ℤ) ≤ e b by omega) (show (e b : ℤ) < lay.L b by omega)]
      exact Int.emod_eq_emod_iff_emod_sub_eq_zero.2 (Int.emod_eq_zero_of_dvd h2)
    simp only [shiftAt, h3]
    omega
  · intro he b
    subst he
    refine ⟨shiftAt_inLattice lay h v c b, ?_⟩
    have hL := h.L_pos b
    have h2 := Int.emod_nonneg ((c b : ℤ) + v b) (show (lay.L b : ℤ) ≠ 0 by omega)
    simp only [shiftAt]
    rw [Int.toNat_of_nonneg h2]
    exact Int.dvd_self_sub_emod

theorem visits_iff {n : ℕ} (p : Parity) (c : Site n) : Visits p c ↔ p.visits c.parity = true := by
  unfold Visits Parity.visits
  simp

/-- **C06.** `f.shift(v)`: for every displacement, lattice, division and gather status of the
source, every site of the result gets the value of `f` at the periodically displaced site. -/
theorem C06_shift {n : ℕ} {V : Type} (lay : Layout n) (h : lay.WF) (ready : Dir n → Bool)
    (f : Site n → V) (v : CV n) (res : Site n → Option V) :
    ∃ g, shift lay ready f v res .all = some g ∧
      ∀ c e, lay.InLattice c → IsPeriodicShift lay.L v c e → g c = some (f e) := by
  obtain ⟨g, h1, h2, _⟩ := shift_spec lay h ready f v res .all (Or.inl rfl)
  refine ⟨g, h1, fun c e hc he => ?_⟩
  rw [isPeriodicShift_iff lay h] at he
  rw [he]
  exact h2 c hc rfl

example : IsPeriodicShift exampleLayout.L ![-7, 4] ![4, 2] ![2, 0] := by
  unfold IsPeriodicShift; decide

/-- **C06.** Shifting one parity: with even extents in the directions moved, the sites of that
parity get the displaced values and the other sites of the result are left alone.
(`_partial`: false for odd extents, see `C06_shift_parity_odd`.) -/
theorem C06_shift_parity_partial {n : ℕ} {V : Type} (lay : Layout n) (h : lay.WF)
    (ready : Dir n → Bool) (f : Site n → V) (v : CV n) (res : Site n → Option V) (par : Parity)
    (hev : ∀ b, v b ≠ 0 → lay.L b % 2 = 0) :
    ∃ g, shift lay ready f v res par = some g ∧
      (∀ c e, lay.InLattice c → Visits par c → IsPeriodicShift lay.L v c e → g c = some (f e)) ∧
      ∀ c, ¬ Visits par c → g c = res c := by
  obtain ⟨g, h1, h2, h3⟩ := shift_spec lay h ready f v res par (Or.inr hev)
  refine ⟨g, h1, fun c e hc hv he => ?_, fun c hc => h3 c ?_⟩
  · rw [isPeriodicShift_iff lay h] at he
    rw [he]
    exact h2 c hc ((visits_iff par c).1 hv)
  · rw [visits_iff] at hc
    simpa using hc

/-- One periodic direction of three sites, not divided. -/
def line3 : Layout 1 := ⟨fun _ => 3, fun _ => 1, id, id⟩

theorem line3_wf : line3.WF :=
  ⟨by decide, by decide, fun _ h => h, fun _ h => h, fun _ _ => rfl, fun _ _ => rfl⟩

/-- **C06, negation.** With an odd extent a shift restricted to EVEN copies an element of the
temporary field that was never assigned: on three sites, shift by 2, site 2. -/
theorem C06_shift_parity_odd :
    ¬ ∀ (v : CV 1) (f : Site 1 → ℕ), ∃ g, shift line3 (fun _ => false) f v (fun _ => none) .even = some g ∧
      ∀ c e, line3.InLattice c → Visits .even c → IsPeriodicShift line3.L v c e → g c = some (f e) := by
  intro hh
  obtain ⟨g, h1, h2⟩ := hh ![2] (fun c => c 0)
  have h3 := h2 ![2] ![1] (by unfold Layout.InLattice; decide) (by decide)
    (by unfold IsPeriodicShift; decide)
  have h4 : (shift line3 (fun _ => false) (fun c => c 0) ![2] (fun _ => none) .even).map
      (fun g => g ![2]) = some none := by decide +kernel
  rw [h1, Option.map_some, h3] at h4
  cases h4

/-! ## C41 -/

theorem announce_ok {n : ℕ} {V : Type} (lay : Layout n) (f : Site n → V) (vs : List (CV n)) :
    ∀ B : List (ShiftEntry n V), BufOK lay f B →
      BufOK lay f (vs.foldl addOffset B) ∧ BufExt B (vs.foldl addOffset B) ∧
      ∀ v ∈ vs, v ≠ 0 → ∃ e ∈ vs.foldl addOffset B, e.offset = v := by
  induction vs with
  | nil => intro B hB; exact ⟨hB, BufExt.refl B, by simp⟩
  | cons v vs ih =>
    intro B hB
    obtain ⟨a1, a2, _, a4⟩ := addOffset_ok lay f B v hB
    obtain ⟨b1, b2, b3⟩ := ih _ a1
    refine ⟨b1, a2.trans b2, fun w hw hw0 => ?_⟩
    rcases List.mem_cons.1 hw with e | e
    · subst e
      obtain ⟨x, hx, hxo⟩ := a4 hw0
      obtain ⟨i, hi⟩ := List.mem_iff_getElem?.1 hx
      obtain ⟨y, hy, hyo, _⟩ := b2 i x hi
      exact ⟨y, List.mem_iff_getElem?.2 ⟨i, hy⟩, hyo.trans hxo⟩
    · exact b3 w e hw0

theorem refOK_ext {n : ℕ} {V : Type} (B B' : List (ShiftEntry n V)) (h : BufExt B B') (v : CV n)
    (P : Parity) (r : BufRef) (hr : RefOK B v P r) : RefOK B' v P r := by
  rcases hr with hr | ⟨i, e, hr, hi, ho, hp⟩
  · exact Or.inl hr
  · obtain ⟨e', h1, h2, h3⟩ := h i e hi
    exact Or.inr ⟨i, e', hr, h1, h2.trans ho, fun q hq hv => h3 q hq (hp q hq hv)⟩

theorem fetch_fold {n : ℕ} {V : Type} (lay : Layout n) (h : lay.WF) (f : Site n → V)
    (cap fuel : ℕ) (P : Parity) (hev : P = .all ∨ ∀ b, lay.L b % 2 = 0) (vs : List (CV n)) :
    ∀ (B : List (ShiftEntry n V)) (done : List (CV n)) (refs : List BufRef), BufOK lay f B →
      (∀ v ∈ vs, v ≠ 0 → ∃ e ∈ B, e.offset = v) → (∀ v ∈ vs, v.normL1 < fuel) →
      (B.length : ℤ) + (vs.map fun v => max 0 (v.normL1 - 1)).sum ≤ cap →
      List.Forall₂ (fun v r => RefOK B v P r) done refs →
      let out := vs.foldl (fun (acc : List (ShiftEntry n V) × List BufRef) v =>
        let (B', r) := doShift lay f cap fuel acc.1 v P
        (B', acc.2 ++ [r])) (B, refs)
      BufOK lay f out.1 ∧ List.Forall₂ (fun v r => RefOK out.1 v P r) (done ++ vs) out.2 := by
  induction vs with
  | nil => intro B done refs hB _ _ _ hd; simpa using ⟨hB, hd⟩
  | cons v vs ih =>
    intro B done refs hB hin hfu hcap hd
    have hnn := normL1_nonneg v
    have hsum : 0 ≤ (vs.map fun v => max 0 (CV.normL1 v - 1)).sum := by
      apply List.sum_nonneg
      intro x hx
      obtain ⟨w, _, rfl⟩ := List.mem_map.1 hx
      exact le_max_left _ _
    rw [List.map_cons, List.sum_cons] at hcap
    obtain ⟨B', r, h1, h2, h3, h4, h5⟩ := doShift_spec lay h f cap fuel B v P hB hev
      (hin v (by simp)) (hfu v (by simp)) (by omega)
    have hin' : ∀ w ∈ vs, w ≠ 0 → ∃ e ∈ B', e.offset = w := by
      intro w hw hw0
      obtain ⟨x, hx, hxo⟩ := hin w (by simp [hw]) hw0
      obtain ⟨i, hi⟩ := List.mem_iff_getElem?.1 hx
      obtain ⟨y, hy, hyo, _⟩ := h3 i x hi
      exact ⟨y, List.mem_iff_getElem?.2 ⟨i, hy⟩, hyo.trans hxo⟩
    have hd' : List.Forall₂ (fun v r => RefOK B' v P r) (done ++ [v]) (refs ++ [r]) := by
      apply List.rel_append
      · exact hd.imp fun w r' hr => refOK_ext B B' h3 w P r' hr
      · simpa using h5
    have := ih B' (done ++ [v]) (refs ++ [r]) h2 hin' (fun w hw => hfu w (by simp [hw]))
      (by omega) hd'
    simp only [List.foldl_cons, h1]
    simpa using this

/-- **C41.** Reading `f[X + v]` for any list of offsets in a loop over `par`: if the lengths of the
offsets add up to at most the reserved buffer size (so that it is never reallocated), all
references obtained before the loop are valid when the loop runs and each gives, at every visited
site, the value of `f` at the displaced site. Holds for ALL loops on any lattice and for
EVEN and ODD loops on lattices with even extents.
(`_partial`: false beyond the capacity, `C41_dangling_reference`, and for one-parity loops on odd
extents, `C41_offset_odd_extent`.) -/
theorem C41_offset_reads_partial {n : ℕ} {V : Type} (lay : Layout n) (h : lay.WF) (f : Site n → V)
    (cap0 fuel : ℕ) (vs : List (CV n)) (par : Parity)
    (hev : par = .all ∨ ∀ b, lay.L b % 2 = 0)
    (hfuel : ∀ v ∈ vs, v.normL1 < fuel)
    (hcap : (vs.map CV.normL1).sum ≤ cap0) :
    let out := fetchOffsets lay f cap0 fuel vs par
    List.Forall₂ (fun v ref => ∃ g, BufRef.field f out.1 ref = some g ∧
      ∀ c e, lay.InLattice c → Visits par c → IsPeriodicShift lay.L v c e → g c = some (f e))
      vs out.2 := by
  intro out
  have hB0 : BufOK lay f ([] : List (ShiftEntry n V)) := ⟨by simp, by simp, by simp⟩
  obtain ⟨a1, _, a3⟩ := announce_ok lay f vs [] hB0
  have hlen : ∀ (ws : List (CV n)) (B : List (ShiftEntry n V)),
      ((ws.foldl addOffset B).length : ℤ) + (ws.map fun v => max 0 (v.normL1 - 1)).sum ≤
        B.length + (ws.map CV.normL1).sum := by
    intro ws
    induction ws with
    | nil => intro B; simp
    | cons w ws ih =>
      intro B
      rw [List.foldl_cons, List.map_cons, List.sum_cons, List.map_cons, List.sum_cons]
      have h1 := ih (addOffset B w)
      have h2 : ((addOffset B w).length : ℤ) + max 0 (w.normL1 - 1) ≤ B.length + w.normL1 := by
        have hnn := normL1_nonneg w
        unfold addOffset
        split
        · omega
        · rename_i hz
          split
          · omega
          · rw [List.length_append, List.length_singleton]; push_cast; omega
      omega
  have h1 := hlen vs []
  simp only [List.length_nil, Nat.cast_zero, zero_add] at h1
  obtain ⟨b1, b2⟩ := fetch_fold lay h f (max cap0 (vs.foldl addOffset []).length) fuel par hev vs
    (vs.foldl addOffset []) [] [] a1 a3 hfuel (by push_cast; omega) (by simp)
  rw [List.nil_append] at b2
  refine b2.imp fun v r hr => ?_
  obtain ⟨g, hg1, hg2⟩ := holds_of_ref lay f _ b1 v par r hr
  refine ⟨g, hg1, fun c e hc hv he => ?_⟩
  rw [isPeriodicShift_iff lay h] at he
  rw [he]
  exact hg2 c hc ((visits_iff par c).1 hv)

example : ∀ v ∈ ([![-7, 4], ![0, 0], ![1, 0], ![-7, 4]] : List (CV 2)), CV.normL1 v < 12 := by decide
example : ([![-7, 4], ![0, 0], ![1, 0], (![-7, 4] : CV 2)].map CV.normL1).sum ≤ ((100 : ℕ) : ℤ) := by
  decide

/-- **C41, negation.** Reading `f[X + v]` in a loop when `v` is longer than the capacity of the
buffer appends beyond the reserved space while references into the buffer are held. -/
theorem C41_dangling_reference {n : ℕ} {V : Type} (lay : Layout n) (f : Site n → V) (cap0 : ℕ)
    (hcap : 0 < cap0) (v : CV n) (hv : (cap0 : ℤ) < v.normL1) (par : Parity) (hpar : par ≠ .none)
    (fuel : ℕ) (hfuel : cap0 ≤ fuel) :
    (fetchOffsets lay f cap0 fuel [v] par).2 = [.dangling] := by
  have hadd : addOffset ([] : List (ShiftEntry n V)) v = [⟨v, .none, fun _ => none⟩] := by
    unfold addOffset
    rw [if_neg (by omega)]; rfl
  have := doShift_dangling lay f cap0 (cap0 - 1) fuel [⟨v, .none, fun _ => none⟩] v par hpar
    (by simp) (by simp) (by simp; omega) (by omega) (by omega)
  simp only [fetchOffsets, List.foldl_cons, List.foldl_nil, hadd, List.nil_append,
    List.length_singleton, max_eq_left (show 1 ≤ cap0 from hcap)]
  rw [this]

/-- The 100 entries the code reserves do not suffice for `f[X + 101 e_x]`. -/
example : (fetchOffsets line3 (fun c => c 0) 100 200 [fun _ => 101] .all).2 = [.dangling] :=
  C41_dangling_reference line3 _ 100 (by decide) _ (by decide) .all (by decide) 200 (by decide)

/-- **C41, negation.** An EVEN loop reading `f[X + 2 e_x]` on three sites reads an element that was
never assigned. -/
theorem C41_offset_odd_extent :
    ((fetchOffsets line3 (fun c => c 0) 100 10 [![2]] .even).2.map fun r =>
      (r.field (fun c => c 0) (fetchOffsets line3 (fun c => c 0) 100 10 [![2]] .even).1).map
        fun g => g ![2]) = [some none] := by
  decide +kernel

end Hila
