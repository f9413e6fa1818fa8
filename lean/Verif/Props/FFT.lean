import Verif.Lemmas.FFT
import Verif.Props.SiteSelect
import Mathlib.RingTheory.RootsOfUnity.Complex

/-!
# C17 and C18: FFT and reflection

`NoEmptyRank`: every rank has sites (otherwise the set-up divides by zero). The loops over the sites
run in any order. The contents of the freshly allocated buffers (`uninit`) and of the work buffer
(`junk`) are arbitrary.
-/

namespace Hila

variable {n : ℕ} {A : Type}

/-- The lattice is not cut into more pieces than it has sites in any direction. -/
def NoEmptyRank (lay : Layout n) : Prop := ∀ d, lay.ndiv d ≤ lay.L d

theorem order_box {lay : Layout n} (hw : lay.WF) {order : ℕ → List (Site n)}
    (ho : Order lay .all order) (r : ℕ) (hr : r < lay.numNodes) (c : Site n) :
    c ∈ order r ↔ BoxOf lay r c := by
  rw [(ho r hr).2 c]
  constructor
  · rintro ⟨⟨hc, _⟩, h⟩
    exact (inBox_iff_nodeRank lay hw r hr c hc).2 h
  · intro h
    have hc := inBox_inLattice lay hw r c h
    exact ⟨⟨hc, .inl rfl⟩, (inBox_iff_nodeRank lay hw r hr c hc).1 h⟩

/-- The result required of a transform in the directions `dirs`: all lines in the first direction are
transformed, then all lines in the second, and so on. -/
def transformLines (F : Fin n → (ℕ → A) → ℕ → A) (dirs : List (Fin n)) (f : Site n → ℕ → A) :
    Site n → ℕ → A :=
  dirs.foldl (fun g d c e => F d (fun t => g (Function.update c d t) e) (c d)) f

/-- **C17 (data path).** For every one-dimensional transform, every division of the lattice over
ranks, all element counts and all non-empty sets of directions, every element of every site gets
the value obtained by transforming all lines in the requested directions. Missing: the empty set of
directions, see `C17_no_direction_undefined`. -/
theorem C17_transforms_lines_partial (lay : Layout n) (hw : lay.WF) (hne : NoEmptyRank lay) (E : ℕ)
    (F : Fin n → (ℕ → A) → ℕ → A) (hF : ∀ d, LocalTo (lay.L d) (F d)) (junk : ℕ → A)
    (uninit : ℕ → PBuf A) (order : ℕ → List (Site n)) (ho : Order lay .all order)
    (directions : Fin n → Bool) (hd : ∃ d, directions d = true) (f : Site n → ℕ → A) :
    ∃ out, fullTransform lay E F junk uninit order directions f = some out ∧
      ∀ c, lay.InLattice c → ∀ e < E, out c e =
        transformLines F ((List.finRange n).filter fun d => directions d) f c e :=
  fullTransform_spec hw hne E F hF junk uninit order (order_box hw ho) directions hd f

/-- **C17 (layout independence).** Two divisions of the same lattice give the same result. -/
theorem C17_layout_independent_partial (lay lay' : Layout n) (hw : lay.WF) (hw' : lay'.WF)
    (hL : lay.L = lay'.L) (hne : NoEmptyRank lay) (hne' : NoEmptyRank lay') (E : ℕ)
    (F : Fin n → (ℕ → A) → ℕ → A) (hF : ∀ d, LocalTo (lay.L d) (F d)) (junk junk' : ℕ → A)
    (uninit uninit' : ℕ → PBuf A) (order order' : ℕ → List (Site n)) (ho : Order lay .all order)
    (ho' : Order lay' .all order') (directions : Fin n → Bool) (hd : ∃ d, directions d = true)
    (f : Site n → ℕ → A) :
    ∃ out out', fullTransform lay E F junk uninit order directions f = some out ∧
      fullTransform lay' E F junk' uninit' order' directions f = some out' ∧
      ∀ c, lay.InLattice c → ∀ e < E, out c e = out' c e := by
  obtain ⟨out, h1, h2⟩ := C17_transforms_lines_partial lay hw hne E F hF junk uninit order ho
    directions hd f
  obtain ⟨out', h3, h4⟩ := C17_transforms_lines_partial lay' hw' hne' E F
    (fun d => hL ▸ hF d) junk' uninit' order' ho' directions hd f
  refine ⟨out, out', h1, h3, fun c hc e he => ?_⟩
  rw [h2 c hc e he, h4 c (fun d => hL ▸ hc d) e he]

/-- **C17 (no direction).** With no direction requested the result is copied from uninitialised
buffers. -/
theorem C17_no_direction_undefined (lay : Layout n) (E : ℕ) (F : Fin n → (ℕ → A) → ℕ → A)
    (junk : ℕ → A) (uninit : ℕ → PBuf A) (order : ℕ → List (Site n)) (f : Site n → ℕ → A) :
    fullTransform lay E F junk uninit order (fun _ => false) f = none := by
  simp [fullTransform]

/-! ### Bounds and messages -/

theorem foldl_max_ge {ι : Type} (g : ι → ℕ) (l : List ι) (b : ℕ) :
    b ≤ l.foldl (fun b d => if g d > b then g d else b) b ∧
    ∀ d ∈ l, g d ≤ l.foldl (fun b d => if g d > b then g d else b) b := by
  induction l generalizing b with
  | nil => exact ⟨le_refl _, fun d hd => by cases hd⟩
  | cons a l ih =>
    rw [List.foldl_cons]
    obtain ⟨h1, h2⟩ := ih (if g a > b then g a else b)
    have h3 : b ≤ (if g a > b then g a else b) ∧ g a ≤ (if g a > b then g a else b) := by
      split <;> omega
    refine ⟨le_trans h3.1 h1, fun d hd => ?_⟩
    rcases List.mem_cons.1 hd with rfl | hd
    · exact le_trans h3.2 h1
    · exact h2 d hd

theorem fftBufSize_ge (lay : Layout n) (r : ℕ) :
    (lay.nodeinfo r).volume ≤ fftBufSize lay r ∧ ∀ d, pencilRecvBufSize lay r d ≤ fftBufSize lay r := by
  unfold fftBufSize
  obtain ⟨_, h2⟩ := foldl_max_ge (pencilRecvBufSize lay r) (List.finRange n) 1
  dsimp only
  split
  · exact ⟨le_refl _, fun d => by have := h2 d (List.mem_finRange d); omega⟩
  · exact ⟨by omega, fun d => h2 d (List.mem_finRange d)⟩

/-- **C17 (bounds).** All addresses used by a rank are inside its buffers of `fftBufSize * E`
elements: the elements of its sites, the ranges it sends and the ranges it receives, works on and
sends back. -/
theorem C17_in_bounds (lay : Layout n) (hw : lay.WF) (hne : NoEmptyRank lay) (E r : ℕ)
    (hr : r < lay.numNodes) (dir : Fin n) :
    (∀ c, lay.InLattice c → lay.nodeRank c = r → ∀ e < E,
      pencilAddr (lay.nodeinfo r) dir E c e < fftBufSize lay r * E) ∧
    ∀ i < lay.ndiv dir,
      columnOffset lay r dir i * E + columnNumber lay r dir i * E * (lay.nodeinfo r).size dir ≤
        fftBufSize lay r * E ∧
      (recPtr lay E r dir i).2 + recvBufSize lay r dir i * E ≤ fftBufSize lay r * E := by
  obtain ⟨hv, hrec⟩ := fftBufSize_ge lay r
  have hvol : (lay.nodeinfo r).volume = totalColumns lay r dir * lay.boxSize r dir := by
    rw [totalColumns_eq hw hne, nodeinfo_eq, ofBox_volume,
      ← Finset.mul_prod_erase _ _ (Finset.mem_univ dir),
      ← Finset.mul_prod_erase Finset.univ (Function.update (lay.boxSize r) dir 1)
        (Finset.mem_univ dir), Function.update_self, Nat.one_mul, Nat.mul_comm]
    congr 1
    apply Finset.prod_congr rfl
    intro d hd
    rw [Function.update_of_ne (Finset.ne_of_mem_erase hd)]
  have hsend : ∀ i < lay.ndiv dir,
      columnOffset lay r dir i * E + columnNumber lay r dir i * E * (lay.nodeinfo r).size dir ≤
        fftBufSize lay r * E := by
    intro i hi
    have hm := colStart_mono (lay := lay) r dir i (i + 1) (by omega)
    have hT : colStart lay r dir (i + 1) ≤ totalColumns lay r dir := by
      rw [← colStart_last hw]; exact colStart_mono _ _ _ _ hi
    have : columnOffset lay r dir i * E + columnNumber lay r dir i * E * (lay.nodeinfo r).size dir =
        colStart lay r dir (i + 1) * lay.boxSize r dir * E := by
      rw [columnOffset_eq, columnNumber_eq hw hne, nodeinfo_eq, ofBox_size]
      obtain ⟨k, hk⟩ := Nat.exists_eq_add_of_le hm
      rw [hk, Nat.add_sub_cancel_left]
      ring
    rw [this]
    refine Nat.mul_le_mul_right _ (le_trans ?_ hv)
    rw [hvol]
    exact Nat.mul_le_mul_right _ hT
  refine ⟨fun c hc h e he => ?_, fun i hi => ⟨hsend i hi, ?_⟩⟩
  · exact lt_of_lt_of_le (pencilAddr_lt hw hne E r dir c e
      ((inBox_iff_nodeRank lay hw r hr c hc).2 h) he) (Nat.mul_le_mul_right _ hv)
  · by_cases c : pencilNode lay r dir i = r
    · have hk := (pencilNode_eq_iff hw hne r hr dir i hi).1 c
      have := hsend i hi
      rw [recPtr_own E r dir i c]
      unfold recvBufSize pencilSize
      rw [myColumns_eq hw hne r hr, ← hk, c]
      rw [show columnNumber lay r dir i * (lay.nodeinfo r).size dir * E =
        columnNumber lay r dir i * E * (lay.nodeinfo r).size dir by ring]
      exact this
    · rw [recPtr_other E r dir i c]
      have h1 := recOff_disjoint (lay := lay) E r dir i (lay.ndiv dir) hi c
      rw [recOff_last E r dir (lay.ndiv dir)] at h1
      refine le_trans h1 (Nat.mul_le_mul_right _ ?_)
      exact hrec dir

/-- **C17 (messages).** Ranks that exchange messages name each other, and the length of each message
equals the length expected by the receiver, in both phases. -/
theorem C17_messages_match (lay : Layout n) (hw : lay.WF) (hne : NoEmptyRank lay) (E r : ℕ)
    (hr : r < lay.numNodes) (dir : Fin n) (i : ℕ) (hi : i < lay.ndiv dir) :
    pencilNode lay r dir i < lay.numNodes ∧
    pencilNode lay (pencilNode lay r dir i) dir (pencilIndex lay (pencilNode lay r dir i) dir r) = r ∧
    gatherSendLen lay E (pencilNode lay r dir i) dir r = recvBufSize lay r dir i * E ∧
    scatterSendLen lay E (pencilNode lay r dir i) dir r =
      columnNumber lay r dir i * E * (lay.nodeinfo r).size dir := by
  have hq := pn_lt hw r dir i hi
  have hk := dg_lt hw r dir
  rw [pencilNode_eq hw hne r dir i hi]
  refine ⟨hq, ?_, ?_, ?_⟩
  · rw [pencilIndex_eq hw hne r hr dir i hi, pencilNode_eq hw hne _ dir _ hk, pn_pn hw r dir i _ hi,
      pn_self hw r hr dir]
  · unfold gatherSendLen recvBufSize
    rw [pencilIndex_eq hw hne r hr dir i hi, columnNumber_eq hw hne, colStart_pn hw hne r dir i _ hi,
      colStart_pn hw hne r dir i _ hi, myColumns_eq hw hne r hr, columnNumber_eq hw hne,
      nodeinfo_eq, ofBox_size, pencilSize_box hw hne r dir i hi]
    ring
  · unfold scatterSendLen recvBufSize
    rw [pencilIndex_eq hw hne r hr dir i hi, myColumns_eq hw hne _ hq, columnNumber_eq hw hne,
      dg_pn hw r dir i hi, Function.update_self, colStart_pn hw hne r dir i _ hi,
      colStart_pn hw hne r dir i _ hi, columnNumber_eq hw hne, pencilSize_eq hw hne _ dir _ hk,
      nodeinfo_eq, ofBox_size, boxSize_dv]
    ring

/-! ### The Fourier transform -/

/-- The one-dimensional transform of the FFT library in exact arithmetic; `s = -1` is forward
(`FFTW_FORWARD`), `s = 1` is back. -/
noncomputable def dft1 (s : ℤ) (L : ℕ) (u : ℕ → ℂ) (k : ℕ) : ℂ :=
  ∑ x ∈ Finset.range L, u x * Complex.exp (s * (2 * Real.pi * Complex.I) * k * x / L)

theorem dft1_local (s : ℤ) (L : ℕ) : LocalTo L (dft1 s L) := by
  intro u v h t _
  exact Finset.sum_congr rfl fun x hx => by rw [h x (Finset.mem_range.1 hx)]

/-- `Field::FFT(directions, fftdir)`. -/
noncomputable def fftField (lay : Layout n) (E : ℕ) (s : ℤ) (junk : ℕ → ℂ) (uninit : ℕ → PBuf ℂ)
    (order : ℕ → List (Site n)) (directions : Fin n → Bool) (f : Site n → ℕ → ℂ) :
    Option (Site n → ℕ → ℂ) :=
  fullTransform lay E (fun d => dft1 s (lay.L d)) junk uninit order directions f

/-- The factor of direction `d` in the transform: a phase if the direction is transformed, otherwise
the coordinate stays the same. -/
noncomputable def ftKernel (s : ℤ) (L : ℕ) (active : Bool) (k x : ℕ) : ℂ :=
  if active then Complex.exp (s * (2 * Real.pi * Complex.I) * k * x / L) else if x = k then 1 else 0

/-- All sites of the lattice. -/
def boxSites (L : Site n) : Finset (Site n) := Fintype.piFinset fun d => Finset.range (L d)

theorem mem_boxSites (L : Site n) (x : Site n) : x ∈ boxSites L ↔ ∀ d, x d < L d := by
  simp [boxSites, Fintype.mem_piFinset]

/-- The Fourier transform in the directions `active`:
`∑ₓ f(x) ∏_d exp(± 2πi k_d x_d / L_d)`, the sum over the sites that agree with `k` in the other
directions. -/
noncomputable def ftSpec (L : Site n) (s : ℤ) (active : Fin n → Bool) (f : Site n → ℂ)
    (k : Site n) : ℂ :=
  ∑ x ∈ boxSites L, f x * ∏ d, ftKernel s (L d) (active d) (k d) (x d)

theorem transformLines_dft (L : Site n) (s : ℤ) (l : List (Fin n)) (hl : l.Nodup)
    (f : Site n → ℕ → ℂ) (e : ℕ) : ∀ (k : Site n), (∀ d, k d < L d) →
    transformLines (fun d => dft1 s (L d)) l f k e =
      ftSpec L s (fun d => decide (d ∈ l)) (fun c => f c e) k := by
  induction l using List.reverseRecOn with
  | nil =>
    intro k hk
    unfold transformLines ftSpec ftKernel
    simp only [List.foldl_nil, List.not_mem_nil, decide_false, Bool.false_eq_true, if_false]
    rw [Finset.sum_eq_single k]
    · simp
    · intro x _ hx
      obtain ⟨d, hd⟩ := Function.ne_iff.1 hx
      rw [Finset.prod_eq_zero (Finset.mem_univ d) (if_neg hd), mul_zero]
    · intro h; exact absurd ((mem_boxSites L k).2 hk) h
  | append_singleton l d ih =>
    intro k hk
    have hl' := (List.nodup_append.1 hl).1
    have hdl : d ∉ l := fun h => (List.nodup_append.1 hl).2.2 d h d (by simp) rfl
    have happ : transformLines (fun d => dft1 s (L d)) (l ++ [d]) f k e =
        dft1 s (L d) (fun t => transformLines (fun d => dft1 s (L d)) l f (Function.update k d t) e)
          (k d) := by
      simp [transformLines]
    rw [happ]
    have step : ∀ t ∈ Finset.range (L d),
        transformLines (fun d => dft1 s (L d)) l f (Function.update k d t) e =
        ∑ x ∈ boxSites L, f x e * ((if x d = t then 1 else 0) *
          ∏ d' ∈ Finset.univ.erase d, ftKernel s (L d') (decide (d' ∈ l)) (k d') (x d')) := by
      intro t ht
      have hin : ∀ d', Function.update k d t d' < L d' := by
        intro d'
        by_cases h : d' = d
        · subst h; rw [Function.update_self]; exact Finset.mem_range.1 ht
        · rw [Function.update_of_ne h]; exact hk d'
      refine (ih hl' _ hin).trans ?_
      unfold ftSpec
      refine Finset.sum_congr rfl fun x _ => ?_
      rw [← Finset.mul_prod_erase _ _ (Finset.mem_univ d), Function.update_self]
      congr 2
      · unfold ftKernel; simp [hdl]
      · refine Finset.prod_congr rfl fun d' hd' => ?_
        rw [Function.update_of_ne (Finset.ne_of_mem_erase hd')]
    unfold dft1 at step ⊢
    rw [Finset.sum_congr rfl fun t ht => congrArg (· * _) (step t ht)]
    simp only [Finset.sum_mul]
    rw [Finset.sum_comm]
    unfold ftSpec
    refine Finset.sum_congr rfl fun x hx => ?_
    have hxd := (mem_boxSites L x).1 hx d
    rw [← Finset.mul_prod_erase _ _ (Finset.mem_univ d)]
    rw [Finset.sum_eq_single (x d)]
    · have h1 : ∏ d' ∈ Finset.univ.erase d, ftKernel s (L d') (decide (d' ∈ l)) (k d') (x d') =
          ∏ d' ∈ Finset.univ.erase d, ftKernel s (L d') (decide (d' ∈ l ++ [d])) (k d') (x d') := by
        refine Finset.prod_congr rfl fun d' hd' => ?_
        have : d' ≠ d := Finset.ne_of_mem_erase hd'
        simp [this]
      rw [h1]
      conv_rhs => rw [show ftKernel s (L d) (decide (d ∈ l ++ [d])) (k d) (x d) =
        Complex.exp (s * (2 * Real.pi * Complex.I) * k d * x d / L d) by simp [ftKernel]]
      rw [if_pos rfl]
      ring
    · intro t _ ht
      rw [if_neg (Ne.symm ht)]; ring
    · intro h; exact absurd (Finset.mem_range.2 hxd) h

/-- **C17 (Fourier transform).** `FFT` computes the Fourier transform in the requested directions,
for every division of the lattice over ranks. Missing: the empty set of directions. -/
theorem C17_fft_partial (lay : Layout n) (hw : lay.WF) (hne : NoEmptyRank lay) (E : ℕ) (s : ℤ)
    (junk : ℕ → ℂ) (uninit : ℕ → PBuf ℂ) (order : ℕ → List (Site n)) (ho : Order lay .all order)
    (directions : Fin n → Bool) (hd : ∃ d, directions d = true) (f : Site n → ℕ → ℂ) :
    ∃ out, fftField lay E s junk uninit order directions f = some out ∧
      ∀ k, lay.InLattice k → ∀ e < E,
        out k e = ftSpec lay.L s directions (fun c => f c e) k := by
  obtain ⟨out, h1, h2⟩ := C17_transforms_lines_partial lay hw hne E (fun d => dft1 s (lay.L d))
    (fun d => dft1_local s _) junk uninit order ho directions hd f
  refine ⟨out, h1, fun k hk e he => ?_⟩
  rw [h2 k hk e he, transformLines_dft lay.L s _ ((List.nodup_finRange n).filter _) f e k hk]
  congr 1
  funext d
  simp [List.mem_filter]

theorem ftKernel_orthogonal (s : ℤ) (hs : s = 1 ∨ s = -1) (L : ℕ) (active : Bool) (k x : ℕ)
    (hk : k < L) (hx : x < L) :
    ∑ t ∈ Finset.range L, ftKernel (-s) L active k t * ftKernel s L active t x =
      if x = k then (if active then (L : ℂ) else 1) else 0 := by
  cases active with
  | false =>
    unfold ftKernel
    simp only [Bool.false_eq_true, if_false]
    rw [Finset.sum_eq_single k]
    · simp
    · intro t _ ht; rw [if_neg ht, zero_mul]
    · intro h; exact absurd (Finset.mem_range.2 hk) h
  | true =>
    unfold ftKernel
    simp only [if_true]
    have hL : (L : ℂ) ≠ 0 := by
      have : L ≠ 0 := by omega
      exact_mod_cast this
    set z := Complex.exp (s * (2 * Real.pi * Complex.I) * ((x : ℂ) - k) / L) with hz
    have hterm : ∀ t ∈ Finset.range L,
        Complex.exp (((-s : ℤ) : ℂ) * (2 * Real.pi * Complex.I) * k * t / L) *
          Complex.exp ((s : ℂ) * (2 * Real.pi * Complex.I) * t * x / L) = z ^ t := by
      intro t _
      rw [hz, ← Complex.exp_add, ← Complex.exp_nat_mul]
      congr 1
      push_cast
      ring
    rw [Finset.sum_congr rfl hterm]
    by_cases h : x = k
    · subst h
      rw [if_pos rfl, hz]
      simp
    · rw [if_neg h]
      have hz1 : z ≠ 1 := by
        intro h1
        rw [hz, Complex.exp_eq_one_iff] at h1
        obtain ⟨m, hm⟩ := h1
        have hpi : (2 * Real.pi * Complex.I) ≠ 0 := Complex.two_pi_I_ne_zero
        have h2 : (s : ℂ) * ((x : ℂ) - k) = m * L := by
          have : (s : ℂ) * ((x : ℂ) - k) * (2 * Real.pi * Complex.I) =
              m * L * (2 * Real.pi * Complex.I) := by
            rw [div_eq_iff hL] at hm
            linear_combination hm
          exact mul_right_cancel₀ hpi this
        have h3 : s * ((x : ℤ) - k) = m * L := by exact_mod_cast h2
        have h4 : (L : ℤ) ∣ (x : ℤ) - k := by
          rcases hs with rfl | rfl
          · exact ⟨m, by linarith⟩
          · exact ⟨-m, by linarith⟩
        have h5 : (x : ℤ) - k = 0 := by
          apply Int.eq_zero_of_abs_lt_dvd h4
          rw [abs_lt]; omega
        omega
      have hzL : z ^ L = 1 := by
        rw [hz, ← Complex.exp_nat_mul, Complex.exp_eq_one_iff]
        refine ⟨s * ((x : ℤ) - k), ?_⟩
        push_cast
        field_simp
      rw [geom_sum_eq hz1, hzL, sub_self, zero_div]

theorem ftSpec_inverse (L : Site n) (s : ℤ) (hs : s = 1 ∨ s = -1) (active : Fin n → Bool)
    (f : Site n → ℂ) (k : Site n) (hk : ∀ d, k d < L d) :
    ftSpec L (-s) active (ftSpec L s active f) k =
      (∏ d, if active d then (L d : ℂ) else 1) * f k := by
  unfold ftSpec
  rw [Finset.sum_congr rfl fun t _ => Finset.sum_mul _ _ _, Finset.sum_comm]
  have inner : ∀ x ∈ boxSites L, ∑ t ∈ boxSites L, f x *
      (∏ d, ftKernel s (L d) (active d) (t d) (x d)) *
      ∏ d, ftKernel (-s) (L d) (active d) (k d) (t d) =
      f x * ∏ d, if x d = k d then (if active d then (L d : ℂ) else 1) else 0 := by
    intro x hx
    have hx := (mem_boxSites L x).1 hx
    rw [Finset.sum_congr rfl fun t _ => show _ = f x * ∏ d, (ftKernel (-s) (L d) (active d) (k d) (t d) *
      ftKernel s (L d) (active d) (t d) (x d)) by rw [Finset.prod_mul_distrib]; ring]
    rw [← Finset.mul_sum]
    congr 1
    have := Finset.prod_univ_sum (fun d => Finset.range (L d)) (fun d t =>
      ftKernel (-s) (L d) (active d) (k d) t * ftKernel s (L d) (active d) t (x d))
    rw [boxSites, ← this]
    exact Finset.prod_congr rfl fun d _ => ftKernel_orthogonal s hs (L d) (active d) (k d) (x d)
      (hk d) (hx d)
  rw [Finset.sum_congr rfl inner, Finset.sum_eq_single k]
  · simp only [if_true]; ring
  · intro x _ hx
    obtain ⟨d, hd⟩ := Function.ne_iff.1 hx
    rw [Finset.prod_eq_zero (Finset.mem_univ d) (if_neg hd), mul_zero]
  · intro h; exact absurd ((mem_boxSites L k).2 hk) h

theorem ftSpec_congr (L : Site n) (s : ℤ) (active : Fin n → Bool) (f g : Site n → ℂ) (k : Site n)
    (h : ∀ x, (∀ d, x d < L d) → f x = g x) : ftSpec L s active f k = ftSpec L s active g k :=
  Finset.sum_congr rfl fun x hx => by rw [h x ((mem_boxSites L x).1 hx)]

/-- **C17 (back transform).** `FFT` followed by `FFT` in the opposite sense in the same directions
multiplies every element by the product of the extents of these directions. Missing: the empty set of
directions. -/
theorem C17_fft_back_partial (lay : Layout n) (hw : lay.WF) (hne : NoEmptyRank lay) (E : ℕ) (s : ℤ)
    (hs : s = 1 ∨ s = -1) (junk junk' : ℕ → ℂ) (uninit uninit' : ℕ → PBuf ℂ)
    (order order' : ℕ → List (Site n)) (ho : Order lay .all order) (ho' : Order lay .all order')
    (directions : Fin n → Bool) (hd : ∃ d, directions d = true) (f : Site n → ℕ → ℂ) :
    ∃ g out, fftField lay E s junk uninit order directions f = some g ∧
      fftField lay E (-s) junk' uninit' order' directions g = some out ∧
      ∀ k, lay.InLattice k → ∀ e < E,
        out k e = (∏ d, if directions d then (lay.L d : ℂ) else 1) * f k e := by
  obtain ⟨g, h1, h2⟩ := C17_fft_partial lay hw hne E s junk uninit order ho directions hd f
  obtain ⟨out, h3, h4⟩ := C17_fft_partial lay hw hne E (-s) junk' uninit' order' ho' directions hd g
  refine ⟨g, out, h1, h3, fun k hk e he => ?_⟩
  rw [h4 k hk e he, ftSpec_congr lay.L (-s) directions _ _ k fun x hx => h2 x hx e he,
    ftSpec_inverse lay.L s hs directions _ k hk]

example : exampleLayout.WF ∧ NoEmptyRank exampleLayout ∧ Order exampleLayout .all (exampleOrder .all) ∧
    (∃ d, (fun d : Fin 2 => decide (d = 1)) d = true) :=
  ⟨exampleLayout_wf, by unfold NoEmptyRank; decide, exampleOrder_ok .all, 1, by decide⟩

/-- A small complete run: prefix sums in direction 0 on 2 x 3 ranks. -/
example : ((fullTransform exampleLayout 1
      (fun _ (u : ℕ → ℕ) k => ((List.range (k + 1)).map u).sum) (fun _ => 0) (fun _ _ _ => 77)
      (exampleOrder .all) (fun d => decide (d = 0)) (fun c _ => 10 * c 0 + c 1)).map
      fun g => (g ![4, 2] 0, g ![1, 0] 0)) = some (110, 10) := by
  decide +kernel

/-! ### C18: reflection -/

theorem reflectLine_steps (L : ℕ) (buf : ℕ → A) (m : ℕ) (hm : m ≤ L / 2 - 1) (t : ℕ) :
    (List.range m).foldl (fun buf k =>
      Function.update (Function.update buf (k + 1) (buf (L - (k + 1)))) (L - (k + 1)) (buf (k + 1)))
      buf t = if (1 ≤ t ∧ t ≤ m) ∨ (L - m ≤ t ∧ t < L) then buf (L - t) else buf t := by
  induction m generalizing t with
  | zero =>
    rw [if_neg (by omega)]; rfl
  | succ m ih =>
    rw [List.range_succ, List.foldl_append, List.foldl_cons, List.foldl_nil]
    have ih' := ih (by omega)
    by_cases h1 : t = L - (m + 1)
    · subst h1
      rw [Function.update_self, ih' (m + 1), if_neg (by omega), if_pos (by omega)]
      congr 1; omega
    · rw [Function.update_of_ne h1]
      by_cases h2 : t = m + 1
      · subst h2
        rw [Function.update_self, ih' (L - (m + 1)), if_neg (by omega), if_pos (by omega)]
      · rw [Function.update_of_ne h2, ih' t]
        have : ((1 ≤ t ∧ t ≤ m) ∨ (L - m ≤ t ∧ t < L)) ↔
            ((1 ≤ t ∧ t ≤ m + 1) ∨ (L - (m + 1) ≤ t ∧ t < L)) := by omega
        rw [if_congr this rfl rfl]

theorem reflectLine_eq (L : ℕ) (buf : ℕ → A) (t : ℕ) :
    reflectLine L buf t = if (1 ≤ t ∧ t ≤ L / 2 - 1) ∨ (L - (L / 2 - 1) ≤ t ∧ t < L) then
      buf (L - t) else buf t := reflectLine_steps L buf (L / 2 - 1) (le_refl _) t

theorem reflectLine_local (L : ℕ) : LocalTo L (reflectLine (A := A) L) := by
  intro u v h t ht
  rw [reflectLine_eq, reflectLine_eq]
  split
  · exact h _ (by omega)
  · exact h t ht

theorem reflectLine_even (L : ℕ) (hL : L % 2 = 0 ∨ L = 1) (buf : ℕ → A) (t : ℕ) (ht : t < L) :
    reflectLine L buf t = buf ((L - t) % L) := by
  rw [reflectLine_eq]
  rcases Nat.eq_zero_or_pos t with h | h
  · subst h
    rw [if_neg (by omega), Nat.sub_zero, Nat.mod_self]
  · rw [Nat.mod_eq_of_lt (by omega)]
    split
    · rfl
    · congr 1; omega

/-- The reflected site. -/
def reflectSite (L : Site n) (dirs : Fin n → Bool) (c : Site n) : Site n := fun d =>
  if dirs d then (L d - c d) % L d else c d

theorem transformLines_reflect (L : Site n) (l : List (Fin n)) (hl : l.Nodup)
    (hev : ∀ d ∈ l, L d % 2 = 0 ∨ L d = 1) : ∀ (f : Site n → ℕ → A) (c : Site n) (e : ℕ),
    (∀ d, c d < L d) →
    transformLines (fun d => reflectLine (L d)) l f c e =
      f (reflectSite L (fun d => decide (d ∈ l)) c) e := by
  induction l with
  | nil =>
    intro f c e _
    have : reflectSite L (fun d => decide (d ∈ ([] : List (Fin n)))) c = c := by
      funext d; simp [reflectSite]
    rw [this]; rfl
  | cons a l ih =>
    intro f c e hc
    obtain ⟨ha, hl'⟩ := List.nodup_cons.1 hl
    unfold transformLines at ih ⊢
    rw [List.foldl_cons, ih hl' (fun d hd => hev d (List.mem_cons_of_mem _ hd)) _ c e hc]
    have hca : reflectSite L (fun d => decide (d ∈ l)) c a = c a := by simp [reflectSite, ha]
    dsimp only
    rw [hca, reflectLine_even _ (hev a List.mem_cons_self) _ _ (hc a)]
    congr 1
    funext d
    by_cases hd : d = a
    · subst hd; rw [Function.update_self]; simp [reflectSite]
    · rw [Function.update_of_ne hd]; simp [reflectSite, hd]

/-- **C18.** If the extents of the reflected directions are even (or 1), `reflect` returns the
reflected field. Missing: odd extents, see `C18_odd_extent_wrong`, and the empty set of directions,
see `C18_no_direction_undefined`. -/
theorem C18_reflect_partial (lay : Layout n) (hw : lay.WF) (hne : NoEmptyRank lay) (junk : ℕ → A)
    (uninit : ℕ → PBuf A) (order : ℕ → List (Site n)) (ho : Order lay .all order)
    (directions : Fin n → Bool) (hd : ∃ d, directions d = true)
    (heven : ∀ d, directions d = true → lay.L d % 2 = 0 ∨ lay.L d = 1) (f : Site n → A) :
    ∃ out, reflectField lay junk uninit order directions f = some out ∧
      ∀ c, lay.InLattice c →
        out c = f (fun d => if directions d then (lay.L d - c d) % lay.L d else c d) := by
  obtain ⟨out, h1, h2⟩ := C17_transforms_lines_partial lay hw hne 1 (fun d => reflectLine (lay.L d))
    (fun d => reflectLine_local _) junk uninit order ho directions hd (fun c _ => f c)
  refine ⟨fun c => out c 0, ?_, fun c hc => ?_⟩
  · unfold reflectField; rw [h1]; rfl
  · dsimp only
    rw [h2 c hc 0 one_pos, transformLines_reflect lay.L _ ((List.nodup_finRange n).filter _)
      (fun d hd => heven d (List.mem_filter.1 hd).2) _ c 0 hc]
    congr 1
    funext d
    simp [reflectSite, List.mem_filter]

/-- **C18 is false for odd extents.** On every lattice with an odd extent `2m+1 ≥ 3` in direction
`dir`, reflecting in this direction leaves the sites with coordinate `m` unchanged instead of
exchanging them with those at `m+1`. -/
theorem C18_odd_extent_wrong (lay : Layout n) (hw : lay.WF) (hne : NoEmptyRank lay)
    (uninit : ℕ → PBuf ℕ) (junk : ℕ → ℕ) (order : ℕ → List (Site n)) (ho : Order lay .all order)
    (dir : Fin n) (m : ℕ) (hm : 1 ≤ m) (hL : lay.L dir = 2 * m + 1) (c : Site n)
    (hc : lay.InLattice c) (hcm : c dir = m) :
    ∃ out, reflectField lay junk uninit order (fun d => decide (d = dir)) (fun c => c dir) = some out ∧
      out c = m ∧ (lay.L dir - c dir) % lay.L dir = m + 1 := by
  obtain ⟨out, h1, h2⟩ := C17_transforms_lines_partial lay hw hne 1 (fun d => reflectLine (lay.L d))
    (fun d => reflectLine_local _) junk uninit order ho (fun d => decide (d = dir)) ⟨dir, by simp⟩
    (fun c _ => c dir)
  refine ⟨fun c => out c 0, ?_, ?_, ?_⟩
  · unfold reflectField; rw [h1]; rfl
  · have hfil : (List.finRange n).filter (fun d => decide (d = dir)) = [dir] := by
      have h1 : ((List.finRange n).filter (fun d => decide (d = dir))).Nodup :=
        (List.nodup_finRange n).filter _
      have h2 : ∀ x, x ∈ (List.finRange n).filter (fun d => decide (d = dir)) ↔ x ∈ [dir] := by
        intro x; simp [List.mem_filter]
      exact List.perm_singleton.1 ((List.perm_ext_iff_of_nodup h1 (by simp)).2 h2)
    have h3 := h2 c hc 0 one_pos
    rw [hfil] at h3
    dsimp only
    rw [h3]
    unfold transformLines
    simp only [List.foldl_cons, List.foldl_nil]
    rw [reflectLine_eq, if_neg (by omega), Function.update_self, hcm]
  · rw [hL, hcm, Nat.mod_eq_of_lt (by omega)]; omega

/-- **C18 (no direction).** As for the FFT. -/
theorem C18_no_direction_undefined (lay : Layout n) (junk : ℕ → A) (uninit : ℕ → PBuf A)
    (order : ℕ → List (Site n)) (f : Site n → A) :
    reflectField lay junk uninit order (fun _ => false) f = none := by
  unfold reflectField
  rw [C17_no_direction_undefined]
  rfl

/-- A 4 x 3 lattice on 3 x 2 ranks meets the hypotheses of `C18_reflect_partial`. -/
def evenLayout : Layout 2 where
  L := ![4, 3]
  ndiv := ![3, 2]
  remap := id
  invRemap := id

theorem evenLayout_wf : evenLayout.WF where
  L_pos := by decide
  ndiv_pos := by decide
  remap_lt := fun i hi => hi
  inv_lt := fun i hi => hi
  remap_inv := fun i hi => rfl
  inv_remap := fun i hi => rfl

example : evenLayout.WF ∧ NoEmptyRank evenLayout ∧
    (∀ d, (fun d : Fin 2 => decide (d = 0)) d = true → evenLayout.L d % 2 = 0 ∨ evenLayout.L d = 1) :=
  ⟨evenLayout_wf, by unfold NoEmptyRank; decide, by decide⟩

example : exampleLayout.L 0 = 2 * 2 + 1 ∧ exampleLayout.InLattice ![2, 1] := by
  refine ⟨rfl, ?_⟩
  unfold Layout.InLattice; decide

end Hila
