import Verif.Lemmas.GatherWrap

/-!
# C99: the test of the gathers at start-up

If the test finds no error, every site has read the values of its neighbours. The test computes the square
of a sum over the lattice in 32-bit integers: on common lattices an error which it should find makes the
square overflow, and with integers that wrap around the test then finds nothing.
-/

namespace Hila

open Finset

variable {n : ℕ} {L : Fin n → ℕ}

/-- The ranks together visit each site exactly once. -/
def RanksCover (ranks : List (List (GSite L))) : Prop := ranks.flatten.Nodup ∧ ∀ x, x ∈ ranks.flatten

/-- In a loop over all sites and (if `ev`) in a loop over even sites, `f[X+d]` of the field of coordinates
is the coordinate vector of the next site, and `f[X-d]` of the field which holds the coordinates of the next
site is the coordinate vector of the site itself. -/
def GathersRight [∀ i, NeZero (L i)] (ev : Bool) (ops : GatherOps L) : Prop :=
  ∀ d x, (ops.up .all d (fun y => y.cv) x = (nextSite d x).cv ∧
      ops.down .all d (fun y => (nextSite d y).cv) x = x.cv) ∧
    (ev = true → x.cv.parity = .even → ops.up .even d (fun y => y.cv) x = (nextSite d x).cv ∧
      ops.down .even d (fun y => (nextSite d y).cv) x = x.cv)

theorem f2_fun [∀ i, NeZero (L i)] (d : Fin n) : gatherF2 L d = fun y => (nextSite d y).cv :=
  funext fun x => gatherF2_eq d x

theorem mem_evenRanks {ranks : List (List (GSite L))} (hc : RanksCover ranks) {x : GSite L} :
    x ∈ (evenRanks ranks).flatten ↔ x.cv.parity = .even := by
  rw [evenRanks_flatten, List.mem_filter]
  simp [hc.2 x]

theorem getD_nil (i : ℕ) : ([] : List ℤ).getD i 0 = 0 := by simp

/-- The site counts of the ranks add up to the volume. -/
theorem cover_length {ranks : List (List (GSite L))} (hc : RanksCover ranks) :
    (ranks.map List.length).sum = ∏ i, L i := by
  rw [← List.length_flatten]
  have h := List.toFinset_card_of_nodup hc.1
  have hu : ranks.flatten.toFinset = univ := by ext x; simp only [List.mem_toFinset, Finset.mem_univ, iff_true]; exact hc.2 x
  rw [← h, hu, Finset.card_univ, Fintype.card_pi]
  simp

/-- One direction of the test. -/
theorem gatherDir_true {ev : Bool} {ops : GatherOps L} {ranks : List (List (GSite L))} {d : Fin n}
    (h : gatherDir intStd ev ops ranks d = some true) :
    (∀ x ∈ ranks.flatten, ops.up .all d (gatherF1 L) x = gatherF2 L d x ∧
      ops.down .all d (gatherF2 L d) x = gatherF1 L x) ∧
    (ev = true → ∀ x ∈ (evenRanks ranks).flatten, ops.up .even d (gatherF1 L) x = gatherF2 L d x ∧
      ops.down .even d (gatherF2 L d) x = gatherF1 L x) := by
  obtain ⟨⟨ok, d1, d2⟩, hr, h⟩ := Option.bind_eq_some_iff.1 h
  cases ok with
  | false => simp at h
  | true =>
    obtain ⟨ha, z1, z2⟩ := stage_true getD_nil getD_nil hr
    refine ⟨ha, fun hev => ?_⟩
    subst hev
    simp only [if_true] at h
    obtain ⟨⟨ok, e1, e2⟩, he, hok⟩ := Option.map_eq_some_iff.1 h
    simp only at hok
    subst hok
    exact (stage_true (fun i => getD_zero z1 i) (fun i => getD_zero z2 i) he).1

theorem foldDirs_true {f : Fin n → Option Bool} : ∀ (ds : List (Fin n)) {ok : Bool},
    ds.foldlM (fun ok d => if ok then f d else some false) ok = some true →
    ok = true ∧ ∀ d ∈ ds, f d = some true
  | [], ok, h => ⟨by simpa using h, by simp⟩
  | d :: ds, ok, h => by
    rw [List.foldlM_cons] at h
    obtain ⟨ok', h1, h2⟩ := Option.bind_eq_some_iff.1 h
    obtain ⟨rfl, h3⟩ := foldDirs_true ds h2
    cases ok with
    | false => simp at h1
    | true =>
      refine ⟨rfl, fun e he => ?_⟩
      rcases List.mem_cons.1 he with rfl | he
      · simpa using h1
      · exact h3 e he

theorem foldDirs_of {f : Fin n → Option Bool} : ∀ (ds : List (Fin n)), (∀ d ∈ ds, f d = some true) →
    ds.foldlM (fun ok d => if ok then f d else some false) true = some true
  | [], _ => rfl
  | d :: ds, h => by
    rw [List.foldlM_cons, if_pos rfl, h d (by simp)]
    exact foldDirs_of ds fun e he => h e (by simp [he])

/-- **C99.** If the test runs without undefined behaviour and finds no error, then all sites have got the
values of their neighbours in all directions, up and down, in the loop over all sites and (with even sites
first) in the loop over even sites: for every number of ranks, every distribution of the sites and every
behaviour of the gathers. -/
theorem C99_detects [∀ i, NeZero (L i)] (ev : Bool) (ops : GatherOps L) (ranks : List (List (GSite L)))
    (hc : RanksCover ranks) (h : gatherTest intStd ev ops ranks = some true) : GathersRight ev ops := by
  unfold gatherTest at h
  rw [if_neg (by rw [cover_length hc]; simp)] at h
  intro d x
  obtain ⟨ha, he⟩ := gatherDir_true ((foldDirs_true _ h).2 d (List.mem_finRange d))
  rw [f2_fun] at ha he
  refine ⟨ha x (hc.2 x), fun hev hx => he hev x ((mem_evenRanks hc).2 hx)⟩

/-- **C99.** If the gathers are right, the test finds no error and no operation overflows, on every lattice. -/
theorem C99_no_false_alarm [∀ i, NeZero (L i)] (ev : Bool) (ops : GatherOps L) (ranks : List (List (GSite L)))
    (hc : RanksCover ranks) (h : GathersRight ev ops) : gatherTest intStd ev ops ranks = some true := by
  have key : ∀ (par : Parity) (rs : List (List (GSite L))) (d : Fin n) (o1 o2 : List ℤ),
      (∀ i, o1.getD i 0 = 0) → (∀ i, o2.getD i 0 = 0) →
      (∀ x ∈ rs.flatten, ops.up par d (gatherF1 L) x = gatherF2 L d x ∧
        ops.down par d (gatherF2 L d) x = gatherF1 L x) →
      ∃ d1 d2, gatherStage intStd ops rs par d o1 o2 = some (true, d1, d2) ∧
        (∀ i, d1.getD i 0 = 0) ∧ ∀ i, d2.getD i 0 = 0 := by
    intro par rs d o1 o2 ho1 ho2 hr
    have u : ∀ i, upSum ops rs par d i = 0 := fun i => absSum_of_eq fun x hx => by rw [(hr x hx).1]
    have v : ∀ i, downSum ops rs par d i = 0 := fun i => absSum_of_eq fun x hx => by rw [(hr x hx).2]
    refine ⟨(List.finRange n).map (upSum ops rs par d), (List.finRange n).map (downSum ops rs par d),
      (stage_fits ho1 ho2 (by simp [u]) (by simp [v]) (by simp [u]) (by simp [v])).trans ?_, ?_, ?_⟩
    · rw [decide_eq_true hr]
    · apply getD_zero
      intro c hcm
      obtain ⟨i, -, rfl⟩ := List.mem_map.1 hcm
      exact u i
    · apply getD_zero
      intro c hcm
      obtain ⟨i, -, rfl⟩ := List.mem_map.1 hcm
      exact v i
  unfold gatherTest
  rw [if_neg (by rw [cover_length hc]; simp)]
  apply foldDirs_of
  intro d _
  obtain ⟨d1, d2, e, z1, z2⟩ := key .all ranks d [] [] getD_nil getD_nil
    (fun x _ => by rw [f2_fun]; exact (h d x).1)
  unfold gatherDir
  rw [e, Option.bind_some, if_pos rfl]
  cases ev with
  | false => rfl
  | true =>
    obtain ⟨e1, e2, e', -, -⟩ := key .even (evenRanks ranks) d d1 d2 z1 z2
      (fun x hx => by rw [f2_fun]; exact (h d x).2 rfl ((mem_evenRanks hc).1 hx))
    rw [if_pos rfl, e']; rfl

/-- Gathers which copy: `f[X+d]` is the value at some site `σ`, `f[X-d]` that at some site `τ`. -/
def siteGathers (σ τ : Parity → Fin n → GSite L → GSite L) : GatherOps L where
  up par d f x := f (σ par d x)
  down par d f x := f (τ par d x)

/-- **C99.** If every read returns the value of some site of the lattice, a test without error shows that
it is the site above or below, for fields of any contents. -/
theorem C99_sites [∀ i, NeZero (L i)] (ev : Bool) (σ τ : Parity → Fin n → GSite L → GSite L)
    (ranks : List (List (GSite L))) (hc : RanksCover ranks)
    (h : gatherTest intStd ev (siteGathers σ τ) ranks = some true) (d : Fin n) (x : GSite L) :
    (σ .all d x = nextSite d x ∧ τ .all d x = prevSite d x) ∧
    (ev = true → x.cv.parity = .even → σ .even d x = nextSite d x ∧ τ .even d x = prevSite d x) := by
  have inj : ∀ y z : GSite L, nextSite d y = z → y = prevSite d z := by
    rintro y z rfl
    funext i
    by_cases hi : i = d
    · subst hi; simp [nextSite, prevSite]
    · simp [nextSite, prevSite, hi]
  obtain ⟨⟨h1, h2⟩, h3⟩ := C99_detects ev _ ranks hc h d x
  refine ⟨⟨cv_injective h1, inj _ _ (cv_injective h2)⟩, fun hev hx => ?_⟩
  obtain ⟨h4, h5⟩ := h3 hev hx
  exact ⟨cv_injective h4, inj _ _ (cv_injective h5)⟩

theorem siteSum_le (xs : List (GSite L)) (a b : GSite L → GSite L) (i : Fin n) :
    (xs.map fun x => |(a x).cv i - (b x).cv i|).sum ≤ xs.length * ((L i : ℤ) - 1) := by
  have h : ∀ y ∈ xs.map fun x => |(a x).cv i - (b x).cv i|, y ≤ (L i : ℤ) - 1 := by
    intro y hy
    obtain ⟨x, -, rfl⟩ := List.mem_map.1 hy
    have h1 := (a x i).isLt
    have h2 := (b x i).isLt
    simp only [GSite.cv]
    rw [abs_le]; constructor <;> omega
  have := List.sum_le_card_nsmul _ _ h
  rw [List.length_map, nsmul_eq_mul] at this
  exact this

theorem stage_small [∀ i, NeZero (L i)] (σ τ : Parity → Fin n → GSite L → GSite L)
    (rs : List (List (GSite L))) {N : ℕ} (hN : rs.flatten.length ≤ N)
    (hV : ∑ i, ((N : ℤ) * ((L i : ℤ) - 1)) ^ 2 < 2147483648) (par : Parity) (d : Fin n) {o1 o2 : List ℤ}
    (ho1 : ∀ i, o1.getD i 0 = 0) (ho2 : ∀ i, o2.getD i 0 = 0) :
    ∃ ok d1 d2, gatherStage intStd (siteGathers σ τ) rs par d o1 o2 = some (ok, d1, d2) ∧
      (ok = true → (∀ i, d1.getD i 0 = 0) ∧ ∀ i, d2.getD i 0 = 0) := by
  have hpos : ∀ i, 0 ≤ (L i : ℤ) - 1 := fun i => by
    have := Nat.pos_of_ne_zero (NeZero.ne (L i)); omega
  have hlen : (rs.flatten.length : ℤ) ≤ N := by exact_mod_cast hN
  have u : ∀ i, 0 ≤ upSum (siteGathers σ τ) rs par d i ∧
      upSum (siteGathers σ τ) rs par d i ≤ (N : ℤ) * ((L i : ℤ) - 1) := by
    intro i
    refine ⟨absSum_nonneg _ _ _, ?_⟩
    unfold upSum
    rw [f2_fun]
    exact (siteSum_le rs.flatten (fun x => σ par d x) (nextSite d) i).trans
      (mul_le_mul_of_nonneg_right hlen (hpos i))
  have v : ∀ i, 0 ≤ downSum (siteGathers σ τ) rs par d i ∧
      downSum (siteGathers σ τ) rs par d i ≤ (N : ℤ) * ((L i : ℤ) - 1) := by
    intro i
    refine ⟨absSum_nonneg _ _ _, ?_⟩
    unfold downSum
    rw [f2_fun]
    exact (siteSum_le rs.flatten (fun x => x) (fun x => nextSite d (τ par d x)) i).trans
      (mul_le_mul_of_nonneg_right hlen (hpos i))
  have one : ∀ i, (N : ℤ) * ((L i : ℤ) - 1) < 2147483648 := by
    intro i
    have h1 : ((N : ℤ) * ((L i : ℤ) - 1)) ^ 2 ≤ ∑ i, ((N : ℤ) * ((L i : ℤ) - 1)) ^ 2 :=
      Finset.single_le_sum (f := fun i => ((N : ℤ) * ((L i : ℤ) - 1)) ^ 2) (fun j _ => sq_nonneg _) (Finset.mem_univ i)
    nlinarith
  have sq : ∀ f : Fin n → ℤ, (∀ i, 0 ≤ f i ∧ f i ≤ (N : ℤ) * ((L i : ℤ) - 1)) →
      ∑ i, f i * f i < 2147483648 := by
    intro f hf
    refine lt_of_le_of_lt (Finset.sum_le_sum fun i _ => ?_) hV
    rw [sq]
    exact mul_le_mul (hf i).2 (hf i).2 (hf i).1 ((hf i).1.trans (hf i).2)
  have e := stage_fits (ops := siteGathers σ τ) (ranks := rs) (par := par) (d := d) ho1 ho2
    (fun i => lt_of_le_of_lt (u i).2 (one i)) (fun i => lt_of_le_of_lt (v i).2 (one i)) (sq _ u) (sq _ v)
  refine ⟨_, _, _, e, fun hok => ?_⟩
  rw [hok] at e
  obtain ⟨-, z1, z2⟩ := stage_true ho1 ho2 e
  exact ⟨fun i => getD_zero z1 i, fun i => getD_zero z2 i⟩

/-- **C99.** On small lattices the test decides: if `∑ᵢ (V (Lᵢ - 1))² < 2^31` (`V` the volume), nothing
overflows whatever sites the gathers read, and the test terminates the run exactly when they are wrong. -/
theorem C99_small [∀ i, NeZero (L i)] (ev : Bool) (σ τ : Parity → Fin n → GSite L → GSite L)
    (ranks : List (List (GSite L))) (hc : RanksCover ranks)
    (hV : ∑ i, (((∏ i, L i : ℕ) : ℤ) * ((L i : ℤ) - 1)) ^ 2 < 2147483648) :
    (GathersRight ev (siteGathers σ τ) ∧ gatherTest intStd ev (siteGathers σ τ) ranks = some true) ∨
    (¬ GathersRight ev (siteGathers σ τ) ∧ gatherTest intStd ev (siteGathers σ τ) ranks = some false) := by
  have hlen : ranks.flatten.length ≤ ∏ i, L i := by rw [List.length_flatten, cover_length hc]
  have hlenE : (evenRanks ranks).flatten.length ≤ ∏ i, L i := by
    rw [evenRanks_flatten]; exact (List.length_filter_le _ _).trans hlen
  have hdir : ∀ d, ∃ b, gatherDir intStd ev (siteGathers σ τ) ranks d = some b := by
    intro d
    obtain ⟨ok, d1, d2, e, hz⟩ := stage_small σ τ ranks hlen hV .all d getD_nil getD_nil
    unfold gatherDir
    rw [e, Option.bind_some]
    cases ok with
    | false => exact ⟨false, rfl⟩
    | true =>
      obtain ⟨ok2, e1, e2, e', -⟩ := stage_small σ τ (evenRanks ranks) hlenE hV .even d (hz rfl).1 (hz rfl).2
      cases ev with
      | false => exact ⟨true, rfl⟩
      | true => exact ⟨ok2, by rw [if_pos rfl, if_pos rfl, e']; rfl⟩
  have hfold : ∀ (ds : List (Fin n)) (ok : Bool), ∃ b, ds.foldlM (fun ok d =>
      if ok then gatherDir intStd ev (siteGathers σ τ) ranks d else some false) ok = some b := by
    intro ds
    induction ds with
    | nil => intro ok; exact ⟨ok, rfl⟩
    | cons d ds ih =>
      intro ok
      obtain ⟨b, hb⟩ := hdir d
      rw [List.foldlM_cons]
      cases ok with
      | false => exact ih false
      | true =>
        rw [if_pos rfl, hb]
        exact ih b
  by_cases hr : GathersRight ev (siteGathers σ τ)
  · exact Or.inl ⟨hr, C99_no_false_alarm ev _ ranks hc hr⟩
  · refine Or.inr ⟨hr, ?_⟩
    obtain ⟨b, hb⟩ := hfold (List.finRange n) true
    have hb' : gatherTest intStd ev (siteGathers σ τ) ranks = some b := by
      unfold gatherTest
      rw [if_neg (by rw [cover_length hc]; simp)]
      exact hb
    cases b with
    | false => exact hb'
    | true => exact absurd (C99_detects ev _ ranks hc hb') hr

/-- The bound holds for instance on 6^4. -/
example : ∑ i : Fin 4, (((∏ _i : Fin 4, 6 : ℕ) : ℤ) * (((fun _ : Fin 4 => 6) i : ℕ) - 1 : ℤ)) ^ 2 < 2147483648 := by
  simp

/-- **C99.** A loop which leaves out or repeats sites, so that the number of visits is not the volume, is
found before anything else. -/
theorem C99_count (rd : ℤ → Option ℤ) (ev : Bool) (ops : GatherOps L) (ranks : List (List (GSite L)))
    (h : ranks.flatten.length ≠ ∏ i, L i) : gatherTest rd ev ops ranks = some false := by
  unfold gatherTest
  rw [if_pos (by rw [← List.length_flatten]; exact h)]

/-- **C99.** The test says nothing about loops over odd sites: gathers which are wrong there, but right
otherwise, pass. -/
theorem C99_odd_not_tested [∀ i, NeZero (L i)] (ev : Bool) (ranks : List (List (GSite L)))
    (hc : RanksCover ranks) (σ : Fin n → GSite L → GSite L) :
    gatherTest intStd ev (siteGathers (fun p d => if p = .odd then σ d else nextSite d)
      fun p d => if p = .odd then σ d else prevSite d) ranks = some true := by
  apply C99_no_false_alarm ev _ ranks hc
  intro d x
  simp [siteGathers, next_prev]

/-- Two ranks on a 2×2 lattice. -/
def twoRanks : List (List (GSite (fun _ : Fin 2 => 2))) := [[![0, 0], ![1, 0]], [![0, 1], ![1, 1]]]

theorem twoRanks_cover : RanksCover twoRanks := by unfold RanksCover twoRanks; decide

/-- The right gathers pass on two ranks. -/
example : gatherTest intStd true (siteGathers (fun _ d => nextSite d) fun _ d => prevSite d) twoRanks =
    some true :=
  C99_no_false_alarm true _ _ twoRanks_cover fun d x => by simp [siteGathers, next_prev]

/-- Gathers which do not shift are found on a small lattice. -/
example : gatherTest intStd true (noShift _) twoRanks = some false := by decide

/-- **C99, disagreement.** Gathers which do not shift at all: on a lattice on which the numbers of sites of
all layers are divisible by 65536 (for example 64^4, or 32·64^3), the test finds no error if integers wrap
around: the sums of the differences are multiples of 65536 and their squares are zero modulo 2^32. This holds
for every distribution over ranks, with and without even sites first. -/
theorem C99_unshifted_not_found [∀ i, NeZero (L i)] (ev : Bool) (ranks : List (List (GSite L)))
    (hc : RanksCover ranks) (hL : ∀ i, L i < 2147483648)
    (hM : ∀ d : Fin n, 65536 ∣ ∏ j : {j // j ≠ d}, L j.1) :
    gatherTest intWrap ev (noShift L) ranks = some true := by
  have bound : ∀ (d i : Fin n) (x : GSite L), |gatherF1 L x i - gatherF2 L d x i| < 2147483648 := by
    intro d i x
    rw [noShift_term]
    split
    · have h1 : ((x d).val : ℤ) < L d := by exact_mod_cast (x d).isLt
      have h2 : (L d : ℤ) < 2147483648 := by exact_mod_cast hL d
      have h3 := Int.emod_nonneg (((x d).val : ℤ) + 1) (show (L d : ℤ) ≠ 0 by omega)
      have h4 := Int.emod_lt_of_pos (((x d).val : ℤ) + 1) (show (0 : ℤ) < L d by omega)
      rw [abs_lt]; constructor <;> omega
    · norm_num
  have dvdM : ∀ d : Fin n, (65536 : ℤ) ∣ ∏ j : {j // j ≠ d}, (L j.1 : ℤ) := by
    intro d
    have := Int.natCast_dvd_natCast.2 (hM d)
    push_cast at this
    exact this
  have all : ∀ d i, (ranks.flatten.map fun x => |gatherF1 L x i - gatherF2 L d x i|).sum ≡ 0 [ZMOD 65536] := by
    intro d i
    rw [listSum_cover hc.1 hc.2]
    rw [Finset.sum_congr rfl fun x _ => noShift_term d i x]
    split
    · rw [noShift_total]
      exact (Int.modEq_zero_iff_dvd).2 (Dvd.dvd.mul_right (dvdM d) _)
    · simp [Int.ModEq.refl]
  have even : ∀ d i, ((evenRanks ranks).flatten.map fun x => |gatherF1 L x i - gatherF2 L d x i|).sum ≡
      0 [ZMOD 65536] := by
    intro d i
    have hconv : ∀ g : GSite L → ℤ, ((evenRanks ranks).flatten.map g).sum =
        ∑ x : GSite L with x.cv.parity = .even, g x := by
      intro g
      rw [evenRanks_flatten, ← List.sum_toFinset g (hc.1.filter _)]
      refine Finset.sum_congr ?_ fun _ _ => rfl
      ext x
      simp only [List.mem_toFinset, List.mem_filter, Finset.mem_filter, Finset.mem_univ, true_and, hc.2 x,
        decide_eq_true_eq]
    rw [hconv]
    rw [Finset.sum_congr rfl fun x _ => noShift_term d i x]
    split
    · obtain ⟨j, -, hj⟩ : ∃ j ∈ (univ : Finset {j // j ≠ d}), 2 ∣ L j.1 :=
        (Nat.prime_two.prime.dvd_finset_prod_iff _).1 (dvd_trans (by norm_num) (hM d))
      have half := sum_even_half j.2 hj fun k => |((k.val : ℕ) : ℤ) - (((k.val : ℕ) : ℤ) + 1) % (L d : ℤ)|
      rw [noShift_total] at half
      have : ∑ x : GSite L with x.cv.parity = .even, |((x d).val : ℤ) - (((x d).val : ℤ) + 1) % (L d : ℤ)| =
          (∏ j : {j // j ≠ d}, (L j.1 : ℤ)) * ((L d : ℤ) - 1) := by linarith
      rw [this]
      exact (Int.modEq_zero_iff_dvd).2 (Dvd.dvd.mul_right (dvdM d) _)
    · simp [Int.ModEq.refl]
  have nil0 : ∀ i : ℕ, ([] : List ℤ).getD i 0 ≡ 0 [ZMOD 65536] := fun i => by rw [getD_nil]
  unfold gatherTest
  rw [if_neg (by rw [cover_length hc]; simp)]
  apply foldDirs_of
  intro d _
  obtain ⟨d1, d2, e, z1, z2⟩ := stage_wrap (ops := noShift L) (ranks := ranks) (par := .all) (d := d)
    nil0 nil0 (bound d) (bound d) (all d) (all d)
  unfold gatherDir
  rw [e, Option.bind_some, if_pos rfl]
  cases ev with
  | false => rfl
  | true =>
    obtain ⟨e1, e2, e', -, -⟩ := stage_wrap (ops := noShift L) (ranks := evenRanks ranks) (par := .even) (d := d)
      (getD_modEq z1) (getD_modEq z2) (bound d) (bound d) (even d) (even d)
    rw [if_pos rfl, e']; rfl

/-- **C99, disagreement.** By the standard the same test has undefined behaviour, already where the sum of
the differences of the first direction reaches 46341 (its square does not fit into `int`). -/
theorem C99_unshifted_undefined {L : Fin (n + 1) → ℕ} [∀ i, NeZero (L i)] (ev : Bool)
    (ranks : List (List (GSite L))) (hc : RanksCover ranks)
    (hM : 46341 ≤ (∏ j : {j : Fin (n + 1) // j ≠ 0}, (L j : ℤ)) * (2 * ((L 0 : ℤ) - 1))) :
    gatherTest intStd ev (noShift L) ranks = none := by
  have hdir : gatherDir intStd ev (noShift L) ranks 0 = none := by
    rw [Option.eq_none_iff_forall_ne_some]
    intro b hb
    obtain ⟨r, hr, -⟩ := Option.bind_eq_some_iff.1 hb
    obtain ⟨v, hv, hr⟩ := Option.bind_eq_some_iff.1 hr
    obtain ⟨w, -, hr⟩ := Option.bind_eq_some_iff.1 hr
    obtain ⟨ok, hok, -⟩ := Option.bind_eq_some_iff.1 hr
    obtain ⟨q, hq, -⟩ := Option.map_eq_some_iff.1 hok
    obtain ⟨c, hcv, hcr⟩ := mapM_finRange_mem hv 0
    have hce : c = _ := reduceDif_some hcr
    rw [getD_nil, zero_add] at hce
    have hsum : (ranks.flatten.map fun x => |(noShift L).up .all 0 (gatherF1 L) x 0 - gatherF2 L 0 x 0|).sum =
        (∏ j : {j : Fin (n + 1) // j ≠ 0}, (L j : ℤ)) * (2 * ((L 0 : ℤ) - 1)) := by
      rw [listSum_cover hc.1 hc.2, ← noShift_total]
      refine Finset.sum_congr rfl fun x _ => ?_
      exact (noShift_term 0 0 x).trans (if_pos rfl)
    rw [hsum] at hce
    -- every square is tested before it is added
    have fits : ∀ (v : List ℤ) (acc q : ℤ),
        v.foldlM (fun acc c => (intStd (c * c)).bind fun q => intStd (acc + q)) acc = some q →
        ∀ c ∈ v, c * c < 2147483648 := by
      intro v
      induction v with
      | nil => intro _ _ _ c hc; cases hc
      | cons e v ih =>
        intro acc q h c hc
        rw [List.foldlM_cons] at h
        obtain ⟨t, ht, h⟩ := Option.bind_eq_some_iff.1 h
        obtain ⟨u, hu, -⟩ := Option.bind_eq_some_iff.1 ht
        rcases List.mem_cons.1 hc with rfl | hc
        · by_contra hlt
          unfold intStd at hu
          rw [if_neg (by omega)] at hu
          cases hu
        · exact ih t q h c hc
    have := fits v 0 q hq c hcv
    nlinarith
  unfold gatherTest
  rw [if_neg (by rw [cover_length hc]; simp), List.finRange_succ, List.foldlM_cons, if_pos rfl, hdir]
  rfl

/-- Both hold on the lattice 64^4. -/
example (ranks : List (List (GSite (fun _ : Fin 4 => 64)))) (hc : RanksCover ranks) :
    gatherTest intWrap true (noShift fun _ : Fin 4 => 64) ranks = some true ∧
    gatherTest intStd true (noShift fun _ : Fin 4 => 64) ranks = none := by
  have hcard : ∀ d : Fin 4, Fintype.card {j : Fin 4 // j ≠ d} = 3 := by decide
  refine ⟨C99_unshifted_not_found true ranks hc (by simp) ?_, C99_unshifted_undefined true ranks hc ?_⟩
  · intro d
    rw [Finset.prod_const, Finset.card_univ, hcard]
    norm_num
  · rw [Finset.prod_const, Finset.card_univ, hcard]
    norm_num

/-- There is a list of ranks which covers any lattice: a single rank. -/
example : RanksCover [(univ : Finset (GSite (fun _ : Fin 4 => 64))).toList] := by
  constructor
  · simpa using Finset.nodup_toList _
  · intro x; simp

end Hila
