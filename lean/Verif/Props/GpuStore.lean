import Verif.Lemmas.GpuStore
import Mathlib.Tactic.NormNum

/-!
# C101: fields in the memory of graphics processors

A value written to a site is the value read from it, other sites are not touched, and a message or a list of
elements arrives as it was sent, for every order of the threads. This needs `k * A ≤ 2^32` numbers in the
field, which is not checked: beyond it the 32-bit index wraps around and sites overwrite each other.
-/

namespace Hila

variable {α : Type} {k : ℕ}

/-- A field with `A` places (sites and halo) of elements with `k` numbers each: what `soaGet` reads at the
places is the list `f`. -/
def HoldsField (b : DevBuf α) (A : ℕ) (f : ℕ → Fin k → α) : Prop :=
  b.size = k * A ∧ ∀ i < A, soaGet b A i = some (f i)

theorem holds_iff {b : DevBuf α} {A : ℕ} (hA : k * A ≤ 4294967296) {f : ℕ → Fin k → α} :
    HoldsField b A f ↔ b.size = k * A ∧ ∀ i < A, soaView k b A i = f i := by
  unfold HoldsField
  refine and_congr_right fun hb => forall₂_congr fun i hi => ?_
  rw [soaGet_eq hb hA hi]
  exact Option.some_inj

/-- **C101.** A write to one place changes the element there and no other. -/
theorem C101_set (A i : ℕ) (hA : k * A ≤ 4294967296) (hi : i < A) (b : DevBuf α) (f : ℕ → Fin k → α)
    (hf : HoldsField b A f) (v : Fin k → α) :
    ∃ b', soaSet b A i v = some b' ∧ HoldsField b' A (Function.update f i v) := by
  rw [holds_iff hA] at hf
  obtain ⟨b', h1, h2, h3⟩ := soaSet_view hA hi v b hf.1
  refine ⟨b', h1, (holds_iff hA).2 ⟨h2, fun j hj => ?_⟩⟩
  rw [h3 j hj, Function.update_apply]
  split
  · rfl
  · exact hf.2 j hj

/-- **C101.** Every allocation of the right size holds some field: nothing is left to chance but the values. -/
theorem C101_holds (A : ℕ) (hA : k * A ≤ 4294967296) (b : DevBuf α) (hb : b.size = k * A) :
    ∃ f : ℕ → Fin k → α, HoldsField b A f :=
  ⟨fun i => soaView k b A i, (holds_iff hA).2 ⟨hb, fun _ _ => rfl⟩⟩

/-- **C101.** `gather_elements`: whatever the order of the threads, entry `t` of the result is the element of
site `sites t`, changed by `g` (unchanged or negated). -/
theorem C101_gather (A n T : ℕ) (hT : 0 < T) (b : DevBuf α) (f : ℕ → Fin k → α)
    (hf : HoldsField b A f) (sites : ℕ → ℕ) (hs : ∀ t < n, sites t < A) (g : (Fin k → α) → Fin k → α)
    (out : DevBuf (Fin k → α)) (ho : out.size = n) (ord : List ℕ) (hord : ord.Perm (List.range (soaBlocks n T * T))) :
    ∃ out', storeKernel (gatherElThread b A n sites g) ord out = some out' ∧ out'.size = n ∧
      ∀ t < n, out'.val t = g (f (sites t)) := by
  obtain ⟨hnd, hall⟩ := soaBlocks_cover hT hord
  obtain ⟨s', h1, h2, h3, -⟩ := kernel_slots (gatherElThread b A n sites g) (fun o => o.size = n)
    (fun o j => o.val j) n n (fun t => t) (fun t => g (f (sites t))) out (fun _ _ _ _ h => h)
    (by
      intro t ht s hs' _
      have hw : gatherElThread b A n sites g t s = some ⟨s.size, Function.update s.val t (g (f (sites t)))⟩ := by
        unfold gatherElThread
        rw [if_pos ht, hf.2 _ (hs t ht), Option.bind_some]
        unfold DevBuf.write
        rw [if_pos (by rw [hs']; exact ht)]
      refine ⟨_, hw, hs', fun j _ => ?_⟩
      simp only [Function.update_apply])
    (by intro t ht s; unfold gatherElThread; rw [if_neg ht])
    ord out hnd ho (fun _ _ _ => rfl)
  exact ⟨s', h1, h2, fun t ht => h3 t (hall t ht) ht ht⟩

/-- **C101.** `place_elements`: the elements arrive at their sites, which are different, and nothing else
changes. -/
theorem C101_place (A n T : ℕ) (hA : k * A ≤ 4294967296) (hT : 0 < T) (b : DevBuf α) (f : ℕ → Fin k → α)
    (hf : HoldsField b A f) (sites : ℕ → ℕ) (hs : ∀ t < n, sites t < A)
    (hinj : ∀ t t', t < n → t' < n → sites t = sites t' → t = t') (buf : DevBuf (Fin k → α)) (hb : buf.size = n)
    (ord : List ℕ) (hord : ord.Perm (List.range (soaBlocks n T * T))) :
    ∃ b' f', storeKernel (placeElThread buf A n sites) ord b = some b' ∧ HoldsField b' A f' ∧
      (∀ t < n, f' (sites t) = buf.val t) ∧ ∀ j < A, (∀ t < n, sites t ≠ j) → f' j = f j := by
  obtain ⟨hnd, hall⟩ := soaBlocks_cover hT hord
  rw [holds_iff hA] at hf
  obtain ⟨s', h1, h2, h3, h4⟩ := kernel_slots (placeElThread buf A n sites) (fun o => o.size = k * A)
    (fun o j => soaView k o A j) n A sites (fun t => buf.val t) b hinj
    (by
      intro t ht s hs' _
      obtain ⟨b', e1, e2, e3⟩ := soaSet_view hA (hs t ht) (buf.val t) s hs'
      refine ⟨b', ?_, e2, e3⟩
      unfold placeElThread DevBuf.read
      rw [if_pos ht, if_pos (by rw [hb]; exact ht), Option.bind_some, e1])
    (by intro t ht s; unfold placeElThread; rw [if_neg ht])
    ord b hnd hf.1 (fun _ _ _ => rfl)
  refine ⟨s', fun j => soaView k s' A j, h1, (holds_iff hA).2 ⟨h2, fun _ _ => rfl⟩, ?_, ?_⟩
  · intro t ht
    exact h3 t (hall t ht) ht (hs t ht)
  · intro j hj hne
    exact (h4 j hj fun t _ ht => hne t ht).trans (hf.2 j hj)

/-- **C101.** A message between two ranks: the buffer filled by the sender from the sites of its list and
placed by the receiver at `offset` gives place `offset + t` the value of site `sites t` (negated at
antiperiodic boundaries), and changes nothing else. The two ranks may have different numbers of sites; the
threads run in any order on both. -/
theorem C101_message (A A' n T T' offset : ℕ) (hA' : k * A' ≤ 4294967296)
    (hn : k * n ≤ 4294967296) (hT : 0 < T) (hT' : 0 < T') (b b' : DevBuf α) (f f' : ℕ → Fin k → α)
    (hf : HoldsField b A f) (hf' : HoldsField b' A' f') (sites : ℕ → ℕ) (hs : ∀ t < n, sites t < A)
    (hoff : offset + n ≤ A') (hA32 : A' ≤ 4294967296) (g : (Fin k → α) → Fin k → α) (buf : DevBuf α)
    (hbuf : buf.size = k * n) (ord ord' : List ℕ) (hord : ord.Perm (List.range (soaBlocks n T * T)))
    (hord' : ord'.Perm (List.range (soaBlocks n T' * T'))) :
    ∃ msg r h, storeKernel (gatherCommThread b A n sites g) ord buf = some msg ∧
      storeKernel (placeCommThread k msg A' n offset) ord' b' = some r ∧ HoldsField r A' h ∧
      (∀ t < n, h (offset + t) = g (f (sites t))) ∧
      ∀ j < A', (j < offset ∨ offset + n ≤ j) → h j = f' j := by
  obtain ⟨hnd, hall⟩ := soaBlocks_cover hT hord
  obtain ⟨hnd', hall'⟩ := soaBlocks_cover hT' hord'
  have haddr : ∀ t < n, ∀ e : Fin k, (t + n * e.val) % 4294967296 = e.val * n + t := by
    intro t ht e
    rw [add_comm, mul_comm n]
    exact soaAt_eq hn e ht
  obtain ⟨msg, h1, h2, h3, -⟩ := kernel_slots (gatherCommThread b A n sites g) (fun o => o.size = k * n)
    (fun o j => soaView k o n j) n n (fun t => t) (fun t => g (f (sites t))) buf (fun _ _ _ _ h => h)
    (by
      intro t ht s hs' _
      obtain ⟨o, e1, e2, e3⟩ := soaWrites_view (fun e => (t + n * e) % 4294967296) (haddr t ht) ht
        (g (f (sites t))) s hs'
      refine ⟨o, ?_, e2, e3⟩
      unfold gatherCommThread
      rw [if_pos ht, hf.2 _ (hs t ht), Option.bind_some]
      exact e1)
    (by intro t ht s; unfold gatherCommThread; rw [if_neg ht])
    ord buf hnd hbuf (fun _ _ _ => rfl)
  rw [holds_iff hA'] at hf'
  have hplace : ∀ t < n, (offset + t) % 4294967296 = offset + t := fun t ht => Nat.mod_eq_of_lt (by omega)
  obtain ⟨r, r1, r2, r3, r4⟩ := kernel_slots (placeCommThread k msg A' n offset) (fun o => o.size = k * A')
    (fun o j => soaView k o A' j) n A' (fun t => offset + t) (fun t => soaView k msg n t) b'
    (fun t t' _ _ h => by omega)
    (by
      intro t ht s hs' _
      obtain ⟨o, e1, e2, e3⟩ := soaSet_view hA' (show offset + t < A' by omega) (soaView k msg n t) s hs'
      refine ⟨o, ?_, e2, e3⟩
      unfold placeCommThread
      rw [if_pos ht, if_pos, hplace t ht, ← e1]
      · congr 1
        funext e
        rw [haddr t ht e]; rfl
      · intro e
        rw [haddr t ht e, h2]
        exact soaAt_lt e ht)
    (by intro t ht s; unfold placeCommThread; rw [if_neg ht])
    ord' b' hnd' hf'.1 (fun _ _ _ => rfl)
  refine ⟨msg, r, fun j => soaView k r A' j, h1, r1, (holds_iff hA').2 ⟨r2, fun _ _ => rfl⟩, ?_, ?_⟩
  · intro t ht
    exact (r3 t (hall' t ht) ht (by omega)).trans (h3 t (hall t ht) ht ht)
  · intro j hj hne
    exact (r4 j hj fun t _ ht => by omega).trans (hf'.2 j hj)

/-- The entries of the boundary list for a parity. -/
def BoundaryList.selects (s : BoundaryList) : BoundPar → ℕ → Prop
  | .even, t => t < s.nEven
  | .odd, t => s.nEven ≤ t ∧ t < s.nEven + s.nOdd
  | .all, t => t < s.nEven + s.nOdd

/-- **C101.** Antiperiodic boundaries inside a rank: entry `t` of the list, if its parity is asked for, puts
minus the value of its site to place `offset + t`; all other places keep their values. The sites of the list
are none of the places that are filled. -/
theorem C101_boundary (A T : ℕ) (hA : k * A ≤ 4294967296) (hA32 : A ≤ 4294967296) (hT : 0 < T) (b : DevBuf α)
    (f : ℕ → Fin k → α) (hf : HoldsField b A f) (s : BoundaryList) (par : BoundPar)
    (hs : ∀ t < s.nEven + s.nOdd, s.moveIndex t < s.offset) (hoff : s.offset + (s.nEven + s.nOdd) ≤ A)
    (hlt : s.offset + s.nEven < 4294967296)
    (neg : (Fin k → α) → Fin k → α) (ord : List ℕ)
    (hord : ord.Perm (List.range (soaBlocks (s.part par).1 T * T))) :
    ∃ r h, gpuLocalBoundary A s par neg ord b = some r ∧ HoldsField r A h ∧
      (∀ t, s.selects par t → h (s.offset + t) = neg (f (s.moveIndex t))) ∧
      ∀ j < A, (∀ t, s.selects par t → j ≠ s.offset + t) → h j = f j := by
  obtain ⟨hnd, hall⟩ := soaBlocks_cover hT hord
  rw [holds_iff hA] at hf
  have hpart : (s.part par).2 + (s.part par).1 ≤ s.nEven + s.nOdd ∧ (s.part par).2 ≤ s.nEven := by
    cases par <;> simp [BoundaryList.part]
  have hsel : ∀ t, s.selects par t ↔ ∃ u < (s.part par).1, t = (s.part par).2 + u := by
    intro t
    cases par with
    | even => simp [BoundaryList.selects, BoundaryList.part]
    | odd =>
      simp only [BoundaryList.selects, BoundaryList.part]
      exact ⟨fun h => ⟨t - s.nEven, by omega, by omega⟩, fun ⟨u, h1, h2⟩ => by omega⟩
    | all => simp [BoundaryList.selects, BoundaryList.part]
  have hstart : (s.offset + (s.part par).2) % 4294967296 = s.offset + (s.part par).2 :=
    Nat.mod_eq_of_lt (by omega)
  obtain ⟨r, r1, r2, r3, r4⟩ := kernel_slots (localBoundThread A (s.part par).1
      ((s.offset + (s.part par).2) % 4294967296) (fun t => s.moveIndex ((s.part par).2 + t)) neg)
    (fun o => o.size = k * A) (fun o j => soaView k o A j) (s.part par).1 A
    (fun t => s.offset + (s.part par).2 + t) (fun t => neg (f (s.moveIndex ((s.part par).2 + t)))) b
    (fun t t' _ _ h => by omega)
    (by
      intro t ht st hs' hkeep
      have hm : s.moveIndex ((s.part par).2 + t) < s.offset := hs _ (by omega)
      have hm' : s.moveIndex ((s.part par).2 + t) < A := by omega
      have hv : soaView k st A (s.moveIndex ((s.part par).2 + t)) = f (s.moveIndex ((s.part par).2 + t)) := by
        rw [hkeep _ hm' fun u _ => by omega]
        exact hf.2 _ hm'
      obtain ⟨o, e1, e2, e3⟩ := soaSet_view hA (show s.offset + (s.part par).2 + t < A by omega)
        (neg (f (s.moveIndex ((s.part par).2 + t)))) st hs'
      refine ⟨o, ?_, e2, e3⟩
      unfold localBoundThread
      rw [if_pos ht, soaGet_eq hs' hA hm', Option.bind_some, hv, hstart,
        Nat.mod_eq_of_lt (show s.offset + (s.part par).2 + t < 4294967296 by omega), e1])
    (by intro t ht st; unfold localBoundThread; rw [if_neg ht])
    ord b hnd hf.1 (fun _ _ _ => rfl)
  refine ⟨r, fun j => soaView k r A j, r1, (holds_iff hA).2 ⟨r2, fun _ _ => rfl⟩, ?_, ?_⟩
  · intro t ht
    obtain ⟨u, hu, rfl⟩ := (hsel t).1 ht
    have := r3 u (hall u hu) hu (by omega)
    rw [← add_assoc]
    exact this
  · intro j hj hne
    refine (r4 j hj fun u _ hu => ?_).trans (hf.2 j hj)
    have := hne _ ((hsel _).2 ⟨u, hu, rfl⟩)
    omega

/-! ### Concrete cases -/

/-- A field with three places of elements of two numbers. -/
def smallField : DevBuf ℤ := ⟨6, fun j => j⟩

example : HoldsField (k := 2) smallField 3 fun i e => (e.val * 3 + i : ℤ) :=
  (holds_iff (by norm_num)).2 ⟨rfl, fun i _ => by funext e; simp [soaView, smallField]⟩

/-- A message of two sites, threads in mixed order, negated. -/
example : ∃ msg r, storeKernel (gatherCommThread (k := 2) smallField 3 2 (fun t => 2 - t) fun v e => -v e)
      [1, 3, 0, 2] ⟨4, fun _ => 0⟩ = some msg ∧
    storeKernel (placeCommThread 2 msg 3 2 1) [3, 1, 2, 0] smallField = some r ∧
    (List.range 6).map r.val = [0, -2, -1, 3, -5, -4] :=
  ⟨_, _, rfl, rfl, rfl⟩

/-! ### Too many numbers -/

/-- After writes of one site the address holds the last value written to it; here all values are equal. -/
theorem soaSet_const {A i : ℕ} (x : α) (e0 : Fin k) : ∀ (b b' : DevBuf α), soaSet b A i (fun _ : Fin k => x) = some b' →
    b'.val (soaAt A e0.val i) = x := by
  have gen : ∀ (es : List (Fin k)) (b b' : DevBuf α) (a : ℕ),
      es.foldlM (fun b e => b.write (soaAt A e.val i) x) b = some b' →
      (b.val a = x → b'.val a = x) ∧ ((∃ e ∈ es, soaAt A e.val i = a) → b'.val a = x) := by
    intro es
    induction es with
    | nil =>
      intro b b' a h
      have : b = b' := Option.some.inj h
      subst this
      exact ⟨id, by rintro ⟨e, he, -⟩; cases he⟩
    | cons e es ih =>
      intro b b' a h
      rw [List.foldlM_cons] at h
      obtain ⟨c, hc, h⟩ := Option.bind_eq_some_iff.1 h
      unfold DevBuf.write at hc
      split at hc
      · rw [← Option.some.inj hc] at h
        obtain ⟨h1, h2⟩ := ih _ b' a h
        have hx : soaAt A e.val i = a → b'.val a = x := by
          rintro rfl
          exact h1 (Function.update_self _ _ _)
        constructor
        · intro hb
          by_cases he : soaAt A e.val i = a
          · exact hx he
          · exact h1 ((Function.update_of_ne (Ne.symm he) _ _).trans hb)
        · rintro ⟨f, hf, hfa⟩
          rcases List.mem_cons.1 hf with rfl | hf
          · exact hx hfa
          · exact h2 ⟨f, hf, hfa⟩
      · cases hc
  intro b b' h
  exact (gen _ b b' _ h).2 ⟨e0, List.mem_finRange e0, rfl⟩

/-- **C101, disagreement.** If a field has more than 2^32 numbers the index wraps around: there is a site
other than site 0 whose write changes the value of site 0. (Only `A < 2^32` is checked. Here the
number `A` of places does not divide 2^32.) -/
theorem C101_index_wraps (A : ℕ) (hpos : 0 < A) (hdiv : ¬ A ∣ 4294967296)
    (hbig : 4294967296 < k * A) (x y : α) (hxy : x ≠ y) :
    ∃ i, 0 < i ∧ i < A ∧ ∀ b b1 b2 : DevBuf α, soaSet b A 0 (fun _ : Fin k => x) = some b1 →
      soaSet b1 A i (fun _ : Fin k => y) = some b2 → soaGet (k := k) b2 A 0 ≠ some fun _ => x := by
  have hk : 4294967296 / A < k := (Nat.div_lt_iff_lt_mul hpos).2 hbig
  have hk0 : 0 < k := lt_of_le_of_lt (Nat.zero_le _) hk
  refine ⟨4294967296 % A, Nat.pos_of_ne_zero fun h => hdiv (Nat.dvd_of_mod_eq_zero h), Nat.mod_lt _ hpos, ?_⟩
  intro b b1 b2 _ h2 hget
  have h0 : soaAt A (4294967296 / A) (4294967296 % A) = 0 := by
    unfold soaAt
    rw [mul_comm, Nat.div_add_mod, Nat.mod_self]
  have hy := soaSet_const y (⟨4294967296 / A, hk⟩ : Fin k) b1 b2 h2
  simp only [h0] at hy
  unfold soaGet at hget
  split at hget
  · have := congrFun (Option.some.inj hget) ⟨0, hk0⟩
    simp [soaAt, hy] at this
    exact hxy this.symm
  · cases hget

/-- Matrices of SU(3) in any precision have 18 numbers; 250 million sites (a multiple of 256, as the code rounds up) are
too many. -/
example : ∃ i, 0 < i ∧ i < 250000128 ∧ ∀ b b1 b2 : DevBuf ℤ,
    soaSet b 250000128 0 (fun _ : Fin 18 => 1) = some b1 →
    soaSet b1 250000128 i (fun _ : Fin 18 => 0) = some b2 → soaGet (k := 18) b2 250000128 0 ≠ some fun _ => 1 :=
  C101_index_wraps 250000128 (by norm_num) (by norm_num) (by norm_num) 1 0 (by norm_num)

/-- The writes of that case are inside the allocation, so that they do take place. -/
theorem C101_wraps_defined (A i : ℕ) (hi : i < A) (b : DevBuf α) (hb : b.size = k * A) (v : Fin k → α) :
    ∃ b', soaSet b A i v = some b' ∧ b'.size = k * A := by
  have gen : ∀ (es : List (Fin k)) (b : DevBuf α), b.size = k * A →
      ∃ b', es.foldlM (fun b e => b.write (soaAt A e.val i) (v e)) b = some b' ∧ b'.size = k * A := by
    intro es
    induction es with
    | nil => intro b hb; exact ⟨b, rfl, hb⟩
    | cons e es ih =>
      intro b hb
      have hw : b.write (soaAt A e.val i) (v e) = some ⟨b.size, Function.update b.val (soaAt A e.val i) (v e)⟩ := by
        unfold DevBuf.write
        rw [if_pos]
        rw [hb]
        exact lt_of_le_of_lt (Nat.mod_le _ _) (soaAt_lt e hi)
      obtain ⟨b', h1, h2⟩ := ih ⟨b.size, Function.update b.val (soaAt A e.val i) (v e)⟩ hb
      exact ⟨b', by rw [List.foldlM_cons, hw]; exact h1, h2⟩
  exact gen _ b hb

end Hila
