import Verif.Model.SiteSelect
import Verif.Lemmas.Layout

/-! Lemmas for `Model/SiteSelect`. -/

namespace Hila

theorem siteIndexValue_aux {n : ℕ} (L c : Site n) (a m : ℕ) :
    ((List.finRange n).foldl (fun acc d => (acc.1 + acc.2 * c d, acc.2 * L d)) (a, m)).1 =
      a + m * lex L c := by
  induction n generalizing a m with
  | zero => simp [lex]
  | succ n ih =>
    rw [List.finRange_succ, List.foldl_cons, List.foldl_map, lex]
    have := ih (Fin.tail L) (Fin.tail c) (a + m * c 0) (m * L 0)
    simp only [Fin.tail] at this ⊢
    rw [this, Nat.mul_add, Nat.add_assoc, Nat.mul_assoc]

theorem siteIndexValue_eq {n : ℕ} (L c : Site n) : siteIndexValue L c = lex L c := by
  unfold siteIndexValue
  rw [siteIndexValue_aux]; simp

theorem vresize_length {A : Type} (l : List A) (k : ℕ) (d : A) : (vresize l k d).length = k := by
  unfold vresize
  rw [List.length_append, List.length_take, List.length_replicate]; omega

theorem vresize_of_le {A : Type} (l : List A) (k : ℕ) (d : A) (h : k ≤ l.length) :
    vresize l k d = l.take k := by
  unfold vresize
  have : k - l.length = 0 := by omega
  rw [this]; simp

theorem take_set_succ {A : Type} (l : List A) (k : ℕ) (a : A) (h : k < l.length) :
    (l.set k a).take (k + 1) = l.take k ++ [a] := by
  rw [List.take_add_one, List.take_set_of_le (Nat.le_refl k)]
  congr 1
  simp [h]

/-- State during the loop: `done` are the (site, first value) pairs selected so far. -/
structure SelInv {V : Type} (vol : ℕ) (s0 : SelState V) (dn : List (ℕ × V)) (s : SelState V) :
    Prop where
  slen : s.sites.length = vol
  vlen : s.values.length = vol
  cur : s.cur = dn.length
  sites : s.sites.take dn.length = dn.map Prod.fst
  values : s.hasValues = true → s.values.take dn.length = dn.map Prod.snd
  prev : s.prev = dn.getLast?.map Prod.fst
  rest : s.autoJoin = s0.autoJoin ∧ s.joined = s0.joined ∧ s.nmax = s0.nmax ∧
    s.overflow = s0.overflow ∧ s.hasValues = s0.hasValues

section
variable {V : Type}

theorem selectFirst (vol : ℕ) (s0 s : SelState V) (dn : List (ℕ × V)) (x : ℕ) (v : V)
    (h : SelInv vol s0 dn s) (hx : x ∉ dn.map Prod.fst) (hlt : dn.length < vol) :
    ∃ s', s.selectSiteValue x v = some s' ∧ SelInv vol s0 (dn ++ [(x, v)]) s' := by
  have hp : s.prev ≠ some x := by
    rw [h.prev]
    intro hc
    rw [Option.map_eq_some_iff] at hc
    obtain ⟨a, ha, hax⟩ := hc
    exact hx (List.mem_map.2 ⟨a, List.mem_of_getLast? ha, hax⟩)
  have key : ∀ s1 : SelState V, s1.sites = s.sites → s1.prev = s.prev → s1.cur = s.cur →
      s1.selectSite x =
      some { s1 with sites := s1.sites.set s1.cur x, prev := some x, cur := s1.cur + 1 } := by
    intro s1 e1 e2 e3
    unfold SelState.selectSite
    rw [if_neg (by rw [e2]; exact hp), if_pos (by rw [e1, e3, h.slen, h.cur]; exact hlt)]
  have hs : (s.sites.set s.cur x).take (dn ++ [(x, v)]).length =
      (dn ++ [(x, v)]).map Prod.fst := by
    rw [List.length_append, List.length_singleton, h.cur,
      take_set_succ _ _ _ (by rw [h.slen]; exact hlt), h.sites]
    simp
  unfold SelState.selectSiteValue
  by_cases hh : s.hasValues = false
  · rw [if_pos hh, key s rfl rfl rfl]
    refine ⟨_, rfl, ⟨?_, h.vlen, ?_, hs, ?_, ?_, h.rest⟩⟩
    · simp [h.slen]
    · simp [h.cur]
    · intro hx; have hx' : s.hasValues = true := hx; rw [hh] at hx'; cases hx'
    · simp
  · rw [if_neg hh, if_pos (by rw [h.vlen, h.cur]; exact hlt),
      key ({ s with values := s.values.set s.cur v } : SelState V) rfl rfl rfl]
    refine ⟨_, rfl, ⟨?_, ?_, ?_, hs, ?_, ?_, h.rest⟩⟩
    · simp [h.slen]
    · simp [h.vlen]
    · simp [h.cur]
    · intro _
      show (s.values.set s.cur v).take (dn ++ [(x, v)]).length = _
      rw [List.length_append, List.length_singleton, h.cur,
        take_set_succ _ _ _ (by rw [h.vlen]; exact hlt), h.values (by simpa using hh)]
      simp
    · simp

theorem selectAgain (vol : ℕ) (s0 s : SelState V) (dn : List (ℕ × V)) (x : ℕ) (v w : V)
    (h : SelInv vol s0 (dn ++ [(x, w)]) s)
    (hlt : s.hasValues = false ∨ (dn ++ [(x, w)]).length < vol) :
    ∃ s', s.selectSiteValue x v = some s' ∧ SelInv vol s0 (dn ++ [(x, w)]) s' := by
  have hp : s.prev = some x := by rw [h.prev]; simp
  have hlen : (dn ++ [(x, w)]).length = dn.length + 1 := by simp
  have hle : dn.length + 1 ≤ vol := by
    have := congrArg List.length h.sites
    rw [List.length_take, h.slen, List.length_map, hlen] at this
    omega
  have hsame : s.sites.set (s.cur - 1) x = s.sites := by
    apply List.ext_getElem
    · simp
    · intro i h1 h2
      rw [List.getElem_set]
      split
      · rename_i hi
        rw [h.cur, hlen] at hi
        have hi' : i = dn.length := by omega
        subst hi'
        have e := congrArg (fun l => l[dn.length]?) h.sites
        simp only [hlen] at e
        rw [List.getElem?_take_of_lt (by omega), List.getElem?_eq_getElem h2] at e
        simp at e
        exact e.symm
      · rfl
  have key : ∀ s1 : SelState V, s1.sites = s.sites → s1.prev = s.prev → s1.cur = s.cur →
      s1.selectSite x = some s1 := by
    intro s1 e1 e2 e3
    unfold SelState.selectSite
    rw [if_pos (by rw [e2]; exact hp), if_pos (by rw [e1, e3, h.slen, h.cur, hlen]; omega)]
    congr 1
    have : s1.sites.set (s1.cur - 1) x = s1.sites := by rw [e1, e3, hsame]
    rw [this]
  unfold SelState.selectSiteValue
  by_cases hh : s.hasValues = false
  · rw [if_pos hh, key s rfl rfl rfl]
    exact ⟨s, rfl, h⟩
  · have hl := hlt.resolve_left hh
    rw [if_neg hh, if_pos (by rw [h.vlen, h.cur]; exact hl),
      key ({ s with values := s.values.set s.cur v } : SelState V) rfl rfl rfl]
    refine ⟨_, rfl, ⟨h.slen, ?_, h.cur, h.sites, ?_, h.prev, h.rest⟩⟩
    · simp [h.vlen]
    · intro _
      show (s.values.set s.cur v).take (dn ++ [(x, w)]).length = _
      rw [List.take_set_of_le (by rw [h.cur]), h.values (by simpa using hh)]

theorem bodyAgain (vol : ℕ) (s0 : SelState V) (dn : List (ℕ × V)) (x : ℕ) (w : V) (vs : List V) :
    ∀ s : SelState V, SelInv vol s0 (dn ++ [(x, w)]) s →
    (vs = [] ∨ s0.hasValues = false ∨ (dn ++ [(x, w)]).length < vol) →
    ∃ s', SelState.body x vs s = some s' ∧ SelInv vol s0 (dn ++ [(x, w)]) s' := by
  induction vs with
  | nil => intro s h _; exact ⟨s, rfl, h⟩
  | cons v vs ih =>
    intro s h hlt
    have hl : s0.hasValues = false ∨ (dn ++ [(x, w)]).length < vol := by
      rcases hlt with h | h
      · cases h
      · exact h
    obtain ⟨s1, h1, h2⟩ := selectAgain vol s0 s dn x v w h (by rw [h.rest.2.2.2.2]; exact hl)
    rw [SelState.body, h1]
    exact ih s1 h2 (Or.inr hl)

/-- Pairs (site, first value selected there) in the order of the visits. -/
def firsts (work : List (ℕ × List V)) : List (ℕ × V) :=
  work.filterMap fun x => x.2.head?.map fun v => (x.1, v)

theorem mem_firsts {work : List (ℕ × List V)} {y : ℕ} (h : y ∈ (firsts work).map Prod.fst) :
    y ∈ work.map Prod.fst := by
  obtain ⟨a, ha, rfl⟩ := List.mem_map.1 h
  obtain ⟨x, hx, hh⟩ := List.mem_filterMap.1 ha
  rw [Option.map_eq_some_iff] at hh
  obtain ⟨v, _, rfl⟩ := hh
  exact List.mem_map.2 ⟨x, hx, rfl⟩

theorem loop_inv (vol : ℕ) (s0 : SelState V) (work : List (ℕ × List V)) :
    ∀ (dn : List (ℕ × V)) (s : SelState V), SelInv vol s0 dn s →
      (work.map Prod.fst).Nodup → (∀ x ∈ work.map Prod.fst, x ∉ dn.map Prod.fst) →
      dn.length + (firsts work).length ≤ vol →
      (s0.hasValues = false ∨ (∀ x ∈ work, x.2.length ≤ 1) ∨
        dn.length + (firsts work).length < vol) →
      ∃ s', SelState.loop work s = some s' ∧ SelInv vol s0 (dn ++ firsts work) s' := by
  induction work with
  | nil => intro dn s h _ _ _ _; exact ⟨s, rfl, by simpa [firsts] using h⟩
  | cons x work ih =>
    intro dn s h hnd hdis hle hok
    rw [List.map_cons, List.nodup_cons] at hnd
    obtain ⟨site, vs⟩ := x
    cases vs with
    | nil =>
      have hf : firsts ((site, []) :: work) = firsts work := rfl
      rw [hf] at hle hok ⊢
      rw [SelState.loop]
      exact ih dn s h hnd.2 (fun y hy => hdis y (List.mem_cons_of_mem _ hy)) hle (by
        rcases hok with h | h | h
        · exact Or.inl h
        · exact Or.inr (Or.inl fun y hy => h y (List.mem_cons_of_mem _ hy))
        · exact Or.inr (Or.inr h))
    | cons v vs =>
      have hf : firsts ((site, v :: vs) :: work) = (site, v) :: firsts work := rfl
      rw [hf] at hle hok ⊢
      rw [List.length_cons] at hle hok
      obtain ⟨s1, h1, h2⟩ := selectFirst vol s0 s dn site v h
        (hdis site List.mem_cons_self) (by omega)
      have hlen : (dn ++ [(site, v)]).length = dn.length + 1 := by simp
      obtain ⟨s2, h3, h4⟩ := bodyAgain vol s0 dn site v vs s1 h2 (by
        rcases hok with h | h | h
        · exact Or.inr (Or.inl h)
        · left
          have h' := h _ List.mem_cons_self
          simp only [List.length_cons] at h'
          exact List.eq_nil_of_length_eq_zero (by omega)
        · right; right; rw [hlen]; omega)
      obtain ⟨s3, h5, h6⟩ := ih (dn ++ [(site, v)]) s2 h4 hnd.2 (by
          intro y hy hm
          rw [List.map_append, List.mem_append] at hm
          rcases hm with hm | hm
          · exact hdis y (List.mem_cons_of_mem _ hy) hm
          · simp only [List.map_cons, List.map_nil, List.mem_singleton] at hm
            subst hm; exact hnd.1 hy) (by rw [hlen]; omega) (by
          rw [hlen]
          rcases hok with h | h | h
          · exact Or.inl h
          · exact Or.inr (Or.inl fun y hy => h y (List.mem_cons_of_mem _ hy))
          · right; right; omega)
      refine ⟨s3, ?_, by simpa using h6⟩
      rw [SelState.loop]
      simp only [SelState.body, h1, Option.bind_some, h3, h5]

theorem setup_selInv (dflt : V) (vol : ℕ) (s : SelState V) :
    SelInv vol (s.setup dflt vol) [] (s.setup dflt vol) :=
  ⟨vresize_length _ _ _, vresize_length _ _ _, rfl, by simp, by simp, rfl,
    rfl, rfl, rfl, rfl, rfl⟩

/-- State of a rank after the loop. -/
structure Selected (nmax : ℕ) (s : SelState V) (P : List (ℕ × V)) : Prop where
  sites : s.sites = (P.take nmax).map Prod.fst
  values : s.hasValues = true → s.values = (P.take nmax).map Prod.snd
  over : s.overflow = P.length - nmax
  max : s.nmax = nmax

theorem endloop_selected (dflt : V) (vol : ℕ) (s0 s : SelState V) (P : List (ℕ × V))
    (h : SelInv vol s0 P s) (ho : s0.overflow = 0) :
    Selected s0.nmax (s.endloop dflt) P ∧ (s.endloop dflt).hasValues = s0.hasValues ∧
    (s.endloop dflt).joined = s0.joined ∧ (s.endloop dflt).autoJoin = s0.autoJoin := by
  obtain ⟨r1, r2, r3, r4, r5⟩ := h.rest
  have hle : P.length ≤ vol := by
    have := congrArg List.length h.sites
    rw [List.length_take, h.slen, List.length_map] at this
    omega
  unfold SelState.endloop
  by_cases hc : s.cur > s.nmax
  · rw [if_pos hc]
    refine ⟨⟨?_, ?_, ?_, r3⟩, r5, r2, r1⟩
    · show vresize s.sites s.nmax 0 = _
      rw [h.cur] at hc
      rw [vresize_of_le _ _ _ (by rw [h.slen]; omega), List.map_take, ← h.sites, List.take_take,
        ← r3, Nat.min_eq_left (by omega)]
    · intro hv
      show vresize s.values s.nmax dflt = _
      rw [h.cur] at hc
      rw [vresize_of_le _ _ _ (by rw [h.vlen]; omega), List.map_take, ← h.values hv,
        List.take_take, ← r3, Nat.min_eq_left (by omega)]
    · show s.cur - s.nmax = _
      rw [h.cur, r3]
  · rw [if_neg hc]
    rw [h.cur, r3] at hc
    refine ⟨⟨?_, ?_, ?_, r3⟩, r5, r2, r1⟩
    · show vresize s.sites s.cur 0 = _
      rw [h.cur, vresize_of_le _ _ _ (by rw [h.slen]; omega),
        show P.take s0.nmax = P from List.take_of_length_le (by omega),
        h.sites]
    · intro hv
      show vresize s.values s.cur dflt = _
      rw [h.cur, vresize_of_le _ _ _ (by rw [h.vlen]; omega),
        show P.take s0.nmax = P from List.take_of_length_le (by omega),
        h.values hv]
    · show s.overflow = _
      rw [r4, ho]; omega

theorem answer_receive (dflt : V) (nmax : ℕ) (s0 s : SelState V) (P0 P : List (ℕ × V))
    (h0 : Selected nmax s0 P0) (h : Selected nmax s P) (hv : s.hasValues = s0.hasValues) :
    Selected nmax (s0.receive (s.answer dflt (s0.nmax - s0.sites.length)).1) (P0 ++ P) ∧
    (s0.receive (s.answer dflt (s0.nmax - s0.sites.length)).1).hasValues = s0.hasValues ∧
    (s.answer dflt (s0.nmax - s0.sites.length)).2.sites = [] := by
  have hl0 : s0.sites.length = min nmax P0.length := by rw [h0.sites]; simp
  have hl : s.sites.length = min nmax P.length := by rw [h.sites]; simp
  rw [h0.max, hl0]
  unfold SelState.answer
  by_cases hn : nmax - min nmax P0.length > 0
  · rw [if_pos hn]
    have hsub : nmax - min nmax P0.length = nmax - P0.length := by omega
    rw [hsub] at hn ⊢
    have htake : (P0 ++ P).take nmax = P0.take nmax ++ P.take (nmax - P0.length) := by
      rw [List.take_append]
    by_cases hlt : nmax - P0.length < s.sites.length
    · rw [if_pos hlt]
      rw [hl] at hlt
      have hs : vresize s.sites (nmax - P0.length) 0 =
          (P.take (nmax - P0.length)).map Prod.fst := by
        rw [vresize_of_le _ _ _ (by rw [hl]; omega), h.sites, ← List.map_take, List.take_take,
          Nat.min_eq_left (by omega)]
      refine ⟨⟨?_, ?_, ?_, h0.max⟩, rfl, rfl⟩
      · show s0.sites ++ (vresize s.sites (nmax - P0.length) 0 ++ [_]).dropLast = _
        rw [List.dropLast_concat, hs, h0.sites, htake, List.map_append]
      · intro hx
        show s0.values ++ vresize s.values ((vresize s.sites (nmax - P0.length) 0 ++
          [_]).length - 1) dflt = _
        rw [List.length_append, vresize_length, List.length_singleton, Nat.add_sub_cancel]
        have hvl : s.values = (P.take nmax).map Prod.snd := h.values (hv.trans hx)
        rw [vresize_of_le _ _ _ (by rw [hvl]; simp; omega), hvl, ← List.map_take, List.take_take,
          Nat.min_eq_left (by omega), h0.values hx, htake, List.map_append]
      · show s0.overflow + (vresize s.sites (nmax - P0.length) 0 ++ [_]).getLastD 0 = _
        rw [List.getLastD_concat]
        show s0.overflow + (s.overflow + (s.sites.length - (nmax - P0.length))) = _
        rw [h.over, h0.over, hl, List.length_append]
        omega
    · rw [if_neg hlt]
      rw [hl] at hlt
      have hPt : P.take (nmax - P0.length) = P.take nmax := by
        by_cases h00 : P0.length = 0
        · rw [h00]; rfl
        · rw [List.take_of_length_le (by omega), List.take_of_length_le (by omega)]
      refine ⟨⟨?_, ?_, ?_, h0.max⟩, rfl, rfl⟩
      · show s0.sites ++ (s.sites ++ [_]).dropLast = _
        rw [List.dropLast_concat, h.sites, h0.sites, htake, List.map_append, hPt]
      · intro hx
        show s0.values ++ vresize s.values ((s.sites ++ [_]).length - 1) dflt = _
        rw [List.length_append, List.length_singleton, Nat.add_sub_cancel]
        have hvl : s.values = (P.take nmax).map Prod.snd := h.values (hv.trans hx)
        rw [vresize_of_le _ _ _ (by rw [hvl, hl]; simp),
          List.take_of_length_le (by rw [hvl, hl]; simp), hvl, h0.values hx, htake,
          List.map_append, hPt]
      · show s0.overflow + (s.sites ++ [s.overflow]).getLastD 0 = _
        rw [List.getLastD_concat, h.over, h0.over, List.length_append]
        omega
  · rw [if_neg hn]
    have htake : (P0 ++ P).take nmax = P0.take nmax := by
      rw [List.take_append, show nmax - P0.length = 0 by omega]; simp
    refine ⟨⟨?_, ?_, ?_, h0.max⟩, rfl, rfl⟩
    · rw [htake]; exact h0.sites
    · intro hx; rw [htake]; exact h0.values hx
    · show s0.overflow + (s.sites.length + s.overflow) = _
      rw [h.over, h0.over, hl, List.length_append]
      omega

theorem join_fold (dflt : V) (nmax : ℕ) (hv : Bool) (P : ℕ → List (ℕ × V)) (k : ℕ)
    (st : ℕ → SelState V)
    (h : ∀ r ≤ k, Selected nmax (st r) (P r) ∧ (st r).hasValues = hv) :
    let out := (List.range k).foldl (fun (acc : ℕ → SelState V) k =>
      let n := k + 1
      let a := (acc n).answer dflt ((acc 0).nmax - (acc 0).sites.length)
      Function.update (Function.update acc n a.2) 0 ((acc 0).receive a.1)) st
    Selected nmax (out 0) ((List.range (k + 1)).flatMap P) ∧ (out 0).hasValues = hv ∧
    (∀ r, 0 < r → r ≤ k → (out r).sites = []) ∧ ∀ r, k < r → out r = st r := by
  induction k with
  | zero =>
    refine ⟨?_, (h 0 (Nat.le_refl _)).2, ?_, fun r _ => rfl⟩
    · simpa using (h 0 (Nat.le_refl _)).1
    · intro r h1 h2; omega
  | succ k ih =>
    obtain ⟨h1, h2, h3, h4⟩ := ih (fun r hr => h r (by omega))
    rw [List.range_succ, List.foldl_append]
    set acc := (List.range k).foldl (fun (acc : ℕ → SelState V) k =>
      let n := k + 1
      let a := (acc n).answer dflt ((acc 0).nmax - (acc 0).sites.length)
      Function.update (Function.update acc n a.2) 0 ((acc 0).receive a.1)) st with hacc
    have hk : acc (k + 1) = st (k + 1) := h4 (k + 1) (by omega)
    obtain ⟨s1, s2⟩ := h (k + 1) (Nat.le_refl _)
    obtain ⟨r1, r2, r3⟩ := answer_receive dflt nmax (acc 0) (st (k + 1)) _ _ h1 s1
      (s2.trans h2.symm)
    simp only [List.foldl_cons, List.foldl_nil, hk]
    refine ⟨?_, ?_, ?_, ?_⟩
    · rw [Function.update_self, List.range_succ, List.flatMap_append]
      simpa using r1
    · rw [Function.update_self, r2, h2]
    · intro r hr0 hr
      rw [Function.update_of_ne (by omega)]
      by_cases hr1 : r = k + 1
      · subst hr1; rw [Function.update_self]; exact r3
      · rw [Function.update_of_ne hr1]; exact h3 r hr0 (by omega)
    · intro r hr
      rw [Function.update_of_ne (by omega), Function.update_of_ne (by omega)]
      exact h4 r (by omega)

end

end Hila
