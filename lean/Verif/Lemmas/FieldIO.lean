import Verif.Lemmas.Elements
import Mathlib.Algebra.Order.BigOperators.Ring.Finset

/-! Lemmas on field files, subvolumes and coordinate ranges. -/

namespace Hila

open BigOperators

set_option linter.unusedSectionVars false

variable {n : ℕ} {V : Type} (lay : Layout n)

/-- `mem` holds the values of `f` at all lattice sites. -/
abbrev Holds (mem : ℕ → Mem V) (f : Site n → V) : Prop :=
  ∀ c, lay.InLattice c →
    mem (lay.nodeRank c) ((lay.nodeinfo (lay.nodeRank c)).siteIndex c) = f c

theorem numNodes_pos (h : lay.WF) : 0 < lay.numNodes :=
  Finset.prod_pos fun d _ => h.ndiv_pos d

theorem globalCoordinates_inLattice (h : lay.WF) (i : ℕ) : lay.InLattice (lay.globalCoordinates i) :=
  fun d => digits_lt _ _ h.L_pos d

theorem range_split (a b : ℕ) (g : ℕ → V) :
    (List.range (min a b)).map g ++ (List.range (b - a)).map (fun j => g (a + j)) =
      (List.range b).map g := by
  rcases le_total a b with h | h
  · rw [min_eq_left h]
    obtain ⟨c, rfl⟩ := Nat.exists_eq_add_of_le h
    rw [Nat.add_sub_cancel_left, List.range_add, List.map_append, List.map_map]; rfl
  · rw [min_eq_right h, Nat.sub_eq_zero_of_le h]; simp

theorem write_spec (h : lay.WF) (dflt : V) (mem : ℕ → Mem V) (f : Site n → V) (hm : Holds lay mem f)
    (vol per : ℕ) (hper : 0 < per) (fuel i : ℕ) (hf : vol - i < fuel) :
    writeFrom lay dflt mem vol per fuel i =
      some ((List.range (vol - i)).map fun j => f (lay.globalCoordinates (i + j))) := by
  induction fuel generalizing i with
  | zero => omega
  | succ fuel ih =>
    rw [writeFrom]
    by_cases hi : i < vol
    · rw [if_pos hi, gather_spec lay h dflt mem f hm _ ?_ 0 (numNodes_pos lay h), ih (i + per) (by omega)]
      · simp only [Option.bind_eq_bind, Option.bind_some, chunkCoords, List.map_map]
        rw [show vol - (i + per) = (vol - i) - per by omega,
          ← range_split per (vol - i) (fun j => f (lay.globalCoordinates (i + j)))]
        congr 2
        apply List.map_congr_left
        intro j _
        rw [Nat.add_assoc]
      · intro c hc
        obtain ⟨j, _, rfl⟩ := List.mem_map.1 hc
        exact globalCoordinates_inLattice lay h _
    · rw [if_neg hi, show vol - i = 0 by omega]; rfl

theorem stream_read (l : List V) (k : ℕ) (h : k ≤ l.length) :
    (InStream.mk l false).read k = (l.take k, ⟨l.drop k, false⟩) := by
  unfold InStream.read
  simp only [Bool.false_eq_true, if_false]
  rw [if_neg (by omega)]

theorem read_spec (h : lay.WF) (dflt : V) (F : Site n → V) (vol per : ℕ) (hvol : vol = lay.latVolume)
    (hper : 0 < per) (fuel i : ℕ) (buf file : List V) (mem : ℕ → Mem V) (f : Site n → V)
    (hf : vol - i < fuel) (hbuf : per ≤ buf.length)
    (hfile : ∀ k, i + k < vol → file[k]? = some (F (digits lay.L (i + k))))
    (hm : Holds lay mem f) (hdone : ∀ c, lay.InLattice c → lex lay.L c < i → f c = F c) :
    ∃ mem', readFrom lay dflt vol per fuel i buf ⟨file, false⟩ mem =
        some (mem', ⟨file.drop (vol - i), false⟩) ∧
      Holds lay mem' F := by
  induction fuel generalizing i buf file mem f with
  | zero => omega
  | succ fuel ih =>
    rw [readFrom]
    by_cases hi : i < vol
    · rw [if_pos hi]
      dsimp only
      set s := min per (vol - i) with hs
      have hlen : s ≤ file.length := by
        by_contra hcon
        have hlt : file.length < vol - i := by omega
        have := hfile file.length (by omega)
        simp at this
      have hgot : (file.take s).length = s := by simp [hlen]
      rw [stream_read file s hlen]
      dsimp only
      set buf' := overwrite buf (file.take s) with hbuf'
      have hb'len : buf'.length = max s buf.length := by
        rw [hbuf', overwrite, List.length_append, hgot, List.length_drop]; omega
      have hvals : buf'.take s = (chunkCoords lay vol per i).map F := by
        rw [hbuf', overwrite, List.take_append_of_le_length (by omega), List.take_take, min_self]
        apply List.ext_getElem?
        intro k
        unfold chunkCoords
        rw [List.getElem?_take, List.map_map, List.getElem?_map, ← hs]
        by_cases hk : k < s
        · rw [if_pos hk, List.getElem?_range hk, hfile k (by omega)]; rfl
        · rw [if_neg hk, List.getElem?_eq_none (by simp; omega)]; rfl
      have hcs : ∀ c ∈ chunkCoords lay vol per i, lay.InLattice c := by
        intro c hc
        obtain ⟨j, _, rfl⟩ := List.mem_map.1 hc
        exact globalCoordinates_inLattice lay h _
      obtain ⟨mem1, e1, e2, _⟩ := scatter_spec lay h dflt mem f hm (chunkCoords lay vol per i) hcs
        (buf'.take s) (by rw [hvals]; simp)
      rw [e1]
      simp only [Option.bind_eq_bind, Option.bind_some]
      rw [hvals] at e2
      have key := ih (i + per) buf' (file.drop s) mem1
        (assignAll f (chunkCoords lay vol per i) ((chunkCoords lay vol per i).map F)) (by omega)
        (by omega) ?_ e2 ?_
      · obtain ⟨mem', q1, q2⟩ := key
        refine ⟨mem', ?_, q2⟩
        rw [q1, List.drop_drop]
        by_cases hend : per ≤ vol - i
        · rw [show s + (vol - (i + per)) = vol - i by omega]
        · rw [show vol - (i + per) = 0 by omega, show s = vol - i by omega]; rfl
      · intro k hk
        rw [List.getElem?_drop, show s = per by omega, hfile (per + k) (by omega), Nat.add_assoc]
      · intro c hc hlt
        by_cases hmem : c ∈ chunkCoords lay vol per i
        · exact assignAll_map _ _ _ _ hmem
        · rw [assignAll_notMem _ _ _ _ hmem]
          apply hdone c hc
          by_contra hge
          apply hmem
          have hv := lex_lt lay.L c hc
          have : ∏ d, lay.L d = vol := hvol.symm
          refine List.mem_map.2 ⟨lex lay.L c - i, ?_, ?_⟩
          · rw [List.mem_range]; omega
          · unfold Layout.globalCoordinates
            rw [show i + (lex lay.L c - i) = lex lay.L c by omega, digits_lex _ _ hc]
    · rw [if_neg hi, show vol - i = 0 by omega]
      refine ⟨mem, rfl, fun c hc => ?_⟩
      rw [hm c hc]
      apply hdone c hc
      have hv := lex_lt lay.L c hc
      have : ∏ d, lay.L d = vol := hvol.symm
      omega

/-! ## Reading a smaller lattice -/

theorem scatterTiles_spec (h : lay.WF) (dflt : V) (insize : Site n) (G : Site n → V)
    (cs : List (Site n)) (buffer : List V)
    (hbuf : ∀ sci, buffer = (tileCoords lay.L insize sci cs).map G) (scis : List ℕ)
    (mem : ℕ → Mem V) (f : Site n → V) (hm : Holds lay mem f) :
    ∃ mem' f', scatterTiles lay dflt insize cs buffer scis mem = some mem' ∧ Holds lay mem' f' ∧
      (∀ c, f c = G c → f' c = G c) ∧
      ∀ c, (∃ sci ∈ scis, c ∈ tileCoords lay.L insize sci cs) → f' c = G c := by
  induction scis generalizing mem f with
  | nil => exact ⟨mem, f, rfl, hm, fun _ hc => hc, by rintro c ⟨_, h0, _⟩; cases h0⟩
  | cons sci rest ih =>
    have hin : ∀ c ∈ tileCoords lay.L insize sci cs, lay.InLattice c := by
      intro c hc d
      obtain ⟨x, _, rfl⟩ := List.mem_map.1 hc
      exact Nat.mod_lt _ (h.L_pos d)
    obtain ⟨mem1, e1, e2, _⟩ := scatter_spec lay h dflt mem f hm (tileCoords lay.L insize sci cs) hin
      buffer (by conv_lhs => rw [hbuf sci]
                 simp)
    obtain ⟨mem', f', q1, q2, q3, q4⟩ := ih mem1 _ e2
    have hone : ∀ c, f c = G c ∨ c ∈ tileCoords lay.L insize sci cs →
        assignAll f (tileCoords lay.L insize sci cs) buffer c = G c := by
      intro c hc
      by_cases hmem : c ∈ tileCoords lay.L insize sci cs
      · rw [hbuf sci]; exact assignAll_map _ _ _ _ hmem
      · rw [assignAll_notMem _ _ _ _ hmem]
        rcases hc with hc | hc
        · exact hc
        · exact absurd hc hmem
    refine ⟨mem', f', ?_, q2, fun c hc => q3 c (hone c (Or.inl hc)), ?_⟩
    · rw [scatterTiles, e1]; exact q1
    · rintro c ⟨s, hs, hc⟩
      rcases List.mem_cons.1 hs with rfl | hs
      · exact q3 c (hone c (Or.inr hc))
      · exact q4 c ⟨s, hs, hc⟩

theorem readTiled_spec (h : lay.WF) (dflt : V) (insize : Site n) (hin : ∀ d, 0 < insize d)
    (hdvd : ∀ d, insize d ∣ lay.L d) (F : Site n → V) (tvol scvol per : ℕ)
    (htvol : tvol = ∏ d, insize d) (hsc : scvol = ∏ d, lay.L d / insize d)
    (hper : 0 < per) (fuel i : ℕ) (buf file : List V) (mem : ℕ → Mem V) (f : Site n → V)
    (hf : tvol - i < fuel) (hbuf : per ≤ buf.length)
    (hfile : ∀ k, i + k < tvol → file[k]? = some (F (digits insize (i + k))))
    (hm : Holds lay mem f)
    (hdone : ∀ c, lay.InLattice c → lex insize (fun d => c d % insize d) < i →
      f c = F fun d => c d % insize d) :
    ∃ mem', readTiledFrom lay dflt insize tvol scvol per fuel i buf ⟨file, false⟩ mem =
        some (mem', ⟨file.drop (tvol - i), false⟩) ∧
      Holds lay mem' fun c => F fun d => c d % insize d := by
  induction fuel generalizing i buf file mem f with
  | zero => omega
  | succ fuel ih =>
    have hmodlt : ∀ (c : Site n) d, c d % insize d < insize d := fun c d => Nat.mod_lt _ (hin d)
    have hlexlt : ∀ c : Site n, lex insize (fun d => c d % insize d) < tvol := by
      intro c; rw [htvol]; exact lex_lt _ _ (hmodlt c)
    rw [readTiledFrom]
    by_cases hi : i < tvol
    · rw [if_pos hi]
      dsimp only
      set s := min per (tvol - i) with hs
      have hlen : s ≤ file.length := by
        by_contra hcon
        have := hfile file.length (by omega)
        simp at this
      have hgot : (file.take s).length = s := by simp [hlen]
      rw [stream_read file s hlen]
      dsimp only
      set buf' := overwrite buf (file.take s) with hbuf'
      have hb'len : buf'.length = max s buf.length := by
        rw [hbuf', overwrite, List.length_append, hgot, List.length_drop]; omega
      set cs := chunkCoordsIn insize tvol per i with hcsdef
      set G : Site n → V := fun c => F fun d => c d % insize d with hG
      have hcsIn : ∀ c ∈ cs, ∀ d, c d < insize d := by
        intro c hc d
        obtain ⟨j, _, rfl⟩ := List.mem_map.1 hc
        exact digits_lt _ _ hin d
      have hvalsF : buf'.take s = cs.map F := by
        rw [hbuf', overwrite, List.take_append_of_le_length (by omega), List.take_take, min_self]
        apply List.ext_getElem?
        intro k
        rw [hcsdef]
        unfold chunkCoordsIn
        rw [List.getElem?_take, List.map_map, List.getElem?_map, ← hs]
        by_cases hk : k < s
        · rw [if_pos hk, List.getElem?_range hk, hfile k (by omega)]; rfl
        · rw [if_neg hk, List.getElem?_eq_none (by simp; omega)]; rfl
      have hFG : ∀ c ∈ cs, F c = G c := by
        intro c hc
        rw [hG]
        dsimp only
        congr 1
        funext d
        exact (Nat.mod_eq_of_lt (hcsIn c hc d)).symm
      have hvals : buf'.take s = cs.map G := by
        rw [hvalsF]; exact List.map_congr_left hFG
      have htile : ∀ sci, buf'.take s = (tileCoords lay.L insize sci cs).map G := by
        intro sci
        rw [hvalsF]
        unfold tileCoords
        rw [List.map_map]
        apply List.map_congr_left
        intro c hc
        show F c = F _
        congr 1
        funext d
        rw [Nat.mod_mod_of_dvd _ (hdvd d), Nat.add_mul_mod_self_right,
          Nat.mod_eq_of_lt (hcsIn c hc d)]
      have hcsL : ∀ c ∈ cs, lay.InLattice c := fun c hc d =>
        lt_of_lt_of_le (hcsIn c hc d) (Nat.le_of_dvd (h.L_pos d) (hdvd d))
      obtain ⟨mem1, e1, e2, _⟩ := scatter_spec lay h dflt mem f hm cs hcsL (buf'.take s)
        (by rw [hvals]; simp)
      obtain ⟨mem2, f2, t1, t2, t3, t4⟩ := scatterTiles_spec lay h dflt insize G cs (buf'.take s) htile
        ((List.range (scvol - 1)).map (· + 1)) mem1 _ e2
      rw [e1]
      simp only [Option.bind_eq_bind, Option.bind_some]
      rw [t1]
      simp only [Option.bind_some]
      have key := ih (i + per) buf' (file.drop s) mem2 f2 (by omega) (by omega) ?_ t2 ?_
      · obtain ⟨mem', q1, q2⟩ := key
        refine ⟨mem', ?_, q2⟩
        rw [q1, List.drop_drop]
        by_cases hend : per ≤ tvol - i
        · rw [show s + (tvol - (i + per)) = tvol - i by omega]
        · rw [show tvol - (i + per) = 0 by omega, show s = tvol - i by omega]; rfl
      · intro k hk
        rw [List.getElem?_drop, show s = per by omega, hfile (per + k) (by omega), Nat.add_assoc]
      · intro c hc hlt
        show f2 c = G c
        by_cases hold : lex insize (fun d => c d % insize d) < i
        · apply t3
          by_cases hmem : c ∈ cs
          · rw [hvals]; exact assignAll_map _ _ _ _ hmem
          · rw [assignAll_notMem _ _ _ _ hmem]; exact hdone c hc hold
        · -- the reduced coordinate is in this chunk
          have hx : (fun d => c d % insize d) ∈ cs := by
            refine List.mem_map.2 ⟨lex insize (fun d => c d % insize d) - i, ?_, ?_⟩
            · rw [List.mem_range]; have := hlexlt c; omega
            · rw [show i + (lex insize (fun d => c d % insize d) - i) =
                lex insize (fun d => c d % insize d) by omega]
              exact digits_lex _ _ (hmodlt c)
          have htl : ∀ d, c d / insize d < lay.L d / insize d := by
            intro d
            obtain ⟨q, hq⟩ := hdvd d
            have hcl := hc d
            rw [hq] at hcl ⊢
            rw [Nat.mul_div_cancel_left _ (hin d)]
            exact Nat.div_lt_of_lt_mul hcl
          set sci := lex (fun d => lay.L d / insize d) (fun d => c d / insize d) with hsci
          have hscilt : sci < scvol := by rw [hsc]; exact lex_lt _ _ htl
          have hdig : digits (fun d => lay.L d / insize d) sci = fun d => c d / insize d :=
            digits_lex _ _ htl
          have hct : c ∈ tileCoords lay.L insize sci cs := by
            refine List.mem_map.2 ⟨_, hx, ?_⟩
            funext d
            rw [hdig]
            dsimp only
            rw [Nat.mul_comm, Nat.mod_add_div, Nat.mod_eq_of_lt (hc d)]
          by_cases h0 : sci = 0
          · apply t3
            have hc0 : c ∈ cs := by
              have : (fun d => c d % insize d) = c := by
                funext d
                have hd0 : c d / insize d = 0 := by
                  have := congrFun hdig d
                  rw [h0] at this
                  rw [← this]
                  exact congrFun (digits_zero _) d
                have := Nat.mod_add_div (c d) (insize d)
                rw [hd0] at this; simpa using this
              rwa [this] at hx
            rw [hvals]; exact assignAll_map _ _ _ _ hc0
          · apply t4
            refine ⟨sci, ?_, hct⟩
            exact List.mem_map.2 ⟨sci - 1, List.mem_range.2 (by omega), by omega⟩
    · rw [if_neg hi, show tvol - i = 0 by omega]
      refine ⟨mem, rfl, fun c hc => ?_⟩
      rw [hm c hc]
      apply hdone c hc
      have := hlexlt c
      omega

/-! ## Coordinate ranges -/

theorem range_mul_map {W : Type} (m b : ℕ) (g : ℕ → W) :
    (List.range (m * b)).map g =
      (List.range m).flatMap fun q => (List.range b).map fun k => g (b * q + k) := by
  induction m with
  | zero => simp
  | succ m ih =>
    rw [Nat.succ_mul, List.range_add, List.map_append, ih, List.range_succ, List.flatMap_append]
    congr 1
    simp only [List.map_map, List.flatMap_cons, List.flatMap_nil, List.append_nil]
    apply List.map_congr_left
    intro k _
    simp [Nat.mul_comm]

theorem coordinateRange_eq {n : ℕ} (lo hi : Fin n → ℕ) (h : ∀ d, lo d ≤ hi d) :
    coordinateRange lo hi = (List.range (∏ d, (hi d - lo d + 1))).map fun k d =>
      lo d + digits (fun d => hi d - lo d + 1) k d := by
  induction n with
  | zero =>
    simp only [coordinateRange, Finset.univ_eq_empty, Finset.prod_empty]
    show _ = [_]
    congr 1
    funext d; exact d.elim0
  | succ n ih =>
    rw [coordinateRange, ih (Fin.tail lo) (Fin.tail hi) (fun d => h d.succ), Fin.prod_univ_succ,
      Nat.mul_comm, range_mul_map, List.flatMap_map]
    have h0 : hi 0 + 1 - lo 0 = hi 0 - lo 0 + 1 := by have := h 0; omega
    rw [h0]
    congr 1
    funext q
    apply List.map_congr_left
    intro k hk
    rw [List.mem_range] at hk
    funext d
    refine Fin.cases ?_ (fun j => ?_) d
    · simp only [Fin.cons_zero, digits]
      rw [Nat.mul_add_mod, Nat.mod_eq_of_lt hk]
    · simp only [Fin.cons_succ, digits]
      rw [Nat.mul_add_div (by omega), Nat.div_eq_of_lt hk]
      rfl

theorem coordinateRange_length {n : ℕ} (lo hi : Fin n → ℕ) (h : ∀ d, lo d ≤ hi d) :
    (coordinateRange lo hi).length = ∏ d, (hi d - lo d + 1) := by
  rw [coordinateRange_eq lo hi h]; simp

theorem coordinateRange_getElem {n : ℕ} (lo hi : Fin n → ℕ) (h : ∀ d, lo d ≤ hi d) (c : Fin n → ℕ)
    (hc : ∀ d, lo d ≤ c d ∧ c d ≤ hi d) :
    (coordinateRange lo hi)[lex (fun d => hi d - lo d + 1) (fun d => c d - lo d)]? = some c := by
  have hlt : ∀ d, c d - lo d < hi d - lo d + 1 := fun d => by have := hc d; omega
  rw [coordinateRange_eq lo hi h, List.getElem?_map, List.getElem?_range (lex_lt _ _ hlt)]
  simp only [Option.map_some, Option.some.injEq]
  funext d
  rw [digits_lex _ _ hlt]
  have := hc d
  dsimp only
  omega

theorem coordinateRange_mem {n : ℕ} (lo hi : Fin n → ℕ) (h : ∀ d, lo d ≤ hi d) (c : Fin n → ℕ) :
    c ∈ coordinateRange lo hi ↔ ∀ d, lo d ≤ c d ∧ c d ≤ hi d := by
  constructor
  · rw [coordinateRange_eq lo hi h]
    intro hc d
    obtain ⟨k, _, rfl⟩ := List.mem_map.1 hc
    have := digits_lt (fun d => hi d - lo d + 1) k (fun d => by omega) d
    dsimp only at this ⊢
    have := h d
    omega
  · intro hc
    exact List.mem_of_getElem? (coordinateRange_getElem lo hi h c hc)

theorem subvol_fold (h : lay.WF) (dflt : V) (mem : ℕ → Mem V) (f : Site n → V) (hm : Holds lay mem f)
    (nWrite sites : ℕ) (rest : List (Site n)) (hrest : ∀ c ∈ rest, lay.InLattice c)
    (s : SubvolState n V) (hpend : ∀ c ∈ s.pending, lay.InLattice c) (o : List V) (ho : s.out = some o)
    (hseen : s.seen + rest.length = sites) (hne : rest = [] → s.pending = []) :
    (rest.foldl (subvolStep lay dflt mem nWrite sites) s).out =
      some (o ++ s.pending.map f ++ rest.map f) := by
  induction rest generalizing s o with
  | nil => simp [hne rfl, ho]
  | cons c t ih =>
    rw [List.foldl_cons]
    have hpend' : ∀ e ∈ s.pending ++ [c], lay.InLattice e := by
      intro e he
      rcases List.mem_append.1 he with he | he
      · exact hpend e he
      · rw [List.mem_singleton.1 he]; exact hrest c (List.mem_cons_self ..)
    have ht : ∀ e ∈ t, lay.InLattice e := fun e he => hrest e (List.mem_cons_of_mem _ he)
    have hl : s.seen + 1 + t.length = sites := by simp at hseen; omega
    by_cases hflush : (s.pending ++ [c]).length = nWrite ∨ s.seen + 1 = sites
    · have hst : subvolStep lay dflt mem nWrite sites s c = ⟨[], s.seen + 1,
          (s.out.bind fun o => (gatherElements lay dflt mem (s.pending ++ [c]) 0).map fun l => o ++ l)⟩ := by
        unfold subvolStep; dsimp only; rw [if_pos hflush]
      rw [hst, ih ht _ (by intro e he; cases he) (o ++ (s.pending ++ [c]).map f) ?_ hl (fun _ => rfl)]
      · simp
      · rw [ho, gather_spec lay h dflt mem f hm _ hpend' 0 (numNodes_pos lay h)]; rfl
    · have hst : subvolStep lay dflt mem nWrite sites s c = ⟨s.pending ++ [c], s.seen + 1, s.out⟩ := by
        unfold subvolStep; dsimp only; rw [if_neg hflush]
      rw [hst, ih ht ⟨s.pending ++ [c], s.seen + 1, s.out⟩ hpend' o ho hl ?_]
      · simp
      · intro ht0
        subst ht0
        simp at hl
        exact absurd (Or.inr hl) hflush

end Hila
