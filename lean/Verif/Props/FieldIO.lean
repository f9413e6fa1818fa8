import Verif.Model.Config
import Verif.Props.Elements
import Mathlib.Tactic.Linarith

/-!
# C08, C09, C34, C42: field and configuration files
-/

namespace Hila

open BigOperators

/-- Specification of a field file for lattice size `L`: one element per site, the value of site `c`
at position `Σ_d c_d Π_{j<d} L_j` (first coordinate fastest). -/
def IsFieldFile {n : ℕ} {V : Type} (L : Site n) (f : Site n → V) (file : List V) : Prop :=
  file.length = ∏ d, L d ∧
  ∀ c : Site n, (∀ d, c d < L d) →
    file[∑ d, c d * ∏ j : Fin d.val, L ⟨j.val, by omega⟩]? = some (f c)

theorem isFieldFile_iff {n : ℕ} {V : Type} (L : Site n) (f : Site n → V) (file : List V) :
    IsFieldFile L f file ↔ file = (List.range (∏ d, L d)).map fun k => f (digits L k) := by
  have hpos : ∀ c : Site n, ∑ d, c d * ∏ j : Fin d.val, L ⟨j.val, by omega⟩ = lex L c :=
    fun c => lex_eq_sum L c
  constructor
  · rintro ⟨h1, h2⟩
    apply List.ext_getElem
    · simp [h1]
    · intro k hk hk'
      rw [List.getElem_map, List.getElem_range]
      have hkv : k < ∏ d, L d := by omega
      have := h2 (digits L k) (fun d => digits_lt _ _ (pos_of_lt_prod L k hkv) d)
      rw [hpos, lex_digits L k hkv, List.getElem?_eq_getElem hk] at this
      exact Option.some.inj this
  · rintro rfl
    refine ⟨by simp, fun c hc => ?_⟩
    rw [hpos, List.getElem?_map, List.getElem?_range (lex_lt L c hc)]
    simp only [Option.map_some, digits_lex L c hc]

/-! ## C08 -/

/-- Writing produces the field file, for every layout and every buffer that holds at least one
element. -/
theorem C08_write {n : ℕ} {V : Type} (lay : Layout n) (h : lay.WF) (dflt : V) (per : ℕ)
    (hper : 0 < per) (mem : ℕ → Mem V) (f : Site n → V) (hm : Stores lay mem f) :
    ∃ file, writeField lay dflt per mem = some file ∧ IsFieldFile lay.L f file := by
  refine ⟨_, write_spec lay h dflt mem f hm _ per hper _ 0 (by omega), ?_⟩
  rw [isFieldFile_iff]
  simp only [Nat.sub_zero, Nat.zero_add]
  rfl

/-- Reading a field file (possibly followed by other data) stores the field and leaves the stream
at the first element after it; neither the previous content of the field nor that of the buffer
matters. -/
theorem C08_read {n : ℕ} {V : Type} (lay : Layout n) (h : lay.WF) (dflt : V) (per : ℕ)
    (hper : 0 < per) (junk : List V) (hjunk : junk.length = per) (mem : ℕ → Mem V) (f : Site n → V)
    (file rest : List V) (hfile : IsFieldFile lay.L f file) :
    ∃ mem', readField lay dflt per junk mem ⟨file ++ rest, false⟩ = some (mem', ⟨rest, false⟩) ∧
      Stores lay mem' f := by
  have hlen := hfile.1
  rw [isFieldFile_iff] at hfile
  have hold : Holds lay mem fun c =>
      mem (lay.nodeRank c) ((lay.nodeinfo (lay.nodeRank c)).siteIndex c) := fun c _ => rfl
  have key := read_spec lay h dflt f lay.latVolume per rfl hper (lay.latVolume + 1) 0
    junk (file ++ rest) mem _ (by omega) (by omega) ?_ hold (by intro c _ hc; omega)
  · obtain ⟨mem', h1, h2⟩ := key
    refine ⟨mem', ?_, h2⟩
    unfold readField
    rw [h1]
    have : file.length = lay.latVolume := hlen
    rw [Nat.sub_zero, ← this, List.drop_left]
  · intro k hk
    rw [Nat.zero_add] at hk ⊢
    have : k < file.length := by rw [hlen]; exact hk
    have hk' : k < ∏ d, lay.L d := hk
    rw [List.getElem?_append_left this, hfile, List.getElem?_map, List.getElem?_range hk']
    rfl

/-- Written with one layout and buffer size, read with another: the field is restored at every
site. -/
theorem C08_roundtrip {n : ℕ} {V : Type} (lay lay' : Layout n) (h : lay.WF) (h' : lay'.WF)
    (hL : lay.L = lay'.L) (dflt dflt' : V) (per per' : ℕ) (hper : 0 < per) (hper' : 0 < per')
    (junk : List V) (hjunk : junk.length = per') (mem mem₀ : ℕ → Mem V) (f : Site n → V)
    (hm : Stores lay mem f) :
    ∃ file mem', writeField lay dflt per mem = some file ∧
      readFile lay' dflt' per' junk mem₀ file = some mem' ∧ Stores lay' mem' f := by
  obtain ⟨file, h1, h2⟩ := C08_write lay h dflt per hper mem f hm
  rw [hL] at h2
  obtain ⟨mem', h3, h4⟩ := C08_read lay' h' dflt' per' hper' junk hjunk mem₀ f file [] h2
  refine ⟨file, mem', h1, ?_, h4⟩
  rw [List.append_nil] at h3
  unfold readFile
  rw [h3]
  rfl

/-- Two fields written one after the other are read back one after the other. -/
theorem C08_two_fields {n : ℕ} {V : Type} (lay : Layout n) (h : lay.WF) (dflt : V) (per : ℕ)
    (hper : 0 < per) (junk junk' : List V) (hj : junk.length = per) (hj' : junk'.length = per)
    (mem mem2 m0 m1 : ℕ → Mem V) (f g : Site n → V) (hm : Stores lay mem f) (hm2 : Stores lay mem2 g) :
    ∃ a b ma mb, writeField lay dflt per mem = some a ∧ writeField lay dflt per mem2 = some b ∧
      readField lay dflt per junk m0 ⟨a ++ b, false⟩ = some (ma, ⟨b, false⟩) ∧
      readField lay dflt per junk' m1 ⟨b, false⟩ = some (mb, ⟨[], false⟩) ∧
      Stores lay ma f ∧ Stores lay mb g := by
  obtain ⟨a, a1, a2⟩ := C08_write lay h dflt per hper mem f hm
  obtain ⟨b, b1, b2⟩ := C08_write lay h dflt per hper mem2 g hm2
  obtain ⟨ma, c1, c2⟩ := C08_read lay h dflt per hper junk hj m0 f a b a2
  obtain ⟨mb, d1, d2⟩ := C08_read lay h dflt per hper junk' hj' m1 g b [] b2
  rw [List.append_nil] at d1
  exact ⟨a, b, ma, mb, a1, b1, c1, d1, c2, d2⟩

/-- Disagreement: an element type larger than `WRITE_BUFFER_SIZE` gives a buffer of zero elements
and the loop never ends: no number of iterations finishes it. -/
theorem C08_zero_buffer_never_ends {n : ℕ} {V : Type} (lay : Layout n) (dflt : V) (mem : ℕ → Mem V)
    (hv : 0 < lay.latVolume) (fuel : ℕ) : writeFrom lay dflt mem lay.latVolume 0 fuel 0 = none := by
  induction fuel with
  | zero => rfl
  | succ fuel ih =>
    rw [writeFrom, if_pos hv, Nat.add_zero, ih]
    cases gatherElements lay dflt mem (chunkCoords lay lay.latVolume 0 0) 0 <;> rfl

/-! ## C42: truncated files -/

theorem read_short {n : ℕ} {V : Type} (lay : Layout n) (dflt : V) (vol per : ℕ) (fuel i : ℕ)
    (buf : List V) (st : InStream V) (mem mem' : ℕ → Mem V) (st' : InStream V)
    (hshort : st.fail = true ∨ st.data.length < vol - i)
    (hi : st.fail = true ∨ i < vol)
    (h : readFrom lay dflt vol per fuel i buf st mem = some (mem', st')) : st'.fail = true := by
  induction fuel generalizing i buf st mem with
  | zero => rw [readFrom] at h; cases h
  | succ fuel ih =>
    rw [readFrom] at h
    by_cases hlt : i < vol
    · rw [if_pos hlt] at h
      dsimp only at h
      cases hs : scatterElements lay dflt mem (chunkCoords lay vol per i)
          ((overwrite buf (st.read (min per (vol - i))).1).take (min per (vol - i))) with
      | none => rw [hs] at h; cases h
      | some m =>
        rw [hs] at h
        simp only [Option.bind_eq_bind, Option.bind_some] at h
        apply ih _ _ _ _ ?_ ?_ h
        · unfold InStream.read
          by_cases hf : st.fail = true
          · left; simp [hf]
          · simp only [hf, Bool.false_eq_true, if_false]
            split
            · left; rfl
            · right
              rename_i hge
              rcases hshort with hc | hc
              · exact absurd hc hf
              · rw [List.length_drop]; omega
        · unfold InStream.read
          by_cases hf : st.fail = true
          · left; simp [hf]
          · simp only [hf, Bool.false_eq_true, if_false]
            split
            · left; rfl
            · right
              rename_i hge
              rcases hshort with hc | hc
              · exact absurd hc hf
              · omega
    · rw [if_neg hlt] at h
      obtain ⟨rfl, rfl⟩ := Prod.mk.inj (Option.some.inj h)
      rcases hi with hi | hi
      · exact hi
      · exact absurd hi hlt

/-- A file with fewer elements than the lattice has sites is never read successfully: the stream
has failed when it is closed and the program terminates. -/
theorem C42_truncated_rejected {n : ℕ} {V : Type} (lay : Layout n) (dflt : V) (per : ℕ)
    (junk : List V) (mem : ℕ → Mem V) (file : List V) (hshort : file.length < ∏ d, lay.L d) :
    readFile lay dflt per junk mem file = none := by
  unfold readFile
  split
  · rfl
  · rename_i mem' st' he
    have := read_short lay dflt _ per _ 0 junk ⟨file, false⟩ mem mem' st'
      (Or.inr (by simpa [Layout.latVolume] using hshort))
      (Or.inr (by show 0 < ∏ d, lay.L d; omega)) he
    rw [this]; rfl

/-! ## C09 -/

/-- Reading a file of the smaller lattice `insize` sets every site `x` to the file's value at
`x mod insize`, for all layouts and buffer sizes. -/
theorem C09_tiled {n : ℕ} {V : Type} (lay : Layout n) (h : lay.WF) (dflt : V) (per : ℕ)
    (hper : 0 < per) (junk : List V) (hjunk : junk.length = per) (insize : Site n)
    (hin : ∀ d, 0 < insize d) (hdvd : ∀ d, insize d ∣ lay.L d) (mem : ℕ → Mem V) (f : Site n → V)
    (file rest : List V) (hfile : IsFieldFile insize f file) :
    ∃ mem', readTiled lay dflt per junk insize mem ⟨file ++ rest, false⟩ =
        some (mem', ⟨rest, false⟩) ∧
      Stores lay mem' fun x => f fun d => x d % insize d := by
  have hlen := hfile.1
  rw [isFieldFile_iff] at hfile
  have hold : Holds lay mem fun c =>
      mem (lay.nodeRank c) ((lay.nodeinfo (lay.nodeRank c)).siteIndex c) := fun c _ => rfl
  have key := readTiled_spec lay h dflt insize hin hdvd f _ _ per rfl rfl hper
    ((∏ d, insize d) + 1) 0 junk (file ++ rest) mem _ (by omega) (by omega) ?_ hold
    (by intro c _ hc; omega)
  · obtain ⟨mem', h1, h2⟩ := key
    refine ⟨mem', ?_, h2⟩
    unfold readTiled
    rw [if_neg, h1, Nat.sub_zero, ← hlen, List.drop_left]
    rw [List.any_eq_true]
    rintro ⟨d, _, hd⟩
    have := hin d
    simp at hd
    omega
  · intro k hk
    rw [Nat.zero_add] at hk ⊢
    have : k < file.length := by rw [hlen]; exact hk
    rw [List.getElem?_append_left this, hfile, List.getElem?_map, List.getElem?_range hk]
    rfl

/-- In particular a file of the same size restores the field. -/
theorem C09_same_size {n : ℕ} {V : Type} (lay : Layout n) (h : lay.WF) (dflt : V) (per : ℕ)
    (hper : 0 < per) (junk : List V) (hjunk : junk.length = per) (mem : ℕ → Mem V) (f : Site n → V)
    (file : List V) (hfile : IsFieldFile lay.L f file) :
    ∃ mem', readTiled lay dflt per junk lay.L mem ⟨file, false⟩ = some (mem', ⟨[], false⟩) ∧
      Stores lay mem' f := by
  obtain ⟨mem', h1, h2⟩ := C09_tiled lay h dflt per hper junk hjunk lay.L h.L_pos
    (fun d => dvd_rfl) mem f file [] hfile
  rw [List.append_nil] at h1
  refine ⟨mem', h1, fun c hc => ?_⟩
  rw [h2 c hc]
  show f _ = f c
  congr 1
  funext d
  exact Nat.mod_eq_of_lt (hc d)

/-! ## C34 -/

/-- Gauge field files: the fields of the directions one after the other. -/
theorem writeGauge_spec {n : ℕ} {V : Type} (lay : Layout n) (h : lay.WF) (dflt : V) (per : ℕ)
    (hper : 0 < per) (mems : Fin n → ℕ → Mem V) (f : Fin n → Site n → V)
    (hm : ∀ d, Stores lay (mems d) (f d)) (ds : List (Fin n)) :
    ∃ files : Fin n → List V, (∀ d, IsFieldFile lay.L (f d) (files d)) ∧
      writeGauge lay dflt per mems ds = some (ds.flatMap files) := by
  choose files h1 h2 using fun d => C08_write lay h dflt per hper (mems d) (f d) (hm d)
  refine ⟨files, h2, ?_⟩
  induction ds with
  | nil => rfl
  | cons d rest ih =>
    rw [writeGauge, h1 d, ih]
    rfl

theorem readGauge_spec {n : ℕ} {V : Type} (lay : Layout n) (h : lay.WF) (dflt : V) (per : ℕ)
    (hper : 0 < per) (junk : List V) (hjunk : junk.length = per) (insize : Site n)
    (hin : ∀ d, 0 < insize d) (hdvd : ∀ d, insize d ∣ lay.L d) (f : Fin n → Site n → V)
    (files : Fin n → List V) (hfile : ∀ d, IsFieldFile insize (f d) (files d)) (ds : List (Fin n))
    (mems : Fin n → ℕ → Mem V) :
    ∃ mems', readGauge lay dflt per junk insize ds mems ⟨ds.flatMap files, false⟩ =
        some (mems', ⟨[], false⟩) ∧
      ∀ d, (d ∈ ds ∨ Stores lay (mems d) fun x => f d fun e => x e % insize e) →
        Stores lay (mems' d) fun x => f d fun e => x e % insize e := by
  induction ds generalizing mems with
  | nil => exact ⟨mems, rfl, fun d hd => hd.resolve_left (by simp)⟩
  | cons d rest ih =>
    obtain ⟨m, h1, h2⟩ := C09_tiled lay h dflt per hper junk hjunk insize hin hdvd (mems d) (f d)
      (files d) (rest.flatMap files) (hfile d)
    obtain ⟨mems', q1, q2⟩ := ih (Function.update mems d m)
    refine ⟨mems', ?_, fun e he => q2 e ?_⟩
    · rw [readGauge, List.flatMap_cons, h1]
      exact q1
    · by_cases hed : e = d
      · subst hed; right; rw [Function.update_self]; exact h2
      · rw [Function.update_of_ne hed]
        rcases he with he | he
        · rcases List.mem_cons.1 he with he | he
          · exact absurd he hed
          · exact Or.inl he
        · exact Or.inr he

theorem toInt32_small (x : ℤ) (h0 : 0 ≤ x) (h1 : x < 2147483648) : toInt32 x = x := by
  unfold toInt32
  rw [Int.bmod_def]
  omega

theorem readWord_cons (f x : ℤ) (l : List ℤ) :
    readWord f ⟨x :: l, false⟩ = (x, ⟨l, false⟩) := by
  unfold readWord
  rw [stream_read _ 1 (by simp)]
  rfl

/-- Result of the loop over the extents when the words are there and none is zero. -/
theorem dim_fold {n : ℕ} (L : Site n) (e : Fin n → ℤ) (ds : List (Fin n)) (hnd : ds.Nodup)
    (rest : List ℤ) (s : DimState n) (hst : s.st = ⟨ds.map e ++ rest, false⟩)
    (hz : ∀ d ∈ ds, toInt32 (e d) ≠ 0) (hdz : s.divZero = false) :
    let s' := ds.foldl (dimStep L) s
    s'.divZero = false ∧ s'.st = ⟨rest, false⟩ ∧
    s'.ok = (s.ok && ds.all fun d => decide (Int.tmod (L d) (toInt32 (e d)) = 0)) ∧
    (∀ d ∈ ds, s'.insize d = toInt32 (e d)) ∧ ∀ d, d ∉ ds → s'.insize d = s.insize d := by
  induction ds generalizing s with
  | nil => simp [hst, hdz]
  | cons d t ih =>
    rw [List.nodup_cons] at hnd
    have hstep : dimStep L s d = ⟨e d, ⟨t.map e ++ rest, false⟩,
        s.ok && decide (Int.tmod (L d) (toInt32 (e d)) = 0), false,
        Function.update s.insize d (toInt32 (e d))⟩ := by
      unfold dimStep
      rw [hst, List.map_cons, List.cons_append, readWord_cons]
      have : decide (toInt32 (e d) = 0) = false := by simp [hz d (List.mem_cons_self ..)]
      dsimp only
      rw [hdz, this]; simp
    rw [List.foldl_cons, hstep]
    obtain ⟨i1, i2, i3, i4, i5⟩ := ih hnd.2 ⟨e d, ⟨t.map e ++ rest, false⟩,
        s.ok && decide (Int.tmod (L d) (toInt32 (e d)) = 0), false,
        Function.update s.insize d (toInt32 (e d))⟩ rfl
        (fun x hx => hz x (List.mem_cons_of_mem _ hx)) rfl
    refine ⟨i1, i2, ?_, ?_, ?_⟩
    · rw [i3, List.all_cons, Bool.and_assoc]
    · intro x hx
      rcases List.mem_cons.1 hx with rfl | hx
      · rw [i5 x hnd.1]; exact Function.update_self ..
      · exact i4 x hx
    · intro x hx
      rw [List.mem_cons, not_or] at hx
      rw [i5 x hx.2]; exact Function.update_of_ne hx.1 ..

theorem checkHeader_spec {n : ℕ} (flag esize : ℤ) (L : Site n) (junk w1 w2 w3 : ℤ)
    (e : Fin n → ℤ) (rest : List ℤ) (hz : ∀ d, toInt32 (e d) ≠ 0) :
    checkHeader flag esize L junk (w1 :: w2 :: w3 :: ((List.finRange n).map e ++ rest)) =
      if w1 = flag ∧ w2 = n ∧ w3 = esize ∧ ∀ d, Int.tmod (L d) (toInt32 (e d)) = 0 then
        .accept (fun d => toInt32 (e d)) ⟨rest, false⟩
      else .reject := by
  unfold checkHeader
  simp only [readWord_cons]
  by_cases h1 : w1 = flag
  · by_cases h2 : w2 = n
    · by_cases h3 : w3 = esize
      · obtain ⟨i1, i2, i3, i4, _⟩ := dim_fold L e (List.finRange n) (List.nodup_finRange n) rest
          ⟨w3, ⟨(List.finRange n).map e ++ rest, false⟩, true, false, Site.toCV L⟩ rfl
          (fun d _ => hz d) rfl
        rw [if_neg (by simpa using h1), if_neg (by simpa using h2), if_neg (by simpa using h3)]
        generalize (List.finRange n).foldl (dimStep L)
          ⟨w3, ⟨(List.finRange n).map e ++ rest, false⟩, true, false, Site.toCV L⟩ = s at *
        have hins : s.insize = fun d => toInt32 (e d) := by
          funext d; exact i4 d (List.mem_finRange d)
        have hok : s.ok = true ↔ ∀ d, Int.tmod (L d) (toInt32 (e d)) = 0 := by
          rw [i3]; simp
        rw [i1]
        simp only [Bool.false_eq_true, if_false]
        by_cases hall : ∀ d, Int.tmod (L d) (toInt32 (e d)) = 0
        · rw [if_pos (hok.2 hall), if_pos ⟨h1, h2, h3, hall⟩, hins, i2]
        · rw [if_neg (fun hc => hall (hok.1 hc)), if_neg (fun hc => hall hc.2.2.2)]
      · rw [if_neg (by simpa using h1), if_neg (by simpa using h2), if_pos (by simpa using h3),
          if_neg (fun hc => h3 hc.2.2.1)]
    · rw [if_neg (by simpa using h1), if_pos (by simpa using h2), if_neg (fun hc => h2 hc.2.1)]
  · rw [if_pos (by simpa using h1), if_neg (fun hc => h1 hc.1)]

/-- `config_read` of what `config_write` saved, with any two layouts and buffer sizes, restores the
gauge field; a lattice whose extents are multiples is filled periodically. -/
theorem C34_roundtrip {n : ℕ} {V : Type} (lay lay' : Layout n) (h : lay.WF) (h' : lay'.WF)
    (hdvd : ∀ d, lay.L d ∣ lay'.L d) (h32 : ∀ d, lay.L d < 2147483648) (dflt dflt' : V) (per per' : ℕ)
    (hper : 0 < per) (hper' : 0 < per') (flag esize junkf : ℤ) (junk : List V)
    (hjunk : junk.length = per') (mems mems₀ : Fin n → ℕ → Mem V) (f : Fin n → Site n → V)
    (hm : ∀ d, Stores lay (mems d) (f d)) :
    ∃ file mems', configWrite lay dflt per flag esize mems = some file ∧
      configRead lay' dflt' per' flag esize junkf junk mems₀ file = .loaded mems' ∧
      ∀ d, Stores lay' (mems' d) fun x => f d fun e => x e % lay.L e := by
  obtain ⟨files, hf, hw⟩ := writeGauge_spec lay h dflt per hper mems f hm (List.finRange n)
  obtain ⟨mems', hr, hs⟩ := readGauge_spec lay' h' dflt' per' hper' junk hjunk lay.L h.L_pos hdvd f
    files hf (List.finRange n) mems₀
  refine ⟨⟨flag :: n :: esize :: (List.finRange n).map fun d => (lay.L d : ℤ),
    (List.finRange n).flatMap files⟩, mems', ?_, ?_,
    fun d => hs d (Or.inl (List.mem_finRange d))⟩
  · unfold configWrite; rw [hw]; rfl
  · have h32' : ∀ d, toInt32 (lay.L d : ℤ) = lay.L d := fun d =>
      toInt32_small _ (by positivity) (by exact_mod_cast h32 d)
    have hz : ∀ d, toInt32 (lay.L d : ℤ) ≠ 0 := fun d => by
      rw [h32']; have := h.L_pos d; omega
    have hck := checkHeader_spec flag esize lay'.L junkf flag n esize (fun d => (lay.L d : ℤ)) [] hz
    rw [List.append_nil, if_pos ⟨rfl, rfl, rfl, fun d => by
      rw [h32', ← Int.ofNat_tmod, Nat.mod_eq_zero_of_dvd (hdvd d)]; rfl⟩] at hck
    unfold configRead
    dsimp only
    rw [hck]
    dsimp only
    rw [if_pos]
    · have : (fun d => (toInt32 (lay.L d : ℤ)).toNat) = lay.L := by
        funext d; rw [h32']; rfl
      rw [this, hr]
      rfl
    · rw [List.all_eq_true]
      intro d _
      have := h.L_pos d
      exact decide_eq_true (by rw [h32']; omega)

/-- A complete header whose extents are positive 32-bit numbers is accepted only if magic number,
dimension and element size agree and every extent divides the lattice extent; otherwise the program
terminates without changing the field. Missing (see the disagreements below): zero, negative and
too large extents. -/
theorem C34_rejects_partial {n : ℕ} {V : Type} (lay : Layout n) (dflt : V) (per : ℕ)
    (flag esize junkf w1 w2 w3 : ℤ) (junk : List V) (mems : Fin n → ℕ → Mem V) (e : Fin n → ℤ)
    (he : ∀ d, 0 < e d ∧ e d < 2147483648) (rest : List ℤ) (data : List V)
    (hbad : w1 ≠ flag ∨ w2 ≠ n ∨ w3 ≠ esize ∨ ∃ d, ¬ e d ∣ (lay.L d : ℤ)) :
    configRead lay dflt per flag esize junkf junk mems
      ⟨w1 :: w2 :: w3 :: ((List.finRange n).map e ++ rest), data⟩ = .rejected := by
  have h32 : ∀ d, toInt32 (e d) = e d := fun d => toInt32_small _ (by have := he d; omega) (he d).2
  have hck := checkHeader_spec flag esize lay.L junkf w1 w2 w3 e rest
    (fun d => by rw [h32]; have := he d; omega)
  rw [if_neg] at hck
  · unfold configRead; dsimp only; rw [hck]
  · rintro ⟨h1, h2, h3, h4⟩
    rcases hbad with hb | hb | hb | ⟨d, hb⟩
    · exact hb h1
    · exact hb h2
    · exact hb h3
    · have := h4 d
      rw [h32] at this
      exact hb (Int.dvd_of_tmod_eq_zero this)

/-- Disagreement: an extent of zero in the header is not rejected, it makes the program divide by
zero (for every lattice of dimension one or more). -/
theorem C34_zero_extent {n : ℕ} {V : Type} (lay : Layout (n + 1)) (dflt : V) (per : ℕ)
    (flag esize junkf : ℤ) (junk : List V) (mems : Fin (n + 1) → ℕ → Mem V) (data : List V) :
    configRead lay dflt per flag esize junkf junk mems
      ⟨[flag, ((n + 1 : ℕ) : ℤ), esize] ++ List.replicate (n + 1) 0, data⟩ = .undefined := by
  have hstick : ∀ (ds : List (Fin (n + 1))) (s : DimState (n + 1)), s.divZero = true →
      (ds.foldl (dimStep lay.L) s).divZero = true := by
    intro ds
    induction ds with
    | nil => intro s hs; exact hs
    | cons d t ih =>
      intro s hs
      rw [List.foldl_cons]
      apply ih
      unfold dimStep
      simp [hs]
  have hck : checkHeader flag esize lay.L junkf
      ([flag, ((n + 1 : ℕ) : ℤ), esize] ++ List.replicate (n + 1) 0) = .divZero := by
    unfold checkHeader
    simp only [List.cons_append, List.nil_append, readWord_cons, ne_eq, not_true_eq_false, if_false]
    rw [if_pos]
    rw [List.finRange_succ, List.foldl_cons]
    apply hstick
    unfold dimStep
    rw [List.replicate_succ]
    dsimp only
    rw [readWord_cons]
    rfl
  unfold configRead
  dsimp only
  rw [hck]

/-- Disagreement: negative extents pass the divisibility test (`8 % -4 == 0`); the read that
follows leaves the lattice. -/
theorem C34_negative_extent {n : ℕ} {V : Type} (lay : Layout (n + 1)) (h : lay.WF)
    (h32 : ∀ d, lay.L d < 2147483648) (dflt : V) (per : ℕ)
    (flag esize junkf : ℤ) (junk : List V) (mems : Fin (n + 1) → ℕ → Mem V) (data : List V) :
    configRead lay dflt per flag esize junkf junk mems
      ⟨[flag, ((n + 1 : ℕ) : ℤ), esize] ++ (List.finRange (n + 1)).map fun d => -(lay.L d : ℤ), data⟩ =
      .undefined := by
  have h32' : ∀ d, toInt32 (-(lay.L d : ℤ)) = -(lay.L d : ℤ) := by
    intro d
    have h1 := h.L_pos d
    have h2 := h32 d
    unfold toInt32
    rw [Int.bmod_def]
    omega
  have hck := checkHeader_spec flag esize lay.L junkf flag ((n + 1 : ℕ) : ℤ) esize
    (fun d => -(lay.L d : ℤ)) [] (fun d => by rw [h32']; have := h.L_pos d; omega)
  rw [List.append_nil, if_pos ⟨rfl, rfl, rfl, fun d => by rw [h32']; simp⟩] at hck
  unfold configRead
  dsimp only
  rw [List.cons_append, List.cons_append, List.cons_append, List.nil_append, hck]
  dsimp only
  rw [if_neg]
  rw [List.all_eq_true]
  intro hcon
  have h1 := of_decide_eq_true (hcon 0 (List.mem_finRange 0))
  rw [h32'] at h1
  omega

/-- Disagreement: the 64-bit extent is truncated to 32 bits before it is compared, so a header
with `2^32 + L` is taken for `L`. -/
theorem C34_truncated_extent {n : ℕ} (flag esize junkf : ℤ) (L : Site n) (hL : ∀ d, 0 < L d)
    (h32 : ∀ d, L d < 2147483648) :
    checkHeader flag esize L junkf
      (flag :: n :: esize :: (List.finRange n).map fun d => (L d : ℤ) + 4294967296) =
    .accept (Site.toCV L) ⟨[], false⟩ := by
  have h32' : ∀ d, toInt32 ((L d : ℤ) + 4294967296) = L d := by
    intro d
    have h1 := hL d
    have h2 := h32 d
    unfold toInt32
    rw [Int.bmod_def]
    omega
  have hck := checkHeader_spec flag esize L junkf flag n esize (fun d => (L d : ℤ) + 4294967296) []
    (fun d => by rw [h32']; have := hL d; omega)
  rw [List.append_nil, if_pos ⟨rfl, rfl, rfl, fun d => by rw [h32']; exact Int.tmod_self⟩] at hck
  rw [hck]
  exact congrArg (fun g => HeaderResult.accept g _) (funext h32')

/-! ## C42 for configurations -/

theorem readTiledFrom_consumes {n : ℕ} {V : Type} (lay : Layout n) (dflt : V) (insize : Site n)
    (tvol scvol per fuel i : ℕ) (buf : List V) (st : InStream V) (mem mem' : ℕ → Mem V)
    (st' : InStream V)
    (h : readTiledFrom lay dflt insize tvol scvol per fuel i buf st mem = some (mem', st')) :
    st'.fail = true ∨ (st.fail = false ∧ st'.data.length + (tvol - i) = st.data.length) := by
  induction fuel generalizing i buf st mem with
  | zero => rw [readTiledFrom] at h; cases h
  | succ fuel ih =>
    rw [readTiledFrom] at h
    by_cases hlt : i < tvol
    · rw [if_pos hlt] at h
      dsimp only at h
      cases hs : scatterElements lay dflt mem (chunkCoordsIn insize tvol per i)
          ((overwrite buf (st.read (min per (tvol - i))).1).take (min per (tvol - i))) with
      | none => rw [hs] at h; cases h
      | some m =>
        rw [hs] at h
        simp only [Option.bind_eq_bind, Option.bind_some] at h
        cases ht : scatterTiles lay dflt insize (chunkCoordsIn insize tvol per i)
            ((overwrite buf (st.read (min per (tvol - i))).1).take (min per (tvol - i)))
            ((List.range (scvol - 1)).map (· + 1)) m with
        | none => rw [ht] at h; cases h
        | some m2 =>
          rw [ht] at h
          simp only [Option.bind_some] at h
          rcases ih _ _ _ _ h with hf | ⟨hf, hlen⟩
          · exact Or.inl hf
          · unfold InStream.read at hf hlen
            by_cases hfail : st.fail = true
            · simp [hfail] at hf
            · simp only [hfail, Bool.false_eq_true, if_false] at hf hlen
              by_cases hsh : st.data.length < min per (tvol - i)
              · rw [if_pos hsh] at hf; cases hf
              · rw [if_neg hsh] at hlen
                simp only [List.length_drop] at hlen
                right
                refine ⟨by simpa using hfail, by omega⟩
    · rw [if_neg hlt] at h
      obtain ⟨rfl, rfl⟩ := Prod.mk.inj (Option.some.inj h)
      by_cases hfail : st.fail = true
      · exact Or.inl hfail
      · right; refine ⟨by simpa using hfail, by omega⟩

theorem readGauge_consumes {n : ℕ} {V : Type} (lay : Layout n) (dflt : V) (per : ℕ) (junk : List V)
    (insize : Site n) (ds : List (Fin n)) (mems mems' : Fin n → ℕ → Mem V) (st st' : InStream V)
    (h : readGauge lay dflt per junk insize ds mems st = some (mems', st')) :
    st'.fail = true ∨
      (st.fail = false ∧ st'.data.length + ds.length * ∏ d, insize d = st.data.length) := by
  induction ds generalizing mems st with
  | nil =>
    obtain ⟨rfl, rfl⟩ := Prod.mk.inj (Option.some.inj h)
    by_cases hfail : st.fail = true
    · exact Or.inl hfail
    · right; exact ⟨by simpa using hfail, by simp⟩
  | cons d rest ih =>
    rw [readGauge] at h
    cases hr : readTiled lay dflt per junk insize (mems d) st with
    | none => rw [hr] at h; cases h
    | some p =>
      obtain ⟨m, st1⟩ := p
      rw [hr] at h
      simp only [Option.bind_eq_bind, Option.bind_some] at h
      rcases ih _ _ h with hf | ⟨hf, hlen⟩
      · exact Or.inl hf
      · unfold readTiled at hr
        split at hr
        · cases hr
        · rcases readTiledFrom_consumes _ _ _ _ _ _ _ _ _ _ _ _ _ hr with h1 | ⟨h1, h2⟩
          · rw [h1] at hf; cases hf
          · right
            refine ⟨h1, ?_⟩
            rw [List.length_cons, Nat.succ_mul]
            omega

/-- A configuration whose data part is shorter than its header announces (`NDIM` fields of
`Π extents` elements each) is never loaded. -/
theorem C42_config_truncated {n : ℕ} {V : Type} (lay : Layout n) (dflt : V) (per : ℕ)
    (flag esize junkf : ℤ) (junk : List V) (mems mems' : Fin n → ℕ → Mem V) (e : Fin n → ℕ)
    (he : ∀ d, 0 < e d ∧ e d < 2147483648) (w1 w2 w3 : ℤ) (data : List V)
    (hshort : data.length < n * ∏ d, e d) :
    configRead lay dflt per flag esize junkf junk mems
      ⟨w1 :: w2 :: w3 :: (List.finRange n).map fun d => (e d : ℤ), data⟩ ≠ .loaded mems' := by
  have h32 : ∀ d, toInt32 (e d : ℤ) = e d := fun d =>
    toInt32_small _ (by positivity) (by exact_mod_cast (he d).2)
  have hck := checkHeader_spec flag esize lay.L junkf w1 w2 w3 (fun d => (e d : ℤ)) []
    (fun d => by rw [h32]; have := he d; omega)
  rw [List.append_nil] at hck
  unfold configRead
  dsimp only
  rw [hck]
  by_cases hacc : w1 = flag ∧ w2 = n ∧ w3 = esize ∧
      ∀ d, Int.tmod (lay.L d) (toInt32 (e d : ℤ)) = 0
  · rw [if_pos hacc]
    dsimp only
    have hins : (fun d => (toInt32 (e d : ℤ)).toNat) = e := by
      funext d; rw [h32]; rfl
    split
    · rw [hins]
      split
      · simp
      · rename_i ms st' hr
        rcases readGauge_consumes _ _ _ _ _ _ _ _ _ _ hr with h1 | ⟨_, h2⟩
        · rw [h1]; simp
        · rw [List.length_finRange] at h2
          dsimp only at h2
          omega
    · simp
  · rw [if_neg hacc]; simp

theorem readWord_short (f : ℤ) (st : InStream ℤ) (r : ℕ) (h : st.fail = true ∨ st.data.length < r + 1) :
    (readWord f st).2.fail = true ∨ (readWord f st).2.data.length < r := by
  unfold readWord InStream.read
  by_cases hf : st.fail = true
  · simp [hf]
  · have h := h.resolve_left hf
    by_cases hs : st.data.length < 1
    · simp [hf, hs]
    · right
      simp [hf, hs]
      omega

theorem dim_fold_short {n : ℕ} (L : Site n) (ds : List (Fin n)) (s : DimState n)
    (h : s.st.fail = true ∨ s.st.data.length < ds.length) :
    (ds.foldl (dimStep L) s).st.fail = true := by
  induction ds generalizing s with
  | nil => simpa using h
  | cons d ds ih =>
    rw [List.foldl_cons]
    apply ih
    unfold dimStep
    exact readWord_short s.f s.st ds.length h

/-- A configuration file that ends within the header is never loaded. -/
theorem C42_config_header_cut {n : ℕ} {V : Type} (lay : Layout n) (dflt : V) (per : ℕ)
    (flag esize junkf : ℤ) (junk : List V) (mems mems' : Fin n → ℕ → Mem V) (header : List ℤ)
    (hshort : header.length < n + 3) :
    configRead lay dflt per flag esize junkf junk mems ⟨header, []⟩ ≠ .loaded mems' := by
  have h1 := readWord_short junkf ⟨header, false⟩ (n + 2) (Or.inr hshort)
  have hck : ∀ insize st, checkHeader flag esize lay.L junkf header = .accept insize st →
      st.fail = true := by
    intro insize st h
    unfold checkHeader at h
    dsimp only at h
    split at h
    · cases h
    · split at h
      · cases h
      · split at h
        · cases h
        · have h2 := readWord_short (readWord junkf ⟨header, false⟩).1 _ (n + 1) h1
          have h3 := readWord_short (readWord (readWord junkf ⟨header, false⟩).1
            (readWord junkf ⟨header, false⟩).2).1 _ n h2
          have h4 := fun f => dim_fold_short lay.L (List.finRange n)
            ⟨f, _, true, false, Site.toCV lay.L⟩ (by rw [List.length_finRange]; exact h3)
          split at h
          · cases h
          · split at h
            · cases h; exact h4 _
            · cases h
  unfold configRead
  dsimp only
  split
  · simp
  · simp
  · rename_i insize st he
    have hfail := hck _ _ he
    split
    · split
      · simp
      · rename_i ms st' hr
        rcases readGauge_consumes _ _ _ _ _ _ _ _ _ _ hr with h1 | ⟨h2, _⟩
        · rw [h1]; simp
        · dsimp only at h2
          rw [hfail] at h2; cases h2
    · simp

/-! ## Non-vacuity -/

/-- A field written with a buffer of four elements on six ranks. -/
example : writeField exampleLayout 0 4 (memOf exampleLayout fun c => 10 * c 0 + c 1) =
    some [0, 10, 20, 30, 40, 1, 11, 21, 31, 41, 2, 12, 22, 32, 42] := by decide +kernel

/-- Extents 5 and 3 are multiples of 5 and 1: hypotheses of `C09_tiled`. -/
example : (∀ d, 0 < (![5, 1] : Site 2) d) ∧ (∀ d, (![5, 1] : Site 2) d ∣ exampleLayout.L d) ∧
    IsFieldFile (![5, 1] : Site 2) (fun c => 10 * c 0 + c 1) [0, 10, 20, 30, 40] := by
  refine ⟨by decide, by decide, ?_⟩
  rw [isFieldFile_iff]
  decide +kernel

/-- Hypotheses of `C34_roundtrip`. -/
example : exampleLayout.WF ∧ (∀ d, exampleLayout.L d < 2147483648) ∧
    ∀ d : Fin 2, Stores exampleLayout (memOf exampleLayout fun c => c d) fun c => c d :=
  ⟨exampleLayout_wf, by decide, fun _ => memOf_stores _ exampleLayout_wf _⟩

end Hila
