import Verif.Model.BracketRef
import Mathlib.Tactic.Common

/-!
# C116: arrays which all sites share are changed in loops by reductions only
-/

namespace Hila

/-- The element which is meant may change during the loop. -/
def BrRef.Dep (r : BrRef) : Prop := r.site = true ∨ r.loc = true

instance (r : BrRef) : Decidable r.Dep := by unfold BrRef.Dep; infer_instance

/-- What one accepted reference to a shared array does: the entry of its array is kept or made, or it becomes a loop constant. -/
theorem brStep_cases {v : BrVars} {s s' : BrState} {r : BrRef} (h : brStep v s r = some s') (hl : v.isLocal r.base = false) :
    r.baseSite = false ∧ s'.noVec = (s.noVec || r.site || r.assign.isSome) ∧
    ((∃ e, s.arrays.find? (fun e => e.base == r.base) = some e ∧ s'.arrays = s.arrays ∧ s'.consts = s.consts ∧
        (e.type = .reduction ↔ brType (v.cont r.base) r.assign = .reduction) ∧ (e.type = .reduction → e.red = brRed r.assign)) ∨
     (s.arrays.find? (fun e => e.base == r.base) = none ∧ ¬ r.Dep ∧ brType (v.cont r.base) r.assign ≠ .reduction ∧ s'.arrays = s.arrays ∧
        (r.assign = none ∨ r.assign = some .add) ∧
        ((∃ c, s.consts.find? (fun c => c.base == r.base && c.index == r.index) = some c ∧ (r.assign.isSome ↔ c.red ≠ .none) ∧ s'.consts = s.consts) ∨
         (s.consts.find? (fun c => c.base == r.base && c.index == r.index) = none ∧
          s'.consts = s.consts ++ [⟨r.base, r.index, if r.assign.isSome then .sum else .none⟩]))) ∨
     (s.arrays.find? (fun e => e.base == r.base) = none ∧ (r.Dep ∨ brType (v.cont r.base) r.assign = .reduction) ∧
        (r.assign = none ∨ brType (v.cont r.base) r.assign = .reduction) ∧ v.cont r.base ≠ .carray false ∧
        s'.arrays = s.arrays ++ [⟨r.base, brType (v.cont r.base) r.assign, brRed r.assign⟩] ∧ s'.consts = s.consts)) := by
  simp only [brStep, hl] at h
  by_cases hb : r.baseSite = true
  · simp [hb] at h
  simp only [Bool.not_eq_true] at hb
  simp only [hb] at h
  cases hf : s.arrays.find? (fun e => e.base == r.base) with
  | some e =>
    simp only [hf, brSeen] at h
    by_cases h1 : ((e.type == .reduction) != (brType (v.cont r.base) r.assign == .reduction)) = true
    · simp [h1] at h
    by_cases h2 : (e.type == .reduction && e.red != brRed r.assign) = true
    · simp [h1, h2] at h
    simp [h1, h2] at h
    subst h
    refine ⟨hb, by simp, Or.inl ⟨e, rfl, rfl, rfl, ?_, ?_⟩⟩
    · by_cases ha : e.type = .reduction <;> by_cases hc : brType (v.cont r.base) r.assign = .reduction <;> simp_all
    · intro ha; simpa [ha] using h2
  | none =>
    simp only [hf, brNew] at h
    by_cases h1 : (!r.site && !r.loc && brType (v.cont r.base) r.assign != .reduction) = true
    · simp [h1, brConst] at h
      have hd : ¬ r.Dep ∧ brType (v.cont r.base) r.assign ≠ .reduction := by
        simp at h1; unfold BrRef.Dep; simp [h1]
      obtain ⟨ha, h⟩ := h
      have ha' : r.assign = none ∨ r.assign = some .add := by
        rcases hx : r.assign with _ | o
        · exact Or.inl rfl
        · right; rw [← hx]; apply ha; simp [hx]
      cases hg : s.consts.find? (fun c => c.base == r.base && c.index == r.index) with
      | some c =>
        simp [hg] at h
        obtain ⟨hh, h⟩ := h
        subst h
        refine ⟨hb, by simp, Or.inr (Or.inl ⟨rfl, hd.1, hd.2, rfl, ha', Or.inl ⟨c, rfl, ?_, rfl⟩⟩)⟩
        rcases ha' with hx | hx <;> simp_all
      | none =>
        simp [hg] at h
        subst h
        exact ⟨hb, by simp, Or.inr (Or.inl ⟨rfl, hd.1, hd.2, rfl, ha', Or.inr ⟨rfl, rfl⟩⟩)⟩
    · simp only [h1] at h
      by_cases h2 : (r.assign.isSome && (r.site || r.loc) && brType (v.cont r.base) r.assign != .reduction) = true
      · simp [h2] at h
      by_cases h3 : v.cont r.base = .carray false
      · simp [h3] at h
      simp [h2, h3] at h
      subst h
      have hD : r.Dep ∨ brType (v.cont r.base) r.assign = .reduction := by
        unfold BrRef.Dep
        by_contra hx; push Not at hx; apply h1; simp [hx]
      refine ⟨hb, by simp, Or.inr (Or.inr ⟨rfl, hD, ?_, h3, rfl, rfl⟩)⟩
      by_contra hx; push Not at hx
      apply h2
      rcases hD with hD | hD
      · unfold BrRef.Dep at hD
        simp [hx, Option.isSome_iff_ne_none, hD]
      · exact absurd hD hx.2

/-- References to arrays of the loop change nothing. -/
theorem brStep_local {v : BrVars} {s s' : BrState} {r : BrRef} (h : brStep v s r = some s') (hl : v.isLocal r.base = true) : s' = s := by
  simp only [brStep, hl] at h
  split at h <;> simp_all

/-- Entries stay. -/
theorem brStep_find {v : BrVars} {s s' : BrState} {r : BrRef} (h : brStep v s r = some s') {b : ℕ} {e : BrEntry}
    (he : s.arrays.find? (fun e => e.base == b) = some e) : s'.arrays.find? (fun e => e.base == b) = some e := by
  by_cases hl : v.isLocal r.base = true
  · rw [brStep_local h hl]; exact he
  · obtain ⟨-, -, h | h | h⟩ := brStep_cases h (by simpa using hl)
    · obtain ⟨_, -, h, -⟩ := h; rw [h]; exact he
    · rw [h.2.2.2.1]; exact he
    · rw [h.2.2.2.2.1, List.find?_append, he]; rfl

/-- Loop constants stay. -/
theorem brStep_consts {v : BrVars} {s s' : BrState} {r : BrRef} (h : brStep v s r = some s') {c : BrConst}
    (hc : c ∈ s.consts) : c ∈ s'.consts := by
  by_cases hl : v.isLocal r.base = true
  · rw [brStep_local h hl]; exact hc
  · obtain ⟨-, -, h | h | h⟩ := brStep_cases h (by simpa using hl)
    · obtain ⟨_, -, -, h, -⟩ := h; rw [h]; exact hc
    · obtain ⟨-, -, -, -, -, ⟨_, -, -, h⟩ | ⟨-, h⟩⟩ := h
      · rw [h]; exact hc
      · rw [h]; exact List.mem_append_left _ hc
    · rw [h.2.2.2.2.2]; exact hc

/-- No vectors stays. -/
theorem brStep_noVec {v : BrVars} {s s' : BrState} {r : BrRef} (h : brStep v s r = some s') (hc : s.noVec = true) : s'.noVec = true := by
  by_cases hl : v.isLocal r.base = true
  · rw [brStep_local h hl]; exact hc
  · rw [(brStep_cases h (by simpa using hl)).2.1]; simp [hc]

/-- The parts of a loop: what holds from some reference on holds at the end. -/
theorem brFold_mem {v : BrVars} (I : BrState → Prop) (P : BrState → Prop) {rs : List BrRef} {r : BrRef}
    (hI : ∀ s s' x, x ∈ rs → I s → brStep v s x = some s' → I s') (hP : ∀ s s' x, P s → brStep v s x = some s' → P s')
    (hr : ∀ s s', I s → brStep v s r = some s' → P s') :
    ∀ {s s' : BrState}, I s → rs.foldlM (brStep v) s = some s' → r ∈ rs → P s' := by
  have keep : ∀ (l : List BrRef) (s s' : BrState), P s → l.foldlM (brStep v) s = some s' → P s' := by
    intro l
    induction l with
    | nil => intro s s' h1 h2; simp at h2; exact h2 ▸ h1
    | cons x l ih =>
      intro s s' h1 h2
      simp only [List.foldlM_cons, Option.bind_eq_bind, Option.bind_eq_some_iff] at h2
      obtain ⟨m, hm, h2⟩ := h2
      exact ih m s' (hP _ _ _ h1 hm) h2
  induction rs with
  | nil => intro s s' _ _ h; simp at h
  | cons x l ih =>
    intro s s' h1 h2 h3
    simp only [List.foldlM_cons, Option.bind_eq_bind, Option.bind_eq_some_iff] at h2
    obtain ⟨m, hm, h2⟩ := h2
    rcases List.mem_cons.1 h3 with h3 | h3
    · subst h3; exact keep l m s' (hr _ _ h1 hm) h2
    · exact ih (fun s s' y hy => hI s s' y (List.mem_cons_of_mem _ hy)) (hI _ _ x List.mem_cons_self h1 hm) h2 h3

/-- The type is a reduction exactly for a `ReductionVector` which is assigned to. -/
theorem brType_red (c : BrCont) (a : Option BrOp) : brType c a = .reduction ↔ c = .redVector ∧ a ≠ none := by
  cases c <;> cases a <;> simp [brType]

/-- Invariant: loop constants which are assigned to are sums, and an array without a changing read has no entry. -/
theorem brInv_step {v : BrVars} {b : ℕ} (hb : v.cont b ≠ .redVector) {rs : List BrRef}
    (hn : ∀ r ∈ rs, r.base = b → r.Dep → r.assign ≠ none) (s s' : BrState) (x : BrRef) (hx : x ∈ rs)
    (hI : s.arrays.find? (fun e => e.base == b) = none ∧ ∀ c ∈ s.consts, c.red = .none ∨ c.red = .sum) (h : brStep v s x = some s') :
    s'.arrays.find? (fun e => e.base == b) = none ∧ ∀ c ∈ s'.consts, c.red = .none ∨ c.red = .sum := by
  by_cases hl : v.isLocal x.base = true
  · rw [brStep_local h hl]; exact hI
  · obtain ⟨-, -, h | h | h⟩ := brStep_cases h (by simpa using hl)
    · obtain ⟨_, -, h1, h2, -⟩ := h; rw [h1, h2]; exact hI
    · obtain ⟨-, -, -, h1, -, ⟨_, -, -, h⟩ | ⟨-, h⟩⟩ := h
      · rw [h1, h]; exact hI
      · rw [h1, h]
        refine ⟨hI.1, fun c hc => ?_⟩
        rcases List.mem_append.1 hc with hc | hc
        · exact hI.2 c hc
        · simp at hc; subst hc; by_cases ha : x.assign.isSome = true <;> simp [ha]
    · obtain ⟨-, hD, ha, -, h1, h2⟩ := h
      rw [h1, h2, List.find?_append, hI.1]
      refine ⟨?_, hI.2⟩
      have : x.base ≠ b := by
        intro hxb
        rw [brType_red, hxb] at hD ha
        rcases hD with hD | hD
        · rcases ha with ha | ha
          · exact hn x hx hxb hD ha
          · exact hb ha.1
        · exact hb hD.1
      simp [this]

/-- **C116 (arrays).** When hilapp accepts a loop and the loop reads no changing element of the shared array, each assignment to an element of the array is `+=`
to an element which is the same for all sites, and this element is summed. Missing: arrays with changing reads, see `C116_read_then_write_wrong`. -/
theorem C116_array_partial {v : BrVars} {rs : List BrRef} {s : BrState} (h : brLoop v rs = some s) {r : BrRef} (hr : r ∈ rs) {op : BrOp}
    (ha : r.assign = some op) (hl : v.isLocal r.base = false) (hc : v.cont r.base ≠ .redVector)
    (hn : ∀ r' ∈ rs, r'.base = r.base → r'.Dep → r'.assign ≠ none) :
    op = .add ∧ ¬ r.Dep ∧ ⟨r.base, r.index, .sum⟩ ∈ s.consts := by
  refine brFold_mem (v := v) (r := r) (rs := rs)
    (fun s => s.arrays.find? (fun e => e.base == r.base) = none ∧ ∀ c ∈ s.consts, c.red = .none ∨ c.red = .sum)
    (fun s => op = .add ∧ ¬ r.Dep ∧ ⟨r.base, r.index, .sum⟩ ∈ s.consts) (brInv_step hc hn)
    (fun s s' x hP hx => ⟨hP.1, hP.2.1, brStep_consts hx hP.2.2⟩) ?_ ⟨by simp, by simp⟩ h hr
  intro s s' hI hs
  obtain ⟨-, -, h | h | h⟩ := brStep_cases hs hl
  · obtain ⟨e, he, -⟩ := h; rw [hI.1] at he; exact absurd he (by simp)
  · obtain ⟨-, hd, -, -, hadd, h⟩ := h
    have hop : op = .add := by rw [ha] at hadd; simpa using hadd
    refine ⟨hop, hd, ?_⟩
    rcases h with ⟨c, hf, hi, hcs⟩ | ⟨-, hcs⟩
    · rw [hcs]
      have hm := List.mem_of_find?_eq_some hf
      have hp := List.find?_some hf
      simp at hp
      have hcr : c.red = .sum := by
        rcases hI.2 c hm with h0 | h0
        · exact absurd h0 (hi.1 (by simp [ha]))
        · exact h0
      have : c = ⟨r.base, r.index, .sum⟩ := by cases c; simp_all
      exact this ▸ hm
    · rw [hcs]; simp [ha]
  · obtain ⟨-, -, h, -⟩ := h
    rw [brType_red] at h
    rcases h with h | h
    · rw [ha] at h; exact absurd h (by simp)
    · exact absurd h.1 hc

/-- **C116 (exactly after reads).** When an accepted loop assigns to an ordinary shared array in another way than by `+=` to a fixed element, a changing element
of the array was read earlier in the loop. With `C116_read_then_write_wrong` this says when the check fails. -/
theorem C116_only_after_read {v : BrVars} {l₁ l₂ : List BrRef} {r : BrRef} {s : BrState} (h : brLoop v (l₁ ++ r :: l₂) = some s) {op : BrOp}
    (ha : r.assign = some op) (hl : v.isLocal r.base = false) (hc : v.cont r.base ≠ .redVector) (hb : op ≠ .add ∨ r.Dep) :
    ∃ r' ∈ l₁, r'.base = r.base ∧ r'.Dep ∧ r'.assign = none := by
  have hp : ∃ m, brLoop v (l₁ ++ [r]) = some m := by
    have e : l₁ ++ r :: l₂ = (l₁ ++ [r]) ++ l₂ := by simp
    rw [e, brLoop, List.foldlM_append] at h
    simp only [Option.bind_eq_bind, Option.bind_eq_some_iff] at h
    obtain ⟨m, hm, -⟩ := h
    exact ⟨m, hm⟩
  obtain ⟨m, hm⟩ := hp
  by_contra hx
  push Not at hx
  have := C116_array_partial hm (r := r) (by simp) ha hl hc (by
    intro r' hr' h1 h2
    rcases List.mem_append.1 hr' with h | h
    · exact hx r' h h1 h2
    · rw [List.mem_singleton.1 h, ha]; simp)
  rcases hb with hb | hb
  · exact hb this.1
  · exact this.2.1 hb

/-- Every assignment to a shared `ReductionVector` has its entry at the end. -/
theorem brRedVector_entry {v : BrVars} {rs : List BrRef} {s : BrState} (h : brLoop v rs = some s) {r : BrRef} (hr : r ∈ rs)
    (hl : v.isLocal r.base = false) (hc : v.cont r.base = .redVector) (ha : r.assign ≠ none) :
    ∃ e, s.arrays.find? (fun e => e.base == r.base) = some e ∧ e.type = .reduction ∧ e.red = brRed r.assign := by
  have ht : brType (v.cont r.base) r.assign = .reduction := (brType_red _ _).2 ⟨hc, ha⟩
  refine brFold_mem (v := v) (r := r) (rs := rs) (fun _ => True)
    (fun s => ∃ e, s.arrays.find? (fun e => e.base == r.base) = some e ∧ e.type = .reduction ∧ e.red = brRed r.assign)
    (fun _ _ _ _ _ _ => trivial) (fun s s' x ⟨e, h1, h2⟩ hx => ⟨e, brStep_find hx h1, h2⟩) ?_ trivial h hr
  intro s s' _ hs
  obtain ⟨-, -, h | h | h⟩ := brStep_cases hs hl
  · obtain ⟨e, he, h1, -, h2, h3⟩ := h
    exact ⟨e, by rw [h1]; exact he, h2.2 ht, h3 (h2.2 ht)⟩
  · exact absurd ht h.2.2.1
  · obtain ⟨hf, -, -, -, h1, -⟩ := h
    exact ⟨⟨r.base, brType (v.cont r.base) r.assign, brRed r.assign⟩, by rw [h1, List.find?_append, hf]; simp, ht, rfl⟩

/-- Every changing read of a shared array has its entry at the end. -/
theorem brRead_entry {v : BrVars} {rs : List BrRef} {s : BrState} (h : brLoop v rs = some s) {r : BrRef} (hr : r ∈ rs)
    (hl : v.isLocal r.base = false) (hd : r.Dep) (ha : r.assign = none) :
    ∃ e, s.arrays.find? (fun e => e.base == r.base) = some e ∧ e.type ≠ .reduction := by
  have ht : brType (v.cont r.base) r.assign ≠ .reduction := by rw [Ne, brType_red]; simp [ha]
  refine brFold_mem (v := v) (r := r) (rs := rs) (fun _ => True)
    (fun s => ∃ e, s.arrays.find? (fun e => e.base == r.base) = some e ∧ e.type ≠ .reduction)
    (fun _ _ _ _ _ _ => trivial) (fun s s' x ⟨e, h1, h2⟩ hx => ⟨e, brStep_find hx h1, h2⟩) ?_ trivial h hr
  intro s s' _ hs
  obtain ⟨-, -, h | h | h⟩ := brStep_cases hs hl
  · obtain ⟨e, he, h1, -, h2, -⟩ := h
    exact ⟨e, by rw [h1]; exact he, fun hx => ht (h2.1 hx)⟩
  · exact absurd hd h.2.1
  · obtain ⟨hf, -, -, -, h1, -⟩ := h
    exact ⟨⟨r.base, brType (v.cont r.base) r.assign, brRed r.assign⟩, by rw [h1, List.find?_append, hf]; simp, ht⟩

/-- **C116 (`ReductionVector`).** In an accepted loop a shared `ReductionVector` which is assigned to is reduced, all assignments to it are `+=` or none is,
and no changing element of it is read. Missing: operators other than `+=` and `*=` (`C116_minus_wrong`) and reads of fixed elements (`C116_mixed_wrong`). -/
theorem C116_vector_partial {v : BrVars} {rs : List BrRef} {s : BrState} (h : brLoop v rs = some s) {r : BrRef} (hr : r ∈ rs) {op : BrOp}
    (ha : r.assign = some op) (hl : v.isLocal r.base = false) (hc : v.cont r.base = .redVector) :
    (∃ e ∈ s.arrays, e.base = r.base ∧ e.type = .reduction ∧ (e.red = .sum ↔ op = .add) ∧ (op = .mul → e.red = .product)) ∧
    (∀ r' ∈ rs, r'.base = r.base → ∀ op', r'.assign = some op' → (op' = .add ↔ op = .add)) ∧
    (∀ r' ∈ rs, r'.base = r.base → r'.Dep → r'.assign ≠ none) := by
  obtain ⟨e, he, ht, hred⟩ := brRedVector_entry h hr hl hc (by simp [ha])
  have hb := List.find?_some he
  refine ⟨⟨e, List.mem_of_find?_eq_some he, by simpa using hb, ht, ?_, ?_⟩, ?_, ?_⟩
  · rw [hred, ha]; cases op <;> simp [brRed]
  · rintro rfl; rw [hred, ha]; rfl
  · intro r' hr' hbase op' ha'
    obtain ⟨e', he', -, hred'⟩ := brRedVector_entry h hr' (by rw [hbase]; exact hl) (by rw [hbase]; exact hc) (by simp [ha'])
    rw [hbase, he] at he'
    obtain rfl := Option.some.inj he'
    rw [hred, ha, ha'] at hred'
    cases op <;> cases op' <;> simp_all [brRed]
  · intro r' hr' hbase hd ha'
    obtain ⟨e', he', ht'⟩ := brRead_entry h hr' (by rw [hbase]; exact hl) hd ha'
    rw [hbase, he] at he'
    obtain rfl := Option.some.inj he'
    exact ht' ht

/-- **C116 (no vectors).** An accepted loop with an assignment to an element of a shared array or with an index depending on the site is not vectorized. -/
theorem C116_no_vectors {v : BrVars} {rs : List BrRef} {s : BrState} (h : brLoop v rs = some s) {r : BrRef} (hr : r ∈ rs)
    (hl : v.isLocal r.base = false) (ha : r.assign ≠ none ∨ r.site = true) : s.noVec = true := by
  refine brFold_mem (v := v) (r := r) (rs := rs) (fun _ => True) (fun s => s.noVec = true)
    (fun _ _ _ _ _ _ => trivial) (fun s s' x h1 hx => brStep_noVec hx h1) ?_ trivial h hr
  intro s s' _ hs
  rw [(brStep_cases hs hl).2.1]
  rcases ha with ha | ha
  · simp [Option.isSome_iff_ne_none, ha]
  · simp [ha]

/-- **C116 (arrays of the loop).** In an accepted loop the arrays which are declared in the loop are arrays of C++, and references to them, also
assignments, can be left out or put in without changing what hilapp does with the others. -/
theorem C116_local {v : BrVars} {l₁ l₂ : List BrRef} {r : BrRef} (hl : v.isLocal r.base = true) :
    (∀ s, brLoop v (l₁ ++ r :: l₂) = some s → ∃ z, v.cont r.base = .carray z) ∧
    ((∃ z, v.cont r.base = .carray z) → brLoop v (l₁ ++ r :: l₂) = brLoop v (l₁ ++ l₂)) := by
  have harr : brType (v.cont r.base) r.assign = .array ↔ ∃ z, v.cont r.base = .carray z := by
    cases v.cont r.base <;> cases r.assign <;> simp [brType]
  constructor
  · intro s h
    rw [brLoop, List.foldlM_append] at h
    simp only [List.foldlM_cons, Option.bind_eq_bind, Option.bind_eq_some_iff] at h
    obtain ⟨m, -, m', hm, -⟩ := h
    rw [← harr]
    by_contra hx
    simp [brStep, hl, hx] at hm
  · intro h
    have hs : ∀ s, brStep v s r = some s := fun s => by simp [brStep, hl, harr.2 h]
    simp [brLoop, List.foldlM_append, hs]

/-- **C116 (known arrays).** In an accepted loop no base of a shared array depends on the site, and an array with changing elements has a known size. -/
theorem C116_known {v : BrVars} {rs : List BrRef} {s : BrState} (h : brLoop v rs = some s) {r : BrRef} (hr : r ∈ rs)
    (hl : v.isLocal r.base = false) : r.baseSite = false ∧ (r.Dep → v.cont r.base ≠ .carray false) := by
  refine brFold_mem (v := v) (r := r) (rs := rs) (fun s => ∀ e ∈ s.arrays, v.cont e.base ≠ .carray false)
    (fun _ => r.baseSite = false ∧ (r.Dep → v.cont r.base ≠ .carray false)) ?_ (fun _ _ _ h _ => h) ?_ (by simp) h hr
  · intro s s' x _ hI hx
    by_cases hlx : v.isLocal x.base = true
    · rw [brStep_local hx hlx]; exact hI
    obtain ⟨-, -, h | h | h⟩ := brStep_cases hx (by simpa using hlx)
    · obtain ⟨_, -, h, -⟩ := h; rw [h]; exact hI
    · rw [h.2.2.2.1]; exact hI
    · rw [h.2.2.2.2.1]
      intro e he
      rcases List.mem_append.1 he with he | he
      · exact hI e he
      · rw [List.mem_singleton.1 he]; exact h.2.2.2.1
  · intro s s' hI hs
    obtain ⟨hb, -, h | h | h⟩ := brStep_cases hs hl
    · obtain ⟨e, he, -⟩ := h
      refine ⟨hb, fun _ => ?_⟩
      have h1 := hI e (List.mem_of_find?_eq_some he)
      have h2 := List.find?_some he
      simp at h2
      rwa [h2] at h1
    · exact ⟨hb, fun hd => absurd hd h.2.1⟩
    · exact ⟨hb, fun _ => h.2.2.2.1⟩

/-- **C116 (reads).** A loop which only reads shared arrays with fixed bases and known sizes is always accepted, and nothing is reduced. -/
theorem C116_reads {v : BrVars} {rs : List BrRef} (h : ∀ r ∈ rs, v.isLocal r.base = false ∧ r.baseSite = false ∧ r.assign = none ∧
    (r.Dep → v.cont r.base ≠ .carray false)) :
    ∃ s, brLoop v rs = some s ∧ (∀ e ∈ s.arrays, e.type ≠ .reduction ∧ ∃ r ∈ rs, r.Dep ∧ r.base = e.base) ∧ ∀ c ∈ s.consts, c.red = .none := by
  suffices H : ∀ (l : List BrRef) (s : BrState), (∀ r ∈ l, r ∈ rs) → (∀ e ∈ s.arrays, e.type ≠ .reduction ∧ ∃ r ∈ rs, r.Dep ∧ r.base = e.base) →
      (∀ c ∈ s.consts, c.red = .none) → ∃ s', l.foldlM (brStep v) s = some s' ∧
      (∀ e ∈ s'.arrays, e.type ≠ .reduction ∧ ∃ r ∈ rs, r.Dep ∧ r.base = e.base) ∧ ∀ c ∈ s'.consts, c.red = .none from
    H rs _ (fun _ h => h) (by simp) (by simp)
  intro l
  induction l with
  | nil => intro s _ h1 h2; exact ⟨s, rfl, h1, h2⟩
  | cons x l ih =>
    intro s hm h1 h2
    obtain ⟨hl, hb, ha, hz⟩ := h x (hm x List.mem_cons_self)
    have ht : brType (v.cont x.base) none ≠ .reduction := by rw [Ne, brType_red]; simp
    have step : ∃ s', brStep v s x = some s' ∧ (∀ e ∈ s'.arrays, e.type ≠ .reduction ∧ ∃ r ∈ rs, r.Dep ∧ r.base = e.base) ∧
        ∀ c ∈ s'.consts, c.red = .none := by
      simp only [brStep, hl, hb, ha]
      cases hf : s.arrays.find? (fun e => e.base == x.base) with
      | some e =>
        have he := (h1 e (List.mem_of_find?_eq_some hf)).1
        exact ⟨{ s with noVec := s.noVec || x.site }, by simp [brSeen, he, ht], h1, h2⟩
      | none =>
        by_cases hd : x.Dep
        · have hd' : (!x.site && !x.loc && brType (v.cont x.base) none != .reduction) = false := by
            unfold BrRef.Dep at hd; rcases hd with hd | hd <;> simp [hd]
          refine ⟨{ s with arrays := s.arrays ++ [⟨x.base, brType (v.cont x.base) none, .none⟩], noVec := s.noVec || x.site },
            by simp only [brNew, hd', ha, hz hd]; simp [brRed], ?_, h2⟩
          intro e he
          simp only [List.mem_append, List.mem_singleton] at he
          rcases he with he | he
          · exact h1 e he
          · subst he; exact ⟨ht, x, hm x List.mem_cons_self, hd, rfl⟩
        · have hd' : x.site = false ∧ x.loc = false := by unfold BrRef.Dep at hd; simpa using hd
          cases hg : s.consts.find? (fun c => c.base == x.base && c.index == x.index) with
          | some c =>
            have hcn := h2 c (List.mem_of_find?_eq_some hg)
            exact ⟨s, by simp [brNew, hd', ht, brConst, ha, hg, hcn], h1, h2⟩
          | none =>
            refine ⟨{ s with consts := s.consts ++ [⟨x.base, x.index, .none⟩] }, by simp [brNew, hd', ht, brConst, ha, hg], h1, ?_⟩
            intro c hc
            simp only [List.mem_append, List.mem_singleton] at hc
            rcases hc with hc | hc
            · exact h2 c hc
            · subst hc; rfl
    obtain ⟨s', hs, h1', h2'⟩ := step
    obtain ⟨s'', hs'', h3⟩ := ih s' (fun r hr => hm r (List.mem_cons_of_mem _ hr)) h1' h2'
    exact ⟨s'', by simp only [List.foldlM_cons, hs]; exact hs'', h3⟩

/-- The rules for one reference: arrays of the loop are arrays of C++; the base of a shared array is fixed, its size is known when its elements change, and
an assignment to it is `+=` to a fixed element or goes to a `ReductionVector`. -/
def BrRef.Obeys (v : BrVars) (r : BrRef) : Prop :=
  (v.isLocal r.base = true → ∃ z, v.cont r.base = .carray z) ∧
  (v.isLocal r.base = false → r.baseSite = false ∧ (r.Dep → v.cont r.base ≠ .carray false) ∧
    (v.cont r.base ≠ .redVector → r.assign = none ∨ r.assign = some .add ∧ ¬ r.Dep))

/-- The rules for two references: one element of an array, and one `ReductionVector`, is not both read and assigned to, and a `ReductionVector` is not
both summed and changed by another operation. -/
def BrRef.Agrees (v : BrVars) (r r' : BrRef) : Prop :=
  r.base = r'.base → (r.index = r'.index ∨ v.cont r.base = .redVector) →
    (r.assign = none ↔ r'.assign = none) ∧ (r.assign = some .add ↔ r'.assign = some .add)

/-- **C116 (what is accepted).** Every loop which keeps the rules is accepted, with any number and order of references. -/
theorem C116_accepts {v : BrVars} {rs : List BrRef} (h1 : ∀ r ∈ rs, r.Obeys v) (h2 : ∀ r ∈ rs, ∀ r' ∈ rs, r.Agrees v r') :
    ∃ s, brLoop v rs = some s := by
  let I : BrState → Prop := fun s =>
    (∀ e ∈ s.arrays, ∃ r ∈ rs, r.base = e.base ∧ e.type = brType (v.cont e.base) r.assign ∧ e.red = brRed r.assign) ∧
    (∀ c ∈ s.consts, ∃ r ∈ rs, r.base = c.base ∧ r.index = c.index ∧ (c.red = .none ↔ r.assign = none))
  suffices H : ∀ (l : List BrRef) (s : BrState), (∀ r ∈ l, r ∈ rs) → I s → ∃ s', l.foldlM (brStep v) s = some s' from
    H rs _ (fun _ h => h) ⟨by simp, by simp⟩
  intro l
  induction l with
  | nil => intro s _ _; exact ⟨s, rfl⟩
  | cons x l ih =>
    intro s hm hI
    have hx := hm x List.mem_cons_self
    have step : ∃ s', brStep v s x = some s' ∧ I s' := by
      obtain ⟨hA, hB⟩ := h1 x hx
      by_cases hl : v.isLocal x.base = true
      · obtain ⟨z, hz⟩ := hA hl
        exact ⟨s, by simp [brStep, hl, hz, brType], hI⟩
      simp only [Bool.not_eq_true] at hl
      obtain ⟨hb, hz, hp⟩ := hB hl
      simp only [brStep, hl, hb]
      cases hf : s.arrays.find? (fun e => e.base == x.base) with
      | some e =>
        refine ⟨{ s with noVec := s.noVec || x.site || x.assign.isSome }, ?_, hI⟩
        obtain ⟨r, hr, hrb, ht, hred⟩ := hI.1 e (List.mem_of_find?_eq_some hf)
        have heb : e.base = x.base := by simpa using List.find?_some hf
        rw [heb] at ht hrb
        by_cases hc : v.cont x.base = .redVector
        · obtain ⟨ha, hb'⟩ := h2 r hr x hx hrb (Or.inr (by rw [hrb]; exact hc))
          rw [hc] at ht
          simp only [Bool.false_eq_true, if_false, brSeen, ht, hred, hc]
          rcases hra : r.assign with _ | o <;> rcases hxa : x.assign with _ | o' <;> simp [hra, hxa] at ha hb' <;>
            simp [brType]
          cases o <;> cases o' <;> simp_all [brRed]
        · have t1 : e.type ≠ .reduction := by rw [ht, Ne, brType_red]; exact fun h => hc h.1
          have t2 : brType (v.cont x.base) x.assign ≠ .reduction := by rw [Ne, brType_red]; exact fun h => hc h.1
          simp [brSeen, t1, t2]
      | none =>
        by_cases hfix : (!x.site && !x.loc && brType (v.cont x.base) x.assign != .reduction) = true
        · have hxa : x.assign = none ∨ x.assign = some .add := by
            simp only [Bool.and_eq_true, bne_iff_ne, Ne, brType_red] at hfix
            by_cases hc : v.cont x.base = .redVector
            · left; by_contra hn; exact hfix.2 ⟨hc, hn⟩
            · exact (hp hc).imp id (·.1)
          cases hg : s.consts.find? (fun c => c.base == x.base && c.index == x.index) with
          | some c =>
            refine ⟨{ s with noVec := s.noVec || x.site || x.assign.isSome }, ?_, hI⟩
            obtain ⟨r, hr, hrb, hri, hcr⟩ := hI.2 c (List.mem_of_find?_eq_some hg)
            have hcb : c.base = x.base ∧ c.index = x.index := by simpa using List.find?_some hg
            have ha := (h2 r hr x hx (hrb.trans hcb.1) (Or.inl (hri.trans hcb.2))).1
            rw [ha] at hcr
            simp only [Bool.false_eq_true, if_false, brNew, hfix, if_true, brConst, hg]
            rcases hxa with hxa | hxa <;> simp [hxa] at hcr <;> simp [hxa, hcr]
          | none =>
            refine ⟨{ s with noVec := s.noVec || x.site || x.assign.isSome,
                             consts := s.consts ++ [⟨x.base, x.index, if x.assign.isSome then .sum else .none⟩] }, ?_, hI.1, ?_⟩
            · simp only [Bool.false_eq_true, if_false, brNew, hfix, if_true, brConst, hg]
              rcases hxa with hxa | hxa <;> simp [hxa]
            · intro c hc
              rcases List.mem_append.1 hc with hc | hc
              · exact hI.2 c hc
              · rw [List.mem_singleton.1 hc]
                refine ⟨x, hx, rfl, rfl, ?_⟩
                rcases hxa with hxa | hxa <;> simp [hxa]
        · have hno : (x.assign.isSome && (x.site || x.loc) && brType (v.cont x.base) x.assign != .reduction) = false := by
            by_contra hn
            simp only [Bool.not_eq_false, Bool.and_eq_true, bne_iff_ne, Ne, brType_red, Bool.or_eq_true] at hn
            obtain ⟨⟨n1, n2⟩, n3⟩ := hn
            have hn1 : x.assign ≠ none := Option.isSome_iff_ne_none.1 n1
            have hc : v.cont x.base ≠ .redVector := fun hc => n3 ⟨hc, hn1⟩
            rcases hp hc with h | h
            · exact hn1 h
            · exact h.2 n2
          have hsz : v.cont x.base ≠ .carray false := by
            by_cases hd : x.Dep
            · exact hz hd
            · intro hc
              apply hfix
              unfold BrRef.Dep at hd
              simp only [not_or, Bool.not_eq_true] at hd
              simp [hd, hc, brType]
          refine ⟨{ s with noVec := s.noVec || x.site || x.assign.isSome,
                           arrays := s.arrays ++ [⟨x.base, brType (v.cont x.base) x.assign, brRed x.assign⟩] }, ?_, ?_, hI.2⟩
          · simp only [Bool.false_eq_true, if_false, brNew, hfix, hno, hsz]
          · intro e he
            rcases List.mem_append.1 he with he | he
            · exact hI.1 e he
            · rw [List.mem_singleton.1 he]; exact ⟨x, hx, rfl, rfl, rfl⟩
    obtain ⟨s', hs, hI'⟩ := step
    obtain ⟨s'', hs''⟩ := ih s' (fun r hr => hm r (List.mem_cons_of_mem _ hr)) hI'
    exact ⟨s'', by simp only [List.foldlM_cons, hs]; exact hs''⟩

/-- **C116 fails after a read.** Once a changing element of a shared array has been read, any assignment to any element of it is accepted, and nothing is
reduced: `x = a[f[X]]; a[f[X]] = y;`, and also `x = a[f[X]]; a[0] += y;`. -/
theorem C116_read_then_write_wrong {v : BrVars} {b : ℕ} (hl : v.isLocal b = false) (hc : v.cont b = .carray true ∨ v.cont b = .stdArray ∨ v.cont b = .stdVector)
    (i j : ℕ) (op : BrOp) (site : Bool) :
    ∃ s, brLoop v [{ base := b, index := i, site := true }, { base := b, index := j, site := site, assign := some op }] = some s ∧
      (∀ e ∈ s.arrays, e.red = .none) ∧ s.consts = [] := by
  rcases hc with hc | hc | hc <;>
  · refine ⟨⟨[⟨b, brType (v.cont b) none, .none⟩], [], true⟩, ?_, by simp, rfl⟩
    simp [brLoop, brStep, hl, hc, brNew, brSeen, brType, brRed]

/-- Without the read the same assignment to a changing element is refused. -/
theorem C116_write_refused {v : BrVars} {b : ℕ} (hl : v.isLocal b = false) (hc : v.cont b ≠ .redVector) (j : ℕ) (op : BrOp) :
    brLoop v [{ base := b, index := j, site := true, assign := some op }] = none := by
  cases h : brLoop v [{ base := b, index := j, site := true, assign := some op }] with
  | none => rfl
  | some s =>
    have := C116_array_partial h (List.mem_singleton.2 rfl) rfl hl hc (by simp)
    exact absurd this.2.1 (by simp [BrRef.Dep])

/-- **C116 fails for other operators.** `r[f[X]] -= y` (or `=`) on a `ReductionVector` is accepted and finished as a product. -/
theorem C116_minus_wrong {v : BrVars} {b : ℕ} (hl : v.isLocal b = false) (hc : v.cont b = .redVector) (j : ℕ) :
    brLoop v [{ base := b, index := j, site := true, assign := some .other }] = some ⟨[⟨b, .reduction, .product⟩], [], true⟩ := by
  simp [brLoop, brStep, hl, hc, brNew, brType, brRed]

/-- **C116 fails for fixed elements.** `y = r[0]; r[f[X]] += y` is accepted, the other order `r[f[X]] += y; y = r[0]` is refused. The same holds of arrays:
`a[0] += y; x = a[f[X]]` is accepted. -/
theorem C116_mixed_wrong {v : BrVars} {b c : ℕ} (hl : v.isLocal b = false) (hc : v.cont b = .redVector) (hl' : v.isLocal c = false)
    (hc' : v.cont c = .stdVector) (i j : ℕ) :
    brLoop v [{ base := b, index := i }, { base := b, index := j, site := true, assign := some .add }] =
      some ⟨[⟨b, .reduction, .sum⟩], [⟨b, i, .none⟩], true⟩ ∧
    brLoop v [{ base := b, index := j, site := true, assign := some .add }, { base := b, index := i }] = none ∧
    brLoop v [{ base := c, index := i, assign := some .add }, { base := c, index := j, site := true }] =
      some ⟨[⟨c, .stdVector, .none⟩], [⟨c, i, .sum⟩], true⟩ := by
  refine ⟨?_, ?_, ?_⟩
  · simp [brLoop, brStep, hl, hc, brNew, brConst, brType, brRed]
  · simp [brLoop, brStep, hl, hc, brNew, brSeen, brType, brRed]
  · simp [brLoop, brStep, hl', hc', brNew, brConst, brType, brRed]

/-- Variables for the examples: 0 is an array, 1 a `ReductionVector`, 2 a `std::vector`, 3 an array of the loop. -/
def brDemo : BrVars :=
  ⟨fun b => if b = 1 then .redVector else if b = 2 then .stdVector else .carray true, fun b => b == 3⟩

/-- A histogram: `a[0] += 1; r[f[X]] += v[f[X]]; l[i] = r2` is accepted with both reductions. -/
example : brLoop brDemo [{ base := 0, index := 0, assign := some .add }, { base := 1, index := 5, site := true, assign := some .add },
    { base := 2, index := 5, site := true }, { base := 3, index := 6, loc := true, assign := some .other }, { base := 0, index := 0, assign := some .add }] =
    some ⟨[⟨1, .reduction, .sum⟩, ⟨2, .stdVector, .none⟩], [⟨0, 0, .sum⟩], true⟩ := by decide +kernel

/-- `C116_array_partial` on it. -/
example : (⟨0, 0, .sum⟩ : BrConst) ∈ [(⟨0, 0, .sum⟩ : BrConst)] :=
  (C116_array_partial (v := brDemo) (rs := [{ base := 0, index := 0, assign := some .add }, { base := 2, index := 5, site := true }])
    (s := ⟨[⟨2, .stdVector, .none⟩], [⟨0, 0, .sum⟩], true⟩) (by decide +kernel) (r := { base := 0, index := 0, assign := some .add }) (by simp) rfl
    rfl (by decide +kernel) (by simp)).2.2

/-- `C116_only_after_read`: in `x = v[f[X]]; v[1] = y` the read is found. -/
example : ∃ r' ∈ [({ base := 2, index := 5, site := true } : BrRef)], r'.base = 2 ∧ r'.Dep ∧ r'.assign = none :=
  C116_only_after_read (v := brDemo) (l₂ := []) (r := { base := 2, index := 1, assign := some .other }) (s := ⟨[⟨2, .stdVector, .none⟩], [], true⟩)
    (by decide +kernel) rfl rfl (by decide +kernel) (Or.inl (by decide))

/-- `C116_local`: a `std::vector` of the loop is refused, an array of the loop may be assigned to. -/
example : brLoop ⟨fun _ => .stdVector, fun _ => true⟩ [{ base := 0, index := 0 }] = none ∧
    brLoop brDemo [{ base := 3, index := 6, site := true, assign := some .other }] = some ⟨[], [], false⟩ := by decide +kernel

/-- `C116_known`: changing elements of an array without known size are refused, fixed ones are not. -/
example : brLoop ⟨fun _ => .carray false, fun _ => false⟩ [{ base := 0, index := 0, loc := true }] = none ∧
    brLoop ⟨fun _ => .carray false, fun _ => false⟩ [{ base := 0, index := 0 }] = some ⟨[], [⟨0, 0, .none⟩], false⟩ := by decide +kernel

/-- `C116_accepts`: `a[0] += x; a[1] += y; r[f[X]] += v[f[X]]; z = v[0]` keeps the rules. -/
example : ∃ s, brLoop brDemo [{ base := 0, index := 0, assign := some .add }, { base := 0, index := 1, assign := some .add },
    { base := 1, index := 5, site := true, assign := some .add }, { base := 2, index := 5, site := true }, { base := 2, index := 0 }] = some s := by
  refine C116_accepts ?_ ?_
  · simp [BrRef.Obeys, brDemo, BrRef.Dep]
  · simp [BrRef.Agrees, brDemo]

/-- `C116_vector_partial`: `r[f[X]] += 1; r[i] *= 2` is refused. -/
example : brLoop brDemo [{ base := 1, index := 5, site := true, assign := some .add }, { base := 1, index := 6, loc := true, assign := some .mul }] = none := by
  decide +kernel

/-- The same element as sum and as value is refused, and so is another operator or a base depending on the site. -/
example : brLoop brDemo [{ base := 0, index := 0, assign := some .add }, { base := 0, index := 0 }] = none ∧
    brLoop brDemo [{ base := 0, index := 0 }, { base := 0, index := 0, assign := some .add }] = none ∧
    brLoop brDemo [{ base := 0, index := 0, assign := some .mul }] = none ∧
    brLoop brDemo [{ base := 0, index := 0, baseSite := true }] = none := by decide +kernel

end Hila
