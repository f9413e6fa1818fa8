import Verif.Model.VecDecide
import Verif.Props.RngSearch

/-!
# C114: which site loops are vectorized

Property theorems about `Model/VecDecide`.
-/

namespace Hila

theorem CallReach.of_body {F : Type} {P Q : RProg F} (hb : ∀ f, P.body f = Q.body f) {c : Bool} {items : List (RItem F)} {f : F} (h : CallReach P c items f) :
    CallReach Q c items f := by
  induction h with
  | here _ _ h => exact .here _ _ h
  | call _ b g _ h1 h2 _ ih => exact .call _ b g _ h1 ((hb g).symm.trans h2) ih
  | ctor _ b g _ h0 h1 h2 _ ih => exact .ctor _ b g _ h0 h1 ((hb g).symm.trans h2) ih

/-- **C114, the search.** `contains_novector` is true exactly if a function declared with the pragma is called in the code reached through calls with a visible
body, also with recursive functions. -/
theorem C114_search {F : Type} [DecidableEq F] (P : RProg F) (nv : F → Bool) (k : ℕ) (items : List (RItem F)) (r : Bool)
    (h : containsNovector P nv k items = some r) : r = true ↔ ∃ f, CallReach P false items f ∧ nv f = true := by
  have := containsRandom_iff _ k items r h
  rw [this]
  constructor
  · rintro ⟨f, h1, h2⟩
    refine ⟨f, CallReach.of_body (Q := P) (by intro; rfl) h1, ?_⟩
    rcases h2 with h2 | h2
    · cases h2
    · exact h2
  · rintro ⟨f, h1, h2⟩
    exact ⟨f, CallReach.of_body (Q := { body := P.body, named := fun _ => false, pragma := nv }) (by intro; rfl) h1, Or.inr h2⟩

/-- Specification: the call leads to a function declared with `#pragma hila novector`, directly or through calls with a visible body. -/
def LeadsTo {F : Type} (P : RProg F) (nv : F → Bool) (f : F) : Prop :=
  nv f = true ∨ ∃ b, P.body f = some b ∧ ∃ g, CallReach P false b g ∧ nv g = true

theorem callReach_nil {F : Type} (P : RProg F) (f : F) : ¬ CallReach P false [] f := by
  intro h
  cases h with
  | here _ _ h => cases h
  | call _ b g _ h1 => cases h1
  | ctor _ b g _ h0 => cases h0

theorem callVec_iff {F : Type} [DecidableEq F] (P : RProg F) (nv : F → Bool) (k : ℕ) (f : F) (r : Bool) (h : callVec P nv k (.call f) = some r) :
    r = true ↔ ¬ LeadsTo P nv f := by
  simp only [callVec] at h
  unfold LeadsTo
  cases hn : nv f with
  | true =>
    rw [hn] at h
    simp only [if_true, Option.some.injEq] at h
    simp [← h]
  | false =>
    rw [hn] at h
    simp only [Bool.false_eq_true, if_false] at h
    cases hs : containsNovector P nv k ((P.body f).getD []) with
    | none => rw [hs] at h; cases h
    | some b =>
      rw [hs] at h
      simp only [Option.map_some, Option.some.injEq] at h
      have hi := C114_search P nv k _ b hs
      cases hb : P.body f with
      | none =>
        rw [hb] at hi
        have : b = false := by
          cases b with
          | false => rfl
          | true => obtain ⟨g, h1, _⟩ := hi.1 rfl; exact absurd h1 (callReach_nil P g)
        subst this
        simp [← h]
      | some bd =>
        rw [hb] at hi
        simp only [Option.getD_some] at hi
        simp only [Option.some.injEq, false_or, exists_eq_left', Bool.false_eq_true]
        rw [← hi, ← h]
        simp

theorem callsVec_iff {F : Type} [DecidableEq F] (P : RProg F) (nv : F → Bool) (k : ℕ) : ∀ (l : List (RItem F × Bool)) (r : Bool),
    callsVec P nv k l = some r → (r = true ↔ ∀ f, (RItem.call f, true) ∈ l → ¬ LeadsTo P nv f) := by
  intro l
  induction l with
  | nil =>
    intro r h
    simp only [callsVec, Option.some.injEq] at h
    simp [← h]
  | cons c rest ih =>
    intro r h
    unfold callsVec at h
    cases hv : callVec P nv k c.1 with
    | none => rw [hv] at h; cases h
    | some v =>
      cases hr : callsVec P nv k rest with
      | none => rw [hv, hr] at h; cases h
      | some q =>
        rw [hv, hr] at h
        simp only [Option.bind_some, Option.map_some, Option.some.injEq] at h
        have hq := ih q hr
        subst h
        rw [Bool.and_eq_true, hq]
        obtain ⟨it, sd⟩ := c
        simp only [List.mem_cons, Prod.mk.injEq]
        have key : ((!(sd && !v)) = true) ↔ ∀ f, RItem.call f = it → true = sd → ¬ LeadsTo P nv f := by
          cases it with
          | call f =>
            have hi := callVec_iff P nv k f v hv
            cases sd with
            | false => simp
            | true =>
              simp only [Bool.true_and, Bool.not_not]
              rw [hi]
              constructor
              · intro h f' hf _
                simp only [RItem.call.injEq] at hf
                subst hf
                exact h
              · intro h
                exact h f rfl trivial
          | ctor f =>
            simp only [callVec, Option.some.injEq] at hv
            subst hv
            simp
          | hidden f =>
            simp only [callVec, Option.some.injEq] at hv
            subst hv
            simp
        rw [key]
        constructor
        · rintro ⟨h1, h2⟩ f (⟨h3, h4⟩ | h3)
          · exact h1 f h3 h4
          · exact h2 f h3
        · intro h
          exact ⟨fun f h1 h2 => h f (Or.inl ⟨h1, h2⟩), fun f h1 => h f (Or.inr h1)⟩

theorem vecScan_set (l : List VecInfo) : ∀ (a : Bool) (n t : ℕ), n ≠ 0 →
    vecScan l (a, (n, t)) = (a && l.all fun v => v.ok && decide (v.size = n) && decide (v.type = t), (n, t)) := by
  induction l with
  | nil => intro a n t _; simp [vecScan]
  | cons v l ih =>
    intro a n t hn
    unfold vecScan
    have e : vecCompatible v (n, t) = (v.ok && decide (v.size = n) && decide (v.type = t), (n, t)) := by
      unfold vecCompatible
      cases hv : v.ok with
      | false => simp
      | true =>
        by_cases h1 : v.size = n
        · by_cases h2 : v.type = t
          · simp [hn, h1, h2]
          · simp [hn, h1, h2]
        · simp [hn, h1]
    rw [e]
    dsimp only
    rw [ih _ n t hn, List.all_cons, Bool.and_assoc]

theorem vecScan_iff (l : List VecInfo) (hp : ∀ v ∈ l, v.ok = true → v.size ≠ 0) : ∀ a : Bool,
    ((vecScan l (a, (0, 0))).1 = true ∧ (vecScan l (a, (0, 0))).2.1 ≠ 0 ↔ a = true ∧ l ≠ [] ∧ ∃ n t, ∀ v ∈ l, v = ⟨true, n, t⟩) ∧
    ∀ n t, l ≠ [] → (∀ v ∈ l, v = ⟨true, n, t⟩) → (vecScan l (a, (0, 0))).2.1 = n := by
  intro a
  cases l with
  | nil => simp [vecScan]
  | cons v l =>
    unfold vecScan
    cases hv : v.ok with
    | false =>
      have hfalse : ∀ (l : List VecInfo) (s : ℕ × ℕ), (vecScan l (false, s)).1 = false := by
        intro l
        induction l with
        | nil => intro s; rfl
        | cons w l ih => intro s; unfold vecScan; simpa using ih _
      have e : vecCompatible v (0, 0) = (false, (0, 0)) := by simp [vecCompatible, hv]
      rw [e]
      dsimp only
      rw [Bool.and_false]
      refine ⟨⟨fun h => ?_, fun h => ?_⟩, fun n t _ h => ?_⟩
      · rw [hfalse] at h; exact absurd h.1 (by simp)
      · obtain ⟨_, _, n, t, h⟩ := h
        have := h v (by simp)
        rw [this] at hv; cases hv
      · have := h v (by simp)
        rw [this] at hv; cases hv
    | true =>
      have hs := hp v (by simp) hv
      have e : vecCompatible v (0, 0) = (true, (v.size, v.type)) := by simp [vecCompatible, hv]
      rw [e]
      dsimp only
      rw [vecScan_set l _ _ _ hs, Bool.and_true]
      dsimp only
      refine ⟨⟨fun h => ?_, fun h => ?_⟩, fun n t _ h => ?_⟩
      · rw [Bool.and_eq_true, List.all_eq_true] at h
        refine ⟨h.1.1, by simp, v.size, v.type, ?_⟩
        intro w hw
        rcases List.mem_cons.1 hw with rfl | hw
        · cases w; simp_all
        · have := h.1.2 w hw
          cases w; simp_all
      · obtain ⟨h1, _, n, t, h2⟩ := h
        have hv2 := h2 v (by simp)
        refine ⟨?_, hs⟩
        rw [Bool.and_eq_true, List.all_eq_true]
        refine ⟨h1, fun w hw => ?_⟩
        rw [h2 w (List.mem_cons_of_mem _ hw), hv2]
        simp
      · rw [h v (by simp)]

/-- **C114, the decision** (partial: for constructors and functions without visible body see the negations below).  A loop is vectorized exactly if
it has no pragma, no site dependent condition, no site selection, no `X.coordinates()`, `X.parity()` or random number, contains fields, site dependent variables or reductions which
all have vectors of the same length and number type, and no call with site dependent arguments leads to a function declared with `#pragma hila novector`; the length of the vectors is then the common one. -/
theorem C114_decision_partial {F : Type} [DecidableEq F] (P : RProg F) (nv : F → Bool) (k : ℕ) (L : VLoop F) (v : Bool) (s : ℕ)
    (h : loopVectorized P nv k L = some (v, s)) (all : List VecInfo)
    (hall : ∀ x, x ∈ all ↔ x ∈ L.fields ∨ (false, true, x) ∈ L.vars ∨ (false, x) ∈ L.reductions) (hpos : ∀ x ∈ all, x.ok = true → x.size ≠ 0) :
    (v = true ↔ L.novector = false ∧ L.cond = false ∧ L.selections = 0 ∧
      (∀ n ∈ L.special, n ∉ ["coordinates", "coordinate", "x", "y", "z", "t", "parity", "random", "hila::random"]) ∧
      (¬ ∃ f, CallReach P false (L.calls.map (·.1)) f ∧ (P.named f = true ∨ P.pragma f = true)) ∧
      (∃ x, x ∈ all) ∧ (∃ n t, ∀ x ∈ all, x = ⟨true, n, t⟩) ∧ ∀ f, (RItem.call f, true) ∈ L.calls → ¬ LeadsTo P nv f) ∧
    (v = true → ∀ x ∈ all, x.size = s) := by
  have hm : ∀ x, x ∈ L.infos ↔ x ∈ all := by
    intro x
    rw [hall]
    unfold VLoop.infos
    simp only [List.mem_append, List.mem_map, List.mem_filter, Bool.and_eq_true, Bool.not_eq_true', Prod.exists]
    constructor
    · rintro ((h | ⟨a, b, c, ⟨h1, h2, h3⟩, h4⟩) | ⟨a, c, ⟨h1, h2⟩, h4⟩)
      · exact Or.inl h
      · subst h2; subst h3; subst h4; exact Or.inr (Or.inl h1)
      · subst h2; subst h4; exact Or.inr (Or.inr h1)
    · rintro (h | h | h)
      · exact Or.inl (Or.inl h)
      · exact Or.inl (Or.inr ⟨false, true, x, ⟨h, rfl, rfl⟩, rfl⟩)
      · exact Or.inr ⟨false, x, ⟨h, rfl⟩, rfl⟩
  have hne : L.infos ≠ [] ↔ ∃ x, x ∈ all := by
    rw [← List.isEmpty_eq_false_iff, List.isEmpty_eq_false_iff_exists_mem]
    exact exists_congr hm
  have hsc := vecScan_iff L.infos (fun x hx => hpos x ((hm x).1 hx))
  have hsp : L.special.any specialBad = false ↔
      ∀ n ∈ L.special, n ∉ ["coordinates", "coordinate", "x", "y", "z", "t", "parity", "random", "hila::random"] := by
    rw [List.any_eq_false]
    refine forall_congr' fun n => imp_congr_right fun _ => ?_
    unfold specialBad
    simp only [List.mem_cons, List.not_mem_nil, or_false, Bool.or_eq_true, decide_eq_true_eq, or_assoc]
  unfold loopVectorized at h
  cases hn : L.novector with
  | true =>
    rw [hn] at h
    simp only [if_true, Option.some.injEq, Prod.mk.injEq] at h
    simp [← h.1]
  | false =>
    rw [hn] at h
    simp only [Bool.false_eq_true, if_false] at h
    cases hr : containsRandom P k (L.calls.map (·.1)) with
    | none => rw [hr] at h; cases h
    | some rnd =>
      cases hc : callsVec P nv k L.calls with
      | none => rw [hr, hc] at h; cases h
      | some cs =>
        rw [hr, hc] at h
        simp only [Option.bind_some, Option.map_some, Option.some.injEq, Prod.mk.injEq] at h
        obtain ⟨h1, h2⟩ := h
        have hri := containsRandom_iff P k _ rnd hr
        have hci := callsVec_iff P nv k _ cs hc
        have hs := hsc (!L.cond && !rnd && decide (L.selections = 0))
        have hiff : v = true ↔ ((!L.cond && !rnd && decide (L.selections = 0)) = true ∧ L.infos ≠ [] ∧ ∃ n t, ∀ x ∈ L.infos, x = ⟨true, n, t⟩) ∧
            L.special.any specialBad = false ∧ cs = true := by
          rw [← hs.1, ← h1]
          rw [Bool.and_eq_true, Bool.and_eq_true, Bool.and_eq_true, decide_eq_true_eq, Bool.not_eq_true']
          exact ⟨fun h => ⟨⟨h.1.1.1, h.2⟩, h.1.1.2, h.1.2⟩, fun h => ⟨⟨⟨h.1.1, h.2.1⟩, h.2.2⟩, h.1.2⟩⟩
        constructor
        · rw [hiff, hne, hsp, hci, ← hri]
          rw [Bool.and_eq_true, Bool.and_eq_true, decide_eq_true_eq, Bool.not_eq_true', Bool.not_eq_true', Bool.not_eq_true]
          have hx : (∃ n t, ∀ x ∈ L.infos, x = ⟨true, n, t⟩) ↔ ∃ n t, ∀ x ∈ all, x = ⟨true, n, t⟩ :=
            exists_congr fun n => exists_congr fun t => forall_congr' fun x => by rw [hm]
          rw [hx]
          exact ⟨fun h => ⟨rfl, h.1.1.1.1, h.1.1.2, h.2.1, h.1.1.1.2, h.1.2.1, h.1.2.2, h.2.2⟩,
            fun h => ⟨⟨⟨⟨h.2.1, h.2.2.2.2.1⟩, h.2.2.1⟩, h.2.2.2.2.2.1, h.2.2.2.2.2.2.1⟩, h.2.2.2.1, h.2.2.2.2.2.2.2⟩⟩
        · intro hv x hx
          obtain ⟨⟨_, h4, n, t, h5⟩, _⟩ := hiff.1 hv
          rw [← h2, hs.2 n t h4 h5, h5 x ((hm x).2 hx)]

/-- **C114, lengths.** With vectors of at least 8 bytes the type information found by hilapp meets the condition of `C114_decision_partial`: vectorizable types have a positive length, which is the number of
elements which fit in a vector.  So types fit together exactly if all are vectorizable and have the same number type; float and int, which have the same length, do not. -/
theorem C114_lengths (target : ℕ) (ht : 8 ≤ target) (l : List (Bool × ℕ × Bool)) (hl : l ≠ []) :
    (∀ x ∈ l, (typeVecInfo target x.1 x.2.1 x.2.2).ok = true → (typeVecInfo target x.1 x.2.1 x.2.2).size ≠ 0 ∧
      ∃ b, numberBytes x.2.1 = some b ∧ (typeVecInfo target x.1 x.2.1 x.2.2).size * b ≤ target ∧ target < ((typeVecInfo target x.1 x.2.1 x.2.2).size + 1) * b) ∧
    ((∃ n t, ∀ x ∈ l, typeVecInfo target x.1 x.2.1 x.2.2 = ⟨true, n, t⟩) ↔
      ∃ t ≤ 5, ∀ x ∈ l, x.1 = true ∧ x.2.1 = t ∧ x.2.2 = true) := by
  have hb : ∀ t b, numberBytes t = some b → t ≤ 5 ∧ (b = 4 ∨ b = 8) := by
    intro t b h
    unfold numberBytes at h
    split at h <;> (simp_all; try omega)
  have hs : ∀ t ≤ 5, ∃ b, numberBytes t = some b := by
    intro t ht
    rcases t with _ | _ | _ | _ | _ | _ | t
    · exact ⟨_, rfl⟩
    · exact ⟨_, rfl⟩
    · exact ⟨_, rfl⟩
    · exact ⟨_, rfl⟩
    · exact ⟨_, rfl⟩
    · exact ⟨_, rfl⟩
    · omega
  constructor
  · rintro ⟨kn, ty, nm⟩ _ hok
    dsimp only at hok ⊢
    unfold typeVecInfo at hok ⊢
    cases kn with
    | false => simp at hok
    | true =>
      cases hn : numberBytes ty with
      | none => rw [hn] at hok; simp at hok
      | some b =>
        simp only [Bool.true_eq_false, if_false]
        obtain ⟨_, h4⟩ := hb ty b hn
        refine ⟨?_, b, rfl, ?_, ?_⟩
        · rcases h4 with rfl | rfl <;> omega
        · exact Nat.div_mul_le_self _ _
        · rcases h4 with rfl | rfl <;> omega
  · constructor
    · rintro ⟨n, t, h⟩
      have key : ∀ x ∈ l, x.1 = true ∧ x.2.1 = t ∧ x.2.2 = true ∧ t ≤ 5 := by
        rintro ⟨kn, ty, nm⟩ hx
        have := h _ hx
        dsimp only at this ⊢
        unfold typeVecInfo at this
        cases kn with
        | false => simp at this
        | true =>
          cases hn : numberBytes ty with
          | none => rw [hn] at this; simp at this
          | some b =>
            rw [hn] at this
            simp only [Bool.true_eq_false, if_false, VecInfo.mk.injEq] at this
            exact ⟨rfl, this.2.2, this.1, this.2.2 ▸ (hb ty b hn).1⟩
      obtain ⟨x, hx⟩ := List.exists_mem_of_ne_nil l hl
      exact ⟨t, (key x hx).2.2.2, fun y hy => ⟨(key y hy).1, (key y hy).2.1, (key y hy).2.2.1⟩⟩
    · rintro ⟨t, h5, h⟩
      obtain ⟨b, hbt⟩ := hs t h5
      refine ⟨target / b, t, ?_⟩
      rintro ⟨kn, ty, nm⟩ hx
      obtain ⟨h1, h2, h3⟩ := h _ hx
      dsimp only at h1 h2 h3 ⊢
      subst h1; subst h2; subst h3
      unfold typeVecInfo
      rw [hbt]
      simp

example : typeVecInfo 32 true 5 true = ⟨true, 4, 5⟩ ∧ typeVecInfo 32 true 4 true = ⟨true, 8, 4⟩ ∧ typeVecInfo 32 true 0 true = ⟨true, 8, 0⟩ := by decide

/-- **C114** The decision is reached for every program, also with recursive functions. -/
theorem C114_ends {F : Type} [DecidableEq F] [Fintype F] (P : RProg F) (nv : F → Bool) (L : VLoop F) (k : ℕ) (hk : Fintype.card F < k) :
    ∃ r, loopVectorized P nv k L = some r := by
  have hc : ∀ l : List (RItem F × Bool), ∃ r, callsVec P nv k l = some r := by
    intro l
    induction l with
    | nil => exact ⟨true, rfl⟩
    | cons c rest ih =>
      obtain ⟨q, hq⟩ := ih
      have : ∃ v, callVec P nv k c.1 = some v := by
        cases c.1 with
        | call f =>
          simp only [callVec]
          by_cases hn : nv f = true
          · exact ⟨false, by rw [if_pos hn]⟩
          · rw [if_neg hn]
            obtain ⟨b, hb⟩ := Option.isSome_iff_exists.1 (containsRandom_some { body := P.body, named := fun _ => false, pragma := nv } k hk ((P.body f).getD []))
            exact ⟨!b, by unfold containsNovector; rw [hb]; rfl⟩
        | ctor f => exact ⟨true, rfl⟩
        | hidden f => exact ⟨true, rfl⟩
      obtain ⟨v, hv⟩ := this
      exact ⟨_, by unfold callsVec; rw [hv, hq]; rfl⟩
  unfold loopVectorized
  by_cases hn : L.novector = true
  · exact ⟨_, by rw [if_pos hn]⟩
  · rw [if_neg hn]
    obtain ⟨r, hr⟩ := Option.isSome_iff_exists.1 (containsRandom_some P k hk (L.calls.map (·.1)))
    obtain ⟨q, hq⟩ := hc L.calls
    exact ⟨_, by rw [hr, hq]; rfl⟩

/-- A program with three functions: 0 calls 1, 1 calls 0 and 2, and 2 is declared with the pragma. -/
def vecExample : RProg (Fin 3) where
  body := fun f => if f = 0 then some [.call 1] else if f = 1 then some [.call 0, .call 2] else some []
  named := fun _ => false
  pragma := fun _ => false

/-- A loop over one field of vectors with 4 doubles which has the given calls. -/
def vecLoop {F : Type} (calls : List (RItem F × Bool)) : VLoop F := ⟨false, false, 0, [⟨true, 4, 0⟩], [], [], ["size"], calls⟩

example : loopVectorized vecExample (fun f => f = 2) 4 (vecLoop [(.call 0, true)]) = some (false, 4) ∧
    loopVectorized vecExample (fun f => f = 2) 4 (vecLoop [(.call 0, false)]) = some (true, 4) := by decide

/-- **C114 fails for constructors.** The pragma is neither looked for at a constructor nor in its body: whatever function `f` is, with the pragma or with calls of functions
with the pragma, a loop which constructs an object with it from site dependent values is vectorized. -/
theorem C114_constructor_wrong {F : Type} [DecidableEq F] (P : RProg F) (nv : F → Bool) (k : ℕ) (f : F) :
    loopVectorized P nv (k + 1) (vecLoop [(.ctor f, true)]) = some (true, 4) := by
  simp [loopVectorized, vecLoop, containsRandom, rndSearch, rndScan, callsVec, callVec, VLoop.infos, vecScan, vecCompatible, specialBad]

/-- **C114 fails for constructors in functions.** The same for a function which constructs such an object. -/
theorem C114_constructor_inside_wrong {F : Type} [DecidableEq F] (P : RProg F) (nv : F → Bool) (k : ℕ) (f g : F) (hf : P.body f = some [.ctor g])
    (h1 : nv f = false) (h2 : P.named f = false) (h3 : P.pragma f = false) :
    loopVectorized P nv (k + 2) (vecLoop [(.call f, true)]) = some (true, 4) := by
  simp [loopVectorized, vecLoop, containsRandom, containsNovector, rndSearch, rndScan, callsVec, callVec, VLoop.infos, vecScan, vecCompatible, specialBad, hf, h1, h2, h3]

/-- **C114 fails for functions without visible body.** Such a function cannot be compiled for vectors, but loops which call it are vectorized. -/
theorem C114_no_body_wrong {F : Type} [DecidableEq F] (P : RProg F) (nv : F → Bool) (k : ℕ) (f : F) (hf : P.body f = none)
    (h1 : nv f = false) (h2 : P.named f = false) (h3 : P.pragma f = false) :
    loopVectorized P nv (k + 1) (vecLoop [(.call f, true)]) = some (true, 4) := by
  simp [loopVectorized, vecLoop, containsRandom, containsNovector, rndSearch, rndScan, callsVec, callVec, VLoop.infos, vecScan, vecCompatible, specialBad, hf, h1, h2, h3]

/-- **C114, calls in functions: the mark is inverted.** The mark of a call in the body of a function without the pragma says that it can be
vectorized exactly if a function with the pragma is called in its body.  (The mark is not used at this commit.) -/
theorem C114_inner_mark_wrong {F : Type} [DecidableEq F] (P : RProg F) (nv : F → Bool) (k : ℕ) (f : F) (r : Bool) (hn : nv f = false)
    (h : innerCallVec P nv k (.call f) = some r) : r = true ↔ LeadsTo P nv f := by
  have h' : callVec P nv k (.call f) = some (!r) := by
    simp only [innerCallVec, callVec, hn, Bool.false_eq_true, if_false] at h ⊢
    rw [h]
    rfl
  have := callVec_iff P nv k f _ h'
  cases r with
  | true => simpa using this
  | false => simpa using this

example : innerCallVec vecExample (fun f => f = 2) 4 (.call 0) = some true := by decide

end Hila
