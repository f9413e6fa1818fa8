import Mathlib.Logic.Function.Basic
import Mathlib.Tactic.Basic
import Mathlib.Order.Basic
import Mathlib.Data.List.Nodup
import Verif.Model.GpuPool

/-!
# Doubly linked lists
-/

namespace Hila

open Function

/-- The pointers `nx` and `pv` run through the nodes `l`: from the head, whose predecessor is `pr`, to the node `la`, whose successor is `nt`. -/
def DSeg (nx pv : ℕ → Option ℕ) (pr hd : Option ℕ) : List ℕ → Option ℕ → Option ℕ → Prop
  | [], la, nt => hd = nt ∧ pr = la
  | a :: l, la, nt => hd = some a ∧ pv a = pr ∧ DSeg nx pv (some a) (nx a) l la nt

/-- A whole list. -/
def DList (nx pv : ℕ → Option ℕ) (hd : Option ℕ) (l : List ℕ) : Prop := ∃ la, DSeg nx pv none hd l la none

theorem DSeg.congr {nx pv nx' pv' : ℕ → Option ℕ} : ∀ {l : List ℕ} {pr hd la nt : Option ℕ}, (∀ a ∈ l, nx a = nx' a ∧ pv a = pv' a) →
    DSeg nx pv pr hd l la nt → DSeg nx' pv' pr hd l la nt
  | [], _, _, _, _, _, h => h
  | a :: l, pr, hd, la, nt, hc, ⟨h1, h2, h3⟩ => by
    refine ⟨h1, (hc a (by simp)).2 ▸ h2, ?_⟩
    rw [← (hc a (by simp)).1]
    exact DSeg.congr (fun b hb => hc b (by simp [hb])) h3

theorem DList.congr {nx pv nx' pv' : ℕ → Option ℕ} {hd : Option ℕ} {l : List ℕ} (hc : ∀ a ∈ l, nx a = nx' a ∧ pv a = pv' a) (h : DList nx pv hd l) :
    DList nx' pv' hd l := by
  obtain ⟨la, h⟩ := h
  exact ⟨la, h.congr hc⟩

theorem dSeg_append {nx pv : ℕ → Option ℕ} : ∀ {l m : List ℕ} {pr hd la nt : Option ℕ},
    DSeg nx pv pr hd (l ++ m) la nt ↔ ∃ x y, DSeg nx pv pr hd l x y ∧ DSeg nx pv x y m la nt
  | [], m, pr, hd, la, nt => by
    constructor
    · intro h
      exact ⟨pr, hd, ⟨rfl, rfl⟩, h⟩
    · rintro ⟨x, y, ⟨h1, h2⟩, h3⟩
      subst h1 h2
      exact h3
  | a :: l, m, pr, hd, la, nt => by
    constructor
    · rintro ⟨h1, h2, h3⟩
      obtain ⟨x, y, h4, h5⟩ := dSeg_append.1 h3
      exact ⟨x, y, ⟨h1, h2, h4⟩, h5⟩
    · rintro ⟨x, y, ⟨h1, h2, h4⟩, h5⟩
      exact ⟨h1, h2, dSeg_append.2 ⟨x, y, h4, h5⟩⟩

/-- The last node is in the list. -/
theorem DSeg.last_mem {nx pv : ℕ → Option ℕ} : ∀ {l : List ℕ} {pr hd nt : Option ℕ} {r : ℕ}, DSeg nx pv pr hd l (some r) nt → pr ≠ some r → r ∈ l
  | [], _, _, _, _, ⟨_, h⟩, hn => absurd h hn
  | a :: l, pr, hd, nt, r, ⟨_, _, h3⟩, _ => by
    by_cases h : a = r
    · simp [h]
    · exact List.mem_cons_of_mem _ (h3.last_mem (fun e => h (Option.some.inj e)))

/-- The successor of the last node is changed. -/
theorem DSeg.setNext {nx pv : ℕ → Option ℕ} : ∀ {l : List ℕ} {pr hd nt : Option ℕ} {r : ℕ} (nt' : Option ℕ), DSeg nx pv pr hd l (some r) nt → pr ≠ some r →
    l.Nodup → DSeg (update nx r nt') pv pr hd l (some r) nt'
  | [], _, _, _, _, _, ⟨_, h⟩, hn, _ => absurd h hn
  | a :: l, pr, hd, nt, r, nt', ⟨h1, h2, h3⟩, _, hd' => by
    rw [List.nodup_cons] at hd'
    refine ⟨h1, h2, ?_⟩
    by_cases h : a = r
    · subst h
      rw [update_self]
      cases l with
      | nil => exact ⟨rfl, rfl⟩
      | cons b l =>
        exfalso
        have : some b ≠ some a := fun e => hd'.1 (by simp [Option.some.inj e])
        exact hd'.1 (List.mem_cons.2 (by
          by_cases hb : b = a
          · exact Or.inl hb.symm
          · exact Or.inr (DSeg.last_mem h3.2.2 this)))
    · rw [update_of_ne h]
      exact DSeg.setNext nt' h3 (fun e => h (Option.some.inj e)) hd'.2

/-- The predecessor of the first node is changed. -/
theorem DSeg.setPrev {nx pv : ℕ → Option ℕ} {l : List ℕ} {pr la nt : Option ℕ} {q : ℕ} (pr' : Option ℕ) (h : DSeg nx pv pr (some q) (q :: l) la nt)
    (hq : q ∉ l) : DSeg nx (update pv q pr') pr' (some q) (q :: l) la nt := by
  refine ⟨rfl, by simp, h.2.2.congr fun a ha => ⟨rfl, ?_⟩⟩
  rw [update_of_ne]
  rintro rfl
  exact hq ha

theorem DSeg.head {nx pv : ℕ → Option ℕ} {l : List ℕ} {pr hd la nt : Option ℕ} (h : DSeg nx pv pr hd l la nt) (hl : l ≠ []) : hd = l.head? := by
  cases l with
  | nil => exact absurd rfl hl
  | cons a l => simpa using h.1

theorem DSeg.last_nil {nx pv : ℕ → Option ℕ} {l : List ℕ} {hd nt : Option ℕ} (h : DSeg nx pv none hd l none nt) : l = [] := by
  have aux : ∀ {l : List ℕ} {pr hd : Option ℕ}, DSeg nx pv pr hd l none nt → pr ≠ none → False := by
    intro l
    induction l with
    | nil =>
      intro pr hd h hn
      exact hn h.2
    | cons a l ih =>
      intro pr hd h _
      exact ih h.2.2 (by simp)
  cases l with
  | nil => rfl
  | cons a l => exact (aux h.2.2 (by simp)).elim

/-- A node is taken out. -/
theorem DList.remove {nx pv : ℕ → Option ℕ} {hd : Option ℕ} {l1 l2 : List ℕ} {p : ℕ} (h : DList nx pv hd (l1 ++ p :: l2)) (hn : (l1 ++ p :: l2).Nodup) :
    DList (gpRemove nx pv hd p).1 (gpRemove nx pv hd p).2.1 (gpRemove nx pv hd p).2.2 (l1 ++ l2) := by
  obtain ⟨la, h⟩ := h
  obtain ⟨x, y, h1, h2⟩ := dSeg_append.1 h
  obtain ⟨rfl, hx, h3⟩ := h2
  rw [List.nodup_append] at hn
  obtain ⟨hn1, hn2, hn3⟩ := hn
  rw [List.nodup_cons] at hn2
  -- the nodes after `p`
  have hafter : ∃ la', DSeg nx (gpSet pv (nx p) (pv p)) x (nx p) l2 la' none := by
    cases l2 with
    | nil =>
      obtain ⟨h4, h5⟩ := h3
      exact ⟨x, by rw [h4]; exact ⟨rfl, rfl⟩⟩
    | cons q l2 =>
      have h4 : nx p = some q := h3.1
      rw [h4] at h3 ⊢
      refine ⟨la, ?_⟩
      show DSeg nx (update pv q (pv p)) x (some q) (q :: l2) la none
      rw [hx]
      exact DSeg.setPrev x h3 (List.nodup_cons.1 hn2.2).1
  obtain ⟨la', h4⟩ := hafter
  have hpv : (gpSet pv (nx p) (pv p)) p = x := by
    cases l2 with
    | nil => rw [h3.1]; exact hx
    | cons q l2 =>
      rw [h3.1]
      show update pv q (pv p) p = x
      rw [update_of_ne, hx]
      rintro rfl
      exact hn2.1 (by simp)
  have hbefore : DSeg nx (gpSet pv (nx p) (pv p)) none hd l1 x (some p) := by
    refine h1.congr fun a ha => ⟨rfl, ?_⟩
    cases l2 with
    | nil => rw [h3.1]; rfl
    | cons q l2 =>
      rw [h3.1]
      show pv a = update pv q (pv p) a
      rw [update_of_ne]
      exact hn3 a ha q (by simp)
  unfold gpRemove
  simp only []
  generalize (gpSet pv (nx p) (pv p)) = pv' at *
  rw [hpv]
  cases x with
  | none =>
    have : l1 = [] := DSeg.last_nil hbefore
    subst this
    exact ⟨la', h4⟩
  | some r =>
    have hr : r ∈ l1 := hbefore.last_mem (by simp)
    refine ⟨la', dSeg_append.2 ⟨some r, nx p, hbefore.setNext _ (by simp) hn1, h4.congr fun a ha => ⟨?_, rfl⟩⟩⟩
    show nx a = update nx r (nx p) a
    rw [update_of_ne]
    exact fun e => hn3 r hr a (by simp [ha]) e.symm

/-- A node is put in front. -/
theorem DList.insert {nx pv : ℕ → Option ℕ} {hd : Option ℕ} {l : List ℕ} {p : ℕ} (h : DList nx pv hd l) (hn : l.Nodup) (hp : p ∉ l) :
    DList (gpInsert nx pv hd p).1 (gpInsert nx pv hd p).2.1 (gpInsert nx pv hd p).2.2 (p :: l) := by
  obtain ⟨la, h⟩ := h
  unfold gpInsert gpSet
  simp only []
  cases l with
  | nil =>
    rw [h.1]
    exact ⟨some p, rfl, by simp, by simp, rfl⟩
  | cons q l =>
    obtain ⟨rfl, h2, h3⟩ := h
    have hpq : p ≠ q := fun e => hp (by simp [e])
    refine ⟨la, rfl, by simp, by simp, ?_, ?_⟩
    · rw [update_of_ne hpq.symm]
      simp
    · rw [update_of_ne hpq.symm]
      refine h3.congr fun a ha => ?_
      have h1 : a ≠ p := fun e => hp (by simp [← e, ha])
      have h2 : a ≠ q := fun e => (List.nodup_cons.1 hn).1 (e ▸ ha)
      rw [update_of_ne h1, update_of_ne h1]
      exact ⟨rfl, by simp [update_of_ne h2]⟩

/-- A node is put after `p`. -/
theorem DList.after {nx pv : ℕ → Option ℕ} {hd : Option ℕ} {l1 l2 : List ℕ} {p b : ℕ} (h : DList nx pv hd (l1 ++ p :: l2)) (hn : (l1 ++ p :: l2).Nodup)
    (hb : b ∉ l1 ++ p :: l2) :
    DList (update (update nx b (nx p)) p (some b))
      (gpSet (update pv b (some p)) (nx p) (some b)) hd (l1 ++ p :: b :: l2) := by
  obtain ⟨la, h⟩ := h
  obtain ⟨x, y, h1, h2⟩ := dSeg_append.1 h
  obtain ⟨rfl, hx, h3⟩ := h2
  rw [List.nodup_append] at hn
  obtain ⟨hn1, hn2, hn3⟩ := hn
  rw [List.nodup_cons] at hn2
  simp only [List.mem_append, List.mem_cons, not_or] at hb
  obtain ⟨hb1, hb2, hb3⟩ := hb
  have hp1 : p ∉ l1 := fun e => hn3 p e p (by simp) rfl
  unfold gpSet
  cases l2 with
  | nil =>
    rw [h3.1]
    refine ⟨some b, dSeg_append.2 ⟨x, some p, h1.congr fun a ha => ?_, rfl, ?_, ?_, ?_, ?_, ?_⟩⟩
    · have e1 : a ≠ b := fun e => hb1 (e ▸ ha)
      have e2 : a ≠ p := fun e => hp1 (e ▸ ha)
      simp [update_of_ne e1, update_of_ne e2]
    · simp [update_of_ne (Ne.symm hb2), hx]
    · simp
    · simp
    · simp [update_of_ne hb2]
    · rfl
  | cons q l2 =>
    rw [h3.1]
    have hqp : q ≠ p := fun e => hn2.1 (by simp [e])
    have hqb : q ≠ b := fun e => hb3 (by simp [e])
    have hq1 : q ∉ l1 := fun e => hn3 q e q (by simp) rfl
    have hn4 := List.nodup_cons.1 hn2.2
    refine ⟨la, dSeg_append.2 ⟨x, some p, h1.congr fun a ha => ?_, rfl, ?_, ?_, ?_, ?_, ?_, ?_⟩⟩
    · have e1 : a ≠ b := fun e => hb1 (e ▸ ha)
      have e2 : a ≠ p := fun e => hp1 (e ▸ ha)
      have e3 : a ≠ q := fun e => hq1 (e ▸ ha)
      simp [update_of_ne e1, update_of_ne e2, update_of_ne e3]
    · simp [update_of_ne (Ne.symm hb2), update_of_ne hqp.symm, hx]
    · simp
    · simp [update_of_ne hqb.symm]
    · simp [update_of_ne hb2]
    · simp
    · refine h3.2.2.congr (fun a ha => ?_) |> fun h => by
        simpa [update_of_ne hqp, update_of_ne hqb] using h
      have e1 : a ≠ b := fun e => hb3 (by simp [← e, ha])
      have e2 : a ≠ p := fun e => hn2.1 (by simp [← e, ha])
      have e3 : a ≠ q := fun e => hn4.1 (e ▸ ha)
      simp [update_of_ne e1, update_of_ne e2, update_of_ne e3]

/-- The walk to the end of the list. -/
theorem gpTop_eq {nx pv : ℕ → Option ℕ} : ∀ {l : List ℕ} {a : ℕ} {pr la : Option ℕ} (fuel : ℕ), DSeg nx pv pr (some a) (a :: l) la none → l.length < fuel →
    ∃ b, gpTop nx fuel a = some b ∧ la = some b ∧ b ∈ a :: l
  | [], a, pr, la, fuel, h, hf => by
    obtain ⟨f, rfl⟩ : ∃ f, fuel = f + 1 := ⟨fuel - 1, by simp at hf; omega⟩
    obtain ⟨_, _, h3, h4⟩ := h
    exact ⟨a, by simp [gpTop, h3], h4.symm, by simp⟩
  | c :: l, a, pr, la, fuel, h, hf => by
    obtain ⟨f, rfl⟩ : ∃ f, fuel = f + 1 := ⟨fuel - 1, by omega⟩
    obtain ⟨_, _, h3⟩ := h
    have h4 := h3.1
    rw [h4] at h3
    obtain ⟨b, h5, h6, h7⟩ := gpTop_eq f h3 (by simpa using hf)
    exact ⟨b, by simp only [gpTop, h4]; exact h5, h6, List.mem_cons_of_mem _ h7⟩

/-- A node is put at the end. -/
theorem DList.snoc {nx pv : ℕ → Option ℕ} {m : ℕ} {l : List ℕ} {p fuel : ℕ} (h : DList nx pv (some m) l) (hn : l.Nodup) (hp : p ∉ l) (hf : l.length < fuel + 1) :
    ∃ b, gpTop (update nx p none) fuel m = some b ∧ DList (update (update nx p none) b (some p)) (update pv p (some b)) (some m) (l ++ [p]) ∧ b ∈ l := by
  obtain ⟨la, h⟩ := h
  cases l with
  | nil => exact absurd h.1 (by simp)
  | cons a l =>
    obtain rfl : m = a := Option.some.inj h.1
    have h' : DSeg (update nx p none) pv none (some m) (m :: l) la none := h.congr fun c hc => ⟨by rw [update_of_ne (fun e : c = p => hp (e ▸ hc))], rfl⟩
    obtain ⟨b, h1, rfl, hb⟩ := gpTop_eq fuel h' (by simpa using hf)
    have hbp : b ≠ p := fun e => hp (e ▸ hb)
    refine ⟨b, h1, ⟨some p, dSeg_append.2 ⟨some b, some p, ?_, rfl, by simp, ?_, rfl⟩⟩, hb⟩
    · refine (DSeg.setNext (some p) h' (by simp) hn).congr fun c hc => ⟨rfl, by rw [update_of_ne (fun e : c = p => hp (e ▸ hc))]⟩
    · rw [update_of_ne hbp.symm]
      simp

/-- A list with one link. -/
def SList (nx : ℕ → Option ℕ) (hd : Option ℕ) : List ℕ → Prop
  | [] => hd = none
  | a :: l => hd = some a ∧ SList nx (nx a) l

theorem SList.congr {nx nx' : ℕ → Option ℕ} : ∀ {l : List ℕ} {hd : Option ℕ}, (∀ a ∈ l, nx a = nx' a) → SList nx hd l → SList nx' hd l
  | [], _, _, h => h
  | a :: l, hd, hc, ⟨h1, h2⟩ => by
    refine ⟨h1, ?_⟩
    rw [← hc a (by simp)]
    exact SList.congr (fun b hb => hc b (by simp [hb])) h2

theorem sList_range {nx : ℕ → Option ℕ} {e : ℕ} (he : nx e = none) : ∀ (n a : ℕ), a + n = e → (∀ i, a ≤ i → i < e → nx i = some (i + 1)) →
    SList nx (some a) (List.range' a (n + 1))
  | 0, a, h, _ => by
    obtain rfl : a = e := by omega
    exact ⟨rfl, he⟩
  | n + 1, a, h, hi => by
    rw [List.range'_succ]
    refine ⟨rfl, ?_⟩
    rw [hi a (Nat.le_refl a) (by omega)]
    exact sList_range he n (a + 1) (by omega) fun i h1 h2 => hi i (by omega) h2

end Hila
