import Verif.Model.DiagSpec
import Verif.Lemmas.MatClass

namespace Hila.DiagT
open MatT
variable {K : Type} {n m : ℕ}

/-- The numbers of a diagonal with natural numbers as indices. -/
def ex1 [Zero K] (D : Fin n → K) (i : ℕ) : K := if h : i < n then D ⟨i, h⟩ else 0

@[simp] theorem ex1_val [Zero K] (D : Fin n → K) (i : Fin n) : ex1 D i = D i := by unfold ex1; rw [dif_pos i.2]

theorem Is1.at' [Zero K] {d : DiagT K n} {D : Fin n → K} (h : Is1 d D) {i : ℕ} (hi : i < n) : MatT.at' d i = some (ex1 D i) := by
  have := h ⟨i, hi⟩
  rw [this, ← ex1_val D ⟨i, hi⟩]

theorem make_some [Zero K] (f : ℕ → Option K) (G : Fin n → K) (h : ∀ i : Fin n, f i = some (G i)) : ∃ r, make n f = some r ∧ Is1 r G := by
  obtain ⟨r, hr, h1, -⟩ := fillPos n (unset : MatT K n 1) id (ex1 G) (fun i r => (f i).bind fun v => MatT.put r i v)
    (fun k hk => by simpa using hk) (fun _ _ _ _ h => h) (fun k hk s _ _ => by
      have := h ⟨k, hk⟩
      rw [show f k = some (ex1 G k) from by rw [this, ← ex1_val G ⟨k, hk⟩]]; rfl)
  exact ⟨r, hr, fun i => by have := h1 i i.2; rw [ex1_val] at this; exact this⟩

theorem make_none (f : ℕ → Option K) (i : Fin n) (h : f i = none) : make n f = none := by
  have : ∀ N, i.val < N → ∀ s : MatT K n 1, runLoop N (fun i r => (f i).bind fun v => MatT.put r i v) s = none := fun N => by
    induction N with
    | zero => intro h; omega
    | succ N ih =>
      intro hi s
      rw [runLoop]
      by_cases e : i.val = N
      · rw [← e, h]; cases runLoop i.val (fun i r => (f i).bind fun v => MatT.put r i v) s <;> rfl
      · rw [ih (by omega) s]; rfl
  exact this n i.2 _

theorem update_some [Zero K] {d : DiagT K n} {D : Fin n → K} (hd : Is1 d D) (f : DiagT K n → ℕ → K → Option K) (G : Fin n → K)
    (h : ∀ (i : Fin n) (r : DiagT K n), (∀ j : Fin n, j < i → MatT.at' r j = some (G j)) → (∀ j : Fin n, i ≤ j → MatT.at' r j = some (D j)) →
      f r i (D i) = some (G i)) : ∃ r, d.update f = some r ∧ Is1 r G := by
  obtain ⟨r, hr, h1, -⟩ := fillPos n d id (ex1 G) (fun i r => (MatT.at' r i).bind fun x => (f r i x).bind fun v => MatT.put r i v)
    (fun k hk => by simpa using hk) (fun _ _ _ _ h => h) (fun k hk s s1 s2 => by
      have e : ∀ j : Fin n, k ≤ j → MatT.at' s j = some (D j) := fun j hj => by
        rw [s2 j (fun x hx => by simp only [id]; omega)]; exact hd j
      have := h ⟨k, hk⟩ s (fun j hj => by have := s1 j hj; rw [ex1_val] at this; exact this) (fun j hj => e j hj)
      rw [e ⟨k, hk⟩ (le_refl k), Option.bind_some]
      rw [this, ← ex1_val G ⟨k, hk⟩]; rfl)
  exact ⟨r, hr, fun i => by have := h1 i i.2; rw [ex1_val] at this; exact this⟩

theorem update_none {d : DiagT K n} (f : DiagT K n → ℕ → K → Option K) (i : Fin n) (h : ∀ r x, f r i x = none) : d.update f = none := by
  have : ∀ N, i.val < N → ∀ s : MatT K n 1, runLoop N (fun i r => (MatT.at' r i).bind fun x => (f r i x).bind fun v => MatT.put r i v) s = none := fun N => by
    induction N with
    | zero => intro h; omega
    | succ N ih =>
      intro hi s
      rw [runLoop]
      by_cases e : i.val = N
      · rw [← e]
        cases runLoop i.val (fun i r => (MatT.at' r i).bind fun x => (f r i x).bind fun v => MatT.put r i v) s with
        | none => rfl
        | some t =>
          rw [Option.bind_some]
          cases MatT.at' t i.val with
          | none => rfl
          | some x => rw [Option.bind_some, h]; rfl
      · rw [ih (by omega) s]; rfl
  exact this n i.2 _

theorem update_none' {d : DiagT K n} {D : Fin n → K} (hd : Is1 d D) (f : K → Option K) (i : Fin n) (h : f (D i) = none) :
    runLoop n (fun i r => (MatT.at' r i).bind fun x => (f x).bind fun v => MatT.put r i v) d = none := by
  have key : ∀ N, ∀ t : MatT K n 1, runLoop N (fun i r => (MatT.at' r i).bind fun x => (f x).bind fun v => MatT.put r i v) d = some t →
      ∀ k, N ≤ k → MatT.at' t k = MatT.at' d k := fun N => by
    induction N with
    | zero => intro t ht k _; cases ht; rfl
    | succ N ih =>
      intro t ht k hk
      rw [runLoop] at ht
      cases hr : runLoop N (fun i r => (MatT.at' r i).bind fun x => (f x).bind fun v => MatT.put r i v) d with
      | none => rw [hr] at ht; cases ht
      | some u =>
        rw [hr, Option.bind_some] at ht
        rw [← ih u hr k (by omega)]
        cases hx : MatT.at' u N with
        | none => rw [hx] at ht; cases ht
        | some x =>
          rw [hx, Option.bind_some] at ht
          cases hv : f x with
          | none => rw [hv] at ht; cases ht
          | some v =>
            rw [hv, Option.bind_some] at ht
            unfold MatT.put at ht
            split at ht
            · cases ht
              unfold MatT.at'
              split
              · exact if_neg (by omega)
              · rfl
            · cases ht
  have : ∀ N, i.val < N → runLoop N (fun i r => (MatT.at' r i).bind fun x => (f x).bind fun v => MatT.put r i v) d = none := fun N => by
    induction N with
    | zero => intro h; omega
    | succ N ih =>
      intro hi
      rw [runLoop]
      by_cases e : i.val = N
      · cases hr : runLoop N (fun i r => (MatT.at' r i).bind fun x => (f x).bind fun v => MatT.put r i v) d with
        | none => rfl
        | some t => rw [Option.bind_some, key N t hr N (le_refl N), ← e, hd i, Option.bind_some, h]; rfl
      · rw [ih (by omega)]; rfl
  exact this n i.2

/-- Loops that start with the first element. -/
theorem fold_first {S T : Type} {d : DiagT S n} {D : Fin n → S} (hd : Is1 d D) (op : T → S → T) (t : ℕ → T)
    (hs : ∀ i (hi : i + 1 < n), t (i + 1) = op (t i) (D ⟨i + 1, hi⟩)) (t0 : T) (h0 : t 0 = t0) :
    runLoop (n - 1) (fun i s => (MatT.at' d (i + 1)).map fun x => op s x) t0 = some (t (n - 1)) := by
  have : ∀ k, k + 1 ≤ n ∨ k = 0 → runLoop k (fun i s => (MatT.at' d (i + 1)).map fun x => op s x) t0 = some (t k) := fun k => by
    induction k with
    | zero => intro _; rw [h0]; rfl
    | succ k ih =>
      intro hk
      rw [runLoop, ih (by omega), Option.bind_some, hd ⟨k + 1, by omega⟩, Option.map_some, hs k (by omega)]
  exact this (n - 1) (by omega)

end Hila.DiagT
