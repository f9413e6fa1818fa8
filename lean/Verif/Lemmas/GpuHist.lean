import Verif.Lemmas.GpuFree

/-!
# Any history of calls
-/

namespace Hila

open Function

theorem gpRound_pos {m : ℕ} (h : 0 < m) : 0 < gpRound m := by
  unfold gpRound
  split <;> omega

theorem le_gpRound (m : ℕ) : m ≤ gpRound m ∧ gpRound m < m + 256 ∧ gpRound m % 256 = 0 := by
  unfold gpRound
  have := Nat.mod_lt m (show 0 < 256 by omega)
  split <;> omega

theorem gpRound_idem (m : ℕ) : gpRound (gpRound m) = gpRound m := by
  have aux : ∀ k, k % 256 = 0 → gpRound k = k := fun k hk => by
    unfold gpRound
    rw [if_neg (by omega)]
  exact aux _ (le_gpRound m).2.2

/-- The search finds a smallest block that is large enough. -/
theorem gpSearch_spec (s : GPool) (req : ℕ) : ∀ (l : List ℕ) (pr p la : Option ℕ) (fuel : ℕ) (found : Bool) (best : Option ℕ),
    DSeg s.next s.prev pr p l la none → l.length < fuel → (found = true → ∃ q, best = some q ∧ req ≤ s.size q) →
    ∃ f b, gpSearch s req fuel p found best = some (f, b) ∧ (f = false → found = false ∧ ∀ x ∈ l, s.size x < req) ∧
      (f = true → ∃ q, b = some q ∧ req ≤ s.size q ∧ (q ∈ l ∨ found = true ∧ best = some q) ∧ (∀ x ∈ l, req ≤ s.size x → s.size q ≤ s.size x) ∧
        (found = true → ∀ q', best = some q' → s.size q ≤ s.size q'))
  | [], pr, p, la, fuel, found, best, h, hf, hb => by
    obtain ⟨f, rfl⟩ : ∃ f, fuel = f + 1 := ⟨fuel - 1, by simp at hf; omega⟩
    obtain ⟨rfl, _⟩ := h
    refine ⟨found, best, rfl, fun e => ⟨e, by simp⟩, fun e => ?_⟩
    obtain ⟨q, h1, h2⟩ := hb e
    refine ⟨q, h1, h2, Or.inr ⟨e, h1⟩, by simp, fun _ q' h3 => ?_⟩
    rw [h1] at h3
    rw [Option.some.inj h3]
  | c :: l, pr, p, la, fuel, found, best, h, hf, hb => by
    obtain ⟨f, rfl⟩ : ∃ f, fuel = f + 1 := ⟨fuel - 1, by omega⟩
    obtain ⟨rfl, _, h3⟩ := h
    have hl : l.length < f := by simpa using hf
    unfold gpSearch
    by_cases e1 : s.size c = req
    · rw [if_pos e1]
      refine ⟨true, some c, rfl, by simp, fun _ => ⟨c, rfl, by omega, by simp, fun x _ hx => by omega, fun hfo q' hq' => ?_⟩⟩
      obtain ⟨q, h4, h5⟩ := hb hfo
      rw [h4] at hq'
      rw [← Option.some.inj hq']
      omega
    · rw [if_neg e1]
      by_cases e2 : s.size c > req
      · rw [if_pos e2]
        -- the next turns, with the better block `q`
        have next : ∀ q, req ≤ s.size q → s.size q ≤ s.size c → (q = c ∨ found = true ∧ best = some q) →
            (found = true → ∀ q', best = some q' → s.size q ≤ s.size q') →
            ∃ f' b, gpSearch s req f (s.next c) true (some q) = some (f', b) ∧ (f' = false → found = false ∧ ∀ x ∈ c :: l, s.size x < req) ∧
              (f' = true → ∃ q, b = some q ∧ req ≤ s.size q ∧ (q ∈ c :: l ∨ found = true ∧ best = some q) ∧ (∀ x ∈ c :: l, req ≤ s.size x → s.size q ≤ s.size x) ∧
                (found = true → ∀ q', best = some q' → s.size q ≤ s.size q')) := by
          intro q hq1 hq2 hq3 hq4
          obtain ⟨f', b, h5, h6, h7⟩ := gpSearch_spec s req l _ _ la f true (some q) h3 hl fun _ => ⟨q, rfl, hq1⟩
          refine ⟨f', b, h5, fun e => absurd (h6 e).1 (by simp), fun e => ?_⟩
          obtain ⟨q2, h8, h9, h10, h11, h12⟩ := h7 e
          have h13 := h12 rfl q rfl
          refine ⟨q2, h8, h9, ?_, ?_, fun hfo q' hq' => le_trans h13 (hq4 hfo q' hq')⟩
          · rcases h10 with h10 | ⟨_, h10⟩
            · exact Or.inl (by simp [h10])
            · obtain rfl := Option.some.inj h10
              rcases hq3 with rfl | hq3
              · exact Or.inl (by simp)
              · exact Or.inr hq3
          · intro x hx hr
            rcases List.mem_cons.1 hx with rfl | hx
            · omega
            · exact h11 x hx hr
        cases found with
        | false =>
          have := next c (by omega) le_rfl (Or.inl rfl) (by simp)
          simpa using this
        | true =>
          obtain ⟨q, h4, h5⟩ := hb rfl
          by_cases e3 : s.size q > s.size c
          · have := next c (by omega) le_rfl (Or.inl rfl) (fun _ q' hq' => by
              rw [h4] at hq'
              rw [← Option.some.inj hq']
              omega)
            simpa [h4, e3] using this
          · have := next q h5 (by omega) (Or.inr ⟨rfl, h4⟩) (fun _ q' hq' => by
              rw [h4] at hq'
              rw [← Option.some.inj hq'])
            simpa [h4, e3] using this
      · rw [if_neg e2]
        obtain ⟨f', b, h5, h6, h7⟩ := gpSearch_spec s req l _ _ la f found best h3 hl hb
        refine ⟨f', b, h5, fun e => ⟨(h6 e).1, fun x hx => ?_⟩, fun e => ?_⟩
        · rcases List.mem_cons.1 hx with rfl | hx
          · omega
          · exact (h6 e).2 x hx
        · obtain ⟨q, h8, h9, h10, h11, h12⟩ := h7 e
          refine ⟨q, h8, h9, ?_, ?_, h12⟩
          · rcases h10 with h10 | h10
            · exact Or.inl (by simp [h10])
            · exact Or.inr h10
          · intro x hx hr
            rcases List.mem_cons.1 hx with rfl | hx
            · omega
            · exact h11 x hx hr

theorem gpFind_spec (s : GPool) (a : ℕ) : ∀ (l : List ℕ) (pr p la : Option ℕ) (fuel : ℕ), DSeg s.next s.prev pr p l la none → l.length < fuel →
    ∃ r, gpFind s a fuel p = some r ∧ (r = none → ∀ x ∈ l, s.ptr x ≠ a) ∧ ∀ f, r = some f → f ∈ l ∧ s.ptr f = a
  | [], pr, p, la, fuel, h, hf => by
    obtain ⟨f, rfl⟩ : ∃ f, fuel = f + 1 := ⟨fuel - 1, by simp at hf; omega⟩
    obtain ⟨rfl, _⟩ := h
    exact ⟨none, rfl, by simp, by simp⟩
  | c :: l, pr, p, la, fuel, h, hf => by
    obtain ⟨f, rfl⟩ : ∃ f, fuel = f + 1 := ⟨fuel - 1, by omega⟩
    obtain ⟨rfl, _, h3⟩ := h
    unfold gpFind
    by_cases e1 : s.ptr c = a
    · rw [if_pos e1]
      exact ⟨some c, rfl, by simp, fun f hf => by simp [← Option.some.inj hf, e1]⟩
    · rw [if_neg e1]
      obtain ⟨r, h4, h5, h6⟩ := gpFind_spec s a l _ _ la f h3 (by simpa using hf)
      refine ⟨r, h4, fun e x hx => ?_, fun f hf => ⟨by simp [(h6 f hf).1], (h6 f hf).2⟩⟩
      rcases List.mem_cons.1 hx with rfl | hx
      · exact e1
      · exact h5 e x hx

/-! ### No two free neighbours -/

/-- No two neighbours are free. -/
def Coal (fr : ℕ → Bool) (l : List ℕ) : Prop := List.IsChain (fun a b => ¬ (fr a = true ∧ fr b = true)) l

theorem coal_mid {fr : ℕ → Bool} {l1 l2 : List ℕ} {c : ℕ} :
    Coal fr (l1 ++ c :: l2) ↔ Coal fr l1 ∧ Coal fr l2 ∧ (∀ x ∈ l1.getLast?, ¬ (fr x = true ∧ fr c = true)) ∧ ∀ y ∈ l2.head?, ¬ (fr c = true ∧ fr y = true) := by
  unfold Coal
  rw [List.isChain_append, List.isChain_cons]
  simp only [List.head?_cons, Option.mem_def, Option.some.injEq, forall_eq']
  tauto

theorem Coal.congr {fr fr' : ℕ → Bool} {l : List ℕ} (h : Coal fr l) (hc : ∀ a ∈ l, fr a = fr' a) : Coal fr' l := by
  induction l with
  | nil => exact List.IsChain.nil
  | cons a l ih =>
    unfold Coal at h ⊢ ih
    rw [List.isChain_cons] at h ⊢
    refine ⟨fun y hy => ?_, ih h.2 fun b hb => hc b (by simp [hb])⟩
    rw [← hc a (by simp), ← hc y (by simp [List.mem_of_mem_head? hy])]
    exact h.1 y hy

theorem Coal.less {fr fr' : ℕ → Bool} {l : List ℕ} (h : Coal fr l) (hc : ∀ a, fr' a = true → fr a = true) : Coal fr' l :=
  List.IsChain.imp (fun a b hab hb => hab ⟨hc a hb.1, hc b hb.2⟩) h

/-- An interval that meets no used block lies in one free block. -/
theorem tile_gap (ptr size : ℕ → ℕ) (fr : ℕ → Bool) : ∀ (l : List ℕ) (a e : ℕ) (r : List (ℕ × ℕ)) (z x n : ℕ),
    tileRun ptr size l (a, e, r) = some (z, z, []) → Coal fr l → 0 < n → ((a ≤ x ∧ x + n ≤ e) ∨ ∃ y ∈ r, y.1 ≤ x ∧ x + n ≤ y.1 + y.2) →
    (∀ b ∈ l, fr b = false → size b ≠ 0 → Apart (x, n) (ptr b, size b)) →
    ∃ b ∈ l, fr b = true ∧ ptr b ≤ x ∧ x + n ≤ ptr b + size b
  | [], a, e, r, z, x, n, h, _, hn, hx, _ => by
    simp only [tileRun_nil, Option.some.injEq, Prod.mk.injEq] at h
    obtain ⟨rfl, rfl, rfl⟩ := h
    rcases hx with hx | ⟨y, hy, _⟩
    · omega
    · simp at hy
  | b :: l, a, e, r, z, x, n, h, hc, hn, hx, hu => by
    have h' := h
    rw [tileRun_cons] at h
    have hc2 : Coal fr l := by
      unfold Coal at hc ⊢
      rw [List.isChain_cons] at hc
      exact hc.2
    have hu2 : ∀ c ∈ l, fr c = false → size c ≠ 0 → Apart (x, n) (ptr c, size c) := fun c hc => hu c (by simp [hc])
    by_cases h0 : size b = 0
    · unfold tileStep at h
      rw [if_pos h0] at h
      by_cases h1 : a = e
      · simp only [if_pos h1] at h
        cases r with
        | nil => simp at h
        | cons y r =>
          simp only [List.head?_cons, Option.map_some, List.tail_cons, Option.bind_some] at h
          obtain ⟨c, hc, h3⟩ := tile_gap ptr size fr l _ _ _ _ x n h hc2 hn (by
            rcases hx with hx | ⟨w, hw, h4⟩
            · omega
            · rcases List.mem_cons.1 hw with rfl | hw
              · exact Or.inl h4
              · exact Or.inr ⟨w, hw, h4⟩) hu2
          exact ⟨c, by simp [hc], h3⟩
      · simp only [if_neg h1] at h
        simp at h
    · cases hz : tileStep ptr size (a, e, r) b with
      | none => rw [hz] at h; simp at h
      | some w =>
        rw [hz] at h
        obtain ⟨h1, rfl⟩ := tileStep_some h0 hz
        simp only [] at h1 h
        have again : ((a + size b ≤ x ∧ x + n ≤ e) ∨ ∃ y ∈ r, y.1 ≤ x ∧ x + n ≤ y.1 + y.2) →
            ∃ b' ∈ b :: l, fr b' = true ∧ ptr b' ≤ x ∧ x + n ≤ ptr b' + size b' := fun hx' => by
          obtain ⟨c, hc, h3⟩ := tile_gap ptr size fr l _ _ _ _ x n h hc2 hn hx' hu2
          exact ⟨c, by simp [hc], h3⟩
        rcases hx with hx | hx
        · cases hb : fr b with
          | false =>
            have := hu b (by simp) hb h0
            unfold Apart at this
            simp only [] at this
            exact again (Or.inl ⟨by omega, hx.2⟩)
          | true =>
            by_cases e1 : x + n ≤ a + size b
            · exact ⟨b, by simp, hb, by omega, by omega⟩
            · by_cases e2 : a + size b ≤ x
              · exact again (Or.inl ⟨e2, hx.2⟩)
              · exfalso
                cases l with
                | nil =>
                  simp only [Option.bind_some, tileRun_nil, Option.some.injEq, Prod.mk.injEq] at h
                  omega
                | cons c l =>
                  have hfc : fr c = false := by
                    unfold Coal at hc
                    rw [List.isChain_cons] at hc
                    have := hc.1 c (by simp)
                    simpa [hb] using this
                  simp only [Option.bind_some] at h
                  rw [tileRun_cons] at h
                  by_cases hc0 : size c = 0
                  · unfold tileStep at h
                    rw [if_pos hc0] at h
                    by_cases h5 : a + size b = e
                    · omega
                    · simp only [if_neg h5] at h
                      simp at h
                  · cases hy : tileStep ptr size (a + size b, e, r) c with
                    | none => rw [hy] at h; simp at h
                    | some v =>
                      obtain ⟨h6, _⟩ := tileStep_some hc0 hy
                      have := hu c (by simp) hfc hc0
                      unfold Apart at this
                      simp only [] at this h6
                      omega
        · exact again (Or.inr hx)

end Hila
