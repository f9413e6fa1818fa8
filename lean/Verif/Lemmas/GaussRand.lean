import Verif.Model.GaussSpec
import Verif.Lemmas.NormalSeq

/-!
# Which normal numbers of the sequence a program uses
-/

namespace Hila

/-- Calls of the two functions. -/
inductive GCall where
  | one
  | two

/-- Position in the sequence of normal numbers, and the number that `gaussrand` keeps for the next call. -/
structure IxSt where
  pos : ℕ
  pend : Option ℕ

/-- Numbers used by a call. -/
def ixStep (gpu : Bool) (t : IxSt) : GCall → List ℕ × IxSt
  | .two => ([t.pos, t.pos + 1], ⟨t.pos + 2, t.pend⟩)
  | .one => if gpu then ([t.pos], ⟨t.pos + 2, t.pend⟩) else
      match t.pend with
      | none => ([t.pos], ⟨t.pos + 2, some (t.pos + 1)⟩)
      | some p => ([p], ⟨t.pos, none⟩)

/-- Numbers used by a list of calls. -/
def ixRun (gpu : Bool) : List GCall → IxSt → List ℕ × IxSt
  | [], t => ([], t)
  | g :: gs, t => ((ixStep gpu t g).1 ++ (ixRun gpu gs (ixStep gpu t g).2).1, (ixRun gpu gs (ixStep gpu t g).2).2)

theorem ixRun_append (gpu : Bool) (a b : List GCall) (t : IxSt) :
    ixRun gpu (a ++ b) t = ((ixRun gpu a t).1 ++ (ixRun gpu b (ixRun gpu a t).2).1, (ixRun gpu b (ixRun gpu a t).2).2) := by
  induction a generalizing t with
  | nil => rfl
  | cons g gs ih => simp only [List.cons_append, ixRun, ih, List.append_assoc]

/-- No number has been used twice. -/
def IxGood (used : List ℕ) (t : IxSt) : Prop :=
  used.Nodup ∧ (∀ i ∈ used, i < t.pos) ∧ ∀ p ∈ t.pend, p < t.pos ∧ p ∉ used

theorem ixStep_good (gpu : Bool) {used : List ℕ} {t : IxSt} (h : IxGood used t) (g : GCall) :
    IxGood (used ++ (ixStep gpu t g).1) (ixStep gpu t g).2 := by
  obtain ⟨h1, h2, h3⟩ := h
  have hp : t.pos ∉ used := fun hm => absurd (h2 _ hm) (lt_irrefl _)
  have hp1 : t.pos + 1 ∉ used := fun hm => by have := h2 _ hm; omega
  have hne : ∀ p ∈ t.pend, p ≠ t.pos := fun p hm e => by have := (h3 p hm).1; omega
  have hne1 : ∀ p ∈ t.pend, p ≠ t.pos + 1 := fun p hm e => by have := (h3 p hm).1; omega
  cases g with
  | two =>
    refine ⟨?_, ?_, ?_⟩
    · simp only [ixStep]
      rw [List.nodup_append]
      refine ⟨h1, by simp, ?_⟩
      intro a ha b hb e
      simp only [List.mem_cons, List.not_mem_nil, or_false] at hb
      subst e
      rcases hb with rfl | rfl
      · exact hp ha
      · exact hp1 ha
    · simp only [ixStep, List.mem_append, List.mem_cons, List.not_mem_nil, or_false]
      rintro i (hi | rfl | rfl)
      · have := h2 i hi; omega
      · omega
      · omega
    · simp only [ixStep, List.mem_append, List.mem_cons, List.not_mem_nil, or_false]
      intro p hm
      have := h3 p hm
      refine ⟨by omega, ?_⟩
      rintro (hi | e | e)
      · exact this.2 hi
      · exact hne p hm e
      · exact hne1 p hm e
  | one =>
    by_cases hg : gpu
    · simp only [ixStep, if_pos hg]
      refine ⟨?_, ?_, ?_⟩
      · rw [List.nodup_append]
        refine ⟨h1, by simp, ?_⟩
        intro a ha b hb e
        simp only [List.mem_cons, List.not_mem_nil, or_false] at hb
        subst e; subst hb
        exact hp ha
      · simp only [List.mem_append, List.mem_cons, List.not_mem_nil, or_false]
        rintro i (hi | rfl)
        · have := h2 i hi; omega
        · omega
      · simp only [List.mem_append, List.mem_cons, List.not_mem_nil, or_false]
        intro p hm
        have := h3 p hm
        refine ⟨by omega, ?_⟩
        rintro (hi | e)
        · exact this.2 hi
        · exact hne p hm e
    · simp only [ixStep, if_neg hg]
      cases hpd : t.pend with
      | none =>
        refine ⟨?_, ?_, ?_⟩
        · rw [List.nodup_append]
          refine ⟨h1, by simp, ?_⟩
          intro a ha b hb e
          simp only [List.mem_cons, List.not_mem_nil, or_false] at hb
          subst e; subst hb
          exact hp ha
        · simp only [List.mem_append, List.mem_cons, List.not_mem_nil, or_false]
          rintro i (hi | rfl)
          · have := h2 i hi; omega
          · omega
        · simp only [List.mem_append, List.mem_cons, List.not_mem_nil, or_false, Option.mem_def, Option.some.injEq]
          rintro p rfl
          refine ⟨by omega, ?_⟩
          rintro (hi | e)
          · exact hp1 hi
          · omega
      | some p =>
        have h4 := h3 p hpd
        refine ⟨?_, ?_, ?_⟩
        · rw [List.nodup_append]
          refine ⟨h1, by simp, ?_⟩
          intro a ha b hb e
          simp only [List.mem_cons, List.not_mem_nil, or_false] at hb
          subst e; subst hb
          exact h4.2 ha
        · simp only [List.mem_append, List.mem_cons, List.not_mem_nil, or_false]
          rintro i (hi | rfl)
          · exact h2 i hi
          · exact h4.1
        · intro q hq; exact absurd hq (by simp)

theorem ixRun_good (gpu : Bool) (gs : List GCall) {used : List ℕ} {t : IxSt} (h : IxGood used t) :
    IxGood (used ++ (ixRun gpu gs t).1) (ixRun gpu gs t).2 := by
  induction gs generalizing used t with
  | nil => simpa [ixRun] using h
  | cons g gs ih =>
    have := ih (ixStep_good gpu h g)
    simpa [ixRun, List.append_assoc] using this

theorem ixRun_nodup (gpu : Bool) (gs : List GCall) : (ixRun gpu gs ⟨0, none⟩).1.Nodup := by
  have h : IxGood [] ⟨0, none⟩ := ⟨List.nodup_nil, by simp, by simp⟩
  simpa using (ixRun_good gpu gs h).1

/-- Numbers of a list of calls. -/
def callCount : List GCall → ℕ
  | [] => 0
  | .one :: gs => 1 + callCount gs
  | .two :: gs => 2 + callCount gs

theorem ixRun_length (gpu : Bool) (gs : List GCall) (t : IxSt) : (ixRun gpu gs t).1.length = callCount gs := by
  induction gs generalizing t with
  | nil => rfl
  | cons g gs ih =>
    simp only [ixRun, List.length_append, ih]
    cases g with
    | two => rfl
    | one =>
      simp only [callCount, ixStep]
      cases gpu with
      | true => rfl
      | false => cases t.pend <;> rfl

theorem callCount_append (a b : List GCall) : callCount (a ++ b) = callCount a + callCount b := by
  induction a with
  | nil => simp [callCount]
  | cons g gs ih => cases g <;> simp only [List.cons_append, callCount, ih] <;> omega

/-- The state of the program for a position in the sequence. -/
def GSim (u : ℕ → ℝ) (s : GRng) (t : IxSt) : Prop :=
  s.u = u ∧ s.pos = t.pos ∧ t.pos % 2 = 0 ∧ s.drawNew = t.pend.isNone ∧ ∀ p ∈ t.pend, s.second = normals u p

/-- The program makes the calls `gs`, and its result stands in the relation `R` to the normal numbers that they give. -/
def GDraws {α : Type} (gpu : Bool) (prog : GRng → Option (α × GRng)) (gs : List GCall) (R : α → List ℝ → Prop) : Prop :=
  ∀ u : ℕ → ℝ, (∀ i, 0 ≤ u i ∧ u i < 1) → ∀ s t, GSim u s t →
    ∃ a s', prog s = some (a, s') ∧ GSim u s' (ixRun gpu gs t).2 ∧ R a ((ixRun gpu gs t).1.map (normals u))

theorem GDraws.bind {α β : Type} {gpu : Bool} {p : GRng → Option (α × GRng)} {f : α × GRng → Option (β × GRng)} {g1 g2 : List GCall}
    {R1 : α → List ℝ → Prop} {R : β → List ℝ → Prop} (h1 : GDraws gpu p g1 R1)
    (h2 : ∀ a l1, R1 a l1 → GDraws gpu (fun s => f (a, s)) g2 fun b l2 => R b (l1 ++ l2)) :
    GDraws gpu (fun s => (p s).bind f) (g1 ++ g2) R := by
  intro u hu s t hs
  obtain ⟨a, s', e1, hs', r1⟩ := h1 u hu s t hs
  obtain ⟨b, s'', e2, hs'', r2⟩ := h2 a _ r1 u hu s' _ hs'
  refine ⟨b, s'', ?_, ?_, ?_⟩
  · simp only [e1, Option.bind_some]; exact e2
  · rw [ixRun_append]; exact hs''
  · rw [ixRun_append]; simpa using r2

theorem GDraws.ret {α : Type} {gpu : Bool} {R : α → List ℝ → Prop} (a : α) (h : R a []) : GDraws gpu (fun s => some (a, s)) [] R :=
  fun _ _ s _ hs => ⟨a, s, rfl, hs, by simpa [ixRun] using h⟩

theorem GDraws.map {α β : Type} {gpu : Bool} {p : GRng → Option (α × GRng)} {gs : List GCall} {R1 : α → List ℝ → Prop} (f : α → β)
    {R : β → List ℝ → Prop} (h1 : GDraws gpu p gs R1) (h2 : ∀ a l, R1 a l → R (f a) l) :
    GDraws gpu (fun s => (p s).bind fun q => some (f q.1, q.2)) gs R := by
  intro u hu s t hs
  obtain ⟨a, s', e1, hs', r1⟩ := h1 u hu s t hs
  exact ⟨f a, s', by simp only [e1, Option.bind_some], hs', h2 _ _ r1⟩

theorem GDraws.mono {α : Type} {gpu : Bool} {p : GRng → Option (α × GRng)} {gs : List GCall} {R R' : α → List ℝ → Prop}
    (h : GDraws gpu p gs R) (hR : ∀ a l, R a l → R' a l) : GDraws gpu p gs R' := fun u hu s t hs => by
  obtain ⟨a, s', e, hs', r⟩ := h u hu s t hs
  exact ⟨a, s', e, hs', hR _ _ r⟩

/-- The loop ends in its first turn. -/
theorem urndLoop_first (u : ℕ → ℝ) (hu : ∀ i, 0 ≤ u i ∧ u i < 1) (fuel p : ℕ) (hf : 0 < fuel) :
    urndLoop u fuel p = some (1 - u p, p + 1) := by
  cases fuel with
  | zero => omega
  | succ f =>
    have : ¬ (1 - u p = 0) := by have := (hu p).2; intro h; linarith
    simp only [urndLoop, if_neg this]

theorem gaussrand2_eq (fuel : ℕ) (hf : 0 < fuel) (s : GRng) (hu : ∀ i, 0 ≤ s.u i ∧ s.u i < 1) :
    gaussrand2 fuel s = some (bmPair (s.u s.pos, s.u (s.pos + 1)), ⟨s.u, s.pos + 2, s.drawNew, s.second⟩) := by
  unfold gaussrand2
  rw [urndLoop_first s.u hu fuel _ hf]
  simp only [Option.bind_some, bmPair, mul_one]

theorem gaussrand2_draws (gpu : Bool) (fuel : ℕ) (hf : 0 < fuel) :
    GDraws gpu (gaussrand2 fuel) [.two] fun a l => l = [a.1, a.2] := by
  rintro u hu s t ⟨rfl, hpos, hev, hd, hsec⟩
  refine ⟨_, _, gaussrand2_eq fuel hf s hu, ⟨rfl, ?_, ?_, hd, hsec⟩, ?_⟩
  · show s.pos + 2 = t.pos + 2; omega
  · show (t.pos + 2) % 2 = 0; omega
  · rw [hpos]
    simp only [ixRun, ixStep, List.append_nil, List.map_cons, List.map_nil]
    rw [normals_even _ hev, normals_odd _ hev]

theorem gaussrand_draws (gpu : Bool) (fuel : ℕ) (hf : 0 < fuel) :
    GDraws gpu (gaussrand gpu fuel) [.one] fun a l => l = [a] := by
  rintro u hu s t ⟨rfl, hpos, hev, hd, hsec⟩
  have e2 := gaussrand2_eq fuel hf s hu
  unfold gaussrand
  by_cases hg : gpu
  · refine ⟨(bmPair (s.u s.pos, s.u (s.pos + 1))).1, ⟨s.u, s.pos + 2, s.drawNew, s.second⟩, ?_, ?_, ?_⟩
    · rw [if_pos hg, e2]; rfl
    · simp only [ixRun, ixStep, if_pos hg]
      exact ⟨rfl, by show s.pos + 2 = t.pos + 2; omega, by show (t.pos + 2) % 2 = 0; omega, hd, hsec⟩
    · simp only [ixRun, ixStep, if_pos hg, List.append_nil, List.map_cons, List.map_nil]
      rw [hpos, normals_even _ hev]
  · rw [if_neg hg]
    cases hpd : t.pend with
    | none =>
      rw [hpd] at hd
      refine ⟨(bmPair (s.u s.pos, s.u (s.pos + 1))).1, ⟨s.u, s.pos + 2, false, (bmPair (s.u s.pos, s.u (s.pos + 1))).2⟩, ?_, ?_, ?_⟩
      · rw [if_pos (by rw [hd]; rfl), e2]; rfl
      · simp only [ixRun, ixStep, if_neg hg, hpd]
        refine ⟨rfl, by show s.pos + 2 = t.pos + 2; omega, by show (t.pos + 2) % 2 = 0; omega, rfl, ?_⟩
        simp only [Option.mem_def, Option.some.injEq]
        rintro p rfl
        rw [hpos, normals_odd _ hev]
      · simp only [ixRun, ixStep, if_neg hg, hpd, List.append_nil, List.map_cons, List.map_nil]
        rw [hpos, normals_even _ hev]
    | some p =>
      rw [hpd] at hd
      refine ⟨s.second, ⟨s.u, s.pos, true, s.second⟩, ?_, ?_, ?_⟩
      · rw [if_neg (by rw [hd]; simp)]
      · simp only [ixRun, ixStep, if_neg hg, hpd]
        exact ⟨rfl, hpos, hev, rfl, by simp⟩
      · simp only [ixRun, ixStep, if_neg hg, hpd, List.append_nil, List.map_cons, List.map_nil]
        rw [hsec p hpd]

end Hila
