import Verif.Model.HmcDriver

/-!
# C107: step sizes, Metropolis test and checkpoints of the HMC programs
-/

namespace Hila

variable {C E W : Type}

/-- Specification: the ramp of the thermalisation, from a tenth to one over the first three quarters of `n` trajectories. -/
noncomputable def thermRamp (t n : ℤ) : ℝ := if (t : ℝ) < n * 3 / 4 then 1 / 10 + 6 / 5 * t / n else 1

/-- Specification: the files hold a checkpoint of the field `c` after `t` trajectories, in the file whose turn it is. -/
def SavedAs (enc : C → List W) (nSave : ℤ) (fs : AltFiles W) (c : C) (t : ℤ) : Prop :=
  nSave ∣ t ∧ ∃ seed, fs.status = .ok t seed (altIndex nSave t) ∧ fs.cfg (altIndex nSave t) = some (enc c)

theorem hmcReduce_some : ∀ (k : ℕ) (d : ℝ) (l : ℤ) (z : ℝ × ℤ), hmcReduce k d l = some z → z.1 * z.2 = d * l
  | 0, d, l, z, h => by cases h; rfl
  | k + 1, d, l, z, h => by
    unfold hmcReduce at h
    split at h
    · rw [hmcReduce_some k _ _ z h]; push_cast; ring
    · cases h

theorem hmcTest_cases (P : HmcPars) (Φ : HmcPhys C E) (x : HmcIn E) (s : HmcLoop C W) (dt : ℝ) (len : ℤ)
    (Q : HmcTurn C × HmcLoop C W → Prop)
    (h1 : Real.exp (s.gact + Φ.kin x.mom / 2 - (Φ.S (Φ.evolve dt len (s.U, x.mom)).1 +
        Φ.kin (Φ.evolve dt len (s.U, x.mom)).2 / 2)) < x.u →
      Q (⟨s.traj, dt, len, s.gact + Φ.kin x.mom / 2, Φ.S (Φ.evolve dt len (s.U, x.mom)).1 +
        Φ.kin (Φ.evolve dt len (s.U, x.mom)).2 / 2, true, if s.traj < P.nTherm then s.traj - 1 else s.traj, s.U⟩,
      { s with traj := (if s.traj < P.nTherm then s.traj - 1 else s.traj) + 1, dt := dt, len := len,
               nrej := if s.traj < P.nTherm then s.nrej + 1 else s.nrej }))
    (h2 : ¬ Real.exp (s.gact + Φ.kin x.mom / 2 - (Φ.S (Φ.evolve dt len (s.U, x.mom)).1 +
        Φ.kin (Φ.evolve dt len (s.U, x.mom)).2 / 2)) < x.u →
      Q (⟨s.traj, dt, len, s.gact + Φ.kin x.mom / 2, Φ.S (Φ.evolve dt len (s.U, x.mom)).1 +
        Φ.kin (Φ.evolve dt len (s.U, x.mom)).2 / 2, false, s.traj, (Φ.evolve dt len (s.U, x.mom)).1⟩,
      { s with traj := s.traj + 1, dt := dt, len := len, nrej := if s.traj < P.nTherm then s.nrej - 1 else s.nrej,
               U := (Φ.evolve dt len (s.U, x.mom)).1, gact := Φ.S (Φ.evolve dt len (s.U, x.mom)).1 })) :
    Q (hmcTest P Φ x s dt len) := by
  by_cases h : Real.exp (s.gact + Φ.kin x.mom / 2 - (Φ.S (Φ.evolve dt len (s.U, x.mom)).1 +
        Φ.kin (Φ.evolve dt len (s.U, x.mom)).2 / 2)) < x.u
  · have := h1 h
    rwa [← (show hmcTest P Φ x s dt len = _ from if_pos h)] at this
  · have := h2 h
    rwa [← (show hmcTest P Φ x s dt len = _ from if_neg h)] at this

/-- What a turn reports and leaves, in one place. -/
structure TurnSpec (P : HmcPars) (Φ : HmcPhys C E) (x : HmcIn E) (s : HmcLoop C W) (r : HmcTurn C) (e : HmcLoop C W) : Prop where
  num : r.num = s.traj
  dt : e.dt = r.dt
  len : e.len = r.len
  next : e.traj = r.out + 1
  field : e.U = r.U
  out : r.out = if r.reject = true ∧ r.num < P.nTherm then r.num - 1 else r.num
  old : r.actOld = s.gact + Φ.kin x.mom / 2
  new : r.actNew = Φ.S (Φ.evolve r.dt r.len (s.U, x.mom)).1 + Φ.kin (Φ.evolve r.dt r.len (s.U, x.mom)).2 / 2
  rej : r.reject = true ↔ Real.exp (r.actOld - r.actNew) < x.u
  after : r.U = if r.reject = true then s.U else (Φ.evolve r.dt r.len (s.U, x.mom)).1
  act : s.gact = Φ.S s.U → e.gact = Φ.S e.U

theorem hmcUpdate_spec {P : HmcPars} {Φ : HmcPhys C E} {x : HmcIn E} {s : HmcLoop C W} {z : HmcTurn C × HmcLoop C W}
    (h : hmcUpdate P Φ x s = some z) :
    hmcStepSize P s.traj s.dt s.len s.nrej = some (z.1.dt, z.1.len) ∧ TurnSpec P Φ x s z.1 z.2 ∧ z.2.fs = s.fs := by
  unfold hmcUpdate at h
  match hz : hmcStepSize P s.traj s.dt s.len s.nrej, h with
  | some (dt, len), h =>
    simp only [Option.map_some, Option.some.injEq] at h
    subst h
    refine hmcTest_cases P Φ x s dt len (fun z => some (dt, len) = some (z.1.dt, z.1.len) ∧ TurnSpec P Φ x s z.1 z.2 ∧ z.2.fs = s.fs)
      (fun hr => ⟨rfl, ⟨rfl, rfl, rfl, rfl, rfl, ?_, rfl, rfl, ⟨fun _ => hr, fun _ => rfl⟩, rfl, fun h => h⟩, rfl⟩)
      (fun hr => ⟨rfl, ⟨rfl, rfl, rfl, rfl, rfl, ?_, rfl, rfl, ⟨fun h => (Bool.false_ne_true h).elim, fun h => (hr h).elim⟩, rfl,
        fun _ => rfl⟩, rfl⟩)
    · by_cases ht : s.traj < P.nTherm
      · simp [ht]
      · simp [ht]
    · simp

theorem hmcTurn_spec {P : HmcPars} {Φ : HmcPhys C E} {enc : C → List W} {x : HmcIn E} {s : HmcLoop C W} {z : HmcTurn C × HmcLoop C W}
    (h : hmcTurn P Φ enc x s = some z) :
    hmcStepSize P s.traj s.dt s.len s.nrej = some (z.1.dt, z.1.len) ∧ TurnSpec P Φ x s z.1 z.2 ∧
      z.2.fs = altRun (hmcSave P enc x z.1).length (hmcSave P enc x z.1) s.fs := by
  unfold hmcTurn at h
  match hz : hmcUpdate P Φ x s, h with
  | some y, h =>
    simp only [Option.map_some, Option.some.injEq] at h
    subst h
    obtain ⟨h1, h2, h3⟩ := hmcUpdate_spec hz
    refine ⟨h1, ⟨h2.num, h2.dt, h2.len, h2.next, h2.field, h2.out, h2.old, h2.new, h2.rej, h2.after, h2.act⟩, ?_⟩
    rw [h3]

theorem hmcCut_spec {P : HmcPars} {Φ : HmcPhys C E} {enc : C → List W} {k : ℕ} {x : HmcIn E} {s : HmcLoop C W}
    {z : HmcTurn C × HmcLoop C W} (h : hmcCut P Φ enc k x s = some z) :
    TurnSpec P Φ x s z.1 z.2 ∧ z.2.fs = altRun k (hmcSave P enc x z.1) s.fs := by
  unfold hmcCut at h
  match hz : hmcUpdate P Φ x s, h with
  | some y, h =>
    simp only [Option.map_some, Option.some.injEq] at h
    subst h
    obtain ⟨h1, h2, h3⟩ := hmcUpdate_spec hz
    refine ⟨⟨h2.num, h2.dt, h2.len, h2.next, h2.field, h2.out, h2.old, h2.new, h2.rej, h2.after, h2.act⟩, ?_⟩
    rw [h3]

/-- Induction over the turns of a run. -/
theorem hmcLoop_induct {P : HmcPars} {Φ : HmcPhys C E} {enc : C → List W} (I : List (HmcTurn C) → HmcLoop C W → Prop)
    (hI : ∀ rs s x z, I rs s → s.traj < P.nTraj → hmcTurn P Φ enc x s = some z → I (rs ++ [z.1]) z.2) :
    ∀ (xs : List (HmcIn E)) (pre : List (HmcTurn C)) (s : HmcLoop C W) (y : List (HmcTurn C) × HmcLoop C W), I pre s →
      hmcLoop P Φ enc xs s = some y → I (pre ++ y.1) y.2
  | [], pre, s, y, h, hy => by cases hy; simpa using h
  | x :: xs, pre, s, y, h, hy => by
    unfold hmcLoop at hy
    by_cases ht : s.traj < P.nTraj
    · rw [if_pos ht] at hy
      match hz : hmcTurn P Φ enc x s, hy with
      | some z, hy =>
        simp only [Option.bind_some] at hy
        match hw : hmcLoop P Φ enc xs z.2, hy with
        | some w, hy =>
          simp only [Option.map_some, Option.some.injEq] at hy
          subst hy
          have := hmcLoop_induct I hI xs (pre ++ [z.1]) z.2 w (hI pre s x z h ht hz) hw
          simpa using this
    · rw [if_neg ht] at hy
      cases hy; simpa using h

/-- Every trajectory after the thermalisation is done with the step size and the number of steps of the parameter file, however many were
rejected before. During the thermalisation the length of the trajectory, step size times number of steps, is that of the parameter file times the
ramp, whatever the number of rejections. -/
theorem C107_schedule (P : HmcPars) (Φ : HmcPhys C E) (enc : C → List W) (fs : AltFiles W) (c : C) (t : ℤ) (xs : List (HmcIn E))
    (rs : List (HmcTurn C)) (e : HmcLoop C W) (h : hmcLoop P Φ enc xs (hmcStart P Φ fs c t) = some (rs, e)) :
    ∀ r ∈ rs, (P.nTherm ≤ r.num → r.dt = P.dt ∧ r.len = P.len) ∧
      (r.num < P.nTherm → r.dt * r.len = thermRamp r.num P.nTherm * (P.dt * P.len)) := by
  have key := hmcLoop_induct (P := P) (Φ := Φ) (enc := enc)
    (fun rs s => (P.nTherm < s.traj → s.dt = P.dt ∧ s.len = P.len) ∧
      ∀ r ∈ rs, (P.nTherm ≤ r.num → r.dt = P.dt ∧ r.len = P.len) ∧
      (r.num < P.nTherm → r.dt * r.len = thermRamp r.num P.nTherm * (P.dt * P.len))) ?_ xs [] (hmcStart P Φ fs c t) (rs, e)
    ⟨fun _ => ⟨rfl, rfl⟩, by simp⟩ h
  · simpa using key.2
  · intro rs s x z ⟨h1, h2⟩ _ hz
    obtain ⟨ha, hb, _⟩ := hmcTurn_spec hz
    have hr : (P.nTherm ≤ z.1.num → z.1.dt = P.dt ∧ z.1.len = P.len) ∧
        (z.1.num < P.nTherm → z.1.dt * z.1.len = thermRamp z.1.num P.nTherm * (P.dt * P.len)) := by
      rw [hb.num]
      unfold hmcStepSize at ha
      by_cases ht : s.traj < P.nTherm
      · rw [if_pos ht] at ha
        refine ⟨fun h => absurd h (not_le.2 ht), fun _ => ?_⟩
        have hd : (if (s.traj : ℝ) < P.nTherm * 3 / 4 then P.dt * (1 / 10 + 9 / 10 * 4 / 3 * s.traj / P.nTherm) else P.dt) * P.len =
            thermRamp s.traj P.nTherm * (P.dt * P.len) := by
          unfold thermRamp
          split <;> ring
        rw [← hd]
        dsimp only at ha
        by_cases hn : 1 < s.nrej
        · rw [if_pos hn] at ha
          exact hmcReduce_some _ _ _ _ ha
        · rw [if_neg hn] at ha
          simp only [Option.some.injEq, Prod.mk.injEq] at ha
          rw [← ha.1, ← ha.2]
      · rw [if_neg ht] at ha
        refine ⟨fun _ => ?_, fun h => absurd h ht⟩
        by_cases hq : s.traj = P.nTherm
        · rw [if_pos hq] at ha
          simp only [Option.some.injEq, Prod.mk.injEq] at ha
          exact ⟨ha.1.symm, ha.2.symm⟩
        · rw [if_neg hq] at ha
          simp only [Option.some.injEq, Prod.mk.injEq] at ha
          rw [← ha.1, ← ha.2]
          exact h1 (by omega)
    refine ⟨fun h => ?_, ?_⟩
    · rw [hb.dt, hb.len]
      refine hr.1 ?_
      have h3 := hb.next
      have h4 := hb.out
      by_cases hc : z.1.reject = true ∧ z.1.num < P.nTherm
      · rw [if_pos hc] at h4; omega
      · rw [if_neg hc] at h4; omega
    · intro r hm
      rw [List.mem_append, List.mem_singleton] at hm
      rcases hm with hm | rfl
      · exact h2 r hm
      · exact hr

/-- The last turn of a run: the test compares the action of the field the program had at that moment, with the new momenta, with the action at the end
of the trajectory; the field is replaced or kept as the test says, and the next number is the old one exactly for a rejection during the thermalisation. -/
theorem C107_metropolis (P : HmcPars) (Φ : HmcPhys C E) (enc : C → List W) (fs : AltFiles W) (c : C) (t : ℤ) (xs : List (HmcIn E))
    (rs : List (HmcTurn C)) (e : HmcLoop C W) (h : hmcLoop P Φ enc xs (hmcStart P Φ fs c t) = some (rs, e))
    (x : HmcIn E) (r : HmcTurn C) (e' : HmcLoop C W) (hx : hmcTurn P Φ enc x e = some (r, e')) :
    r.actOld = Φ.S e.U + Φ.kin x.mom / 2 ∧
    r.actNew = Φ.S (Φ.evolve r.dt r.len (e.U, x.mom)).1 + Φ.kin (Φ.evolve r.dt r.len (e.U, x.mom)).2 / 2 ∧
    (Real.exp (r.actOld - r.actNew) < x.u → e'.U = e.U ∧ e'.traj = if e.traj < P.nTherm then e.traj else e.traj + 1) ∧
    (x.u ≤ Real.exp (r.actOld - r.actNew) → e'.U = (Φ.evolve r.dt r.len (e.U, x.mom)).1 ∧ e'.traj = e.traj + 1) := by
  have key := hmcLoop_induct (P := P) (Φ := Φ) (enc := enc) (fun _ s => s.gact = Φ.S s.U)
    (fun rs s x z h1 _ hz => (hmcTurn_spec hz).2.1.act h1) xs [] (hmcStart P Φ fs c t) (rs, e) rfl h
  have hb := (hmcTurn_spec hx).2.1
  dsimp only at key hb
  refine ⟨by rw [hb.old, key], hb.new, fun hr => ?_, fun hr => ?_⟩
  · have hj := hb.rej.2 hr
    have h1 := hb.after
    have h2 := hb.out
    have h3 := hb.next
    have h4 := hb.num
    rw [if_pos hj] at h1
    refine ⟨by rw [hb.field, h1], ?_⟩
    by_cases ht : e.traj < P.nTherm
    · rw [if_pos ht]
      rw [if_pos ⟨hj, by omega⟩] at h2
      omega
    · rw [if_neg ht]
      rw [if_neg (fun hc => ht (by omega))] at h2
      omega
  · have hj : ¬ r.reject = true := fun hc => absurd (hb.rej.1 hc) (not_lt.2 hr)
    have h1 := hb.after
    have h2 := hb.out
    have h3 := hb.next
    have h4 := hb.num
    rw [if_neg hj] at h1
    rw [if_neg (fun hc => hj hc.1)] at h2
    exact ⟨by rw [hb.field, h1], by omega⟩

/-- The numbers: a run that began at trajectory `t` stands at `t` plus the turns that were not rejected during the thermalisation. -/
theorem C107_number (P : HmcPars) (Φ : HmcPhys C E) (enc : C → List W) (fs : AltFiles W) (c : C) (t : ℤ) (xs : List (HmcIn E))
    (rs : List (HmcTurn C)) (e : HmcLoop C W) (h : hmcLoop P Φ enc xs (hmcStart P Φ fs c t) = some (rs, e)) :
    e.traj = t + (rs.countP fun r => decide (¬ (r.reject = true ∧ r.num < P.nTherm)) : ℕ) := by
  have key := hmcLoop_induct (P := P) (Φ := Φ) (enc := enc)
    (fun rs s => s.traj = t + (rs.countP fun r => decide (¬ (r.reject = true ∧ r.num < P.nTherm)) : ℕ)) ?_ xs [] (hmcStart P Φ fs c t) (rs, e)
    (by simp [hmcStart]) h
  · simpa using key
  · intro rs s x z h1 _ hz
    have hb := (hmcTurn_spec hz).2.1
    have h2 := hb.out
    have h3 := hb.next
    have h4 := hb.num
    rw [List.countP_append, List.countP_singleton]
    by_cases hc : z.1.reject = true ∧ z.1.num < P.nTherm
    · rw [if_pos hc] at h2
      rw [if_neg (by simpa using hc)]
      push_cast
      omega
    · rw [if_neg hc] at h2
      rw [if_pos (decide_eq_true hc)]
      push_cast
      omega

/-! ### Checkpoints -/

theorem altIndex_next (n t : ℤ) (hn : 0 < n) (ht : 0 ≤ t) (hd : n ∣ t) : altIndex n (t + n) ≠ altIndex n t := by
  obtain ⟨q, rfl⟩ := hd
  have hq : 0 ≤ q := by
    by_contra hq
    have := mul_neg_of_pos_of_neg hn (not_le.1 hq)
    omega
  have e1 : Int.tdiv (n * q) n = q := Int.mul_tdiv_cancel_left _ (by omega)
  have e2 : Int.tdiv (n * q + n) n = q + 1 := by
    rw [show n * q + n = n * (q + 1) by ring]
    exact Int.mul_tdiv_cancel_left _ (by omega)
  unfold altIndex
  rw [e1, e2]
  intro h
  have h := decide_eq_decide.1 h
  omega

theorem altWords_foldl (b : Bool) : ∀ (ws : List W) (fs : AltFiles W) (l : List W), fs.cfg b = some l →
    (ws.map (altWord b)).foldl (fun f op => op f) fs = ⟨fun i => if i = b then some (l ++ ws) else fs.cfg i, fs.status⟩
  | [], fs, l, h => by
    cases fs with
    | mk cfg st =>
      simp only [List.map_nil, List.foldl_nil, List.append_nil, AltFiles.mk.injEq, and_true]
      funext i
      by_cases hi : i = b
      · rw [if_pos hi, hi]; exact h
      · rw [if_neg hi]
  | w :: ws, fs, l, h => by
    simp only [List.map_cons, List.foldl_cons]
    rw [altWords_foldl b ws (altWord b w fs) (l ++ [w]) (by simp [altWord, h])]
    simp only [AltFiles.mk.injEq]
    refine ⟨?_, rfl⟩
    funext i
    by_cases hi : i = b
    · simp [hi]
    · simp [hi, altWord]

/-- The files when `k` operations of a checkpoint are done. -/
theorem altRun_ops (enc : C → List W) (n t seed : ℤ) (c : C) (k : ℕ) (fs : AltFiles W) :
    (k ≤ (enc c).length + 1 → (altRun k (altOps enc n t seed c) fs).status = fs.status ∧
      ∀ i, i ≠ altIndex n t → (altRun k (altOps enc n t seed c) fs).cfg i = fs.cfg i) ∧
    (k = (enc c).length + 2 → (altRun k (altOps enc n t seed c) fs).status = .torn) ∧
    ((enc c).length + 3 ≤ k → (altRun k (altOps enc n t seed c) fs).status = .ok t seed (altIndex n t) ∧
      (altRun k (altOps enc n t seed c) fs).cfg (altIndex n t) = some (enc c)) := by
  unfold altRun altOps
  match k with
  | 0 => exact ⟨fun _ => ⟨rfl, fun _ _ => rfl⟩, fun h => absurd h (by omega), fun h => absurd h (by omega)⟩
  | k + 1 =>
    rw [List.take_succ_cons, List.foldl_cons, List.take_append, List.foldl_append, List.length_map, ← List.map_take,
      altWords_foldl (altIndex n t) _ (altOpen (altIndex n t) fs) [] (by simp [altOpen])]
    refine ⟨fun h => ?_, fun h => ?_, fun h => ?_⟩
    · rw [show k - (enc c).length = 0 by omega]
      refine ⟨rfl, fun i hi => ?_⟩
      simp [altOpen, hi]
    · rw [show k - (enc c).length = 1 by omega]
      rfl
    · obtain ⟨m, hm⟩ : ∃ m, k - (enc c).length = m + 2 := ⟨k - (enc c).length - 2, by omega⟩
      rw [hm, List.take_of_length_le (i := k) (by omega)]
      simp [altTrunc, altStatus]

theorem altOps_length (enc : C → List W) (n t seed : ℤ) (c : C) : (altOps enc n t seed c).length = (enc c).length + 3 := by
  simp [altOps]

/-- A checkpoint is found again. -/
theorem C107_restart (enc : C → List W) (load : List W → Option C) (hf : ∀ c, load (enc c) = some c) (n : ℤ) (fs : AltFiles W) (c : C) (t : ℤ)
    (h : SavedAs enc n fs c t) : ∃ seed, altRestore load fs = .restored c t seed := by
  obtain ⟨_, seed, h1, h2⟩ := h
  refine ⟨seed, ?_⟩
  unfold altRestore
  rw [h1]
  dsimp only
  rw [h2]
  simp [hf]

/-- The files belong to a run that has completed `t` trajectories: the last multiple of `nSave` is saved with the field the run had then, or there is
no multiple yet. -/
def CheckInv (enc : C → List W) (n : ℤ) (log : List (ℤ × C)) (traj : ℤ) (fs : AltFiles W) : Prop :=
  (fs.status = .none ∧ 0 ≤ traj ∧ traj < n) ∨ ∃ c t, SavedAs enc n fs c t ∧ (t, c) ∈ log ∧ 0 ≤ t ∧ t ≤ traj ∧ traj < t + n

theorem checkInv_due {enc : C → List W} {n traj : ℤ} {log : List (ℤ × C)} {fs : AltFiles W}
    (h : CheckInv enc n log traj fs) (hd : n ∣ traj + 1) :
    (fs.status = .none ∧ traj + 1 = n) ∨ ∃ c t, SavedAs enc n fs c t ∧ (t, c) ∈ log ∧ 0 ≤ t ∧ traj + 1 = t + n := by
  rcases h with ⟨h1, h2, h3⟩ | ⟨c, t, h1, h2, h3, h4, h5⟩
  · left
    exact ⟨h1, le_antisymm (by omega) (Int.le_of_dvd (by omega) hd)⟩
  · right
    refine ⟨c, t, h1, h2, h3, ?_⟩
    have : n ∣ traj + 1 - t := dvd_sub hd h1.1
    have := Int.le_of_dvd (by omega) this
    omega

/-- One turn with a complete or interrupted checkpoint. -/
theorem checkInv_turn {P : HmcPars} {Φ : HmcPhys C E} {enc : C → List W} {x : HmcIn E} {s e : HmcLoop C W} {r : HmcTurn C} (hn : 0 < P.nSave)
    (log : List (ℤ × C)) (h : CheckInv enc P.nSave log s.traj s.fs) (hb : TurnSpec P Φ x s r e)
    (hrej : r.reject = true → r.num < P.nTherm → 0 < r.num → ¬ P.nSave ∣ r.num) (k : ℕ) (fs : AltFiles W)
    (hfs : fs = altRun k (hmcSave P enc x r) s.fs) :
    (hmcSave P enc x r = [] ∨ (enc r.U).length + 3 ≤ k → CheckInv enc P.nSave (log ++ [(r.out + 1, r.U)]) e.traj fs) ∧
    (hmcSave P enc x r ≠ [] → k ≤ (enc r.U).length + 1 →
      (fs.status = .none ∧ e.traj = P.nSave) ∨ ∃ c t, SavedAs enc P.nSave fs c t ∧ (t, c) ∈ log ∧ 0 ≤ t ∧ e.traj = t + P.nSave) := by
  subst hfs
  have h2 := hb.out
  have h3 := hb.next
  have h4 := hb.num
  have h0 : 0 ≤ s.traj := by rcases h with ⟨_, h, _⟩ | ⟨_, _, _, _, h, h', _⟩ <;> omega
  by_cases hs : 0 < P.nSave ∧ 0 ≤ r.out ∧ Int.tmod (r.out + 1) P.nSave = 0
  · have hsv : hmcSave P enc x r = altOps enc P.nSave (r.out + 1) x.seed r.U := if_pos hs
    have hdv : P.nSave ∣ r.out + 1 := Int.dvd_of_tmod_eq_zero hs.2.2
    have hout : r.out = s.traj := by
      by_cases hc : r.reject = true ∧ r.num < P.nTherm
      · rw [if_pos hc] at h2
        have h5 := hs.2.1
        exact absurd (show P.nSave ∣ r.num by rw [h2] at hdv; simpa using hdv) (hrej hc.1 hc.2 (by omega))
      · rw [if_neg hc] at h2; omega
    obtain ⟨g1, _, g3⟩ := altRun_ops enc P.nSave (r.out + 1) x.seed r.U k s.fs
    rw [hsv]
    have hdue := checkInv_due h (by rw [← hout]; exact hdv)
    constructor
    · intro hk
      have hk : (enc r.U).length + 3 ≤ k := by
        rcases hk with hk | hk
        · have := altOps_length enc P.nSave (r.out + 1) x.seed r.U
          rw [hk] at this
          simp at this
        · exact hk
      right
      exact ⟨r.U, r.out + 1, ⟨hdv, x.seed, g3 hk⟩, by simp, by omega, by omega, by omega⟩
    · intro _ hk
      obtain ⟨g4, g5⟩ := g1 hk
      rcases hdue with ⟨a1, a2⟩ | ⟨c, t, a1, a2, a3, a4⟩
      · left
        exact ⟨by rw [g4, a1], by omega⟩
      · right
        refine ⟨c, t, ⟨a1.1, ?_⟩, a2, a3, by omega⟩
        obtain ⟨_, seed, b1, b2⟩ := a1
        refine ⟨seed, by rw [g4, b1], ?_⟩
        rw [g5 _ ?_, b2]
        have := altIndex_next P.nSave t hn a3 (by assumption)
        rw [show r.out + 1 = t + P.nSave by omega]
        exact fun h => this h.symm
  · have hsv : hmcSave P enc x r = [] := if_neg hs
    rw [hsv]
    constructor
    · intro _
      have hrun : altRun k ([] : List (AltFiles W → AltFiles W)) s.fs = s.fs := by simp [altRun]
      rw [hrun]
      have hnd : e.traj = s.traj ∨ e.traj = s.traj + 1 ∧ ¬ P.nSave ∣ s.traj + 1 := by
        by_cases hc : r.reject = true ∧ r.num < P.nTherm
        · rw [if_pos hc] at h2; left; omega
        · rw [if_neg hc] at h2
          right
          refine ⟨by omega, fun hd => hs ⟨hn, by omega, ?_⟩⟩
          rw [show r.out + 1 = s.traj + 1 by omega]
          exact Int.tmod_eq_zero_of_dvd hd
      rcases h with ⟨a1, a2, a3⟩ | ⟨c, t, a1, a2, a3, a4, a5⟩
      · left
        refine ⟨a1, by omega, ?_⟩
        rcases hnd with hq | ⟨hq, hd⟩
        · omega
        · rw [hq]
          refine lt_of_le_of_ne (by omega) fun he => hd (by rw [he])
      · right
        refine ⟨c, t, a1, by simp [a2], a3, by omega, ?_⟩
        rcases hnd with hq | ⟨hq, hd⟩
        · omega
        · rw [hq]
          refine lt_of_le_of_ne (by omega) fun he => hd (by rw [he]; exact dvd_add a1.1 (dvd_refl _))
    · intro h; exact absurd rfl h

theorem checkInv_run (P : HmcPars) (Φ : HmcPhys C E) (enc : C → List W) (hn : 0 < P.nSave) (fs : AltFiles W) (c : C) (t : ℤ) (ht : 0 ≤ t)
    (h0 : fs.status = .none ∧ t = 0 ∨ SavedAs enc P.nSave fs c t) (xs : List (HmcIn E)) (rs : List (HmcTurn C)) (e : HmcLoop C W)
    (h : hmcLoop P Φ enc xs (hmcStart P Φ fs c t) = some (rs, e))
    (hrej : ∀ r ∈ rs, r.reject = true → r.num < P.nTherm → 0 < r.num → ¬ P.nSave ∣ r.num) :
    CheckInv enc P.nSave ((t, c) :: rs.map fun r => (r.out + 1, r.U)) e.traj e.fs := by
  have key := hmcLoop_induct (P := P) (Φ := Φ) (enc := enc)
    (fun rs s => (∀ r ∈ rs, r.reject = true → r.num < P.nTherm → 0 < r.num → ¬ P.nSave ∣ r.num) →
      CheckInv enc P.nSave ((t, c) :: rs.map fun r => (r.out + 1, r.U)) s.traj s.fs) ?_ xs [] (hmcStart P Φ fs c t) (rs, e) ?_ h
  · exact key (by simpa using hrej)
  · intro rs s x z h1 _ hz hr
    obtain ⟨_, hb, hfs⟩ := hmcTurn_spec hz
    have := (checkInv_turn hn _ (h1 fun r hm => hr r (by simp [hm])) hb (hr z.1 (by simp)) _ z.2.fs hfs).1
    rw [List.map_append, List.map_singleton, ← List.cons_append]
    refine this ?_
    by_cases hs : hmcSave P enc x z.1 = []
    · exact Or.inl hs
    · right
      unfold hmcSave at hs ⊢
      by_cases hc : 0 < P.nSave ∧ 0 ≤ z.1.out ∧ Int.tmod (z.1.out + 1) P.nSave = 0
      · rw [if_pos hc, altOps_length]
      · rw [if_neg hc] at hs; exact absurd rfl hs
  · intro _
    rcases h0 with ⟨a, b⟩ | a
    · exact Or.inl ⟨a, by simp [hmcStart, b], by simpa [hmcStart, b] using hn⟩
    · exact Or.inr ⟨c, t, a, by simp, ht, le_rfl, by simpa [hmcStart] using hn⟩

/-- A run that began with a saved state (or without any), died at any point of the turn after the turns `rs` that is not the moment in which the
status file is rewritten, and in which no thermalisation trajectory whose number is a positive multiple of the saving interval was rejected: the files
hold a state `(t, c)` with `c` the field the run had when `t` trajectories were completed, at most one saving interval before the death, and a restart
finds it. If there was no state at the beginning and the first multiple is not reached, there is still none. The conclusion is again the hypothesis on the files, so that this applies to the next
run. -/
theorem C107_crash_partial (P : HmcPars) (Φ : HmcPhys C E) (enc : C → List W) (load : List W → Option C) (hf : ∀ c, load (enc c) = some c)
    (hn : 0 < P.nSave) (fs : AltFiles W) (c : C) (t : ℤ) (ht : 0 ≤ t)
    (h0 : fs.status = .none ∧ t = 0 ∨ SavedAs enc P.nSave fs c t) (xs : List (HmcIn E)) (rs : List (HmcTurn C)) (e : HmcLoop C W)
    (h : hmcLoop P Φ enc xs (hmcStart P Φ fs c t) = some (rs, e)) (k : ℕ) (x : HmcIn E) (r : HmcTurn C) (e' : HmcLoop C W)
    (hx : hmcCut P Φ enc k x e = some (r, e'))
    (hrej : ∀ q ∈ rs ++ [r], q.reject = true → q.num < P.nTherm → 0 < q.num → ¬ P.nSave ∣ q.num)
    (hk : k ≠ (enc r.U).length + 2) :
    (e'.fs.status = .none ∧ altRestore load e'.fs = .fresh ∧ e'.traj ≤ P.nSave) ∨
    ∃ c' t', SavedAs enc P.nSave e'.fs c' t' ∧ (∃ seed, altRestore load e'.fs = .restored c' t' seed) ∧
      ((t', c') = (t, c) ∨ ∃ q ∈ rs ++ [r], t' = q.out + 1 ∧ c' = q.U) ∧ 0 ≤ t' ∧ t' ≤ e'.traj ∧ e'.traj ≤ t' + P.nSave := by
  have hinv := checkInv_run P Φ enc hn fs c t ht h0 xs rs e h fun q hq => hrej q (by simp [hq])
  obtain ⟨hb, hfs⟩ := hmcCut_spec hx
  dsimp only at hb hfs
  obtain ⟨g1, g2⟩ := checkInv_turn hn _ hinv hb (hrej r (by simp)) k e'.fs hfs
  have fin : ∀ c' t', SavedAs enc P.nSave e'.fs c' t' →
      (t', c') ∈ ((t, c) :: rs.map fun r => (r.out + 1, r.U)) ++ [(r.out + 1, r.U)] → 0 ≤ t' → t' ≤ e'.traj → e'.traj ≤ t' + P.nSave →
      ∃ c' t', SavedAs enc P.nSave e'.fs c' t' ∧ (∃ seed, altRestore load e'.fs = .restored c' t' seed) ∧
      ((t', c') = (t, c) ∨ ∃ q ∈ rs ++ [r], t' = q.out + 1 ∧ c' = q.U) ∧ 0 ≤ t' ∧ t' ≤ e'.traj ∧ e'.traj ≤ t' + P.nSave := by
    intro c' t' a1 a2 a3 a4 a5
    refine ⟨c', t', a1, C107_restart enc load hf _ _ _ _ a1, ?_, a3, a4, a5⟩
    rw [List.cons_append, List.mem_cons, List.mem_append, List.mem_map, List.mem_singleton] at a2
    rcases a2 with a2 | ⟨q, q1, q2⟩ | a2
    · exact Or.inl a2
    · simp only [Prod.mk.injEq] at q2
      exact Or.inr ⟨q, by simp [q1], q2.1.symm, q2.2.symm⟩
    · simp only [Prod.mk.injEq] at a2
      exact Or.inr ⟨r, by simp, a2.1, a2.2⟩
  have none' : e'.fs.status = .none → altRestore load e'.fs = .fresh := by
    intro hh
    unfold altRestore
    rw [hh]
  by_cases hs : hmcSave P enc x r = [] ∨ (enc r.U).length + 3 ≤ k
  · rcases g1 hs with ⟨a1, a2, a3⟩ | ⟨c', t', a1, a2, a3, a4, a5⟩
    · exact Or.inl ⟨a1, none' a1, a3.le⟩
    · exact Or.inr (fin c' t' a1 a2 a3 a4 a5.le)
  · rw [not_or] at hs
    rcases g2 hs.1 (by omega) with ⟨a1, a2⟩ | ⟨c', t', a1, a2, a3, a4⟩
    · exact Or.inl ⟨a1, none' a1, a2.le⟩
    · exact Or.inr (fin c' t' a1 (List.mem_append_left _ a2) a3 (by omega) a4.le)

/-! ### Where it fails -/

/-- A small program: the field is a number, the momentum is the proposal, the action is the field. -/
def hmcToy : HmcPhys ℕ ℕ := ⟨fun c => c, fun _ => 0, fun _ _ p => (p.2, p.2)⟩

/-- Its configuration file has two words. -/
def hmcToyEnc (c : ℕ) : List ℕ := [c, 7]

/-- Reading it. -/
def hmcToyLoad : List ℕ → Option ℕ
  | [a, 7] => some a
  | _ => none

theorem exp_neg_one_half : Real.exp (-1) < 1 / 2 := by
  have h : (2 : ℝ) < Real.exp 1 := by
    have := Real.add_one_lt_exp (one_ne_zero (α := ℝ))
    linarith
  rw [Real.exp_neg, one_div]
  exact inv_strictAnti₀ (by norm_num) h

theorem altRun_torn (enc : C → List W) (n t seed : ℤ) (c : C) (k : ℕ) (fs : AltFiles W) (hk : k ≤ (enc c).length) :
    (altRun (k + 1) (altOps enc n t seed c) fs).cfg (altIndex n t) = some ((enc c).take k) := by
  unfold altRun altOps
  rw [List.take_succ_cons, List.foldl_cons, List.take_append, List.foldl_append, List.length_map, ← List.map_take,
    altWords_foldl (altIndex n t) _ (altOpen (altIndex n t) fs) [] (by simp [altOpen]), show k - (enc c).length = 0 by omega]
  simp

/-- If a thermalisation trajectory is rejected immediately after a checkpoint, the program writes the checkpoint again, with the same number and into the
file that the status file names: a death during this writing leaves nothing that can be read, although the run had saved its state. -/
theorem C107_rewrite_wrong (P : HmcPars) (Φ : HmcPhys C E) (enc : C → List W) (load : List W → Option C)
    (hcut : ∀ c k, k < (enc c).length → load ((enc c).take k) = none) (hn : 0 < P.nSave) (s : HmcLoop C W) (c : C)
    (hs : SavedAs enc P.nSave s.fs c s.traj) (h0 : 0 < s.traj) (ht : s.traj < P.nTherm) (k : ℕ) (x : HmcIn E) (r : HmcTurn C)
    (e' : HmcLoop C W) (hx : hmcCut P Φ enc (k + 1) x s = some (r, e')) (hr : r.reject = true) (hk : k < (enc r.U).length) :
    altRestore load e'.fs = .noConfig := by
  obtain ⟨hb, hfs⟩ := hmcCut_spec hx
  dsimp only at hb hfs
  have h2 := hb.out
  have h4 := hb.num
  rw [if_pos ⟨hr, by omega⟩] at h2
  obtain ⟨hd, seed, b1, b2⟩ := hs
  have ho : r.out + 1 = s.traj := by omega
  have hsv : hmcSave P enc x r = altOps enc P.nSave s.traj x.seed r.U := by
    unfold hmcSave
    rw [ho, if_pos ⟨hn, by omega, Int.tmod_eq_zero_of_dvd hd⟩]
  rw [hsv] at hfs
  have g1 := ((altRun_ops enc P.nSave s.traj x.seed r.U (k + 1) s.fs).1 (by omega)).1
  have g2 := altRun_torn enc P.nSave s.traj x.seed r.U k s.fs hk.le
  unfold altRestore
  rw [hfs, g1, b1]
  dsimp only
  rw [g2]
  simp [hcut _ _ hk]

theorem toy_turn (P : HmcPars) (x : HmcIn ℕ) (s : HmcLoop ℕ ℕ) (z : ℝ × ℤ) (hz : hmcStepSize P s.traj s.dt s.len s.nrej = some z)
    (hx : x.u = 1 / 2) (hg : s.gact = s.U) (hU : s.U = 0) :
    (x.mom = 0 → hmcUpdate P hmcToy x s = some (⟨s.traj, z.1, z.2, 0, 0, false, s.traj, 0⟩,
      { s with traj := s.traj + 1, dt := z.1, len := z.2, nrej := if s.traj < P.nTherm then s.nrej - 1 else s.nrej })) ∧
    (x.mom = 1 → s.traj < P.nTherm → hmcUpdate P hmcToy x s = some (⟨s.traj, z.1, z.2, 0, 1, true, s.traj - 1, 0⟩,
      { s with dt := z.1, len := z.2, nrej := s.nrej + 1 })) := by
  obtain ⟨mom, u, seed⟩ := x
  obtain ⟨traj, dt, len, nrej, U, gact, fs⟩ := s
  dsimp only at hx hg hU hz
  subst hx hU hg
  constructor
  · intro hm
    dsimp only at hm
    subst hm
    unfold hmcUpdate
    dsimp only
    rw [hz]
    refine congrArg some ?_
    unfold hmcTest hmcToy
    norm_num
  · intro hm ht
    dsimp only at hm ht
    subst hm
    unfold hmcUpdate
    dsimp only
    rw [hz]
    refine congrArg some ?_
    have := exp_neg_one_half
    unfold hmcTest hmcToy
    norm_num [ht]
    linarith

/-- The case happens: a first trajectory is accepted and saved, the second is rejected, and the process dies when it has opened the file. -/
theorem C107_rewrite_happens : ∃ (rs : List (HmcTurn ℕ)) (e : HmcLoop ℕ ℕ) (r : HmcTurn ℕ) (e' : HmcLoop ℕ ℕ),
    hmcLoop ⟨1, 1, 10, 10, 1⟩ hmcToy hmcToyEnc [⟨0, 1 / 2, 5⟩] (hmcStart ⟨1, 1, 10, 10, 1⟩ hmcToy ⟨fun _ => none, .none⟩ 0 0) = some (rs, e) ∧
    hmcCut ⟨1, 1, 10, 10, 1⟩ hmcToy hmcToyEnc 1 ⟨1, 1 / 2, 6⟩ e = some (r, e') ∧ r.reject = true ∧
    altRestore hmcToyLoad e.fs = .restored 0 1 5 ∧ altRestore hmcToyLoad e'.fs = .noConfig ∧ ∃ q, rs = [q] ∧ q.reject = false := by
  have hz' : ∀ (t : ℤ) (d : ℝ) (l : ℤ), t < 10 → ∃ z, hmcStepSize ⟨1, 1, 10, 10, 1⟩ t d l 0 = some z := by
    intro t d l ht
    refine ⟨(if (t : ℝ) < (10 : ℤ) * 3 / 4 then 1 * (1 / 10 + 9 / 10 * 4 / 3 * t / (10 : ℤ)) else 1, 1), ?_⟩
    unfold hmcStepSize
    rw [if_pos ht]
    simp
  obtain ⟨z, hz1⟩ := hz' 0 1 1 (by norm_num)
  obtain ⟨y, hy1⟩ := hz' 1 z.1 z.2 (by norm_num)
  have hi : altIndex 1 1 = true := by decide
  have t1 := (toy_turn ⟨1, 1, 10, 10, 1⟩ ⟨0, 1 / 2, 5⟩ (hmcStart ⟨1, 1, 10, 10, 1⟩ hmcToy ⟨fun _ => none, .none⟩ 0 0) z hz1 rfl
    (by simp [hmcStart, hmcToy]) rfl).1 rfl
  have l1 : hmcLoop ⟨1, 1, 10, 10, 1⟩ hmcToy hmcToyEnc [⟨0, 1 / 2, 5⟩]
      (hmcStart ⟨1, 1, 10, 10, 1⟩ hmcToy ⟨fun _ => none, .none⟩ 0 0) =
      some ([⟨0, z.1, z.2, 0, 0, false, 0, 0⟩], ⟨1, z.1, z.2, 0, 0, 0, ⟨fun i => if i = true then some [0, 7] else none, .ok 1 5 true⟩⟩) := by
    unfold hmcLoop hmcTurn
    rw [t1]
    simp only [hmcStart, hmcLoop, hmcSave, altRun, altOps, hmcToyEnc]
    norm_num [hi, altOpen, altWord, altTrunc, altStatus, hmcToy]
    funext i
    cases i <;> rfl
  have t2 := (toy_turn ⟨1, 1, 10, 10, 1⟩ ⟨1, 1 / 2, 6⟩
    ⟨1, z.1, z.2, 0, 0, 0, ⟨fun i => if i = true then some [0, 7] else none, .ok 1 5 true⟩⟩ y hy1 rfl (by simp) rfl).2 rfl (by norm_num)
  have c1 : ∃ e', hmcCut ⟨1, 1, 10, 10, 1⟩ hmcToy hmcToyEnc 1 ⟨1, 1 / 2, 6⟩
      ⟨1, z.1, z.2, 0, 0, 0, ⟨fun i => if i = true then some [0, 7] else none, .ok 1 5 true⟩⟩ =
      some (⟨1, y.1, y.2, 0, 1, true, 1 - 1, 0⟩, e') := by
    unfold hmcCut
    rw [t2]
    exact ⟨_, rfl⟩
  obtain ⟨e', c1⟩ := c1
  refine ⟨_, _, _, _, l1, c1, rfl, rfl, ?_, _, rfl, rfl⟩
  refine C107_rewrite_wrong _ hmcToy hmcToyEnc hmcToyLoad ?_ (by norm_num) _ 0 ⟨one_dvd _, 5, ?_, ?_⟩ (by norm_num) (by norm_num) 0 _ _ e' c1 rfl
    (by norm_num [hmcToyEnc])
  · intro c k hk
    have : k = 0 ∨ k = 1 := by simp [hmcToyEnc] at hk; omega
    rcases this with rfl | rfl <;> rfl
  · show AltStatus.ok 1 5 true = AltStatus.ok 1 5 (altIndex 1 1)
    rw [hi]
  · show (if altIndex 1 1 = true then some [0, 7] else none) = some (hmcToyEnc 0)
    rw [hi]
    rfl

theorem hmcReduce_none : ∀ (k : ℕ) (d : ℝ) (l : ℤ), 0 < l → 2 ^ 31 ≤ l * 2 ^ k → l < 2 ^ 31 → hmcReduce k d l = none
  | 0, d, l, h, h1, h2 => by
    rw [pow_zero, mul_one] at h1
    exact absurd h1 (not_le.2 h2)
  | k + 1, d, l, h, h1, h2 => by
    unfold hmcReduce
    by_cases hc : -2 ^ 31 ≤ 2 * l ∧ 2 * l < 2 ^ 31
    · rw [if_pos hc]
      refine hmcReduce_none k _ _ (by omega) ?_ hc.2
      rw [show 2 * l * 2 ^ k = l * 2 ^ (k + 1) by ring]
      exact h1
    · rw [if_neg hc]

/-- The number of steps is doubled without a bound: when 32 thermalisation trajectories in a row have been rejected, the next one overflows, with any
number of steps in the parameter file. -/
theorem C107_overflow_wrong (P : HmcPars) (Φ : HmcPhys C E) (enc : C → List W) (x : HmcIn E) (s : HmcLoop C W) (hl : 0 < P.len)
    (hl' : P.len < 2 ^ 31) (ht : s.traj < P.nTherm) (hr : 32 ≤ s.nrej) : hmcTurn P Φ enc x s = none := by
  have h : hmcStepSize P s.traj s.dt s.len s.nrej = none := by
    unfold hmcStepSize
    rw [if_pos ht]
    dsimp only
    rw [if_pos (by omega)]
    refine hmcReduce_none _ _ _ hl ?_ hl'
    have h1 : (2 : ℤ) ^ 31 ≤ 2 ^ (s.nrej - 1) := pow_le_pow_right₀ (by norm_num) (by omega)
    have h2 : (0 : ℤ) < 2 ^ (s.nrej - 1) := by positivity
    nlinarith
  unfold hmcTurn hmcUpdate
  rw [h]
  rfl

/-- This is reached: the first 33 trajectories of a run are rejected. -/
theorem C107_overflow_happens :
    hmcLoop ⟨1, 1, 10, 10, 0⟩ hmcToy hmcToyEnc (List.replicate 33 ⟨1, 1 / 2, 5⟩)
      (hmcStart ⟨1, 1, 10, 10, 0⟩ hmcToy ⟨fun _ => none, .none⟩ 0 0) = none := by
  have key : ∀ (n : ℕ) (s : HmcLoop ℕ ℕ), s.traj = 0 → s.gact = s.U → s.U = 0 → 0 < n → 33 ≤ s.nrej + n →
      hmcLoop ⟨1, 1, 10, 10, 0⟩ hmcToy hmcToyEnc (List.replicate n ⟨1, 1 / 2, 5⟩) s = none := by
    intro n
    induction n with
    | zero => intro s _ _ _ h; omega
    | succ n ih =>
      intro s h1 h2 h3 _ h4
      rw [List.replicate_succ]
      unfold hmcLoop
      rw [if_pos (by rw [h1]; norm_num)]
      by_cases hr : 32 ≤ s.nrej
      · rw [C107_overflow_wrong _ _ _ _ s (by norm_num) (by norm_num) (by rw [h1]; norm_num) hr]
        rfl
      · match hz : hmcStepSize ⟨1, 1, 10, 10, 0⟩ s.traj s.dt s.len s.nrej with
        | none =>
          unfold hmcTurn hmcUpdate
          rw [hz]
          rfl
        | some z =>
          have t2 := (toy_turn ⟨1, 1, 10, 10, 0⟩ ⟨1, 1 / 2, 5⟩ s z hz rfl h2 h3).2 rfl (by rw [h1]; norm_num)
          unfold hmcTurn
          rw [t2]
          simp only [Option.map_some, Option.bind_some]
          rw [Option.map_eq_none_iff]
          apply ih
          · exact h1
          · exact h2
          · exact h3
          · omega
          · show 33 ≤ s.nrej + 1 + n
            omega
  exact key 33 _ rfl (by simp [hmcStart, hmcToy]) rfl (by norm_num) (by norm_num [hmcStart])

/-- The hypotheses of the positive theorems are met by a run with an accepted and saved trajectory. -/
example : ∃ (rs : List (HmcTurn ℕ)) (e : HmcLoop ℕ ℕ), rs ≠ [] ∧
    hmcLoop ⟨1, 1, 10, 10, 1⟩ hmcToy hmcToyEnc [⟨0, 1 / 2, 5⟩] (hmcStart ⟨1, 1, 10, 10, 1⟩ hmcToy ⟨fun _ => none, .none⟩ 0 0) =
      some (rs, e) ∧ altRestore hmcToyLoad e.fs = .restored 0 1 5 ∧ (∀ c, hmcToyLoad (hmcToyEnc c) = some c) ∧
    ∀ r ∈ rs, r.reject = true → r.num < 10 → 0 < r.num → ¬ (1 : ℤ) ∣ r.num := by
  obtain ⟨rs, e, r, e', h1, _, _, h2, _, q, rfl, hq⟩ := C107_rewrite_happens
  refine ⟨[q], e, by simp, h1, h2, fun c => rfl, fun r hr hj => ?_⟩
  rw [List.mem_singleton.1 hr, hq] at hj
  cases hj

end Hila
