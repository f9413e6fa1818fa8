import Verif.Model.Checkpoint

/-!
# C24: a checkpoint restored after a crash is a state that was saved
-/

namespace Hila

variable {C W : Type}

/-- A complete configuration file is read back, a cut one is rejected (see `C34_roundtrip` and
`C42_config_truncated`, `C42_config_header_cut` for the real file format). -/
structure ConfigFormat (enc : C → List W) (load : List W → Option C) : Prop where
  complete : ∀ c, load (enc c) = some c
  cut : ∀ c k, k < (enc c).length → load ((enc c).take k) = none

/-- Is the old configuration renamed by this call? -/
def renames (fs : RunFiles W) (a : Save C) : Bool := a.saveOld && fs.config.isSome

/-- The files after the renaming step. -/
def afterRename (fs : RunFiles W) (a : Save C) : RunFiles W :=
  if renames fs a then opRename fs else fs

theorem runOps_words (ws : List W) (fs : RunFiles W) (l : List W) (h : fs.config = some l) :
    runOps (ws.map opWord) fs = { fs with config := some (l ++ ws) } := by
  induction ws generalizing fs l with
  | nil => cases fs; simp_all [runOps]
  | cons w ws ih =>
    have := ih (opWord w fs) (l ++ [w]) (by simp [opWord, h])
    simp only [List.map_cons]
    unfold runOps at *
    rw [List.foldl_cons, this]
    simp [opWord]

theorem runOps_append (a b : List (RunFiles W → RunFiles W)) (fs : RunFiles W) :
    runOps (a ++ b) fs = runOps b (runOps a fs) := by
  unfold runOps; rw [List.foldl_append]

theorem configOps_length (enc : C → List W) (fs : RunFiles W) (a : Save C) :
    (configOps enc fs a).length = (if renames fs a then 1 else 0) + 1 + (enc a.cfg).length := by
  unfold configOps renames
  cases a.saveOld && fs.config.isSome <;> simp <;> omega

/-- Where a crash before the end of `config_write` leaves the files. -/
theorem configOps_take (enc : C → List W) (fs : RunFiles W) (a : Save C) (k : ℕ) :
    runOps ((configOps enc fs a).take k) fs = fs ∨
    runOps ((configOps enc fs a).take k) fs = afterRename fs a ∧ renames fs a = true ∨
    ∃ j, (j < (enc a.cfg).length ↔ k < (configOps enc fs a).length) ∧
      runOps ((configOps enc fs a).take k) fs =
        ⟨some ((enc a.cfg).take j), (afterRename fs a).prev, fs.status⟩ := by
  have hlen := configOps_length enc fs a
  have main : ∀ (fs' : RunFiles W) (j : ℕ),
      runOps (([opOpenConfig] ++ (enc a.cfg).map opWord).take (j + 1)) fs' =
        { fs' with config := some ((enc a.cfg).take j) } := by
    intro fs' j
    rw [List.singleton_append, List.take_succ_cons, ← List.map_take]
    have := runOps_words ((enc a.cfg).take j) (opOpenConfig fs') [] rfl
    unfold runOps at *
    rw [List.foldl_cons, this]
    simp [opOpenConfig]
  by_cases hr : renames fs a = true
  · have hops : configOps enc fs a = opRename :: ([opOpenConfig] ++ (enc a.cfg).map opWord) := by
      unfold configOps
      unfold renames at hr
      rw [if_pos hr]; simp
    rw [if_pos hr] at hlen
    cases k with
    | zero => left; rfl
    | succ k =>
      cases k with
      | zero =>
        right; left
        refine ⟨?_, hr⟩
        rw [hops]
        unfold afterRename
        rw [if_pos hr]; rfl
      | succ j =>
        right; right
        refine ⟨j, by omega, ?_⟩
        rw [hops, List.take_succ_cons]
        unfold afterRename
        rw [if_pos hr]
        have := main (opRename fs) j
        unfold runOps at *
        rw [List.foldl_cons, this]
        rfl
  · have hops : configOps enc fs a = [opOpenConfig] ++ (enc a.cfg).map opWord := by
      unfold configOps
      unfold renames at hr
      rw [if_neg hr]; simp
    rw [if_neg hr] at hlen
    cases k with
    | zero => left; rfl
    | succ j =>
      right; right
      refine ⟨j, by omega, ?_⟩
      rw [hops]
      unfold afterRename
      rw [if_neg hr]
      exact main fs j

/-- The files after `config_write`. -/
theorem configOps_all (enc : C → List W) (fs : RunFiles W) (a : Save C) :
    runOps (configOps enc fs a) fs = ⟨some (enc a.cfg), (afterRename fs a).prev, fs.status⟩ := by
  have h1 := configOps_length enc fs a
  have main : ∀ (fs' : RunFiles W), runOps ([opOpenConfig] ++ (enc a.cfg).map opWord) fs' =
        { fs' with config := some (enc a.cfg) } := by
    intro fs'
    have := runOps_words (enc a.cfg) (opOpenConfig fs') [] rfl
    unfold runOps at *
    rw [List.singleton_append, List.foldl_cons, this]
    simp [opOpenConfig]
  unfold configOps afterRename
  by_cases hr : renames fs a = true
  · rw [if_pos hr]
    unfold renames at hr
    rw [if_pos hr, List.append_assoc, runOps_append, main]
    rfl
  · rw [if_neg hr]
    unfold renames at hr
    rw [if_neg hr, List.nil_append, main]

theorem afterRename_status (fs : RunFiles W) (a : Save C) : (afterRename fs a).status = fs.status := by
  unfold afterRename; split <;> rfl

/-- The status file after some of its operations, at least the truncation. -/
theorem statusOps_take (junk : StatusLabel → ℤ) (n : ℤ) (a : Save C) (fs : RunFiles W) (k : ℕ) :
    ∃ s, runOps ((statusOps junk n a).take (k + 1)) fs = { fs with status := some s } ∧
      (s = [] ∨ s = [(.trajectories, junk .trajectories)] ∨ s = [(.trajectories, n)] ∨
        s = [(.trajectories, n), (.trajectory, junk .trajectory)] ∨
        s = [(.trajectories, n), (.trajectory, a.traj + 1)] ∨
        (∃ r, s = (.trajectories, n) :: (.trajectory, a.traj + 1) :: (.seed, junk .seed) :: r) ∨
        ∃ r, s = (.trajectories, n) :: (.trajectory, a.traj + 1) :: (.seed, a.seed) :: r) := by
  unfold statusOps
  match k with
  | 0 => exact ⟨_, rfl, by simp⟩
  | 1 => exact ⟨_, rfl, by simp⟩
  | 2 => exact ⟨_, rfl, by simp⟩
  | 3 => exact ⟨_, rfl, by simp⟩
  | 4 => exact ⟨_, rfl, by simp⟩
  | 5 => exact ⟨_, rfl, by simp⟩
  | 6 => exact ⟨_, rfl, by simp⟩
  | 7 => exact ⟨_, rfl, by simp⟩
  | k + 8 =>
    refine ⟨_, ?_, Or.inr (Or.inr (Or.inr (Or.inr (Or.inr (Or.inr ⟨[(.time, a.time)], rfl⟩)))))⟩
    rw [List.take_of_length_le (by simp)]
    rfl

theorem statusOps_all (junk : StatusLabel → ℤ) (n : ℤ) (a : Save C) (fs : RunFiles W) :
    runOps (statusOps junk n a) fs = { fs with status := (some
      [(.trajectories, n), (.trajectory, a.traj + 1), (.seed, a.seed), (.time, a.time)]) } := rfl

/-- What a restart finds after a crash, when nothing was wrong with the files before: an error, the
state before the call, or the new state (possibly with the seed's digits cut). The remaining
possibility, new configuration with old trajectory number, occurs exactly if the crash falls between
the last word of the configuration and the truncation of the status file. -/
theorem C24_crash_outcome {enc : C → List W} {load : List W → Option C} (hf : ConfigFormat enc load)
    (junk : StatusLabel → ℤ) (fs : RunFiles W) (m : ℤ) (a : Save C) (k : ℕ) (c₀ : C) (t₀ n₀ s₀ : ℤ)
    (h0 : restoreCheckpoint load fs = .restored c₀ t₀ n₀ s₀) :
    (k = (configOps enc fs a).length →
      restoreCheckpoint load (runOps ((checkpointOps enc junk fs m a).take k) fs) =
        .restored a.cfg t₀ n₀ s₀) ∧
    (k ≠ (configOps enc fs a).length →
      restoreCheckpoint load (runOps ((checkpointOps enc junk fs m a).take k) fs) = .terminated ∨
      restoreCheckpoint load (runOps ((checkpointOps enc junk fs m a).take k) fs) =
        .restored c₀ t₀ n₀ s₀ ∨
      ∃ s, (s = a.seed ∨ s = junk .seed) ∧
        restoreCheckpoint load (runOps ((checkpointOps enc junk fs m a).take k) fs) =
          .restored a.cfg (a.traj + 1) n₀ s) := by
  obtain ⟨rest, hst⟩ : ∃ rest, fs.status =
      some ((.trajectories, n₀) :: (.trajectory, t₀) :: (.seed, s₀) :: rest) := by
    unfold restoreCheckpoint at h0
    split at h0
    · rename_i n t s r he
      split at h0
      · cases h0; exact ⟨r, he⟩
      · cases h0
    · cases h0
    · split at h0
      · split at h0 <;> cases h0
      · cases h0
  have hnew : newTrajectories fs m = some n₀ := by
    unfold newTrajectories; rw [hst]; rfl
  have hops : checkpointOps enc junk fs m a = configOps enc fs a ++ statusOps junk n₀ a := by
    unfold checkpointOps; rw [hnew]
  rw [hops]
  have restore_of : ∀ fs' : RunFiles W, fs'.status = fs.status →
      restoreCheckpoint load fs' = match readConfig load fs' with
        | some c => .restored c t₀ n₀ s₀
        | none => .terminated := by
    intro fs' h
    unfold restoreCheckpoint
    rw [h, hst]
    rfl
  have restore_new : ∀ (s : List (StatusLabel × ℤ)) (fs' : RunFiles W) (sd : ℤ) (r), fs'.status = some s →
      fs'.config = some (enc a.cfg) →
      s = (.trajectories, n₀) :: (.trajectory, a.traj + 1) :: (.seed, sd) :: r →
      restoreCheckpoint load fs' = .restored a.cfg (a.traj + 1) n₀ sd := by
    intro s fs' sd r h1 h2 h3
    unfold restoreCheckpoint readConfig
    rw [h1, h3, h2]
    dsimp only [Option.bind]
    rw [hf.complete]
  constructor
  · intro hk
    rw [List.take_append_of_le_length (by omega), hk, List.take_length, configOps_all]
    rw [restore_of ⟨some (enc a.cfg), (afterRename fs a).prev, fs.status⟩ rfl]
    unfold readConfig
    dsimp only [Option.bind]
    rw [hf.complete]
  · intro hk
    by_cases hlt : k < (configOps enc fs a).length
    · rw [List.take_append_of_le_length (by omega)]
      rcases configOps_take enc fs a k with h | ⟨h, hr⟩ | ⟨j, hj, h⟩
      · right; left; rw [h]; exact h0
      · left
        rw [h, restore_of _ (afterRename_status fs a)]
        unfold readConfig afterRename
        rw [if_pos hr]; rfl
      · left
        rw [h]
        rw [restore_of ⟨some ((enc a.cfg).take j), (afterRename fs a).prev, fs.status⟩ rfl]
        unfold readConfig
        dsimp only [Option.bind]
        rw [hf.cut _ _ (hj.2 hlt)]
    · obtain ⟨i, rfl⟩ : ∃ i, k = (configOps enc fs a).length + (i + 1) :=
        ⟨k - (configOps enc fs a).length - 1, by omega⟩
      rw [List.take_length_add_append, runOps_append, configOps_all]
      obtain ⟨s, h1, h2⟩ := statusOps_take junk n₀ a
        ⟨some (enc a.cfg), (afterRename fs a).prev, fs.status⟩ i
      rw [h1]
      rcases h2 with rfl | rfl | rfl | rfl | rfl | ⟨r, rfl⟩ | ⟨r, rfl⟩
      · left; rfl
      · left; rfl
      · left; rfl
      · left; rfl
      · left; rfl
      · right; right
        exact ⟨junk .seed, Or.inr rfl, restore_new _ _ _ r rfl rfl rfl⟩
      · right; right
        exact ⟨a.seed, Or.inl rfl, restore_new _ _ _ r rfl rfl rfl⟩

/-- **C24 (no crash).** After a completed call a restart restores exactly what was saved, and the number
of trajectories is the one in the status file (as possibly changed by the user), or the program's if
there was none. -/
theorem C24_saved_is_restored {enc : C → List W} {load : List W → Option C} (hf : ConfigFormat enc load)
    (junk : StatusLabel → ℤ) (fs : RunFiles W) (m n : ℤ) (a : Save C)
    (hn : newTrajectories fs m = some n) :
    restoreCheckpoint load (runOps (checkpointOps enc junk fs m a) fs) =
      .restored a.cfg (a.traj + 1) n a.seed := by
  unfold checkpointOps
  rw [hn, runOps_append, configOps_all, statusOps_all]
  unfold restoreCheckpoint readConfig
  dsimp only [Option.bind]
  rw [hf.complete]

/-- A crash outside the window leads to nothing but the old or the new pair. -/
theorem crash_restored {enc : C → List W} {load : List W → Option C} (hf : ConfigFormat enc load)
    (junk : StatusLabel → ℤ) (fs : RunFiles W) (m n : ℤ) (a : Save C) (k : ℕ)
    (hn : newTrajectories fs m = some n) (hk : k ≠ (configOps enc fs a).length) (c : C) (t n' s' : ℤ)
    (h : restoreCheckpoint load (runOps ((checkpointOps enc junk fs m a).take k) fs) =
      .restored c t n' s') :
    restoreCheckpoint load fs = .restored c t n' s' ∨ (c = a.cfg ∧ t = a.traj + 1) := by
  have noread : ∀ fs' : RunFiles W, readConfig load fs' = none →
      restoreCheckpoint load fs' ≠ .restored c t n' s' := by
    intro fs' h1 h2
    unfold restoreCheckpoint at h2
    rw [h1] at h2
    split at h2
    · cases h2
    · cases h2
    · split at h2 <;> cases h2
  have hops : checkpointOps enc junk fs m a = configOps enc fs a ++ statusOps junk n a := by
    unfold checkpointOps; rw [hn]
  rw [hops] at h
  by_cases hlt : k < (configOps enc fs a).length
  · rw [List.take_append_of_le_length (by omega)] at h
    rcases configOps_take enc fs a k with h1 | ⟨h1, hr⟩ | ⟨j, hj, h1⟩
    · rw [h1] at h; exact Or.inl h
    · rw [h1] at h
      refine absurd h (noread _ ?_)
      unfold readConfig afterRename
      rw [if_pos hr]; rfl
    · rw [h1] at h
      refine absurd h (noread _ ?_)
      unfold readConfig
      dsimp only [Option.bind]
      rw [hf.cut _ _ (hj.2 hlt)]
  · right
    obtain ⟨i, rfl⟩ : ∃ i, k = (configOps enc fs a).length + (i + 1) :=
      ⟨k - (configOps enc fs a).length - 1, by omega⟩
    rw [List.take_length_add_append, runOps_append, configOps_all] at h
    obtain ⟨s, h1, h2⟩ := statusOps_take junk n a ⟨some (enc a.cfg), (afterRename fs a).prev, fs.status⟩ i
    rw [h1] at h
    have fin : ∀ sd r, s = (.trajectories, n) :: (.trajectory, a.traj + 1) :: (.seed, sd) :: r →
        c = a.cfg ∧ t = a.traj + 1 := by
      rintro sd r rfl
      unfold restoreCheckpoint readConfig at h
      dsimp only [Option.bind] at h
      rw [hf.complete] at h
      cases h
      exact ⟨rfl, rfl⟩
    rcases h2 with rfl | rfl | rfl | rfl | rfl | ⟨r, rfl⟩ | ⟨r, rfl⟩
    · cases h
    · cases h
    · cases h
    · cases h
    · cases h
    · exact fin _ r rfl
    · exact fin _ r rfl

/-- `a` is the argument of a checkpoint call of the history, completed or not. -/
def CalledWith (es : List (RunEvent C)) (a : Save C) : Prop :=
  RunEvent.save a ∈ es ∨ ∃ k, RunEvent.crash k a ∈ es

/-- No crash of the history falls between the last word of the configuration file and the truncation of
the status file. -/
def NoCrashBetweenFiles (enc : C → List W) (load : List W → Option C) (junk : StatusLabel → ℤ) :
    RunState C W → List (RunEvent C) → Prop
  | _, [] => True
  | st, e :: es =>
    (match e with
      | .crash k a => k ≠ (configOps enc st.fs a).length
      | _ => True) ∧ NoCrashBetweenFiles enc load junk (runStep enc load junk st e) es

theorem restore_edit (load : List W → Option C) (fs : RunFiles W) (n : ℤ) (c : C) (t n' s' : ℤ)
    (h : restoreCheckpoint load (editStatus n fs) = .restored c t n' s') :
    ∃ n'', restoreCheckpoint load fs = .restored c t n'' s' := by
  obtain ⟨cf, pv, stt⟩ := fs
  unfold restoreCheckpoint editStatus readConfig at *
  dsimp only at *
  match stt, h with
  | none, h =>
    simp only [Option.map_none] at h
    split at h
    · split at h <;> cases h
    · cases h
  | some ((.trajectories, n0) :: (.trajectory, t0) :: (.seed, s0) :: r), h =>
    simp only [Option.map_some] at h ⊢
    split at h
    · cases h
      exact ⟨n0, by simp_all⟩
    · cases h
  | some [], h => cases h
  | some [(.trajectories, _)], h => cases h
  | some ((.trajectory, _) :: _), h => cases h
  | some ((.seed, _) :: _), h => cases h
  | some ((.time, _) :: _), h => cases h
  | some ((.trajectories, _) :: (.trajectories, _) :: _), h => cases h
  | some ((.trajectories, _) :: (.seed, _) :: _), h => cases h
  | some ((.trajectories, _) :: (.time, _) :: _), h => cases h
  | some [(.trajectories, _), (.trajectory, _)], h => cases h
  | some ((.trajectories, _) :: (.trajectory, _) :: (.trajectories, _) :: _), h => cases h
  | some ((.trajectories, _) :: (.trajectory, _) :: (.trajectory, _) :: _), h => cases h
  | some ((.trajectories, _) :: (.trajectory, _) :: (.time, _) :: _), h => cases h

theorem newTrajectories_edit (fs : RunFiles W) (n m : ℤ) (h : newTrajectories fs m ≠ none) :
    newTrajectories (editStatus n fs) m ≠ none := by
  obtain ⟨cf, pv, stt⟩ := fs
  unfold newTrajectories editStatus at *
  dsimp only at *
  match stt, h with
  | none, h => simp
  | some [], h => exact absurd rfl h
  | some ((.trajectories, _) :: r), h => simp [getTrajectories]
  | some ((.trajectory, _) :: _), h => exact absurd rfl h
  | some ((.seed, _) :: _), h => exact absurd rfl h
  | some ((.time, _) :: _), h => exact absurd rfl h

theorem newTrajectories_live (load : List W → Option C) (fs : RunFiles W) (m : ℤ)
    (h : restoreCheckpoint load fs ≠ .terminated) : newTrajectories fs m ≠ none := by
  obtain ⟨cf, pv, stt⟩ := fs
  unfold restoreCheckpoint newTrajectories at *
  dsimp only at *
  match stt, h with
  | none, h => simp
  | some ((.trajectories, _) :: r), h => simp [getTrajectories]
  | some [], h => exact absurd rfl h
  | some ((.trajectory, _) :: _), h => exact absurd rfl h
  | some ((.seed, _) :: _), h => exact absurd rfl h
  | some ((.time, _) :: _), h => exact absurd rfl h

theorem restored_saved {enc : C → List W} {load : List W → Option C} (hf : ConfigFormat enc load)
    (junk : StatusLabel → ℤ) (all es : List (RunEvent C)) (hsub : ∀ e ∈ es, e ∈ all) (st : RunState C W)
    (hA : ∀ c t n s, restoreCheckpoint load st.fs = .restored c t n s →
      ∃ a, CalledWith all a ∧ a.cfg = c ∧ a.traj + 1 = t)
    (hB : ∀ m, st.proc = some m → newTrajectories st.fs m ≠ none)
    (hL : ∀ c t n s, Restore.restored c t n s ∈ st.log → ∃ a, CalledWith all a ∧ a.cfg = c ∧ a.traj + 1 = t)
    (hno : NoCrashBetweenFiles enc load junk st es) :
    ∀ c t n s, Restore.restored c t n s ∈ (es.foldl (runStep enc load junk) st).log →
      ∃ a, CalledWith all a ∧ a.cfg = c ∧ a.traj + 1 = t := by
  induction es generalizing st with
  | nil => exact hL
  | cons e es ih =>
    rw [List.foldl_cons]
    have hmem := hsub e List.mem_cons_self
    unfold NoCrashBetweenFiles at hno
    obtain ⟨hk, hno⟩ := hno
    refine ih (fun x hx => hsub x (List.mem_cons_of_mem _ hx)) _ ?_ ?_ ?_ hno
    · -- restored pairs
      intro c t n s h
      obtain ⟨fs, proc, log⟩ := st
      unfold runStep at h
      match e, proc, h with
      | .save a, some m, h =>
        obtain ⟨n1, hn⟩ := Option.ne_none_iff_exists'.1 (hB m rfl)
        dsimp only at h hn
        rw [C24_saved_is_restored hf junk fs m n1 a hn] at h
        cases h
        exact ⟨a, Or.inl hmem, rfl, rfl⟩
      | .crash k a, some m, h =>
        obtain ⟨n1, hn⟩ := Option.ne_none_iff_exists'.1 (hB m rfl)
        rcases crash_restored hf junk fs m n1 a k hn hk c t n s h with h1 | ⟨rfl, rfl⟩
        · exact hA _ _ _ _ h1
        · exact ⟨a, Or.inr ⟨k, hmem⟩, rfl, rfl⟩
      | .die, some _, h => exact hA _ _ _ _ h
      | .start _, none, h => exact hA _ _ _ _ h
      | .edit m, p, h =>
        have h' : restoreCheckpoint load (editStatus m fs) = .restored c t n s := by
          cases p <;> exact h
        obtain ⟨n'', h1⟩ := restore_edit load fs m c t n s h'
        exact hA _ _ _ _ h1
      | .save _, none, h => exact hA _ _ _ _ h
      | .crash _ _, none, h => exact hA _ _ _ _ h
      | .die, none, h => exact hA _ _ _ _ h
      | .start _, some _, h => exact hA _ _ _ _ h
    · -- live processes can read the status file
      intro m h
      obtain ⟨fs, proc, log⟩ := st
      unfold runStep at h ⊢
      match e, proc, h with
      | .save a, some m0, h =>
        dsimp only at h ⊢
        have : newTrajectories fs m0 = some m := h
        unfold checkpointOps
        rw [this, runOps_append, statusOps_all]
        simp [newTrajectories, getTrajectories]
      | .crash k a, some _, h => cases h
      | .die, some _, h => cases h
      | .start m0, none, h =>
        dsimp only at h ⊢
        apply newTrajectories_live load
        intro hc
        rw [hc] at h
        cases h
      | .edit n, some m0, h =>
        cases h
        exact newTrajectories_edit _ _ _ (hB _ rfl)
      | .edit n, none, h => cases h
      | .save _, none, h => cases h
      | .crash _ _, none, h => cases h
      | .die, none, h => cases h
      | .start _, some m0, h => exact hB _ h
    · intro c t n s h
      obtain ⟨fs, proc, log⟩ := st
      unfold runStep at h
      match e, proc, h with
      | .start m0, none, h =>
        dsimp only at h
        rcases List.mem_cons.1 h with h | h
        · exact hA _ _ _ _ h.symm
        · exact hL _ _ _ _ h
      | .save a, some m, h => exact hL _ _ _ _ h
      | .crash k a, some m, h => exact hL _ _ _ _ h
      | .die, some _, h => exact hL _ _ _ _ h
      | .edit m, some _, h => exact hL _ _ _ _ h
      | .edit m, none, h => exact hL _ _ _ _ h
      | .save _, none, h => exact hL _ _ _ _ h
      | .crash _ _, none, h => exact hL _ _ _ _ h
      | .die, none, h => exact hL _ _ _ _ h
      | .start _, some _, h => exact hL _ _ _ _ h

/-- **C24 (all histories).** In every history of checkpoints, crashes, restarts and user edits that
begins without status file, every restart that restores a configuration with a trajectory number
restores a pair that was passed to one checkpoint call. Missing (`_partial`): crashes between the end of
the configuration file and the truncation of the status file are excluded; for them the property is
false, see `C24_mixed_state`. -/
theorem C24_restores_saved_partial {enc : C → List W} {load : List W → Option C}
    (hf : ConfigFormat enc load) (junk : StatusLabel → ℤ) (fs : RunFiles W) (hfs : fs.status = none)
    (es : List (RunEvent C)) (hno : NoCrashBetweenFiles enc load junk ⟨fs, none, []⟩ es)
    (c : C) (t n s : ℤ) (h : Restore.restored c t n s ∈ (runHistory enc load junk fs es).log) :
    ∃ a, CalledWith es a ∧ a.cfg = c ∧ a.traj + 1 = t := by
  refine restored_saved hf junk es es (fun _ h => h) ⟨fs, none, []⟩ ?_ ?_ ?_ hno c t n s h
  · intro c t n s h
    unfold restoreCheckpoint at h
    rw [hfs] at h
    dsimp only at h
    split at h
    · split at h <;> cases h
    · cases h
  · intro m h; cases h
  · intro c t n s h; cases h

/-! ### Nothing is lost -/

/-- Some file of the run holds a complete configuration. -/
def Recoverable (load : List W → Option C) (fs : RunFiles W) : Prop :=
  ∃ l c, load l = some c ∧ (fs.config = some l ∨ fs.prev = some l)

theorem statusOps_files (junk : StatusLabel → ℤ) (n : ℤ) (a : Save C) (fs : RunFiles W) (i : ℕ) :
    (runOps ((statusOps junk n a).take i) fs).config = fs.config ∧
    (runOps ((statusOps junk n a).take i) fs).prev = fs.prev := by
  cases i with
  | zero => exact ⟨rfl, rfl⟩
  | succ i =>
    obtain ⟨s, h, _⟩ := statusOps_take junk n a fs i
    rw [h]
    exact ⟨rfl, rfl⟩

/-- The configuration files after any part of a call. -/
theorem checkpointOps_files (enc : C → List W) (junk : StatusLabel → ℤ) (fs : RunFiles W) (m : ℤ)
    (a : Save C) (k : ℕ) :
    (runOps ((checkpointOps enc junk fs m a).take k) fs).config =
      (runOps ((configOps enc fs a).take k) fs).config ∧
    (runOps ((checkpointOps enc junk fs m a).take k) fs).prev =
      (runOps ((configOps enc fs a).take k) fs).prev := by
  unfold checkpointOps
  rw [List.take_append, runOps_append]
  split
  · exact statusOps_files _ _ _ _ _
  · rw [List.take_nil]; exact ⟨rfl, rfl⟩

theorem crash_recoverable {enc : C → List W} {load : List W → Option C}
    (junk : StatusLabel → ℤ) (fs : RunFiles W) (m : ℤ) (a : Save C) (hold : a.saveOld = true) (k : ℕ)
    (hlive : fs.config = none ∨ ∃ l c, fs.config = some l ∧ load l = some c)
    (h : Recoverable load fs) :
    Recoverable load (runOps ((checkpointOps enc junk fs m a).take k) fs) := by
  obtain ⟨h1, h2⟩ := checkpointOps_files enc junk fs m a k
  unfold Recoverable
  rw [h1, h2]
  have hren : ∃ l c, load l = some c ∧ (afterRename fs a).prev = some l := by
    rcases hlive with hl | ⟨l, c, hl, hc⟩
    · obtain ⟨l, c, hc, hh | hh⟩ := h
      · rw [hl] at hh; cases hh
      · refine ⟨l, c, hc, ?_⟩
        unfold afterRename renames
        rw [hl]; simpa using hh
    · refine ⟨l, c, hc, ?_⟩
      unfold afterRename renames
      rw [hl, hold]; simpa [opRename] using hl
  rcases configOps_take enc fs a k with he | ⟨he, _⟩ | ⟨j, _, he⟩
  · rw [he]; exact h
  · rw [he]
    obtain ⟨l, c, hc, hp⟩ := hren
    exact ⟨l, c, hc, Or.inr hp⟩
  · rw [he]
    obtain ⟨l, c, hc, hp⟩ := hren
    exact ⟨l, c, hc, Or.inr hp⟩

/-- **C24 (nothing is lost).** With the default `save_old`, once a complete configuration is on disk,
there is one on disk after any further history, wherever crashes happen: in the configuration file or
in the `.prev` file. -/
theorem C24_never_lost {enc : C → List W} {load : List W → Option C} (hf : ConfigFormat enc load)
    (junk : StatusLabel → ℤ) (fs : RunFiles W) (es es' : List (RunEvent C))
    (hold : ∀ a, CalledWith (es ++ es') a → a.saveOld = true)
    (h : Recoverable load (runHistory enc load junk fs es).fs) :
    Recoverable load (runHistory enc load junk fs (es ++ es')).fs := by
  -- a live process has no configuration file or a readable one
  have live : ∀ (ev : List (RunEvent C)) (st : RunState C W),
      (∀ m, st.proc = some m → st.fs.config = none ∨ ∃ l c, st.fs.config = some l ∧ load l = some c) →
      ∀ m, (ev.foldl (runStep enc load junk) st).proc = some m →
        (ev.foldl (runStep enc load junk) st).fs.config = none ∨
        ∃ l c, (ev.foldl (runStep enc load junk) st).fs.config = some l ∧ load l = some c := by
    intro ev
    induction ev with
    | nil => intro st h; exact h
    | cons e ev ih =>
      intro st hst
      rw [List.foldl_cons]
      apply ih
      intro m h
      obtain ⟨fs, proc, log⟩ := st
      unfold runStep at h ⊢
      match e, proc, h with
      | .save a, some m0, h =>
        right
        refine ⟨enc a.cfg, a.cfg, ?_, hf.complete _⟩
        dsimp only
        have := (checkpointOps_files enc junk fs m0 a (checkpointOps enc junk fs m0 a).length).1
        rw [List.take_length] at this
        rw [this, List.take_of_length_le (by unfold checkpointOps; rw [List.length_append]; omega),
          configOps_all]
      | .crash k a, some _, h => cases h
      | .die, some _, h => cases h
      | .start m0, none, h =>
        dsimp only at h ⊢
        cases hc : fs.config with
        | none => left; rfl
        | some l =>
          right
          cases hl : load l with
          | some c => exact ⟨l, c, rfl, hl⟩
          | none =>
            exfalso
            have : restoreCheckpoint load fs = .terminated := by
              unfold restoreCheckpoint readConfig
              rw [hc]
              dsimp only [Option.bind]
              rw [hl]
              split <;> first | rfl | simp
            rw [this] at h
            cases h
      | .edit n, some m0, h => cases h; exact hst _ rfl
      | .edit n, none, h => cases h
      | .save _, none, h => cases h
      | .crash _ _, none, h => cases h
      | .die, none, h => cases h
      | .start _, some m0, h => exact hst _ h
  have keep : ∀ (ev : List (RunEvent C)), (∀ a, CalledWith ev a → a.saveOld = true) →
      ∀ st : RunState C W,
      (∀ m, st.proc = some m → st.fs.config = none ∨ ∃ l c, st.fs.config = some l ∧ load l = some c) →
      Recoverable load st.fs → Recoverable load (ev.foldl (runStep enc load junk) st).fs := by
    intro ev
    induction ev with
    | nil => intro _ st _ h; exact h
    | cons e ev ih =>
      intro ho st hst hr
      rw [List.foldl_cons]
      refine ih ?_ _ ?_ ?_
      · rintro a (h | ⟨k, h⟩)
        · exact ho a (Or.inl (List.mem_cons_of_mem _ h))
        · exact ho a (Or.inr ⟨k, List.mem_cons_of_mem _ h⟩)
      · exact live [e] st hst
      · obtain ⟨fs, proc, log⟩ := st
        unfold runStep
        match e, proc with
        | .save a, some m0 =>
          dsimp only
          have := crash_recoverable (enc := enc) junk fs m0 a (ho a (Or.inl List.mem_cons_self))
            (checkpointOps enc junk fs m0 a).length (hst m0 rfl) hr
          rw [List.take_length] at this
          exact this
        | .crash k a, some m0 =>
          exact crash_recoverable junk fs m0 a (ho a (Or.inr ⟨k, List.mem_cons_self⟩)) k (hst m0 rfl) hr
        | .die, some _ => exact hr
        | .start _, none => exact hr
        | .edit _, some _ => exact hr
        | .edit _, none => exact hr
        | .save _, none => exact hr
        | .crash _ _, none => exact hr
        | .die, none => exact hr
        | .start _, some _ => exact hr
  unfold runHistory at *
  rw [List.foldl_append]
  refine keep es' ?_ _ ?_ h
  · rintro a (h | ⟨k, h⟩)
    · exact hold a (Or.inl (List.mem_append_right _ h))
    · exact hold a (Or.inr ⟨k, List.mem_append_right _ h⟩)
  · exact live es ⟨fs, none, []⟩ (fun m h => by cases h)

/-! ### The property is false of the code -/

/-- A small format: the configuration followed by an end mark. -/
def toyEnc (c : ℕ) : List ℕ := [c, 1000]

/-- Reader of the small format. -/
def toyLoad : List ℕ → Option ℕ
  | [c, 1000] => some c
  | _ => none

theorem toyFormat : ConfigFormat toyEnc toyLoad where
  complete := fun _ => rfl
  cut := by
    intro c k hk
    have : (toyEnc c).length = 2 := rfl
    match k with
    | 0 => rfl
    | 1 => rfl
    | k + 2 => omega

/-- No files at all. -/
def noFiles : RunFiles ℕ := ⟨none, none, none⟩

/-- **C24 is false of the code.** Trajectory 1 is saved with configuration 7; the process dies during the
checkpoint of trajectory 2 with configuration 8, after the configuration file is complete and before the
status file is rewritten. The restart restores configuration 8 with the number of the first checkpoint, a
pair that was never saved. -/
theorem C24_mixed_state :
    (runHistory toyEnc toyLoad (fun _ => 0) noFiles
      [.start 100, .save ⟨7, 1, 5, 0, true⟩, .crash 4 ⟨8, 2, 6, 0, true⟩, .start 100]).log =
      [.restored 8 2 100 5, .nothing] := rfl

/-- Second disagreement: the process dies just after the renaming; the restart does not look at the
`.prev` file and terminates. -/
theorem C24_prev_not_used :
    (runHistory toyEnc toyLoad (fun _ => 0) noFiles
      [.start 100, .save ⟨7, 1, 5, 0, true⟩, .crash 1 ⟨8, 2, 6, 0, true⟩, .start 100]).log =
      [.terminated, .nothing] := rfl

/-- Third disagreement: with an initial configuration (no status file yet), a crash just after the
renaming makes the next run start from scratch without any message. -/
theorem C24_initial_configuration_ignored :
    (runHistory toyEnc toyLoad (fun _ => 0) ⟨some (toyEnc 3), none, none⟩
      [.start 100, .crash 1 ⟨8, 0, 6, 0, true⟩, .start 100]).log = [.nothing, .initial 3] := rfl

/-- Without `save_old` a crash during the writing loses everything. -/
theorem C24_lost_without_save_old :
    ¬ Recoverable toyLoad (runHistory toyEnc toyLoad (fun _ => 0) noFiles
      [.start 100, .save ⟨7, 1, 5, 0, false⟩, .crash 2 ⟨8, 2, 6, 0, false⟩]).fs := by
  rintro ⟨l, c, h1, h2⟩
  rcases h2 with h2 | h2
  · have h3 : some [8] = some l := h2
    cases h3
    cases h1
  · have h3 : none = some l := h2
    cases h3

/-- Hypotheses of the theorems: a history with two crashes outside the window, an edit of the number of
trajectories and restarts that restore. -/
example : NoCrashBetweenFiles toyEnc toyLoad (fun _ => 0) ⟨noFiles, none, []⟩
      [.start 100, .save ⟨7, 1, 5, 0, true⟩, .edit 50, .crash 0 ⟨8, 2, 6, 0, true⟩, .start 100,
        .crash 11 ⟨9, 2, 4, 0, true⟩, .start 100] ∧
    (runHistory toyEnc toyLoad (fun _ => 0) noFiles
      [.start 100, .save ⟨7, 1, 5, 0, true⟩, .edit 50, .crash 0 ⟨8, 2, 6, 0, true⟩, .start 100,
        .crash 11 ⟨9, 2, 4, 0, true⟩, .start 100]).log =
      [.restored 9 3 50 4, .restored 7 2 50 5, .nothing] := by
  refine ⟨?_, rfl⟩
  simp only [NoCrashBetweenFiles]
  decide

end Hila
