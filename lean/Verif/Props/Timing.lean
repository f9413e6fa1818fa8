import Verif.Model.TimingSpec
import Mathlib.Tactic.Linarith
import Mathlib.Tactic.Ring
import Mathlib.Tactic.NormNum
import Mathlib.Data.List.Nodup
import Mathlib.Data.Nat.Digits.Lemmas

/-!
# C96: time limits, the check of the remaining time, timers
-/

namespace Hila

/-! ### Strings -/

theorem timeDigits_eq (ds : List Char) : timeDigits ds = Nat.ofDigits 10 (ds.reverse.map fun c => c.toNat - 48) := by
  induction ds using List.reverseRecOn with
  | nil => rfl
  | append_singleton ds c ih =>
    unfold timeDigits at ih ⊢
    rw [List.foldl_append, ih]
    simp only [List.foldl_cons, List.foldl_nil, List.reverse_append, List.reverse_cons, List.reverse_nil, List.nil_append, List.singleton_append,
      List.map_cons, Nat.ofDigits_cons]
    have : '0'.toNat = 48 := rfl
    rw [this, add_comm]

theorem cDigit_iff (c : Char) : cDigit c = true ↔ c.isDigit = true := by
  unfold cDigit Char.isDigit
  rfl

theorem digit_not_space {c : Char} (h : c.isDigit = true) : cSpace c = false ∧ c ≠ '+' ∧ c ≠ '-' := by
  have h2 : 48 ≤ c.toNat ∧ c.toNat ≤ 57 := by
    unfold Char.isDigit at h
    simp only [ge_iff_le, Bool.and_eq_true, decide_eq_true_eq] at h
    exact ⟨h.1, h.2⟩
  refine ⟨?_, ?_, ?_⟩
  · unfold cSpace
    have h1 : (c == ' ') = false := by
      rw [beq_eq_false_iff_ne]
      rintro rfl
      have : ' '.toNat = 32 := rfl
      omega
    rw [h1]
    simp only [Bool.false_or, Bool.and_eq_false_iff, decide_eq_false_iff_not]
    right
    omega
  · rintro rfl
    have : '+'.toNat = 43 := rfl
    omega
  · rintro rfl
    have : '-'.toNat = 45 := rfl
    omega

/-- What does not begin with a digit. -/
def EndsNumber : List Char → Prop
  | [] => True
  | c :: _ => c.isDigit = false

theorem scanNum_number {ds : List Char} {v : ℕ} (h : IsNumber ds v) {r : List Char} (hr : EndsNumber r) : scanNum (ds ++ r) = some (false, v, r) := by
  obtain ⟨hne, hd, hv, -⟩ := h
  have ht : (ds ++ r).takeWhile cDigit = ds := by
    rw [List.takeWhile_append_of_pos fun c hc => (cDigit_iff c).2 (hd c hc)]
    cases r with
    | nil => simp
    | cons c r =>
      have : cDigit c = false := by rw [Bool.eq_false_iff]; intro hc; rw [cDigit_iff] at hc; rw [hr] at hc; cases hc
      simp [this]
  have hd' : (ds ++ r).dropWhile cDigit = r := by
    rw [List.dropWhile_append_of_pos fun c hc => (cDigit_iff c).2 (hd c hc)]
    cases r with
    | nil => rfl
    | cons c r =>
      have : cDigit c = false := by rw [Bool.eq_false_iff]; intro hc; rw [cDigit_iff] at hc; rw [hr] at hc; cases hc
      simp [this]
  have hs : scanDigits false (ds ++ r) = some (false, v, r) := by
    unfold scanDigits
    rw [ht, hd', if_neg hne, timeDigits_eq, ← hv]
  cases ds with
  | nil => exact absurd rfl hne
  | cons c ds =>
    obtain ⟨h1, h2, h3⟩ := digit_not_space (hd c List.mem_cons_self)
    unfold scanNum
    rw [List.cons_append, List.dropWhile_cons_of_neg (by simp [h1])]
    rw [List.cons_append] at hs
    split
    · next heq => exact absurd (List.cons.inj heq).1 h2
    · next heq => exact absurd (List.cons.inj heq).1 h3
    · exact hs

theorem sscanf_u {ds : List Char} {v : ℕ} (h : IsNumber ds v) {r : List Char} (hr : EndsNumber r) (f : List ScanItem) :
    sscanf (.u :: f) (ds ++ r) = (v :: (sscanf f r).1, (sscanf f r).2) := by
  rw [sscanf, scanNum_number h hr]
  simp only [if_neg (not_le.2 h.2.2.2)]
  rfl

theorem sscanf_end {ds : List Char} {v : ℕ} (h : IsNumber ds v) (f : List ScanItem) :
    sscanf (.u :: f) ds = (v :: (sscanf f []).1, (sscanf f []).2) := by
  have := sscanf_u h (r := []) trivial f
  rwa [List.append_nil] at this

theorem sscanf_nil (s : List Char) : sscanf [] s = ([], false) := by rw [sscanf]

theorem sscanf_lit_nil (c : Char) (f : List ScanItem) : sscanf (.lit c :: f) [] = ([], false) := by rw [sscanf]

theorem sscanf_lit_eq (c : Char) (f : List ScanItem) (r : List Char) : sscanf (.lit c :: f) (c :: r) = sscanf f r := by
  rw [sscanf]
  simp

theorem sscanf_lit_ne {c x : Char} (h : x ≠ c) (f : List ScanItem) (r : List Char) : sscanf (.lit c :: f) (x :: r) = ([], false) := by
  rw [sscanf]
  simp [h]

theorem endsColon (r : List Char) : EndsNumber (':' :: r) := rfl

theorem endsDash (r : List Char) : EndsNumber ('-' :: r) := rfl

/-! ### The time limit -/

/-- **C96 (time limit).** The four formats of the manual are understood: `s`, `m:s`, `h:m:s`, `d-h:m:s`, with any number of leading zeros and without restriction to natural ranges. -/
theorem C96_timelimit (slurm : SlurmAnswer) (d h m s : List Char) (vd vh vm vs : ℕ) (hd : IsNumber d vd) (hh : IsNumber h vh) (hm : IsNumber m vm) (hs : IsNumber s vs) :
    setupLimit slurm s = .secs vs ∧
    setupLimit slurm (m ++ ':' :: s) = .secs (vs + 60 * vm) ∧
    setupLimit slurm (h ++ ':' :: (m ++ ':' :: s)) = .secs (vs + 60 * vm + 3600 * vh) ∧
    setupLimit slurm (d ++ '-' :: (h ++ ':' :: (m ++ ':' :: s))) = .secs (vs + 60 * vm + 3600 * vh + 86400 * vd) := by
  have hsl : ∀ {a : List Char} {v : ℕ} (r : List Char), IsNumber a v → a ++ r ≠ "slurm".toList := by
    rintro a v r ⟨hne, hd, -⟩ he
    cases a with
    | nil => exact hne rfl
    | cons c a =>
      have : c = 's' := (List.cons.inj he).1
      have h1 := hd c List.mem_cons_self
      rw [this] at h1
      exact absurd h1 (by decide)
  have hsl0 : s ≠ "slurm".toList := by have := hsl [] hs; rwa [List.append_nil] at this
  unfold setupLimit
  rw [if_neg hsl0, if_neg (hsl _ hm), if_neg (hsl _ hh), if_neg (hsl _ hd)]
  unfold parseLimit timeFormats
  refine ⟨?_, ?_, ?_, ?_⟩
  · simp [timeChain, sscanf_end hs, sscanf_nil, sscanf_lit_nil, sscanf_lit_eq, sscanf_lit_ne (show ':' ≠ '-' by decide), sscanf_lit_ne (show '-' ≠ ':' by decide),
      TimeVars.assign, TimeVars.set, timeSecs]
  · simp [timeChain, sscanf_u hm (endsColon s), sscanf_end hs, sscanf_nil, sscanf_lit_nil, sscanf_lit_eq, sscanf_lit_ne (show ':' ≠ '-' by decide), sscanf_lit_ne (show '-' ≠ ':' by decide),
      TimeVars.assign, TimeVars.set, timeSecs]
  · simp [timeChain, sscanf_u hh (endsColon _), sscanf_u hm (endsColon s), sscanf_end hs, sscanf_nil, sscanf_lit_nil, sscanf_lit_eq, sscanf_lit_ne (show ':' ≠ '-' by decide), sscanf_lit_ne (show '-' ≠ ':' by decide),
      TimeVars.assign, TimeVars.set, timeSecs]
    ring
  · simp [timeChain, sscanf_u hd (endsDash _), sscanf_u hh (endsColon _), sscanf_u hm (endsColon s), sscanf_end hs, sscanf_nil, sscanf_lit_nil, sscanf_lit_eq, sscanf_lit_ne (show ':' ≠ '-' by decide), sscanf_lit_ne (show '-' ≠ ':' by decide),
      TimeVars.assign, TimeVars.set, timeSecs]
    ring

/-- **C96 (other strings, negation).** Strings of other forms are not refused: days with hours, or days with hours and minutes, are taken for as many seconds as there are days, and
whatever follows a number of seconds is ignored. -/
theorem C96_timelimit_wrong (d h m : List Char) (vd vh vm : ℕ) (hd : IsNumber d vd) (hh : IsNumber h vh) (hm : IsNumber m vm) (r : List Char) (hr : ∀ c r', r = c :: r' → c ≠ ':' ∧ c ≠ '-' ∧ c.isDigit = false) :
    parseLimit (d ++ '-' :: h) = .secs vd ∧ parseLimit (d ++ '-' :: (h ++ ':' :: m)) = .secs vd ∧ parseLimit (d ++ r) = .secs vd := by
  unfold parseLimit timeFormats
  refine ⟨?_, ?_, ?_⟩
  · simp [timeChain, sscanf_u hd (endsDash _), sscanf_end hh, sscanf_nil, sscanf_lit_nil, sscanf_lit_eq, sscanf_lit_ne (show ':' ≠ '-' by decide), sscanf_lit_ne (show '-' ≠ ':' by decide),
      TimeVars.assign, TimeVars.set, timeSecs]
  · simp [timeChain, sscanf_u hd (endsDash _), sscanf_u hh (endsColon _), sscanf_end hm, sscanf_nil, sscanf_lit_nil, sscanf_lit_eq, sscanf_lit_ne (show ':' ≠ '-' by decide), sscanf_lit_ne (show '-' ≠ ':' by decide),
      TimeVars.assign, TimeVars.set, timeSecs]
  · have he : EndsNumber r := by
      cases r with
      | nil => trivial
      | cons c r => exact (hr c r rfl).2.2
    have h1 : ∀ f, sscanf (.lit '-' :: f) r = ([], false) := by
      intro f
      cases r with
      | nil => exact sscanf_lit_nil _ _
      | cons c r => exact sscanf_lit_ne (hr c r rfl).2.1 _ _
    have h2 : ∀ f, sscanf (.lit ':' :: f) r = ([], false) := by
      intro f
      cases r with
      | nil => exact sscanf_lit_nil _ _
      | cons c r => exact sscanf_lit_ne (hr c r rfl).1 _ _
    simp [timeChain, sscanf_u hd he, h1, h2, sscanf_nil, sscanf_lit_nil, sscanf_lit_eq, sscanf_lit_ne (show ':' ≠ '-' by decide), sscanf_lit_ne (show '-' ≠ ':' by decide),
      TimeVars.assign, TimeVars.set, timeSecs]

theorem take_digits {ds : List Char} (hd : ∀ c ∈ ds, c.isDigit = true) : ds.takeWhile cDigit = ds ∧ ds.dropWhile cDigit = [] := by
  have h1 := List.takeWhile_append_of_pos (l₂ := []) fun c hc => (cDigit_iff c).2 (hd c hc)
  have h2 := List.dropWhile_append_of_pos (l₂ := []) fun c hc => (cDigit_iff c).2 (hd c hc)
  simpa using And.intro h1 h2

theorem scanDigits_number {ds : List Char} {v : ℕ} (h : IsNumber ds v) (neg : Bool) : scanDigits neg ds = some (neg, v, []) := by
  obtain ⟨hne, hd, hv, -⟩ := h
  obtain ⟨ht, hd'⟩ := take_digits hd
  unfold scanDigits
  rw [ht, hd', if_neg hne, timeDigits_eq, ← hv]

/-- **C96 (signs).** A plus sign changes nothing. A minus sign is not refused: the limit becomes `2^32 - v` seconds, about 136 years. -/
theorem C96_timelimit_signs (ds : List Char) (v : ℕ) (h : IsNumber ds v) :
    parseLimit ('+' :: ds) = .secs v ∧ parseLimit ('-' :: ds) = .secs ((2 ^ 32 - v) % 2 ^ 32) := by
  have hp : ∀ f, sscanf (.u :: f) ('+' :: ds) = (v :: (sscanf f []).1, (sscanf f []).2) := by
    intro f
    have : scanNum ('+' :: ds) = some (false, v, []) := scanDigits_number h false
    rw [sscanf, this]
    simp only [if_neg (not_le.2 h.2.2.2)]
    rfl
  have hm : ∀ f, sscanf (.u :: f) ('-' :: ds) = (((2 ^ 32 - v) % 2 ^ 32) :: (sscanf f []).1, (sscanf f []).2) := by
    intro f
    have : scanNum ('-' :: ds) = some (true, v, []) := scanDigits_number h true
    rw [sscanf, this]
    simp only [if_neg (not_le.2 h.2.2.2)]
    rfl
  unfold parseLimit timeFormats
  constructor
  · simp [timeChain, hp, sscanf_nil, sscanf_lit_nil, TimeVars.assign, TimeVars.set, timeSecs]
  · simp [timeChain, hm, sscanf_nil, sscanf_lit_nil, TimeVars.assign, TimeVars.set, timeSecs]

/-- **C96 (large numbers, negation).** A number that does not fit into 32 bits is undefined behaviour. -/
theorem C96_timelimit_overflow (ds : List Char) (hne : ds ≠ []) (hd : ∀ c ∈ ds, c.isDigit = true)
    (hv : 2 ^ 32 ≤ Nat.ofDigits 10 (ds.reverse.map fun c => c.toNat - 48)) : parseLimit ds = .undefined := by
  obtain ⟨ht, -⟩ := take_digits hd
  have hs : ∃ r, scanDigits false ds = some (false, Nat.ofDigits 10 (ds.reverse.map fun c => c.toNat - 48), r) := by
    unfold scanDigits
    rw [ht, if_neg hne, timeDigits_eq]
    exact ⟨_, rfl⟩
  obtain ⟨r, hs⟩ := hs
  have hn : scanNum ds = scanDigits false ds := by
    cases ds with
    | nil => exact absurd rfl hne
    | cons c ds =>
      obtain ⟨h1, h2, h3⟩ := digit_not_space (hd c List.mem_cons_self)
      unfold scanNum
      rw [List.dropWhile_cons_of_neg (by simp [h1])]
      split
      · next heq => exact absurd (List.cons.inj heq).1 h2
      · next heq => exact absurd (List.cons.inj heq).1 h3
      · rfl
  have hu : ∀ f, (sscanf (.u :: f) ds).2 = true := by
    intro f
    rw [sscanf, hn, hs]
    simp only [if_pos hv]
  unfold parseLimit timeFormats
  rw [timeChain, if_pos (hu _)]

/-- **C96 (refused strings).** A string without a number at its beginning is refused, and so is an empty answer of slurm. -/
theorem C96_timelimit_refused (str : List Char) (hne : str ≠ "slurm".toList) (slurm : SlurmAnswer)
    (h : ∀ c r, str.dropWhile cSpace = c :: r → c.isDigit = false ∧ c ≠ '+' ∧ c ≠ '-') :
    setupLimit slurm str = .invalid ∧ setupLimit .noOutput "slurm".toList = .invalid := by
  refine ⟨?_, rfl⟩
  have hn : scanNum str = none := by
    unfold scanNum
    generalize str.dropWhile cSpace = t at h
    cases t with
    | nil => rfl
    | cons c r =>
      obtain ⟨h1, h2, h3⟩ := h c r rfl
      split
      · next heq => exact absurd (List.cons.inj heq).1 h2
      · next heq => exact absurd (List.cons.inj heq).1 h3
      · have : cDigit c = false := by rw [Bool.eq_false_iff]; intro hc; rw [cDigit_iff] at hc; rw [h1] at hc; cases hc
        unfold scanDigits
        rw [if_pos (by simp [this])]
  have hu : ∀ f, sscanf (.u :: f) str = ([], false) := by
    intro f
    rw [sscanf, hn]
  unfold setupLimit
  rw [if_neg hne]
  unfold parseLimit timeFormats
  simp [timeChain, hu]

/-- Minus one second is refused by nobody, five thousand million seconds are undefined, a word is refused. -/
example : parseLimit "-1".toList = .secs 4294967295 ∧ parseLimit "5000000000".toList = .undefined ∧ parseLimit " abc".toList = .invalid := by
  refine ⟨?_, ?_, ?_⟩ <;> rfl

/-- **C96 (slurm).** If the process of `squeue` cannot be made, `pclose` is called with a null pointer. -/
theorem C96_slurm_undefined : setupLimit .noProcess "slurm".toList = .undefined := rfl

/-- Two days and three hours become two seconds. -/
example : parseLimit "2-03".toList = .secs 2 ∧ parseLimit "2-03:00:00".toList = .secs 183600 ∧ parseLimit "90:00".toList = .secs 5400 := by
  refine ⟨?_, ?_, ?_⟩ <;> rfl

/-! ### The remaining time -/

theorem foldl_max_le (l : List ℝ) (a b : ℝ) : l.foldl max a ≤ b ↔ a ≤ b ∧ ∀ x ∈ l, x ≤ b := by
  induction l generalizing a with
  | nil => simp
  | cons x l ih => rw [List.foldl_cons, ih]; simp [and_assoc]

/-- The longest gap after a check at the time `p`, when it was `m` before. -/
noncomputable def gapFrom (p m : ℝ) (ts : List ℝ) : ℝ := (List.zipWith (fun t q => t - q) ts (p :: ts)).foldl max m

theorem finishCalls_getLast (limit : ℝ) (hl : limit ≠ 0) (ts : List ℝ) : ∀ (t : ℝ) (v : FinishVars),
    (finishCalls limit (ts ++ [t]) v).getLast? = some (decide (limit - t < gapFrom v.previous v.maxInterval (ts ++ [t]) + 120)) := by
  have step : ∀ (t : ℝ) (v : FinishVars), timeToFinish limit false t v =
      (decide (limit - t < max v.maxInterval (t - v.previous) + 120), ⟨max v.maxInterval (t - v.previous), t⟩) := by
    intro t v
    unfold timeToFinish
    have e : (if t - v.previous > v.maxInterval then t - v.previous else v.maxInterval) = max v.maxInterval (t - v.previous) := by
      rw [max_def]
      split <;> split <;> linarith
    have e2 : (2 * 60 : ℝ) = 120 := by norm_num
    simp [hl, e, e2]
  induction ts with
  | nil =>
    intro t v
    simp only [finishCalls, step, gapFrom, List.nil_append, List.getLast?_singleton, List.zipWith_cons_cons, List.zipWith_nil_left, List.foldl_cons, List.foldl_nil]
    congr 1
  | cons a ts ih =>
    intro t v
    rw [List.cons_append, finishCalls]
    have hne : finishCalls limit (ts ++ [t]) (timeToFinish limit false a v).2 ≠ [] := by
      cases ts <;> simp [finishCalls]
    rw [List.getLast?_cons_of_ne_nil hne, ih]
    simp only [step]
    unfold gapFrom
    rw [List.zipWith_cons_cons, List.foldl_cons]

/-- The answer of the last of a sequence of checks. -/
theorem finishCalls_last (limit : ℝ) (hl : limit ≠ 0) (ts : List ℝ) (t : ℝ) :
    (finishCalls limit (ts ++ [t]) .start).getLast? = some (decide (limit - t < longestGap (ts ++ [t]) + 120)) :=
  finishCalls_getLast limit hl ts t .start

theorem gap_snoc (l : List ℝ) (p t t' : ℝ) (m : ℝ) : gapFrom p m (l ++ [t] ++ [t']) = max (gapFrom p m (l ++ [t])) (t' - t) := by
  induction l generalizing p m with
  | nil => simp [gapFrom]
  | cons a l ih =>
    unfold gapFrom at ih ⊢
    simp only [List.cons_append, List.zipWith_cons_cons, List.foldl_cons]
    exact ih a (max m (a - p))

/-- **C96 (time to finish).** With a time limit, if the check does not ask to finish, a round that takes at most two minutes more than the longest one so far ends before the limit. Once the
check has asked to finish, it asks again at all later times. It does not ask earlier than two minutes and the longest round before the limit. -/
theorem C96_time_to_finish (limit : ℝ) (hl : limit ≠ 0) (ts : List ℝ) (t : ℝ) :
    ((finishCalls limit (ts ++ [t]) .start).getLast? = some false → ∀ dt, dt ≤ longestGap (ts ++ [t]) + 120 → t + dt ≤ limit) ∧
    ((finishCalls limit (ts ++ [t]) .start).getLast? = some true → ∀ t', t ≤ t' → (finishCalls limit (ts ++ [t] ++ [t']) .start).getLast? = some true) ∧
    ((finishCalls limit (ts ++ [t]) .start).getLast? = some true ↔ limit - t < longestGap (ts ++ [t]) + 120) := by
  rw [finishCalls_last limit hl]
  refine ⟨?_, ?_, ?_⟩
  · intro h dt hdt
    simp only [Option.some.injEq, decide_eq_false_iff_not, not_lt] at h
    linarith
  · intro h t' ht
    rw [finishCalls_last limit hl]
    simp only [Option.some.injEq, decide_eq_true_eq] at h ⊢
    have hg : longestGap (ts ++ [t] ++ [t']) = max (longestGap (ts ++ [t])) (t' - t) := gap_snoc ts 0 t t' 0
    rw [hg]
    have := le_max_left (longestGap (ts ++ [t])) (t' - t)
    linarith
  · simp

/-- **C96 (signal).** After a signal the check asks to finish. -/
theorem C96_signal (limit now : ℝ) (v : FinishVars) : (timeToFinish limit true now v).1 = true := by
  simp [timeToFinish]

/-- **C96 (limit of zero, negation).** A limit of zero seconds, as `squeue` gives at the end of a job, is no limit: the check never asks to finish. -/
theorem C96_zero_limit_wrong (ts : List ℝ) : parseLimit "0:00".toList = .secs 0 ∧ ∀ b ∈ finishCalls 0 ts .start, b = false := by
  refine ⟨rfl, ?_⟩
  have : ∀ (ts : List ℝ) (v : FinishVars), ∀ b ∈ finishCalls 0 ts v, b = false := by
    intro ts
    induction ts with
    | nil => intro v b hb; cases hb
    | cons t ts ih =>
      intro v b hb
      have e : timeToFinish 0 false t v = (false, v) := by simp [timeToFinish]
      rw [finishCalls, e] at hb
      rcases List.mem_cons.1 hb with rfl | hb
      · rfl
      · exact ih _ _ hb
  exact this ts .start

/-- Checks every hundred seconds with a limit of 500 seconds: the third one asks to finish. -/
example : finishCalls 500 [100, 200, 300] .start = [false, false, true] := by
  norm_num [finishCalls, timeToFinish, FinishVars.start]

/-! ### Timers -/

/-- What a timer and its place in the list have to do with its phase. -/
def PhaseGood (w : TimerWorld) (i : ℕ) : TimerPhase → Prop
  | .absent => w.tm i = none ∧ i ∉ w.list
  | .unused => (∃ s, w.tm i = some s ∧ s.count = 0) ∧ i ∉ w.list
  | .running => (∃ s, w.tm i = some s) ∧ i ∈ w.list
  | .stopped => (∃ s, w.tm i = some s ∧ 0 < s.count) ∧ i ∈ w.list

def TimersGood (w : TimerWorld) (ph : ℕ → TimerPhase) : Prop := w.list.Nodup ∧ ∀ i, PhaseGood w i (ph i)

theorem phaseGood_congr {w w' : TimerWorld} {i : ℕ} (h1 : w'.tm i = w.tm i) (h2 : i ∈ w'.list ↔ i ∈ w.list) {p : TimerPhase} (h : PhaseGood w i p) :
    PhaseGood w' i p := by
  cases p <;> simp only [PhaseGood, h1, h2] at h ⊢ <;> exact h

/-- Only timer `i` and its phase change. -/
theorem timersGood_at {w w' : TimerWorld} {ph : ℕ → TimerPhase} (h : TimersGood w ph) (i : ℕ) (p : TimerPhase) (hn : w'.list.Nodup)
    (h1 : ∀ j, j ≠ i → w'.tm j = w.tm j) (h2 : ∀ j, j ≠ i → (j ∈ w'.list ↔ j ∈ w.list)) (hi : PhaseGood w' i p) : TimersGood w' (Function.update ph i p) := by
  refine ⟨hn, fun j => ?_⟩
  by_cases hj : j = i
  · subst hj
    rw [Function.update_self]
    exact hi
  · rw [Function.update_of_ne hj]
    exact phaseGood_congr (h1 j hj) (h2 j hj) (h.2 j)

theorem timer_step_good {w : TimerWorld} {ph ph' : ℕ → TimerPhase} (h : TimersGood w ph) (op : TimerOp) (hp : phaseStep ph op = some ph') :
    ∃ w', w.step op = some w' ∧ TimersGood w' ph' := by
  cases op with
  | make i =>
    have hi := h.2 i
    simp only [phaseStep] at hp
    cases e : ph i <;> rw [e] at hp hi <;> simp at hp
    subst hp
    obtain ⟨ht, hl⟩ := hi
    refine ⟨⟨Function.update w.tm i (some .zero), w.list⟩, by simp only [TimerWorld.step]; rw [ht]; rfl,
      timersGood_at h i _ h.1 (fun j hj => Function.update_of_ne hj _ _) (fun j _ => Iff.rfl) ?_⟩
    exact ⟨⟨_, Function.update_self _ _ _, rfl⟩, hl⟩
  | start i t =>
    have hi := h.2 i
    simp only [phaseStep] at hp
    cases e : ph i <;> rw [e] at hp hi <;> simp at hp
    · subst hp
      obtain ⟨⟨s, ht, hc⟩, hl⟩ := hi
      refine ⟨_, by simp only [TimerWorld.step]; rw [ht]; rfl, timersGood_at h i _ ?_ (fun j hj => Function.update_of_ne hj _ _) (fun j hj => ?_) ?_⟩
      · simp only [hc, if_true]
        exact List.nodup_append.2 ⟨h.1, List.nodup_singleton i, fun a ha b hb => by
          rw [List.mem_singleton] at hb; subst hb; rintro rfl; exact hl ha⟩
      · simp [hc, hj]
      · exact ⟨⟨_, Function.update_self _ _ _⟩, by simp [hc]⟩
    · subst hp
      obtain ⟨⟨s, ht, hc⟩, hl⟩ := hi
      refine ⟨_, by simp only [TimerWorld.step]; rw [ht]; rfl, timersGood_at h i _ ?_ (fun j hj => Function.update_of_ne hj _ _) (fun j hj => ?_) ?_⟩
      · simp only [hc.ne', if_false]
        exact h.1
      · simp [hc.ne']
      · exact ⟨⟨_, Function.update_self _ _ _⟩, by simp only [hc.ne', if_false]; exact hl⟩
  | stop i t =>
    have hi := h.2 i
    simp only [phaseStep] at hp
    cases e : ph i <;> rw [e] at hp hi <;> simp at hp
    subst hp
    obtain ⟨⟨s, ht⟩, hl⟩ := hi
    refine ⟨⟨Function.update w.tm i (some (s.stop t)), w.list⟩, by simp only [TimerWorld.step]; rw [ht]; rfl,
      timersGood_at h i _ h.1 (fun j hj => Function.update_of_ne hj _ _) (fun j _ => Iff.rfl) ?_⟩
    exact ⟨⟨_, Function.update_self _ _ _, Nat.succ_pos _⟩, hl⟩
  | reset i =>
    have hi := h.2 i
    simp only [phaseStep] at hp
    cases e : ph i <;> rw [e] at hp hi <;> simp at hp
    subst hp
    obtain ⟨⟨s, ht, hc⟩, hl⟩ := hi
    have := timersGood_at (w' := ⟨Function.update w.tm i (some .zero), w.list⟩) h i .unused h.1 (fun j hj => Function.update_of_ne hj _ _)
      (fun j _ => Iff.rfl) ⟨⟨_, Function.update_self _ _ _, rfl⟩, hl⟩
    refine ⟨_, by simp only [TimerWorld.step]; rw [ht]; rfl, ?_⟩
    rwa [← e, Function.update_eq_self] at this
  | destroy i =>
    have hi := h.2 i
    have hsome : ∀ {p}, PhaseGood w i p → p ≠ .absent → ∃ s, w.tm i = some s := by
      intro p hp hne
      cases p with
      | absent => exact absurd rfl hne
      | unused => exact ⟨_, hp.1.choose_spec.1⟩
      | running => exact hp.1
      | stopped => exact ⟨_, hp.1.choose_spec.1⟩
    have hp' : ph i ≠ .absent ∧ ph' = Function.update ph i .absent := by
      simp only [phaseStep] at hp
      cases e : ph i <;> rw [e] at hp <;> simp at hp <;> simp [hp]
    obtain ⟨hne, rfl⟩ := hp'
    obtain ⟨s, ht⟩ := hsome hi hne
    refine ⟨_, by simp only [TimerWorld.step]; rw [ht]; rfl, timersGood_at h i _ (h.1.erase i) (fun j hj => Function.update_of_ne hj _ _)
      (fun j hj => List.mem_erase_of_ne hj) ?_⟩
    exact ⟨Function.update_self _ _ _, fun hm => (List.Nodup.mem_erase_iff h.1).1 hm |>.1 rfl⟩

theorem timer_run_good (ops : List TimerOp) : ∀ {w : TimerWorld} {ph ph' : ℕ → TimerPhase}, TimersGood w ph → ops.foldlM phaseStep ph = some ph' →
    ∃ w', ops.foldlM TimerWorld.step w = some w' ∧ TimersGood w' ph' := by
  induction ops with
  | nil =>
    intro w ph ph' h hp
    cases hp
    exact ⟨w, rfl, h⟩
  | cons op ops ih =>
    intro w ph ph' h hp
    rw [List.foldlM_cons] at hp
    cases e : phaseStep ph op with
    | none => rw [e] at hp; cases hp
    | some ph1 =>
      rw [e] at hp
      obtain ⟨w1, h1, h2⟩ := timer_step_good h op e
      obtain ⟨w2, h3, h4⟩ := ih h2 hp
      exact ⟨w2, by rw [List.foldlM_cons, h1]; exact h3, h4⟩

theorem timersGood_start : TimersGood ⟨fun _ => none, []⟩ fun _ => .absent := ⟨List.nodup_nil, fun _ => ⟨rfl, List.not_mem_nil⟩⟩

/-- The timer that a line is about. -/
def TimerLine.timer : TimerLine → ℕ
  | .value i _ _ => i
  | .unbalanced i => i

theorem report_timer (i : ℕ) (s : TimerVars) : ∀ l ∈ s.report i, l.timer = i := by
  intro l hl
  unfold TimerVars.report at hl
  split at hl
  · rw [List.mem_singleton] at hl; subst hl; rfl
  · split at hl
    · rw [List.mem_singleton] at hl; subst hl; rfl
    · cases hl

theorem report_lines (w : TimerWorld) (l : List ℕ) (hl : ∀ i ∈ l, ∃ s, w.tm i = some s) :
    ∃ lines, l.mapM (fun i => (w.tm i).map (TimerVars.report i)) = some lines ∧
      ∀ i s, w.tm i = some s → l.Nodup → lines.flatten.filter (fun x => x.timer = i) = if i ∈ l then s.report i else [] := by
  induction l with
  | nil => exact ⟨[], rfl, by simp⟩
  | cons j l ih =>
    obtain ⟨lines, h1, h2⟩ := ih fun i hi => hl i (List.mem_cons_of_mem _ hi)
    obtain ⟨sj, hj⟩ := hl j List.mem_cons_self
    refine ⟨sj.report j :: lines, by rw [List.mapM_cons, h1, hj]; rfl, ?_⟩
    intro i s hi hn
    rw [List.flatten_cons, List.filter_append, h2 i s hi (List.nodup_cons.1 hn).2]
    by_cases hij : i = j
    · subst hij
      rw [hj] at hi
      cases hi
      rw [if_neg (List.nodup_cons.1 hn).1, if_pos List.mem_cons_self, List.append_nil, List.filter_eq_self]
      intro x hx
      simpa using report_timer _ _ x hx
    · have : (sj.report j).filter (fun x => x.timer = i) = [] := by
        rw [List.filter_eq_nil_iff]
        intro x hx
        rw [report_timer _ _ x hx]
        simpa using fun h => hij h.symm
      rw [this, List.nil_append]
      simp [hij]

/-- **C96 (timers).** As long as every timer is started and stopped alternately and is not reset after its first start, nothing undefined happens for any number of timers made and destroyed at any time, and the
report at the end is about the living timers that have been started, each once. -/
theorem C96_timers_partial (ops : List TimerOp) (ph : ℕ → TimerPhase) (h : phaseRun ops = some ph) :
    ∃ w lines, timerRun ops = some w ∧ w.report = some lines ∧ w.list.Nodup ∧ (∀ i, i ∈ w.list ↔ ph i = .running ∨ ph i = .stopped) := by
  obtain ⟨w, h1, h2⟩ := timer_run_good ops timersGood_start h
  have hm : ∀ i, i ∈ w.list ↔ ph i = .running ∨ ph i = .stopped := by
    intro i
    have hi := h2.2 i
    cases e : ph i <;> rw [e] at hi <;> simp [hi.2]
  have hl : ∀ i ∈ w.list, ∃ s, w.tm i = some s := by
    intro i hi
    have hg := h2.2 i
    rcases (hm i).1 hi with e | e <;> rw [e] at hg
    · exact hg.1
    · exact ⟨_, hg.1.choose_spec.1⟩
  obtain ⟨lines, h3, -⟩ := report_lines w w.list hl
  exact ⟨w, lines.flatten, h1, by unfold TimerWorld.report; rw [h3]; rfl, h2.1, hm⟩

/-- The effect of an operation on its own timer. -/
noncomputable def timerLocal (o : Option TimerVars) : TimerOp → Option TimerVars
  | .make _ => some .zero
  | .start _ t => o.map (·.start t)
  | .stop _ t => o.map (·.stop t)
  | .reset _ => o.map fun _ => .zero
  | .destroy _ => none

theorem step_local {w w' : TimerWorld} {op : TimerOp} (h : w.step op = some w') (i : ℕ) :
    w'.tm i = if op.timer = i then timerLocal (w.tm i) op else w.tm i := by
  have up : ∀ (j : ℕ) (o : Option TimerVars), Function.update w.tm j o i = if j = i then o else w.tm i := by
    intro j o
    by_cases hj : j = i
    · subst hj; simp
    · simp [hj, Function.update_of_ne (Ne.symm hj)]
  cases op with
  | make j =>
    simp only [TimerWorld.step] at h
    split at h
    · cases h
    · cases h; exact up _ _
  | start j t =>
    simp only [TimerWorld.step, Option.map_eq_some_iff] at h
    obtain ⟨s, hs, rfl⟩ := h
    refine (up _ _).trans ?_
    by_cases hj : j = i
    · subst hj; simp [TimerOp.timer, timerLocal, hs]
    · simp [TimerOp.timer, hj]
  | stop j t =>
    simp only [TimerWorld.step, Option.map_eq_some_iff] at h
    obtain ⟨s, hs, rfl⟩ := h
    refine (up _ _).trans ?_
    by_cases hj : j = i
    · subst hj; simp [TimerOp.timer, timerLocal, hs]
    · simp [TimerOp.timer, hj]
  | reset j =>
    simp only [TimerWorld.step, Option.map_eq_some_iff] at h
    obtain ⟨s, hs, rfl⟩ := h
    refine (up _ _).trans ?_
    by_cases hj : j = i
    · subst hj; simp [TimerOp.timer, timerLocal, hs]
    · simp [TimerOp.timer, hj]
  | destroy j =>
    simp only [TimerWorld.step, Option.map_eq_some_iff] at h
    obtain ⟨s, hs, rfl⟩ := h
    refine (up _ _).trans ?_
    by_cases hj : j = i
    · subst hj; simp [TimerOp.timer, timerLocal]
    · simp [TimerOp.timer, hj]

theorem run_local (ops : List TimerOp) (i : ℕ) : ∀ {w w' : TimerWorld}, ops.foldlM TimerWorld.step w = some w' →
    w'.tm i = (ops.filter fun op => op.timer = i).foldl timerLocal (w.tm i) := by
  induction ops with
  | nil => intro w w' h; cases h; rfl
  | cons op ops ih =>
    intro w w' h
    rw [List.foldlM_cons] at h
    cases e : w.step op with
    | none => rw [e] at h; cases h
    | some w1 =>
      rw [e] at h
      rw [ih h, step_local e i]
      by_cases hi : op.timer = i
      · simp [hi]
      · simp [hi]

theorem timedAt_local (i : ℕ) (ivs : List (ℝ × ℝ)) : ∀ (s : TimerVars), s.isOn = false → s.isError = false →
    ∃ s', (timedAt i ivs).foldl timerLocal (some s) = some s' ∧ s'.isError = false ∧ s'.count = s.count + ivs.length ∧
      s'.tTotal = s.tTotal + (ivs.map fun v => v.2 - v.1).sum := by
  induction ivs with
  | nil => intro s _ h; exact ⟨s, rfl, h, by simp, by simp⟩
  | cons v ivs ih =>
    intro s h1 h2
    obtain ⟨s', e1, e2, e3, e4⟩ := ih ((s.start v.1).stop v.2) rfl (by simp [TimerVars.start, TimerVars.stop, h1, h2])
    refine ⟨s', ?_, e2, ?_, ?_⟩
    · rw [timedAt, List.flatMap_cons]
      exact e1
    · rw [e3]; simp [TimerVars.start, TimerVars.stop]; omega
    · rw [e4]; simp [TimerVars.start, TimerVars.stop]; ring

/-- **C96 (values).** A timer that is made and then used for some intervals is reported once, with the sum and the number of its intervals, whatever happens to the other timers in between;
if it is not used, it is not reported. -/
theorem C96_timer_value (ops : List TimerOp) (ph : ℕ → TimerPhase) (h : phaseRun ops = some ph) (i : ℕ) (ivs : List (ℝ × ℝ))
    (hi : ops.filter (fun op => op.timer = i) = .make i :: timedAt i ivs) :
    ∃ w lines, timerRun ops = some w ∧ w.report = some lines ∧
      lines.filter (fun x => x.timer = i) = if ivs = [] then [] else [.value i (ivs.map fun v => v.2 - v.1).sum ivs.length] := by
  obtain ⟨w, h1, h2⟩ := timer_run_good ops timersGood_start h
  have hm : ∀ i, i ∈ w.list ↔ ph i = .running ∨ ph i = .stopped := by
    intro i
    have hi := h2.2 i
    cases e : ph i <;> rw [e] at hi <;> simp [hi.2]
  have hl : ∀ i ∈ w.list, ∃ s, w.tm i = some s := by
    intro i hi
    have hg := h2.2 i
    rcases (hm i).1 hi with e | e <;> rw [e] at hg
    · exact hg.1
    · exact ⟨_, hg.1.choose_spec.1⟩
  obtain ⟨lines, h3, h4⟩ := report_lines w w.list hl
  refine ⟨w, lines.flatten, h1, by unfold TimerWorld.report; rw [h3]; rfl, ?_⟩
  have ht := run_local ops i h1
  rw [hi, List.foldl_cons] at ht
  obtain ⟨s, e1, e2, e3, e4⟩ := timedAt_local i ivs .zero rfl rfl
  have hw : w.tm i = some s := ht.trans e1
  rw [h4 i s hw h2.1]
  have hrep : s.report i = if ivs = [] then [] else [.value i (ivs.map fun v => v.2 - v.1).sum ivs.length] := by
    unfold TimerVars.report
    rw [e2, e3, e4]
    cases ivs with
    | nil => simp [TimerVars.zero]
    | cons v ivs => simp [TimerVars.zero]
  rw [hrep]
  by_cases hne : ivs = []
  · simp [hne]
  · have hg := h2.2 i
    have hc : 0 < s.count := by rw [e3]; simp [TimerVars.zero, List.length_pos_iff, hne]
    have : i ∈ w.list := by
      cases e : ph i <;> rw [e] at hg
      · rw [hg.1] at hw; cases hw
      · obtain ⟨⟨s', hs', hc'⟩, -⟩ := hg
        rw [hs'] at hw
        cases hw
        omega
      · exact hg.2
      · exact hg.2
    rw [if_pos this]

/-- **C96 (reset, negation).** The manual allows a reset at any time, but a timer that is reset after its first interval and used again stands twice in the list: it is reported twice, and
when it is destroyed the report reads a timer that does not exist. -/
theorem C96_timer_reset_wrong (i : ℕ) (a b c d : ℝ) :
    ((timerRun [.make i, .start i a, .stop i b, .reset i, .start i c, .stop i d]).bind TimerWorld.report = some [.value i (d - c) 1, .value i (d - c) 1]) ∧
    (∃ w, timerRun [.make i, .start i a, .stop i b, .reset i, .start i c, .stop i d, .destroy i] = some w ∧ w.report = none) := by
  constructor
  · simp [timerRun, TimerWorld.step, TimerWorld.report, TimerVars.zero, TimerVars.start, TimerVars.stop, TimerVars.report]
  · refine ⟨⟨Function.update (fun _ => none) i none, [i]⟩, ?_, ?_⟩
    · simp [timerRun, TimerWorld.step, TimerVars.zero, TimerVars.start, TimerVars.stop]
    · simp [TimerWorld.report]

/-- Two timers, one inside the other, and a third one that is destroyed. -/
example : ∃ ph, phaseRun [.make 0, .make 1, .start 0 0, .start 1 1, .stop 1 2, .make 2, .start 2 2, .start 1 3, .stop 1 5, .destroy 2, .stop 0 6] = some ph ∧ ph 0 = .stopped := by
  refine ⟨_, rfl, rfl⟩

end Hila
