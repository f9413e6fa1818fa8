import Verif.Lemmas.SiteDep
import Mathlib.Data.Fin.VecNotation

/-!
# C80: vectorised loop bodies

A body that hilapp accepts for vectorisation is run once for several sites at a time. This must do at every one of
these sites what the body does there on its own. `lanes i k` are the values at site `i` of the expressions that contain
`X` or random numbers (`xs k`), `outer k` those of other variables from outside of the loop.
-/

namespace Hila
open Body

/-- What `env k` is at site `i` of a vector. -/
def laneEnv {ι V : Type} (xs : ℕ → Bool) (outer : ℕ → V) (lanes : ι → ℕ → V) (i : ι) (k : ℕ) : V :=
  if xs k then lanes i k else outer k

/-- Running a body that is accepted for vectorisation on the vector of the sites `ι` compiles and leaves in every field
at every site what running the body at this site alone leaves there; `continue` is reached on the vector if it is
reached at each of its sites. Missing: assignments behind `&&` (see below), function calls and references. -/
theorem C80_vectorised_partial {F ι V : Type} [DecidableEq F] [Nonempty ι] (xs : ℕ → Bool) (body : Stmt F V)
    (hv : body.vectorizable xs = true) (hs : body.shortcuts = false)
    (outer : ℕ → V) (lanes : ι → ℕ → V) (mem : F → ι → V)
    (hd : ∀ i, (source body (laneEnv xs outer lanes i) fun f => mem f i).isSome = true) :
    ∃ c s, body.vexec xs (body.siteDep xs) outer lanes
        ⟨fun f i => some (mem f i), fun _ => none, fun _ _ => none⟩ = some (c, s) ∧
      ∀ i, ∃ t, body.exec (laneEnv xs outer lanes i) ⟨fun f => some (mem f i), fun _ => none, []⟩ =
          some (c, t) ∧ ∀ f, s.fld f i = t.fld f := by
  have hsame : SameLanes (body.siteDep xs) (⟨fun f i => some (mem f i), fun _ => none, fun _ _ => none⟩ : VState F ι V)
      (fun i => ⟨fun f => some (mem f i), fun _ => none, []⟩) :=
    fun i => ⟨fun _ => rfl, fun k => by split <;> rfl⟩
  obtain ⟨c, s, t, h1, h2, h3⟩ := vexec_spec xs (body.siteDep xs) outer lanes body
    (vectorizable_fits xs body hv) hs _ _ hsame fun i => by
      have := hd i
      simp only [source, Option.isSome_map] at this
      exact this
  exact ⟨c, s, h1, fun i => ⟨t i, h2 i, fun f => ((h3 i).1 f).symm⟩⟩

/-- Variables of such a body that hilapp does not mark as depending on the site end with the same value at every
site. -/
theorem C80_uniform {F ι V : Type} [DecidableEq F] (xs : ℕ → Bool) (body : Stmt F V)
    (hv : body.vectorizable xs = true) (hs : body.shortcuts = false)
    (outer : ℕ → V) (lanes : ι → ℕ → V) (mem : F → ι → V) (c : ι → Bool) (t : ι → State F V)
    (ht : ∀ i, body.exec (laneEnv xs outer lanes i) ⟨fun f => some (mem f i), fun _ => none, []⟩ =
      some (c i, t i))
    (k : ℕ) (hk : body.siteDep xs k = false) (i j : ι) : (t i).loc k = (t j).loc k := by
  have : Nonempty ι := ⟨i⟩
  have hsame : SameLanes (body.siteDep xs) (⟨fun f i => some (mem f i), fun _ => none, fun _ _ => none⟩ : VState F ι V)
      (fun i => ⟨fun f => some (mem f i), fun _ => none, []⟩) :=
    fun i => ⟨fun _ => rfl, fun k => by split <;> rfl⟩
  obtain ⟨c', s, t', h1, h2, h3⟩ := vexec_spec xs (body.siteDep xs) outer lanes body
    (vectorizable_fits xs body hv) hs _ _ hsame fun i => by
      have := ht i
      exact Option.isSome_iff_exists.2 ⟨_, this⟩
  have e : ∀ i, t i = t' i := fun i => by
    have := (h2 i).symm.trans (ht i)
    exact (Prod.mk.inj (Option.some.inj this)).2.symm
  rw [e i, e j, (h3 i).2 k, (h3 j).2 k, hk]
  rfl

/-- If there is no `if`, loop or `continue` the same holds for bodies that are not accepted for vectorisation: whatever indices and conditional expressions it
contains, a variable that is not marked ends with the same value at every site. -/
theorem C80_uniform_straight {F ι V : Type} [DecidableEq F] (xs : ℕ → Bool) (body : Stmt F V) (hb : body.straight = true)
    (outer : ℕ → V) (lanes : ι → ℕ → V) (mem : F → ι → V) (c : ι → Bool) (t : ι → State F V)
    (ht : ∀ i, body.exec (laneEnv xs outer lanes i) ⟨fun f => some (mem f i), fun _ => none, []⟩ =
      some (c i, t i))
    (k : ℕ) (hk : body.siteDep xs k = false) (i j : ι) : (t i).loc k = (t j).loc k := by
  obtain ⟨h1, _, h3⟩ := sweeps_spec (body.depends xs).deps (body.depends xs).vars
    ((body.depends xs).vars.length + 1) (body.depends xs).flag
    (Nat.lt_succ_of_le List.countP_le_length)
  have hp : body.SetsPlain xs (body.siteDep xs) := snote_sets xs h1 h3 body _ (Dep.Le.rfl' _)
  refine (exec_sets xs (env := laneEnv xs outer lanes i) (env' := laneEnv xs outer lanes j) (fun k hk => ?_) body hb hp
    ⟨fun f => some (mem f i), fun _ => none, []⟩ ⟨fun f => some (mem f j), fun _ => none, []⟩ _ _ _ _ (fun _ _ => rfl) (ht i) (ht j)).2.2 k hk
  unfold laneEnv
  rw [hk]
  rfl

/-- `x` and `y` name the fields of the examples. -/
abbrev SdF := Bool

/-- `for (k = 0; k < n; k++) { v = x[X] + k; y[X] += v; }`, where `n` is `env 0`. -/
def sdLoop : Stmt SdF ℤ :=
  .seq (.setLoc 0 (.lit 0))
    (.loop 10 false (fun v => v != 0) (.op (fun a b => if a < b then 1 else 0) (.loc 0) (.env 0))
      (.seq (.setLoc 1 (.op (· + ·) (.fld false) (.loc 0)))
        (.seq (.update true (· + ·) (.loc 1)) (.setLoc 0 (.op (· + ·) (.loc 0) (.lit 1))))))

/-- The loop is accepted; `v` is marked and `k` is not. With `n = 3` the sum at a site is `3 x + 3`. -/
example : sdLoop.vectorizable (fun k => k == 1) = true ∧ sdLoop.shortcuts = false ∧
    sdLoop.siteDep (fun k => k == 1) 0 = false ∧ sdLoop.siteDep (fun k => k == 1) 1 = true ∧
    (∀ i : Fin 2, (source sdLoop (laneEnv (fun k => k == 1) (fun _ => 3) (fun _ _ => 0) i)
      (fun f => if f then 0 else i.val)).map (fun r => r.1 true) = some (some (3 * (i.val : ℤ) + 3))) := by
  decide +kernel

/-- `w = v; v = x[X]; if (w) …` where `v` was declared without `X`: `v` and `w` are marked by the repeated
sweeps, so that the body is refused. -/
example : (Stmt.seq (.setLoc 1 (.lit 0)) (.seq (.setLoc 2 (.loc 1)) (.seq (.setLoc 1 (.fld false))
    (.ite false (fun v => v != 0) (.loc 2) (.assign true (.lit 1)) .skip))) : Stmt SdF ℤ).vectorizable
      (fun _ => false) = false := by
  decide +kernel

/-- `a = t[x[X]]; b = t[n];`: the body is refused, `a` is marked and `b` is not. -/
example : let body : Stmt SdF ℤ := .seq (.setLoc 0 (.table (fun v => v * v) false (.fld false))) (.setLoc 1 (.table (fun v => v * v) false (.env 0)))
    body.straight = true ∧ body.vectorizable (fun _ => false) = false ∧ body.siteDep (fun _ => false) 0 = true ∧ body.siteDep (fun _ => false) 1 = false := by
  decide +kernel

/-- `x[X] && (y[X] = 1);` for fields of integers. -/
def sdAnd : Stmt SdF ℤ := .andAssign (fun v => v != 0) (.fld false) true (.lit 1)

/-- **Disagreement.** This body is accepted for vectorisation, and then `&&` is the function of the vector
classes (`libraries/vectorclass/vectori256.h` 2579), so that the assignment is done at every site. -/
theorem C80_shortcut_wrong :
    sdAnd.vectorizable (fun _ => false) = true ∧
    ∃ (mem : SdF → Fin 2 → ℤ) (s : VState SdF (Fin 2) ℤ),
      sdAnd.vexec (fun _ => false) (sdAnd.siteDep fun _ => false) (fun _ => 0) (fun _ _ => 0)
        ⟨fun f i => some (mem f i), fun _ => none, fun _ _ => none⟩ = some (false, s) ∧
      (source sdAnd (laneEnv (fun _ => false) (fun _ => 0) (fun (_ : Fin 2) _ => 0) 0) fun f => mem f 0).map
          (fun r => r.1 true) = some (some 7) ∧
      s.fld true 0 = some 1 := by
  refine ⟨by decide +kernel, fun f _ => if f then 7 else 0, _, rfl, by decide +kernel, by decide +kernel⟩

end Hila
