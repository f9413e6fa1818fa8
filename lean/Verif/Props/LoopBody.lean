import Verif.Lemmas.LoopBodyRun
import Mathlib.Data.Fin.VecNotation
import Mathlib.Tactic.NormNum

/-!
# C77: the code generated for a site loop does what the body says

`Body.source` is the meaning of the body: it runs on the fields themselves. `Body.generated` is what
hilapp makes of it: fields are copied to local variables if the analysis finds that they are read, the
body runs on the variables, and assigned ones are copied back.
-/

namespace Hila
open Body

/-- If all fields the body mentions agree before and the written ones after the run, the generated code
gives the result of the source. -/
theorem Body.generated_of_same {F V : Type} [DecidableEq F] (body : Stmt F V) (env : ℕ → V) (mem : F → V)
    (hcf : body.continuesFirst) (K : F → Prop)
    (hK : ∀ f, (fieldInfo body.analyse.refs f).written = true → K f)
    (h : Same K
      (body.exec env ⟨fun f => if loaded body.analyse f then some (mem f) else none, fun _ => none, []⟩)
      (body.exec env ⟨fun f => some (mem f), fun _ => none, []⟩)) :
    generated body env mem = source body env mem := by
  unfold generated source
  dsimp only
  match h1 : body.exec env ⟨fun f => if loaded body.analyse f then some (mem f) else none,
      fun _ => none, []⟩, h2 : body.exec env ⟨fun f => some (mem f), fun _ => none, []⟩, h with
  | none, none, _ => rfl
  | some r, some r', h =>
    obtain ⟨⟨f1, f2⟩, f3⟩ := body.exec_fields env _ r' h2
    simp only [Option.bind_some, Option.map_some]
    rw [h.1, h.2.2.2]
    by_cases hc : r'.1 = true
    · rw [if_pos hc, body.exec_continue env hcf _ r' h2 hc]
    · rw [if_neg hc, if_pos]
      · congr 1
        refine Prod.ext (funext fun f => ?_) rfl
        dsimp only
        by_cases hw : (fieldInfo body.analyse.refs f).written = true
        · rw [if_pos hw]; exact h.2.1 f (hK f hw)
        · rw [if_neg hw]
          refine (f1 f fun hf => hw ?_).symm
          obtain ⟨l, hl, hcov⟩ := body.trav_covers ⟨0, 0, false, false, []⟩
          refine (fieldInfo_written _ f).2 ?_
          obtain ⟨p, hp, h'⟩ := hcov.2.1 f hf
          exact ⟨p, by rw [Stmt.analyse, hl]; simpa using hp, h'⟩
      · rw [List.all_eq_true]
        intro p hp
        rw [List.mem_filter] at hp
        rw [h.2.1 p.fld (hK _ ((fieldInfo_written _ _).2 ⟨p, hp.1, rfl, hp.2⟩))]
        exact f2 _ rfl

/-- **C77, flagged bodies.** Whenever the analysis notes that the loop has a conditional, the generated
code gives exactly the result of the source, for every content of the fields, whatever else is in the
body. A `continue` is allowed if no assignment comes before it. -/
theorem C77_flagged_partial {F V : Type} [DecidableEq F] (body : Stmt F V)
    (hcont : body.continuesFirst) (hcond : body.analyse.hasCond = true) (env : ℕ → V) (mem : F → V) :
    generated body env mem = source body env mem := by
  obtain ⟨l, hl, hcov⟩ := body.trav_covers ⟨0, 0, false, false, []⟩
  have hrefs : body.analyse.refs = l := by rw [Stmt.analyse, hl]; rfl
  have hw : ∀ f ∈ body.writes, (fieldInfo body.analyse.refs f).written = true := by
    intro f hf
    rw [hrefs]; exact (fieldInfo_written _ f).2 (hcov.2.1 f hf)
  have hload : ∀ f, f ∈ body.reads ∨ f ∈ body.writes → loaded body.analyse f = true := by
    rintro f hf
    unfold loaded
    cases hwf : (fieldInfo body.analyse.refs f).written with
    | true => simp [hcond]
    | false =>
      rcases hf with hf | hf
      · obtain ⟨p, hp, rfl, hr⟩ := hcov.2.2 f hf
        obtain ⟨l1, l2, rfl⟩ := List.append_of_mem hp
        rw [hrefs] at hwf ⊢
        rw [fieldInfo_readX l1 l2 p hr]
        · rfl
        · intro q hq e w
          have : (fieldInfo (l1 ++ p :: l2) p.fld).written = true :=
            (fieldInfo_written _ _).2 ⟨q, by
              simp only [List.mem_append, List.mem_singleton, List.mem_cons] at hq ⊢; tauto, e, w⟩
          rw [hwf] at this
          exact absurd this (by simp)
      · rw [hw f hf] at hwf
        exact absurd hwf (by simp)
  refine generated_of_same body env mem hcont (fun f => f ∈ body.reads ∨ f ∈ body.writes) ?_ ?_
  · intro f hf
    rw [hrefs] at hf
    obtain ⟨p, hp, rfl, hw⟩ := (fieldInfo_written _ _).1 hf
    exact Or.inr (hcov.1 p hp hw)
  · refine body.exec_congr env _ (fun f => Or.inl) (fun f => Or.inr) _ _ ⟨fun f hf => ?_, rfl, rfl⟩
    simp [hload f hf]

/-- **C77.** For every body without site dependent tables and reduction vectors that has a conditional or
loop somewhere, and for every body in a straight line (tables and reduction vectors allowed), the generated
code gives exactly the result of the source, for every content of the fields. A `continue` is allowed if no
assignment comes before it. Missing: the bodies of the five theorems below, for which it is wrong, and the
language features left out in `Model/LoopBody`. -/
theorem C77_translation_partial {F V : Type} [DecidableEq F] (body : Stmt F V)
    (hcont : body.continuesFirst)
    (hbody : (body.branches = true ∧ body.lookups = false) ∨
      (body.branches = false ∧ body.shortcuts = false ∧ body.continues = false))
    (env : ℕ → V) (mem : F → V) :
    generated body env mem = source body env mem := by
  rcases hbody with ⟨hb, hlk⟩ | ⟨hb, hs, hc⟩
  · exact C77_flagged_partial body hcont
      ((body.trav_flags ⟨0, 0, false, false, []⟩ hlk (by simp)).2 (Or.inr hb)) env mem
  · have := (body.straight_step env hb hs hc ⟨0, 0, false, false, []⟩ rfl body.analyse.refs []
      (by simp [Stmt.analyse]) ⟨fun f => if loaded body.analyse f then some (mem f) else none,
        fun _ => none, []⟩ ⟨fun f => some (mem f), fun _ => none, []⟩ (by
          refine ⟨fun f hf => ?_, rfl, rfl⟩
          rcases hf with hf | ⟨q, hq, -⟩
          · simp [loaded, hf]
          · simp at hq)).2
    refine generated_of_same body env mem hcont _ ?_ this
    intro f hf
    exact Or.inr ((fieldInfo_written _ _).1 hf)

/-! ### Bodies for the examples: fields are `0`, `1`, `2`, values are integers -/

/-- `if (g[X] > 0) f[X] = 7; else { h[X] = f[X]; h[X] += 1; }` -/
def plainBody : Stmt (Fin 3) ℤ :=
  .ite true (fun v => decide (0 < v)) (.fld 1) (.assign 0 (.lit 7))
    (.block (.seq (.assign 2 (.fld 0)) (.update 2 (· + ·) (.lit 1))))

/-- The hypotheses hold for a body with a conditional; both branches are taken for some content. -/
example : plainBody.continuesFirst ∧ plainBody.branches = true ∧ plainBody.lookups = false ∧
    (generated plainBody (fun _ => 0) ![1, 2, 3]).map (fun r => (List.ofFn r.1, r.2))
      = some ([some 7, some 2, some 3], []) ∧
    (generated plainBody (fun _ => 0) ![1, -2, 3]).map (fun r => (List.ofFn r.1, r.2))
      = some ([some 1, some (-2), some 2], []) := by
  refine ⟨⟨trivial, trivial, trivial, by simp [Stmt.continues]⟩, rfl, rfl, by decide +kernel,
    by decide +kernel⟩

/-- `if (g[X] > 0) continue; f[X] = table[h[X]];` -/
def laterTableBody : Stmt (Fin 3) ℤ :=
  .block (.seq (.ite true (fun v => decide (0 < v)) (.fld 1) .cont .skip)
    (.assign 0 (.table (· * 10) true (.fld 2))))

/-- The hypotheses of the theorem about flagged bodies hold although there is a table and a `continue`. -/
example : laterTableBody.continuesFirst ∧ laterTableBody.analyse.hasCond = true ∧
    (generated laterTableBody (fun _ => 0) ![1, -2, 3]).map (fun r => (List.ofFn r.1, r.2))
      = some ([some 30, some (-2), some 3], []) ∧
    (generated laterTableBody (fun _ => 0) ![1, 2, 3]).map (fun r => (List.ofFn r.1, r.2))
      = some ([some 1, some 2, some 3], []) := by
  refine ⟨?_, rfl, by decide +kernel, by decide +kernel⟩
  simp [laterTableBody, Stmt.continuesFirst, Stmt.continues]

/-- `f[X] = g[X]; g[X] = f[X] + h[X]; rv[g[X]] += f[X];` -/
def straightBody : Stmt (Fin 3) ℤ :=
  .block (.seq (.assign 0 (.fld 1)) (.seq (.assign 1 (.op (· + ·) (.fld 0) (.fld 2)))
    (.binAdd (.fld 1) (.fld 0))))

/-- The hypotheses hold for a body in a straight line, in which `f` is not loaded. -/
example : straightBody.continuesFirst ∧ straightBody.branches = false ∧
    straightBody.shortcuts = false ∧ straightBody.continues = false ∧
    List.ofFn (loaded straightBody.analyse) = [false, true, true] ∧
    (generated straightBody (fun _ => 0) ![1, 2, 3]).map (fun r => (List.ofFn r.1, r.2))
      = some ([some 2, some 5, some 3], [(5, 2)]) := by
  refine ⟨?_, rfl, rfl, rfl, by decide +kernel, by decide +kernel⟩
  simp [straightBody, Stmt.continuesFirst, Stmt.continues]

/-- `if (g[X] > 0) f[X] = table[h[X]];` -/
def tableBody : Stmt (Fin 3) ℤ :=
  .ite true (fun v => decide (0 < v)) (.fld 1) (.assign 0 (.table (· * 10) true (.fld 2))) .skip

/-- **Negation.** A table with a site dependent index in the first conditional: where the condition is
false, the generated code stores a variable that has never been given a value, so the outcome is
undefined, while the source leaves the field as it is. -/
theorem C77_table_wrong :
    (source tableBody (fun _ => 0) ![1, -2, 3]).map (fun r => (List.ofFn r.1, r.2))
      = some ([some 1, some (-2), some 3], []) ∧
    (generated tableBody (fun _ => 0) ![1, -2, 3]).isNone := by
  constructor <;> decide +kernel

/-- `hist[h[X]] += 1; if (g[X] > 0) f[X] = 1;` -/
def histBody : Stmt (Fin 3) ℤ :=
  .block (.seq (.binAdd (.fld 2) (.lit 1))
    (.ite true (fun v => decide (0 < v)) (.fld 1) (.assign 0 (.lit 1)) .skip))

/-- **Negation.** The same happens if something is added to a reduction vector before a conditional. -/
theorem C77_histogram_wrong :
    (source histBody (fun _ => 0) ![1, -2, 3]).map (fun r => (List.ofFn r.1, r.2))
      = some ([some 1, some (-2), some 3], [(3, 1)]) ∧
    (generated histBody (fun _ => 0) ![1, -2, 3]).isNone := by
  constructor <;> decide +kernel

/-- `f[X] = (table[h[X]] > 0 ? 1 : 2) + f[X];` -/
def selfBody : Stmt (Fin 3) ℤ :=
  .assign 0 (.op (· + ·)
    (.cond true (fun v => decide (0 < v)) (.table (· * 10) true (.fld 2)) (.lit 1) (.lit 2)) (.fld 0))

/-- **Negation.** After `?:` in an expression the rest of the expression counts as a later statement: the
field on both sides of the assignment is taken for assigned and not loaded. -/
theorem C77_operator_wrong :
    (source selfBody (fun _ => 0) ![1, -2, 3]).map (fun r => (List.ofFn r.1, r.2))
      = some ([some 2, some (-2), some 3], []) ∧
    (generated selfBody (fun _ => 0) ![1, -2, 3]).isNone := by
  constructor <;> decide +kernel

/-- `g[X] > 0 && (f[X] = 1);` -/
def shortcutBody : Stmt (Fin 3) ℤ :=
  .andAssign (fun v => decide (0 < v)) (.fld 1) 0 (.lit 1)

/-- **Negation.** An assignment behind `&&` is not seen as conditional. -/
theorem C77_shortcut_wrong :
    (source shortcutBody (fun _ => 0) ![1, -2, 3]).map (fun r => (List.ofFn r.1, r.2))
      = some ([some 1, some (-2), some 3], []) ∧
    (generated shortcutBody (fun _ => 0) ![1, -2, 3]).isNone := by
  constructor <;> decide +kernel

/-- `f[X] = 5; if (g[X] > 0) continue; h[X] = 6;` -/
def continueBody : Stmt (Fin 3) ℤ :=
  .block (.seq (.assign 0 (.lit 5))
    (.seq (.ite true (fun v => decide (0 < v)) (.fld 1) .cont .skip) (.assign 2 (.lit 6))))

/-- **Negation.** `continue` skips the code that stores the variables, so assignments before it are
lost. -/
theorem C77_continue_wrong :
    (source continueBody (fun _ => 0) ![1, 2, 3]).map (fun r => (List.ofFn r.1, r.2))
      = some ([some 5, some 2, some 3], []) ∧
    (generated continueBody (fun _ => 0) ![1, 2, 3]).map (fun r => (List.ofFn r.1, r.2))
      = some ([some 1, some 2, some 3], []) := by
  constructor <;> decide +kernel

end Hila
