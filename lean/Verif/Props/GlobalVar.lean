import Verif.Model.GlobalVar
import Mathlib.Data.List.Basic
import Mathlib.Data.List.Nodup
import Mathlib.Data.List.Infix

/-!
# C110: global variables in site loops

Property theorems about `Model/GlobalVar`.
-/

namespace Hila

/-- The value a variable should have after the assignments `l`: the last one to this variable, or zero. -/
def lastAssigned {V : Type} (zero : V) (v : GVar) : List (GVar × V) → V
  | [] => zero
  | p :: l => if (∃ q ∈ l, q.1 = v) then lastAssigned zero v l else if p.1 = v then p.2 else zero

/-- Replacing colons. -/
def noColon (l : List Char) : List Char := l.map fun c => if c = ':' then '_' else c

theorem noColon_append (a b : List Char) : noColon (a ++ b) = noColon a ++ noColon b := List.map_append

theorem constantVarName_none (n : List Char) : constantVarName n none = "HILA_device_constant_".toList ++ noColon n := by
  unfold constantVarName
  dsimp only
  rw [List.map_append]
  rfl

theorem constantVarName_some (n m : List Char) :
    constantVarName n (some m) = "HILA_device_constant_".toList ++ (noColon m ++ '_' :: '_' :: noColon n) := by
  unfold constantVarName
  dsimp only
  rw [List.map_append, List.map_append, List.map_append]
  simp only [noColon, List.append_assoc]
  rfl

theorem qualifiedName_last (c : List Char) (cs : List (List Char)) (n : List Char) :
    noColon (qualifiedName ((c :: cs).dropLast) ((c :: cs).getLast (List.cons_ne_nil c cs))) ++ '_' :: '_' :: noColon n =
      noColon (qualifiedName (c :: cs) n) := by
  induction cs generalizing c with
  | nil =>
    simp only [List.dropLast_singleton, List.getLast_singleton, qualifiedName]
    rw [noColon_append]
    rfl
  | cons d ds ih =>
    have h := ih d
    rw [List.dropLast_cons_of_ne_nil (List.cons_ne_nil d ds), List.getLast_cons (List.cons_ne_nil d ds)]
    simp only [qualifiedName] at h ⊢
    rw [noColon_append, noColon_append]
    show (noColon c ++ '_' :: '_' :: noColon _) ++ _ = noColon c ++ '_' :: '_' :: noColon _
    rw [noColon_append] at h
    rw [List.append_assoc, List.cons_append, List.cons_append, h]
    rw [← noColon_append]

/-- **C110, names (part of the property).** The name in a loop is that of the declaration if the variable is not in a namespace, or the reference is
written with the namespace. *Missing*: references without the namespace, see `C110_namespace_wrong`. -/
theorem C110_names_partial (r : GRef) (h : r.qualified = true ∨ r.var.ns = []) : refName r = declName r.var := by
  obtain ⟨⟨ns, n⟩, q⟩ := r
  dsimp only at h
  rcases ns with _ | ⟨c, cs⟩
  · unfold refName declName
    cases q <;> rfl
  · have hq : q = true := by
      rcases h with h | h
      · exact h
      · exact absurd h (List.cons_ne_nil _ _)
    subst hq
    unfold refName declName
    dsimp only
    rw [constantVarName_some, constantVarName_none, qualifiedName_last]

theorem setGlobals_append {V : Type} (s : GState V) (l : List (GVar × V)) (p : GVar × V) :
    setGlobals s (l ++ [p]) = setGlobal (setGlobals s l) p.1 p.2 := by
  unfold setGlobals
  rw [List.foldl_append]
  rfl

theorem lastAssigned_append {V : Type} (zero : V) (v : GVar) (p : GVar × V) : ∀ l : List (GVar × V),
    lastAssigned zero v (l ++ [p]) = if p.1 = v then p.2 else lastAssigned zero v l
  | [] => by simp [lastAssigned]
  | a :: l => by
    have ih := lastAssigned_append zero v p l
    rw [List.cons_append, lastAssigned, lastAssigned, ih]
    by_cases hp : p.1 = v
    · rw [if_pos ⟨p, by simp, hp⟩, if_pos hp, if_pos hp]
    · rw [if_neg hp, if_neg hp]
      have : (∃ q ∈ l ++ [p], q.1 = v) ↔ ∃ q ∈ l, q.1 = v := by
        constructor
        · rintro ⟨q, hq, hv⟩
          rcases List.mem_append.1 hq with hq | hq
          · exact ⟨q, hq, hv⟩
          · rw [List.mem_singleton.1 hq] at hv
            exact absurd hv hp
        · rintro ⟨q, hq, hv⟩
          exact ⟨q, List.mem_append_left _ hq, hv⟩
      by_cases hl : ∃ q ∈ l, q.1 = v
      · rw [if_pos (this.2 hl), if_pos hl]
      · rw [if_neg fun h => hl (this.1 h), if_neg hl]

/-- **C110, values (part of the property).** In a program that can be compiled, after any sequence of assignments to declared variables, a variable has the value
assigned to it last, on the host and in loops on the device (referred to as in `C110_names_partial`). -/
theorem C110_values_partial {V : Type} (zero : V) (decls : List GVar) (s : GState V) (hs : startGlobals zero decls = some s)
    (l : List (GVar × V)) (hl : ∀ p ∈ l, p.1 ∈ decls) (r : GRef) (hr : r.var ∈ decls) (hq : r.qualified = true ∨ r.var.ns = []) :
    hostRead (setGlobals s l) r.var = lastAssigned zero r.var l ∧ loopRead (setGlobals s l) r = some (lastAssigned zero r.var l) := by
  unfold startGlobals at hs
  by_cases hc : (decls.map declName).Nodup ∧ ∀ v ∈ decls, (declName v).all isIdentChar = true
  · rw [if_pos hc] at hs
    have hs' := Option.some.inj hs
    unfold hostRead loopRead
    rw [C110_names_partial r hq]
    induction l using List.reverseRecOn with
    | nil =>
      subst hs'
      refine ⟨rfl, ?_⟩
      exact if_pos (List.mem_map_of_mem hr)
    | append_singleton l p ih =>
      obtain ⟨h1, h2⟩ := ih fun q hq => hl q (List.mem_append_left _ hq)
      have hp := hl p (List.mem_append_right _ (List.mem_singleton.2 rfl))
      rw [setGlobals_append, lastAssigned_append]
      unfold setGlobal
      dsimp only
      by_cases hv : p.1 = r.var
      · rw [if_pos hv, if_pos hv.symm, if_pos (by rw [hv]), if_pos rfl]
        exact ⟨rfl, rfl⟩
      · have hn : declName r.var ≠ declName p.1 := fun he => hv (List.inj_on_of_nodup_map hc.1 hr hp he).symm
        rw [if_neg hv, if_neg (Ne.symm hv), if_neg hn]
        exact ⟨h1, h2⟩
  · rw [if_neg hc] at hs
    exact absurd hs (by simp)

/-! ## Different variables have different names -/

/-- A name of C++ that is not reserved: without colons and without two underscores in a row. -/
def plainName (c : List Char) : Prop := ':' ∉ c ∧ ¬['_', '_'] <:+: c

theorem noColon_of_not_mem (c : List Char) (h : ':' ∉ c) : noColon c = c := by
  unfold noColon
  conv_rhs => rw [← List.map_id c]
  apply List.map_congr_left
  intro a ha
  rw [if_neg]
  · rfl
  · rintro rfl
    exact h ha

theorem append_sep_inj (c c' r r' : List Char) (hc : ¬['_', '_'] <:+: c) (hc' : ¬['_', '_'] <:+: c')
    (hl : ∀ t, c ≠ t ++ ['_']) (hl' : ∀ t, c' ≠ t ++ ['_'])
    (h : c ++ '_' :: '_' :: r = c' ++ '_' :: '_' :: r') : c = c' ∧ r = r' := by
  have aux : ∀ t c c' r r' : List Char, c' = c ++ t → ¬['_', '_'] <:+: c' → (∀ t, c' ≠ t ++ ['_']) → '_' :: '_' :: r = t ++ '_' :: '_' :: r' → t = [] := by
    intro t c c' r r' e hc' hl' h
    rcases t with _ | ⟨a, _ | ⟨b, t⟩⟩
    · rfl
    · rw [List.cons_append] at h
      have := (List.cons.inj h).1
      subst this
      exact absurd e (hl' c)
    · rw [List.cons_append, List.cons_append] at h
      have h1 := (List.cons.inj h).1
      have h2 := (List.cons.inj (List.cons.inj h).2).1
      subst h1
      subst h2
      exact absurd ⟨c, t, by rw [e]; simp⟩ hc'
  rcases List.append_eq_append_iff.1 h with ⟨t, e, h2⟩ | ⟨t, e, h2⟩
  · have ht := aux t c c' r r' e hc' hl' h2
    subst ht
    rw [List.append_nil] at e
    subst e
    simpa using h2
  · have ht := aux t c' c r' r e hc hl h2
    subst ht
    rw [List.append_nil] at e
    subst e
    have := h2.symm
    simpa using this

theorem qualified_inj : ∀ (ns ns' : List (List Char)) (n n' : List Char), (∀ c ∈ ns, plainName c ∧ ∀ t, c ≠ t ++ ['_']) →
    (∀ c ∈ ns', plainName c ∧ ∀ t, c ≠ t ++ ['_']) → plainName n → plainName n' →
    noColon (qualifiedName ns n) = noColon (qualifiedName ns' n') → ns = ns' ∧ n = n'
  | [], [], n, n', _, _, hn, hn', h => by
    simp only [qualifiedName] at h
    rw [noColon_of_not_mem n hn.1, noColon_of_not_mem n' hn'.1] at h
    exact ⟨rfl, h⟩
  | [], c :: cs, n, n', _, _, hn, _, h => by
    simp only [qualifiedName] at h
    rw [noColon_of_not_mem n hn.1, noColon_append] at h
    exact absurd ⟨noColon c, noColon (qualifiedName cs n'), by rw [h]; simp [noColon]⟩ hn.2
  | c :: cs, [], n, n', _, _, _, hn', h => by
    simp only [qualifiedName] at h
    rw [noColon_of_not_mem n' hn'.1, noColon_append] at h
    exact absurd ⟨noColon c, noColon (qualifiedName cs n), by rw [← h]; simp [noColon]⟩ hn'.2
  | c :: cs, c' :: cs', n, n', h1, h2, hn, hn', h => by
    simp only [qualifiedName] at h
    have p := h1 c (List.mem_cons_self ..)
    have p' := h2 c' (List.mem_cons_self ..)
    rw [noColon_append, noColon_append, noColon_of_not_mem c p.1.1, noColon_of_not_mem c' p'.1.1] at h
    obtain ⟨e1, e2⟩ := append_sep_inj c c' _ _ p.1.2 p'.1.2 p.2 p'.2 h
    obtain ⟨e3, e4⟩ := qualified_inj cs cs' n n' (fun d hd => h1 d (List.mem_cons_of_mem _ hd)) (fun d hd => h2 d (List.mem_cons_of_mem _ hd)) hn hn' e2
    exact ⟨by rw [e1, e3], e4⟩

/-- **C110, different variables (part of the property)** with names that are not reserved, in namespaces whose names do not end with
an underscore, have different names on the device. *Missing*: other namespaces, see `C110_underscore_wrong`. -/
theorem C110_distinct_partial (v w : GVar) (hv : plainName v.name ∧ ∀ c ∈ v.ns, plainName c ∧ ∀ t, c ≠ t ++ ['_'])
    (hw : plainName w.name ∧ ∀ c ∈ w.ns, plainName c ∧ ∀ t, c ≠ t ++ ['_']) (h : declName v = declName w) : v = w := by
  unfold declName at h
  rw [constantVarName_none, constantVarName_none] at h
  obtain ⟨e1, e2⟩ := qualified_inj _ _ _ _ hv.2 hw.2 hv.1 hw.1 (List.append_cancel_left h)
  cases v
  cases w
  simp only at e1 e2
  rw [e1, e2]

/-- **C110, programs can be compiled (part of the property).** The declarations of different variables with such names (of letters, digits and underscores)
give code that can be compiled. -/
theorem C110_compiles_partial {V : Type} (zero : V) (decls : List GVar) (hd : decls.Nodup)
    (h : ∀ v ∈ decls, plainName v.name ∧ (∀ c ∈ v.ns, plainName c ∧ ∀ t, c ≠ t ++ ['_']) ∧
      v.name.all isIdentChar = true ∧ ∀ c ∈ v.ns, c.all isIdentChar = true) : startGlobals zero decls ≠ none := by
  have hid : ∀ (ns : List (List Char)) (n : List Char), n.all isIdentChar = true → (∀ c ∈ ns, ':' ∉ c ∧ c.all isIdentChar = true) → ':' ∉ n →
      (noColon (qualifiedName ns n)).all isIdentChar = true := by
    intro ns n hn hc hn'
    induction ns with
    | nil =>
      rw [qualifiedName, noColon_of_not_mem n hn']
      exact hn
    | cons c cs ih =>
      have hcc := hc c (List.mem_cons_self ..)
      have := ih fun d hd => hc d (List.mem_cons_of_mem _ hd)
      rw [qualifiedName, noColon_append, noColon_of_not_mem c hcc.1, List.all_append, hcc.2]
      show (true && (noColon (':' :: ':' :: qualifiedName cs n)).all isIdentChar) = true
      have e : noColon (':' :: ':' :: qualifiedName cs n) = '_' :: '_' :: noColon (qualifiedName cs n) := rfl
      rw [e, List.all_cons, List.all_cons, this]
      decide
  unfold startGlobals
  rw [if_pos]
  · simp
  · constructor
    · apply List.Nodup.map_on _ hd
      intro v hv w hw he
      exact C110_distinct_partial v w ⟨(h v hv).1, (h v hv).2.1⟩ ⟨(h w hw).1, (h w hw).2.1⟩ he
    · intro v hv
      unfold declName
      rw [constantVarName_none, List.all_append,
        hid v.ns v.name (h v hv).2.2.1 (fun c hc => ⟨((h v hv).2.1 c hc).1.1, (h v hv).2.2.2 c hc⟩) (h v hv).1.1]
      decide

example : (∀ c ∈ ["hila", "my_globals", "_d_volume"], ¬['_', '_'] <:+: c.toList ∧ ':' ∉ c.toList) := by decide

/-- The example of the documentation: `namespace myglobals { hila::global<double> a, b; }` and a variable `a` at file level. -/
def exampleGlobals : List GVar := [⟨["myglobals".toList], "a".toList⟩, ⟨["myglobals".toList], "b".toList⟩, ⟨[], "a".toList⟩]

example : ∃ s, startGlobals (0 : Nat) exampleGlobals = some s ∧
    loopRead (setGlobals s [(⟨["myglobals".toList], "a".toList⟩, 3), (⟨[], "a".toList⟩, 5)]) ⟨⟨["myglobals".toList], "a".toList⟩, true⟩ = some 3 :=
  ⟨_, rfl, by decide⟩

/-- **C110 fails without the namespace.** In a function inside of the namespace, or after `using namespace`, the variable is written `a()`.
In loops it is then replaced by the name of the variable `a` at file level: if there is one its value is used silently, if not the generated code cannot be compiled. -/
theorem C110_namespace_wrong : ∃ s t : GState Nat, startGlobals 0 exampleGlobals = some s ∧ startGlobals 0 (exampleGlobals.take 2) = some t ∧
    hostRead (setGlobals s [(⟨["myglobals".toList], "a".toList⟩, 3), (⟨[], "a".toList⟩, 5)]) ⟨["myglobals".toList], "a".toList⟩ = 3 ∧
    loopRead (setGlobals s [(⟨["myglobals".toList], "a".toList⟩, 3), (⟨[], "a".toList⟩, 5)]) ⟨⟨["myglobals".toList], "a".toList⟩, false⟩ = some 5 ∧
    loopRead (setGlobals t [(⟨["myglobals".toList], "a".toList⟩, 3)]) ⟨⟨["myglobals".toList], "a".toList⟩, false⟩ = none :=
  ⟨_, _, rfl, rfl, by decide, by decide, by decide⟩

/-- **C110 fails without the namespace, in general**: the name in the loop never is that of the declaration, for any variable in a namespace. -/
theorem C110_namespace_wrong_general (v : GVar) (h : v.ns ≠ []) : refName ⟨v, false⟩ ≠ declName v := by
  intro he
  have h1 := congrArg List.length he
  obtain ⟨ns, n⟩ := v
  rcases ns with _ | ⟨c, cs⟩
  · exact h rfl
  · unfold refName declName at h1
    dsimp only at h1
    rw [constantVarName_none, constantVarName_none] at h1
    have hlen : ∀ (ns : List (List Char)), n.length ≤ (qualifiedName ns n).length := by
      intro ns
      induction ns with
      | nil => exact Nat.le_refl _
      | cons d ds ih =>
        rw [qualifiedName, List.length_append, List.length_cons, List.length_cons]
        omega
    have := hlen cs
    simp only [noColon, List.length_append, List.length_map, qualifiedName, List.length_cons] at h1
    omega

/-- **C110 fails for namespaces with an underscore at the end**: `x_::y` and `x::_y` have the same device variable; and variables in a namespace without name
get a device variable whose name is not an identifier. -/
theorem C110_underscore_wrong :
    startGlobals (0 : Nat) [⟨["x_".toList], "y".toList⟩, ⟨["x".toList], "_y".toList⟩] = none ∧
    startGlobals (0 : Nat) [⟨["(anonymous namespace)".toList], "y".toList⟩] = none := by
  constructor
  · unfold startGlobals
    exact if_neg (by decide)
  · unfold startGlobals
    exact if_neg (by decide)

end Hila
