import Verif.Model.RngSearch

/-!
# Which site loops are vectorized

Models `check_loop_vectorizable` of the AVX backend (`/repo/hilapp/src/codegen_avx_new.cpp` 196-412), the search for `#pragma hila novector`
(`contains_novector_visitor.cpp`) and the marks of the calls in a loop (`loop_function.cpp` 39-74, 127-240, `loop_function_visitor.cpp` 332-346).

The search for the pragma has the same text as the search for random numbers, without the comparison of the name: it is the search of
`Model/RngSearch` in a program without named generators.  Names and texts of the diagnostics are left out.
-/

namespace Hila

/-- `contains_novector(s)` (contains_novector_visitor.cpp:29-87): `nv f`: the function `f` is declared with `#pragma hila novector`.  The first
number bounds the depth; `none`: the bound is too small. -/
def containsNovector {F : Type} [DecidableEq F] (P : RProg F) (nv : F → Bool) (k : ℕ) (items : List (RItem F)) : Option Bool :=
  containsRandom { body := P.body, named := fun _ => false, pragma := nv } k items

/-- `is_vectorizable` of a call in the text of the loop (loop_function.cpp:39-48, 74): false if the function has the pragma, otherwise its body is
searched; a function without body has nothing to search.  Constructors keep the initial value `true` (loop_function.cpp:209-240, hilapp.h:475). -/
def callVec {F : Type} [DecidableEq F] (P : RProg F) (nv : F → Bool) (k : ℕ) : RItem F → Option Bool
  | .call f => if nv f then some false else (containsNovector P nv k ((P.body f).getD [])).map fun b => !b
  | .ctor _ => some true
  | .hidden _ => some true

/-- `is_vectorizable` of a call in the body of a function (loop_function_visitor.cpp:339-346): the result of the search is stored without negation.
At this commit the value is not used, as the analysis of lines 602-618 is switched off by `if (0 && ...)`. -/
def innerCallVec {F : Type} [DecidableEq F] (P : RProg F) (nv : F → Bool) (k : ℕ) : RItem F → Option Bool
  | .call f => if nv f then some false else containsNovector P nv k ((P.body f).getD [])
  | .ctor _ => some true
  | .hidden _ => some true

/-- The check of the calls of the loop (codegen_avx_new.cpp:364-384): each call with its `is_site_dependent`. -/
def callsVec {F : Type} [DecidableEq F] (P : RProg F) (nv : F → Bool) (k : ℕ) : List (RItem F × Bool) → Option Bool
  | [] => some true
  | c :: rest => (callVec P nv k c.1).bind fun v => (callsVec P nv k rest).map fun r => !(c.2 && !v) && r

/-- `vectorization_info` of a field, a variable or an expression (hilapp.h:230-237): vectorizable, number of elements in a vector, number type. -/
structure VecInfo where
  ok : Bool
  size : ℕ
  type : ℕ
deriving DecidableEq

/-- Bytes of the number types (vectorization_info.cpp:169-198): int, unsigned, long, unsigned long, float, double as 0 to 5; others (long double, unknown) have no vectors. -/
def numberBytes : ℕ → Option ℕ
  | 0 => some 4
  | 1 => some 4
  | 2 => some 8
  | 3 => some 8
  | 4 => some 4
  | 5 => some 8
  | _ => none

/-- `is_vectorizable_type` when vectorizing (vectorization_info.cpp:151-224): `known`: the type is in the list of types with a `base_type`, `ty` its number type, `inName`: the name of the type contains
the number type.  `target` are the bytes of a vector. -/
def typeVecInfo (target : ℕ) (known : Bool) (ty : ℕ) (inName : Bool) : VecInfo :=
  if known = false then ⟨false, 0, ty⟩
  else match numberBytes ty with
    | none => ⟨false, 0, ty⟩
    | some b => ⟨inName, target / b, ty⟩

/-- `are_vectors_compatible` (codegen_avx_new.cpp:211-233); the state is size and type of the loop, size 0 if not set. -/
def vecCompatible (v : VecInfo) (s : ℕ × ℕ) : Bool × (ℕ × ℕ) :=
  if v.ok = false then (false, s)
  else if s.1 = 0 then (true, (v.size, v.type))
  else if v.size ≠ s.1 ∨ v.type ≠ s.2 then (false, s)
  else (true, s)

/-- The loops over fields, variables and reductions (codegen_avx_new.cpp:276-327): the result is false if one is not vectorizable or not compatible. -/
def vecScan : List VecInfo → Bool × (ℕ × ℕ) → Bool × (ℕ × ℕ)
  | [], s => s
  | v :: rest, s => let c := vecCompatible v s.2
    vecScan rest (s.1 && c.1, c.2)

/-- What hilapp knows of a loop when it decides (codegen_avx_new.cpp:245-412): pragma of the loop, site dependent condition or index, number of site selections,
fields, variables with `is_raw`, `is_site_dependent`, reductions with `variable != nullptr`, names of special functions, calls with `is_site_dependent`. -/
structure VLoop (F : Type) where
  novector : Bool
  cond : Bool
  selections : ℕ
  fields : List VecInfo
  vars : List (Bool × Bool × VecInfo)
  reductions : List (Bool × VecInfo)
  special : List String
  calls : List (RItem F × Bool)

/-- The fields, the site dependent variables which are not raw, and the reductions of expressions, in the order in which they are checked
(codegen_avx_new.cpp:277, 292-293, 312-313). -/
def VLoop.infos {F : Type} (L : VLoop F) : List VecInfo :=
  L.fields ++ (L.vars.filter fun v => !v.1 && v.2.1).map (·.2.2) ++ (L.reductions.filter fun r => !r.1).map (·.2)

/-- The special functions which prevent vectorization (codegen_avx_new.cpp:331-360). -/
def specialBad (s : String) : Bool :=
  s = "coordinates" || s = "coordinate" || s = "x" || s = "y" || s = "z" || s = "t" || s = "parity" || s = "random" || s = "hila::random"

/-- `check_loop_vectorizable` (codegen_avx_new.cpp:245-412): the decision and the size of the vectors.  `none`: the bound of the searches is too small. -/
def loopVectorized {F : Type} [DecidableEq F] (P : RProg F) (nv : F → Bool) (k : ℕ) (L : VLoop F) : Option (Bool × ℕ) :=
  if L.novector then some (false, 0) else
  (containsRandom P k (L.calls.map (·.1))).bind fun rnd => (callsVec P nv k L.calls).map fun cs =>
    let s := vecScan L.infos (!L.cond && !rnd && decide (L.selections = 0), (0, 0))
    let v := s.1 && !(L.special.any specialBad) && cs
    (v && decide (s.2.1 ≠ 0), s.2.1)

end Hila
