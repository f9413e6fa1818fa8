import Verif.Model.CmdLine
import Mathlib.Tactic.Tauto
import Mathlib.Tactic.Set

/-! # The command-line parser as a function on lists of arguments -/

namespace Hila

/-- Values of `f` in a list of arguments; `ins` tells that the list starts after `f` and its first
values. -/
def valsOf (f : Str) : Bool → List Str → List Str
  | _, [] => []
  | ins, a :: r =>
    if a = f then valsOf f true r
    else if isFlag a then valsOf f false r
    else if ins then a :: valsOf f ins r else valsOf f ins r

/-- The marks set for `f`. -/
def marksOf (f : Str) : Bool → List Str → List Bool
  | _, [] => []
  | ins, a :: r =>
    if a = f then true :: marksOf f true r
    else if isFlag a then false :: marksOf f false r
    else ins :: marksOf f ins r

/-- The arguments that remain. -/
def keepOf (f : Str) : Bool → List Str → List Str
  | _, [] => []
  | ins, a :: r =>
    if a = f then keepOf f true r
    else if isFlag a then a :: keepOf f false r
    else if ins then keepOf f ins r else a :: keepOf f ins r

/-- The values directly at the start of a list. -/
abbrev headVals (r : List Str) : List Str := r.takeWhile fun a => !isFlag a

/-- The test that is made: for every occurrence that is not the last argument. -/
def countsOK (f : Str) (number : ℤ) : List Str → Prop
  | [] => True
  | a :: r => (a = f → r = [] ∨ number < 0 ∨ number = (headVals r).length) ∧ countsOK f number r

instance (f : Str) (number : ℤ) : (l : List Str) → Decidable (countsOK f number l)
  | [] => isTrue trivial
  | a :: r =>
    have : Decidable (countsOK f number r) := instDecidableCountsOK f number r
    inferInstanceAs (Decidable ((a = f → r = [] ∨ number < 0 ∨ number = (headVals r).length) ∧
      countsOK f number r))

theorem marksOf_length (f : Str) (l : List Str) : ∀ ins, (marksOf f ins l).length = l.length := by
  induction l with
  | nil => intro _; rfl
  | cons a r ih =>
    intro ins
    unfold marksOf
    split
    · simp [ih]
    · split <;> simp [ih]

theorem keepOf_eq (f : Str) (l : List Str) : ∀ ins,
    ((l.zip (marksOf f ins l)).filter fun x => !x.2).map Prod.fst = keepOf f ins l := by
  induction l with
  | nil => intro _; rfl
  | cons a r ih =>
    intro ins
    unfold marksOf keepOf
    split
    · simpa using ih true
    · split
      · simpa using ih false
      · cases ins with
        | true => simpa using ih true
        | false => simpa using ih false

theorem valsOf_append (f : Str) (hf : isFlag f = true) (v : List Str)
    (hv : ∀ a ∈ v, isFlag a = false) (r : List Str) :
    valsOf f true (v ++ r) = v ++ valsOf f true r ∧
    marksOf f true (v ++ r) = v.map (fun _ => true) ++ marksOf f true r := by
  induction v with
  | nil => exact ⟨rfl, rfl⟩
  | cons a v ih =>
    have ha := hv a List.mem_cons_self
    have hne : a ≠ f := by rintro rfl; rw [hf] at ha; cases ha
    have := ih fun b hb => hv b (List.mem_cons_of_mem _ hb)
    constructor
    · simp [valsOf, hne, ha, this.1]
    · simp [marksOf, hne, ha, this.2]

theorem countsOK_append (f : Str) (hf : isFlag f = true) (number : ℤ) (v : List Str)
    (hv : ∀ a ∈ v, isFlag a = false) (r : List Str) :
    countsOK f number (v ++ r) ↔ countsOK f number r := by
  induction v with
  | nil => rfl
  | cons a v ih =>
    have ha := hv a List.mem_cons_self
    have hne : a ≠ f := by rintro rfl; rw [hf] at ha; cases ha
    rw [List.cons_append, countsOK, ih fun b hb => hv b (List.mem_cons_of_mem _ hb)]
    tauto

/-! ### The loops -/

theorem set_at (U : List Bool) (m : ℕ) :
    (U ++ List.replicate (m + 1) false).set U.length true = (U ++ [true]) ++ List.replicate m false := by
  rw [List.set_append_right _ _ (Nat.le_refl _)]
  simp [List.replicate_succ]

/-- The inner loop takes the values at the position. -/
theorem ravValues_spec (argv pre : List Str) : ∀ (rest : List Str) (fuel : ℕ) (U : List Bool)
    (n : ℕ) (out : List Str) (pr : Bool) (done : List Str), argv = pre ++ done ++ rest →
    U.length = (pre ++ done).length → rest ≠ [] → rest.length < fuel →
    ravValues argv fuel ⟨(pre ++ done).length, (pre ++ done).length, n,
      U ++ List.replicate rest.length false, out, pr⟩ =
    .done ⟨(pre ++ done).length + (headVals rest).length, (pre ++ done).length + (headVals rest).length,
      n + (headVals rest).length,
      U ++ (headVals rest).map (fun _ => true) ++
        List.replicate (rest.length - (headVals rest).length) false, out ++ headVals rest, pr⟩ := by
  intro rest
  induction rest with
  | nil => intro _ _ _ _ _ _ _ _ h; exact absurd rfl h
  | cons a r ih =>
    intro fuel U n out pr done hargv hU _ hfuel
    cases fuel with
    | zero => omega
    | succ fuel =>
      unfold ravValues
      have hget : argv.getD (pre ++ done).length [] = a := by
        rw [hargv, List.getD_eq_getElem?_getD, List.getElem?_append_right (Nat.le_refl _)]
        simp
      dsimp only
      rw [hget]
      by_cases ha : isFlag a = true
      · rw [if_pos ha]
        simp [headVals, ha]
      · have ha' : isFlag a = false := by simpa using ha
        rw [if_neg ha, if_pos (by simp [hU])]
        have hset : (U ++ List.replicate (a :: r).length false).set (pre ++ done).length true =
            (U ++ [true]) ++ List.replicate r.length false := by
          rw [← hU]; exact set_at U r.length
        rw [hset]
        have hhv : headVals (a :: r) = a :: headVals r := by simp [headVals, ha']
        rw [hhv]
        by_cases hr : r = []
        · subst hr
          rw [if_neg (by rw [hargv]; simp; try omega)]
          simp [headVals]
        · rw [if_pos (by
            rw [hargv]
            have := List.length_pos_of_ne_nil hr
            simp only [List.length_append, List.length_cons]; omega)]
          have := ih fuel (U ++ [true]) (n + 1) (out ++ [a]) pr (done ++ [a]) (by simp [hargv])
            (by simp [hU]; omega) hr (by simp at hfuel; omega)
          have hl : (pre ++ (done ++ [a])).length = (pre ++ done).length + 1 := by simp; omega
          rw [hl] at this
          rw [this]
          simp only [List.length_cons, List.map_cons, List.append_assoc, List.cons_append,
            List.nil_append]
          congr 2
          · omega
          · omega
          · omega
          · rw [Nat.add_sub_add_right]

theorem headVals_split (r : List Str) : r = headVals r ++ r.dropWhile (fun a => !isFlag a) :=
  (List.takeWhile_append_dropWhile).symm

theorem headVals_mem (r : List Str) : ∀ a ∈ headVals r, isFlag a = false := by
  intro a ha
  have := List.all_eq_true.1 (List.all_takeWhile (p := fun a => !isFlag a) (l := r)) a ha
  simpa using this

/-- The loop marks and collects exactly the values of the flag, unless a count is wrong. -/
theorem ravLoop_spec (argv : List Str) (f : Str) (hf : isFlag f = true) (number : ℤ) :
    ∀ (m : ℕ) (rest pre : List Str) (fuel : ℕ) (U : List Bool) (n : ℕ) (out : List Str) (pr : Bool),
    rest.length ≤ m → argv = pre ++ rest → U.length = pre.length → rest.length < fuel →
    (countsOK f number rest →
      ∃ i k n', ravLoop argv f number fuel ⟨pre.length, pre.length, n,
        U ++ List.replicate rest.length false, out, pr⟩ =
      .done ⟨i, k, n', U ++ marksOf f false rest, out ++ valsOf f false rest,
        pr || decide (f ∈ rest)⟩) ∧
    (¬ countsOK f number rest →
      ravLoop argv f number fuel ⟨pre.length, pre.length, n,
        U ++ List.replicate rest.length false, out, pr⟩ = .quit) := by
  intro m
  induction m with
  | zero =>
    intro rest pre fuel U n out pr hm hargv hU hfuel
    have : rest = [] := List.length_eq_zero_iff.1 (by omega)
    subst this
    cases fuel with
    | zero => simp at hfuel
    | succ fuel =>
      refine ⟨fun _ => ⟨pre.length, pre.length, n, ?_⟩, fun h => absurd trivial h⟩
      unfold ravLoop
      rw [if_neg (by rw [hargv]; simp)]
      simp [marksOf, valsOf]
  | succ m ih =>
    intro rest pre fuel U n out pr hm hargv hU hfuel
    cases fuel with
    | zero => omega
    | succ fuel =>
    cases rest with
    | nil =>
      refine ⟨fun _ => ⟨pre.length, pre.length, n, ?_⟩, fun h => absurd trivial h⟩
      unfold ravLoop
      rw [if_neg (by rw [hargv]; simp)]
      simp [marksOf, valsOf]
    | cons a r =>
      have hget : argv.getD pre.length [] = a := by
        rw [hargv, List.getD_eq_getElem?_getD, List.getElem?_append_right (Nat.le_refl _)]; simp
      have hlen : pre.length < argv.length := by rw [hargv]; simp
      have hset : (U ++ List.replicate (a :: r).length false).set pre.length true =
            (U ++ [true]) ++ List.replicate r.length false := by
        rw [← hU]; exact set_at U r.length
      unfold ravLoop
      dsimp only
      rw [if_pos hlen, hget]
      by_cases ha : a = f
      · subst ha
        rw [if_pos rfl, if_pos (by simp [hU]), hset]
        by_cases hr : r = []
        · subst hr
          rw [if_neg (by rw [hargv]; simp)]
          refine ⟨fun _ => ⟨pre.length + 1, pre.length + 1, 0, by simp [marksOf, valsOf]⟩, fun h => absurd ?_ h⟩
          simp [countsOK]
        · have hrpos := List.length_pos_of_ne_nil hr
          rw [if_pos (by rw [hargv]; simp only [List.length_append, List.length_cons]; omega)]
          -- the inner loop
          have hin := ravValues_spec argv (pre ++ [a]) r (argv.length + 1) (U ++ [true]) 0 out true []
            (by simp [hargv]) (by simp [hU]) hr (by rw [hargv]; simp; omega)
          simp only [List.append_nil, List.length_append, List.length_cons, List.length_nil,
            Nat.zero_add] at hin
          simp only [List.length_cons] at *
          rw [hin]
          dsimp only [CmdOut.bind]
          set v := headVals r with hv
          set d := r.dropWhile (fun a => !isFlag a) with hd
          have hsplit : r = v ++ d := headVals_split r
          have hvm : ∀ b ∈ v, isFlag b = false := headVals_mem r
          have hdl : r.length = v.length + d.length := by
            conv_lhs => rw [hsplit]
            simp
          have hcount : countsOK a number (a :: r) ↔
              (number < 0 ∨ number = v.length) ∧ countsOK a number d := by
            rw [countsOK, ← hv]
            conv_lhs => rw [show countsOK a number r ↔ countsOK a number d by
              conv_lhs => rw [hsplit]
              exact countsOK_append a hf number v hvm d]
            simp [hr]
          have hvals : valsOf a false (a :: r) = v ++ valsOf a true d := by
            rw [valsOf, if_pos rfl]
            conv_lhs => rw [hsplit]
            exact (valsOf_append a hf v hvm d).1
          have hmarks : marksOf a false (a :: r) = true :: (v.map (fun _ => true) ++ marksOf a true d) := by
            rw [marksOf, if_pos rfl]
            conv_lhs => rw [hsplit]
            rw [(valsOf_append a hf v hvm d).2]
          rw [hcount, hvals, hmarks]
          have hquit : (¬ (number < 0 ∨ number = v.length)) ↔ (number ≥ 0 ∧ number ≠ (v.length : ℤ)) := by
            omega
          cases hdc : d with
          | nil =>
            -- end of the arguments
            rw [hdc] at hsplit hdl
            simp only [List.append_nil, List.length_nil, Nat.add_zero] at hsplit hdl
            have hp : argv.getD (min (pre.length + 1 + v.length) (argv.length - 1)) [] ≠ a := by
              have hvne : v ≠ [] := by rw [← hsplit]; exact hr
              have hidx : min (pre.length + 1 + v.length) (argv.length - 1) = pre.length + v.length := by
                rw [hargv]; simp only [List.length_append, List.length_cons]; omega
              rw [hidx]
              have hvpos := List.length_pos_of_ne_nil hvne
              obtain ⟨x, hx⟩ : ∃ x, v.length = x + 1 := ⟨v.length - 1, by omega⟩
              have : argv.getD (pre.length + v.length) [] ∈ v := by
                rw [List.getD_eq_getElem?_getD, hargv, List.getElem?_append_right (by omega),
                  Nat.add_sub_cancel_left, hx, List.getElem?_cons_succ, hsplit,
                  List.getElem?_eq_getElem (by omega)]
                simp
              intro h
              rw [h] at this
              have := hvm _ this
              rw [hf] at this; cases this
            rw [if_neg hp]
            have hstop : ∀ s : RavState, s.i = pre.length + 1 + v.length + 1 →
                ravLoop argv a number fuel s = .done s := by
              intro s hs
              cases fuel with
              | zero => omega
              | succ fuel =>
                unfold ravLoop
                rw [if_neg]
                rw [hs, hargv]; simp only [List.length_append, List.length_cons]; omega
            refine ⟨fun h => ?_, fun h => ?_⟩
            · rw [if_neg (fun h' => (hquit.2 h') h.1), hstop _ rfl]
              refine ⟨pre.length + 1 + v.length + 1, pre.length + 1 + v.length + 1, v.length, ?_⟩
              simp [marksOf, valsOf, hdl]
            · rw [if_pos]
              rw [← hquit]
              intro h'
              exact h ⟨h', trivial⟩
          | cons b d' =>
            rw [hdc] at hsplit hdl
            simp only [List.length_cons] at hdl
            have hbf : isFlag b = true := by
              have h1 : d ≠ [] := by rw [hdc]; simp
              have h2 := List.head_dropWhile_not (p := fun a => !isFlag a) (l := r) (by rw [← hd]; exact h1)
              have h3 : (r.dropWhile fun a => !isFlag a).head (by rw [← hd]; exact h1) = b := by
                simp only [← hd, hdc, List.head_cons]
              rw [h3] at h2
              simpa using h2
            have hargv' : argv = (pre ++ a :: v) ++ b :: d' := by rw [hargv, hsplit]; simp
            have hpl : (pre ++ a :: v).length = pre.length + 1 + v.length := by simp; omega
            have hp : argv.getD (min (pre.length + 1 + v.length) (argv.length - 1)) [] = b := by
              have hidx : min (pre.length + 1 + v.length) (argv.length - 1) =
                  (pre ++ a :: v).length := by
                rw [hargv', hpl]; simp only [List.length_append, List.length_cons]; omega
              rw [hidx, hargv', List.getD_eq_getElem?_getD, List.getElem?_append_right (Nat.le_refl _)]
              simp
            rw [hp]
            have hrep : r.length - v.length = d'.length + 1 := by omega
            rw [hrep]
            have hULen : (U ++ [true] ++ v.map (fun _ => true)).length = pre.length + 1 + v.length := by
              simp [hU]; omega
            by_cases hb : b = a
            · subst hb
              rw [if_pos rfl, if_pos ⟨by simp [hU]; omega, by omega⟩]
              have hset2 : (U ++ [true] ++ v.map (fun _ => true) ++
                  List.replicate (d'.length + 1) false).set (pre.length + 1 + v.length) true =
                  (U ++ [true] ++ v.map (fun _ => true)) ++ (true :: List.replicate d'.length false) := by
                rw [← hULen, set_at]; simp
              rw [hset2]
              -- the mark is set again in the next pass
              have hnext := ih (b :: d') (pre ++ b :: v) fuel (U ++ [true] ++ v.map (fun _ => true))
                v.length (out ++ v) true (by simp; omega) hargv'
                (by rw [hULen, hpl]) (by simp; omega)
              have hsame : ∀ (W : List Bool) (s : RavState), W.length = s.i → s.k = s.i →
                  argv.getD s.i [] = b → s.i < argv.length →
                  ravLoop argv b number fuel { s with u := W ++ (true :: List.replicate d'.length false) } =
                  ravLoop argv b number fuel { s with u := W ++ List.replicate (d'.length + 1) false } := by
                intro W s h1 h2 h3 h4
                cases fuel with
                | zero => omega
                | succ fuel =>
                  unfold ravLoop
                  dsimp only
                  have hk1 : s.k < (W ++ true :: List.replicate d'.length false).length := by
                    simp; omega
                  have hk2 : s.k < (W ++ List.replicate (d'.length + 1) false).length := by
                    simp; omega
                  rw [if_pos h4, if_pos h4, h3, if_pos rfl, if_pos rfl, if_pos hk1, if_pos hk2]
                  have : (W ++ true :: List.replicate d'.length false).set s.k true =
                      (W ++ List.replicate (d'.length + 1) false).set s.k true := by
                    rw [h2, ← h1, set_at, List.set_append_right _ _ (Nat.le_refl _)]
                    simp
                  rw [this]
              have hsub1 : pre.length + 1 + v.length - 1 + 1 = pre.length + 1 + v.length := by omega
              rw [hsub1]
              have hs := hsame (U ++ [true] ++ v.map (fun _ => true))
                ⟨pre.length + 1 + v.length, pre.length + 1 + v.length, v.length, [], out ++ v, true⟩
                hULen rfl (by
                  rw [hargv', ← hpl, List.getD_eq_getElem?_getD,
                    List.getElem?_append_right (Nat.le_refl _)]; simp)
                (by rw [hargv']; simp only [List.length_append, List.length_cons]; omega)
              dsimp only at hs
              rw [hs]
              rw [hpl] at hnext
              simp only [List.length_cons] at hnext
              refine ⟨fun h => ?_, fun h => ?_⟩
              · rw [if_neg (fun h' => (hquit.2 h') h.1)]
                obtain ⟨i, k, n', he⟩ := hnext.1 h.2
                refine ⟨i, k, n', he.trans ?_⟩
                have hm1 : marksOf b false (b :: d') = marksOf b true (b :: d') := by
                  simp [marksOf]
                have hv1 : valsOf b false (b :: d') = valsOf b true (b :: d') := by
                  simp [valsOf]
                rw [hm1, hv1]
                simp
              · by_cases hq : number < 0 ∨ number = v.length
                · rw [if_neg (fun h' => (hquit.2 h') hq)]
                  exact hnext.2 fun hc => h ⟨hq, hc⟩
                · rw [if_pos (hquit.1 hq)]
            · rw [if_neg hb]
              have hnext := ih d' (pre ++ a :: v ++ [b]) fuel
                (U ++ [true] ++ v.map (fun _ => true) ++ [false])
                v.length (out ++ v) true (by omega) (by rw [hargv']; simp)
                (by simp [hU]) (by omega)
              have hl2 : (pre ++ a :: v ++ [b]).length = pre.length + 1 + v.length + 1 := by
                simp; omega
              rw [hl2] at hnext
              have hrepl : U ++ [true] ++ v.map (fun _ => true) ++ List.replicate (d'.length + 1) false =
                  U ++ [true] ++ v.map (fun _ => true) ++ [false] ++ List.replicate d'.length false := by
                simp [List.replicate_succ]
              rw [hrepl]
              have hcd : countsOK a number (b :: d') ↔ countsOK a number d' := by
                rw [countsOK]; simp [hb]
              rw [hcd]
              refine ⟨fun h => ?_, fun h => ?_⟩
              · rw [if_neg (fun h' => (hquit.2 h') h.1)]
                obtain ⟨i, k, n', he⟩ := hnext.1 h.2
                refine ⟨i, k, n', he.trans ?_⟩
                simp [marksOf, valsOf, hb, hbf]
              · by_cases hq : number < 0 ∨ number = v.length
                · rw [if_neg (fun h' => (hquit.2 h') hq)]
                  exact hnext.2 fun hc => h ⟨hq, hc⟩
                · rw [if_pos (hquit.1 hq)]
      · rw [if_neg ha]
        have hnext := ih r (pre ++ [a]) fuel (U ++ [false]) n out pr (by simp at hm; omega)
          (by simp [hargv]) (by simp [hU]) (by simp at hfuel; omega)
        have hl2 : (pre ++ [a]).length = pre.length + 1 := by simp
        rw [hl2] at hnext
        have hrepl : U ++ List.replicate (a :: r).length false =
            U ++ [false] ++ List.replicate r.length false := by simp [List.replicate_succ]
        rw [hrepl]
        have hcd : countsOK f number (a :: r) ↔ countsOK f number r := by
          rw [countsOK]; simp [ha]
        rw [hcd]
        refine ⟨fun h => ?_, fun h => hnext.2 h⟩
        obtain ⟨i, k, n', he⟩ := hnext.1 h
        refine ⟨i, k, n', he.trans ?_⟩
        have hm1 : marksOf f false (a :: r) = false :: marksOf f false r := by
          simp [marksOf, ha]
        have hv1 : valsOf f false (a :: r) = valsOf f false r := by simp [valsOf, ha]
        rw [hm1, hv1]
        have : (decide (f ∈ a :: r)) = decide (f ∈ r) := by
          simp [List.mem_cons, Ne.symm ha]
        rw [this]
        simp

theorem readArgVector_spec (argv : List Str) (f : Str) (hf : isFlag f = true) (number : ℤ) :
    readArgVector argv f number = if countsOK f number argv then
      .done (valsOf f false argv, decide (f ∈ argv), keepOf f false argv) else .quit := by
  have key := ravLoop_spec argv f hf number argv.length argv [] (argv.length + 1) [] 0 [] false
    (Nat.le_refl _) rfl rfl (by omega)
  simp only [List.length_nil, List.nil_append, Bool.false_or] at key
  unfold readArgVector
  split
  · rename_i h
    obtain ⟨i, k, n', he⟩ := key.1 h
    rw [he]
    dsimp only [CmdOut.bind]
    rw [keepOf_eq]
  · rename_i h
    rw [key.2 h]
    rfl

end Hila
