import Verif.Model.SiteDep
import Verif.Model.LoopBodySpec

/-!
# Site dependence and vectorised bodies

`Fits` says what the analysis guarantees about a statement; it is enough for running the statement on vectors, and it
holds for bodies that the analysis lets pass.
-/

namespace Hila
namespace Body

/-! ### Fixed point -/

theorem sweep_mono (deps : ℕ → List ℕ) (vars : List ℕ) :
    ∀ (flag : ℕ → Bool) (k : ℕ), flag k = true → sweep deps vars flag k = true := by
  unfold sweep
  induction vars with
  | nil => intro flag k h; exact h
  | cons v vars ih =>
    intro flag k h
    rw [List.foldl_cons]
    apply ih
    split
    · by_cases e : k = v
      · subst e; simp
      · rw [Function.update_of_ne e]; exact h
    · exact h

theorem sweep_other (deps : ℕ → List ℕ) (vars : List ℕ) :
    ∀ (flag : ℕ → Bool) (k : ℕ), k ∉ vars → sweep deps vars flag k = flag k := by
  unfold sweep
  induction vars with
  | nil => intro flag k _; rfl
  | cons v vars ih =>
    intro flag k h
    rw [List.foldl_cons, ih _ _ (fun hk => h (List.mem_cons_of_mem _ hk))]
    split
    · rw [Function.update_of_ne (fun e => h (by simp [e]))]
    · rfl

theorem sweep_fixed (deps : ℕ → List ℕ) (vars : List ℕ) :
    ∀ flag : ℕ → Bool, sweep deps vars flag = flag →
      ∀ k ∈ vars, flag k = false → ∀ j ∈ deps k, flag j = false := by
  induction vars with
  | nil => intro flag _ k hk; cases hk
  | cons v vars ih =>
    intro flag h k hk hf j hj
    have hstep : sweep deps (v :: vars) flag =
        sweep deps vars (if flag v = false ∧ (deps v).any flag then Function.update flag v true else flag) := rfl
    by_cases hc : flag v = false ∧ (deps v).any flag
    · exfalso
      rw [hstep, if_pos hc] at h
      have := sweep_mono deps vars (Function.update flag v true) v (by simp)
      rw [h, hc.1] at this
      cases this
    · rw [hstep, if_neg hc] at h
      rcases List.mem_cons.1 hk with e | e
      · subst e
        by_contra hjf
        apply hc
        refine ⟨hf, ?_⟩
        rw [List.any_eq_true]
        exact ⟨j, hj, by simpa using hjf⟩
      · exact ih flag h k e hf j hj

theorem countP_lt {p q : ℕ → Bool} (l : List ℕ) (h : ∀ k ∈ l, p k = true → q k = true)
    (hk : ∃ k ∈ l, p k = false ∧ q k = true) : l.countP p < l.countP q := by
  induction l with
  | nil => obtain ⟨k, hk, _⟩ := hk; cases hk
  | cons a l ih =>
    have hle : l.countP p ≤ l.countP q := List.countP_mono_left fun x hx => h x (by simp [hx])
    obtain ⟨k, hk, k1, k2⟩ := hk
    rcases List.mem_cons.1 hk with e | e
    · subst e
      rw [List.countP_cons, List.countP_cons, k1, k2]
      simp; omega
    · have := ih (fun x hx => h x (by simp [hx])) ⟨k, e, k1, k2⟩
      rw [List.countP_cons, List.countP_cons]
      have ha := h a (by simp)
      cases hp : p a
      · cases hq : q a <;> simp <;> omega
      · rw [ha hp]; simp; omega

theorem sweeps_spec (deps : ℕ → List ℕ) (vars : List ℕ) :
    ∀ (n : ℕ) (flag : ℕ → Bool), vars.countP (fun k => !flag k) < n →
      (∀ k, flag k = true → sweeps deps vars n flag k = true) ∧
      (∀ k, k ∉ vars → sweeps deps vars n flag k = flag k) ∧
      ∀ k ∈ vars, sweeps deps vars n flag k = false → ∀ j ∈ deps k, sweeps deps vars n flag j = false := by
  intro n
  induction n with
  | zero => intro flag h; omega
  | succ n ih =>
    intro flag h
    unfold sweeps
    by_cases hc : (vars.all fun k => sweep deps vars flag k == flag k) = true
    · rw [if_pos hc]
      refine ⟨sweep_mono deps vars flag, sweep_other deps vars flag, ?_⟩
      have he : sweep deps vars flag = flag := by
        funext k
        by_cases hk : k ∈ vars
        · rw [List.all_eq_true] at hc
          simpa using hc k hk
        · exact sweep_other deps vars flag k hk
      rw [he]
      exact sweep_fixed deps vars flag he
    · rw [if_neg hc]
      have hlt : vars.countP (fun k => !sweep deps vars flag k) < vars.countP (fun k => !flag k) := by
        apply countP_lt
        · intro k _ hk
          by_contra hcon
          have : flag k = true := by simpa using hcon
          rw [sweep_mono deps vars flag k this] at hk
          cases hk
        · simp only [List.all_eq_true, not_forall] at hc
          obtain ⟨k, hk, hne⟩ := hc
          refine ⟨k, hk, ?_⟩
          cases hf : flag k
          · rw [hf] at hne
            have : sweep deps vars flag k = true := by simpa using hne
            simp [this]
          · rw [hf, sweep_mono deps vars flag k hf] at hne
            exact absurd rfl hne
      obtain ⟨a1, a2, a3⟩ := ih (sweep deps vars flag) (by omega)
      refine ⟨fun k hk => a1 k (sweep_mono deps vars flag k hk), fun k hk => ?_, a3⟩
      rw [a2 k hk, sweep_other deps vars flag k hk]

/-! ### What the analysis guarantees -/

/-- Nothing in the expression depends on the site. -/
def Expr.Plain {F V : Type} (xs flag : ℕ → Bool) (e : Expr F V) : Prop :=
  none ∉ e.atoms xs ∧ ∀ j, some j ∈ e.atoms xs → flag j = false

/-- Indices and conditions in the expression do not depend on the site. -/
def Expr.Fits {F V : Type} (xs flag : ℕ → Bool) : Expr F V → Prop
  | .op _ a b => a.Fits xs flag ∧ b.Fits xs flag
  | .table _ _ i => i.Plain xs flag ∧ i.Fits xs flag
  | .cond _ _ x a b => x.Plain xs flag ∧ x.Fits xs flag ∧ a.Fits xs flag ∧ b.Fits xs flag
  | _ => True

/-- The same for statements; variables that are not marked are only set to expressions that do not depend on the
site. -/
def Stmt.Fits {F V : Type} (xs flag : ℕ → Bool) : Stmt F V → Prop
  | .assign _ e => e.Fits xs flag
  | .update _ _ e => e.Fits xs flag
  | .setLoc k e => (flag k = true ∨ e.Plain xs flag) ∧ e.Fits xs flag
  | .binAdd _ _ => False
  | .andAssign _ x _ e => x.Fits xs flag ∧ e.Fits xs flag
  | .ite _ _ x a b => x.Plain xs flag ∧ x.Fits xs flag ∧ a.Fits xs flag ∧ b.Fits xs flag
  | .loop _ _ _ x a => x.Plain xs flag ∧ x.Fits xs flag ∧ a.Fits xs flag
  | .cont => True
  | .skip => True
  | .seq a b => a.Fits xs flag ∧ b.Fits xs flag
  | .block a => a.Fits xs flag

/-! ### Vectors -/

section
variable {F ι V : Type} (xs flag : ℕ → Bool) (outer : ℕ → V) (lanes : ι → ℕ → V)

/-- The variables of the vectorised body and those of the sites belong together. -/
def SameLanes (s : VState F ι V) (t : ι → State F V) : Prop :=
  ∀ i, (∀ f, (t i).fld f = s.fld f i) ∧
    ∀ k, (t i).loc k = if flag k then s.many k i else s.one k

theorem op2_lane (g : Option V → Option V → Option V) (x y : VVal ι V) (i : ι) :
    (VVal.op2 g x y).lane i = g (x.lane i) (y.lane i) := by
  cases x <;> cases y <;> rfl

/-- Ordinary value. -/
def VVal.IsOne : VVal ι V → Prop
  | .one _ => True
  | .many _ => False

theorem veval_spec (s : VState F ι V) (t : ι → State F V) (h : SameLanes flag s t) :
    ∀ e : Expr F V, e.Fits xs flag → ∃ x, e.veval xs flag outer lanes s = some x ∧
      (∀ i, x.lane i = e.eval (fun k => if xs k then lanes i k else outer k) (t i)) ∧
      (e.Plain xs flag → x.IsOne) := by
  intro e
  induction e with
  | lit v => intro _; exact ⟨_, rfl, fun _ => rfl, fun _ => trivial⟩
  | env k =>
    intro _
    refine ⟨_, rfl, fun i => ?_, fun hp => ?_⟩
    · unfold Expr.eval
      split <;> simp_all [VVal.lane]
    · have : xs k = false := by
        by_contra hc
        have hc : xs k = true := by simpa using hc
        exact hp.1 (by simp [Expr.atoms, hc])
      rw [this]; trivial
  | loc k =>
    intro _
    refine ⟨_, rfl, fun i => ?_, fun hp => ?_⟩
    · unfold Expr.eval
      rw [(h i).2 k]
      split <;> rfl
    · have : flag k = false := hp.2 k (by simp [Expr.atoms])
      rw [this]; trivial
  | fld f =>
    intro _
    refine ⟨_, rfl, fun i => ?_, fun hp => ?_⟩
    · exact ((h i).1 f).symm
    · exact absurd (by simp [Expr.atoms]) hp.1
  | op g a b iha ihb =>
    rintro ⟨ha, hb⟩
    obtain ⟨x, x1, x2, x3⟩ := iha ha
    obtain ⟨y, y1, y2, y3⟩ := ihb hb
    refine ⟨VVal.op2 (fun u w => u.bind fun u => w.bind fun w => some (g u w)) x y, ?_, fun i => ?_,
      fun hp => ?_⟩
    · simp only [Expr.veval, x1, y1, Option.bind_some]
    · rw [op2_lane, x2, y2]; rfl
    · have p1 : a.Plain xs flag :=
        ⟨fun hn => hp.1 (by simp [Expr.atoms, hn]), fun j hj => hp.2 j (by simp [Expr.atoms, hj])⟩
      have p2 : b.Plain xs flag :=
        ⟨fun hn => hp.1 (by simp [Expr.atoms, hn]), fun j hj => hp.2 j (by simp [Expr.atoms, hj])⟩
      have q1 := x3 p1
      have q2 := y3 p2
      cases x
      · cases y
        · trivial
        · exact q2.elim
      · exact q1.elim
  | table t' dep i ih =>
    rintro ⟨hp, hf⟩
    obtain ⟨x, x1, x2, x3⟩ := ih hf
    have q := x3 hp
    cases x with
    | many _ => exact q.elim
    | one x =>
      refine ⟨.one (x.bind fun x => some (t' x)), ?_, fun j => ?_, fun _ => trivial⟩
      · simp only [Expr.veval, x1, Option.bind_some]
      · have := x2 j
        simp only [VVal.lane] at this
        simp only [VVal.lane, Expr.eval, ← this]
  | cond dep test x a b ihx iha ihb =>
    rintro ⟨hp, hx, ha, hb⟩
    obtain ⟨c, c1, c2, c3⟩ := ihx hx
    obtain ⟨u, u1, u2, u3⟩ := iha ha
    obtain ⟨w, w1, w2, w3⟩ := ihb hb
    have q := c3 hp
    cases c with
    | many _ => exact q.elim
    | one c =>
      refine ⟨VVal.op2 (fun u w => c.bind fun v => if test v then u else w) u w, ?_, fun i => ?_,
        fun hpl => ?_⟩
      · simp only [Expr.veval, c1, u1, w1, Option.bind_some]
      · have := c2 i
        simp only [VVal.lane] at this
        rw [op2_lane, u2, w2]
        simp only [Expr.eval, ← this]
      · have p1 : a.Plain xs flag :=
          ⟨fun hn => hpl.1 (by simp [Expr.atoms, hn]), fun j hj => hpl.2 j (by simp [Expr.atoms, hj])⟩
        have p2 : b.Plain xs flag :=
          ⟨fun hn => hpl.1 (by simp [Expr.atoms, hn]), fun j hj => hpl.2 j (by simp [Expr.atoms, hj])⟩
        have q1 := u3 p1
        have q2 := w3 p2
        cases u
        · cases w
          · trivial
          · exact q2.elim
        · exact q1.elim

/-- What the statements about running share. -/
theorem one_of {x : VVal ι V} (h : x.IsOne) : ∃ v, x = .one v := by
  cases x with
  | one v => exact ⟨v, rfl⟩
  | many v => exact h.elim

theorem vloop_spec [Nonempty ι] {n : ℕ} {test : V → Bool} {x : Expr F V}
    {body : ι → State F V → Option (Bool × State F V)}
    {vbody : VState F ι V → Option (Bool × VState F ι V)} (hp : x.Plain xs flag) (hx : x.Fits xs flag)
    (hb : ∀ (s : VState F ι V) (t : ι → State F V), SameLanes flag s t → (∀ i, (body i (t i)).isSome = true) →
      ∃ c s' t', vbody s = some (c, s') ∧ (∀ i, body i (t i) = some (c, t' i)) ∧ SameLanes flag s' t') :
    ∀ (s : VState F ι V) (t : ι → State F V), SameLanes flag s t →
      (∀ i, (loopRun (fun s => (x.eval (fun k => if xs k then lanes i k else outer k) s).map test)
        (body i) n (t i)).isSome = true) →
      ∃ c s' t', loopRun (fun s => (x.veval xs flag outer lanes s).bind fun v => v.test test) vbody n s =
          some (c, s') ∧
        (∀ i, loopRun (fun s => (x.eval (fun k => if xs k then lanes i k else outer k) s).map test)
          (body i) n (t i) = some (c, t' i)) ∧ SameLanes flag s' t' := by
  induction n with
  | zero => intro s t h _; exact ⟨false, s, t, rfl, fun _ => rfl, h⟩
  | succ n ih =>
    intro s t h hd
    obtain ⟨y, y1, y2, y3⟩ := veval_spec xs flag outer lanes s t h x hx
    obtain ⟨v, rfl⟩ := one_of (y3 hp)
    have y2' : ∀ i, v = x.eval (fun k => if xs k then lanes i k else outer k) (t i) := y2
    cases v with
    | none =>
      obtain ⟨i⟩ := ‹Nonempty ι›
      have := hd i
      simp only [loopRun, ← y2' i] at this
      cases this
    | some v =>
      cases ht : test v
      · refine ⟨false, s, t, ?_, fun i => ?_, h⟩
        · simp [loopRun, y1, VVal.test, ht]
        · simp only [loopRun, ← y2' i]
          simp [ht]
      · have hd' : ∀ i, ((body i (t i)).bind fun r =>
            loopRun (fun s => (x.eval (fun k => if xs k then lanes i k else outer k) s).map test)
              (body i) n r.2).isSome = true := by
          intro i
          have := hd i
          simp only [loopRun, ← y2' i] at this
          simpa [ht] using this
        obtain ⟨c, s1, t1, b1, b2, b3⟩ := hb s t h fun i => by
          have := hd' i
          cases hq : body i (t i)
          · rw [hq] at this; cases this
          · rfl
        obtain ⟨c', s2, t2, d1, d2, d3⟩ := ih s1 t1 b3 fun i => by
          have := hd' i
          rw [b2 i] at this
          exact this
        refine ⟨c', s2, t2, ?_, fun i => ?_, d3⟩
        · simp only [loopRun, y1, VVal.test, Option.bind_some, Option.map_some, ht, if_true, b1]
          exact d1
        · simp only [loopRun, ← y2' i, Option.map_some, Option.bind_some, ht, if_true, b2 i, d2 i]

theorem vexec_spec [Nonempty ι] [DecidableEq F] :
    ∀ (a : Stmt F V), a.Fits xs flag → a.shortcuts = false →
      ∀ (s : VState F ι V) (t : ι → State F V), SameLanes flag s t →
      (∀ i, (a.exec (fun k => if xs k then lanes i k else outer k) (t i)).isSome = true) →
      ∃ c s' t', a.vexec xs flag outer lanes s = some (c, s') ∧
        (∀ i, a.exec (fun k => if xs k then lanes i k else outer k) (t i) = some (c, t' i)) ∧
        SameLanes flag s' t' := by
  intro a
  induction a with
  | assign f e =>
    intro hf _ s t h hd
    obtain ⟨x, x1, x2, -⟩ := veval_spec xs flag outer lanes s t h e hf
    refine ⟨false, { s with fld := Function.update s.fld f x.lane },
      fun i => { t i with fld := Function.update (t i).fld f (x.lane i) }, ?_, fun i => ?_, fun i => ?_⟩
    · simp only [Stmt.vexec, x1, Option.bind_some]
    · have := hd i
      simp only [Stmt.exec, ← x2 i] at this ⊢
      cases hx : x.lane i
      · rw [hx] at this; cases this
      · rfl
    · refine ⟨fun g => ?_, (h i).2⟩
      show Function.update (t i).fld f (x.lane i) g = Function.update s.fld f x.lane g i
      by_cases e : g = f
      · subst e; simp
      · rw [Function.update_of_ne e, Function.update_of_ne e, (h i).1]
  | update f g e =>
    intro hf _ s t h hd
    obtain ⟨x, x1, x2, -⟩ := veval_spec xs flag outer lanes s t h e hf
    refine ⟨false, { s with
        fld := Function.update s.fld f fun i =>
          (x.lane i).bind fun v => (s.fld f i).bind fun w => some (g w v) },
      fun i => { t i with
        fld := Function.update (t i).fld f ((x.lane i).bind fun v => (s.fld f i).bind fun w => some (g w v)) },
      ?_, fun i => ?_, fun i => ?_⟩
    · simp only [Stmt.vexec, x1, Option.bind_some]
    · have := hd i
      simp only [Stmt.exec, ← x2 i, (h i).1 f] at this ⊢
      cases hx : x.lane i
      · rw [hx] at this; cases this
      · cases hw : s.fld f i
        · rw [hx, hw] at this; cases this
        · rfl
    · refine ⟨fun f' => ?_, (h i).2⟩
      show Function.update (t i).fld f _ f' = Function.update s.fld f _ f' i
      by_cases e : f' = f
      · subst e; simp
      · rw [Function.update_of_ne e, Function.update_of_ne e, (h i).1]
  | setLoc k e =>
    rintro ⟨hk, hf⟩ _ s t h hd
    obtain ⟨x, x1, x2, x3⟩ := veval_spec xs flag outer lanes s t h e hf
    have hex : ∀ i, (Stmt.setLoc k e).exec (fun k => if xs k then lanes i k else outer k) (t i) =
        some (false, { t i with loc := Function.update (t i).loc k (x.lane i) }) := by
      intro i
      have := hd i
      simp only [Stmt.exec, ← x2 i] at this ⊢
      cases hx : x.lane i
      · rw [hx] at this; cases this
      · rfl
    cases hfl : flag k
    · have hpl : e.Plain xs flag := by
        rcases hk with hk | hk
        · rw [hfl] at hk; cases hk
        · exact hk
      obtain ⟨v, rfl⟩ := one_of (x3 hpl)
      refine ⟨false, { s with one := Function.update s.one k v }, _, ?_, hex, fun i => ⟨(h i).1, fun j => ?_⟩⟩
      · simp only [Stmt.vexec, x1, Option.bind_some, hfl]
        rfl
      · show Function.update (t i).loc k v j = if flag j then s.many j i else Function.update s.one k v j
        by_cases e : j = k
        · subst e; simp [hfl]
        · rw [Function.update_of_ne e, Function.update_of_ne e, (h i).2]
    · refine ⟨false, { s with many := Function.update s.many k x.lane }, _, ?_, hex,
        fun i => ⟨(h i).1, fun j => ?_⟩⟩
      · simp only [Stmt.vexec, x1, Option.bind_some, hfl, if_true]
      · show Function.update (t i).loc k (x.lane i) j =
          if flag j then Function.update s.many k x.lane j i else s.one j
        by_cases e : j = k
        · subst e; simp [hfl]
        · rw [Function.update_of_ne e, Function.update_of_ne e, (h i).2]
  | binAdd i e => intro hf; exact hf.elim
  | andAssign test x f e => intro _ hs; cases hs
  | ite dep test x a b iha ihb =>
    rintro ⟨hp, hx, ha, hb⟩ hs s t h hd
    obtain ⟨y, y1, y2, y3⟩ := veval_spec xs flag outer lanes s t h x hx
    obtain ⟨v, rfl⟩ := one_of (y3 hp)
    have y2' : ∀ i, v = x.eval (fun k => if xs k then lanes i k else outer k) (t i) := y2
    have hs' : a.shortcuts = false ∧ b.shortcuts = false := by simpa [Stmt.shortcuts] using hs
    cases v with
    | none =>
      obtain ⟨i⟩ := ‹Nonempty ι›
      have := hd i
      simp only [Stmt.exec, ← y2' i] at this
      cases this
    | some v =>
      cases ht : test v
      · obtain ⟨c, s', t', r1, r2, r3⟩ := ihb hb hs'.2 s t h fun i => by
          have := hd i
          simp only [Stmt.exec, ← y2' i, Option.bind_some, ht] at this
          exact this
        refine ⟨c, s', t', ?_, fun i => ?_, r3⟩
        · simp only [Stmt.vexec, y1, VVal.test, Option.bind_some, Option.map_some, ht]
          exact r1
        · simp only [Stmt.exec, ← y2' i, Option.bind_some, ht]
          exact r2 i
      · obtain ⟨c, s', t', r1, r2, r3⟩ := iha ha hs'.1 s t h fun i => by
          have := hd i
          simp only [Stmt.exec, ← y2' i, Option.bind_some, ht] at this
          exact this
        refine ⟨c, s', t', ?_, fun i => ?_, r3⟩
        · simp only [Stmt.vexec, y1, VVal.test, Option.bind_some, Option.map_some, ht]
          exact r1
        · simp only [Stmt.exec, ← y2' i, Option.bind_some, ht]
          exact r2 i
  | loop turns dep test x a iha =>
    rintro ⟨hp, hx, ha⟩ hs s t h hd
    exact vloop_spec xs flag outer lanes (body := fun i => a.exec (fun k => if xs k then lanes i k else outer k))
      (vbody := a.vexec xs flag outer lanes) hp hx (iha ha hs) s t h hd
  | cont => intro _ _ s t h _; exact ⟨true, s, t, rfl, fun _ => rfl, h⟩
  | skip => intro _ _ s t h _; exact ⟨false, s, t, rfl, fun _ => rfl, h⟩
  | seq a b iha ihb =>
    rintro ⟨ha, hb⟩ hs s t h hd
    have hs' : a.shortcuts = false ∧ b.shortcuts = false := by simpa [Stmt.shortcuts] using hs
    obtain ⟨c, s1, t1, r1, r2, r3⟩ := iha ha hs'.1 s t h fun i => by
      have := hd i
      simp only [Stmt.exec] at this
      cases hq : a.exec (fun k => if xs k then lanes i k else outer k) (t i)
      · rw [hq] at this; cases this
      · rfl
    cases c
    · obtain ⟨c', s2, t2, d1, d2, d3⟩ := ihb hb hs'.2 s1 t1 r3 fun i => by
        have := hd i
        simp only [Stmt.exec, r2 i] at this
        exact this
      refine ⟨c', s2, t2, ?_, fun i => ?_, d3⟩
      · simp only [Stmt.vexec, r1]
        exact d1
      · simp only [Stmt.exec, r2 i]
        exact d2 i
    · refine ⟨true, s1, t1, ?_, fun i => ?_, r3⟩
      · simp only [Stmt.vexec, r1]
        rfl
      · simp only [Stmt.exec, r2 i]
        rfl
  | block a iha => intro hf hs s t h hd; exact iha hf hs s t h hd

end

/-! ### The analysis gives `Fits` -/

/-- Later states of the analysis know at least as much. -/
structure Dep.Le (d d' : Dep) : Prop where
  vars : ∀ k ∈ d.vars, k ∈ d'.vars
  flag : ∀ k, d.flag k = true → d'.flag k = true
  deps : ∀ k, ∀ j ∈ d.deps k, j ∈ d'.deps k
  cond : d.cond = true → d'.cond = true
  condVars : ∀ k ∈ d.condVars, k ∈ d'.condVars

theorem Dep.Le.rfl' (d : Dep) : d.Le d :=
  ⟨fun _ h => h, fun _ h => h, fun _ _ h => h, fun h => h, fun _ h => h⟩

theorem Dep.Le.trans {a b c : Dep} (h : a.Le b) (h' : b.Le c) : a.Le c :=
  ⟨fun k hk => h'.vars k (h.vars k hk), fun k hk => h'.flag k (h.flag k hk),
    fun k j hj => h'.deps k j (h.deps k j hj), fun hk => h'.cond (h.cond hk),
    fun k hk => h'.condVars k (h.condVars k hk)⟩

section
variable {F V : Type} (xs : ℕ → Bool)

theorem noteIndex_le (e : Expr F V) (d : Dep) : d.Le (d.noteIndex xs e) :=
  ⟨fun _ h => h, fun _ h => h, fun _ _ h => h, fun h => by simp [Dep.noteIndex, h],
    fun k h => by simp [Dep.noteIndex, h]⟩

theorem noteCond_le (e : Expr F V) (d : Dep) : d.Le (d.noteCond xs e) := by
  unfold Dep.noteCond
  split
  · exact Dep.Le.rfl' d
  · exact noteIndex_le xs e d

theorem noteSet_le (k : ℕ) (e : Expr F V) (d : Dep) : d.Le (d.noteSet xs k e) := by
  have hv : ∀ j ∈ d.vars, j ∈ (if k ∈ d.vars then d.vars else d.vars ++ [k]) := by
    intro j hj; split <;> simp [hj]
  unfold Dep.noteSet
  by_cases hk : d.flag k = true
  · simp only [hk, if_true]
    exact ⟨hv, fun _ h => h, fun _ _ h => h, fun h => h, fun _ h => h⟩
  · simp only [hk]
    refine ⟨hv, fun j h => ?_, fun j l h => ?_, fun h => h, fun _ h => h⟩
    · have : j ≠ k := fun e => hk (e ▸ h)
      simpa [Function.update_of_ne this] using h
    · by_cases e : j = k
      · subst e; simp [h]
      · simpa [Function.update_of_ne e] using h

theorem enote_le (e : Expr F V) : ∀ d : Dep, d.Le (e.note xs d) := by
  induction e with
  | lit v => exact Dep.Le.rfl'
  | env k => exact Dep.Le.rfl'
  | loc k => exact Dep.Le.rfl'
  | fld f => exact Dep.Le.rfl'
  | op g a b iha ihb => exact fun d => (iha d).trans (ihb _)
  | table t dep i ih => exact fun d => (noteIndex_le xs i d).trans (ih _)
  | cond dep test x a b ihx iha ihb =>
    exact fun d => (ihx d).trans ((iha _).trans ((ihb _).trans (noteCond_le xs x _)))

theorem snote_le (a : Stmt F V) : ∀ d : Dep, d.Le (a.note xs d) := by
  induction a with
  | assign f e => exact enote_le xs e
  | update f g e => exact enote_le xs e
  | setLoc k e => exact fun d => (noteSet_le xs k e d).trans (enote_le xs e _)
  | binAdd i e =>
    intro d
    have : d.Le { d with cond := true } :=
      ⟨fun _ h => h, fun _ h => h, fun _ _ h => h, fun _ => rfl, fun _ h => h⟩
    exact this.trans ((enote_le xs i _).trans (enote_le xs e _))
  | andAssign test x f e => exact fun d => (enote_le xs x d).trans (enote_le xs e _)
  | ite dep test x a b iha ihb =>
    exact fun d => (enote_le xs x d).trans ((iha _).trans ((ihb _).trans (noteCond_le xs x _)))
  | loop turns dep test x a iha =>
    exact fun d => (enote_le xs x d).trans ((iha _).trans (noteCond_le xs x _))
  | cont => exact Dep.Le.rfl'
  | skip => exact Dep.Le.rfl'
  | seq a b iha ihb => exact fun d => (iha d).trans (ihb _)
  | block a iha => exact iha

theorem scan_spec (flag : ℕ → Bool) :
    ∀ l : List (Option ℕ), (scan flag l).1 = false →
      none ∉ l ∧ ∀ j, some j ∈ l → j ∈ (scan flag l).2 := by
  intro l
  induction l with
  | nil => intro _; simp
  | cons a l ih =>
    cases a with
    | none => intro h; cases h
    | some k =>
      intro h
      unfold scan at h ⊢
      by_cases hk : flag k = true
      · rw [if_pos hk] at h; cases h
      · rw [if_neg hk] at h ⊢
        obtain ⟨h1, h2⟩ := ih h
        refine ⟨by simpa using h1, fun j hj => ?_⟩
        rcases List.mem_cons.1 hj with e | e
        · cases e; simp
        · exact List.mem_cons_of_mem _ (h2 j e)

/-- The final state `d` of the analysis and the final flags. -/
structure Final (d : Dep) (flag : ℕ → Bool) : Prop where
  mono : ∀ k, d.flag k = true → flag k = true
  closed : ∀ k ∈ d.vars, flag k = false → ∀ j ∈ d.deps k, flag j = false
  cond : d.cond = false
  condVars : ∀ k ∈ d.condVars, flag k = false

theorem set_plain {D : Dep} {flag : ℕ → Bool} (hmono : ∀ k, D.flag k = true → flag k = true)
    (hclosed : ∀ k ∈ D.vars, flag k = false → ∀ j ∈ D.deps k, flag j = false)
    (k : ℕ) (e : Expr F V) (d : Dep) (h : (d.noteSet xs k e).Le D) :
    flag k = true ∨ e.Plain xs flag := by
  cases hfk : flag k
  · right
    have hdk : d.flag k = false := by
      by_contra hc
      have hc : d.flag k = true := by simpa using hc
      have := hmono k (h.flag k ((noteSet_le xs k e d).flag k hc))
      rw [hfk] at this; cases this
    have hvk : k ∈ (d.noteSet xs k e).vars := by
      unfold Dep.noteSet
      simp only [hdk]
      by_cases hm : k ∈ d.vars <;> simp [hm]
    have hs : (scan d.flag (e.atoms xs)).1 = false := by
      by_contra hcon
      have hcon : (scan d.flag (e.atoms xs)).1 = true := by simpa using hcon
      have := hmono k (h.flag k (by simp [Dep.noteSet, hdk, hcon]))
      rw [hfk] at this; cases this
    obtain ⟨h1, h2⟩ := scan_spec d.flag _ hs
    refine ⟨h1, fun j hj => hclosed k (h.vars k hvk) hfk j (h.deps k j ?_)⟩
    simp [Dep.noteSet, hdk, h2 j hj]
  · exact .inl rfl

/-- No `if`, loop or `continue`. -/
def Stmt.straight {F V : Type} : Stmt F V → Bool
  | .ite .. => false
  | .loop .. => false
  | .cont => false
  | .seq a b => a.straight && b.straight
  | .block a => a.straight
  | _ => true

/-- Variables that are not marked are only set to expressions that do not depend on the site. -/
def Stmt.SetsPlain {F V : Type} (xs flag : ℕ → Bool) : Stmt F V → Prop
  | .setLoc k e => flag k = true ∨ e.Plain xs flag
  | .ite _ _ _ a b => a.SetsPlain xs flag ∧ b.SetsPlain xs flag
  | .loop _ _ _ _ a => a.SetsPlain xs flag
  | .seq a b => a.SetsPlain xs flag ∧ b.SetsPlain xs flag
  | .block a => a.SetsPlain xs flag
  | _ => True

theorem snote_sets {D : Dep} {flag : ℕ → Bool} (hmono : ∀ k, D.flag k = true → flag k = true)
    (hclosed : ∀ k ∈ D.vars, flag k = false → ∀ j ∈ D.deps k, flag j = false) (a : Stmt F V) :
    ∀ d, (a.note xs d).Le D → a.SetsPlain xs flag := by
  induction a with
  | setLoc k e => exact fun d h => set_plain xs hmono hclosed k e d ((enote_le xs e _).trans h)
  | ite dep test x a b iha ihb =>
    intro d h
    have h3 := (noteCond_le xs x _).trans h
    exact ⟨iha _ ((snote_le xs b _).trans h3), ihb _ h3⟩
  | loop turns dep test x a iha => exact fun d h => iha _ ((noteCond_le xs x _).trans h)
  | seq a b iha ihb => exact fun d h => ⟨iha d ((snote_le xs b _).trans h), ihb _ h⟩
  | block a iha => exact iha
  | _ => exact fun _ _ => trivial

/-- The value of an expression without anything that depends on the site. -/
theorem eval_plain {flag : ℕ → Bool} {env env' : ℕ → V} (he : ∀ k, xs k = false → env k = env' k) {s s' : State F V}
    (hs : ∀ k, flag k = false → s.loc k = s'.loc k) (e : Expr F V) (hp : e.Plain xs flag) : e.eval env s = e.eval env' s' := by
  induction e with
  | lit v => rfl
  | env k =>
    have : xs k = false := by
      by_contra hc
      exact hp.1 (by simp [Expr.atoms, hc])
    simp only [Expr.eval, he k this]
  | loc k => exact hs k (hp.2 k (by simp [Expr.atoms]))
  | fld f => exact absurd (by simp [Expr.atoms]) hp.1
  | op g a b iha ihb =>
    simp only [Expr.eval]
    rw [iha ⟨fun hn => hp.1 (by simp [Expr.atoms, hn]), fun j hj => hp.2 j (by simp [Expr.atoms, hj])⟩,
      ihb ⟨fun hn => hp.1 (by simp [Expr.atoms, hn]), fun j hj => hp.2 j (by simp [Expr.atoms, hj])⟩]
  | table t dep i ih =>
    simp only [Expr.eval]
    rw [ih ⟨fun hn => hp.1 (by simp [Expr.atoms, hn]), fun j hj => hp.2 j (by simp [Expr.atoms, hj])⟩]
  | cond dep test x a b ihx iha ihb =>
    simp only [Expr.eval]
    rw [ihx ⟨fun hn => hp.1 (by simp [Expr.atoms, hn]), fun j hj => hp.2 j (by simp [Expr.atoms, hj])⟩,
      iha ⟨fun hn => hp.1 (by simp [Expr.atoms, hn]), fun j hj => hp.2 j (by simp [Expr.atoms, hj])⟩,
      ihb ⟨fun hn => hp.1 (by simp [Expr.atoms, hn]), fun j hj => hp.2 j (by simp [Expr.atoms, hj])⟩]

theorem exec_sets [DecidableEq F] {flag : ℕ → Bool} {env env' : ℕ → V} (he : ∀ k, xs k = false → env k = env' k) (a : Stmt F V) :
    a.straight = true → a.SetsPlain xs flag → ∀ s s' t t' : State F V, ∀ c c', (∀ k, flag k = false → s.loc k = s'.loc k) →
      a.exec env s = some (c, t) → a.exec env' s' = some (c', t') → c = false ∧ c' = false ∧ ∀ k, flag k = false → t.loc k = t'.loc k := by
  induction a with
  | assign f e =>
    intro _ _ s s' t t' c c' hs h h'
    obtain ⟨v, _, h⟩ := Option.bind_eq_some_iff.1 h
    obtain ⟨v', _, h'⟩ := Option.bind_eq_some_iff.1 h'
    cases h; cases h'
    exact ⟨rfl, rfl, hs⟩
  | update f g e =>
    intro _ _ s s' t t' c c' hs h h'
    obtain ⟨v, _, h⟩ := Option.bind_eq_some_iff.1 h
    obtain ⟨v', _, h'⟩ := Option.bind_eq_some_iff.1 h'
    obtain ⟨w, _, h⟩ := Option.bind_eq_some_iff.1 h
    obtain ⟨w', _, h'⟩ := Option.bind_eq_some_iff.1 h'
    cases h; cases h'
    exact ⟨rfl, rfl, hs⟩
  | setLoc k e =>
    intro _ hp s s' t t' c c' hs h h'
    obtain ⟨v, hv, h⟩ := Option.bind_eq_some_iff.1 h
    obtain ⟨v', hv', h'⟩ := Option.bind_eq_some_iff.1 h'
    cases h; cases h'
    refine ⟨rfl, rfl, fun j hj => ?_⟩
    show Function.update s.loc k (some v) j = Function.update s'.loc k (some v') j
    by_cases hjk : j = k
    · subst hjk
      rcases hp with hp | hp
      · rw [hj] at hp; cases hp
      · rw [Function.update_self, Function.update_self, ← hv, ← hv', eval_plain xs he hs e hp]
    · rw [Function.update_of_ne hjk, Function.update_of_ne hjk, hs j hj]
  | binAdd i e =>
    intro _ _ s s' t t' c c' hs h h'
    obtain ⟨v, _, h⟩ := Option.bind_eq_some_iff.1 h
    obtain ⟨v', _, h'⟩ := Option.bind_eq_some_iff.1 h'
    obtain ⟨w, _, h⟩ := Option.bind_eq_some_iff.1 h
    obtain ⟨w', _, h'⟩ := Option.bind_eq_some_iff.1 h'
    cases h; cases h'
    exact ⟨rfl, rfl, hs⟩
  | andAssign test x f e =>
    intro _ _ s s' t t' c c' hs h h'
    have key : ∀ (env : ℕ → V) (s t : State F V) c, (Stmt.andAssign test x f e).exec env s = some (c, t) → c = false ∧ t.loc = s.loc := by
      intro env s t c h
      obtain ⟨v, _, h⟩ := Option.bind_eq_some_iff.1 h
      split at h
      · obtain ⟨w, _, h⟩ := Option.bind_eq_some_iff.1 h
        cases h; exact ⟨rfl, rfl⟩
      · cases h; exact ⟨rfl, rfl⟩
    obtain ⟨h1, h2⟩ := key _ _ _ _ h
    obtain ⟨h3, h4⟩ := key _ _ _ _ h'
    exact ⟨h1, h3, fun k hk => by rw [h2, h4, hs k hk]⟩
  | ite dep test x a b _ _ => exact fun h => by cases h
  | loop turns dep test x a _ => exact fun h => by cases h
  | cont => exact fun h => by cases h
  | skip =>
    intro _ _ s s' t t' c c' hs h h'
    cases h; cases h'
    exact ⟨rfl, rfl, hs⟩
  | seq a b iha ihb =>
    intro hst hp s s' t t' c c' hs h h'
    have hst : a.straight = true ∧ b.straight = true := by simpa [Stmt.straight] using hst
    obtain ⟨⟨r, u⟩, hr, h⟩ := Option.bind_eq_some_iff.1 h
    obtain ⟨⟨r', u'⟩, hr', h'⟩ := Option.bind_eq_some_iff.1 h'
    obtain ⟨e1, e2, e3⟩ := iha hst.1 hp.1 s s' u u' r r' hs hr hr'
    subst e1; subst e2
    exact ihb hst.2 hp.2 u u' t t' c c' e3 h h'
  | block a iha => exact iha

variable {D : Dep} {flag : ℕ → Bool} (hF : Final D flag)
include hF

theorem index_plain (e : Expr F V) (d : Dep) (h : (d.noteIndex xs e).Le D) : e.Plain xs flag := by
  have hc : (scan d.flag (e.atoms xs)).1 = false := by
    by_contra hcon
    have hcon : (scan d.flag (e.atoms xs)).1 = true := by simpa using hcon
    have := h.cond (by simp [Dep.noteIndex, hcon])
    rw [hF.cond] at this
    cases this
  obtain ⟨h1, h2⟩ := scan_spec d.flag _ hc
  exact ⟨h1, fun j hj => hF.condVars j (h.condVars j (by simp [Dep.noteIndex, h2 j hj]))⟩

theorem cond_plain (e : Expr F V) (d : Dep) (h : (d.noteCond xs e).Le D) : e.Plain xs flag := by
  unfold Dep.noteCond at h
  by_cases hc : d.cond = true
  · rw [if_pos hc] at h
    have := h.cond hc
    rw [hF.cond] at this
    cases this
  · rw [if_neg hc] at h
    exact index_plain xs hF e d h

theorem enote_fits (e : Expr F V) : ∀ d, (e.note xs d).Le D → e.Fits xs flag := by
  induction e with
  | lit v => exact fun _ _ => trivial
  | env k => exact fun _ _ => trivial
  | loc k => exact fun _ _ => trivial
  | fld f => exact fun _ _ => trivial
  | op g a b iha ihb => exact fun d h => ⟨iha d ((enote_le xs b _).trans h), ihb _ h⟩
  | table t dep i ih =>
    exact fun d h => ⟨index_plain xs hF i d ((enote_le xs i _).trans h), ih _ h⟩
  | cond dep test x a b ihx iha ihb =>
    intro d h
    have h3 := (noteCond_le xs x _).trans h
    have h2 := (enote_le xs b _).trans h3
    exact ⟨cond_plain xs hF x _ h, ihx d ((enote_le xs a _).trans h2), iha _ h2, ihb _ h3⟩

theorem snote_fits (a : Stmt F V) : ∀ d, (a.note xs d).Le D → a.Fits xs flag := by
  induction a with
  | assign f e => exact enote_fits xs hF e
  | update f g e => exact enote_fits xs hF e
  | setLoc k e =>
    exact fun d h => ⟨set_plain xs hF.mono hF.closed k e d ((enote_le xs e _).trans h), enote_fits xs hF e _ h⟩
  | binAdd i e =>
    intro d h
    have := ((enote_le xs i _).trans ((enote_le xs e _).trans h)).cond (rfl : { d with cond := true }.cond = true)
    rw [hF.cond] at this
    cases this
  | andAssign test x f e =>
    exact fun d h => ⟨enote_fits xs hF x d ((enote_le xs e _).trans h), enote_fits xs hF e _ h⟩
  | ite dep test x a b iha ihb =>
    intro d h
    have h3 := (noteCond_le xs x _).trans h
    have h2 := (snote_le xs b _).trans h3
    exact ⟨cond_plain xs hF x _ h, enote_fits xs hF x d ((snote_le xs a _).trans h2), iha _ h2, ihb _ h3⟩
  | loop turns dep test x a iha =>
    intro d h
    have h2 := (noteCond_le xs x _).trans h
    exact ⟨cond_plain xs hF x _ h, enote_fits xs hF x d ((snote_le xs a _).trans h2), iha _ h2⟩
  | cont => exact fun _ _ => trivial
  | skip => exact fun _ _ => trivial
  | seq a b iha ihb => exact fun d h => ⟨iha d ((snote_le xs b _).trans h), ihb _ h⟩
  | block a iha => exact iha

end

theorem vectorizable_fits {F V : Type} (xs : ℕ → Bool) (body : Stmt F V) (h : body.vectorizable xs = true) :
    body.Fits xs (body.siteDep xs) := by
  obtain ⟨h1, h2, h3⟩ := sweeps_spec (body.depends xs).deps (body.depends xs).vars
    ((body.depends xs).vars.length + 1) (body.depends xs).flag
    (Nat.lt_succ_of_le List.countP_le_length)
  have hv : (body.depends xs).cond = false ∧ ∀ k ∈ (body.depends xs).condVars, body.siteDep xs k = false := by
    simpa [Stmt.vectorizable] using h
  exact snote_fits xs ⟨h1, h3, hv.1, hv.2⟩ body _ (Dep.Le.rfl' _)

end Body
end Hila
