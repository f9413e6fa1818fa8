import Verif.Lemmas.Pencil
import Mathlib.Data.Nat.Digits.Lemmas

/-! # The data path of the FFT -/

namespace Hila

variable {n : ℕ} {A : Type}

/-! ### Writes to disjoint ranges -/

/-- The address `a` of buffer `b` lies in the range. -/
def InReg (p : Bool × ℕ) (len : ℕ) (b : Bool) (a : ℕ) : Prop := b = p.1 ∧ p.2 ≤ a ∧ a < p.2 + len

theorem writeRange_in (M : PBuf A) (p : Bool × ℕ) (len : ℕ) (g : ℕ → A) (x : ℕ) (hx : x < len) :
    writeRange M p len g p.1 (p.2 + x) = g x := by
  unfold writeRange
  rw [if_pos ⟨rfl, by omega, by omega⟩]
  congr 1; omega

theorem writeRange_out (M : PBuf A) (p : Bool × ℕ) (len : ℕ) (g : ℕ → A) (b : Bool) (a : ℕ)
    (h : ¬ InReg p len b a) : writeRange M p len g b a = M b a := if_neg h

section
variable {ι : Type} (cond : ι → Prop) [DecidablePred cond] (p : ι → Bool × ℕ) (len : ι → ℕ)
  (g : ι → ℕ → A)

theorem foldl_writeRange_out (l : List ι) (M : PBuf A) (b : Bool) (a : ℕ)
    (h : ∀ j ∈ l, cond j → ¬ InReg (p j) (len j) b a) :
    l.foldl (fun M j => if cond j then writeRange M (p j) (len j) (g j) else M) M b a = M b a := by
  induction l generalizing M with
  | nil => rfl
  | cons j l ih =>
    rw [List.foldl_cons, ih _ fun j hj => h j (List.mem_cons_of_mem _ hj)]
    split
    · rename_i hc; exact writeRange_out _ _ _ _ _ _ (h j List.mem_cons_self hc)
    · rfl

theorem foldl_writeRange_in (l : List ι) (M : PBuf A)
    (hdis : ∀ j ∈ l, ∀ j' ∈ l, j ≠ j' → cond j → cond j' → ∀ b a,
      ¬ (InReg (p j) (len j) b a ∧ InReg (p j') (len j') b a))
    (j : ι) (hj : j ∈ l) (hc : cond j) (x : ℕ) (hx : x < len j) :
    l.foldl (fun M j => if cond j then writeRange M (p j) (len j) (g j) else M) M (p j).1
      ((p j).2 + x) = g j x := by
  classical
  induction l generalizing M with
  | nil => cases hj
  | cons j0 l ih =>
    rw [List.foldl_cons]
    by_cases h : j ∈ l
    · exact ih _ (fun a ha b hb => hdis a (List.mem_cons_of_mem _ ha) b (List.mem_cons_of_mem _ hb)) h
    · have : j = j0 := by
        rcases List.mem_cons.1 hj with h' | h'
        · exact h'
        · exact absurd h' h
      subst this
      rw [if_pos hc, foldl_writeRange_out, writeRange_in _ _ _ _ _ hx]
      intro j' hj' hc' hr
      refine hdis j List.mem_cons_self j' (List.mem_cons_of_mem _ hj') ?_ hc hc' _ _ ⟨?_, hr⟩
      · rintro rfl; exact h hj'
      · exact ⟨rfl, by omega, by omega⟩

end

/-- A fold that carries a running sum. -/
theorem foldl_running {B : Type} (f : B → ℕ → ℕ → B) (s P : ℕ → ℕ) (N : ℕ)
    (hP : ∀ j < N, P (j + 1) = P j + s j) (b : B) :
    (List.range N).foldl (fun (acc : B × ℕ) j => (f acc.1 acc.2 j, acc.2 + s j)) (b, P 0) =
    ((List.range N).foldl (fun M j => f M (P j) j) b, P N) := by
  induction N with
  | zero => rfl
  | succ N ih =>
    rw [List.range_succ, List.foldl_append, List.foldl_append, ih fun j hj => hP j (by omega)]
    simp [hP N (by omega)]

/-! ### One pencil -/

section
variable {lay : Layout n} (hw : lay.WF) (hpos : ∀ d, lay.ndiv d ≤ lay.L d)

/-- The site at position `t` of column `col` of the pencil of `r`. -/
def siteOf (lay : Layout n) (r : ℕ) (dir : Fin n) (col t : ℕ) : Site n := fun d =>
  if d = dir then t else lay.boxMin r d + digits (Function.update (lay.boxSize r) dir 1) col d

include hw in
theorem siteOf_pn (r : ℕ) (dir : Fin n) (i : ℕ) (hi : i < lay.ndiv dir) (col t : ℕ) :
    siteOf lay (lay.pn r dir i) dir col t = siteOf lay r dir col t := by
  funext d
  unfold siteOf
  by_cases hd : d = dir
  · rw [if_pos hd, if_pos hd]
  · rw [if_neg hd, if_neg hd, update_boxSize_pn hw r dir i hi, boxMin_dv, boxMin_dv,
      dg_pn hw r dir i hi, Function.update_of_ne hd]

theorem siteOf_dir (r : ℕ) (dir : Fin n) (col t : ℕ) : siteOf lay r dir col t dir = t := by
  simp [siteOf]

theorem siteOf_colOf (r : ℕ) (dir : Fin n) (c : Site n) (hc : BoxOf lay r c) (t : ℕ) :
    siteOf lay r dir (colOf (lay.boxMin r) (lay.boxSize r) dir c) t = Function.update c dir t := by
  funext d
  unfold siteOf colOf
  by_cases hd : d = dir
  · subst hd; simp
  · rw [if_neg hd, Function.update_of_ne hd, digits_lex, Function.update_of_ne hd]
    · have := hc d; omega
    · intro d
      by_cases hd : d = dir
      · subst hd; rw [Function.update_self, Function.update_self]; exact one_pos
      · rw [Function.update_of_ne hd, Function.update_of_ne hd]; have := hc d; omega

include hw hpos in
theorem siteOf_box (r : ℕ) (dir : Fin n) (col x : ℕ) (hcol : col < totalColumns lay r dir)
    (hx : x < lay.boxSize r dir) :
    BoxOf lay r (siteOf lay r dir col (lay.boxMin r dir + x)) ∧
    colOf (lay.boxMin r) (lay.boxSize r) dir (siteOf lay r dir col (lay.boxMin r dir + x)) = col := by
  rw [totalColumns_eq hw hpos] at hcol
  obtain ⟨c, h1, h2, h3⟩ := colOf_surj (lay.boxMin r) (lay.boxSize r) dir col x hcol hx
  have : siteOf lay r dir col (lay.boxMin r dir + x) = c := by
    rw [← h2, siteOf_colOf r dir c h1, ← h3, Function.update_eq_self]
  rw [this]
  exact ⟨h1, h2⟩

/-- Buffer `M` of rank `r` contains the field `g`, arranged for direction `dir`. -/
def Enc (lay : Layout n) (E r : ℕ) (dir : Fin n) (g : Site n → ℕ → A) (M : ℕ → A) : Prop :=
  ∀ c, BoxOf lay r c → ∀ e < E, M (pencilAddr (lay.nodeinfo r) dir E c e) = g c e

/-- The line number `l` (column `l / E`, element `l % E`) of the field `g` at position `t`. -/
def lineOf (lay : Layout n) (E r : ℕ) (dir : Fin n) (g : Site n → ℕ → A) (l t : ℕ) : A :=
  g (siteOf lay r dir (l / E) t) (l % E)

theorem pencilAddr_box (E r : ℕ) (dir : Fin n) (c : Site n) (e : ℕ) :
    pencilAddr (lay.nodeinfo r) dir E c e =
      (colOf (lay.boxMin r) (lay.boxSize r) dir c * E + e) * lay.boxSize r dir +
        (c dir - lay.boxMin r dir) := by
  rw [pencilAddr_eq, nodeinfo_eq, ofBox_min, ofBox_size]

theorem col_div (E col e : ℕ) (he : e < E) : (col * E + e) / E = col ∧ (col * E + e) % E = e := by
  have hE : 0 < E := by omega
  constructor
  · rw [Nat.add_comm, Nat.add_mul_div_right _ _ hE, Nat.div_eq_of_lt he, Nat.zero_add]
  · rw [Nat.add_comm, Nat.add_mul_mod_self_right, Nat.mod_eq_of_lt he]

include hw hpos in
theorem enc_iff (E r : ℕ) (dir : Fin n) (g : Site n → ℕ → A) (M : ℕ → A) :
    Enc lay E r dir g M ↔ ∀ l < totalColumns lay r dir * E, ∀ x < lay.boxSize r dir,
      M (l * lay.boxSize r dir + x) = lineOf lay E r dir g l (lay.boxMin r dir + x) := by
  constructor
  · intro h l hl x hx
    have hE : 0 < E := by
      rcases Nat.eq_zero_or_pos E with h | h
      · subst h; omega
      · exact h
    have hcol : l / E < totalColumns lay r dir := (Nat.div_lt_iff_lt_mul hE).2 hl
    obtain ⟨h1, h2⟩ := siteOf_box hw hpos r dir (l / E) x hcol hx
    have := h _ h1 (l % E) (Nat.mod_lt _ hE)
    rw [pencilAddr_box, h2, siteOf_dir, Nat.add_sub_cancel_left, Nat.div_add_mod'] at this
    exact this
  · intro h c hc e he
    have hcol : colOf (lay.boxMin r) (lay.boxSize r) dir c < totalColumns lay r dir := by
      rw [totalColumns_eq hw hpos]; exact colOf_lt _ _ _ _ hc
    have hb := hc dir
    have := h (colOf (lay.boxMin r) (lay.boxSize r) dir c * E + e)
      (by
        have : (colOf (lay.boxMin r) (lay.boxSize r) dir c + 1) * E ≤ totalColumns lay r dir * E :=
          Nat.mul_le_mul_right _ hcol
        rw [Nat.add_mul, Nat.one_mul] at this; omega)
      (c dir - lay.boxMin r dir) (by omega)
    rw [pencilAddr_box, this]
    unfold lineOf
    rw [(col_div E _ e he).1, (col_div E _ e he).2, siteOf_colOf r dir c hc,
      Nat.add_sub_cancel' hb.1, Function.update_eq_self]

/-! ### Filling the send buffer -/

include hw hpos in
theorem pencilAddr_lt (E r : ℕ) (dir : Fin n) (c : Site n) (e : ℕ) (hc : BoxOf lay r c) (he : e < E) :
    pencilAddr (lay.nodeinfo r) dir E c e < (lay.nodeinfo r).volume * E := by
  have hcol := colOf_lt (lay.boxMin r) (lay.boxSize r) dir c hc
  rw [← totalColumns_eq hw hpos] at hcol
  have hb := hc dir
  have hs := boxSize_pos hw hpos r dir
  have hv : (lay.nodeinfo r).volume = totalColumns lay r dir * lay.boxSize r dir := by
    rw [totalColumns_eq hw hpos, nodeinfo_eq, ofBox_volume,
      ← Finset.mul_prod_erase _ _ (Finset.mem_univ dir),
      ← Finset.mul_prod_erase Finset.univ (Function.update (lay.boxSize r) dir 1)
        (Finset.mem_univ dir), Function.update_self, Nat.one_mul, Nat.mul_comm]
    congr 1
    apply Finset.prod_congr rfl
    intro d hd
    rw [Function.update_of_ne (Finset.ne_of_mem_erase hd)]
  rw [pencilAddr_box, hv]
  set col := colOf (lay.boxMin r) (lay.boxSize r) dir c
  set s := lay.boxSize r dir
  have h1 : (col + 1) * E ≤ totalColumns lay r dir * E := Nat.mul_le_mul_right _ hcol
  rw [Nat.add_mul, Nat.one_mul] at h1
  have h2 : (col * E + e + 1) * s ≤ (totalColumns lay r dir * E) * s :=
    Nat.mul_le_mul_right _ (by omega)
  rw [Nat.add_mul, Nat.one_mul] at h2
  have h3 : totalColumns lay r dir * s * E = totalColumns lay r dir * E * s := by ring
  omega

theorem pencilAddr_inj (E r : ℕ) (dir : Fin n) (c c' : Site n) (e e' : ℕ) (hc : BoxOf lay r c)
    (hc' : BoxOf lay r c') (he : e < E) (he' : e' < E)
    (h : pencilAddr (lay.nodeinfo r) dir E c e = pencilAddr (lay.nodeinfo r) dir E c' e') :
    c = c' ∧ e = e' := by
  rw [pencilAddr_box, pencilAddr_box] at h
  have hb := hc dir
  have hb' := hc' dir
  have h1 := col_div (lay.boxSize r dir) (colOf (lay.boxMin r) (lay.boxSize r) dir c * E + e)
    (c dir - lay.boxMin r dir) (by omega)
  have h2 := col_div (lay.boxSize r dir) (colOf (lay.boxMin r) (lay.boxSize r) dir c' * E + e')
    (c' dir - lay.boxMin r dir) (by omega)
  rw [h, h2.1, h2.2] at h1
  have h3 := col_div E (colOf (lay.boxMin r) (lay.boxSize r) dir c) e he
  have h4 := col_div E (colOf (lay.boxMin r) (lay.boxSize r) dir c') e' he'
  rw [← h1.1, h4.1, h4.2] at h3
  exact ⟨colOf_inj _ _ dir c c' hc hc' (by omega) h3.1.symm, h3.2.symm⟩

theorem collectData_flat (E r : ℕ) (dir : Fin n) (order : List (Site n)) (f : Site n → ℕ → A)
    (M : PBuf A) :
    collectData lay E r dir order f M =
      (order.flatMap fun c => (List.range E).map fun e => (c, e)).foldl (fun M (ce : Site n × ℕ) =>
        if True then writeRange M (true, pencilAddr (lay.nodeinfo r) dir E ce.1 ce.2) 1
          (fun _ => f ce.1 ce.2) else M) M := by
  unfold collectData
  rw [List.foldl_flatMap]
  simp only [List.foldl_map, if_true]

theorem collectData_enc (E r : ℕ) (dir : Fin n) (order : List (Site n))
    (ho : ∀ c, c ∈ order ↔ BoxOf lay r c) (f : Site n → ℕ → A) (M : PBuf A) :
    Enc lay E r dir f (collectData lay E r dir order f M true) := by
  intro c hc e he
  rw [collectData_flat]
  have mem : ∀ ce : Site n × ℕ, ce ∈ (order.flatMap fun c => (List.range E).map fun e => (c, e)) →
      BoxOf lay r ce.1 ∧ ce.2 < E := by
    intro ce h
    obtain ⟨c, hc, h⟩ := List.mem_flatMap.1 h
    obtain ⟨e, he, rfl⟩ := List.mem_map.1 h
    exact ⟨(ho c).1 hc, List.mem_range.1 he⟩
  have key := foldl_writeRange_in (fun _ : Site n × ℕ => True)
    (fun ce => (true, pencilAddr (lay.nodeinfo r) dir E ce.1 ce.2)) (fun _ => 1)
    (fun ce _ => f ce.1 ce.2) (order.flatMap fun c => (List.range E).map fun e => (c, e)) M
    (by
      intro j hj j' hj' hne _ _ b a ⟨h1, h2⟩
      unfold InReg at h1 h2
      dsimp only at h1 h2
      have := pencilAddr_inj E r dir j.1 j'.1 j.2 j'.2 (mem j hj).1 (mem j' hj').1 (mem j hj).2
        (mem j' hj').2 (by omega)
      exact hne (Prod.ext this.1 this.2))
    (c, e) (List.mem_flatMap.2 ⟨c, (ho c).2 hc, List.mem_map.2 ⟨e, List.mem_range.2 he, rfl⟩⟩)
    trivial 0 one_pos
  exact key

theorem reshuffleData_eq (E r : ℕ) (prev dir : Fin n) (order : List (Site n)) (M0 : PBuf A) :
    reshuffleData lay E r prev dir order M0 = collectData lay E r dir order
      (fun c e => M0 false (pencilAddr (lay.nodeinfo r) prev E c e)) M0 := by
  unfold reshuffleData collectData
  have inner : ∀ (c : Site n) (l : List ℕ) (M : PBuf A), M false = M0 false →
      l.foldl (fun M e => writeRange M (true, pencilAddr (lay.nodeinfo r) dir E c e) 1
        (fun _ => M false (pencilAddr (lay.nodeinfo r) prev E c e))) M =
      l.foldl (fun M e => writeRange M (true, pencilAddr (lay.nodeinfo r) dir E c e) 1
        (fun _ => M0 false (pencilAddr (lay.nodeinfo r) prev E c e))) M ∧
      (l.foldl (fun M e => writeRange M (true, pencilAddr (lay.nodeinfo r) dir E c e) 1
        (fun _ => M0 false (pencilAddr (lay.nodeinfo r) prev E c e))) M) false = M0 false := by
    intro c l
    induction l with
    | nil => intro M h; exact ⟨rfl, h⟩
    | cons e l ih =>
      intro M h
      rw [List.foldl_cons, List.foldl_cons, h]
      apply ih
      funext a
      rw [writeRange_out, h]
      intro h; cases h.1
  have outer : ∀ (l : List (Site n)) (M : PBuf A), M false = M0 false →
      l.foldl (fun M c => (List.range E).foldl (fun M e =>
        writeRange M (true, pencilAddr (lay.nodeinfo r) dir E c e) 1
        (fun _ => M false (pencilAddr (lay.nodeinfo r) prev E c e))) M) M =
      l.foldl (fun M c => (List.range E).foldl (fun M e =>
        writeRange M (true, pencilAddr (lay.nodeinfo r) dir E c e) 1
        (fun _ => M0 false (pencilAddr (lay.nodeinfo r) prev E c e))) M) M := by
    intro l
    induction l with
    | nil => intro M _; rfl
    | cons c l ih =>
      intro M h
      rw [List.foldl_cons, List.foldl_cons, (inner c _ M h).1]
      exact ih _ (inner c _ M h).2
  exact outer order M0 rfl

/-! ### The receive ranges -/

/-- The offset of part `i` in the receive buffer. -/
def recOff (lay : Layout n) (E r : ℕ) (dir : Fin n) (i : ℕ) : ℕ :=
  (List.range i).foldl (fun p j =>
      if pencilNode lay r dir j ≠ r then p + recvBufSize lay r dir j * E else p) 0

theorem recOff_succ (E r : ℕ) (dir : Fin n) (i : ℕ) :
    recOff lay E r dir (i + 1) = if pencilNode lay r dir i ≠ r then
      recOff lay E r dir i + recvBufSize lay r dir i * E else recOff lay E r dir i := by
  unfold recOff
  rw [List.range_succ, List.foldl_append]
  rfl

theorem recOff_mono (E r : ℕ) (dir : Fin n) (i j : ℕ) (h : i ≤ j) :
    recOff lay E r dir i ≤ recOff lay E r dir j := by
  induction j with
  | zero => rw [Nat.le_zero.1 h]
  | succ j ih =>
    rcases Nat.lt_or_ge i (j + 1) with h' | h'
    · refine le_trans (ih (by omega)) ?_
      rw [recOff_succ]; split <;> omega
    · rw [show i = j + 1 by omega]

theorem recOff_disjoint (E r : ℕ) (dir : Fin n) (i j : ℕ) (h : i < j)
    (hi : pencilNode lay r dir i ≠ r) :
    recOff lay E r dir i + recvBufSize lay r dir i * E ≤ recOff lay E r dir j := by
  have := recOff_mono (lay := lay) E r dir (i + 1) j h
  rw [recOff_succ, if_pos hi] at this
  exact this

theorem recOff_last (E r : ℕ) (dir : Fin n) (i : ℕ) :
    recOff lay E r dir i = (List.range i).foldl (fun acc i =>
    if pencilNode lay r dir i ≠ r then acc + recvBufSize lay r dir i else acc) 0 * E := by
  induction i with
  | zero => simp [recOff]
  | succ i ih =>
    rw [recOff_succ, List.range_succ, List.foldl_append, ih]
    simp only [List.foldl_cons, List.foldl_nil]
    split
    · rw [Nat.add_mul]
    · rfl

theorem recPtr_other (E r : ℕ) (dir : Fin n) (i : ℕ) (h : pencilNode lay r dir i ≠ r) :
    recPtr lay E r dir i = (false, recOff lay E r dir i) := if_pos h

theorem recPtr_own (E r : ℕ) (dir : Fin n) (i : ℕ) (h : pencilNode lay r dir i = r) :
    recPtr lay E r dir i = (true, columnOffset lay r dir i * E) := if_neg (fun h' => h' h)

include hw hpos in
/-- The receive ranges of different parts are disjoint. -/
theorem recPtr_disjoint (E r : ℕ) (hr : r < lay.numNodes) (dir : Fin n) (i j : ℕ)
    (hi : i < lay.ndiv dir) (hj : j < lay.ndiv dir) (hne : i ≠ j) (b : Bool) (a : ℕ) :
    ¬ (InReg (recPtr lay E r dir i) (recvBufSize lay r dir i * E) b a ∧
      InReg (recPtr lay E r dir j) (recvBufSize lay r dir j * E) b a) := by
  rintro ⟨h1, h2⟩
  have e1 := pencilNode_eq_iff hw hpos r hr dir i hi
  have e2 := pencilNode_eq_iff hw hpos r hr dir j hj
  unfold InReg at h1 h2
  by_cases c1 : pencilNode lay r dir i = r
  · have c2 : pencilNode lay r dir j ≠ r := fun h => hne ((e1.1 c1).trans (e2.1 h).symm)
    rw [recPtr_own E r dir i c1] at h1
    rw [recPtr_other E r dir j c2] at h2
    have := h1.1.symm.trans h2.1
    cases this
  · by_cases c2 : pencilNode lay r dir j = r
    · rw [recPtr_other E r dir i c1] at h1
      rw [recPtr_own E r dir j c2] at h2
      have := h1.1.symm.trans h2.1
      cases this
    · rw [recPtr_other E r dir i c1] at h1
      rw [recPtr_other E r dir j c2] at h2
      dsimp only at h1 h2
      rcases Nat.lt_or_gt_of_ne hne with h | h
      · have := recOff_disjoint E r dir i j h c1; omega
      · have := recOff_disjoint E r dir j i h c2; omega

/-! ### Gather -/

/-- The ranges that rank `r` works on contain the lines `D` (counted from its first line). -/
def Lines (lay : Layout n) (E r : ℕ) (dir : Fin n) (D : ℕ → ℕ → A) (M : PBuf A) : Prop :=
  ∀ l < myColumns lay r dir * E, ∀ j < lay.ndiv dir, ∀ x < pencilSize lay r dir j,
    M (recPtr lay E r dir j).1 ((recPtr lay E r dir j).2 + l * pencilSize lay r dir j + x) =
      D l (lay.dv dir j + x)

theorem mul_add_lt' {l C s x : ℕ} (hl : l < C) (hx : x < s) : l * s + x < C * s := by
  have : (l + 1) * s ≤ C * s := Nat.mul_le_mul_right _ hl
  rw [Nat.add_mul, Nat.one_mul] at this
  omega

include hw hpos in
theorem pencilSize_box (r : ℕ) (dir : Fin n) (i : ℕ) (hi : i < lay.ndiv dir) :
    lay.boxSize (lay.pn r dir i) dir = pencilSize lay r dir i := by
  rw [pencilSize_eq hw hpos r dir i hi, boxSize_dv, dg_pn hw r dir i hi, Function.update_self]

include hw hpos in
theorem gatherData_lines (E : ℕ) (dir : Fin n) (g : Site n → ℕ → A) (M : ℕ → PBuf A)
    (hM : ∀ r < lay.numNodes, Enc lay E r dir g (M r true)) (r : ℕ) (hr : r < lay.numNodes) :
    Lines lay E r dir (fun l => lineOf lay E r dir g (colStart lay r dir (lay.dg r dir) * E + l))
      (gatherData lay E dir M r) := by
  intro l hl j hj x hx
  have hmy : myColumns lay r dir = colStart lay r dir (lay.dg r dir + 1) -
      colStart lay r dir (lay.dg r dir) := by
    rw [myColumns_eq hw hpos r hr, columnNumber_eq hw hpos]
  have hk := dg_lt hw r dir
  have hT : colStart lay r dir (lay.dg r dir + 1) ≤ totalColumns lay r dir := by
    rw [← colStart_last hw]; exact colStart_mono _ _ _ _ hk
  have hcs := colStart_mono (lay := lay) r dir (lay.dg r dir) (lay.dg r dir + 1) (by omega)
  -- the line in the send buffer of the rank it comes from
  have hlT : colStart lay r dir (lay.dg r dir) * E + l < totalColumns lay r dir * E := by
    have h1 : (colStart lay r dir (lay.dg r dir) + myColumns lay r dir) * E ≤
      totalColumns lay r dir * E := Nat.mul_le_mul_right _ (by omega)
    rw [Nat.add_mul] at h1; omega
  have hq := pn_lt hw r dir j hj
  have src := (enc_iff hw hpos E (lay.pn r dir j) dir g (M (lay.pn r dir j) true)).1 (hM _ hq)
    (colStart lay r dir (lay.dg r dir) * E + l)
    (by rw [totalColumns_pn hw hpos r dir j hj]; exact hlT) x
    (by rw [pencilSize_box hw hpos r dir j hj]; exact hx)
  rw [boxMin_dv, dg_pn hw r dir j hj, Function.update_self, pencilSize_box hw hpos r dir j hj] at src
  unfold lineOf at src ⊢
  rw [siteOf_pn hw r dir j hj] at src
  dsimp only
  rw [← src]
  unfold gatherData
  by_cases c : pencilNode lay r dir j = r
  · -- own part: not overwritten
    have hjk := (pencilNode_eq_iff hw hpos r hr dir j hj).1 c
    have hself : lay.pn r dir j = r := by rw [← pencilNode_eq hw hpos r dir j hj, c]
    rw [hself]
    have hown := recPtr_own (lay := lay) E r dir j c
    have hp : pencilSize lay r dir j = lay.boxSize r dir := by
      rw [← pencilSize_box hw hpos r dir j hj, hself]
    have hout := foldl_writeRange_out (fun j => pencilNode lay r dir j ≠ r)
      (fun j => recPtr lay E r dir j) (fun j => recvBufSize lay r dir j * E)
      (fun j x => M (pencilNode lay r dir j) true (columnOffset lay (pencilNode lay r dir j) dir
        (pencilIndex lay (pencilNode lay r dir j) dir r) * E + x)) (List.range (lay.ndiv dir)) (M r)
      (recPtr lay E r dir j).1 ((recPtr lay E r dir j).2 + l * pencilSize lay r dir j + x)
      (by
        intro j' hj' hc' hin
        rw [hown] at hin
        rw [recPtr_other E r dir j' hc'] at hin
        have := hin.1
        cases this)
    refine hout.trans ?_
    rw [hown, columnOffset_eq, hp, hjk]
    dsimp only
    congr 1
    ring
  · have hin := foldl_writeRange_in (fun j => pencilNode lay r dir j ≠ r)
      (fun j => recPtr lay E r dir j) (fun j => recvBufSize lay r dir j * E)
      (fun j x => M (pencilNode lay r dir j) true (columnOffset lay (pencilNode lay r dir j) dir
        (pencilIndex lay (pencilNode lay r dir j) dir r) * E + x)) (List.range (lay.ndiv dir)) (M r)
      (by
        intro i hi i' hi' hne _ _ b a
        exact recPtr_disjoint hw hpos E r hr dir i i' (List.mem_range.1 hi) (List.mem_range.1 hi')
          hne b a)
      j (List.mem_range.2 hj) c (l * pencilSize lay r dir j + x)
      (by
        unfold recvBufSize
        have := mul_add_lt' hl hx
        rw [show myColumns lay r dir * pencilSize lay r dir j * E =
          myColumns lay r dir * E * pencilSize lay r dir j by ring]
        exact this)
    rw [Nat.add_assoc]
    refine hin.trans ?_
    rw [pencilNode_eq hw hpos r dir j hj, pencilIndex_eq hw hpos r hr dir j hj, columnOffset_eq,
      colStart_pn hw hpos r dir j _ hj, pencilSize_box hw hpos r dir j hj]
    congr 1
    ring

/-! ### Transform -/

include hw hpos in
theorem dv_succ (r : ℕ) (dir : Fin n) (j : ℕ) (hj : j < lay.ndiv dir) :
    lay.dv dir (j + 1) = lay.dv dir j + pencilSize lay r dir j := by
  rw [pencilSize_eq hw hpos r dir j hj]
  have := dv_strict hw hpos dir j hj
  omega

omit hpos in
include hw in
theorem dv_locate (hpos : ∀ d, lay.ndiv d ≤ lay.L d) (r : ℕ) (dir : Fin n) (t : ℕ)
    (ht : t < lay.L dir) :
    ∃ j < lay.ndiv dir, ∃ x < pencilSize lay r dir j, t = lay.dv dir j + x := by
  have : ∀ m ≤ lay.ndiv dir, t < lay.dv dir m →
      ∃ j < lay.ndiv dir, ∃ x < pencilSize lay r dir j, t = lay.dv dir j + x := by
    intro m
    induction m with
    | zero => intro _ h; rw [dv_zero hw] at h; omega
    | succ m ih =>
      intro hm h
      by_cases h1 : t < lay.dv dir m
      · exact ih (by omega) h1
      · have := dv_succ hw hpos r dir m (by omega)
        exact ⟨m, by omega, t - lay.dv dir m, by omega, by omega⟩
  exact this _ (le_refl _) (by rw [dv_last hw]; exact ht)

/-- The output of the one-dimensional transform depends only on the `L` inputs. -/
def LocalTo (L : ℕ) (F : (ℕ → A) → ℕ → A) : Prop :=
  ∀ u v : ℕ → A, (∀ t < L, u t = v t) → ∀ t < L, F u t = F v t

include hw hpos in
theorem transformLine_spec (E r : ℕ) (hr : r < lay.numNodes) (dir : Fin n)
    (F : (ℕ → A) → ℕ → A) (hF : LocalTo (lay.L dir) F) (junk : ℕ → A) (D : ℕ → ℕ → A) (M : PBuf A)
    (i : ℕ) (hi : i < myColumns lay r dir * E) (hM : Lines lay E r dir D M) :
    Lines lay E r dir (fun l => if l = i then F (D i) else D l)
      (transformLine lay E r dir F junk M i) := by
  have hs := fun j (hj : j < lay.ndiv dir) => dv_succ hw hpos r dir j hj
  have h0 := dv_zero hw dir
  unfold transformLine
  dsimp only
  have run1 := foldl_running (fun (B : PBuf A) P j => writeRange B (true, P) (pencilSize lay r dir j)
      (fun x => M (recPtr lay E r dir j).1
        ((recPtr lay E r dir j).2 + i * pencilSize lay r dir j + x)))
    (pencilSize lay r dir) (lay.dv dir) (lay.ndiv dir) hs (fun _ => junk)
  rw [h0] at run1
  rw [run1]
  dsimp only
  set line := ((List.range (lay.ndiv dir)).foldl (fun (B : PBuf A) j =>
      writeRange B (true, lay.dv dir j) (pencilSize lay r dir j)
      (fun x => M (recPtr lay E r dir j).1
        ((recPtr lay E r dir j).2 + i * pencilSize lay r dir j + x))) (fun _ => junk)) with hline
  have dvmono : ∀ j j', j < j' → j' ≤ lay.ndiv dir →
      lay.dv dir j + pencilSize lay r dir j ≤ lay.dv dir j' := by
    intro j j' h h'
    rw [← hs j (by omega)]
    rcases Nat.lt_or_ge (j + 1) j' with h2 | h2
    · exact le_of_lt (dv_lt hw hpos dir _ _ h2 h')
    · rw [show j' = j + 1 by omega]
  have hl : ∀ t < lay.L dir, line true t = D i t := by
    intro t ht
    obtain ⟨j, hj, x, hx, rfl⟩ := dv_locate hw hpos r dir t ht
    have key := foldl_writeRange_in (fun _ : ℕ => True) (fun j => (true, lay.dv dir j))
      (pencilSize lay r dir) (fun j x => M (recPtr lay E r dir j).1
        ((recPtr lay E r dir j).2 + i * pencilSize lay r dir j + x)) (List.range (lay.ndiv dir))
      (fun _ => junk)
      (by
        intro a ha b hb hne _ _ u v ⟨h1, h2⟩
        have ha := List.mem_range.1 ha
        have hb := List.mem_range.1 hb
        unfold InReg at h1 h2
        dsimp only at h1 h2
        rcases Nat.lt_or_gt_of_ne hne with h | h
        · have := dvmono a b h (by omega); omega
        · have := dvmono b a h (by omega); omega)
      j (List.mem_range.2 hj) trivial x hx
    simp only [if_true] at key
    exact key.trans (hM i hi j hj x hx)
  have run2 := foldl_running (fun (B : PBuf A) P j => writeRange B
      ((recPtr lay E r dir j).1, (recPtr lay E r dir j).2 + i * pencilSize lay r dir j)
      (pencilSize lay r dir j) (fun x => F (line true) (P + x)))
    (pencilSize lay r dir) (lay.dv dir) (lay.ndiv dir) hs M
  rw [h0] at run2
  rw [run2]
  dsimp only
  -- ranges of line `i` inside the receive ranges
  have sub : ∀ l < myColumns lay r dir * E, ∀ j b a,
      InReg ((recPtr lay E r dir j).1, (recPtr lay E r dir j).2 + l * pencilSize lay r dir j)
        (pencilSize lay r dir j) b a →
      InReg (recPtr lay E r dir j) (recvBufSize lay r dir j * E) b a := by
    intro l hl j b a ⟨h1, h2, h3⟩
    dsimp only at h1 h2 h3
    refine ⟨h1, by omega, ?_⟩
    unfold recvBufSize
    rw [show myColumns lay r dir * pencilSize lay r dir j * E =
          myColumns lay r dir * E * pencilSize lay r dir j by ring]
    have : (l + 1) * pencilSize lay r dir j ≤ myColumns lay r dir * E * pencilSize lay r dir j :=
      Nat.mul_le_mul_right _ hl
    rw [Nat.add_mul, Nat.one_mul] at this
    omega
  intro l hlC j hj x hx
  dsimp only
  by_cases hli : l = i
  · subst hli
    rw [if_pos rfl]
    have key := foldl_writeRange_in (fun _ : ℕ => True)
      (fun j => ((recPtr lay E r dir j).1, (recPtr lay E r dir j).2 + l * pencilSize lay r dir j))
      (pencilSize lay r dir) (fun j x => F (line true) (lay.dv dir j + x))
      (List.range (lay.ndiv dir)) M
      (by
        intro a ha b hb hne _ _ u v ⟨h1, h2⟩
        exact recPtr_disjoint hw hpos E r hr dir a b (List.mem_range.1 ha) (List.mem_range.1 hb) hne
          u v ⟨sub l hlC a u v h1, sub l hlC b u v h2⟩)
      j (List.mem_range.2 hj) trivial x hx
    simp only [if_true] at key
    rw [key]
    refine hF _ _ hl _ ?_
    have := dvmono j (lay.ndiv dir) hj (le_refl _)
    rw [dv_last hw] at this
    omega
  · rw [if_neg hli, ← hM l hlC j hj x hx]
    have key := foldl_writeRange_out (fun _ : ℕ => True)
      (fun j => ((recPtr lay E r dir j).1, (recPtr lay E r dir j).2 + i * pencilSize lay r dir j))
      (pencilSize lay r dir) (fun j x => F (line true) (lay.dv dir j + x))
      (List.range (lay.ndiv dir)) M (recPtr lay E r dir j).1
      ((recPtr lay E r dir j).2 + l * pencilSize lay r dir j + x)
      (by
        intro j' hj' _ hin
        by_cases hjj : j' = j
        · subst hjj
          unfold InReg at hin
          dsimp only at hin
          rcases Nat.lt_or_gt_of_ne hli with h | h
          · have : (l + 1) * pencilSize lay r dir j' ≤ i * pencilSize lay r dir j' :=
              Nat.mul_le_mul_right _ h
            rw [Nat.add_mul, Nat.one_mul] at this
            omega
          · have : (i + 1) * pencilSize lay r dir j' ≤ l * pencilSize lay r dir j' :=
              Nat.mul_le_mul_right _ h
            rw [Nat.add_mul, Nat.one_mul] at this
            omega
        · exact recPtr_disjoint hw hpos E r hr dir j' j (List.mem_range.1 hj') hj hjj _ _
            ⟨sub i hi j' _ _ hin, sub l hlC j _ _ ⟨rfl, by dsimp only; omega, by dsimp only; omega⟩⟩)
    simp only [if_true] at key
    exact key

include hw hpos in
theorem transformData_spec (E r : ℕ) (hr : r < lay.numNodes) (dir : Fin n)
    (F : (ℕ → A) → ℕ → A) (hF : LocalTo (lay.L dir) F) (junk : ℕ → A) (D : ℕ → ℕ → A) (M : PBuf A)
    (hM : Lines lay E r dir D M) :
    Lines lay E r dir (fun l => F (D l)) (transformData lay E r dir F junk M) := by
  have gen : ∀ m ≤ myColumns lay r dir * E,
      Lines lay E r dir (fun l => if l < m then F (D l) else D l)
        ((List.range m).foldl (transformLine lay E r dir F junk) M) := by
    intro m
    induction m with
    | zero => intro _; simpa using hM
    | succ m ih =>
      intro hm
      rw [List.range_succ, List.foldl_append, List.foldl_cons, List.foldl_nil]
      have := transformLine_spec hw hpos E r hr dir F hF junk _ _ m (by omega) (ih (by omega))
      refine cast (congrArg (fun D => Lines lay E r dir D _) ?_) this
      funext l
      by_cases h : l = m
      · subst h; simp
      · rw [if_neg h]
        by_cases h2 : l < m
        · rw [if_pos h2, if_pos (by omega)]
        · rw [if_neg h2, if_neg (by omega)]
  intro l hl j hj x hx
  have := gen _ (le_refl _) l hl j hj x hx
  dsimp only at this
  rw [if_pos hl] at this
  exact this

/-! ### Scatter -/

include hw hpos in
theorem scatterData_enc (E : ℕ) (dir : Fin n) (g : Site n → ℕ → A) (F : (ℕ → A) → ℕ → A)
    (M : ℕ → PBuf A)
    (hM : ∀ r < lay.numNodes, Lines lay E r dir
      (fun l => F (lineOf lay E r dir g (colStart lay r dir (lay.dg r dir) * E + l))) (M r))
    (r : ℕ) (hr : r < lay.numNodes) :
    Enc lay E r dir (fun c e => F (fun t => g (Function.update c dir t) e) (c dir))
      (scatterData lay E dir M r true) := by
  rw [enc_iff hw hpos]
  intro l' hl' x hx
  have hE : 0 < E := by
    rcases Nat.eq_zero_or_pos E with h | h
    · subst h; omega
    · exact h
  have hcol : l' / E < totalColumns lay r dir := (Nat.div_lt_iff_lt_mul hE).2 hl'
  -- right-hand side
  have rhs : lineOf lay E r dir (fun c e => F (fun t => g (Function.update c dir t) e) (c dir)) l'
      (lay.boxMin r dir + x) = F (lineOf lay E r dir g l') (lay.boxMin r dir + x) := by
    unfold lineOf
    dsimp only
    rw [siteOf_dir]
    congr 1
    funext t
    congr 1
    funext d
    unfold siteOf
    by_cases hd : d = dir
    · subst hd; rw [Function.update_self, if_pos rfl]
    · rw [Function.update_of_ne hd, if_neg hd, if_neg hd]
  rw [rhs]
  obtain ⟨k, hk, hk1, hk2⟩ := col_owner hw r dir (l' / E) hcol
  have hlow : colStart lay r dir k * E ≤ l' := by
    rw [← Nat.le_div_iff_mul_le hE]; exact hk1
  have hhigh : l' < colStart lay r dir (k + 1) * E := (Nat.div_lt_iff_lt_mul hE).1 hk2
  obtain ⟨l, rfl⟩ : ∃ l, l' = colStart lay r dir k * E + l := ⟨l' - colStart lay r dir k * E, by omega⟩
  have hq := pn_lt hw r dir k hk
  have hdgq : lay.dg (lay.pn r dir k) dir = k := by
    rw [dg_pn hw r dir k hk, Function.update_self]
  have hi := dg_lt hw r dir
  have hmy : myColumns lay (lay.pn r dir k) dir = colStart lay r dir (k + 1) - colStart lay r dir k := by
    rw [myColumns_eq hw hpos _ hq, columnNumber_eq hw hpos, hdgq, colStart_pn hw hpos r dir k _ hk,
      colStart_pn hw hpos r dir k _ hk]
  have hl : l < myColumns lay (lay.pn r dir k) dir * E := by
    rw [hmy, Nat.sub_mul]; omega
  have hsz : pencilSize lay (lay.pn r dir k) dir (lay.dg r dir) = lay.boxSize r dir := by
    rw [pencilSize_eq hw hpos _ dir _ hi, boxSize_dv]
  have src := hM (lay.pn r dir k) hq l hl (lay.dg r dir) hi x (by rw [hsz]; exact hx)
  have hline : lineOf lay E (lay.pn r dir k) dir g = lineOf lay E r dir g := by
    funext l t; unfold lineOf; rw [siteOf_pn hw r dir k hk]
  rw [hdgq, colStart_pn hw hpos r dir k _ hk, hline, hsz] at src
  dsimp only at src
  rw [boxMin_dv, ← src]
  unfold scatterData
  by_cases c : pencilNode lay r dir k = r
  · have hself : lay.pn r dir k = r := by rw [← pencilNode_eq hw hpos r dir k hk, c]
    have hkk := (pencilNode_eq_iff hw hpos r hr dir k hk).1 c
    have hout := foldl_writeRange_out (fun j => pencilNode lay r dir j ≠ r)
      (fun j => (true, columnOffset lay r dir j * E))
      (fun j => columnNumber lay r dir j * E * (lay.nodeinfo r).size dir)
      (fun j x => M (pencilNode lay r dir j) (recPtr lay E (pencilNode lay r dir j) dir
        (pencilIndex lay (pencilNode lay r dir j) dir r)).1
        ((recPtr lay E (pencilNode lay r dir j) dir
          (pencilIndex lay (pencilNode lay r dir j) dir r)).2 + x))
      (List.range (lay.ndiv dir)) (M r) true
      ((colStart lay r dir k * E + l) * lay.boxSize r dir + x)
      (by
        intro j hj hne hin
        have hj := List.mem_range.1 hj
        unfold InReg at hin
        dsimp only at hin
        have e1 : columnOffset lay r dir j * E = colStart lay r dir j * E * lay.boxSize r dir := by
          rw [columnOffset_eq]; ring
        have e2 : columnNumber lay r dir j * E * (lay.nodeinfo r).size dir + columnOffset lay r dir j * E
            = colStart lay r dir (j + 1) * E * lay.boxSize r dir := by
          have := colStart_mono (lay := lay) r dir j (j + 1) (by omega)
          rw [e1, columnNumber_eq hw hpos, nodeinfo_eq, ofBox_size, ← Nat.add_mul, ← Nat.add_mul,
            Nat.sub_add_cancel this]
        have hjk : j ≠ k := by rintro rfl; exact hne c
        rcases Nat.lt_or_gt_of_ne hjk with h | h
        · have h1 : colStart lay r dir (j + 1) * E * lay.boxSize r dir ≤
              (colStart lay r dir k * E + l) * lay.boxSize r dir :=
            Nat.mul_le_mul_right _ (le_trans (Nat.mul_le_mul_right _ (colStart_mono _ _ _ _ h))
              (Nat.le_add_right _ _))
          omega
        · have h1 : (colStart lay r dir k * E + l + 1) * lay.boxSize r dir ≤
              colStart lay r dir j * E * lay.boxSize r dir :=
            Nat.mul_le_mul_right _ (le_trans hhigh (Nat.mul_le_mul_right _ (colStart_mono _ _ _ _ h)))
          rw [Nat.add_mul, Nat.one_mul] at h1
          omega)
    refine hout.trans ?_
    rw [hself, recPtr_own E r dir _ (by rw [← hkk]; exact c), columnOffset_eq, hkk]
    dsimp only
    congr 1
    ring
  · have e1 : ∀ j, columnOffset lay r dir j * E = colStart lay r dir j * E * lay.boxSize r dir := by
      intro j; rw [columnOffset_eq]; ring
    have e2 : ∀ j, columnNumber lay r dir j * E * (lay.nodeinfo r).size dir +
        columnOffset lay r dir j * E = colStart lay r dir (j + 1) * E * lay.boxSize r dir := by
      intro j
      have := colStart_mono (lay := lay) r dir j (j + 1) (by omega)
      rw [e1, columnNumber_eq hw hpos, nodeinfo_eq, ofBox_size, ← Nat.add_mul, ← Nat.add_mul,
        Nat.sub_add_cancel this]
    have mono : ∀ j j', j < j' → colStart lay r dir (j + 1) * E * lay.boxSize r dir ≤
        colStart lay r dir j' * E * lay.boxSize r dir := fun j j' h =>
      Nat.mul_le_mul_right _ (Nat.mul_le_mul_right _ (colStart_mono _ _ _ _ h))
    have hin := foldl_writeRange_in (fun j => pencilNode lay r dir j ≠ r)
      (fun j => (true, columnOffset lay r dir j * E))
      (fun j => columnNumber lay r dir j * E * (lay.nodeinfo r).size dir)
      (fun j x => M (pencilNode lay r dir j) (recPtr lay E (pencilNode lay r dir j) dir
        (pencilIndex lay (pencilNode lay r dir j) dir r)).1
        ((recPtr lay E (pencilNode lay r dir j) dir
          (pencilIndex lay (pencilNode lay r dir j) dir r)).2 + x))
      (List.range (lay.ndiv dir)) (M r)
      (by
        intro j _ j' _ hne _ _ b a ⟨h1, h2⟩
        unfold InReg at h1 h2
        dsimp only at h1 h2
        have := e1 j; have := e1 j'; have := e2 j; have := e2 j'
        rcases Nat.lt_or_gt_of_ne hne with h | h
        · have := mono j j' h; omega
        · have := mono j' j h; omega)
      k (List.mem_range.2 hk) c (l * lay.boxSize r dir + x)
      (by
        rw [columnNumber_eq hw hpos, ← hmy, nodeinfo_eq, ofBox_size]
        exact mul_add_lt' hl hx)
    dsimp only at hin
    rw [show (colStart lay r dir k * E + l) * lay.boxSize r dir + x =
      columnOffset lay r dir k * E + (l * lay.boxSize r dir + x) by rw [e1]; ring]
    refine hin.trans ?_
    rw [pencilNode_eq hw hpos r dir k hk, pencilIndex_eq hw hpos r hr dir k hk, Nat.add_assoc]

/-! ### Whole passes -/

/-- Transforming every line in direction `dir`. -/
def lineMap (F : (ℕ → A) → ℕ → A) (dir : Fin n) (g : Site n → ℕ → A) : Site n → ℕ → A :=
  fun c e => F (fun t => g (Function.update c dir t) e) (c dir)

include hw hpos in
theorem fftDirection_spec (E : ℕ) (F : Fin n → (ℕ → A) → ℕ → A)
    (hF : ∀ d, LocalTo (lay.L d) (F d)) (junk : ℕ → A) (order : ℕ → List (Site n))
    (ho : ∀ r < lay.numNodes, ∀ c, c ∈ order r ↔ BoxOf lay r c) (input g : Site n → ℕ → A)
    (st : Option (Fin n) × (ℕ → PBuf A)) (dir : Fin n)
    (hst : match st.1 with
      | none => g = input
      | some prev => ∀ r < lay.numNodes, Enc lay E r prev g (st.2 r false)) :
    ∀ r < lay.numNodes, Enc lay E r dir (lineMap (F dir) dir g)
      ((fftDirection lay E F junk order input st dir).2 r false) := by
  intro r hr
  unfold fftDirection swapBuffers
  dsimp only [Bool.not_false]
  apply scatterData_enc hw hpos E dir g (F dir) _ _ r hr
  intro q hq
  apply transformData_spec hw hpos E q hq dir (F dir) (hF dir) junk _ _
  apply gatherData_lines hw hpos E dir g _ _ q hq
  intro p hp
  obtain ⟨o, B⟩ := st
  cases o with
  | none =>
    dsimp only at hst ⊢
    rw [hst]
    exact collectData_enc E p dir (order p) (ho p hp) input _
  | some prev =>
    dsimp only at hst ⊢
    rw [reshuffleData_eq]
    intro c hc e he
    rw [← hst p hp c hc e he]
    exact collectData_enc E p dir (order p) (ho p hp) _ _ c hc e he

include hw hpos in
theorem foldl_fftDirection (E : ℕ) (F : Fin n → (ℕ → A) → ℕ → A)
    (hF : ∀ d, LocalTo (lay.L d) (F d)) (junk : ℕ → A) (order : ℕ → List (Site n))
    (ho : ∀ r < lay.numNodes, ∀ c, c ∈ order r ↔ BoxOf lay r c) (input : Site n → ℕ → A)
    (l : List (Fin n)) : ∀ (g : Site n → ℕ → A) (st : Option (Fin n) × (ℕ → PBuf A)),
    (match st.1 with
      | none => g = input
      | some prev => ∀ r < lay.numNodes, Enc lay E r prev g (st.2 r false)) →
    (match (l.foldl (fftDirection lay E F junk order input) st).1 with
      | none => l.foldl (fun g d => lineMap (F d) d g) g = input
      | some prev => ∀ r < lay.numNodes, Enc lay E r prev (l.foldl (fun g d => lineMap (F d) d g) g)
        ((l.foldl (fftDirection lay E F junk order input) st).2 r false)) := by
  induction l with
  | nil => intro g st h; exact h
  | cons d l ih =>
    intro g st h
    rw [List.foldl_cons, List.foldl_cons]
    exact ih _ _ (fftDirection_spec hw hpos E F hF junk order ho input g st d h)

theorem foldl_fftDirection_some (E : ℕ) (F : Fin n → (ℕ → A) → ℕ → A) (junk : ℕ → A)
    (order : ℕ → List (Site n)) (input : Site n → ℕ → A) (l : List (Fin n)) :
    ∀ (st : Option (Fin n) × (ℕ → PBuf A)), st.1.isSome ∨ l ≠ [] →
      ((l.foldl (fftDirection lay E F junk order input) st).1).isSome := by
  induction l with
  | nil => intro st h; simpa using h
  | cons d l ih => intro st _; exact ih _ (.inl rfl)

include hw hpos in
/-- The whole data path: the lines in the active directions are transformed one after another. -/
theorem fullTransform_spec (E : ℕ) (F : Fin n → (ℕ → A) → ℕ → A)
    (hF : ∀ d, LocalTo (lay.L d) (F d)) (junk : ℕ → A) (uninit : ℕ → PBuf A)
    (order : ℕ → List (Site n)) (ho : ∀ r < lay.numNodes, ∀ c, c ∈ order r ↔ BoxOf lay r c)
    (directions : Fin n → Bool) (hd : ∃ d, directions d = true) (input : Site n → ℕ → A) :
    ∃ out, fullTransform lay E F junk uninit order directions input = some out ∧
      ∀ c, lay.InLattice c → ∀ e < E, out c e =
        (((List.finRange n).filter fun d => directions d).foldl (fun g d => lineMap (F d) d g) input)
          c e := by
  unfold fullTransform
  dsimp only
  set l := (List.finRange n).filter fun d => directions d with hl
  have hne : l ≠ [] := by
    obtain ⟨d, hd⟩ := hd
    intro h
    have : d ∈ l := by rw [hl]; exact List.mem_filter.2 ⟨List.mem_finRange d, hd⟩
    rw [h] at this; cases this
  have h1 := foldl_fftDirection_some (lay := lay) E F junk order input l (none, uninit) (.inr hne)
  have h2 := foldl_fftDirection hw hpos E F hF junk order ho input l input (none, uninit) rfl
  set st := l.foldl (fftDirection lay E F junk order input) (none, uninit)
  obtain ⟨o, B⟩ := st
  cases o with
  | none => simp at h1
  | some dir =>
    refine ⟨_, rfl, ?_⟩
    intro c hc e he
    exact h2 _ (nodeRank_lt lay hw c hc) c
      ((inBox_iff_nodeRank lay hw _ (nodeRank_lt lay hw c hc) c hc).2 rfl) e he

end

end Hila
