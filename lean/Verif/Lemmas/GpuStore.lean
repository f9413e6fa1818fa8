import Verif.Model.GpuStore
import Mathlib.Data.Fintype.Basic
import Mathlib.Tactic.Ring
import Mathlib.Tactic.Linarith
import Mathlib.Data.List.Nodup
import Mathlib.Data.List.Range

/-! # Facts about fields in the memory of graphics processors -/

namespace Hila

variable {α : Type} {k : ℕ}

/-- The element of site `i` in a buffer with `A` sites. -/
def soaView (k : ℕ) (b : DevBuf α) (A i : ℕ) : Fin k → α := fun e => b.val (e.val * A + i)

theorem soaAt_lt {A i : ℕ} (e : Fin k) (hi : i < A) : e.val * A + i < k * A := by
  have h : (e.val + 1) * A ≤ k * A := Nat.mul_le_mul_right A e.isLt
  rw [Nat.add_mul, one_mul] at h
  omega

theorem soaAt_eq {A i : ℕ} (hA : k * A ≤ 4294967296) (e : Fin k) (hi : i < A) : soaAt A e.val i = e.val * A + i :=
  Nat.mod_eq_of_lt (lt_of_lt_of_le (soaAt_lt e hi) hA)

theorem soaAt_inj {A i j : ℕ} (e f : Fin k) (hi : i < A) (hj : j < A) (h : e.val * A + i = f.val * A + j) :
    e = f ∧ i = j := by
  have hA : 0 < A := by omega
  have h1 : (e.val * A + i) / A = e.val := by
    rw [mul_comm, Nat.mul_add_div hA, Nat.div_eq_of_lt hi, add_zero]
  have h2 : (f.val * A + j) / A = f.val := by
    rw [mul_comm, Nat.mul_add_div hA, Nat.div_eq_of_lt hj, add_zero]
  have he : e.val = f.val := by rw [← h1, ← h2, h]
  refine ⟨Fin.ext he, ?_⟩
  rw [he] at h
  omega

theorem soaGet_eq {b : DevBuf α} {A i : ℕ} (hb : b.size = k * A) (hA : k * A ≤ 4294967296) (hi : i < A) :
    soaGet (k := k) b A i = some (soaView k b A i) := by
  unfold soaGet
  rw [if_pos]
  · congr 1
    funext e
    rw [soaAt_eq hA e hi]; rfl
  · intro e
    rw [soaAt_eq hA e hi, hb]
    exact soaAt_lt e hi

/-- Writes to the places of a list of numbers of one site. -/
theorem soaWrites {A i : ℕ} (addr : ℕ → ℕ) (haddr : ∀ e : Fin k, addr e.val = e.val * A + i) (hi : i < A)
    (v : Fin k → α) : ∀ (es : List (Fin k)) (b : DevBuf α), b.size = k * A →
    ∃ b', es.foldlM (fun b e => b.write (addr e.val) (v e)) b = some b' ∧ b'.size = k * A ∧
      (∀ e ∈ es, b'.val (e.val * A + i) = v e) ∧
      ∀ a, (∀ e ∈ es, a ≠ e.val * A + i) → b'.val a = b.val a
  | [], b, hb => ⟨b, rfl, hb, by simp, by simp⟩
  | e :: es, b, hb => by
    have hw : b.write (addr e.val) (v e) = some ⟨b.size, Function.update b.val (e.val * A + i) (v e)⟩ := by
      unfold DevBuf.write
      rw [haddr e, if_pos (by rw [hb]; exact soaAt_lt e hi)]
    obtain ⟨b', h1, h2, h3, h4⟩ := soaWrites addr haddr hi v es
      ⟨b.size, Function.update b.val (e.val * A + i) (v e)⟩ hb
    refine ⟨b', ?_, h2, ?_, ?_⟩
    · rw [List.foldlM_cons, hw]; exact h1
    · intro f hf
      by_cases hfe : f ∈ es
      · exact h3 f hfe
      · have hef : f = e := by
          rcases List.mem_cons.1 hf with h | h
          · exact h
          · exact absurd h hfe
        subst hef
        rw [h4]
        · exact Function.update_self _ _ _
        · intro g hg hEq
          obtain ⟨rfl, -⟩ := soaAt_inj f g hi hi hEq
          exact hfe hg
    · intro a ha
      rw [h4 a fun f hf => ha f (by simp [hf])]
      exact Function.update_of_ne (ha e (by simp)) _ _

theorem soaWrites_view {A i : ℕ} (addr : ℕ → ℕ) (haddr : ∀ e : Fin k, addr e.val = e.val * A + i) (hi : i < A)
    (v : Fin k → α) (b : DevBuf α) (hb : b.size = k * A) :
    ∃ b', (List.finRange k).foldlM (fun b e => b.write (addr e.val) (v e)) b = some b' ∧ b'.size = k * A ∧
      ∀ j < A, soaView k b' A j = if j = i then v else soaView k b A j := by
  obtain ⟨b', h1, h2, h3, h4⟩ := soaWrites addr haddr hi v (List.finRange k) b hb
  refine ⟨b', h1, h2, fun j hj => ?_⟩
  by_cases h : j = i
  · subst h
    rw [if_pos rfl]
    funext e
    exact h3 e (List.mem_finRange e)
  · rw [if_neg h]
    funext e
    apply h4
    intro f _ hEq
    exact h (soaAt_inj e f hj hi hEq).2

theorem soaSet_view {A i : ℕ} (hA : k * A ≤ 4294967296) (hi : i < A) (v : Fin k → α) (b : DevBuf α)
    (hb : b.size = k * A) :
    ∃ b', soaSet b A i v = some b' ∧ b'.size = k * A ∧
      ∀ j < A, soaView k b' A j = if j = i then v else soaView k b A j :=
  soaWrites_view (fun e => soaAt A e i) (fun e => soaAt_eq hA e hi) hi v b hb

/-- A kernel whose threads write one slot each: `g t` gets `h t`. -/
theorem kernel_slots {S V : Type} (body : ℕ → S → Option S) (P : S → Prop) (view : S → ℕ → V) (n N : ℕ)
    (g : ℕ → ℕ) (h : ℕ → V) (s0 : S)
    (hg : ∀ t t', t < n → t' < n → g t = g t' → t = t')
    (hbody : ∀ t < n, ∀ s, P s → (∀ j < N, (∀ t < n, g t ≠ j) → view s j = view s0 j) →
      ∃ s', body t s = some s' ∧ P s' ∧ ∀ j < N, view s' j = if j = g t then h t else view s j)
    (hidle : ∀ t, ¬ t < n → ∀ s, body t s = some s) :
    ∀ (ord : List ℕ) (s : S), ord.Nodup → P s → (∀ j < N, (∀ t < n, g t ≠ j) → view s j = view s0 j) →
      ∃ s', storeKernel body ord s = some s' ∧ P s' ∧
        (∀ t ∈ ord, t < n → g t < N → view s' (g t) = h t) ∧
        ∀ j < N, (∀ t ∈ ord, t < n → g t ≠ j) → view s' j = view s j
  | [], s, _, hP, _ => ⟨s, rfl, hP, by simp, by simp⟩
  | t :: ord, s, hn, hP, hs => by
    rw [List.nodup_cons] at hn
    by_cases ht : t < n
    · obtain ⟨s1, e1, hP1, hv1⟩ := hbody t ht s hP hs
      have hs1 : ∀ j < N, (∀ t < n, g t ≠ j) → view s1 j = view s0 j := by
        intro j hj hne
        rw [hv1 j hj, if_neg (fun hh => hne t ht hh.symm), hs j hj hne]
      obtain ⟨s2, e2, hP2, hw2, hk2⟩ := kernel_slots body P view n N g h s0 hg hbody hidle ord s1 hn.2 hP1 hs1
      refine ⟨s2, ?_, hP2, ?_, ?_⟩
      · unfold storeKernel at e2 ⊢
        rw [List.foldlM_cons, e1]; exact e2
      · intro u hu hun hgu
        rcases List.mem_cons.1 hu with rfl | hu
        · rw [hk2 _ hgu, hv1 _ hgu, if_pos rfl]
          intro w hw hwn hEq
          have := hg w u hwn hun hEq
          subst this
          exact hn.1 hw
        · exact hw2 u hu hun hgu
      · intro j hj hne
        rw [hk2 j hj fun u hu hun => hne u (by simp [hu]) hun, hv1 j hj,
          if_neg fun hh => hne t (by simp) ht hh.symm]
    · obtain ⟨s2, e2, hP2, hw2, hk2⟩ := kernel_slots body P view n N g h s0 hg hbody hidle ord s hn.2 hP hs
      refine ⟨s2, ?_, hP2, ?_, ?_⟩
      · unfold storeKernel at e2 ⊢
        rw [List.foldlM_cons, hidle t ht s]; exact e2
      · intro u hu hun hgu
        rcases List.mem_cons.1 hu with rfl | hu
        · exact absurd hun ht
        · exact hw2 u hu hun hgu
      · intro j hj hne
        exact hk2 j hj fun u hu hun => hne u (by simp [hu]) hun

/-- All threads below `n` run. -/
theorem soaBlocks_cover {n T : ℕ} (hT : 0 < T) {ord : List ℕ} (ho : ord.Perm (List.range (soaBlocks n T * T))) :
    ord.Nodup ∧ ∀ t < n, t ∈ ord := by
  refine ⟨ho.nodup_iff.2 List.nodup_range, fun t ht => ho.mem_iff.2 (List.mem_range.2 ?_)⟩
  unfold soaBlocks
  have := Nat.div_add_mod n T
  have := Nat.mod_lt n hT
  rw [Nat.add_mul, one_mul, mul_comm]
  omega

end Hila
