import Verif.Model.Layout
import Mathlib.Data.List.FinRange

/-!
# Model of `SiteIndex`, `SiteSelect`, `SiteValueSelect` (site_index.h, site_select.h), CPU version

`SiteSelect` is the same state machine without values: `hasValues = false`, `V` irrelevant. Values of
`size_t` are natural numbers; `previous_site = SIZE_MAX` is `none`. A write outside a `std::vector`
is the outcome `none` of the operation.
-/

namespace Hila

/-- `SiteIndex(const CoordinateVector &)` (site_index.h:35-42): `value += m*cv[d]; m *= size(d)`. -/
def siteIndexValue {n : ℕ} (L : Site n) (c : Site n) : ℕ :=
  ((List.finRange n).foldl (fun acc d => (acc.1 + acc.2 * c d, acc.2 * L d)) (0, 1)).1

/-- `SiteIndex::coordinates` (site_index.h:47-55): `res.e(d) = v % size(d); v /= size(d)`, in the
order of directions. -/
def siteIndexCoordinates {n : ℕ} (L : Site n) (v : ℕ) : Site n := digits L v

/-- `std::vector::resize`: keeps the first elements, new ones are default-initialised. -/
def vresize {A : Type} (l : List A) (k : ℕ) (d : A) : List A :=
  l.take k ++ List.replicate (k - l.length) d

/-- Member variables (site_select.h:33-46, 258). -/
structure SelState (V : Type) where
  sites : List ℕ
  values : List V
  autoJoin : Bool
  joined : Bool
  nmax : ℕ
  cur : ℕ
  prev : Option ℕ
  overflow : ℕ
  /-- the object is a `SiteValueSelect` -/
  hasValues : Bool
  deriving DecidableEq

/-- Constructor (site_select.h:50-57, 261-263). -/
def SelState.new {V : Type} (hasValues : Bool) (volume : ℕ) : SelState V :=
  ⟨[], [], true, false, volume, 0, none, 0, hasValues⟩

/-- `setup()` (site_select.h:93-99, 267-270); generated before the loop
(hilapp/src/codegen.cpp:240-250). -/
def SelState.setup {V : Type} (dflt : V) (nodeVolume : ℕ) (s : SelState V) : SelState V :=
  { s with sites := vresize s.sites nodeVolume 0, values := vresize s.values nodeVolume dflt,
           cur := 0, prev := none, overflow := 0, joined := false }

/-- `select_site` (site_select.h:73-81). -/
def SelState.selectSite {V : Type} (s : SelState V) (site : ℕ) : Option (SelState V) :=
  if s.prev = some site then
    if s.cur - 1 < s.sites.length then some { s with sites := s.sites.set (s.cur - 1) site }
    else none
  else if s.cur < s.sites.length then
    some { s with sites := s.sites.set s.cur site, prev := some site, cur := s.cur + 1 }
  else none

/-- `select_site_value` (site_select.h:281-284), or `select_site` if there are no values. -/
def SelState.selectSiteValue {V : Type} (s : SelState V) (site : ℕ) (v : V) :
    Option (SelState V) :=
  if s.hasValues = false then s.selectSite site
  else if s.cur < s.values.length then
    ({ s with values := s.values.set s.cur v } : SelState V).selectSite site
  else none

/-- The selections made by the loop body at one site, in order. -/
def SelState.body {V : Type} (site : ℕ) : List V → SelState V → Option (SelState V)
  | [], s => some s
  | v :: vs, s => (s.selectSiteValue site v).bind (SelState.body site vs)

/-- The site loop of one rank: the visited sites in order, each with the values selected there
(hilapp/src/codegen_cpu.cpp:196-209; loops with selections are not run by several threads,
codegen_cpu.cpp:120-130). -/
def SelState.loop {V : Type} : List (ℕ × List V) → SelState V → Option (SelState V)
  | [], s => some s
  | x :: xs, s => (SelState.body x.1 x.2 s).bind (SelState.loop xs)

/-- `endloop_action()` without the join (site_select.h:203-209, 301-305). -/
def SelState.endloop {V : Type} (dflt : V) (s : SelState V) : SelState V :=
  let s1 := if s.cur > s.nmax then { s with overflow := s.cur - s.nmax, cur := s.nmax } else s
  { s1 with sites := vresize s1.sites s1.cur 0, values := vresize s1.values s1.cur dflt }

/-- `clear()` of the base class, as called in `join_data_vectors` (site_select.h:101-105). The
values are not cleared because the call is not virtual. -/
def SelState.clear {V : Type} (s : SelState V) : SelState V :=
  { s with sites := [], cur := 0, prev := none }

/-- What a rank other than 0 sends after having received `nsend` (site_select.h:168-194): either
its sites with the overflow count appended, and the data; or only a count. -/
inductive SelReply (V : Type) where
  | data (sites : List ℕ) (values : List V)
  | count (over : ℕ)

/-- The part of `join_data_vectors` on a rank other than 0 (site_select.h:164-194). -/
def SelState.answer {V : Type} (dflt : V) (s : SelState V) (nsend : ℕ) :
    SelReply V × SelState V :=
  if nsend > 0 then
    let s1 := if nsend < s.sites.length then
        { s with overflow := s.overflow + (s.sites.length - nsend),
                 sites := vresize s.sites nsend 0 }
      else s
    let s2 : SelState V := { s1 with sites := s1.sites ++ [s1.overflow] }
    let s3 : SelState V := { s2 with values := vresize s2.values (s2.sites.length - 1) dflt }
    (.data s3.sites s3.values, s3.clear)
  else (.count (s.sites.length + s.overflow), s.clear)

/-- Rank 0 receives the answer of one rank (site_select.h:138-162). -/
def SelState.receive {V : Type} (s : SelState V) : SelReply V → SelState V
  | .data st vs => { s with overflow := s.overflow + st.getLastD 0, sites := s.sites ++ st.dropLast,
                            values := s.values ++ vs }
  | .count over => { s with overflow := s.overflow + over }

/-- `join()` (site_select.h:125-131, 290-294) on `N` ranks. Ranks 1, 2, … are asked in order; each
exchange is a rendezvous of one request and one answer. `nmax - sites.size()` is the unsigned
difference; after `endloop` the size is at most `nmax`. -/
def joinAll {V : Type} (dflt : V) (N : ℕ) (st : ℕ → SelState V) : ℕ → SelState V :=
  if (st 0).joined then st else
    let out := (List.range (N - 1)).foldl (fun (acc : ℕ → SelState V) k =>
      let n := k + 1
      let a := (acc n).answer dflt ((acc 0).nmax - (acc 0).sites.length)
      Function.update (Function.update acc n a.2) 0 ((acc 0).receive a.1)) st
    fun r => { out r with joined := true }

/-- A loop with one selection variable on all ranks: setup, site loop, end of loop, and the join
unless `no_join()` was given. `work r` lists the sites visited on rank `r` with the values selected
there. -/
def selectLoop {V : Type} (dflt : V) (N : ℕ) (nodeVolume : ℕ → ℕ) (work : ℕ → List (ℕ × List V))
    (st : ℕ → SelState V) : Option (ℕ → SelState V) :=
  if ∀ r ∈ List.range N, (SelState.loop (work r) ((st r).setup dflt (nodeVolume r))).isSome then
    let done := fun r =>
      ((SelState.loop (work r) ((st r).setup dflt (nodeVolume r))).getD (st r)).endloop dflt
    some (if (st 0).autoJoin then joinAll dflt N done else done)
  else none

end Hila
