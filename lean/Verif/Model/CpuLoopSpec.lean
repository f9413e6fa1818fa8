import Verif.Model.CpuLoop

/-!
# The meaning of a site loop

What the programmer relies on; no ranks, halos, messages or order of sites.
-/

namespace Hila
section
variable {Φ S D V : Type} [DecidableEq Φ]

/-- All sites of the parity of the loop get the new values of the assigned fields at once, computed from
the old values there and at the neighbours. -/
def SiteLoop.apply (L : SiteLoop Φ S D V) (parity : S → Parity) (nb : D → S → S) (v : Φ → S → V) :
    Φ → S → V := fun f c =>
  if f ∈ L.writes ∧ L.par.visits (parity c) = true then
    L.body c (fun f => v f c) (L.reads.map fun fd => v fd.1 (nb fd.2 c)) f
  else v f c

/-- The order in which passes do the sites of ranks: each rank does its sites of the parity of the loop,
each once. -/
def GoodOrder {R : Type} (L : SiteLoop Φ S D V) (parity : S → Parity) (owner : S → R)
    (order : Bool → R → List S) : Prop :=
  ∀ w r, (order w r).Nodup ∧ ∀ c, c ∈ order w r ↔ owner c = r ∧ L.par.visits (parity c) = true

end
end Hila
