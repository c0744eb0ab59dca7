import Verif.Spec.Bits
/-!
Specification vocabulary for configurations of sites with `b` levels stored as the base-`b` digits
of an integer.  Nothing here refers to the model.
-/
namespace Spec

/-- Base-`b` digit of `s` at position `i` (position 0 is the least significant). -/
def digit (b s i : Nat) : Nat := s / b ^ i % b

/-- Occupation of lattice site `i` of an `N`-site configuration with `b` levels per site: site 0 is
the leftmost (most significant) digit. -/
def occ (b N s i : Nat) : Nat := digit b s (N - 1 - i)

/-- Total number of quanta on the `n` lowest positions. -/
def dsum (b n s : Nat) : Nat := ((List.range n).map (digit b s)).sum

/-- All `N`-site configurations with `b` levels per site and `k` quanta in total, increasing. -/
def sectorB (b N k : Nat) : List Nat := (List.range (b ^ N)).filter (fun s => dsum b N s == k)

end Spec
