/-!
Specification vocabulary for configurations of two-level sites stored in the bits of an integer.
Nothing here refers to the model.
-/
namespace Spec

/-- Number of occupied positions (set bits) of `v` among the positions `0, …, l-1`. -/
def count (l v : Nat) : Nat := (List.range l).countP (fun i => v.testBit i)

/-- Occupation of lattice site `i` of an `N`-site configuration `s`: the documented
convention is that site 0 is the leftmost (most significant) of the `N` bits. -/
def site (N s i : Nat) : Bool := s.testBit (N - 1 - i)

/-- All `N`-site configurations with exactly `k` occupied sites, in increasing integer order. -/
def sector (N k : Nat) : List Nat := (List.range (2 ^ N)).filter (fun s => count N s == k)

end Spec
