import Verif.Spec.Digits
/-!
Specification vocabulary for symmetry maps as the user writes them: `map[i] = j ≥ 0` moves site `i` to
site `j`; `map[i] = j < 0` moves site `i` to site `-(j+1)` and inverts its occupation.  Nothing here
refers to the model.
-/
namespace Spec

/-- The site a map entry points to. -/
def target (j : Int) : Nat := if j < 0 then (-(j + 1)).toNat else j.toNat

/-- Target of site `i`. -/
def dest (map : List Int) (i : Nat) : Nat := target (map.getD i 0)

/-- Whether the occupation of site `i` is inverted. -/
def inverts (map : List Int) (i : Nat) : Bool := decide (map.getD i 0 < 0)

/-- The map sends the `N` sites one-to-one to the `N` sites. -/
structure IsSiteMap (N : Nat) (map : List Int) : Prop where
  length : map.length = N
  range : ∀ i < N, dest map i < N
  inj : ∀ i < N, ∀ j < N, dest map i = dest map j → i = j

/-- `n` on a site that is not inverted, `b-1-n` on an inverted one. -/
def flipIf (b : Nat) (c : Bool) (n : Nat) : Nat := if c then b - 1 - n else n

/-- `t` is the image of the `N`-site configuration `s`: the target site of site `i` carries the
occupation of site `i` in `s`, inverted when the map says so. -/
structure IsImage (b N : Nat) (map : List Int) (s t : Nat) : Prop where
  lt : t < b ^ N
  occ : ∀ i < N, occ b N t (dest map i) = flipIf b (inverts map i) (occ b N s i)

/-- Two maps commute on all `N`-site configurations. -/
def MapsCommute (b N : Nat) (p q : List Int) : Prop :=
  ∀ s t u t' u', s < b ^ N → IsImage b N p s t → IsImage b N q t u → IsImage b N q s t' →
    IsImage b N p t' u' → u = u'

end Spec
