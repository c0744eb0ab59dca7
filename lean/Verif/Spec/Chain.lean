import Verif.Spec.Maps
import Verif.Spec.FermionMaps
import Verif.Spec.Symmetry
import Mathlib.Data.Nat.Notation
import Mathlib.Data.Int.Notation
/-!
Specification vocabulary for the symmetries of a chain of `L` sites, written as maps of the sites
(`Spec.IsImage` says what a map does to a configuration).  Nothing here refers to the model.
-/
namespace Spec

/-- Translation by `T` sites: site `i` goes to site `i+T`, periodically. -/
def translation (L T : ℕ) : List Int := (List.range L).map fun (i : ℕ) => (((i + T) % L : ℕ) : Int)

/-- Reflection about the middle of the chain: site `i` goes to site `L-1-i`. -/
def reflection (L : ℕ) : List Int := (List.range L).map fun (i : ℕ) => ((L - 1 - i : ℕ) : Int)

/-- Inversion of every site. -/
def inversion (L : ℕ) : List Int := (List.range L).map fun (i : ℕ) => -((i : Int) + 1)

/-- Inversion of the sites whose index has remainder `c` modulo 2. -/
def inversionOf (c L : ℕ) : List Int :=
  (List.range L).map fun (i : ℕ) => if i % 2 = c then -((i : Int) + 1) else (i : Int)

/-- A map of the `L` sites of a chain applied to both spin species.  Sites `0,…,L-1` are the sites of the chain
for spin up, `L,…,2L-1` for spin down. -/
def bothSpins (L : ℕ) (map : List Int) : List Int := map ++ map.map fun (j : Int) => j + (L : Int)

/-- Exchange of spin up and spin down. -/
def spinExchange (L : ℕ) : List Int := (List.range (2 * L)).map fun (i : ℕ) => (((i + L) % (2 * L) : ℕ) : Int)

/-- The chains of the one-dimensional bases. -/
inductive Chain where
  /-- two levels per site: spin 1/2 or hard-core bosons -/
  | twoLevel (L : ℕ)
  /-- `b` levels per site: higher spins and bosons -/
  | levels (b L : ℕ)
  /-- spinless fermions -/
  | spinless (L : ℕ)
  /-- fermions with spin: all spin-up sites, then all spin-down sites -/
  | spinful (L : ℕ)

namespace Chain

/-- length of the chain -/
def length : Chain → ℕ
  | twoLevel L => L
  | levels _ L => L
  | spinless L => L
  | spinful L => L

/-- number of levels per site -/
def base : Chain → ℕ
  | levels b _ => b
  | _ => 2

/-- number of sites of a configuration -/
def sites : Chain → ℕ
  | spinful L => 2 * L
  | c => c.length

/-- number of configurations -/
def size (c : Chain) : ℕ := c.base ^ c.sites

/-- translation of the chain by `T` sites -/
def shift (T : ℕ) : Chain → List Int
  | spinful L => bothSpins L (translation L T)
  | c => translation c.length T

/-- reflection of the chain -/
def parity : Chain → List Int
  | spinful L => bothSpins L (reflection L)
  | c => reflection c.length

/-- inversion of all sites; for fermions with spin the exchange of the spin species -/
def flip : Chain → List Int
  | spinful L => spinExchange L
  | c => inversion c.length

/-- inversion of the sites with index `r` modulo 2 -/
def flipOf (r : ℕ) (c : Chain) : List Int := inversionOf r c.length

/-- the particles are fermions -/
def fermions : Chain → Bool
  | spinless _ => true
  | spinful _ => true
  | _ => false

/-- A basis integer of `w` bits (`none`: unbounded) holds the configurations; for spinless fermions one bit more is
needed. -/
def Fits (w : Option ℕ) : Chain → Prop
  | .twoLevel L => 1 ≤ L ∧ ∀ v, w = some v → L ≤ v
  | .levels b L => 1 ≤ L ∧ 0 < b
  | .spinless L => 1 ≤ L ∧ ∀ v, w = some v → L < v
  | .spinful L => 1 ≤ L ∧ ∀ v, w = some v → 2 * L ≤ v

/-- The basis offers inversion (for fermions with spin: exchange of the spins). -/
def HasFlip : Chain → Prop
  | .spinless _ => False
  | _ => True

/-- The symmetry `y` does to configurations what the map of the sites says, with the sign of reordering the
fermions, if they are fermions. -/
structure IsSymmetry (c : Chain) (map : List Int) (y : Generator) : Prop where
  img : ∀ s < c.size, IsImage c.base c.sites map s (y.img s)
  sgn : ∀ s < c.size, y.sgn s = if c.fermions then fermionMapSign c.sites map s else 1

end Chain

/-- First `z`, then `y`; as a symmetry of order two with quantum number `q`. -/
def both (y z : Generator) (q : Int) : Generator := ⟨fun s => y.img (z.img s), fun s => z.sgn s * y.sgn (z.img s), 2, q⟩

/-- `y` has order two and eigenvalue `p = ±1`. -/
def HasParity (y : Generator) (p : Int) : Prop := y.per = 2 ∧ (p = 1 ∧ y.q = 0 ∨ p = -1 ∧ y.q = 1)

/-- The state `s` represents an orbit of the symmetries `ys` with the requested quantum numbers: it is the largest
of its orbit, and its projection does not vanish. -/
def IsRepresentative (ys : List Generator) (s : ℕ) : Prop :=
  (∀ t, Related ys s t → t ≤ s) ∧ ∃ t, projection ys s t ≠ 0

/-- `r` is the largest state of the orbit of `s`, and the symmetries with the exponents `cs` take `s` to `sign` times
`r`. -/
structure IsReference (ys : List Generator) (s : ℕ) (cs : List ℕ) (r : ℕ) (sign : Int) : Prop where
  exponents : cs ∈ exponents ys
  word : word ys cs (s, 1) = (r, sign)
  largest : ∀ t, Related ys s t → t ≤ r

end Spec
