import Verif.Proof.Functions
import Mathlib.Algebra.Star.Rat
import Mathlib.Logic.Encodable.Basic
import Mathlib.Logic.Equiv.List
import Mathlib.Data.Int.Basic

/-!
C28: products, powers and conjugates of drive functions are pointwise.

The code compares functions by Python's `hash`, so the theorems assume that hashes of the functions that
can occur do not collide (`NoCollision`); the last theorems show what happens when they do, and that
they do collide for the integer arguments -1 and -2.
-/

namespace Props
open Model.Drive Spec.Drive Proof.Drive

variable {F A T R : Type} [CommSemiring R] [StarRing R]

/-- C28, part: whatever the expression, if python builds an object for it the object evaluates at every time to
the value of the expression.  Missing: objects are not built for conjugates of products, and hashes may collide. -/
theorem C28_pointwise_partial (H : PyHash F A) (app : F → List A → T → R) (e : Expr F A) (S : F × List A → Prop)
    (hS : ∀ q ∈ e.parts, S q) (hc : NoCollision H S e.parts.length) (z : Fn F A) (hz : build H e = some z) (t : T) :
    call app z t = e.meaning app t :=
  (build_spec hc e hS le_rfl hz).1 t

/-- C28, part: repeated products are powers.
Missing: conjugates of products and hashes that collide (`C28_conj_fails`, `C28_conj_square_fails`, `C28_collision`). -/
theorem C28_power_partial (H : PyHash F A) (app : F → List A → T → R) (e : Expr F A) (n : Nat)
    (hc : NoCollision H (· ∈ (e.pow n).parts) (e.pow n).parts.length) (z : Fn F A) (hz : build H (e.pow n) = some z)
    (t : T) : call app z t = power (e.meaning app) (n + 1) t := by
  rw [C28_pointwise_partial H app (e.pow n) _ (fun _ h => h) hc z hz t, power]
  have aux : ∀ k, (e.pow k).meaning app t = e.meaning app t ^ (k + 1) := fun k => by
    induction k with
    | zero => simp [Expr.pow]
    | succ k ih => rw [Expr.pow, Expr.meaning, times, ih, ← pow_succ]
  exact aux n

/-- Products of any nesting are always built (no exception), and the result can be used as a key of the
dictionary of dynamic terms. -/
theorem C28_products_return (H : PyHash F A) (e : Expr F A) (he : e.NoConj)
    (hc : NoCollision H (· ∈ e.parts) e.parts.length) : ∃ z k, build H e = some z ∧ hash H z = some k := by
  obtain ⟨z, hz, hb⟩ := build_some hc e he (fun _ h => h) le_rfl
  obtain ⟨k, hk⟩ := hash_some (H := H) hb
  exact ⟨z, k, hz, hk⟩

/-- Two functions that compare equal have the same value at every time.
Missing: conjugates of products and hashes that collide (`C28_conj_fails`, `C28_conj_square_fails`, `C28_collision`). -/
theorem C28_equal_partial (H : PyHash F A) (app : F → List A → T → R) (S : F × List A → Prop) (m : Nat)
    (hc : NoCollision H S m) (x y : Fn F A) (hx : ∀ q ∈ parts x, S q) (hy : ∀ q ∈ parts y, S q) (dx : degree x ≤ m)
    (dy : degree y ≤ m) (h : eq H x y = some true) (t : T) : call app x t = call app y t :=
  (same_of_perm (hc x y hx hy dx dy h)).1 t

/-- Conjugating twice gives the function back. -/
theorem C28_conjugate (x y : Fn F A) (h : conjugate x = some y) : conjugate y = some x := by
  match x, h with
  | .atom (.base f args), h =>
    obtain rfl : Fn.atom (.conj f args) = y := by simpa [conjugate] using h
    rfl
  | .atom (.conj f args), h =>
    obtain rfl : Fn.atom (.base f args) = y := by simpa [conjugate] using h
    rfl

/-! ### Where the property fails -/

/-- The conjugate of a product of two functions is never built, whatever the hashes and the functions. -/
theorem C28_conj_fails (H : PyHash F A) (x y : Expr F A) : build H (.conj (.mul x y)) = none := by
  cases h : build H (.mul x y) with
  | none =>
    show (build H (.mul x y)).bind conjugate = none
    rw [h]; rfl
  | some z =>
    have : conjugate z = none := by
      obtain ⟨a, -, h⟩ := bind_some (o := build H x) (f := fun a => (build H y).bind fun b => mul H a b) h
      obtain ⟨b, -, h⟩ := bind_some h
      cases a with
      | atom a =>
        obtain ⟨e, -, h⟩ := bind_some h
        cases e with
        | true =>
          obtain rfl : Fn.pow a 2 = z := by simpa using h
          rfl
        | false =>
          obtain ⟨c, -, h⟩ := bind_some (by simpa using h)
          cases c with
          | false =>
            obtain rfl : Fn.mul (.atom a) b = z := by simpa using h
            rfl
          | true => exact mulAtom_not_atom (by simpa using h)
      | pow a p => exact powMul_not_atom h
      | mul u v =>
        obtain ⟨c, -, h⟩ := bind_some h
        cases c with
        | true =>
          obtain ⟨w, -, rfl⟩ := map_some (by simpa only [if_true] using h)
          rfl
        | false =>
          obtain ⟨d, -, h⟩ := bind_some (by simpa using h)
          cases d with
          | true =>
            obtain ⟨w, -, rfl⟩ := map_some (by simpa only [if_true] using h)
            rfl
          | false =>
            obtain rfl : Fn.mul (.mul u v) b = z := by simpa using h
            rfl
    show (build H (.mul x y)).bind conjugate = none
    rw [h]; exact this

/-- The square of a conjugated function is built but cannot be hashed: it cannot be a key of the dictionary of
dynamic terms, so a product of two hamiltonians with a conjugated drive raises. -/
theorem C28_conj_square_fails (H : PyHash F A) (f : F) (args : List A) :
    ∃ z, build H (.mul (.conj (.fn f args)) (.conj (.fn f args))) = some z ∧ hash H z = none := by
  refine ⟨.pow (.conj f args) 2, ?_, by simp [Model.Drive.hash, hashList]⟩
  simp [build, conjugate, mul, Model.Drive.eq, Model.Drive.hash, hashList]

/-- The hashes of the integers -1 and -2 are the same, so the same function with the arguments -1 and -2 compares
equal, whatever the rest of Python's `hash` does. -/
theorem C28_collision (H : PyHash F Int) (hH : H.arg = intHash) (f : F) :
    eq H (.atom (.base f [-1])) (.atom (.base f [-2])) = some true := by
  have h1 : intHash (-1) = -2 := by decide
  have h2 : intHash (-2) = -2 := by decide
  simp [Model.Drive.eq, Model.Drive.hash, hashList, Atom.hashList, hH, h1, h2]

/-- C28 fails: the product of `f(t,-1)` and `f(t,-2)` is built as `f(t,-1)^2`. -/
theorem C28_product_fails (H : PyHash F Int) (hH : H.arg = intHash) (f : F) :
    ∃ (app : F → List Int → Unit → Rat) (e : Expr F Int) (z : Fn F Int), build H e = some z ∧
      call app z () ≠ e.meaning app () := by
  refine ⟨fun _ args _ => (args.headD 0 : Int), .mul (.fn f [-1]) (.fn f [-2]), .pow (.base f [-1]) 2, ?_, ?_⟩
  · have := C28_collision H hH f
    simp [build, mul, this]
  · simp [call, Atom.call, Expr.meaning, times]

/-! ### The hypotheses are met -/

/-- Two callables `0`, `1` with at most one natural number as argument, and a hash that does not collide:
numbers coding lists. -/
def sampleHash : PyHash Nat Nat where
  tup l := (Encodable.encode l : Int)
  callable f := 2 * f
  arg a := a
  unit := 1
  int p := p

theorem sampleHash_injective : Injective sampleHash where
  tup l k h := Encodable.encode_injective (Int.ofNat.inj h)
  callable f g h := by simpa [sampleHash] using h
  arg a b h := by simpa [sampleHash] using h
  int a b h := by simpa [sampleHash] using h
  unit f h := by simp only [sampleHash] at h; omega

example (S : Nat × List Nat → Prop) (m : Nat) : NoCollision sampleHash S m :=
  noCollision_of_injective sampleHash_injective S m

/-- `f * (g * f)`: built as `f^2 * g`-like product whose value is checked by the theorem. -/
example (app : Nat → List Nat → Unit → Rat) : ∃ z,
    build sampleHash (.mul (.fn 0 [3]) (.mul (.fn 1 []) (.fn 0 [3]))) = some z ∧
      call app z () = app 0 [3] () * (app 1 [] () * app 0 [3] ()) := by
  obtain ⟨z, k, hz, -⟩ := C28_products_return sampleHash (.mul (.fn 0 [3]) (.mul (.fn 1 []) (.fn 0 [3])))
    ⟨trivial, trivial, trivial⟩ (noCollision_of_injective sampleHash_injective _ _)
  exact ⟨z, hz, C28_pointwise_partial sampleHash app _ (fun _ => True) (fun _ _ => trivial)
    (noCollision_of_injective sampleHash_injective _ _) z hz ()⟩

/-- A product with a conjugate. -/
example : ∃ z, build sampleHash (.mul (.fn 0 []) (.conj (.fn 0 []))) = some z := by
  have h1 : (sampleHash.tup [sampleHash.tup [0, sampleHash.tup []]] : Int) ≠
      sampleHash.tup [sampleHash.tup [1, 0, sampleHash.tup []]] := fun h => by
    have := sampleHash_injective.tup _ _ h
    simp only [List.cons.injEq, and_true] at this
    have := sampleHash_injective.tup _ _ this
    simp at this
  obtain ⟨z, hz⟩ := mul_some (noCollision_of_injective sampleHash_injective (fun _ => True) 2)
    (x := .atom (.base 0 [])) (o := .atom (.conj 0 [])) trivial ⟨fun _ _ => trivial, by decide⟩
    ⟨fun _ _ => trivial, by decide⟩
  exact ⟨z, by simpa [build, conjugate] using hz⟩

end Props
