import Verif.Model.Functions
import Mathlib.Tactic.Ring
import Mathlib.Algebra.BigOperators.Group.List.Basic

namespace Proof.Drive
open Model.Drive Spec.Drive

variable {F A T R : Type} [CommSemiring R] [StarRing R]

/-- All callables of `x` are in `S`, `x` has at most `m` factors and positive exponents. -/
structure Within (S : F × List A → Prop) (m : Nat) (x : Fn F A) : Prop where
  parts : ∀ q ∈ parts x, S q
  deg : degree x ≤ m

/-- Exponents are positive, as the code builds them. -/
def PowPos : Fn F A → Prop
  | .atom _ => True
  | .pow _ p => 1 ≤ p
  | .mul x y => PowPos x ∧ PowPos y

theorem within_atom_of_pow {S : F × List A → Prop} {m p : Nat} {a : Atom F A} (hp : 1 ≤ p)
    (h : Within S m (.pow a p)) : Within S m (.atom a) :=
  ⟨h.1, le_trans hp h.2⟩

theorem within_left {S : F × List A → Prop} {m : Nat} {x y : Fn F A} (h : Within S m (.mul x y)) : Within S m x :=
  ⟨fun q hq => h.1 q (List.mem_append.2 (Or.inl hq)), le_trans (Nat.le_add_right _ _) h.2⟩

theorem within_right {S : F × List A → Prop} {m : Nat} {x y : Fn F A} (h : Within S m (.mul x y)) : Within S m y :=
  ⟨fun q hq => h.1 q (List.mem_append.2 (Or.inr hq)), le_trans (Nat.le_add_left _ _) h.2⟩

/-- What is shown of a product: its value, its callables, the number of its factors. -/
structure IsProd (app : F → List A → T → R) (x y z : Fn F A) : Prop where
  val : ∀ t, call app z t = call app x t * call app y t
  sub : ∀ q ∈ parts z, q ∈ parts x ∨ q ∈ parts y
  deg : degree z = degree x + degree y
  pos : PowPos z

theorem bind_some {α β : Type} {o : Option α} {f : α → Option β} {b : β} (h : o.bind f = some b) :
    ∃ a, o = some a ∧ f a = some b := by
  cases o with
  | none => simp at h
  | some a => exact ⟨a, rfl, h⟩

theorem map_some {α β : Type} {o : Option α} {f : α → β} {b : β} (h : o.map f = some b) :
    ∃ a, o = some a ∧ f a = b := by
  cases o with
  | none => simp at h
  | some a => exact ⟨a, rfl, by simpa using h⟩

variable {H : PyHash F A} {app : F → List A → T → R} {S : F × List A → Prop} {m : Nat}

/-- Value of one factor. -/
def facVal (app : F → List A → T → R) (t : T) : Atom F A × Option Nat → R
  | (a, none) => a.call app t
  | (a, some p) => a.call app t ^ p

def facDeg : Atom F A × Option Nat → Nat
  | (_, none) => 1
  | (_, some p) => p

theorem call_factors (x : Fn F A) (t : T) : call app x t = ((factors x).map (facVal app t)).prod := by
  induction x with
  | atom a => simp [call, factors, facVal]
  | pow a p => simp [call, factors, facVal]
  | mul x y hx hy => simp [call, factors, hx, hy]

theorem deg_factors (x : Fn F A) : degree x = ((factors x).map facDeg).sum := by
  induction x with
  | atom a => simp [degree, factors, facDeg]
  | pow a p => simp [degree, factors, facDeg]
  | mul x y hx hy => simp [degree, factors, hx, hy]

theorem parts_factors (x : Fn F A) : parts x = (factors x).map fun f => f.1.part := by
  induction x with
  | atom a => simp [parts, factors]
  | pow a p => simp [parts, factors]
  | mul x y hx hy => simp [parts, factors, hx, hy]

/-- Two functions with the same factors. -/
theorem same_of_perm {x y : Fn F A} (h : (factors x).Perm (factors y)) :
    (∀ t, call app x t = call app y t) ∧ degree x = degree y ∧ ∀ q, q ∈ parts x ↔ q ∈ parts y := by
  refine ⟨fun t => ?_, ?_, fun q => ?_⟩
  · rw [call_factors, call_factors]; exact (h.map _).prod_eq
  · rw [deg_factors, deg_factors]; exact (h.map _).sum_eq
  · rw [parts_factors, parts_factors]; exact (h.map _).mem_iff

theorem eq_sound (hc : NoCollision H S m) {x y : Fn F A} (hx : Within S m x) (hy : Within S m y)
    (h : eq H x y = some true) :
    (∀ t, call app x t = call app y t) ∧ degree x = degree y ∧ ∀ q, q ∈ parts x ↔ q ∈ parts y :=
  same_of_perm (hc x y hx.1 hy.1 hx.2 hy.2 h)

theorem prod_plain {x y : Fn F A} (hx : PowPos x) (hy : PowPos y) : IsProd app x y (.mul x y) :=
  ⟨fun _ => rfl, fun _ h => List.mem_append.1 h, rfl, hx, hy⟩

theorem IsProd.symm {x y z : Fn F A} (h : IsProd app x y z) : IsProd app y x z :=
  ⟨fun t => by rw [h.val, mul_comm], fun q hq => (h.sub q hq).symm, by rw [h.deg, Nat.add_comm], h.pos⟩

theorem prod_pow {a : Atom F A} {p : Nat} {y : Fn F A} (hc : NoCollision H S m) (hp : 1 ≤ p)
    (ha : Within S m (.atom a)) (hy : Within S m y)
    (h : eq H (.atom a) y = some true) : IsProd app (.pow a p) y (.pow a (p + 1)) := by
  obtain ⟨hv, hd, hq⟩ := eq_sound (app := app) hc ha hy h
  refine ⟨fun t => ?_, fun q h => Or.inl h, ?_, Nat.le_add_left _ _⟩
  · rw [← hv]; simp [call, pow_succ]
  · rw [← hd]; simp [degree]

theorem prod_two {a : Atom F A} {y : Fn F A} (hc : NoCollision H S m)
    (ha : Within S m (.atom a)) (hy : Within S m y)
    (h : eq H (.atom a) y = some true) : IsProd app (.atom a) y (.pow a 2) := by
  obtain ⟨hv, hd, hq⟩ := eq_sound (app := app) hc ha hy h
  refine ⟨fun t => ?_, fun q h => Or.inl h, ?_, by simp [PowPos]⟩
  · rw [← hv]; simp [call, pow_two]
  · rw [← hd]; simp [degree]

theorem prod_left {x y o z : Fn F A} (h : IsProd app x o z) (hy : PowPos y) :
    IsProd app (.mul x y) o (.mul z y) := by
  refine ⟨fun t => ?_, fun q hq => ?_, ?_, h.pos, hy⟩
  · simp only [call, h.val]; ring
  · simp only [parts, List.mem_append] at hq ⊢
    rcases hq with hq | hq
    · rcases h.sub q hq with h1 | h1 <;> simp [h1]
    · simp [hq]
  · simp only [degree, h.deg]; omega

theorem prod_right {x y o z : Fn F A} (h : IsProd app y o z) (hx : PowPos x) :
    IsProd app (.mul x y) o (.mul x z) := by
  refine ⟨fun t => ?_, fun q hq => ?_, ?_, hx, h.pos⟩
  · simp only [call, h.val]; ring
  · simp only [parts, List.mem_append] at hq ⊢
    rcases hq with hq | hq
    · simp [hq]
    · rcases h.sub q hq with h1 | h1 <;> simp [h1]
  · simp only [degree, h.deg]; omega

theorem atomMul_prod (hc : NoCollision H S m) {a b : Atom F A} {z : Fn F A} (ha : Within S m (.atom a))
    (hb : Within S m (.atom b)) (h : atomMul H a b = some z) : IsProd app (.atom a) (.atom b) z := by
  obtain ⟨e, he, h⟩ := bind_some h
  cases e with
  | true =>
    obtain rfl : Fn.pow a 2 = z := by simpa using h
    exact prod_two hc ha hb he
  | false =>
    obtain ⟨c, _, h⟩ := bind_some (by simpa using h)
    cases c with
    | true =>
      obtain ⟨d, _, h⟩ := bind_some (by simpa using h)
      cases d with
      | true => simp at h
      | false =>
        obtain rfl : Fn.mul (.atom b) (.atom a) = z := by simpa using h
        exact (prod_plain (x := .atom b) (y := .atom a) trivial trivial).symm
    | false =>
      obtain rfl : Fn.mul (.atom a) (.atom b) = z := by simpa using h
      exact prod_plain trivial trivial

theorem powMul_prod (hc : NoCollision H S m) {a : Atom F A} {p : Nat} {o z : Fn F A} (hp : 1 ≤ p) (ho' : PowPos o)
    (ha : Within S m (.pow a p)) (ho : Within S m o) (h : powMul H a p o = some z) :
    IsProd app (.pow a p) o z := by
  obtain ⟨e, he, h⟩ := map_some h
  cases e with
  | true =>
    obtain rfl : Fn.pow a (p + 1) = z := by simpa using h
    exact prod_pow hc hp (within_atom_of_pow hp ha) ho he
  | false =>
    obtain rfl : Fn.mul (.pow a p) o = z := by simpa using h
    exact prod_plain hp ho'

theorem mulAtom_prod (hc : NoCollision H S m) {x : Fn F A} {a : Atom F A} (ha : Within S m (.atom a)) :
    ∀ {z : Fn F A}, PowPos x → Within S m x → mulAtom H x a = some z → IsProd app x (.atom a) z := by
  induction x with
  | atom b => exact fun _ hx h => atomMul_prod hc hx ha h
  | pow b p => exact fun hp hx h => powMul_prod hc hp trivial hx ha h
  | mul x y ihx ihy =>
    intro z hp hx h
    obtain ⟨c, _, h⟩ := bind_some h
    cases c with
    | true =>
      obtain ⟨w, hw, rfl⟩ := map_some (by simpa only [if_true] using h)
      exact prod_left (ihx hp.1 (within_left hx) hw) hp.2
    | false =>
      obtain ⟨d, _, h⟩ := bind_some (by simpa using h)
      cases d with
      | true =>
        obtain ⟨w, hw, rfl⟩ := map_some (by simpa only [if_true] using h)
        exact prod_right (ihy hp.2 (within_right hx) hw) hp.1
      | false =>
        obtain rfl : Fn.mul (.mul x y) (.atom a) = z := by simpa using h
        exact prod_plain hp trivial

/-- A product returned by the code is the product. -/
theorem mul_prod (hc : NoCollision H S m) {x : Fn F A} :
    ∀ {o z : Fn F A}, PowPos x → PowPos o → Within S m x → Within S m o → mul H x o = some z → IsProd app x o z := by
  induction x with
  | atom a =>
    intro o z _ hpo hx ho h
    obtain ⟨e, he, h⟩ := bind_some h
    cases e with
    | true =>
      obtain rfl : Fn.pow a 2 = z := by simpa using h
      exact prod_two hc hx ho he
    | false =>
      obtain ⟨c, _, h⟩ := bind_some (by simpa using h)
      cases c with
      | true => exact (mulAtom_prod hc hx hpo ho (by simpa using h)).symm
      | false =>
        obtain rfl : Fn.mul (.atom a) o = z := by simpa using h
        exact prod_plain trivial hpo
  | pow a p => exact fun hp hpo hx ho h => powMul_prod hc hp hpo hx ho h
  | mul x y ihx ihy =>
    intro o z hp hpo hx ho h
    obtain ⟨c, _, h⟩ := bind_some h
    cases c with
    | true =>
      obtain ⟨w, hw, rfl⟩ := map_some (by simpa only [if_true] using h)
      exact prod_left (ihx hp.1 hpo (within_left hx) ho hw) hp.2
    | false =>
      obtain ⟨d, _, h⟩ := bind_some (by simpa using h)
      cases d with
      | true =>
        obtain ⟨w, hw, rfl⟩ := map_some (by simpa only [if_true] using h)
        exact prod_right (ihy hp.2 hpo (within_right hx) ho hw) hp.1
      | false =>
        obtain rfl : Fn.mul (.mul x y) o = z := by simpa using h
        exact prod_plain hp hpo

/-- `conjugate` evaluates to the conjugate. -/
theorem conjugate_val {x z : Fn F A} (h : conjugate x = some z) :
    (∀ t, call app z t = star (call app x t)) ∧ parts z = parts x ∧ degree z = degree x ∧ PowPos z := by
  match x, h with
  | .atom (.base f args), h =>
    obtain rfl : Fn.atom (.conj f args) = z := by simpa [conjugate] using h
    exact ⟨fun _ => rfl, rfl, rfl, trivial⟩
  | .atom (.conj f args), h =>
    obtain rfl : Fn.atom (.base f args) = z := by simpa [conjugate] using h
    exact ⟨fun _ => (star_star _).symm, rfl, rfl, trivial⟩

/-- The number of factors of an expression. -/
theorem build_spec (hc : NoCollision H S m) (e : Expr F A) (hS : ∀ q ∈ e.parts, S q) (hm : e.parts.length ≤ m) :
    ∀ {z : Fn F A}, build H e = some z →
      (∀ t, call app z t = e.meaning app t) ∧ (∀ q ∈ parts z, S q) ∧ degree z = e.parts.length ∧ PowPos z := by
  induction e with
  | fn f args =>
    intro z h
    obtain rfl : Fn.atom (.base f args) = z := by simpa [build] using h
    exact ⟨fun _ => rfl, hS, rfl, trivial⟩
  | mul x y ihx ihy =>
    intro z h
    obtain ⟨a, ha, h⟩ := bind_some h
    obtain ⟨b, hb, h⟩ := bind_some h
    simp only [Expr.parts, List.length_append] at hm
    obtain ⟨v1, p1, d1, q1⟩ := ihx (fun q hq => hS q (by simp [Expr.parts, hq])) (by omega) ha
    obtain ⟨v2, p2, d2, q2⟩ := ihy (fun q hq => hS q (by simp [Expr.parts, hq])) (by omega) hb
    have := mul_prod (app := app) hc q1 q2 ⟨p1, by omega⟩ ⟨p2, by omega⟩ h
    refine ⟨fun t => ?_, fun q hq => (this.sub q hq).elim (p1 q) (p2 q), ?_, this.pos⟩
    · rw [this.val, v1, v2]; rfl
    · rw [this.deg, d1, d2]; simp [Expr.parts]
  | conj x ih =>
    intro z h
    obtain ⟨a, ha, h⟩ := bind_some h
    obtain ⟨v1, p1, d1, q1⟩ := ih hS hm ha
    obtain ⟨v, p, d, q⟩ := conjugate_val (app := app) h
    refine ⟨fun t => ?_, fun r hr => p1 r (p ▸ hr), by rw [d, d1]; rfl, q⟩
    rw [v, v1]; rfl

/-! ### When do the operations return -/

/-- No power of a conjugate occurs. -/
def Hashable : Fn F A → Prop
  | .atom _ => True
  | .pow (.base _ _) _ => True
  | .pow (.conj _ _) _ => False
  | .mul x y => Hashable x ∧ Hashable y

theorem hashList_isSome (x : Fn F A) : (hashList H x).isSome ↔ Hashable x := by
  induction x with
  | atom a => simp [hashList, Hashable]
  | pow a p => cases a <;> simp [hashList, Hashable]
  | mul x y hx hy =>
    rw [Hashable, ← hx, ← hy]
    cases h1 : hashList H x <;> cases h2 : hashList H y <;> simp [hashList, h1, h2]

theorem eq_some {x y : Fn F A} (hx : Hashable x) (hy : Hashable y) : ∃ b, eq H x y = some b := by
  obtain ⟨l, hl⟩ := Option.isSome_iff_exists.1 ((hashList_isSome (H := H) x).2 hx)
  obtain ⟨k, hk⟩ := Option.isSome_iff_exists.1 ((hashList_isSome (H := H) y).2 hy)
  exact ⟨decide (H.tup l = H.tup k), by simp [Model.Drive.eq, Model.Drive.hash, hl, hk]⟩

theorem contains_atom_some (a : Atom F A) {o : Fn F A} (ho : Hashable o) : ∃ b, a.contains H o = some b := by
  cases a <;> exact eq_some trivial ho

theorem contains_some (x : Fn F A) {o : Fn F A} (ho : Hashable o) : ∃ b, contains H x o = some b := by
  induction x with
  | atom a => exact contains_atom_some a ho
  | pow a p => exact contains_atom_some a ho
  | mul x y hx hy =>
    obtain ⟨b, hb⟩ := hx
    obtain ⟨c, hc⟩ := hy
    cases b <;> simp [contains, hb, hc]

theorem not_mutual (hc : NoCollision H S m) {a b : Atom F A} (ha : Within S m (.atom a)) (hb : Within S m (.atom b))
    (he : eq H (.atom a) (.atom b) = some false) (h1 : b.contains H (.atom a) = some true)
    (h2 : a.contains H (.atom b) = some true) : False := by
  have key : ∀ x y : Atom F A, Within S m (.atom x) → Within S m (.atom y) →
      eq H (.atom x) (.atom y) = some true → x = y := fun x y hx hy h => by
    have := hc _ _ hx.1 hy.1 hx.2 hy.2 h
    simpa [factors] using this
  cases a with
  | base f args =>
    have := key _ _ ha hb h2
    subst this
    rw [show eq H (.atom (.base f args)) (.atom (.base f args)) = some true from h2] at he
    simp at he
  | conj f args =>
    cases b with
    | base g args' =>
      have := key (.base g args') (.conj f args) hb ha h1
      simp at this
    | conj g args' =>
      have := key (.base g args') (.conj f args) ⟨hb.1, hb.2⟩ ha h1
      simp at this

theorem atomMul_some (hc : NoCollision H S m) {a b : Atom F A} (ha : Within S m (.atom a))
    (hb : Within S m (.atom b)) : ∃ z, atomMul H a b = some z := by
  obtain ⟨e, he⟩ := eq_some (H := H) (x := .atom a) (y := .atom b) trivial trivial
  obtain ⟨c, hc1⟩ := contains_atom_some (H := H) b (o := .atom a) trivial
  obtain ⟨d, hd⟩ := contains_atom_some (H := H) a (o := .atom b) trivial
  cases e
  · cases c
    · simp [atomMul, he, hc1]
    · cases d
      · simp [atomMul, he, hc1, hd]
      · exact (not_mutual hc ha hb he hc1 hd).elim
  · simp [atomMul, he]

theorem mulAtom_some (hc : NoCollision H S m) {x : Fn F A} {a : Atom F A} (ha : Within S m (.atom a)) :
    Within S m x → ∃ z, mulAtom H x a = some z := by
  induction x with
  | atom b => exact fun hx => atomMul_some hc hx ha
  | pow b p =>
    intro _
    obtain ⟨e, he⟩ := eq_some (H := H) (x := .atom b) (y := .atom a) trivial trivial
    simp [mulAtom, powMul, he]
  | mul x y ihx ihy =>
    intro hx
    obtain ⟨c, h1⟩ := contains_some (H := H) x (o := .atom a) trivial
    obtain ⟨d, h2⟩ := contains_some (H := H) y (o := .atom a) trivial
    obtain ⟨z, hz⟩ := ihx (within_left hx)
    obtain ⟨w, hw⟩ := ihy (within_right hx)
    cases c <;> cases d <;> simp [mulAtom, h1, h2, hz, hw]

/-- A product of functions without powers of conjugates is returned. -/
theorem mul_some (hc : NoCollision H S m) {x : Fn F A} :
    ∀ {o : Fn F A}, Hashable o → Within S m x → Within S m o → ∃ z, mul H x o = some z := by
  induction x with
  | atom a =>
    intro o hh hx ho
    obtain ⟨e, he⟩ := eq_some (H := H) (x := .atom a) (y := o) trivial hh
    obtain ⟨c, h1⟩ := contains_some (H := H) o (o := .atom a) trivial
    obtain ⟨z, hz⟩ := mulAtom_some hc hx ho
    cases e <;> cases c <;> simp [mul, he, h1, hz]
  | pow a p =>
    intro o hh hx ho
    obtain ⟨e, he⟩ := eq_some (H := H) (x := .atom a) (y := o) trivial hh
    simp [mul, powMul, he]
  | mul x y ihx ihy =>
    intro o hh hx ho
    obtain ⟨c, h1⟩ := contains_some (H := H) x hh
    obtain ⟨d, h2⟩ := contains_some (H := H) y hh
    obtain ⟨z, hz⟩ := ihx hh (within_left hx) ho
    obtain ⟨w, hw⟩ := ihy hh (within_right hx) ho
    cases c <;> cases d <;> simp [mul, h1, h2, hz, hw]

/-! ### Injective hashes never collide -/

/-- Hash of one factor. -/
def facHash (H : PyHash F A) : Atom F A × Option Nat → Int
  | (a, none) => match a with
    | .base f args => H.tup [H.callable f, H.tup (args.map H.arg)]
    | .conj f args => H.tup [H.unit, H.callable f, H.tup (args.map H.arg)]
  | (a, some p) => H.tup [H.callable a.part.1, H.tup (a.part.2.map H.arg), H.int p]

theorem hashList_perm {x : Fn F A} : ∀ {l : List Int}, hashList H x = some l →
    l.Perm ((factors x).map (facHash H)) ∧ ∀ f ∈ factors x, ∀ p, f.2 = some p → ∃ g args, f.1 = .base g args := by
  induction x with
  | atom a =>
    intro l h
    simp only [hashList, Option.some.injEq] at h
    subst h
    refine ⟨?_, by simp [factors]⟩
    cases a <;> simp [factors, Atom.hashList, facHash]
  | pow a p =>
    intro l h
    cases a with
    | base f args =>
      simp only [hashList, Option.some.injEq] at h
      subst h
      exact ⟨by simp [factors, facHash, Atom.part], by simp [factors]⟩
    | conj f args => simp [hashList] at h
  | mul x y hx hy =>
    intro l h
    obtain ⟨l1, h1, h⟩ := bind_some h
    obtain ⟨l2, h2, rfl⟩ := map_some h
    refine ⟨?_, ?_⟩
    · simp only [factors, List.map_append]
      exact (List.perm_insertionSort _ _).trans ((hx h1).1.append (hy h2).1)
    · intro f hf
      simp only [factors, List.mem_append] at hf
      exact hf.elim ((hx h1).2 f) ((hy h2).2 f)

/-- The assumption on `hash` that cannot fail: nothing collides. -/
structure Injective (H : PyHash F A) : Prop where
  tup : ∀ l k, H.tup l = H.tup k → l = k
  callable : ∀ f g, H.callable f = H.callable g → f = g
  arg : ∀ a b, H.arg a = H.arg b → a = b
  int : ∀ a b, H.int a = H.int b → a = b
  unit : ∀ f, H.callable f ≠ H.unit

theorem args_inj (hi : Injective H) {a b : List A} (h : a.map H.arg = b.map H.arg) : a = b :=
  List.map_injective_iff.2 (fun _ _ => hi.arg _ _) h

theorem facHash_inj (hi : Injective H) {f g : Atom F A × Option Nat}
    (hf : ∀ p, f.2 = some p → ∃ c args, f.1 = .base c args) (hg : ∀ p, g.2 = some p → ∃ c args, g.1 = .base c args)
    (h : facHash H f = facHash H g) : f = g := by
  obtain ⟨a, p⟩ := f
  obtain ⟨b, q⟩ := g
  cases p with
  | none =>
    cases q with
    | none =>
      cases a <;> cases b <;> simp only [facHash] at h <;> have h := hi.tup _ _ h <;>
        simp only [List.cons.injEq, and_true, reduceCtorEq, and_false] at h
      · rw [hi.callable _ _ h.1, args_inj hi (hi.tup _ _ h.2)]
      · rw [hi.callable _ _ h.2.1, args_inj hi (hi.tup _ _ h.2.2)]
    | some q =>
      obtain ⟨c, args, rfl⟩ := hg q rfl
      cases a <;> simp only [facHash] at h <;> have h := hi.tup _ _ h <;>
        simp only [List.cons.injEq, and_true, reduceCtorEq, and_false] at h
      exact (hi.unit _ h.1.symm).elim
  | some p =>
    obtain ⟨c, args, rfl⟩ := hf p rfl
    cases q with
    | none =>
      cases b <;> simp only [facHash] at h <;> have h := hi.tup _ _ h <;>
        simp only [List.cons.injEq, and_true, reduceCtorEq, and_false] at h
      exact (hi.unit _ h.1).elim
    | some q =>
      obtain ⟨c', args', rfl⟩ := hg q rfl
      simp only [facHash] at h
      have h := hi.tup _ _ h
      simp only [List.cons.injEq, and_true] at h
      simp only [Atom.part] at h
      rw [hi.callable _ _ h.1, args_inj hi (hi.tup _ _ h.2.1), hi.int _ _ h.2.2]

theorem perm_of_map_perm {α β : Type} {f : α → β} : ∀ {l k : List α},
    (∀ a ∈ l, ∀ b ∈ k, f a = f b → a = b) → (l.map f).Perm (k.map f) → l.Perm k
  | [], k, _, h => by
    have : k = [] := by simpa using h
    rw [this]
  | a :: l, k, hi, h => by
    have hm : f a ∈ k.map f := h.mem_iff.1 (by simp)
    obtain ⟨b, hb, hab⟩ := List.mem_map.1 hm
    obtain rfl := hi a (by simp) b hb hab.symm
    obtain ⟨s, t, rfl⟩ := List.append_of_mem hb
    have h2 : ((a :: l).map f).Perm ((a :: (s ++ t)).map f) := h.trans (List.perm_middle.map f)
    have h3 : (l.map f).Perm ((s ++ t).map f) := by simpa using h2
    refine (List.Perm.cons a (perm_of_map_perm (fun x hx y hy => hi x (by simp [hx]) y ?_) h3)).trans
      List.perm_middle.symm
    simp only [List.mem_append, List.mem_cons] at hy ⊢
    tauto

theorem noCollision_of_injective (hi : Injective H) (S : F × List A → Prop) (m : Nat) : NoCollision H S m := by
  intro x y _ _ _ _ h
  obtain ⟨h1, h2, h⟩ := bind_some h
  obtain ⟨h3, h4, h⟩ := map_some h
  obtain ⟨l, hl, rfl⟩ := map_some h2
  obtain ⟨k, hk, rfl⟩ := map_some h4
  have hlk : l = k := hi.tup _ _ (by simpa using h)
  subst hlk
  have p1 := hashList_perm hl
  have p2 := hashList_perm hk
  exact perm_of_map_perm (fun a ha b hb hab => facHash_inj hi (p1.2 a ha) (p2.2 b hb) hab) (p1.1.symm.trans p2.1)

end Proof.Drive

namespace Proof.Drive
open Model.Drive Spec.Drive

variable {F A : Type} {H : PyHash F A} {S : F × List A → Prop} {m : Nat}

/-- No conjugate occurs. -/
def AllBase : Fn F A → Prop
  | .atom (.base _ _) => True
  | .atom (.conj _ _) => False
  | .pow (.base _ _) _ => True
  | .pow (.conj _ _) _ => False
  | .mul x y => AllBase x ∧ AllBase y

theorem AllBase.hashable {x : Fn F A} : AllBase x → Hashable x := by
  induction x with
  | atom a => simp [Hashable]
  | pow a p => cases a <;> simp [AllBase, Hashable]
  | mul x y hx hy => exact fun h => ⟨hx h.1, hy h.2⟩

theorem allBase_pow {a : Atom F A} (h : AllBase (.atom a)) (p : Nat) : AllBase (.pow a p) := by
  cases a <;> simp_all [AllBase]

theorem powMul_base {a : Atom F A} {p : Nat} {o z : Fn F A} (ha : AllBase (.pow a p)) (ho : AllBase o)
    (h : powMul H a p o = some z) : AllBase z := by
  obtain ⟨e, _, rfl⟩ := map_some h
  cases e
  · exact ⟨ha, ho⟩
  · cases a <;> simp_all [AllBase]

theorem atomMul_base {a b : Atom F A} {z : Fn F A} (ha : AllBase (.atom a)) (hb : AllBase (.atom b))
    (h : atomMul H a b = some z) : AllBase z := by
  obtain ⟨e, _, h⟩ := bind_some h
  cases e with
  | true =>
    obtain rfl : Fn.pow a 2 = z := by simpa using h
    exact allBase_pow ha 2
  | false =>
    obtain ⟨c, _, h⟩ := bind_some (by simpa using h)
    cases c with
    | true =>
      obtain ⟨d, _, h⟩ := bind_some (by simpa using h)
      cases d with
      | true => simp at h
      | false =>
        obtain rfl : Fn.mul (.atom b) (.atom a) = z := by simpa using h
        exact ⟨hb, ha⟩
    | false =>
      obtain rfl : Fn.mul (.atom a) (.atom b) = z := by simpa using h
      exact ⟨ha, hb⟩

theorem mulAtom_base {x : Fn F A} {a : Atom F A} (ha : AllBase (.atom a)) :
    ∀ {z : Fn F A}, AllBase x → mulAtom H x a = some z → AllBase z := by
  induction x with
  | atom b => exact fun hx h => atomMul_base hx ha h
  | pow b p => exact fun hx h => powMul_base hx ha h
  | mul x y ihx ihy =>
    intro z hx h
    obtain ⟨c, _, h⟩ := bind_some h
    cases c with
    | true =>
      obtain ⟨w, hw, rfl⟩ := map_some (by simpa only [if_true] using h)
      exact ⟨ihx hx.1 hw, hx.2⟩
    | false =>
      obtain ⟨d, _, h⟩ := bind_some (by simpa using h)
      cases d with
      | true =>
        obtain ⟨w, hw, rfl⟩ := map_some (by simpa only [if_true] using h)
        exact ⟨hx.1, ihy hx.2 hw⟩
      | false =>
        obtain rfl : Fn.mul (.mul x y) (.atom a) = z := by simpa using h
        exact ⟨hx, ha⟩

theorem mul_base {x : Fn F A} : ∀ {o z : Fn F A}, AllBase x → AllBase o → mul H x o = some z → AllBase z := by
  induction x with
  | atom a =>
    intro o z hx ho h
    obtain ⟨e, _, h⟩ := bind_some h
    cases e with
    | true =>
      obtain rfl : Fn.pow a 2 = z := by simpa using h
      exact allBase_pow hx 2
    | false =>
      obtain ⟨c, _, h⟩ := bind_some (by simpa using h)
      cases c with
      | true => exact mulAtom_base hx ho (by simpa using h)
      | false =>
        obtain rfl : Fn.mul (.atom a) o = z := by simpa using h
        exact ⟨hx, ho⟩
  | pow a p => exact fun hx ho h => powMul_base hx ho h
  | mul x y ihx ihy =>
    intro o z hx ho h
    obtain ⟨c, _, h⟩ := bind_some h
    cases c with
    | true =>
      obtain ⟨w, hw, rfl⟩ := map_some (by simpa only [if_true] using h)
      exact ⟨ihx hx.1 ho hw, hx.2⟩
    | false =>
      obtain ⟨d, _, h⟩ := bind_some (by simpa using h)
      cases d with
      | true =>
        obtain ⟨w, hw, rfl⟩ := map_some (by simpa only [if_true] using h)
        exact ⟨hx.1, ihy hx.2 ho hw⟩
      | false =>
        obtain rfl : Fn.mul (.mul x y) o = z := by simpa using h
        exact ⟨hx, ho⟩

/-- Expressions without conjugates are built, and can be hashed. -/
theorem build_some (hc : NoCollision H S m) (e : Expr F A) (he : e.NoConj) (hS : ∀ q ∈ e.parts, S q)
    (hm : e.parts.length ≤ m) : ∃ z, build H e = some z ∧ AllBase z := by
  induction e with
  | fn f args => exact ⟨_, rfl, trivial⟩
  | mul x y ihx ihy =>
    simp only [Expr.parts, List.length_append] at hm
    have hSx : ∀ q ∈ x.parts, S q := fun q hq => hS q (by simp [Expr.parts, hq])
    have hSy : ∀ q ∈ y.parts, S q := fun q hq => hS q (by simp [Expr.parts, hq])
    obtain ⟨a, ha, ba⟩ := ihx he.1 hSx (by omega)
    obtain ⟨b, hb, bb⟩ := ihy he.2 hSy (by omega)
    obtain ⟨-, p1, d1, -⟩ := build_spec (app := fun _ _ (_ : Unit) => (0 : Int)) hc x hSx (by omega) ha
    obtain ⟨-, p2, d2, -⟩ := build_spec (app := fun _ _ (_ : Unit) => (0 : Int)) hc y hSy (by omega) hb
    obtain ⟨z, hz⟩ := mul_some hc (x := a) (o := b) bb.hashable ⟨p1, by omega⟩ ⟨p2, by omega⟩
    exact ⟨z, by simp [build, ha, hb, hz], mul_base ba bb hz⟩
  | conj x => exact he.elim

theorem hash_some {x : Fn F A} (h : AllBase x) : ∃ k, Model.Drive.hash H x = some k := by
  obtain ⟨l, hl⟩ := Option.isSome_iff_exists.1 ((hashList_isSome (H := H) x).2 h.hashable)
  exact ⟨H.tup l, by simp [Model.Drive.hash, hl]⟩

end Proof.Drive

namespace Proof.Drive
open Model.Drive

variable {F A : Type} {H : PyHash F A}

theorem powMul_not_atom {a : Atom F A} {p : Nat} {o z : Fn F A} (h : powMul H a p o = some z) : conjugate z = none := by
  obtain ⟨e, _, rfl⟩ := map_some h
  cases e <;> rfl

theorem mulAtom_not_atom {x : Fn F A} {a : Atom F A} {z : Fn F A} (h : mulAtom H x a = some z) :
    conjugate z = none := by
  cases x with
  | atom b =>
    rw [mulAtom, atomMul] at h
    obtain ⟨e, _, h⟩ := bind_some h
    cases e with
    | true =>
      obtain rfl : Fn.pow b 2 = z := by simpa using h
      rfl
    | false =>
      obtain ⟨c, _, h⟩ := bind_some (by simpa using h)
      cases c with
      | true =>
        obtain ⟨d, _, h⟩ := bind_some (by simpa using h)
        cases d with
        | true => simp at h
        | false =>
          obtain rfl : Fn.mul (.atom a) (.atom b) = z := by simpa using h
          rfl
      | false =>
        obtain rfl : Fn.mul (.atom b) (.atom a) = z := by simpa using h
        rfl
  | pow b p => exact powMul_not_atom h
  | mul u v =>
    obtain ⟨c, -, h⟩ := bind_some h
    cases c with
    | true =>
      obtain ⟨w, -, rfl⟩ := map_some (by simpa only [if_true] using h)
      rfl
    | false =>
      obtain ⟨d, -, h⟩ := bind_some (by simpa using h)
      cases d with
      | true =>
        obtain ⟨w, -, rfl⟩ := map_some (by simpa only [if_true] using h)
        rfl
      | false =>
        obtain rfl : Fn.mul (.mul u v) (.atom a) = z := by simpa using h
        rfl

end Proof.Drive
