import Verif.Model.Symmetry
namespace Proof.Symmetry
open Spec Model

/-! ### the group action -/

def scale (a : Int) (x : Nat × Int) : Nat × Int := (x.1, a * x.2)

theorem U_scale (y : Generator) (a : Int) (x : Nat × Int) : y.U (scale a x) = scale a (y.U x) := by
  simp only [Generator.U, scale, Int.mul_assoc]

theorem iter_scale (y : Generator) (a : Int) (c : Nat) (x : Nat × Int) :
    y.U^[c] (scale a x) = scale a (y.U^[c] x) := by
  induction c generalizing x with
  | zero => rfl
  | succ c ih => rw [Function.iterate_succ_apply, U_scale, ih, ← Function.iterate_succ_apply]

theorem word_scale (ys : List Generator) (cs : List Nat) (a : Int) (x : Nat × Int) :
    word ys cs (scale a x) = scale a (word ys cs x) := by
  induction ys generalizing cs with
  | nil => rfl
  | cons y ys ih =>
    cases cs with
    | nil => rfl
    | cons c cs => rw [word, word, ih, iter_scale]

theorem eq_scale (x : Nat × Int) : x = scale x.2 (x.1, 1) := by
  simp [scale]

variable {S : Nat → Prop} {all : List Generator}

theorem U_closed (h : Acts S all) {y : Generator} (hy : y ∈ all) {x : Nat × Int} (hx : S x.1) :
    S (y.U x).1 := h.closed y hy _ hx

theorem iter_closed (h : Acts S all) {y : Generator} (hy : y ∈ all) (c : Nat) {x : Nat × Int}
    (hx : S x.1) : S (y.U^[c] x).1 := by
  induction c with
  | zero => exact hx
  | succ c ih => rw [Function.iterate_succ_apply']; exact U_closed h hy ih

theorem word_closed (h : Acts S all) {ys : List Generator} (hys : ∀ y ∈ ys, y ∈ all) (cs : List Nat)
    {x : Nat × Int} (hx : S x.1) : S (word ys cs x).1 := by
  induction ys generalizing cs with
  | nil => exact hx
  | cons y ys ih =>
    cases cs with
    | nil => exact hx
    | cons c cs =>
      rw [word]
      exact iter_closed h (hys y (by simp)) c (ih (fun z hz => hys z (by simp [hz])) cs)

theorem U_comm (h : Acts S all) {y z : Generator} (hy : y ∈ all) (hz : z ∈ all) {x : Nat × Int}
    (hx : S x.1) : y.U (z.U x) = z.U (y.U x) := by
  rw [eq_scale x, U_scale, U_scale, U_scale, U_scale, h.commute y hy z hz _ hx]

theorem iter_comm1 (h : Acts S all) {y z : Generator} (hy : y ∈ all) (hz : z ∈ all) (c : Nat)
    {x : Nat × Int} (hx : S x.1) : z.U (y.U^[c] x) = y.U^[c] (z.U x) := by
  induction c with
  | zero => rfl
  | succ c ih =>
    rw [Function.iterate_succ_apply', Function.iterate_succ_apply', U_comm h hz hy (iter_closed h hy c hx), ih]

theorem iter_comm (h : Acts S all) {y z : Generator} (hy : y ∈ all) (hz : z ∈ all) (c d : Nat)
    {x : Nat × Int} (hx : S x.1) : z.U^[d] (y.U^[c] x) = y.U^[c] (z.U^[d] x) := by
  induction d with
  | zero => rfl
  | succ d ih =>
    rw [Function.iterate_succ_apply', Function.iterate_succ_apply', ih,
      iter_comm1 h hy hz c (iter_closed h hz d hx)]

theorem iter_per (h : Acts S all) {y : Generator} (hy : y ∈ all) {x : Nat × Int} (hx : S x.1) :
    y.U^[y.per] x = x := by
  rw [eq_scale x, iter_scale, h.period y hy _ hx]

theorem iter_mod (h : Acts S all) {y : Generator} (hy : y ∈ all) (c : Nat) {x : Nat × Int} (hx : S x.1) :
    y.U^[c % y.per] x = y.U^[c] x := by
  conv_rhs => rw [← Nat.mod_add_div c y.per, Function.iterate_add_apply]
  congr 1
  rw [Function.iterate_mul]
  have : ∀ n, (y.U^[y.per])^[n] x = x := by
    intro n
    induction n with
    | zero => rfl
    | succ n ih => rw [Function.iterate_succ_apply', ih, iter_per h hy hx]
  exact (this _).symm

theorem word_comm (h : Acts S all) {ys : List Generator} (hys : ∀ y ∈ ys, y ∈ all) {z : Generator}
    (hz : z ∈ all) (cs : List Nat) (d : Nat) {x : Nat × Int} (hx : S x.1) :
    z.U^[d] (word ys cs x) = word ys cs (z.U^[d] x) := by
  induction ys generalizing cs with
  | nil => rfl
  | cons y ys ih =>
    cases cs with
    | nil => rfl
    | cons c cs =>
      have hys' : ∀ y ∈ ys, y ∈ all := fun z hz => hys z (by simp [hz])
      rw [word, word, iter_comm h (hys y (by simp)) hz c d (word_closed h hys' cs hx), ih hys']

/-- sum of exponents, each reduced modulo its period -/
def addMod : List Generator → List Nat → List Nat → List Nat
  | y :: ys, c :: cs, d :: ds => ((c + d) % y.per) :: addMod ys cs ds
  | _, _, _ => []

def InRange (ys : List Generator) (cs : List Nat) : Prop := List.Forall₂ (fun y c => c < y.per) ys cs

theorem word_add (h : Acts S all) {ys : List Generator} (hys : ∀ y ∈ ys, y ∈ all) (cs ds : List Nat)
    (hc : InRange ys cs) (hd : InRange ys ds) {x : Nat × Int} (hx : S x.1) :
    word ys (addMod ys cs ds) x = word ys cs (word ys ds x) := by
  induction ys generalizing cs ds with
  | nil => rfl
  | cons y ys ih =>
    cases hc with
    | cons hc1 hc2 =>
      cases hd with
      | cons hd1 hd2 =>
        rename_i c cs d ds
        have hys' : ∀ y ∈ ys, y ∈ all := fun z hz => hys z (by simp [hz])
        have hy := hys y (by simp)
        rw [addMod, word, word, word, ih hys' cs ds hc2 hd2]
        have hx1 := word_closed h hys' ds hx
        rw [iter_mod h hy _ (word_closed h hys' cs hx1), Function.iterate_add_apply,
          word_comm h hys' hy cs d hx1]

theorem addMod_inRange (h : Acts S all) {ys : List Generator} (hys : ∀ y ∈ ys, y ∈ all) (cs ds : List Nat)
    (hc : InRange ys cs) (hd : InRange ys ds) : InRange ys (addMod ys cs ds) := by
  induction ys generalizing cs ds with
  | nil => exact List.Forall₂.nil
  | cons y ys ih =>
    cases hc with
    | cons hc1 hc2 =>
      cases hd with
      | cons hd1 hd2 =>
        exact List.Forall₂.cons (Nat.mod_lt _ (h.per_pos y (hys y (by simp))))
          (ih (fun z hz => hys z (by simp [hz])) _ _ hc2 hd2)

/-! ### exponent lists -/

theorem mem_exponents (ys : List Generator) (cs : List Nat) : cs ∈ exponents ys ↔ InRange ys cs := by
  induction ys generalizing cs with
  | nil => simp [exponents, InRange]
  | cons y ys ih =>
    simp only [exponents, List.mem_flatMap, List.mem_map, List.mem_range]
    constructor
    · rintro ⟨ds, hds, c, hc, rfl⟩
      exact List.Forall₂.cons hc ((ih ds).1 hds)
    · intro hh
      cases hh with
      | cons h1 h2 => exact ⟨_, (ih _).2 h2, _, h1, rfl⟩

theorem exponents_nodup (ys : List Generator) : (exponents ys).Nodup := by
  induction ys with
  | nil => simp [exponents]
  | cons y ys ih =>
    rw [exponents, List.nodup_flatMap]
    constructor
    · intro cs _
      exact List.Nodup.map (fun a b hab => by simpa using hab) List.nodup_range
    · refine ih.imp ?_
      intro a b hab l hl1 hl2
      simp only [List.mem_map] at hl1 hl2
      obtain ⟨c, _, rfl⟩ := hl1
      obtain ⟨d, _, hd⟩ := hl2
      simp only [List.cons.injEq] at hd
      exact hab hd.2.symm

/-- the `n`-th exponent list in odometer order (head fastest) -/
def ofVal : List Generator → Nat → List Nat
  | [], _ => []
  | y :: ys, n => (n % y.per) :: ofVal ys (n / y.per)

def total (ys : List Generator) : Nat := (ys.map (fun y => y.per)).prod

theorem total_cons (y : Generator) (ys : List Generator) : total (y :: ys) = y.per * total ys := by
  simp [total]

theorem exponents_eq (ys : List Generator) (hp : ∀ y ∈ ys, 0 < y.per) :
    exponents ys = (List.range (total ys)).map (ofVal ys) := by
  induction ys with
  | nil => rfl
  | cons y ys ih =>
    rw [exponents, ih (fun z hz => hp z (by simp [hz])), total_cons]
    have hy := hp y (by simp)
    generalize total ys = m
    induction m with
    | zero => simp
    | succ m ihm =>
      rw [List.range_succ, List.map_append, List.flatMap_append, ihm, Nat.mul_succ, List.range_add,
        List.map_append]
      congr 1
      simp only [List.map_cons, List.map_nil, List.flatMap_cons, List.flatMap_nil, List.append_nil,
        List.map_map]
      apply List.map_congr_left
      intro c hc
      rw [List.mem_range] at hc
      simp only [Function.comp_apply, ofVal]
      rw [Nat.mul_add_mod, Nat.mod_eq_of_lt hc, Nat.mul_add_div hy, Nat.div_eq_of_lt hc, Nat.add_zero]

theorem ofVal_inRange (ys : List Generator) (hp : ∀ y ∈ ys, 0 < y.per) (n : Nat) : InRange ys (ofVal ys n) := by
  induction ys generalizing n with
  | nil => exact List.Forall₂.nil
  | cons y ys ih =>
    exact List.Forall₂.cons (Nat.mod_lt _ (hp y (by simp))) (ih (fun z hz => hp z (by simp [hz])) _)

theorem exists_ofVal (ys : List Generator) (hp : ∀ y ∈ ys, 0 < y.per) (cs : List Nat) (hc : InRange ys cs) :
    ∃ n, n < total ys ∧ cs = ofVal ys n := by
  rw [← mem_exponents, exponents_eq ys hp] at hc
  simp only [List.mem_map, List.mem_range] at hc
  obtain ⟨n, hn, rfl⟩ := hc
  exact ⟨n, hn, rfl⟩

theorem ofVal_zero (ys : List Generator) : ofVal ys 0 = ys.map (fun _ => 0) := by
  induction ys with
  | nil => rfl
  | cons y ys ih => simp only [ofVal, Nat.zero_mod, Nat.zero_div, ih, List.map_cons]

/-- the exit test: the sum of the counters reaches its maximum exactly at the last element -/
theorem ofVal_sum (ys : List Generator) (hp : ∀ y ∈ ys, 0 < y.per) (n : Nat) (hn : n < total ys) :
    (ofVal ys n).sum ≤ (ys.map (fun y => y.per - 1)).sum ∧
    ((ofVal ys n).sum = (ys.map (fun y => y.per - 1)).sum ↔ n + 1 = total ys) := by
  induction ys generalizing n with
  | nil => simp [total] at hn; subst hn; simp [ofVal, total]
  | cons y ys ih =>
    rw [total_cons] at hn ⊢
    have hy := hp y (by simp)
    have hlt : n / y.per < total ys := by
      rw [Nat.div_lt_iff_lt_mul hy, Nat.mul_comm]; exact hn
    obtain ⟨h1, h2⟩ := ih (fun z hz => hp z (by simp [hz])) _ hlt
    simp only [ofVal, List.sum_cons, List.map_cons]
    have hm := Nat.mod_lt n hy
    refine ⟨by omega, ?_⟩
    have hdm := Nat.div_add_mod n y.per
    constructor
    · intro he
      have h3 : n % y.per = y.per - 1 := by omega
      have h4 := h2.1 (by omega)
      rw [← h4, Nat.mul_add, Nat.mul_one]
      omega
    · intro he
      have h5 : n / y.per + 1 = total ys ∧ n % y.per = y.per - 1 := by
        obtain ⟨d, hd⟩ : ∃ d, total ys = n / y.per + 1 + d := ⟨total ys - (n / y.per + 1), by omega⟩
        rw [hd, Nat.mul_add, Nat.mul_add, Nat.mul_one] at he
        have : y.per * d < y.per * 1 := by
          generalize n % y.per = r at *
          generalize n / y.per = e at *
          omega
        have hd0 : d = 0 := by
          have := Nat.lt_of_mul_lt_mul_left this; omega
        subst hd0
        constructor
        · omega
        · generalize n % y.per = r at *
          generalize n / y.per = e at *
          omega
      have := h2.2 h5.1
      omega

/-! ### the odometer of `ref_state` -/

/-- successor of the counters -/
def incr : List Generator → List Nat → List Nat
  | y :: ys, c :: cs => if c + 1 > y.per - 1 then 0 :: incr ys cs else (c + 1) :: cs
  | _, cs => cs

theorem incr_ofVal (ys : List Generator) (hp : ∀ y ∈ ys, 0 < y.per) (n : Nat) :
    incr ys (ofVal ys n) = ofVal ys (n + 1) := by
  induction ys generalizing n with
  | nil => rfl
  | cons y ys ih =>
    have hy := hp y (by simp)
    have hm := Nat.mod_lt n hy
    have hdm := Nat.div_add_mod n y.per
    rw [ofVal, incr]
    split
    · rename_i hgt
      have e : n + 1 = y.per * (n / y.per + 1) := by
        rw [Nat.mul_add, Nat.mul_one]; omega
      rw [ih (fun z hz => hp z (by simp [hz])), ofVal, e, Nat.mul_mod_right, Nat.mul_div_cancel_left _ hy]
    · rename_i hgt
      have e : n + 1 = y.per * (n / y.per) + (n % y.per + 1) := by omega
      have hlt : n % y.per + 1 < y.per := by omega
      have h1 : (n + 1) % y.per = n % y.per + 1 := by rw [e, Nat.mul_add_mod, Nat.mod_eq_of_lt hlt]
      have h2 : (n + 1) / y.per = n / y.per := by
        rw [e, Nat.mul_add_div hy, Nat.div_eq_of_lt hlt, Nat.add_zero]
      rw [ofVal, h1, h2]

theorem word_incr (h : Acts S all) {y : Generator} {ys : List Generator}
    (hy : y ∈ all) (hys : ∀ z ∈ ys, z ∈ all) (c : Nat) (cs : List Nat) (hc : c < y.per)
    {x : Nat × Int} (hx : S x.1) :
    y.U (word (y :: ys) (c :: cs) x)
      = if c + 1 > y.per - 1 then word ys cs x else word (y :: ys) ((c + 1) :: cs) x := by
  rw [word, ← Function.iterate_succ_apply' y.U]
  split
  · rw [show c.succ = y.per by omega, iter_per h hy (word_closed h hys cs hx)]
  · rw [word]

/-- what is known about the best state: it was reached by the recorded element, or is the start -/
def Good (rsyms : List Generator) (x0 : Nat × Int) (init best : Best) : Prop :=
  best = init ∨ ∃ cs, InRange rsyms cs ∧ best.g = cs.reverse ∧ word rsyms cs x0 = (best.r, best.phase)

theorem refInner_spec (h : Acts S all) (pre : List Generator) {ys : List Generator}
    (hys : ∀ z ∈ ys, z ∈ all) (hpre : ∀ z ∈ pre, z ∈ all)
    (cs : List Nat) (hc : InRange ys cs) (x0 : Nat × Int) (hx0 : S x0.1) (init best : Best)
    (hbest : Good (pre ++ ys) x0 init best) (hinit : init.r ≤ best.r) :
    (refInner ys cs (pre.map (fun _ => 0)) (word ys cs x0) best).1 = incr ys cs ∧
    (refInner ys cs (pre.map (fun _ => 0)) (word ys cs x0) best).2.1 = word ys (incr ys cs) x0 ∧
    Good (pre ++ ys) x0 init (refInner ys cs (pre.map (fun _ => 0)) (word ys cs x0) best).2.2 ∧
    best.r ≤ (refInner ys cs (pre.map (fun _ => 0)) (word ys cs x0) best).2.2.r ∧
    (ys ≠ [] → (word ys cs x0).1 ≤ (refInner ys cs (pre.map (fun _ => 0)) (word ys cs x0) best).2.2.r) := by
  induction ys generalizing cs pre best with
  | nil =>
    cases hc
    simp only [refInner, incr]
    exact ⟨trivial, trivial, hbest, Nat.le_refl _, fun h => absurd rfl h⟩
  | cons y ys ih =>
    cases hc with
    | cons hc1 hc2 =>
      rename_i c cs
      have hy := hys y (by simp)
      have hys' : ∀ z ∈ ys, z ∈ all := fun z hz => hys z (by simp [hz])
      have hpp : ∀ z ∈ all, 0 < z.per := h.per_pos
      rw [refInner]
      simp only
      obtain ⟨b', hb'⟩ : ∃ b', b' = (if (word (y :: ys) (c :: cs) x0).1 > best.r then
          ({ r := (word (y :: ys) (c :: cs) x0).1, phase := (word (y :: ys) (c :: cs) x0).2,
             g := (c :: cs).reverse ++ pre.map (fun _ => 0) } : Best) else best) := ⟨_, rfl⟩
      rw [← hb']
      have hr1 : best.r ≤ b'.r := by rw [hb']; split <;> simp_all; omega
      have hr2 : (word (y :: ys) (c :: cs) x0).1 ≤ b'.r := by rw [hb']; split <;> simp_all
      have hgood : Good (pre ++ y :: ys) x0 init b' := by
        rw [hb']
        split
        · right
          refine ⟨pre.map (fun _ => 0) ++ (c :: cs), ?_, ?_, ?_⟩
          · have : InRange pre (pre.map (fun _ => 0)) := by
              clear hbest ih hb' hr1 hr2 hinit
              induction pre with
              | nil => exact List.Forall₂.nil
              | cons z pre ihp =>
                exact List.Forall₂.cons (hpp z (hpre z (by simp))) (ihp (fun w hw => hpre w (by simp [hw])))
            exact List.rel_append this (List.Forall₂.cons hc1 hc2)
          · simp [List.map_const', List.reverse_replicate]
          · have : ∀ (p : List Generator) (l : List Generator) (e : List Nat) (x : Nat × Int),
                word (p ++ l) (p.map (fun _ => 0) ++ e) x = word l e x := by
              intro p
              induction p with
              | nil => intro l e x; rfl
              | cons z p ihp =>
                intro l e x
                rw [List.cons_append, List.map_cons, List.cons_append, word, ihp]; rfl
            rw [this]
        · exact hbest
      rw [word_incr h hy hys' c cs hc1 hx0, incr]
      split
      · have := ih (pre ++ [y]) hys' (by
            intro z hz; rcases List.mem_append.1 hz with hz | hz
            · exact hpre z hz
            · rw [List.mem_singleton] at hz; rw [hz]; exact hy) cs hc2 b'
            (by rw [List.append_assoc]; exact hgood) (by omega)
        rw [List.map_append, List.append_assoc] at this
        have e0 : (pre.map (fun _ => 0) ++ [y].map (fun _ => 0)) = (0 :: pre.map (fun _ => (0 : Nat))) := by
          simp [List.map_const', ← List.replicate_succ', List.replicate_succ]
        rw [e0] at this
        obtain ⟨a1, a2, a3, a4, _⟩ := this
        refine ⟨by rw [a1], ?_, a3, Nat.le_trans hr1 a4, fun _ => Nat.le_trans hr2 a4⟩
        rw [a2, word]; rfl
      · exact ⟨rfl, rfl, hgood, hr1, fun _ => hr2⟩

theorem refOuter_spec (h : Acts S all) (hall : all ≠ []) (x0 : Nat × Int) (hx0 : S x0.1) (init : Best)
    (fuel n : Nat) (hn : n < total all) (hf : n + fuel = total all) (best : Best)
    (hbest : Good all x0 init best) (hinit : init.r ≤ best.r) :
    ∃ b, refOuter all (all.map (fun y => y.per - 1)).sum fuel (ofVal all n) (word all (ofVal all n) x0) best = some b ∧
      Good all x0 init b ∧ best.r ≤ b.r ∧
      ∀ m, n ≤ m → m < total all → (word all (ofVal all m) x0).1 ≤ b.r := by
  induction fuel generalizing n best with
  | zero => omega
  | succ fuel ih =>
    rw [refOuter]
    obtain ⟨a1, a2, a3, a4, a5⟩ := refInner_spec h [] (ys := all) (fun z hz => hz) (by simp) (ofVal all n)
      (ofVal_inRange all h.per_pos n) x0 hx0 init best hbest hinit
    simp only [List.map_nil, List.nil_append] at a1 a2 a3 a4 a5
    have a5 := a5 hall
    obtain ⟨b1, b2⟩ := ofVal_sum all h.per_pos n hn
    rw [incr_ofVal all h.per_pos] at a1 a2
    split
    · rename_i hge
      have hlast := b2.1 (by omega)
      refine ⟨_, rfl, a3, a4, fun m h1 h2 => ?_⟩
      rw [show m = n by omega]; exact a5
    · rename_i hge
      have hnl : n + 1 < total all := by
        rcases Nat.lt_or_ge (n + 1) (total all) with h' | h'
        · exact h'
        · have := b2.2 (by omega)
          omega
      rw [a1, a2]
      obtain ⟨b, c1, c2, c3, c4⟩ := ih (n + 1) hnl (by omega) _ a3 (by omega)
      refine ⟨b, c1, c2, by omega, fun m h1 h2 => ?_⟩
      rcases Nat.lt_or_eq_of_le h1 with h3 | h3
      · exact c4 m h3 h2
      · rw [← h3]; omega

/-! ### orbits -/

theorem acts_reverse (h : Acts S all) : Acts S all.reverse where
  per_pos := fun y hy => h.per_pos y (List.mem_reverse.1 hy)
  closed := fun y hy => h.closed y (List.mem_reverse.1 hy)
  sign := fun y hy => h.sign y (List.mem_reverse.1 hy)
  period := fun y hy => h.period y (List.mem_reverse.1 hy)
  commute := fun y hy z hz => h.commute y (List.mem_reverse.1 hy) z (List.mem_reverse.1 hz)

theorem word_append (ys zs : List Generator) (cs ds : List Nat) (hl : ys.length = cs.length) (x : Nat × Int) :
    word (ys ++ zs) (cs ++ ds) x = word ys cs (word zs ds x) := by
  induction ys generalizing cs with
  | nil =>
    cases cs with
    | nil => rfl
    | cons c cs => simp at hl
  | cons y ys ih =>
    cases cs with
    | nil => simp at hl
    | cons c cs => rw [List.cons_append, List.cons_append, word, word, ih cs (by simpa using hl)]

theorem word_reverse (h : Acts S all) {ys : List Generator} (hys : ∀ y ∈ ys, y ∈ all) (cs : List Nat)
    (hl : ys.length = cs.length) {x : Nat × Int} (hx : S x.1) :
    word ys.reverse cs.reverse x = word ys cs x := by
  induction ys generalizing cs with
  | nil => rfl
  | cons y ys ih =>
    cases cs with
    | nil => simp at hl
    | cons c cs =>
      have hys' : ∀ y ∈ ys, y ∈ all := fun z hz => hys z (by simp [hz])
      have hl' : ys.length = cs.length := by simpa using hl
      have e1 : word [y] [c] x = y.U^[c] x := rfl
      have e2 : word (y :: ys) (c :: cs) x = y.U^[c] (word ys cs x) := rfl
      rw [List.reverse_cons, List.reverse_cons, word_append _ _ _ _ (by simpa using hl'), e1, e2, ← word_comm h (ys := ys.reverse) (fun z hz => hys' z (List.mem_reverse.1 hz)) (hys y (by simp))
          cs.reverse c hx, ih hys' cs hl']

theorem inRange_length {ys : List Generator} {cs : List Nat} (h : InRange ys cs) : ys.length = cs.length :=
  List.Forall₂.length_eq h

theorem inRange_reverse {ys : List Generator} {cs : List Nat} (h : InRange ys cs) :
    InRange ys.reverse cs.reverse := List.rel_reverse h

/-- one generator applied = one exponent raised -/
theorem gen_as_word (h : Acts S all) {ys : List Generator} (hys : ∀ y ∈ ys, y ∈ all) {z : Generator}
    (hz : z ∈ ys) (cs : List Nat) (hc : InRange ys cs) {x : Nat × Int} (hx : S x.1) :
    ∃ ds, InRange ys ds ∧ z.U (word ys cs x) = word ys ds x := by
  induction ys generalizing cs with
  | nil => simp at hz
  | cons y ys ih =>
    cases hc with
    | cons hc1 hc2 =>
      rename_i c cs
      have hys' : ∀ y ∈ ys, y ∈ all := fun z hz => hys z (by simp [hz])
      have hy := hys y (by simp)
      rcases List.mem_cons.1 hz with rfl | hz
      · refine ⟨(c + 1) % z.per :: cs, List.Forall₂.cons (Nat.mod_lt _ (h.per_pos z hy)) hc2, ?_⟩
        rw [word, word, iter_mod h hy _ (word_closed h hys' cs hx), Function.iterate_succ_apply']
      · obtain ⟨ds, hd1, hd2⟩ := ih hys' hz cs hc2
        refine ⟨c :: ds, List.Forall₂.cons hc1 hd1, ?_⟩
        rw [word, word, iter_comm1 h hy (hys' z hz) c (word_closed h hys' cs hx), hd2]

theorem zero_inRange (h : Acts S all) {ys : List Generator} (hys : ∀ y ∈ ys, y ∈ all) :
    InRange ys (ys.map (fun _ => 0)) := by
  induction ys with
  | nil => exact List.Forall₂.nil
  | cons y ys ih =>
    exact List.Forall₂.cons (h.per_pos y (hys y (by simp))) (ih fun z hz => hys z (by simp [hz]))

theorem word_zero (ys : List Generator) (x : Nat × Int) : word ys (ys.map (fun _ => 0)) x = x := by
  induction ys with
  | nil => rfl
  | cons y ys ih => rw [List.map_cons, word, ih]; rfl

theorem related_iff (h : Acts S all) (s t : Nat) (hs : S s) :
    Related all s t ↔ ∃ cs, InRange all cs ∧ (word all cs (s, 1)).1 = t := by
  constructor
  · intro hr
    induction hr with
    | refl => exact ⟨_, zero_inRange h (fun _ h => h), by rw [word_zero]⟩
    | tail _ hstep ih =>
      obtain ⟨cs, hc, he⟩ := ih
      obtain ⟨y, hy, rfl⟩ := hstep
      obtain ⟨ds, hd, he2⟩ := gen_as_word h (fun _ h => h) hy cs hc (x := (s, 1)) hs
      refine ⟨ds, hd, ?_⟩
      rw [← he2, ← he]; rfl
  · rintro ⟨cs, hc, rfl⟩
    have iter : ∀ y ∈ all, ∀ c x, Related all s x.1 → Related all s (y.U^[c] x).1 := by
      intro y hy c x hx
      induction c with
      | zero => exact hx
      | succ c ih =>
        rw [Function.iterate_succ_apply']
        exact Relation.ReflTransGen.tail ih ⟨y, hy, rfl⟩
    have : ∀ (ys : List Generator) (cs : List Nat), (∀ y ∈ ys, y ∈ all) → Related all s (word ys cs (s, 1)).1 := by
      intro ys
      induction ys with
      | nil => intro cs _; exact Relation.ReflTransGen.refl
      | cons y ys ih =>
        intro cs hys
        cases cs with
        | nil => exact Relation.ReflTransGen.refl
        | cons c cs =>
          rw [word]
          exact iter y (hys y (by simp)) c _ (ih cs fun z hz => hys z (by simp [hz]))
    exact this all cs (fun _ h => h)

theorem related_closed (h : Acts S all) {s t : Nat} (hs : S s) (hr : Related all s t) : S t := by
  induction hr with
  | refl => exact hs
  | tail _ hstep ih => obtain ⟨y, hy, rfl⟩ := hstep; exact h.closed y hy _ ih

theorem related_symm (h : Acts S all) {s t : Nat} (hs : S s) (hr : Related all s t) : Related all t s := by
  induction hr with
  | refl => exact Relation.ReflTransGen.refl
  | tail hab hstep ih =>
    rename_i a b
    obtain ⟨y, hy, rfl⟩ := hstep
    have ha := related_closed h hs hab
    refine Relation.ReflTransGen.trans ?_ ih
    -- img^(per-1) (img a) = a
    have hp := h.per_pos y hy
    have e := congrArg Prod.fst (h.period y hy a ha)
    have iter : ∀ c x, Relation.ReflTransGen (fun a b => ∃ y ∈ all, b = y.img a) x.1 (y.U^[c] x).1 := by
      intro c x
      induction c with
      | zero => exact Relation.ReflTransGen.refl
      | succ c ih =>
        rw [Function.iterate_succ_apply']
        exact Relation.ReflTransGen.tail ih ⟨y, hy, rfl⟩
    have := iter (y.per - 1) (y.U (a, 1))
    rw [← Function.iterate_succ_apply, Nat.succ_eq_add_one, Nat.sub_add_cancel hp, e] at this
    exact this

end Proof.Symmetry
