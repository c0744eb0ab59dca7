import Verif.Proof.Benes
namespace Proof.Benes
open Model Model.Word

/-! ### exchanging the two entries of a pair -/

/-- the exchange of the pair of `i` (if `c`) -/
def pf (k i : Nat) (c : Bool) (x : Nat) : Nat := if c = true ∧ clr k x = clr k i then x ^^^ 2 ^ k else x

variable {k : Nat}

theorem clr_pf (i : Nat) (c : Bool) (x : Nat) : clr k (pf k i c x) = clr k x := by
  unfold pf; split
  · rw [clr_flip]
  · rfl

theorem pf_pf (i : Nat) (c : Bool) (x : Nat) : pf k i c (pf k i c x) = x := by
  have h := clr_pf (k := k) i c x
  by_cases hc : c = true ∧ clr k x = clr k i
  · have e : pf k i c x = x ^^^ 2 ^ k := by unfold pf; rw [if_pos hc]
    rw [e]; unfold pf; rw [clr_flip, if_pos hc, flip_flip]
  · have e : pf k i c x = x := by unfold pf; rw [if_neg hc]
    rw [e, e]

theorem pf_flip (i : Nat) (c : Bool) (x : Nat) : pf k i c (x ^^^ 2 ^ k) = pf k i c x ^^^ 2 ^ k := by
  unfold pf
  rw [clr_flip]
  split <;> rfl

theorem pf_of_ne (i : Nat) (c : Bool) (x : Nat) (h : c = true → clr k x ≠ clr k i) : pf k i c x = x := by
  unfold pf; rw [if_neg]; rintro ⟨h1, h2⟩; exact h h1 h2

theorem pf_lt (L i : Nat) (c : Bool) (x : Nat) (hk : k < L) (hx : x < 2 ^ L) : pf k i c x < 2 ^ L := by
  unfold pf; split
  · exact flip_lt L k x hk hx
  · exact hx

theorem lt_of_pf (L i : Nat) (c : Bool) (x : Nat) (hk : k < L) (hx : pf k i c x < 2 ^ L) : x < 2 ^ L := by
  have := pf_lt L i c _ hk hx
  rwa [pf_pf] at this

/-- new configuration word -/
def cfgSet (k i : Nat) (c : Bool) (cfg : Nat) : Nat := if c then cfg ||| 2 ^ clr k i else cfg

theorem testBit_cfgSet (i : Nat) (c : Bool) (cfg j : Nat) :
    (cfgSet k i c cfg).testBit j = (cfg.testBit j || (c && decide (clr k i = j))) := by
  unfold cfgSet
  cases c
  · simp
  · simp [Nat.testBit_or, Nat.testBit_two_pow]

theorem sw_pf (i : Nat) (c : Bool) (cfg x : Nat) (h : c = true → cfg.testBit (clr k i) = false) :
    sw k cfg (pf k i c x) = sw k (cfgSet k i c cfg) x := by
  unfold sw
  rw [clr_pf, testBit_cfgSet]
  cases c
  · simp [pf]
  · by_cases hx : clr k x = clr k i
    · rw [hx, h rfl]
      simp [pf, hx]
    · simp [pf, hx, Ne.symm hx]

theorem good_cfgSet (L i : Nat) (c : Bool) (cfg : Nat) (hk : k < L) (hi : i < 2 ^ L) (h : Good (2 ^ L) k cfg) :
    Good (2 ^ L) k (cfgSet k i c cfg) := by
  intro j hj
  rw [testBit_cfgSet, Bool.or_eq_true, Bool.and_eq_true, decide_eq_true_eq] at hj
  rcases hj with hj | ⟨_, hj⟩
  · exact h j hj
  · subst hj
    exact ⟨by rw [testBit_clr]; simp, clr_lt L k i hk hi⟩

/-- `f` and `inv` are inverse partial maps -/
def Inverse (f inv : Nat → Option Nat) : Prop := ∀ p x, f p = some x ↔ inv x = some p

theorem inverse_inj {f inv : Nat → Option Nat} (h : Inverse f inv) {p q x : Nat} (hp : f p = some x)
    (hq : f q = some x) : p = q := by
  rw [h] at hp hq
  rw [hp] at hq
  injection hq

theorem exchange_eq (f : Nat → Option Nat) (i : Nat) :
    exchange f i (i ^^^ 2 ^ k) = fun x => f (pf k i true x) := by
  funext x
  unfold exchange upd pf
  by_cases h1 : x = i ^^^ 2 ^ k
  · rw [if_pos h1, h1, if_pos ⟨rfl, clr_flip k i⟩, flip_flip]
  · rw [if_neg h1]
    by_cases h2 : x = i
    · rw [if_pos h2, h2, if_pos ⟨rfl, rfl⟩]
    · rw [if_neg h2, if_neg]
      rintro ⟨_, hc⟩
      rw [clr_eq_iff] at hc
      exact hc.elim h2 h1

theorem exchange_inverse (f inv : Nat → Option Nat) (h : Inverse f inv) (i : Nat) (v : Nat) (hi : f i = some v) :
    Inverse (exchange f i (i ^^^ 2 ^ k))
      (setInv (setInv inv (exchange f i (i ^^^ 2 ^ k) (i ^^^ 2 ^ k)) (i ^^^ 2 ^ k))
        (exchange f i (i ^^^ 2 ^ k) i) i) := by
  have e1 : pf k i true (i ^^^ 2 ^ k) = i := by unfold pf; rw [if_pos ⟨rfl, clr_flip k i⟩, flip_flip]
  have e2 : pf k i true i = i ^^^ 2 ^ k := by unfold pf; rw [if_pos ⟨rfl, rfl⟩]
  rw [exchange_eq]
  simp only [e1, e2, hi]
  intro p x
  have back : ∀ y, pf k i true p = y ↔ p = pf k i true y := by
    intro y
    constructor
    · intro h; rw [← h, pf_pf]
    · intro h; rw [h, pf_pf]
  cases hj : f (i ^^^ 2 ^ k) with
  | none =>
    simp only [setInv, upd]
    by_cases hx : x = v
    · subst hx
      rw [if_pos rfl]
      constructor
      · intro hp
        have := inverse_inj h hp hi
        rw [back, e2] at this
        rw [this]
      · intro hp
        injection hp with hp
        rw [← hp, e1, hi]
    · rw [if_neg hx]
      constructor
      · intro hp
        have h1 : pf k i true p = p := by
          apply pf_of_ne
          intro _ hc
          rw [clr_eq_iff] at hc
          rcases hc with hc | hc
          · rw [hc, e2, hj] at hp; simp at hp
          · rw [hc, e1, hi] at hp; injection hp with hp; exact hx hp.symm
        rw [h1] at hp
        exact (h p x).1 hp
      · intro hp
        have hfp := (h p x).2 hp
        have h1 : pf k i true p = p := by
          apply pf_of_ne
          intro _ hc
          rw [clr_eq_iff] at hc
          rcases hc with hc | hc
          · rw [hc, hi] at hfp; injection hfp with hfp; exact hx hfp.symm
          · rw [hc, hj] at hfp; simp at hfp
        rw [h1]; exact hfp
  | some u =>
    have huv : u ≠ v := by
      intro he
      rw [he] at hj
      exact flip_ne k i (inverse_inj h hj hi)
    simp only [setInv, upd]
    by_cases hu : x = u
    · subst hu
      rw [if_pos rfl]
      constructor
      · intro hp
        have := inverse_inj h hp hj
        rw [back, e1] at this
        rw [this]
      · intro hp
        injection hp with hp
        rw [← hp, e2, hj]
    · rw [if_neg hu]
      by_cases hx : x = v
      · subst hx
        rw [if_pos rfl]
        constructor
        · intro hp
          have := inverse_inj h hp hi
          rw [back, e2] at this
          rw [this]
        · intro hp
          injection hp with hp
          rw [← hp, e1, hi]
      · rw [if_neg hx]
        constructor
        · intro hp
          have h1 : pf k i true p = p := by
            apply pf_of_ne
            intro _ hc
            rw [clr_eq_iff] at hc
            rcases hc with hc | hc
            · rw [hc, e2, hj] at hp; injection hp with hp; exact hu hp.symm
            · rw [hc, e1, hi] at hp; injection hp with hp; exact hx hp.symm
          rw [h1] at hp
          exact (h p x).1 hp
        · intro hp
          have hfp := (h p x).2 hp
          have h1 : pf k i true p = p := by
            apply pf_of_ne
            intro _ hc
            rw [clr_eq_iff] at hc
            rcases hc with hc | hc
            · rw [hc, hi] at hfp; injection hfp with hfp; exact hx hfp.symm
            · rw [hc, hj] at hfp; injection hfp with hfp; exact hu hfp.symm
          rw [h1]; exact hfp

theorem and_mask (x : Nat) : x &&& 2 ^ k = 0 ↔ x.testBit k = false := by
  constructor
  · intro h
    have := congrArg (fun z => z.testBit k) h
    simpa [Nat.testBit_and] using this
  · intro h
    apply Nat.eq_of_testBit_eq
    intro i
    rw [Nat.testBit_and, Nat.testBit_two_pow]
    by_cases hi : k = i
    · subst hi; simp [h]
    · simp [hi]

theorem not_of_ne {a b : Bool} (h : a ≠ b) : (!b) = a := by revert h; revert a b; decide
theorem eq_of_bne_not {a b : Bool} (h : (a != !b) = true) : a = b := by revert h; revert a b; decide

theorem xor_mask (x y : Nat) : (x ^^^ y) &&& 2 ^ k = 0 ↔ x.testBit k = y.testBit k := by
  rw [and_mask, Nat.testBit_xor]
  cases x.testBit k <;> cases y.testBit k <;> simp

theorem shl_and (p m : Nat) : (1 <<< p) &&& m = 0 ↔ m.testBit p = false := by
  rw [Nat.one_shiftLeft, Nat.and_comm]
  exact and_mask m

/-- the step on the target side in one formula -/
theorem benesTgt_eq (p t v : Nat) (b : BenesState) (h : Inverse b.tgt b.invTgt) (ht : b.tgt t = some v) :
    ∃ inv', Inverse (fun x => b.tgt (pf k t (p.testBit k != t.testBit k) x)) inv' ∧
      benesTgt (2 ^ k) p t b =
        ({ b with cfgTgt := cfgSet k t (p.testBit k != t.testBit k) b.cfgTgt,
                  tgt := fun x => b.tgt (pf k t (p.testBit k != t.testBit k) x), invTgt := inv' },
          pf k t (p.testBit k != t.testBit k) t ^^^ 2 ^ k) := by
  by_cases hc : p.testBit k = t.testBit k
  · have hb : (p.testBit k != t.testBit k) = false := by simp [hc]
    rw [hb]
    refine ⟨b.invTgt, by simpa [pf] using h, ?_⟩
    unfold benesTgt
    rw [if_pos ((xor_mask p t).2 hc)]
    simp [pf, cfgSet]
  · have hb : (p.testBit k != t.testBit k) = true := by simp [hc]
    rw [hb, ← exchange_eq]
    refine ⟨_, exchange_inverse b.tgt b.invTgt h t v ht, ?_⟩
    unfold benesTgt
    rw [if_neg (fun he => hc ((xor_mask p t).1 he)), Nat.one_shiftLeft]
    have e2 : pf k t true t = t ^^^ 2 ^ k := by unfold pf; rw [if_pos ⟨rfl, rfl⟩]
    rw [e2, flip_flip]
    rfl

/-- the step on the source side in one formula -/
theorem benesSrc_eq (q t v : Nat) (b : BenesState) (h : Inverse b.src b.invSrc) (hq : b.src q = some v) :
    ∃ inv', Inverse (fun x => b.src (pf k q (q.testBit k != t.testBit k) x)) inv' ∧
      benesSrc (2 ^ k) q t b =
        ({ b with cfgSrc := cfgSet k q (q.testBit k != t.testBit k) b.cfgSrc,
                  srcSet := b.srcSet ||| 1 <<< pf k q (q.testBit k != t.testBit k) q,
                  src := fun x => b.src (pf k q (q.testBit k != t.testBit k) x), invSrc := inv' },
          pf k q (q.testBit k != t.testBit k) q ^^^ 2 ^ k) := by
  by_cases hc : q.testBit k = t.testBit k
  · have hb : (q.testBit k != t.testBit k) = false := by simp [hc]
    rw [hb]
    refine ⟨b.invSrc, by simpa [pf] using h, ?_⟩
    unfold benesSrc
    rw [if_pos ((xor_mask q t).2 hc)]
    simp [pf, cfgSet]
  · have hb : (q.testBit k != t.testBit k) = true := by simp [hc]
    rw [hb, ← exchange_eq]
    refine ⟨_, exchange_inverse b.src b.invSrc h q v hq, ?_⟩
    unfold benesSrc
    rw [if_neg (fun he => hc ((xor_mask q t).1 he))]
    have e2 : pf k q true q = q ^^^ 2 ^ k := by unfold pf; rw [if_pos ⟨rfl, rfl⟩]
    rw [e2, flip_flip]
    simp [cfgSet, Nat.one_shiftLeft, clr]

/-! ### invariant of a stage -/

/-- Facts that hold at every moment of stage `k` between rounds; `src0`, `tgt0` are the arrays at the
beginning of the stage.  Source position `q` is handled when bit `q` of `srcSet` is set. -/
structure Inv (L k : Nat) (src0 tgt0 : Nat → Option Nat) (b : BenesState) : Prop where
  is : Inverse b.src b.invSrc
  it : Inverse b.tgt b.invTgt
  rs : ∀ x, b.src x = src0 (sw k b.cfgSrc x)
  rt : ∀ x, b.tgt x = tgt0 (sw k b.cfgTgt x)
  gs : Good (2 ^ L) k b.cfgSrc
  gt : Good (2 ^ L) k b.cfgTgt
  bs : ∀ x v, b.src x = some v → x < 2 ^ L
  bt : ∀ x v, b.tgt x = some v → x < 2 ^ L
  vals : ∀ v, (∃ x, b.src x = some v) ↔ ∃ x, b.tgt x = some v
  agree : ∀ q t v, b.srcSet.testBit q = true → b.src q = some v → b.tgt t = some v → q.testBit k = t.testBit k
  partner : ∀ q t v q' v', b.src q = some v → b.tgt t = some v → b.src q' = some v' →
    b.tgt (t ^^^ 2 ^ k) = some v' → b.srcSet.testBit q = true → b.srcSet.testBit q' = true
  tgtUsed : ∀ q t v, b.src q = some v → b.tgt t = some v → b.cfgTgt.testBit (clr k t) = true →
    b.srcSet.testBit q = true
  srcUsed : ∀ q, b.cfgSrc.testBit (clr k q) = true → b.srcSet.testBit q = true ∨ b.srcSet.testBit (q ^^^ 2 ^ k) = true

/-- every unhandled, occupied position whose partner is handled satisfies `S` -/
def Half (k : Nat) (b : BenesState) (S : Nat → Prop) : Prop :=
  ∀ q, b.src q ≠ none → b.srcSet.testBit q = false → b.srcSet.testBit (q ^^^ 2 ^ k) = true → S q

/-- before a round at position `p` of a walk that started at `st` -/
structure Walk (L k : Nat) (src0 tgt0 : Nat → Option Nat) (b : BenesState) (p st : Nat) : Prop extends
    Inv L k src0 tgt0 b where
  half : Half k b (fun q => q = p ∨ q = st ^^^ 2 ^ k)
  came : p = st ∨ b.srcSet.testBit (p ^^^ 2 ^ k) = true
  bit : p.testBit k = st.testBit k
  new : b.srcSet.testBit p = false
  occ : b.src p ≠ none

/-- handled or empty -/
def Done (b : BenesState) (q : Nat) : Prop := b.srcSet.testBit q = true ∨ b.src q = none

theorem testBit_set (m p x : Nat) : (m ||| 1 <<< p).testBit x = (m.testBit x || decide (p = x)) := by
  rw [Nat.testBit_or, Nat.one_shiftLeft, Nat.testBit_two_pow]

theorem round_spec {L k : Nat} (hk : k < L) {src0 tgt0 : Nat → Option Nat} {b : BenesState} {p st : Nat}
    (w : Walk L k src0 tgt0 b p st) :
    ∃ b' o, benesRound (2 ^ k) p b = some (b', o) ∧ Inv L k src0 tgt0 b' ∧
      (∀ x, b.srcSet.testBit x = true → b'.srcSet.testBit x = true) ∧ b'.srcSet.testBit p = true ∧
      (∀ x, Done b x → Done b' x) ∧
      (o = none → Half k b' (fun q => q = st ^^^ 2 ^ k)) ∧
      (∀ p', o = some p' → Walk L k src0 tgt0 b' p' st) := by
  obtain ⟨v, hv⟩ := Option.ne_none_iff_exists'.1 w.occ
  obtain ⟨t, ht⟩ := (w.vals v).1 ⟨p, hv⟩
  have hp : p < 2 ^ L := w.bs p v hv
  have htl : t < 2 ^ L := w.bt t v ht
  -- target side
  set c2 : Bool := p.testBit k != t.testBit k with hc2
  set π2 : Nat → Nat := pf k t c2 with hπ2
  have hcfg2 : c2 = true → b.cfgTgt.testBit (clr k t) = false := by
    intro _
    by_contra hc
    rw [Bool.not_eq_false] at hc
    have := w.tgtUsed p t v hv ht hc
    rw [w.new] at this
    simp at this
  have hpt : p.testBit k = (π2 t).testBit k := by
    rw [hπ2]; unfold pf
    rw [hc2]
    by_cases he : p.testBit k = t.testBit k
    · rw [if_neg (by simp [he])]; exact he
    · rw [if_pos ⟨by simp [he], rfl⟩, testBit_flip, if_pos rfl]
      exact (not_of_ne he).symm
  obtain ⟨invT, hinvT, heT⟩ := benesTgt_eq (k := k) p t v { b with srcSet := b.srcSet ||| 1 <<< p } w.it ht
  rw [← hc2] at hinvT heT
  simp only [] at hinvT heT
  have hround : benesRound (2 ^ k) p b =
      (let bt := benesTgt (2 ^ k) p t { b with srcSet := b.srcSet ||| 1 <<< p }
       match bt.1.tgt bt.2 with
       | none => some (bt.1, none)
       | some u => (bt.1.invSrc u).bind fun q =>
         let bs := benesSrc (2 ^ k) q bt.2 bt.1
         if bs.1.src bs.2 = none then some (bs.1, none)
         else if (1 <<< bs.2) &&& bs.1.srcSet ≠ 0 then some (bs.1, none)
         else some (bs.1, some bs.2)) := by
    unfold benesRound
    simp only [hv, Option.bind_some, (w.it t v).1 ht, ht, reduceCtorEq, if_false]
    rfl
  rw [hround, heT]
  simp only []
  have e1 : pf k t c2 (pf k t c2 t ^^^ 2 ^ k) = t ^^^ 2 ^ k := by rw [pf_flip, pf_pf]
  rw [e1]
  have hRT : ∀ x, b.tgt (π2 x) = tgt0 (sw k (cfgSet k t c2 b.cfgTgt) x) := by
    intro x; rw [w.rt, hπ2, sw_pf t c2 b.cfgTgt x hcfg2]
  have hGT := good_cfgSet (k := k) L t c2 b.cfgTgt hk htl w.gt
  have hBT : ∀ x v, b.tgt (π2 x) = some v → x < 2 ^ L := fun x v hx => lt_of_pf L t c2 x hk (w.bt _ v hx)
  have hclr : ∀ z, clr k z = clr k t → ∀ x y, b.tgt z = some x → b.src y = some x →
      y = p ∨ b.tgt (t ^^^ 2 ^ k) = some x := by
    intro z hz x y hx hy
    rw [clr_eq_iff] at hz
    rcases hz with hz | hz
    · left
      rw [hz, ht] at hx
      injection hx with hx
      rw [← hx] at hy
      exact inverse_inj w.is hy hv
    · right; rw [← hz]; exact hx
  cases hu : b.tgt (t ^^^ 2 ^ k) with
  | none =>
    refine ⟨_, none, rfl, ?_, ?_, ?_, ?_, ?_, by simp⟩
    · -- invariant
      refine ⟨w.is, hinvT, w.rs, hRT, w.gs, hGT, w.bs, hBT, ?_, ?_, ?_, ?_, ?_⟩
      · intro x
        rw [w.vals]
        constructor
        · rintro ⟨z, hz⟩; exact ⟨π2 z, by simpa [hπ2, pf_pf] using hz⟩
        · rintro ⟨z, hz⟩; exact ⟨π2 z, hz⟩
      · intro y z x hm hy hz
        simp only [testBit_set, Bool.or_eq_true, decide_eq_true_eq] at hm
        by_cases hcl : clr k (π2 z) = clr k t
        · rcases hclr _ hcl x y hz hy with rfl | h
          · have : z = π2 t := by
              have h1 : b.tgt (π2 z) = some v := by rw [hz]; rw [hy] at hv; rw [hv]
              have h2 := inverse_inj w.it h1 ht
              rw [← h2, hπ2, pf_pf]
            rw [this, ← hpt]
          · rw [hu] at h; simp at h
        · have h1 : π2 z = z := by
            rw [hπ2] at hcl ⊢
            rw [clr_pf] at hcl
            exact pf_of_ne t c2 z (fun _ => hcl)
          rcases hm with hm | rfl
          · change b.tgt (π2 z) = some x at hz
            exact w.agree y z x hm hy (by rw [h1] at hz; exact hz)
          · exfalso
            have h2 : b.tgt (π2 z) = some v := by rw [hz]; rw [hy] at hv; rw [hv]
            have := inverse_inj w.it h2 ht
            exact hcl (by rw [this])
      · intro y z x y' x' hy hz hy' hz' hm
        simp only [testBit_set, Bool.or_eq_true, decide_eq_true_eq] at hm ⊢
        simp only [pf_flip] at hz'
        rcases hm with hm | rfl
        · exact Or.inl (w.partner y (π2 z) x y' x' hy hz hy' hz' hm)
        · exfalso
          have h2 : b.tgt (π2 z) = some v := by rw [hz]; rw [hy] at hv; rw [hv]
          have := inverse_inj w.it h2 ht
          rw [hπ2] at this
          rw [this, hu] at hz'
          simp at hz'
      · intro y z x hy hz hcf
        simp only [testBit_set, Bool.or_eq_true, decide_eq_true_eq]
        rw [testBit_cfgSet, Bool.or_eq_true, Bool.and_eq_true, decide_eq_true_eq] at hcf
        have hclz : clr k (π2 z) = clr k z := by rw [hπ2, clr_pf]
        rcases hcf with hcf | ⟨_, hcf⟩
        · exact Or.inl (w.tgtUsed y (π2 z) x hy hz (by rw [hclz]; exact hcf))
        · rcases hclr (π2 z) (by rw [hclz]; exact hcf.symm) x y hz hy with h | h
          · exact Or.inr h.symm
          · rw [hu] at h; simp at h
      · intro y hcf
        simp only [testBit_set, Bool.or_eq_true, decide_eq_true_eq]
        rcases w.srcUsed y hcf with h | h
        · exact Or.inl (Or.inl h)
        · exact Or.inr (Or.inl h)
    · intro x hx; simp [testBit_set, hx]
    · simp [testBit_set]
    · rintro x (h | h)
      · exact Or.inl (by simp [testBit_set, h])
      · exact Or.inr h
    · intro _ y hy hm hm'
      simp only [testBit_set, Bool.or_eq_false_iff, decide_eq_false_iff_not, Bool.or_eq_true, decide_eq_true_eq] at hm hm'
      rcases hm' with hm' | hm'
      · exact (w.half y hy hm.1 hm').elim (fun h => absurd h.symm hm.2) id
      · have e : y = p ^^^ 2 ^ k := by rw [hm', flip_flip]
        rcases w.came with h | h
        · rw [e, h]
        · rw [← e, hm.1] at h; simp at h
  | some u =>
    obtain ⟨q, hq⟩ := (w.vals u).2 ⟨_, hu⟩
    have hql := w.bs q u hq
    have huv : u ≠ v := by
      rintro rfl
      exact flip_ne k t (inverse_inj w.it hu ht)
    have hqp : q ≠ p := by
      rintro rfl
      rw [hv] at hq
      injection hq with hq
      exact huv hq.symm
    have hnq : b.srcSet.testBit q = false := by
      by_contra hc
      rw [Bool.not_eq_false] at hc
      have := w.partner q (t ^^^ 2 ^ k) u p v hq hu hv (by rw [flip_flip]; exact ht) hc
      rw [w.new] at this
      simp at this
    set t1 : Nat := π2 t ^^^ 2 ^ k with ht1
    have hbt1 : t1.testBit k = !p.testBit k := by rw [ht1, testBit_flip, if_pos rfl, hpt]
    set c1 : Bool := q.testBit k != t1.testBit k with hc1
    set π1 : Nat → Nat := pf k q c1 with hπ1
    -- if the source pair is exchanged, neither position is handled
    have hfree : c1 = true → b.srcSet.testBit (q ^^^ 2 ^ k) = false ∧ q ^^^ 2 ^ k ≠ p := by
      intro hc
      have hqb : q.testBit k = p.testBit k := by
        rw [hc1, hbt1] at hc
        exact eq_of_bne_not hc
      have hne : q ^^^ 2 ^ k ≠ p := by
        intro he
        have := testBit_flip k q k
        rw [he, if_pos rfl, hqb] at this
        simp at this
      refine ⟨?_, hne⟩
      by_contra hm
      rw [Bool.not_eq_false] at hm
      rcases w.half q (by rw [hq]; simp) hnq hm with h | h
      · exact hqp h
      · have := testBit_flip k st k
        rw [← h, if_pos rfl, hqb, w.bit] at this
        simp at this
    have hcfg1 : c1 = true → b.cfgSrc.testBit (clr k q) = false := by
      intro hc
      by_contra hm
      rw [Bool.not_eq_false] at hm
      rcases w.srcUsed q hm with h | h
      · rw [hnq] at h; simp at h
      · rw [(hfree hc).1] at h; simp at h
    have hqt : (π1 q).testBit k = t1.testBit k := by
      rw [hπ1]; unfold pf
      rw [hc1]
      by_cases he : q.testBit k = t1.testBit k
      · rw [if_neg (by simp [he])]; exact he
      · rw [if_pos ⟨by simp [he], rfl⟩, testBit_flip, if_pos rfl]
        exact not_of_ne (Ne.symm he)
    -- handled positions are not moved
    have hfix : ∀ x, b.srcSet.testBit x = true → π1 x = x := by
      intro x hx
      rw [hπ1]
      apply pf_of_ne
      intro hc hcl
      rw [clr_eq_iff] at hcl
      rcases hcl with h | h
      · rw [h, hnq] at hx; simp at hx
      · rw [h, (hfree hc).1] at hx; simp at hx
    have hfixp : π1 p = p := by
      rw [hπ1]
      apply pf_of_ne
      intro hc hcl
      rw [clr_eq_iff] at hcl
      rcases hcl with h | h
      · exact hqp h.symm
      · exact (hfree hc).2 h.symm
    have hinvol : ∀ x, π1 (π1 x) = x := fun x => by rw [hπ1]; exact pf_pf q c1 x
    obtain ⟨invS, hinvS, heS⟩ := benesSrc_eq (k := k) q t1 u
      { b with srcSet := b.srcSet ||| 1 <<< p, cfgTgt := cfgSet k t c2 b.cfgTgt,
               tgt := fun x => b.tgt (pf k t c2 x), invTgt := invT } w.is hq
    rw [← hc1] at hinvS heS
    simp only [] at hinvS heS
    simp only [(w.is q u).1 hq, Option.bind_some]
    rw [heS]
    simp only [shl_and, ne_eq, Bool.not_eq_false]
    -- handled afterwards, in old coordinates
    have hM : ∀ x, ((b.srcSet ||| 1 <<< p) ||| 1 <<< π1 q).testBit x = true ↔
        (b.srcSet.testBit (π1 x) = true ∨ π1 x = p ∨ π1 x = q) := by
      intro x
      simp only [testBit_set, Bool.or_eq_true, decide_eq_true_eq]
      constructor
      · rintro ((h | h) | h)
        · left; rw [hfix x h]; exact h
        · right; left; rw [← h, hfixp]
        · right; right; rw [← h, hinvol]
      · rintro (h | h | h)
        · left; left
          have := hfix _ h
          rw [hinvol] at this
          rw [← this] at h; exact h
        · left; right
          rw [← hinvol x, h, hfixp]
        · right
          rw [← h, hinvol]
    have hInv : Inv L k src0 tgt0
        { src := fun x => b.src (pf k q c1 x), invSrc := invS, tgt := fun x => b.tgt (pf k t c2 x), invTgt := invT,
          srcSet := (b.srcSet ||| 1 <<< p) ||| 1 <<< pf k q c1 q, cfgSrc := cfgSet k q c1 b.cfgSrc,
          cfgTgt := cfgSet k t c2 b.cfgTgt } := by
      refine ⟨hinvS, hinvT, ?_, hRT, good_cfgSet (k := k) L q c1 b.cfgSrc hk hql w.gs, hGT, ?_, hBT, ?_, ?_, ?_, ?_, ?_⟩
      · intro x; simp only []; rw [w.rs, sw_pf q c1 b.cfgSrc x hcfg1]
      · intro x v hx; exact lt_of_pf L q c1 x hk (w.bs _ v hx)
      · intro x
        constructor
        · rintro ⟨z, hz⟩
          obtain ⟨y, hy⟩ := (w.vals x).1 ⟨_, hz⟩
          exact ⟨π2 y, by simpa [hπ2, pf_pf] using hy⟩
        · rintro ⟨z, hz⟩
          obtain ⟨y, hy⟩ := (w.vals x).2 ⟨_, hz⟩
          exact ⟨π1 y, by simpa [hπ1, pf_pf] using hy⟩
      · intro y z x hm hy hz
        simp only [] at hm hy hz
        rw [hM] at hm
        rcases hm with hm | hm | hm
        · have hyy : π1 y = y := by
            have := hfix _ hm
            rw [hinvol] at this; exact this.symm
          have hcl : clr k (π2 z) ≠ clr k t := by
            intro hcl
            rcases hclr _ hcl x _ hz hy with h | h
            · change π1 y = p at h
              rw [h, w.new] at hm; simp at hm
            · rw [hu] at h
              injection h with h
              rw [← h] at hy
              have := inverse_inj w.is hy hq
              change π1 y = q at this
              rw [this, hnq] at hm; simp at hm
          have h1 : π2 z = z := by
            rw [hπ2] at hcl ⊢
            rw [clr_pf] at hcl
            exact pf_of_ne t c2 z (fun _ => hcl)
          have h2 := w.agree _ _ x hm hy hz
          change (π1 y).testBit k = (π2 z).testBit k at h2
          rw [hyy, h1] at h2
          exact h2
        · have hyp : y = p := by rw [← hinvol y, hm, hfixp]
          change b.src (π1 y) = some x at hy
          rw [hm, hv] at hy
          injection hy with hy
          change b.tgt (π2 z) = some x at hz
          rw [← hy] at hz
          have h2 := inverse_inj w.it hz ht
          have h3 : z = π2 t := by rw [← h2, hπ2, pf_pf]
          rw [hyp, h3]; exact hpt
        · have hyq : y = π1 q := by rw [← hm, hinvol]
          change b.src (π1 y) = some x at hy
          rw [hm, hq] at hy
          injection hy with hy
          change b.tgt (π2 z) = some x at hz
          rw [← hy] at hz
          have h2 := inverse_inj w.it hz hu
          have h3 : z = t1 := by rw [ht1, ← pf_flip, ← h2, hπ2, pf_pf]
          rw [hyq, h3]; exact hqt
      · intro y z x y' x' hy hz hy' hz' hm
        simp only [] at hm hy hz hy' hz' ⊢
        rw [hM] at hm ⊢
        rw [pf_flip] at hz'
        change b.tgt (π2 z) = some x at hz
        change b.tgt (π2 z ^^^ 2 ^ k) = some x' at hz'
        rcases hm with hm | hm | hm
        · exact Or.inl (w.partner _ (π2 z) x _ x' hy hz hy' hz' hm)
        · right; right
          change b.src (π1 y) = some x at hy
          rw [hm, hv] at hy
          injection hy with hy
          rw [← hy] at hz
          rw [inverse_inj w.it hz ht, hu] at hz'
          injection hz' with hz'
          rw [← hz'] at hy'
          exact inverse_inj w.is hy' hq
        · right; left
          change b.src (π1 y) = some x at hy
          rw [hm, hq] at hy
          injection hy with hy
          rw [← hy] at hz
          rw [inverse_inj w.it hz hu, flip_flip, ht] at hz'
          injection hz' with hz'
          rw [← hz'] at hy'
          exact inverse_inj w.is hy' hv
      · intro y z x hy hz hcf
        simp only [] at hy hz hcf ⊢
        rw [hM]
        rw [testBit_cfgSet, Bool.or_eq_true, Bool.and_eq_true, decide_eq_true_eq] at hcf
        have hclz : clr k (pf k t c2 z) = clr k z := clr_pf _ _ _
        rcases hcf with hcf | ⟨_, hcf⟩
        · exact Or.inl (w.tgtUsed _ (pf k t c2 z) x hy hz (by rw [hclz]; exact hcf))
        · rcases hclr (pf k t c2 z) (by rw [hclz]; exact hcf.symm) x _ hz hy with h | h
          · exact Or.inr (Or.inl h)
          · right; right
            rw [hu] at h
            injection h with h
            rw [← h] at hy
            exact inverse_inj w.is hy hq
      · intro y hcf
        simp only [] at hcf ⊢
        rw [testBit_cfgSet, Bool.or_eq_true, Bool.and_eq_true, decide_eq_true_eq] at hcf
        simp only [testBit_set, Bool.or_eq_true, decide_eq_true_eq]
        rcases hcf with hcf | ⟨_, hcf⟩
        · rcases w.srcUsed y hcf with h | h
          · exact Or.inl (Or.inl (Or.inl h))
          · exact Or.inr (Or.inl (Or.inl h))
        · have h1 : clr k y = clr k (pf k q c1 q) := by rw [clr_pf]; exact hcf.symm
          rw [clr_eq_iff] at h1
          rcases h1 with h1 | h1
          · exact Or.inl (Or.inr h1.symm)
          · exact Or.inr (Or.inr (by rw [h1, flip_flip]))
    have hmono : ∀ x, b.srcSet.testBit x = true → ((b.srcSet ||| 1 <<< p) ||| 1 <<< pf k q c1 q).testBit x = true := by
      intro x hx; simp [testBit_set, hx]
    have hpm : ((b.srcSet ||| 1 <<< p) ||| 1 <<< pf k q c1 q).testBit p = true := by simp [testBit_set]
    have hdone : ∀ x, Done b x → Done
        { src := fun x => b.src (pf k q c1 x), invSrc := invS, tgt := fun x => b.tgt (pf k t c2 x), invTgt := invT,
          srcSet := (b.srcSet ||| 1 <<< p) ||| 1 <<< pf k q c1 q, cfgSrc := cfgSet k q c1 b.cfgSrc,
          cfgTgt := cfgSet k t c2 b.cfgTgt } x := by
      rintro x (h | h)
      · exact Or.inl (hmono x h)
      · by_cases hcl : clr k x = clr k q
        · by_cases hx : x = pf k q c1 q
          · left; simp [testBit_set, hx]
          · right
            rw [← clr_pf (k := k) q c1 q, clr_eq_iff] at hcl
            rcases hcl with h' | h'
            · exact absurd h' hx
            · show b.src (pf k q c1 x) = none
              rw [h', pf_flip, pf_pf]
              -- x is q (exchange) or the partner of q (no exchange)
              cases hc : c1
              · have : pf k q c1 q = q := by rw [hc]; simp [pf]
                rw [this] at h'
                rw [← h']; exact h
              · have : pf k q c1 q = q ^^^ 2 ^ k := by rw [hc]; simp [pf]
                rw [this, flip_flip] at h'
                rw [h', hq] at h
                simp at h
        · right
          show b.src (pf k q c1 x) = none
          rw [pf_of_ne q c1 x (fun _ => hcl)]; exact h
    have hhalf : Half k
        { src := fun x => b.src (pf k q c1 x), invSrc := invS, tgt := fun x => b.tgt (pf k t c2 x), invTgt := invT,
          srcSet := (b.srcSet ||| 1 <<< p) ||| 1 <<< pf k q c1 q, cfgSrc := cfgSet k q c1 b.cfgSrc,
          cfgTgt := cfgSet k t c2 b.cfgTgt } (fun y => y = pf k q c1 q ^^^ 2 ^ k ∨ y = st ^^^ 2 ^ k) := by
      intro y hy hm hm'
      simp only [] at hy hm hm'
      simp only [testBit_set, Bool.or_eq_false_iff, decide_eq_false_iff_not, Bool.or_eq_true, decide_eq_true_eq] at hm hm'
      rcases hm' with (hm' | hm') | hm'
      · right
        by_cases hcl : clr k y = clr k q
        · exfalso
          rw [← clr_pf (k := k) q c1 q, clr_eq_iff] at hcl
          rcases hcl with h' | h'
          · exact hm.2 h'.symm
          · rw [h', flip_flip] at hm'
            have h3 := hfix _ hm'
            change b.srcSet.testBit (π1 q) = true at hm'
            change π1 (π1 q) = π1 q at h3
            rw [hinvol] at h3
            rw [← h3, hnq] at hm'
            simp at hm'
        · rw [pf_of_ne q c1 y (fun _ => hcl)] at hy
          exact (w.half y hy hm.1.1 hm').elim (fun h => absurd h.symm hm.1.2) id
      · right
        have e : y = p ^^^ 2 ^ k := by rw [hm', flip_flip]
        rcases w.came with h | h
        · rw [e, h]
        · rw [← e, hm.1.1] at h; simp at h
      · left; rw [hm', flip_flip]
    split
    · rename_i hnone
      refine ⟨_, none, rfl, hInv, hmono, hpm, hdone, ?_, by simp⟩
      intro _ y hy hm hm'
      rcases hhalf y hy hm hm' with h | h
      · rw [h] at hy; exact absurd hnone hy
      · exact h
    · rename_i hsome
      split
      · rename_i hmk
        refine ⟨_, none, rfl, hInv, hmono, hpm, hdone, ?_, by simp⟩
        intro _ y hy hm hm'
        rcases hhalf y hy hm hm' with h | h
        · rw [h] at hm; simp only [] at hm; rw [hmk] at hm; simp at hm
        · exact h
      · rename_i hmk
        refine ⟨_, some _, rfl, hInv, hmono, hpm, hdone, by simp, ?_⟩
        intro p' hp'
        injection hp' with hp'
        subst hp'
        refine ⟨hInv, hhalf, Or.inr ?_, ?_, by simpa using hmk, hsome⟩
        · rw [flip_flip]; simp [testBit_set]
        · rw [testBit_flip, if_pos rfl]
          change (!(π1 q).testBit k) = _
          rw [hqt, hbt1, Bool.not_not, w.bit]

end Proof.Benes
