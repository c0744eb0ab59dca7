import Verif.Proof.Maps
import Mathlib.GroupTheory.OrderOfElement
import Mathlib.GroupTheory.Perm.Basic
import Mathlib.Data.Fintype.Perm
namespace Proof.Period
open Spec Model Proof.Digits Proof.Maps

/-- parity of the inversions met by site `i` in `n` applications of the map -/
def par (map : List Int) : Nat → Nat → Bool
  | 0, _ => false
  | n + 1, i => xor (inverts map i) (par map n (dest map i))

theorem flipIf_flipIf (b : Nat) (c d : Bool) (n : Nat) (h : n < b) :
    flipIf b c (flipIf b d n) = flipIf b (xor d c) n := by
  unfold flipIf
  cases c <;> cases d <;> (simp; try omega)

variable {b N : Nat} {map : List Int}

theorem iterate_lt (h : IsSiteMap N map) : ∀ n i, i < N → (dest map)^[n] i < N
  | 0, i, hi => hi
  | n + 1, i, hi => by rw [Function.iterate_succ_apply]; exact iterate_lt h n _ (h.range i hi)

theorem iterate_image (hb : 0 < b) (T : Nat → Nat) (hT : ∀ s < b ^ N, IsImage b N map s (T s))
    (h : IsSiteMap N map) : ∀ n s, s < b ^ N → T^[n] s < b ^ N ∧
      ∀ i < N, occ b N (T^[n] s) ((dest map)^[n] i) = flipIf b (par map n i) (occ b N s i)
  | 0, s, hs => ⟨hs, fun i _ => rfl⟩
  | n + 1, s, hs => by
    have h1 := hT s hs
    have ih := iterate_image hb T hT h n (T s) h1.lt
    rw [Function.iterate_succ_apply]
    refine ⟨ih.1, fun i hi => ?_⟩
    rw [Function.iterate_succ_apply, ih.2 _ (h.range i hi), h1.occ i hi,
      flipIf_flipIf b _ _ _ (occ_lt b N s i hb)]
    rfl

/-- the `n`-th power of the map fixes every site and inverts none -/
def Trivial (N : Nat) (map : List Int) (n : Nat) : Prop :=
  ∀ i < N, (dest map)^[n] i = i ∧ par map n i = false

theorem iterate_id_iff (hb : 1 < b) (T : Nat → Nat) (hT : ∀ s < b ^ N, IsImage b N map s (T s))
    (h : IsSiteMap N map) (n : Nat) : (∀ s < b ^ N, T^[n] s = s) ↔ Trivial N map n := by
  constructor
  · intro hid i hi
    have hp : par map n i = false := by
      have h0 := (iterate_image (by omega) T hT h n 0 (Nat.pow_pos (by omega))).2 i hi
      rw [hid 0 (Nat.pow_pos (by omega))] at h0
      have e : ∀ j, occ b N 0 j = 0 := by intro j; simp [occ, digit]
      rw [e, e] at h0
      by_contra hc
      rw [Bool.not_eq_false] at hc
      rw [hc] at h0
      simp [flipIf] at h0
      omega
    refine ⟨?_, hp⟩
    let f : Nat → Nat := fun j => if j = i then 1 else 0
    have hf : ∀ j < N, f j < b := by intro j _; simp only [f]; split <;> omega
    have h1 := (iterate_image (by omega) T hT h n _ (fromOcc_lt b N f hf)).2 i hi
    rw [hid _ (fromOcc_lt b N f hf), hp, occ_fromOcc b N f hf _ (iterate_lt h n i hi),
      occ_fromOcc b N f hf i hi] at h1
    by_contra hc
    simp [f, flipIf, hc] at h1
  · intro ht s hs
    have h1 := iterate_image (by omega) T hT h n s hs
    refine occ_ext b N _ _ h1.1 hs fun i hi => ?_
    have h2 := h1.2 i hi
    rw [(ht i hi).1, (ht i hi).2] at h2
    exact h2

/-! ### a power of every map is trivial -/

theorem par_add (map : List Int) : ∀ n m i, par map (n + m) i = xor (par map n i) (par map m ((dest map)^[n] i))
  | 0, m, i => by simp [par]
  | n + 1, m, i => by
    rw [show n + 1 + m = (n + m) + 1 from by omega, par, par, par_add map n m, Function.iterate_succ_apply, Bool.xor_assoc]

theorem exists_trivial (h : IsSiteMap N map) : ∃ n, 0 < n ∧ Trivial N map n := by
  classical
  let f : Fin N → Fin N := fun i => ⟨dest map i, h.range i i.2⟩
  have hf : Function.Injective f := by
    intro i j he
    simp only [f, Fin.mk.injEq] at he
    exact Fin.ext (h.inj i i.2 j j.2 he)
  let σ : Equiv.Perm (Fin N) := Equiv.ofBijective f (Finite.injective_iff_bijective.1 hf)
  have hσ : ∀ (n : Nat) (i : Fin N), ((σ ^ n) i : Nat) = (dest map)^[n] i := by
    intro n
    induction n with
    | zero => intro i; rfl
    | succ n ih =>
      intro i
      rw [pow_succ, Equiv.Perm.mul_apply, ih, Function.iterate_succ_apply]
      rfl
  have hpos : 0 < orderOf σ := orderOf_pos σ
  have hid : ∀ i < N, (dest map)^[orderOf σ] i = i := by
    intro i hi
    have := hσ (orderOf σ) ⟨i, hi⟩
    rw [pow_orderOf_eq_one] at this
    exact this.symm
  refine ⟨orderOf σ + orderOf σ, by omega, fun i hi => ⟨?_, ?_⟩⟩
  · rw [Function.iterate_add_apply, hid i hi, hid i hi]
  · rw [par_add, hid i hi, Bool.xor_self]

/-! ### the loop -/

theorem siteOf_eq (j : Int) : siteOf j = (target j : Int) := by
  unfold siteOf target; split <;> omega

/-- encoding of (site, inverted) as a map entry -/
def enc (d : Nat) (c : Bool) : Int := if c then -((d : Int) + 1) else d

theorem enc_inj (d : Nat) (c : Bool) (k : Nat) : (k : Int) = enc d c ↔ d = k ∧ c = false := by
  unfold enc; cases c <;> simp <;> omega

theorem flip_enc (d : Nat) (c c' : Bool) : (if c' = true then -(enc d c + 1) else enc d c) = enc d (xor c' c) := by
  unfold enc; cases c <;> cases c' <;> simp

theorem mapStep_length (map sites : List Int) : (mapStep map sites).length = map.length := by
  simp [mapStep, gatherSites]

theorem mapStep_getD (h : IsSiteMap N map) (sites : List Int) (hl : sites.length = N) (k : Nat) (hk : k < N) :
    (mapStep map sites).getD k 0 =
      if inverts map (dest map k) = true then -(sites.getD (dest map k) 0 + 1) else sites.getD (dest map k) 0 := by
  have hd := h.range k hk
  have hkl : k < map.length := by rw [h.length]; exact hk
  have hdl : dest map k < map.length := by rw [h.length]; exact hd
  unfold mapStep gatherSites
  rw [List.getD_eq_getElem _ _ (by simpa using hkl), List.getElem_map, List.getElem_map, siteOf_eq, Int.toNat_natCast]
  have e : target map[k] = dest map k := by unfold dest; rw [List.getD_eq_getElem _ _ hkl]
  rw [e]
  unfold flipSites
  rw [List.getD_eq_getElem _ _ (by simp; omega), List.getElem_zipWith]
  unfold inverts
  rw [List.getD_eq_getElem _ _ hdl, List.getD_eq_getElem sites _ (by omega)]
  simp only [decide_eq_true_eq]

theorem siteOrder_getD (N k : Nat) (hk : k < N) : (siteOrder N).getD k 0 = k := by
  unfold siteOrder
  rw [List.getD_eq_getElem _ _ (by simpa using hk)]
  simp

theorem sites_iterate (h : IsSiteMap N map) : ∀ n, ((mapStep map)^[n] (siteOrder N)).length = N ∧
    ∀ k < N, ((mapStep map)^[n] (siteOrder N)).getD k 0 = enc ((dest map)^[n] k) (par map n (dest map k))
  | 0 => by
    refine ⟨by simp [siteOrder], fun k hk => ?_⟩
    rw [Function.iterate_zero_apply, siteOrder_getD N k hk]
    rfl
  | n + 1 => by
    have ih := sites_iterate h n
    rw [Function.iterate_succ_apply']
    refine ⟨by rw [mapStep_length, h.length], fun k hk => ?_⟩
    rw [mapStep_getD h _ ih.1 k hk, ih.2 _ (h.range k hk), flip_enc, Function.iterate_succ_apply]
    rfl

theorem list_ext (l l' : List Int) (hl : l.length = N) (hl' : l'.length = N)
    (h : ∀ k < N, l.getD k 0 = l'.getD k 0) : l = l' := by
  refine List.ext_getElem (by omega) fun k h1 h2 => ?_
  have := h k (by omega)
  rwa [List.getD_eq_getElem _ _ h1, List.getD_eq_getElem _ _ h2] at this

theorem sites_order_iff (h : IsSiteMap N map) (n : Nat) :
    siteOrder N = (mapStep map)^[n] (siteOrder N) ↔ Trivial N map n := by
  have hs := sites_iterate h n
  constructor
  · intro he
    have key : ∀ k < N, (dest map)^[n] k = k ∧ par map n (dest map k) = false := by
      intro k hk
      have h1 := hs.2 k hk
      rw [← he, siteOrder_getD N k hk] at h1
      exact (enc_inj _ _ _).1 h1
    intro i hi
    refine ⟨(key i hi).1, ?_⟩
    obtain ⟨k, hk, rfl⟩ := dest_surj h i hi
    exact (key k hk).2
  · intro ht
    refine list_ext _ _ (by simp [siteOrder]) hs.1 fun k hk => ?_
    rw [hs.2 k hk, siteOrder_getD N k hk]
    exact (enc_inj _ _ _).2 ⟨(ht k hk).1, (ht _ (h.range k hk)).2⟩

theorem periodLoop_some (h : IsSiteMap N map) : ∀ fuel m p,
    periodLoop map fuel ((mapStep map)^[m] (siteOrder N)) m = some p →
    m < p ∧ Trivial N map p ∧ ∀ n, m < n → n < p → ¬ Trivial N map n
  | 0, m, p, he => by simp [periodLoop] at he
  | fuel + 1, m, p, he => by
    rw [periodLoop, h.length, ← Function.iterate_succ_apply' (mapStep map) m] at he
    split at he
    · rename_i hc
      injection he with he
      subst he
      exact ⟨by omega, (sites_order_iff h (m + 1)).1 hc, fun n h1 h2 => by omega⟩
    · rename_i hc
      obtain ⟨h1, h2, h3⟩ := periodLoop_some h fuel (m + 1) p he
      refine ⟨by omega, h2, fun n hn hp => ?_⟩
      rcases Nat.lt_or_ge (m + 1) n with h4 | h4
      · exact h3 n h4 hp
      · have : n = m + 1 := by omega
        subst this
        exact fun ht => hc ((sites_order_iff h (m + 1)).2 ht)

theorem periodLoop_stops (h : IsSiteMap N map) : ∀ fuel m n, m < n → n ≤ m + fuel → Trivial N map n →
    ∃ p, periodLoop map fuel ((mapStep map)^[m] (siteOrder N)) m = some p
  | 0, m, n, h1, h2, _ => by omega
  | fuel + 1, m, n, h1, h2, ht => by
    rw [periodLoop, h.length, ← Function.iterate_succ_apply' (mapStep map) m]
    split
    · exact ⟨_, rfl⟩
    · rename_i hc
      rcases Nat.lt_or_ge (m + 1) n with h4 | h4
      · exact periodLoop_stops h fuel (m + 1) n h4 (by omega) ht
      · have : n = m + 1 := by omega
        subst this
        exact absurd ((sites_order_iff h (m + 1)).2 ht) hc

/-! ### the check -/

theorem check_iff (map : List Int) :
    (map.map siteOf).insertionSort (· ≤ ·) = siteOrder map.length ↔ IsSiteMap map.length map := by
  have hmap : map.map siteOf = (map.map target).map Int.ofNat := by
    rw [List.map_map]; exact List.map_congr_left fun j _ => siteOf_eq j
  have hord : siteOrder map.length = (List.range map.length).map Int.ofNat := rfl
  have hinj : Function.Injective Int.ofNat := fun a b he => by simpa using he
  constructor
  · intro he
    have hp : (map.map siteOf).Perm (siteOrder map.length) := he ▸ (List.perm_insertionSort _ _).symm
    rw [hmap, hord, List.map_perm_map_iff hinj] at hp
    have hnd : (map.map target).Nodup := hp.nodup_iff.2 List.nodup_range
    refine ⟨rfl, fun i hi => ?_, fun i hi j hj hij => ?_⟩
    · have : dest map i ∈ map.map target := by
        unfold dest
        rw [List.getD_eq_getElem _ _ hi]
        exact List.mem_map_of_mem (List.getElem_mem hi)
      simpa using hp.mem_iff.1 this
    · unfold dest at hij
      rw [List.getD_eq_getElem _ _ hi, List.getD_eq_getElem _ _ hj] at hij
      have := (List.nodup_iff_injective_getElem.1 hnd) (a₁ := ⟨i, by simpa using hi⟩) (a₂ := ⟨j, by simpa using hj⟩)
        (by simpa using hij)
      simpa using this
  · intro h
    have hp : (map.map target).Perm (List.range map.length) := by
      refine ((targets_nodup h).subperm ?_).perm_of_length_le (by simp)
      intro x hx
      rw [List.mem_map] at hx
      obtain ⟨j, hj, rfl⟩ := hx
      simpa using targets_lt h j hj
    have hp2 : (map.map siteOf).Perm (siteOrder map.length) := by rw [hmap, hord]; exact hp.map _
    refine List.Perm.eq_of_pairwise' (r := (· ≤ ·)) ?_ ?_ ((List.perm_insertionSort _ _).trans hp2)
    · exact List.pairwise_insertionSort _ _
    · rw [hord, List.pairwise_map]
      exact List.pairwise_le_range.imp fun h => by simpa using h

/-! ### commuting maps -/

/-- `p` after `q` moves and inverts every site as `q` after `p` -/
def SitesCommute (N : Nat) (p q : List Int) : Prop :=
  ∀ i < N, dest p (dest q i) = dest q (dest p i) ∧
    xor (inverts q i) (inverts p (dest q i)) = xor (inverts p i) (inverts q (dest p i))

theorem mapsCommute_iff (hb : 1 < b) {p q : List Int} (hp : IsSiteMap N p) (hq : IsSiteMap N q) :
    MapsCommute b N p q ↔ SitesCommute N p q := by
  have hb0 : 0 < b := by omega
  have twice : ∀ {p q : List Int} (_ : IsSiteMap N p) (_ : IsSiteMap N q) {s t u : Nat}, IsImage b N p s t →
      IsImage b N q t u → ∀ i < N, occ b N u (dest q (dest p i)) =
        flipIf b (xor (inverts p i) (inverts q (dest p i))) (occ b N s i) := by
    intro p q hp hq s t u h1 h2 i hi
    rw [h2.occ _ (hp.range i hi), h1.occ i hi, flipIf_flipIf b _ _ _ (occ_lt b N s i hb0)]
  constructor
  · intro hc i hi
    have key : ∀ s < b ^ N, ∃ u, u < b ^ N ∧
        (∀ i < N, occ b N u (dest q (dest p i)) = flipIf b (xor (inverts p i) (inverts q (dest p i))) (occ b N s i)) ∧
        (∀ i < N, occ b N u (dest p (dest q i)) = flipIf b (xor (inverts q i) (inverts p (dest q i))) (occ b N s i)) := by
      intro s hs
      obtain ⟨t, ht⟩ := image_exists hb0 hp s
      obtain ⟨u, hu⟩ := image_exists hb0 hq t
      obtain ⟨t', ht'⟩ := image_exists hb0 hq s
      obtain ⟨u', hu'⟩ := image_exists hb0 hp t'
      have he := hc s t u t' u' hs ht hu ht' hu'
      subst he
      exact ⟨u, hu.lt, twice hp hq ht hu, twice hq hp ht' hu'⟩
    let f : Nat → Nat := fun j => if j = i then 1 else 0
    have hf : ∀ j < N, f j < b := by intro j _; simp only [f]; split <;> omega
    -- the two targets agree: otherwise compare the configurations 0 and 1_i
    have e0 : ∀ j, occ b N 0 j = 0 := by intro j; simp [occ, digit]
    obtain ⟨u0, _, a0, c0⟩ := key 0 (Nat.pow_pos hb0)
    obtain ⟨u1, _, a1, c1⟩ := key _ (fromOcc_lt b N f hf)
    have hdest : dest p (dest q i) = dest q (dest p i) := by
      obtain ⟨m, hm, hme⟩ := dest_surj hq (dest p (dest q i)) (hp.range _ (hq.range i hi))
      obtain ⟨k, hk, rfl⟩ := dest_surj hp m hm
      have h0 := a0 k hk
      have h1 := a1 k hk
      rw [hme, c0 i hi, e0, e0] at h0
      rw [hme, c1 i hi, occ_fromOcc b N f hf i hi, occ_fromOcc b N f hf k hk] at h1
      by_cases hki : k = i
      · rw [← hme, hki]
      · exfalso
        simp only [f, if_neg hki, if_true] at h1
        rw [← h0] at h1
        unfold flipIf at h1
        split at h1 <;> omega
    refine ⟨hdest, ?_⟩
    have h0 := c0 i hi
    rw [hdest, a0 i hi, e0] at h0
    unfold flipIf at h0
    generalize xor (inverts q i) (inverts p (dest q i)) = x at h0 ⊢
    generalize xor (inverts p i) (inverts q (dest p i)) = y at h0 ⊢
    cases x <;> cases y <;> simp at h0 ⊢ <;> omega
  · intro hs s t u t' u' hlt h1 h2 h3 h4
    refine occ_ext b N u u' h2.lt h4.lt fun j hj => ?_
    obtain ⟨m, hm, rfl⟩ := dest_surj hq j hj
    obtain ⟨i, hi, rfl⟩ := dest_surj hp m hm
    rw [twice hp hq h1 h2 i hi, ← (hs i hi).1, twice hq hp h3 h4 i hi, (hs i hi).2]

theorem warns_iff {p q : List Int} (hp : IsSiteMap N p) (hq : IsSiteMap N q) :
    warnsNonCommuting p q = false ↔
      ∀ k < N, dest p (dest q k) = dest q (dest p k) ∧
        xor (inverts q (dest q k)) (inverts p (dest p (dest q k))) =
          xor (inverts p (dest p k)) (inverts q (dest q (dest p k))) := by
  have one : ∀ {p : List Int} (_ : IsSiteMap N p), ∀ k < N,
      (mapStep p (siteOrder N)).getD k 0 = enc (dest p k) (inverts p (dest p k)) := by
    intro p hp k hk
    have := (sites_iterate hp 1).2 k hk
    rw [Function.iterate_one, Function.iterate_one] at this
    rw [this]
    simp [par]
  have two : ∀ {p q : List Int} (_ : IsSiteMap N p) (_ : IsSiteMap N q), ∀ k < N,
      (mapStep q (mapStep p (siteOrder N))).getD k 0 =
        enc (dest p (dest q k)) (xor (inverts q (dest q k)) (inverts p (dest p (dest q k)))) := by
    intro p q hp hq k hk
    rw [mapStep_getD hq _ (by rw [mapStep_length, hp.length]) k hk, one hp _ (hq.range k hk), flip_enc]
  have enc_eq : ∀ d c d' c', enc d c = enc d' c' ↔ d = d' ∧ c = c' := by
    intro d c d' c'; unfold enc; cases c <;> cases c' <;> simp <;> omega
  unfold warnsNonCommuting
  rw [decide_eq_false_iff_not, not_not, hp.length, hq.length]
  constructor
  · intro he k hk
    have := two hp hq k hk
    rw [he, two hq hp k hk, enc_eq] at this
    exact ⟨this.1.symm, this.2.symm⟩
  · intro h
    refine list_ext _ _ (by rw [mapStep_length, hq.length]) (by rw [mapStep_length, hp.length]) fun k hk => ?_
    rw [two hp hq k hk, two hq hp k hk, enc_eq]
    exact h k hk

end Proof.Period
