import Verif.Proof.Period
import Verif.Props.C06
import Verif.Props.C07
/-!
C36  The period attached to a user map is its order.
C46  The warning about non-commuting maps.

`Model.processMap fuel map` is the library's treatment of a user map: `some (.ok p)`, accepted with
period `p`; `some (.error _)`, refused; `none`, the loop has not stopped after `fuel` rounds.
`Spec.IsImage b N map s t`: `t` is the image of configuration `s`.
-/
namespace Props
open Spec Model Proof.Maps Proof.Period

/-- A map is refused exactly when it is not one-to-one on its sites. -/
theorem C36_refused_iff (fuel : Nat) (map : List Int) :
    processMap fuel map = some (.error .valueError) ↔ ¬ IsSiteMap map.length map := by
  unfold processMap
  constructor
  · intro h hm
    rw [if_neg (by rw [not_not]; exact (check_iff map).2 hm)] at h
    cases hp : periodLoop map fuel (siteOrder map.length) 0 <;> simp [hp] at h
  · intro h
    rw [if_pos (fun he => h ((check_iff map).1 he))]

/-- The loop that determines the period stops for every map that is one-to-one. -/
theorem C36_terminates (map : List Int) (h : IsSiteMap map.length map) :
    ∃ bound p, ∀ fuel, bound ≤ fuel → processMap fuel map = some (.ok p) := by
  obtain ⟨n, hn, ht⟩ := exists_trivial h
  have hstop : ∀ fuel, n ≤ fuel → ∃ p, periodLoop map fuel (siteOrder map.length) 0 = some p := by
    intro fuel hf
    exact periodLoop_stops h fuel 0 n hn (by omega) ht
  obtain ⟨p, hp⟩ := hstop n (Nat.le_refl _)
  refine ⟨n, p, fun fuel hf => ?_⟩
  obtain ⟨p', hp'⟩ := hstop fuel hf
  obtain ⟨a1, a2, a3⟩ := periodLoop_some h n 0 p hp
  obtain ⟨c1, c2, c3⟩ := periodLoop_some h fuel 0 p' hp'
  have : p' = p := by
    rcases Nat.lt_trichotomy p p' with h1 | h1 | h1
    · exact absurd a2 (c3 p a1 h1)
    · exact h1.symm
    · exact absurd c2 (a3 p' c1 h1)
  unfold processMap
  rw [if_neg (by rw [not_not]; exact (check_iff map).2 h), hp', this]
  rfl

/-- The period is the order of the map: the least positive number of applications after which every
configuration is back, for any number `b ≥ 2` of levels per site.  `T` is any function that computes
images. -/
theorem C36_period_is_order (fuel : Nat) (map : List Int) (p b : Nat) (hb : 1 < b)
    (hp : processMap fuel map = some (.ok p)) (T : Nat → Nat)
    (hT : ∀ s < b ^ map.length, IsImage b map.length map s (T s)) :
    0 < p ∧ (∀ s < b ^ map.length, T^[p] s = s) ∧
      ∀ n, 0 < n → n < p → ∃ s < b ^ map.length, T^[n] s ≠ s := by
  have h : IsSiteMap map.length map := by
    by_contra hc
    rw [(C36_refused_iff fuel map).2 hc] at hp
    simp at hp
  unfold processMap at hp
  rw [if_neg (by rw [not_not]; exact (check_iff map).2 h)] at hp
  cases hl : periodLoop map fuel (siteOrder map.length) 0 with
  | none => simp [hl] at hp
  | some p' =>
    simp [hl] at hp
    subst hp
    obtain ⟨a1, a2, a3⟩ := periodLoop_some h fuel 0 p' hl
    refine ⟨a1, (iterate_id_iff hb T hT h p').2 a2, fun n h1 h2 => ?_⟩
    by_contra hc
    push Not at hc
    exact a3 n h1 h2 ((iterate_id_iff hb T hT h n).1 hc)

example : processMap 10 [1, 2, -1] = some (.ok 6) := by decide
example : processMap 10 [1, 1, 0] = some (.error .valueError) := by decide

/-- The symmetry the library makes of an accepted map: image function, no sign, period, quantum number. -/
def mapGenerator (T : Nat → Nat) (p : Nat) (q : Int) : Generator := { img := T, sgn := fun _ => 1, per := p, q := q }

/-- Accepted maps that commute pairwise act as symmetries on the configurations in the sense of C07, C08, C09,
C13 and C42.  Each item is (map, image function, period, quantum number). -/
theorem C36_user_maps_act (b N : Nat) (hb : 1 < b) (items : List (List Int × (Nat → Nat) × Nat × Int))
    (hlen : ∀ x ∈ items, x.1.length = N)
    (hper : ∀ x ∈ items, ∃ fuel, processMap fuel x.1 = some (.ok x.2.2.1))
    (hT : ∀ x ∈ items, ∀ s < b ^ N, IsImage b N x.1 s (x.2.1 s))
    (hcomm : ∀ x ∈ items, ∀ y ∈ items, MapsCommute b N x.1 y.1) :
    Acts (· < b ^ N) (items.map fun x => mapGenerator x.2.1 x.2.2.1 x.2.2.2) := by
  have hU : ∀ (T : Nat → Nat) p q n s, (mapGenerator T p q).U^[n] (s, 1) = (T^[n] s, 1) := by
    intro T p q n
    induction n with
    | zero => intro s; rfl
    | succ n ih => intro s; rw [Function.iterate_succ_apply, Function.iterate_succ_apply, ← ih]; rfl
  constructor
  · intro y hy
    rw [List.mem_map] at hy
    obtain ⟨x, hx, rfl⟩ := hy
    obtain ⟨fuel, hp⟩ := hper x hx
    have hl := hlen x hx
    exact (C36_period_is_order fuel x.1 x.2.2.1 b hb hp x.2.1 (by rw [hl]; exact hT x hx)).1
  · intro y hy t ht
    rw [List.mem_map] at hy
    obtain ⟨x, hx, rfl⟩ := hy
    exact (hT x hx t ht).lt
  · intro y hy t ht
    rw [List.mem_map] at hy
    obtain ⟨x, hx, rfl⟩ := hy
    exact Or.inl rfl
  · intro y hy t ht
    rw [List.mem_map] at hy
    obtain ⟨x, hx, rfl⟩ := hy
    obtain ⟨fuel, hp⟩ := hper x hx
    have hl := hlen x hx
    have := (C36_period_is_order fuel x.1 x.2.2.1 b hb hp x.2.1 (by rw [hl]; exact hT x hx)).2.1
    rw [hl] at this
    rw [hU]
    show (x.2.1^[x.2.2.1] t, 1) = (t, 1)
    rw [this t ht]
  · intro y hy z hz t ht
    rw [List.mem_map] at hy hz
    obtain ⟨x, hx, rfl⟩ := hy
    obtain ⟨x', hx', rfl⟩ := hz
    have hc := hcomm x' hx' x hx t (x'.2.1 t) (x.2.1 (x'.2.1 t)) (x.2.1 t) (x'.2.1 (x.2.1 t)) ht
      (hT x' hx' t ht) (hT x hx _ (hT x' hx' t ht).lt) (hT x hx t ht) (hT x' hx' _ (hT x hx t ht).lt)
    show (x.2.1 (x'.2.1 t), _) = (x'.2.1 (x.2.1 t), _)
    rw [hc]
    rfl

/-- Two commuting maps of a three-site, three-level chain: the cyclic shift and the inversion of all
sites.  They meet the hypotheses of `C36_user_maps_act`. -/
example : Acts (· < 3 ^ 3) [mapGenerator (bosonMapBits 32 3 3 [1, 2, 0]) 3 1,
    mapGenerator (bosonMapBits 32 3 3 [-1, -2, -3]) 2 0] := by
  have h1 : IsSiteMap 3 [1, 2, 0] := ⟨rfl, by decide, by decide⟩
  have h2 : IsSiteMap 3 [-1, -2, -3] := ⟨rfl, by decide, by decide⟩
  refine C36_user_maps_act 3 3 (by decide) [([1, 2, 0], bosonMapBits 32 3 3 [1, 2, 0], 3, 1),
    ([-1, -2, -3], bosonMapBits 32 3 3 [-1, -2, -3], 2, 0)] (by simp) ?_ ?_ ?_
  · simp only [List.mem_cons, List.not_mem_nil, or_false]
    rintro x (rfl | rfl) <;> exact ⟨10, by decide⟩
  · simp only [List.mem_cons, List.not_mem_nil, or_false]
    rintro x (rfl | rfl) s _
    · exact C06_image 32 3 3 (by decide) (by decide) _ h1 s
    · exact C06_image 32 3 3 (by decide) (by decide) _ h2 s
  · simp only [List.mem_cons, List.not_mem_nil, or_false]
    rintro x (rfl | rfl) y (rfl | rfl)
    · exact (mapsCommute_iff (by decide) h1 h1).2 (by unfold SitesCommute; decide)
    · exact (mapsCommute_iff (by decide) h1 h2).2 (by unfold SitesCommute; decide)
    · exact (mapsCommute_iff (by decide) h2 h1).2 (by unfold SitesCommute; decide)
    · exact (mapsCommute_iff (by decide) h2 h2).2 (by unfold SitesCommute; decide)

/-! ### C46 -/

/-- Full property: the warning is issued exactly when the maps do not commute.  Proved for maps each of
which inverts either every site or no site.  `C46_silent_for_noncommuting` and
`C46_warns_for_commuting` show that the condition is needed.
Missing: maps that invert some of the sites, where it is false in both directions. -/
theorem C46_warning_partial (b N : Nat) (hb : 1 < b) (p q : List Int) (hp : IsSiteMap N p) (hq : IsSiteMap N q)
    (up : ∀ i < N, ∀ j < N, inverts p i = inverts p j) (uq : ∀ i < N, ∀ j < N, inverts q i = inverts q j) :
    warnsNonCommuting p q = true ↔ ¬ MapsCommute b N p q := by
  rw [mapsCommute_iff hb hp hq, ← not_iff_not, not_not, Bool.not_eq_true, warns_iff hp hq]
  constructor
  · intro h i hi
    refine ⟨(h i hi).1, ?_⟩
    rw [up (dest q i) (hq.range i hi) i hi, uq (dest p i) (hp.range i hi) i hi, Bool.xor_comm]
  · intro h i hi
    refine ⟨(h i hi).1, ?_⟩
    rw [up (dest p (dest q i)) (hp.range _ (hq.range i hi)) i hi, uq (dest q i) (hq.range i hi) i hi,
      up (dest p i) (hp.range i hi) i hi, uq (dest q (dest p i)) (hq.range _ (hp.range i hi)) i hi, Bool.xor_comm]

/-- Two maps of three sites that do not commute and for which no warning is issued. -/
theorem C46_silent_for_noncommuting :
    warnsNonCommuting [-2, 2, 0] [2, 0, -2] = false ∧ ¬ MapsCommute 2 3 [-2, 2, 0] [2, 0, -2] := by
  refine ⟨by decide, ?_⟩
  rw [mapsCommute_iff (N := 3) (p := [-2, 2, 0]) (q := [2, 0, -2]) (by decide) ⟨rfl, by decide, by decide⟩ ⟨rfl, by decide, by decide⟩]
  unfold SitesCommute
  decide

/-- A map of three sites and its inverse map, which commute, and for which the warning is issued. -/
theorem C46_warns_for_commuting :
    warnsNonCommuting [-2, 2, 0] [2, -1, 1] = true ∧ MapsCommute 2 3 [-2, 2, 0] [2, -1, 1] := by
  refine ⟨by decide, ?_⟩
  rw [mapsCommute_iff (N := 3) (p := [-2, 2, 0]) (q := [2, -1, 1]) (by decide) ⟨rfl, by decide, by decide⟩ ⟨rfl, by decide, by decide⟩]
  unfold SitesCommute
  decide

/-- shift and reflection of three sites: uniform, not commuting -/
example : warnsNonCommuting [1, 2, 0] [2, 1, 0] = true := by decide

end Props
