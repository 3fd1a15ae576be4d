import Verif.Lemmas.SubOrbit
import Verif.Props.OrbitGen

/-!
# C73: sub-orbits, their site mappings, and factors of correlation functions

Model: `Verif/Model/SubOrbit.lean` (smol/cofe/space/orbit.py:354-436,
smol/cofe/space/clusterspace.py:1101-1170).
-/

set_option linter.unusedSectionVars false

namespace Smol
open Spec

variable {d : ℕ} {K : Type*} [Field K] [LinearOrder K] [IsStrictOrderedRing K] [FloorRing K]
variable {lattice : Fin d → Fin d → K} {ops : List (SymmOp d K)} {sites : List ((Fin d → K) × ℕ)}

/-- **C73.** `is_sub_orbit` answers whether the clusters of the other orbit occur within those of this
one, with fewer sites. -/
theorem C73_is_sub_orbit (G : SpaceGroup ops) {base sub : List (Fin d → K)} (hsne : sub ≠ [])
    (hsnd : sub.Nodup) :
    ∃ b, isSubOrbit ops base sub = .ok b ∧ (b = true ↔ IsSubCluster ops base sub) :=
  isSubOrbit_iff G hsne hsnd

theorem IsSubCluster.congr (G : SpaceGroup ops) {base base' sub sub' : List (Fin d → K)}
    (hb : SymEquiv ops base' base) (hs : SymEquiv ops sub' sub)
    (h : IsSubCluster ops base sub) : IsSubCluster ops base' sub' := by
  obtain ⟨hl, b, hbs, hbe⟩ := h
  refine ⟨by rw [hs.length, hb.length]; exact hl, ?_⟩
  obtain ⟨g, hg, T, hT⟩ := hb
  rw [List.map_map] at hT
  have hop : IsOp ops (shift T ∘ g.operate) := ⟨g, hg, T, fun _ => rfl⟩
  refine ⟨b.map (shift T ∘ g.operate), ?_, ?_⟩
  · obtain ⟨b', hb', hsl⟩ := hbs
    exact (hT.subperm_left).2 ⟨b'.map (shift T ∘ g.operate), hb'.map _, hsl.map _⟩
  · refine SymEquiv.trans G (b := b) ⟨g, hg, T, ?_⟩
      (SymEquiv.trans G hbe (SymEquiv.symm G hs))
    rw [List.map_map]

/-- **C73.** The answer does not depend on the clusters that represent the two orbits. -/
theorem C73_class (G : SpaceGroup ops) {base base' sub sub' : List (Fin d → K)} (hsne : sub ≠ [])
    (hsnd : sub.Nodup) (hb : SymEquiv ops base' base) (hs : SymEquiv ops sub' sub) :
    isSubOrbit ops base' sub' = isSubOrbit ops base sub := by
  have hsnd' := SymEquiv.nodup G hs hsnd
  have hsne' : sub' ≠ [] := by
    intro h0
    have := hs.length
    rw [h0] at this
    exact hsne (List.length_eq_zero_iff.1 this.symm)
  obtain ⟨x, hx, hx'⟩ := isSubOrbit_iff G (base := base) hsne hsnd
  obtain ⟨y, hy, hy'⟩ := isSubOrbit_iff G (base := base') hsne' hsnd'
  rw [hx, hy]
  congr 1
  rw [Bool.eq_iff_iff, hx', hy']
  exact ⟨IsSubCluster.congr G (SymEquiv.symm G hb) (SymEquiv.symm G hs),
    IsSubCluster.congr G hb hs⟩

/-- **C73.** A sub-orbit of a sub-orbit is a sub-orbit, and no orbit is one of its own. -/
theorem C73_order (G : SpaceGroup ops) {a b c : List (Fin d → K)} (hb : b ≠ []) (hbn : b.Nodup)
    (hc : c ≠ []) (hcn : c.Nodup) :
    (isSubOrbit ops a b = .ok true → isSubOrbit ops b c = .ok true →
      isSubOrbit ops a c = .ok true) ∧
    isSubOrbit ops b b = .ok false := by
  constructor
  · intro h1 h2
    obtain ⟨x, hx, hx'⟩ := isSubOrbit_iff G (base := a) hb hbn
    obtain ⟨y, hy, hy'⟩ := isSubOrbit_iff G (base := b) hc hcn
    obtain ⟨z, hz, hz'⟩ := isSubOrbit_iff G (base := a) hc hcn
    rw [h1, Except.ok.injEq] at hx
    rw [h2, Except.ok.injEq] at hy
    have h3 := hx'.1 hx.symm
    have h4 := hy'.1 hy.symm
    rw [hz, Except.ok.injEq, hz']
    obtain ⟨hl, e, he, heb⟩ := h3
    obtain ⟨hl', f, hf, hfc⟩ := IsSubCluster.congr G heb (SymEquiv.refl G c) h4
    exact ⟨by have := heb.length; omega, f, hf.trans he, hfc⟩
  · unfold isSubOrbit
    rw [if_pos (le_refl _)]

/-- **C73.** `sub_orbit_mappings` does not raise; each mapping it returns gives sites that are, in
order, the sites of the sub-orbit moved by an operation; and each way in which the sub-orbit occurs
differs from a returned mapping only by a permutation of the cluster's sites. -/
theorem C73_mappings (X : Crystal lattice ops sites) {spaceEq : ℕ → ℕ → Bool}
    (hrefl : ∀ n, spaceEq n n = true) {base sub : List (Fin d → K)} {spaces subSpaces : List ℕ}
    (hne : base ≠ []) (hnd : base.Nodup) (hsne : sub ≠ []) (hsnd : sub.Nodup)
    (hb : List.Forall₂ (IsSite sites) base spaces)
    (hs : List.Forall₂ (IsSite sites) sub subSpaces) :
    ∃ r, subOrbitMappings spaceEq ops base spaces sub subSpaces = .ok r ∧ r.Nodup ∧
      (∀ m ∈ r, m.Nodup ∧ Occurs ops base sub m) ∧
      ∀ m, Occurs ops base sub m → ∃ q ∈ clusterPermutations ops base,
        ∃ m' ∈ r, List.Forall₂ (fun j k => q[j]? = some k) m m' := by
  have PG := clusterPermutations_group X.group hne hnd
  obtain ⟨r, h1, h2, h3⟩ := subOrbitMappings_spec X hrefl hne hnd hsne hsnd hb hs
  refine ⟨r, h1, ?_, fun m hm => ⟨?_, h2 m hm⟩, ?_⟩
  · unfold subOrbitMappings at h1
    split at h1
    · exact absurd h1 (by simp)
    · exact absurd h1 (by simp)
    · exact absurd h1 (by simp)
    · simp only at h1
      split at h1
      · exact absurd h1 (by simp)
      · rw [Except.ok.injEq] at h1
        rw [← h1]
        exact nodup_uniqueRows _
  · obtain ⟨g, hg, T, h⟩ := h2 m hm
    rw [List.nodup_iff_injective_get]
    intro i j hij
    have hl := h.length_eq
    have hi := (List.forall₂_iff_get.1 h).2 i i.2 (hl ▸ i.2)
    have hj := (List.forall₂_iff_get.1 h).2 j j.2 (hl ▸ j.2)
    have hij' : m.get ⟨i, i.2⟩ = m.get ⟨j, j.2⟩ := hij
    rw [hij', hj, Option.some.injEq] at hi
    have := shift_comp_inj X.group hg T _ _ hi
    rw [List.get_eq_getElem, List.get_eq_getElem, hsnd.getElem_inj_iff] at this
    exact Fin.ext this.symm
  · intro m hm
    obtain ⟨q, hq, hr⟩ := h3 m hm
    refine ⟨q, hq, _, hr, ?_⟩
    rw [forall₂_permute]
    intro j hj
    rw [PG.length hq]
    exact hm.lt j hj

/-- **C73.** There are mappings exactly if the orbit is a sub-orbit. -/
theorem C73_mappings_nonempty (X : Crystal lattice ops sites) {spaceEq : ℕ → ℕ → Bool}
    (hrefl : ∀ n, spaceEq n n = true) {base sub : List (Fin d → K)} {spaces subSpaces : List ℕ}
    (hne : base ≠ []) (hnd : base.Nodup) (hsne : sub ≠ []) (hsnd : sub.Nodup)
    (hb : List.Forall₂ (IsSite sites) base spaces)
    (hs : List.Forall₂ (IsSite sites) sub subSpaces) (hlt : sub.length < base.length) :
    ∃ r, subOrbitMappings spaceEq ops base spaces sub subSpaces = .ok r ∧
      isSubOrbit ops base sub = .ok (!r.isEmpty) := by
  obtain ⟨r, h1, h2, h3⟩ := subOrbitMappings_spec X hrefl hne hnd hsne hsnd hb hs
  obtain ⟨x, hx, hx'⟩ := isSubOrbit_iff X.group (base := base) hsne hsnd
  refine ⟨r, h1, ?_⟩
  rw [hx, Except.ok.injEq, Bool.eq_iff_iff, hx', isSubCluster_iff X.group hsnd]
  constructor
  · rintro ⟨-, m, hm⟩
    obtain ⟨q, -, hq⟩ := h3 m hm
    cases r with
    | nil => simp at hq
    | cons a l => rfl
  · intro h
    cases r with
    | nil => simp at h
    | cons a l => exact ⟨hlt, a, h2 a List.mem_cons_self⟩

/-- An orbit of the crystal: different sites, their spaces, and as many lists of function indices. -/
structure SpaceOrbit.Good (sites : List ((Fin d → K) × ℕ)) (o : SpaceOrbit d K) : Prop where
  ne : o.coords ≠ []
  nodup : o.coords.Nodup
  site : List.Forall₂ (IsSite sites) o.coords o.spaces
  bits : o.bits.length = o.coords.length

/-- **C73.** Whether a function is a factor does not depend on the members chosen in the two
classes. -/
theorem C73_factor_class (G : SpaceGroup ops) {o s : SpaceOrbit d K} (ho : o.Good sites)
    (hs : s.Good sites) {cl cl' : List (List ℕ)} (hcl : cl ∈ o.combos ops)
    (hcl' : cl' ∈ s.combos ops) {a a' b b' : List ℕ} (ha : a ∈ cl) (ha' : a' ∈ cl) (hb : b ∈ cl')
    (hb' : b' ∈ cl') (h : IsFactor ops o.coords s.coords a b) :
    IsFactor ops o.coords s.coords a' b' := by
  have PG := clusterPermutations_group G ho.ne ho.nodup
  have PS := clusterPermutations_group G hs.ne hs.nodup
  obtain ⟨c0, -, rfl⟩ := (bitCombos_inv (bits := o.bits) (by rw [ho.bits]; exact PG)).cls cl hcl
  obtain ⟨c1, -, rfl⟩ := (bitCombos_inv (bits := s.bits) (by rw [hs.bits]; exact PS)).cls cl' hcl'
  have hal' : a'.length = o.coords.length := by
    obtain ⟨p, hp, rfl⟩ := (mem_classOf _ _ _).1 ha'
    rw [permute, List.length_map, PG.length hp]
  obtain ⟨p, hp, rfl⟩ := (mem_classOf_of_mem PG ha' a).1 ha
  obtain ⟨q, hq, rfl⟩ := (mem_classOf_of_mem PS hb b').1 hb'
  obtain ⟨m, hm, hf⟩ := h
  have hm1 := Occurs.left G ho.ne ho.nodup hm hp
  have hm2 := Occurs.right G hs.ne hs.nodup hm1 hq
  rw [forall₂_permute fun j hj => by
    rw [permute, List.length_map, PG.length hp]; exact hm.lt j hj] at hf
  refine ⟨_, hm2, (forall₂_permute fun j hj => by rw [hal']; exact hm2.lt j hj).2 ?_⟩
  rw [← permute_permute a' _ q fun j hj => by rw [hm1.length]; exact PS.lt hq j hj,
    ← permute_permute a' p m fun j hj => by rw [PG.length hp]; exact hm.lt j hj, hf]

theorem subOrbitsOf_spec (G : SpaceGroup ops) (o : SpaceOrbit d K) (orbits : List (SpaceOrbit d K))
    (h : ∀ s ∈ orbits, s.Good sites) :
    ∃ subs, subOrbitsOf ops o orbits = .ok subs ∧
      ∀ s, s ∈ subs ↔ s ∈ orbits ∧ IsSubCluster ops o.coords s.coords := by
  unfold subOrbitsOf
  have key : ∀ (l acc : List (SpaceOrbit d K)), (∀ s ∈ l, s.Good sites) → ∃ subs,
      l.foldlM (fun acc s =>
        match isSubOrbit ops o.coords s.coords with
        | .error e => .error e
        | .ok b => .ok (if b then acc ++ [s] else acc)) acc = (.ok subs : Except OrbitError _) ∧
      ∀ s, s ∈ subs ↔ s ∈ acc ∨ (s ∈ l ∧ IsSubCluster ops o.coords s.coords) := by
    intro l
    induction l with
    | nil => intro acc _; exact ⟨acc, rfl, by simp⟩
    | cons t l ih =>
      intro acc hl
      have ht := hl t List.mem_cons_self
      obtain ⟨b, hb, hb'⟩ := isSubOrbit_iff G (base := o.coords) ht.ne ht.nodup
      obtain ⟨subs, h1, h2⟩ := ih (if b then acc ++ [t] else acc)
        (fun s hs => hl s (List.mem_cons_of_mem _ hs))
      refine ⟨subs, ?_, ?_⟩
      · rw [List.foldlM_cons]
        simp only [hb]
        exact h1
      · intro s
        rw [h2 s]
        cases b with
        | true =>
          have := hb'.1 rfl
          simp only [if_true, List.mem_append, List.mem_cons, List.not_mem_nil, or_false]
          constructor
          · rintro ((h | rfl) | h)
            · exact Or.inl h
            · exact Or.inr ⟨Or.inl rfl, this⟩
            · exact Or.inr ⟨Or.inr h.1, h.2⟩
          · rintro (h | ⟨rfl | h, h'⟩)
            · exact Or.inl (Or.inl h)
            · exact Or.inl (Or.inr rfl)
            · exact Or.inr ⟨h, h'⟩
        | false =>
          have hn : ¬ IsSubCluster ops o.coords t.coords := fun h => by simpa using hb'.2 h
          simp only [Bool.false_eq_true, if_false, List.mem_cons]
          constructor
          · rintro (h | h)
            · exact Or.inl h
            · exact Or.inr ⟨Or.inr h.1, h.2⟩
          · rintro (h | ⟨rfl | h, h'⟩)
            · exact Or.inl h
            · exact absurd h' hn
            · exact Or.inr ⟨h, h'⟩
  obtain ⟨subs, h1, h2⟩ := key orbits [] h
  exact ⟨subs, h1, fun s => by rw [h2 s]; simp⟩

/-- **C73.** `get_sub_function_ids` returns exactly the ids of the functions, of the orbits searched
with fewer sites, that are factors of the given function: some symmetry operation moves the
function-labelled sub-cluster into the function-labelled cluster. -/
theorem C73_sub_functions (X : Crystal lattice ops sites) {spaceEq : ℕ → ℕ → Bool}
    (hrefl : ∀ n, spaceEq n n = true) {o : SpaceOrbit d K} (ho : o.Good sites)
    {orbits : List (SpaceOrbit d K)} (hs : ∀ s ∈ orbits, s.Good sites) {cl : List (List ℕ)}
    (hcl : cl ∈ o.combos ops) {a : List ℕ} (ha : a ∈ cl) :
    ∃ ids, subFunctionIds spaceEq ops o cl orbits = .ok ids ∧
      ∀ id, id ∈ ids ↔ ∃ s ∈ orbits, s.coords.length < o.coords.length ∧
        ∃ i cl', (s.combos ops)[i]? = some cl' ∧ id = s.bitId + i ∧
          ∃ b ∈ cl', IsFactor ops o.coords s.coords a b := by
  have G := X.group
  obtain ⟨subs, hsubs, hmem⟩ := subOrbitsOf_spec (ops := ops) G o orbits hs
  unfold subFunctionIds
  rw [hsubs]
  simp only
  have key : ∀ (l : List (SpaceOrbit d K)) (acc : List ℕ), (∀ s ∈ l, s.Good sites) → ∃ ids,
      l.foldlM (fun acc s =>
        match subOrbitMappings spaceEq ops o.coords o.spaces s.coords s.spaces with
        | .error e => .error e
        | .ok inds =>
          .ok (acc ++ (subFunctions cl inds (s.combos ops)).map fun i => s.bitId + i)) acc =
        (.ok ids : Except OrbitError _) ∧
      ∀ id, id ∈ ids ↔ id ∈ acc ∨ ∃ s ∈ l, ∃ i cl', (s.combos ops)[i]? = some cl' ∧
        id = s.bitId + i ∧ ∀ b ∈ cl', IsFactor ops o.coords s.coords a b := by
    intro l
    induction l with
    | nil => intro acc _; exact ⟨acc, rfl, by simp⟩
    | cons t l ih =>
      intro acc hl
      have ht := hl t List.mem_cons_self
      obtain ⟨r, hr, r1, r2⟩ := subOrbitMappings_spec X hrefl ho.ne ho.nodup ht.ne ht.nodup ho.site
        ht.site
      have hf := fun i => subFunctions_factor G ho.ne ho.nodup ht.ne ht.nodup ho.bits ht.bits r1 r2
        hcl ha i
      obtain ⟨ids, h1, h2⟩ := ih (acc ++ (subFunctions cl r (t.combos ops)).map fun i => t.bitId + i)
        (fun s hs => hl s (List.mem_cons_of_mem _ hs))
      refine ⟨ids, ?_, ?_⟩
      · rw [List.foldlM_cons]
        simp only [hr]
        exact h1
      · intro id
        rw [h2 id, List.mem_append, List.mem_map]
        constructor
        · rintro ((h | ⟨i, hi, rfl⟩) | ⟨s, hs, h⟩)
          · exact Or.inl h
          · obtain ⟨cl', h3, h4⟩ := (hf i).1 hi
            exact Or.inr ⟨t, List.mem_cons_self, i, cl', h3, rfl, h4⟩
          · exact Or.inr ⟨s, List.mem_cons_of_mem _ hs, h⟩
        · rintro (h | ⟨s, hs, i, cl', h3, rfl, h4⟩)
          · exact Or.inl (Or.inl h)
          · rcases List.mem_cons.1 hs with rfl | hs
            · exact Or.inl (Or.inr ⟨i, (hf i).2 ⟨cl', h3, h4⟩, rfl⟩)
            · exact Or.inr ⟨s, hs, i, cl', h3, rfl, h4⟩
  obtain ⟨ids, h1, h2⟩ := key subs [] (fun s h => hs s ((hmem s).1 h).1)
  refine ⟨ids, h1, fun id => ?_⟩
  rw [h2 id]
  simp only [List.not_mem_nil, false_or]
  constructor
  · rintro ⟨s, hsm, i, cl', h3, rfl, h4⟩
    obtain ⟨h5, h6⟩ := (hmem s).1 hsm
    have PS := clusterPermutations_group G (hs s h5).ne (hs s h5).nodup
    obtain ⟨c1, hc1, hcl1⟩ := (bitCombos_inv (bits := s.bits) (by rw [(hs s h5).bits]; exact PS)).cls _
      (List.mem_of_getElem? h3)
    have hself := classOf_self PS c1 (by rw [hc1.length, (hs s h5).bits])
    rw [← hcl1] at hself
    exact ⟨s, h5, h6.1, i, cl', h3, rfl, c1, hself, h4 _ hself⟩
  · rintro ⟨s, hsm, hlt, i, cl', h3, rfl, b, hb, hf⟩
    have hg := hs s hsm
    refine ⟨s, (hmem s).2 ⟨hsm, (isSubCluster_iff G hg.nodup).2 ⟨hlt, ?_⟩⟩, i, cl', h3, rfl, ?_⟩
    · obtain ⟨m, hm, -⟩ := hf
      exact ⟨m, hm⟩
    · intro b' hb'
      exact C73_factor_class G ho hg hcl (List.mem_of_getElem? h3) ha ha hb hb' hf

/-! ### Witnesses -/

/-- three sites in a row of a cubic crystal -/
def rowTriplet : SpaceOrbit 3 ℚ :=
  ⟨[pos ![-1, 0, 0], pos ![0, 0, 0], pos ![1, 0, 0]], [1, 1, 1], [[0, 1], [0, 1], [0, 1]], 10⟩

/-- two neighbouring sites -/
def rowPair : SpaceOrbit 3 ℚ :=
  ⟨[pos ![0, 0, 0], pos ![1, 0, 0]], [1, 1], [[0, 1], [0, 1]], 5⟩

/-- **C73.** The mappings returned are not all: for neighbours in a row of three, those with the two
sites in the other order are left out.  (The permutation of the three sites that makes up for them is
applied to the functions.) -/
theorem C73_mappings_left_out :
    subOrbitMappings (· == ·) (intOps ℚ reversals) rowTriplet.coords rowTriplet.spaces
      rowPair.coords rowPair.spaces = .ok [[0, 1], [1, 2]] ∧
    Occurs (intOps ℚ reversals) rowTriplet.coords rowPair.coords [1, 0] := by
  refine ⟨by decide +kernel, ?_⟩
  refine ⟨⟨fun i j => if i = j then (if i = 0 then -1 else 1) else 0, fun _ => 0⟩,
    by decide +kernel, ![1, 0, 0], ?_⟩
  exact .cons (by decide +kernel) (.cons (by decide +kernel) .nil)

theorem rowTriplet_good : rowTriplet.Good midSite := by
  refine ⟨by simp [rowTriplet], by decide +kernel, ?_, rfl⟩
  refine .cons ?_ (.cons ?_ (.cons ?_ .nil)) <;> exact isSite_mid.2 ⟨rfl, _, rfl⟩

theorem rowPair_good : rowPair.Good midSite := by
  refine ⟨by simp [rowPair], by decide +kernel, ?_, rfl⟩
  refine .cons ?_ (.cons ?_ .nil) <;> exact isSite_mid.2 ⟨rfl, _, rfl⟩

/-- The hypotheses are met by neighbours in a row of three, with two functions on each site. -/
example : Crystal cubic (intOps ℚ reversals) midSite ∧ rowTriplet.Good midSite ∧
    rowPair.Good midSite ∧ (∀ n : ℕ, (n == n) = true) ∧
    isSubOrbit (intOps ℚ reversals) rowTriplet.coords rowPair.coords = .ok true :=
  ⟨cubic_crystal, rowTriplet_good, rowPair_good, by simp, by decide +kernel⟩

/-- The function with index 1 on an end of the row and 0 elsewhere has two of the three functions of
the pair as factors; the product of functions with index 1 has one. -/
example : rowTriplet.combos (intOps ℚ reversals) = [[[0, 0, 0]], [[0, 0, 1], [1, 0, 0]], [[0, 1, 0]],
      [[0, 1, 1], [1, 1, 0]], [[1, 0, 1]], [[1, 1, 1]]] ∧
    rowPair.combos (intOps ℚ reversals) = [[[0, 0]], [[0, 1], [1, 0]], [[1, 1]]] ∧
    subFunctionIds (· == ·) (intOps ℚ reversals) rowTriplet [[0, 0, 1], [1, 0, 0]] [rowPair] =
      .ok [5, 6] ∧
    subFunctionIds (· == ·) (intOps ℚ reversals) rowTriplet [[1, 1, 1]] [rowPair] = .ok [7] := by
  decide +kernel

end Smol
