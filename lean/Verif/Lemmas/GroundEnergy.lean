import Verif.Lemmas.GroundPick
import Verif.Props.Energy

namespace Smol
open Spec

variable {K : Type*} [Field K]

theorem slot_lt {S : OrbitSpace} (hS : S.Ok) {o : Orb} (ho : o ∈ S.orbits) {k : ℕ}
    (hk : k < o.combos.length) : o.bitId + k < S.numCorr := by
  obtain ⟨j, hj, rfl⟩ := List.getElem_of_mem ho
  have := get_funsOf _ _ _ (List.getElem?_eq_getElem hj) k _ (List.getElem?_eq_getElem hk)
  have := (List.getElem?_eq_some_iff.1 this).1
  rw [length_funsOf] at this
  rw [(hS.get j _ (List.getElem?_eq_getElem hj)).2, hS.numCorr]
  omega

/-- The clusters of the orbits lie on sites with marks. -/
def RowsPicked (S : OrbitSpace) (geom : ℕ → OrbitGeom K) (v : ℕ → ℤ) (marks : List (List ℤ))
    (occ : Occ) : Prop :=
  ∀ o ∈ S.orbits, ∀ row ∈ (geom o.tag).rows, ∀ s ∈ row, Picks v (marks.getD s []) (occ s)

theorem ceTerms_value {S : OrbitSpace} (hS : S.Ok) {geom : ℕ → OrbitGeom K}
    (hg : S.FitsGeom geom) (size : ℕ) (coefs : List K) (hl : coefs.length = S.numCorr)
    {v : ℕ → ℤ} {marks : List (List ℤ)} {occ : Occ} (hp : RowsPicked S geom v marks occ)
    (hocc : S.Legal geom occ) :
    termsValue (ceTerms S geom size coefs marks) v =
      expansionEnergy size (coefs.getD 0 0) ((⟨S, 0, coefs⟩ : Expansion K).terms geom) occ := by
  have h0 : 0 < S.numCorr := by rw [hS.numCorr]; omega
  unfold ceTerms
  rw [groupedTerms_value _ _ _ _ _ hl]
  · unfold numberedCeTerms expansionEnergy Expansion.terms
    rw [List.map_cons, List.sum_cons, add_mul, sum_flatMap_map]
    congr 1
    · simp
    rw [List.map_map, ← List.sum_map_mul_right]
    congr 1
    apply List.map_congr_left
    intro o ho
    simp only [Function.comp_apply, List.map_map]
    rw [sum_flatMap_map, ← List.sum_map_mul_right]
    unfold Orb.kept
    rw [List.zipIdx_map, List.map_map]
    congr 1
    apply List.map_congr_left
    rintro ⟨c, k⟩ hck
    simp only [Function.comp_apply, Prod.map, id_eq, List.map_map]
    have hc := List.mem_zipIdx' hck
    obtain ⟨cl, h1, -, -, h2⟩ := hg.label o ho c (by rw [hc.2]; exact List.getElem_mem _)
    have hcl : (geom o.tag).classes.getD c.1 [] = cl := by
      rw [List.getD_eq_getElem?_getD, h1]; rfl
    rw [hcl]
    have key := clusterTerms_sum (K := K) (geom o.tag).rows (hp o ho) (corrTensor (geom o.tag).phi cl)
    rw [show clusterAverage (fun row => correlation (geom o.tag).phi cl (row.map occ))
        (geom o.tag).rows = clusterAverage (fun row => corrTensor (geom o.tag).phi cl (row.map occ))
        (geom o.tag).rows from ?_, ← key]
    · rw [mul_right_comm, ← List.sum_map_mul_left]
      rfl
    · unfold clusterAverage
      congr 2
      apply List.map_congr_left
      intro row hrow
      rw [corrTensor_eq]
      intro b hb
      rw [h2 b hb, List.length_map]
      exact (hocc o ho row hrow).length_eq.symm
  · intro t ht
    unfold numberedCeTerms at ht
    rw [List.mem_cons, List.mem_flatMap] at ht
    rcases ht with rfl | ⟨o, ho, ht⟩
    · exact h0
    · rw [List.mem_flatMap] at ht
      obtain ⟨⟨c, k⟩, hck, ht⟩ := ht
      obtain ⟨t', -, rfl⟩ := List.mem_map.1 ht
      have := (List.mem_zipIdx' hck).1
      exact slot_lt hS ho (by simpa [Orb.kept] using this)

theorem tableAt_interaction {eci : List K} {o : Orb} {g : OrbitGeom K} {codes : List ℕ}
    (hne : g.shape ≠ []) (hin : InShape g.shape codes) :
    tableAt (flatInteraction eci o g) (o.data g).tensorIndices codes =
      interactionAt eci o g codes := by
  show ((cOrder g.shape).map _).getD (flatPos g.shape codes) 0 = _
  rw [List.getD_eq_getElem?_getD, List.getElem?_map, get_cOrder hne hin,
    Option.map_some, Option.getD_some]

theorem cdTerms_value {E : Expansion K} (hS : E.space.Ok) {geom : ℕ → OrbitGeom K}
    (hg : E.space.FitsGeom geom) (size : ℕ) {eci : List K} (he : E.eci = some eci)
    {v : ℕ → ℤ} {marks : List (List ℤ)} {occ : Occ} (hp : RowsPicked E.space geom v marks occ)
    (hocc : E.space.Legal geom occ) :
    (cdProcessor E geom size).bind (fun P => P.property E.space occ) =
      some (termsValue (cdTerms E eci geom size marks) v) := by
  have hex : ∃ P, cdProcessor E geom size = some P := by
    unfold cdProcessor; rw [he]; exact ⟨_, rfl⟩
  obtain ⟨P, hP⟩ := hex
  have hwf := cdProcessor_wellFormed hS geom size P hP
  rw [hP, Option.bind_some]
  unfold cdProcessor at hP
  rw [he, Option.map_some, Option.some.injEq] at hP
  have hval := C03_feature_vector_value P hwf occ
  have hn : P.numOrbits = E.space.numOrbits := by rw [← hP]
  have hoff : P.offset = E.coefs.getD 0 0 := by rw [← hP]
  have hsz : P.size = size := by rw [← hP]
  have hml : (E.space.orbitMults.map fun m : ℕ => (m : K)).length = E.space.numOrbits := by
    rw [List.length_map, hS.numOrbits, OrbitSpace.orbitMults, List.length_cons,
      List.length_map]; omega
  unfold CDProcessor.property
  rw [npDot_range _ _ _ (by rw [hn]; exact hml)]
  congr 1
  unfold cdTerms
  rw [groupedTerms_value _ _ _ _ _ hml]
  · rw [hn, sum_ids hS, hval.1, hoff, hsz]
    unfold numberedCdTerms
    rw [List.map_cons, List.sum_cons, sum_flatMap_map]
    congr 1
    · simp [OrbitSpace.orbitMults, mul_comm]
    have hz := sum_zipIdx (K := K) E.space.orbits ⟨0, 0, [], 0, 0⟩ (fun o k =>
      (((clusterTerms marks (geom o.tag).rows (interactionAt eci o (geom o.tag))).map
        fun t => ((k + 1, t) : ℕ × List ℕ × K)).map fun t =>
          (E.space.orbitMults.map fun m : ℕ => (m : K)).getD t.1 0 * (size : K) *
            (t.2.2 * (((t.2.1.map v).prod : ℤ) : K))).sum)
    refine Eq.trans ?_ hz.symm
    have hr : (E.space.orbits.map fun o => (E.space.orbitMults.map fun m : ℕ => (m : K)).getD o.id 0 *
        P.featureVector occ o.id) = (List.range E.space.orbits.length).map fun k =>
        (E.space.orbitMults.map fun m : ℕ => (m : K)).getD
          (E.space.orbits.getD k ⟨0, 0, [], 0, 0⟩).id 0 *
        P.featureVector occ (E.space.orbits.getD k ⟨0, 0, [], 0, 0⟩).id := by
      apply List.ext_getElem (by simp)
      intro i h1 h2
      have hi : i < E.space.orbits.length := by simpa using h1
      simp [List.getD_eq_getElem?_getD, hi]
    rw [hr]
    congr 1
    apply List.map_congr_left
    intro k hk
    have hk' : k < E.space.orbits.length := List.mem_range.1 hk
    have hko : E.space.orbits[k]? = some (E.space.orbits.getD k ⟨0, 0, [], 0, 0⟩) := by
      simp [List.getD_eq_getElem?_getD, hk']
    generalize E.space.orbits.getD k ⟨0, 0, [], 0, 0⟩ = o at hko
    have ho : o ∈ E.space.orbits := List.mem_of_getElem? hko
    have hid : o.id = k + 1 := by rw [(hS.get k o hko).1]; omega
    have hmem : ((o.data (geom o.tag), flatInteraction eci o (geom o.tag)), (geom o.tag).rows)
        ∈ P.orbits := by rw [← hP]; exact List.mem_map.2 ⟨o, ho, rfl⟩
    have h1 := hval.2 _ hmem
    simp only [] at h1
    have h2 : P.featureVector occ o.id = P.featureVector occ (o.data (geom o.tag)).id := rfl
    rw [h2, h1, hsz, List.map_map]
    have key := clusterTerms_sum (K := K) (geom o.tag).rows (hp o ho)
      (interactionAt eci o (geom o.tag))
    have hav : clusterAverage (fun cluster => tableAt (flatInteraction eci o (geom o.tag))
        (o.data (geom o.tag)).tensorIndices (cluster.map occ)) (geom o.tag).rows =
        clusterAverage (fun row => interactionAt eci o (geom o.tag) (row.map occ))
          (geom o.tag).rows := by
      unfold clusterAverage
      congr 2
      apply List.map_congr_left
      intro row hrow
      apply tableAt_interaction (hg.shape o ho)
      unfold InShape; rw [List.forall₂_map_left_iff]; exact hocc o ho row hrow
    rw [hav, ← key, hid]
    simp only [Function.comp_def]
    rw [List.sum_map_mul_left]
    ring
  · intro t ht
    unfold numberedCdTerms at ht
    rw [List.mem_cons, List.mem_flatMap] at ht
    rcases ht with rfl | ⟨⟨o, k⟩, hok, ht⟩
    · rw [hS.numOrbits]; simp
    · obtain ⟨t', -, rfl⟩ := List.mem_map.1 ht
      have := (List.mem_zipIdx' hok).1
      rw [hS.numOrbits]
      simp; omega

/-! ## Ewald terms -/

theorem siteIds_get (next : ℕ) (flags : List Bool) (row : List ℤ) (hl : row.length = flags.length)
    (j : ℕ) (h1 : next ≤ j) (h2 : j < (ewaldSiteInds next flags).2) :
    ∃ c < flags.length, (ewaldSiteInds next flags).1.getD c (-1) = j ∧
      ((flags.zip row).filterMap fun q => if q.1 then none else some q.2).getD (j - next) (-2) =
        row.getD c (-2) := by
  induction flags generalizing next row with
  | nil => simp [ewaldSiteInds] at h2; omega
  | cons b flags ih =>
    cases row with
    | nil => simp at hl
    | cons m row =>
      have hl' : row.length = flags.length := by simpa using hl
      cases b with
      | true =>
        simp only [ewaldSiteInds, if_true] at h2 ⊢
        obtain ⟨c, hc, e1, e2⟩ := ih next row hl' h1 h2
        refine ⟨c + 1, by simp; omega, by simpa using e1, ?_⟩
        simpa using e2
      | false =>
        simp only [ewaldSiteInds, Bool.false_eq_true, if_false] at h2 ⊢
        by_cases e : j = next
        · subst e
          exact ⟨0, by simp, by simp, by simp⟩
        · obtain ⟨c, hc, e1, e2⟩ := ih (next + 1) row hl' (by omega) h2
          refine ⟨c + 1, by simp; omega, by simpa using e1, ?_⟩
          have : j - next = (j - (next + 1)) + 1 := by omega
          rw [this]
          simpa using e2

theorem siteIds_length (next : ℕ) (flags : List Bool) (row : List ℤ)
    (hl : row.length = flags.length) :
    ((flags.zip row).filterMap fun q => if q.1 then none else some q.2).length =
      (ewaldSiteInds next flags).2 - next := by
  induction flags generalizing next row with
  | nil => simp [ewaldSiteInds]
  | cons b flags ih =>
    cases row with
    | nil => simp at hl
    | cons m row =>
      have hl' : row.length = flags.length := by simpa using hl
      cases b with
      | true => simpa [ewaldSiteInds] using ih next row hl'
      | false =>
        have := ih (next + 1) row hl'
        have h2 := ewaldSiteInds_le (next + 1) flags
        simp [ewaldSiteInds] at this ⊢
        omega

theorem ewaldVarIds_get (next : ℕ) (vac : List (List Bool)) (marks : List (List ℤ))
    (hl : marks.map List.length = vac.map List.length) (j : ℕ) (h1 : next ≤ j)
    (h2 : j < (ewaldStructureInds next vac).2) :
    ∃ k < vac.length, ∃ c < (vac.getD k []).length,
      ewaldIndex (ewaldStructureInds next vac).1 k c = j ∧
      (ewaldVarIds vac marks).getD (j - next) (-2) = (marks.getD k []).getD c (-2) := by
  induction vac generalizing next marks with
  | nil => simp [ewaldStructureInds] at h2; omega
  | cons flags vac ih =>
    cases marks with
    | nil => simp at hl
    | cons row marks =>
      rw [List.map_cons, List.map_cons, List.cons.injEq] at hl
      have hlen := siteIds_length next flags row hl.1
      have hle := ewaldSiteInds_le next flags
      have hv : ewaldVarIds (flags :: vac) (row :: marks) =
          ((flags.zip row).filterMap fun q => if q.1 then none else some q.2) ++
            ewaldVarIds vac marks := by
        simp [ewaldVarIds]
      simp only [ewaldStructureInds] at h2 ⊢
      by_cases hj : j < (ewaldSiteInds next flags).2
      · obtain ⟨c, hc, e1, e2⟩ := siteIds_get next flags row hl.1 j h1 hj
        refine ⟨0, by simp, c, by simpa using hc, by simpa [ewaldIndex] using e1, ?_⟩
        rw [hv, List.getD_eq_getElem?_getD, List.getElem?_append_left (by omega),
          ← List.getD_eq_getElem?_getD, e2]
        simp
      · obtain ⟨k, hk, c, hc, e1, e2⟩ := ih (ewaldSiteInds next flags).2 marks hl.2 (by omega) h2
        refine ⟨k + 1, by simp; omega, c, by simpa using hc, by simpa [ewaldIndex] using e1, ?_⟩
        rw [hv, List.getD_eq_getElem?_getD, List.getElem?_append_right (by omega), hlen]
        have : j - next - ((ewaldSiteInds next flags).2 - next) = j - (ewaldSiteInds next flags).2 := by
          omega
        rw [this, ← List.getD_eq_getElem?_getD, e2]
        simp

/-- The Ewald data of a processor. -/
def ewaldDataOf (vac : List (List Bool)) (M : ℕ → ℕ → K) : EwaldData K :=
  { numSites := vac.length
    numEwald := (ewaldStructureInds 0 vac).2
    matrix := M
    inds := ewaldIndex (ewaldStructureInds 0 vac).1 }

theorem ewaldIds_val {vac : List (List Bool)} {marks : List (List ℤ)}
    (hl : marks.map List.length = vac.map List.length) {v : ℕ → ℤ} {occ : Occ}
    (hp : ∀ s < vac.length, Picks v (marks.getD s []) (occ s)) (M : ℕ → ℕ → K) {j : ℕ}
    (hj : j < (ewaldStructureInds 0 vac).2) :
    -2 ≤ (ewaldVarIds vac marks).getD j (-2) ∧
    markVal v ((ewaldVarIds vac marks).getD j (-2)) =
      if ((ewaldDataOf vac M).ewaldOccu occ).getD j false = true then 1 else 0 := by
  have hwf := C04_index_array_well_formed (K := K) vac (fun _ _ => 0) (fun _ _ => rfl)
  have hoc := ewaldOccu_getD _ hwf occ j hj
  have hoc' : ((ewaldDataOf vac M).ewaldOccu occ).getD j false = true ↔
      ∃ k < vac.length, ewaldIndex (ewaldStructureInds 0 vac).1 k (occ k) = j := hoc
  obtain ⟨k, hk, c, hc, e1, e2⟩ := ewaldVarIds_get 0 vac marks hl j (Nat.zero_le _) hj
  rw [Nat.sub_zero] at e2
  have hkl : (marks.getD k []).length = (vac.getD k []).length := by
    have h1 : (marks.map List.length).getD k 0 = (vac.map List.length).getD k 0 := by rw [hl]
    have hkm : k < marks.length := by
      have := congrArg List.length hl
      simp only [List.length_map] at this; omega
    rwa [getD_map _ _ _ [] _ hkm, getD_map _ _ _ [] _ hk] at h1
  have hcl : c < (marks.getD k []).length := by omega
  rw [e2]
  refine ⟨?_, ?_⟩
  · apply (hp k hk).range
    generalize marks.getD k [] = row at hcl
    rw [List.getD_eq_getElem?_getD, List.getElem?_eq_getElem hcl]
    exact List.getElem_mem _
  rw [(hp k hk).val c hcl]
  apply if_congr _ rfl rfl
  rw [hoc']
  constructor
  · rintro rfl; exact ⟨k, hk, e1⟩
  · rintro ⟨k', hk', e3⟩
    have := hwf.inj k' (occ k') k c (by simp only; rw [e3, e1]) (by simp only; rw [e3]; omega)
    obtain ⟨rfl, rfl⟩ := this
    rfl

theorem ewaldTerms_value {vac : List (List Bool)} {marks : List (List ℤ)}
    (hl : marks.map List.length = vac.map List.length) {v : ℕ → ℤ} (hv : Binary v) {occ : Occ}
    (hp : ∀ s < vac.length, Picks v (marks.getD s []) (occ s)) (M : ℕ → ℕ → K) (coef : K) :
    termsValue (ewaldTerms (ewaldStructureInds 0 vac).2 M coef (ewaldVarIds vac marks)) v =
      coef * (ewaldDataOf vac M).featureVector occ := by
  set n := (ewaldStructureInds 0 vac).2 with hn
  set ids := ewaldVarIds vac marks with hids
  have hval := fun j (hj : j < n) => ewaldIds_val (K := K) hl hp M hj
  have hterm : ∀ i < n, (((List.range n).filterMap fun j =>
      let r := ids.getD i (-2)
      let c := ids.getD j (-2)
      if r = -2 ∨ c = -2 then none
      else some (((if r ≠ -1 then [r.toNat] else []) ++
        (if c ≠ -1 ∧ c ≠ r then [c.toNat] else []), M i j, coef) : GroundTerm K)).map
          fun t => t.2.1 * t.2.2 * (((t.1.map v).prod : ℤ) : K)).sum =
      ((List.range n).map fun j => coef * (M i j * (markVal v (ids.getD i (-2)) : K) *
        (markVal v (ids.getD j (-2)) : K))).sum := by
    intro i hi
    have aux : ∀ l : List ℕ, (∀ j ∈ l, j < n) → ((l.filterMap fun j =>
        let r := ids.getD i (-2)
        let c := ids.getD j (-2)
        if r = -2 ∨ c = -2 then none
        else some (((if r ≠ -1 then [r.toNat] else []) ++
          (if c ≠ -1 ∧ c ≠ r then [c.toNat] else []), M i j, coef) : GroundTerm K)).map
            fun t => t.2.1 * t.2.2 * (((t.1.map v).prod : ℤ) : K)).sum =
        (l.map fun j => coef * (M i j * (markVal v (ids.getD i (-2)) : K) *
          (markVal v (ids.getD j (-2)) : K))).sum := by
      intro l
      induction l with
      | nil => intro _; rfl
      | cons j l ih =>
        intro hj
        have ih := ih fun x hx => hj x (by simp [hx])
        rw [List.filterMap_cons]
        simp only at ih ⊢
        have h1 := (hval i hi).1
        have h2 := (hval j (hj j (by simp))).1
        by_cases hr : ids.getD i (-2) = -2 ∨ ids.getD j (-2) = -2
        · rw [if_pos hr]
          simp only
          rw [ih, List.map_cons, List.sum_cons]
          have : (markVal v (ids.getD i (-2)) : K) * (markVal v (ids.getD j (-2)) : K) = 0 := by
            rcases hr with h | h
            · rw [h]; simp [markVal]
            · rw [h]; simp [markVal]
          rw [mul_assoc (M i j), this]; simp
        · rw [if_neg hr]
          simp only [List.map_cons, List.sum_cons]
          rw [ih]
          congr 1
          push Not at hr
          have hprod : (((if ids.getD i (-2) ≠ -1 then [(ids.getD i (-2)).toNat] else []) ++
              (if ids.getD j (-2) ≠ -1 ∧ ids.getD j (-2) ≠ ids.getD i (-2) then
                [(ids.getD j (-2)).toNat] else [])).map v).prod =
              markVal v (ids.getD i (-2)) * markVal v (ids.getD j (-2)) := by
            generalize ids.getD i (-2) = r at *
            generalize ids.getD j (-2) = c at *
            unfold markVal
            by_cases hr1 : r = -1
            · subst hr1
              by_cases hc1 : c = -1
              · subst hc1; simp
              · have hc0 : 0 ≤ c := by omega
                simp [hc1, hc0]
            · have hr0 : 0 ≤ r := by omega
              by_cases hc1 : c = -1
              · subst hc1; simp [hr1, hr0]
              · have hc0 : 0 ≤ c := by omega
                by_cases hcr : c = r
                · subst hcr
                  rcases hv c.toNat with h | h <;> simp [hr1, hr0, h]
                · simp [hr1, hr0, hc1, hc0, hcr]
          rw [hprod]
          push_cast
          ring
    exact aux _ fun j hj => List.mem_range.1 hj
  unfold termsValue ewaldTerms
  rw [sum_flatMap_map, List.map_congr_left (fun i hi => hterm i (List.mem_range.1 hi))]
  unfold EwaldData.featureVector
  simp only
  have hsel : ∀ f : ℕ → K, (((List.range (ewaldDataOf vac M).numEwald).filter fun j =>
      ((ewaldDataOf vac M).ewaldOccu occ).getD j false).map f).sum =
      ((List.range n).map fun j => (markVal v (ids.getD j (-2)) : K) * f j).sum := by
    intro f
    have := sum_filter_ite (List.range n) (fun j =>
      ((ewaldDataOf vac M).ewaldOccu occ).getD j false = true) f
    simp only [Bool.decide_eq_true] at this
    refine this.trans ?_
    congr 1
    apply List.map_congr_left
    intro j hj
    rw [(hval j (List.mem_range.1 hj)).2]
    split <;> simp
  rw [hsel, ← List.sum_map_mul_left]
  congr 1
  apply List.map_congr_left
  intro i _
  rw [hsel, ← List.sum_map_mul_left, ← List.sum_map_mul_left]
  congr 1
  apply List.map_congr_left
  intro j _
  show _ = coef * (_ * (_ * M i j))
  ring

/-! ## chemical potentials -/

theorem chemicalTerms_value {marks : List (List ℤ)} {v : ℕ → ℤ} {occ : Occ}
    (hp : ∀ s < marks.length, Picks v (marks.getD s []) (occ s)) (table : ℕ → ℕ → K) :
    termsValue (chemicalTerms table marks) v = - chemicalWork table marks.length occ := by
  unfold termsValue chemicalTerms chemicalWork
  rw [sum_flatMap_map]
  have hsite : ∀ s < marks.length,
      ((((marks.getD s []).zipIdx.filterMap fun mc =>
        if 0 ≤ mc.1 then some (([mc.1.toNat], -1 * table s mc.2, 1) : GroundTerm K)
        else if mc.1 = -1 then some ([], -1 * table s mc.2, 1) else none).map
          fun t => t.2.1 * t.2.2 * (((t.1.map v).prod : ℤ) : K)).sum) = - table s (occ s) := by
    intro s hs
    have h := hp s hs
    generalize marks.getD s [] = row at h
    have aux : ∀ l : List (ℤ × ℕ), ((l.filterMap fun mc =>
        if 0 ≤ mc.1 then some (([mc.1.toNat], -1 * table s mc.2, 1) : GroundTerm K)
        else if mc.1 = -1 then some ([], -1 * table s mc.2, 1) else none).map
          fun t => t.2.1 * t.2.2 * (((t.1.map v).prod : ℤ) : K)).sum =
        (l.map fun mc => - table s mc.2 * (markVal v mc.1 : K)).sum := by
      intro l
      induction l with
      | nil => rfl
      | cons a l ih =>
        rw [List.filterMap_cons, List.map_cons, List.sum_cons, ← ih]
        by_cases h0 : 0 ≤ a.1
        · simp [markVal, h0]
        · by_cases h1 : a.1 = -1
          · simp [markVal, h1]
          · simp [markVal, h0, h1]
    rw [aux, sum_zipIdx row (-2) fun m c => - table s c * (markVal v m : K),
      ← sum_range_single (K := K) h.lt fun c => - table s c]
    congr 1
    apply List.map_congr_left
    intro c hc
    rw [h.val c (List.mem_range.1 hc)]
    split <;> simp
  have hz := sum_zipIdx marks [] fun row s => (((row.zipIdx.filterMap fun mc =>
        if 0 ≤ mc.1 then some (([mc.1.toNat], -1 * table s mc.2, 1) : GroundTerm K)
        else if mc.1 = -1 then some ([], -1 * table s mc.2, 1) else none).map
          fun t => t.2.1 * t.2.2 * (((t.1.map v).prod : ℤ) : K)).sum)
  refine hz.trans ?_
  rw [List.map_congr_left (fun s hs => hsite s (List.mem_range.1 hs))]
  rw [list_range_sum, list_range_sum, Finset.sum_neg_distrib]

end Smol
