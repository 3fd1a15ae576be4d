import Verif.Model.Decomposition
import Verif.Lemmas.Expansion
import Verif.Props.Orbit

namespace Smol
open Spec

variable {K : Type*} [Field K]

/-- the slots of the functions of consecutively numbered orbits -/
theorem slots_eq (l : List Orb) (b : ℕ)
    (h : ∀ (j : ℕ) (o : Orb), l[j]? = some o → o.bitId = b + nFuns (l.take j)) :
    (l.flatMap fun o => (List.range o.combos.length).map fun k => o.bitId + k) =
      List.range' b (nFuns l) := by
  induction l generalizing b with
  | nil => simp [nFuns]
  | cons o l ih =>
    have h0 : o.bitId = b := by simpa [nFuns] using h 0 o rfl
    have hn : nFuns (o :: l) = o.combos.length + nFuns l := by simp [nFuns]
    rw [List.flatMap_cons, ih (b + o.combos.length), hn, ← List.range'_append_1, h0]
    · congr 1
      rw [List.range_eq_range', List.map_add_range']
      simp
    · intro j o' hj
      have := h (j + 1) o' (by simpa using hj)
      simp only [List.take_succ_cons] at this
      rw [this, show nFuns (o :: List.take j l) = o.combos.length + nFuns (l.take j) by
        simp [nFuns]]
      omega

theorem ids_eq (l : List Orb) (b : ℕ)
    (h : ∀ (j : ℕ) (o : Orb), l[j]? = some o → o.id = b + j) :
    l.map Orb.id = List.range' b l.length := by
  apply List.ext_getElem (by simp)
  intro i h1 h2
  have hi : i < l.length := by simpa using h1
  have := h i _ (List.getElem?_eq_getElem hi)
  simp [this]

theorem ceProcessor_wellFormed {S : OrbitSpace} (hS : S.Ok) (geom : ℕ → OrbitGeom K) (size : ℕ) :
    (ceProcessor S geom size).WellFormed := by
  constructor
  · show ((S.orbits.map fun o => (o.data (geom o.tag), (geom o.tag).rows)).flatMap
      fun p => (List.range p.1.numCombos).map fun k => p.1.bitId + k).Nodup
    rw [List.flatMap_map]
    have : (S.orbits.flatMap fun o => (List.range (o.data (geom o.tag)).numCombos).map fun k =>
        (o.data (geom o.tag)).bitId + k) =
        S.orbits.flatMap fun o => (List.range o.combos.length).map fun k => o.bitId + k := by
      congr 1
      funext o
      simp [Orb.data, orbitData, Orb.kept]
    rw [this, slots_eq S.orbits 1 fun j o hj => (hS.get j o hj).2]
    exact List.nodup_range'
  · intro p hp
    obtain ⟨o, ho, rfl⟩ := List.mem_map.1 hp
    obtain ⟨j, hj, rfl⟩ := List.getElem_of_mem ho
    have := (hS.get j _ (List.getElem?_eq_getElem hj)).2
    show 0 < (S.orbits[j]).bitId
    omega

theorem cdProcessor_wellFormed {E : Expansion K} (hS : E.space.Ok) (geom : ℕ → OrbitGeom K)
    (size : ℕ) (P : CDProcessor K) (h : cdProcessor E geom size = some P) : P.WellFormed := by
  unfold cdProcessor at h
  obtain ⟨eci, -, rfl⟩ := Option.map_eq_some_iff.1 h
  constructor
  · show (((E.space.orbits.map fun o => ((o.data (geom o.tag), flatInteraction eci o (geom o.tag)),
      (geom o.tag).rows)).map fun p => p.1.1.id)).Nodup
    rw [List.map_map]
    have : ((fun p : (OrbitData K × (ℕ → K)) × ClusterRows => p.1.1.id) ∘ fun o : Orb =>
        ((o.data (geom o.tag), flatInteraction eci o (geom o.tag)), (geom o.tag).rows)) = Orb.id := by
      funext o; rfl
    rw [this, ids_eq E.space.orbits 1 fun j o hj => (hS.get j o hj).1]
    exact List.nodup_range'
  · intro p hp
    obtain ⟨o, ho, rfl⟩ := List.mem_map.1 hp
    obtain ⟨j, hj, rfl⟩ := List.getElem_of_mem ho
    have := (hS.get j _ (List.getElem?_eq_getElem hj)).1
    show 0 < (E.space.orbits[j]).id
    omega

/-- a sum over all function slots, by orbits -/
theorem sum_slots {S : OrbitSpace} (hS : S.Ok) (f : ℕ → K) :
    ((List.range S.numCorr).map f).sum = f 0 + (S.orbits.map fun o =>
      ((List.range o.combos.length).map fun k => f (o.bitId + k)).sum).sum := by
  rw [hS.numCorr, Nat.add_comm, List.range_succ_eq_map, List.map_cons, List.sum_cons]
  congr 1
  have h1 : (List.range (nFuns S.orbits)).map Nat.succ = List.range' 1 (nFuns S.orbits) := by
    rw [List.range_eq_range', List.range'_eq_map_range, List.map_map,
      List.range'_eq_map_range]
    apply List.map_congr_left
    intro i _
    simp [Nat.add_comm]
  rw [h1, ← slots_eq S.orbits 1 fun j o hj => (hS.get j o hj).2, List.map_flatMap]
  generalize S.orbits = l
  induction l with
  | nil => rfl
  | cons o l ih =>
    rw [List.flatMap_cons, List.sum_append, ih, List.map_cons, List.sum_cons, List.map_map]
    rfl

theorem sum_ids {S : OrbitSpace} (hS : S.Ok) (f : ℕ → K) :
    ((List.range S.numOrbits).map f).sum = f 0 + (S.orbits.map fun o => f o.id).sum := by
  rw [hS.numOrbits, Nat.add_comm, List.range_succ_eq_map, List.map_cons, List.sum_cons]
  congr 1
  have h1 : (List.range S.orbits.length).map Nat.succ = List.range' 1 S.orbits.length := by
    rw [List.range_eq_range', List.range'_eq_map_range, List.map_map,
      List.range'_eq_map_range]
    apply List.map_congr_left
    intro i _
    simp [Nat.add_comm]
  rw [h1, ← ids_eq S.orbits 1 fun j o hj => (hS.get j o hj).1, List.map_map]
  rfl

theorem npDot_range (coefs : List K) (n : ℕ) (f : ℕ → K) (h : coefs.length = n) :
    propertyOf coefs n f = some ((List.range n).map fun i => coefs.getD i 0 * f i).sum := by
  unfold propertyOf npDot
  rw [if_pos (by simpa using h)]
  congr 2
  subst h
  apply List.ext_getElem (by simp)
  intro i h1 h2
  simp [List.getD_eq_getElem?_getD]
  have hi : i < coefs.length := by simpa using h2
  simp [hi]

theorem orbitMults_get {S : OrbitSpace} (hS : S.Ok) (o : Orb) (ho : o ∈ S.orbits) :
    S.orbitMults.getD o.id 0 = o.mult := by
  obtain ⟨j, hj, rfl⟩ := List.getElem_of_mem ho
  have hget := List.getElem?_eq_getElem hj
  unfold OrbitSpace.orbitMults
  rw [(hS.get j _ hget).1, show 1 + j = j + 1 by omega, List.getD_cons_succ,
    List.getD_eq_getElem?_getD, List.getElem?_map, hget]
  rfl

theorem sum_zipIdx {α : Type*} (l : List α) (d : α) (f : α → ℕ → K) :
    (l.zipIdx.map fun p => f p.1 p.2).sum = ((List.range l.length).map fun k => f (l.getD k d) k).sum := by
  congr 1
  apply List.ext_getElem (by simp)
  intro i h1 h2
  have hi : i < l.length := by simpa using h2
  simp [List.getD_eq_getElem?_getD, hi]

theorem sum_map_comm {α β : Type*} (a : List α) (b : List β) (f : α → β → K) :
    (a.map fun x => (b.map fun y => f x y).sum).sum = (b.map fun y => (a.map fun x => f x y).sum).sum := by
  induction a with
  | nil => simp
  | cons x a ih => simp [ih, List.sum_map_add]

theorem sum_map_sub' {α : Type*} (l : List α) (f g : α → K) :
    (l.map fun x => f x - g x).sum = (l.map f).sum - (l.map g).sum := by
  induction l with
  | nil => simp
  | cons a l ih => simp only [List.map_cons, List.sum_cons, ih]; ring

end Smol
