import Verif.Lemmas.Orbit
import Verif.Props.Processor

/-!
# C45 Equivalent function choices, C46 flat correlation tensors
-/

namespace Smol
open Spec

variable {K : Type*} [Field K]

/-- C45. When the site permutations of a cluster form a group and exchange only sites with the
same function indices, `bit_combos` is the partition of all choices of site functions into the
classes of choices equivalent under the group: no class is empty or has repeated rows, the classes
are disjoint, every choice is in one, and two choices are in the same class iff a permutation
takes one to the other. -/
theorem C45_partition (bits perms : List (List ℕ)) (G : PermGroup bits.length perms)
    (hb : Respects perms bits) :
    (∀ cl ∈ bitCombos bits perms, cl ≠ [] ∧ cl.Nodup) ∧
    (bitCombos bits perms).Pairwise (fun x y => ∀ a, a ∈ x → a ∉ y) ∧
    (∀ a, (∃ cl ∈ bitCombos bits perms, a ∈ cl) ↔ Choice bits a) ∧
    ∀ cl ∈ bitCombos bits perms, ∀ a ∈ cl, ∀ b, b ∈ cl ↔ Equivalent perms a b := by
  have inv := bitCombos_inv G
  refine ⟨?_, inv.disj, ?_, ?_⟩
  · intro cl hcl
    obtain ⟨c, hc, rfl⟩ := inv.cls cl hcl
    exact ⟨List.ne_nil_of_mem (classOf_self G c hc.length), nodup_uniqueRows _⟩
  · intro a
    constructor
    · rintro ⟨cl, hcl, ha⟩
      obtain ⟨c, hc, rfl⟩ := inv.cls cl hcl
      obtain ⟨p, hp, rfl⟩ := (mem_classOf _ _ _).1 ha
      exact choice_permute G hb hc hp
    · intro ha
      exact List.mem_flatten.1 (inv.cov a ((mem_lexProduct _ _).2 ha))
  · intro cl hcl a ha b
    obtain ⟨c, hc, rfl⟩ := inv.cls cl hcl
    have hal : a.length = bits.length := by
      obtain ⟨p, hp, rfl⟩ := (mem_classOf _ _ _).1 ha
      rw [length_permute, G.length hp]
    rw [equivalent_iff_permute G a b hal]
    exact mem_classOf_of_mem G ha b

/-- the two permutations of a pair -/
def swapPerms : List (List ℕ) := [[0, 1], [1, 0]]

example : PermGroup 2 swapPerms ∧ Respects swapPerms [[0, 1, 2], [0, 1, 2]] ∧
    bitCombos [[0, 1, 2], [0, 1, 2]] swapPerms =
      [[[0, 0]], [[0, 1], [1, 0]], [[0, 2], [2, 0]], [[1, 1]], [[1, 2], [2, 1]], [[2, 2]]] := by
  refine ⟨⟨by decide, by decide, by decide, by decide⟩, ?_, by decide⟩
  intro p hp i j h
  simp only [swapPerms, List.mem_cons, List.not_mem_nil, or_false] at hp
  rcases hp with rfl | rfl <;> rcases i with _ | _ | i <;> simp at h <;> subst h <;> rfl

/-- C45. The group is needed: with the identity and one rotation of a triangle, but not its
inverse, two classes overlap. -/
theorem C45_not_group_fails :
    let cl := bitCombos [[0, 1], [0, 1], [0, 1]] [[0, 1, 2], [1, 2, 0]]
    ¬ cl.Pairwise fun x y => ∀ a, a ∈ x → a ∉ y := by
  intro cl h
  have : cl = [[[0, 0, 0]], [[0, 0, 1], [0, 1, 0]], [[0, 1, 1], [1, 1, 0]],
    [[0, 0, 1], [1, 0, 0]], [[0, 1, 1], [1, 0, 1]], [[1, 1, 1]]] := by decide
  rw [this] at h
  revert h
  decide

/-- C45. A correlation function takes the same value on symmetrically equivalent cluster
occupancies: rearranging the codes by a permutation of the cluster leaves it unchanged. -/
theorem C45_symmetric (bits perms : List (List ℕ)) (G : PermGroup bits.length perms)
    (phi : ℕ → ℕ → ℕ → K) (hphi : ∀ p ∈ perms, ∀ (i j : ℕ), p[i]? = some j → phi j = phi i)
    (cl : List (List ℕ)) (hcl : cl ∈ bitCombos bits perms) (codes codes' : List ℕ)
    (hc : codes.length = bits.length) (he : Equivalent perms codes codes') :
    corrTensor phi cl codes' = corrTensor phi cl codes := by
  obtain ⟨p, hp, rfl⟩ := (equivalent_iff_permute G codes codes' hc).1 he
  obtain ⟨c, hch, rfl⟩ := (bitCombos_inv G).cls cl hcl
  have hlen : ∀ a ∈ classOf perms c, a.length = bits.length := by
    intro a ha
    obtain ⟨q, hq, rfl⟩ := (mem_classOf _ _ _).1 ha
    rw [length_permute, G.length hq]
  have hperm := sum_class_permute G (classOf perms c) (nodup_uniqueRows _) hlen
    (fun a ha q hq => (mem_classOf_of_mem G ha _).2 ⟨q, hq, rfl⟩) p hp
  unfold corrTensor
  congr 1
  rw [← ((hperm.map fun b => outerAt phi b (permute codes p)).sum_eq), List.map_map]
  congr 1
  apply List.map_congr_left
  intro a ha
  exact outerAt_permute G phi hp (hphi p hp) a codes (hlen a ha)

/-- C46. Looking up the flattened tensors at (row of the function) + Σ stride·code stays inside
the array and yields the value of the correlation function at these codes. -/
theorem C46_lookup (id bitId : ℕ) (phi : ℕ → ℕ → ℕ → K) (shape : List ℕ)
    (classes : List (List (List ℕ))) (hne : shape ≠ [])
    (hcl : ∀ cl ∈ classes, ∀ b ∈ cl, b.length = shape.length) (k : ℕ) (hk : k < classes.length)
    (codes : List ℕ) (h : List.Forall₂ (fun c d => c < d) codes shape) :
    let o := orbitData id bitId phi shape classes
    k * o.tensorSize + ((o.tensorIndices.zip codes).map fun p => p.1 * p.2).sum <
        (flatCorrTensors phi shape classes).length ∧
      tableAt (fun j => o.corrData (k * o.tensorSize + j)) o.tensorIndices codes =
        correlation phi classes[k] codes := by
  intro o
  have h1 := flatCorr_get phi shape classes hne codes h k hk
  have e : k * o.tensorSize = shape.prod * k := Nat.mul_comm _ _
  constructor
  · rw [e]
    exact (List.getElem?_eq_some_iff.1 h1).1
  · unfold tableAt
    simp only [e]
    show (flatCorrTensors phi shape classes).getD (shape.prod * k + flatPos shape codes) 0 = _
    rw [List.getD_eq_getElem?_getD, h1, Option.getD_some, corrTensor_eq]
    intro b hb
    rw [hcl _ (List.getElem_mem hk) b hb, ← List.Forall₂.length_eq h]

/-- C46. Different codes are looked up in different entries, within the row. -/
theorem C46_injective (shape : List ℕ) (hne : shape ≠ []) (a b : List ℕ)
    (ha : List.Forall₂ (fun c d => c < d) a shape) (hb : List.Forall₂ (fun c d => c < d) b shape) :
    (((flatTensorIndices shape).zip a).map fun p => p.1 * p.2).sum < shape.prod ∧
    ((((flatTensorIndices shape).zip a).map fun p => p.1 * p.2).sum =
      (((flatTensorIndices shape).zip b).map fun p => p.1 * p.2).sum ↔ a = b) := by
  refine ⟨flatPos_lt hne ha, fun e => ?_, fun e => by rw [e]⟩
  have h1 := get_cOrder hne ha
  have h2 := get_cOrder hne hb
  have e' : flatPos shape a = flatPos shape b := e
  rw [e', h2, Option.some.injEq] at h1
  exact h1.symm

/-- C46 (with C02). The correlation vector computed by the processor: the entry of a function is
the number of prim cells times the average over the clusters of the function's value at the codes
of the cluster. -/
theorem C46_correlation_vector (P : CEProcessor K) (hP : P.WellFormed) (id bitId : ℕ)
    (phi : ℕ → ℕ → ℕ → K) (shape : List ℕ) (classes : List (List (List ℕ))) (rows : ClusterRows)
    (hm : (orbitData id bitId phi shape classes, rows) ∈ P.orbits) (hne : shape ≠ [])
    (hcl : ∀ cl ∈ classes, ∀ b ∈ cl, b.length = shape.length) (occ : Occ)
    (hocc : ∀ row ∈ rows, List.Forall₂ (fun site d => occ site < d) row shape)
    (k : ℕ) (hk : k < classes.length) :
    P.featureVector occ (bitId + k) =
      clusterAverage (fun row => correlation phi classes[k] (row.map occ)) rows * P.size := by
  have h := (C02_feature_vector_value P hP occ).2 _ hm k hk
  rw [show (orbitData id bitId phi shape classes).bitId = bitId from rfl] at h
  rw [h]
  congr 1
  unfold clusterAverage
  congr 2
  apply List.map_congr_left
  intro row hrow
  refine (C46_lookup id bitId phi shape classes hne hcl k hk (row.map occ) ?_).2
  rw [List.forall₂_map_left_iff]
  exact hocc row hrow

/-- a pair of sites with 3 and 2 species -/
example : flatTensorIndices [3, 2] = [2, 1] ∧
    (((flatTensorIndices [3, 2]).zip [2, 1]).map fun p => p.1 * p.2).sum = 5 ∧
    List.Forall₂ (fun c d => c < d) [2, 1] [3, 2] := by decide

/-- table of a pair with two functions on the first site: `corr_data[1, 2, 1]` -/
example : (orbitData 1 1 (fun s b c => ((s + 2 * b + c : ℕ) : ℚ)) [3, 2] [[[0, 0]], [[1, 0]]]).corrData
    (1 * 6 + 5) = 4 * 2 := by decide +kernel

end Smol
