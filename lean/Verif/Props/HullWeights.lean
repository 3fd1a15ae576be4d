import Verif.Lemmas.HullWeights
import Verif.Props.Wrangle
import Mathlib.Algebra.BigOperators.Field

/-!
# C94 Weights by energy above the hull
-/

namespace Smol

variable {m : ℕ}

/-- C94. No energies are returned exactly when no structure is given or some structure holds an
element which is neither an element of the expansion's structure nor given as a pure structure. -/
theorem C94_raises (structs : List (HullEntry m)) (elems : List (Fin m)) :
    energiesAboveHull structs elems = none ↔ structs = [] ∨
      ∃ s ∈ structs, ∃ a, s.amt a ≠ 0 ∧ a ∉ elems ∧
        ∀ t ∈ structs, t.amt a ≠ 0 → ∃ b, b ≠ a ∧ t.amt b ≠ 0 := by
  unfold energiesAboveHull
  rcases hh : hullEntries structs elems with _ | l
  · simp only [Option.bind_none, true_iff]
    left
    unfold hullEntries at hh
    rw [Option.map_eq_none_iff, List.max?_eq_none_iff, List.map_eq_nil_iff] at hh
    exact hh
  · obtain ⟨top, ⟨i, -⟩, -, rfl⟩ := hullEntries_some structs elems l hh
    have hne : structs ≠ [] := by
      rintro rfl
      exact i.elim0
    simp only [Option.bind_some, ite_eq_right_iff, reduceCtorEq, imp_false, hne, false_or]
    unfold hasTerminals
    push Not
    constructor
    · rintro ⟨e, he, a, ha, hn⟩
      rcases List.mem_append.1 he with he | he
      · refine ⟨e, he, a, ha, fun hmem => ?_, fun t ht hta => hn t (List.mem_append.2 (Or.inl ht)) hta⟩
        obtain ⟨b, hb, hb'⟩ := hn ⟨Pi.single a 1, top + 1000⟩
          (List.mem_append.2 (Or.inr (List.mem_map.2 ⟨a, hmem, rfl⟩))) (by simp)
        exact hb' (by simp [hb])
      · exfalso
        obtain ⟨c, hc, rfl⟩ := List.mem_map.1 he
        have : a = c := by
          by_contra hac
          exact ha (by simp [hac])
        subst this
        obtain ⟨b, hb, hb'⟩ := hn _ (List.mem_append.2 (Or.inr he)) ha
        exact hb' (by simp [hb])
    · rintro ⟨s, hs, a, ha, hna, hn⟩
      refine ⟨s, List.mem_append.2 (Or.inl hs), a, ha, fun t ht hta => ?_⟩
      rcases List.mem_append.1 ht with ht | ht
      · exact hn t ht hta
      · exfalso
        obtain ⟨c, hc, rfl⟩ := List.mem_map.1 ht
        have : a = c := by
          by_contra hac
          exact hta (by simp [hac])
        exact hna (this ▸ hc)

/-- C94. The energies above the hull, one for each structure in the order given: non-negative, and
the energy per atom less that of the lowest mixture of structures and of artificial elements (at 1000
above the highest energy per atom) with the same atomic fractions. -/
theorem C94_energies (structs : List (HullEntry m)) (elems : List (Fin m)) (es : List ℝ)
    (h : energiesAboveHull structs elems = some es) :
    es.length = structs.length ∧
    ∃ top, IsGreatest {p | ∃ s ∈ structs, p = s.energy / ∑ b, s.amt b} top ∧
      ∀ (i : ℕ) (s : HullEntry m) (e : ℝ), structs[i]? = some s → es[i]? = some e → 0 ≤ e ∧
        IsLeast {E | Spec.HullMixture (fun i => (structs.get i).amt)
          (fun i => (structs.get i).energy) (· ∈ elems) top (fun a => s.amt a / ∑ b, s.amt b) E}
          (s.energy / ∑ b, s.amt b - e) := by
  obtain ⟨h1, top, ⟨k, hk⟩, h3, h4⟩ := energiesAboveHull_some structs elems es h
  refine ⟨h1, top, ⟨⟨structs.get k, List.get_mem _ _, hk.symm⟩, ?_⟩, ?_⟩
  · rintro p ⟨s, hs, rfl⟩
    obtain ⟨i, rfl⟩ := List.mem_iff_get.1 hs
    exact h3 i
  · intro i s e hs he
    obtain ⟨hi, rfl⟩ := List.getElem?_eq_some_iff.1 hs
    have := h4 ⟨i, hi⟩ e he
    refine ⟨?_, this⟩
    have g := this.2 (mixture_self structs (· ∈ elems) top ⟨i, hi⟩)
    linarith

/-- C94. Weights are positive and at most 1; 1 exactly for the structures which no mixture
undercuts; and structures of the same atomic fractions have weights in the ratio of the Boltzmann
factors of their energies per atom. -/
theorem C94_weights (structs : List (HullEntry m)) (elems : List (Fin m)) (kBT : ℝ) (hT : 0 < kBT)
    (ws : List ℝ) (h : weightsAboveHull structs elems kBT = some ws) :
    ws.length = structs.length ∧
    ∃ top, IsGreatest {p | ∃ s ∈ structs, p = s.energy / ∑ b, s.amt b} top ∧
      ∀ (i : ℕ) (s : HullEntry m) (w : ℝ), structs[i]? = some s → ws[i]? = some w →
        0 < w ∧ w ≤ 1 ∧
        (w = 1 ↔ ∀ E, Spec.HullMixture (fun i => (structs.get i).amt)
          (fun i => (structs.get i).energy) (· ∈ elems) top (fun a => s.amt a / ∑ b, s.amt b) E →
            s.energy / ∑ b, s.amt b ≤ E) ∧
        ∀ (j : ℕ) (t : HullEntry m) (v : ℝ), structs[j]? = some t → ws[j]? = some v →
          (∀ a, t.amt a / ∑ b, t.amt b = s.amt a / ∑ b, s.amt b) →
          v = w * Real.exp (-(t.energy / ∑ b, t.amt b - s.energy / ∑ b, s.amt b) / kBT) := by
  obtain ⟨es, he, rfl⟩ := Option.map_eq_some_iff.1 h
  obtain ⟨h1, top, h2, h3⟩ := C94_energies structs elems es he
  refine ⟨by simp [h1], top, h2, fun i s w hs hw => ?_⟩
  rw [List.getElem?_map] at hw
  obtain ⟨e, hei, rfl⟩ := Option.map_eq_some_iff.1 hw
  obtain ⟨g1, g2⟩ := h3 i s e hs hei
  refine ⟨Real.exp_pos _, ?_, ?_, ?_⟩
  · rw [Real.exp_le_one_iff]
    exact div_nonpos_of_nonpos_of_nonneg (by linarith) hT.le
  · rw [Real.exp_eq_one_iff, div_eq_zero_iff]
    constructor
    · rintro (h0 | h0) E hE
      · have := g2.2 hE
        linarith
      · linarith
    · intro h0
      have := h0 _ g2.1
      left; linarith
  · intro j t v ht hv hc
    rw [List.getElem?_map] at hv
    obtain ⟨f, hfj, rfl⟩ := Option.map_eq_some_iff.1 hv
    obtain ⟨-, k2⟩ := h3 j t f ht hfj
    have hfr : (fun a => t.amt a / ∑ b, t.amt b) = fun a => s.amt a / ∑ b, s.amt b := funext hc
    rw [hfr] at k2
    have heq := k2.unique g2
    rw [← Real.exp_add]
    congr 1
    rw [← add_div]
    congr 1
    linarith

/-- C94. A structure of the lowest energy per atom of all structures has weight 1. -/
theorem C94_lowest (structs : List (HullEntry m)) (elems : List (Fin m)) (kBT : ℝ) (hT : 0 < kBT)
    (ws : List ℝ) (h : weightsAboveHull structs elems kBT = some ws) (i : ℕ) (s : HullEntry m)
    (hs : structs[i]? = some s)
    (hmin : ∀ t ∈ structs, s.energy / ∑ b, s.amt b ≤ t.energy / ∑ b, t.amt b) :
    ws[i]? = some 1 := by
  obtain ⟨h1, top, ⟨-, h2⟩, h3⟩ := C94_weights structs elems kBT hT ws h
  obtain ⟨hi, rfl⟩ := List.getElem?_eq_some_iff.1 hs
  have hiw : i < ws.length := by omega
  obtain ⟨-, -, g3, -⟩ := h3 i _ ws[i] hs (List.getElem?_eq_getElem hiw)
  rw [List.getElem?_eq_getElem hiw, g3.2]
  rintro E ⟨w, u, k1, k2, -, k4, -, rfl⟩
  have htop : structs[i].energy / ∑ b, structs[i].amt b ≤ top :=
    h2 ⟨structs[i], List.getElem_mem _, rfl⟩
  set ε := structs[i].energy / ∑ b, structs[i].amt b
  have hw : (∑ i, w i) * ε ≤
      ∑ i, w i * ((structs.get i).energy / ∑ b, (structs.get i).amt b) := by
    rw [Finset.sum_mul]
    exact Finset.sum_le_sum fun j _ => mul_le_mul_of_nonneg_left (hmin _ (List.get_mem _ _)) (k1 j)
  have hu : (∑ a, u a) * ε ≤ (∑ a, u a) * (top + 1000) :=
    mul_le_mul_of_nonneg_left (by linarith) (Finset.sum_nonneg fun a _ => k2 a)
  have : ε = (∑ i, w i) * ε + (∑ a, u a) * ε := by rw [← add_mul, k4, one_mul]
  linarith

/-- C94. The energy above the hull is at least that above every mixture of the given structures, in
particular at least the difference of energies per atom to a structure of the same fractions. -/
theorem C94_at_least (structs : List (HullEntry m)) (elems : List (Fin m)) (es : List ℝ)
    (h : energiesAboveHull structs elems = some es) (i : ℕ) (s : HullEntry m) (e : ℝ)
    (hs : structs[i]? = some s) (he : es[i]? = some e) :
    (∀ E, Spec.StructMixture (fun i => (structs.get i).amt) (fun i => (structs.get i).energy)
      (fun a => s.amt a / ∑ b, s.amt b) E → s.energy / ∑ b, s.amt b - E ≤ e) ∧
    ∀ t ∈ structs, (∀ a, t.amt a / ∑ b, t.amt b = s.amt a / ∑ b, s.amt b) →
      s.energy / ∑ b, s.amt b - t.energy / ∑ b, t.amt b ≤ e := by
  obtain ⟨h1, top, h2, h3⟩ := C94_energies structs elems es h
  obtain ⟨-, g⟩ := h3 i s e hs he
  constructor
  · rintro E ⟨w, k1, k2, k3, k4⟩
    have := g.2 (show E ∈ {E | Spec.HullMixture _ _ _ top _ E} from ⟨w, 0, k1, fun _ => le_refl _, fun _ _ => rfl, by simpa using k2,
      fun a => by simpa using k3 a, by simpa using k4⟩)
    linarith
  · intro t ht hc
    obtain ⟨j, rfl⟩ := List.mem_iff_get.1 ht
    have := mixture_self structs (· ∈ elems) top j
    have hfr : (structs.get j).frac = fun a => s.amt a / ∑ b, s.amt b := funext hc
    rw [hfr] at this
    have k := g.2 this
    simp only [HullEntry.perAtom, HullEntry.atoms] at k
    linarith

/-- C94. Hull weights never exceed the weights by composition: when every site holds an atom and
compositions are the atomic fractions, the energy above the hull is at least that above the
composition. -/
theorem C94_above_composition (structs : List (HullEntry m)) (elems : List (Fin m)) (es : List ℝ)
    (h : energiesAboveHull structs elems = some es) {C : Type*} [DecidableEq C]
    (data : List (C × ℝ × ℕ)) (hlen : data.length = structs.length)
    (hd : ∀ (i : ℕ) d s, data[i]? = some d → structs[i]? = some s →
      d.2.1 = s.energy ∧ (d.2.2 : ℝ) = ∑ b, s.amt b)
    (hc : ∀ (i j : ℕ) d d' s t, data[i]? = some d → data[j]? = some d' → structs[i]? = some s →
      structs[j]? = some t → d.1 = d'.1 → ∀ a, s.amt a / ∑ b, s.amt b = t.amt a / ∑ b, t.amt b)
    (i : ℕ) (e x : ℝ) (he : es[i]? = some e)
    (hx : (energiesAboveComposition data)[i]? = some (some x)) : x ≤ e := by
  obtain ⟨h1, -⟩ := C94_energies structs elems es h
  obtain ⟨hi, -⟩ := List.getElem?_eq_some_iff.1 he
  have hi1 : i < structs.length := by omega
  have hi2 : i < data.length := by omega
  obtain ⟨x', g1, -, ⟨d, hdm, hdc, hxe⟩, -⟩ := C62_energies_above_composition data i hi2
  have : x' = x := by simpa [g1] using hx
  subst this
  obtain ⟨j, hj, rfl⟩ := List.mem_iff_getElem.1 hdm
  have hj1 : j < structs.length := by omega
  have di := hd i _ _ (List.getElem?_eq_getElem hi2) (List.getElem?_eq_getElem hi1)
  have dj := hd j _ _ (List.getElem?_eq_getElem hj) (List.getElem?_eq_getElem hj1)
  rw [hxe, di.1, di.2, dj.1, dj.2]
  exact (C94_at_least structs elems es h i _ e (List.getElem?_eq_getElem hi1) he).2 _
    (List.getElem_mem hj1) (hc j i _ _ _ _ (List.getElem?_eq_getElem hj)
      (List.getElem?_eq_getElem hi2) (List.getElem?_eq_getElem hj1) (List.getElem?_eq_getElem hi1) hdc)

/-- C94, partial. The energy above the hull is that above the hull of the given structures alone, if
chemical potentials `μ` of the elements that support this hull at the structure can be chosen at most
1000 above the highest energy per atom.  Without this condition the claim of the docstring ("above the
hull of given structures") fails, see `C94_artificial_entries`. -/
theorem C94_structures_partial (structs : List (HullEntry m)) (elems : List (Fin m)) (es : List ℝ)
    (h : energiesAboveHull structs elems = some es) (i : ℕ) (s : HullEntry m) (e E₀ : ℝ)
    (hs : structs[i]? = some s) (he : es[i]? = some e)
    (hE : IsLeast {E | Spec.StructMixture (fun i => (structs.get i).amt)
      (fun i => (structs.get i).energy) (fun a => s.amt a / ∑ b, s.amt b) E} E₀)
    (hpos : ∀ t ∈ structs, 0 < ∑ b, t.amt b) (μ : Fin m → ℝ)
    (hμ : ∀ t ∈ structs, ∑ a, μ a * t.amt a ≤ t.energy)
    (hμ0 : ∑ a, μ a * (s.amt a / ∑ b, s.amt b) = E₀)
    (hμtop : ∀ a ∈ elems, ∃ t ∈ structs, μ a ≤ t.energy / ∑ b, t.amt b + 1000) :
    e = s.energy / ∑ b, s.amt b - E₀ := by
  have hle := (C94_at_least structs elems es h i s e hs he).1 E₀ hE.1
  obtain ⟨h1, top, ⟨-, h2⟩, h3⟩ := C94_energies structs elems es h
  obtain ⟨-, ⟨⟨w, u, k1, k2, k3, k4, k5, k6⟩, -⟩⟩ := h3 i s e hs he
  have hb : E₀ ≤ s.energy / ∑ b, s.amt b - e := by
    rw [k6, ← hμ0]
    calc ∑ a, μ a * (s.amt a / ∑ b, s.amt b)
        = ∑ a, μ a * (∑ j, w j * ((structs.get j).amt a / ∑ b, (structs.get j).amt b) + u a) :=
          Finset.sum_congr rfl fun a _ => congrArg (μ a * ·) (k5 a).symm
      _ = ∑ j, w j * ((∑ a, μ a * (structs.get j).amt a) / ∑ b, (structs.get j).amt b)
          + ∑ a, u a * μ a := by
          simp only [mul_add, Finset.sum_add_distrib, Finset.mul_sum, Finset.sum_div]
          rw [Finset.sum_comm]
          congr 1
          · refine Finset.sum_congr rfl fun j _ => Finset.sum_congr rfl fun a _ => ?_
            ring
          · exact Finset.sum_congr rfl fun a _ => mul_comm _ _
      _ ≤ _ := by
          refine add_le_add (Finset.sum_le_sum fun j _ => mul_le_mul_of_nonneg_left
            (div_le_div_of_nonneg_right (hμ _ (List.get_mem _ _)) (hpos _ (List.get_mem _ _)).le)
            (k1 j)) ?_
          rw [Finset.sum_mul]
          refine Finset.sum_le_sum fun a _ => ?_
          by_cases ha : a ∈ elems
          · obtain ⟨t, ht, hta⟩ := hμtop a ha
            have : t.energy / ∑ b, t.amt b ≤ top := h2 ⟨t, ht, rfl⟩
            exact mul_le_mul_of_nonneg_left (by linarith) (k2 a)
          · rw [k3 a ha]; simp
  linarith

/-- C94. The energies above the hull do not change when structures are replaced by supercells of
themselves (all amounts and the energy multiplied by the same factor). -/
theorem C94_supercells (structs : List (HullEntry m)) (elems : List (Fin m)) (k : HullEntry m → ℝ)
    (hk : ∀ s ∈ structs, k s ≠ 0) :
    energiesAboveHull (structs.map fun s => ⟨fun a => k s * s.amt a, k s * s.energy⟩) elems =
      energiesAboveHull structs elems := by
  have hp : ∀ s ∈ structs, (⟨fun a => k s * s.amt a, k s * s.energy⟩ : HullEntry m).perAtom =
      s.perAtom := fun s hs => by
    simp only [HullEntry.perAtom, HullEntry.atoms, ← Finset.mul_sum]
    exact mul_div_mul_left _ _ (hk s hs)
  have hf : ∀ s ∈ structs, (⟨fun a => k s * s.amt a, k s * s.energy⟩ : HullEntry m).frac =
      s.frac := fun s hs => by
    funext a
    simp only [HullEntry.frac, HullEntry.atoms, ← Finset.mul_sum]
    exact mul_div_mul_left _ _ (hk s hs)
  have hmap : (structs.map fun s => (⟨fun a => k s * s.amt a, k s * s.energy⟩ : HullEntry m)).map
      HullEntry.perAtom = structs.map HullEntry.perAtom := by
    rw [List.map_map]
    exact List.map_congr_left hp
  rcases h0 : energiesAboveHull structs elems with _ | es
  · rw [C94_raises] at h0 ⊢
    rcases h0 with rfl | ⟨s, hs, a, ha, hna, hn⟩
    · left; rfl
    · right
      refine ⟨_, List.mem_map_of_mem hs, a, mul_ne_zero (hk s hs) ha, hna, ?_⟩
      intro t ht hta
      obtain ⟨t, ht', rfl⟩ := List.mem_map.1 ht
      obtain ⟨b, hb, hb'⟩ := hn t ht' (right_ne_zero_of_mul hta)
      exact ⟨b, hb, mul_ne_zero (hk t ht') hb'⟩
  · rcases h1 : energiesAboveHull (structs.map fun s =>
        (⟨fun a => k s * s.amt a, k s * s.energy⟩ : HullEntry m)) elems with _ | es'
    · exfalso
      rw [C94_raises] at h1
      have : energiesAboveHull structs elems = none := by
        rw [C94_raises]
        rcases h1 with h1 | ⟨s, hs, a, ha, hna, hn⟩
        · left; exact List.map_eq_nil_iff.1 h1
        · right
          obtain ⟨s, hs', rfl⟩ := List.mem_map.1 hs
          refine ⟨s, hs', a, right_ne_zero_of_mul ha, hna, fun t ht hta => ?_⟩
          obtain ⟨b, hb, hb'⟩ := hn _ (List.mem_map_of_mem ht) (mul_ne_zero (hk t ht) hta)
          exact ⟨b, hb, right_ne_zero_of_mul hb'⟩
      rw [this] at h0
      cases h0
    · unfold energiesAboveHull hullEntries at h0 h1
      rw [hmap] at h1
      obtain ⟨l, a1, a2⟩ := Option.bind_eq_some_iff.1 h0
      obtain ⟨l', b1, b2⟩ := Option.bind_eq_some_iff.1 h1
      obtain ⟨top, c1, rfl⟩ := Option.map_eq_some_iff.1 a1
      obtain ⟨top', d1, rfl⟩ := Option.map_eq_some_iff.1 b1
      obtain rfl : top = top' := Option.some.inj (c1.symm.trans d1)
      split_ifs at a2 b2
      have hpts : hullPoints (structs.map (fun s =>
          (⟨fun a => k s * s.amt a, k s * s.energy⟩ : HullEntry m)) ++
          elems.map fun a => (⟨Pi.single a 1, top + 1000⟩ : HullEntry m)) =
          hullPoints (structs ++ elems.map fun a => (⟨Pi.single a 1, top + 1000⟩ : HullEntry m)) := by
        ext p
        simp only [hullPoints, Set.mem_ofPred_eq, List.mem_append]
        constructor
        · rintro ⟨e, he | he, rfl⟩
          · obtain ⟨s, hs, rfl⟩ := List.mem_map.1 he
            exact ⟨s, Or.inl hs, by rw [hp s hs, hf s hs]⟩
          · exact ⟨e, Or.inr he, rfl⟩
        · rintro ⟨e, he | he, rfl⟩
          · exact ⟨_, Or.inl (List.mem_map_of_mem he), by rw [hp e he, hf e he]⟩
          · exact ⟨e, Or.inr he, rfl⟩
      rw [← b2, ← a2]
      congr 1
      rw [List.map_map]
      refine List.map_congr_left fun s hs => ?_
      simp only [Function.comp, hp s hs, hf s hs, hullEnergy, hpts]

/-- C94. The energies above the hull do not depend on the zero of energy: adding the same amount `c`
per atom to all energies changes nothing. -/
theorem C94_shift (structs : List (HullEntry m)) (elems : List (Fin m)) (c : ℝ)
    (hpos : ∀ t ∈ structs, ∑ b, t.amt b ≠ 0) :
    energiesAboveHull (structs.map fun s => ⟨s.amt, s.energy + c * ∑ b, s.amt b⟩) elems =
      energiesAboveHull structs elems := by
  have hp : ∀ s ∈ structs, (⟨s.amt, s.energy + c * ∑ b, s.amt b⟩ : HullEntry m).perAtom =
      s.perAtom + c := fun s hs => by
    simp only [HullEntry.perAtom, HullEntry.atoms]
    rw [add_div, mul_div_assoc, div_self (hpos s hs), mul_one]
  have hnone : energiesAboveHull (structs.map fun s =>
      (⟨s.amt, s.energy + c * ∑ b, s.amt b⟩ : HullEntry m)) elems = none ↔
      energiesAboveHull structs elems = none := by
    rw [C94_raises, C94_raises]
    simp only [List.map_eq_nil_iff, List.mem_map, exists_exists_and_eq_and, forall_exists_index,
      and_imp, forall_apply_eq_imp_iff₂]
  rcases h0 : energiesAboveHull structs elems with _ | es
  · rw [hnone, h0]
  rcases h1 : energiesAboveHull (structs.map fun s =>
      (⟨s.amt, s.energy + c * ∑ b, s.amt b⟩ : HullEntry m)) elems with _ | es'
  · rw [hnone.1 h1] at h0
    cases h0
  have h1' := h1
  unfold energiesAboveHull at h0 h1
  obtain ⟨l, a1, a2⟩ := Option.bind_eq_some_iff.1 h0
  obtain ⟨l', b1, b2⟩ := Option.bind_eq_some_iff.1 h1
  obtain ⟨top, c1, rfl⟩ := Option.map_eq_some_iff.1 a1
  obtain ⟨top', d1, rfl⟩ := Option.map_eq_some_iff.1 b1
  obtain ⟨c2, c3⟩ := List.max?_eq_some_iff.1 c1
  obtain ⟨d2, d3⟩ := List.max?_eq_some_iff.1 d1
  obtain rfl : top' = top + c := by
    obtain ⟨s, hs, rfl⟩ := List.mem_map.1 c2
    obtain ⟨t', ht', rfl⟩ := List.mem_map.1 d2
    obtain ⟨t, ht, rfl⟩ := List.mem_map.1 ht'
    have k1 := c3 _ (List.mem_map_of_mem (f := HullEntry.perAtom) ht)
    have k2 := d3 _ (List.mem_map_of_mem (f := HullEntry.perAtom) (List.mem_map_of_mem hs))
    rw [hp s hs] at k2
    rw [hp t ht] at k2 ⊢
    linarith
  split_ifs at a2 b2
  rw [h1', ← b2, ← a2]
  congr 1
  rw [List.map_map]
  refine List.map_congr_left fun s hs => ?_
  have hf : (⟨s.amt, s.energy + c * ∑ b, s.amt b⟩ : HullEntry m).frac = s.frac := rfl
  simp only [Function.comp, hp s hs, hf]
  have m1 : ∀ E, (s.frac, E) ∈ convexHull ℝ (hullPoints (structs ++
        elems.map fun a => (⟨Pi.single a 1, top + 1000⟩ : HullEntry m))) →
      (s.frac, E + c) ∈ convexHull ℝ (hullPoints ((structs.map fun s =>
        (⟨s.amt, s.energy + c * ∑ b, s.amt b⟩ : HullEntry m)) ++
        elems.map fun a => (⟨Pi.single a 1, top + c + 1000⟩ : HullEntry m))) := by
    refine fun E => hull_shift _ _ c ?_ _ _
    rintro p ⟨e, he, rfl⟩
    rcases List.mem_append.1 he with he | he
    · exact ⟨_, List.mem_append.2 (Or.inl (List.mem_map_of_mem he)), by rw [hp e he]; rfl⟩
    · obtain ⟨a, ha, rfl⟩ := List.mem_map.1 he
      refine ⟨_, List.mem_append.2 (Or.inr (List.mem_map_of_mem ha)), ?_⟩
      simp only [frac_single, perAtom_single]
      rw [add_right_comm]
  have m2 : ∀ E, (s.frac, E) ∈ convexHull ℝ (hullPoints ((structs.map fun s =>
        (⟨s.amt, s.energy + c * ∑ b, s.amt b⟩ : HullEntry m)) ++
        elems.map fun a => (⟨Pi.single a 1, top + c + 1000⟩ : HullEntry m))) →
      (s.frac, E + -c) ∈ convexHull ℝ (hullPoints (structs ++
        elems.map fun a => (⟨Pi.single a 1, top + 1000⟩ : HullEntry m))) := by
    refine fun E => hull_shift _ _ (-c) ?_ _ _
    rintro p ⟨e, he, rfl⟩
    rcases List.mem_append.1 he with he | he
    · obtain ⟨t, ht, rfl⟩ := List.mem_map.1 he
      refine ⟨t, List.mem_append.2 (Or.inl ht), ?_⟩
      rw [hp t ht]
      simp only [add_neg_cancel_right]
      rfl
    · obtain ⟨a, ha, rfl⟩ := List.mem_map.1 he
      refine ⟨_, List.mem_append.2 (Or.inr (List.mem_map_of_mem ha)), ?_⟩
      simp only [frac_single, perAtom_single]
      congr 1
      ring
  have hself : (s.frac, s.perAtom) ∈ convexHull ℝ (hullPoints (structs ++
      elems.map fun a => (⟨Pi.single a 1, top + 1000⟩ : HullEntry m))) :=
    subset_convexHull ℝ _ ⟨s, List.mem_append.2 (Or.inl hs), rfl⟩
  have l1 := hullEnergy_isLeast _ _ _ hself
  have l2 := hullEnergy_isLeast _ _ _ (m1 _ hself)
  have q1 := l2.2 (m1 _ l1.1)
  have q2 := l1.2 (m2 _ l2.1)
  linarith

/-- Two structures of a binary expansion with energies as codes with all electrons give them: one
atom each of `A` and `B` at -17050 per atom, and three `B` for one `A` at -25525 per atom. -/
noncomputable def hullWitness : List (HullEntry 2) :=
  [⟨![1, 1], -34100⟩, ⟨![1, 3], -102100⟩]

/-- C94. Negation of "energies above the hull of the given structures": the first of two structures is
the only mixture of them with its composition, thus on their hull, but is given an energy of more than
5000 per atom above the hull, because of the artificial element `A` at 1000 above the highest energy.-/
theorem C94_artificial_entries : ∃ es e, energiesAboveHull hullWitness [0, 1] = some es ∧
    es[0]? = some e ∧ 5000 < e ∧
    IsLeast {E | Spec.StructMixture (fun i => (hullWitness.get i).amt)
      (fun i => (hullWitness.get i).energy) ![1 / 2, 1 / 2] E} (-34100 / 2) := by
  have hn : energiesAboveHull hullWitness [0, 1] ≠ none := by
    rw [Ne, C94_raises]
    rintro (h | ⟨s, hs, a, -, ha, -⟩)
    · cases h
    · exact ha (by revert a; decide)
  obtain ⟨es, he⟩ := Option.ne_none_iff_exists'.1 hn
  obtain ⟨h1, top, ⟨⟨s, hs, hst⟩, h2⟩, h3⟩ := C94_energies _ _ es he
  have hl : es.length = 2 := h1
  have htop : top = -17050 := by
    have g : (-34100 : ℝ) / (1 + 1) ≤ top := by
      refine h2 ⟨⟨![1, 1], -34100⟩, by simp [hullWitness], ?_⟩
      simp [Fin.sum_univ_two]
    simp only [hullWitness, List.mem_cons, List.not_mem_nil, or_false] at hs
    rcases hs with rfl | rfl
    · rw [hst]
      simp only [Fin.sum_univ_two, Matrix.cons_val_zero, Matrix.cons_val_one]
      norm_num
    · exfalso
      rw [hst] at g
      simp only [Fin.sum_univ_two, Matrix.cons_val_zero, Matrix.cons_val_one] at g
      norm_num at g
  have he0 : es[0]? = some es[0] := List.getElem?_eq_getElem (by omega)
  obtain ⟨-, -, g⟩ := h3 0 ⟨![1, 1], -34100⟩ es[0] rfl he0
  refine ⟨es, es[0], he, he0, ?_, ?_, ?_⟩
  · have hm : Spec.HullMixture (fun i => (hullWitness.get i).amt)
        (fun i => (hullWitness.get i).energy) (· ∈ ([0, 1] : List (Fin 2))) top
        (fun a => (![1, 1] : Fin 2 → ℝ) a / ∑ b, (![1, 1] : Fin 2 → ℝ) b) (-67100 / 3) := by
      refine ⟨fun i => if i.1 = 1 then 2 / 3 else 0, ![1 / 3, 0], ?_, ?_, ?_, ?_, ?_, ?_⟩
      · intro i; dsimp only; split <;> norm_num
      · intro a; fin_cases a <;> simp
      · intro a ha; exact absurd (by revert a; decide) ha
      · change ∑ i : Fin 2, _ + _ = _
        simp [Fin.sum_univ_two]; norm_num
      · intro a
        change ∑ i : Fin 2, _ + _ = _
        fin_cases a <;> simp [Fin.sum_univ_two, hullWitness] <;> norm_num
      · change _ = ∑ i : Fin 2, _ + _
        simp [Fin.sum_univ_two, hullWitness, htop]; norm_num
    have := g hm
    simp only [Fin.sum_univ_two, Matrix.cons_val_zero, Matrix.cons_val_one] at this
    linarith
  · refine ⟨fun i => if i.1 = 0 then 1 else 0, ?_, ?_, ?_, ?_⟩
    · intro i; dsimp only; split <;> norm_num
    · change ∑ i : Fin 2, _ = _
      simp
    · intro a
      change ∑ i : Fin 2, _ = _
      fin_cases a <;> simp [Fin.sum_univ_two, hullWitness] <;> norm_num
    · change _ = ∑ i : Fin 2, _
      simp [Fin.sum_univ_two, hullWitness]; norm_num
  · rintro E ⟨w, k1, k2, k3, rfl⟩
    have k3 := k3 0
    have k2 : w (0 : Fin 2) + w (1 : Fin 2) = 1 :=
      (Fin.sum_univ_two (w : Fin 2 → ℝ)).symm.trans k2
    change ∑ i : Fin 2, _ = _ at k3
    change _ ≤ ∑ i : Fin 2, _
    have w1 := k1 (1 : Fin 2)
    have w0 := k1 (0 : Fin 2)
    simp [Fin.sum_univ_two, hullWitness] at k3 ⊢
    norm_num at k3 ⊢
    linarith

/-- A structure of `A B` at -2 per atom and one of `A B₃` at -1 per atom. -/
noncomputable def hullPair : List (HullEntry 2) := [⟨![1, 1], -4⟩, ⟨![1, 3], -4⟩]

theorem hullPair_some : ∃ es, energiesAboveHull hullPair [0, 1] = some es := by
  refine Option.ne_none_iff_exists'.1 ?_
  rw [Ne, C94_raises]
  rintro (h | ⟨s, hs, a, -, ha, -⟩)
  · cases h
  · exact ha (by revert a; decide)

/-- The hypotheses of `C94_structures_partial` for the second structure, with chemical potentials -4
and 0: both structures are on the hull. -/
example : ∃ es, energiesAboveHull hullPair [0, 1] = some es ∧ es[1]? = some 0 := by
  obtain ⟨es, he⟩ := hullPair_some
  obtain ⟨hl, -⟩ := C94_energies _ _ es he
  have hl : es.length = 2 := hl
  refine ⟨es, he, ?_⟩
  have h1 : es[1]? = some es[1] := List.getElem?_eq_getElem (by omega)
  rw [h1]
  congr 1
  have := C94_structures_partial hullPair [0, 1] es he 1 ⟨![1, 3], -4⟩ es[1] (-1) rfl h1 ?_ ?_
    ![-4, 0] ?_ ?_ ?_
  · rw [this]
    simp only [Fin.sum_univ_two, Matrix.cons_val_zero, Matrix.cons_val_one]
    norm_num
  · constructor
    · refine ⟨fun i => if i.1 = 1 then 1 else 0, ?_, ?_, ?_, ?_⟩
      · intro i; dsimp only; split <;> norm_num
      · exact (Fin.sum_univ_two (fun i : Fin 2 => if i.1 = 1 then (1 : ℝ) else 0)).trans (by simp)
      · intro a
        change ∑ i : Fin 2, _ = _
        fin_cases a <;> simp [Fin.sum_univ_two, hullPair]
      · change _ = ∑ i : Fin 2, _
        simp [Fin.sum_univ_two, hullPair]; norm_num
    · rintro E ⟨w, k1, k2, k3, rfl⟩
      have k3 := k3 0
      have k2 : w (0 : Fin 2) + w (1 : Fin 2) = 1 :=
        (Fin.sum_univ_two (w : Fin 2 → ℝ)).symm.trans k2
      change ∑ i : Fin 2, _ = _ at k3
      change _ ≤ ∑ i : Fin 2, _
      have w1 := k1 (1 : Fin 2)
      have w0 := k1 (0 : Fin 2)
      simp [Fin.sum_univ_two, hullPair] at k3 ⊢
      norm_num at k3 ⊢
      linarith
  · intro t ht
    simp only [hullPair, List.mem_cons, List.not_mem_nil, or_false] at ht
    rcases ht with rfl | rfl <;> simp [Fin.sum_univ_two]; norm_num
  · intro t ht
    simp only [hullPair, List.mem_cons, List.not_mem_nil, or_false] at ht
    rcases ht with rfl | rfl <;> simp [Fin.sum_univ_two]
  · simp [Fin.sum_univ_two]; norm_num
  · intro a _
    refine ⟨⟨![1, 1], -4⟩, by simp [hullPair], ?_⟩
    fin_cases a <;> simp [Fin.sum_univ_two] <;> norm_num

/-- The hypotheses of `C94_lowest` for the first structure. -/
example : ∃ ws, weightsAboveHull hullPair [0, 1] 1 = some ws ∧ ws[0]? = some 1 := by
  obtain ⟨es, he⟩ := hullPair_some
  have hw : weightsAboveHull hullPair [0, 1] 1 = some (es.map fun e => Real.exp (-e / 1)) := by
    rw [weightsAboveHull, he]; rfl
  refine ⟨_, hw, C94_lowest hullPair [0, 1] 1 one_pos _ hw 0 ⟨![1, 1], -4⟩ rfl ?_⟩
  intro t ht
  simp only [hullPair, List.mem_cons, List.not_mem_nil, or_false] at ht
  rcases ht with rfl | rfl <;> simp [Fin.sum_univ_two]
  norm_num

end Smol
