import Verif.Lemmas.LegacyContainer

/-!
# C104: containers saved by older versions
-/

namespace Smol
open Smol.Spec

variable {K : Type*} [Field K]

/-- C104. Without an ensemble everything is as saved: sublattices, parameters, samples, steps and
energies. -/
theorem C104_without_ensemble (subl : List Sublattice) (params : List K) (ncoefs : ℕ)
    (trace : List (List K × K)) (steps : ℕ) :
    ∃ b, (BoxFile.legacy subl params ncoefs trace steps).load none = some b ∧ b.ens = none ∧
      b.sublattices = some subl ∧ b.naturalParameters = some params ∧ b.trace = trace ∧ b.steps = steps ∧
      (params.length = ncoefs → b.energies = some (trace.map Prod.snd)) ∧
      (params.length ≠ ncoefs → b.energies = some (trace.map fun t => energyOf ncoefs params t.1)) := by
  refine ⟨_, rfl, rfl, rfl, rfl, rfl, rfl, fun h => ?_, fun h => ?_⟩
  · simp [SampleBox.energies, SampleBox.naturalParameters, SampleBox.new, h]
  · simp [SampleBox.energies, SampleBox.naturalParameters, SampleBox.new, h, energyOf]

omit [Field K] in
/-- C104. An ensemble whose sublattices differ from each other is accepted exactly if its sublattices are those
saved, in any order; samples and steps are as saved, the rest is that of the ensemble. -/
theorem C104_with_ensemble (e : BoxEns K) (hd : (e.subl.map compared).Nodup) (subl : List Sublattice)
    (params : List K) (ncoefs : ℕ) (trace : List (List K × K)) (steps : ℕ) :
    (SameSublattices e.subl subl →
      ∃ b, (BoxFile.legacy subl params ncoefs trace steps).load (some e) = some b ∧ b.ens = some e ∧
        b.sublattices = some e.subl ∧ b.naturalParameters = some e.params ∧ b.ncoefs = some e.ncoefs ∧
        b.trace = trace ∧ b.steps = steps) ∧
    (¬ SameSublattices e.subl subl →
      (BoxFile.legacy subl params ncoefs trace steps).load (some e) = none) := by
  have h := legacy_check_iff e.subl subl hd
  refine ⟨fun hs => ?_, fun hs => ?_⟩
  · have := h.2 hs
    simp only [BoxFile.load, SampleBox.fromLegacy, this, Bool.false_eq_true, if_false]
    exact ⟨_, rfl, rfl, rfl, rfl, rfl, rfl, rfl⟩
  · have := Bool.eq_true_of_not_eq_false fun hc => hs (h.1 hc)
    simp only [BoxFile.load, SampleBox.fromLegacy, this, if_true, Option.map_none]

/-- C104, violated. Parameters are not checked: of two ensembles with the sublattices of the file both are
accepted, and energies are those of the ensemble's parameters, not of the parameters the samples were
drawn with. -/
theorem C104_parameters_unchecked (e : BoxEns K) (hd : (e.subl.map compared).Nodup)
    (hne : e.params.length ≠ e.ncoefs) (subl : List Sublattice) (hs : SameSublattices e.subl subl)
    (params : List K) (ncoefs : ℕ) (trace : List (List K × K)) (steps : ℕ) :
    ∃ b, (BoxFile.legacy subl params ncoefs trace steps).load (some e) = some b ∧
      b.energies = some (trace.map fun t => energyOf e.ncoefs e.params t.1) := by
  obtain ⟨b, hb, -, -, h1, h2, h3, -⟩ := (C104_with_ensemble e hd subl params ncoefs trace steps).1 hs
  refine ⟨b, hb, ?_⟩
  unfold SampleBox.energies
  rw [h1, h2, h3]
  simp [hne, energyOf]

omit [Field K] in
/-- C104. A container with an ensemble can be saved again, as a dictionary or as an hdf5 file, and loads as it was
without giving an ensemble, whatever is given. -/
theorem C104_saved_again (e : BoxEns K) (f : BoxFile K) (g : Option (BoxEns K)) {b : SampleBox K}
    (hb : f.load g = some b) (he : b.ens = some e) (g' : Option (BoxEns K)) :
    (∃ d, b.asDict = some d ∧ d.load g' = some b) ∧ b.toHdf5.load g' = some b := by
  have hform : b = { SampleBox.new (some e) b.trace with steps := b.steps } := by
    cases f with
    | current e' trace steps =>
      cases e' with
      | none => simp [BoxFile.load] at hb
      | some e' =>
        simp only [BoxFile.load, Option.some.injEq] at hb
        subst hb
        simp only [SampleBox.new, Option.some.injEq] at he
        subst he
        rfl
    | legacy subl params ncoefs trace steps =>
      cases g with
      | none =>
        simp only [BoxFile.load, SampleBox.fromLegacy, Option.map_some, Option.some.injEq] at hb
        subst hb
        simp [SampleBox.new] at he
      | some e' =>
        simp only [BoxFile.load, SampleBox.fromLegacy] at hb
        split at hb
        · simp at hb
        · simp only [Option.map_some, Option.some.injEq] at hb
          subst hb
          simp only [SampleBox.new, Option.some.injEq] at he
          subst he
          rfl
  refine ⟨⟨.current (some e) b.trace b.steps, ?_, ?_⟩, ?_⟩
  · simp [SampleBox.asDict, he]
  · simp only [BoxFile.load]
    exact congrArg some hform.symm
  · simp only [SampleBox.toHdf5, he, BoxFile.load]
    exact congrArg some hform.symm

omit [Field K] in
/-- C104, violated. A container loaded without an ensemble can not be saved as a dictionary; as an hdf5 file it
is written, but the file can not be loaded, with any ensemble or without. -/
theorem C104_lost {b : SampleBox K} (he : b.ens = none) : b.asDict = none ∧ ∀ g', b.toHdf5.load g' = none := by
  refine ⟨by simp [SampleBox.asDict, he], fun g' => ?_⟩
  simp [SampleBox.toHdf5, he, BoxFile.load]

/-! ### examples -/

private def slA : Sublattice := Sublattice.new [0, 1] [0, 1, 2]
private def slB : Sublattice := Sublattice.new [2, 3] [3, 4]
private def ensAB : BoxEns ℚ := ⟨[slA, slB.restrict [3]], [2, -1, 5], 2⟩

/-- another order and restricted sites are accepted -/
example : SameSublattices ensAB.subl [slB, slA] ∧ (ensAB.subl.map compared).Nodup ∧
    ensAB.params.length ≠ ensAB.ncoefs := by
  refine ⟨?_, by decide +kernel, by decide⟩
  unfold SameSublattices
  decide +kernel

example : (((BoxFile.legacy [slB, slA] [7, 7, 5] 2 [([1, 1, 3], 29)] 10).load (some ensAB)).bind
    SampleBox.energies) = some [1] := by decide +kernel

example : (((BoxFile.legacy [slB, slA] [7, 7, 5] 2 [([1, 1, 3], 29)] 10 : BoxFile ℚ).load none).bind
    SampleBox.energies) = some [14] := by decide +kernel

example : ((BoxFile.legacy [slB] [7, 7, 5] 2 [([1, 1, 3], 29)] 10).load (some ensAB)).isNone := by
  decide +kernel

end Smol
