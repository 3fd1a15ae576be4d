import Verif.Model.Orbit
import Verif.Model.SiteBasis

/-!
# Correlation functions of an orbit and rotated site bases

Models `Orbit.rotation_array`, smol/cofe/space/orbit.py:268-295, on top of `Model/Orbit` and
`Model/SiteBasis`.  The sites of a cluster may have different numbers of species.
-/

namespace Smol
open Matrix

/-- Entry of `function_array`, the rows without the constant one, smol/cofe/space/basis.py:217-220
and orbit.py:203-206. -/
noncomputable def functionAt (B : (m : ℕ) × SiteBasis m) (b c : ℕ) : ℝ :=
  if h : c < B.1 then rowOf B.2.f (b + 1) ⟨c, h⟩ else 0

/-- One factor of an entry of `rotation_array`, smol/cofe/space/orbit.py:282-287. -/
noncomputable def siteOverlap (B : (m : ℕ) × SiteBasis m) (bi bj : ℕ) : ℝ :=
  (B.2.rot.transpose *ᵥ rowOf B.2.f (bj + 1)) ⬝ᵥ fun s => B.2.measure s * rowOf B.2.f (bi + 1) s

/-- Entry of `rotation_array`, smol/cofe/space/orbit.py:279-293. -/
noncomputable def orbitRotation (bases : ℕ → (m : ℕ) × SiteBasis m) (combosI combosJ : List (List ℕ)) :
    ℝ :=
  (combosI.map fun bi => (combosJ.map fun bj =>
    ((List.range bi.length).map fun k =>
      siteOverlap (bases k) (bi.getD k 0) (bj.getD k 0)).prod).sum).sum / (combosI.length : ℝ)

end Smol
