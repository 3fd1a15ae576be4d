import Verif.Spec.BasisIO

/-! Lemmas for saved site bases. -/

namespace Smol
open Smol.Spec

theorem toNat_toLower (c : Char) :
    c.toLower.toNat = if 65 ≤ c.toNat ∧ c.toNat ≤ 90 then c.toNat + 32 else c.toNat := by
  have h65 : ('A'.val).toNat = 65 := by decide
  have h90 : ('Z'.val).toNat = 90 := by decide
  have hd : ('a'.val - 'A'.val).toNat = 32 := by decide
  unfold Char.toLower
  by_cases h : c.val ≥ 'A'.val ∧ c.val ≤ 'Z'.val
  · have h' : 65 ≤ c.toNat ∧ c.toNat ≤ 90 := by
      have h1 := UInt32.le_iff_toNat_le.1 h.1
      have h2 := UInt32.le_iff_toNat_le.1 h.2
      unfold Char.toNat
      omega
    rw [dif_pos h, if_pos h']
    show (c.val + ('a'.val - 'A'.val)).toNat = c.val.toNat + 32
    rw [UInt32.toNat_add, hd]
    unfold Char.toNat at h'
    omega
  · have h' : ¬ (65 ≤ c.toNat ∧ c.toNat ≤ 90) := by
      intro hc
      apply h
      rw [ge_iff_le, UInt32.le_iff_toNat_le, UInt32.le_iff_toNat_le]
      unfold Char.toNat at hc
      omega
    rw [dif_neg h, if_neg h']

theorem toNat_toUpper (c : Char) :
    c.toUpper.toNat = if 97 ≤ c.toNat ∧ c.toNat ≤ 122 then c.toNat - 32 else c.toNat := by
  have h97 : ('a'.val).toNat = 97 := by decide
  have h122 : ('z'.val).toNat = 122 := by decide
  have hd : ('A'.val - 'a'.val).toNat = 4294967264 := by decide
  unfold Char.toUpper
  by_cases h : 'a'.val ≤ c.val ∧ c.val ≤ 'z'.val
  · have h' : 97 ≤ c.toNat ∧ c.toNat ≤ 122 := by
      have h1 := UInt32.le_iff_toNat_le.1 h.1
      have h2 := UInt32.le_iff_toNat_le.1 h.2
      unfold Char.toNat
      omega
    rw [dif_pos h, if_pos h']
    show (c.val + ('A'.val - 'a'.val)).toNat = c.val.toNat - 32
    rw [UInt32.toNat_add, hd]
    unfold Char.toNat at h'
    omega
  · have h' : ¬ (97 ≤ c.toNat ∧ c.toNat ≤ 122) := by
      intro hc
      apply h
      rw [UInt32.le_iff_toNat_le, UInt32.le_iff_toNat_le]
      unfold Char.toNat at hc
      omega
    rw [dif_neg h, if_neg h']

theorem toUpper_eq_iff (c d : Char) : c.toUpper = d.toUpper ↔ c.toLower = d.toLower := by
  have inj : ∀ a b : Char, a = b ↔ a.toNat = b.toNat := fun a b =>
    ⟨fun h => by rw [h], fun h => Char.ext (UInt32.toNat_inj.1 h)⟩
  rw [inj, inj, toNat_toUpper, toNat_toUpper, toNat_toLower, toNat_toLower]
  repeat' split
  all_goals omega

theorem capitalizeName_eq_iff (a b : List Char) :
    capitalizeName a = capitalizeName b ↔ SameUpToCase a b := by
  unfold SameUpToCase
  cases a <;> cases b <;> simp [capitalizeName, toUpper_eq_iff]

theorem flavorOf_eq_some_iff (name : List Char) (fl : Flavor) :
    flavorOf name = some fl ↔ SameUpToCase name fl.name := by
  have key : ∀ g : Flavor, (g.className = capitalizeName name ++ ['I', 't', 'e', 'r', 'a', 't', 'o', 'r']) ↔
      SameUpToCase name g.name := fun g => by
    unfold Flavor.className
    rw [List.append_cancel_right_eq, eq_comm, capitalizeName_eq_iff]
  have uniq : ∀ g h : Flavor, SameUpToCase name g.name → SameUpToCase name h.name → g = h := by
    intro g h hg hh
    unfold SameUpToCase at hg hh
    have : g.name.map Char.toLower = h.name.map Char.toLower := hg.symm.trans hh
    revert this
    cases g <;> cases h <;> decide
  have mem : ∀ g : Flavor, g ∈ allFlavors := by intro g; cases g <;> decide
  unfold flavorOf
  constructor
  · intro h
    have := List.find?_some h
    exact (key fl).1 (by simpa using this)
  · intro h
    cases hf : allFlavors.find? fun fl =>
        decide (fl.className = capitalizeName name ++ ['I', 't', 'e', 'r', 'a', 't', 'o', 'r']) with
    | none =>
      rw [List.find?_eq_none] at hf
      exact absurd ((key fl).2 h) (by simpa using hf fl (mem fl))
    | some g =>
      have := List.find?_some hf
      rw [uniq g fl ((key g).1 (by simpa using this)) h]

theorem flavorOf_name (fl : Flavor) : flavorOf fl.name = some fl :=
  (flavorOf_eq_some_iff _ _).2 rfl

theorem init_isSome (fl : Flavor) {m : ℕ} (hm : 2 ≤ m) (measure : Fin m → ℝ) :
    ∃ b, SiteBasis.init fl measure = some b ∧ b.measure = measure ∧ b.rot = 1 := by
  unfold SiteBasis.init funRows
  have h : (((List.range m).map fun k => siteFn fl m k).dropLast).isEmpty = false := by
    rw [Bool.eq_false_iff]
    intro h
    have := congrArg List.length (List.isEmpty_iff.1 h)
    simp at this
    omega
  simp only [h]
  exact ⟨_, rfl, rfl, rfl⟩

theorem load_of {m : ℕ} (hm : 2 ≤ m) (d : BasisDict m) (fl : Flavor) (hfl : flavorOf d.flavor = some fl) :
    d.load = some ⟨fl, ⟨d.measure, d.func, d.orthonorm, d.rot.getD 1⟩, d.orthonorm.isNone, true⟩ := by
  obtain ⟨b, hb, hm1, hr⟩ := init_isSome fl hm d.measure
  unfold BasisDict.load basisFactory
  rw [hfl]
  simp [hb, hm1, hr]

theorem basis_reload_eq {m : ℕ} (hm : 2 ≤ m) (B : LiveBasis m) (hB : B.isSpace = true) :
    B.toDict.bind BasisDict.load = some { B with nullR := B.core.r.isNone } := by
  unfold LiveBasis.toDict
  rw [if_pos hB]
  simp only [Option.bind_some]
  rw [load_of hm _ B.flavor (flavorOf_name _)]
  cases B
  simp_all

/-- Bases that differ at most in how a missing orthonormalisation array is written. -/
def AlikeBasis {m : ℕ} (B B' : LiveBasis m) : Prop :=
  B'.flavor = B.flavor ∧ B'.core = B.core ∧ B'.isSpace = B.isSpace

section
variable {m : ℕ} [NeZero m]
  (qr : Matrix (Fin m) (Fin m) ℝ → Matrix (Fin m) (Fin m) ℝ × Matrix (Fin m) (Fin m) ℝ)

theorem step_reload_alike (hm : 2 ≤ m) (B : LiveBasis m) :
    AlikeBasis B (B.step qr .reload).1 ∧ (B.step qr .reload).2 = !B.isSpace := by
  simp only [LiveBasis.step]
  cases hB : B.isSpace with
  | true =>
    rw [basis_reload_eq hm B hB]
    exact ⟨⟨rfl, rfl, rfl⟩, rfl⟩
  | false =>
    have : B.toDict = none := by simp [LiveBasis.toDict, hB]
    rw [this]
    exact ⟨⟨rfl, rfl, rfl⟩, rfl⟩

theorem step_change_alike {B B' : LiveBasis m} (h : AlikeBasis B B') {o : BasisOp} (ho : IsChange o) :
    AlikeBasis (B.step qr o).1 (B'.step qr o).1 ∧ (B'.step qr o).2 = (B.step qr o).2 := by
  obtain ⟨h1, h2, h3⟩ := h
  cases o with
  | reload => exact absurd ho (by simp [IsChange])
  | orthonormalize =>
    simp only [LiveBasis.step]
    rw [h2]
    exact ⟨⟨h1, rfl, h3⟩, trivial⟩
  | rotate θ i j =>
    simp only [LiveBasis.step]
    rw [h2]
    cases B.core.rotate θ i j with
    | none => exact ⟨⟨h1, h2, h3⟩, rfl⟩
    | some c => exact ⟨⟨h1, rfl, h3⟩, rfl⟩

theorem session_alike (hm : 2 ≤ m) {changes ops : List BasisOp} (hi : Interspersed changes ops)
    {B B' : LiveBasis m} (h : AlikeBasis B B') :
    AlikeBasis (B.session qr changes) (B'.session qr ops) := by
  induction hi generalizing B B' with
  | nil => exact h
  | reload _ ih =>
    refine ih ?_
    obtain ⟨⟨a, b, c⟩, -⟩ := step_reload_alike qr hm B'
    exact ⟨a.trans h.1, b.trans h.2.1, c.trans h.2.2⟩
  | change o ho _ ih => exact ih (step_change_alike qr h ho).1

theorem step_array (hm : 2 ≤ m) (B : LiveBasis m) (hB : B.isSpace = true) (o : BasisOp) :
    (B.step qr o).1.isSpace = true ∧
    ((B.step qr o).1.core.r.isSome ↔ B.core.r.isSome ∨ o = .orthonormalize) ∧
    ((B.step qr o).1.core.r.isSome = false →
      ((B.step qr o).1.nullR = true ↔ B.nullR = true ∨ o = .reload)) := by
  cases o with
  | orthonormalize =>
    have hs : ((B.step qr .orthonormalize).1.core.r).isSome = true := rfl
    refine ⟨hB, ⟨fun _ => Or.inr rfl, fun _ => hs⟩, fun h => ?_⟩
    rw [hs] at h
    cases h
  | reload =>
    simp only [LiveBasis.step]
    rw [basis_reload_eq hm B hB]
    cases B.core.r <;> simp [hB]
  | rotate θ i j =>
    have hr : ∀ c, B.core.rotate θ i j = some c → c.r = B.core.r := by
      intro c hc
      unfold SiteBasis.rotate at hc
      split at hc
      · cases hc
      · split at hc
        · cases hc
          rfl
        · split at hc
          · cases hc
          · cases hc
            rfl
    simp only [LiveBasis.step]
    cases h : B.core.rotate θ i j with
    | none => simp [hB]
    | some c => simp [hB, hr c h]

theorem session_array (hm : 2 ≤ m) (ops : List BasisOp) (B : LiveBasis m) (hB : B.isSpace = true) :
    ((B.session qr ops).core.r.isSome ↔ B.core.r.isSome ∨ BasisOp.orthonormalize ∈ ops) ∧
    ((B.session qr ops).core.r.isSome = false →
      ((B.session qr ops).nullR = true ↔ B.nullR = true ∨ BasisOp.reload ∈ ops)) := by
  induction ops generalizing B with
  | nil => simp [LiveBasis.session]
  | cons o ops ih =>
    obtain ⟨s1, s2, s3⟩ := step_array qr hm B hB o
    obtain ⟨i1, i2⟩ := ih (B.step qr o).1 s1
    simp only [LiveBasis.session]
    refine ⟨?_, fun h => ?_⟩
    · rw [i1, s2, List.mem_cons, eq_comm (a := o), or_assoc]
    · have hs : (B.step qr o).1.core.r.isSome = false := by
        cases hq : (B.step qr o).1.core.r.isSome with
        | false => rfl
        | true =>
          have := i1.2 (Or.inl hq)
          rw [this] at h
          exact absurd h (by simp)
      rw [i2 h, s3 hs, List.mem_cons, eq_comm (a := o), or_assoc]

end

end Smol
