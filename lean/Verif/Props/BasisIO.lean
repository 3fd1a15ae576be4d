import Verif.Lemmas.BasisIO

/-!
# C102: saved site bases
-/

namespace Smol
open Smol.Spec

section
variable {m : ℕ}

/-- C102. A basis over a site space with at least two species can be saved and loaded, and has the same
functions, measure, rotation and orthonormalisation; saving it again gives the same dictionary. -/
theorem C102_reload (hm : 2 ≤ m) (B : LiveBasis m) (hB : B.isSpace = true) :
    ∃ d B', B.toDict = some d ∧ d.loadAny = some (.standard B') ∧ d.load = some B' ∧ SameBasis B B' ∧
      B'.toDict = some d := by
  have h := basis_reload_eq hm B hB
  obtain ⟨d, hd⟩ : ∃ d, B.toDict = some d := by
    unfold LiveBasis.toDict
    rw [if_pos hB]
    exact ⟨_, rfl⟩
  rw [hd, Option.bind_some] at h
  have hc : d.className = "StandardBasis" := by
    unfold LiveBasis.toDict at hd
    rw [if_pos hB, Option.some.injEq] at hd
    rw [← hd]
  refine ⟨d, _, hd, ?_, h, ⟨rfl, rfl, rfl, rfl, rfl⟩, ?_⟩
  · unfold BasisDict.loadAny
    rw [if_pos hc, h]
    rfl
  · rw [← hd]
    rfl

/-- C102. Saving and loading, any number of times and anywhere in a session, makes no difference to the
basis at the end of the session, nor to which later changes raise. -/
theorem C102_sessions [NeZero m] (hm : 2 ≤ m)
    (qr : Matrix (Fin m) (Fin m) ℝ → Matrix (Fin m) (Fin m) ℝ × Matrix (Fin m) (Fin m) ℝ)
    (B : LiveBasis m) {changes ops : List BasisOp} (hi : Interspersed changes ops) :
    SameBasis (B.session qr changes) (B.session qr ops) ∧
      ∀ o, IsChange o →
        ((B.session qr ops).step qr o).2 = ((B.session qr changes).step qr o).2 := by
  have h := session_alike qr hm hi (B := B) (B' := B) ⟨rfl, rfl, rfl⟩
  refine ⟨⟨h.1, ?_, ?_, ?_, ?_⟩, fun o ho => (step_change_alike qr h ho).2⟩
  all_goals rw [h.2.1]

/-- C102. Saving raises exactly for bases whose domain is not a `SiteSpace`. -/
theorem C102_save_raises [NeZero m] (hm : 2 ≤ m)
    (qr : Matrix (Fin m) (Fin m) ℝ → Matrix (Fin m) (Fin m) ℝ × Matrix (Fin m) (Fin m) ℝ) (B : LiveBasis m) :
    ((B.step qr .reload).2 = true ↔ B.toDict = none) ∧ (B.toDict = none ↔ B.isSpace = false) := by
  have h1 : B.toDict = none ↔ B.isSpace = false := by
    cases hB : B.isSpace <;> simp [LiveBasis.toDict, hB]
  refine ⟨?_, h1⟩
  rw [h1, (step_reload_alike qr hm B).2]
  simp

/-- C102, violated for `orthonormalization_array`. It is documented as the array of the
orthonormalisation and is `None` for a new basis; once a basis that has not been orthonormalised is
loaded it is `array(None)`, which is not `None`. -/
theorem C102_array_not_none [NeZero m] (hm : 2 ≤ m)
    (qr : Matrix (Fin m) (Fin m) ℝ → Matrix (Fin m) (Fin m) ℝ × Matrix (Fin m) (Fin m) ℝ)
    {name : List Char} {measure : Fin m → ℝ} {B : LiveBasis m}
    (hB : basisFactory name measure true = some B) (ops : List BasisOp) :
    ((B.session qr ops).orthonormalizationArray = .none ↔
      BasisOp.orthonormalize ∉ ops ∧ BasisOp.reload ∉ ops) ∧
    ((B.session qr ops).orthonormalizationArray = .nullArray ↔
      BasisOp.orthonormalize ∉ ops ∧ BasisOp.reload ∈ ops) := by
  have hB' : B.isSpace = true ∧ B.core.r = none ∧ B.nullR = false := by
    unfold basisFactory SiteBasis.init at hB
    cases hf : flavorOf name with
    | none => simp [hf] at hB
    | some fl =>
      cases hr : funRows fl m with
      | none => simp [hf, hr] at hB
      | some rows =>
        simp [hf, hr] at hB
        subst hB
        exact ⟨rfl, rfl, rfl⟩
  obtain ⟨i1, i2⟩ := session_array qr hm ops B hB'.1
  rw [hB'.2.1] at i1
  rw [hB'.2.2] at i2
  unfold LiveBasis.orthonormalizationArray
  cases hr : (B.session qr ops).core.r with
  | some r =>
    rw [hr] at i1
    have : BasisOp.orthonormalize ∈ ops := by simpa using i1
    simp [this]
  | none =>
    rw [hr] at i1 i2
    have h1 : BasisOp.orthonormalize ∉ ops := by simpa using i1
    have h2 := i2 rfl
    cases hn : (B.session qr ops).nullR with
    | true =>
      rw [hn] at h2
      have : BasisOp.reload ∈ ops := by simpa using h2
      simp [h1, this]
    | false =>
      rw [hn] at h2
      have : BasisOp.reload ∉ ops := by simpa using h2
      simp [h1, this]

/-- C102. A basis can be made exactly for the five names, in any mixture of upper and lower case, and for
at least two species; its flavor is the one named and its functions are those of the flavor. -/
theorem C102_names (name : List Char) (measure : Fin m → ℝ) (isSpace : Bool) :
    ((basisFactory name measure isSpace).isSome ↔ 2 ≤ m ∧ ∃ n ∈ basisNames, SameUpToCase name n.toList) ∧
      ∀ B, basisFactory name measure isSpace = some B → SameUpToCase name B.flavor.name ∧
        B.core.measure = measure ∧ SiteBasis.init B.flavor measure = some B.core := by
  have hn : (∃ n ∈ basisNames, SameUpToCase name n.toList) ↔ ∃ fl : Flavor, SameUpToCase name fl.name := by
    constructor
    · rintro ⟨n, hn, h⟩
      simp only [basisNames, List.mem_cons, List.not_mem_nil, or_false] at hn
      rcases hn with rfl | rfl | rfl | rfl | rfl
      exacts [⟨.indicator, h⟩, ⟨.sinusoid, h⟩, ⟨.polynomial, h⟩, ⟨.chebyshev, h⟩, ⟨.legendre, h⟩]
    · rintro ⟨fl, h⟩
      cases fl
      exacts [⟨"indicator", by simp [basisNames], h⟩, ⟨"sinusoid", by simp [basisNames], h⟩,
        ⟨"polynomial", by simp [basisNames], h⟩, ⟨"chebyshev", by simp [basisNames], h⟩,
        ⟨"legendre", by simp [basisNames], h⟩]
  rw [hn]
  unfold basisFactory
  cases hf : flavorOf name with
  | none =>
    refine ⟨⟨fun h => absurd h (by simp), fun ⟨_, fl, h⟩ => ?_⟩, fun B h => absurd h (by simp)⟩
    rw [(flavorOf_eq_some_iff name fl).2 h] at hf
    cases hf
  | some fl =>
    have hfl := (flavorOf_eq_some_iff name fl).1 hf
    by_cases hm : 2 ≤ m
    · obtain ⟨b, hb, hmb, -⟩ := init_isSome fl hm measure
      simp only [Option.bind_some, hb, Option.map_some, Option.isSome_some, true_iff]
      refine ⟨⟨hm, fl, hfl⟩, fun B h => ?_⟩
      cases h
      exact ⟨hfl, hmb, hb⟩
    · have : SiteBasis.init fl measure = none := by
        unfold SiteBasis.init funRows
        obtain rfl | rfl : m = 0 ∨ m = 1 := by omega
        all_goals simp [List.range_succ]
      simp [this, hm]

/-- C102. Dictionaries of older versions: the class `SiteBasis` is loaded as a standard basis, and without a
rotation array the identity is taken whatever rotations the functions have gone through. -/
theorem C102_older (hm : 2 ≤ m) (d : BasisDict m) (hc : d.className = "SiteBasis") (hr : d.rot = none)
    (fl : Flavor) (hfl : SameUpToCase d.flavor fl.name) :
    ∃ B, d.loadAny = some (.standard B) ∧ B.core.f = d.func ∧ B.core.measure = d.measure ∧
      B.core.r = d.orthonorm ∧ B.core.rot = 1 ∧ B.flavor = fl := by
  have h := load_of hm d fl ((flavorOf_eq_some_iff _ _).2 hfl)
  rw [hr] at h
  unfold BasisDict.loadAny
  rw [if_neg (by rw [hc]; decide), if_neg (by rw [hc]; decide), if_pos hc, h]
  exact ⟨_, rfl, rfl, rfl, rfl, rfl, rfl⟩

/-- C102. Full indicator bases have one function for every species, whatever else their dictionary has;
other classes are refused. -/
theorem C102_classes (d : BasisDict m) :
    (d.className = "IndicatorBasis" → d.loadAny = some (.indicator d.measure 1)) ∧
      (d.className ≠ "IndicatorBasis" → d.className ≠ "StandardBasis" → d.className ≠ "SiteBasis" →
        d.loadAny = none) := by
  refine ⟨fun hc => ?_, fun h1 h2 h3 => ?_⟩
  · unfold BasisDict.loadAny
    rw [if_neg (by rw [hc]; decide), if_pos hc]
    unfold fullIndicator siteFn
    congr 2
    funext k s
    simp [Matrix.one_apply, Fin.ext_iff, eq_comm]
  · unfold BasisDict.loadAny
    rw [if_neg h2, if_neg h1, if_neg h3]

end

/-! ### examples -/

/-- a sinusoid basis for three species, named in mixed case -/
example : ∃ B : LiveBasis 3, basisFactory "sinuSOID".toList (fun _ => 1 / 3) true = some B ∧
    B.isSpace = true ∧ B.flavor = .sinusoid := by
  have hf : flavorOf "sinuSOID".toList = some .sinusoid := by decide
  unfold basisFactory
  rw [hf]
  obtain ⟨b, hb, -⟩ := init_isSome .sinusoid (m := 3) (by norm_num) (fun _ => 1 / 3)
  simp only [Option.bind_some, hb]
  exact ⟨_, rfl, rfl, rfl⟩

example : flavorOf "fourier".toList = none := by decide

example : Interspersed [.orthonormalize, .rotate 1 0 1]
    [.reload, .orthonormalize, .reload, .reload, .rotate 1 0 1, .reload] :=
  .reload (.change _ trivial (.reload (.reload (.change _ trivial (.reload .nil)))))

/-- a dictionary of an older version -/
noncomputable example : BasisDict 2 :=
  ⟨"SiteBasis", "Indicator".toList, fun _ => 1 / 2, 1, none, none⟩

example : SameUpToCase "Indicator".toList Flavor.indicator.name := by unfold SameUpToCase; decide

end Smol
