import Verif.Lemmas.SqsGen
import Verif.Lemmas.UsherTree
import Verif.Props.Sqs

/-!
# C93 The generator of special quasirandom structures
-/

namespace Smol
open Spec Matrix

section Setup
variable {K : Type} [Zero K] [One K]

/-- The supercell matrices a generator is asked to use when no processors are given. -/
def requestedMatrices (sp : SqsSpaces) (a : SqsArgs K) : List Mat3 :=
  a.matrices.getD (enumerateSupercells (1 / 100000) a.size (sp.syms a.subspace)).reverse

theorem sqsMake_ok (sp : SqsSpaces) (a : SqsArgs K) (d : SqsDict K) :
    sqsMake sp a = .ok d ↔ ∃ n tw ms, sqsCheckProcessors sp a = .ok () ∧
      sqsNumFeatures sp a = .ok n ∧ sqsTarget a n = .ok tw ∧ sqsMatrices sp a = .ok ms ∧
      d = match a.processors with
        | none => sqsDict (ms.map (sqsBuild a tw))
        | some ps => sqsDict ps := by
  unfold sqsMake
  cases h1 : sqsCheckProcessors sp a with
  | error e => simp [bind, Except.bind]
  | ok u =>
    cases h2 : sqsNumFeatures sp a with
    | error e => simp [bind, Except.bind]
    | ok n =>
      cases h3 : sqsTarget a n with
      | error e => simp [bind, Except.bind, h3]
      | ok tw =>
        cases h4 : sqsMatrices sp a with
        | error e => simp [bind, Except.bind, h3]
        | ok ms =>
          cases h5 : a.processors with
          | none =>
            simp only [bind, Except.bind, h3, pure, Except.pure, Except.ok.injEq]
            constructor
            · rintro rfl; exact ⟨n, tw, ms, trivial, rfl, h3, rfl, rfl⟩
            · rintro ⟨n', tw', ms', -, rfl, h6, rfl, rfl⟩
              rw [h3] at h6; cases h6; rfl
          | some ps =>
            simp only [bind, Except.bind, h3, pure, Except.pure, Except.ok.injEq]
            constructor
            · rintro rfl; exact ⟨n, tw, ms, trivial, rfl, h3, rfl, rfl⟩
            · rintro ⟨n', tw', ms', -, rfl, h6, rfl, rfl⟩
              rfl

/-- C93. The constructor accepts its arguments exactly when: processors, if given, are not empty, the
first has the subspace of the generator and all have its size; the type of features is known; the
target and its weights, if given, have one entry per feature (one less for the weights); matrices are
not given along with processors; and given matrices have the size as determinant. -/
theorem C93_accepts (sp : SqsSpaces) (a : SqsArgs K) :
    (∃ d, sqsMake sp a = .ok d) ↔
      (∀ ps ∈ a.processors, (∃ p, ps.head? = some p ∧ sp.same p.subspace a.subspace = true) ∧
        ∀ p ∈ ps, (Matrix.det p.matrix).natAbs = a.size) ∧
      ∃ n, (a.feature = .correlation ∧ n = sp.functions a.subspace ∨
          a.feature = .clusterInteraction ∧ n = sp.orbits a.subspace) ∧
        (∀ w ∈ a.weights, w.length = n - 1) ∧ (∀ t ∈ a.target, t.length = n) ∧
        (a.matrices = none ∨ a.processors = none) ∧
        ∀ ms ∈ a.matrices, ∀ m ∈ ms, Matrix.det m = a.size := by
  have hc : sqsCheckProcessors sp a = .ok () ↔ ∀ ps ∈ a.processors,
      (∃ p, ps.head? = some p ∧ sp.same p.subspace a.subspace = true) ∧
        ∀ p ∈ ps, (Matrix.det p.matrix).natAbs = a.size := by
    unfold sqsCheckProcessors
    cases a.processors with
    | none => simp
    | some ps =>
      cases ps with
      | nil => simp
      | cons p ps =>
        cases hsame : sp.same p.subspace a.subspace
        · simp [hsame]
        · simp only [hsame, Bool.true_eq_false, if_false, List.all_eq_true, decide_eq_true_eq,
            Option.mem_def, Option.some.injEq, forall_eq', List.head?_cons, exists_eq_left', true_and]
          constructor
          · intro h
            split_ifs at h with h1
            exact h1
          · intro h
            rw [if_pos]
            exact h
  have hn : ∀ n, sqsNumFeatures sp a = .ok n ↔ (a.feature = .correlation ∧
      n = sp.functions a.subspace ∨ a.feature = .clusterInteraction ∧ n = sp.orbits a.subspace) := by
    intro n
    unfold sqsNumFeatures
    cases a.feature <;> simp [eq_comm]
  have ht : ∀ n, (∃ tw, sqsTarget a n = .ok tw) ↔
      (∀ w ∈ a.weights, w.length = n - 1) ∧ ∀ t ∈ a.target, t.length = n := by
    intro n
    unfold sqsTarget
    split_ifs with h1 h2
    · simp only [exists_false, false_iff, not_and]
      intro h
      obtain ⟨w, hw, h'⟩ := h1
      exact absurd (h w hw) h'
    · simp only [exists_false, false_iff, not_and]
      intro _ h
      obtain ⟨w, hw, h'⟩ := h2
      exact absurd (h w hw) h'
    · push Not at h1 h2
      exact ⟨fun _ => ⟨h1, h2⟩, fun _ => ⟨_, rfl⟩⟩
  have hm : (∃ ms, sqsMatrices sp a = .ok ms) ↔ (a.matrices = none ∨ a.processors = none) ∧
      ∀ ms ∈ a.matrices, ∀ m ∈ ms, Matrix.det m = a.size := by
    unfold sqsMatrices
    cases a.matrices with
    | none => cases a.processors <;> simp
    | some ms =>
      cases a.processors with
      | some ps => simp
      | none =>
        simp only [or_true, true_and, Option.mem_def, Option.some.injEq, forall_eq']
        split_ifs with h
        · simp only [exists_false, false_iff]
          intro h'
          obtain ⟨m, hm, h⟩ := h
          exact h (h' m hm)
        · push Not at h
          exact ⟨fun _ => h, fun _ => ⟨_, rfl⟩⟩
  constructor
  · rintro ⟨d, hd⟩
    obtain ⟨n, tw, ms, h1, h2, h3, h4, -⟩ := (sqsMake_ok sp a d).1 hd
    obtain ⟨h5, h6⟩ := (ht n).1 ⟨tw, h3⟩
    obtain ⟨h7, h8⟩ := hm.1 ⟨ms, h4⟩
    exact ⟨hc.1 h1, n, (hn n).1 h2, h5, h6, h7, h8⟩
  · rintro ⟨h1, n, h2, h3, h4, h5, h6⟩
    obtain ⟨tw, h7⟩ := (ht n).2 ⟨h3, h4⟩
    obtain ⟨ms, h8⟩ := hm.2 ⟨h5, h6⟩
    exact ⟨_, (sqsMake_ok sp a _).2 ⟨n, tw, ms, hc.2 h1, (hn n).2 h2, h7, h8, rfl⟩⟩

theorem make_matrices {sp : SqsSpaces} {a : SqsArgs K} {d : SqsDict K} (h : sqsMake sp a = .ok d)
    (hp : a.processors = none) : ∃ n tw, sqsNumFeatures sp a = .ok n ∧ sqsTarget a n = .ok tw ∧
      d = sqsDict ((requestedMatrices sp a).map (sqsBuild a tw)) ∧
      ∀ ms ∈ a.matrices, ∀ m ∈ ms, Matrix.det m = a.size := by
  obtain ⟨n, tw, ms, -, h2, h3, h4, h5⟩ := (sqsMake_ok sp a d).1 h
  rw [hp] at h5
  unfold sqsMatrices at h4
  rw [hp] at h4
  unfold requestedMatrices
  cases hm : a.matrices with
  | none =>
    rw [hm] at h4
    cases h4
    exact ⟨n, tw, h2, h3, h5, by simp⟩
  | some ms' =>
    rw [hm] at h4
    simp only at h4
    split_ifs at h4 with h6
    push Not at h6
    cases h4
    exact ⟨n, tw, h2, h3, h5, by simpa using h6⟩

/-- C93. Without given processors there is a processor for the superlattice of every requested
matrix, and every processor is of a requested matrix, with the subspace and type of features of the
generator, the given target and weights (zeros and ones when not given) and the given weight and
tolerance of matches.  No two processors have the same rows in their matrices. -/
theorem C93_processors (sp : SqsSpaces) (a : SqsArgs K) (d : SqsDict K) (h : sqsMake sp a = .ok d)
    (hp : a.processors = none) :
    (∀ m ∈ requestedMatrices sp a, ∃ p ∈ sqsProcessors d, superlattice p.matrix = superlattice m) ∧
    (∀ p ∈ sqsProcessors d, p.matrix ∈ requestedMatrices sp a ∧ p.subspace = a.subspace ∧
      p.feature = a.feature ∧ p.matchWeight = a.matchWeight ∧ p.matchTol = a.matchTol ∧
      (∀ t ∈ a.target, p.target = t) ∧ (∀ w ∈ a.weights, p.weights = w) ∧
      (a.target = none → ∀ x ∈ p.target, x = 0) ∧ (a.weights = none → ∀ x ∈ p.weights, x = 1) ∧
      ∀ n, (a.feature = .correlation → n = sp.functions a.subspace) →
        (a.feature = .clusterInteraction → n = sp.orbits a.subspace) →
        p.target.length = n ∧ p.weights.length = n - 1) ∧
    (sqsProcessors d).Pairwise fun p q => ¬ ∃ σ : Equiv.Perm (Fin 3),
      q.matrix = fun i j => p.matrix (σ i) j := by
  obtain ⟨n, tw, h2, h3, rfl, -⟩ := make_matrices h hp
  refine ⟨fun m hm => ?_, fun p hp => ?_, ?_⟩
  · obtain ⟨q, hq, hk⟩ := sqsDict_cover (List.mem_map.2 ⟨m, hm, rfl⟩ :
      sqsBuild a tw m ∈ (requestedMatrices sp a).map (sqsBuild a tw))
    exact ⟨q, hq, superlattice_of_key hk⟩
  · obtain ⟨e, he, rfl⟩ := List.mem_map.1 hp
    obtain ⟨m, hm, h4⟩ := List.mem_map.1 (sqsDict_mem he).2
    rw [← h4]
    unfold sqsTarget at h3
    split_ifs at h3 with h5 h6
    push Not at h5 h6
    cases h3
    refine ⟨hm, rfl, rfl, rfl, rfl, fun t ht => ?_, fun w hw => ?_, fun ht => ?_, fun hw => ?_,
      fun k hk1 hk2 => ?_⟩
    · unfold sqsBuild; simp only; rw [ht]; rfl
    · unfold sqsBuild; simp only; rw [hw]; rfl
    · unfold sqsBuild; simp only; rw [ht]; intro x hx; exact List.eq_of_mem_replicate hx
    · unfold sqsBuild; simp only; rw [hw]; intro x hx; exact List.eq_of_mem_replicate hx
    · have hkn : k = n := by
        unfold sqsNumFeatures at h2
        cases hf : a.feature with
        | correlation => rw [hf] at h2; cases h2; exact hk1 hf
        | clusterInteraction => rw [hf] at h2; cases h2; exact hk2 hf
        | other => rw [hf] at h2; cases h2
      subst hkn
      unfold sqsBuild
      simp only
      constructor
      · cases ht : a.target with
        | none => simp
        | some t => exact h6 t ht
      · cases hw : a.weights with
        | none => simp
        | some w => exact h5 w hw
  · have := keyedOf_nodup (((requestedMatrices sp a).map (sqsBuild a tw)).map
      fun p => (cacheKey p.matrix, p))
    change ((sqsDict _).map Prod.fst).Nodup at this
    rw [sqsDict_keys, List.Nodup, List.pairwise_map] at this
    exact this.imp fun {p q} hpq hσ => hpq ((key_eq_iff p.matrix q.matrix).2 hσ).symm

/-- C93. Matrices of different superlattices give one processor each, in their order. -/
theorem C93_one_each (sp : SqsSpaces) (a : SqsArgs K) (d : SqsDict K) (h : sqsMake sp a = .ok d)
    (hp : a.processors = none)
    (hd : (requestedMatrices sp a).Pairwise fun m m' => superlattice m ≠ superlattice m') :
    (sqsProcessors d).map SqsProc.matrix = requestedMatrices sp a := by
  obtain ⟨n, tw, -, -, rfl, -⟩ := make_matrices h hp
  rw [sqsDict_self, List.map_map]
  · exact List.map_id _
  · rw [List.map_map, List.Nodup, List.pairwise_map]
    exact hd.imp fun {m m'} h1 h2 => h1 (superlattice_of_key h2)

/-- C93. With a positive size and neither matrices nor processors given, there is exactly one
processor for every class of symmetrically equivalent superlattices of that size. -/
theorem C93_all_shapes (sp : SqsSpaces) (a : SqsArgs K) (d : SqsDict K) (h : sqsMake sp a = .ok d)
    (hp : a.processors = none) (hm : a.matrices = none) (hsize : 0 < a.size)
    (hbound : a.size ≤ 100000) (hsym : HasInverses (sp.syms a.subspace)) :
    (∀ p ∈ sqsProcessors d, Matrix.det p.matrix = a.size) ∧
    ((sqsProcessors d).Pairwise fun p q => ¬ SymEquivalent (sp.syms a.subspace) p.matrix q.matrix) ∧
    ∀ m : Mat3, (Matrix.det m).natAbs = a.size →
      ∃ p ∈ sqsProcessors d, SymEquivalent (sp.syms a.subspace) m p.matrix := by
  have hb : (a.size : ℚ) * (1 / 100000) ≤ 1 := by
    have : (a.size : ℚ) ≤ 100000 := by exact_mod_cast hbound
    linarith
  obtain ⟨h1, h2, h3⟩ := C36_representatives (1 / 100000) a.size hsize (by norm_num) hb _ hsym
  have hreq : requestedMatrices sp a =
      (enumerateSupercells (1 / 100000) a.size (sp.syms a.subspace)).reverse := by
    unfold requestedMatrices; rw [hm]; rfl
  have hpw : (requestedMatrices sp a).Pairwise fun m m' =>
      ¬ SymEquivalent (sp.syms a.subspace) m m' := by
    rw [hreq, List.pairwise_reverse]
    exact h2.imp fun {s t} h => h.2
  have hmat := C93_one_each sp a d h hp (hpw.imp fun {m m'} h1 h2 => h1 (by
    refine ⟨1, hsym.one, fun v => ?_⟩
    rw [h2]
    simp))
  refine ⟨fun p hp' => ?_, ?_, fun m hm' => ?_⟩
  · have : p.matrix ∈ (sqsProcessors d).map SqsProc.matrix := List.mem_map.2 ⟨p, hp', rfl⟩
    rw [hmat, hreq, List.mem_reverse] at this
    exact (h1 _ this).1
  · rw [← hmat, List.pairwise_map] at hpw
    exact hpw
  · obtain ⟨s, hs, he⟩ := h3 m hm'
    have : s ∈ (sqsProcessors d).map SqsProc.matrix := by
      rw [hmat, hreq, List.mem_reverse]; exact hs
    obtain ⟨p, hp', rfl⟩ := List.mem_map.1 this
    exact ⟨p, hp', he⟩

/-- C93. From processors: whatever target, weights and match parameters are given, the processors
are those given (the last one of several with the same rows), with their own targets. -/
theorem C93_from_processors (sp : SqsSpaces) (ps : List (SqsProc K)) (target weights : Option (List K))
    (matchWeight matchTol : K) (d : SqsDict K)
    (h : sqsFromProcessors sp ps target weights matchWeight matchTol = .ok d) :
    (∀ p ∈ sqsProcessors d, ∃ before after, ps = before ++ p :: after ∧ ∀ q ∈ after,
      ¬ ∃ σ : Equiv.Perm (Fin 3), q.matrix = fun i j => p.matrix (σ i) j) ∧
    (∀ p ∈ ps, ∃ q ∈ sqsProcessors d, superlattice q.matrix = superlattice p.matrix) ∧
    ((ps.Pairwise fun p q => superlattice p.matrix ≠ superlattice q.matrix) → sqsProcessors d = ps) ∧
    ∀ p ∈ ps, ∀ q ∈ ps, (Matrix.det p.matrix).natAbs = (Matrix.det q.matrix).natAbs := by
  unfold sqsFromProcessors at h
  cases hps : ps with
  | nil => rw [hps] at h; cases h
  | cons p0 ps0 =>
    rw [hps] at h
    simp only at h
    split_ifs at h
    rw [← hps] at h ⊢
    obtain ⟨⟨h1, -⟩⟩ := show _ ∧ True from ⟨(C93_accepts sp _).1 ⟨d, h⟩, trivial⟩
    obtain ⟨n, tw, ms, -, -, -, -, hd⟩ := (sqsMake_ok sp _ d).1 h
    simp only at hd
    subst hd
    have hsz := (h1 ps rfl).2
    refine ⟨fun p hp => ?_, fun p hp => ?_, fun hpw => ?_, fun p hp q hq => ?_⟩
    · obtain ⟨l1, l2, h2, h3⟩ := sqsDict_last hp
      exact ⟨l1, l2, h2, fun q hq hσ => h3 q hq ((key_eq_iff _ _).2 hσ)⟩
    · obtain ⟨q, hq, hk⟩ := sqsDict_cover hp
      exact ⟨q, hq, superlattice_of_key hk⟩
    · apply sqsDict_self
      rw [List.Nodup, List.pairwise_map]
      exact hpw.imp fun {m m'} h1 h2 => h1 (superlattice_of_key h2)
    · rw [hsz p hp, hsz q hq]

theorem make_dict {sp : SqsSpaces} {a : SqsArgs K} {d : SqsDict K} (h : sqsMake sp a = .ok d) :
    ∃ ps, d = sqsDict ps := by
  obtain ⟨n, tw, ms, -, -, -, -, hd⟩ := (sqsMake_ok sp a d).1 h
  cases hp : a.processors with
  | none => rw [hp] at hd; exact ⟨_, hd⟩
  | some ps => rw [hp] at hd; exact ⟨_, hd⟩

/-- C93. The processor looked up for a matrix: found exactly when the determinant of the matrix is
the size and some processor's matrix has the same rows in some order; it is that processor, and its
superlattice is that of the matrix.  Otherwise there is an error: `ValueError` for another
determinant, `KeyError` for other rows. -/
theorem C93_find (sp : SqsSpaces) (a : SqsArgs K) (d : SqsDict K) (h : sqsMake sp a = .ok d)
    (m : Mat3) :
    (∀ p, sqsFind d a.size m = .ok p ↔ Matrix.det m = a.size ∧ p ∈ sqsProcessors d ∧
      ∃ σ : Equiv.Perm (Fin 3), m = fun i j => p.matrix (σ i) j) ∧
    (∀ p, sqsFind d a.size m = .ok p → superlattice p.matrix = superlattice m) ∧
    (sqsFind d a.size m = .error .determinant ↔ Matrix.det m ≠ a.size) ∧
    (sqsFind d a.size m = .error .key ↔ Matrix.det m = a.size ∧ ∀ p ∈ sqsProcessors d,
      ¬ ∃ σ : Equiv.Perm (Fin 3), m = fun i j => p.matrix (σ i) j) := by
  obtain ⟨ps, rfl⟩ := make_dict h
  have hnd : ((sqsDict ps).map Prod.fst).Nodup :=
    keyedOf_nodup (ps.map fun p : SqsProc K => (cacheKey p.matrix, p))
  have hget : ∀ p, keyedGet (sqsDict ps) (cacheKey m) = some p ↔ p ∈ sqsProcessors (sqsDict ps) ∧
      ∃ σ : Equiv.Perm (Fin 3), m = fun i j => p.matrix (σ i) j := by
    intro p
    rw [keyedGet_eq hnd, ← key_eq_iff]
    constructor
    · intro hp
      exact ⟨List.mem_map.2 ⟨_, hp, rfl⟩, (sqsDict_mem hp).1⟩
    · rintro ⟨hp, hk⟩
      obtain ⟨e, he, rfl⟩ := List.mem_map.1 hp
      rw [hk, ← (sqsDict_mem he).1]
      exact he
  have hnone : keyedGet (sqsDict ps) (cacheKey m) = none ↔ ∀ p ∈ sqsProcessors (sqsDict ps),
      ¬ ∃ σ : Equiv.Perm (Fin 3), m = fun i j => p.matrix (σ i) j := by
    constructor
    · intro hn p hp hσ
      rw [(hget p).2 ⟨hp, hσ⟩] at hn
      cases hn
    · intro hall
      cases hk : keyedGet (sqsDict ps) (cacheKey m) with
      | none => rfl
      | some p => exact absurd ((hget p).1 hk).2 (hall p ((hget p).1 hk).1)
  have hok : ∀ p, sqsFind (sqsDict ps) a.size m = .ok p ↔ Matrix.det m = a.size ∧
      p ∈ sqsProcessors (sqsDict ps) ∧ ∃ σ : Equiv.Perm (Fin 3), m = fun i j => p.matrix (σ i) j := by
    intro p
    rw [← hget]
    unfold sqsFind
    split_ifs with hdet
    · simp [hdet]
    · push Not at hdet
      cases hk : keyedGet (sqsDict ps) (cacheKey m) <;> simp [hdet]
  refine ⟨hok, fun p hp => ?_, ?_, ?_⟩
  · obtain ⟨-, -, σ, rfl⟩ := (hok p).1 hp
    exact (superlattice_perm _ _).symm
  · unfold sqsFind
    split_ifs with hdet
    · simp [hdet]
    · cases hk : keyedGet (sqsDict ps) (cacheKey m) <;> simp [hdet]
  · rw [← hnone]
    unfold sqsFind
    split_ifs with hdet
    · simp [hdet]
    · push Not at hdet
      cases hk : keyedGet (sqsDict ps) (cacheKey m) <;> simp [hdet]

end Setup

section Generate
variable {K : Type} [CommRing K] [LinearOrder K]

/-- A generator that has not been used: no samples, no queue. -/
def SqsGen.unused (kernel : Multi K) (fresh : ℕ) : SqsGen K := ⟨kernel, SqsState.new, fresh⟩

omit [LinearOrder K] in
theorem unused_ok {n : ℕ} {cells : ℕ → Kern K} {I : Occ → Prop} (kernel : Multi K) (fresh : ℕ)
    (hcur : kernel.cur < n) (hone : n = 1 → kernel.hopDue = false) :
    GenOk n cells I (SqsGen.unused kernel fresh) := by
  refine ⟨hcur, ?_, by simp [SqsGen.unused, SqsState.new], by
    simp [SqsGen.unused, SqsState.new, Container.new]⟩
  by_cases h : n = 1
  · exact Or.inl (Or.inr ⟨h, hone h⟩)
  · exact Or.inr ⟨h, rfl⟩

/-- C93. Over any sequence of calls of `generate`, with any temperatures, hops, acceptances, initial
occupancies and with or without clearing: every structure in the queue is of one of the supercell
shapes, and its score is the value of its occupancy in that shape.  Whatever holds of the initial
occupancies and is kept by proposed steps holds of it.  With a single shape this takes that no hop is
due in the first step. -/
theorem C93_kept_partial (n : ℕ) (cells : ℕ → Kern K) (I : Occ → Prop) (kernel : Multi K) (fresh : ℕ)
    (hcur : kernel.cur < n) (hone : n = 1 → kernel.hopDue = false) (calls : List SqsInput)
    (h : ∀ c ∈ calls, CellsOk cells I c.choices.flatten ∧
      (∀ e ∈ c.choices.flatten, e.target < n) ∧ (∀ o ∈ c.given, ∀ k < n, I (o k)) ∧
      ∀ k < n, I (c.drawn k))
    (g : SqsGen K) (hg : (SqsGen.unused kernel fresh).generates n cells calls = some g)
    (q : List (SqsTrace K (ℕ × Occ))) (hq : g.state.deque = some q) :
    ∀ t ∈ q, t.struct.1 < n ∧ I t.struct.2 ∧
      t.score = (List.zipWith (· * ·) (cells t.struct.1).params
        ((cells t.struct.1).feature t.struct.2)).sum :=
  fun t ht => (generates_ok calls h _ g (unused_ok kernel fresh hcur hone) hg).deque q hq t ht

/-- C93. With swap steps, the structures in the queue have the composition of the initial
occupancies: the same number of active sites of each sublattice holds each species. -/
theorem C93_composition_partial (n : ℕ) (cells : ℕ → Kern K) (sls : List Sublattice)
    (hsl : SublatticesOk sls) (us : Usher) (hus : us.SwapsOnly (activeSublattices sls)) (ref : Occ)
    (kernel : Multi K) (fresh : ℕ) (hcur : kernel.cur < n) (hone : n = 1 → kernel.hopDue = false)
    (calls : List SqsInput)
    (hlen : ∀ i j x y, ((cells i).feature x).length = ((cells j).feature y).length)
    (hpar : ∀ i j, (cells i).params = (cells j).params)
    (hch : ∀ i x st, (cells i).change x st = List.zipWith (· - ·)
      ((cells i).feature (applyStep x st)) ((cells i).feature x))
    (h : ∀ c ∈ calls, (∀ e ∈ c.choices.flatten, e.target < n ∧
        (∀ x, (us.propose x).Outcome (e.localStep x).1) ∧ ∀ x, (us.propose x).Outcome (e.hopStep x).1) ∧
      (∀ o ∈ c.given, ∀ k < n, SameComposition sls ref (o k)) ∧
      ∀ k < n, SameComposition sls ref (c.drawn k))
    (g : SqsGen K) (hg : (SqsGen.unused kernel fresh).generates n cells calls = some g)
    (q : List (SqsTrace K (ℕ × Occ))) (hq : g.state.deque = some q) :
    ∀ t ∈ q, ∀ sl ∈ sls, ∀ c, (sl.active.filter fun s => t.struct.2 s == c).length =
      (sl.active.filter fun s => ref s == c).length := by
  have hst : ∀ x st, (us.propose x).Outcome st → SameComposition (activeSublattices sls) ref x →
      SameComposition (activeSublattices sls) ref (applyStep x st) := fun x st ho hx =>
    Smol.SameComposition.trans hx (swaps_same (activeSitesOk (sitesOk_of hsl)) us hus x st ho)
  have hact : ∀ x, SameComposition sls ref x → SameComposition (activeSublattices sls) ref x :=
    fun x hx sl hsl => hx sl (List.mem_of_mem_filter hsl)
  intro t ht
  have := (C93_kept_partial n cells (fun x => SameComposition (activeSublattices sls) ref x) kernel
    fresh hcur hone calls (fun c hc => ⟨⟨hlen, hpar, fun e he x hx => hst x _ (((h c hc).1 e he).2.1 x) hx,
      fun e he x hx => hst x _ (((h c hc).1 e he).2.2 x) hx, fun e he i x _ => hch i x _⟩,
      fun e he => ((h c hc).1 e he).1, fun o ho k hk => hact _ ((h c hc).2.1 o ho k hk),
      fun k hk => hact _ ((h c hc).2.2 k hk)⟩) g hg q hq t ht).2.1
  intro sl hsl c
  by_cases hact : sl.isActive = true
  · exact (this sl (List.mem_filter.2 ⟨hsl, hact⟩) c).symm
  · have : sl.active = [] := by
      cases hh : sl.active with
      | nil => rfl
      | cons a l => exfalso; apply hact; unfold Sublattice.isActive; rw [hh]; rfl
    rw [this]; rfl

omit [LinearOrder K] in
/-- C93. One annealing visits as many structures as there are steps over all temperatures.  It starts
from the given occupancy of the current shape; if none is given, from the last sample or, without
samples, from the drawn one.  Each structure follows the one before, also across temperatures: it is
the same, or a proposed step away from it, or obtained by a step proposed for the shape hopped to. -/
theorem C93_visited (n : ℕ) (cells : ℕ → Kern K) (g : SqsGen K) (hcur : g.kernel.cur < n)
    (c : SqsInput) (out : Multi K × List (MRow K))
    (hout : annealSqs cells (g.start n cells c) (g.fresh + 1) c.choices = some out) :
    out.2.length = (c.choices.map List.length).sum ∧
    ∃ r0 : MRow K, r0.cell = g.kernel.cur ∧
      (∀ o ∈ c.given, r0.occ = o g.kernel.cur) ∧
      (c.given = none → g.state.samples.nsamples = 0 → r0.occ = c.drawn g.kernel.cur) ∧
      (∀ t, c.given = none → g.state.samples.nsamples ≠ 0 →
        g.state.samples.rows.getLast? = some (some t) → r0.occ = t.struct.2) ∧
      List.IsChain (fun r r' => (r'.occ = r.occ ∧ r'.cell = r.cell) ∨ ∃ e ∈ c.choices.flatten,
        (r'.cell = r.cell ∧ r'.occ = applyStep r.occ (e.localStep r.occ).1) ∨
        (r'.cell = e.target ∧ ∃ x, r'.occ = applyStep x (e.hopStep x).1)) (r0 :: out.2) := by
  obtain ⟨h1, h2⟩ := annealSqs_follows c.choices _ _ out hout
  have hstart : ∀ o : ℕ → Occ, (startCells n cells g.kernel o g.fresh).heap 0 = o g.kernel.cur := by
    intro o
    unfold startCells
    split_ifs with hn
    · have : g.kernel.cur = 0 := by omega
      simp [Multi.setAuxOne, this]
    · simp [Multi.setAux]
  refine ⟨h2, (g.start n cells c).initialRow cells, ?_, fun o ho => ?_, fun hg hs => ?_,
    fun t hg hs hl => ?_, h1⟩
  · show (g.start n cells c).cur = _
    unfold SqsGen.start startCells
    split
    · split_ifs <;> rfl
    · split
      · split_ifs <;> rfl
      · rfl
  · show (g.start n cells c).heap 0 = _
    unfold SqsGen.start
    rw [ho]; exact hstart o
  · show (g.start n cells c).heap 0 = _
    unfold SqsGen.start
    have : lastSample g.state.samples = none := by unfold lastSample; rw [if_pos hs]
    rw [hg, this]; exact hstart _
  · show (g.start n cells c).heap 0 = _
    unfold SqsGen.start
    have : lastSample g.state.samples = some t := by
      unfold lastSample; rw [if_neg hs, hl]; rfl
    rw [hg, this]; simp [Multi.setAuxOne]

/-- C93. After a call that clears, the last structure of the queue is a best one of all structures
visited at all temperatures. -/
theorem C93_best (n : ℕ) (cells : ℕ → Kern K) (g : SqsGen K) (hs : SamplesFull g.state)
    (c : SqsInput) (hc : c.clear = true) (out : Multi K × List (MRow K))
    (hout : annealSqs cells (g.start n cells c) (g.fresh + 1) c.choices = some out)
    (hne : out.2 ≠ []) :
    ∃ g' q t, g.generate n cells c = some g' ∧ SamplesFull g'.state ∧ g'.state.deque = some q ∧
      q.getLast? = some t ∧ (∃ r ∈ out.2, t = ⟨r.enthalpy, (r.cell, r.occ)⟩) ∧
      ∀ r ∈ out.2, t.score ≤ r.enthalpy := by
  obtain ⟨h1, h2, q, h3, -, h4⟩ := C54_cleared g.state hs
    ⟨c.clear, c.maxSave, c.steps, out.2.map MRow.kept⟩ hc
  obtain ⟨t, ht, hb⟩ := h4 (by simpa using hne)
  refine ⟨⟨out.1, (g.state.generate ⟨c.clear, c.maxSave, c.steps, out.2.map MRow.kept⟩).1,
    g.fresh + 1 + c.choices.length⟩, q, t, ?_, h2, h3, ht, ?_, ?_⟩
  · unfold SqsGen.generate
    rw [hout]
    simp only [Option.bind_some, h1, Bool.false_eq_true, if_false]
  · obtain ⟨r, hr, rfl⟩ := List.mem_map.1 hb.1
    exact ⟨r, hr, rfl⟩
  · intro r hr
    exact hb.2 r.kept (List.mem_map.2 ⟨r, hr, rfl⟩)

omit [LinearOrder K] in
/-- C93. Scoring a structure of the queue with the matrix of its shape gives its score, if reading
the occupancy of a structure inverts writing it and the matrix has positive determinant. -/
theorem C93_score (sp : SqsSpaces) (a : SqsArgs K) (d : SqsDict K) (h : sqsMake sp a = .ok d)
    {σ : Type} (occOf : SqsProc K → σ → Occ) (toStruct : SqsProc K → Occ → σ)
    (property : SqsProc K → Occ → K) (cells : ℕ → Kern K) (I : Occ → Prop)
    (hround : ∀ p x, I x → occOf p (toStruct p x) = x)
    (hcells : ∀ k p, (sqsProcessors d)[k]? = some p → ∀ x, (List.zipWith (· * ·) (cells k).params
      ((cells k).feature x)).sum = property p x)
    (t : SqsTrace K (ℕ × Occ))
    (ht : t.struct.1 < (sqsProcessors d).length ∧ I t.struct.2 ∧
      t.score = (List.zipWith (· * ·) (cells t.struct.1).params
        ((cells t.struct.1).feature t.struct.2)).sum) :
    ∃ p, (sqsProcessors d)[t.struct.1]? = some p ∧ (Matrix.det p.matrix = a.size →
      sqsScore occOf property d a.size (toStruct p t.struct.2) p.matrix = .ok t.score) := by
  obtain ⟨h1, h2, h3⟩ := ht
  refine ⟨(sqsProcessors d)[t.struct.1], List.getElem?_eq_getElem h1, fun hdet => ?_⟩
  have hf := ((C93_find sp a d h (sqsProcessors d)[t.struct.1].matrix).1 (sqsProcessors d)[t.struct.1]).2
    ⟨hdet, List.getElem_mem h1, 1, rfl⟩
  unfold sqsScore
  rw [hf]
  simp only [Except.map]
  rw [hround _ _ h2, h3, hcells t.struct.1 _ (List.getElem?_eq_getElem h1)]

end Generate

/-! ### What does not hold -/

/-- Two subspaces, that differ; both have three functions and two orbits. -/
def twoSpaces : SqsSpaces := ⟨fun i j => i == j, fun _ => 3, fun _ => 2, fun _ => [1]⟩

/-- a supercell of two cells, along the first axis -/
def sqsCell : Mat3 := !![2, 0, 0; 0, 1, 0; 0, 0, 1]
/-- the same superlattice, with other vectors -/
def sqsCell' : Mat3 := !![2, 0, 0; 2, 1, 0; 0, 0, 1]
/-- the same superlattice, left-handed -/
def sqsLeft : Mat3 := !![-2, 0, 0; 0, 1, 0; 0, 0, 1]

def sqsArgs : SqsArgs ℚ := ⟨0, 2, .correlation, some [0, 1, 2], none, 1, 1 / 100000, some [sqsCell], none⟩

/-- C93, what fails: a matrix of the superlattice of a processor is not found when its rows are
others. -/
theorem C93_same_lattice_not_found :
    superlattice sqsCell' = superlattice sqsCell ∧
    ∃ d, sqsMake twoSpaces sqsArgs = .ok d ∧ sqsFind d 2 sqsCell' = .error .key := by
  refine ⟨?_, _, rfl, ?_⟩
  · apply Set.Subset.antisymm
    · rintro v ⟨c, rfl⟩
      refine ⟨![c 0 + c 1, c 1, c 2], ?_⟩
      funext j
      fin_cases j <;> (simp [vecMul, dotProduct, Fin.sum_univ_three, sqsCell', sqsCell]; try ring)
    · rintro v ⟨c, rfl⟩
      refine ⟨![c 0 - c 1, c 1, c 2], ?_⟩
      funext j
      fin_cases j <;> (simp [vecMul, dotProduct, Fin.sum_univ_three, sqsCell', sqsCell]; try ring)
  · decide +kernel

/-- C93, what fails: a processor with a left-handed matrix is accepted, and scoring a structure with
that very matrix raises. -/
theorem C93_left_handed :
    ∃ p : SqsProc ℚ, ∃ d, sqsFromProcessors twoSpaces [p] none none 1 (1 / 100000) = .ok d ∧
      sqsProcessors d = [p] ∧ sqsFind d 2 p.matrix = .error .determinant :=
  ⟨⟨0, sqsLeft, .correlation, [0, 0, 0], [1, 1], 1, 1 / 100000⟩, _, rfl, by decide +kernel,
    by decide +kernel⟩

/-- C93, what fails: processors of different cluster subspaces are accepted, and the targets given
to `from_processors` are not used. -/
theorem C93_mixed_processors :
    ∃ p q : SqsProc ℚ, ∃ d, twoSpaces.same p.subspace q.subspace = false ∧
      sqsFromProcessors twoSpaces [p, q] (some [5, 5, 5]) none 1 (1 / 100000) = .ok d ∧
      sqsProcessors d = [p, q] ∧ p.target = [0, 0, 0] ∧ q.target = [0, 1, 0] :=
  ⟨⟨0, sqsCell, .correlation, [0, 0, 0], [1, 1], 1, 1 / 100000⟩,
    ⟨1, sqsCell', .correlation, [0, 1, 0], [1, 1], 1, 1 / 100000⟩, _, rfl, rfl, by decide +kernel,
    rfl, rfl⟩

/-- The score of an occupancy of two sites, in any shape: twice the first code. -/
def sqsKern : ℕ → Kern ℚ := fun _ =>
  ⟨[2], fun o => [(o 0 : ℚ)], fun o st => [(applyStep o st 0 : ℚ) - o 0], none, fun _ _ => 0⟩

/-- A kernel as constructed: the arrays of its cells are zeros. -/
def sqsKernel (period : ℕ) : Multi ℚ := ⟨fun _ _ => 0, fun k => k + 1, fun _ => [0], 0, 1, period⟩

/-- Swap the two sites (an empty step if they agree); all proposals accepted, hops to shape `j`. -/
def swapChoice (j : ℕ) : MChoice :=
  ⟨fun x => (if x 0 = x 1 then [] else [(0, x 1), (1, x 0)], true), j,
    fun x => (if x 0 = x 1 then [] else [(0, x 1), (1, x 0)], true), 5⟩

/-- Two temperatures with two steps each, from occupancies `1, 0`. -/
def sqsInput (j : ℕ) : SqsInput :=
  ⟨some fun _ s => if s = 0 then 1 else 0, fun _ s => if s = 0 then 1 else 0, true, some 10, 2,
    [[swapChoice j, swapChoice j], [swapChoice j, swapChoice j]]⟩

/-- What the queue holds: score, shape and the codes of the two sites. -/
def queueView (g : SqsGen ℚ) : Option (List (ℚ × ℕ × ℕ × ℕ)) :=
  g.state.deque.map fun q => q.map fun t => (t.score, t.struct.1, t.struct.2 0, t.struct.2 1)

/-- C93, what fails with one shape and a hop in the first step: the walker continues from the zeros
the kernel was constructed with instead of the given occupancy, and a structure of that composition
is kept (here `0, 0` though `1, 0` was given). -/
theorem C93_one_shape_hop :
    ((SqsGen.unused (sqsKernel 1) 10).generates 1 sqsKern [sqsInput 0]).bind queueView =
      some [(0, 0, 0, 0)] := by
  decide +kernel

/-! ### Examples -/

/-- the arguments are accepted, and the processor has the given target and weights one -/
example : ∃ d, sqsMake twoSpaces sqsArgs = .ok d ∧ (sqsProcessors d).map SqsProc.target = [[0, 1, 2]] ∧
    (sqsProcessors d).map SqsProc.weights = [[1, 1]] ∧ sqsArgs.processors = none ∧
    sqsFind d 2 ![![0, 1, 0], ![0, 0, 1], ![2, 0, 0]] =
      .ok ⟨0, sqsCell, .correlation, [0, 1, 2], [1, 1], 1, 1 / 100000⟩ :=
  ⟨_, rfl, by decide +kernel, by decide +kernel, rfl, by decide +kernel⟩

/-- matrices with the same rows give one processor, of the last of them -/
example : ∃ d, sqsMake twoSpaces { sqsArgs with
      matrices := some [![![0, 1, 0], ![0, 0, 1], ![2, 0, 0]], sqsCell', sqsCell] } = .ok d ∧
    (sqsProcessors d).map SqsProc.matrix = [sqsCell, sqsCell'] :=
  ⟨_, rfl, by decide +kernel⟩

/-- all shapes of size 2 with the identity as only symmetry -/
example : HasInverses (twoSpaces.syms 0) ∧ ∃ d, sqsMake twoSpaces { sqsArgs with matrices := none } = .ok d :=
  ⟨⟨by simp [twoSpaces], by simp [twoSpaces]⟩, _, rfl⟩

/-- the hypotheses of the theorems on generation hold, with two shapes or with one and hops later -/
example : ((SqsGen.unused (sqsKernel 1) 10).generates 2 sqsKern [sqsInput 1, sqsInput 0]).bind
    queueView = some [(0, 1, 0, 1)] ∧ (sqsKernel 1).hopDue = true := by
  decide +kernel

example : ((SqsGen.unused (sqsKernel 3) 10).generates 1 sqsKern [sqsInput 0]).bind queueView =
    some [(0, 0, 0, 1)] ∧ (sqsKernel 3).hopDue = false := by
  decide +kernel

example (j : ℕ) (I : Occ → Prop) (hI : ∀ x, I x → I (applyStep x (((swapChoice j).localStep x).1))) :
    CellsOk sqsKern I (sqsInput j).choices.flatten where
  len := fun _ _ _ _ => rfl
  params := fun _ _ => rfl
  localI := by
    intro c hc x hx
    have : c = swapChoice j := by simpa [sqsInput] using hc
    subst this; exact hI x hx
  hopI := by
    intro c hc x hx
    have : c = swapChoice j := by simpa [sqsInput] using hc
    subst this; exact hI x hx
  change := fun _ _ _ _ _ => rfl

/-- a sublattice of the two sites -/
def sqsPair : Sublattice := ⟨[0, 1], [0, 1], [0, 1], false, [0, 1]⟩

/-- an annealing of four steps, and samples without room to spare -/
example : (annealSqs sqsKern ((SqsGen.unused (sqsKernel 1) 10).start 2 sqsKern (sqsInput 1)) 11
      (sqsInput 1).choices).map (fun o => o.2.map fun r => (r.enthalpy, r.cell, r.occ 0)) =
      some [(0, 1, 0), (2, 1, 1), (0, 1, 0), (2, 1, 1)] ∧
    SamplesFull (SqsGen.unused (sqsKernel 1) 10).state := by
  refine ⟨by decide +kernel, rfl⟩

/-- the proposals of these choices are those of a swap usher, and the occupancies given have one
composition -/
example (j : ℕ) : (Usher.swap .shared [sqsPair] [1]).SwapsOnly
      (activeSublattices [sqsPair]) ∧
    (∀ x, ((Usher.swap .shared [sqsPair] [1]).propose x).Outcome
      ((swapChoice j).localStep x).1) ∧
    ∀ o ∈ (sqsInput j).given, SameComposition [sqsPair]
      (fun s => if s = 1 then 1 else 0) (o 0) := by
  refine ⟨?_, fun x => ?_, ?_⟩
  · show ∀ sl ∈ _, _
    decide
  · show Prog.Outcome (swapPropose _ _ _ x) _
    refine ⟨⟨0, by decide⟩, by decide +kernel, ⟨0, by decide⟩, by decide +kernel, ?_⟩
    by_cases h : x 0 = x 1
    · simp [sqsPair, swapChoice, h, Prog.Outcome, Prog.bind]
    · have h' : ¬ x 1 = x 0 := fun e => h e.symm
      have hf : (sqsPair.active.filter fun s => decide (x s ≠ x 0)) = [1] := by
        simp [sqsPair, h']
      change Prog.Outcome (if (sqsPair.active.filter fun s => decide (x s ≠ x 0)) ≠ [] then
        (Prog.choose .shared (sqsPair.active.filter fun s => decide (x s ≠ x 0))).bind fun site2 =>
          .ret [(0, x site2), (site2, x 0)] else .ret []) _
      rw [hf]
      simp [swapChoice, h, Prog.Outcome, Prog.bind, Prog.choose]
  · intro o ho
    cases ho
    intro sl hsl c
    rw [List.mem_singleton] at hsl
    subst hsl
    by_cases h0 : c = 0
    · subst h0; decide
    · by_cases h1 : c = 1
      · subst h1; decide
      · have e0 : ¬ 0 = c := fun e => h0 e.symm
        have e1 : ¬ 1 = c := fun e => h1 e.symm
        simp [holding, sqsPair, e0, e1]

end Smol
