import Verif.Lemmas.Centroid
import Verif.Lemmas.CompositionSetup

/-!
# C90 Vertices and centroid of a composition space
-/

namespace Smol
open Spec
variable {K : Type*} [Field K] [LinearOrder K] [IsStrictOrderedRing K]

/-- What is assumed of the libraries used by `get_nonneg_float_vertices` (`A A⁺ A = A` is the first
Moore-Penrose equation): the vertices of the polytope asked about are right, and so is the answer
whether it is empty. -/
structure PolyOk {r d k : ℕ} (L : PolyLib K r d k) (A : Matrix (Fin r) (Fin d) K) (b : Fin r → K) : Prop where
  kernel : IsKernelBasis A L.nullSpace
  pinv : A * L.pinv * A = A
  extreme : IsVertices (halfspaces ((-1 : K) • L.nullSpace.transpose) (L.pinv.mulVec b))
    (L.extreme ((-1 : K) • L.nullSpace.transpose) (L.pinv.mulVec b))
  isEmpty : L.isEmpty ((-1 : K) • L.nullSpace.transpose) (L.pinv.mulVec b) = true ↔
    ¬ ∃ x, x ∈ halfspaces ((-1 : K) • L.nullSpace.transpose) (L.pinv.mulVec b)

omit [LinearOrder K] [IsStrictOrderedRing K] in
/-- The base point solves a solvable system. -/
theorem pinv_solves {r d : ℕ} {A : Matrix (Fin r) (Fin d) K} {P : Matrix (Fin d) (Fin r) K}
    (hP : A * P * A = A) {b : Fin r → K} (hb : ∃ n, A.mulVec n = b) : A.mulVec (P.mulVec b) = b := by
  obtain ⟨n, rfl⟩ := hb
  rw [Matrix.mulVec_mulVec, Matrix.mulVec_mulVec, hP]

theorem compositions_halfspaces {r d k : ℕ} {L : PolyLib K r d k} {A : Matrix (Fin r) (Fin d) K}
    {b : Fin r → K} (h : PolyOk L A b) (hb : ∃ n, A.mulVec n = b) (x : Fin k → K) :
    x ∈ halfspaces ((-1 : K) • L.nullSpace.transpose) (L.pinv.mulVec b) ↔
      Matrix.vecMul x L.nullSpace + L.pinv.mulVec b ∈ compositions A b := by
  rw [halfspaces_coordinates]
  have := (compositions_coordinates h.kernel (pinv_solves h.pinv hb) _).2 ⟨x, rfl⟩
  exact ⟨fun H => ⟨this, H⟩, fun H => H.2⟩

/-- **C90** (vertices): for a solvable system a returned list holds exactly the vertices of
`A n = b`, `n ≥ 0`, each once.  Missing: for contradictory constraints there should be an error
(`C90_inconsistent_witness`). -/
theorem C90_vertices_partial {r d k : ℕ} (L : PolyLib K r d k) (A : Matrix (Fin r) (Fin d) K) (b : Fin r → K)
    (h : PolyOk L A b) (hb : ∃ n, A.mulVec n = b) (l : List (Fin d → K))
    (hl : nonnegVertices L b = .ok l) : IsVertices (compositions A b) l ∧ l ≠ [] := by
  unfold nonnegVertices at hl
  dsimp only at hl
  split_ifs at hl with h0
  simp only [Except.ok.injEq] at hl
  subst hl
  refine ⟨⟨?_, fun n => ?_⟩, fun H => h0 (by simpa using H)⟩
  · exact h.extreme.1.map fun x y hxy => h.kernel.1 _ _ (add_right_cancel hxy)
  · rw [extreme_affine L.nullSpace (L.pinv.mulVec b) h.kernel.1 _ (compositions A b)
      (compositions_halfspaces h hb)
      (fun n hn => (compositions_coordinates h.kernel (pinv_solves h.pinv hb) n).1 hn.1) n]
    simp only [List.mem_map, h.extreme.2]
    exact ⟨fun ⟨x, h1, h2⟩ => ⟨x, h1, h2.symm⟩, fun ⟨x, h1, h2⟩ => ⟨x, h1, h2.symm⟩⟩

/-- **C90** (error): for a solvable system "not feasible" is raised exactly if there is no
composition at all. -/
theorem C90_infeasible {r d k : ℕ} (L : PolyLib K r d k) (A : Matrix (Fin r) (Fin d) K) (b : Fin r → K)
    (h : PolyOk L A b) (hb : ∃ n, A.mulVec n = b) :
    nonnegVertices L b = .error .infeasible ↔ ¬ ∃ n, n ∈ compositions A b := by
  have key : (∃ n, n ∈ compositions A b) ↔
      ∃ x, x ∈ halfspaces ((-1 : K) • L.nullSpace.transpose) (L.pinv.mulVec b) := by
    constructor
    · rintro ⟨n, hn⟩
      obtain ⟨x, rfl⟩ := (compositions_coordinates h.kernel (pinv_solves h.pinv hb) n).1 hn.1
      exact ⟨x, (compositions_halfspaces h hb x).2 hn⟩
    · rintro ⟨x, hx⟩
      exact ⟨_, (compositions_halfspaces h hb x).1 hx⟩
  rw [key, ← h.isEmpty]
  unfold nonnegVertices
  dsimp only
  split_ifs with h0 h1
  · exact ⟨fun _ => h1, fun _ => rfl⟩
  · exact ⟨fun H => by simp at H, fun H => absurd H h1⟩
  · refine ⟨fun H => by simp at H, fun H => ?_⟩
    exfalso
    rw [h.isEmpty] at H
    obtain ⟨x, hx⟩ := List.length_pos_iff_exists_mem.1 (Nat.pos_of_ne_zero h0)
    exact H ⟨x, ((h.extreme.2 x).1 hx).1⟩

/-! An interval, for the examples. -/

theorem interval_vertices {c : ℚ} (hc : 0 < c) (S : Set (Fin 1 → ℚ)) (hS : ∀ x, x ∈ S ↔ -c ≤ x 0 ∧ x 0 ≤ c) :
    IsVertices S [fun _ => c, fun _ => -c] := by
  refine ⟨?_, fun x => ?_⟩
  · simp only [List.nodup_cons, List.mem_cons, List.not_mem_nil, or_false, not_false_eq_true, List.nodup_nil,
      and_self, and_true]
    intro h
    have := congrFun h 0
    linarith
  · have ext : ∀ y z : Fin 1 → ℚ, y 0 = z 0 → y = z := fun y z h => funext fun i => by
      rw [Subsingleton.elim i 0, h]
    rw [mem_extremePoints_iff_left]
    simp only [List.mem_cons, List.not_mem_nil, or_false, hS]
    constructor
    · rintro (rfl | rfl)
      · refine ⟨⟨by linarith, le_refl _⟩, ?_⟩
        rintro y ⟨-, hy⟩ z ⟨-, hz⟩ ⟨a, b, ha, hb, hab, he⟩
        have e := congrFun he 0
        simp only [Pi.add_apply, Pi.smul_apply, smul_eq_mul] at e
        refine ext _ _ ?_
        have hb' : b = 1 - a := by linarith
        subst hb'
        have := mul_le_mul_of_nonneg_left hz hb.le
        by_contra hne
        have hlt : y 0 < c := lt_of_le_of_ne hy hne
        have := mul_lt_mul_of_pos_left hlt ha
        linarith
      · refine ⟨⟨le_refl _, by linarith⟩, ?_⟩
        rintro y ⟨hy, -⟩ z ⟨hz, -⟩ ⟨a, b, ha, hb, hab, he⟩
        have e := congrFun he 0
        simp only [Pi.add_apply, Pi.smul_apply, smul_eq_mul] at e
        refine ext _ _ ?_
        have hb' : b = 1 - a := by linarith
        subst hb'
        have := mul_le_mul_of_nonneg_left hz hb.le
        by_contra hne
        have hlt : -c < y 0 := lt_of_le_of_ne hy (Ne.symm hne)
        have := mul_lt_mul_of_pos_left hlt ha
        linarith
    · rintro ⟨⟨h1, h2⟩, h3⟩
      by_contra hne
      push Not at hne
      have n1 : x 0 ≠ c := fun h => hne.1 (ext _ _ h)
      have n2 : x 0 ≠ -c := fun h => hne.2 (ext _ _ h)
      have l1 : x 0 < c := lt_of_le_of_ne h2 n1
      have l2 : -c < x 0 := lt_of_le_of_ne h1 (Ne.symm n2)
      have := h3 (fun _ => c) ⟨by linarith, le_refl _⟩ (fun _ => -c) ⟨le_refl _, by linarith⟩
        ⟨(x 0 + c) / (2 * c), (c - x 0) / (2 * c), by apply div_pos <;> linarith, by apply div_pos <;> linarith,
          by field_simp; ring, by
            apply ext
            simp only [Pi.add_apply, Pi.smul_apply, smul_eq_mul]
            field_simp
            ring⟩
      exact hne.1 this.symm

/-- All entries one: the row `n₀ + n₁` repeated. -/
def onesMat (r : ℕ) : Matrix (Fin r) (Fin 2) ℚ := Matrix.of fun _ _ => 1

/-- What the libraries find for it. -/
def pairLib (r : ℕ) (q c : ℚ) : PolyLib ℚ r 2 1 where
  nullSpace := !![1, -1]
  pinv := Matrix.of fun _ _ => q
  extreme := fun _ _ => [fun _ => c, fun _ => -c]
  isEmpty := fun _ _ => false

theorem pairLib_ok (r : ℕ) (hr : 0 < r) (q c : ℚ) (hq : 2 * r * q = 1) (hc : 0 < c) (b : Fin r → ℚ)
    (hb : q * ∑ i, b i = c) : PolyOk (pairLib r q c) (onesMat r) b := by
  have hn0 : ∀ i, (pairLib r q c).pinv.mulVec b i = c := by
    intro i
    simp only [pairLib, Matrix.mulVec, dotProduct, Matrix.of_apply, ← Finset.mul_sum, hb]
  have hvec : ∀ x : Fin 1 → ℚ, Matrix.vecMul x (pairLib r q c).nullSpace = ![x 0, - x 0] := by
    intro x
    funext i
    fin_cases i <;> simp [pairLib, Matrix.vecMul, dotProduct]
  have hS : ∀ x, x ∈ halfspaces ((-1 : ℚ) • (pairLib r q c).nullSpace.transpose) ((pairLib r q c).pinv.mulVec b) ↔
      -c ≤ x 0 ∧ x 0 ≤ c := by
    intro x
    rw [halfspaces_coordinates, hvec]
    constructor
    · intro h
      have h0 := h 0
      have h1 := h 1
      rw [Pi.add_apply, hn0] at h0 h1
      simp at h0 h1
      constructor <;> linarith
    · rintro ⟨h1, h2⟩ i
      rw [Pi.add_apply, hn0]
      fin_cases i <;> simp <;> linarith
  refine ⟨⟨fun x y h => ?_, fun n => ?_⟩, ?_, interval_vertices hc _ hS, ?_⟩
  · rw [hvec, hvec] at h
    have := congrFun h 0
    funext i
    rw [Subsingleton.elim i 0]
    simpa using this
  · constructor
    · intro h
      have := congrFun h ⟨0, hr⟩
      simp only [onesMat, Matrix.of_apply, Matrix.mulVec, dotProduct, one_mul, Fin.sum_univ_two, Pi.zero_apply] at this
      refine ⟨fun _ => n 0, ?_⟩
      rw [hvec]
      funext i
      fin_cases i
      · simp
      · simp; linarith
    · rintro ⟨x, rfl⟩
      rw [hvec]
      funext i
      simp [onesMat, Matrix.mulVec, dotProduct, Fin.sum_univ_two]
  · ext i j
    simp only [Matrix.mul_apply, pairLib, onesMat, Matrix.of_apply, one_mul, mul_one,
      Finset.sum_const, Finset.card_univ, Fintype.card_fin, nsmul_eq_mul]
    push_cast
    linarith
  · simp only [pairLib, Bool.false_eq_true, false_iff, not_not]
    exact ⟨fun _ => 0, (hS _).2 ⟨by simpa using hc.le, by simpa using hc.le⟩⟩

example : PolyOk (pairLib 1 (1 / 2) (1 / 2)) (onesMat 1) (fun _ => 1) ∧
    (∃ n : Fin 2 → ℚ, (onesMat 1).mulVec n = fun _ => 1) ∧
    ∃ l, nonnegVertices (pairLib 1 (1 / 2) (1 / 2)) (fun _ => 1) = .ok l ∧ l.length = 2 := by
  refine ⟨pairLib_ok 1 one_pos _ _ (by norm_num) (by norm_num) _ (by simp), ⟨![1, 0], ?_⟩, _, rfl, rfl⟩
  funext i
  simp [onesMat, Matrix.mulVec, dotProduct, Fin.sum_univ_two]

/-- **C90** (finding): one sublattice with two species of charge +1 and charge neutrality, that is
`n₀ + n₁ = 0` and `n₀ + n₁ = 1`: no composition exists, yet vertices are returned (of least squares
solutions) and no error is raised. -/
theorem C90_inconsistent_witness :
    PolyOk (pairLib 2 (1 / 4) (1 / 4)) (onesMat 2) ![0, 1] ∧
    (¬ ∃ n : Fin 2 → ℚ, (onesMat 2).mulVec n = ![0, 1]) ∧
    nonnegVertices (pairLib 2 (1 / 4) (1 / 4)) ![0, 1] = .ok [![1 / 2, 0], ![0, 1 / 2]] := by
  refine ⟨pairLib_ok 2 two_pos _ _ (by norm_num) (by norm_num) _ (by simp), ?_, ?_⟩
  · rintro ⟨n, hn⟩
    have h0 := congrFun hn 0
    have h1 := congrFun hn 1
    simp [onesMat, Matrix.mulVec, dotProduct, Fin.sum_univ_two] at h0 h1
    linarith
  · have e : ∀ (c : ℚ) (v : Fin 2 → ℚ), v = ![c + 1 / 4, -c + 1 / 4] →
        Matrix.vecMul (fun _ : Fin 1 => c) (pairLib 2 (1 / 4) (1 / 4)).nullSpace +
          (pairLib 2 (1 / 4) (1 / 4)).pinv.mulVec ![0, 1] = v := by
      rintro c v rfl
      funext i
      fin_cases i <;> simp only [pairLib, Pi.add_apply, Matrix.vecMul, Matrix.mulVec, dotProduct,
        Fin.sum_univ_two, Matrix.of_apply, Finset.univ_unique, Finset.sum_singleton] <;> simp
    show Except.ok [_, _] = Except.ok [_, _]
    dsimp only
    rw [e (1 / 4) ![1 / 2, 0] (by norm_num), e (-(1 / 4)) ![0, 1 / 2] (by norm_num)]

/-! ### Centroid -/

/-- `x` satisfies all constraints. -/
def Meets (cons : List (List ℤ → Bool)) (x : List ℤ) : Prop := ∀ c ∈ cons, c x = true

/-- What is assumed of the solver: it returns a minimizer up to a rounding error, and nothing only
if there is no feasible point. -/
structure NearestSolver (L : CentroidLib) : Prop where
  found : ∀ cons target x, L.solve cons target = some x → ∃ y : List ℤ, y.length = target.length ∧
    List.Forall₂ (fun (a : ℚ) (m : ℤ) => |a - (m : ℚ)| < 1 / 2) x y ∧ Meets cons y ∧
    ∀ z : List ℤ, z.length = target.length → Meets cons z → sqDistTo y target ≤ sqDistTo z target
  none : ∀ cons target, L.solve cons target = none →
    ¬ ∃ z : List ℤ, z.length = target.length ∧ Meets cons z

theorem round_forall2 {x : List ℚ} {y : List ℤ}
    (h : List.Forall₂ (fun (a : ℚ) (m : ℤ) => |a - (m : ℚ)| < 1 / 2) x y) : x.map npRound = y := by
  induction h with
  | nil => rfl
  | cons h1 _ ih => rw [List.map_cons, npRound_of_close h1, ih]

/-- What a returned centroid is. -/
theorem naturalCentroid_some {L : CentroidLib} (hL : NearestSolver L) {n0 : List ℤ} {vs : List (List ℤ)}
    {size : ℕ} {leq : List (List ℚ × ℚ)} {x : List ℤ} (h : naturalCentroid L n0 vs size leq = some x) :
    (∀ v ∈ vs, v.length = n0.length) ∧ L.extreme n0 vs ≠ [] ∧ x.length = vs.length ∧
    Allowed leq size (countsOf n0 vs x) ∧
    ∀ z : List ℤ, z.length = vs.length → Allowed leq size (countsOf n0 vs z) →
      sqDistTo x (averageOf vs.length (L.extreme n0 vs)) ≤ sqDistTo z (averageOf vs.length (L.extreme n0 vs)) := by
  unfold naturalCentroid at h
  dsimp only at h
  split_ifs at h with h1 h2
  have hw : ∀ v ∈ vs, v.length = n0.length := by simpa using h1
  obtain ⟨q, hq, rfl⟩ := Option.map_eq_some_iff.1 h
  obtain ⟨y, hy1, hy2, hy3, hy4⟩ := hL.found _ _ _ hq
  have hlen : (averageOf vs.length (L.extreme n0 vs)).length = vs.length := by simp [averageOf]
  rw [hlen] at hy1 hy4
  rw [round_forall2 hy2]
  refine ⟨hw, by simpa using h2, hy1, (constraints_allowed hw size leq y).1 hy3, fun z hz hz' => ?_⟩
  exact hy4 z hz ((constraints_allowed hw size leq z).2 hz')

/-- **C90** (membership): the centroid composition is one of the compositions listed by
`get_composition_grid` at the same size. -/
theorem C90_centroid_on_grid (c : CompSpace) (L : CentroidLib) (hL : NearestSolver L) (δ : ℚ) (minSize : ℕ)
    (size : Option ℕ) (n0 : List ℤ) (h : GridReady c δ (size.getD minSize) n0)
    (hpos : 0 < size.getD minSize) (x : List ℤ) (hx : c.centroid L minSize size = some x) :
    ∃ g, c.direct (size.getD minSize) 1 = some g ∧ x ∈ g := by
  obtain ⟨g, hg, -, hmem⟩ := C33_grid c δ _ n0 h
  refine ⟨g, hg, ?_⟩
  unfold CompSpace.centroid at hx
  dsimp only at hx
  rw [h.base, Option.bind_some] at hx
  obtain ⟨-, -, h3, h4, -⟩ := naturalCentroid_some hL hx
  refine (hmem x).2 ⟨h3, h4.1, fun p hp => ?_⟩
  have hs : (0 : ℚ) < (size.getD minSize : ℕ) := by exact_mod_cast hpos
  rw [div_le_iff₀ hs]
  have := h4.2 p hp
  have ht : 0 ≤ c.tol := h.tol0.trans h.tol1
  nlinarith [mul_nonneg ht hs.le]

/-- **C90** (nearest): no allowed composition is nearer to the average of the vertices, in
coordinates. -/
theorem C90_centroid_nearest (c : CompSpace) (L : CentroidLib) (hL : NearestSolver L) (minSize : ℕ)
    (size : Option ℕ) (n0 : List ℤ) (h0 : c.baseSolution (size.getD minSize) = some n0)
    (x : List ℤ) (hx : c.centroid L minSize size = some x) :
    x.length = c.basis.length ∧ Allowed c.leq (size.getD minSize) (countsOf n0 c.basis x) ∧
    ∀ y : List ℤ, y.length = c.basis.length → Allowed c.leq (size.getD minSize) (countsOf n0 c.basis y) →
      sqDistTo x (averageOf c.basis.length (L.extreme n0 c.basis)) ≤
        sqDistTo y (averageOf c.basis.length (L.extreme n0 c.basis)) := by
  unfold CompSpace.centroid at hx
  dsimp only at hx
  rw [h0, Option.bind_some] at hx
  obtain ⟨-, -, h3, h4, h5⟩ := naturalCentroid_some hL hx
  exact ⟨h3, h4, h5⟩

/-- **C90** (exception): with a proper basis and vertices found, an exception is raised exactly if
no composition at this size is allowed. -/
theorem C90_centroid_raises (c : CompSpace) (L : CentroidLib) (hL : NearestSolver L) (minSize : ℕ)
    (size : Option ℕ) (n0 : List ℤ) (h0 : c.baseSolution (size.getD minSize) = some n0)
    (hw : ∀ v ∈ c.basis, v.length = n0.length) (hv : L.extreme n0 c.basis ≠ []) :
    c.centroid L minSize size = none ↔ ¬ ∃ y : List ℤ, y.length = c.basis.length ∧
      Allowed c.leq (size.getD minSize) (countsOf n0 c.basis y) := by
  constructor
  · intro hx
    unfold CompSpace.centroid at hx
    dsimp only at hx
    rw [h0, Option.bind_some] at hx
    unfold naturalCentroid at hx
    rw [if_neg (by simpa using hw)] at hx
    dsimp only at hx
    rw [if_neg (by simpa using hv), Option.map_eq_none_iff] at hx
    have hlen : (averageOf c.basis.length (L.extreme n0 c.basis)).length = c.basis.length := by
      simp [averageOf]
    rintro ⟨y, hy1, hy2⟩
    exact hL.none _ _ hx ⟨y, by rw [hlen, hy1], (constraints_allowed hw _ _ _).2 hy2⟩
  · intro hno
    cases hx : c.centroid L minSize size with
    | none => rfl
    | some x =>
      obtain ⟨h1, h2, -⟩ := C90_centroid_nearest c L hL minSize size n0 h0 x hx
      exact absurd ⟨x, h1, h2⟩ hno

/-- A list as a vector. -/
def coordVec (k : ℕ) (l : List ℚ) : Fin k → ℚ := fun j => l.getD j 0

/-- The basis as a matrix. -/
def basisMatrix (d : ℕ) (vs : List (List ℤ)) : Matrix (Fin vs.length) (Fin d) ℚ :=
  fun k i => ((vs[k].getD i 0 : ℤ) : ℚ)

/-- **C90** (what the target is): the counts of the point aimed at are the average of the vertices
of the set of compositions, whatever basis is used. -/
theorem C90_target_is_vertex_average {r d : ℕ} (A : Matrix (Fin r) (Fin d) ℚ) (n0 : List ℤ)
    (vs : List (List ℤ)) (hV : IsKernelBasis A (basisMatrix d vs)) (pts : List (List ℚ))
    (hpts : IsVertices {x | ∀ i, 0 ≤ (Matrix.vecMul x (basisMatrix d vs) + fun i : Fin d => ((n0.getD i 0 : ℤ) : ℚ)) i}
      (pts.map (coordVec vs.length))) (hne : pts ≠ [])
    (W : List (Fin d → ℚ))
    (hW : IsVertices (compositions A (A.mulVec fun i : Fin d => ((n0.getD i 0 : ℤ) : ℚ))) W) (i : Fin d) :
    (Matrix.vecMul (coordVec vs.length (averageOf vs.length pts)) (basisMatrix d vs)) i + ((n0.getD i 0 : ℤ) : ℚ) =
      (W.map fun n => n i).sum / W.length := by
  set V := basisMatrix d vs with hVdef
  set m0 : Fin d → ℚ := fun i : Fin d => ((n0.getD i 0 : ℤ) : ℚ) with hm0
  have hperm : W.Perm (pts.map fun p => Matrix.vecMul (coordVec vs.length p) V + m0) := by
    rw [List.perm_ext_iff_of_nodup hW.1]
    · intro n
      rw [hW.2, extreme_affine V m0 hV.1 {x | ∀ i, 0 ≤ (Matrix.vecMul x V + m0) i}
        (compositions A (A.mulVec m0)) (fun x => ⟨fun H => ⟨(compositions_coordinates hV rfl _).2 ⟨x, rfl⟩, H⟩, fun H => H.2⟩)
        (fun n hn => (compositions_coordinates hV rfl n).1 hn.1)]
      simp only [← hpts.2, List.mem_map]
      constructor
      · rintro ⟨x, ⟨p, hp, rfl⟩, rfl⟩
        exact ⟨p, hp, rfl⟩
      · rintro ⟨p, hp, rfl⟩
        exact ⟨_, ⟨p, hp, rfl⟩, rfl⟩
    · have := hpts.1.map (f := fun x => Matrix.vecMul x V + m0) fun x y hxy => hV.1 _ _ (add_right_cancel hxy)
      rwa [List.map_map] at this
  rw [(hperm.map fun n => n i).sum_eq, hperm.length_eq, List.map_map, List.length_map]
  have hlen : (pts.length : ℚ) ≠ 0 := by
    simpa using hne
  rw [eq_div_iff hlen]
  have e1 : ∀ j : Fin vs.length, coordVec vs.length (averageOf vs.length pts) j * pts.length =
      (pts.map fun p => coordVec vs.length p j).sum := by
    intro j
    unfold coordVec averageOf
    rw [List.getD_eq_getElem?_getD, List.getElem?_map, List.getElem?_range j.2]
    simp only [Option.map_some, Option.getD_some]
    rw [div_mul_cancel₀ _ hlen]
  have e2 : Matrix.vecMul (coordVec vs.length (averageOf vs.length pts)) V i * pts.length =
      (pts.map fun p => Matrix.vecMul (coordVec vs.length p) V i).sum := by
    simp only [Matrix.vecMul, dotProduct]
    rw [Finset.sum_mul]
    have : ∀ l : List (List ℚ), (l.map fun p => ∑ j, coordVec vs.length p j * V j i).sum =
        ∑ j, (l.map fun p => coordVec vs.length p j).sum * V j i := by
      intro l
      induction l with
      | nil => simp
      | cons p l ih =>
        simp only [List.map_cons, List.sum_cons, ih, ← Finset.sum_add_distrib, add_mul]
    rw [this]
    refine Finset.sum_congr rfl fun j _ => ?_
    rw [← e1 j]
    ring
  rw [add_mul, e2]
  have : ∀ l : List (List ℚ), (l.map ((fun n : Fin d → ℚ => n i) ∘ fun p => Matrix.vecMul (coordVec vs.length p) V + m0)).sum =
      (l.map fun p => Matrix.vecMul (coordVec vs.length p) V i).sum + m0 i * l.length := by
    intro l
    induction l with
    | nil => simp
    | cons p l ih =>
      simp only [List.map_cons, List.sum_cons, ih, Function.comp_apply, Pi.add_apply, List.length_cons]
      push_cast
      ring
  rw [this]

/-- **C90** (default size): if one vertex (or any other solution) becomes integral at `m` primitive
cells, then `m` is a multiple of the smallest size with an integral right hand side, so the base
solution is found. -/
theorem C90_min_size_feasible {r d : ℕ} (A : Fin r → Fin d → ℤ) (b : Fin r → ℚ) (v : Fin d → ℚ)
    (hv : ∀ i, ∑ j, (A i j : ℚ) * v j = b i) (m : ℕ) (hm : ∀ j, ∃ z : ℤ, v j * (m : ℚ) = z)
    (c : CompSpace) (hc : c.minSize = denLcm (List.ofFn b)) : c.baseSolution m ≠ none := by
  have : denLcm (List.ofFn b) ∣ m := by
    refine denLcm_dvd_of fun q hq => ?_
    obtain ⟨i, rfl⟩ := (List.mem_ofFn' _ _).1 hq
    refine den_dvd_of_integral ?_
    choose z hz using hm
    refine ⟨∑ j, A i j * z j, ?_⟩
    rw [← hv i, Finset.sum_mul]
    push_cast
    refine Finset.sum_congr rfl fun j _ => ?_
    rw [mul_assoc, hz]
  unfold CompSpace.baseSolution
  rw [hc, if_neg (by simpa using Nat.mod_eq_zero_of_dvd this)]
  simp

example : lineSpace.minSize = denLcm (List.ofFn fun _ : Fin 1 => (1 : ℚ)) ∧
    (∀ j : Fin 2, ∃ z : ℤ, (![1 / 3, 2 / 3] : Fin 2 → ℚ) j * ((3 : ℕ) : ℚ) = z) := by
  refine ⟨by decide +kernel, fun j => ?_⟩
  fin_cases j
  · exact ⟨1, by norm_num⟩
  · exact ⟨2, by norm_num⟩

/-! ### Examples -/

theorem sqDistTo_scaled {D : ℚ} (y : List ℤ) (t : List ℚ) (h : ∀ q ∈ t, ∃ z : ℤ, q * D = z) (hD : ∃ m : ℤ, D = m) :
    ∃ n : ℕ, sqDistTo y t * D ^ 2 = n := by
  induction y generalizing t with
  | nil => exact ⟨0, by simp [sqDistTo]⟩
  | cons a y ih =>
    cases t with
    | nil => exact ⟨0, by simp [sqDistTo]⟩
    | cons q t =>
      obtain ⟨n, hn⟩ := ih t fun q hq => h q (List.mem_cons_of_mem _ hq)
      obtain ⟨z, hz⟩ := h q (List.mem_cons_self ..)
      obtain ⟨m, hm⟩ := hD
      refine ⟨(a * m - z).natAbs ^ 2 + n, ?_⟩
      have e : sqDistTo (a :: y) (q :: t) = ((a : ℚ) - q) ^ 2 + sqDistTo y t := by simp [sqDistTo]
      have e2 : (((a * m - z).natAbs ^ 2 : ℕ) : ℚ) = ((a * m - z : ℤ) : ℚ) ^ 2 := by
        have : (((a * m - z).natAbs ^ 2 : ℕ) : ℤ) = (a * m - z) ^ 2 := by push_cast; exact sq_abs _
        rw [← Int.cast_natCast, this, Int.cast_pow]
      rw [e, add_mul, hn, Nat.cast_add, e2]
      push_cast
      rw [← hz, ← hm]
      ring

/-- A nearest point exists. -/
theorem exists_nearest (P : List ℤ → Prop) (t : List ℚ) (h : ∃ z, P z) :
    ∃ y, P y ∧ ∀ z, P z → sqDistTo y t ≤ sqDistTo z t := by
  classical
  have hsc : ∀ y, ∃ n : ℕ, sqDistTo y t * (denLcm t : ℚ) ^ 2 = n := fun y =>
    sqDistTo_scaled y t (fun q hq => mul_denLcm_integral hq) ⟨denLcm t, by simp⟩
  choose f hf using hsc
  have hex : ∃ n, ∃ z, P z ∧ f z = n := by
    obtain ⟨z, hz⟩ := h
    exact ⟨f z, z, hz, rfl⟩
  obtain ⟨y, hy, hfy⟩ := Nat.find_spec hex
  refine ⟨y, hy, fun z hz => ?_⟩
  have hle : f y ≤ f z := by rw [hfy]; exact Nat.find_min' hex ⟨z, hz, rfl⟩
  have hpos : (0 : ℚ) < (denLcm t : ℚ) ^ 2 := by
    have := denLcm_pos t
    positivity
  have : sqDistTo y t * (denLcm t : ℚ) ^ 2 ≤ sqDistTo z t * (denLcm t : ℚ) ^ 2 := by
    rw [hf, hf]
    exact_mod_cast hle
  exact le_of_mul_le_mul_right this hpos

open Classical in
/-- A solver that meets the contract. -/
noncomputable def exactSolver (pts : List (List ℚ)) : CentroidLib where
  extreme := fun _ _ => pts
  solve := fun cons t =>
    if h : ∃ z : List ℤ, z.length = t.length ∧ Meets cons z then
      some ((exists_nearest (fun z => z.length = t.length ∧ Meets cons z) t h).choose.map fun a : ℤ => (a : ℚ))
    else none

theorem exactSolver_ok (pts : List (List ℚ)) : NearestSolver (exactSolver pts) where
  found := by
    intro cons t x hx
    unfold exactSolver at hx
    dsimp only at hx
    split_ifs at hx with h
    rw [Option.some.injEq] at hx
    subst hx
    obtain ⟨⟨h1, h2⟩, h3⟩ := (exists_nearest (fun z => z.length = t.length ∧ Meets cons z) t h).choose_spec
    refine ⟨_, h1, ?_, h2, fun z hz1 hz2 => h3 z ⟨hz1, hz2⟩⟩
    rw [List.forall₂_map_left_iff]
    exact List.forall₂_same.2 fun a _ => by norm_num
  none := by
    intro cons t hx
    unfold exactSolver at hx
    dsimp only at hx
    split_ifs at hx with h
    exact h

/-- Two species on four sites, at most half of the first: the theorems apply. -/
example : ∃ x g, lineSpace.centroid (exactSolver [[0], [4]]) 1 (some 4) = some x ∧
    lineSpace.direct 4 1 = some g ∧ x ∈ g := by
  have hne : lineSpace.centroid (exactSolver [[0], [4]]) 1 (some 4) ≠ none := by
    rw [ne_eq, C90_centroid_raises lineSpace _ (exactSolver_ok _) 1 (some 4) [0, 4] lineSpace_ready.base
      lineSpace_ready.width (by simp [exactSolver]), not_not]
    refine ⟨[0], rfl, ?_, ?_⟩
    · decide
    · decide +kernel
  obtain ⟨x, hx⟩ := Option.ne_none_iff_exists'.1 hne
  obtain ⟨g, h1, h2⟩ := C90_centroid_on_grid lineSpace _ (exactSolver_ok _) 0 1 (some 4) [0, 4] lineSpace_ready
    (by decide) x hx
  exact ⟨x, g, hx, h1, h2⟩

/-- The hypotheses of `C90_target_is_vertex_average`: two species on two sites. -/
example : ∃ (A : Matrix (Fin 1) (Fin 2) ℚ) (W : List (Fin 2 → ℚ)), IsKernelBasis A (basisMatrix 2 [[1, -1]]) ∧
    IsVertices {x | ∀ i, 0 ≤ (Matrix.vecMul x (basisMatrix 2 [[1, -1]]) +
      fun i : Fin 2 => ((([1, 1] : List ℤ).getD i 0 : ℤ) : ℚ)) i} ([[1], [-1]].map (coordVec 1)) ∧
    IsVertices (compositions A (A.mulVec fun i : Fin 2 => ((([1, 1] : List ℤ).getD i 0 : ℤ) : ℚ))) W ∧
    W.length = 2 := by
  have hb : basisMatrix 2 [[1, -1]] = (pairLib 1 (1 / 2) 1).nullSpace := by
    ext i j
    fin_cases i
    fin_cases j <;> simp [basisMatrix, pairLib]
  have hok : PolyOk (pairLib 1 (1 / 2) 1) (onesMat 1) (fun _ => 2) :=
    pairLib_ok 1 one_pos _ _ (by norm_num) one_pos _ (by simp)
  have hrhs : ((onesMat 1).mulVec fun i : Fin 2 => ((([1, 1] : List ℤ).getD i 0 : ℤ) : ℚ)) = fun _ => 2 := by
    funext i
    simp [onesMat, Matrix.mulVec, dotProduct, Fin.sum_univ_two]
    norm_num
  have hl := C90_vertices_partial _ (onesMat 1) (fun _ => 2) hok ⟨_, hrhs⟩ _ rfl
  refine ⟨onesMat 1, _, ?_, ?_, by rw [hrhs]; exact hl.1, rfl⟩
  · rw [hb]
    exact hok.kernel
  · have e : ([[1], [-1]] : List (List ℚ)).map (coordVec 1) = [fun _ => (1 : ℚ), fun _ => -1] := by
      simp only [List.map_cons, List.map_nil, List.cons.injEq, and_true]
      constructor <;> funext i <;> fin_cases i <;> simp [coordVec]
    have hvec : ∀ x : Fin 1 → ℚ, Matrix.vecMul x (basisMatrix 2 [[1, -1]]) = ![x 0, - x 0] := by
      intro x
      rw [hb]
      funext i
      fin_cases i <;> simp [pairLib, Matrix.vecMul, dotProduct]
    rw [e]
    refine interval_vertices one_pos _ fun x => ?_
    simp only [hvec]
    constructor
    · intro h
      have h0 := h 0
      have h1 := h 1
      simp at h0 h1
      constructor <;> linarith
    · rintro ⟨h1, h2⟩ i
      fin_cases i <;> simp <;> linarith

/-- A triangle of three species on five sites, with a skewed basis. -/
def skewBasis : List (List ℤ) := [[-1, 1, 0], [-5, 4, 1]]

/-- **C90** (finding): which composition is returned depends on the basis: with this basis, any
solver meeting its contract and the right vertices, the result for three species on five sites is
(0, 3, 2), although (2, 2, 1) is nearer to the average (5/3, 5/3, 5/3) of the vertices. -/
theorem C90_basis_dependence_witness (L : CentroidLib) (hL : NearestSolver L)
    (hv : L.extreme [5, 0, 0] skewBasis = [[0, 0], [5, 0], [-20, 5]]) :
    (skewBasis.map fun v => v.sum) = [0, 0] ∧
    naturalCentroid L [5, 0, 0] skewBasis 1 [] = some [-5, 2] ∧
    countsOf [5, 0, 0] skewBasis [-5, 2] = [0, 3, 2] ∧
    countsOf [5, 0, 0] skewBasis [-2, 1] = [2, 2, 1] ∧
    sqDistTo [2, 2, 1] [5 / 3, 5 / 3, 5 / 3] < sqDistTo [0, 3, 2] [5 / 3, 5 / 3, 5 / 3] := by
  refine ⟨by decide, ?_, by decide, by decide, by decide +kernel⟩
  have hgood : Allowed [] 1 (countsOf [5, 0, 0] skewBasis [-5, 2]) := by
    refine ⟨?_, fun p hp => by simp at hp⟩
    decide
  have hav : averageOf skewBasis.length (L.extreme [5, 0, 0] skewBasis) = [-5, 5 / 3] := by
    rw [hv]
    decide +kernel
  have hw : ∀ v ∈ skewBasis, v.length = ([5, 0, 0] : List ℤ).length := by decide
  cases hx : naturalCentroid L [5, 0, 0] skewBasis 1 [] with
  | none =>
    exfalso
    unfold naturalCentroid at hx
    rw [if_neg (by simpa using hw)] at hx
    dsimp only at hx
    rw [if_neg (by rw [hv]; decide), Option.map_eq_none_iff, hav] at hx
    exact hL.none _ _ hx ⟨[-5, 2], rfl, (constraints_allowed hw 1 [] _).2 hgood⟩
  | some x =>
    obtain ⟨-, -, h3, -, h5⟩ := naturalCentroid_some hL hx
    have := h5 [-5, 2] rfl hgood
    rw [hav] at this
    obtain ⟨a, b, rfl⟩ := List.length_eq_two.1 h3
    have e : sqDistTo [-5, 2] [-5, 5 / 3] = 1 / 9 := by decide +kernel
    rw [e] at this
    simp only [sqDistTo, List.zipWith_cons_cons, List.zipWith_nil_left, List.sum_cons, List.sum_nil] at this
    have hb : b = 2 := by
      have h1 : ((b : ℚ) - 5 / 3) ^ 2 ≤ (1 / 3) ^ 2 := by nlinarith [sq_nonneg ((a : ℚ) - -5)]
      have h2 := abs_le_of_sq_le_sq' h1 (by norm_num)
      have l1 : (1 : ℚ) < b := by linarith [h2.1]
      have l2 : (b : ℚ) < 3 := by linarith [h2.2]
      have l1' : (1 : ℤ) < b := by exact_mod_cast l1
      have l2' : b < 3 := by exact_mod_cast l2
      omega
    subst hb
    have ha : a = -5 := by
      have h1 : ((a : ℚ) - -5) ^ 2 ≤ 0 := by push_cast at this; linarith
      have h2 : (a : ℚ) - -5 = 0 := pow_eq_zero_iff (two_ne_zero) |>.1 (le_antisymm h1 (sq_nonneg _))
      have : (a : ℚ) = ((-5 : ℤ) : ℚ) := by push_cast; linarith
      exact_mod_cast this
    rw [ha]

end Smol
