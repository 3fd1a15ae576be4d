import Verif.Lemmas.OrbitRotation
import Verif.Props.Orbit
import Verif.Props.SiteBasis

/-!
# C66: correlation functions of an orbit

Orthogonality under the product of the site concentrations, and how they change when the site
bases are rotated.  Site `k` of the cluster has `m k` species and the basis `B k`.
-/

namespace Smol
open Matrix Spec

/-- concentration of species `c` -/
noncomputable def concentration {m : ℕ} (B : SiteBasis m) (c : ℕ) : ℝ :=
  if h : c < m then B.measure ⟨c, h⟩ else 0

/-- function `b` (not counting the constant one) of a basis at species `c` -/
noncomputable def siteFunction {m : ℕ} (B : SiteBasis m) (b c : ℕ) : ℝ :=
  functionAt ⟨m, B⟩ b c

/-- all non-constant functions of the sites, the `bits` of an orbit -/
def fullBits (n : ℕ) (m : ℕ → ℕ) : List (List ℕ) :=
  (List.range n).map fun k => List.range (m k - 1)

/-- numbers of species of the sites -/
def fullShape (n : ℕ) (m : ℕ → ℕ) : List ℕ := (List.range n).map m

theorem siteFunction_eq {m : ℕ} (B : SiteBasis m) (b c : ℕ) (hb : b + 1 < m) (hc : c < m) :
    siteFunction B b c = B.f ⟨b + 1, hb⟩ ⟨c, hc⟩ := by
  simp [siteFunction, functionAt, rowOf, hb, hc]

theorem sum_site {m : ℕ} (B : SiteBasis m) (b b' : ℕ) (hb : b + 1 < m) (hb' : b' + 1 < m) :
    ∑ c ∈ Finset.range m, concentration B c * (siteFunction B b c * siteFunction B b' c) =
      siteInner B.measure (B.f ⟨b + 1, hb⟩) (B.f ⟨b' + 1, hb'⟩) := by
  rw [Finset.sum_range]
  apply Finset.sum_congr rfl
  intro c _
  rw [siteFunction_eq B b c hb c.2, siteFunction_eq B b' c hb' c.2]
  simp [concentration]

theorem fullBits_length (n : ℕ) (m : ℕ → ℕ) : (fullBits n m).length = n := by simp [fullBits]

theorem fullBits_get (n : ℕ) (m : ℕ → ℕ) (i : ℕ) (hi : i < n) :
    (fullBits n m).getD i [] = List.range (m i - 1) := by
  simp [fullBits, List.getD_eq_getElem?_getD, hi]

theorem fullShape_get (n : ℕ) (m : ℕ → ℕ) (i : ℕ) (hi : i < n) :
    (fullShape n m).getD i 0 = m i := by
  simp [fullShape, List.getD_eq_getElem?_getD, hi]

theorem choice_fullBits {n : ℕ} {m : ℕ → ℕ} {a : List ℕ} (h : Choice (fullBits n m) a) :
    a.length = n ∧ ∀ i < n, a.getD i 0 + 1 < m i := by
  have hl := h.length
  rw [fullBits_length] at hl
  refine ⟨hl, fun i hi => ?_⟩
  have h2 := (choice_iff_get _ _).1 h
  have hx := (List.forall₂_iff_get.1 h).2 i (by omega) (by rw [fullBits_length]; exact hi)
  simp only [List.get_eq_getElem, fullBits, List.getElem_map, List.getElem_range, List.mem_range] at hx
  have : a.getD i 0 = a[i] := by simp [List.getD_eq_getElem?_getD, hl, hi]
  rw [this]
  omega

theorem respects_fullBits {n : ℕ} {m : ℕ → ℕ} {perms : List (List ℕ)} (G : PermGroup n perms)
    (hm : ∀ p ∈ perms, ∀ (i j : ℕ), p[i]? = some j → m j = m i) : Respects perms (fullBits n m) := by
  intro p hp i j hij
  have hi : i < n := by
    have := (List.getElem?_eq_some_iff.1 hij).1
    rwa [G.length hp] at this
  have hj : j < n := G.lt hp _ (List.mem_of_getElem? hij)
  simp [fullBits, hi, hj, hm p hp i j hij]

/-- Correlation functions of an orbit with orthonormal site bases: orthogonal to one another under
independently drawn species, the norm squared being one over the number of equivalent orderings. -/
theorem C66_orthogonal {n : ℕ} {m : ℕ → ℕ} (B : ∀ k, SiteBasis (m k)) (perms : List (List ℕ))
    (G : PermGroup n perms) (hm : ∀ p ∈ perms, ∀ (i j : ℕ), p[i]? = some j → m j = m i)
    (hon : ∀ k < n, (B k).isOrthonormal) (cl cl' : List (List ℕ))
    (hcl : cl ∈ bitCombos (fullBits n m) perms) (hcl' : cl' ∈ bitCombos (fullBits n m) perms) :
    expect (fun k => concentration (B k)) 0 (fullShape n m) (fun codes =>
      corrTensor (fun k => siteFunction (B k)) cl codes *
      corrTensor (fun k => siteFunction (B k)) cl' codes) =
    if cl = cl' then 1 / (cl.length : ℝ) else 0 := by
  have G' : PermGroup (fullBits n m).length perms := by rw [fullBits_length]; exact G
  obtain ⟨hne, hdis, hch, -⟩ := C45_partition _ perms G' (respects_fullBits G hm)
  have hA : ∀ c ∈ bitCombos (fullBits n m) perms, ∀ a ∈ c, a.length = n ∧ ∀ i < n, a.getD i 0 + 1 < m i :=
    fun c hc a ha => choice_fullBits ((hch a).1 ⟨c, hc, ha⟩)
  set mu := fun k => concentration (B k) with hmu
  set phi := fun k => siteFunction (B k) with hphi
  have hprod : ∀ b ∈ cl, ∀ b' ∈ cl', expect mu 0 (fullShape n m)
      (fun c => clusterFunction phi 0 b c * clusterFunction phi 0 b' c) = if b = b' then 1 else 0 := by
    intro b hb b' hb'
    obtain ⟨h1, h2⟩ := hA cl hcl b hb
    obtain ⟨h1', h2'⟩ := hA cl' hcl' b' hb'
    have hlen : (fullShape n m).length = n := by simp [fullShape]
    apply expect_products
    · rw [h1, hlen]
    · rw [h1', hlen]
    · intro i hi
      rw [hlen] at hi
      rw [fullShape_get n m i hi, Nat.zero_add]
      rw [sum_site (B i) _ _ (h2 i hi) (h2' i hi), ← prods_eq, hon i hi, Matrix.one_apply]
      simp [Fin.ext_iff]
  have hF : ∀ c : List ℕ, c.length = (fullShape n m).length →
      corrTensor phi cl c * corrTensor phi cl' c =
      1 / ((cl.length : ℝ) * (cl'.length : ℝ)) * (cl.map fun b => (cl'.map fun b' =>
        clusterFunction phi 0 b c * clusterFunction phi 0 b' c).sum).sum := by
    intro c hc
    have hc' : c.length = n := by simpa [fullShape] using hc
    rw [corrTensor_eq phi cl c (fun b hb => by rw [(hA cl hcl b hb).1, hc']),
      corrTensor_eq phi cl' c (fun b hb => by rw [(hA cl' hcl' b hb).1, hc'])]
    unfold correlation
    rw [div_mul_div_comm, ← List.sum_map_mul_right, div_eq_mul_one_div, mul_comm]
    simp only [List.sum_map_mul_left]
  rw [expect_congr mu _ _ _ _ hF, expect_mul_left, expect_list_sum]
  have e1 : (cl.map fun b => expect mu 0 (fullShape n m) fun c => (cl'.map fun b' =>
      clusterFunction phi 0 b c * clusterFunction phi 0 b' c).sum).sum =
      (cl.map fun b => (cl'.map fun b' => if b = b' then (1 : ℝ) else 0).sum).sum := by
    congr 1
    apply List.map_congr_left
    intro b hb
    rw [expect_list_sum]
    congr 1
    apply List.map_congr_left
    intro b' hb'
    exact hprod b hb b' hb'
  rw [e1]
  by_cases he : cl = cl'
  · subst he
    obtain ⟨hne1, hnd⟩ := hne cl hcl
    have e2 : ∀ b ∈ cl, (cl.map fun b' => if b = b' then (1 : ℝ) else 0).sum = 1 := by
      intro b hb
      have : ∀ l : List (List ℕ), l.Nodup → b ∈ l →
          (l.map fun b' => if b = b' then (1 : ℝ) else 0).sum = 1 := by
        intro l
        induction l with
        | nil => simp
        | cons x l ih =>
          intro hn hbm
          rw [List.nodup_cons] at hn
          rw [List.map_cons, List.sum_cons]
          rcases List.mem_cons.1 hbm with rfl | hb2
          · have hz : (l.map fun b' => if b = b' then (1 : ℝ) else 0).sum = 0 := by
              apply List.sum_eq_zero
              intro y hy
              obtain ⟨z, hz, rfl⟩ := List.mem_map.1 hy
              rw [if_neg]
              rintro rfl
              exact hn.1 hz
            rw [if_pos rfl, hz, add_zero]
          · rw [if_neg (by rintro rfl; exact hn.1 hb2), ih hn.2 hb2, zero_add]
      exact this cl hnd hb
    rw [if_pos rfl, List.map_congr_left e2]
    have hl : (cl.length : ℝ) ≠ 0 := by
      have : cl.length ≠ 0 := by simpa using hne1
      exact_mod_cast this
    simp only [List.map_const', List.sum_replicate, nsmul_eq_mul, mul_one]
    field_simp
  · have hd : ∀ a, a ∈ cl → a ∉ cl' := by
      have : Std.Symm fun x y : List (List ℕ) => ∀ a, a ∈ x → a ∉ y :=
        ⟨fun x y h a hy hx => h a hx hy⟩
      exact hdis.forall hcl hcl' he
    have e2 : (cl.map fun b => (cl'.map fun b' => if b = b' then (1 : ℝ) else 0).sum).sum = 0 := by
      apply List.sum_eq_zero
      intro y hy
      obtain ⟨b, hb, rfl⟩ := List.mem_map.1 hy
      apply List.sum_eq_zero
      intro z hz
      obtain ⟨b', hb', rfl⟩ := List.mem_map.1 hz
      rw [if_neg]
      rintro rfl
      exact hd b hb hb'
    rw [if_neg he, e2, mul_zero]


/-- Under the same drawing every correlation function of a cluster of one site or more has mean
zero (row 0 of each basis is the constant function). -/
theorem C66_mean_zero {n : ℕ} (hn : 0 < n) {m : ℕ → ℕ} (B : ∀ k, SiteBasis (m k))
    (perms : List (List ℕ)) (G : PermGroup n perms)
    (hm : ∀ p ∈ perms, ∀ (i j : ℕ), p[i]? = some j → m j = m i)
    (hon : ∀ k < n, (B k).isOrthonormal)
    (hone : ∀ k < n, ∀ z s : Fin (m k), (z : ℕ) = 0 → (B k).f z s = 1) (cl : List (List ℕ))
    (hcl : cl ∈ bitCombos (fullBits n m) perms) :
    expect (fun k => concentration (B k)) 0 (fullShape n m) (fun codes =>
      corrTensor (fun k => siteFunction (B k)) cl codes) = 0 := by
  have G' : PermGroup (fullBits n m).length perms := by rw [fullBits_length]; exact G
  obtain ⟨-, -, hch, -⟩ := C45_partition _ perms G' (respects_fullBits G hm)
  have hA : ∀ a ∈ cl, a.length = n ∧ ∀ i < n, a.getD i 0 + 1 < m i :=
    fun a ha => choice_fullBits ((hch a).1 ⟨cl, hcl, ha⟩)
  set mu := fun k => concentration (B k) with hmu
  set phi := fun k => siteFunction (B k) with hphi
  have hF : ∀ c : List ℕ, c.length = (fullShape n m).length → corrTensor phi cl c =
      1 / (cl.length : ℝ) * (cl.map fun b => clusterFunction phi 0 b c).sum := by
    intro c hc
    have hc' : c.length = n := by simpa [fullShape] using hc
    rw [corrTensor_eq phi cl c (fun b hb => by rw [(hA b hb).1, hc']), correlation,
      div_eq_mul_one_div, mul_comm]
  rw [expect_congr mu _ _ _ _ hF, expect_mul_left, expect_list_sum]
  have hz : (cl.map fun b => expect mu 0 (fullShape n m) (clusterFunction phi 0 b)).sum = 0 := by
    apply List.sum_eq_zero
    intro y hy
    obtain ⟨b, hb, rfl⟩ := List.mem_map.1 hy
    obtain ⟨h1, h2⟩ := hA b hb
    have hb0 := h2 0 hn
    obtain ⟨n', rfl⟩ : ∃ n', n = n' + 1 := ⟨n - 1, by omega⟩
    match b, h1, hb0 with
    | x :: b, _, hb0 =>
      simp only [List.getD_cons_zero] at hb0
      have hsh : fullShape (n' + 1) m = m 0 :: (List.range n').map fun k => m (k + 1) := by
        simp [fullShape, List.range_succ_eq_map, Function.comp_def]
      rw [hsh]
      apply expect_mean
      have hg := congrFun (congrFun (hon 0 hn) ⟨0, by omega⟩) ⟨x + 1, hb0⟩
      rw [prods_eq, Matrix.one_apply, if_neg (by simp [Fin.ext_iff])] at hg
      rw [Finset.sum_range, ← hg]
      apply Finset.sum_congr rfl
      intro c _
      rw [hone 0 hn ⟨0, by omega⟩ c rfl, one_mul]
      simp only [hmu, hphi]
      rw [siteFunction_eq (B 0) x c hb0 c.2]
      simp [concentration]
  rw [hz, mul_zero]

/-! ### Rotated bases -/

/-- what a basis and its rotated form have to do with one another -/
structure Rotated {m : ℕ} (B B' : SiteBasis m) : Prop where
  measure : B'.measure = B.measure
  first : ∀ k : Fin m, (k : ℕ) = 0 → B'.f k = B.f k
  orth : B'.rot.transpose * B'.rot = 1
  rows : ∀ k : Fin m, (k : ℕ) ≠ 0 → B'.f k = B'.rot *ᵥ B.f k
  prods : B'.prods = B.prods

/-- The rotations the properties of a rotated basis are claimed for: two different functions each
time; with two species an odd number of them or none (`C65_rotation_array_binary`). -/
def GoodRotations (m : ℕ) (l : List (ℝ × ℤ × ℤ)) : Prop :=
  (m ≠ 2 ∧ ∀ x ∈ l, ∃ p q, NamesFn m x.2.1 p ∧ NamesFn m x.2.2 q ∧ p ≠ q) ∨
  (m = 2 ∧ (l = [] ∨ Odd l.length))

theorem rotated_general {m : ℕ} (hm : m ≠ 2) (w : ℝ) (l : List (ℝ × ℤ × ℤ)) : ∀ B B' : SiteBasis m,
    (∀ s, B.measure s = w) → (∀ x ∈ l, ∃ p q, NamesFn m x.2.1 p ∧ NamesFn m x.2.2 q ∧ p ≠ q) →
    B.rotations l = some B' →
    ∃ T : Matrix (Fin m) (Fin m) ℝ, T.transpose * T = 1 ∧ (∀ k, B'.f k = T *ᵥ B.f k) ∧
      B'.rot = T * B.rot ∧ B'.measure = B.measure ∧ ∀ k : Fin m, (k : ℕ) = 0 → B'.f k = B.f k := by
  induction l with
  | nil =>
    intro B B' _ _ h
    obtain rfl := Option.some.inj h
    exact ⟨1, by simp, by simp, by simp, rfl, fun _ _ => rfl⟩
  | cons x xs ih =>
    intro B B' hw hx h
    rw [SiteBasis.rotations] at h
    obtain ⟨B1, h1, h2⟩ := Option.bind_eq_some_iff.1 h
    obtain ⟨p, q, hp, hq, hpq⟩ := hx x (by simp)
    obtain ⟨R, hR, hf, hrot, hmeas, h0⟩ := rotate_orthogonal hm B B1 _ _ _ p q hp hq hpq w hw h1
    obtain ⟨T, hT, hf', hrot', hmeas', h0'⟩ := ih B1 B' (by rw [hmeas]; exact hw)
      (fun y hy => hx y (List.mem_cons_of_mem _ hy)) h2
    refine ⟨T * R, ?_, fun k => by rw [hf', hf, mulVec_mulVec], by rw [hrot', hrot, Matrix.mul_assoc],
      by rw [hmeas', hmeas], fun k hk => by rw [h0' k hk, h0 k hk]⟩
    rw [Matrix.transpose_mul, Matrix.mul_assoc, ← Matrix.mul_assoc T.transpose, hT, Matrix.one_mul, hR]

theorem binary_measure (l : List (ℝ × ℤ × ℤ)) : ∀ B B' : SiteBasis 2, B.rotations l = some B' →
    B'.measure = B.measure := by
  induction l with
  | nil => intro B B' h; obtain rfl := Option.some.inj h; rfl
  | cons x xs ih =>
    intro B B' h
    rw [SiteBasis.rotations] at h
    obtain ⟨B1, h1, h2⟩ := Option.bind_eq_some_iff.1 h
    rw [ih B1 B' h2]
    unfold SiteBasis.rotate at h1
    split at h1
    · exact absurd h1 (by simp)
    · rw [if_pos rfl] at h1
      obtain rfl := Option.some.inj h1
      rfl

theorem rotated_of_rotations {m : ℕ} (w : ℝ) (l : List (ℝ × ℤ × ℤ)) (B B' : SiteBasis m)
    (hw : ∀ s, B.measure s = w) (hrot0 : B.rot = 1) (ho : B.isOrthogonal) (hl : GoodRotations m l)
    (h : B.rotations l = some B') : Rotated B B' := by
  rcases hl with ⟨hm, hl⟩ | ⟨rfl, hl⟩
  · obtain ⟨T, hT, hf, hrot, hmeas, h0⟩ := rotated_general hm w l B B' hw hl h
    rw [hrot0, Matrix.mul_one] at hrot
    refine ⟨hmeas, h0, by rw [hrot, hT], fun k _ => by rw [hrot]; exact hf k, ?_⟩
    funext j k
    rw [prods_eq, prods_eq, hmeas, uniform_inner B w hw, uniform_inner B w hw, hf j, hf k,
      isometry_of_orthogonal hT]
  · have hmeas := binary_measure l B B' h
    have hrows : ∀ k : Fin 2, (k : ℕ) ≠ 0 → B'.f k = B'.rot *ᵥ B.f k := by
      by_cases hne : ∃ s, B.f 1 s ≠ 0
      · exact (C65_rotation_array_binary l B B' hrot0 hne h).2 hl
      · exfalso
        push Not at hne
        apply ((C65_is_orthogonal B).1 ho).2 1
        apply Finset.sum_eq_zero
        intro s _
        rw [hne s]; ring
    obtain ⟨hf, hr⟩ := binary_rotations l B B' h
    have hr := hr (.inl hrot0)
    have horth : B'.rot.transpose * B'.rot = 1 := by
      rw [hr, hrot0]
      split <;> simp
    have h0 : ∀ k : Fin 2, (k : ℕ) = 0 → B'.f k = B.f k := by
      intro k hk
      funext s
      rw [hf k s, if_neg (by omega), one_mul]
    refine ⟨hmeas, h0, horth, hrows, ?_⟩
    have hz := ((C65_is_orthogonal B).1 ho).1
    funext j k
    rw [prods_eq, prods_eq, hmeas]
    by_cases hjk : j = k
    · subst hjk
      unfold siteInner
      apply Finset.sum_congr rfl
      intro s _
      rw [hf j s]
      have : (if (j : ℕ) = 1 then ((-1 : ℝ)) ^ l.length else 1) *
          (if (j : ℕ) = 1 then ((-1 : ℝ)) ^ l.length else 1) = 1 := by
        split
        · rw [← mul_pow]; norm_num
        · norm_num
      linear_combination (B.measure s * B.f j s * B.f j s) * this
    · rw [hz j k hjk]
      have := hz j k hjk
      unfold siteInner at this ⊢
      have e : ∀ s, B.measure s * (B'.f j s * B'.f k s) =
          ((if (j : ℕ) = 1 then ((-1 : ℝ)) ^ l.length else 1) *
          (if (k : ℕ) = 1 then ((-1 : ℝ)) ^ l.length else 1)) * (B.measure s * (B.f j s * B.f k s)) := by
        intro s
        rw [hf j s, hf k s]; ring
      simp only [e]
      rw [← Finset.mul_sum, this, mul_zero]

/-- expansion of a function in an orthonormal basis -/
theorem complete {m : ℕ} (B : SiteBasis m) (h : B.isOrthonormal) (g : Fin m → ℝ) (s : Fin m) :
    g s = ∑ k, siteInner B.measure (B.f k) g * B.f k s := by
  have h1 : B.f * (Matrix.of fun t k => B.measure t * B.f k t) = 1 := by
    rw [← h]
    ext j k
    rw [Matrix.mul_apply]
    unfold SiteBasis.prods
    apply Finset.sum_congr rfl
    intro t _
    rw [Matrix.of_apply]; ring
  have h2 := mul_eq_one_comm.1 h1
  have h3 : ∀ t, ∑ k, B.measure t * B.f k t * B.f k s = if t = s then 1 else 0 := by
    intro t
    have := congrFun (congrFun h2 t) s
    rw [Matrix.mul_apply, Matrix.one_apply] at this
    exact this
  unfold siteInner
  simp only [Finset.sum_mul]
  rw [Finset.sum_comm]
  have : ∀ t, ∑ k, B.measure t * (B.f k t * g t) * B.f k s = if t = s then g t else 0 := by
    intro t
    have e : ∀ k, B.measure t * (B.f k t * g t) * B.f k s =
        B.measure t * B.f k t * B.f k s * g t := fun k => by ring
    simp only [e]
    rw [← Finset.sum_mul, h3]
    split <;> simp
  simp only [this]
  simp

/-- a rotated function in terms of the old ones, with the coefficients `rotation_array` uses -/
theorem rotated_expand {m : ℕ} (B B' : SiteBasis m) (hon : B.isOrthonormal) (hr : Rotated B B')
    (b c : ℕ) (hb : b + 1 < m) (hc : c < m) :
    siteFunction B' b c =
      ((List.range (m - 1)).map fun x => siteOverlap ⟨m, B'⟩ b x * siteFunction B x c).sum := by
  rw [siteFunction_eq B' b c hb hc, complete B hon (B'.f ⟨b + 1, hb⟩) ⟨c, hc⟩]
  obtain ⟨m', rfl⟩ : ∃ m', m = m' + 1 := ⟨m - 1, by omega⟩
  rw [Fin.sum_univ_succ]
  have h0 : siteInner B.measure (B.f 0) (B'.f ⟨b + 1, hb⟩) = 0 := by
    rw [← hr.first 0 rfl, ← hr.measure, ← prods_eq, hr.prods, hon, Matrix.one_apply,
      if_neg (by simp [Fin.ext_iff])]
  rw [h0, zero_mul, zero_add, Nat.add_sub_cancel]
  have hov : ∀ x : Fin m', siteOverlap ⟨m' + 1, B'⟩ b x =
      siteInner B.measure (B.f x.succ) (B'.f ⟨b + 1, hb⟩) := by
    intro x
    have e1 : rowOf B'.f ((x : ℕ) + 1) = B'.f x.succ := by
      funext s
      rw [rowOf, dif_pos (by omega)]
      rfl
    have e2 : rowOf B'.f (b + 1) = B'.f ⟨b + 1, hb⟩ := by
      funext s
      rw [rowOf, dif_pos hb]
    simp only [siteOverlap]
    rw [e1, e2, hr.rows x.succ (by simp), mulVec_mulVec, hr.orth, one_mulVec, hr.measure]
    simp only [siteInner, dotProduct]
    exact Finset.sum_congr rfl fun s _ => by ring
  rw [← List.sum_ofFn]
  congr 1
  apply List.ext_getElem (by simp)
  intro i h1 h2
  have hi : i < m' := by simpa using h1
  simp only [List.getElem_ofFn, List.getElem_map, List.getElem_range]
  have := hov ⟨i, hi⟩
  simp only at this
  rw [this, siteFunction_eq B i c (by omega) hc]
  rfl

/-- Correlation functions after rotating orthonormal site bases, by any sequences of rotations, are
`rotation_array` times the correlation functions before: the matrix that `site_rotation_matrix`
stacks is the change of basis. -/
theorem C66_rotation_array {n : ℕ} {m : ℕ → ℕ} (B B' : ∀ k, SiteBasis (m k)) (w : ℕ → ℝ)
    (l : ℕ → List (ℝ × ℤ × ℤ)) (perms : List (List ℕ)) (G : PermGroup n perms)
    (hsym : ∀ p ∈ perms, ∀ (i j : ℕ), p[i]? = some j →
      (⟨m j, B' j⟩ : (m : ℕ) × SiteBasis m) = ⟨m i, B' i⟩)
    (hw : ∀ k < n, ∀ s, (B k).measure s = w k) (hrot : ∀ k < n, (B k).rot = 1)
    (hon : ∀ k < n, (B k).isOrthonormal) (hl : ∀ k < n, GoodRotations (m k) (l k))
    (h : ∀ k < n, (B k).rotations (l k) = some (B' k)) (cl : List (List ℕ))
    (hcl : cl ∈ bitCombos (fullBits n m) perms) (codes : List ℕ) (hlen : codes.length = n)
    (hc : ∀ k < n, codes.getD k 0 < m k) :
    corrTensor (fun k => siteFunction (B' k)) cl codes =
      ((bitCombos (fullBits n m) perms).map fun cl' =>
        orbitRotation (fun k => ⟨m k, B' k⟩) cl cl' *
          corrTensor (fun k => siteFunction (B k)) cl' codes).sum := by
  have hm : ∀ p ∈ perms, ∀ (i j : ℕ), p[i]? = some j → m j = m i :=
    fun p hp i j hij => congrArg Sigma.fst (hsym p hp i j hij)
  have G' : PermGroup (fullBits n m).length perms := by rw [fullBits_length]; exact G
  obtain ⟨hne, hdis, hch, heq⟩ := C45_partition _ perms G' (respects_fullBits G hm)
  have hA : ∀ c ∈ bitCombos (fullBits n m) perms, ∀ a ∈ c, a.length = n ∧ ∀ i < n, a.getD i 0 + 1 < m i :=
    fun c hc a ha => choice_fullBits ((hch a).1 ⟨c, hc, ha⟩)
  set S : ℕ → ℕ → ℕ → ℝ := fun k => siteOverlap ⟨m k, B' k⟩ with hS
  have hR : ∀ k < n, Rotated (B k) (B' k) := by
    intro k hk
    apply rotated_of_rotations (w k) (l k) _ _ (hw k hk) (hrot k hk) _ (hl k hk) (h k hk)
    constructor
    · intro j
      rw [hon k hk, Matrix.one_apply_eq]; norm_num
    · intro i j
      rw [hon k hk, Matrix.one_apply_eq, div_one, Matrix.one_apply]
  -- expand every ordering
  have hexp : ∀ b ∈ cl, clusterFunction (fun k => siteFunction (B' k)) 0 b codes =
      ((lexProduct (fullBits n m)).map fun x => clusterFunction S 0 b x *
        clusterFunction (fun k => siteFunction (B k)) 0 x codes).sum := by
    intro b hb
    obtain ⟨h1, h2⟩ := hA cl hcl b hb
    apply clusterFunction_expand
    · rw [h1, fullBits_length]
    · rw [hlen, fullBits_length]
    · intro i hi
      rw [fullBits_length] at hi
      rw [fullBits_get n m i hi, Nat.zero_add]
      exact rotated_expand (B i) (B' i) (hon i hi) (hR i hi) _ _ (h2 i hi) (hc i hi)
  -- the orderings, class by class
  have hperm : (lexProduct (fullBits n m)).Perm (bitCombos (fullBits n m) perms).flatten := by
    have hnd : (lexProduct (fullBits n m)).Nodup := by
      have : ∀ ls : List (List ℕ), (∀ l ∈ ls, l.Nodup) → (lexProduct ls).Nodup := by
        intro ls
        induction ls with
        | nil => intro _; simp [lexProduct]
        | cons l ls ih =>
          intro hl
          rw [lexProduct, List.nodup_flatMap]
          refine ⟨fun x _ => ?_, ?_⟩
          · exact (List.nodup_map_iff fun a b hab => (List.cons.inj hab).2).2
              (ih fun l' hl' => hl l' (List.mem_cons_of_mem _ hl'))
          · refine List.Pairwise.imp ?_ (hl l (by simp))
            intro a b hab x hx hy
            obtain ⟨r, -, rfl⟩ := List.mem_map.1 hx
            obtain ⟨r', -, hr'⟩ := List.mem_map.1 hy
            exact hab (List.cons.inj hr').1.symm
      apply this
      intro l hl
      obtain ⟨k, -, rfl⟩ := List.mem_map.1 hl
      exact List.nodup_range
    have hnd' : (bitCombos (fullBits n m) perms).flatten.Nodup := by
      rw [List.nodup_flatten]
      refine ⟨fun c hc => (hne c hc).2, ?_⟩
      exact hdis.imp fun hxy a ha hb => hxy a ha hb
    rw [List.perm_ext_iff_of_nodup hnd hnd']
    intro a
    rw [mem_lexProduct, ← hch a, List.mem_flatten]
  have hsum : ∀ F : List ℕ → ℝ, ((lexProduct (fullBits n m)).map F).sum =
      ((bitCombos (fullBits n m) perms).map fun c => (c.map F).sum).sum := by
    intro F
    rw [(hperm.map F).sum_eq, List.map_flatten, List.sum_flatten, List.map_map]
    rfl
  -- average over the class
  have hleft : corrTensor (fun k => siteFunction (B' k)) cl codes =
      ((lexProduct (fullBits n m)).map fun x => corrTensor S cl x *
        clusterFunction (fun k => siteFunction (B k)) 0 x codes).sum := by
    rw [corrTensor_eq _ cl codes (fun b hb => by rw [(hA cl hcl b hb).1, hlen]), correlation,
      List.map_congr_left hexp, sum_commR, div_eq_mul_one_div, mul_comm, ← List.sum_map_mul_left]
    congr 1
    apply List.map_congr_left
    intro x hx
    have hxl : x.length = n := (choice_fullBits ((mem_lexProduct _ _).1 hx)).1
    rw [corrTensor_eq S cl x (fun b hb => by rw [(hA cl hcl b hb).1, hxl]), correlation,
      List.sum_map_mul_right]
    ring
  rw [hleft, hsum]
  congr 1
  apply List.map_congr_left
  intro cl' hcl'
  -- within a class the coefficient is the same
  obtain ⟨hne', -⟩ := hne cl' hcl'
  obtain ⟨y, hy⟩ := List.exists_mem_of_ne_nil _ hne'
  have hconst : ∀ x ∈ cl', corrTensor S cl x = corrTensor S cl y := by
    intro x hx
    apply C45_symmetric _ perms G' S _ cl hcl y x
    · rw [(hA cl' hcl' y hy).1, fullBits_length]
    · exact (heq cl' hcl' y hy x).1 hx
    · intro p hp i j hij
      simp only [hS]
      rw [hsym p hp i j hij]
  have hrotE : orbitRotation (fun k => ⟨m k, B' k⟩) cl cl' = (cl'.length : ℝ) * corrTensor S cl y := by
    unfold orbitRotation
    rw [sum_commR, ← List.sum_map_const_eq cl' (corrTensor S cl y), div_eq_mul_one_div, mul_comm,
      ← List.sum_map_mul_left]
    congr 1
    apply List.map_congr_left
    intro x hx
    rw [← hconst x hx, corrTensor, mul_comm, ← div_eq_mul_one_div]
    rfl
  rw [hrotE, corrTensor_eq _ cl' codes (fun b hb => by rw [(hA cl' hcl' b hb).1, hlen]), correlation]
  have hl' : (cl'.length : ℝ) ≠ 0 := by
    have : cl'.length ≠ 0 := by simpa using hne'
    exact_mod_cast this
  have : (cl'.map fun x => corrTensor S cl x *
      clusterFunction (fun k => siteFunction (B k)) 0 x codes) = cl'.map fun x => corrTensor S cl y *
      clusterFunction (fun k => siteFunction (B k)) 0 x codes :=
    List.map_congr_left fun x hx => by rw [hconst x hx]
  rw [this, List.sum_map_mul_left]
  field_simp

/-- `rotation_array` scaled by the square roots of the numbers of orderings is orthogonal (the
comment at orbit.py:294 says so): `Σ_k R_ik R_jk / |c_k| = δ_ij / |c_i|`. -/
theorem C66_rotation_unitary {n : ℕ} {m : ℕ → ℕ} (B B' : ∀ k, SiteBasis (m k)) (w : ℕ → ℝ)
    (l : ℕ → List (ℝ × ℤ × ℤ)) (perms : List (List ℕ)) (G : PermGroup n perms)
    (hsym : ∀ p ∈ perms, ∀ (i j : ℕ), p[i]? = some j →
      (⟨m j, B' j⟩ : (m : ℕ) × SiteBasis m) = ⟨m i, B' i⟩)
    (hw : ∀ k < n, ∀ s, (B k).measure s = w k) (hrot : ∀ k < n, (B k).rot = 1)
    (hon : ∀ k < n, (B k).isOrthonormal) (hl : ∀ k < n, GoodRotations (m k) (l k))
    (h : ∀ k < n, (B k).rotations (l k) = some (B' k)) (cl cl' : List (List ℕ))
    (hcl : cl ∈ bitCombos (fullBits n m) perms) (hcl' : cl' ∈ bitCombos (fullBits n m) perms) :
    ((bitCombos (fullBits n m) perms).map fun c =>
      orbitRotation (fun k => ⟨m k, B' k⟩) cl c * orbitRotation (fun k => ⟨m k, B' k⟩) cl' c /
        (c.length : ℝ)).sum = if cl = cl' then 1 / (cl.length : ℝ) else 0 := by
  have hm : ∀ p ∈ perms, ∀ (i j : ℕ), p[i]? = some j → m j = m i :=
    fun p hp i j hij => congrArg Sigma.fst (hsym p hp i j hij)
  have hR : ∀ k < n, Rotated (B k) (B' k) := by
    intro k hk
    apply rotated_of_rotations (w k) (l k) _ _ (hw k hk) (hrot k hk) _ (hl k hk) (h k hk)
    constructor
    · intro j
      rw [hon k hk, Matrix.one_apply_eq]; norm_num
    · intro i j
      rw [hon k hk, Matrix.one_apply_eq, div_one, Matrix.one_apply]
  have hon' : ∀ k < n, (B' k).isOrthonormal := fun k hk => by
    rw [SiteBasis.isOrthonormal, (hR k hk).prods]; exact hon k hk
  set R := fun a b => orbitRotation (fun k => ⟨m k, B' k⟩) a b with hRdef
  set phi := fun k => siteFunction (B k) with hphi
  set cls := bitCombos (fullBits n m) perms with hcls
  rw [← C66_orthogonal B' perms G hm hon' cl cl' hcl hcl']
  -- the concentrations are the same
  have hmu : ∀ (ds : List ℕ) (s : ℕ) (F : List ℕ → ℝ), s + ds.length ≤ n →
      expect (fun k => concentration (B' k)) s ds F = expect (fun k => concentration (B k)) s ds F := by
    intro ds
    induction ds with
    | nil => intro s F _; rfl
    | cons d ds ih =>
      intro s F hs
      simp only [List.length_cons] at hs
      simp only [expect]
      apply Finset.sum_congr rfl
      intro c _
      rw [ih (s + 1) _ (by omega)]
      congr 1
      rw [concentration, concentration, (hR s (by omega)).measure]
  rw [hmu _ _ _ (by simp [fullShape])]
  set mu := fun k => concentration (B k) with hmudef
  have hexp : ∀ c : List ℕ, List.Forall₂ (fun c d => c < d) c (fullShape n m) →
      corrTensor (fun k => siteFunction (B' k)) cl c * corrTensor (fun k => siteFunction (B' k)) cl' c =
      (cls.map fun a => (cls.map fun b => R cl a * R cl' b *
        (corrTensor phi a c * corrTensor phi b c)).sum).sum := by
    intro c hc
    have hlen : c.length = n := by simpa [fullShape] using hc.length_eq
    have hlt : ∀ k < n, c.getD k 0 < m k := by
      intro k hk
      have := (List.forall₂_iff_get.1 hc).2 k (by omega) (by simpa [fullShape] using hk)
      simp only [List.get_eq_getElem, fullShape, List.getElem_map, List.getElem_range] at this
      simpa [List.getD_eq_getElem?_getD, hlen, hk] using this
    rw [C66_rotation_array B B' w l perms G hsym hw hrot hon hl h cl hcl c hlen hlt,
      C66_rotation_array B B' w l perms G hsym hw hrot hon hl h cl' hcl' c hlen hlt,
      ← List.sum_map_mul_right]
    congr 1
    apply List.map_congr_left
    intro a _
    rw [← List.sum_map_mul_left]
    congr 1
    apply List.map_congr_left
    intro b _
    simp only [hRdef, hphi]
    ring
  rw [expect_congr_shape mu _ _ _ _ hexp, expect_list_sum]
  congr 1
  apply List.map_congr_left
  intro a ha
  rw [expect_list_sum]
  have hterm : ∀ b ∈ cls, expect mu 0 (fullShape n m) (fun c => R cl a * R cl' b *
      (corrTensor phi a c * corrTensor phi b c)) =
      if a = b then R cl a * R cl' a / (a.length : ℝ) else 0 := by
    intro b hb
    rw [expect_mul_left, C66_orthogonal B perms G hm hon a b ha hb]
    split
    · rename_i hab; subst hab; ring
    · ring
  rw [List.map_congr_left hterm]
  have G' : PermGroup (fullBits n m).length perms := by rw [fullBits_length]; exact G
  obtain ⟨hne, hdis, -, -⟩ := C45_partition _ perms G' (respects_fullBits G hm)
  have hnd : cls.Nodup := by
    refine (List.Pairwise.and_mem.1 hdis).imp ?_
    rintro x y ⟨hx, -, hxy⟩ rfl
    obtain ⟨z, hz⟩ := List.exists_mem_of_ne_nil _ (hne x hx).1
    exact hxy z hz hz
  have : ∀ ls : List (List (List ℕ)), ls.Nodup → a ∈ ls → ∀ v : ℝ,
      (ls.map fun b => if a = b then v else 0).sum = v := by
    intro ls
    induction ls with
    | nil => simp
    | cons x ls ih =>
      intro hn hmem v
      rw [List.nodup_cons] at hn
      rw [List.map_cons, List.sum_cons]
      rcases List.mem_cons.1 hmem with rfl | hb2
      · have hz : (ls.map fun b' => if a = b' then v else 0).sum = 0 := by
          apply List.sum_eq_zero
          intro y hy
          obtain ⟨z, hz, rfl⟩ := List.mem_map.1 hy
          rw [if_neg]
          rintro rfl
          exact hn.1 hz
        rw [if_pos rfl, hz, add_zero]
      · rw [if_neg (by rintro rfl; exact hn.1 hb2), ih hn.2 hb2, zero_add]
  rw [this cls hnd ha]

/-- C66. Two rotations of a site basis of two species: the correlation function of the point
cluster is what it was, yet the only entry of `rotation_array` is -1. -/
theorem C66_rotation_array_fails : ∃ (B B' : SiteBasis 2) (l : List (ℝ × ℤ × ℤ)),
    SiteBasis.init .sinusoid (fun _ => 1 / 2) = some B ∧ B.rotations l = some B' ∧
    bitCombos (fullBits 1 fun _ => 2) [[0]] = [[[0]]] ∧
    (∀ codes, corrTensor (fun _ => siteFunction B') [[0]] codes =
      corrTensor (fun _ => siteFunction B) [[0]] codes) ∧
    corrTensor (fun _ => siteFunction B) [[0]] [0] ≠ 0 ∧
    orbitRotation (fun _ => ⟨2, B'⟩) [[0]] [[0]] = -1 := by
  obtain ⟨B, B', l, hB, hl, hf, hrot, -⟩ := C65_rotation_array_binary_fails
  have hmeas := binary_measure l B B' hl
  obtain ⟨B0, hB0, hmeas0, -, -, hf0⟩ := (C65_function_array .sinusoid (m := 2) (fun _ => 1 / 2)).2 le_rfl
  obtain rfl : B0 = B := Option.some.inj (hB0.symm.trans hB)
  have v : ∀ s : Fin 2, B0.f 1 s = if s = 0 then -1 else 1 := by
    intro s
    rw [hf0]
    fin_cases s <;> simp [flavorFn]
  refine ⟨B0, B', l, hB, hl, by decide, ?_, ?_, ?_⟩
  · intro codes
    simp [corrTensor, outerAt, siteFunction, functionAt, hf]
  · have : siteFunction B0 0 0 = -1 := by
      rw [siteFunction_eq B0 0 0 (by norm_num) (by norm_num)]
      exact v 0
    simp [corrTensor, outerAt, this]
  · have e : rowOf B0.f 1 = B0.f 1 := by
      funext s; simp [rowOf]
    have : siteOverlap ⟨2, B'⟩ 0 0 = -1 := by
      simp only [siteOverlap, hf, hrot, hmeas, hmeas0, Nat.zero_add, e]
      simp [dotProduct, v, Matrix.neg_mulVec]
      norm_num
    simp [orbitRotation, this]

/-- C66. Bases that are orthogonal but not normalized, as sinusoids of three species: without any
rotation the entry of `rotation_array` for the point cluster is 1/2, not 1. -/
theorem C66_needs_orthonormal : ∃ B : SiteBasis 3,
    SiteBasis.init .sinusoid (fun _ => 1 / 3) = some B ∧ B.rot = 1 ∧ B.isOrthogonal ∧
    orbitRotation (fun _ => ⟨3, B⟩) [[0]] [[0]] = 1 / 2 := by
  obtain ⟨B, hB, hmeas, hrot, -, hf⟩ := (C65_function_array .sinusoid (m := 3) (fun _ => 1 / 3)).2
    (by norm_num)
  refine ⟨B, hB, hrot, (C65_sinusoid_orthogonal B (by rw [← hB]; norm_num)).1, ?_⟩
  have e : rowOf B.f 1 = B.f 1 := by
    funext s; simp [rowOf]
  have c1 : Real.cos (2 * Real.pi / 3) = -(1 / 2) := by
    rw [show 2 * Real.pi / 3 = Real.pi - Real.pi / 3 by ring, Real.cos_pi_sub, Real.cos_pi_div_three]
  have c2 : Real.cos (2 * Real.pi * 2 / 3) = -(1 / 2) := by
    rw [show 2 * Real.pi * 2 / 3 = Real.pi / 3 + Real.pi by ring, Real.cos_add_pi,
      Real.cos_pi_div_three]
  have v : ∀ s : Fin 3, B.f 1 s = if s = 0 then -1 else 1 / 2 := by
    intro s
    rw [hf]
    fin_cases s <;> simp [flavorFn, c1, c2]
  have : siteOverlap ⟨3, B⟩ 0 0 = 1 / 2 := by
    simp only [siteOverlap, hrot, hmeas, Nat.zero_add, e]
    simp [dotProduct, v, Fin.sum_univ_succ]
    norm_num
  simp [orbitRotation, this]

/-! ### The hypotheses can be met -/

-- a pair of equivalent sites with two species each, the basis rotated once
example : ∃ B B' : SiteBasis 2, B.rotations [(0, 0, 1)] = some B' ∧ B.isOrthonormal ∧ B.rot = 1 ∧
    (∀ s, B.measure s = 1 / 2) ∧ (∀ z s : Fin 2, (z : ℕ) = 0 → B.f z s = 1) ∧
    GoodRotations 2 [(0, 0, 1)] ∧ PermGroup 2 [[0, 1], [1, 0]] ∧
    bitCombos (fullBits 2 fun _ => 2) [[0, 1], [1, 0]] = [[[0, 0]]] := by
  obtain ⟨B, hB, hmeas, hrot, -, hf⟩ := (C65_function_array .sinusoid (m := 2) (fun _ => 1 / 2)).2 le_rfl
  have ho : B.isOrthogonal := (C65_sinusoid_orthogonal B (by rw [← hB]; norm_num)).1
  have v : ∀ k s : Fin 2, B.f k s = if k = 0 then 1 else if s = 0 then -1 else 1 := by
    intro k s
    rw [hf]
    fin_cases k <;> fin_cases s <;> simp [flavorFn]
  have : ∃ B', B.rotations [(0, 0, 1)] = some B' := by
    rw [SiteBasis.rotations, SiteBasis.rotate, if_neg (by rintro ⟨-, h⟩; exact h ho), if_pos rfl]
    exact ⟨_, rfl⟩
  obtain ⟨B', hB'⟩ := this
  refine ⟨B, B', hB', ?_, hrot, fun s => by rw [hmeas], fun z s hz => ?_, .inr ⟨rfl, .inr ⟨0, rfl⟩⟩,
    ⟨by decide, by decide, by decide, by decide⟩, by decide⟩
  · ext j k
    rw [SiteBasis.prods, hmeas, Fin.sum_univ_two, v, v, v, v]
    fin_cases j <;> fin_cases k <;> norm_num
  · rw [v, if_pos (by omega)]

end Smol
