import Verif.Spec.SupercellIndex
import Verif.Props.OrbitIndices
import Verif.Lemmas.SubOrbit
import Verif.Lemmas.Supercell
import Mathlib.LinearAlgebra.FreeModule.Finite.CardQuotient
import Mathlib.LinearAlgebra.Matrix.ToLin

/-!
# Lemmas on the sites and clusters of a supercell
-/

namespace Smol
open Spec

/-! ## Coordinates -/

theorem superPoint_fracOf {M : Mat3} (hd : det3 M ≠ 0) (x : Vec3) :
    superPoint M (fracOf M x) = x := by
  have hd' : (det3 M : ℚ) ≠ 0 := by exact_mod_cast hd
  funext j
  unfold superPoint fracOf
  rw [div_mul_eq_mul_div, div_mul_eq_mul_div, div_mul_eq_mul_div, ← add_div, ← add_div,
    div_eq_iff hd']
  fin_cases j <;> simp [adj3, det3] <;> ring

theorem fracOf_superPoint {M : Mat3} (hd : det3 M ≠ 0) (f : Vec3) :
    fracOf M (superPoint M f) = f := by
  have hd' : (det3 M : ℚ) ≠ 0 := by exact_mod_cast hd
  funext j
  unfold superPoint fracOf
  rw [div_eq_iff hd']
  fin_cases j <;> simp [adj3, det3] <;> ring

theorem fracOf_add (M : Mat3) (x y : Vec3) :
    fracOf M (fun i => x i + y i) = fun i => fracOf M x i + fracOf M y i := by
  funext i
  unfold fracOf
  rw [← add_div]
  congr 1
  ring

theorem superPoint_add (M : Mat3) (f g : Vec3) :
    superPoint M (fun i => f i + g i) = fun j => superPoint M f j + superPoint M g j := by
  funext j
  unfold superPoint
  ring

theorem superPoint_int (M : Mat3) (n : Fin 3 → ℤ) :
    superPoint M (fun i => (n i : ℚ)) = fun j => ((superVec M n j : ℤ) : ℚ) := by
  funext j
  unfold superPoint superVec
  push_cast
  ring

theorem fracOf_shift_superVec {M : Mat3} (hd : det3 M ≠ 0) (n : Fin 3 → ℤ) (x : Vec3) :
    fracOf M (shift (superVec M n) x) = fun i => fracOf M x i + n i := by
  have h : shift (superVec M n) x = fun j => x j + superPoint M (fun i => (n i : ℚ)) j := by
    rw [superPoint_int]; rfl
  rw [h, fracOf_add, fracOf_superPoint hd]

theorem superPoint_shift_int (M : Mat3) (n : Fin 3 → ℤ) (f : Vec3) :
    superPoint M (fun i => f i + n i) = shift (superVec M n) (superPoint M f) := by
  rw [superPoint_add, superPoint_int]; rfl

theorem superVec_add (M : Mat3) (m n : Fin 3 → ℤ) :
    superVec M (fun i => m i + n i) = fun i => superVec M m i + superVec M n i := by
  funext i
  unfold superVec
  ring

theorem superVec_neg (M : Mat3) (n : Fin 3 → ℤ) :
    superVec M (fun i => - n i) = fun i => - superVec M n i := by
  funext i
  unfold superVec
  ring

theorem superVec_zero (M : Mat3) : superVec M (fun _ => 0) = fun _ => 0 := by
  funext i
  unfold superVec
  ring

theorem sameSite_iff {M : Mat3} (hd : det3 M ≠ 0) (x y : Vec3) :
    SameSite M x y ↔ ∃ n : Fin 3 → ℤ, ∀ i, fracOf M x i = fracOf M y i + n i := by
  constructor
  · rintro ⟨n, rfl⟩
    exact ⟨n, fun i => by rw [fracOf_shift_superVec hd]⟩
  · rintro ⟨n, h⟩
    refine ⟨n, ?_⟩
    have := congrArg (superPoint M) (funext h)
    rw [superPoint_fracOf hd, superPoint_shift_int, superPoint_fracOf hd] at this
    exact this

theorem SameSite.refl (M : Mat3) (x : Vec3) : SameSite M x x :=
  ⟨fun _ => 0, by rw [superVec_zero, shift_zero]⟩

theorem _root_.Smol.Spec.SameSite.symm {M : Mat3} {x y : Vec3} (h : SameSite M x y) : SameSite M y x := by
  obtain ⟨n, rfl⟩ := h
  exact ⟨fun i => - n i, by rw [superVec_neg, shift_neg]⟩

theorem _root_.Smol.Spec.SameSite.trans {M : Mat3} {x y z : Vec3} (h : SameSite M x y)
    (h' : SameSite M y z) : SameSite M x z := by
  obtain ⟨n, rfl⟩ := h
  obtain ⟨m, rfl⟩ := h'
  refine ⟨fun i => m i + n i, ?_⟩
  rw [shift_shift, superVec_add]

/-! ## Lattice points -/

theorem fracOf_int (M : Mat3) (v : Fin 3 → ℤ) (i : Fin 3) :
    fracOf M (fun j => (v j : ℚ)) i =
      ((v 0 * adj3 M 0 i + v 1 * adj3 M 1 i + v 2 * adj3 M 2 i : ℤ) : ℚ) / det3 M := by
  unfold fracOf
  push_cast
  rfl

theorem mem_boxRange (M : Mat3) (j : Fin 3) (a : ℤ) : a ∈ boxRange M j ↔
    (cornerCoords M j).foldr min 0 ≤ a ∧ a ≤ (cornerCoords M j).foldr max 0 := by
  unfold boxRange
  simp only [List.mem_map, List.mem_range]
  constructor
  · rintro ⟨k, hk, rfl⟩
    omega
  · rintro ⟨h1, h2⟩
    exact ⟨(a - (cornerCoords M j).foldr min 0).toNat, by omega, by omega⟩

theorem boxRange_nodup (M : Mat3) (j : Fin 3) : (boxRange M j).Nodup := by
  unfold boxRange
  apply List.Nodup.map _ List.nodup_range
  intro a b h
  simpa using h

theorem mem_boxPoints (M : Mat3) (x : Vec3) : x ∈ boxPoints M ↔
    ∃ v : Fin 3 → ℤ, (∀ j, v j ∈ boxRange M j) ∧ x = fun j => (v j : ℚ) := by
  unfold boxPoints
  simp only [List.mem_flatMap, List.mem_map]
  constructor
  · rintro ⟨a, ha, b, hb, c, hc, rfl⟩
    refine ⟨![a, b, c], ?_, ?_⟩
    · intro j; fin_cases j <;> assumption
    · funext j; fin_cases j <;> rfl
  · rintro ⟨v, h, rfl⟩
    refine ⟨v 0, h 0, v 1, h 1, v 2, h 2, ?_⟩
    funext j; fin_cases j <;> rfl

theorem boxPoints_nodup (M : Mat3) : (boxPoints M).Nodup := by
  unfold boxPoints
  rw [List.nodup_flatMap]
  constructor
  · intro a _
    rw [List.nodup_flatMap]
    constructor
    · intro b _
      apply List.Nodup.map _ (boxRange_nodup M 2)
      intro c c' h
      have := congrFun h 2
      simpa using this
    · apply (boxRange_nodup M 1).imp
      intro b b' hbb
      simp only [Function.onFun, List.disjoint_left, List.mem_map]
      rintro x ⟨c, _, rfl⟩ ⟨c', _, h⟩
      have := congrFun h 1
      simp at this
      exact hbb this.symm
  · apply (boxRange_nodup M 0).imp
    intro a a' haa
    simp only [Function.onFun, List.disjoint_left, List.mem_flatMap, List.mem_map]
    rintro x ⟨b, _, c, _, rfl⟩ ⟨b', _, c', _, h⟩
    have := congrFun h 0
    simp at this
    exact haa this.symm

/-- a convex combination of the corners is in the box -/
theorem box_of_frac (M : Mat3) (f : Vec3) (hf : ∀ i, 0 ≤ f i ∧ f i < 1) (j : Fin 3) :
    (((cornerCoords M j).foldr min 0 : ℤ) : ℚ) ≤ superPoint M f j ∧
      superPoint M f j ≤ (((cornerCoords M j).foldr max 0 : ℤ) : ℚ) := by
  have key : ∀ (a : ℤ) (t : ℚ), 0 ≤ t ∧ t < 1 → ((min 0 a : ℤ) : ℚ) ≤ t * a ∧ t * a ≤ ((max 0 a : ℤ) : ℚ) := by
    intro a t ht
    push_cast
    rcases le_total 0 a with h | h
    · have h' : (0 : ℚ) ≤ a := by exact_mod_cast h
      rw [min_eq_left h', max_eq_right h']
      constructor <;> nlinarith
    · have h' : (a : ℚ) ≤ 0 := by exact_mod_cast h
      rw [min_eq_right h', max_eq_left h']
      constructor <;> nlinarith
  have hmin : (cornerCoords M j).foldr min 0 ≤ min 0 (M 0 j) + min 0 (M 1 j) + min 0 (M 2 j) := by
    apply foldr_min_le
    rw [mem_cornerCoords]
    rcases min_choice 0 (M 0 j) with h0 | h0 <;> rcases min_choice 0 (M 1 j) with h1 | h1 <;>
      rcases min_choice 0 (M 2 j) with h2 | h2 <;> rw [h0, h1, h2] <;> simp
  have hmax : max 0 (M 0 j) + max 0 (M 1 j) + max 0 (M 2 j) ≤ (cornerCoords M j).foldr max 0 := by
    apply le_foldr_max
    rw [mem_cornerCoords]
    rcases max_choice 0 (M 0 j) with h0 | h0 <;> rcases max_choice 0 (M 1 j) with h1 | h1 <;>
      rcases max_choice 0 (M 2 j) with h2 | h2 <;> rw [h0, h1, h2] <;> simp
  have hmin' : (((cornerCoords M j).foldr min 0 : ℤ) : ℚ) ≤
      ((min 0 (M 0 j) + min 0 (M 1 j) + min 0 (M 2 j) : ℤ) : ℚ) := by exact_mod_cast hmin
  have hmax' : ((max 0 (M 0 j) + max 0 (M 1 j) + max 0 (M 2 j) : ℤ) : ℚ) ≤
      (((cornerCoords M j).foldr max 0 : ℤ) : ℚ) := by exact_mod_cast hmax
  have k0 := key (M 0 j) (f 0) (hf 0)
  have k1 := key (M 1 j) (f 1) (hf 1)
  have k2 := key (M 2 j) (f 2) (hf 2)
  rw [Int.cast_add, Int.cast_add] at hmin' hmax'
  unfold superPoint
  constructor <;> linarith [k0.1, k0.2, k1.1, k1.2, k2.1, k2.2]

theorem mem_latticePoints {tol : ℚ} {M : Mat3} (hd : det3 M ≠ 0) (h0 : 0 ≤ tol)
    (ht : tol * |(det3 M : ℚ)| < 1) (f : Vec3) : f ∈ latticePoints tol M ↔
      (∃ v : Fin 3 → ℤ, f = fracOf M fun j => (v j : ℚ)) ∧ ∀ i, 0 ≤ f i ∧ f i < 1 := by
  have hd' : (det3 M : ℚ) ≠ 0 := by exact_mod_cast hd
  have hpos : 0 < |(det3 M : ℚ)| := abs_pos.2 hd'
  -- multiples of 1/det
  have near : ∀ z w : ℤ, (z : ℚ) / det3 M < w → (z : ℚ) / det3 M < w - tol := by
    intro z w h
    have e : ((w : ℚ) - (z : ℚ) / det3 M) * |(det3 M : ℚ)| =
        (((w * det3 M - z) * (det3 M).sign : ℤ) : ℚ) := by
      have hs : |(det3 M : ℚ)| = (det3 M : ℚ) * ((det3 M).sign : ℤ) := by
        have := Int.mul_sign_self (det3 M)
        have h2 : (det3 M : ℚ) * ((det3 M).sign : ℤ) = (((det3 M).natAbs : ℤ) : ℚ) := by
          rw [← this]; push_cast; rfl
        rw [h2, Int.natCast_natAbs]
        push_cast
        rfl
      rw [hs]
      push_cast
      field_simp
    have hp : (0 : ℚ) < ((w : ℚ) - (z : ℚ) / det3 M) * |(det3 M : ℚ)| :=
      mul_pos (by linarith) hpos
    rw [e] at hp
    have hp1 : (1 : ℤ) ≤ (w * det3 M - z) * (det3 M).sign := by
      have : (0 : ℤ) < (w * det3 M - z) * (det3 M).sign := by exact_mod_cast hp
      omega
    have hp2 : (1 : ℚ) ≤ (((w * det3 M - z) * (det3 M).sign : ℤ) : ℚ) := by exact_mod_cast hp1
    rw [← e] at hp2
    have : tol * |(det3 M : ℚ)| < ((w : ℚ) - (z : ℚ) / det3 M) * |(det3 M : ℚ)| := by linarith
    have := lt_of_mul_lt_mul_right this hpos.le
    linarith
  unfold latticePoints
  simp only [List.mem_filter, List.mem_map, mem_boxPoints, decide_eq_true_eq]
  constructor
  · rintro ⟨⟨x, ⟨v, _, rfl⟩, rfl⟩, h1, h2⟩
    refine ⟨⟨v, rfl⟩, fun i => ⟨?_, by linarith [h1 i]⟩⟩
    by_contra hneg
    push Not at hneg
    have := h2 i
    rw [fracOf_int] at this hneg
    have h3 := near _ 0 (by exact_mod_cast hneg)
    push_cast at h3 this
    linarith
  · rintro ⟨⟨v, rfl⟩, h⟩
    refine ⟨⟨_, ⟨v, ?_, rfl⟩, rfl⟩, ?_, ?_⟩
    · intro j
      rw [mem_boxRange]
      have := box_of_frac M _ h j
      rw [superPoint_fracOf hd] at this
      exact ⟨by exact_mod_cast this.1, by exact_mod_cast this.2⟩
    · intro i
      have := (h i).2
      rw [fracOf_int] at this ⊢
      have h3 := near _ 1 (by exact_mod_cast this)
      exact_mod_cast h3
    · intro i
      linarith [(h i).1]

theorem fracOf_injective {M : Mat3} (hd : det3 M ≠ 0) {x y : Vec3} (h : fracOf M x = fracOf M y) :
    x = y := by
  rw [← superPoint_fracOf hd x, h, superPoint_fracOf hd]

theorem latticePoints_nodup {M : Mat3} (hd : det3 M ≠ 0) (tol : ℚ) : (latticePoints tol M).Nodup := by
  unfold latticePoints
  apply List.Nodup.filter
  exact (boxPoints_nodup M).map fun _ _ h => fracOf_injective hd h

/-- lattice vectors are represented once -/
theorem latticePoints_repr {tol : ℚ} {M : Mat3} (hd : det3 M ≠ 0) (h0 : 0 ≤ tol)
    (ht : tol * |(det3 M : ℚ)| < 1) (v : Fin 3 → ℤ) :
    ∃! p, p ∈ latticePoints tol M ∧ ∃ n : Fin 3 → ℤ,
      ∀ i, fracOf M (fun j => (v j : ℚ)) i = p i + n i := by
  refine ⟨fun i => Int.fract (fracOf M (fun j => (v j : ℚ)) i), ⟨?_, fun i => ⌊fracOf M (fun j => (v j : ℚ)) i⌋,
    fun i => (Int.fract_add_floor _).symm⟩, ?_⟩
  · rw [mem_latticePoints hd h0 ht]
    refine ⟨?_, fun i => ⟨Int.fract_nonneg _, Int.fract_lt_one _⟩⟩
    refine ⟨fun j => v j + superVec M (fun i => - ⌊fracOf M (fun j => (v j : ℚ)) i⌋) j, ?_⟩
    have := fracOf_shift_superVec hd (fun i => - ⌊fracOf M (fun j => (v j : ℚ)) i⌋) (fun j => (v j : ℚ))
    have e : shift (superVec M fun i => - ⌊fracOf M (fun j => (v j : ℚ)) i⌋) (fun j => (v j : ℚ)) =
        fun j => ((v j + superVec M (fun i => - ⌊fracOf M (fun j => (v j : ℚ)) i⌋) j : ℤ) : ℚ) := by
      funext j; simp [shift]
    rw [← e, this]
    funext i
    rw [← Int.self_sub_floor]
    push_cast
    ring
  · rintro p ⟨hp, n, h⟩
    funext i
    have hb := ((mem_latticePoints hd h0 ht p).1 hp).2 i
    rw [h i, Int.fract_add_intCast, Int.fract_eq_self.2 hb]


/-- there are as many as cells in the supercell -/
theorem latticePoints_length {tol : ℚ} {M : Mat3} (hd : det3 M ≠ 0) (h0 : 0 ≤ tol)
    (ht : tol * |(det3 M : ℚ)| < 1) : (latticePoints tol M).length = (det3 M).natAbs := by
  set f : (Fin 3 → ℤ) →ₗ[ℤ] (Fin 3 → ℤ) := Matrix.toLin' M.transpose with hf
  have hfa : ∀ n, f n = superVec M n := by
    intro n
    funext j
    rw [hf, Matrix.toLin'_apply]
    simp only [Matrix.mulVec, dotProduct, Matrix.transpose_apply, Fin.sum_univ_three, superVec]
    ring
  have hinj : Function.Injective f := by
    intro a b hab
    rw [hfa, hfa] at hab
    have h1 := fracOf_shift_superVec hd a (fun _ => 0)
    have h2 := fracOf_shift_superVec hd b (fun _ => 0)
    rw [hab, h2] at h1
    funext i
    have := congrFun h1 i
    have := add_left_cancel this
    exact_mod_cast this.symm
  have hcard := Submodule.natAbs_det_equiv (LinearMap.range f) (LinearEquiv.ofInjective f hinj)
  have hcomp : (LinearMap.range f).subtype ∘ₗ
      AddMonoidHom.toIntLinearMap (LinearEquiv.ofInjective f hinj : (Fin 3 → ℤ) →+ LinearMap.range f) = f := by
    ext x
    rfl
  rw [hcomp, hf, LinearMap.det_toLin', Matrix.det_transpose, ← det3_eq] at hcard
  rw [hcard]
  have hv : ∀ i : Fin (latticePoints tol M).length, ∃ v : Fin 3 → ℤ,
      (latticePoints tol M)[i] = fracOf M fun j => (v j : ℚ) := fun i =>
    ((mem_latticePoints hd h0 ht _).1 (List.getElem_mem i.2)).1
  choose v hv using hv
  symm
  rw [← Nat.card_fin (latticePoints tol M).length]
  symm
  apply Nat.card_eq_of_bijective (fun i => Submodule.Quotient.mk (p := LinearMap.range f) (v i))
  constructor
  · intro i j hij
    rw [Submodule.Quotient.eq] at hij
    obtain ⟨n, hn⟩ := hij
    rw [hfa] at hn
    have h1 := fracOf_shift_superVec hd n (fun k => (v j k : ℚ))
    have h2 : Spec.shift (superVec M n) (fun k => (v j k : ℚ)) = fun k => (v i k : ℚ) := by
      funext k
      simp only [Spec.shift, hn, Pi.sub_apply]
      push_cast
      ring
    rw [h2, ← hv, ← hv] at h1
    have hi := ((mem_latticePoints hd h0 ht _).1 (List.getElem_mem i.2)).2
    have hj := ((mem_latticePoints hd h0 ht _).1 (List.getElem_mem j.2)).2
    have e : (latticePoints tol M)[i] = (latticePoints tol M)[j] := by
      funext k
      have hk := congrFun h1 k
      have h3 := congrArg Int.fract hk
      rw [Int.fract_add_intCast] at h3
      exact (Int.fract_eq_self.2 (hi k)).symm.trans (h3.trans (Int.fract_eq_self.2 (hj k)))
    exact Fin.ext ((latticePoints_nodup hd tol).getElem_inj_iff.1 e)
  · intro q
    obtain ⟨w, rfl⟩ := Submodule.Quotient.mk_surjective _ q
    obtain ⟨p, ⟨hp, n, h⟩, -⟩ := latticePoints_repr hd h0 ht w
    obtain ⟨k, hk, rfl⟩ := List.getElem_of_mem hp
    refine ⟨⟨k, hk⟩, ?_⟩
    simp only
    rw [Submodule.Quotient.eq]
    refine ⟨fun i => - n i, ?_⟩
    rw [hfa, superVec_neg]
    have h1 := fracOf_shift_superVec hd n (fun j => (v ⟨k, hk⟩ j : ℚ))
    rw [← hv ⟨k, hk⟩] at h1
    have h2 := fracOf_injective hd ((funext h).trans h1.symm)
    funext j
    have h3 := congrFun h2 j
    simp only [Spec.shift] at h3
    have h4 : w j = v ⟨k, hk⟩ j + superVec M n j := by exact_mod_cast h3
    simp only [Pi.sub_apply, h4]
    ring

/-! ## Sites -/

section sites
variable {tol atol : ℚ} {prim : List Vec3} {M : Mat3}

theorem _root_.Smol.Spec.OfCell.shift {x : Vec3} (h : OfCell prim x) (T : Fin 3 → ℤ) :
    OfCell prim (Spec.shift T x) := by
  obtain ⟨s, hs, S, rfl⟩ := h
  exact ⟨s, hs, _, shift_shift T S s⟩

theorem latticePoints_superPoint (F : SupercellFits tol atol prim M) {p : Vec3}
    (hp : p ∈ latticePoints tol M) :
    ∃ v : Fin 3 → ℤ, p = (fracOf M fun j => (v j : ℚ)) ∧ superPoint M p = fun j => (v j : ℚ) := by
  obtain ⟨⟨v, rfl⟩, -⟩ := (mem_latticePoints F.det F.tol0 F.tolDet p).1 hp
  exact ⟨v, rfl, superPoint_fracOf F.det _⟩

theorem ofCell_coords (F : SupercellFits tol atol prim M) {s : Vec3}
    (hs : s ∈ supercellCoords tol prim M) : OfCell prim (superPoint M s) := by
  unfold supercellCoords at hs
  simp only [List.mem_flatMap, List.mem_map] at hs
  obtain ⟨x, hx, p, hp, rfl⟩ := hs
  obtain ⟨v, -, hv⟩ := latticePoints_superPoint F hp
  rw [superPoint_add, superPoint_fracOf F.det, hv]
  exact ⟨x, hx, v, rfl⟩

theorem pbcClose_iff (F : SupercellFits tol atol prim M) {y s : Vec3}
    (hy : OfCell prim (superPoint M y)) (hs : OfCell prim (superPoint M s)) :
    pbcClose atol y s = true ↔ ∃ n : Fin 3 → ℤ, ∀ i, y i = s i + n i := by
  unfold pbcClose
  rw [decide_eq_true_eq]
  constructor
  · intro h
    refine ⟨fun i => round (y i - s i), ?_⟩
    have := F.apart y (fun i => s i + ((round (y i - s i) : ℤ) : ℚ)) hy ?_ ?_
    · intro i; exact congrFun this i
    · have e := superPoint_shift_int M (fun i => round (y i - s i)) s
      rw [e]
      exact hs.shift _
    · intro i
      have := h i
      rwa [sub_sub] at this
  · rintro ⟨n, h⟩ i
    rw [h i, add_sub_cancel_left, round_intCast, sub_self, abs_zero]
    exact F.atol0

theorem coords_pairwise (F : SupercellFits tol atol prim M) :
    (supercellCoords tol prim M).Pairwise fun s t : Vec3 =>
      ¬ ∃ n : Fin 3 → ℤ, ∀ i, s i = t i + n i := by
  unfold supercellCoords
  rw [List.pairwise_flatMap]
  constructor
  · intro x _
    rw [List.pairwise_map]
    refine ((latticePoints_nodup F.det tol)).imp_of_mem ?_
    rintro p q hp hq hpq ⟨n, h⟩
    apply hpq
    funext i
    have hpi := ((mem_latticePoints F.det F.tol0 F.tolDet p).1 hp).2 i
    have hqi := ((mem_latticePoints F.det F.tol0 F.tolDet q).1 hq).2 i
    have := h i
    have e : p i = q i + n i := by linarith
    rw [← Int.fract_eq_self.2 hpi, e, Int.fract_add_intCast, Int.fract_eq_self.2 hqi]
  · refine F.distinct.imp ?_
    rintro x y hxy s hs t ht ⟨n, h⟩
    rw [List.mem_map] at hs ht
    obtain ⟨p, hp, rfl⟩ := hs
    obtain ⟨q, hq, rfl⟩ := ht
    obtain ⟨v, -, hv⟩ := latticePoints_superPoint F hp
    obtain ⟨w, -, hw⟩ := latticePoints_superPoint F hq
    apply hxy
    have := congrArg (superPoint M) (funext h)
    rw [superPoint_shift_int M n (fun i => fracOf M y i + q i), superPoint_add, superPoint_add,
      superPoint_fracOf F.det, superPoint_fracOf F.det, hv, hw] at this
    refine ⟨fun i => w i + superVec M n i - v i, ?_⟩
    funext i
    have hi := congrFun this i
    simp only [Spec.shift] at hi ⊢
    push_cast
    linarith

theorem locatedAt_iff (hd : det3 M ≠ 0) (coords : List Vec3) (i : ℕ) (x : Vec3) :
    LocatedAt M coords i x ↔ ∃ s, coords[i]? = some s ∧
      ∃ n : Fin 3 → ℤ, ∀ j, fracOf M x j = s j + n j := by
  unfold LocatedAt
  simp only [sameSite_iff hd, fracOf_superPoint hd]

theorem _root_.Smol.Spec.LocatedAt.same {coords : List Vec3} {i : ℕ} {x y : Vec3}
    (h : LocatedAt M coords i x) (hxy : SameSite M y x) : LocatedAt M coords i y := by
  obtain ⟨s, hs, hx⟩ := h
  exact ⟨s, hs, hxy.trans hx⟩

theorem _root_.Smol.Spec.LocatedAt.sameSite {coords : List Vec3} {i : ℕ} {x y : Vec3}
    (h : LocatedAt M coords i x) (h' : LocatedAt M coords i y) : SameSite M x y := by
  obtain ⟨s, hs, hx⟩ := h
  obtain ⟨t, ht, hy⟩ := h'
  rw [hs, Option.some.injEq] at ht
  subst ht
  exact hx.trans hy.symm

theorem locatedAt_unique (F : SupercellFits tol atol prim M) {i j : ℕ} {x : Vec3}
    (hi : LocatedAt M (supercellCoords tol prim M) i x)
    (hj : LocatedAt M (supercellCoords tol prim M) j x) : i = j := by
  rw [locatedAt_iff F.det] at hi hj
  obtain ⟨s, hs, n, hn⟩ := hi
  obtain ⟨t, ht, m, hm⟩ := hj
  obtain ⟨hil, hs⟩ := List.getElem?_eq_some_iff.1 hs
  obtain ⟨hjl, ht⟩ := List.getElem?_eq_some_iff.1 ht
  have P := List.pairwise_iff_getElem.1 (coords_pairwise F)
  rcases lt_trichotomy i j with h | h | h
  · exact absurd ⟨fun k => m k - n k, fun k => by
      rw [hs, ht]; push_cast; linarith [hn k, hm k]⟩ (P i j hil hjl h)
  · exact h
  · exact absurd ⟨fun k => n k - m k, fun k => by
      rw [hs, ht]; push_cast; linarith [hn k, hm k]⟩ (P j i hjl hil h)

/-- the site at a point of the crystal is found -/
theorem siteAt_located (F : SupercellFits tol atol prim M) {x : Vec3} (hx : OfCell prim x) :
    ∃ i, siteAt atol (supercellCoords tol prim M) (fracOf M x) = some i ∧
      LocatedAt M (supercellCoords tol prim M) i x := by
  have hx' : OfCell prim (superPoint M (fracOf M x)) := by rwa [superPoint_fracOf F.det]
  have hex : ∃ s ∈ supercellCoords tol prim M, pbcClose atol (fracOf M x) s = true := by
    obtain ⟨y, hy, T, rfl⟩ := hx
    obtain ⟨p, ⟨hp, n, h⟩, -⟩ := latticePoints_repr F.det F.tol0 F.tolDet T
    have hm : (fun i => fracOf M y i + p i) ∈ supercellCoords tol prim M := by
      unfold supercellCoords
      exact List.mem_flatMap.2 ⟨y, hy, List.mem_map.2 ⟨p, hp, rfl⟩⟩
    refine ⟨_, hm, (pbcClose_iff F hx' (ofCell_coords F hm)).2 ⟨n, fun i => ?_⟩⟩
    have e : Spec.shift T y = fun i => y i + (T i : ℚ) := rfl
    rw [e, fracOf_add]
    simp only [h i]
    ring
  cases hs : siteAt atol (supercellCoords tol prim M) (fracOf M x) with
  | none =>
    unfold siteAt at hs
    rw [List.findIdx?_eq_none_iff] at hs
    obtain ⟨s, hm, hc⟩ := hex
    rw [hs s hm] at hc
    exact absurd hc (by simp)
  | some i =>
    refine ⟨i, rfl, ?_⟩
    unfold siteAt at hs
    rw [List.findIdx?_eq_some_iff_getElem] at hs
    obtain ⟨hi, hc, -⟩ := hs
    rw [locatedAt_iff F.det]
    exact ⟨_, List.getElem?_eq_getElem hi,
      (pbcClose_iff F hx' (ofCell_coords F (List.getElem_mem hi))).1 hc⟩

theorem siteAt_iff (F : SupercellFits tol atol prim M) {x : Vec3} (hx : OfCell prim x) (i : ℕ) :
    siteAt atol (supercellCoords tol prim M) (fracOf M x) = some i ↔
      LocatedAt M (supercellCoords tol prim M) i x := by
  obtain ⟨j, hj, hl⟩ := siteAt_located F hx
  rw [hj, Option.some.injEq]
  exact ⟨fun h => h ▸ hl, fun h => locatedAt_unique F hl h⟩

end sites

end Smol
