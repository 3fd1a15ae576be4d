import Verif.Model.Orbit
import Verif.Spec.Orbit
import Mathlib.Data.List.Perm.Lattice
import Mathlib.Algebra.BigOperators.Group.List.Lemmas
import Mathlib.Data.List.NodupEquivFin

namespace Smol
open Spec

/-! ### products and permutations of lists -/

theorem mem_lexProduct (ls : List (List ℕ)) (a : List ℕ) : a ∈ lexProduct ls ↔ Choice ls a := by
  induction ls generalizing a with
  | nil =>
    simp only [lexProduct, List.mem_singleton, Choice]
    exact ⟨fun h => h ▸ .nil, fun h => by cases h; rfl⟩
  | cons l ls ih =>
    simp only [lexProduct, List.mem_flatMap, List.mem_map, Choice]
    constructor
    · rintro ⟨x, hx, r, hr, rfl⟩
      exact .cons hx ((ih r).1 hr)
    · intro h
      cases h with
      | cons hx hr => exact ⟨_, hx, _, (ih _).2 hr, rfl⟩

theorem length_permute (a p : List ℕ) : (permute a p).length = p.length := by simp [permute]

theorem get_permute (a p : List ℕ) (i j : ℕ) (h : p[i]? = some j) :
    (permute a p)[i]? = some (a.getD j 0) := by
  simp [permute, List.getElem?_map, h]

theorem permute_range (a : List ℕ) : permute a (List.range a.length) = a := by
  apply List.ext_getElem (by simp [permute])
  intro i h1 h2
  simp [permute, h2]

theorem getD_map {α β : Type*} (f : α → β) (l : List α) (i : ℕ) (d : α) (e : β)
    (h : i < l.length) : (l.map f).getD i e = f (l.getD i d) := by
  simp [List.getD_eq_getElem?_getD, h]

theorem permute_permute (a p q : List ℕ) (h : ∀ i ∈ q, i < p.length) :
    permute (permute a p) q = permute a (permute p q) := by
  unfold permute
  rw [List.map_map]
  apply List.map_congr_left
  intro i hi
  exact getD_map _ _ _ _ _ (h i hi)

theorem _root_.Smol.Spec.PermGroup.length {n : ℕ} {perms : List (List ℕ)} (G : PermGroup n perms) {p : List ℕ}
    (hp : p ∈ perms) : p.length = n := by
  rw [(G.perm p hp).length_eq, List.length_range]

theorem _root_.Smol.Spec.PermGroup.lt {n : ℕ} {perms : List (List ℕ)} (G : PermGroup n perms) {p : List ℕ}
    (hp : p ∈ perms) : ∀ i ∈ p, i < n := by
  intro i hi
  exact List.mem_range.1 ((G.perm p hp).mem_iff.1 hi)

theorem _root_.Smol.Spec.PermGroup.inv_permute {n : ℕ} {perms : List (List ℕ)} (G : PermGroup n perms)
    {p : List ℕ} (hp : p ∈ perms) : ∃ q ∈ perms, permute p q = List.range n ∧
      permute q p = List.range n := by
  obtain ⟨q, hq, h⟩ := G.inv p hp
  obtain ⟨r, hr, h'⟩ := G.inv q hq
  have h1 : permute p q = List.range n := h
  have h2 : permute q r = List.range n := h'
  refine ⟨q, hq, h1, ?_⟩
  have : permute (permute p q) r = permute p (permute q r) :=
    permute_permute _ _ _ fun i hi => by rw [G.length hq]; exact G.lt hr i hi
  rw [h1, h2] at this
  have e1 : permute (List.range n) r = r := by
    unfold permute
    conv_rhs => rw [← List.map_id r]
    apply List.map_congr_left
    intro i hi
    simp [List.getD_eq_getElem?_getD, G.lt hr i hi]
  have e2 : permute p (List.range n) = p := by
    have := permute_range p; rwa [G.length hp] at this
  rw [e1, e2] at this
  rw [← this]; exact h2

theorem equivalent_iff_permute {n : ℕ} {perms : List (List ℕ)} (G : PermGroup n perms) (a b : List ℕ)
    (ha : a.length = n) : Equivalent perms a b ↔ ∃ p ∈ perms, b = permute a p := by
  unfold Equivalent
  constructor
  · rintro ⟨p, hp, hl, h⟩
    refine ⟨p, hp, List.ext_getElem? fun i => ?_⟩
    by_cases hi : i < p.length
    · have hpi : p[i]? = some p[i] := List.getElem?_eq_getElem hi
      rw [h i _ hpi, get_permute a p i _ hpi]
      have : p[i] < a.length := by rw [ha]; exact G.lt hp _ (List.getElem_mem hi)
      simp [List.getD_eq_getElem?_getD, this]
    · rw [List.getElem?_eq_none (by omega), List.getElem?_eq_none (by rw [length_permute]; omega)]
  · rintro ⟨p, hp, rfl⟩
    refine ⟨p, hp, length_permute _ _, fun i j hij => ?_⟩
    rw [get_permute a p i j hij]
    have : j < a.length := by rw [ha]; exact G.lt hp _ (List.mem_of_getElem? hij)
    simp [List.getD_eq_getElem?_getD, this]

theorem mem_uniqueRows (rows : List (List ℕ)) (a : List ℕ) : a ∈ uniqueRows rows ↔ a ∈ rows := by
  unfold uniqueRows; rw [List.mem_insertionSort, List.mem_dedup]

theorem nodup_uniqueRows (rows : List (List ℕ)) : (uniqueRows rows).Nodup :=
  ((List.perm_insertionSort _ _).nodup_iff).2 (List.nodup_dedup rows)

/-- the class of a combo -/
def classOf (perms : List (List ℕ)) (c : List ℕ) : List (List ℕ) :=
  uniqueRows (perms.map fun p => permute c p)

theorem mem_classOf (perms : List (List ℕ)) (c a : List ℕ) :
    a ∈ classOf perms c ↔ ∃ p ∈ perms, a = permute c p := by
  unfold classOf
  rw [mem_uniqueRows, List.mem_map]
  exact ⟨fun ⟨p, h, e⟩ => ⟨p, h, e.symm⟩, fun ⟨p, h, e⟩ => ⟨p, h, e.symm⟩⟩

theorem classOf_self {n : ℕ} {perms : List (List ℕ)} (G : PermGroup n perms) (c : List ℕ)
    (hc : c.length = n) : c ∈ classOf perms c :=
  (mem_classOf _ _ _).2 ⟨_, G.one, by have := permute_range c; rw [hc] at this; exact this.symm⟩

theorem mem_classOf_of_mem {n : ℕ} {perms : List (List ℕ)} (G : PermGroup n perms)
    {c a : List ℕ} (ha : a ∈ classOf perms c) (b : List ℕ) :
    b ∈ classOf perms c ↔ ∃ p ∈ perms, b = permute a p := by
  obtain ⟨p, hp, rfl⟩ := (mem_classOf _ _ _).1 ha
  rw [mem_classOf]
  constructor
  · rintro ⟨q, hq, rfl⟩
    obtain ⟨r, hr, h1, -⟩ := G.inv_permute hp
    have hrq : permute r q ∈ perms := G.comp r hr q hq
    refine ⟨permute r q, hrq, ?_⟩
    rw [permute_permute c p _ fun i hi => by rw [G.length hp]; exact G.lt hrq i hi,
      ← permute_permute p r q fun i hi => by rw [G.length hr]; exact G.lt hq i hi, h1]
    congr 1
    unfold permute
    conv_lhs => rw [← List.map_id q]
    apply List.map_congr_left
    intro i hi
    simp [List.getD_eq_getElem?_getD, G.lt hq i hi]
  · rintro ⟨q, hq, rfl⟩
    exact ⟨permute p q, G.comp p hp q hq,
      permute_permute c p q fun i hi => by rw [G.length hp]; exact G.lt hq i hi⟩

/-- invariant of the loop over combos -/
structure CombosInv (perms bits : List (List ℕ)) (done : List (List ℕ))
    (all : List (List (List ℕ))) : Prop where
  cls : ∀ cl ∈ all, ∃ c, Choice bits c ∧ cl = classOf perms c
  cov : ∀ a ∈ done, a ∈ all.flatten
  disj : all.Pairwise fun x y => ∀ a, a ∈ x → a ∉ y

theorem _root_.Smol.Spec.Choice.length {bits : List (List ℕ)} {a : List ℕ} (h : Choice bits a) :
    a.length = bits.length := List.Forall₂.length_eq h

theorem addCombo_inv {perms bits : List (List ℕ)} (G : PermGroup bits.length perms)
    {done : List (List ℕ)} {all : List (List (List ℕ))} (h : CombosInv perms bits done all)
    (c : List ℕ) (hc : Choice bits c) : CombosInv perms bits (done ++ [c]) (addCombo perms all c) := by
  unfold addCombo
  split <;> rename_i hmem
  · refine ⟨h.cls, ?_, h.disj⟩
    intro a ha
    rcases List.mem_append.1 ha with ha | ha
    · exact h.cov a ha
    · rw [List.mem_singleton.1 ha]; exact hmem
  · refine ⟨?_, ?_, ?_⟩
    · intro cl hcl
      rcases List.mem_append.1 hcl with hcl | hcl
      · exact h.cls cl hcl
      · exact ⟨c, hc, List.mem_singleton.1 hcl⟩
    · intro a ha
      rw [List.flatten_append, List.mem_append]
      rcases List.mem_append.1 ha with ha | ha
      · exact Or.inl (h.cov a ha)
      · rw [List.mem_singleton.1 ha]
        right
        simp only [List.flatten_cons, List.flatten_nil, List.append_nil]
        exact classOf_self G c hc.length
    · rw [List.pairwise_append]
      refine ⟨h.disj, List.pairwise_singleton _ _, ?_⟩
      intro x hx y hy a hax hay
      rw [List.mem_singleton.1 hy] at hay
      obtain ⟨d, hd, rfl⟩ := h.cls x hx
      apply hmem
      refine List.mem_flatten.2 ⟨_, hx, ?_⟩
      have h1 : a ∈ classOf perms c := hay
      obtain ⟨p, hp, e⟩ := (mem_classOf_of_mem G h1 c).1 (classOf_self G c hc.length)
      exact (mem_classOf_of_mem G hax c).2 ⟨p, hp, e⟩

theorem bitCombos_inv {perms bits : List (List ℕ)} (G : PermGroup bits.length perms) :
    CombosInv perms bits (lexProduct bits) (bitCombos bits perms) := by
  have key : ∀ (todo done : List (List ℕ)) (all : List (List (List ℕ))),
      (∀ c ∈ todo, Choice bits c) → CombosInv perms bits done all →
      CombosInv perms bits (done ++ todo) (todo.foldl (addCombo perms) all) := by
    intro todo
    induction todo with
    | nil => intro done all _ h; simpa using h
    | cons c todo ih =>
      intro done all hc h
      have := ih (done ++ [c]) _ (fun c' h' => hc c' (List.mem_cons_of_mem _ h'))
        (addCombo_inv G h c (hc c (List.mem_cons_self ..)))
      simpa [List.append_assoc] using this
  have := key (lexProduct bits) [] [] (fun c hc => (mem_lexProduct _ _).1 hc)
    ⟨by simp, by simp, List.Pairwise.nil⟩
  rwa [List.nil_append] at this

theorem choice_iff_get (bits : List (List ℕ)) (a : List ℕ) :
    Choice bits a ↔ a.length = bits.length ∧
      ∀ (i x : ℕ) (l : List ℕ), a[i]? = some x → bits[i]? = some l → x ∈ l := by
  unfold Choice
  rw [List.forall₂_iff_get]
  constructor
  · rintro ⟨hl, h⟩
    refine ⟨hl, fun i x l hx hb => ?_⟩
    obtain ⟨h1, rfl⟩ := List.getElem?_eq_some_iff.1 hx
    obtain ⟨h2, rfl⟩ := List.getElem?_eq_some_iff.1 hb
    exact h i h1 h2
  · rintro ⟨hl, h⟩
    refine ⟨hl, fun i h1 h2 => h i _ _ (List.getElem?_eq_getElem h1) (List.getElem?_eq_getElem h2)⟩

theorem choice_permute {perms bits : List (List ℕ)} (G : PermGroup bits.length perms)
    (hb : Respects perms bits) {c p : List ℕ} (hc : Choice bits c) (hp : p ∈ perms) :
    Choice bits (permute c p) := by
  obtain ⟨hl, h⟩ := (choice_iff_get _ _).1 hc
  refine (choice_iff_get _ _).2 ⟨by rw [length_permute, G.length hp], ?_⟩
  intro i x l hx hbit
  have hi : i < p.length := by
    have := (List.getElem?_eq_some_iff.1 hbit).1; rw [G.length hp]; exact this
  have hpi : p[i]? = some p[i] := List.getElem?_eq_getElem hi
  rw [get_permute c p i _ hpi, Option.some.injEq] at hx
  have hlt : p[i] < c.length := by rw [hl]; exact G.lt hp _ (List.getElem_mem hi)
  have hcx : c[p[i]]? = some x := by
    rw [← hx, List.getD_eq_getElem?_getD, List.getElem?_eq_getElem hlt]; rfl
  exact h _ x l hcx (by rw [hb p hp i _ hpi, hbit])

/-! ### tensors -/

variable {K : Type*} [Field K]

theorem clusterFunction_eq (phi : ℕ → ℕ → ℕ → K) (s : ℕ) (bits codes : List ℕ)
    (h : bits.length = codes.length) : clusterFunction phi s bits codes =
      ((List.range bits.length).map fun i =>
        phi (s + i) (bits.getD i 0) (codes.getD i 0)).prod := by
  induction bits generalizing s codes with
  | nil => simp [clusterFunction]
  | cons b bs ih =>
    cases codes with
    | nil => simp at h
    | cons c cs =>
      rw [clusterFunction, ih _ _ (by simpa using h), List.length_cons, List.range_succ_eq_map,
        List.map_cons, List.prod_cons, List.map_map]
      have : ∀ i, s + 1 + i = s + (i + 1) := fun i => by omega
      simp [Function.comp_def, this]

theorem outerAt_eq (phi : ℕ → ℕ → ℕ → K) (bits codes : List ℕ) (h : bits.length = codes.length) :
    outerAt phi bits codes = clusterFunction phi 0 bits codes := by
  rw [clusterFunction_eq _ _ _ _ h]
  simp [outerAt]

theorem corrTensor_eq (phi : ℕ → ℕ → ℕ → K) (combos : List (List ℕ)) (codes : List ℕ)
    (h : ∀ b ∈ combos, b.length = codes.length) :
    corrTensor phi combos codes = correlation phi combos codes := by
  unfold corrTensor correlation
  congr 2
  apply List.map_congr_left
  intro b hb
  exact outerAt_eq phi b codes (h b hb)

/-- rearranging both arguments of a product over sites -/
theorem outerAt_permute {n : ℕ} {perms : List (List ℕ)} (G : PermGroup n perms)
    (phi : ℕ → ℕ → ℕ → K) {p : List ℕ} (hp : p ∈ perms)
    (hphi : ∀ (i j : ℕ), p[i]? = some j → phi j = phi i) (bits codes : List ℕ)
    (hb : bits.length = n) :
    outerAt phi (permute bits p) (permute codes p) = outerAt phi bits codes := by
  unfold outerAt
  rw [length_permute, hb]
  have h1 : ((List.range p.length).map fun i =>
      phi i ((permute bits p).getD i 0) ((permute codes p).getD i 0)) =
      p.map fun j => phi j (bits.getD j 0) (codes.getD j 0) := by
    apply List.ext_getElem (by simp)
    intro i h1 h2
    have hi : i < p.length := by simpa using h1
    have hpi : p[i]? = some p[i] := List.getElem?_eq_getElem hi
    simp only [List.getElem_map, List.getElem_range, List.getD_eq_getElem?_getD,
      get_permute _ _ _ _ hpi, Option.getD_some]
    rw [hphi i _ hpi]
  rw [h1]
  exact ((G.perm p hp).map _).prod_eq

theorem sum_class_permute {n : ℕ} {perms : List (List ℕ)} (G : PermGroup n perms)
    (cl : List (List ℕ)) (hnd : cl.Nodup) (hlen : ∀ a ∈ cl, a.length = n)
    (hcl : ∀ a ∈ cl, ∀ p ∈ perms, permute a p ∈ cl) (p : List ℕ) (hp : p ∈ perms) :
    (cl.map fun a => permute a p).Perm cl := by
  have hinj : ∀ a ∈ cl, ∀ b ∈ cl, permute a p = permute b p → a = b := by
    intro a ha b hb e
    obtain ⟨q, hq, h1, -⟩ := G.inv_permute hp
    have e2 := congrArg (fun x => permute x q) e
    rw [permute_permute a p q fun i hi => by rw [G.length hp]; exact G.lt hq i hi,
      permute_permute b p q fun i hi => by rw [G.length hp]; exact G.lt hq i hi, h1] at e2
    have ea := permute_range a
    have eb := permute_range b
    rw [hlen a ha] at ea
    rw [hlen b hb] at eb
    rw [← ea, ← eb]; exact e2
  have hnd' : (cl.map fun a => permute a p).Nodup := (List.nodup_map_iff_inj_on hnd).2 hinj
  have hsub : (cl.map fun a => permute a p) ⊆ cl := by
    intro x hx
    obtain ⟨a, ha, rfl⟩ := List.mem_map.1 hx
    exact hcl a ha p hp
  exact List.Subperm.perm_of_length_le (List.subperm_of_subset hnd' hsub) (by simp)

/-! ### flat layout -/

theorem cumprod_append (acc : ℕ) (l : List ℕ) (x : ℕ) :
    cumprod acc (l ++ [x]) = cumprod acc l ++ [acc * l.prod * x] := by
  induction l generalizing acc with
  | nil => simp [cumprod]
  | cons y l ih => simp [cumprod, ih, Nat.mul_assoc]

theorem flatTensorIndices_cons_cons (d e : ℕ) (ds : List ℕ) :
    flatTensorIndices (d :: e :: ds) = (e * ds.prod) :: flatTensorIndices (e :: ds) := by
  unfold flatTensorIndices
  simp only [List.tail_cons, List.cons_append, List.reverse_cons]
  rw [cumprod_append, List.reverse_append]
  simp [List.prod_reverse, Nat.mul_comm]

theorem flatTensorIndices_singleton (d : ℕ) : flatTensorIndices [d] = [1] := by
  simp [flatTensorIndices, cumprod]

/-- the flat position of codes -/
def flatPos (shape codes : List ℕ) : ℕ :=
  ((flatTensorIndices shape).zip codes |>.map fun p => p.1 * p.2).sum

theorem flatPos_cons (d : ℕ) (ds : List ℕ) (c : ℕ) (cs : List ℕ) (h : cs.length = ds.length) :
    flatPos (d :: ds) (c :: cs) = ds.prod * c + (if ds = [] then 0 else flatPos ds cs) := by
  cases ds with
  | nil =>
    simp only [List.length_nil, List.length_eq_zero_iff] at h
    subst h
    simp [flatPos, flatTensorIndices_singleton]
  | cons e ds => simp [flatPos, flatTensorIndices_cons_cons]

theorem length_lexProduct (ls : List (List ℕ)) :
    (lexProduct ls).length = (ls.map List.length).prod := by
  induction ls with
  | nil => rfl
  | cons l ls ih => simp [lexProduct, List.length_flatMap, ih]

theorem length_cOrder (shape : List ℕ) : (cOrder shape).length = shape.prod := by
  unfold cOrder; rw [length_lexProduct]; congr 1; simp [Function.comp_def]

theorem get_flatMap_block {α β : Type*} (l : List α) (f : α → List β) (m : ℕ)
    (hf : ∀ a ∈ l, (f a).length = m) (i j : ℕ) (hj : j < m) (hi : i < l.length) :
    (l.flatMap f)[m * i + j]? = (f l[i])[j]? := by
  induction l generalizing i with
  | nil => simp at hi
  | cons a l ih =>
    rw [List.flatMap_cons]
    have ha := hf a (List.mem_cons_self ..)
    cases i with
    | zero => rw [Nat.mul_zero, Nat.zero_add, List.getElem?_append_left (by omega)]; rfl
    | succ i =>
      rw [List.getElem?_append_right (by rw [ha, Nat.mul_succ]; omega), ha,
        show m * (i + 1) + j - m = m * i + j by rw [Nat.mul_succ]; omega,
        ih (fun b hb => hf b (List.mem_cons_of_mem _ hb)) i (by simpa using hi)]
      rfl

/-- codes allowed by the shape -/
def InShape (shape codes : List ℕ) : Prop := List.Forall₂ (fun c d => c < d) codes shape

theorem flatPos_lt {shape codes : List ℕ} (hne : shape ≠ []) (h : InShape shape codes) :
    flatPos shape codes < shape.prod := by
  induction h with
  | nil => exact absurd rfl hne
  | @cons c d cs ds hcd hr ih =>
    rw [flatPos_cons _ _ _ _ (List.Forall₂.length_eq hr), List.prod_cons]
    have hr' : (if ds = [] then 0 else flatPos ds cs) < ds.prod := by
      split <;> rename_i h0
      · subst h0; simp
      · exact ih h0
    calc ds.prod * c + _ < ds.prod * c + ds.prod := Nat.add_lt_add_left hr' _
      _ = ds.prod * (c + 1) := by rw [Nat.mul_succ]
      _ ≤ ds.prod * d := Nat.mul_le_mul_left _ hcd
      _ = d * ds.prod := Nat.mul_comm _ _

theorem get_cOrder {shape codes : List ℕ} (hne : shape ≠ []) (h : InShape shape codes) :
    (cOrder shape)[flatPos shape codes]? = some codes := by
  induction h with
  | nil => exact absurd rfl hne
  | @cons c d cs ds hcd hr ih =>
    have hl := List.Forall₂.length_eq hr
    rw [flatPos_cons _ _ _ _ hl]
    unfold cOrder
    rw [List.map_cons, lexProduct]
    have hlen : ∀ a ∈ List.range d, ((lexProduct (ds.map List.range)).map fun r => a :: r).length
        = ds.prod := by
      intro a _
      rw [List.length_map]; exact length_cOrder ds
    have hr' : (if ds = [] then 0 else flatPos ds cs) < ds.prod := by
      split <;> rename_i h0
      · subst h0; simp
      · exact flatPos_lt h0 hr
    rw [get_flatMap_block _ _ _ hlen c _ hr' (by simpa using hcd), List.getElem?_map]
    have : (lexProduct (ds.map List.range))[if ds = [] then 0 else flatPos ds cs]? = some cs := by
      split <;> rename_i h0
      · subst h0
        simp only [List.length_nil, List.length_eq_zero_iff] at hl
        subst hl
        simp [lexProduct]
      · exact ih h0
    rw [this]
    simp

theorem flatCorr_get (phi : ℕ → ℕ → ℕ → K) (shape : List ℕ) (classes : List (List (List ℕ)))
    (hne : shape ≠ []) (codes : List ℕ) (h : InShape shape codes) (k : ℕ) (hk : k < classes.length) :
    (flatCorrTensors phi shape classes)[shape.prod * k + flatPos shape codes]? =
      some (corrTensor phi classes[k] codes) := by
  unfold flatCorrTensors
  rw [get_flatMap_block _ _ shape.prod (fun a _ => by rw [List.length_map, length_cOrder]) k _
    (flatPos_lt hne h) hk, List.getElem?_map, get_cOrder hne h]
  rfl

end Smol
