import Verif.Model.SqsGen
import Verif.Props.OrbitIndices
import Verif.Props.Multicell
import Verif.Props.Supercell

/-!
# Lemmas on the generator of special quasirandom structures
-/

namespace Smol
open Spec

/-! ### Dictionaries -/

section Keyed
variable {κ ν : Type*} [DecidableEq κ]

theorem keyedOf_concat (l : List (κ × ν)) (e : κ × ν) :
    keyedOf (l ++ [e]) = keyedPut (keyedOf l) e.1 e.2 := by
  unfold keyedOf; rw [List.foldl_append]; rfl

theorem keyedPut_keys (d : List (κ × ν)) (k : κ) (v : ν) :
    (keyedPut d k v).map Prod.fst = if k ∈ d.map Prod.fst then d.map Prod.fst
      else d.map Prod.fst ++ [k] := by
  unfold keyedPut
  split_ifs with h
  · rw [List.map_map]
    apply List.map_congr_left
    intro e _
    simp only [Function.comp]
    split_ifs with h1
    · exact h1.symm
    · rfl
  · simp

theorem keyedOf_nodup (l : List (κ × ν)) : ((keyedOf l).map Prod.fst).Nodup := by
  induction l using List.reverseRecOn with
  | nil => simp [keyedOf]
  | append_singleton l e ih =>
    rw [keyedOf_concat, keyedPut_keys]
    split_ifs with h
    · exact ih
    · rw [List.nodup_append]
      refine ⟨ih, List.nodup_singleton _, ?_⟩
      intro a ha b hb hab
      rw [List.mem_singleton] at hb
      subst hb; subst hab; exact h ha

theorem keyedOf_mem (l : List (κ × ν)) : ∀ e ∈ keyedOf l, e ∈ l := by
  induction l using List.reverseRecOn with
  | nil => simp [keyedOf]
  | append_singleton l e ih =>
    rw [keyedOf_concat]
    intro x hx
    unfold keyedPut at hx
    split_ifs at hx with h
    · obtain ⟨y, hy, rfl⟩ := List.mem_map.1 hx
      split_ifs
      · simp
      · exact List.mem_append_left _ (ih y hy)
    · rcases List.mem_append.1 hx with hx | hx
      · exact List.mem_append_left _ (ih x hx)
      · exact List.mem_append_right _ hx

theorem keyedOf_keys (l : List (κ × ν)) (k : κ) :
    k ∈ (keyedOf l).map Prod.fst ↔ k ∈ l.map Prod.fst := by
  induction l using List.reverseRecOn with
  | nil => simp [keyedOf]
  | append_singleton l e ih =>
    rw [keyedOf_concat, keyedPut_keys, List.map_append]
    split_ifs with h
    · rw [ih]
      simp only [List.mem_append, List.map_cons, List.map_nil, List.mem_singleton]
      constructor
      · exact Or.inl
      · rintro (h1 | rfl)
        · exact h1
        · exact ih.1 h
    · simp only [List.mem_append, ih, List.map_cons, List.map_nil]

/-- the value of a key is the last one given -/
theorem keyedOf_last (l : List (κ × ν)) : ∀ e ∈ keyedOf l, ∃ l1 l2, l = l1 ++ e :: l2 ∧
    ∀ f ∈ l2, f.1 ≠ e.1 := by
  induction l using List.reverseRecOn with
  | nil => simp [keyedOf]
  | append_singleton l e ih =>
    rw [keyedOf_concat]
    intro x hx
    have hold : ∀ y ∈ keyedOf l, y.1 ≠ e.1 → ∃ l1 l2, l ++ [e] = l1 ++ y :: l2 ∧
        ∀ f ∈ l2, f.1 ≠ y.1 := by
      intro y hy hne
      obtain ⟨l1, l2, rfl, h2⟩ := ih y hy
      refine ⟨l1, l2 ++ [e], by simp, ?_⟩
      intro f hf
      rcases List.mem_append.1 hf with hf | hf
      · exact h2 f hf
      · rw [List.mem_singleton] at hf; subst hf; exact fun h => hne h.symm
    unfold keyedPut at hx
    split_ifs at hx with h
    · obtain ⟨y, hy, rfl⟩ := List.mem_map.1 hx
      split_ifs with h1
      · exact ⟨l, [], rfl, by simp⟩
      · exact hold y hy h1
    · rcases List.mem_append.1 hx with hx | hx
      · refine hold x hx fun h1 => h ?_
        rw [← h1]; exact List.mem_map.2 ⟨x, hx, rfl⟩
      · rw [List.mem_singleton] at hx
        subst hx
        exact ⟨l, [], rfl, by simp⟩

theorem keyedGet_eq {d : List (κ × ν)} (hd : (d.map Prod.fst).Nodup) (k : κ) (v : ν) :
    keyedGet d k = some v ↔ (k, v) ∈ d := by
  unfold keyedGet
  induction d with
  | nil => simp
  | cons e d ih =>
    rw [List.map_cons, List.nodup_cons] at hd
    rw [List.find?_cons]
    by_cases h : e.1 = k
    · simp only [h, decide_true, Option.map_some, Option.some.injEq, List.mem_cons]
      constructor
      · rintro rfl; left; rw [← h]
      · rintro (rfl | h1)
        · rfl
        · exact absurd (List.mem_map.2 ⟨_, h1, rfl⟩) (h ▸ hd.1)
    · simp only [h, decide_false, List.mem_cons]
      rw [ih hd.2]
      constructor
      · exact Or.inr
      · rintro (rfl | h1)
        · exact absurd rfl h
        · exact h1

theorem keyedGet_none (d : List (κ × ν)) (k : κ) : keyedGet d k = none ↔ k ∉ d.map Prod.fst := by
  unfold keyedGet
  rw [Option.map_eq_none_iff, List.find?_eq_none]
  simp only [decide_eq_true_eq, List.mem_map, not_exists, not_and]

theorem keyedOf_self (l : List (κ × ν)) (h : (l.map Prod.fst).Nodup) : keyedOf l = l := by
  induction l using List.reverseRecOn with
  | nil => rfl
  | append_singleton l e ih =>
    rw [List.map_append, List.nodup_append] at h
    rw [keyedOf_concat, ih h.1]
    unfold keyedPut
    rw [if_neg]
    intro he
    exact h.2.2 _ he _ (by simp) rfl

end Keyed

/-! ### Keys of supercell matrices -/

theorem key_perm (M : Mat3) (σ : Equiv.Perm (Fin 3)) :
    cacheKey (fun i j => M (σ i) j) = cacheKey M := by
  unfold cacheKey
  apply List.Perm.eq_of_pairwise' (r := (· ≤ ·)) (List.pairwise_insertionSort _ _) (List.pairwise_insertionSort _ _)
  refine (List.perm_insertionSort _ _).trans (List.Perm.trans ?_ (List.perm_insertionSort _ _).symm)
  have e : (([0, 1, 2] : List (Fin 3)).map fun i => [M (σ i) 0, M (σ i) 1, M (σ i) 2]) =
      (([0, 1, 2] : List (Fin 3)).map σ).map fun i => [M i 0, M i 1, M i 2] := by
    rw [List.map_map]; rfl
  rw [e]
  apply List.Perm.map
  clear e
  revert σ
  decide

theorem key_eq_iff (M M' : Mat3) :
    cacheKey M' = cacheKey M ↔ ∃ σ : Equiv.Perm (Fin 3), M' = fun i j => M (σ i) j := by
  constructor
  · intro h
    obtain ⟨s, hs, rfl⟩ := perm_of_cacheKey h.symm
    exact ⟨Equiv.ofBijective s (rowOrders_bijective s hs), rfl⟩
  · rintro ⟨σ, rfl⟩
    exact key_perm M σ

theorem superlattice_perm (M : Mat3) (σ : Equiv.Perm (Fin 3)) :
    superlattice (fun i j => M (σ i) j) = superlattice M := by
  have key : ∀ (M : Mat3) (σ : Equiv.Perm (Fin 3)),
      superlattice (fun i j => M (σ i) j) ⊆ superlattice M := by
    rintro M σ v ⟨c, rfl⟩
    refine ⟨fun i => c (σ.symm i), ?_⟩
    funext j
    simp only [Matrix.vecMul, dotProduct]
    rw [← Equiv.sum_comp σ fun i => c (σ.symm i) * M i j]
    simp only [Equiv.symm_apply_apply]
  apply Set.Subset.antisymm (key M σ)
  have := key (fun i j => M (σ i) j) σ.symm
  simpa using this

theorem superlattice_of_key {M M' : Mat3} (h : cacheKey M' = cacheKey M) :
    superlattice M' = superlattice M := by
  obtain ⟨σ, rfl⟩ := (key_eq_iff M M').1 h
  exact superlattice_perm M σ

section Dict
variable {K : Type*}

theorem sqsDict_mem {ps : List (SqsProc K)} {e : List (List ℤ) × SqsProc K} (h : e ∈ sqsDict ps) :
    e.1 = cacheKey e.2.matrix ∧ e.2 ∈ ps := by
  obtain ⟨p, hp, rfl⟩ := List.mem_map.1 (keyedOf_mem _ e h)
  exact ⟨rfl, hp⟩

theorem sqsDict_last {ps : List (SqsProc K)} {p : SqsProc K} (h : p ∈ sqsProcessors (sqsDict ps)) :
    ∃ l1 l2, ps = l1 ++ p :: l2 ∧ ∀ q ∈ l2, cacheKey q.matrix ≠ cacheKey p.matrix := by
  obtain ⟨e, he, rfl⟩ := List.mem_map.1 h
  obtain ⟨l1, l2, h1, h2⟩ := keyedOf_last _ e he
  obtain ⟨a, b, rfl, rfl, h3⟩ := List.map_eq_append_iff.1 h1
  obtain ⟨p, c, rfl, rfl, rfl⟩ := List.map_eq_cons_iff.1 h3
  exact ⟨a, c, rfl, fun q hq => h2 _ (List.mem_map.2 ⟨q, hq, rfl⟩)⟩

theorem sqsDict_cover {ps : List (SqsProc K)} {p : SqsProc K} (h : p ∈ ps) :
    ∃ q ∈ sqsProcessors (sqsDict ps), cacheKey q.matrix = cacheKey p.matrix := by
  have : cacheKey p.matrix ∈ (sqsDict ps).map Prod.fst := by
    unfold sqsDict
    rw [keyedOf_keys, List.map_map]
    exact List.mem_map.2 ⟨p, h, rfl⟩
  obtain ⟨e, he, h1⟩ := List.mem_map.1 this
  exact ⟨e.2, List.mem_map.2 ⟨e, he, rfl⟩, by rw [← h1, (sqsDict_mem he).1]⟩

theorem sqsDict_keys (ps : List (SqsProc K)) :
    (sqsDict ps).map Prod.fst = (sqsProcessors (sqsDict ps)).map fun p => cacheKey p.matrix := by
  unfold sqsProcessors
  rw [List.map_map]
  exact List.map_congr_left fun e he => (sqsDict_mem he).1

theorem sqsDict_self (ps : List (SqsProc K)) (h : (ps.map fun p => cacheKey p.matrix).Nodup) :
    sqsProcessors (sqsDict ps) = ps := by
  unfold sqsProcessors sqsDict
  rw [keyedOf_self]
  · rw [List.map_map]; exact List.map_id _
  · rw [List.map_map]; exact h

end Dict

/-! ### The annealing -/

section Anneal
variable {K : Type*} [CommRing K]

/-- A kept trace: its score is that of its occupancy in its cell. -/
def KeptOk (n : ℕ) (cells : ℕ → Kern K) (I : Occ → Prop) (t : SqsTrace K (ℕ × Occ)) : Prop :=
  t.struct.1 < n ∧ I t.struct.2 ∧ t.score = (List.zipWith (· * ·) (cells t.struct.1).params
    ((cells t.struct.1).feature t.struct.2)).sum

/-- The state while annealing. -/
structure AnnealOk (n : ℕ) (I : Occ → Prop) (s : Multi K) : Prop where
  cur : s.cur < n
  row : I (s.heap 0)
  refs : (∀ k < n, I (s.heap (s.ref k))) ∨ n = 1 ∧ s.hopDue = false

/-- The row agrees with the state. -/
structure AnnealRow (cells : ℕ → Kern K) (s : Multi K) (r : MRow K) : Prop where
  occ : r.occ = s.heap 0
  cell : r.cell = s.cur
  feats : s.feats s.cur = (cells s.cur).feature (s.heap 0)
  features : r.features = (cells s.cur).feature (s.heap 0)
  enthalpy : r.enthalpy = dot (cells s.cur).params ((cells s.cur).feature (s.heap 0))

theorem update_at {I : Occ → Prop} {h : ℕ → Occ} {i a : ℕ} {x : Occ} (hx : I x)
    (ha : a ≠ i → I (h a)) : I (Function.update h i x a) := by
  by_cases e : a = i
  · subst e; rwa [Function.update_self]
  · rw [Function.update_of_ne e]; exact ha e

theorem anneal_step_ok {n : ℕ} {cells : ℕ → Kern K} {I : Occ → Prop} {c : MChoice}
    {cs : List MChoice} (h : CellsOk cells I cs) (hc : c ∈ cs) (ht : c.target < n) (s : Multi K)
    (r : MRow K) (hs : AnnealOk n I s) (hr : AnnealRow cells s r) :
    AnnealOk n I (s.step cells c).1 ∧
      AnnealRow cells (s.step cells c).1 (r.update (s.step cells c).2) := by
  unfold Multi.step
  split_ifs with hd
  · have hrefs : ∀ k < n, I (s.heap (s.ref k)) := by
      rcases hs.refs with h1 | ⟨-, h1⟩
      · exact h1
      · rw [h1] at hd; cases hd
    unfold Multi.hop
    simp only
    split_ifs with ha
    · set new := applyStep (s.heap (s.ref c.target)) (c.hopStep (s.heap (s.ref c.target))).1 with hn
      have hnew : I new := h.hopI c hc _ (hrefs _ ht)
      have hrow : ∀ g : ℕ → Occ, Function.update g 0 (Function.update s.heap (s.ref c.target) new
          (s.ref c.target)) 0 = new := by
        intro g; rw [Function.update_self, Function.update_self]
      have hfull : List.zipWith (· + ·) (s.feats s.cur) (List.zipWith (· - ·)
          ((cells c.target).feature new) (s.feats s.cur)) = (cells c.target).feature new := by
        apply zip_add_sub
        rw [hr.feats]; exact h.len _ _ _ _
      have hcopy : Function.update (Function.update s.heap (s.ref c.target) new) 0
          (Function.update s.heap (s.ref c.target) new (s.ref c.target)) (s.ref c.target) = new := by
        by_cases h0 : s.ref c.target = 0
        · rw [h0, Function.update_self, Function.update_self]
        · rw [Function.update_of_ne h0, Function.update_self]
      refine ⟨⟨ht, ?_, Or.inl fun k hk => ?_⟩, ?_, ?_, ?_, ?_, ?_⟩
      · simp only [hrow]; exact hnew
      · simp only
        apply update_at
        · rw [Function.update_self]; exact hnew
        · intro _
          exact update_at hnew fun _ => hrefs k hk
      · simp only [MRow.update, if_true]
        rw [hcopy, hrow]
      · rfl
      · simp only [Function.update_self]
      · simp only [hrow, MRow.update, if_true]
        rw [hr.features, ← hr.feats]; exact hfull
      · simp only [hrow, MRow.update, if_true]
        rw [hr.enthalpy, ← hr.feats, dot_swap _ (cells c.target).params,
          h.params s.cur c.target, ← dot_add, hfull]
        rw [List.length_zipWith, hr.feats, h.len c.target s.cur new (s.heap 0), min_self]
    · refine ⟨⟨hs.cur, hs.row, Or.inl fun k hk => ?_⟩, rfl, rfl, hr.feats, hr.features, hr.enthalpy⟩
      simp only
      by_cases e : k = s.cur
      · subst e; rw [Function.update_self]; exact hs.row
      · rw [Function.update_of_ne e]; exact hrefs k hk
  · unfold Multi.localMove
    simp only [Kern.singleStep]
    have hch := h.change c hc s.cur _ hs.row
    have hfull : List.zipWith (· + ·) ((cells s.cur).feature (s.heap 0))
        ((cells s.cur).change (s.heap 0) (c.localStep (s.heap 0)).1) =
        (cells s.cur).feature (applyStep (s.heap 0) (c.localStep (s.heap 0)).1) := by
      rw [hch]; exact zip_add_sub _ _ (h.len _ _ _ _)
    have hrefs : ∀ x : Occ, I x → ∀ k < n, I (Function.update s.heap 0 x
        (Function.update s.ref s.cur 0 k)) := by
      intro x hx k hk
      apply update_at hx
      intro h0
      by_cases e : k = s.cur
      · subst e; exact absurd (Function.update_self _ _ _) h0
      · rw [Function.update_of_ne e]
        rcases hs.refs with h1 | ⟨h1, -⟩
        · exact h1 k hk
        · exact absurd (by have := hs.cur; omega) e
    by_cases ha : (c.localStep (s.heap 0)).2 = true
    · simp only [ha, if_true]
      have hx := h.localI c hc _ hs.row
      refine ⟨⟨hs.cur, ?_, Or.inl (hrefs _ hx)⟩, ?_, rfl, ?_, ?_, ?_⟩
      · simp only [Function.update_self]; exact hx
      · simp only [MRow.update, if_true, Function.update_self]
      · simp only [Function.update_self]
        rw [hr.feats, hfull]
      · simp only [Function.update_self, MRow.update, if_true]
        rw [hr.features, hfull]
      · simp only [Function.update_self, MRow.update, if_true]
        rw [hr.enthalpy, ← dot_add, hfull]
        rw [hch, List.length_zipWith, h.len s.cur s.cur
          (applyStep (s.heap 0) (c.localStep (s.heap 0)).1) (s.heap 0), min_self]
    · simp only [ha, Bool.false_eq_true, if_false]
      refine ⟨⟨hs.cur, ?_, Or.inl (hrefs _ hs.row)⟩, ?_, rfl, ?_, ?_, ?_⟩
      · simp only [Function.update_self]; exact hs.row
      · simp only [MRow.update, Function.update_self, Bool.false_eq_true, if_false]
      · simp only [Function.update_self]; exact hr.feats
      · simp only [Function.update_self, MRow.update, Bool.false_eq_true, if_false]
        exact hr.features
      · simp only [Function.update_self, MRow.update, Bool.false_eq_true, if_false]
        exact hr.enthalpy

theorem kept_of_row {n : ℕ} {cells : ℕ → Kern K} {I : Occ → Prop} {s : Multi K} {r : MRow K}
    (hs : AnnealOk n I s) (hr : AnnealRow cells s r) : KeptOk n cells I r.kept := by
  unfold MRow.kept
  refine ⟨?_, ?_, ?_⟩
  · simp only; rw [hr.cell]; exact hs.cur
  · simp only; rw [hr.occ]; exact hs.row
  · simp only; rw [hr.cell, hr.occ, hr.enthalpy]; rfl

theorem anneal_run_ok {n : ℕ} {cells : ℕ → Kern K} {I : Occ → Prop} {cs : List MChoice}
    (h : CellsOk cells I cs) (ht : ∀ c ∈ cs, c.target < n) (ds : List MChoice)
    (hds : ∀ d ∈ ds, d ∈ cs) (s : Multi K) (r : MRow K) (hs : AnnealOk n I s)
    (hr : AnnealRow cells s r) :
    ∀ p ∈ multiRun cells ds (s, r), AnnealOk n I p.1 ∧ AnnealRow cells p.1 p.2 := by
  induction ds generalizing s r with
  | nil => intro p hp; simp [multiRun] at hp
  | cons d ds ih =>
    intro p hp
    have h1 := anneal_step_ok h (hds d (by simp)) (ht d (hds d (by simp))) s r hs hr
    simp only [multiRun, List.mem_cons] at hp
    rcases hp with rfl | hp
    · exact h1
    · exact ih (fun d hd => hds d (by simp [hd])) _ _ h1.1 h1.2 p hp

/-- a start: the features of the current cell are up to date -/
structure StartOk (n : ℕ) (cells : ℕ → Kern K) (I : Occ → Prop) (s : Multi K) : Prop where
  ok : AnnealOk n I s
  feats : s.feats s.cur = (cells s.cur).feature (s.heap 0)

theorem sampleSqs_ok {n : ℕ} {cells : ℕ → Kern K} {I : Occ → Prop} {cs ds : List MChoice}
    (h : CellsOk cells I cs) (ht : ∀ c ∈ cs, c.target < n) (hds : ∀ d ∈ ds, d ∈ cs) (s : Multi K)
    (hs : StartOk n cells I s) :
    AnnealOk n I (sampleSqs cells s ds).1 ∧
      ∀ r ∈ (sampleSqs cells s ds).2, KeptOk n cells I r.kept := by
  have hr : AnnealRow cells s (s.initialRow cells) := ⟨rfl, rfl, hs.feats, rfl, rfl⟩
  have hall := anneal_run_ok h ht ds hds s _ hs.ok hr
  unfold sampleSqs
  constructor
  · simp only
    cases hl : (multiRun cells ds (s, s.initialRow cells)).getLast? with
    | none => exact hs.ok
    | some p => exact (hall p (List.mem_of_getLast? hl)).1
  · intro r hr
    obtain ⟨p, hp, rfl⟩ := List.mem_map.1 hr
    exact kept_of_row (hall p hp).1 (hall p hp).2

omit [CommRing K] in
theorem setAuxOne_ok {n : ℕ} {cells : ℕ → Kern K} {I : Occ → Prop} (s : Multi K) (occ : Occ)
    (fresh : ℕ) (hcur : s.cur < n) (hocc : I occ)
    (hs : I (s.heap 0) ∧ (∀ k < n, I (s.heap (s.ref k))) ∨ n = 1 ∧ s.hopDue = false) :
    StartOk n cells I (s.setAuxOne cells occ fresh) := by
  unfold Multi.setAuxOne
  refine ⟨⟨hcur, ?_, ?_⟩, ?_⟩
  · simp only [Function.update_self]; exact hocc
  · rcases hs with ⟨h0, h1⟩ | h1
    · left
      intro k hk
      simp only
      apply update_at hocc
      intro _
      apply update_at h0
      intro h2
      split_ifs at h2 ⊢ with h3
      · exact absurd rfl h2
      · exact h1 k hk
    · exact Or.inr h1
  · simp only [Function.update_self]

omit [CommRing K] in
theorem setAux_ok {n : ℕ} {cells : ℕ → Kern K} {I : Occ → Prop} (s : Multi K) (occs : ℕ → Occ)
    (hcur : s.cur < n) (hocc : ∀ k < n, I (occs k)) : StartOk n cells I (s.setAux cells occs) := by
  unfold Multi.setAux
  refine ⟨⟨hcur, ?_, Or.inl fun k hk => ?_⟩, ?_⟩
  · exact hocc _ hcur
  · exact hocc k hk
  · rfl

omit [CommRing K] in
theorem AnnealOk.rest {n : ℕ} {I : Occ → Prop} {s : Multi K} (hs : AnnealOk n I s) :
    I (s.heap 0) ∧ (∀ k < n, I (s.heap (s.ref k))) ∨ n = 1 ∧ s.hopDue = false := by
  rcases hs.refs with h | h
  · exact Or.inl ⟨hs.row, h⟩
  · exact Or.inr h

theorem annealRest_ok {n : ℕ} {cells : ℕ → Kern K} {I : Occ → Prop} {cs : List MChoice}
    (h : CellsOk cells I cs) (ht : ∀ c ∈ cs, c.target < n) (dss : List (List MChoice))
    (hds : ∀ ds ∈ dss, ∀ d ∈ ds, d ∈ cs) (s : Multi K) (r : MRow K) (fresh : ℕ)
    (hs : AnnealOk n I s) (hr : KeptOk n cells I r.kept) :
    AnnealOk n I (annealRest cells s r fresh dss).1 ∧
      ∀ r' ∈ (annealRest cells s r fresh dss).2, KeptOk n cells I r'.kept := by
  induction dss generalizing s r fresh with
  | nil => exact ⟨hs, by simp [annealRest]⟩
  | cons ds dss ih =>
    obtain ⟨h1, h2⟩ := sampleSqs_ok h ht (hds ds (by simp)) _
      (setAuxOne_ok (cells := cells) s r.occ fresh hs.cur hr.2.1 hs.rest)
    have h3 : KeptOk n cells I (((sampleSqs cells (s.setAuxOne cells r.occ fresh) ds).2.getLast?.getD
        r).kept) := by
      cases hl : (sampleSqs cells (s.setAuxOne cells r.occ fresh) ds).2.getLast? with
      | none => exact hr
      | some r' => exact h2 r' (List.mem_of_getLast? hl)
    obtain ⟨h4, h5⟩ := ih (fun ds hd => hds ds (by simp [hd])) _ _ (fresh + 1) h1 h3
    simp only [annealRest]
    refine ⟨h4, fun r' hr' => ?_⟩
    rcases List.mem_append.1 hr' with hr' | hr'
    · exact h2 r' hr'
    · exact h5 r' hr'

theorem annealSqs_ok {n : ℕ} {cells : ℕ → Kern K} {I : Occ → Prop} {cs : List MChoice}
    (h : CellsOk cells I cs) (ht : ∀ c ∈ cs, c.target < n) (dss : List (List MChoice))
    (hds : ∀ ds ∈ dss, ∀ d ∈ ds, d ∈ cs) (s : Multi K) (fresh : ℕ) (hs : StartOk n cells I s)
    (out : Multi K × List (MRow K)) (hout : annealSqs cells s fresh dss = some out) :
    AnnealOk n I out.1 ∧ ∀ r ∈ out.2, KeptOk n cells I r.kept := by
  cases dss with
  | nil => cases hout
  | cons ds dss =>
    obtain ⟨h1, h2⟩ := sampleSqs_ok h ht (hds ds (by simp)) s hs
    simp only [annealSqs] at hout
    cases hl : (sampleSqs cells s ds).2.getLast? with
    | none =>
      rw [hl] at hout
      simp only at hout
      split_ifs at hout
      cases hout
      exact ⟨h1, by simp⟩
    | some r =>
      rw [hl] at hout
      cases hout
      obtain ⟨h4, h5⟩ := annealRest_ok h ht dss (fun ds hd => hds ds (by simp [hd])) _ r fresh h1
        (h2 r (List.mem_of_getLast? hl))
      refine ⟨h4, fun r' hr' => ?_⟩
      rcases List.mem_append.1 hr' with hr' | hr'
      · exact h2 r' hr'
      · exact h5 r' hr'

/-! ### Continuity -/

/-- The row is that of the kernel's state. -/
def RowAt (s : Multi K) (r : MRow K) : Prop := r.occ = s.heap 0 ∧ r.cell = s.cur

/-- `r'` can follow `r` by a choice of `cs`: unchanged, changed by a proposed step in the same cell,
or arrived at by a step proposed for the cell hopped to. -/
def Follows (cs : List MChoice) (r r' : MRow K) : Prop :=
  (r'.occ = r.occ ∧ r'.cell = r.cell) ∨ ∃ c ∈ cs,
    (r'.cell = r.cell ∧ r'.occ = applyStep r.occ (c.localStep r.occ).1) ∨
    (r'.cell = c.target ∧ ∃ x, r'.occ = applyStep x (c.hopStep x).1)

theorem step_follows {cells : ℕ → Kern K} {cs : List MChoice} {c : MChoice} (hc : c ∈ cs) (s : Multi K)
    (r : MRow K) (hr : RowAt s r) :
    RowAt (s.step cells c).1 (r.update (s.step cells c).2) ∧
      Follows cs r (r.update (s.step cells c).2) := by
  unfold Multi.step
  have hu : ∀ t : MStepTr K, (r.update t).occ = t.occ ∧ (r.update t).cell = t.cell := by
    intro t
    unfold MRow.update
    simp only
    split_ifs <;> exact ⟨rfl, rfl⟩
  split_ifs with hd
  · unfold Multi.hop
    simp only
    split_ifs with ha
    · set new := applyStep (s.heap (s.ref c.target)) (c.hopStep (s.heap (s.ref c.target))).1 with hn
      have hcopy : Function.update (Function.update s.heap (s.ref c.target) new) 0
          (Function.update s.heap (s.ref c.target) new (s.ref c.target)) (s.ref c.target) = new := by
        by_cases h0 : s.ref c.target = 0
        · rw [h0, Function.update_self, Function.update_self]
        · rw [Function.update_of_ne h0, Function.update_self]
      refine ⟨⟨?_, ?_⟩, Or.inr ⟨c, hc, Or.inr ⟨?_, s.heap (s.ref c.target), ?_⟩⟩⟩
      · rw [(hu _).1]; simp only; rw [hcopy, Function.update_self, Function.update_self]
      · rw [(hu _).2]
      · rw [(hu _).2]
      · rw [(hu _).1]; simp only; rw [hcopy]
    · refine ⟨⟨?_, ?_⟩, Or.inl ⟨?_, ?_⟩⟩
      · rw [(hu _).1]
      · rw [(hu _).2]
      · rw [(hu _).1, hr.1]
      · rw [(hu _).2, hr.2]
  · unfold Multi.localMove
    simp only [Kern.singleStep]
    refine ⟨⟨?_, ?_⟩, ?_⟩
    · rw [(hu _).1]; simp only [Function.update_self]
    · rw [(hu _).2]
    · unfold Follows
      rw [(hu _).1, (hu _).2, hr.1, hr.2]
      simp only
      split_ifs with ha
      · exact Or.inr ⟨c, hc, Or.inl ⟨trivial, rfl⟩⟩
      · exact Or.inl ⟨rfl, trivial⟩

theorem run_follows {cells : ℕ → Kern K} {cs : List MChoice} (ds : List MChoice)
    (hds : ∀ d ∈ ds, d ∈ cs) (s : Multi K) (r : MRow K) (hr : RowAt s r) :
    List.IsChain (Follows cs) (r :: (multiRun cells ds (s, r)).map Prod.snd) ∧
      (∀ p ∈ multiRun cells ds (s, r), RowAt p.1 p.2) ∧
      (multiRun cells ds (s, r)).length = ds.length := by
  induction ds generalizing s r with
  | nil => exact ⟨by simp [multiRun], by simp [multiRun], rfl⟩
  | cons d ds ih =>
    have h1 := step_follows (cells := cells) (hds d (by simp)) s r hr
    obtain ⟨h2, h3, h4⟩ := ih (fun d hd => hds d (by simp [hd])) _ _ h1.1
    simp only [multiRun]
    refine ⟨?_, ?_, ?_⟩
    · rw [List.map_cons, List.isChain_cons_cons]
      exact ⟨h1.2, h2⟩
    · intro p hp
      rcases List.mem_cons.1 hp with rfl | hp
      · exact h1.1
      · exact h3 p hp
    · simp only [List.length_cons, h4]

theorem sampleSqs_follows {cells : ℕ → Kern K} {cs ds : List MChoice} (hds : ∀ d ∈ ds, d ∈ cs)
    (s : Multi K) :
    List.IsChain (Follows cs) (s.initialRow cells :: (sampleSqs cells s ds).2) ∧
      (∀ r ∈ (sampleSqs cells s ds).2.getLast?, RowAt (sampleSqs cells s ds).1 r) ∧
      ((sampleSqs cells s ds).2.getLast? = none → (sampleSqs cells s ds).1 = s) ∧
      (sampleSqs cells s ds).2.length = ds.length := by
  obtain ⟨h1, h2, h3⟩ := run_follows (cells := cells) ds hds s (s.initialRow cells) ⟨rfl, rfl⟩
  unfold sampleSqs
  simp only
  refine ⟨h1, ?_, ?_, by simpa using h3⟩
  · intro r hr
    rw [List.getLast?_map] at hr
    obtain ⟨p, hp, rfl⟩ := Option.map_eq_some_iff.1 hr
    rw [hp]
    exact h2 p (List.mem_of_getLast? hp)
  · intro hn
    rw [List.getLast?_map, Option.map_eq_none_iff] at hn
    rw [hn]; rfl

theorem isChain_join {α : Type*} {R : α → α → Prop} {a b : α} {l m : List α}
    (hl : List.IsChain R (a :: l)) (hm : List.IsChain R (b :: m))
    (hb : ∀ x, R b x → R (l.getLast?.getD a) x) : List.IsChain R (a :: (l ++ m)) := by
  induction l generalizing a with
  | nil =>
    cases m with
    | nil => simp
    | cons x m =>
      rw [List.isChain_cons_cons] at hm
      rw [List.nil_append, List.isChain_cons_cons]
      exact ⟨hb x hm.1, hm.2⟩
  | cons c l ih =>
    rw [List.isChain_cons_cons] at hl
    rw [List.cons_append, List.isChain_cons_cons]
    refine ⟨hl.1, ih hl.2 fun x hx => ?_⟩
    have := hb x hx
    rwa [List.getLast?_cons, Option.getD_some] at this

theorem annealRest_follows {cells : ℕ → Kern K} {cs : List MChoice} (dss : List (List MChoice))
    (hds : ∀ ds ∈ dss, ∀ d ∈ ds, d ∈ cs) (s : Multi K) (r : MRow K) (fresh : ℕ) (hr : RowAt s r) :
    List.IsChain (Follows cs) (r :: (annealRest cells s r fresh dss).2) ∧
      (annealRest cells s r fresh dss).2.length = (dss.map List.length).sum := by
  induction dss generalizing s r fresh with
  | nil => exact ⟨by simp [annealRest], rfl⟩
  | cons ds dss ih =>
    obtain ⟨h1, h2, h3, h4⟩ := sampleSqs_follows (cells := cells) (hds ds (by simp))
      (s.setAuxOne cells r.occ fresh)
    have hsame : RowAt (s.setAuxOne cells r.occ fresh) r := by
      unfold Multi.setAuxOne
      exact ⟨by simp only [Function.update_self], hr.2⟩
    have hrow : RowAt (sampleSqs cells (s.setAuxOne cells r.occ fresh) ds).1
        ((sampleSqs cells (s.setAuxOne cells r.occ fresh) ds).2.getLast?.getD r) := by
      cases hl : (sampleSqs cells (s.setAuxOne cells r.occ fresh) ds).2.getLast? with
      | none => rw [h3 hl]; exact hsame
      | some r' => exact h2 r' hl
    obtain ⟨h5, h6⟩ := ih (fun ds hd => hds ds (by simp [hd])) _ _ (fresh + 1) hrow
    have hinit : ∀ x, Follows cs ((s.setAuxOne cells r.occ fresh).initialRow cells) x →
        Follows cs r x := by
      intro x hx
      have e1 : ((s.setAuxOne cells r.occ fresh).initialRow cells).occ = r.occ := hsame.1.symm
      have e2 : ((s.setAuxOne cells r.occ fresh).initialRow cells).cell = r.cell := hsame.2.symm
      unfold Follows at hx ⊢
      rwa [e1, e2] at hx
    simp only [annealRest, List.map_cons, List.sum_cons, List.length_append, h4, h6, and_true]
    refine isChain_join ?_ h5 fun x hx => hx
    cases hs : (sampleSqs cells (s.setAuxOne cells r.occ fresh) ds).2 with
    | nil => simp
    | cons x l =>
      rw [hs, List.isChain_cons_cons] at h1
      rw [List.isChain_cons_cons]
      exact ⟨hinit x h1.1, h1.2⟩

theorem annealSqs_follows {cells : ℕ → Kern K} (dss : List (List MChoice)) (s : Multi K) (fresh : ℕ)
    (out : Multi K × List (MRow K)) (hout : annealSqs cells s fresh dss = some out) :
    List.IsChain (Follows dss.flatten) (s.initialRow cells :: out.2) ∧
      out.2.length = (dss.map List.length).sum := by
  have hds : ∀ ds ∈ dss, ∀ d ∈ ds, d ∈ dss.flatten := fun ds h d hd => List.mem_flatten.2 ⟨ds, h, hd⟩
  generalize dss.flatten = cs at hds
  cases dss with
  | nil => cases hout
  | cons ds dss =>
    obtain ⟨h1, h2, h3, h4⟩ := sampleSqs_follows (cells := cells) (hds ds (by simp)) s
    simp only [annealSqs] at hout
    cases hl : (sampleSqs cells s ds).2.getLast? with
    | none =>
      rw [hl] at hout
      simp only at hout
      split_ifs at hout with he
      cases hout
      rw [List.getLast?_eq_none_iff] at hl
      rw [hl] at h4
      have : dss = [] := by simpa using he
      subst this
      exact ⟨by simp, by simpa using h4⟩
    | some r =>
      rw [hl] at hout
      cases hout
      obtain ⟨h5, h6⟩ := annealRest_follows (cells := cells) (cs := cs) dss
        (fun ds hd => hds ds (by simp [hd])) (sampleSqs cells s ds).1 r fresh (h2 r hl)
      refine ⟨isChain_join h1 h5 fun x hx => ?_, ?_⟩
      · rw [hl]; exact hx
      · simp only [List.length_append, h4, h6, List.map_cons, List.sum_cons]

end Anneal

/-! ### The queue and the samples -/

section Queue
variable {K α : Type*} [LinearOrder K]

theorem mem_dequeAppend {τ : Type*} {m : ℕ} {d : List τ} {x y : τ} (h : y ∈ dequeAppend m d x) :
    y ∈ d ∨ y = x := by
  have := List.mem_of_mem_drop h
  simpa using this

theorem mem_sqsLoop {m : ℕ} {t : SqsTrace K α} (l : List (SqsTrace K α)) (best : Option K)
    (d : List (SqsTrace K α)) (h : t ∈ sqsLoop m best d l) : t ∈ d ∨ t ∈ l := by
  induction l generalizing best d with
  | nil => exact Or.inl h
  | cons u l ih =>
    unfold sqsLoop at h
    split_ifs at h
    · rcases ih _ _ h with h1 | h1
      · rcases mem_dequeAppend h1 with h2 | h2
        · exact Or.inl h2
        · exact Or.inr (by simp [h2])
      · exact Or.inr (by simp [h1])
    · rcases ih _ _ h with h1 | h1
      · exact Or.inl h1
      · exact Or.inr (by simp [h1])

theorem mem_saveUntilFull {τ : Type*} {t : τ} (l : List τ) (c : Container τ)
    (h : some t ∈ (saveUntilFull l c).1.rows) : some t ∈ c.rows ∨ t ∈ l := by
  induction l generalizing c with
  | nil => exact Or.inl h
  | cons y l ih =>
    unfold saveUntilFull at h
    cases hs : c.save 1 y with
    | none => rw [hs] at h; exact Or.inl h
    | some c' =>
      rw [hs] at h
      rcases ih c' h with h1 | h1
      · unfold Container.save at hs
        split_ifs at hs
        cases hs
        rcases List.mem_or_eq_of_mem_set h1 with h2 | h2
        · exact Or.inl h2
        · right; cases h2; simp
      · exact Or.inr (by simp [h1])

/-- Whatever holds of all visited traces, and of those kept so far, holds of those kept. -/
theorem sqsGenerate_inv (P : SqsTrace K α → Prop) (st : SqsState (SqsTrace K α))
    (c : SqsCall (SqsTrace K α)) (hd : ∀ d, st.deque = some d → ∀ t ∈ d, P t)
    (hs : ∀ t, some t ∈ st.samples.rows → P t) (hv : ∀ t ∈ c.visited, P t) :
    (∀ d, (st.generate c).1.deque = some d → ∀ t ∈ d, P t) ∧
      ∀ t, some t ∈ (st.generate c).1.samples.rows → P t := by
  unfold SqsState.generate
  simp only
  split
  · exact ⟨hd, hs⟩
  · rename_i d m samples hstart
    have h0 : (∀ t ∈ d, P t) ∧ ∀ t, some t ∈ samples.rows → P t := by
      split_ifs at hstart with hc
      · cases hstart
        exact ⟨by simp, by simp [Container.clear]⟩
      · obtain ⟨d', hd', he⟩ := Option.map_eq_some_iff.1 hstart
        cases he
        exact ⟨hd _ hd', hs⟩
    have h1 : ∀ t ∈ sqsLoop m none d c.visited, P t := fun t ht =>
      (mem_sqsLoop _ _ _ ht).elim (h0.1 t) (hv t)
    have h2 : ∀ t, some t ∈ (saveUntilFull (sqsLoop m none d c.visited)
        (samples.allocate (maxSave c.maxSave c.steps))).1.rows → P t := by
      intro t ht
      rcases mem_saveUntilFull _ _ ht with h3 | h3
      · rcases List.mem_append.1 h3 with h4 | h4
        · exact h0.2 t h4
        · exact absurd (List.eq_of_mem_replicate h4) (by simp)
      · exact h1 t h3
    split_ifs
    · refine ⟨fun d' hd' => ?_, h2⟩
      cases hd'; exact h1
    · refine ⟨fun d' hd' => ?_, fun t ht => h2 t (List.mem_of_mem_take ht)⟩
      cases hd'; exact h1

theorem lastSample_mem {τ : Type*} {c : Container τ} {t : τ} (h : lastSample c = some t) :
    some t ∈ c.rows := by
  unfold lastSample at h
  split_ifs at h
  cases hl : c.rows.getLast? with
  | none => rw [hl] at h; cases h
  | some o =>
    rw [hl] at h
    have : o = some t := h
    subst this
    exact List.mem_of_getLast? hl

end Queue

section Generate
variable {K : Type*} [CommRing K] [LinearOrder K]

/-- The generator between calls. -/
structure GenOk (n : ℕ) (cells : ℕ → Kern K) (I : Occ → Prop) (g : SqsGen K) : Prop where
  cur : g.kernel.cur < n
  refs : (I (g.kernel.heap 0) ∧ (∀ k < n, I (g.kernel.heap (g.kernel.ref k))) ∨
    n = 1 ∧ g.kernel.hopDue = false) ∨ n ≠ 1 ∧ lastSample g.state.samples = none
  deque : ∀ d, g.state.deque = some d → ∀ t ∈ d, KeptOk n cells I t
  samples : ∀ t, some t ∈ g.state.samples.rows → KeptOk n cells I t

omit [LinearOrder K] in
theorem start_ok {n : ℕ} {cells : ℕ → Kern K} {I : Occ → Prop} (g : SqsGen K) (c : SqsInput)
    (hg : GenOk n cells I g) (hgiven : ∀ o ∈ c.given, ∀ k < n, I (o k))
    (hdrawn : ∀ k < n, I (c.drawn k)) : StartOk n cells I (g.start n cells c) := by
  have key : ∀ o : ℕ → Occ, (∀ k < n, I (o k)) →
      StartOk n cells I (startCells n cells g.kernel o g.fresh) := by
    intro o ho
    unfold startCells
    split_ifs with h1
    · refine setAuxOne_ok _ _ _ hg.cur (ho 0 (by omega)) ?_
      rcases hg.refs with h | ⟨h, -⟩
      · exact h
      · exact absurd h1 h
    · exact setAux_ok _ _ hg.cur ho
  unfold SqsGen.start
  cases hc : c.given with
  | some o => exact key o (hgiven o hc)
  | none =>
    simp only
    cases hl : lastSample g.state.samples with
    | none => exact key _ hdrawn
    | some t =>
      refine setAuxOne_ok _ _ _ hg.cur (hg.samples t (lastSample_mem hl)).2.1 ?_
      rcases hg.refs with h | ⟨-, h⟩
      · exact h
      · rw [hl] at h; cases h

theorem generate_ok {n : ℕ} {cells : ℕ → Kern K} {I : Occ → Prop} (g : SqsGen K) (c : SqsInput)
    (hg : GenOk n cells I g) (h : CellsOk cells I c.choices.flatten)
    (ht : ∀ d ∈ c.choices.flatten, d.target < n) (hgiven : ∀ o ∈ c.given, ∀ k < n, I (o k))
    (hdrawn : ∀ k < n, I (c.drawn k)) (g' : SqsGen K) (hg' : g.generate n cells c = some g') :
    GenOk n cells I g' := by
  unfold SqsGen.generate at hg'
  obtain ⟨out, hout, h1⟩ := Option.bind_eq_some_iff.1 hg'
  simp only at h1
  split_ifs at h1
  cases h1
  obtain ⟨h2, h3⟩ := annealSqs_ok h ht c.choices
    (fun ds hds d hd => List.mem_flatten.2 ⟨ds, hds, hd⟩) _ _ (start_ok g c hg hgiven hdrawn) out hout
  obtain ⟨h4, h5⟩ := sqsGenerate_inv (KeptOk n cells I) g.state
    ⟨c.clear, c.maxSave, c.steps, out.2.map MRow.kept⟩ hg.deque hg.samples (by
      intro t ht
      obtain ⟨r, hr, rfl⟩ := List.mem_map.1 ht
      exact h3 r hr)
  exact ⟨h2.cur, Or.inl h2.rest, h4, h5⟩

theorem generates_ok {n : ℕ} {cells : ℕ → Kern K} {I : Occ → Prop} (l : List SqsInput)
    (h : ∀ c ∈ l, CellsOk cells I c.choices.flatten ∧ (∀ d ∈ c.choices.flatten, d.target < n) ∧
      (∀ o ∈ c.given, ∀ k < n, I (o k)) ∧ ∀ k < n, I (c.drawn k))
    (g g' : SqsGen K) (hg : GenOk n cells I g) (hg' : g.generates n cells l = some g') :
    GenOk n cells I g' := by
  induction l generalizing g with
  | nil => cases hg'; exact hg
  | cons c l ih =>
    obtain ⟨g1, h1, h2⟩ := Option.bind_eq_some_iff.1 hg'
    obtain ⟨a, b, d, e⟩ := h c (by simp)
    exact ih (fun c hc => h c (by simp [hc])) g1 (generate_ok g c hg a b d e g1 h1) h2

end Generate
end Smol
