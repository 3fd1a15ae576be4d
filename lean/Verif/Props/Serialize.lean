import Verif.Model.Serialize
import Verif.Lemmas.Ensemble
import Verif.Lemmas.OrbitSpace
import Verif.Props.Ensemble
import Verif.Props.Sublattice
import Verif.Props.Container
import Verif.Props.OrbitSpace
import Verif.Props.Expansion

/-!
# C57 Saving and loading
-/

namespace Smol
open Spec

/-! ### Sublattices -/

theorem splitPart_sites {sl p : Sublattice} {occ : Occ} {codes : List ℕ}
    (h : sl.splitPart occ codes = some p) : ∃ x, p.sites = npUnique x := by
  unfold Sublattice.splitPart at h
  simp only at h
  split at h
  · cases h
  simp only [Option.some.injEq] at h
  subst h
  split
  · exact ⟨_, by simp only [Sublattice.restrict]; exact new_sites _ _⟩
  · exact ⟨_, new_sites _ _⟩

theorem made_sites {sl : Sublattice} (h : sl.Made) : ∃ x, sl.sites = npUnique x := by
  induction h with
  | new species sites => exact ⟨sites, new_sites _ _⟩
  | step sl op _ ih =>
    obtain ⟨x, hx⟩ := ih
    refine ⟨x, ?_⟩
    cases op with
    | restrict xs => exact hx
    | reset => simp only [Sublattice.step, Sublattice.reset]; split <;> exact hx
  | part sl occ codes p _ h _ => exact splitPart_sites h

theorem npUnique_npUnique (l : List ℕ) : npUnique (npUnique l) = npUnique l := by
  apply List.Perm.eq_of_pairwise (le := (· ≤ ·)) (fun a b _ _ h1 h2 => Nat.le_antisymm h1 h2)
    (npUnique_sorted _) (npUnique_sorted _)
  rw [List.perm_ext_iff_of_nodup (npUnique_nodup _) (npUnique_nodup _)]
  intro a; simp [mem_npUnique]

/-- C57. A sublattice a program can hold is loaded with the same species, sites, encoding and
active sites. -/
theorem C57_sublattice (sl : Sublattice) (h : sl.Made) :
    let r := Sublattice.fromDict sl.asDict
    r.species = sl.species ∧ r.sites = sl.sites ∧ r.encoding = sl.encoding ∧
      r.active = sl.active := by
  obtain ⟨x, hx⟩ := made_sites h
  refine ⟨new_species _ _, ?_, rfl, rfl⟩
  show (Sublattice.new _ sl.sites).sites = sl.sites
  rw [new_sites, hx, npUnique_npUnique]

theorem sub_reload {sl : Sublattice} (h : sl.Made) :
    Sublattice.fromDict sl.asDict = { sl with activeFloat := false } := by
  obtain ⟨h1, h2, h3, h4⟩ := C57_sublattice sl h
  generalize hr : Sublattice.fromDict sl.asDict = r at *
  have hf : r.activeFloat = false := by rw [← hr]; rfl
  cases r; cases sl; simp_all

/-- C57. Whatever is done afterwards with restrictions and resets, loaded and original sublattice
stay equal; a split of the loaded one gives what the original gives if that returns. -/
theorem C57_sublattice_behaves (sl : Sublattice) (h : sl.Made) (ops : List SubOp) (occ : Occ)
    (parts : List (List ℕ)) :
    let r := Sublattice.fromDict sl.asDict
    ((r.run ops).active = (sl.run ops).active ∧ (r.run ops).sites = (sl.run ops).sites ∧
      (r.run ops).species = (sl.run ops).species ∧
      (r.run ops).encoding = (sl.run ops).encoding) ∧
    ∀ ps, sl.split occ parts = some ps → r.split occ parts = some ps := by
  rw [sub_reload h]
  constructor
  · have key : ∀ (ops : List SubOp) (a b : Sublattice), a.active = b.active → a.sites = b.sites →
        a.species = b.species → a.encoding = b.encoding →
        ((a.run ops).active = (b.run ops).active ∧ (a.run ops).sites = (b.run ops).sites ∧
          (a.run ops).species = (b.run ops).species ∧
          (a.run ops).encoding = (b.run ops).encoding) := by
      intro ops
      induction ops with
      | nil => intro a b h1 h2 h3 h4; exact ⟨h1, h2, h3, h4⟩
      | cons op ops ih =>
        intro a b h1 h2 h3 h4
        simp only [Sublattice.run, List.foldl_cons]
        apply ih
        all_goals
          cases op <;> simp only [Sublattice.step, Sublattice.restrict, Sublattice.reset, h1, h3]
          all_goals first | assumption | (split <;> simp_all)
    exact key ops _ _ rfl rfl rfl rfl
  · intro ps hps
    unfold Sublattice.split at hps ⊢
    rw [mapM_eq_some_forall₂] at hps ⊢
    refine hps.imp ?_
    intro c p hp
    unfold Sublattice.splitPart at hp ⊢
    simp only at hp ⊢
    split at hp
    · cases hp
    rename_i hn
    rw [if_neg]
    · exact hp
    · rintro (h1 | h1)
      · exact hn (Or.inl h1)
      · simp at h1

/-- C57. Loading repairs: a sublattice all of whose sites were restricted cannot be split (an
index error), its loaded copy can. -/
theorem C57_sublattice_differs :
    ∃ (sl : Sublattice) (occ : Occ) (parts : List (List ℕ)), sl.Made ∧
      sl.split occ parts = none ∧ (Sublattice.fromDict sl.asDict).split occ parts ≠ none :=
  ⟨(Sublattice.new [0, 1] [4, 2]).step (.restrict [2, 4]), fun _ => 0, [[0], [1]],
    .step _ _ (.new _ _), by decide +kernel, by decide +kernel⟩

/-- hypotheses met -/
example : ((Sublattice.new [5, 6, 7] [4, 2, 9]).step (.restrict [2])).Made ∧
    ((Sublattice.new [5, 6, 7] [4, 2, 9]).step (.restrict [2])).active = [4, 9] :=
  ⟨.step _ _ (.new _ _), by decide +kernel⟩

/-! ### Ensembles -/

section Ensemble
variable {K : Type*} [CommRing K] [DecidableEq K]

/-- What holds of ensembles reached by operations. -/
structure EnsHeld (e : Ens K) : Prop where
  params : ParamsOk e
  keys : ∀ m, e.mu = some m → (m.value.map Prod.fst).Nodup
  made : ∀ sl ∈ e.subl, sl.Made

theorem setMu_held {e e' : Ens K} {v : List (ℕ × K)} (h : e.setMu v = some e') (he : EnsHeld e) :
    EnsHeld e' := by
  obtain ⟨h1, -, h3, h4, h5, -⟩ := setMu_spec e e' v h he.params
  refine ⟨h1, ?_, by rw [h3]; exact he.made⟩
  intro m hm
  rw [h4] at hm
  cases hm
  exact h5.sublist (List.filter_sublist.map _)

theorem split_made {sl : Sublattice} {occ : Occ} {parts : List (List ℕ)} {ps : List Sublattice}
    (h : sl.split occ parts = some ps) (hm : sl.Made) : ∀ p ∈ ps, p.Made := by
  unfold Sublattice.split at h
  rw [mapM_eq_some_forall₂] at h
  induction h with
  | nil => intro p hp; cases hp
  | cons h1 _ ih =>
    intro p hp
    rcases List.mem_cons.1 hp with rfl | hp
    · exact .part _ _ _ _ hm h1
    · exact ih p hp

theorem step_held {e : Ens K} (he : EnsHeld e) (op : EnsOp K) : EnsHeld (e.step op) := by
  cases op with
  | setMu v =>
    simp only [Ens.step]
    cases h : e.setMu v with
    | none => exact he
    | some e' => exact setMu_held h he
  | delMu =>
    simp only [Ens.step, delMu_spec e he.params, Option.getD_some]
    exact ⟨⟨by simp, rfl⟩, by simp, he.made⟩
  | restrict xs =>
    refine ⟨he.params, he.keys, ?_⟩
    intro sl hsl
    obtain ⟨s, hs, rfl⟩ := List.mem_map.1 hsl
    exact .step s (.restrict xs) (he.made s hs)
  | reset =>
    refine ⟨he.params, he.keys, ?_⟩
    intro sl hsl
    obtain ⟨s, hs, rfl⟩ := List.mem_map.1 hsl
    exact .step s .reset (he.made s hs)
  | split id occ parts =>
    simp only [Ens.step, Ens.split]
    split
    · exact he
    rename_i sl hsl
    split
    · exact he
    rename_i splits hsp
    have hq : EnsHeld { e with subl := e.subl.take id ++ splits ++ e.subl.drop (id + 1) } := by
      refine ⟨he.params, he.keys, ?_⟩
      intro s hs
      simp only [List.mem_append] at hs
      rcases hs with (hs | hs) | hs
      · exact he.made s (List.mem_of_mem_take hs)
      · exact split_made hsp (he.made sl (List.mem_of_getElem? hsl)) s hs
      · exact he.made s (List.mem_of_mem_drop hs)
    split
    · exact hq
    · split
      · exact hq
      · split
        · exact hq
        · rename_i e'' h''
          exact setMu_held h'' hq

theorem run_held (ops : List (EnsOp K)) {e : Ens K} (he : EnsHeld e) : EnsHeld (e.run ops) := by
  unfold Ens.run
  induction ops generalizing e with
  | nil => exact he
  | cons op ops ih => rw [List.foldl_cons]; exact ih (step_held he op)

theorem init_held {coefs : List K} {subl : List Sublattice} {e : Ens K}
    (h : Ens.init coefs subl = some e) (hm : ∀ sl ∈ subl, sl.Made) :
    EnsHeld e ∧ e = ⟨coefs, coefs, none, none, subl⟩ := by
  have hp : ParamsOk (⟨coefs, coefs, none, none, subl⟩ : Ens K) := ⟨by simp, rfl⟩
  simp only [Ens.init] at h
  rw [delMu_spec _ hp] at h
  cases h
  exact ⟨⟨⟨by simp, rfl⟩, by simp, hm⟩, rfl⟩

omit [DecidableEq K] in
/-- The sublattices after loading. -/
theorem ens_subl_reload {e : Ens K} (he : EnsHeld e) :
    (e.asDict.subl.map Sublattice.fromDict) =
      e.subl.map fun sl => { sl with activeFloat := false } := by
  simp only [Ens.asDict, List.map_map]
  apply List.map_congr_left
  intro sl hsl
  exact sub_reload (he.made sl hsl)

theorem ens_reload {e : Ens K} (he : EnsHeld e) :
    Ens.fromDict e.asDict = match e.mu with
      | none => some ⟨e.coefs, e.coefs, none, none,
          e.subl.map fun sl => { sl with activeFloat := false }⟩
      | some m => Ens.setMu ⟨e.coefs, e.coefs, none, none,
          e.subl.map fun sl => { sl with activeFloat := false }⟩ m.value := by
  have hp : ParamsOk (⟨e.coefs, e.coefs, none, none,
    e.subl.map fun sl => { sl with activeFloat := false }⟩ : Ens K) := ⟨by simp, rfl⟩
  unfold Ens.fromDict
  rw [ens_subl_reload he]
  simp only [Ens.init]
  have hc : e.asDict.coefs = e.coefs := rfl
  have hb : e.asDict.boundary = e.boundary := rfl
  rw [hc, hb, delMu_spec _ hp, he.params.2]
  cases e.mu <;> rfl

omit [CommRing K] [DecidableEq K] in
theorem species_reload (e : Ens K) (c p : List K) :
    (⟨c, p, none, none, e.subl.map fun sl => { sl with activeFloat := false }⟩ : Ens K).activeSubl =
      e.activeSubl.map fun sl => { sl with activeFloat := false } := by
  simp only [Ens.activeSubl, List.filter_map]
  rfl

/-- C57. A saved ensemble can be loaded exactly when every species of an active sublattice has a
chemical potential on record (or none are set). -/
theorem C57_ensemble_loads_iff (coefs : List K) (subl : List Sublattice)
    (hm : ∀ sl ∈ subl, sl.Made) (e₀ : Ens K) (h₀ : Ens.init coefs subl = some e₀)
    (ops : List (EnsOp K)) :
    (∃ r, Ens.fromDict (e₀.run ops).asDict = some r) ↔
      ∀ v, (e₀.run ops).boundary = some v →
        ∀ sl ∈ (e₀.run ops).subl, sl.active ≠ [] → ∀ sp ∈ sl.species, ∃ x, (sp, x) ∈ v := by
  have he := run_held ops (init_held h₀ hm).1
  generalize e₀.run ops = e at he ⊢
  rw [ens_reload he, he.params.2]
  cases hmu : e.mu with
  | none => simp
  | some m =>
    simp only [Option.map_some, Option.some.injEq, forall_eq']
    have hp : ParamsOk (⟨e.coefs, e.coefs, none, none,
      e.subl.map fun sl => { sl with activeFloat := false }⟩ : Ens K) := ⟨by simp, rfl⟩
    rw [(C17_set_succeeds_iff _ hp m.value).1]
    constructor
    · rintro ⟨-, h⟩ sl hsl ha sp hsp
      exact h { sl with activeFloat := false } (List.mem_map_of_mem hsl) ha sp hsp
    · intro h
      refine ⟨he.keys m hmu, ?_⟩
      intro sl hsl ha sp hsp
      obtain ⟨s, hs, rfl⟩ := List.mem_map.1 hsl
      exact h s hs ha sp hsp

/-- C57. What a loaded ensemble keeps: coefficients, natural parameters, sublattices, whether
chemical potentials are set, and the potentials of the species that can be placed. -/
theorem C57_ensemble_kept (coefs : List K) (subl : List Sublattice)
    (hm : ∀ sl ∈ subl, sl.Made) (e₀ : Ens K) (h₀ : Ens.init coefs subl = some e₀)
    (ops : List (EnsOp K)) (r : Ens K) (hr : Ens.fromDict (e₀.run ops).asDict = some r) :
    let e := e₀.run ops
    r.coefs = e.coefs ∧ r.params = e.params ∧
    List.Forall₂ (fun a b : Sublattice => a.species = b.species ∧ a.sites = b.sites ∧
      a.active = b.active ∧ a.encoding = b.encoding) r.subl e.subl ∧
    (r.mu = none ↔ e.mu = none) ∧
    ∀ m m', e.mu = some m → r.mu = some m' → ∀ sl ∈ e.subl, sl.active ≠ [] → ∀ sp ∈ sl.species,
      ∀ x, (sp, x) ∈ m.value ↔ (sp, x) ∈ m'.value := by
  have he := run_held ops (init_held h₀ hm).1
  simp only
  generalize e₀.run ops = e at he hr ⊢
  rw [ens_reload he] at hr
  have hF : List.Forall₂ (fun a b : Sublattice => a.species = b.species ∧ a.sites = b.sites ∧
      a.active = b.active ∧ a.encoding = b.encoding)
      (e.subl.map fun sl => { sl with activeFloat := false }) e.subl := by
    rw [List.forall₂_map_left_iff, List.forall₂_same]
    intro sl _; exact ⟨rfl, rfl, rfl, rfl⟩
  cases hmu : e.mu with
  | none =>
    rw [hmu] at hr
    cases hr
    refine ⟨rfl, ?_, hF, by simp, by simp⟩
    have := he.params.1
    rw [hmu] at this
    simpa using this.symm
  | some m =>
    rw [hmu] at hr
    have hp : ParamsOk (⟨e.coefs, e.coefs, none, none,
      e.subl.map fun sl => { sl with activeFloat := false }⟩ : Ens K) := ⟨by simp, rfl⟩
    obtain ⟨h1, h2, h3, h4, -, -⟩ := setMu_spec _ _ _ hr hp
    refine ⟨h2, ?_, by rw [h3]; exact hF, by simp [h4], ?_⟩
    · rw [h1.1, he.params.1, hmu, h4, h2]; rfl
    · intro m₁ m' e1 e2 sl hsl ha sp hsp x
      cases e1
      rw [h4] at e2
      cases e2
      simp only [List.mem_filter, decide_eq_true_eq]
      constructor
      · intro hx
        refine ⟨hx, ?_⟩
        unfold Ens.species
        rw [species_reload, List.flatMap_map]
        refine List.mem_flatMap.2 ⟨sl, ?_, hsp⟩
        simp only [Ens.activeSubl, List.mem_filter, Sublattice.isActive, Bool.not_eq_true',
          List.isEmpty_eq_false_iff]
        exact ⟨hsl, ha⟩
      · exact fun h => h.1

/-- `s` belongs to a sublattice with active sites, and `c` is one of its codes. -/
def OnActive (e : Ens K) (s c : ℕ) : Prop :=
  ∃ sl ∈ e.subl, sl.active ≠ [] ∧ s ∈ sl.sites ∧ c ∈ sl.encoding

theorem loaded_table {e r : Ens K} {m m' : ChemPots K} (he : EnsHeld e)
    (hok : SublatticesOk e.subl) (hlen : ∀ sl ∈ e.subl, sl.encoding.length = sl.species.length)
    (hmu : e.mu = some m)
    (hcur : ∀ sl ∈ e.subl, sl.active ≠ [] → PricesSublattice m.value m.table sl)
    (hr : Ens.fromDict e.asDict = some r) (hm' : r.mu = some m') :
    (∀ s c, OnActive e s c → m'.table s c = m.table s c) ∧
    (∀ s c, (∀ sl ∈ e.subl, sl.active ≠ [] → s ∉ sl.sites) → m'.table s c = 0) := by
  rw [ens_reload he, hmu] at hr
  have hp : ParamsOk (⟨e.coefs, e.coefs, none, none,
    e.subl.map fun sl => { sl with activeFloat := false }⟩ : Ens K) := ⟨by simp, rfl⟩
  obtain ⟨-, -, -, h4, hnd, hall⟩ := setMu_spec _ _ _ hr hp
  rw [h4] at hm'
  cases hm'
  constructor
  · rintro s c ⟨sl, hsl, ha, hs, hc⟩
    have hact : sl ∈ e.activeSubl := by
      simp only [Ens.activeSubl, List.mem_filter, Sublattice.isActive, Bool.not_eq_true',
        List.isEmpty_eq_false_iff]
      exact ⟨hsl, ha⟩
    simp only [buildTable, species_reload]
    have hin : { sl with activeFloat := false } ∈
        e.activeSubl.map fun sl : Sublattice => { sl with activeFloat := false } :=
      List.mem_map.2 ⟨sl, hact, rfl⟩
    rw [buildTable_fold _ _ _ ?_ { sl with activeFloat := false } hin s c hs hc]
    swap
    · rw [List.pairwise_map]
      exact hok.disjoint.sublist List.filter_sublist
    have hi : sl.encoding.idxOf c < sl.encoding.length := List.idxOf_lt_length_of_mem hc
    have hi' : sl.encoding.idxOf c < sl.species.length := by rw [← hlen sl hsl]; exact hi
    have hsp : sl.species[sl.encoding.idxOf c]? = some (sl.species[sl.encoding.idxOf c]) :=
      List.getElem?_eq_getElem hi'
    have hspm : sl.species[sl.encoding.idxOf c] ∈ (⟨e.coefs, e.coefs, none, none,
        e.subl.map fun sl => { sl with activeFloat := false }⟩ : Ens K).species := by
      unfold Ens.species
      rw [species_reload, List.flatMap_map]
      exact List.mem_flatMap.2 ⟨sl, hact, List.getElem_mem hi'⟩
    obtain ⟨⟨a, x⟩, hx, hax⟩ := List.mem_map.1 (hall _ hspm)
    simp only at hax
    subst hax
    have hcx := hcur sl hsl ha s hs _ c _ x (by
      rw [List.getElem?_eq_getElem hi, List.getElem_idxOf hi]) hsp hx
    rw [hcx]
    show potOf _ (sl.species.getD (sl.encoding.idxOf c) 0) = x
    rw [List.getD_eq_getElem?_getD, hsp, Option.getD_some]
    refine potOf_given _ (hnd.sublist (List.filter_sublist.map _)) _ x ?_
    exact List.mem_filter.2 ⟨hx, by simpa using hspm⟩
  · intro s c h
    simp only [buildTable, species_reload]
    rw [buildTable_fold_not]
    intro sl hsl
    obtain ⟨s', hs', rfl⟩ := List.mem_map.1 hsl
    simp only [Ens.activeSubl, List.mem_filter, Sublattice.isActive, Bool.not_eq_true',
        List.isEmpty_eq_false_iff] at hs'
    exact h s' hs'.1 hs'.2

/-- C57. If the table in use prices the active sublattices with the potentials on record (as it does
after setting them, C17), the loaded ensemble computes the same change of the feature vector for
every step on active sublattices, so that runs from it are the same. -/
theorem C57_ensemble_same_change (coefs : List K) (subl : List Sublattice)
    (hm : ∀ sl ∈ subl, sl.Made) (e₀ : Ens K) (h₀ : Ens.init coefs subl = some e₀)
    (ops : List (EnsOp K)) (r : Ens K) (hr : Ens.fromDict (e₀.run ops).asDict = some r)
    (hok : SublatticesOk (e₀.run ops).subl)
    (hlen : ∀ sl ∈ (e₀.run ops).subl, sl.encoding.length = sl.species.length)
    (hcur : ∀ m, (e₀.run ops).mu = some m → ∀ sl ∈ (e₀.run ops).subl, sl.active ≠ [] →
      PricesSublattice m.value m.table sl)
    (proc : PartProc K) (occ : Occ) (step : Step)
    (hstep : ∀ f ∈ step, OnActive (e₀.run ops) f.1 f.2 ∧ OnActive (e₀.run ops) f.1 (occ f.1)) :
    r.change proc occ step = (e₀.run ops).change proc occ step := by
  obtain ⟨-, -, -, hnone, -⟩ := C57_ensemble_kept coefs subl hm e₀ h₀ ops r hr
  have he := run_held ops (init_held h₀ hm).1
  generalize e₀.run ops = e at *
  unfold Ens.change
  cases hmu : e.mu with
  | none => rw [hnone.2 hmu]
  | some m =>
    cases hmr : r.mu with
    | none => rw [hnone.1 hmr] at hmu; cases hmu
    | some m' =>
      obtain ⟨h1, -⟩ := loaded_table he hok hlen hmu (hcur m hmu) hr hmr
      simp only [List.append_cancel_left_eq, List.cons.injEq, and_true]
      unfold chemicalWorkChange
      congr 1
      apply List.map_congr_left
      intro f hf
      rw [h1 _ _ (hstep f hf).1, h1 _ _ (hstep f hf).2]

open Classical in
/-- C57. The value of the chemical work is that of the sites of active sublattices only: what sites
of sublattices without active sites contributed is lost. -/
theorem C57_ensemble_work (coefs : List K) (subl : List Sublattice)
    (hm : ∀ sl ∈ subl, sl.Made) (e₀ : Ens K) (h₀ : Ens.init coefs subl = some e₀)
    (ops : List (EnsOp K)) (r : Ens K) (hr : Ens.fromDict (e₀.run ops).asDict = some r)
    (hok : SublatticesOk (e₀.run ops).subl)
    (hlen : ∀ sl ∈ (e₀.run ops).subl, sl.encoding.length = sl.species.length)
    (m m' : ChemPots K) (hmu : (e₀.run ops).mu = some m) (hmr : r.mu = some m')
    (hcur : ∀ sl ∈ (e₀.run ops).subl, sl.active ≠ [] → PricesSublattice m.value m.table sl)
    (n : ℕ) (occ : Occ)
    (hocc : ∀ sl ∈ (e₀.run ops).subl, ∀ s ∈ sl.sites, occ s ∈ sl.encoding) :
    chemicalWork m.table n occ = chemicalWork m'.table n occ +
      ∑ s ∈ (Finset.range n).filter (fun s => ∀ sl ∈ (e₀.run ops).subl, sl.active ≠ [] →
        s ∉ sl.sites), m.table s (occ s) := by
  have he := run_held ops (init_held h₀ hm).1
  generalize e₀.run ops = e at *
  obtain ⟨h1, h2⟩ := loaded_table he hok hlen hmu hcur hr hmr
  have hsum : ∀ t : ℕ → ℕ → K, chemicalWork t n occ = ∑ s ∈ Finset.range n, t s (occ s) := by
    intro t; unfold chemicalWork; rw [Finset.sum_range]
    rw [← List.sum_ofFn]
    congr 1
    rw [List.ofFn_eq_map, ← List.map_coe_finRange_eq_range, List.map_map]
    rfl
  rw [hsum, hsum, Finset.sum_filter, ← Finset.sum_add_distrib]
  apply Finset.sum_congr rfl
  intro s _
  split
  · rename_i h
    rw [h2 s _ h, zero_add]
  · rename_i h
    push Not at h
    obtain ⟨sl, hsl, ha, hs⟩ := h
    rw [h1 s _ ⟨sl, hsl, ha, hs, hocc sl hsl s hs⟩, add_zero]

end Ensemble

/-- Chemical potentials set while a sublattice is frozen, which is then released: saving works,
loading raises. -/
theorem C57_ensemble_unloadable :
    ∃ (e₀ : Ens ℤ) (ops : List (EnsOp ℤ)),
      Ens.init [1] [Sublattice.new [0, 1] [0, 1], Sublattice.new [2, 3] [2, 3]] = some e₀ ∧
      Ens.fromDict (e₀.run ops).asDict = (none : Option (Ens ℤ)) := by
  refine ⟨_, [.restrict [2, 3], .setMu [(0, 5), (1, 7)], .reset], rfl, ?_⟩
  rw [← Option.not_isSome_iff_eq_none]
  decide +kernel

/-- The chemical work of a sublattice frozen after the potentials were set is lost on loading. -/
theorem C57_ensemble_work_differs :
    ∃ (e₀ r : Ens ℤ) (ops : List (EnsOp ℤ)) (occ : Occ),
      Ens.init [1] [Sublattice.new [0, 1] [0, 1], Sublattice.new [0, 1] [2, 3]] = some e₀ ∧
      Ens.fromDict (e₀.run ops).asDict = some r ∧
      r.feature ⟨false, [1], fun _ => [0], fun _ _ => [0]⟩ 4 occ ≠
        (e₀.run ops).feature ⟨false, [1], fun _ => [0], fun _ _ => [0]⟩ 4 occ := by
  refine ⟨_, _, [.setMu [(0, 5), (1, 7)], .restrict [2, 3]], fun _ => 0, rfl, rfl, ?_⟩
  decide +kernel

/-- A sublattice released after the potentials were set is priced at zero before saving and at its
potentials after loading, so the two ensembles sample different distributions. -/
theorem C57_ensemble_change_differs :
    ∃ (e₀ r : Ens ℤ) (ops : List (EnsOp ℤ)) (occ : Occ) (step : Step),
      Ens.init [1] [Sublattice.new [0, 1] [0, 1], Sublattice.new [0, 1] [2, 3]] = some e₀ ∧
      Ens.fromDict (e₀.run ops).asDict = some r ∧
      r.change ⟨false, [1], fun _ => [0], fun _ _ => [0]⟩ occ step ≠
        (e₀.run ops).change ⟨false, [1], fun _ => [0], fun _ _ => [0]⟩ occ step := by
  refine ⟨_, _, [.restrict [2, 3], .setMu [(0, 5), (1, 7)], .reset], fun _ => 0, [(2, 1)],
    rfl, rfl, ?_⟩
  decide +kernel

/-- hypotheses met: an ensemble with two sublattices, potentials set, one site frozen, a step on
another one -/
example : ∃ (e₀ r : Ens ℤ) (m : ChemPots ℤ), Ens.init [1]
      [Sublattice.new [0, 1] [0, 1], Sublattice.new [2, 3, 4] [2, 3]] = some e₀ ∧
    Ens.fromDict (e₀.run [.setMu [(0, 5), (1, 7), (2, 1), (3, 2), (4, 3)],
      .restrict [0]]).asDict = some r ∧
    (e₀.run [.setMu [(0, 5), (1, 7), (2, 1), (3, 2), (4, 3)], .restrict [0]]).mu = some m ∧
    m.table 2 2 = 3 ∧
    OnActive (e₀.run [.setMu [(0, 5), (1, 7), (2, 1), (3, 2), (4, 3)], .restrict [0]]) 2 2 := by
  refine ⟨_, _, _, rfl, rfl, rfl, by decide +kernel, Sublattice.new [2, 3, 4] [2, 3], ?_, ?_, ?_, ?_⟩
  all_goals decide +kernel

/-! ### Sample containers -/

section Cont
variable {α : Type*}

/-- C57. Whatever was done with a container, loading its dictionary gives the same container
exactly when no row is unused; in general the loaded one counts every allocated row as a sample:
the samples taken, in order, followed by whatever the unused memory held. -/
theorem C57_container (ops : List (Container.Op α)) (c : Container α)
    (h : Container.new.run ops = some c) (junk : α) :
    let r := Container.fromDict (c.asDict junk)
    (r = c ↔ c.nsamples = c.rows.length) ∧
    r.nsamples = c.rows.length ∧ r.totalSteps = c.totalSteps ∧
    r.rows = (recorded (ops.filterMap Container.Op.request)).map some ++
      List.replicate (c.rows.length - c.nsamples) (some junk) := by
  obtain ⟨h1, h2, h3⟩ := C20_holds_saved ops c h
  have hr : (Container.fromDict (c.asDict junk)).rows =
      (recorded (ops.filterMap Container.Op.request)).map some ++
        List.replicate (c.rows.length - c.nsamples) (some junk) := by
    simp only [Container.fromDict, Container.asDict, List.map_map]
    conv_lhs => rw [← List.take_append_drop c.nsamples c.rows]
    rw [List.map_append, h2, List.map_map]
    congr 1
    rw [List.eq_replicate_iff]
    refine ⟨by simp, ?_⟩
    intro x hx
    obtain ⟨y, hy, rfl⟩ := List.mem_map.1 hx
    rw [h3 y hy]; rfl
  have hn : (Container.fromDict (c.asDict junk)).nsamples = c.rows.length := by
    simp [Container.fromDict, Container.asDict]
  refine ⟨⟨?_, ?_⟩, hn, rfl, hr⟩
  · intro e; rw [← hn, e]
  · intro e
    have : (Container.fromDict (c.asDict junk)).rows = c.rows := by
      rw [hr, e, Nat.sub_self, List.replicate_zero, List.append_nil, ← h2, e, List.take_length]
    generalize hg : Container.fromDict (c.asDict junk) = r at *
    have ht : r.totalSteps = c.totalSteps := by rw [← hg]; rfl
    cases r; cases c; simp_all

/-- A container with unused rows: three rows were allocated, one sample was saved. -/
theorem C57_container_differs :
    ∃ (ops : List (Container.Op ℕ)) (c : Container ℕ), Container.new.run ops = some c ∧
      c.nsamples = 1 ∧ (Container.fromDict (c.asDict 99)).nsamples = 3 ∧
      (Container.fromDict (c.asDict 99)).rows = [some 7, some 99, some 99] :=
  ⟨[.allocate 3, .save 1 7], _, rfl, rfl, rfl, rfl⟩

/-- C57. Saving to a file succeeds exactly when no row is unused; the container stays as it was,
and what is read back is what the file held before followed by the samples of the container, with
the steps added up.  In particular a new file gives back the container. -/
theorem C57_container_hdf5 (ops : List (Container.Op α)) (c : Container α)
    (h : Container.new.run ops = some c) (file : Option (Backend α))
    (hfile : ∀ b, file = some b → b.nsamples ≤ b.rows.length) :
    ((∃ c' b, c.toHdf5 file = some (c', b)) ↔ c.nsamples = c.rows.length) ∧
    (∀ c' b, c.toHdf5 file = some (c', b) → c' = c ∧
      (Container.fromHdf5 b).rows = (file.map Backend.read).getD [] ++ c.rows ∧
      (Container.fromHdf5 b).nsamples = (file.map Backend.nsamples).getD 0 + c.nsamples ∧
      (Container.fromHdf5 b).totalSteps = (file.map Backend.totalSteps).getD 0 + c.totalSteps ∧
      (file = none → Container.fromHdf5 b = c)) := by
  have hb : (getBackend file c.nsamples).nsamples + c.nsamples ≤
        (getBackend file c.nsamples).rows.length ∧
      (getBackend file c.nsamples).nsamples = (file.map Backend.nsamples).getD 0 ∧
      (getBackend file c.nsamples).totalSteps = (file.map Backend.totalSteps).getD 0 ∧
      (getBackend file c.nsamples).rows.take (getBackend file c.nsamples).nsamples =
        (file.map Backend.read).getD [] := by
    cases file with
    | none => simp [getBackend]
    | some b =>
      have := hfile b rfl
      simp only [getBackend]
      split
      · simp only [List.length_append, List.length_replicate, Option.map_some, Option.getD_some,
          true_and, Backend.read]
        refine ⟨by omega, ?_⟩
        rw [List.take_append_of_le_length this]
      · exact ⟨by omega, rfl, rfl, rfl⟩
  obtain ⟨b1, b2, b3, b4⟩ := hb
  have hto : c.toHdf5 file = if c.nsamples = c.rows.length then
      some (c, ⟨(file.map Backend.read).getD [] ++ c.rows ++ (getBackend file c.nsamples).rows.drop
        ((getBackend file c.nsamples).nsamples + c.nsamples),
        (file.map Backend.nsamples).getD 0 + c.nsamples,
        (file.map Backend.totalSteps).getD 0 + c.totalSteps⟩) else none := by
    unfold Container.toHdf5 Container.flush
    by_cases hc : c.nsamples = c.rows.length
    · rw [if_pos ⟨hc.symm, b1⟩, if_pos hc, Option.map_some, b2, b3]
      rw [← b2, b4]
    · rw [if_neg (fun h => hc h.1.symm), if_neg hc]; rfl
  rw [hto]
  have hread : ∀ b, file = some b → (Backend.read b).length = b.nsamples := by
    intro b e
    simp [Backend.read, hfile b e]
  constructor
  · split <;> simp_all
  · intro c' b e
    split at e
    swap; · cases e
    rename_i hc
    simp only [Option.some.injEq, Prod.mk.injEq] at e
    obtain ⟨rfl, rfl⟩ := e
    have hrows : (Container.fromHdf5 ⟨(file.map Backend.read).getD [] ++ c.rows ++
        (getBackend file c.nsamples).rows.drop
        ((getBackend file c.nsamples).nsamples + c.nsamples),
        (file.map Backend.nsamples).getD 0 + c.nsamples,
        (file.map Backend.totalSteps).getD 0 + c.totalSteps⟩).rows =
        (file.map Backend.read).getD [] ++ c.rows := by
      simp only [Container.fromHdf5]
      unfold Backend.read
      simp only
      apply List.take_left'
      rw [List.length_append, ← hc]
      congr 1
      cases file with
      | none => rfl
      | some b => exact hread b rfl
    refine ⟨rfl, hrows, rfl, rfl, ?_⟩
    rintro rfl
    simp only [Option.map_none, Option.getD_none, List.nil_append, Nat.zero_add] at hrows ⊢
    cases c
    simp only [Container.fromHdf5, Container.mk.injEq, and_self, and_true] at hrows ⊢
    exact hrows

/-- hypotheses met -/
example : ∃ c, Container.new.run [.allocate 2, .save 3 7, .save 3 (8 : ℕ)] = some c ∧
    c.nsamples = c.rows.length := ⟨_, rfl, rfl⟩

end Cont

/-! ### Cluster subspaces -/

theorem assignList_reload (l : List Orb) (c : ℕ × ℕ × ℕ) :
    assignList ((assignList l c).1.map Orb.reload) c = assignList l c := by
  induction l generalizing c with
  | nil => rfl
  | cons o l ih =>
    simp only [assignList, List.map_cons]
    have h1 : ((o.assign c).1.reload).assign c = o.assign c := rfl
    rw [h1, ih]

theorem assignDict_reload (d : List (ℕ × List Orb)) (c : ℕ × ℕ × ℕ) :
    assignDict ((assignDict d c).1.map fun p => (p.1, p.2.map Orb.reload)) c = assignDict d c := by
  induction d generalizing c with
  | nil => rfl
  | cons p d ih =>
    obtain ⟨k, os⟩ := p
    simp only [assignDict, List.map_cons]
    rw [assignList_reload, ih]

theorem reload_assigned (d : List (ℕ × List Orb)) :
    (OrbitSpace.assigned d).reload = OrbitSpace.assigned d := by
  unfold OrbitSpace.reload
  have hs := (assigned_orbits d).1
  conv_lhs => unfold OrbitSpace.assigned
  simp only
  have h2 : ((OrbitSpace.assigned d).dict.map fun p => (p.1, p.2.map Orb.reload)).Pairwise keyLe :=
    map_keys_sorted hs _
  have h3 : (OrbitSpace.assigned d).dict = (assignDict (d.insertionSort keyLe) (1, 1, 1)).1 := rfl
  rw [h3] at h2
  rw [sort_eq h2, assignDict_reload]
  rfl

theorem reachable_assigned {S : OrbitSpace} (h : S.Reachable) :
    ∃ d, S = OrbitSpace.assigned d := by
  obtain ⟨d, ops, hd, rfl⟩ := h
  have hok : (OrbitSpace.assigned d).Ok := assigned_ok _ (dictOrbits_nonempty hd)
  have key : ∀ (ops : List SpaceOp) (S : OrbitSpace), S.Ok → (∃ d, S = OrbitSpace.assigned d) →
      ∃ d, S.run ops = OrbitSpace.assigned d := by
    intro ops
    induction ops with
    | nil => intro S _ h; exact h
    | cons op ops ih =>
      intro S hS h
      simp only [OrbitSpace.run, List.foldl_cons]
      apply ih _ (step_ok hS op)
      cases op with
      | orbits ids =>
        simp only [OrbitSpace.step]
        by_cases hb : ids = [] ∨ (∃ i ∈ ids, i < 0) ∨ (0 : ℤ) ∈ ids ∨
            (∃ i ∈ ids, (S.numOrbits : ℤ) - 1 < i)
        · unfold OrbitSpace.removeOrbits
          rw [if_pos hb]; exact h
        · obtain ⟨d', h1, -⟩ := removeOrbits_some hS.sorted hb
          exact ⟨d', by rw [h1]; rfl⟩
      | functions ids =>
        obtain ⟨d', h1, -⟩ := removeCorr_some hS ids
        exact ⟨d', by simp [OrbitSpace.step, h1]⟩
  exact key ops _ hok ⟨d, rfl⟩

/-- C57. A cluster subspace reached by any removals is loaded with the same orbits, functions, ids
and counts. -/
theorem C57_subspace (S : OrbitSpace) (h : S.Reachable) : S.reload = S := by
  obtain ⟨d, rfl⟩ := reachable_assigned h
  exact reload_assigned d

theorem removeInds_last (o : Orb) :
    (o.removeInds [(o.combos.length : ℤ) - 1]).combos = o.combos.dropLast := by
  show keepAt (fun i => decide ((i : ℤ) ∉ [(o.combos.length : ℤ) - 1])) 0 o.combos = _
  rcases List.eq_nil_or_concat o.combos with h | ⟨l, x, h⟩
  · rw [h]; rfl
  · rw [h, List.concat_eq_append, List.dropLast_concat, keepAt_append, keepAt_all, keepAt_cons]
    · simp [keepAt]
    · intro i hi
      simp
      omega

/-- C57. Loading a Potts subspace made without the last cluster raises exactly when some orbit has
a single decoration left; otherwise every orbit loses one more decoration, its last.  Loading one
made with the last cluster changes nothing. -/
theorem C57_potts (S : OrbitSpace) (h : S.Reachable) :
    S.reloadPotts false = some S ∧
    (S.reloadPotts true = none ↔ ∃ o ∈ S.orbits, o.combos.length = 1) ∧
    ∀ R, S.reloadPotts true = some R →
      R.orbits.map (fun o => (o.tag, o.mult, o.combos)) =
        S.orbits.map (fun o => (o.tag, o.mult, o.combos.dropLast)) ∧
      R.numCorr + S.orbits.length = S.numCorr := by
  have hok := h.ok
  have hre := C57_subspace S h
  have h0 : OrbitSpace.assigned S.dict = S := by
    obtain ⟨d, rfl⟩ := reachable_assigned h
    have hs := (assigned_orbits d).1
    have : ∀ (d : List (ℕ × List Orb)) c, assignDict (assignDict d c).1 c = assignDict d c := by
      intro d
      induction d with
      | nil => intro c; rfl
      | cons p d ih =>
        intro c
        obtain ⟨k, os⟩ := p
        have hl : ∀ (l : List Orb) c, assignList (assignList l c).1 c = assignList l c := by
          intro l
          induction l with
          | nil => intro c; rfl
          | cons o l ih' =>
            intro c
            simp only [assignList]
            have h1 : ((o.assign c).1).assign c = o.assign c := rfl
            rw [h1, ih']
        simp only [assignDict]
        rw [hl, ih]
    conv_lhs => unfold OrbitSpace.assigned
    simp only
    have h3 : (OrbitSpace.assigned d).dict = (assignDict (d.insertionSort keyLe) (1, 1, 1)).1 := rfl
    rw [h3] at hs
    rw [sort_eq hs, this]
    rfl
  have hnone : (∃ o ∈ S.orbits, (o.removeInds [(o.combos.length : ℤ) - 1]).combos = []) ↔
      ∃ o ∈ S.orbits, o.combos.length = 1 := by
    constructor
    · rintro ⟨o, ho, he⟩
      refine ⟨o, ho, ?_⟩
      rw [removeInds_last] at he
      have h1 := hok.nonempty o ho
      have h2 := congrArg List.length he
      rw [List.length_dropLast] at h2
      have : 0 < o.combos.length := List.length_pos_of_ne_nil h1
      simp only [List.length_nil] at h2
      omega
    · rintro ⟨o, ho, he⟩
      refine ⟨o, ho, ?_⟩
      rw [removeInds_last]
      apply List.eq_nil_of_length_eq_zero
      rw [List.length_dropLast]; omega
  refine ⟨?_, ?_, ?_⟩
  · simp [OrbitSpace.reloadPotts, hre, h0]
  · simp only [OrbitSpace.reloadPotts, hre, if_true]
    rw [← hnone]
    split <;> simp_all
  · intro R hR
    simp only [OrbitSpace.reloadPotts, hre, if_true] at hR
    split at hR
    · cases hR
    rename_i hne
    simp only [Option.some.injEq] at hR
    have hcont := assigned_content (S.dict.map fun p =>
      (p.1, p.2.map fun o => o.removeInds [(o.combos.length : ℤ) - 1]))
    have hdict : dictOrbits (S.dict.map fun p =>
        (p.1, p.2.map fun o => o.removeInds [(o.combos.length : ℤ) - 1])) =
        S.orbits.map fun o => o.removeInds [(o.combos.length : ℤ) - 1] := by
      rw [dictOrbits_of_sorted (map_keys_sorted hok.sorted _), flat_map_map,
        orbits_of_sorted hok.sorted]
    rw [hR, hdict, List.map_map] at hcont
    have hR1 : R.orbits.map (fun o => (o.tag, o.mult, o.combos)) =
        S.orbits.map (fun o => (o.tag, o.mult, o.combos.dropLast)) := by
      have e1 : (fun o : Orb => (o.tag, o.mult, o.combos)) = Orb.content := by
        funext o; rfl
      rw [e1, hcont]
      apply List.map_congr_left
      intro o _
      show (o.tag, o.mult, (o.removeInds _).combos) = _
      rw [removeInds_last]
    refine ⟨hR1, ?_⟩
    have hRok : R.Ok := by
      rw [← hR]
      apply assigned_ok
      rw [hdict]
      intro o ho
      obtain ⟨o', ho', rfl⟩ := List.mem_map.1 ho
      intro he
      exact hne ⟨o', ho', he⟩
    rw [hRok.numCorr, hok.numCorr]
    have hlen : (R.orbits.map fun o => o.combos.length) =
        S.orbits.map fun o => o.combos.length - 1 := by
      have := congrArg (List.map fun p : ℕ × ℕ × List (ℕ × ℕ) => p.2.2.length) hR1
      simpa [List.map_map, Function.comp_def] using this
    unfold nFuns
    rw [hlen]
    have : ∀ l : List Orb, (∀ o ∈ l, o.combos ≠ []) →
        (l.map fun o => o.combos.length - 1).sum + l.length =
          (l.map fun o => o.combos.length).sum := by
      intro l
      induction l with
      | nil => intro _; rfl
      | cons o l ih =>
        intro hl
        have h1 := ih fun x hx => hl x (List.mem_cons_of_mem _ hx)
        have h2 : 0 < o.combos.length := List.length_pos_of_ne_nil (hl o (by simp))
        simp only [List.map_cons, List.sum_cons, List.length_cons]
        omega
    have := this S.orbits hok.nonempty
    omega

/-- A Potts subspace with two functions on its point orbit that comes back with one. -/
theorem C57_potts_differs :
    ∃ S R : OrbitSpace, S.Reachable ∧ S.reloadPotts true = some R ∧ S.numCorr = 3 ∧
      R.numCorr = 2 :=
  ⟨OrbitSpace.assigned [(1, [⟨0, 1, [(0, 1), (1, 1)], 0, 0⟩])],
    OrbitSpace.assigned [(1, [⟨0, 1, [(0, 1)], 0, 0⟩])],
    ⟨_, [], by decide, rfl⟩, by decide +kernel, by decide +kernel, by decide +kernel⟩

/-! ### Cluster expansions -/

section Exp
variable {K : Type*} [Field K] [LinearOrder K] [IsStrictOrderedRing K]

omit [Field K] [LinearOrder K] [IsStrictOrderedRing K] in
/-- C57. An expansion as constructed is loaded unchanged. -/
theorem C57_expansion (E : Expansion K) (reg : Option (List (List K))) (F : FullExp K)
    (hS : E.space.Reachable) (hF : FullExp.init E reg = some F) : F.reload = some F := by
  have hF' := hF
  unfold FullExp.init at hF
  split at hF
  · cases hF
  cases hF
  unfold FullExp.reload
  simp only
  rw [C57_subspace _ hS]
  exact hF'

omit [IsStrictOrderedRing K] in
/-- C57. After pruning that left subspace and coefficients in step and removed at least one
coefficient, an expansion without regression data is loaded unchanged, one with regression data
cannot be loaded or copied at all. -/
theorem C57_expansion_pruned (E : Expansion K) (reg : Option (List (List K))) (F F' : FullExp K)
    (hS : E.space.Reachable) (hF : FullExp.init E reg = some F) (threshold : K) (withMult : Bool)
    (base : List K) (hb : Selects E withMult base) (i : ℕ) (hi : i < base.length)
    (hsmall : |base.getD i 0| < threshold)
    (hkeep : ∀ j < base.length, j = 0 ∨ E.space.numCorr ≤ j → threshold ≤ |base.getD j 0|)
    (hp : F.prune threshold withMult = some F') :
    (reg = none → F'.reload = some F') ∧ (∀ m, reg = some m → F'.reload = none) := by
  unfold FullExp.init at hF
  split at hF
  · cases hF
  rename_i hcond
  push Not at hcond
  obtain ⟨hreg, hlen⟩ := hcond
  cases hF
  obtain ⟨base', P, hb', hP, -, hR, hk⟩ := C44_prune E hS hlen threshold withMult
  have hbb : base' = base := selects_unique hS.ok hb' hb
  subst hbb
  obtain ⟨hr, hl, -⟩ := hk hkeep
  obtain ⟨base'', hbase, hsel, hbl⟩ := selects_exists E hS.ok hlen withMult
  have hbb : base'' = base' := selects_unique hS.ok hsel hb'
  subst hbb
  simp only [FullExp.prune, hP, Option.bind_some, hr, Bool.false_eq_true, if_false] at hp
  rw [hbase] at hp
  simp only [Option.map_some, Option.some.injEq] at hp
  have hcoefs : P.exp.coefs = complementOf (smallIds base'' threshold) E.coefs := by
    unfold Expansion.prune at hP
    rw [hbase, Option.bind_some] at hP
    cases hq : E.space.removeCorr (smallIds base'' threshold) with
    | none => rw [hq] at hP; cases hP
    | some s => rw [hq] at hP; cases hP; rfl
  have hle : base''.length ≤ E.coefs.length := hbl
  have hlt : P.exp.coefs.length < E.coefs.length := by
    rw [hcoefs, complementOf_eq]
    refine keepAt_length_lt _ 0 _ i (by omega) ?_
    rw [Nat.zero_add, decide_eq_false_iff_not, not_not, mem_smallIds]
    refine ⟨base''.getD i 0, ?_, hsmall⟩
    rw [List.getElem?_eq_getElem hi, List.getD_eq_getElem?_getD, List.getElem?_eq_getElem hi]
    rfl
  subst hp
  constructor
  · rintro rfl
    unfold FullExp.reload FullExp.init
    simp only [Option.map_none]
    rw [C57_subspace _ hR, if_neg]
    rintro (⟨m, hm, -⟩ | hh)
    · simp at hm
    · exact hh hl
  · rintro m rfl
    unfold FullExp.reload FullExp.init
    simp only
    rw [if_pos]
    refine Or.inl ⟨m, rfl, ?_⟩
    have := hreg m rfl
    omega

omit [IsStrictOrderedRing K] in
/-- C44. The training features are pruned along with the coefficients: for every training structure
the pruned row times the pruned coefficients is the old sum without the terms that were pruned. -/
theorem C44_feature_matrix (F F' : FullExp K) (hS : F.exp.space.Reachable)
    (hlen : F.exp.coefs.length = F.exp.numTerms) (threshold : K) (withMult : Bool)
    (hp : F.prune threshold withMult = some F') :
    ∃ base, Selects F.exp withMult base ∧ F'.reg = F.reg ∧ (F.feat = none ↔ F'.feat = none) ∧
      ∀ m, F.feat = some m → ∃ m', F'.feat = some m' ∧
        List.Forall₂ (fun row row' => row.length = F.exp.coefs.length →
          row'.length = F'.exp.coefs.length ∧
          (List.zipWith (· * ·) F'.exp.coefs row').sum =
            ((List.range F.exp.coefs.length).map fun i =>
              if i < base.length ∧ |base.getD i 0| < threshold then 0
              else F.exp.coefs.getD i 0 * row.getD i 0).sum) m m' := by
  obtain ⟨base, hbase, hsel, hbl⟩ := selects_exists F.exp hS.ok hlen withMult
  unfold FullExp.prune at hp
  rw [Option.bind_eq_some_iff] at hp
  obtain ⟨P, hP, hp⟩ := hp
  split at hp
  · cases hp
  rw [hbase, Option.map_some, Option.some.injEq] at hp
  have hcoefs : P.exp.coefs = complementOf (smallIds base threshold) F.exp.coefs := by
    unfold Expansion.prune at hP
    rw [hbase, Option.bind_some] at hP
    cases hq : F.exp.space.removeCorr (smallIds base threshold) with
    | none => rw [hq] at hP; cases hP
    | some s => rw [hq] at hP; cases hP; rfl
  subst hp
  refine ⟨base, hsel, rfl, by simp, ?_⟩
  intro m hm
  refine ⟨_, by rw [hm, Option.map_some], ?_⟩
  rw [List.forall₂_map_right_iff, List.forall₂_same]
  intro row _ hl
  simp only [hcoefs, complementOf_eq]
  refine ⟨keepAt_length _ 0 _ _ hl, ?_⟩
  rw [keepAt_dot _ _ _ hl.symm]
  congr 1
  apply List.map_congr_left
  intro i _
  have hiff : ((i : ℤ) ∈ smallIds base threshold) ↔ (i < base.length ∧ |base.getD i 0| < threshold) := by
    rw [mem_smallIds]
    constructor
    · rintro ⟨c, hc, h⟩
      obtain ⟨h1, rfl⟩ := List.getElem?_eq_some_iff.1 hc
      exact ⟨h1, by rw [List.getD_eq_getElem?_getD, hc, Option.getD_some]; exact h⟩
    · rintro ⟨h1, h⟩
      rw [List.getD_eq_getElem?_getD, List.getElem?_eq_getElem h1, Option.getD_some] at h
      exact ⟨_, List.getElem?_eq_getElem h1, h⟩
  by_cases h : i < base.length ∧ |base.getD i 0| < threshold
  · rw [if_pos h, if_neg (by rw [decide_eq_true_iff, not_not]; exact hiff.2 h)]
  · rw [if_neg h, if_pos (by rw [decide_eq_true_iff]; exact fun h' => h (hiff.1 h'))]

end Exp

/-- hypotheses met: the sample expansion of C44 with one row of regression data, pruned -/
example :
    ((FullExp.init sampleExpansion (some [[1, 1, 0, 1, 0, 1, 1]])).bind fun F =>
        F.prune (1/10) false).map (fun F' => (F'.exp.coefs, F'.reg, F'.feat, F'.reload.isNone)) =
      some ([5, 2, 3, 4, 1], some [[1, 1, 0, 1, 0, 1, 1]], some [[1, 0, 1, 1, 1]], true) ∧
    Selects sampleExpansion false sampleExpansion.coefs ∧
    |sampleExpansion.coefs.getD 1 0| < 1/10 := by
  refine ⟨?_, rfl, ?_⟩ <;> decide +kernel

/-- C57. A decomposition processor made with its default coefficients keeps them when loaded, one
made with other coefficients gets the default ones. -/
theorem C57_decomposition {K : Type*} [CommRing K] (S : OrbitSpace) (h : S.Reachable)
    (given : Option (List K)) :
    decompReload S (decompCoefs S given) = S.orbitMults.map (fun m : ℕ => (m : K)) ∧
    (given = none → decompReload S (decompCoefs S given) = decompCoefs S given) ∧
    (∀ g, given = some g → g ≠ S.orbitMults.map (fun m : ℕ => (m : K)) →
      decompReload S (decompCoefs S given) ≠ decompCoefs S given) := by
  unfold decompReload
  rw [C57_subspace S h]
  refine ⟨rfl, ?_, ?_⟩
  · rintro rfl; rfl
  · rintro g rfl hg he
    exact hg he.symm

/-- A processor made for minus the property: loading it turns the sign back. -/
theorem C57_decomposition_differs :
    ∃ (S : OrbitSpace) (p : PartProc ℤ) (occ : Occ), S.Reachable ∧
      p.coefs = decompCoefs S (some (S.orbitMults.map fun m : ℕ => -(m : ℤ))) ∧
      ({ p with coefs := decompReload S p.coefs } : PartProc ℤ).property occ ≠ p.property occ :=
  ⟨OrbitSpace.assigned sampleDict, ⟨false, _, fun _ => [1, 1, 0, 0], fun _ _ => [0, 0, 0, 0]⟩,
    fun _ => 0, ⟨_, [], by decide, rfl⟩, rfl, by decide +kernel⟩

end Smol
