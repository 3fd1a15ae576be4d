import Verif.Model.Ensemble
import Verif.Lemmas.OccuUtils
import Verif.Lemmas.Composite

namespace Smol
open Spec

variable {K : Type*} [CommRing K]

/-- the work changes by one term per flip when sites are distinct -/
theorem chemicalWork_update (t : ℕ → ℕ → K) (n : ℕ) (occ : Occ) (s c : ℕ) (hs : s < n) :
    chemicalWork t n (Function.update occ s c) = chemicalWork t n occ + (t s c - t s (occ s)) := by
  unfold chemicalWork
  induction n with
  | zero => omega
  | succ n ih =>
    rw [List.range_succ, List.map_append, List.map_append, List.sum_append, List.sum_append]
    simp only [List.map_cons, List.map_nil, List.sum_cons, List.sum_nil]
    by_cases h : s = n
    · subst h
      have : ((List.range s).map fun i => t i (Function.update occ s c i)) =
          (List.range s).map fun i => t i (occ i) := by
        apply List.map_congr_left
        intro i hi
        rw [Function.update_of_ne (by have := List.mem_range.1 hi; omega)]
      rw [this, Function.update_self]; ring
    · rw [ih (by omega), Function.update_of_ne (Ne.symm h)]; ring

theorem chemicalWorkChange_congr (t : ℕ → ℕ → K) (occ occ' : Occ) (step : Step)
    (h : ∀ f ∈ step, occ f.1 = occ' f.1) :
    chemicalWorkChange t occ step = chemicalWorkChange t occ' step := by
  unfold chemicalWorkChange
  congr 1
  apply List.map_congr_left
  intro f hf
  rw [h f hf]

theorem chemicalWork_step (t : ℕ → ℕ → K) (n : ℕ) (occ : Occ) (step : Step)
    (hs : ∀ f ∈ step, f.1 < n) (hd : (step.map Prod.fst).Nodup) :
    chemicalWork t n (applyStep occ step) = chemicalWork t n occ + chemicalWorkChange t occ step := by
  induction step generalizing occ with
  | nil => simp [applyStep, chemicalWorkChange]
  | cons f fs ih =>
    rw [List.map_cons, List.nodup_cons] at hd
    rw [applyStep, ih _ (fun g hg => hs g (by simp [hg])) hd.2,
      chemicalWork_update _ _ _ _ _ (hs f (by simp)),
      chemicalWorkChange_congr t (Function.update occ f.1 f.2) occ]
    · simp only [chemicalWorkChange, List.map_cons, List.sum_cons]; ring
    · intro g hg
      rw [Function.update_of_ne]
      intro he
      exact hd.1 (he ▸ List.mem_map_of_mem hg)

/-- table entry of a site on one of the sublattices written -/
theorem buildTable_fold (v : List (ℕ × K)) (l : List Sublattice) (t : ℕ → ℕ → K)
    (hdisj : l.Pairwise fun x y => ∀ s ∈ x.sites, s ∉ y.sites)
    (sl : Sublattice) (hsl : sl ∈ l) (s c : ℕ) (hs : s ∈ sl.sites) (hc : c ∈ sl.encoding) :
    l.foldl (fun t sl s c =>
      if s ∈ sl.sites ∧ c ∈ sl.encoding then
        potOf v (sl.species.getD (sl.encoding.idxOf c) 0)
      else t s c) t s c = potOf v (sl.species.getD (sl.encoding.idxOf c) 0) := by
  have hnot : ∀ (l : List Sublattice) (t : ℕ → ℕ → K), (∀ x ∈ l, s ∉ x.sites) →
      l.foldl (fun t sl s c =>
        if s ∈ sl.sites ∧ c ∈ sl.encoding then
          potOf v (sl.species.getD (sl.encoding.idxOf c) 0)
        else t s c) t s c = t s c := by
    intro l
    induction l with
    | nil => intro t _; rfl
    | cons x l ih =>
      intro t h
      rw [List.foldl_cons, ih _ fun y hy => h y (by simp [hy])]
      rw [if_neg]; rintro ⟨h1, _⟩; exact h x (by simp) h1
  induction l generalizing t with
  | nil => cases hsl
  | cons x l ih =>
    rw [List.pairwise_cons] at hdisj
    rw [List.foldl_cons]
    rcases List.mem_cons.1 hsl with rfl | hm
    · rw [hnot _ _ fun y hy => hdisj.1 y hy s hs, if_pos ⟨hs, hc⟩]
    · exact ih _ hdisj.2 hm

theorem buildTable_fold_not (v : List (ℕ × K)) (l : List Sublattice) (t : ℕ → ℕ → K)
    (s c : ℕ) (h : ∀ x ∈ l, s ∉ x.sites) :
    l.foldl (fun t sl s c =>
        if s ∈ sl.sites ∧ c ∈ sl.encoding then
          potOf v (sl.species.getD (sl.encoding.idxOf c) 0)
        else t s c) t s c = t s c := by
  induction l generalizing t with
  | nil => rfl
  | cons x l ih =>
    rw [List.foldl_cons, ih _ fun y hy => h y (by simp [hy])]
    rw [if_neg]; rintro ⟨h1, _⟩; exact h x (by simp) h1

variable [DecidableEq K]

/-- natural parameters are in step with the chemical potentials -/
def ParamsOk (e : Ens K) : Prop :=
  e.params = e.coefs ++ (if e.mu.isSome then [-1] else []) ∧ e.boundary = e.mu.map ChemPots.value

theorem setMu_spec (e e' : Ens K) (v : List (ℕ × K)) (h : e.setMu v = some e') (hp : ParamsOk e) :
    ParamsOk e' ∧ e'.coefs = e.coefs ∧ e'.subl = e.subl ∧
      e'.mu = some ⟨v.filter fun p => decide (p.1 ∈ e.species),
        buildTable e (v.filter fun p => decide (p.1 ∈ e.species))⟩ ∧
      (v.map Prod.fst).Nodup ∧ ∀ sp ∈ e.species, sp ∈ v.map Prod.fst := by
  unfold Ens.setMu at h
  split at h
  · cases h
  rename_i hnd
  push Not at hnd
  simp only at h
  split at h
  · cases h
  rename_i hmiss
  push Not at hmiss
  have hall : ∀ sp ∈ e.species, sp ∈ v.map Prod.fst := by
    intro sp hsp
    have := hmiss sp hsp
    simp only [List.mem_map, List.mem_filter] at this ⊢
    obtain ⟨p, ⟨h1, _⟩, h2⟩ := this
    exact ⟨p, h1, h2⟩
  cases hm : e.mu with
  | none =>
    have hpar : e.params = e.coefs := by simpa [ParamsOk, hm] using hp.1
    simp only [hm, Option.isNone_none, if_true, Ens.setParams, hpar, List.take_left',
      Option.map_some, Option.some.injEq] at h
    subst h
    refine ⟨⟨by simp, rfl⟩, rfl, rfl, rfl, hnd, hall⟩
  | some m =>
    have hpar : e.params = e.coefs ++ [-1] := by simpa [ParamsOk, hm] using hp.1
    simp only [hm, Option.isNone_some, Bool.false_eq_true, if_false, Option.map_some,
      Option.some.injEq] at h
    subst h
    exact ⟨⟨by simp [hpar], rfl⟩, rfl, rfl, rfl, hnd, hall⟩

theorem setMu_none (e : Ens K) (v : List (ℕ × K)) (hp : ParamsOk e)
    (hnd : (v.map Prod.fst).Nodup) (hall : ∀ sp ∈ e.species, sp ∈ v.map Prod.fst) :
    ∃ e', e.setMu v = some e' := by
  unfold Ens.setMu
  rw [if_neg (by simpa using hnd)]
  simp only
  rw [if_neg]
  swap
  · push Not
    intro sp hsp
    obtain ⟨p, h1, h2⟩ := List.mem_map.1 (hall sp hsp)
    exact List.mem_map.2 ⟨p, List.mem_filter.2 ⟨h1, by simpa [h2] using hsp⟩, h2⟩
  cases hm : e.mu with
  | none =>
    have hpar : e.params = e.coefs := by simpa [ParamsOk, hm] using hp.1
    simp [Ens.setParams, hpar]
  | some m => simp

theorem delMu_spec (e : Ens K) (hp : ParamsOk e) :
    e.delMu = some { e with mu := none, boundary := none, params := e.coefs } := by
  unfold Ens.delMu
  cases hm : e.mu with
  | none =>
    have hpar : e.params = e.coefs := by simpa [ParamsOk, hm] using hp.1
    simp [hpar]
  | some m =>
    have hpar : e.params = e.coefs ++ [-1] := by simpa [ParamsOk, hm] using hp.1
    simp [hpar, Ens.setParams]

theorem split_paramsOk (e : Ens K) (hp : ParamsOk e) (id : ℕ) (occ : Occ) (parts : List (List ℕ)) :
    ParamsOk (e.split id occ parts).1 ∧ (e.split id occ parts).1.coefs = e.coefs := by
  unfold Ens.split
  split
  · exact ⟨hp, rfl⟩
  split
  · exact ⟨hp, rfl⟩
  rename_i sl _ splits _
  have hp' : ParamsOk { e with subl := e.subl.take id ++ splits ++ e.subl.drop (id + 1) } := hp
  simp only
  split
  · exact ⟨hp', rfl⟩
  · split
    · exact ⟨hp', rfl⟩
    · split
      · exact ⟨hp', rfl⟩
      · rename_i e'' he
        obtain ⟨h1, h2, _⟩ := setMu_spec _ _ _ he hp'
        exact ⟨h1, h2⟩

theorem step_paramsOk (e : Ens K) (op : EnsOp K) (hp : ParamsOk e) :
    ParamsOk (e.step op) ∧ (e.step op).coefs = e.coefs := by
  cases op with
  | setMu v =>
    simp only [Ens.step]
    cases h : e.setMu v with
    | none => exact ⟨hp, rfl⟩
    | some e' =>
      obtain ⟨h1, h2, _⟩ := setMu_spec e e' v h hp
      exact ⟨h1, h2⟩
  | delMu =>
    simp only [Ens.step, delMu_spec e hp, Option.getD_some]
    exact ⟨⟨by simp, rfl⟩, trivial⟩
  | restrict xs => exact ⟨hp, rfl⟩
  | reset => exact ⟨hp, rfl⟩
  | split id occ parts => exact split_paramsOk e hp id occ parts

theorem run_paramsOk (ops : List (EnsOp K)) (e : Ens K) (hp : ParamsOk e) :
    ParamsOk (e.run ops) ∧ (e.run ops).coefs = e.coefs := by
  unfold Ens.run
  induction ops generalizing e with
  | nil => exact ⟨hp, rfl⟩
  | cons op ops ih =>
    rw [List.foldl_cons]
    have h := step_paramsOk e op hp
    have h' := ih _ h.1
    exact ⟨h'.1, h'.2.trans h.2⟩

end Smol
