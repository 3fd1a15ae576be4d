import Verif.Spec.Session
import Verif.Lemmas.Ensemble
import Verif.Lemmas.UsherTree

/-! Sessions: objects and values. -/

namespace Smol
open Spec Prog
variable {K : Type*} [CommRing K]

/-- The numbers in the list are those of objects. -/
def Session.Ok (s : Session K) : Prop := ∀ r ∈ s.refs, r < s.heap.length

omit [CommRing K] in
theorem session_new_ok (e : Ens K) : (Session.new e).Ok ∧ (Session.new e).view = e := by
  refine ⟨fun r hr => by simpa [Session.new] using hr, ?_⟩
  unfold Session.view Session.new
  have : (List.range e.subl.length).map (lookSl e.subl) = e.subl := by
    apply List.ext_getElem?
    intro i
    rw [List.getElem?_map]
    by_cases h : i < e.subl.length
    · rw [List.getElem?_range h, List.getElem?_eq_getElem h]
      simp [lookSl, List.getD_eq_getElem?_getD, List.getElem?_eq_getElem h]
    · rw [List.getElem?_eq_none (by simpa using h), List.getElem?_eq_none (by simpa using h)]
      rfl
  simp only [this]

theorem lookSl_mapIdx (heap : List Sublattice) (f : ℕ → Sublattice → Sublattice) (r : ℕ)
    (h : r < heap.length) : lookSl (heap.mapIdx f) r = f r (lookSl heap r) := by
  simp [lookSl, List.getD_eq_getElem?_getD, List.getElem?_eq_getElem h]

theorem lookSl_append_left (heap new : List Sublattice) (r : ℕ) (h : r < heap.length) :
    lookSl (heap ++ new) r = lookSl heap r := by
  simp [lookSl, List.getD_eq_getElem?_getD, List.getElem?_append_left h]

theorem lookSl_append_new (heap new : List Sublattice) :
    (List.range' heap.length new.length).map (lookSl (heap ++ new)) = new := by
  apply List.ext_getElem?
  intro i
  rw [List.getElem?_map]
  by_cases h : i < new.length
  · rw [List.getElem?_range' h, List.getElem?_eq_getElem h]
    have : heap.length + i < (heap ++ new).length := by simp [h]
    simp [lookSl, List.getD_eq_getElem?_getD, h]
  · rw [List.getElem?_eq_none (by simpa using h), List.getElem?_eq_none (by simpa using h)]
    rfl

omit [CommRing K] in
theorem inPlace_view (s : Session K) (hs : s.Ok) (f : Sublattice → Sublattice) :
    (s.inPlace f).view = { s.view with subl := s.view.subl.map f } := by
  unfold Session.view Session.inPlace
  simp only [List.map_map]
  congr 1
  refine List.map_congr_left fun r hr => ?_
  rw [lookSl_mapIdx _ _ _ (hs r hr), if_pos hr]
  rfl

variable [DecidableEq K]

theorem setMu_subl (e e' : Ens K) (v : List (ℕ × K)) (h : e.setMu v = some e') :
    e'.subl = e.subl := by
  unfold Ens.setMu at h
  split at h
  · cases h
  simp only at h
  split at h
  · cases h
  obtain ⟨e₁, h1, rfl⟩ := Option.map_eq_some_iff.1 h
  split at h1
  · unfold Ens.setParams at h1
    split at h1
    · cases h1; rfl
    · cases h1
  · cases h1; rfl

omit [CommRing K] in
theorem delMu_subl (e e' : Ens K) (h : e.delMu = some e') : e'.subl = e.subl := by
  unfold Ens.delMu at h
  simp only at h
  split at h
  · unfold Ens.setParams at h
    split at h
    · cases h; rfl
    · cases h
  · cases h; rfl

theorem split_subl (e : Ens K) (id : ℕ) (occ : Occ) (parts : List (List ℕ)) :
    (∀ splits, ((e.subl[id]?).bind fun sl => sl.split occ parts) = some splits →
      (e.split id occ parts).1.subl = e.subl.take id ++ splits ++ e.subl.drop (id + 1)) ∧
    (((e.subl[id]?).bind fun sl => sl.split occ parts) = none → (e.split id occ parts).1 = e) := by
  unfold Ens.split
  cases h : e.subl[id]? with
  | none => simp
  | some sl =>
    cases h2 : sl.split occ parts with
    | none => simp [h2]
    | some splits =>
      simp only [Option.bind_some, h2, Option.some.injEq]
      refine ⟨?_, by simp⟩
      rintro _ rfl
      split
      · rfl
      · split
        · rfl
        · split
          · rfl
          · rename_i e'' he
            exact setMu_subl _ _ _ he

omit [CommRing K] [DecidableEq K] in
theorem view_subl_get (s : Session K) (id : ℕ) :
    s.view.subl[id]? = (s.refs[id]?).map (lookSl s.heap) := by
  simp [Session.view]

/-- The list of objects behaves like a list of values. -/
theorem session_step (s : Session K) (hs : s.Ok) (op : EnsOp K) :
    (s.step op).Ok ∧ (s.step op).view = s.view.step op ∧
      (NoSplit op → (s.step op).refs = s.refs) := by
  cases op with
  | restrict xs =>
    refine ⟨?_, ?_, fun _ => rfl⟩
    · intro r hr
      simpa [Session.step, Session.inPlace] using hs r hr
    · exact inPlace_view s hs _
  | reset =>
    refine ⟨?_, ?_, fun _ => rfl⟩
    · intro r hr
      simpa [Session.step, Session.inPlace] using hs r hr
    · exact inPlace_view s hs _
  | setMu v =>
    refine ⟨hs, ?_, fun _ => rfl⟩
    have : (s.view.step (.setMu v)).subl = s.view.subl := by
      simp only [Ens.step]
      cases h : s.view.setMu v with
      | none => rfl
      | some e' => exact setMu_subl _ _ _ h
    show ({ s.view.step (.setMu v) with subl := s.refs.map (lookSl s.heap) } : Ens K) = _
    rw [show s.refs.map (lookSl s.heap) = s.view.subl from rfl, ← this]
  | delMu =>
    refine ⟨hs, ?_, fun _ => rfl⟩
    have : (s.view.step .delMu).subl = s.view.subl := by
      simp only [Ens.step]
      cases h : s.view.delMu with
      | none => rfl
      | some e' => exact delMu_subl _ _ h
    show ({ s.view.step .delMu with subl := s.refs.map (lookSl s.heap) } : Ens K) = _
    rw [show s.refs.map (lookSl s.heap) = s.view.subl from rfl, ← this]
  | split id occ parts =>
    refine ⟨?_, ?_, fun h => h.elim⟩
    · simp only [Session.step]
      split
      · exact hs
      · rename_i splits h
        intro r hr
        simp only [List.mem_append, List.mem_range'_1] at hr
        simp only [List.length_append]
        rcases hr with (hr | hr) | hr
        · have := hs r (List.mem_of_mem_take hr); omega
        · omega
        · have := hs r (List.mem_of_mem_drop hr); omega
    · have hb : (s.refs[id]?).bind (fun r => (lookSl s.heap r).split occ parts) =
          (s.view.subl[id]?).bind fun sl => sl.split occ parts := by
        rw [view_subl_get]
        cases s.refs[id]? <;> rfl
      simp only [Session.step, Ens.step]
      rw [hb]
      split
      · rename_i h
        exact ((split_subl s.view id occ parts).2 h).symm
      · rename_i splits h
        have e := (split_subl s.view id occ parts).1 splits h
        have e2 : (s.refs.take id ++ List.range' s.heap.length splits.length ++
            s.refs.drop (id + 1)).map (lookSl (s.heap ++ splits)) =
            (s.view.split id occ parts).1.subl := by
          rw [e, List.map_append, List.map_append, lookSl_append_new]
          have h1 : ∀ l : List ℕ, (∀ r ∈ l, r ∈ s.refs) →
              l.map (lookSl (s.heap ++ splits)) = l.map (lookSl s.heap) := fun l hl =>
            List.map_congr_left fun r hr => lookSl_append_left _ _ _ (hs r (hl r hr))
          rw [h1 _ fun r hr => List.mem_of_mem_take hr, h1 _ fun r hr => List.mem_of_mem_drop hr]
          simp [Session.view]
        unfold Session.view
        rw [e2]
        rfl

theorem session_run (ops : List (EnsOp K)) (s : Session K) (hs : s.Ok) :
    (s.run ops).Ok ∧ (s.run ops).view = s.view.run ops ∧
      ((∀ op ∈ ops, NoSplit op) → (s.run ops).refs = s.refs) := by
  induction ops generalizing s with
  | nil => exact ⟨hs, rfl, fun _ => rfl⟩
  | cons op ops ih =>
    obtain ⟨h1, h2, h3⟩ := session_step s hs op
    obtain ⟨k1, k2, k3⟩ := ih (s.step op) h1
    refine ⟨k1, ?_, fun h => ?_⟩
    · show ((s.step op).run ops).view = _
      rw [k2, h2]
      rfl
    · show ((s.step op).run ops).refs = _
      rw [k3 fun o ho => h o (by simp [ho]), h3 (h op (by simp))]

/-! ### Sublattices -/

theorem sublattices_map {sls : List Sublattice} (h : SublatticesOk sls) (f : Sublattice → Sublattice)
    (h1 : ∀ sl, (f sl).sites = sl.sites ∧ (f sl).encoding = sl.encoding)
    (h2 : ∀ sl ∈ sls, (f sl).active.Nodup ∧ ∀ s ∈ (f sl).active, s ∈ sl.sites) :
    SublatticesOk (sls.map f) where
  nonempty := by simpa using h.nonempty
  range := by
    intro sl hsl s hs
    obtain ⟨sl', hsl', rfl⟩ := List.mem_map.1 hsl
    rw [(h1 sl').1] at hs
    have := h.range sl' hsl' s hs
    rw [List.map_map]
    have e : (fun sl => sl.sites.length) ∘ f = fun sl => sl.sites.length := by
      funext sl; simp [(h1 sl).1]
    rwa [e]
  disjoint := by
    rw [List.pairwise_map]
    refine h.disjoint.imp fun {a b} hab => ?_
    rw [(h1 a).1, (h1 b).1]
    exact hab
  nodup := by
    intro sl hsl
    obtain ⟨sl', hsl', rfl⟩ := List.mem_map.1 hsl
    exact ⟨(h1 sl').1 ▸ (h.nodup sl' hsl').1, (h2 sl' hsl').1⟩
  active := by
    intro sl hsl s hs
    obtain ⟨sl', hsl', rfl⟩ := List.mem_map.1 hsl
    rw [(h1 sl').1]
    exact (h2 sl' hsl').2 s hs
  encoding := by
    intro sl hsl
    obtain ⟨sl', hsl', rfl⟩ := List.mem_map.1 hsl
    rw [(h1 sl').2]
    exact h.encoding sl' hsl'

theorem sublattices_restrict {sls : List Sublattice} (h : SublatticesOk sls) (xs : List ℕ) :
    SublatticesOk (sls.map fun sl => sl.restrict xs) :=
  sublattices_map h _ (fun _ => ⟨rfl, rfl⟩) fun sl hsl =>
    ⟨(h.nodup sl hsl).2.filter _, fun s hs => h.active sl hsl s (List.mem_filter.1 hs).1⟩

theorem sublattices_reset {sls : List Sublattice} (h : SublatticesOk sls) :
    SublatticesOk (sls.map Sublattice.reset) := by
  refine sublattices_map h _ (fun sl => ?_) fun sl hsl => ?_
  · unfold Sublattice.reset; split <;> exact ⟨rfl, rfl⟩
  · unfold Sublattice.reset
    split
    · exact ⟨(h.nodup sl hsl).1, fun s hs => hs⟩
    · exact ⟨(h.nodup sl hsl).2, h.active sl hsl⟩

/-- Without splits the sublattices stay proper and the legal occupancies the same. -/
theorem step_sublattices (e : Ens K) (h : SublatticesOk e.subl) (op : EnsOp K) (hn : NoSplit op) :
    SublatticesOk (e.step op).subl ∧
      ∀ x : Occ, FullLegal e.subl x ↔ FullLegal (e.step op).subl x := by
  have key : ∀ f : Sublattice → Sublattice,
      (∀ sl, (f sl).sites = sl.sites ∧ (f sl).encoding = sl.encoding) →
      ∀ x : Occ, FullLegal e.subl x ↔ FullLegal (e.subl.map f) x := by
    intro f hf x
    simp only [FullLegal, List.forall_mem_map, (hf _).1, (hf _).2]
  cases op with
  | restrict xs => exact ⟨sublattices_restrict h xs, key _ fun sl => ⟨rfl, rfl⟩⟩
  | reset =>
    exact ⟨sublattices_reset h, key _ fun sl => by unfold Sublattice.reset; split <;> exact ⟨rfl, rfl⟩⟩
  | setMu v =>
    have : (e.step (.setMu v)).subl = e.subl := by
      simp only [Ens.step]
      cases hm : e.setMu v with
      | none => rfl
      | some e' => exact setMu_subl _ _ _ hm
    rw [this]; exact ⟨h, fun x => Iff.rfl⟩
  | delMu =>
    have : (e.step .delMu).subl = e.subl := by
      simp only [Ens.step]
      cases hm : e.delMu with
      | none => rfl
      | some e' => exact delMu_subl _ _ hm
    rw [this]; exact ⟨h, fun x => Iff.rfl⟩
  | split id occ parts => exact hn.elim

/-- Without resets, no site becomes active. -/
theorem step_inactive (e : Ens K) (op : EnsOp K) (hn : NoSplit op) (hr : NoReset op) (t : ℕ)
    (h : ∀ sl ∈ e.subl, t ∉ sl.active) : ∀ sl ∈ (e.step op).subl, t ∉ sl.active := by
  cases op with
  | restrict xs =>
    simp only [Ens.step, List.forall_mem_map]
    intro sl hsl ht
    exact h sl hsl (List.mem_filter.1 ht).1
  | reset => exact hr.elim
  | setMu v =>
    have : (e.step (.setMu v)).subl = e.subl := by
      simp only [Ens.step]
      cases hm : e.setMu v with
      | none => rfl
      | some e' => exact setMu_subl _ _ _ hm
    rw [this]; exact h
  | delMu =>
    have : (e.step .delMu).subl = e.subl := by
      simp only [Ens.step]
      cases hm : e.delMu with
      | none => rfl
      | some e' => exact delMu_subl _ _ hm
    rw [this]; exact h
  | split id occ parts => exact hn.elim

/-! ### Ushers -/

omit [DecidableEq K] in
/-- An usher that holds sublattices of the list proposes legal steps on their present active
sites. -/
theorem live_legal {sls : List Sublattice} (h : SublatticesOk sls) (heap : List Sublattice)
    (refs : List ℕ) (hr : ∀ r ∈ refs, lookSl heap r ∈ sls) (u : LiveUsher) (hu : HoldsRefs refs u)
    (x : Occ) (hx : FullLegal sls x) (st : Step) (hst : ((u.now heap).propose x).Outcome st) :
    LegalStep sls st := by
  have hI : ∀ (x : Occ) (st : Step), FullLegal sls x → LegalStep sls st →
      FullLegal sls (applyStep x st) := fun x st hx hst => fullLegal_apply h hx hst.flips
  have hm : ∀ act : List ℕ, (∀ r ∈ act, r ∈ refs) → ∀ sl ∈ act.map (lookSl heap), sl ∈ sls := by
    intro act hact sl hsl
    obtain ⟨r, hr', rfl⟩ := List.mem_map.1 hsl
    exact hr r (hact r hr')
  induction u generalizing x st with
  | flip g act probs => exact LegalStep.mono (hm act hu) (flip_legal hst)
  | swap g act probs =>
    exact LegalStep.mono (hm act hu) (swap_flips
      (fun sl hsl s hs => hx sl (hm act hu sl hsl) s (h.active sl (hm act hu sl hsl) s hs)) hst)
  | multi g lens p inner ih =>
    exact outcome_multi g lens p (inner.now heap).propose (FullLegal sls)
      (fun _ st => LegalStep sls st) (fun x st hx hst => ih hu x hx st hst)
      hI (fun x a b _ ha hb hd => legalStep_append ha hb hd) x st hx hst
  | composite g n us w ih =>
    obtain ⟨v, hv, hst⟩ := outcome_composite g _ w x st hst
    obtain ⟨i, rfl⟩ := (List.mem_ofFn' _ _).1 hv
    exact ih i (hu i) x hx st hst

omit [CommRing K] [DecidableEq K] in
theorem session_legal (s : Session K) (h : SublatticesOk s.view.subl) (u : LiveUsher)
    (hu : HoldsRefs s.refs u) (x : Occ) (hx : FullLegal s.view.subl x) (st : Step)
    (hst : ((u.now s.heap).propose x).Outcome st) : LegalStep s.view.subl st :=
  live_legal h s.heap s.refs (fun _ hr => List.mem_map_of_mem hr) u hu x hx st hst

/-! ### Exceptions -/

theorem mayRaise_bind {α β : Type} (p : Prog α) (f : α → Prog β) :
    MayRaise (p.bind f) ↔ MayRaise p ∨ ∃ a, p.Outcome a ∧ MayRaise (f a) := by
  induction p with
  | ret a => simp [Prog.bind, MayRaise, Outcome]
  | pick g n w k ih =>
    simp only [Prog.bind, MayRaise, Outcome, ih]
    constructor
    · rintro (h | ⟨i, hi, h | ⟨a, h, h'⟩⟩)
      · exact Or.inl (Or.inl h)
      · exact Or.inl (Or.inr ⟨i, hi, h⟩)
      · exact Or.inr ⟨a, ⟨i, hi, h⟩, h'⟩
    · rintro ((h | ⟨i, hi, h⟩) | ⟨a, ⟨i, hi, h⟩, h'⟩)
      · exact Or.inl h
      · exact Or.inr ⟨i, hi, Or.inl h⟩
      · exact Or.inr ⟨i, hi, Or.inr ⟨a, h, h'⟩⟩

theorem mayRaise_choose {β : Type} (g : Rng) (l : List β) : MayRaise (choose g l) ↔ l = [] := by
  simp [choose, MayRaise]

theorem mayRaise_chooseW {β : Type} (g : Rng) (l : List β) (w : List ℚ) :
    MayRaise (chooseW g l w) ↔ l = [] := by
  simp [chooseW, MayRaise]

end Smol
