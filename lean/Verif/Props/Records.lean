import Verif.Lemmas.Records

/-!
# C98: records of what was run, and saved work
-/

namespace Smol
open Smol.Spec

section
variable (shw : MFields → Txt)

/-- C98. A record of numbers, texts, lists and dictionaries, and of records as attributes to any
depth, is the same after saving and loading. -/
theorem C98_same (v : MVal) (h : Storable v) : (v.save shw).load = v := storable_same shw v h

/-- C98. Whatever a record holds, what is loaded can be saved and loaded again without any further
change. -/
theorem C98_again (v : MVal) (h : Named v) :
    Storable (v.save shw).load ∧ (((v.save shw).load).save shw).load = (v.save shw).load :=
  ⟨loaded_storable shw v h, storable_same shw _ (loaded_storable shw v h)⟩

/-- C98. A loaded record has the same attributes, each loaded from what was saved of it. -/
theorem C98_attributes {f : MFields} (h : Named (.md f)) :
    ∃ f', ((MVal.md f).save shw).load = .md f' ∧ f'.keys = f.keys ∧
      ∀ k, f'.get k = (f.get k).map fun v => (v.save shw).load := by
  unfold Named at h
  exact ⟨_, load_save_md shw h.1 (namedFields_noAt f h.2), by rw [keys_load, keys_save],
    fun k => get_save_load shw k f⟩

/-- C98, violated. Records in a list are lost: a loaded record has their printed texts instead. -/
theorem C98_listed {f : MFields} (h : Named (.md f)) {k : Txt} {t : Bool} {specs : List MFields}
    (hk : f.get k = some (.seq t (MVals.ofList (specs.map .md)))) :
    ∃ f', ((MVal.md f).save shw).load = .md f' ∧
      f'.get k = some (.seq false (MVals.ofList (specs.map fun s => .text (shw s)))) := by
  obtain ⟨f', h1, -, h2⟩ := C98_attributes shw h
  refine ⟨f', h1, ?_⟩
  rw [h2, hk, Option.map_some]
  simp only [MVal.save, MVal.clean, MVal.load, clean_ofList, List.map_map]
  have : (specs.map ((fun v => v.clean shw) ∘ MVal.md)) = (specs.map shw).map .text := by
    rw [List.map_map]
    apply List.map_congr_left
    intro s _
    simp [MVal.clean]
  rw [this, load_texts, List.map_map]
  rfl

/-- C98, violated. So the samples of every sampler, once saved and loaded, no longer have the
specifications of the kernels, only their texts; the other attributes are as for any record. -/
theorem C98_kernels_lost {f : MFields} (h : Named (.md f)) {specs : List MFields}
    (hs : ∀ s ∈ specs, Named (.md s)) :
    ∃ f', ((MVal.md (samplerRecord f specs)).save shw).load = .md f' ∧
      f'.get ['k', 'e', 'r', 'n', 'e', 'l', 's'] =
        some (.seq false (MVals.ofList (specs.map fun s => .text (shw s)))) ∧
      ∀ k, k ≠ ['k', 'e', 'r', 'n', 'e', 'l', 's'] →
        f'.get k = (f.get k).map fun v => (v.save shw).load := by
  have hl : ∀ l : List MFields, (∀ s ∈ l, Named (.md s)) → NamedAll (MVals.ofList (l.map .md)) := by
    intro l
    induction l with
    | nil => intro _; simp only [List.map_nil, MVals.ofList]; unfold NamedAll; trivial
    | cons s l ih =>
      intro hall
      simp only [List.map_cons, MVals.ofList]
      unfold NamedAll
      exact ⟨hall s List.mem_cons_self, ih fun q hq => hall q (List.mem_cons_of_mem _ hq)⟩
  have hn : Named (.md (samplerRecord f specs)) := by
    unfold Named at h ⊢
    refine ⟨?_, namedFields_put (by decide) (by unfold Named; exact hl specs hs) f h.2⟩
    unfold samplerRecord
    rw [keys_put]
    split
    · exact h.1
    · exact List.mem_append_left _ h.1
  have hget : (samplerRecord f specs).get ['k', 'e', 'r', 'n', 'e', 'l', 's'] =
      some (.seq false (MVals.ofList (specs.map .md))) := by
    unfold samplerRecord
    rw [get_put, if_pos rfl]
  obtain ⟨f', h1, h2⟩ := C98_listed shw hn hget
  obtain ⟨f'', g1, -, g2⟩ := C98_attributes shw hn
  obtain rfl : f' = f'' := by
    rw [h1] at g1
    exact MVal.md.inj g1
  refine ⟨f', h1, h2, ?_⟩
  intro k hk
  rw [g2]
  unfold samplerRecord
  rw [get_put, if_neg (Ne.symm hk)]

end

/-! ### Saved work -/

section
variable {Ω J : Type*}

/-- C98. `save_work` raises exactly if an object is not MSONable, and then leaves the file as it was,
or if one of those to be written cannot be encoded. -/
theorem C98_save_work (enc : Ω → Option J) (file : Option (WorkFile J)) (objs : List (WorkObj Ω)) :
    ((∃ o ∈ objs, o.mson = false) → saveWork enc file objs = (file, true)) ∧
    ((saveWork enc file objs).2 = false ↔ (∀ o ∈ objs, o.mson = true) ∧
      ∀ k v, LastOf objs k v → ∃ j, enc v = some j) := by
  obtain ⟨h1, h2⟩ := collectWork_spec objs [] (by simp)
  have hraise : (¬ ∀ o ∈ objs, o.mson = true) → saveWork enc file objs = (file, true) := by
    intro hn
    unfold saveWork
    rw [h2 hn]
  refine ⟨?_, ?_⟩
  · rintro ⟨o, ho, hm⟩
    apply hraise
    intro hall
    rw [hall o ho] at hm
    cases hm
  · by_cases hall : ∀ o ∈ objs, o.mson = true
    · obtain ⟨r, e1, e2, e3⟩ := h1 hall
      have e3' : ∀ k v, (k, v) ∈ r ↔ LastOf objs k v := by
        intro k v
        rw [e3]
        simp
      unfold saveWork
      rw [e1]
      simp only
      by_cases henc : ∀ e ∈ r, ∃ j, enc e.2 = some j
      · obtain ⟨q, q1, -⟩ := encodeWork_some r henc
        rw [q1]
        simp only [true_iff]
        exact ⟨hall, fun k v hl => henc (k, v) ((e3' k v).2 hl)⟩
      · have hno : ∃ e ∈ r, enc e.2 = none := by
          by_contra hc
          apply henc
          intro e he
          cases hx : enc e.2 with
          | none => exact absurd ⟨e, he, hx⟩ hc
          | some j => exact ⟨j, rfl⟩
        rw [encodeWork_none r hno]
        simp only [Bool.true_eq_false, false_iff]
        rintro ⟨-, hc⟩
        exact henc fun e he => hc e.1 e.2 ((e3' e.1 e.2).1 he)
    · rw [hraise hall]
      simp [hall]

/-- C98. After `save_work` without an exception `load_work` gives one entry for each class among the
objects, the last object of that class, decoded from its encoding; whatever the file held before. -/
theorem C98_load_work (enc : Ω → Option J) (dec : J → Ω) (hdec : ∀ v j, enc v = some j → dec j = v)
    (file : Option (WorkFile J)) (objs : List (WorkObj Ω)) (h : (saveWork enc file objs).2 = false) :
    ∃ r, loadWork dec (saveWork enc file objs).1 = some r ∧ (r.map Prod.fst).Nodup ∧
      ∀ k v, (k, v) ∈ r ↔ LastOf objs k v := by
  obtain ⟨hall, henc⟩ := (C98_save_work enc file objs).2.1 h
  obtain ⟨h1, -⟩ := collectWork_spec objs [] (by simp)
  obtain ⟨r, e1, e2, e3⟩ := h1 hall
  have e3' : ∀ k v, (k, v) ∈ r ↔ LastOf objs k v := by
    intro k v
    rw [e3]
    simp
  obtain ⟨q, q1, q2⟩ := encodeWork_some (enc := enc) r
    fun e he => henc e.1 e.2 ((e3' e.1 e.2).1 he)
  have hq : (q.map fun e => (e.1, dec e.2)) = r := by
    clear q1 e1 e2 e3 e3' h henc hall h1
    induction q generalizing r with
    | nil =>
      cases r with
      | nil => rfl
      | cons a r => simp at q2
    | cons a q ih =>
      cases r with
      | nil => simp at q2
      | cons b r =>
        simp only [List.map_cons, List.cons.injEq, Prod.mk.injEq] at q2
        obtain ⟨⟨k1, k2⟩, k3⟩ := q2
        simp only [List.map_cons, ih r k3, List.cons.injEq, and_true]
        exact Prod.ext k1 (hdec _ _ k2.symm)
  refine ⟨r, ?_, e2, e3'⟩
  unfold saveWork
  rw [e1]
  simp only [q1, loadWork, hq]

/-- C98, violated. If an object that is to be written cannot be encoded, the work that was in the file
is lost: it can no longer be loaded. -/
theorem C98_work_lost (enc : Ω → Option J) (dec : J → Ω) (file : Option (WorkFile J))
    (objs : List (WorkObj Ω)) (hall : ∀ o ∈ objs, o.mson = true) {k : Txt} {v : Ω}
    (hl : LastOf objs k v) (hv : enc v = none) :
    (saveWork enc file objs).2 = true ∧ loadWork dec (saveWork enc file objs).1 = none := by
  obtain ⟨h1, -⟩ := collectWork_spec objs [] (by simp)
  obtain ⟨r, e1, -, e3⟩ := h1 hall
  have hm : (k, v) ∈ r := (e3 k v).2 (Or.inl hl)
  unfold saveWork
  rw [e1]
  simp only [encodeWork_none r ⟨(k, v), hm, hv⟩, loadWork, and_self]

end

/-! ### The hypotheses are met -/

/-- the specification of a flip -/
def demoSpec : MFields := .cons kName (.text ['F', 'l', 'i', 'p']) (.cons ['p'] (.seq false (.cons (.num (some 1)) .nil)) .nil)

/-- the specification of a kernel, with its step -/
def demoKernel : MFields := .cons kName (.text ['M']) (.cons ['s', 't', 'e', 'p'] (.md demoSpec) .nil)

/-- C98_same: a kernel with a step -/
example : Storable (.md demoKernel) := by
  simp [Storable, StorableFields, demoKernel, demoSpec, MFields.keys, kName, PlainVal, PlainAll]

/-- C98_again, C98_listed, C98_kernels_lost: a record with two kernels -/
example : Named (.md (samplerRecord (.cons kName (.num none) .nil) [demoKernel, demoKernel])) ∧
    ∀ s ∈ [demoKernel, demoKernel], Named (.md s) := by
  simp [Named, NamedFields, demoKernel, demoSpec, MFields.keys, kName, NamedAll, samplerRecord,
    MFields.put, MVals.ofList]

/-- so is not the same after saving and loading -/
example (shw : MFields → Txt) : ((MVal.md (samplerRecord (.cons kName (.num none) .nil) [demoKernel])).save
    shw).load ≠ .md (samplerRecord (.cons kName (.num none) .nil) [demoKernel]) := by
  intro h
  have hn : Named (.md (.cons kName (.num none) .nil)) := by
    simp [Named, NamedFields, MFields.keys, kName]
  obtain ⟨f', h1, h2, -⟩ := C98_kernels_lost shw hn (specs := [demoKernel]) (by
    simp [Named, NamedFields, demoKernel, demoSpec, MFields.keys, kName, NamedAll])
  rw [h] at h1
  have := MVal.md.inj h1
  subst this
  simp [samplerRecord, MFields.get, MFields.put, kName, MVals.ofList] at h2

/-- C98_save_work, C98_load_work: two objects of one class, one of another -/
example : (saveWork (fun n : ℕ => some n) none
      [⟨['A'], true, 1⟩, ⟨['B'], true, 2⟩, ⟨['A'], true, 3⟩]).2 = false ∧
    LastOf [⟨['A'], true, 1⟩, ⟨['B'], true, 2⟩, ⟨['A'], true, 3⟩] ['A'] 3 ∧
    ¬ LastOf [⟨['A'], true, 1⟩, ⟨['B'], true, 2⟩, ⟨['A'], true, 3⟩] ['A'] 1 := by
  refine ⟨by decide +kernel, ⟨[⟨['A'], true, 1⟩, ⟨['B'], true, 2⟩], [], true, rfl, by simp⟩, ?_⟩
  intro h
  obtain ⟨r, h1, h2, h3⟩ := C98_load_work (fun n : ℕ => some n) id (by simp) none
    [⟨['A'], true, 1⟩, ⟨['B'], true, 2⟩, ⟨['A'], true, 3⟩] (by decide +kernel)
  have : r = [(['A'], 3), (['B'], 2)] := by
    have : loadWork (Ω := ℕ) id (saveWork (fun n : ℕ => some n) none
      [⟨['A'], true, 1⟩, ⟨['B'], true, 2⟩, ⟨['A'], true, 3⟩]).1 = some [(['A'], 3), (['B'], 2)] := by
      decide +kernel
    rw [this] at h1
    exact (Option.some.inj h1).symm
  have hm := (h3 _ _).2 h
  rw [this] at hm
  exact absurd hm (by decide)

/-- C98_work_lost: an object that cannot be encoded -/
example : ∃ (enc : ℕ → Option ℕ) (objs : List (WorkObj ℕ)), (∀ o ∈ objs, o.mson = true) ∧
    LastOf objs ['B'] 2 ∧ enc 2 = none :=
  ⟨fun n => if n = 2 then none else some n, [⟨['A'], true, 1⟩, ⟨['B'], true, 2⟩], by simp,
    ⟨[⟨['A'], true, 1⟩], [], true, rfl, by simp⟩, rfl⟩

end Smol
