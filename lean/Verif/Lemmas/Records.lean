import Verif.Spec.Records

/-! Lemmas for records. -/

namespace Smol
open Smol.Spec

theorem keys_put (k : Txt) (v : MVal) : (f : MFields) →
    (f.put k v).keys = if k ∈ f.keys then f.keys else f.keys ++ [k]
  | .nil => by simp [MFields.put, MFields.keys]
  | .cons k' w f => by
    unfold MFields.put
    by_cases h : k' = k
    · simp [h, MFields.keys]
    · have h' : ¬ k = k' := fun e => h e.symm
      simp only [h, if_false, MFields.keys, keys_put k v f, List.mem_cons, h', false_or]
      split <;> simp

theorem get_put (k : Txt) (v : MVal) (q : Txt) : (f : MFields) →
    (f.put k v).get q = if k = q then some v else f.get q
  | .nil => by simp [MFields.put, MFields.get]
  | .cons k' w f => by
    unfold MFields.put
    by_cases h : k' = k
    · subst h
      simp only [if_true, MFields.get]
      by_cases hq : k' = q <;> simp [hq]
    · simp only [h, if_false, MFields.get, get_put k v q f]
      by_cases hq : k' = q
      · subst hq
        have h' : ¬ k = k' := fun e => h e.symm
        simp [h']
      · simp [hq]

variable (shw : MFields → Txt)

mutual
theorem plain_clean : (v : MVal) → PlainVal v → v.clean shw = v
  | .num _, _ => rfl
  | .text _, _ => rfl
  | .seq t l, h => by
    unfold PlainVal at h
    unfold MVal.clean
    rw [plainAll_clean l h.2, h.1]
  | .dict f, h => by
    unfold PlainVal at h
    unfold MVal.clean
    rw [plainFields_clean f h]
  | .md _, h => by unfold PlainVal at h; exact h.elim
  | .other _, h => by unfold PlainVal at h; exact h.elim
theorem plainAll_clean : (l : MVals) → PlainAll l → l.clean shw = l
  | .nil, _ => rfl
  | .cons v l, h => by
    unfold PlainAll at h
    unfold MVals.clean
    rw [plain_clean v h.1, plainAll_clean l h.2]
theorem plainFields_clean : (f : MFields) → PlainFields f → f.clean shw = f
  | .nil, _ => rfl
  | .cons k v f, h => by
    unfold PlainFields at h
    unfold MFields.clean
    rw [plain_clean v h.2.1, plainFields_clean f h.2.2]
end

/-- no entry begins with `@` -/
def NoAt (f : MFields) : Prop := ∀ k ∈ f.keys, k.head? ≠ some '@'

theorem noAt_get {f : MFields} (h : NoAt f) {k : Txt} (hk : k.head? = some '@') : f.get k = none := by
  have : ∀ f : MFields, (∀ q ∈ f.keys, q ≠ k) → f.get k = none := by
    intro f
    exact go f
  exact this f fun q hq e => h q hq (e ▸ hk)
where
  go {k : Txt} : (f : MFields) → (∀ q ∈ f.keys, q ≠ k) → f.get k = none
    | .nil, _ => rfl
    | .cons q v f, h => by
      unfold MFields.get
      rw [if_neg (h q (by simp [MFields.keys]))]
      exact go f fun r hr => h r (by simp [MFields.keys, hr])

theorem noAt_untagged {f : MFields} (h : NoAt f) : f.tagged = false := by
  unfold MFields.tagged
  rw [noAt_get h (k := kClass) rfl]

theorem plainFields_noAt : (f : MFields) → PlainFields f → NoAt f
  | .nil, _ => by intro k hk; simp [MFields.keys] at hk
  | .cons q v f, h => by
    unfold PlainFields at h
    intro k hk
    simp only [MFields.keys, List.mem_cons] at hk
    rcases hk with rfl | hk
    · exact h.1
    · exact plainFields_noAt f h.2.2 k hk

mutual
theorem plain_load : (v : MVal) → PlainVal v → v.load = v
  | .num _, _ => rfl
  | .text _, _ => rfl
  | .seq t l, h => by
    unfold PlainVal at h
    unfold MVal.load
    rw [plainAll_load l h.2]
  | .dict f, h => by
    unfold PlainVal at h
    unfold MVal.load
    rw [noAt_untagged (plainFields_noAt f h), plainFields_load f h]
    rfl
  | .md _, h => by unfold PlainVal at h; exact h.elim
  | .other _, h => by unfold PlainVal at h; exact h.elim
theorem plainAll_load : (l : MVals) → PlainAll l → l.load = l
  | .nil, _ => rfl
  | .cons v l, h => by
    unfold PlainAll at h
    unfold MVals.load
    rw [plain_load v h.1, plainAll_load l h.2]
theorem plainFields_load : (f : MFields) → PlainFields f → f.load = f
  | .nil, _ => rfl
  | .cons k v f, h => by
    unfold PlainFields at h
    unfold MFields.load
    rw [plain_load v h.2.1, plainFields_load f h.2.2]
end

mutual
theorem clean_plain : (v : MVal) → Named v → PlainVal (v.clean shw)
  | .num _, _ => by unfold MVal.clean PlainVal; trivial
  | .text _, _ => by unfold MVal.clean PlainVal; trivial
  | .seq t l, h => by
    unfold Named at h
    unfold MVal.clean PlainVal
    exact ⟨rfl, cleanAll_plain l h⟩
  | .dict f, h => by
    unfold Named at h
    unfold MVal.clean PlainVal
    exact cleanFields_plain f h
  | .md _, _ => by unfold MVal.clean PlainVal; trivial
  | .other _, _ => by unfold MVal.clean PlainVal; trivial
theorem cleanAll_plain : (l : MVals) → NamedAll l → PlainAll (l.clean shw)
  | .nil, _ => by unfold MVals.clean PlainAll; trivial
  | .cons v l, h => by
    unfold NamedAll at h
    unfold MVals.clean PlainAll
    exact ⟨clean_plain v h.1, cleanAll_plain l h.2⟩
theorem cleanFields_plain : (f : MFields) → NamedFields f → PlainFields (f.clean shw)
  | .nil, _ => by unfold MFields.clean PlainFields; trivial
  | .cons k v f, h => by
    unfold NamedFields at h
    unfold MFields.clean PlainFields
    exact ⟨h.1, clean_plain v h.2.1, cleanFields_plain f h.2.2⟩
end

theorem keys_save : (f : MFields) → (f.save shw).keys = f.keys
  | .nil => rfl
  | .cons k v f => by
    unfold MFields.save MFields.keys
    rw [keys_save f]

theorem keys_load : (f : MFields) → f.load.keys = f.keys
  | .nil => rfl
  | .cons k v f => by
    unfold MFields.load MFields.keys
    rw [keys_load f]

theorem namedFields_noAt : (f : MFields) → NamedFields f → NoAt f
  | .nil, _ => by intro k hk; simp [MFields.keys] at hk
  | .cons q v f, h => by
    unfold NamedFields at h
    intro k hk
    simp only [MFields.keys, List.mem_cons] at hk
    rcases hk with rfl | hk
    · exact h.1
    · exact namedFields_noAt f h.2.2 k hk

theorem storableFields_noAt : (f : MFields) → StorableFields f → NoAt f
  | .nil, _ => by intro k hk; simp [MFields.keys] at hk
  | .cons q v f, h => by
    unfold StorableFields at h
    intro k hk
    simp only [MFields.keys, List.mem_cons] at hk
    rcases hk with rfl | hk
    · exact h.1
    · exact storableFields_noAt f h.2.2 k hk

theorem load_put (k : Txt) (v : MVal) : (f : MFields) → (f.put k v).load = f.load.put k v.load
  | .nil => by simp [MFields.put, MFields.load]
  | .cons k' w f => by
    unfold MFields.put
    by_cases h : k' = k
    · simp [h, MFields.load]
    · simp only [h, if_false, MFields.load, load_put k v f]

theorem dropAt_put {k : Txt} (hk : k.head? = some '@') (v : MVal) : (f : MFields) →
    (f.put k v).dropAt = f.dropAt
  | .nil => by simp [MFields.put, MFields.dropAt, isAt, hk]
  | .cons k' w f => by
    unfold MFields.put
    by_cases h : k' = k
    · simp [h, MFields.dropAt, isAt, hk]
    · simp only [h, if_false, MFields.dropAt, dropAt_put hk v f]

theorem dropAt_noAt : (f : MFields) → NoAt f → f.dropAt = f
  | .nil, _ => rfl
  | .cons k v f, h => by
    unfold MFields.dropAt
    have hk : isAt k = false := by
      unfold isAt
      have := h k (by simp [MFields.keys])
      simpa using this
    rw [hk, dropAt_noAt f fun q hq => h q (by simp [MFields.keys, hq])]
    rfl

/-- loading what was saved of a `Metadata` -/
theorem load_save_md {f : MFields} (hn : kName ∈ f.keys) (h : NoAt f) :
    ((MVal.md f).save shw).load = .md (f.save shw).load := by
  have htag : (((f.save shw).put kClass (.text tMetadata)).put kModule (.text tModule)).tagged = true := by
    unfold MFields.tagged
    rw [get_put, get_put, get_put, if_pos rfl, if_pos rfl,
      if_neg (show ¬ kModule = kClass by decide)]
    simp
  rw [MVal.save, MVal.load, htag]
  simp only [if_true]
  rw [load_put, load_put, dropAt_put (by rfl), dropAt_put (by rfl)]
  have hno : NoAt (f.save shw).load := by
    unfold NoAt
    rw [keys_load, keys_save]
    exact h
  rw [dropAt_noAt _ hno]
  unfold mkMeta
  rw [keys_load, keys_save, if_pos hn]

mutual
theorem storable_same : (v : MVal) → Storable v → (v.save shw).load = v
  | .md f, h => by
    unfold Storable at h
    rw [load_save_md shw h.1 (storableFields_noAt f h.2), storableFields_same f h.2]
  | .num _, _ => rfl
  | .text _, _ => rfl
  | .seq t l, h => by
    unfold Storable at h
    unfold MVal.save
    rw [plain_clean shw _ h, plain_load _ h]
  | .dict f, h => by
    unfold Storable at h
    unfold MVal.save
    rw [plain_clean shw _ h, plain_load _ h]
  | .other _, h => by unfold Storable at h; exact h.elim
theorem storableFields_same : (f : MFields) → StorableFields f → (f.save shw).load = f
  | .nil, _ => rfl
  | .cons k v f, h => by
    unfold StorableFields at h
    unfold MFields.save MFields.load
    rw [storable_same v h.2.1, storableFields_same f h.2.2]
end

mutual
theorem loaded_storable : (v : MVal) → Named v → Storable ((v.save shw).load)
  | .md f, h => by
    unfold Named at h
    rw [load_save_md shw h.1 (namedFields_noAt f h.2)]
    unfold Storable
    rw [keys_load, keys_save]
    exact ⟨h.1, loadedFields_storable f h.2⟩
  | .num _, _ => by simp [MVal.save, MVal.clean, MVal.load, Storable]
  | .text _, _ => by simp [MVal.save, MVal.clean, MVal.load, Storable]
  | .seq t l, h => by
    have hp := clean_plain shw _ h
    unfold MVal.save
    rw [plain_load _ hp]
    unfold MVal.clean at hp ⊢
    unfold Storable
    exact hp
  | .dict f, h => by
    have hp := clean_plain shw _ h
    unfold MVal.save
    rw [plain_load _ hp]
    unfold MVal.clean at hp ⊢
    unfold Storable
    exact hp
  | .other _, _ => by simp [MVal.save, MVal.clean, MVal.load, Storable]
theorem loadedFields_storable : (f : MFields) → NamedFields f → StorableFields (f.save shw).load
  | .nil, _ => by unfold MFields.save MFields.load StorableFields; trivial
  | .cons k v f, h => by
    unfold NamedFields at h
    unfold MFields.save MFields.load StorableFields
    exact ⟨h.1, loaded_storable v h.2.1, loadedFields_storable f h.2.2⟩
end

theorem get_save_load (k : Txt) : (f : MFields) →
    (f.save shw).load.get k = (f.get k).map fun v => (v.save shw).load
  | .nil => rfl
  | .cons q v f => by
    unfold MFields.save MFields.load MFields.get
    by_cases h : q = k
    · simp [h]
    · simp only [h, if_false]
      exact get_save_load k f

theorem namedFields_put {k : Txt} {v : MVal} (hk : k.head? ≠ some '@') (hv : Named v) :
    (f : MFields) → NamedFields f → NamedFields (f.put k v)
  | .nil, _ => by
    unfold MFields.put NamedFields NamedFields
    exact ⟨hk, hv, trivial⟩
  | .cons q w f, h => by
    unfold NamedFields at h
    unfold MFields.put
    by_cases hq : q = k
    · simp only [hq, if_true]
      unfold NamedFields
      exact ⟨hk, hv, h.2.2⟩
    · simp only [hq, if_false]
      unfold NamedFields
      exact ⟨h.1, h.2.1, namedFields_put hk hv f h.2.2⟩

theorem clean_ofList (l : List MVal) :
    (MVals.ofList l).clean shw = MVals.ofList (l.map fun v => v.clean shw) := by
  induction l with
  | nil => rfl
  | cons v l ih =>
    simp only [MVals.ofList, MVals.clean, List.map_cons, ih]

theorem load_texts (l : List Txt) :
    (MVals.ofList (l.map .text)).load = MVals.ofList (l.map .text) := by
  induction l with
  | nil => rfl
  | cons v l ih => simp only [MVals.ofList, MVals.load, List.map_cons, ih, MVal.load]

/-! ### work files -/

section
variable {Ω J : Type*}

theorem mem_putWork {k : Txt} {v : Ω} {d : List (Txt × Ω)} (hnd : (d.map Prod.fst).Nodup) (q : Txt) (u : Ω) :
    (q, u) ∈ putWork k v d ↔ (q = k ∧ u = v) ∨ (q ≠ k ∧ (q, u) ∈ d) := by
  induction d with
  | nil => simp [putWork]
  | cons e d ih =>
    obtain ⟨k', w⟩ := e
    simp only [List.map_cons, List.nodup_cons] at hnd
    unfold putWork
    by_cases h : k' = k
    · subst h
      simp only [if_true, List.mem_cons, Prod.mk.injEq]
      constructor
      · rintro (⟨rfl, rfl⟩ | hm)
        · exact Or.inl ⟨rfl, rfl⟩
        · refine Or.inr ⟨?_, Or.inr hm⟩
          rintro rfl
          exact hnd.1 (List.mem_map_of_mem (f := Prod.fst) hm)
      · rintro (⟨rfl, rfl⟩ | ⟨hne, ⟨rfl, -⟩ | hm⟩)
        · exact Or.inl ⟨rfl, rfl⟩
        · exact absurd rfl hne
        · exact Or.inr hm
    · simp only [h, if_false, List.mem_cons, Prod.mk.injEq, ih hnd.2]
      constructor
      · rintro (⟨rfl, rfl⟩ | h1 | ⟨h1, h2⟩)
        · exact Or.inr ⟨h, Or.inl ⟨rfl, rfl⟩⟩
        · exact Or.inl h1
        · exact Or.inr ⟨h1, Or.inr h2⟩
      · rintro (h1 | ⟨h1, h2 | h2⟩)
        · exact Or.inr (Or.inl h1)
        · exact Or.inl h2
        · exact Or.inr (Or.inr ⟨h1, h2⟩)

theorem keys_putWork (k : Txt) (v : Ω) (d : List (Txt × Ω)) :
    (putWork k v d).map Prod.fst = if k ∈ d.map Prod.fst then d.map Prod.fst else d.map Prod.fst ++ [k] := by
  induction d with
  | nil => simp [putWork]
  | cons e d ih =>
    obtain ⟨k', w⟩ := e
    unfold putWork
    by_cases h : k' = k
    · simp [h]
    · have h' : ¬ k = k' := fun e => h e.symm
      simp only [h, if_false, List.map_cons, ih, List.mem_cons, h', false_or]
      split <;> simp

theorem nodup_putWork {k : Txt} {v : Ω} {d : List (Txt × Ω)} (h : (d.map Prod.fst).Nodup) :
    ((putWork k v d).map Prod.fst).Nodup := by
  rw [keys_putWork]
  split
  · exact h
  · rename_i hk
    rw [List.nodup_append]
    refine ⟨h, by simp, ?_⟩
    intro a ha b hb
    rw [List.mem_singleton] at hb
    subst hb
    rintro rfl
    exact hk ha

theorem collectWork_spec (objs : List (WorkObj Ω)) (d : List (Txt × Ω)) (hnd : (d.map Prod.fst).Nodup) :
    ((∀ o ∈ objs, o.mson = true) → ∃ r, collectWork objs d = some r ∧ (r.map Prod.fst).Nodup ∧
      ∀ k v, (k, v) ∈ r ↔ LastOf objs k v ∨ ((∀ o ∈ objs, o.cls ≠ k) ∧ (k, v) ∈ d)) ∧
    ((¬ ∀ o ∈ objs, o.mson = true) → collectWork objs d = none) := by
  induction objs generalizing d with
  | nil =>
    refine ⟨fun _ => ⟨d, rfl, hnd, ?_⟩, fun h => absurd (by simp) h⟩
    intro k v
    constructor
    · intro h
      exact Or.inr ⟨by simp, h⟩
    · rintro (⟨a, b, m, h, -⟩ | ⟨-, h⟩)
      · simp at h
      · exact h
  | cons o os ih =>
    obtain ⟨i1, i2⟩ := ih (putWork o.cls o.val d) (nodup_putWork hnd)
    constructor
    · intro hall
      have ho := hall o List.mem_cons_self
      obtain ⟨r, e1, e2, e3⟩ := i1 fun p hp => hall p (List.mem_cons_of_mem _ hp)
      refine ⟨r, by rw [collectWork, if_pos ho, e1], e2, ?_⟩
      intro k v
      rw [e3, mem_putWork hnd]
      constructor
      · rintro (⟨a, b, m, rfl, hb⟩ | ⟨h1, ⟨rfl, rfl⟩ | ⟨h2, h3⟩⟩)
        · exact Or.inl ⟨o :: a, b, m, rfl, hb⟩
        · exact Or.inl ⟨[], os, o.mson, rfl, h1⟩
        · refine Or.inr ⟨?_, h3⟩
          intro p hp
          rcases List.mem_cons.1 hp with rfl | hp
          · exact fun e => h2 e.symm
          · exact h1 p hp
      · rintro (⟨a, b, m, h, hb⟩ | ⟨h1, h2⟩)
        · cases a with
          | nil =>
            simp only [List.nil_append, List.cons.injEq] at h
            obtain ⟨rfl, rfl⟩ := h
            exact Or.inr ⟨hb, Or.inl ⟨rfl, rfl⟩⟩
          | cons x a =>
            simp only [List.cons_append, List.cons.injEq] at h
            exact Or.inl ⟨a, b, m, h.2, hb⟩
        · exact Or.inr ⟨fun p hp => h1 p (List.mem_cons_of_mem _ hp),
            Or.inr ⟨fun e => h1 o List.mem_cons_self e.symm, h2⟩⟩
    · intro hn
      unfold collectWork
      split
      · rename_i ho
        apply i2
        intro hall
        apply hn
        intro p hp
        rcases List.mem_cons.1 hp with rfl | hp
        · exact ho
        · exact hall p hp
      · rfl

theorem encodeWork_some {enc : Ω → Option J} (d : List (Txt × Ω)) (h : ∀ e ∈ d, ∃ j, enc e.2 = some j) :
    ∃ r, encodeWork enc d = some r ∧
      r.map (fun e => (e.1, some e.2)) = d.map fun e => (e.1, enc e.2) := by
  induction d with
  | nil => exact ⟨[], rfl, rfl⟩
  | cons e d ih =>
    obtain ⟨k, v⟩ := e
    obtain ⟨j, hj⟩ := h _ List.mem_cons_self
    obtain ⟨r, h1, h2⟩ := ih fun e he => h e (List.mem_cons_of_mem _ he)
    simp only at hj
    refine ⟨(k, j) :: r, ?_, ?_⟩
    · unfold encodeWork
      rw [hj, h1]
    · simp only [List.map_cons, h2, hj]

theorem encodeWork_none {enc : Ω → Option J} (d : List (Txt × Ω)) (h : ∃ e ∈ d, enc e.2 = none) :
    encodeWork enc d = none := by
  induction d with
  | nil =>
    obtain ⟨e, he, -⟩ := h
    simp at he
  | cons e d ih =>
    obtain ⟨k, v⟩ := e
    obtain ⟨x, hx, hn⟩ := h
    unfold encodeWork
    rcases List.mem_cons.1 hx with rfl | hx
    · simp only at hn
      rw [hn]
    · rw [ih ⟨x, hx, hn⟩]
      cases enc v <;> rfl

end

end Smol
