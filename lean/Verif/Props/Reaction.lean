import Verif.Lemmas.Reaction

/-!
# C99: flips written as reactions
-/

namespace Smol
open Smol.Spec

/-- C99. A reaction has on its left the species a flip takes away and on its right those it adds, each
with amount and sublattice, each once, in the order of the components. -/
theorem C99_terms (name : ℕ → List Char) (u : List ℤ) (bits : List (List ℕ)) (hr : Readable name bits)
    (hu : u.length = components bits) : ∃ l r,
      flipToReaction name u bits = some (sideText name l ++ " -> ".toList ++ sideText name r) ∧
      Lists bits u (-1) l ∧ Lists bits u 1 r ∧ (l.map Prod.snd).Nodup ∧ (r.map Prod.snd).Nodup := by
  obtain ⟨l, r, h1, h2, h3, h4, h5⟩ := flipToReaction_some name u bits hu.ge
  have hnd := slots_nodup bits 0 0 hr.2
  rw [joinPlus_eq, joinPlus_eq] at h5
  exact ⟨l, r, h5, h3, h4, hnd.sublist (reactionSide_sublist h1), hnd.sublist (reactionSide_sublist h2)⟩

/-- C99. The text says everything: flips with the same reaction are the same. -/
theorem C99_injective (name : ℕ → List Char) (u u' : List ℤ) (bits : List (List ℕ))
    (hr : Readable name bits) (hu : u.length = components bits) (hu' : u'.length = components bits)
    (h : flipToReaction name u bits = flipToReaction name u' bits) : u = u' := by
  obtain ⟨l, r, -, -, h3, h4, h5⟩ := flipToReaction_some name u bits hu.ge
  obtain ⟨l', r', -, -, h3', h4', h5'⟩ := flipToReaction_some name u' bits hu'.ge
  rw [h5, h5'] at h
  have ht := Option.some.inj h
  rw [List.append_assoc, List.append_assoc] at ht
  obtain ⟨hl, ht⟩ := side_unique l l' (lists_names hr h3) (lists_names hr h3') (Or.inr ⟨_, rfl⟩)
    (Or.inr ⟨_, rfl⟩) ht
  have ht := List.append_cancel_left (as := [' ', '-', '>', ' ']) ht
  obtain ⟨hrr, -⟩ := side_unique (e := []) (e' := []) r r' (lists_names hr h4) (lists_names hr h4')
    (Or.inl rfl) (Or.inl rfl) (by simpa using ht)
  apply List.ext_getElem (hu.trans hu'.symm)
  intro d hd hd'
  have e : u[d]? = some u[d] := List.getElem?_eq_getElem hd
  have e' : u'[d]? = some u'[d] := List.getElem?_eq_getElem hd'
  have hc : d < components bits := hu ▸ hd
  have pos : ∀ n : ℕ, 0 < n → u[d] = n → u'[d] = n := by
    intro n hn hx
    have := change_carried hr h4 h4' hrr hc hn (by rw [e, hx]; simp)
    rw [e'] at this
    simpa using this
  have neg : ∀ n : ℕ, 0 < n → u[d] = -n → u'[d] = -n := by
    intro n hn hx
    have := change_carried hr h3 h3' hl hc hn (by rw [e, hx]; simp)
    rw [e'] at this
    simpa using this
  have pos' : ∀ n : ℕ, 0 < n → u'[d] = n → u[d] = n := by
    intro n hn hx
    have := change_carried hr h4' h4 (sameTerm_symm hrr) hc hn (by rw [e', hx]; simp)
    rw [e] at this
    simpa using this
  have neg' : ∀ n : ℕ, 0 < n → u'[d] = -n → u[d] = -n := by
    intro n hn hx
    have := change_carried hr h3' h3 (sameTerm_symm hl) hc hn (by rw [e', hx]; simp)
    rw [e] at this
    simpa using this
  rcases lt_trichotomy u[d] 0 with h0 | h0 | h0
  · have := neg u[d].natAbs (by omega) (by omega)
    omega
  · rcases lt_trichotomy u'[d] 0 with h1 | h1 | h1
    · have := neg' u'[d].natAbs (by omega) (by omega)
      omega
    · omega
    · have := pos' u'[d].natAbs (by omega) (by omega)
      omega
  · have := pos u[d].natAbs (by omega) (by omega)
    omega

/-- C99. What is on the right less what is on the left is the change by the flip, for every quantity
that depends on sublattice and species. -/
theorem C99_balance (name : ℕ → List Char) (u : List ℤ) (bits : List (List ℕ)) (w : ℕ → ℕ → ℤ)
    (hu : u.length = components bits) : ∃ l r,
      flipToReaction name u bits = some (sideText name l ++ " -> ".toList ++ sideText name r) ∧
      sideTotal w r - sideTotal w l = changeOf w 0 bits u := by
  obtain ⟨l, r, h1, h2, -, -, h5⟩ := flipToReaction_some name u bits hu.ge
  rw [joinPlus_eq, joinPlus_eq] at h5
  refine ⟨l, r, h5, ?_⟩
  rw [side_total w u _ h1 h2, sum_reaction_slots w u bits 0 0 (by omega), List.drop_zero]

/-- C99. The reaction of a flip that keeps the number of sites of every sublattice and the charge has
as many sites of each sublattice on its left as on its right, and the same charge. -/
theorem C99_conserved (name : ℕ → List Char) (u : List ℤ) (bits : List (List ℕ)) (charge : ℕ → ℤ)
    (hu : u.length = components bits)
    (hs : ∀ k, changeOf (fun k' _ => if k' = k then 1 else 0) 0 bits u = 0)
    (hq : changeOf (fun _ sp => charge sp) 0 bits u = 0) : ∃ l r,
      flipToReaction name u bits = some (sideText name l ++ " -> ".toList ++ sideText name r) ∧
      (∀ k, sideTotal (fun k' _ => if k' = k then 1 else 0) l =
        sideTotal (fun k' _ => if k' = k then 1 else 0) r) ∧
      sideTotal (fun _ sp => charge sp) l = sideTotal (fun _ sp => charge sp) r := by
  obtain ⟨l, r, h1, h2, -, -, h5⟩ := flipToReaction_some name u bits hu.ge
  have key : ∀ w, changeOf w 0 bits u = 0 → sideTotal w l = sideTotal w r := by
    intro w hw
    have := side_total w u _ h1 h2
    rw [sum_reaction_slots w u bits 0 0 (by omega), List.drop_zero, hw] at this
    omega
  rw [joinPlus_eq, joinPlus_eq] at h5
  exact ⟨l, r, h5, fun k => key _ (hs k), key _ hq⟩

/-- C99. The reverse of a flip is written with the sides exchanged. -/
theorem C99_reverse (name : ℕ → List Char) (u : List ℤ) (bits : List (List ℕ))
    (hu : u.length = components bits) : ∃ l r : List Char,
      flipToReaction name u bits = some (l ++ " -> ".toList ++ r) ∧
      flipToReaction name (u.map fun x => -x) bits = some (r ++ " -> ".toList ++ l) := by
  obtain ⟨l, r, h1, h2, -, -, h5⟩ := flipToReaction_some name u bits hu.ge
  refine ⟨_, _, h5, ?_⟩
  unfold flipToReaction
  rw [reactionSide_neg, reactionSide_neg, neg_neg, h1, h2]
  rfl

/-- C99. A vector with fewer entries than there are components raises. -/
theorem C99_short_raises (name : ℕ → List Char) (u : List ℤ) (bits : List (List ℕ))
    (hu : u.length < components bits) : flipToReaction name u bits = none := by
  obtain ⟨k, sp, hc⟩ := exists_component hu
  unfold flipToReaction
  rw [reactionSide_none (-1) u _ ⟨(k, sp, u.length), mem_slots.2 hc, le_rfl⟩]

/-- C99. A table of flips has a reaction for each flip, in the order of the table; different flips
have different reactions. -/
theorem C99_table (name : ℕ → List Char) (table : List (List ℤ)) (bits : List (List ℕ))
    (hr : Readable name bits) (ht : ∀ u ∈ table, u.length = components bits) :
    ∃ texts, flipReactions name table bits = some texts ∧ texts.length = table.length ∧
      (∀ (i : ℕ) (u : List ℤ), table[i]? = some u → texts[i]? = flipToReaction name u bits) ∧
      (table.Nodup → texts.Nodup) := by
  induction table with
  | nil => exact ⟨[], rfl, rfl, by simp, fun _ => List.nodup_nil⟩
  | cons u table ih =>
    obtain ⟨texts, h1, h2, h3, h4⟩ := ih fun v hv => ht v (List.mem_cons_of_mem _ hv)
    obtain ⟨l, r, -, -, -, -, h5⟩ := flipToReaction_some name u bits (ht u List.mem_cons_self).ge
    set t := joinPlus (l.map (termText name)) ++ [' ', '-', '>', ' '] ++ joinPlus (r.map (termText name))
    refine ⟨t :: texts, ?_, by simp [h2], ?_, ?_⟩
    · unfold flipReactions at h1 ⊢
      rw [List.mapM_cons, h5, h1]
      rfl
    · intro i v hv
      cases i with
      | zero =>
        simp only [List.getElem?_cons_zero, Option.some.injEq] at hv ⊢
        rw [← hv, h5]
      | succ i => exact h3 i v (by simpa using hv)
    · intro hnd
      obtain ⟨hn, hnd⟩ := List.nodup_cons.1 hnd
      refine List.nodup_cons.2 ⟨fun hm => hn ?_, h4 hnd⟩
      obtain ⟨i, hi⟩ := List.mem_iff_getElem?.1 hm
      have hlt : i < table.length := h2 ▸ (List.getElem?_eq_some_iff.1 hi).1
      have hv := h3 i table[i] (List.getElem?_eq_getElem hlt)
      have := C99_injective name u table[i] bits hr (ht u List.mem_cons_self)
        (ht _ (List.mem_cons_of_mem _ (List.getElem_mem hlt))) (by rw [h5, ← hv, hi])
      rw [this]
      exact List.getElem_mem hlt

/-! ### examples -/

/-- Li+, Mn3+, Ti4+ on one sublattice and O2-, F- on the other. -/
private def exName : ℕ → List Char
  | 0 => "Li+".toList
  | 1 => "Mn3+".toList
  | 2 => "Ti4+".toList
  | 3 => "O2-".toList
  | _ => "F-".toList

private def exBits : List (List ℕ) := [[0, 1, 2], [3, 4]]

private def exCharge : ℕ → ℤ
  | 0 => 1
  | 1 => 3
  | 2 => 4
  | 3 => -2
  | _ => -1

example : Readable exName exBits := by
  refine ⟨?_, ?_⟩ <;> decide

example : ([1, -3, 2, 0, 0] : List ℤ).length = components exBits := by decide

example : flipToReaction exName [1, -3, 2, 0, 0] exBits =
    some "3 Mn3+(0) -> 1 Li+(0) + 2 Ti4+(0)".toList := by decide +kernel

example : flipToReaction exName [1, -1, 0, -2, 2] exBits =
    some "1 Mn3+(0) + 2 O2-(1) -> 1 Li+(0) + 2 F-(1)".toList := by decide +kernel

example : flipToReaction exName [0, 0, 0, 0, 0] exBits = some " -> ".toList := by decide +kernel

/-- a flip that keeps sites and charge -/
example : (∀ k, changeOf (fun k' _ => if k' = k then 1 else 0) 0 exBits [1, -1, 0, -2, 2] = 0) ∧
    changeOf (fun _ sp => exCharge sp) 0 exBits [1, -1, 0, -2, 2] = 0 := by
  constructor
  · intro k
    simp only [exBits, changeOf]
    by_cases h0 : 0 = k
    · subst h0; decide
    · by_cases h1 : 1 = k
      · subst h1; decide
      · simp [h0, h1]
  · decide

/-- Without distinct printed forms the text does not tell which species changes. -/
example : flipToReaction (fun _ => "X".toList) [1, -1, 0] [[0, 1, 2]] =
    flipToReaction (fun _ => "X".toList) [0, -1, 1] [[0, 1, 2]] := by decide +kernel

example : ([1, -1, 0] : List ℤ).length < components exBits := by decide

example : flipReactions exName [[1, -3, 2, 0, 0], [1, -1, 0, -2, 2]] exBits =
    some ["3 Mn3+(0) -> 1 Li+(0) + 2 Ti4+(0)".toList,
      "1 Mn3+(0) + 2 O2-(1) -> 1 Li+(0) + 2 F-(1)".toList] := by decide +kernel

end Smol
