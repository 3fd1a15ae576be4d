import Verif.Model.Sublattice
import Verif.Spec.Sublattice

namespace Smol
open Spec

theorem mem_npUnique {l : List ℕ} {a : ℕ} : a ∈ npUnique l ↔ a ∈ l := by
  simp [npUnique]

theorem npUnique_nodup (l : List ℕ) : (npUnique l).Nodup := by
  have : (npUnique l).Perm l.dedup := List.perm_insertionSort _ _
  exact this.nodup_iff.2 (List.nodup_dedup l)

theorem npUnique_sorted (l : List ℕ) : (npUnique l).Pairwise (· ≤ ·) :=
  List.pairwise_insertionSort _ _

/-- two strictly increasing lists with the same members are equal -/
theorem sorted_ext {l m : List ℕ} (hl : l.Pairwise (· ≤ ·)) (hm : m.Pairwise (· ≤ ·))
    (nl : l.Nodup) (nm : m.Nodup) (h : ∀ a, a ∈ l ↔ a ∈ m) : l = m :=
  List.Perm.eq_of_pairwise' hl hm ((List.perm_ext_iff_of_nodup nl nm).2 h)

end Smol

namespace Smol
open Spec

/-- user operations as abstract requests -/
def SubOp.request : SubOp → Option (List ℕ)
  | .restrict xs => some xs
  | .reset => none

theorem Sublattice.run_append (sl : Sublattice) (a b : List SubOp) :
    sl.run (a ++ b) = (sl.run a).run b := by simp [Sublattice.run]

theorem run_fixed (sl : Sublattice) (ops : List SubOp) :
    (sl.run ops).sites = sl.sites ∧ (sl.run ops).species = sl.species ∧
      (sl.run ops).encoding = sl.encoding := by
  induction ops using List.reverseRecOn with
  | nil => simp [Sublattice.run]
  | append_singleton ops op ih =>
    rw [Sublattice.run_append]
    cases op with
    | restrict xs => simpa [Sublattice.run, Sublattice.step, Sublattice.restrict] using ih
    | reset =>
      have : (sl.run ops).run [.reset] = (sl.run ops).reset := rfl
      rw [this, Sublattice.reset]
      split <;> simpa using ih

theorem frozen_snoc_some (h : List (Option (List ℕ))) (xs : List ℕ) (s : ℕ) :
    Frozen (h ++ [some xs]) s ↔ Frozen h s ∨ s ∈ xs := by
  constructor
  · rintro ⟨b, ys, a, heq, hs, ha⟩
    rcases List.eq_nil_or_concat a with rfl | ⟨a', z, rfl⟩
    · have := List.append_inj' heq rfl
      simp at this; right; rw [this.2]; exact hs
    · have h2 : h ++ [some xs] = (b ++ some ys :: a') ++ [z] := by simpa using heq
      have := List.append_inj' h2 rfl
      left; exact ⟨b, ys, a', this.1, hs, fun hn => ha (by simp [hn])⟩
  · rintro (⟨b, ys, a, rfl, hs, ha⟩ | hs)
    · exact ⟨b, ys, a ++ [some xs], by simp, hs, by simpa using ha⟩
    · exact ⟨h, xs, [], rfl, hs, by simp⟩

theorem frozen_snoc_none (h : List (Option (List ℕ))) (s : ℕ) : ¬ Frozen (h ++ [none]) s := by
  rintro ⟨b, ys, a, heq, hs, ha⟩
  rcases List.eq_nil_or_concat a with rfl | ⟨a', z, rfl⟩
  · have := List.append_inj' heq rfl
    simp at this
  · have h2 : h ++ [none] = (b ++ some ys :: a') ++ [z] := by simpa using heq
    have := List.append_inj' h2 rfl
    simp at this
    exact ha (by simp [this.2])

theorem new_sites (sp st : List ℕ) : (Sublattice.new sp st).sites = npUnique st := by
  simp only [Sublattice.new]; split <;> rfl

theorem new_species (sp st : List ℕ) : (Sublattice.new sp st).species = sp := by
  simp only [Sublattice.new]; split <;> rfl

theorem new_active (sp st : List ℕ) : (Sublattice.new sp st).active =
    if sp.length ≤ 1 then [] else npUnique st := by
  simp only [Sublattice.new]; split <;> simp [Sublattice.restrict]

theorem mapM_eq_some_forall₂ {α β : Type*} (f : α → Option β) (l : List α) (r : List β) :
    l.mapM f = some r ↔ List.Forall₂ (fun a b => f a = some b) l r := by
  induction l generalizing r with
  | nil => cases r <;> simp
  | cons a l ih =>
    rw [List.mapM_cons]
    cases hfa : f a with
    | none =>
      simp only [Option.bind_eq_bind, Option.bind_none]
      constructor
      · intro h; cases h
      · intro h; cases h with | cons h _ => simp [hfa] at h
    | some b =>
      cases hl : l.mapM f with
      | none =>
        simp only [Option.bind_eq_bind, Option.bind_some, Option.bind_none]
        constructor
        · intro h; cases h
        · intro h; cases h with
          | cons h1 h2 => have := (ih _).2 h2; rw [hl] at this; cases this
      | some r' =>
        simp only [Option.bind_eq_bind, Option.bind_some, Option.pure_def, Option.some.injEq]
        constructor
        · rintro rfl; exact .cons hfa ((ih _).1 hl)
        · intro h; cases h with
          | cons h1 h2 =>
            have := (ih _).2 h2
            rw [hl] at this; rw [hfa] at h1
            simp_all

end Smol
