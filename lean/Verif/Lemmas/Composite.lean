import Verif.Model.Composite

namespace Smol

set_option linter.unusedSectionVars false

variable {K : Type*} [CommRing K]

theorem dot_append (a b c d : List K) (h : a.length = c.length) :
    dot (a ++ b) (c ++ d) = dot a c + dot b d := by
  simp [dot, List.zipWith_append h]

theorem compositeCoefs_eq (ps : List (PartProc K)) :
    compositeCoefs ps = ps.flatMap PartProc.coefs := by
  have : ∀ (l : List (PartProc K)) (acc : List K),
      l.foldl (fun cs p => cs ++ p.coefs) acc = acc ++ l.flatMap PartProc.coefs := by
    intro l
    induction l with
    | nil => simp
    | cons p l ih => intro acc; simp [ih]
  have h := this ps []
  rw [List.nil_append] at h
  exact h

omit [CommRing K] in
theorem npAppendAll_eq (l : List (Bool × List K)) (out : List K) (h : npAppendAll l = some out) :
    out = l.flatMap Prod.snd := by
  match l, h with
  | [f], h => simp [npAppendAll] at h; simp [h]
  | f :: g :: rest, h =>
    simp only [npAppendAll] at h
    split at h
    · simp only [Option.some.injEq] at h; rw [← h]; simp
    · simp at h

theorem dot_flatMap {α : Type*} (ps : List α) (f g : α → List K)
    (h : ∀ p ∈ ps, (f p).length = (g p).length) :
    dot (ps.flatMap f) (ps.flatMap g) = (ps.map fun p => dot (f p) (g p)).sum := by
  induction ps with
  | nil => simp [dot]
  | cons p ps ih =>
    simp only [List.flatMap_cons, List.map_cons, List.sum_cons]
    rw [dot_append _ _ _ _ (h p (by simp)), ih fun q hq => h q (by simp [hq])]

end Smol
