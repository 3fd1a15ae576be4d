import Verif.Lemmas.ClassNames
import Verif.Lemmas.Subclasses

/-!
# C83 Kernels, steps and biases selected by name
-/

namespace Smol
open Spec

/-- **C83** (spelling): every spelling of a class name in words, with or without hyphens and
initial capitals, is turned into the class name. -/
theorem C83_spelling (ws : List (List Char)) (hw : ∀ w ∈ ws, CamelWord w) (s : List Char)
    (h : Spelled ws s) : classNameFromStr s = ws.flatten :=
  className_spelled h fun w hm => camel_nword (hw w hm)

/-- **C83** (twice): normalising a name again changes nothing, whatever the string; the kernels do
it twice for step types. -/
theorem C83_idempotent (s : List Char) : classNameFromStr (classNameFromStr s) = classNameFromStr s ∧
    kernelUsherName s = classNameFromStr s := by
  have : classNameFromStr (classNameFromStr s) = classNameFromStr s := by
    conv_lhs => rw [classNameFromStr_eq s]
    rw [className_spelled (spelled_camel _ true) (capitalized_nword s), classNameFromStr_eq]
  exact ⟨this, this⟩

/-- **C83** (the classes): when the classes derived from the base have different names, the table
lists exactly those that are not abstract. -/
theorem C83_subclasses (b : PyClass) (hu : ∀ n i j, Derived b n i → Derived b n j → i = j)
    (n : List Char) (i : ℕ) : (getSubclasses b).lookup n = some i ↔ Derived b n i :=
  lookup_derived hu n i

/-- **C83** (factory): a spelling of the name of a derived class makes an instance of this class; a
spelling of no such name raises. -/
theorem C83_factory {α : Type*} (b : PyClass) (hu : ∀ n i j, Derived b n i → Derived b n j → i = j)
    (ctor : ℕ → Except FactoryErr α) (ws : List (List Char)) (hw : ∀ w ∈ ws, CamelWord w)
    (s : List Char) (h : Spelled ws s) :
    (∀ i, Derived b ws.flatten i →
      (∀ x, namedFactory b ctor s = .ok x ↔ ctor i = .ok x) ∧
      (ctor i = .error .other → namedFactory b ctor s = .error .other)) ∧
    ((¬ ∃ i, Derived b ws.flatten i) → namedFactory b ctor s = .error .notImplemented) := by
  unfold namedFactory derivedFactory
  rw [C83_spelling ws hw s h]
  constructor
  · intro i hi
    rw [(lookup_derived hu _ i).2 hi]
    refine ⟨fun x => ?_, fun he => by simp [he]⟩
    cases hc : ctor i with
    | ok y => simp [hc]
    | error e => cases e <;> simp [hc]
  · intro hn
    cases hl : (getSubclasses b).lookup ws.flatten with
    | none => rfl
    | some j => exact absurd ⟨j, (lookup_derived hu _ j).1 hl⟩ hn

/-- **C83** (finding): a `KeyError` raised by the constructor of an existing class, say about a
missing species, is reported as the class not being implemented. -/
theorem C83_key_error_masked {α : Type*} (b : PyClass) (ctor : ℕ → Except FactoryErr α)
    (n : List Char) (i : ℕ) (hi : (getSubclasses b).lookup n = some i)
    (he : ctor i = .error .keyError) :
    derivedFactory b ctor n = .error .notImplemented := by
  unfold derivedFactory
  rw [hi]
  simp [he]

/-- **C83** (listed names): each name in the list of available names selects its own class; the
names are in lower case. -/
theorem C83_listed_names (b : PyClass)
    (hcamel : ∀ n i, Derived b n i → ∃ ws, n = List.flatten ws ∧ ∀ w ∈ ws, CamelWord w) :
    (getSubclassesStr b).map classNameFromStr = (getSubclasses b).map Prod.fst ∧
    ∀ s ∈ getSubclassesStr b, ∀ c ∈ s, ¬ ('A' ≤ c ∧ c ≤ 'Z') := by
  unfold getSubclassesStr
  refine ⟨?_, fun s hs c hc => ?_⟩
  swap
  · obtain ⟨p, -, rfl⟩ := List.mem_map.1 hs
    obtain ⟨y, -, rfl⟩ := List.mem_map.1 hc
    have := (toLower_facts y).1
    simpa [isCapital] using this
  rw [List.map_map]
  refine List.map_congr_left fun p hp => ?_
  obtain ⟨ws, hn, hw⟩ := hcamel _ _ (getSubclasses_mem hp)
  have hw' : ∀ w ∈ ws, NWord w := fun w hm => camel_nword (hw w hm)
  have e : findWords isCapital p.1 = ws := by
    rw [hn]; exact findCapital_words ws hw' none
  simp only [Function.comp, e, map_lower_join ws hw']
  rw [className_spelled (spelled_join ws) hw', hn]

/-! ### Biases -/

/-- **C83** (biases): a bias can be named with or without the word "bias", directly or through a
kernel. -/
theorem C83_bias (ws : List (List Char)) (hw : ∀ w ∈ ws, CamelWord w) (t : List Char) :
    (Spelled (ws ++ ["Bias".toList]) t →
      ("bias".toList <:+: t ∨ "Bias".toList <:+: t) →
      biasName t = ws.flatten ++ "Bias".toList ∧ kernelBiasName t = ws.flatten ++ "Bias".toList) ∧
    (Spelled ws t → ¬ "bias".toList <:+: t → ¬ "Bias".toList <:+: t →
      biasName t = ws.flatten ++ "Bias".toList ∧
      (¬ "bias".toList <:+: ws.flatten → ¬ "Bias".toList <:+: ws.flatten →
        kernelBiasName t = ws.flatten ++ "Bias".toList)) := by
  have hw' : ∀ w ∈ ws, NWord w := fun w hm => camel_nword (hw w hm)
  have hwb : ∀ w ∈ ws ++ ["Bias".toList], NWord w := by
    intro w hm
    rcases List.mem_append.1 hm with hm | hm
    · exact hw' w hm
    · rw [List.mem_singleton] at hm; subst hm; exact bias_nword
  have hfl : (ws ++ ["Bias".toList]).flatten = ws.flatten ++ "Bias".toList := by simp
  have addBias : ∀ u, Spelled ws u → classNameFromStr (u ++ "-bias".toList) = ws.flatten ++ "Bias".toList := by
    intro u hu
    have h2 : SpelledFrom true ["Bias".toList] "bias".toList := .small "Bias".toList [] [] (.done false)
    have := className_spelled (SpelledFrom_append hu h2) hwb
    rw [hfl] at this
    exact this
  constructor
  · intro hs hin
    have e := className_spelled hs hwb
    rw [hfl] at e
    constructor
    · unfold biasName
      rw [if_neg (by tauto), e]
    · unfold kernelBiasName biasName
      rw [e, if_neg]
      · have := className_spelled (spelled_camel _ true) hwb
        rwa [hfl] at this
      · intro h
        exact h.2 ⟨ws.flatten, [], by simp⟩
  · intro hs h1 h2
    constructor
    · unfold biasName
      rw [if_pos ⟨h1, h2⟩, addBias t hs]
    · intro h3 h4
      unfold kernelBiasName biasName
      rw [className_spelled hs hw', if_pos ⟨h3, h4⟩]
      exact addBias _ (spelled_camel ws true)

/-- **C83** (bias factory): the bias class with the name is made, whether or not the spelling has the
word "bias". -/
theorem C83_bias_factory {α : Type*} (b : PyClass)
    (hu : ∀ n i j, Derived b n i → Derived b n j → i = j) (ctor : ℕ → Except FactoryErr α)
    (ws : List (List Char)) (hw : ∀ w ∈ ws, CamelWord w) (i : ℕ)
    (hi : Derived b (ws.flatten ++ "Bias".toList) i) (t : List Char)
    (ht : (Spelled (ws ++ ["Bias".toList]) t ∧ ("bias".toList <:+: t ∨ "Bias".toList <:+: t)) ∨
      (Spelled ws t ∧ ¬ "bias".toList <:+: t ∧ ¬ "Bias".toList <:+: t)) (x : α) :
    biasFactory b ctor t = .ok x ↔ ctor i = .ok x := by
  have e : biasName t = ws.flatten ++ "Bias".toList := by
    rcases ht with ⟨h1, h2⟩ | ⟨h1, h2, h3⟩
    · exact ((C83_bias ws hw t).1 h1 h2).1
    · exact ((C83_bias ws hw t).2 h1 h2 h3).1
  unfold biasFactory derivedFactory
  rw [e, (lookup_derived hu _ i).2 hi]
  cases hc : ctor i with
  | ok y => simp [hc]
  | error e => cases e <;> simp [hc]

/-- **C83** (listed biases): each name in the list of available biases, from which the word "bias"
has been cut, selects its own class. -/
theorem C83_listed_biases (b : PyClass)
    (hcamel : ∀ n i, Derived b n i → ∃ ws, n = List.flatten ws ++ "Bias".toList ∧
      (∀ w ∈ ws, CamelWord w) ∧
      ∀ a r, ((ws.map smallInitial).flatMap fun v => v ++ ['-']) ++ "bias".toList =
        a ++ "bias".toList ++ r → r = []) :
    (availableBiasTypes b).map biasName = (getSubclasses b).map Prod.fst := by
  unfold availableBiasTypes getSubclassesStr
  rw [List.map_map, List.map_map]
  refine List.map_congr_left fun p hp => ?_
  obtain ⟨ws, hn, hw, hb⟩ := hcamel _ _ (getSubclasses_mem hp)
  have hw' : ∀ w ∈ ws ++ ["Bias".toList], NWord w := by
    intro w hm
    rcases List.mem_append.1 hm with hm | hm
    · exact camel_nword (hw w hm)
    · rw [List.mem_singleton] at hm; subst hm; exact bias_nword
  have hfl : (ws ++ ["Bias".toList]).flatten = ws.flatten ++ "Bias".toList := by simp
  have e : findWords isCapital p.1 = ws ++ ["Bias".toList] := by
    rw [hn, ← hfl]; exact findCapital_words _ hw' none
  have e2 : (joinDash (ws ++ ["Bias".toList])).map Char.toLower =
      ((ws.map smallInitial).flatMap fun v => v ++ ['-']) ++ "bias".toList := by
    rw [map_lower_join _ hw', List.map_append, List.map_singleton, joinDash_last]
    rfl
  simp only [Function.comp, e, e2]
  rw [beforeFirst_end _ _ (by decide) hb]
  have hno : ¬ "bias".toList <:+: ((ws.map smallInitial).flatMap fun v => v ++ ['-']) := by
    rintro ⟨a, r, har⟩
    have := hb a (r ++ "bias".toList) (by rw [← har]; simp)
    exact absurd this (by simp)
  have hno' : ¬ "Bias".toList <:+: ((ws.map smallInitial).flatMap fun v => v ++ ['-']) := by
    intro h
    have hB : 'B' ∈ ((ws.map smallInitial).flatMap fun v => v ++ ['-']) := h.subset (by decide)
    obtain ⟨v, hv, hB⟩ := List.mem_flatMap.1 hB
    obtain ⟨w, hwm, rfl⟩ := List.mem_map.1 hv
    rcases List.mem_append.1 hB with hB | hB
    · rw [← map_lower_nword (camel_nword (hw w hwm))] at hB
      obtain ⟨y, -, hy⟩ := List.mem_map.1 hB
      have := (toLower_facts y).1
      rw [hy] at this
      exact absurd this (by decide)
    · exact absurd hB (by decide)
  rw [hn]
  exact ((C83_bias ws hw _).2 (spelled_hyphens ws) hno hno').1

/-! ### Examples -/

def flipWords : List (List Char) := ["Table".toList, "Flip".toList]

example : Spelled flipWords "table-Flip".toList ∧ Spelled flipWords "TableFlip".toList ∧
    Spelled flipWords "tableFlip".toList :=
  ⟨.small "Table".toList _ _ (.hyphen false _ _ (.capital true "Flip".toList _ _ (.done false))),
   .capital true "Table".toList _ _ (.capital false "Flip".toList _ _ (.done false)),
   .small "Table".toList _ _ (.capital false "Flip".toList _ _ (.done false))⟩

example : (["table-Flip", "TableFlip", "tableFlip", "table-flip", "Table--flip-"].map fun s =>
    String.ofList (classNameFromStr s.toList)) = List.replicate 5 "TableFlip" := by decide +kernel

/-- **C83** (finding): capitalisation is not ignored, as the documentation says it is: capitals
throughout are not understood, nor lower case without hyphens. -/
theorem C83_case_not_ignored : classNameFromStr "TABLE-FLIP".toList = "TABLEFLIP".toList ∧
    classNameFromStr "tableflip".toList = "Tableflip".toList := by decide +kernel

def biasBase : PyClass := .mk "MCBias".toList true 0
  [.mk "FugacityBias".toList false 1 [], .mk "SquareChargeBias".toList false 2 [],
   .mk "SquareHyperplaneBias".toList false 3 []]

example : ((availableBiasTypes biasBase).map fun s => (String.ofList s, String.ofList (biasName s))) =
    [("fugacity-", "FugacityBias"), ("square-charge-", "SquareChargeBias"),
     ("square-hyperplane-", "SquareHyperplaneBias")] := by decide +kernel

/-- An abstract class in between. -/
def kernelBase : PyClass := .mk "MCKernelInterface".toList true 0
  [.mk "MCKernel".toList true 1
    [.mk "Metropolis".toList false 2 [], .mk "WangLandau".toList false 3 []],
   .mk "MulticellKernel".toList true 4 [.mk "MulticellMetropolis".toList false 5 []]]

example : ((getSubclassesStr kernelBase).map String.ofList) =
    ["metropolis", "wang-landau", "multicell-metropolis"] ∧
    (namedFactory kernelBase (fun i => .ok i) "wang-landau".toList = (.ok 3 : Except FactoryErr ℕ)) ∧
    (namedFactory kernelBase (fun _ => .error .keyError) "metropolis".toList =
      (.error .notImplemented : Except FactoryErr ℕ)) := by
  refine ⟨by decide +kernel, ?_, ?_⟩
  · have h : (getSubclasses kernelBase).lookup (classNameFromStr "wang-landau".toList) = some 3 := by
      decide +kernel
    unfold namedFactory derivedFactory
    rw [h]
  · have h : (getSubclasses kernelBase).lookup (classNameFromStr "metropolis".toList) = some 2 := by
      decide +kernel
    exact C83_key_error_masked _ _ _ 2 h rfl

theorem kernelBase_derived (n : List Char) (i : ℕ) (h : Derived kernelBase n i) :
    (n, i) ∈ [("Metropolis".toList, 2), ("WangLandau".toList, 3), ("MulticellMetropolis".toList, 5)] := by
  cases h with
  | child b c hc ha =>
    simp only [kernelBase, PyClass.subs, List.mem_cons, List.not_mem_nil, or_false] at hc
    rcases hc with rfl | rfl <;> simp [PyClass.abstract] at ha
  | deeper b c hc n i h =>
    simp only [kernelBase, PyClass.subs, List.mem_cons, List.not_mem_nil, or_false] at hc
    rcases hc with rfl | rfl
    · cases h with
      | child b c hc ha =>
        simp only [PyClass.subs, List.mem_cons, List.not_mem_nil, or_false] at hc
        rcases hc with rfl | rfl <;> simp [PyClass.name, PyClass.id]
      | deeper b c hc n i h =>
        simp only [PyClass.subs, List.mem_cons, List.not_mem_nil, or_false] at hc
        rcases hc with rfl | rfl <;> exact absurd h (not_derived_leaf rfl)
    · cases h with
      | child b c hc ha =>
        simp only [PyClass.subs, List.mem_cons, List.not_mem_nil, or_false] at hc
        subst hc
        simp [PyClass.name, PyClass.id]
      | deeper b c hc n i h =>
        simp only [PyClass.subs, List.mem_cons, List.not_mem_nil, or_false] at hc
        subst hc
        exact absurd h (not_derived_leaf rfl)

/-- The hypotheses of the theorems hold for the kernels. -/
example : (∀ n i j, Derived kernelBase n i → Derived kernelBase n j → i = j) ∧
    (∀ n i, Derived kernelBase n i → ∃ ws, n = List.flatten ws ∧ ∀ w ∈ ws, CamelWord w) := by
  constructor
  · intro n i j hi hj
    have h1 := kernelBase_derived n i hi
    have h2 := kernelBase_derived n j hj
    simp only [List.mem_cons, Prod.mk.injEq, List.not_mem_nil, or_false] at h1 h2
    rcases h1 with ⟨rfl, rfl⟩ | ⟨rfl, rfl⟩ | ⟨rfl, rfl⟩ <;>
      rcases h2 with ⟨h, rfl⟩ | ⟨h, rfl⟩ | ⟨h, rfl⟩ <;> first | rfl | exact absurd h (by decide)
  · intro n i hi
    have h1 := kernelBase_derived n i hi
    simp only [List.mem_cons, Prod.mk.injEq, List.not_mem_nil, or_false] at h1
    rcases h1 with ⟨rfl, rfl⟩ | ⟨rfl, rfl⟩ | ⟨rfl, rfl⟩
    · exact ⟨["Metropolis".toList], by decide, by
        simp only [List.forall_mem_cons, List.not_mem_nil, false_imp_iff, implies_true, and_true]
        exact ⟨'M', "etropolis".toList, rfl, by decide, by decide⟩⟩
    · exact ⟨["Wang".toList, "Landau".toList], by decide, by
        simp only [List.forall_mem_cons, List.not_mem_nil, false_imp_iff, implies_true, and_true]
        exact ⟨⟨'W', "ang".toList, rfl, by decide, by decide⟩,
          ⟨'L', "andau".toList, rfl, by decide, by decide⟩⟩⟩
    · exact ⟨["Multicell".toList, "Metropolis".toList], by decide, by
        simp only [List.forall_mem_cons, List.not_mem_nil, false_imp_iff, implies_true, and_true]
        exact ⟨⟨'M', "ulticell".toList, rfl, by decide, by decide⟩,
          ⟨'M', "etropolis".toList, rfl, by decide, by decide⟩⟩⟩

/-- The word "bias" occurs in a listed name only at its end. -/
example (a r : List Char) (h : (([["Square".toList, "Charge".toList].map smallInitial].flatten).flatMap
    fun v => v ++ ['-']) ++ "bias".toList = a ++ "bias".toList ++ r) : r = [] := by
  have key : ∀ n < 19, (("square-charge-bias".toList).drop n).take 4 = "bias".toList →
      ("square-charge-bias".toList).drop (n + 4) = [] := by decide +kernel
  have h' : "square-charge-bias".toList = a ++ "bias".toList ++ r := h
  have hl : a.length < 19 := by
    have := congrArg List.length h'
    simp only [List.length_append] at this
    have e : ("square-charge-bias".toList).length = 18 := by decide
    omega
  have := key a.length hl (by rw [h']; simp)
  rw [h'] at this
  have e : a.length + 4 = (a ++ "bias".toList).length := by simp
  rw [e, List.drop_left] at this
  exact this

end Smol
