import Verif.Model.Run
import Verif.Props.Sampler
import Verif.Props.Container

/-!
# C22 Splitting a run does not change the chain
-/

namespace Smol
open Spec
variable {K : Type*} [CommRing K]

theorem roundAll_shift (ks : List (Kern K)) (dec : Decisions) (a r : ℕ) (ws : List (Walker K)) :
    roundAll ks (fun s => dec (a + s)) r ws = roundAll ks dec (a + r) ws := rfl

theorem rounds_shift (ks : List (Kern K)) (dec : Decisions) (a r m : ℕ) (ws : List (Walker K)) :
    rounds ks (fun s => dec (a + s)) r m ws = rounds ks dec (a + r) m ws := by
  induction m generalizing r ws with
  | zero => rfl
  | succ m ih => rw [rounds, rounds, ih, roundAll_shift]; rfl

theorem sampleYields_shift (ks : List (Kern K)) (dec : Decisions) (a thin r m : ℕ)
    (ws : List (Walker K)) :
    sampleYields ks (fun s => dec (a + s)) thin r m ws = sampleYields ks dec thin (a + r) m ws := by
  induction m generalizing r ws with
  | zero => rfl
  | succ m ih =>
    rw [sampleYields, sampleYields, ih, rounds_shift, Nat.add_assoc]

theorem sampleYields_add (ks : List (Kern K)) (dec : Decisions) (thin r n m : ℕ)
    (ws : List (Walker K)) :
    sampleYields ks dec thin r (n + m) ws = sampleYields ks dec thin r n ws ++
      sampleYields ks dec thin (r + n * thin) m
        ((sampleYields ks dec thin r n ws).getLastD ws) := by
  induction n generalizing r ws with
  | zero => simp [sampleYields]
  | succ n ih =>
    rw [show n + 1 + m = (n + m) + 1 by omega, sampleYields, sampleYields]
    simp only [List.cons_append, List.getLastD_cons]
    rw [ih, show r + thin + n * thin = r + (n + 1) * thin by ring]

/-- Forgetting whether the last step was accepted. -/
def Walker.norm (w : Walker K) : Walker K := (w.1, { w.2 with accepted := true })

theorem advance_norm (k : Kern K) (w : Walker K) (d : Step × Bool) :
    w.norm.advance k d = w.advance k d := by
  unfold Walker.advance Walker.norm Row.update
  rfl

theorem roundAll_norm (ks : List (Kern K)) (dec : Decisions) (r : ℕ) (ws : List (Walker K)) :
    roundAll ks dec r (ws.map Walker.norm) = roundAll ks dec r ws := by
  apply List.ext_getElem?
  intro i
  simp only [roundAll, List.getElem?_mapIdx, List.zip, List.getElem?_zipWith, List.getElem?_map]
  cases ks[i]? <;> cases ws[i]? <;> simp [Walker.norm]
  exact advance_norm _ _ _

theorem sampleYields_norm (ks : List (Kern K)) (dec : Decisions) (thin r m : ℕ) (ht : thin ≠ 0)
    (ws : List (Walker K)) :
    sampleYields ks dec thin r m (ws.map Walker.norm) = sampleYields ks dec thin r m ws := by
  cases m with
  | zero => rfl
  | succ m =>
    obtain ⟨t, rfl⟩ := Nat.exists_eq_succ_of_ne_zero ht
    rw [sampleYields, sampleYields]
    simp only [rounds, roundAll_norm]

theorem last_occ (ks : List (Kern K)) (dec : Decisions) (thin r m : ℕ) (ws : List (Walker K))
    (h : AllWalkers (fun _ w => w.2.occ = w.1) ws) :
    ∀ ws' ∈ sampleYields ks dec thin r m ws, AllWalkers (fun _ w => w.2.occ = w.1) ws' := by
  apply yields_inv _ _ _ _ _ _ _ _ h
  intro r i k w _ _
  simp only [Walker.advance, Row.update, Kern.singleStep]
  split_ifs <;> rfl

/-- C22. A run of `n1` steps followed by a run of `n2` steps that starts from the last recorded
occupancies and goes on with the same random numbers records what one run records: any kernels, any
walkers, any thinning, any lengths. -/
theorem C22_split_run (ks : List (Kern K)) (dec : Decisions) (I : ℕ → Occ → Prop)
    (hI : ∀ r i x, I i x → I i (applyStep x (dec r i x).1))
    (hlen : ∀ k ∈ ks, ∀ x y, (k.feature x).length = (k.feature y).length)
    (hchange : ∀ r i k x, ks[i]? = some k → I i x → k.change x (dec r i x).1 =
      List.zipWith (· - ·) (k.feature (applyStep x (dec r i x).1)) (k.feature x))
    (hbias : ∀ r i k b x, ks[i]? = some k → k.bias = some b → I i x →
      k.biasChange x (dec r i x).1 = b (applyStep x (dec r i x).1) - b x)
    (n1 n2 thin : ℕ) (init : List Occ) (hinit : ∀ i o, init[i]? = some o → I i o)
    (hwalk : init.length = ks.length)
    (out1 out2 : List (List (Row K))) (last : List (Row K))
    (h1 : sample ks dec n1 thin init = some out1) (hlast : out1.getLast? = some last)
    (h2 : sample ks (fun r => dec (n1 / thin * thin + r)) n2 thin (last.map Row.occ) = some out2) :
    sample ks dec (n1 / thin * thin + n2) thin init = some (out1 ++ out2) := by
  have hm := (C01_trace_matches ks dec I hI hlen hchange hbias n1 thin init hinit out1 h1).2
  have hw := sample_walkers ks dec n1 thin init hwalk out1 h1
  unfold sample at h1 h2 ⊢
  by_cases ht : thin = 0
  · rw [if_pos ht] at h1; cases h1
  rw [if_neg ht] at h1 h2 ⊢
  have htp : 0 < thin := Nat.pos_of_ne_zero ht
  simp only [Option.some.injEq] at h1 h2 ⊢
  rw [show (n1 / thin * thin + n2) / thin = n1 / thin + n2 / thin by
    rw [Nat.add_comm, Nat.add_mul_div_right _ _ htp, Nat.add_comm], sampleYields_add, List.map_append, h1]
  congr 1
  rw [← h2, sampleYields_shift, Nat.add_zero, Nat.zero_add]
  set ws0 := List.zipWith (fun (k : Kern K) o => (o, k.initialRow o)) ks init with hws0
  set ys := sampleYields ks dec thin 0 (n1 / thin) ws0 with hys
  -- the last walkers
  have hlast' : ∃ wl, ys.getLast? = some wl ∧ last = wl.map Prod.snd := by
    rw [← h1, List.getLast?_map] at hlast
    cases hy : ys.getLast? with
    | none => rw [hy] at hlast; cases hlast
    | some wl => rw [hy] at hlast; exact ⟨wl, rfl, (Option.some.inj hlast).symm⟩
  obtain ⟨wl, hwl, rfl⟩ := hlast'
  rw [List.getLastD_eq_getLast?, hwl, Option.getD_some]
  have hmem : wl ∈ ys := List.mem_of_getLast? hwl
  have hmem1 : wl.map Prod.snd ∈ out1 := by rw [← h1]; exact List.mem_map_of_mem hmem
  have hocc := last_occ ks dec thin 0 (n1 / thin) ws0 (by
    intro i w hw
    rw [hws0, List.getElem?_zipWith] at hw
    cases hk : ks[i]? with
    | none => rw [hk] at hw; simp at hw
    | some k =>
      cases ho : init[i]? with
      | none => rw [hk, ho] at hw; simp at hw
      | some o => rw [hk, ho] at hw; cases hw; rfl) wl hmem
  have hwlen : wl.length = ks.length := by
    have := hw _ hmem1
    rwa [List.length_map] at this
  congr 1
  rw [← sampleYields_norm ks dec thin _ _ ht wl]
  congr 1
  apply List.ext_getElem?
  intro i
  rw [List.getElem?_map, List.getElem?_zipWith, List.getElem?_map, List.getElem?_map]
  cases hwi : wl[i]? with
  | none =>
    simp only [Option.map_none]
    cases ks[i]? <;> rfl
  | some w =>
    have hi : i < ks.length := by
      rw [← hwlen]; exact (List.getElem?_eq_some_iff.1 hwi).1
    have hk := List.getElem?_eq_getElem hi
    rw [hk]
    simp only [Option.map_some]
    obtain ⟨hf, he, hb⟩ := hm _ hmem1 i w.2 ks[i] (by rw [List.getElem?_map, hwi]; rfl) hk
    have ho := hocc i w hwi
    obtain ⟨w1, ro, rf, re, rb, ra⟩ := w
    simp only at hf he hb ho
    subst ho hf he hb
    rfl

/-- C22 on the sampler's container: two calls of `run`, the second without initial occupancies,
leave the same samples and the same counts as one call. -/
theorem C22_container (ks : List (Kern K)) (dec : Decisions) (I : ℕ → Occ → Prop)
    (hI : ∀ r i x, I i x → I i (applyStep x (dec r i x).1))
    (hlen : ∀ k ∈ ks, ∀ x y, (k.feature x).length = (k.feature y).length)
    (hchange : ∀ r i k x, ks[i]? = some k → I i x → k.change x (dec r i x).1 =
      List.zipWith (· - ·) (k.feature (applyStep x (dec r i x).1)) (k.feature x))
    (hbias : ∀ r i k b x, ks[i]? = some k → k.bias = some b → I i x →
      k.biasChange x (dec r i x).1 = b (applyStep x (dec r i x).1) - b x)
    (n1 n2 thin : ℕ) (init : List Occ) (hinit : ∀ i o, init[i]? = some o → I i o)
    (hwalk : init.length = ks.length) (htp : 0 < thin) (hpos : thin ≤ n1)
    (c : Container (List (Row K))) (hfull : c.rows.length = c.nsamples) :
    ((runInMemory ks dec 0 n1 thin (some init) c).bind fun c1 =>
      runInMemory ks dec (n1 / thin * thin) n2 thin none c1) =
    runInMemory ks dec 0 (n1 / thin * thin + n2) thin (some init) c ∧
    (runInMemory ks dec 0 (n1 / thin * thin + n2) thin (some init) c).isSome := by
  have hne : thin ≠ 0 := by omega
  have hs : ∀ d n (i : List Occ), ∃ out, sample ks d n thin i = some out := by
    intro d n i; unfold sample; rw [if_neg hne]; exact ⟨_, rfl⟩
  obtain ⟨out1, h1⟩ := hs dec n1 init
  have hl1 := sample_length ks dec n1 thin init out1 h1
  have hq : 0 < n1 / thin := Nat.div_pos hpos htp
  obtain ⟨last, hlast⟩ : ∃ last, out1.getLast? = some last := by
    cases hg : out1.getLast? with
    | none => rw [List.getLast?_eq_none_iff] at hg; rw [hg] at hl1; simp at hl1; omega
    | some l => exact ⟨l, rfl⟩
  obtain ⟨out2, h2⟩ := hs (fun r => dec (n1 / thin * thin + r)) n2 (last.map Row.occ)
  have h3 := C22_split_run ks dec I hI hlen hchange hbias n1 n2 thin init hinit hwalk out1 out2
    last h1 hlast h2
  have hz : (fun r => dec (0 + r)) = dec := by funext r; rw [Nat.zero_add]
  have hbig : runInMemory ks dec 0 (n1 / thin * thin + n2) thin (some init) c =
      some ⟨c.rows ++ (out1 ++ out2).map some, c.nsamples + (out1 ++ out2).length,
        c.totalSteps + (out1 ++ out2).length * thin⟩ := by
    unfold runInMemory
    rw [runStart, Option.bind_some, hz, h3, Option.bind_some, runMemory_spec _ _ c hfull]
  have hfirst : runInMemory ks dec 0 n1 thin (some init) c =
      some ⟨c.rows ++ out1.map some, c.nsamples + out1.length,
        c.totalSteps + out1.length * thin⟩ := by
    unfold runInMemory
    rw [runStart, Option.bind_some, hz, h1, Option.bind_some, runMemory_spec _ _ c hfull]
  refine ⟨?_, by rw [hbig]; rfl⟩
  rw [hbig, hfirst, Option.bind_some]
  unfold runInMemory
  have hst : runStart (fun rows : List (Row K) => rows.map Row.occ) none
      ⟨c.rows ++ out1.map some, c.nsamples + out1.length, c.totalSteps + out1.length * thin⟩ =
        some (last.map Row.occ) := by
    simp [runStart, List.getLast?_append, List.getLast?_map, hlast]
  rw [hst, Option.bind_some, h2, Option.bind_some, runMemory_spec _ _ _ (by simp [hfull])]
  simp only [List.map_append, List.length_append, List.append_assoc]
  congr 2
  · omega
  · ring

/-- A kernel with two features, a bias, and decisions that differ between rounds and walkers, of
which every third is refused; both runs record several samples. -/
def splitKern : Kern ℚ :=
  ⟨[2, -1], fun o => [(o 0 : ℚ) * o 1, o 0],
    fun o st => List.zipWith (· - ·) [(applyStep o st 0 : ℚ) * applyStep o st 1, applyStep o st 0]
      [(o 0 : ℚ) * o 1, o 0],
    some fun o => (o 1 : ℚ), fun o st => (applyStep o st 1 : ℚ) - o 1⟩

def splitDec : Decisions := fun r i _ => ([(r % 2, (r + i) % 3)], r % 3 != 0)

example :
    (∀ k ∈ [splitKern, splitKern], ∀ x y, (k.feature x).length = (k.feature y).length) ∧
    (∀ (r i : ℕ) (k : Kern ℚ) (x : Occ), [splitKern, splitKern][i]? = some k → True → k.change x (splitDec r i x).1 =
      List.zipWith (· - ·) (k.feature (applyStep x (splitDec r i x).1)) (k.feature x)) ∧
    (∀ (r i : ℕ) (k : Kern ℚ) (b : Occ → ℚ) (x : Occ), [splitKern, splitKern][i]? = some k → k.bias = some b → True →
      k.biasChange x (splitDec r i x).1 = b (applyStep x (splitDec r i x).1) - b x) ∧
    ([fun _ => 0, fun _ => 1] : List Occ).length = [splitKern, splitKern].length := by
  have hk : ∀ (i : ℕ) (k : Kern ℚ), [splitKern, splitKern][i]? = some k → k = splitKern := by
    intro i k h
    have := List.mem_of_getElem? h
    simpa using this
  refine ⟨?_, ?_, ?_, rfl⟩
  · intro k h x y
    obtain rfl : k = splitKern := by simpa using h
    rfl
  · intro r i k x h _
    rw [hk i k h]; rfl
  · intro r i k b x h hb _
    rw [hk i k h] at hb ⊢
    cases hb; rfl

/-- The recorded second feature and bias of both walkers: two samples, then two more. -/
example : (sample [splitKern, splitKern] splitDec 9 2 [fun _ => 0, fun _ => 1]).map
    (fun l => l.map fun rows => rows.map fun r => (r.features[1]?, r.bias, r.accepted)) =
    some [[(some 0, some 1, true), (some 1, some 2, true)],
      [(some 2, some 1, false), (some 0, some 2, false)],
      [(some 1, some 2, true), (some 2, some 0, true)],
      [(some 1, some 1, true), (some 2, some 2, true)]] := by decide +kernel

end Smol
