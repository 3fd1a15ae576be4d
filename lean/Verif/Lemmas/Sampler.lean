import Verif.Model.Kernel
import Verif.Lemmas.Occupancy

/-! Invariants of the sampling loop. -/

namespace Smol
variable {K : Type*} [CommRing K]

/-- `J i w` holds for every walker -/
def AllWalkers (J : ℕ → Walker K → Prop) (ws : List (Walker K)) : Prop :=
  ∀ i w, ws[i]? = some w → J i w

theorem roundAll_inv (ks : List (Kern K)) (dec : Decisions) (J : ℕ → Walker K → Prop)
    (hstep : ∀ r i k w, ks[i]? = some k → J i w → J i (w.advance k (dec r i w.1)))
    (r : ℕ) (ws : List (Walker K)) (h : AllWalkers J ws) : AllWalkers J (roundAll ks dec r ws) := by
  intro i w hw
  rw [roundAll, List.getElem?_mapIdx] at hw
  cases hz : (ks.zip ws)[i]? with
  | none => rw [hz] at hw; cases hw
  | some p =>
    rw [hz] at hw
    obtain ⟨h1, h2⟩ := List.getElem?_zip_eq_some.1 hz
    cases hw
    exact hstep r i p.1 p.2 h1 (h i p.2 h2)

theorem rounds_inv (ks : List (Kern K)) (dec : Decisions) (J : ℕ → Walker K → Prop)
    (hstep : ∀ r i k w, ks[i]? = some k → J i w → J i (w.advance k (dec r i w.1)))
    (m r : ℕ) (ws : List (Walker K)) (h : AllWalkers J ws) :
    AllWalkers J (rounds ks dec r m ws) := by
  induction m generalizing r ws with
  | zero => exact h
  | succ m ih => exact ih _ _ (roundAll_inv ks dec J hstep r ws h)

theorem yields_inv (ks : List (Kern K)) (dec : Decisions) (J : ℕ → Walker K → Prop)
    (hstep : ∀ r i k w, ks[i]? = some k → J i w → J i (w.advance k (dec r i w.1)))
    (thin m r : ℕ) (ws : List (Walker K)) (h : AllWalkers J ws) :
    ∀ ws' ∈ sampleYields ks dec thin r m ws, AllWalkers J ws' := by
  induction m generalizing r ws with
  | zero => intro ws' h'; simp [sampleYields] at h'
  | succ m ih =>
    intro ws' h'
    have hr := rounds_inv ks dec J hstep thin r ws h
    simp only [sampleYields, List.mem_cons] at h'
    rcases h' with rfl | h'
    · exact hr
    · exact ih _ _ hr ws' h'

/-- An invariant of walkers that holds initially holds in every recorded row. -/
theorem sample_inv (ks : List (Kern K)) (dec : Decisions) (J : ℕ → Walker K → Prop)
    (hstep : ∀ r i k w, ks[i]? = some k → J i w → J i (w.advance k (dec r i w.1)))
    (nsteps thin : ℕ) (init : List Occ) (out : List (List (Row K)))
    (hinit : ∀ i k o, ks[i]? = some k → init[i]? = some o → J i (o, k.initialRow o))
    (hout : sample ks dec nsteps thin init = some out) :
    ∀ rows ∈ out, ∀ i row, rows[i]? = some row → ∃ o, J i (o, row) := by
  unfold sample at hout
  split_ifs at hout
  cases hout
  intro rows hrows i row hrow
  obtain ⟨ws, hws, rfl⟩ := List.mem_map.1 hrows
  rw [List.getElem?_map] at hrow
  cases hw : ws[i]? with
  | none => rw [hw] at hrow; cases hrow
  | some w =>
    rw [hw] at hrow
    cases hrow
    refine ⟨w.1, yields_inv ks dec J hstep thin _ 0 _ ?_ ws hws i w hw⟩
    intro j w' hw'
    rw [List.getElem?_zipWith] at hw'
    cases hk : ks[j]? with
    | none => rw [hk] at hw'; simp at hw'
    | some k =>
      cases ho : init[j]? with
      | none => rw [hk, ho] at hw'; simp at hw'
      | some o =>
        rw [hk, ho] at hw'
        cases hw'
        exact hinit j k o hk ho

/-- An invariant of occupancies alone, with the trace row holding the walker's occupancy. -/
theorem sample_occ_inv (ks : List (Kern K)) (dec : Decisions) (I : ℕ → Occ → Prop)
    (hstep : ∀ r i x, I i x → (dec r i x).2 = true → I i (applyStep x (dec r i x).1))
    (nsteps thin : ℕ) (init : List Occ) (out : List (List (Row K)))
    (hinit : ∀ i o, init[i]? = some o → I i o)
    (hout : sample ks dec nsteps thin init = some out) :
    ∀ rows ∈ out, ∀ i row, rows[i]? = some row → I i row.occ := by
  have hs : ∀ r i k (w : Walker K), ks[i]? = some k → (w.2.occ = w.1 ∧ I i w.1) →
      (w.advance k (dec r i w.1)).2.occ = (w.advance k (dec r i w.1)).1 ∧
        I i (w.advance k (dec r i w.1)).1 := by
    rintro r i k w _ ⟨h1, h2⟩
    have hI : I i (if (dec r i w.1).2 = true then applyStep w.1 (dec r i w.1).1 else w.1) := by
      split_ifs with ha
      · exact hstep r i w.1 h2 ha
      · exact h2
    refine ⟨?_, hI⟩
    simp only [Walker.advance, Row.update, Kern.singleStep]
    split_ifs <;> rfl
  intro rows hrows i row hrow
  obtain ⟨o, h1, h2⟩ := sample_inv ks dec (fun i w => w.2.occ = w.1 ∧ I i w.1) hs nsteps thin init
    out (fun i k o _ ho => ⟨rfl, hinit i o ho⟩) hout rows hrows i row hrow
  simp only at h1 h2
  rwa [h1]

theorem sample_length (ks : List (Kern K)) (dec : Decisions) (nsteps thin : ℕ) (init : List Occ)
    (out : List (List (Row K))) (hout : sample ks dec nsteps thin init = some out) :
    out.length = nsteps / thin := by
  unfold sample at hout
  split_ifs at hout
  cases hout
  rw [List.length_map]
  generalize List.zipWith (fun (k : Kern K) o => (o, k.initialRow o)) ks init = ws
  generalize nsteps / thin = m
  generalize 0 = r
  induction m generalizing r ws with
  | zero => rfl
  | succ m ih => rw [sampleYields, List.length_cons, ih]

theorem rounds_length (ks : List (Kern K)) (dec : Decisions) (m r : ℕ) (ws : List (Walker K))
    (h : ws.length = ks.length) : (rounds ks dec r m ws).length = ks.length := by
  induction m generalizing r ws with
  | zero => exact h
  | succ m ih =>
    apply ih
    rw [roundAll, List.length_mapIdx, List.length_zip, h, min_self]

theorem sample_walkers (ks : List (Kern K)) (dec : Decisions) (nsteps thin : ℕ) (init : List Occ)
    (hlen : init.length = ks.length)
    (out : List (List (Row K))) (hout : sample ks dec nsteps thin init = some out) :
    ∀ rows ∈ out, rows.length = ks.length := by
  unfold sample at hout
  split_ifs at hout with ht
  cases hout
  intro rows hrows
  obtain ⟨ws, hws, rfl⟩ := List.mem_map.1 hrows
  rw [List.length_map]
  have h0 : (List.zipWith (fun (k : Kern K) o => (o, k.initialRow o)) ks init).length = ks.length := by
    rw [List.length_zipWith, hlen, min_self]
  generalize List.zipWith (fun (k : Kern K) o => (o, k.initialRow o)) ks init = ws0 at *
  generalize nsteps / thin = m at *
  clear hrows ht
  generalize 0 = r at *
  induction m generalizing r ws0 with
  | zero => simp [sampleYields] at hws
  | succ m ih =>
    simp only [sampleYields, List.mem_cons] at hws
    rcases hws with rfl | hws
    · exact rounds_length ks dec _ _ _ h0
    · exact ih _ (rounds_length ks dec thin r ws0 h0) _ hws

theorem dot_add (p a b : List K) (h : a.length = b.length) :
    dot p (List.zipWith (· + ·) a b) = dot p a + dot p b := by
  unfold dot
  induction p generalizing a b with
  | nil => simp
  | cons x p ih =>
    cases a with
    | nil => cases b with
      | nil => simp
      | cons _ _ => simp at h
    | cons y a =>
      cases b with
      | nil => simp at h
      | cons z b =>
        simp only [List.zipWith_cons_cons, List.sum_cons]
        rw [ih a b (by simpa using h)]
        ring

theorem zip_add_sub (a b : List K) (h : a.length = b.length) :
    List.zipWith (· + ·) a (List.zipWith (· - ·) b a) = b := by
  induction a generalizing b with
  | nil => cases b <;> simp_all
  | cons x a ih =>
    cases b with
    | nil => simp at h
    | cons y b =>
      simp only [List.zipWith_cons_cons]
      rw [ih b (by simpa using h)]
      congr 1
      ring

end Smol
