import Verif.Model.Rounding
import Mathlib.Tactic.Linarith
import Mathlib.Tactic.Ring

namespace Smol

theorem npRound_intCast {K : Type*} [Field K] [LinearOrder K] [IsStrictOrderedRing K] [FloorRing K]
    (z : ℤ) : npRound (z : K) = z := by
  unfold npRound
  rw [Int.floor_intCast, if_pos (by simp)]

theorem npRound_of_near {x : ℚ} {z : ℤ} (h : |x - z| < 1 / 2) : npRound x = z := by
  obtain ⟨h1, h2⟩ := abs_lt.1 h
  unfold npRound
  by_cases hz : (z : ℚ) ≤ x
  · have hf : ⌊x⌋ = z := Int.floor_eq_iff.2 ⟨hz, by linarith⟩
    rw [hf, if_pos (by linarith)]
  · have hf : ⌊x⌋ = z - 1 := Int.floor_eq_iff.2 ⟨by push_cast; linarith, by push_cast; linarith⟩
    rw [hf, if_neg (by push_cast; linarith), if_pos (by push_cast; linarith)]
    ring

theorem npRound_dist (x : ℚ) : |x - npRound x| ≤ 1 / 2 := by
  have h1 := Int.floor_le x
  have h2 := Int.lt_floor_add_one x
  unfold npRound
  rw [abs_le]
  split_ifs <;> push_cast <;> constructor <;> linarith

end Smol
