import Verif.Model.CwPrf
import Verif.Props.OteWidth
/-!
C120: the number of bytes to which the cwPRF set intersection cuts the doubly masked items.
-/

namespace Kunlun.CwPRF.PSI

open Kunlun OTEOPRF.Width

/-- **C120** `TRUNCATE_LEN` (cwprf_psi.hpp:91) is enough for every statistical parameter and every pair of sizes: of the pairs of one masked item of the sender
and one of the receiver, on average at most `2^-stat` agree by chance after the cut; and one byte less is not enough. -/
theorem truncate_enough (stat logS logR : ℕ) :
    chancePairs (setup stat logS logR).senderNum (setup stat logS logR).receiverNum (setup stat logS logR).truncateLen ≤ 1 / 2 ^ stat ∧
      (0 < (setup stat logS logR).truncateLen →
        1 / 2 ^ stat < chancePairs (setup stat logS logR).senderNum (setup stat logS logR).receiverNum ((setup stat logS logR).truncateLen - 1)) := by
  simp only [chancePairs_eq, setup]
  push_cast
  constructor
  · rw [div_le_div_iff₀ (by positivity) (by positivity), one_mul, ← pow_add, ← pow_add]
    exact pow_le_pow_right₀ (by norm_num) (by omega)
  · intro h0
    rw [div_lt_div_iff₀ (by positivity) (by positivity), one_mul, ← pow_add, ← pow_add]
    exact pow_lt_pow_right₀ (by norm_num) (by omega)

/-- **C120** The cut stays inside the 32 bytes of a point as long as the three parameters add up to at most 256. -/
theorem truncate_inside (stat logS logR : ℕ) (p : Bytes) (hp : p.length = 32) :
    (truncate (setup stat logS logR).truncateLen p).isSome ↔ stat + logS + logR ≤ 256 := by
  unfold truncate load setup
  constructor
  · intro h
    by_contra hc
    rw [if_neg (by simp only; omega)] at h
    cases h
  · intro h
    rw [if_pos (by simp only; omega)]
    rfl

/-- A million items on each side. -/
example : 0 < (setup 40 20 20).truncateLen ∧ 40 + 20 + 20 ≤ 256 := by decide

end Kunlun.CwPRF.PSI
