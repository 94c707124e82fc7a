import Verif.GF2.MT32a
import Verif.GF2.MT32b
import Verif.GF2.MT32c
import Verif.GF2.MT32d
import Verif.GF2.MT64a
import Verif.GF2.MT64b
import Verif.GF2.MT64c
import Verif.GF2.MT64d
import Verif.Mexp.Props

/-!
# The characteristic polynomials of MT19937 and MT19937-64 are primitive
-/

namespace MTT.GF2

open MTRec

theorem mersenne19937 {n : ℕ} (hn : n = 19937) : (2 ^ n - 1).Prime :=
  Mexp.table_prime n (by rw [hn]; decide) (by omega)

namespace MT32

theorem p0 : Pc 0 c0 := by
  have e : Nat.beq (spr 15 15 c0) (2 ^ 15) = true := by decide +kernel
  unfold Pc
  rw [Nat.eq_of_beq_eq_true e]
  exact pw_zero (by decide) _

theorem frob {n : ℕ} (hn : n = 19937) : charPoly MT.P32 ∣ Polynomial.X ^ 2 ^ n - Polynomial.X := by
  obtain ⟨k, hk, h⟩ : ∃ k, k = n ∧ Pc k c19937 := by
    refine ⟨_, ?_, ((((((((((((((((((((p0.next e1000).next e2000).next e3000).next e4000).next e5000).next e6000).next e7000).next
      e8000).next e9000).next e10000).next e11000).next e12000).next e13000).next e14000).next e15000).next
      e16000).next e17000).next e18000).next e19000).next e19937)⟩
    omega
  have e : Nat.beq (spr 15 15 c19937) (2 ^ 15) = true := by decide +kernel
  unfold Pc at h
  rw [Nat.eq_of_beq_eq_true e, hk] at h
  exact h.frob (by decide) (by omega)

theorem primitive {n : ℕ} (hn : n = 19937) : Primitive2 (charPoly MT.P32) n := by
  refine primitive_of_frob (by omega) ?_ ?_ (mersenne19937 hn) (frob hn)
  · rw [hn]; exact charPoly_natDegree MT.P32_ok (by decide)
  · rw [charPoly_coeff_zero MT.P32_ok (by decide) (by decide)]; exact one_ne_zero

end MT32

namespace MT64

theorem p0 : Pc 0 c0 := by
  have e : Nat.beq (spr 15 15 c0) (2 ^ 15) = true := by decide +kernel
  unfold Pc
  rw [Nat.eq_of_beq_eq_true e]
  exact pw_zero (by decide) _

theorem frob {n : ℕ} (hn : n = 19937) : charPoly MT.P64 ∣ Polynomial.X ^ 2 ^ n - Polynomial.X := by
  obtain ⟨k, hk, h⟩ : ∃ k, k = n ∧ Pc k c19937 := by
    refine ⟨_, ?_, ((((((((((((((((((((p0.next e1000).next e2000).next e3000).next e4000).next e5000).next e6000).next e7000).next
      e8000).next e9000).next e10000).next e11000).next e12000).next e13000).next e14000).next e15000).next
      e16000).next e17000).next e18000).next e19000).next e19937)⟩
    omega
  have e : Nat.beq (spr 15 15 c19937) (2 ^ 15) = true := by decide +kernel
  unfold Pc at h
  rw [Nat.eq_of_beq_eq_true e, hk] at h
  exact h.frob (by decide) (by omega)

theorem primitive {n : ℕ} (hn : n = 19937) : Primitive2 (charPoly MT.P64) n := by
  refine primitive_of_frob (by omega) ?_ ?_ (mersenne19937 hn) (frob hn)
  · rw [hn]; exact charPoly_natDegree MT.P64_ok (by decide)
  · rw [charPoly_coeff_zero MT.P64_ok (by decide) (by decide)]; exact one_ne_zero

end MT64

end MTT.GF2
