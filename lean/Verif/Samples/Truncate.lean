import Verif.Samples.TinyMTProps
import Verif.Samples.MTDCProps
import Verif.Samples.RMTProps
import Verif.Samples.MTGPProps
import Verif.Samples.SFMTProps
import Verif.Samples.DSFMTProps
import Verif.Samples.XorShift
import Verif.Samples.XorShift3
import Verif.Samples.MT1

/-!
C54: `generate(v)` of every sample generator returns the `v` leading bits of the next output
(the code is defined for `v` from 1 on only: it shifts by the word width minus `v`).
-/

namespace MTT

/-- `y` consists of the `v` leading bits of the word `x` (read from the other end if `rev`) and of zeros; bits are counted from
the most significant one. -/
def Leading {w : ℕ} (rev : Bool) (v : ℕ) (x y : BitVec w) : Prop :=
  ∀ i, i < w → y.getMsbD i = (decide (i < v) && if rev then x.getLsbD i else x.getMsbD i)

/-- `Leading` as a statement on numbers: the remainder modulo `2^(w-v)` is removed. -/
theorem leading_toNat {w v : ℕ} (hv : v ≤ w) {x y : BitVec w} :
    Leading false v x y ↔ y.toNat = x.toNat - x.toNat % 2 ^ (w - v) := by
  have key : Leading false v x y ↔ y = (x >>> (w - v)) <<< (w - v) := by
    constructor
    · intro h
      apply BitVec.eq_of_getLsbD_eq
      intro i hi
      have := h (w - 1 - i) (by omega)
      simp only [BitVec.getMsbD_eq_getLsbD, Bool.false_eq_true, if_false] at this
      have e : w - 1 - (w - 1 - i) = i := by omega
      rw [e] at this
      simp only [show w - 1 - i < w by omega, decide_true, Bool.true_and] at this
      rw [this, BitVec.getLsbD_shiftLeft, BitVec.getLsbD_ushiftRight]
      by_cases h1 : i < w - v
      · simp [h1, show ¬ (w - 1 - i < v) by omega]
      · simp [h1, hi, show w - 1 - i < v by omega, show w - v + (i - (w - v)) = i by omega]
    · rintro rfl i hi
      simp only [BitVec.getMsbD_eq_getLsbD, Bool.false_eq_true, if_false, hi, decide_true, Bool.true_and,
        BitVec.getLsbD_shiftLeft, BitVec.getLsbD_ushiftRight]
      by_cases h1 : i < v
      · simp [h1, show ¬ (w - 1 - i < w - v) by omega, show w - 1 - i < w by omega,
          show w - v + (w - 1 - i - (w - v)) = w - 1 - i by omega]
      · simp [h1, show w - 1 - i < w - v by omega]
  rw [key, ← BitVec.toNat_inj, BitVec.toNat_shiftLeft, BitVec.toNat_ushiftRight, Nat.shiftLeft_eq, Nat.shiftRight_eq_div_pow]
  have h2 : x.toNat / 2 ^ (w - v) * 2 ^ (w - v) = x.toNat - x.toNat % 2 ^ (w - v) := by
    have := Nat.div_add_mod x.toNat (2 ^ (w - v))
    rw [mul_comm] at this
    omega
  have h3 := x.isLt
  rw [h2, Nat.mod_eq_of_lt (by omega)]

theorem leading_mask {w v : ℕ} (hv : v ≤ w) (x : BitVec w) :
    Leading false v x (x &&& ((~~~ (0 : BitVec w)) <<< (w - v))) := by
  intro i hi
  simp only [BitVec.getMsbD_eq_getLsbD, Bool.false_eq_true, if_false, hi, decide_true, Bool.true_and, BitVec.getLsbD_and,
    BitVec.getLsbD_shiftLeft]
  by_cases h1 : i < v
  · simp [h1, show ¬ (w - 1 - i < w - v) by omega, show w - 1 - i < w by omega, show w - 1 - i - (w - v) < w by omega]
  · simp [h1, show w - 1 - i < w - v by omega]

theorem leading_rev {w v : ℕ} {x y z : BitVec w} (hx : ∀ i, i < w → y.getLsbD i = x.getLsbD (w - 1 - i))
    (h : Leading false v y z) : Leading true v x z := by
  intro i hi
  have := h i hi
  rw [this]
  simp only [BitVec.getMsbD_eq_getLsbD, Bool.false_eq_true, if_false, if_true, hi, decide_true, Bool.true_and]
  rw [hx _ (by omega), show w - 1 - (w - 1 - i) = i by omega]

theorem leading32 {v : ℕ} (hv : v ≤ 32) (rev : Bool) (x : BitVec 32) :
    Leading rev v x ((if rev then Util.reverseBit32 x else x) &&& ((~~~ (0 : BitVec 32)) <<< (32 - v))) := by
  cases rev
  · exact leading_mask hv x
  · exact leading_rev (fun i hi => Util.reverseBit32_spec x i hi) (leading_mask hv _)

theorem leading64 {v : ℕ} (hv : v ≤ 64) (rev : Bool) (x : BitVec 64) :
    Leading rev v x ((if rev then Util.reverseBit64 x else x) &&& ((~~~ (0 : BitVec 64)) <<< (64 - v))) := by
  cases rev
  · exact leading_mask hv x
  · exact leading_rev (fun i hi => Util.reverseBit64_spec x i hi) (leading_mask hv _)

theorem leading128 {v : ℕ} (hv : v ≤ 128) (rev : Bool) (x : W128.W128) :
    Leading rev v x (W128.andMask (if rev then W128.reverseBit x else x) ((W128.makeMsbMask (v : ℕ)).getD 0)) := by
  have hm := (W128.makeMsbMask_correct (v : ℕ)).1 v rfl hv
  rw [hm, Option.getD_some]
  have ha : ∀ y : W128.W128, Leading false v y (W128.andMask y ((BitVec.allOnes 128) <<< (128 - v))) := by
    intro y
    rw [(W128.bitwise_correct y _).2.1]
    have := leading_mask hv y
    rwa [show (~~~ (0 : BitVec 128)) = BitVec.allOnes 128 by decide] at this
  cases rev
  · exact ha x
  · refine leading_rev (fun i hi => ?_) (ha _)
    rw [if_pos rfl, (W128.reverseBit_correct x).1, BitVec.getLsbD_reverse, BitVec.getMsbD_eq_getLsbD]
    simp [hi]

/-- **C54** for TinyMT32. -/
theorem TinyMT.generateV_leading {v : ℕ} (hv : v ≤ 32) (s : TinyMT.St) :
    (TinyMT.generateV v s).1 = (TinyMT.generate s).1 ∧
      Leading s.rev v (TinyMT.generate s).2 (TinyMT.generateV v s).2 := ⟨rfl, leading32 hv _ _⟩

/-- **C54** for MT32Search of samples/MTDC. -/
theorem MTDC.generateV_leading {v : ℕ} (hv : v ≤ 32) (s : MTDC.St) :
    (MTDC.generateV v s).1 = (MTDC.generate s).1 ∧
      Leading s.rev v (MTDC.generate s).2 (MTDC.generateV v s).2 := ⟨rfl, leading32 hv _ _⟩

/-- **C54** for mtgp32. -/
theorem MTGP.generateV_leading {v : ℕ} (hv : v ≤ 32) (s : MTGP.St) :
    (MTGP.generateV v s).1 = (MTGP.generate s).1 ∧
      Leading s.rev v (MTGP.generate s).2 (MTGP.generateV v s).2 := ⟨rfl, leading32 hv _ _⟩

/-- **C54** for RMT64Search. -/
theorem RMT.generateV_leading {v : ℕ} (hv : v ≤ 64) (s : RMT.St) :
    (RMT.generateV v s).1 = (RMT.generate s).1 ∧
      Leading s.rev v (RMT.generate s).2 (RMT.generateV v s).2 := ⟨rfl, leading64 hv _ _⟩

/-- **C54** for the SFMT search class. -/
theorem SFMT.generateV_leading {v : ℕ} (hv : v ≤ 128) (s : SFMT.St) :
    (SFMT.generateV v s).1 = (SFMT.generate s).1 ∧
      Leading s.rev v (SFMT.generate s).2 (SFMT.generateV v s).2 := ⟨rfl, leading128 hv _ _⟩

/-- **C54** for the dSFMT search class, which has no reverse mode. -/
theorem DSFMT.generateV_leading {v : ℕ} (hv : v ≤ 128) (s : DSFMT.St) :
    (DSFMT.generateV v s).1 = (DSFMT.generate s).1 ∧
      Leading false v (DSFMT.generate s).2 (DSFMT.generateV v s).2 := ⟨rfl, leading128 hv false _⟩

/-- **C54** for the class of xorshift-4.cpp. -/
theorem XorShift.generateV_leading {v : ℕ} (hv : v ≤ 32) (s : XorShift.St) :
    (XorShift.generateV v s).1 = (XorShift.generate s).1 ∧
      Leading false v (XorShift.generate s).2 (XorShift.generateV v s).2 := ⟨rfl, leading_mask hv _⟩

/-- **C54** for the class of xorshift-3.cpp. -/
theorem XorShift3.generateV_leading {v : ℕ} (hv : v ≤ 32) (s : XorShift3.St) :
    (XorShift3.generateV v s).1 = (XorShift3.generate s).1 ∧
      Leading false v (XorShift3.generate s).2 (XorShift3.generateV v s).2 := ⟨rfl, leading_mask hv _⟩

/-- **C54** for the class of samples/MTDC/mt1.cpp. -/
theorem MT1.generateV_leading {v : ℕ} (hv : v ≤ 32) (s : MT1.St) :
    (MT1.generateV v s).1 = (MT1.generate s).1 ∧
      Leading false v (MT1.generate s).2 (MT1.generateV v s).2 := ⟨rfl, leading_mask hv _⟩

/-- A reversed word, cut to five bits. -/
example : Leading true 5 (0x0000001b : BitVec 32) 0xd8000000 ∧ ¬ Leading true 5 (0x0000001b : BitVec 32) 0xdc000000 ∧
    ¬ Leading false 5 (0x0000001b : BitVec 32) 0xd8000000 := by
  refine ⟨fun i hi => ?_, fun h => ?_, fun h => ?_⟩
  · interval_cases i <;> decide
  · exact absurd (h 5 (by omega)) (by decide)
  · exact absurd (h 0 (by omega)) (by decide)

end MTT
