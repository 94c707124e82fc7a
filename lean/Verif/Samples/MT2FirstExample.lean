import Verif.Samples.MT2FirstProps
import Verif.Samples.FirstClass

/-!
# C119: a run of `mt2.cpp` that prints two lines
-/

namespace MTT.MTDC

open Polynomial PIS Search MTRec

/-- MT19937 has the greatest period. -/
theorem full_mt19937 {mexp : ℕ} (hmexp : mexp = 19937) : Full mexp 397 0x9908b0df := by
  refine (full_iff (n := 624) (r := 31) (by omega) (by omega) (by omega) ⟨397, 0x9908b0df, 0, 0, false⟩ (show 1 ≤ 397 by omega)
    (show 397 < 624 by omega)).2 fun z hz N => ?_
  exact period_of_primitive (by omega) (GF2.MT32.primitive hmexp)
    (aeval_charPoly MT.P32_ok (by decide) (by decide) (by decide) z) hz N

/-- With a `mata` whose highest bit is 0 it is not reached. -/
theorem not_full {mexp pos : ℕ} (hmexp : mexp = 19937) (h2 : 2 ≤ pos) (hp : pos < 624) {mata : BitVec 32}
    (ha : mata.getLsbD 31 = false) : ¬ Full mexp pos mata := by
  intro h
  have hf := (full_iff (n := 624) (r := 31) (by omega) (by omega) (by omega) ⟨pos, mata, 0, 0, false⟩ (show 1 ≤ pos by omega)
    (show pos < 624 by omega)).1 h
  obtain ⟨z, z1, z2⟩ := singular (n := 624) (r := 31) (by omega) (by omega) (p := ⟨pos, mata, 0, 0, false⟩) h2 hp ha
  have := (hf z z1 (2 ^ mexp - 1)).2 dvd_rfl
  obtain ⟨k, hk⟩ : ∃ k, 2 ^ mexp - 1 = k + 1 := ⟨2 ^ mexp - 2, by have := Nat.one_lt_two_pow (n := mexp) (by omega); omega⟩
  rw [hk, pow_succ, Module.End.mul_apply, z2, map_zero] at this
  exact z1 this.symm

/-- A source that gives in turn a `mata` that cannot be taken and the parameters of MT19937: with `count` 2 the program prints
the line of MT19937 twice. -/
theorem mt19937_twice {mps : MPS} (hmps : MinPolySeqSpec mps) {mexp : ℕ} (hmexp : mexp = 19937) (veq : ℕ → ℕ) {fuel turns : ℕ} (hfuel : 4 ≤ fuel)
    (hturns : 5 ≤ turns) (junkPos : ℕ) (junkA : BitVec 32) (junk f : ℕ → BitVec 32)
    (h1 : ∀ i, f (4 * i + 1) = 0x12345678) (h2 : ∀ i, f (4 * i + 2) = 395) (h3 : ∀ i, f (4 * i + 3) = 0x99081234) :
    ∃ l, main mps (Period.primitivityOp none) veq fuel turns mexp 45279 2 (mexp * 32) junkPos junkA junk f = some (some [l, l]) ∧
      l.pos = 397 ∧ l.mata = 0x9908b0df := by
  have hin : mexp ∈ allowedMexp := by rw [hmexp]; decide
  have hset0 : ∀ i, ¬ Full mexp (setAt mexp 45279 f (2 * i)).1 (setAt mexp 45279 f (2 * i)).2 := fun i => by
    refine not_full hmexp (by show 2 ≤ _ + 2; omega) ?_ ?_
    · show _ % (mexp / 32 - 1) + 2 < 624
      have := Nat.mod_lt (f (2 * (2 * i))).toNat (show 0 < mexp / 32 - 1 by omega)
      omega
    · show BitVec.getLsbD (if (0 : ℤ) ≤ 45279 then (f (2 * (2 * i) + 1) &&& 0xffff0000) ||| (BitVec.ofInt 32 45279 &&& 0xffff) else
        f (2 * (2 * i) + 1)) 31 = _
      rw [if_pos (by omega), show 2 * (2 * i) + 1 = 4 * i + 1 by omega, h1]
      decide
  have hset1 : ∀ i, setAt mexp 45279 f (2 * i + 1) = (397, 0x9908b0df) := fun i => by
    unfold setAt
    rw [show 2 * (2 * i + 1) = 4 * i + 2 by omega, show 4 * i + 2 + 1 = 4 * i + 3 by omega, h2, h3, if_pos (by omega),
      show mexp / 32 - 1 = 622 by omega]
    exact Prod.ext (by decide) (by decide)
  obtain ⟨b, c, d, e1, e2, -⟩ := best_good hin (by omega) (by omega) (full_mt19937 hmexp)
  obtain ⟨l, hl⟩ : ∃ l : Line, l = ⟨mexp, 45279, 397, 0x9908b0df, b, c, d⟩ := ⟨_, rfl⟩
  have hline0 : ∀ i, lineAt mexp 45279 (mexp * 32) f (2 * i) = none := fun i => by
    unfold lineAt
    rw [if_neg (hset0 i)]
  have hline1 : ∀ i, lineAt mexp 45279 (mexp * 32) f (2 * i + 1) = some l := fun i => by
    unfold lineAt
    rw [hset1, if_pos (full_mt19937 hmexp)]
    dsimp only
    rw [e1, Option.bind_some, if_pos e2, hl]
  have hfour : linesOf mexp 45279 (mexp * 32) f 4 = [l, l] := by
    have a0 := hline0 0
    have a1 := hline1 0
    have a2 := hline0 1
    have a3 := hline1 1
    norm_num at a0 a1 a2 a3
    unfold linesOf
    rw [show List.range 4 = [0, 1, 2, 3] from rfl]
    simp [a0, a1, a2, a3]
  obtain ⟨L, hL⟩ := main_ends hmps hin 45279 veq fuel turns 2 (mexp * 32) junkPos junkA junk f 4 hfuel hturns (by
    rw [hfour]; exact le_refl 2)
  obtain ⟨M, m1, m2, m3⟩ := main_lines hmps hin 45279 veq fuel turns 2 (mexp * 32) junkPos junkA junk f hL
  have hM : M ≤ 4 := by
    by_contra hlt
    have := m3 4 (by omega)
    rw [hfour] at this
    exact absurd this (lt_irrefl 2)
  obtain ⟨k, hk⟩ : ∃ k, 4 = M + k := ⟨4 - M, by omega⟩
  have happ := linesOf_add mexp 45279 (mexp * 32) f M k
  rw [← hk, hfour] at happ
  have hlen := congrArg List.length happ
  rw [List.length_append, m2] at hlen
  have hnil : linesOf mexp 45279 (mexp * 32) (from_ f (2 * M)) k = [] := List.length_eq_zero_iff.1 (by
    have : ([l, l] : List Line).length = 2 := rfl
    have h2 : (2 : ℤ).toNat = 2 := rfl
    omega)
  rw [hnil, List.append_nil] at happ
  refine ⟨l, ?_, by rw [hl], by rw [hl]⟩
  rw [hL, m1, happ]

end MTT.MTDC
