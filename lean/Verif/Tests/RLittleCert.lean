import Verif.Tests.PeriodProps
import Verif.Tests.MTWords
import Verif.Samples.ProgramsProps
import Verif.GF2.IrredList

/-!
# Certificates for `test/test_rlittle.cpp`

The numbers of `MersenneTwister mt` that the turns 194 and 672 use, and the irreducible polynomial of turn 194.
-/

namespace MTT.Tests

open GF2 Polynomial PIS Search

/-! ## The numbers -/

/-- Drops the first of 624 words and appends the next. -/
def rollN : ℕ → ℕ → ℕ
  | 0, N => N
  | n + 1, N => force (twistN (word N 0) (word N 1) (word N 397)) fun v => force (N >>> 32 ||| v <<< 19936) fun N => rollN n N

theorem shl_lt {v a b c : ℕ} (h : v < 2 ^ a) (hc : c = a + b) : v <<< b < 2 ^ c := by
  rw [Nat.shiftLeft_eq, hc, pow_add]
  exact Nat.mul_lt_mul_of_pos_right h (Nat.two_pow_pos _)

theorem rollN_spec (x : ℕ → BitVec 32) (hx : MTRef.IsSeq32 x) (n : ℕ) : ∀ k N, N < 2 ^ 19968 → Pack N (fun j => x (k + j)) →
    Pack (rollN n N) (fun j => x (k + n + j)) ∧ rollN n N < 2 ^ 19968 := by
  induction n with
  | zero => intro k N hN h; exact ⟨h, hN⟩
  | succ n ih =>
    intro k N hN h
    rw [rollN, force_eq, force_eq]
    have e : twistN (word N 0) (word N 1) (word N 397) = (x (k + 624)).toNat := by
      rw [word_spec h (by omega), word_spec h (by omega), word_spec h (by omega), twistN_spec, hx k]
      rfl
    rw [e]
    have hv := (x (k + 624)).isLt
    have hlt : N >>> 32 ||| (x (k + 624)).toNat <<< 19936 < 2 ^ 19968 := by
      apply Nat.or_lt_two_pow
      · rw [Nat.shiftRight_eq_div_pow]
        exact lt_of_le_of_lt (Nat.div_le_self _ _) hN
      · exact shl_lt hv (by omega)
    have := ih (k + 1) _ hlt ?_
    · rwa [show k + 1 + n = k + (n + 1) by omega] at this
    · intro j hj
      apply BitVec.eq_of_getLsbD_eq
      intro b hb
      rw [BitVec.getLsbD_ofNat, Nat.testBit_shiftRight, Nat.testBit_or, Nat.testBit_shiftRight, Nat.testBit_shiftLeft]
      by_cases hj2 : j + 1 < 624
      · have h1 : ¬ 19936 ≤ 32 * j + b := by omega
        have h2 := congrArg (fun w => w.getLsbD b) (h (j + 1) hj2)
        simp only [BitVec.getLsbD_ofNat, Nat.testBit_shiftRight, hb, decide_true, Bool.true_and] at h2
        rw [show 32 + (32 * j + b) = 32 * (j + 1) + b by omega, h2, show k + (j + 1) = k + 1 + j by omega]
        simp [h1, hb]
      · have hj3 : j = 623 := by omega
        subst hj3
        have h1 : N.testBit (32 + (32 * 623 + b)) = false := by
          apply Nat.testBit_lt_two_pow
          exact lt_of_lt_of_le hN (Nat.pow_le_pow_right (by omega) (by omega))
        rw [h1, Bool.false_or, show 32 * 623 + b - 19936 = b by omega, show k + 1 + 623 = k + 624 by omega]
        have : 19936 ≤ 32 * 623 + b := by omega
        simp [this, hb, BitVec.getLsbD]

/-- The tempered words of a packed state. -/
def tempered (N j n : ℕ) : List ℕ := (List.range n).map fun i => temperN (word N (j + i))

/-- The words after 1164 steps and after 4032 steps. -/
def roll1 : ℕ := rollN 1164 (packL (seedN 624 0 5489))
def roll2 : ℕ := rollN 2868 roll1

theorem roll_ok : tempered roll1 618 6 = [4251468518, 2022446019, 2209431908, 2414211768, 3797958050, 3597530801] ∧
    tempered roll2 618 6 = [2156935220, 2578961309, 4292087425, 851501823, 1526462106, 1538145242] := by decide +kernel

theorem packL_lt (l : List ℕ) : (∀ a ∈ l, a < 2 ^ 32) → packL l < 2 ^ (32 * l.length) := by
  induction l with
  | nil => intro _; exact Nat.one_pos
  | cons a l ih =>
    intro h
    rw [packL, List.length_cons]
    refine Nat.or_lt_two_pow (lt_of_lt_of_le (h a (by simp)) (Nat.pow_le_pow_right (by omega) (by omega))) ?_
    exact shl_lt (ih fun b hb => h b (by simp [hb])) (by omega)

theorem start_lt : packL (seedN 624 0 5489) < 2 ^ 19968 := by
  have h := packL_lt (seedN 624 0 5489) fun a ha => by
    obtain ⟨j, hj, rfl⟩ := List.mem_iff_getElem.1 ha
    rw [seedN_length] at hj
    have := seedN_spec 5489 624 0 5489 rfl j hj
    rw [List.getElem?_eq_getElem (by rw [seedN_length]; exact hj), Option.some.injEq] at this
    rw [this]
    exact (MTRef.seed32 _ _).isLt
  rwa [seedN_length] at h

theorem tempered_get {N j n : ℕ} {L : List ℕ} (h : tempered N j n = L) {i a : ℕ} (hi : L[i]? = some a) : temperN (word N (j + i)) = a := by
  rw [← h, tempered, List.getElem?_map] at hi
  cases hr : (List.range n)[i]? with
  | none => rw [hr] at hi; simp at hi
  | some b =>
    rw [hr, Option.map_some, Option.some.injEq] at hi
    rw [List.getElem?_eq_some_iff] at hr
    obtain ⟨_, hr⟩ := hr
    rw [List.getElem_range] at hr
    rw [hr]; exact hi

/-- The numbers 1158 to 1163 and 4026 to 4031 of `MersenneTwister mt`. -/
theorem mt_numbers : (∀ i a, [4251468518, 2022446019, 2209431908, 2414211768, 3797958050, 3597530801][i]? = some a →
      Options.stream32 5489 (1158 + i) = BitVec.ofNat 32 a) ∧
    (∀ i a, [2156935220, 2578961309, 4292087425, 851501823, 1526462106, 1538145242][i]? = some a →
      Options.stream32 5489 (4026 + i) = BitVec.ofNat 32 a) := by
  obtain ⟨x, ⟨h1, h2⟩, -⟩ := MT.exists_seq MT.P32_ok (MT.refSeed MT.C32 5489)
  have hx := (MT.isSeq32_iff x).1 h1
  have hp : Pack (packL (seedN 624 0 5489)) (fun j => x (0 + j)) := by
    intro i hi
    show _ = x (0 + i)
    rw [Nat.zero_add]
    refine packL_spec _ x (fun j hj => ?_) i (by rw [seedN_length]; exact hi)
    rw [seedN_length] at hj
    rw [seedN_spec 5489 624 0 5489 rfl j hj, Nat.zero_add, h2 j hj, MT.refSeed32]
  obtain ⟨p1, p2⟩ : Pack roll1 (fun j => x (0 + 1164 + j)) ∧ Pack roll2 (fun j => x (0 + 1164 + 2868 + j)) := by
    obtain ⟨p1, l1⟩ := rollN_spec x hx 1164 0 _ start_lt hp
    exact ⟨p1, (rollN_spec x hx 2868 _ _ l1 p1).1⟩
  constructor
  · intro i a hi
    have hlt : i < 6 := (List.getElem?_eq_some_iff.1 hi).1
    have h := tempered_get roll_ok.1 hi
    rw [word_spec p1 (by omega), temperN_spec] at h
    rw [Options.stream32_eq 5489 x h1 h2, ← h, BitVec.ofNat_toNat, BitVec.setWidth_eq]
    rw [show 0 + 1164 + (618 + i) = 624 + (1158 + i) by omega]
    rfl
  · intro i a hi
    have hlt : i < 6 := (List.getElem?_eq_some_iff.1 hi).1
    have h := tempered_get roll_ok.2 hi
    rw [word_spec p2 (by omega), temperN_spec] at h
    rw [Options.stream32_eq 5489 x h1 h2, ← h, BitVec.ofNat_toNat, BitVec.setWidth_eq]
    rw [show 0 + 1164 + 2868 + (618 + i) = 624 + (4026 + i) by omega]
    rfl

/-! ## Turn 194 -/

/-- The parameters. -/
abbrev pI : RLPar := ⟨0xfd6842e6, 15, 4, 24, 2, 17⟩

/-- The state after `seed(1234)`. -/
abbrev zI : ℕ := 0x4e5ac61aeddb5241366aff4aa84cac8e511df2ece4306963f888da7b3e35821d6a326285320a6f3924fa584a119994f4e723e9c0a848850e75ce25ae413c0a3d000004d2

/-- The polynomial. -/
abbrev PI : ℕ := 0xfff0180e1d5fd0d4543dacaed70bbf0811bc823ac91e2216419bf91a56d96cf1cbf720334296fd3df239e393fe807ebffce01e30cce0600fcc07fffcc001ffffc0007fff
abbrev muI : ℕ := 0xc00c1ecd9526dacbedf8a79333f14f018cac57d7cfc9600a05f954f98de83afcca2074547282511f820a9a41bb350cfef04fb0a1086edcc893f2a312112fc062ab18a0bc
abbrev u181 : ℕ := 0x50b2ae881541c1d056dff507f66ec9b0ecc3225bb5e91fb541a62638212e5c656b77397e1dc9a54b775019a0fa9b48f490a7bee177b6c3edeeb785d2609a0ec1abead181
abbrev u3 : ℕ := 0x16d334014237770e0d82c14d28008c30bae6b49a5811d6b8544c2b275d4198b2dc7ac3e35502b9e91ad68a67a4868646b2d589e50870c83109667b09a4083d84f3a745f4

theorem check181 : irredCheck 10 543 muI PI 181 u181 = true := by decide +kernel
theorem check3 : irredCheck 10 543 muI PI 3 u3 = true := by decide +kernel

theorem dvd543 (d : ℕ) (h : d ∣ 543) (hd : d ≠ 543) : d ∣ 181 ∨ d ∣ 3 := by
  have h1 : d ≤ 543 := Nat.le_of_dvd (by decide) h
  have key : ∀ d : Fin 544, d.val ∣ 543 → d.val ≠ 543 → d.val ∣ 181 ∨ d.val ∣ 3 := by decide +kernel
  exact key ⟨d, by omega⟩ h hd

theorem irrI : Irreducible (bitPoly (543 + 1) PI) ∧ (bitPoly (543 + 1) PI).natDegree = 543 :=
  irreducible_of_checks (s := 10) (mu := muI) (by decide) (by decide) (by decide) fun d h hd => by
    rcases dvd543 d h hd with h | h
    · exact ⟨181, u181, h, check181⟩
    · exact ⟨3, u3, h, check3⟩

theorem annI : aeval (rlT pI) (bitPoly (543 + 1) PI) (unpack zI) = 0 := by
  have h := evN_spec pI (543 + 1) PI zI 0 (by decide +kernel)
  rw [unpack_zero, zero_add] at h
  rw [← h, show evN pI (543 + 1) PI zI 0 = 0 by decide +kernel, unpack_zero]

theorem bitI : (rlF pI (BitVec.ofNat 32 zI) (BitVec.ofNat 32 (zI / 2 ^ (32 * 15)))).getLsbD 0 = true := by decide +kernel

theorem outI : coord 32 0 (rlO pI) (unpack zI) ≠ 0 := by
  have h := bitI
  generalize zI = w at h
  show bits (rlF pI (BitVec.ofNat 32 (w / 2 ^ (32 * 0))) (BitVec.ofNat 32 (w / 2 ^ (32 * 15)))) 31 ≠ 0
  rw [Nat.mul_zero, pow_zero, Nat.div_one]
  generalize rlF pI (BitVec.ofNat 32 w) (BitVec.ofNat 32 (w / 2 ^ (32 * 15))) = u at h ⊢
  unfold bits
  rw [BitVec.getMsbD_eq_getLsbD]
  simp [h]

/-- A seeded object. -/
theorem rlSeed_den (r : RL) (v : BitVec 32) (z : SL) (h : ∀ j : Fin 17, rlWord r.par.mat1 v j = (z j).val) : rlDen (rlSeed v r) = z := by
  funext j
  apply Wd.ext
  rw [← h j]
  show (rlSeed v r).state ((16 + (j + 1)) % 17) = _
  rw [rlSeed_state _ _ _ (Nat.mod_lt _ (by decide))]
  congr 1
  have := j.isLt
  omega

theorem out_zero {S : Type} [AddCommGroup S] [Module (ZMod 2) S] {T : S →ₗ[ZMod 2] S} {c : S →ₗ[ZMod 2] ZMod 2} {x : S}
    (h : Ann 1 (outSeq T c x)) : c x = 0 := by
  rw [ann_iff, map_one, Module.End.one_apply] at h
  have h4 : c ((T ^ 0) x) = 0 := congrFun h 0
  rwa [pow_zero, Module.End.one_apply] at h4

theorem fD_bit : (rlF pD (BitVec.ofNat 32 (evN pD (521 + 1) FD zD 0)) (BitVec.ofNat 32 (evN pD (521 + 1) FD zD 0 / 2 ^ (32 * 7)))).getLsbD 0 = true := by
  decide +kernel

theorem low_out {w : ℕ} (h : (rlF pD (BitVec.ofNat 32 w) (BitVec.ofNat 32 (w / 2 ^ (32 * 7)))).getLsbD 0 = true) :
    coord 32 0 (rlO pD) (unpack w) ≠ 0 := by
  show bits (rlF pD (BitVec.ofNat 32 (w / 2 ^ (32 * 0))) (BitVec.ofNat 32 (w / 2 ^ (32 * 7)))) 31 ≠ 0
  rw [Nat.mul_zero, pow_zero, Nat.div_one]
  generalize rlF pD (BitVec.ofNat 32 w) (BitVec.ofNat 32 (w / 2 ^ (32 * 7))) = u at h ⊢
  unfold bits
  rw [BitVec.getMsbD_eq_getLsbD]
  simp [h]

/-- The factor of degree 521 alone does not annihilate the sequence. -/
theorem notF : ¬ Ann (bitPoly (521 + 1) FD) (outSeq (rlT pD) (coord 32 0 (rlO pD)) (unpack zD)) := by
  intro h
  rw [ann_iff, aeval_outSeq] at h
  have e := evN_spec pD (521 + 1) FD zD 0 (by decide +kernel)
  rw [unpack_zero, zero_add] at e
  rw [← e] at h
  refine low_out fD_bit (out_zero (T := rlT pD) ?_)
  rw [ann_iff, map_one, Module.End.one_apply]
  exact h

theorem minpolyI {q : (ZMod 2)[X]} (h : IsSeqMinpoly q (outSeq (rlT pI) (coord 32 0 (rlO pI)) (unpack zI))) : q = bitPoly (543 + 1) PI := by
  rcases irrI.1.dvd_iff.1 (h.2.2 _ (ann_outSeq _ _ annI)) with h1 | h1
  · exfalso
    rw [isUnit_iff_one] at h1
    exact outI (out_zero (h1 ▸ h.2.1))
  · exact (eq_of_associated h1).symm

end MTT.Tests
