import Verif.Tests.SuiteLemmas
import Verif.Tests.MTWords
import Verif.Samples.ProgramsProps
import Verif.GF2.Rank

/-!
# What the recursion searches of the tests find (certificates)

The numbers of `MersenneTwister mt;` (seed 5489), for each of the first 98 pairs of them a polynomial that shows that the period is not
maximal, and for the next pair the primitive characteristic polynomial.  The numbers were produced by a separate program; the kernel checks all
of them.
-/

set_option Elab.async false

namespace MTT.Tests

open Polynomial Search TinyRef GF2 PIS

/-! ## The numbers -/

/-- The first 198 numbers. -/
def mtOuts : List ℕ := [
  0xd091bb5c, 0x22ae9ef6, 0xe7e1faee, 0xd5c31f79, 0x2082352c, 0xf807b7df, 0xe9d30005, 0x3895afe1, 0xa1e24bba, 0x4ee4092b, 0x18f86863, 0x8c16a625,
  0x474ba8c4, 0x3039cd1a, 0x8c006d5f, 0xfe2d7810, 0xf51f2ae7, 0xff1816e4, 0xf702ef59, 0xf7badafa, 0x285954a1, 0xb9d09511, 0xf878c4b3, 0xfb2a0137,
  0xf508e4aa, 0x1c1fe652, 0x7c419418, 0xcc50aa59, 0xccdf2e5c, 0x4c0a1f3b, 0x2452a9dc, 0x1397d8d, 0x6bf88c31, 0x1cca797a, 0xea6da4ae, 0xa3c78807,
  0xcace1969, 0xe0e0d4ad, 0xf5a14bab, 0x80f00988, 0xa7de9f4c, 0xcc450cba, 0x924668f, 0x5c7dc380, 0xd96089c5, 0x3640ac4c, 0xef1a2e6d, 0xae6d9426,
  0xadc1965b, 0x6613ba46, 0xc1fb41c2, 0xbd9b0ecd, 0xbe3dedfc, 0x7989c8ee, 0x6468fd6e, 0x6c0df032, 0xa7cd6634, 0x2c826d8b, 0x2bd2e412, 0x4d4a2dbe,
  0xb4bf6fa7, 0xcc1a8959, 0x8263282, 0x51097330, 0x46e46cb0, 0xdf577ec2, 0xbd1e364, 0x262c5564, 0x18dda0c9, 0xfe7b45d9, 0xd2ce21c9, 0xd268409a,
  0xb1e049e1, 0x200bfa47, 0x512d6e73, 0xc3851eee, 0xf341c081, 0x7d973e48, 0x8d17554, 0xa9e20d28, 0x70518ce6, 0x203ac303, 0x61add0ab, 0x35d0430c,
  0xc3f8e892, 0xd1c8509, 0xcb92388e, 0x95436bf, 0x2fd6e208, 0x68a29af9, 0x7d61330b, 0x753ec6fc, 0x7211efea, 0x7cd15133, 0xa574c4ff, 0xcb41f198,
  0xb598eef6, 0xebbe7347, 0xc1332568, 0xceba5a70, 0x46a99459, 0xb4ad9f11, 0xae00feaa, 0xb8b573, 0xa7b480b6, 0xb5f0b06c, 0x29a0ec27, 0xa4daa010,
  0x1e76a1c5, 0x74be9133, 0x7f94c950, 0xc61f6ed6, 0xf5b1c7a1, 0x92e195f8, 0x572384d4, 0xe0732c88, 0x95d41b68, 0xcee496c3, 0x394bbd52, 0x48cd47c,
  0xc05309be, 0xd23d2d63, 0x414de9c5, 0xd2229f23, 0x818666a3, 0xf0a8b109, 0xb2f6b127, 0x69a48341, 0xe4123c56, 0x6c548c8f, 0xf5941f61, 0x94b993aa,
  0x8c165134, 0x2876763c, 0x237ce42e, 0xc300d11b, 0x263821ca, 0x3aeb8202, 0x41ec0f84, 0xcf4ac36d, 0xd7393ee6, 0xfd0fc06a, 0x4118a30a, 0x551b54a4,
  0xd074f86f, 0x4cc1c54a, 0x3e57a703, 0x3774cda, 0xede43895, 0x379ce627, 0x59988939, 0xe8490ddc, 0x325410e1, 0xd9352f6a, 0x4047080a, 0xf47c081d,
  0x9db51a85, 0xc765d71f, 0x79297527, 0xfcca2773, 0x5a065b97, 0x114dee4f, 0xd4b12f5f, 0xcb29360a, 0x95d3de16, 0x983162a8, 0x8cbaafb3, 0xbb98b27f,
  0xeacd3439, 0xb1fac842, 0x492cbef1, 0xae08ab78, 0xc1d7dfd0, 0x646f1d40, 0xc0f463c4, 0x8fc23a81, 0x6164e623, 0x3543f2bc, 0x915cc253, 0x8701d0df,
  0x136b2fdd, 0x677a359e, 0xdcfacd0, 0x5a4ea31e, 0x87e25935, 0x97c34e42, 0xc77780f0, 0x5b396fba, 0xef1b52e6, 0xf7080941, 0x2141888b, 0x278946b0,
  0x919e6d64, 0x6518b459, 0x7829fc22, 0x6325d30e, 0x30c0399, 0xba19b463]

/-- One walk over the words. -/
def outsOf (n : ℕ) (xs : List ℕ) : List ℕ := outN n xs (xs.drop 397)

theorem mtOuts_eq : outsOf 198 (seedN 596 0 5489) = mtOuts := by decide +kernel

theorem mtOuts_spec (k : ℕ) (hk : k < 198) : mtOuts[k]? = some (Options.stream32 5489 k).toNat := by
  obtain ⟨x, ⟨h1, h2⟩, -⟩ := MT.exists_seq MT.P32_ok (MT.refSeed MT.C32 5489)
  rw [Options.stream32_eq 5489 x h1 h2]
  have h3 : ∀ j, j < 596 → (seedN 596 0 5489)[j]? = some (x j).toNat := by
    intro j hj
    rw [seedN_spec 5489 596 0 5489 rfl j hj, Nat.zero_add, h2 j (show j < 624 by omega), MT.refSeed32]
  have h4 := outN_spec x ((MT.isSeq32_iff x).1 h1) 198 0 (seedN 596 0 5489) ((seedN 596 0 5489).drop 397)
    (fun j hj => by rw [h3 j (by omega), Nat.zero_add]) (fun j hj => by rw [List.getElem?_drop, h3 (397 + j) (by omega), Nat.zero_add]) k hk
  rw [← mtOuts_eq]
  unfold outsOf
  rw [h4, Nat.zero_add]
  rfl

theorem mtOuts_get (k : ℕ) (hk : k < 198) (a : ℕ) (h : mtOuts[k]? = some a) : Options.stream32 5489 k = BitVec.ofNat 32 a := by
  rw [mtOuts_spec k hk, Option.some.injEq] at h
  rw [← h, BitVec.ofNat_toNat, BitVec.setWidth_eq]

/-! ## Rejected pairs -/

/-- The parameters alone. -/
abbrev recSt (m1 m2 : BitVec 32) : TinyMT.St := ⟨0, 0, 0, 0, 0, m1, m2, 0, false⟩

/-- A certificate: a state that is not zero and a polynomial of degree below 127 that is not zero and annihilates it. -/
def rejOK (m1 m2 : ℕ) : ℕ × ℕ × ℕ × ℕ × ℕ × ℕ → Bool
  | (L, g, a, b, c, d) =>
    Nat.ble L 127 && Nat.ble 1 g && Nat.blt g (2 ^ L) && decide ((Wd.of (BitVec.ofNat 31 a), Wd.of (BitVec.ofNat 32 b), Wd.of (BitVec.ofNat 32 c),
        Wd.of (BitVec.ofNat 32 d)) ≠ (0 : TinyMT.S)) &&
      decide (ev fS (fun s => TinyMT.T (recSt (BitVec.ofNat 32 m1) (BitVec.ofNat 32 m2)) s) L g
        (Wd.of (BitVec.ofNat 31 a), Wd.of (BitVec.ofNat 32 b), Wd.of (BitVec.ofNat 32 c), Wd.of (BitVec.ofNat 32 d)) 0 = 0)

/-- The certificates for the pairs of a list. -/
def rejAll : List ℕ → List (ℕ × ℕ × ℕ × ℕ × ℕ × ℕ) → Bool
  | m1 :: m2 :: ms, c :: cs => rejOK m1 m2 c && rejAll ms cs
  | _, [] => true
  | _, _ => false

theorem recT (r : T32) : TinyMT.T r.obj = TinyMT.T (recSt r.mat1 r.mat2) := TinyMT.T_congr (s := r.obj) (t := recSt r.mat1 r.mat2) rfl rfl

theorem not_maxPair_of {m1 m2 : BitVec 32} {s : TinyMT.S} {p : (ZMod 2)[X]} (hs : s ≠ 0) (hp : p ≠ 0) (hd : p.natDegree < 127)
    (h : aeval (TinyMT.T (recSt m1 m2)) p s = 0) : ¬ MaxPair m1 m2 := by
  intro hM
  set r : T32 := ofDen32 ⟨0, 0, 0, 0, m1, m2, 0⟩ s with hr
  have hden : den32 r = s := den_of _ _
  have hz : ¬ Zero32 r := fun hz => hs (by rw [← hden]; exact (zero32_iff r).1 hz)
  obtain ⟨μ, hμ⟩ := exists_vecMinpoly hp h
  have hdvd : μ ∣ p := (hμ.2 _).1 h
  have hμd := natDegree_le_of_dvd hdvd hp
  have hprim := primitive_of_period hμ (n := 127) (by omega) (by omega) hs (fun k => by
    rw [← hM r rfl rfl hz k, eq32_iff, hden, recT]
    rfl)
  have := hprim.1
  omega

theorem bitPoly_ne_zero {L g : ℕ} (h1 : 1 ≤ g) (h2 : g < 2 ^ L) : bitPoly L g ≠ 0 := by
  obtain ⟨i, hi⟩ := Nat.exists_testBit_of_ne_zero (by omega : g ≠ 0)
  have hL : i < L := by
    by_contra hc
    rw [Nat.testBit_lt_two_pow (lt_of_lt_of_le h2 (Nat.pow_le_pow_right (by omega) (by omega)))] at hi
    cases hi
  intro h
  have := bitPoly_coeff L g i
  rw [h, coeff_zero, if_pos ⟨hL, hi⟩] at this
  exact absurd this (by decide)

theorem bitPoly_natDegree_lt {L g : ℕ} (h : bitPoly L g ≠ 0) : (bitPoly L g).natDegree < L := by
  rw [natDegree_lt_iff_degree_lt h, degree_lt_iff_coeff_zero]
  intro i hi
  rw [bitPoly_coeff, if_neg (by omega)]

theorem rejOK_sound {m1 m2 : ℕ} {c : ℕ × ℕ × ℕ × ℕ × ℕ × ℕ} (h : rejOK m1 m2 c = true) : ¬ MaxPair (BitVec.ofNat 32 m1) (BitVec.ofNat 32 m2) := by
  obtain ⟨L, g, a, b, c, d⟩ := c
  rw [rejOK] at h
  simp only [Bool.and_eq_true, decide_eq_true_eq] at h
  obtain ⟨⟨⟨⟨h1, h2⟩, h3⟩, h4⟩, h5⟩ := h
  have h1 := Nat.le_of_ble_eq_true h1
  have h2 := Nat.le_of_ble_eq_true h2
  have h3 : g < 2 ^ L := Nat.le_of_ble_eq_true h3
  have hne := bitPoly_ne_zero h2 h3
  have hdeg := bitPoly_natDegree_lt hne
  rw [ev_spec (T := TinyMT.T (recSt (BitVec.ofNat 32 m1) (BitVec.ofNat 32 m2))) (fun s k => fS_eq s k) (fun _ => rfl), zero_add] at h5
  exact not_maxPair_of h4 hne (by omega) h5

theorem rejAll_sound (cs : List (ℕ × ℕ × ℕ × ℕ × ℕ × ℕ)) : ∀ ms : List ℕ, rejAll ms cs = true → ∀ j < cs.length, ∃ m1 m2, ms[2 * j]? = some m1 ∧
    ms[2 * j + 1]? = some m2 ∧ ¬ MaxPair (BitVec.ofNat 32 m1) (BitVec.ofNat 32 m2) := by
  induction cs with
  | nil => intro ms _ j hj; cases hj
  | cons c cs ih =>
    intro ms h j hj
    match ms with
    | m1 :: m2 :: ms =>
      rw [rejAll, Bool.and_eq_true] at h
      cases j with
      | zero => exact ⟨m1, m2, rfl, rfl, rejOK_sound h.1⟩
      | succ j =>
        obtain ⟨a, b, h1, h2, h3⟩ := ih ms h.2 j (by simpa using hj)
        exact ⟨a, b, h1, h2, h3⟩
    | [] => cases h
    | [m1] => cases h

/-- The certificates: length of the polynomial, the polynomial, the state. -/
def rejCerts : List (ℕ × ℕ × ℕ × ℕ × ℕ × ℕ) := [
  (2, 0x3, 0x2fe8c227, 0xafe8c227, 0x7f79797b, 0x317171b), (6, 0x25, 0x33867d30, 0x2655200b, 0x82f0c50a, 0xf6e0a4c8),
  (3, 0x7, 0x69fd8987, 0xb87d44ab, 0x7102f800, 0xc1dc40be), (9, 0x18b, 0x56f2fe36, 0x988221b, 0xcbfb4f64, 0xa86a2397),
  (11, 0x619, 0xbb1a2c2, 0xdb3f4046, 0x1739a71d, 0x25c9a775), (7, 0x67, 0x46601ddb, 0xcf493e80, 0xc4656392, 0x6c047d0e),
  (2, 0x3, 0x60711049, 0x60711049, 0x273ab88d, 0xd29f932f), (18, 0x239eb, 0x643d35ed, 0x24fa0925, 0xd65e5505, 0x9e5293da),
  (9, 0x163, 0x13efb4ed, 0x8ad9af1b, 0xaa867fb9, 0x3c335c43), (6, 0x37, 0x1d50b83b, 0x9b001bb4, 0xfa4d4633, 0x8849ab5d),
  (7, 0x67, 0x6acbc5d3, 0xff8acf59, 0xa9df0610, 0x8ed959c4), (8, 0xbf, 0x4e847bd2, 0xda0ebcbd, 0x6f79945a, 0xec40023a),
  (2, 0x3, 0x239af983, 0x239af983, 0xd6921d29, 0xf76c4ef7), (6, 0x29, 0x27daa39b, 0x9457f572, 0x275c31bf, 0xe8034e82),
  (4, 0xd, 0x2642966a, 0x450fea93, 0xf63f502d, 0xfcd4f61a), (4, 0xd, 0x367f4396, 0x1f89efd5, 0xb2f53b6f, 0x1f4e712),
  (14, 0x23bb, 0x4d348c59, 0x233b146f, 0x247ba2b, 0x514b65c4), (7, 0x43, 0x61c5c2bf, 0x56ad3d79, 0x38d4a58b, 0xe6c8ecea),
  (27, 0x4b99f43, 0x5224758b, 0xbe30d986, 0x96e0e4c6, 0x30d68f58), (6, 0x37, 0x4aba9035, 0x2ef87f4e, 0x7341326f, 0x4bfeb9f5),
  (2, 0x3, 0x4d5f8711, 0x4d5f8711, 0xea81185d, 0x7f0651cf), (4, 0xb, 0x6547a2c1, 0x682b05a9, 0x75f99ab5, 0xd1b238a4),
  (12, 0x9ab, 0x6c010ac, 0x8c78b866, 0x71169dee, 0xb8cc74c3), (10, 0x373, 0x5300db48, 0x5a2797c4, 0x2867598c, 0xc915b154),
  (7, 0x49, 0x49e90b23, 0x6c46dd5e, 0x4b4745ad, 0x4356e6c7), (9, 0x1a9, 0x7b3ca752, 0x8028b3da, 0x20f8e576, 0x859d5123),
  (2, 0x3, 0x4ce36f8b, 0xcce36f8b, 0x72de8277, 0x2ec70d33), (2, 0x3, 0x5986ab77, 0xd986ab77, 0xbdee5619, 0x8c65f457),
  (3, 0x7, 0x31b335e3, 0xe182ebd7, 0xf7fcb800, 0x7dfdff2e), (2, 0x3, 0xbb274cd, 0xbb274cd, 0x206090df, 0xc14362c3),
  (4, 0xd, 0x762463df, 0x7a10a25, 0xdb09c644, 0x771c6fa6), (2, 0x3, 0x810291a, 0x8810291a, 0x80361b98, 0xb45951),
  (2, 0x3, 0x54015dd1, 0xd4015dd1, 0x92e53161, 0x6e5ea747), (2, 0x3, 0x168093d6, 0x968093d6, 0x9d5170b2, 0x4fe723ad),
  (3, 0x7, 0x1ec3984b, 0xf51a9882, 0x7304a000, 0x911cc128), (8, 0xb9, 0x6c59dbb, 0x938796ad, 0xad6c9073, 0x58ec5bc1),
  (10, 0x2a3, 0x2691faeb, 0x25c33ae5, 0xfa1dd218, 0x57040344), (11, 0x42d, 0x4f9c36a2, 0x6ec73bae, 0x828cb37c, 0xb4bb0e5b),
  (5, 0x19, 0x7d8e7d49, 0xdaf472e4, 0xcf5be8d7, 0x26fa6b77), (2, 0x3, 0x3c5681c0, 0xbc5681c0, 0xb487f494, 0xbb103b79),
  (6, 0x25, 0x4874c0c9, 0x8d0ea471, 0x69863372, 0xc6dcdf90), (30, 0x22240051, 0x635924f8, 0xaa9647d9, 0x9d3a4ce8, 0xd920e19d),
  (4, 0xb, 0x57470df0, 0x2ba1ff08, 0xc8eafc57, 0x192a4fb0), (9, 0x13f, 0x61211f8f, 0xed012ca, 0x8d322d71, 0xdfecf865),
  (19, 0x5476d, 0x300768ec, 0x9b472eaa, 0xc18b1276, 0xbd0d71e6), (6, 0x37, 0xaa8ec5, 0x9a136142, 0x59f36f3, 0x1fc80025),
  (8, 0xf1, 0x5b21a908, 0x61551389, 0xd0c880e6, 0xcdd18391), (35, 0x6eb0fa763, 0xcb95b2b, 0xca871b02, 0xe8bb07bb, 0xa93aa0fe),
  (9, 0x1dd, 0x65a0daf0, 0x1ce44c77, 0x457e8a83, 0x7d3f0c03), (2, 0x3, 0x62b2a50, 0x62b2a50, 0xc7180f38, 0x92502291),
  (8, 0x91, 0x53a1afca, 0x2cad354a, 0x2f2573d8, 0x853a65bd), (10, 0x3e3, 0x16ce9008, 0x9a5ce6bc, 0xa61a7213, 0x39950148),
  (2, 0x3, 0x7015b280, 0x7015b280, 0xd7a13236, 0xf1c6acb5), (6, 0x2f, 0x68765c03, 0xf79f16c5, 0x61510fef, 0x14abd953),
  (21, 0x14eaa9, 0x73f3e139, 0xa04ffff3, 0x4952ca99, 0xc85a1450), (2, 0x3, 0x5395883b, 0xd395883b, 0xac01416b, 0xe807877b),
  (4, 0xd, 0x39a47953, 0x6dde6038, 0x212a3d77, 0x88e122cb), (2, 0x3, 0x58a92090, 0x58a92090, 0xf8aa444, 0x213fd999),
  (4, 0xd, 0x4bfc19d6, 0xd813dd9b, 0x27bf17e1, 0xfdcb418a), (2, 0x3, 0x1d8cdd6c, 0x1d8cdd6c, 0x24c7603e, 0xda934085),
  (4, 0xd, 0x74740a74, 0x823d48b3, 0x53fb862f, 0x829ee782), (6, 0x3d, 0x7f2dfb52, 0x7d18917b, 0xdfe68f0d, 0x25e566e4),
  (5, 0x19, 0x10d62424, 0x9cf36164, 0xb479ba11, 0xe7f0b6b), (13, 0x170b, 0x7e34c2ad, 0x5c52e4c0, 0x3b17582a, 0x5dfa7117),
  (13, 0x1081, 0x31a3f93b, 0x6655c936, 0xf9df028c, 0xe6becf35), (28, 0xfc4dcd3, 0x57b86fdf, 0x549cedde, 0xca628f83, 0x17681ed5),
  (2, 0x3, 0x7b61e02a, 0x7b61e02a, 0xf777b11e, 0x3331a645), (7, 0x57, 0x25bf0a21, 0xe2073ebd, 0x2440700b, 0x89253704),
  (2, 0x3, 0x3209eecb, 0xb209eecb, 0x9431cf01, 0x78a4a207), (5, 0x13, 0x26801998, 0x3684f8d3, 0xe1e86cd1, 0x526abe2d),
  (2, 0x3, 0x2737a0d3, 0xa737a0d3, 0x700e9e35, 0x202744bf), (2, 0x3, 0x61d6d358, 0xe1d6d358, 0xa0ce7052, 0xc2a521ed),
  (7, 0x67, 0x5b91f302, 0x11e5a291, 0xb92a1292, 0x2473ba37), (6, 0x29, 0x7b23a8ba, 0xc284d59a, 0x3e6dfee2, 0x82b2914d),
  (4, 0xd, 0x7be2842d, 0xd2f4aa93, 0xd3c98ee4, 0x1076636), (3, 0x7, 0x31dcaa97, 0xf33aa939, 0x1b7e8a97, 0xf1c66787),
  (14, 0x3acd, 0x19803944, 0xb2bc5f67, 0x44a80dec, 0x3721a083), (12, 0xc73, 0x337d26b7, 0x63285c82, 0xb6cb797f, 0xa4e214f7),
  (9, 0x1f9, 0x6ec5072b, 0xd1e37042, 0x993cfeab, 0xf46b09eb), (10, 0x38f, 0x1557511c, 0x761b6265, 0x2eecaf01, 0x57b291b3),
  (32, 0xd7217f4d, 0x6ef57415, 0x92defcff, 0x3023fdff, 0x2242a23b), (35, 0x7eb3070b9, 0x43c8fa44, 0xd64814d1, 0xcd5e3f50, 0xd4558f67),
  (2, 0x3, 0x5edc9d42, 0xdedc9d42, 0x4b0f4354, 0xba238bf9), (5, 0x19, 0x5fb039ac, 0x19871b83, 0x42547e18, 0x2d0cff39),
  (10, 0x36b, 0x241a9726, 0xcafc0db0, 0x12cf8b50, 0x2d486db0), (4, 0xb, 0x2a7c872b, 0xbf453a8b, 0x47742647, 0xab6514b0),
  (2, 0x3, 0x33b7d370, 0xb3b7d370, 0x72600ca0, 0x2d402bc1), (14, 0x33d5, 0x5cc1fd55, 0x14776420, 0x4e039fc8, 0x31504e0b),
  (11, 0x4c3, 0x3108cf4, 0x904294da, 0x1172e070, 0xebadede8), (18, 0x2f993, 0x71dc7d53, 0x26acfe8b, 0xebef0622, 0x806fcc18),
  (4, 0xd, 0x29f5fe5e, 0xc0af2881, 0xfd2b3dbe, 0x9019cc93), (2, 0x3, 0x1c0abb5f, 0x1c0abb5f, 0x11c5178f, 0x649e7123),
  (4, 0xd, 0x5de8cf61, 0x534345d4, 0x80ea245f, 0x131e022f), (2, 0x3, 0x1702a92d, 0x1702a92d, 0xd07529dd, 0xe13ef4cf),
  (4, 0xb, 0x51ed4435, 0xb509f669, 0xe2164468, 0x68f744db), (4, 0xb, 0x791fb7dd, 0xcfcaf1a5, 0x1957db9, 0xad2c2ddc),
  (19, 0x5be0d, 0x3b37ebd9, 0xb85dfbe5, 0xe33fec65, 0xc60e54e5), (2, 0x3, 0x4cf933a5, 0xccf933a5, 0xb4d0cf87, 0xbae2a113)]

theorem rejCerts_ok : rejAll mtOuts rejCerts = true := by decide +kernel

theorem rejected (j : ℕ) (hj : j < 98) : ¬ MaxPair (Options.stream32 5489 (2 * j)) (Options.stream32 5489 (2 * j + 1)) := by
  obtain ⟨a, b, h1, h2, h3⟩ := rejAll_sound rejCerts mtOuts rejCerts_ok j (by rw [show rejCerts.length = 98 from by decide +kernel]; exact hj)
  rw [mtOuts_get _ (by omega) a h1, mtOuts_get _ (by omega) b h2]
  exact h3

/-! ## The accepted pair -/

theorem accepted_nums : Options.stream32 5489 196 = 0x30c0399 ∧ Options.stream32 5489 197 = 0xba19b463 :=
  ⟨mtOuts_get 196 (by omega) _ (by decide +kernel : mtOuts[196]? = some 0x30c0399),
    mtOuts_get 197 (by omega) _ (by decide +kernel : mtOuts[197]? = some 0xba19b463)⟩

theorem prim_acc : Primitive2 (bitPoly (127 + 1) 0xb068ccf7516df85da61a42009cb8240d) 127 :=
  primitive_of_check (s := 8) (mu := 0xb91d483b0177cee4d1f4843cfe1dfdc1) (by decide) (by decide) (by decide)
    factors_127 (by decide +kernel)

theorem ann_acc (s : TinyMT.S) : aeval (TinyMT.T (recSt 0x30c0399 0xba19b463)) (bitPoly (127 + 1) 0xb068ccf7516df85da61a42009cb8240d) s = 0 := by
  refine aeval_all (by decide) TinyMT.finrank_S prim_acc (e := (Wd.of 1, 0, 0, 0)) (by decide) ?_ s
  have h := ev_spec (T := TinyMT.T (recSt 0x30c0399 0xba19b463)) (fc := fS) (fun s k => fS_eq s k) (f := fun s => (TinyMT.T (recSt 0x30c0399 0xba19b463)) s) (fun _ => rfl) (127 + 1)
    0xb068ccf7516df85da61a42009cb8240d (Wd.of 1, 0, 0, 0) 0
  rw [zero_add] at h
  rw [← h]
  decide +kernel

theorem maxPair_acc : MaxPair 0x30c0399 0xba19b463 := by
  intro r h1 h2 hz k
  have h0 : den32 r ≠ 0 := fun h => hz ((zero32_iff r).2 h)
  rw [eq32_iff, recT, h1, h2]
  exact period_of_primitive (by decide) prim_acc (ann_acc _) h0 k

/-! ## The defect without tempering -/

abbrev pAcc : TinyMT.St := ⟨0, 0, 0, 0, 0, 0x30c0399, 0xba19b463, 0, false⟩

abbrev rankAcc (ps : List (ℕ × ℕ)) : Prop := seqK fS (fun s => TinyMT.T pAcc s) (fun s => (TinyMT.fo pAcc s).toNat) 254 (Wd.of 1, 0, 0, 0)
  (fun ws => pairsOK 32 127 ws ps) = true

theorem rankAcc_1 : rankAcc [(1, 127), (2, 59)] := by decide +kernel
theorem rankAcc_2 : rankAcc [(3, 42), (4, 31), (5, 25)] := by decide +kernel
theorem rankAcc_3 : rankAcc [(6, 21), (7, 18), (8, 15), (9, 14), (10, 12)] := by decide +kernel
theorem rankAcc_4 : rankAcc [(11, 11), (12, 10), (13, 9), (15, 8), (18, 7)] := by decide +kernel
theorem rankAcc_5 : rankAcc [(21, 6), (23, 5), (31, 4), (32, 3)] := by decide +kernel

theorem rankAcc_sound {ps : List (ℕ × ℕ)} (h : rankAcc ps) (q : ℕ × ℕ) (hq : q ∈ ps) : Equidist (TinyMT.T pAcc) (TinyMT.O pAcc) ⊤ q.1 q.2 := by
  intro a
  obtain ⟨s, -, h1⟩ := equidist_of_check (fun s k => fS_eq s k) (fun _ => rfl) (isWord32 pAcc) h q hq a
  exact ⟨s, trivial, h1⟩

end MTT.Tests
