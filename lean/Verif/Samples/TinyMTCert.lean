import Verif.Tests.SuiteCert
import Verif.Tests.EquidistProps
import Verif.Samples.TinyMTFirst

/-!
# The first number that `tinymt32dc 0` accepts (certificates)

For each of the 112 numbers from 0x7fffffff downwards a polynomial that shows that the period is not maximal; the next one has the
primitive polynomial of `Tiny32`.  The polynomials were produced by a separate program; the kernel checks all of them.
-/

set_option Elab.async false

namespace MTT.TinyMT

open Polynomial PIS Search Temper GF2 Tests

/-! ## Rejected numbers -/

/-- The matrices of the first `k` numbers from `n` downwards. -/
def downMats (id : BitVec 32) (n : ℕ) : ℕ → List ℕ
  | 0 => []
  | k + 1 => (mats id (BitVec.ofNat 32 n)).1.toNat :: (mats id (BitVec.ofNat 32 n)).2.toNat :: downMats id (n - 1) k

theorem downMats_get (id : BitVec 32) (k n j : ℕ) (hj : j < k) :
    (downMats id n k)[2 * j]? = some (mats id (BitVec.ofNat 32 (n - j))).1.toNat ∧
      (downMats id n k)[2 * j + 1]? = some (mats id (BitVec.ofNat 32 (n - j))).2.toNat := by
  induction k generalizing n j with
  | zero => cases hj
  | succ k ih =>
    cases j with
    | zero => exact ⟨rfl, rfl⟩
    | succ j =>
      have := ih (n - 1) j (by omega)
      rw [show n - 1 - j = n - (j + 1) by omega] at this
      exact this

/-- The certificates: length of the polynomial, the polynomial, the state. -/
def downCerts : List (ℕ × ℕ × ℕ × ℕ × ℕ × ℕ) := [
  (9, 0x1d1, 0x41c43db9, 0x5d444b48, 0xf635525b, 0x29bec0b), (4, 0xb, 0x5f8c7269, 0x621dfd63, 0x5e70b20c, 0xeef9cd2f),
  (4, 0xd, 0x683b159e, 0xd574c583, 0x91981b21, 0x90c71eca), (3, 0x7, 0x64e774f9, 0xbde6b379, 0xa502d800, 0xb36940b6),
  (4, 0xd, 0x2b202c3, 0xc7443aac, 0xc6734a89, 0xd2be7913), (4, 0xb, 0x60b0f941, 0x7db3535b, 0xc078cbec, 0x919dfeef),
  (9, 0x13f, 0x5e5c98d5, 0x318c72dc, 0x15802dc3, 0x80046ad9), (5, 0x13, 0x3d87b904, 0x6e878c07, 0x493ca0f9, 0x51612bd),
  (6, 0x3d, 0x2a556d1a, 0xe6c45a7, 0x921b58b9, 0x58a4c624), (15, 0x5a1f, 0x7cef088a, 0xd302ebdc, 0x5c154400, 0xb29d494b),
  (53, 0x19fd7ae430c7a1, 0x73e12ec7, 0x876cad69, 0xb35cbadd, 0xebfadbf9), (10, 0x331, 0xd74d963, 0x28b1c065, 0xd4adcdbc, 0xde0017ea),
  (3, 0x7, 0x4f311f25, 0xc7ef6144, 0x7bd26000, 0xc97ef498), (35, 0x6da81cc21, 0x57da2a1d, 0xaf8e3070, 0xc1245158, 0xa6959ca1),
  (10, 0x259, 0x42f63f34, 0xe8ae02d1, 0x9ddf847d, 0x8482df06), (8, 0xd3, 0x42ef36ac, 0x1e668868, 0xb1542d3f, 0xa4e955ab),
  (4, 0xb, 0x6f58a573, 0x298e5bc7, 0x294ebcd8, 0x5fd991d3), (3, 0x7, 0x7defa059, 0x7039159b, 0x63c7a800, 0x5438f1ea),
  (10, 0x349, 0x4d76c3dc, 0xc94112f1, 0x51478a99, 0xe18f8114), (14, 0x2fcf, 0x609d92a7, 0x3a3ed10c, 0x2e6187ea, 0x46a1fad8),
  (4, 0xb, 0x50642e5b, 0x3620f5ff, 0xb746c538, 0x20bda213), (6, 0x3b, 0x77c6ee20, 0x4bac695a, 0xdf067652, 0x984d1e5e),
  (6, 0x3b, 0x1f427d73, 0xc7b2b6b8, 0x76750dc1, 0xea4392d9), (7, 0x49, 0x1918402b, 0xfdd217c0, 0x8e992639, 0xd10018c1),
  (9, 0x19f, 0x13430df8, 0x7f3185bc, 0x9aee765f, 0x3e03fc8b), (22, 0x3b03dd, 0x69b108e, 0xefca1751, 0x53df3ff5, 0x7fa26a4f),
  (8, 0xb9, 0xaec911d, 0xaa40a623, 0x4b8c1e6b, 0x4a2bff59), (4, 0xd, 0x2c775203, 0xa06f7bc5, 0x1d4145c0, 0x30588d96),
  (8, 0x83, 0x12ed6365, 0x32a6d854, 0xe7ea3ec8, 0xfec36303), (4, 0xd, 0x47c9357b, 0x30ed8629, 0x76ea31a4, 0x6e80ea06),
  (3, 0x7, 0x5639cb85, 0xa30c7a6, 0xbd171000, 0x2e2f45c4), (5, 0x1f, 0x1c38cf3b, 0xeb38a36f, 0xba084cf7, 0x9d55a809),
  (6, 0x3d, 0x70642002, 0xdebb13ea, 0xcf4dfc05, 0x7eb07bce), (9, 0x1bd, 0x28d73cea, 0xf6c4069b, 0xf95d604d, 0xa567b7a7),
  (3, 0x7, 0x220ddcf3, 0x54ccff57, 0xabe33800, 0x70aaf8ce), (20, 0x86971, 0x46807d0, 0x9f06366d, 0xa556d6f, 0xa9fa3a7e),
  (7, 0x5b, 0x45afdb86, 0x181136c0, 0xd67782f, 0x9ed6ca2d), (29, 0x1bcd116f, 0x78612139, 0x6f588e4b, 0xcffba5c8, 0x19021ce9),
  (4, 0xb, 0x6ed675bf, 0x8d7fb59d, 0x8986c83c, 0xec044be7), (13, 0x1267, 0x13694898, 0x56c48362, 0x2ce80a95, 0x289553a0),
  (12, 0xf0b, 0x7f28ea24, 0x26f21442, 0xec34d9, 0x63efe55b), (11, 0x763, 0x4c43aa5d, 0x34e5258a, 0xe9661bf0, 0xff438c44),
  (18, 0x3de73, 0x15c4c791, 0x5c61cc7b, 0x1942bf50, 0xcf4958a4), (4, 0xd, 0x27a0011, 0x3a2653ed, 0xdd952bde, 0x44d0765e),
  (14, 0x344d, 0x3bc08e72, 0xad991b95, 0x65f8eaf8, 0xaf261b39), (3, 0x7, 0x9dbb72f, 0x2ec52d6a, 0x75338000, 0xabd4ce0),
  (19, 0x5446b, 0x4ef772b0, 0xbb2a6638, 0xa5e2590a, 0xfb7d6514), (54, 0x2ec6e8aad55fff, 0x9996d56, 0x4edf6f05, 0xefc7e82e, 0x1a00c8df),
  (3, 0x7, 0x3b050853, 0x991359b5, 0x6d264800, 0x97fb4992), (6, 0x25, 0x52707ce3, 0x3a8c61d7, 0x599c43ae, 0x77ad8838),
  (4, 0xd, 0x4636478c, 0x4f3dedab, 0x514c753f, 0xe44fe502), (4, 0xb, 0x613e298d, 0xd942bd01, 0x60b0bf08, 0x224024db),
  (4, 0xd, 0x2d8820f4, 0xdfbf1047, 0x3ae7015b, 0xba978292), (26, 0x3d93339, 0x6727319b, 0xcabbc602, 0x7f3a4767, 0x886b10a3),
  (9, 0x18b, 0x7638a1c2, 0xe49d0e70, 0x7b7bc1b4, 0xa5db3c14), (4, 0xb, 0x7eb8c6e8, 0x98eeb19c, 0xf063ccd7, 0xd4246b58),
  (5, 0x19, 0x606a0dee, 0xbb8f3a4, 0xb257dd35, 0x486e1717), (8, 0xe5, 0x4424f55a, 0xedf10a26, 0x59702f0, 0x2a982c3f),
  (11, 0x6df, 0x2ca067c, 0xe7a38ab6, 0x1e907210, 0x85d1296d), (12, 0xa9d, 0x7848de8f, 0xb284dc44, 0xb26e9c43, 0x1fc39cc2),
  (27, 0x467d0f9, 0x277e8ffe, 0x336f4642, 0xe6446501, 0xa2b92c75), (51, 0x7bf15cbe42dc1, 0x283313a3, 0x9ec137c8, 0x2864bf8, 0x1c31ea7c),
  (15, 0x682b, 0x4b4040c7, 0x87dd324b, 0xc703c7ee, 0xe60923d7), (3, 0x7, 0x10d3638f, 0xe31a8b88, 0xb3f6f000, 0xedecfdbc),
  (11, 0x573, 0xcc2cc8f, 0xd80ffaff, 0x5abaee3d, 0x564696b1), (9, 0x14d, 0xe7f3503, 0x16becdb7, 0x8b7221a4, 0x66d0d358),
  (126, 0x2284b4f39208d91a7262c91959050ce5, 0x1, 0x2, 0x3, 0x4), (6, 0x29, 0x15f388ce, 0x19a51dfe, 0x609aa8bf, 0x34e76524),
  (7, 0x67, 0x1a9fe8ee, 0xd1942e15, 0x3b16393d, 0xa390c788), (11, 0x76f, 0x5fa4a5e9, 0x573effad, 0xfc27f966, 0xe1422f22),
  (10, 0x2a3, 0x30f31a3a, 0x561d95a5, 0x26581293, 0xaa825de4), (9, 0x18d, 0x25ed2dea, 0xa7afe875, 0x72b39ce2, 0xa0cfc5ee),
  (9, 0x11b, 0x60616dc5, 0x60f3eeba, 0x796de155, 0x6334a16a), (9, 0x12b, 0x1fc55809, 0x59a5859b, 0x552e44d0, 0x7bf6e897),
  (13, 0x1663, 0x2b59253, 0xf0d549fe, 0x4cdfac2b, 0x9d63ac14), (7, 0x7f, 0x175281aa, 0x59babd33, 0xa06115da, 0x96b765fc),
  (13, 0x1e3b, 0x3ad0fbec, 0x7214705c, 0xcc70289d, 0x3ebf5236), (4, 0xd, 0x30055682, 0xae33a8d3, 0xabe83d1c, 0xe0eb2611),
  (8, 0x89, 0x40305db7, 0xdee50170, 0x16e13c4e, 0xd095043f), (4, 0xb, 0x2ccc917d, 0x95b8367a, 0x25d2bdfa, 0x42b60f39),
  (12, 0xd9f, 0x5c62ce94, 0x4a5fb80b, 0x91bf0f50, 0xf9c212c7), (19, 0x6f46f, 0x24dd378d, 0xbf59a22d, 0x6f95b48a, 0x8b75b2ce),
  (4, 0xd, 0x1a2ce3a8, 0xfbafbdfb, 0x50e4a903, 0xd5e1292), (16, 0xe7b5, 0x715fd4eb, 0x78ac24cc, 0xec45ab9d, 0x66d4c3c3),
  (4, 0xd, 0x719284d0, 0x6b2d4017, 0x3b4fdd67, 0x53867502), (6, 0x3d, 0x5dc9c9ae, 0x5d4ca100, 0x6c4d738b, 0xe1c684de),
  (5, 0x19, 0x48c0ca4d, 0x368e7730, 0x507ed50d, 0xb5a5572b), (7, 0x43, 0x7ad60d59, 0x4a5bbe43, 0x3fb6f515, 0x3ead61d6),
  (6, 0x2f, 0x43560486, 0xfdcc7cf7, 0x58bdad98, 0x350b1fd8), (5, 0x19, 0x3a69cbae, 0xba42eadf, 0x9001db0a, 0xaa668ab9),
  (4, 0xb, 0x2324cd4f, 0xc1853ee6, 0xcce4cace, 0x8cf26005), (11, 0x739, 0x41b6a649, 0x92d42107, 0x803b1217, 0x58cea0e3),
  (17, 0x1dc3b, 0x565ba213, 0x178ffaa6, 0x61ed1bdd, 0x96ad9cc4), (11, 0x5f7, 0x66bb3095, 0x45d7023a, 0xed2d7b77, 0x9283a13d),
  (4, 0xb, 0x1c184667, 0xde2b90de, 0x52ecb32e, 0xf39653c5), (8, 0x89, 0x1a32441a, 0x7d757621, 0x4e89c91d, 0xd58dc12e),
  (6, 0x3b, 0x77346e9c, 0xe0ca98fe, 0x587a30a2, 0x748fa2e), (8, 0x83, 0x3ed33313, 0x4d294c69, 0xed483222, 0x22b86615),
  (4, 0xd, 0x3421b1ba, 0x61e695d3, 0x9030c71d, 0x79d6e95a), (6, 0x3b, 0x42d25eb7, 0x118b0dae, 0x885b1b01, 0xda000dd),
  (4, 0xd, 0x3f6076d7, 0xce041ee8, 0xaefbbefd, 0x571348cb), (6, 0x3d, 0x4e17bfbe, 0x3dd6c576, 0x7a29b4a3, 0xda21ad92),
  (5, 0x1f, 0x56099a2d, 0xc8c198ef, 0xac16bb93, 0xf061682d), (9, 0x11d, 0x701a1f64, 0x788f14eb, 0xf8e57ba5, 0x66480916),
  (4, 0xb, 0x1d9696ab, 0x7ada7e84, 0xf224c7ca, 0x404b89f1), (42, 0x209edd1fb43, 0x6b42506a, 0xe2df2aee, 0x7bee23c1, 0xaed6a2f4),
  (10, 0x221, 0x2666c35b, 0x5b8f44ba, 0x661d55b1, 0x8cd70a31), (14, 0x21f1, 0x128b4f91, 0x2a15378d, 0x93cb59a1, 0x48bd2bc3),
  (4, 0xb, 0x6c2cbe2a, 0xc7decd3f, 0x9a347cfb, 0x21726fe6), (10, 0x31f, 0x2ef6d65f, 0xd041e171, 0xf79bacc2, 0xe365f5ff),
  (36, 0xb109fdaa3, 0x6ec9c0d9, 0xcb338c70, 0xdd9d22d0, 0xc6df97a7), (6, 0x2f, 0x18f99bb5, 0x136a8398, 0x642fad26, 0xfbb24fbe)]

theorem downCerts_ok : rejAll (downMats 0 0x7fffffff 112) downCerts = true := by decide +kernel

theorem maximal_T {m1 m2 : BitVec 32} : Maximal m1 m2 ↔ ∀ s : S, s ≠ 0 → ∀ k, (T (recSt m1 m2) ^ k) s = s ↔ 2 ^ 127 - 1 ∣ k := by
  constructor
  · intro h s hs k
    have := h (mk s (m1, m2, 0)) rfl rfl (by rw [← Bool.not_eq_true, isZero_iff, den_mk]; exact hs) k
    rw [(stateAt_den _ k).2, den_mk, T_congr (s := mk s (m1, m2, 0)) (t := recSt m1 m2) rfl rfl] at this
    exact this
  · intro h s h1 h2 hz k
    rw [(stateAt_den s k).2, T_congr (t := recSt m1 m2) h1 h2]
    exact h _ (by rw [Ne, ← isZero_iff, hz]; simp) k

theorem maximal_pair {m1 m2 : BitVec 32} (h : Maximal m1 m2) : MaxPair m1 m2 := by
  intro r h1 h2 hz k
  rw [eq32_iff, recT, h1, h2]
  exact maximal_T.1 h _ (fun h => hz ((zero32_iff r).2 h)) k

theorem down_rejected (j : ℕ) (hj : j < 112) :
    ¬ Maximal (mats 0 (BitVec.ofNat 32 (0x7fffffff - j))).1 (mats 0 (BitVec.ofNat 32 (0x7fffffff - j))).2 := by
  obtain ⟨a, b, h1, h2, h3⟩ := rejAll_sound downCerts _ downCerts_ok j (by rw [show downCerts.length = 112 from by decide +kernel]; exact hj)
  obtain ⟨g1, g2⟩ := downMats_get 0 112 0x7fffffff j hj
  rw [h1, Option.some.injEq] at g1
  rw [h2, Option.some.injEq] at g2
  rw [g1, g2, BitVec.ofNat_toNat, BitVec.setWidth_eq, BitVec.ofNat_toNat, BitVec.setWidth_eq] at h3
  exact fun h => h3 (maximal_pair h)

/-! ## The accepted number -/

theorem down_mats : mats 0 0x7fffff8f = (0x8f7011ee, 0xfc78ff1f) := by decide +kernel

theorem down_accepted : Maximal 0x8f7011ee 0xfc78ff1f := by
  rw [maximal_T]
  intro s hs k
  rw [T_congr (s := recSt 0x8f7011ee 0xfc78ff1f) (t := p32) rfl rfl]
  exact period_of_primitive (by decide) prim_t32 (ann_t32 _) hs k

/-! ## The defect without tempering -/

abbrev pDown : St := ⟨0, 0, 0, 0, 0, 0x8f7011ee, 0xfc78ff1f, 0, false⟩

abbrev rankDown (ps : List (ℕ × ℕ)) : Prop := seqK fS (fun s => T pDown s) (fun s => (fo pDown s).toNat) 254 (Wd.of 1, 0, 0, 0)
  (fun ws => pairsOK 32 127 ws ps) = true

theorem rankDown_1 : rankDown [(1, 127), (2, 63)] := by decide +kernel
theorem rankDown_2 : rankDown [(3, 42), (4, 31), (5, 25)] := by decide +kernel
theorem rankDown_3 : rankDown [(6, 20), (7, 18), (8, 15), (9, 14)] := by decide +kernel
theorem rankDown_4 : rankDown [(10, 12), (11, 11), (12, 10), (14, 9), (15, 8)] := by decide +kernel
theorem rankDown_5 : rankDown [(17, 7), (20, 6), (22, 5), (31, 4), (32, 3)] := by decide +kernel

theorem rankDown_sound {ps : List (ℕ × ℕ)} (h : rankDown ps) (q : ℕ × ℕ) (hq : q ∈ ps) : Equidist (T pDown) (O pDown) ⊤ q.1 q.2 := by
  intro a
  obtain ⟨s, -, h1⟩ := equidist_of_check (fun s k => fS_eq s k) (fun _ => rfl) (isWord32 pDown) h q hq a
  exact ⟨s, trivial, h1⟩

/-- The dimensions for the accuracies 1 to 32. -/
def downDims : List ℕ := [127, 63, 42, 31, 25, 20, 18, 15, 14, 12, 11, 10, 9, 9, 8, 7, 7, 6, 6, 6, 5, 5, 4, 4, 4, 4, 4, 4, 4, 4, 4, 3]

theorem down_dims (v : ℕ) (h1 : 1 ≤ v) (h2 : v ≤ 32) : Equidist (T pDown) (O pDown) ⊤ v (downDims.getD (v - 1) 0) := by
  have key : ∀ v ∈ Finset.Icc 1 32, ∃ q ∈ [(1, 127), (2, 63)] ++ [(3, 42), (4, 31), (5, 25)] ++ [(6, 20), (7, 18), (8, 15), (9, 14)] ++
      [(10, 12), (11, 11), (12, 10), (14, 9), (15, 8)] ++ [(17, 7), (20, 6), (22, 5), (31, 4), (32, 3)],
      v ≤ q.1 ∧ downDims.getD (v - 1) 0 ≤ q.2 := by decide
  obtain ⟨q, hq, g1, g2⟩ := key v (Finset.mem_Icc.2 ⟨h1, h2⟩)
  refine equidist_mono ?_ g1 g2
  simp only [List.mem_append] at hq
  rcases hq with (((hq | hq) | hq) | hq) | hq
  · exact rankDown_sound rankDown_1 q hq
  · exact rankDown_sound rankDown_2 q hq
  · exact rankDown_sound rankDown_3 q hq
  · exact rankDown_sound rankDown_4 q hq
  · exact rankDown_sound rankDown_5 q hq

end MTT.TinyMT
