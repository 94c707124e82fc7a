import Verif.Samples.DSFMTDCProps
import Verif.GF2.Cert
import Verif.GF2.Large

/-!
# C90: good parameters are accepted by dSFMTdc; dSFMT1279 is found, dSFMT521 cannot be found
-/

namespace MTT.DSFMT

open Polynomial PIS Search W128 Parity Anni SIMD GF2

variable {mexp : ℕ} {mps : MPS} {kernel : KernelFn} {xgcd : XgcdFn}

/-- **C90.**  If the parameters that the first random numbers give have a large component, dSFMTdc prints them. -/
theorem dcSearch_finds (hm : MinPolySeqSpec mps) (hK : KernelSpec kernel) (hX : XgcdSpec xgcd) (hmexp : mexp ∈ allowedMexp)
    {fixedSL1 : Option ℕ} (hfix : ∀ x ∈ fixedSL1, 1 ≤ x ∧ x < 64) {fuel : ℕ}
    (hfuel : ((mexp - 128) / 104 + 1) * 104 + 128 < fuel) (J : Junk) (f : ℕ → BitVec 64) {r : St}
    (hr : setUpParam f (start mexp J.state fixedSL1) = some r)
    (hl : HasLarge ((mexp - 128) / 104 + 1) mexp (seed (mk32 1 0 0 0) r)) :
    ∃ l, dcSearch mps kernel xgcd fuel J mexp 1 fixedSL1 f = .done [l] ∧ l.param = r.param ∧
      GoodLine ((mexp - 128) / 104 + 1) mexp l := by
  obtain ⟨h1, h3, h4, h5⟩ := allowed mexp hmexp
  have F := (family (n := (mexp - 128) / 104 + 1) (mexp := mexp) (by omega) (by omega)).and
    (Q := fun p => p.pos1 + 2 ≤ (mexp - 128) / 104 + 1) (setUp_pos (by omega) (by omega))
  obtain ⟨g, p, g1, g2, g3, g4⟩ := hl
  obtain ⟨k, hk⟩ : ∃ k, mexp * 100 = k + 1 := ⟨mexp * 100 - 1, by omega⟩
  rw [one_eq] at g3
  obtain ⟨st', e1, e2, e3⟩ := rStart_finds hm F (by show 1 ≤ mexp; omega)
    (by show ((mexp - 128) / 104 + 1) * 104 + 128 < 2 * mexp; omega) k
    ⟨start mexp J.state fixedSL1, f, 0, 0, 0⟩ (start_inv0 J.state hfix) (by unfold setUp; rw [hr]; rfl) g1 g2 g3 g4
  obtain ⟨l, g', m1, m2, m3, m4, -⟩ := measure_good hm hK hX (Mexp.table_prime mexp h4 h5) h1 h3 rfl hfuel J
    (e3.mono fun _ h => h.1) e3.inv.2
  refine ⟨l, ?_, m4.trans e2, m3⟩
  unfold dcSearch
  rw [dcLoop, hk, show rStart mps (dOps (rops ((mexp - 128) / 104 + 1) mexp) setUp (seed getOne)) mexp (k + 1)
    ⟨start mexp J.state fixedSL1, f, 0, 0, 0⟩ = .ret true st' from e1]
  dsimp only
  rw [m1]
  rfl

theorem coord_ne {n : ℕ} {c : Cfg} {s : S n} (h : (out c s).getLsbD 0 = true) : coord 128 0 (O n c) s ≠ 0 := by
  show bits (out c s) 127 ≠ 0
  unfold bits
  rw [BitVec.getMsbD_eq_getLsbD]
  simp [h]

/-! ### dSFMT1279 -/

/-- The factor of degree 1279. -/
abbrev F1279 : ℕ :=
  0xe83c826e50c1da91bd09aa0f232dc5dde801b1e11511a52dec533e99ad600901ee4f6784e98762cdbdb6cf8f832d358de2f1816407b8e281e0be67297170c9fcecd5127505aae035075ff5ce01325a2dd199c4ccda28231f333d59a285d7e5e5171785572d1fe92cb146020eceeb6d48d0d472bda68059069db341375af222caa2253736c11c5e7ef27d9ecc3cdcafa856059196a56da2ce8eae4fff5f024d3d

theorem primitive1279 {n : ℕ} (hn : n = 1279) : Primitive2 (bitPoly (n + 1) F1279) n := by
  have hp : (2 ^ n - 1).Prime := hn ▸ Mexp.table_prime 1279 (by decide) (by decide)
  refine primitive_of_check (s := 11)
    (mu := 0xd1901b92072907f928d58d40d6aac79ba10f5cdb27f8804d992046ba40a248fa367354071480a7218afb945be81fb402334280be11f7274af64d87c01e5ed964f95731df8919bf47673da6e872d6d2b96329a12ca812d34a1864c15efbdb216560311150203651aa5766d431acc6f925c07cf6022d2878dc892663d816130752fb39f9575e872e01b62a2994268c0cef6719beace492e4d5de064266410bb74c)
    (by decide) (by omega) (by omega) (Q := [2 ^ n - 1]) (fun q hq hd => ?_) ?_
  · rw [List.mem_singleton]; exact (Nat.prime_dvd_prime_iff_eq hq hp).1 hd
  · subst hn; decide +kernel

/-- The parameters of dSFMT1279 (as published with the generator). -/
abbrev P1279 : Par := ⟨9, 19, 0x000efff7ffddffee, 0x000fbffffff77fff⟩

/-- The state after seeding with 1. -/
abbrev s1279 : S 12 := ((![Wd.of 0x783158e6f8324000380fc9abaac45, Wd.of 0x25614008409f5000f03f7f8c7e7b2, Wd.of 0x53445b6ae1ce50000d1a51fbf4b17, Wd.of 0x3fbe1c3fab66d0004163a96cf2e76, Wd.of 0xa120bba7c042e0000a380f62e228d, Wd.of 0xd2452c0360a690001e142b13b0d4f, Wd.of 0xe70fde19c10ff00053714205c6ab0, Wd.of 0x9f5fd7a9611b50005891460b2feb6, Wd.of 0x23aa3126ae273000c84ca0982e7e3, Wd.of 0xf4a5036409288000d1e46e77a5c1e, Wd.of 0x6a629ff4b3d780009d88920f3b785, Wd.of 0x1f42d4c957f2e0000000000000001], Wd.of 0xf9ccb49e69ad32ede920e8533bb548a), 0)

/-- Evaluates a state. -/
def f12 {α : Type} (s : S 12) (k : S 12 → α) : α :=
  fw (s.1.1 0) fun a => fw (s.1.1 1) fun b => fw (s.1.1 2) fun c => fw (s.1.1 3) fun d => fw (s.1.1 4) fun e => fw (s.1.1 5) fun f => fw (s.1.1 6) fun g => fw (s.1.1 7) fun h => fw (s.1.1 8) fun i => fw (s.1.1 9) fun j => fw (s.1.1 10) fun m => fw (s.1.1 11) fun l => fw s.1.2 fun y => fw s.2 fun z =>
    k ((![a, b, c, d, e, f, g, h, i, j, m, l], y), z)

theorem f12_eq {α : Type} (s : S 12) (k : S 12 → α) : f12 s k = k s := by
  unfold f12
  simp only [fw_eq]
  congr 1
  refine Prod.ext (Prod.ext ?_ rfl) rfl
  funext j
  fin_cases j <;> rfl

abbrev C1279 : Cfg := ⟨P1279, 0, 2⟩

/-- A state in the large component. -/
abbrev c1279 : S 12 := ev f12 (fun s => T 12 C1279 s) 98 0x33fdb9e553026e3f78d66f2ed s1279 0

theorem c1279_eq : c1279 = aeval (T 12 C1279) (bitPoly 98 0x33fdb9e553026e3f78d66f2ed) s1279 := by
  have h := ev_spec (T := T 12 C1279) (fc := f12) (fun s k => f12_eq s k) (f := fun s => T 12 C1279 s) (fun _ => rfl)
    98 0x33fdb9e553026e3f78d66f2ed s1279 0
  rw [zero_add] at h
  exact h

theorem c1279_ann : aeval (T 12 C1279) (bitPoly (1279 + 1) F1279) c1279 = 0 := by
  have h := ev_spec (T := T 12 C1279) (fc := f12) (fun s k => f12_eq s k) (f := fun s => T 12 C1279 s) (fun _ => rfl)
    (1279 + 1) F1279 c1279 0
  rw [zero_add] at h
  rw [← h]
  decide +kernel

theorem c1279_out : (out C1279 c1279).getLsbD 0 = true := by decide +kernel

theorem den1279 : den 12 (seed getOne { ctor 1279 (fun _ => 0) with param := P1279 }) = s1279 := by decide +kernel

theorem dvd1279 {p : (ZMod 2)[X]} (hp : Ann p (outSeq (T 12 C1279) (coord 128 0 (O 12 C1279)) s1279)) :
    bitPoly (1279 + 1) F1279 ∣ p :=
  dvd_of_out _ _ (Primitive2.irreducible (by decide) (primitive1279 rfl)) c1279_eq c1279_ann (coord_ne c1279_out) hp

theorem mskOK1279 : MskOK P1279 := ⟨by decide, by decide⟩

theorem inv1279 (junk : ℕ → W128) : Inv1 12 1279 { ctor 1279 junk with param := P1279 } :=
  ⟨⟨by decide, rfl, show 0 < 12 by decide, show 1 ≤ 9 by decide, show 9 < 12 by decide, show 19 < 64 by decide⟩,
    mskOK1279, show 1 ≤ 19 by decide, rfl, rfl, rfl, rfl, fun h => by cases h⟩

theorem hasLarge1279 (junk : ℕ → W128) :
    HasLarge 12 1279 (seed (mk32 1 0 0 0) { ctor 1279 junk with param := P1279 }) := by
  have F := family (n := 12) (mexp := 1279) (by decide) (by decide)
  obtain ⟨p, hp, -⟩ := exists_bitMinpoly F (inv1279 junk)
  have hpr := primitive1279 rfl
  rw [one_eq]
  refine ⟨bitPoly (1279 + 1) F1279, p, Primitive2.irreducible (by decide) hpr, hpr.1, hp, ?_⟩
  have h2 := hp.2.1
  have hs := F.seed_inv _ (inv1279 junk)
  rw [bitAt_eq (F.red _ (inv1279 junk)).toLinGen ⟨hs.1, hs.2.1⟩ (by decide), F.seed_den _ _ (inv1279 junk) (inv1279 fun _ => 0) rfl,
    den1279] at h2
  exact dvd1279 h2

/-! ### dSFMT521 -/

/-- The factor of degree 521. -/
abbrev F521 : ℕ :=
  0x3ee8d7304377081398b17d31995b12ce8ee3dde928bbf13e89ff758f40826146899d70d3546d50f1e188522a2d7e51cdb4aec2c6377865b2f906e8d1882ec27597f

theorem primitive521 {n : ℕ} (hn : n = 521) : Primitive2 (bitPoly (n + 1) F521) n := by
  have hp : (2 ^ n - 1).Prime := hn ▸ Mexp.table_prime 521 (by decide) (by decide)
  refine primitive_of_check (s := 10)
    (mu := 0x315dafc9b1efcdcb636c8722a3595ef770afe1c1f6f22f199f8a352c89ef644c4ad32c05cf21c9e597356d438fab713afcf6e0ac22942361b36fcb873b42a97db84)
    (by decide) (by omega) (by omega) (Q := [2 ^ n - 1]) (fun q hq hd => ?_) ?_
  · rw [List.mem_singleton]; exact (Nat.prime_dvd_prime_iff_eq hq hp).1 hd
  · subst hn; decide +kernel

/-- The parameters of dSFMT521 (as published with the generator). -/
abbrev P521 : Par := ⟨3, 25, 0x000fbfefff77efff, 0x000ffeebfbdfbfdf⟩

/-- The state after seeding with 1. -/
abbrev s521 : S 4 := ((![Wd.of 0x783158e6f8324000380fc9abaac45, Wd.of 0x25614008409f5000f03f7f8c7e7b2, Wd.of 0x53445b6ae1ce50000d1a51fbf4b17, Wd.of 0x1f42d4c957f2e0000000000000001], Wd.of 0xb3d3fbe1c3fab66d9314163a96cf2e76), 0)

/-- Evaluates a state. -/
def f4 {α : Type} (s : S 4) (k : S 4 → α) : α :=
  fw (s.1.1 0) fun a => fw (s.1.1 1) fun b => fw (s.1.1 2) fun c => fw (s.1.1 3) fun d => fw s.1.2 fun y => fw s.2 fun z =>
    k ((![a, b, c, d], y), z)

theorem f4_eq {α : Type} (s : S 4) (k : S 4 → α) : f4 s k = k s := by
  unfold f4
  simp only [fw_eq]
  congr 1
  refine Prod.ext (Prod.ext ?_ rfl) rfl
  funext j
  fin_cases j <;> rfl

abbrev C521 : Cfg := ⟨P521, 0, 2⟩

/-- A state in the large component. -/
abbrev c521 : S 4 := ev f4 (fun s => T 4 C521 s) 25 0x193c886 s521 0

theorem c521_eq : c521 = aeval (T 4 C521) (bitPoly 25 0x193c886) s521 := by
  have h := ev_spec (T := T 4 C521) (fc := f4) (fun s k => f4_eq s k) (f := fun s => T 4 C521 s) (fun _ => rfl)
    25 0x193c886 s521 0
  rw [zero_add] at h
  exact h

theorem c521_ann : aeval (T 4 C521) (bitPoly (521 + 1) F521) c521 = 0 := by
  have h := ev_spec (T := T 4 C521) (fc := f4) (fun s k => f4_eq s k) (f := fun s => T 4 C521 s) (fun _ => rfl)
    (521 + 1) F521 c521 0
  rw [zero_add] at h
  rw [← h]
  decide +kernel

theorem c521_out : (out C521 c521).getLsbD 0 = true := by decide +kernel

theorem den521 : den 4 (seed getOne { ctor 521 (fun _ => 0) with param := P521 }) = s521 := by decide +kernel

theorem dvd521 {p : (ZMod 2)[X]} (hp : Ann p (outSeq (T 4 C521) (coord 128 0 (O 4 C521)) s521)) :
    bitPoly (521 + 1) F521 ∣ p :=
  dvd_of_out _ _ (Primitive2.irreducible (by decide) (primitive521 rfl)) c521_eq c521_ann (coord_ne c521_out) hp

theorem mskOK521 : MskOK P521 := ⟨by decide, by decide⟩

theorem inv521 (junk : ℕ → W128) : Inv1 4 521 { ctor 521 junk with param := P521 } :=
  ⟨⟨by decide, rfl, show 0 < 4 by decide, show 1 ≤ 3 by decide, show 3 < 4 by decide, show 25 < 64 by decide⟩,
    mskOK521, show 1 ≤ 25 by decide, rfl, rfl, rfl, rfl, fun h => by cases h⟩

theorem hasLarge521 (junk : ℕ → W128) :
    HasLarge 4 521 (seed (mk32 1 0 0 0) { ctor 521 junk with param := P521 }) := by
  have F := family (n := 4) (mexp := 521) (by decide) (by decide)
  obtain ⟨p, hp, -⟩ := exists_bitMinpoly F (inv521 junk)
  have hpr := primitive521 rfl
  rw [one_eq]
  refine ⟨bitPoly (521 + 1) F521, p, Primitive2.irreducible (by decide) hpr, hpr.1, hp, ?_⟩
  have h2 := hp.2.1
  have hs := F.seed_inv _ (inv521 junk)
  rw [bitAt_eq (F.red _ (inv521 junk)).toLinGen ⟨hs.1, hs.2.1⟩ (by decide), F.seed_den _ _ (inv521 junk) (inv521 fun _ => 0) rfl,
    den521] at h2
  exact dvd521 h2

/-- Random numbers that make dSFMTdc try the parameters of dSFMT1279. -/
def src1279 : List (BitVec 64) := [8, 18, 0x000efff7ffddffee, 0xfff0000000000000, 0x000fbfff00000000, 0xabc00000fff77fff]

/-- **C90.**  dSFMTdc finds dSFMT1279: if the Mersenne Twister delivers these six numbers first, the program called with exponent 1279
and count 1 prints one line, with the parameters of dSFMT1279, and it is a good line. -/
theorem finds_dsfmt1279 (hm : MinPolySeqSpec mps) (hK : KernelSpec kernel) (hX : XgcdSpec xgcd) {fuel : ℕ} (hfuel : 1376 < fuel) (J : Junk)
    (f : ℕ → BitVec 64) (hf : ∀ i < 6, f i = src1279.getD i 0) :
    ∃ l, dcSearch mps kernel xgcd fuel J 1279 1 none f = .done [l] ∧ l.param = P1279 ∧ GoodLine 12 1279 l := by
  refine dcSearch_finds hm hK hX (mexp := 1279) (by decide) (fun x hx => by cases hx) hfuel J f
    (r := { ctor 1279 J.state with param := P1279 }) ?_ (hasLarge1279 J.state)
  unfold setUpParam
  rw [if_neg (show ¬ (start 1279 J.state none).size = 2 from show ¬ (1279 - 128) / 104 + 1 = 2 by decide)]
  show some { ctor 1279 J.state with param := ⟨(f 0 % (BitVec.ofNat 64 12 - 2) + 1).toNat, (f 1 % (52 - 1) + 1).toNat,
    (f 2 ||| f 3) &&& 0x000fffffffffffff, (f 4 ||| f 5) &&& 0x000fffffffffffff⟩ } = _
  rw [hf 0 (by decide), hf 1 (by decide), hf 2 (by decide), hf 3 (by decide), hf 4 (by decide), hf 5 (by decide)]
  refine congrArg some (congrArg (fun p => { ctor 1279 J.state with param := p }) ?_)
  rw [Par.mk.injEq]
  decide +kernel

/-- **C90.**  dSFMTdc cannot find dSFMT521: although the published parameters have a large component (`hasLarge521`), no run prints a
line with them, because the program tries only `pos1 = 1` and `pos1 = 2`. -/
theorem never_dsfmt521 (hm : MinPolySeqSpec mps) (hK : KernelSpec kernel) (hX : XgcdSpec xgcd)
    {fixedSL1 : Option ℕ} (hfix : ∀ x ∈ fixedSL1, 1 ≤ x ∧ x < 64) {fuel : ℕ} (hfuel : 544 < fuel) (J : Junk) (count : ℕ)
    (f : ℕ → BitVec 64) (lines : List Line)
    (h : dcSearch mps kernel xgcd fuel J 521 count fixedSL1 f = .done lines ∨
      dcSearch mps kernel xgcd fuel J 521 count fixedSL1 f = .failed lines) : ∀ l ∈ lines, l.param ≠ P521 := by
  have key : ∀ l ∈ lines, GoodLine 4 521 l := by
    rcases dcSearch_correct hm hK hX (mexp := 521) (by decide) hfix hfuel J count f with ⟨ls, h1, -, h2⟩ | ⟨ls, h1, -, h2⟩ <;>
      rw [h1] at h <;> rcases h with h | h <;> cases h <;> exact h2
  intro l hl e
  have := (key l hl).pos
  rw [e] at this
  exact absurd this (by decide)

example : ∃ mps kernel xgcd l, dcSearch mps kernel xgcd 1377 ⟨fun _ => 0, fun _ => 0, 0⟩ 1279 1 none (fun i => src1279.getD i 0) =
    .done [l] ∧ l.param = P1279 ∧ GoodLine 12 1279 l := by
  obtain ⟨mps, hm⟩ := minPolySeqSpec_sat
  obtain ⟨kernel, hK⟩ := exists_kernel
  obtain ⟨xgcd, hX⟩ := exists_xgcd
  exact ⟨mps, kernel, xgcd, finds_dsfmt1279 hm hK hX (by decide) _ _ fun _ _ => rfl⟩

end MTT.DSFMT
