import Verif.Samples.SFMTDCProps
import Verif.Anni.Finds
import Verif.GF2.Cert
import Verif.GF2.Large

/-!
# C89: good parameters are accepted by sfmtdc and sfmtdcfixed; SFMT607 is found
-/

namespace MTT.SFMT

open Polynomial PIS Search W128 Parity Anni SIMD GF2

variable {mexp : ℕ} {mps : MPS} {kernel : KernelFn}

theorem dcLoop_finds (hm : MinPolySeqSpec mps) (hK : KernelSpec kernel)
    {su : St → (ℕ → BitVec 32) → Option (St × (ℕ → BitVec 32))} (hsu : SetUpOK (mexp / 128 + 1) su) (hmexp : mexp ∈ allowedMexp)
    {fuel : ℕ} (hfuel : (mexp / 128 + 1) * 128 < fuel) (J : Junk) (f f' : ℕ → BitVec 32) {r : St}
    (hr : su (ctor mexp J.state) f = some (r, f')) (hl : HasLarge mexp (seed (mk32 1 0 0 0) r)) :
    ∃ l, dcLoop mps kernel su fuel J mexp 1 ⟨ctor mexp J.state, f, 0, 0, 0⟩ [] = .done [l] ∧ l.param = r.param ∧
      GoodLine mexp l := by
  obtain ⟨h1, h2, h3, h4, h5⟩ := allowed mexp hmexp
  have F := family (n := mexp / 128 + 1) (mexp := mexp) (by omega) hsu
  obtain ⟨g, p, g1, g2, g3, g4⟩ := hl
  obtain ⟨k, hk⟩ : ∃ k, mexp * 100 = k + 1 := ⟨mexp * 100 - 1, by omega⟩
  rw [one_eq] at g3
  obtain ⟨st', e1, e2, e3⟩ := rStart_finds hm F (by show 1 ≤ mexp; omega) (by show (mexp / 128 + 1) * 128 < 2 * mexp; omega) k
    ⟨ctor mexp J.state, f, 0, 0, 0⟩ (ctor_inv0 J.state) hr g1 g2 g3 g4
  obtain ⟨l, g', m1, m2, m3, m4⟩ := measure_good hm hK (Mexp.table_prime mexp h4 h5) h1 h2 h3 hfuel J e3
  refine ⟨l, ?_, m4.trans e2, m3⟩
  rw [dcLoop, hk, show rStart mps (dOps (rops (mexp / 128 + 1) mexp) su (seed getOne)) mexp (k + 1)
    ⟨ctor mexp J.state, f, 0, 0, 0⟩ = .ret true st' from e1]
  dsimp only
  rw [m1]
  rfl

/-- **C89.**  If the parameters that the first thirteen random numbers give have a large component, sfmtdc prints them. -/
theorem dcSearch_finds (hm : MinPolySeqSpec mps) (hK : KernelSpec kernel) (hmexp : mexp ∈ allowedMexp)
    {fuel : ℕ} (hfuel : (mexp / 128 + 1) * 128 < fuel) (J : Junk) (f : ℕ → BitVec 32) {r : St}
    (hr : setUpParam f (ctor mexp J.state) = some r) (hl : HasLarge mexp (seed (mk32 1 0 0 0) r)) :
    ∃ l, dcSearch mps kernel fuel J mexp 1 f = .done [l] ∧ l.param = r.param ∧ GoodLine mexp l := by
  obtain ⟨h1, h2, h3, -⟩ := allowed mexp hmexp
  exact dcLoop_finds hm hK (setUpOK (by omega) (by omega)) hmexp hfuel J f _ (by unfold setUp; rw [hr]; rfl) hl

/-- **C89.**  The same for sfmtdcfixed. -/
theorem dcFixed_finds (hm : MinPolySeqSpec mps) (hK : KernelSpec kernel) (hmexp : mexp ∈ allowedMexp)
    {fuel : ℕ} (hfuel : (mexp / 128 + 1) * 128 < fuel) (J : Junk) (f f' : ℕ → BitVec 32) {r : St}
    (hr : setUpFixed (ctor mexp J.state) f = some (r, f')) (hl : HasLarge mexp (seed (mk32 1 0 0 0) r)) :
    ∃ l, dcFixed mps kernel fuel J mexp 1 f = .done [l] ∧ l.param = r.param ∧ GoodLine mexp l := by
  obtain ⟨h1, h2, h3, -⟩ := allowed mexp hmexp
  exact dcLoop_finds hm hK (setUpFixedOK (by omega) (by omega)) hmexp hfuel J f f' hr hl

/-! ### SFMT607 -/

/-- The factor of degree 607. -/
abbrev F607 : ℕ :=
  0xab49a08cf39263af86143a6f7bd09da4461955800959b4364ad073eaa6d148963d040c684491a98d9656f8f16b43eb4afde70d7c1ff9f244c9cb1b4865e2b6d6b6913aa9449ee24802a5f1f5

theorem primitive607 {n : ℕ} (hn : n = 607) : Primitive2 (bitPoly (n + 1) F607) n := by
  have hp : (2 ^ n - 1).Prime := hn ▸ Mexp.table_prime 607 (by decide) (by decide)
  refine primitive_of_check (s := 10)
    (mu := 0xa1ff1ea94aef35ea85109ad7134e8eee1872e2fd6432014f456ffd174717ad7e145e316c3d22c69b3e876b463085c5861c7a6c90634ab4036b274557d15a1714ccb8b1f771c9d8f227902a93)
    (by decide) (by omega) (by omega) (Q := [2 ^ n - 1]) (fun q hq hd => ?_) ?_
  · rw [List.mem_singleton]; exact (Nat.prime_dvd_prime_iff_eq hq hp).1 hd
  · subst hn; decide +kernel

/-- The parameters of SFMT607 (as published with the generator). -/
abbrev P607 : Par := ⟨2, 15, 3, 13, 3, 0xfdff37ff, 0xef7f3f7d, 0xff777b7d, 0x7ff7fb2f⟩

/-- The state after seeding with 1. -/
abbrev s607 : S 5 := (![Wd.of 0x9cbef6f41a9da2e9ca37daa403df95b3, Wd.of 0x7afe76093ce73d26532304ed923b1516,
  Wd.of 0x626be9f434fd168166240ef64dc6d934, Wd.of 0x886be36e15854dbf2c7092a9567a6ab9, Wd.of 0xb9523b81dd5254a56c07896600000001], 0)

/-- Evaluates a state. -/
def f5 {α : Type} (s : S 5) (k : S 5 → α) : α :=
  fw (s.1 0) fun a => fw (s.1 1) fun b => fw (s.1 2) fun c => fw (s.1 3) fun d => fw (s.1 4) fun e => fw s.2 fun f =>
    k (![a, b, c, d, e], f)

theorem f5_eq {α : Type} (s : S 5) (k : S 5 → α) : f5 s k = k s := by
  unfold f5
  simp only [fw_eq]
  congr 1
  refine Prod.ext ?_ rfl
  funext j
  fin_cases j <;> rfl

abbrev C607 : Cfg := ⟨P607, 0, 4, false⟩

/-- A state in the large component. -/
abbrev c607 : S 5 := ev f5 (fun s => T 5 C607 s) 34 0x287fc7aa5 s607 0

theorem c607_eq : c607 = aeval (T 5 C607) (bitPoly 34 0x287fc7aa5) s607 := by
  have h := ev_spec (T := T 5 C607) (fc := f5) (fun s k => f5_eq s k) (f := fun s => T 5 C607 s) (fun _ => rfl) 34 0x287fc7aa5 s607 0
  rw [zero_add] at h
  exact h

theorem c607_ann : aeval (T 5 C607) (bitPoly (607 + 1) F607) c607 = 0 := by
  have h := ev_spec (T := T 5 C607) (fc := f5) (fun s k => f5_eq s k) (f := fun s => T 5 C607 s) (fun _ => rfl) (607 + 1) F607 c607 0
  rw [zero_add] at h
  rw [← h]
  decide +kernel

theorem c607_out : (out C607 c607).getLsbD 0 = true := by decide +kernel

theorem den607 : den 5 (seed getOne { ctor 607 (fun _ => 0) with param := P607 }) = s607 := by decide +kernel

theorem coord_ne {n : ℕ} {c : Cfg} {s : S n} (h : (out c s).getLsbD 0 = true) : coord 128 0 (O n c) s ≠ 0 := by
  show bits (out c s) 127 ≠ 0
  unfold bits
  rw [BitVec.getMsbD_eq_getLsbD]
  simp [h]

theorem dvd607 {p : (ZMod 2)[X]} (hp : Ann p (outSeq (T 5 C607) (coord 128 0 (O 5 C607)) s607)) : bitPoly (607 + 1) F607 ∣ p :=
  dvd_of_out _ _ (Primitive2.irreducible (by decide) (primitive607 rfl)) c607_eq c607_ann (coord_ne c607_out) hp

theorem parOK607 : ParOK P607 := ⟨by decide, by decide, by decide, by decide, by decide, by decide⟩

theorem hasLarge607 (junk : ℕ → W128) : HasLarge 607 (seed (mk32 1 0 0 0) { ctor 607 junk with param := P607 }) := by
  have hinv : ∀ junk, Inv1 5 607 { ctor 607 junk with param := P607 } := fun junk =>
    ⟨⟨by decide, rfl, show 0 < 5 by decide, show 1 ≤ 2 by decide, show 2 < 5 by decide, parOK607⟩,
      rfl, rfl, rfl, rfl⟩
  have F := family (n := 5) (mexp := 607) (by decide) (setUpOK (by decide) (by decide))
  obtain ⟨p, hp, -⟩ := exists_bitMinpoly F (hinv junk)
  have hpr := primitive607 rfl
  rw [one_eq]
  refine ⟨bitPoly (607 + 1) F607, p, Primitive2.irreducible (by decide) hpr, hpr.1, hp, ?_⟩
  have h2 := hp.2.1
  have hs := F.seed_inv _ (hinv junk)
  rw [bitAt_eq (F.red _ (hinv junk)).toLinGen ⟨hs.1, hs.2.1⟩ (by decide), F.seed_den _ _ (hinv junk) (hinv fun _ => 0) rfl, den607] at h2
  exact dvd607 h2

/-- Random numbers that make sfmtdc try the parameters of SFMT607. -/
def src607 : List (BitVec 32) := [1, 14, 1, 12, 1, 0xfdff37ff, 0xfdff37ff, 0xef7f0000, 0xef003f7d, 0xff777b7d, 0, 0, 0x7ff7fb2f]

/-- **C89.**  sfmtdc finds SFMT607: if the Mersenne Twister delivers these thirteen numbers first, the program called with exponent 607 and
count 1 prints one line, with the parameters of SFMT607, and it is a good line. -/
theorem finds_sfmt607 (hm : MinPolySeqSpec mps) (hK : KernelSpec kernel) {fuel : ℕ} (hfuel : 640 < fuel) (J : Junk) (f : ℕ → BitVec 32)
    (hf : ∀ i < 13, f i = src607.getD i 0) :
    ∃ l, dcSearch mps kernel fuel J 607 1 f = .done [l] ∧ l.param = P607 ∧ GoodLine 607 l := by
  refine dcSearch_finds hm hK (by decide) hfuel J f (r := { ctor 607 J.state with param := P607 }) ?_ (hasLarge607 J.state)
  unfold setUpParam
  rw [if_neg (show ¬ (ctor 607 J.state).size = 2 from show ¬ 607 / 128 + 1 = 2 by decide), hf 0 (by decide), hf 1 (by decide), hf 2 (by decide), hf 3 (by decide), hf 4 (by decide),
    hf 5 (by decide), hf 6 (by decide), hf 7 (by decide), hf 8 (by decide), hf 9 (by decide), hf 10 (by decide), hf 11 (by decide),
    hf 12 (by decide)]
  congr 2
  show Par.mk ((src607.getD 0 0 % (BitVec.ofNat 32 5 - 2) + 1).toInt.toNat) _ _ _ _ _ _ _ _ = _
  rw [Par.mk.injEq]
  decide +kernel

example : ∃ mps kernel l, dcSearch mps kernel 641 ⟨fun _ => 0, fun _ => 0, fun _ => 0, fun _ => 0, 0⟩ 607 1 (fun i => src607.getD i 0) =
    .done [l] ∧ l.param = P607 ∧ GoodLine 607 l := by
  obtain ⟨mps, hm⟩ := minPolySeqSpec_sat
  obtain ⟨kernel, hK⟩ := exists_kernel
  exact ⟨mps, kernel, finds_sfmt607 hm hK (by decide) _ _ fun _ _ => rfl⟩

end MTT.SFMT
