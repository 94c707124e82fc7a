import Verif.Samples.RMTDCProps
import Verif.GF2.Cert
import Verif.GF2.Large

/-!
# C88: a run of `rmt64dc` with exponent 521

If the first two numbers of the source are 8 and `0x30d53385bb8d8600`, the search for a recursion succeeds at once.
-/

set_option Elab.async false

namespace MTT.RMT

open Polynomial PIS Search Temper Parity Text GF2

/-- The factor of degree 521. -/
abbrev F521 : ℕ :=
  0x317a5067b56eeede6ebfaa27b0eb5295c720d794dabb00dbc6cdda7576ae2f52b2f31a16120bdf238e2177839f78abbdb65ca91c0fdfb229c7209a9b25e091c4d27

theorem primitive521 {n : ℕ} (hn : n = 521) : Primitive2 (bitPoly (n + 1) F521) n := by
  have hp : (2 ^ n - 1).Prime := hn ▸ Mexp.table_prime 521 (by decide) (by decide)
  refine primitive_of_check (s := 10)
    (mu := 0x3ec420e045dec0003ec420ecd93b43e2e9f75e42af643c4dfaee875b864fea64d4c0549193cd8f5a02811bbb7f5ebb5d5f497bafded8db7d73f8b4b8982d75e05b7)
    (by decide) (by omega) (by omega) (Q := [2 ^ n - 1]) (fun q hq hd => ?_) ?_
  · rw [List.mem_singleton]; exact (Nat.prime_dvd_prime_iff_eq hq hp).1 hd
  · subst hn; decide +kernel

/-- Evaluates a state. -/
def f9 {α : Type} (s : S 9) (k : S 9 → α) : α :=
  fw (s 0) fun a => fw (s 1) fun b => fw (s 2) fun c => fw (s 3) fun d => fw (s 4) fun e => fw (s 5) fun f =>
    fw (s 6) fun g => fw (s 7) fun h => fw (s 8) fun i => k ![a, b, c, d, e, f, g, h, i]

theorem f9_eq {α : Type} (s : S 9) (k : S 9 → α) : f9 s k = k s := by
  unfold f9
  simp only [fw_eq]
  congr 1
  funext j
  fin_cases j <;> rfl

/-- The parameters. -/
abbrev P521 : Par := ⟨8, 0x30d53385bb8d8600, 0, 0, false⟩

/-- The words after `seed(1)`. -/
abbrev s521 : S 9 := ![Wd.of 0x1, Wd.of 0x5851f42d4c957f2e, Wd.of 0x190380fc9abaac45, Wd.of 0x8c6783158e6f8324,
  Wd.of 0x9baf03f7f8c7e7b2, Wd.of 0x30925614008409f5, Wd.of 0x7b70d1a51fbf4b17, Wd.of 0xef853445b6ae1ce5, Wd.of 0x9314163a96cf2e76]

/-- A state in the large component. -/
abbrev c521 : S 9 := ev f9 (fun s => T 9 P521 s) 54 0x3ec420e045dec0 s521 0

theorem c521_eq : c521 = aeval (T 9 P521) (bitPoly 54 0x3ec420e045dec0) s521 := by
  have h := ev_spec (T := T 9 P521) (fc := f9) (fun s k => f9_eq s k) (f := fun s => T 9 P521 s) (fun _ => rfl) 54 0x3ec420e045dec0 s521 0
  rw [zero_add] at h
  exact h

theorem c521_ann : aeval (T 9 P521) (bitPoly (521 + 1) F521) c521 = 0 := by
  have h := ev_spec (T := T 9 P521) (fc := f9) (fun s k => f9_eq s k) (f := fun s => T 9 P521 s) (fun _ => rfl) (521 + 1) F521 c521 0
  rw [zero_add] at h
  rw [← h]
  decide +kernel

theorem c521_out : (out P521 c521).getLsbD 0 = true := by decide +kernel

theorem seed521 (m : ℕ → BitVec 64) (h0 : m 0 = 1) (j : Fin 9) : seedLoop 8 1 m j = (s521 j).val := by
  have e0 : seedLoop 8 1 m 0 = 0x1 := (seedLoop_low 8 1 m 0 (by omega)).trans h0
  have e1 : seedLoop 8 1 m 1 = 0x5851f42d4c957f2e := by
    rw [seedLoop_cell 8 1 m 1 (by omega) (by omega) (by omega), show 1 - 1 = 0 from rfl, e0]; decide
  have e2 : seedLoop 8 1 m 2 = 0x190380fc9abaac45 := by
    rw [seedLoop_cell 8 1 m 2 (by omega) (by omega) (by omega), show 2 - 1 = 1 from rfl, e1]; decide
  have e3 : seedLoop 8 1 m 3 = 0x8c6783158e6f8324 := by
    rw [seedLoop_cell 8 1 m 3 (by omega) (by omega) (by omega), show 3 - 1 = 2 from rfl, e2]; decide
  have e4 : seedLoop 8 1 m 4 = 0x9baf03f7f8c7e7b2 := by
    rw [seedLoop_cell 8 1 m 4 (by omega) (by omega) (by omega), show 4 - 1 = 3 from rfl, e3]; decide
  have e5 : seedLoop 8 1 m 5 = 0x30925614008409f5 := by
    rw [seedLoop_cell 8 1 m 5 (by omega) (by omega) (by omega), show 5 - 1 = 4 from rfl, e4]; decide
  have e6 : seedLoop 8 1 m 6 = 0x7b70d1a51fbf4b17 := by
    rw [seedLoop_cell 8 1 m 6 (by omega) (by omega) (by omega), show 6 - 1 = 5 from rfl, e5]; decide
  have e7 : seedLoop 8 1 m 7 = 0xef853445b6ae1ce5 := by
    rw [seedLoop_cell 8 1 m 7 (by omega) (by omega) (by omega), show 7 - 1 = 6 from rfl, e6]; decide
  have e8 : seedLoop 8 1 m 8 = 0x9314163a96cf2e76 := by
    rw [seedLoop_cell 8 1 m 8 (by omega) (by omega) (by omega), show 8 - 1 = 7 from rfl, e7]; decide
  fin_cases j
  · exact e0
  · exact e1
  · exact e2
  · exact e3
  · exact e4
  · exact e5
  · exact e6
  · exact e7
  · exact e8

theorem den521 (junkPos : ℕ) (junkA : BitVec 64) (junkS : ℕ → BitVec 64) :
    den 9 (seed 1 (setUpParam 8 0x30d53385bb8d8600 (ctor 521 1 junkPos junkA junkS))) = s521 := by
  funext j
  apply Wd.ext
  rw [← seed521 (Function.update (setUpParam 8 0x30d53385bb8d8600 (ctor 521 1 junkPos junkA junkS)).state 0 1)
    (Function.update_self ..) j]
  show seedLoop 8 1 _ ((8 + (j + 1)) % 9) = _
  rw [show (8 + ((j : ℕ) + 1)) % 9 = j by omega]

theorem coord_ne {n : ℕ} {p : Par} {s : S n} (h : (out p s).getLsbD 0 = true) : coord 64 0 (O n p) s ≠ 0 := by
  show bits (out p s) 63 ≠ 0
  unfold bits
  rw [BitVec.getMsbD_eq_getLsbD]
  simp [h]

theorem dvd521 {p : (ZMod 2)[X]} (hp : Ann p (outSeq (T 9 P521) (coord 64 0 (O 9 P521)) s521)) : bitPoly (521 + 1) F521 ∣ p := by
  refine dvd_of_out _ _ (Primitive2.irreducible (by decide) (primitive521 rfl)) c521_eq c521_ann ?_ hp
  exact coord_ne c521_out

/-- **C88 (a run).**  If the source of random numbers starts with 8 and `0x30d53385bb8d8600`, the program with exponent 521 ends, whatever the
junk and the meaning of the shifts. -/
theorem run521 {mps : MPS} {kernel : KernelFn} (hm : MinPolySeqSpec mps) (hK : KernelSpec kernel) (one : ℕ → Option (BitVec 64))
    (junk : ℕ → BitVec 64) (veq : ℕ → ℕ) {fuel : ℕ} (hfuel : 1 ≤ fuel) (junkPos : ℕ) (junkA : BitVec 64) (junkS src : ℕ → BitVec 64)
    (h0 : src 0 = 8) (h1 : src 1 = 0x30d53385bb8d8600) :
    ∃ e, rmtMain mps kernel one junk veq fuel 521 1 junkPos junkA junkS src = some e := by
  have hg : SInv 521 (setUpParam 8 0x30d53385bb8d8600 (ctor 521 1 junkPos junkA junkS)) :=
    setUp_inv (ctor_sinv (mexp := 521) 1 junkPos junkA junkS) 8 0x30d53385bb8d8600
  have hL := linGenS (mexp := 521) P521
  have hb := bitAt_eq hL (s := seed 1 (setUpParam 8 0x30d53385bb8d8600 (ctor 521 1 junkPos junkA junkS))) ⟨seed_sinv hg, rfl⟩
    (pos := 0) (by decide)
  obtain ⟨μ, hμ, -, hμa⟩ := exists_outMinpoly hL (s := seed 1 (setUpParam 8 0x30d53385bb8d8600 (ctor 521 1 junkPos junkA junkS)))
    ⟨seed_sinv hg, rfl⟩ (finrank_S _).le
  obtain ⟨p, hp⟩ := exists_seqMinpoly hμ.1 (hμa 0 (by decide))
  have hpr := primitive521 rfl
  refine rmtMain_finds hm hK (by decide) junk veq hfuel junkPos junkA junkS src (p := p) (f := bitPoly (521 + 1) F521) (h0 ▸ h1 ▸ hp)
    (Primitive2.irreducible (by decide) hpr) ?_ ?_
  · exact hpr.1
  · have h2 := hp.2.1
    rw [hb] at h2
    have h3 : den (521 / 64 + 1) (seed 1 (setUpParam 8 0x30d53385bb8d8600 (ctor 521 1 junkPos junkA junkS))) = s521 := den521 junkPos junkA junkS
    rw [h3] at h2
    exact dvd521 h2

/-- With the shifts of the C++ standard this run executes an undefined shift and prints nothing. -/
example {mps : MPS} {kernel : KernelFn} (hm : MinPolySeqSpec mps) (hK : KernelSpec kernel) (junk : ℕ → BitVec 64) (veq : ℕ → ℕ)
    (junkPos : ℕ) (junkA : BitVec 64) (junkS : ℕ → BitVec 64) :
    rmtMain mps kernel intOneShift junk veq 1 521 1 junkPos junkA junkS (fun i => if i = 0 then 8 else 0x30d53385bb8d8600)
      = some (.shift []) := by
  obtain ⟨e, he⟩ := run521 hm hK intOneShift junk veq le_rfl junkPos junkA junkS (fun i => if i = 0 then 8 else 0x30d53385bb8d8600)
    rfl rfl
  rw [he, rmtMain_undefined hm hK (by decide) junk veq 1 le_rfl junkPos junkA junkS _ he]

/-- With shifts that are always defined it prints one good line. -/
example {mps : MPS} {kernel : KernelFn} (hm : MinPolySeqSpec mps) (hK : KernelSpec kernel) (junk : ℕ → BitVec 64) (veq : ℕ → ℕ)
    (junkPos : ℕ) (junkA : BitVec 64) (junkS : ℕ → BitVec 64) :
    ∃ l, rmtMain mps kernel (fun r => some (1 <<< r)) junk veq 1 521 1 junkPos junkA junkS
      (fun i => if i = 0 then 8 else 0x30d53385bb8d8600) = some (.normal [l]) ∧ GoodLine 521 l := by
  obtain ⟨e, he⟩ := run521 hm hK (fun r => some (1 <<< r)) junk veq le_rfl junkPos junkA junkS
    (fun i => if i = 0 then 8 else 0x30d53385bb8d8600) rfl rfl
  rcases rmtMain_correct hm hK (by decide) junk veq 1 1 junkPos junkA junkS _ he with ⟨L, h1, h2, h3⟩ | ⟨L, -, -, ⟨r, -, h⟩, -⟩
  · obtain ⟨l, rfl⟩ := List.length_eq_one_iff.1 h2
    exact ⟨l, he.trans (congrArg some h1), h3 l (by simp)⟩
  · cases h

/-- Functions with the assumed behaviour of NTL exist. -/
example : (∃ mps, MinPolySeqSpec mps) ∧ ∃ kernel, KernelSpec kernel := ⟨minPolySeqSpec_sat, exists_kernel⟩

end MTT.RMT
